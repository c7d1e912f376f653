/-!
# The hash table `clht` (include/libpmemobj++/experimental/clht.hpp)

One thread.  `h` is the hash function, any function of the key.  A bucket and the buckets behind it are the list of their slots, three
per bucket.  Slots of a new bucket are taken to be null, although the loop of its constructor starts at an uninitialised `j` (173).
Numbers of buckets and sizes are not rounded, as 64-bit numbers and the `double` at 617 are (which makes no difference below 2^32).
Left out: `status_lock`, which is ignored by the only call of `ht_status` (584, 492); helpers, of which there are none without other
threads; versions and the old tables, which nothing reads or frees.  Allocation does not fail.
-/

namespace PMap.Clht

/-- No code of its own: what a call does. -/
inductive Out (α : Type)
  | done (a : α)
  /-- waits for a lock or for `table_new`, clht.hpp:292-301, 313-314 -/
  | waits
  /-- undefined behaviour: `% 0`, or an entry that has been freed is read -/
  | ub
  /-- `ht_status` and `ht_resize_pes` still call each other -/
  | fuel
deriving DecidableEq

/-- No code of its own: one thing after the other. -/
def Out.bind {α β : Type} : Out α → (α → Out β) → Out β
  | .done a, f => f a
  | .waits, _ => .waits
  | .ub, _ => .ub
  | .fuel, _ => .fuel

instance : Monad Out where
  pure := .done
  bind := Out.bind

/-- clht.hpp:167: a slot: null, a pointer to an entry, or a pointer to an entry that has been freed. -/
inductive Slot (K V : Type)
  | null
  | entry (k : K) (v : V)
  | freed
deriving DecidableEq

/-- clht.hpp:78-80. -/
inductive Lock
  | free
  | update
  | resize
deriving DecidableEq

variable {K V : Type} [DecidableEq K]

/-- clht.hpp:164-169, 182-206: the buckets, each with those behind it, the locks of the first ones, and `num_expands`. -/
structure Table (K V : Type) where
  n : Nat
  chain : Nat → List (Slot K V)
  lock : Nat → Lock
  expands : Nat

/-- clht.hpp:208-224. -/
def Table.new (n : Nat) : Table K V := ⟨n, fun _ => [.null, .null, .null], fun _ => .free, 0⟩

/-- clht.hpp:217-221 `num_expands_threshold`, a `uint32_t`. -/
def threshold (n : Nat) : Nat := if n % 2 ^ 32 = 0 then 1 else n % 2 ^ 32

/-- No code of its own: an assignment in the buckets of number `i`. -/
def Table.set (t : Table K V) (i : Nat) (l : List (Slot K V)) : Table K V := { t with chain := fun j => if j = i then l else t.chain j }

/-- clht.hpp:345-356, 364-373, 450-462, 529-548: looks for the key, slot after slot; its place and value. -/
def find (k : K) : List (Slot K V) → Out (Option (Nat × V))
  | [] => .done none
  | .null :: l => do return (← find k l).map fun r => (r.1 + 1, r.2)
  | .freed :: _ => .ub
  | .entry k' v :: l => if k' = k then .done (some (0, v)) else do return (← find k l).map fun r => (r.1 + 1, r.2)

/-- clht.hpp:460-461 and 793-801: the first null slot gets the entry. -/
def fill (k : K) (v : V) : List (Slot K V) → Option (List (Slot K V))
  | [] => none
  | .null :: l => some (.entry k v :: l)
  | s :: l => (fill k v l).map (s :: ·)

/-- clht.hpp:464-482: an entry is stored in the buckets of number `i`, in a new bucket behind them if all are full (263-273); whether to
resize. -/
def Table.place (t : Table K V) (i : Nat) (k : K) (v : V) : Table K V × Bool :=
  match fill k v (t.chain i) with
  | some l => (t.set i l, false)
  | none => ({ t.set i (t.chain i ++ [.entry k v, .null, .null]) with expands := t.expands + 1 }, decide (threshold t.n ≤ t.expands + 1))

/-- clht.hpp:785-817 `put_seq`: an entry is stored in the new table.  The bucket made for it if the others are full is not linked to
them (806-811), so that all that is left of it is the number of expansions. -/
def Table.putSeq (h : K → Nat) (t : Table K V) (k : K) (v : V) : Out (Table K V) :=
  if t.n = 0 then .ub
  else match fill k v (t.chain (h k % t.n)) with
    | some l => .done (t.set (h k % t.n) l)
    | none => .done { t with expands := t.expands + 1 }

/-- clht.hpp:766-780: the loop of `bucket_cpy`. -/
def copySlots (h : K → Nat) : List (Slot K V) → Table K V → Out (Table K V)
  | [], new => .done new
  | .null :: l, new => copySlots h l new
  | .freed :: _, _ => .ub
  | .entry k v :: l, new => do copySlots h l (← new.putSeq h k v)

/-- clht.hpp:708-719 with 760-764 and 309-320: the first `i` buckets are copied; `false` if one has been locked by another resizing, where
the loop ends. -/
def copy (h : K → Nat) (old : Table K V) : Nat → Table K V → Out (Bool × Table K V)
  | 0, new => .done (true, new)
  | i + 1, new => do
    let (go, new) ← copy h old i new
    if go then
      match old.lock i with
      | .free => return (true, ← copySlots h (old.chain i) new)
      | .update => .waits
      | .resize => return (false, new)
    else return (false, new)

/-- clht.hpp:590-615: the number of slots that are not null. -/
def Table.size (t : Table K V) : Nat := ((List.range t.n).map fun i => (t.chain i).countP fun s => match s with | .null => false | _ => true).sum

/-- clht.hpp:652-666. -/
def pow2roundup (x : Nat) : Nat :=
  if x = 0 then 1
  else
    let x := x - 1
    let x := x ||| x >>> 1
    let x := x ||| x >>> 2
    let x := x ||| x >>> 4
    let x := x ||| x >>> 8
    let x := x ||| x >>> 16
    let x := x ||| x >>> 32
    x + 1

/-- clht.hpp:617, 626-641, 681-692: the number of buckets of the new table. -/
def Table.newSize (t : Table K V) : Nat :=
  if 0 < t.size ∧ 100 * t.size < 5 * (t.n * 3) then t.n / 8
  else
    let by' := pow2roundup (100 * t.size / (40 * (t.n * 3)))
    (if by' = 1 then 2 else by') * t.n

/-- clht.hpp:893-900: the table in use, and whether `resize_lock` is taken. -/
structure Map (K V : Type) where
  ht : Table K V
  resizing : Bool

/-- clht.hpp:242-261. -/
def Map.new (n : Nat) : Map K V := ⟨Table.new n, false⟩

/-- clht.hpp:580-650 `ht_status(true, false)` with 671-758 `ht_resize_pes`, which call each other `m` times at most. -/
def Map.status (h : K → Nat) : Nat → Map K V → Out (Map K V)
  | 0, _ => .fuel
  | m + 1, c =>
    if c.resizing then .done c
    else do
      let (_, new) ← copy h c.ht c.ht.n (Table.new c.ht.newSize)
      if threshold new.n ≤ new.expands then status h m { c with ht := new } else return { c with ht := new }

/-- clht.hpp:335-359 `get`: the place in the buckets of the key (from which `step` and `slot_idx` follow) and the value there. -/
def Map.get (h : K → Nat) (c : Map K V) (k : K) : Out (Option (Nat × V)) :=
  if c.ht.n = 0 then .ub else find k (c.ht.chain (h k % c.ht.n))

/-- clht.hpp:348-355: what `get` returns for place `p`: `step`, a `uint8_t`, and `slot_idx`. -/
def ret (p : Nat) : Nat × Nat := (p / 3 % 256, p % 3)

/-- clht.hpp:412-500 `generic_insert`: whether the entry was stored; up to `m` resizings.  The second search (452-459) finds what the first
did. -/
def Map.put (h : K → Nat) (m : Nat) (c : Map K V) (k : K) (v : V) : Out (Bool × Map K V) :=
  if c.ht.n = 0 then .ub
  else do
    match ← find k (c.ht.chain (h k % c.ht.n)) with
    | some _ => return (false, c)
    | none =>
      if c.ht.lock (h k % c.ht.n) = .free then
        let (t, r) := c.ht.place (h k % c.ht.n) k v
        if r then return (true, ← Map.status h m { c with ht := t }) else return (true, { c with ht := t })
      else .waits

/-- clht.hpp:502-552 `erase`: whether the key was found. -/
def Map.erase (h : K → Nat) (c : Map K V) (k : K) : Out (Bool × Map K V) :=
  if c.ht.n = 0 then .ub
  else do
    match ← find k (c.ht.chain (h k % c.ht.n)) with
    | none => return (false, c)
    | some (p, _) =>
      if c.ht.lock (h k % c.ht.n) = .free then
        return (true, { c with ht := c.ht.set (h k % c.ht.n) ((c.ht.chain (h k % c.ht.n)).set p .null) })
      else .waits

/-- clht.hpp:480-481: the memory after the `persist` of `put`, which writes the whole line of the bucket with the lock in it; the lock is
taken.  `unlock` (329-333, 484) does not write it back. -/
def Map.putMemory (h : K → Nat) (c : Map K V) (k : K) (v : V) : Map K V :=
  { c with
    ht :=
      { (c.ht.place (h k % c.ht.n) k v).1 with
        lock := fun i => if i = h k % c.ht.n then .update else c.ht.lock i } }

/-- clht.hpp:535-536: the memory after `erase` has freed the entry at place `p`, before the slot becomes null. -/
def Map.eraseMemory (h : K → Nat) (c : Map K V) (k : K) (p : Nat) : Map K V :=
  { c with ht := c.ht.set (h k % c.ht.n) ((c.ht.chain (h k % c.ht.n)).set p .freed) }

end PMap.Clht
