/-!
# The two-level hash table `level_hash` (include/libpmemobj++/experimental/level_hash.hpp)

One thread.  `f` and `s` are the two hash functions (level_hash.hpp:92-114), any functions of the key.  A slot is `none` if its token
is 0 and the pair it points to if the token is 1; the four slots of bucket `b` have the numbers `4*b` to `4*b+3`.  The locks of slots
are always free for the one thread.  `level_expand_time` is set to 0 (248) and never changed, so step 3 of `generic_insert`
(412-423) with `b2t_movement` (753-804) is never executed and left out.  Allocation does not fail, and what is printed is left out.
-/

namespace PMap.LevelHash

/-- No code of its own: what a call does. -/
inductive Out (α : Type)
  | done (a : α)
  /-- `exit(1)`, level_hash.hpp:634-638 -/
  | exited
  /-- waits at the barrier for other threads, level_hash.hpp:155-160 -/
  | waits
  /-- undefined behaviour: division by zero (123, 129), or a slot without an entry is followed (723) -/
  | ub
  /-- the loop of `generic_insert` has not ended -/
  | fuel
deriving DecidableEq

/-- No code of its own: one thing after the other. -/
def Out.bind {α β : Type} : Out α → (α → Out β) → Out β
  | .done a, f => f a
  | .exited, _ => .exited
  | .waits, _ => .waits
  | .ub, _ => .ub
  | .fuel, _ => .fuel

instance : Monad Out where
  pure := .done
  bind := Out.bind

variable {K V : Type} [DecidableEq K]

/-- level_hash.hpp:206-218 `bucket` and `level`. -/
structure Level (K V : Type) where
  cap : Nat
  slot : Nat → Option (K × V)

/-- level_hash.hpp:592-594 (and 270-272): a level whose tokens are 0. -/
def Level.new (cap : Nat) : Level K V := ⟨cap, fun _ => none⟩

/-- level_hash.hpp:695-714 `insert_empty_slot`, and 497, 510, 640, 740 where a token becomes 0. -/
def Level.set (l : Level K V) (i : Nat) (x : Option (K × V)) : Level K V := { l with slot := fun j => if j = i then x else l.slot j }

/-- level_hash.hpp:116-130 `first_index` and `second_index`. -/
def idx (f s : K → Nat) (k : K) (cap : Nat) : Out (Nat × Nat) :=
  if cap / 2 = 0 then .ub else .done (f k % (cap / 2), s k % (cap / 2) + cap / 2)

/-- level_hash.hpp:378-394 and 617-632: the first free slot of buckets `a` and `b`, `n` pairs of slots left. -/
def Level.free (l : Level K V) (a b : Nat) : Nat → Option Nat
  | 0 => none
  | n + 1 =>
    let j := 3 - n
    match l.slot (4 * a + j) with
    | none => some (4 * a + j)
    | some _ => match l.slot (4 * b + j) with
      | none => some (4 * b + j)
      | some _ => l.free a b n

/-- level_hash.hpp:732-747: the first free slot of bucket `b`, `n` slots left. -/
def Level.freeIn (l : Level K V) (b : Nat) : Nat → Option Nat
  | 0 => none
  | n + 1 =>
    let j := 3 - n
    match l.slot (4 * b + j) with
    | none => some (4 * b + j)
    | some _ => l.freeIn b n

/-- level_hash.hpp:716-751 `try_movement`, `n` slots left: one entry of bucket `b` is moved to its other bucket, and `x` put in its
place. -/
def Level.tryMove (f s : K → Nat) (l : Level K V) (b : Nat) (x : K × V) : Nat → Out (Option (Level K V))
  | 0 => .done none
  | n + 1 =>
    let i := 4 * b + (3 - n)
    match l.slot i with
    | none => .ub
    | some y => do
      let (fi, si) ← idx f s y.1 l.cap
      match l.freeIn (if fi = b then si else fi) 4 with
      | some p => return some ((l.set p (some y)).set i (some x))
      | none => l.tryMove f s b x n

/-- level_hash.hpp:818-828: `levels`, `need_resizing` and `num_threads`; `level_size` is the logarithm of `top.cap`. -/
structure Table (K V : Type) where
  top : Level K V
  bot : Level K V
  resize : Bool
  threads : Nat

/-- level_hash.hpp:240-283: the constructor. -/
def Table.new (power threads : Nat) : Table K V := ⟨Level.new (2 ^ power), Level.new (2 ^ (power - 1)), false, threads⟩

/-- level_hash.hpp:605-644: the loop of `expand` over the slots before `n` of the bottom level; result: what is left of it, and the
new level. -/
def moveSlots (f s : K → Nat) : Nat → Level K V → Level K V → Out (Level K V × Level K V)
  | 0, bot, new => .done (bot, new)
  | i + 1, bot, new => do
    let (bot, new) ← moveSlots f s i bot new
    match bot.slot i with
    | none => return (bot, new)
    | some x =>
      let (a, b) ← idx f s x.1 new.cap
      match new.free a b 4 with
      | some p => return (bot.set i none, new.set p (some x))
      | none => .exited

/-- level_hash.hpp:576-661 `expand`. -/
def Table.expand (f s : K → Nat) (t : Table K V) : Out (Table K V) := do
  let (_, new) ← moveSlots f s (4 * t.bot.cap) t.bot (Level.new (2 * t.top.cap))
  return { t with top := new, bot := t.top, resize := false }

/-- level_hash.hpp:150-170 `barrier::cross` by the only thread that comes, where it is called (364-365, 435-436, 477-478). -/
def Table.cross (f s : K → Nat) (t : Table K V) : Out (Table K V) :=
  if t.resize then if 1 < t.threads then .waits else t.expand f s else .done t

/-- level_hash.hpp:372-409: steps 1 and 2 of `generic_insert`. -/
def Table.pass (f s : K → Nat) (t : Table K V) (x : K × V) : Out (Option (Table K V)) := do
  let (a, b) ← idx f s x.1 t.top.cap
  match t.top.free a b 4 with
  | some p => return some { t with top := t.top.set p (some x) }
  | none =>
    let (a', b') ← idx f s x.1 t.bot.cap
    match t.bot.free a' b' 4 with
    | some p => return some { t with bot := t.bot.set p (some x) }
    | none =>
      match ← t.top.tryMove f s a x 4 with
      | some l => return some { t with top := l }
      | none =>
        match ← t.top.tryMove f s b x 4 with
        | some l => return some { t with top := l }
        | none =>
          match ← t.bot.tryMove f s a' x 4 with
          | some l => return some { t with bot := l }
          | none =>
            match ← t.bot.tryMove f s b' x 4 with
            | some l => return some { t with bot := l }
            | none => return none

/-- level_hash.hpp:343-428 `generic_insert`; the loop is entered `n` times at most. -/
def Table.insert (f s : K → Nat) (x : K × V) : Nat → Table K V → Out (Table K V)
  | 0, _ => .fuel
  | n + 1, t => do
    let t ← t.cross f s
    match ← t.pass f s x with
    | some t => return t
    | none => insert f s x n { t with resize := true }

/-- level_hash.hpp:447-455 and 457-465: the slot of bucket `b` with key `k`, `n` slots left. -/
def Level.find (l : Level K V) (k : K) (b : Nat) : Nat → Option Nat
  | 0 => none
  | n + 1 =>
    let i := 4 * b + (3 - n)
    match l.slot i with
    | none => l.find k b n
    | some y => if y.1 = k then some i else l.find k b n

/-- level_hash.hpp:444-465, 488-515, 540-569: the slot of a level with key `k`. -/
def Level.locate (f s : K → Nat) (l : Level K V) (k : K) : Out (Option Nat) := do
  let (a, b) ← idx f s k l.cap
  match l.find k a 4 with
  | some i => return some i
  | none => return l.find k b 4

/-- level_hash.hpp:432-470 `query`: what is in the slot found, and the table (which may have been expanded). -/
def Table.query (f s : K → Nat) (k : K) (t : Table K V) : Out (Option (K × V) × Table K V) := do
  let t ← t.cross f s
  match ← t.top.locate f s k with
  | some i => return (t.top.slot i, t)
  | none =>
    match ← t.bot.locate f s k with
    | some i => return (t.bot.slot i, t)
    | none => return (none, t)

/-- level_hash.hpp:474-520 `erase`: whether the key was found. -/
def Table.erase (f s : K → Nat) (k : K) (t : Table K V) : Out (Bool × Table K V) := do
  let t ← t.cross f s
  match ← t.top.locate f s k with
  | some i => return (true, { t with top := t.top.set i none })
  | none =>
    match ← t.bot.locate f s k with
    | some i => return (true, { t with bot := t.bot.set i none })
    | none => return (false, t)

/-- level_hash.hpp:522-574 `generic_update`: whether the key was found.  The entry that was there is not freed. -/
def Table.update (f s : K → Nat) (x : K × V) (t : Table K V) : Out (Bool × Table K V) := do
  match ← t.top.locate f s x.1 with
  | some i => return (true, { t with top := t.top.set i (some x) })
  | none =>
    match ← t.bot.locate f s x.1 with
    | some i => return (true, { t with bot := t.bot.set i (some x) })
    | none => return (false, t)

end PMap.LevelHash
