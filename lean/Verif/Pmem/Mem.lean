import Verif.Word

/-!
# libpmemobj's concurrent_hash_map: memory, programs and accesses

The table behind `containers/pmemMap.hpp`.  "chm" is `include/libpmemobj++/container/concurrent_hash_map.hpp`.

Every access is one atomic action.  The nodes of a bucket and the node pointers in them are guarded by the bucket's lock, and what is in a
node by the node's lock or the bucket's; an access without the lock is undefined behaviour here (a data race).  Since there are none
(C66), walking a list may be one action.  A libpmemobj transaction is one action: it happens as a whole or, if the power fails, not at all.
-/

namespace PMap.Pmem

/-- A node (`hash_map_node`, chm:299-361) without its mutex. -/
structure Node where
  next : Nat
  key : Word
  val : Word

/-- Where a bucket is: an array of buckets, named by the block for which it was allocated, and an index.  No code of its own. -/
abbrev Loc := Nat × Nat

/-- The table (members at chm:938-966) and the heap.  `heap` maps the address of a live node to its contents, `allocs` counts the nodes
allocated so far.  `blk` is `my_table`: the array and the index in it to which an entry points; `len` is the length of an array.  `list`
and `fl` are `node_list` and `rehashed` of a bucket (chm:852-880), `dfl` the value of `rehashed` that is durable.  `mask` and `size` are
`my_mask` and `my_size`, which are volatile; `base` is `on_init_size`, `diff` the sum of `size_diff` over all threads (simplified: the
threads' own counters are not kept apart).  `wr` and `rd` say who holds a bucket's mutex as a writer and as readers, `nl` who holds a
node's mutex (always as a writer), `sm` who holds `my_segment_enable_mutex`. -/
structure HSt where
  heap : Nat → Option Node
  allocs : Nat
  blk : Nat → Option Loc
  len : Nat → Nat
  list : Loc → Nat
  fl : Loc → Bool
  dfl : Loc → Bool
  mask : Nat
  size : Int
  base : Int
  diff : Int
  wr : Loc → Option Nat
  rd : Loc → List Nat
  nl : Nat → Option Nat
  sm : Option Nat

/-- What the code does not fix: the hash function (`std::hash`, chm:77-84), the address the allocator offers for the `n`-th node, and the
largest number of buckets for which there is room in the pool (pmemMap.hpp:93-95 creates it with a fixed size).  No code of its own. -/
structure HEnv where
  hash : Word → Nat
  pick : Nat → Nat
  pool : Nat

/-- What an access leads to: a result, the thread has to wait for a lock, the allocator throws, undefined behaviour, or a failed
assertion.  No code of its own. -/
inductive Out (α : Type) where
  | ok (a : α) (s : HSt)
  | wait
  | oom
  | ub
  | abort

/-- Programs: a sequence of atomic accesses.  `spin` is a loop that has not ended within the number of rounds the model gives it.  No code
of its own. -/
inductive HP (α : Type) : Type 1 where
  | ret (a : α)
  | act {β : Type} (f : HSt → Out β) (k : β → HP α)
  | spin

namespace HP

/-- Sequencing.  No code of its own. -/
def bind {α β : Type} : HP α → (α → HP β) → HP β
  | .ret a, g => g a
  | .act f k, g => .act f fun b => (k b).bind g
  | .spin, _ => .spin

instance : Monad HP where
  pure := .ret
  bind := .bind

/-- A single access.  No code of its own. -/
def atom {β : Type} (f : HSt → Out β) : HP β := .act f .ret

end HP

open HP

/-! ### Segments and blocks -/

/-- `first_block_in_segment` (chm:393-401). -/
def firstBlock (seg : Nat) : Nat := if seg < 27 then seg else 27 + 2 ^ (seg - 27) - 1

/-- `blocks_in_segment` (chm:403-410). -/
def blocksIn (seg : Nat) : Nat := if seg < 27 then 1 else 2 ^ (seg - 27)

/-- `block_size` (chm:412-418). -/
def blockSize (b : Nat) : Nat := if b < 27 then 2 ^ (if b = 0 then 1 else b) else 2 ^ 27

/-- `segment_base` (chm:447-452): `(1 << k) & ~1`. -/
def segBase (k : Nat) : Nat := if k = 0 then 0 else 2 ^ k

/-- `size` of a segment (chm:687-693). -/
def segSize (k : Nat) : Nat := 2 ^ (if k = 0 then 1 else k)

/-- `is_valid` (chm:700-711): all blocks of the segment are there. -/
def segValid (s : HSt) (k : Nat) : Bool := (List.range (blocksIn k)).all fun j => (s.blk (firstBlock k + j)).isSome

/-- `get_bucket` (chm:1182-1194) with `segment_index_of` (440-445) and `operator[]` of a segment (545-558).  An assertion fails if there
is no such segment (506, 1191) or the index is beyond it (548). -/
def locate (s : HSt) (h : Nat) : Out Loc :=
  let k := Nat.log2 (h ||| 1)
  if 32 ≤ k then .abort
  else if segValid s k = false then .abort
  else
    let i := h - segBase k
    if segSize k ≤ i then .abort
    else
      let b := firstBlock k
      match s.blk (b + i / blockSize b) with
      | none => .ub
      | some (a, o) => if o + i % blockSize b < s.len a then .ok (a, o + i % blockSize b) s else .ub

/-- `get_bucket`. -/
def getBucket (h : Nat) : HP Loc := atom fun s => locate s h

/-! ### Locks and flags -/

/-- The thread holds the bucket's lock.  No code of its own. -/
def Holds (t : Nat) (s : HSt) (b : Loc) : Prop := s.wr b = some t ∨ t ∈ s.rd b

instance (t : Nat) (s : HSt) (b : Loc) : Decidable (Holds t s b) := by unfold Holds; infer_instance

/-- Nobody holds the bucket's lock.  No code of its own. -/
def Free (s : HSt) (b : Loc) : Prop := s.wr b = none ∧ s.rd b = []

instance (s : HSt) (b : Loc) : Decidable (Free s b) := by unfold Free; infer_instance

/-- The memory when `t` holds a bucket's lock as a writer.  No code of its own. -/
def HSt.lockW (s : HSt) (t : Nat) (b : Loc) : HSt := { s with wr := fun c => if c = b then some t else s.wr c }

/-- The memory when `t` too holds a bucket's lock as a reader.  No code of its own. -/
def HSt.lockR (s : HSt) (t : Nat) (b : Loc) : HSt := { s with rd := fun c => if c = b then t :: s.rd c else s.rd c }

/-- `mutex.try_lock()` of a bucket (chm:138-152, from 1779-1781). -/
def tryLock (t : Nat) (b : Loc) : HP Bool := atom fun s =>
  if Free s b then .ok true (s.lockW t b) else .ok false s

/-- `mutex.lock()` and `lock_shared()` of a bucket (chm:113-125, from 1790). -/
def lock (t : Nat) (b : Loc) (w : Bool) : HP Unit := atom fun s =>
  if w then if Free s b then .ok () (s.lockW t b) else .wait
  else if s.wr b = none then .ok () (s.lockR t b) else .wait

/-- `unlock()` and `unlock_shared()` of a bucket (chm:127-136, also from the destructor, 106-111).  Undefined if the thread does not
hold the lock. -/
def unlock (t : Nat) (b : Loc) (w : Bool) : HP Unit := atom fun s =>
  if w then if s.wr b = some t then .ok () { s with wr := fun c => if c = b then none else s.wr c } else .ub
  else if t ∈ s.rd b then .ok () { s with rd := fun c => if c = b then (s.rd c).erase t else s.rd c } else .ub

/-- `is_rehashed` (chm:886-890). -/
def isRehashed (b : Loc) : HP Bool := atom fun s => .ok (s.fl b) s

/-- An assertion that a bucket is rehashed (chm:1793) or not (1919).  -/
def assertRehashed (b : Loc) (v : Bool) : HP Unit := atom fun s => if s.fl b = v then .ok () s else .abort

/-- `set_rehashed` (chm:892-896).  The flag is atomic; no lock is needed. -/
def setRehashed (b : Loc) : HP Unit := atom fun s => .ok () { s with fl := fun c => if c = b then true else s.fl c }

/-- `pop.persist(b_new->rehashed)` (chm:1922, 1979). -/
def persistFlag (b : Loc) : HP Unit := atom fun s => .ok () { s with dfl := fun c => if c = b then s.fl c else s.dfl c }

/-- Reading `node_list` of a bucket the thread has locked (`*p_new`, chm:1918). -/
def rdHead (t : Nat) (b : Loc) : HP Nat := atom fun s => if Holds t s b then .ok (s.list b) s else .ub

/-! ### Nodes -/

/-- The address of a node pointer: `node_list` of a bucket or `next` of a node.  No code of its own. -/
inductive Ptr where
  | head (b : Loc)
  | next (n : Nat)

/-- Reading a node pointer; `none` if it is in a node that is not live.  No code of its own. -/
def HSt.rd' (s : HSt) : Ptr → Option Nat
  | .head b => some (s.list b)
  | .next n => (s.heap n).map Node.next

/-- Writing a node pointer.  No code of its own. -/
def HSt.wr' (s : HSt) : Ptr → Nat → HSt
  | .head b, v => { s with list := fun c => if c = b then v else s.list c }
  | .next n, v => { s with heap := fun m => if m = n then (s.heap n).map fun x => { x with next := v } else s.heap m }

/-- The loop of `rehash_bucket` (chm:1939-1975) from the pointers `p_old`, `p_new`: `mask` is the full mask of the new bucket `h`.  The
branch for a bucket locked as a reader (1955-1961) is left out: with `shared_mutex`, `initial_rw_state(true)` takes the lock as a writer
(218-224).  Out of fuel means that there are more nodes in the list than were ever allocated. -/
def moveLoop (E : HEnv) (mask h : Nat) : Nat → Ptr → Ptr → HSt → Out Unit
  | 0, _, _, _ => .ub
  | f + 1, pOld, pNew, s => match s.rd' pOld with
    | none => .ub
    | some 0 => .ok () (s.wr' pNew 0)
    | some n => match s.heap n with
      | none => .ub
      | some x =>
        let c := E.hash x.key
        let bm := h &&& (mask / 2)
        let bmask := if bm = 0 then 1 else 2 ^ (Nat.log2 bm + 1) - 1
        if c &&& bmask ≠ h &&& bmask then .abort
        else if c &&& mask = h then
          let s1 := s.wr' pNew n
          match s1.rd' (.next n) with
          | none => .ub
          | some v => moveLoop E mask h f pOld (.next n) (s1.wr' pOld v)
        else moveLoop E mask h f (.next n) pNew s

/-- The transaction of `rehash_bucket` (chm:1933-1976). -/
def moveTx (E : HEnv) (t : Nat) (new old : Loc) (mask h : Nat) : HP Unit := atom fun s =>
  if s.wr new = some t ∧ s.wr old = some t then moveLoop E mask h (s.allocs + 1) (.head old) (.head new) s else .ub

/-- The loop of `search_bucket` (chm:1735-1741) and `internal_erase` (3211-3219) from node `n`: the node with the key and the one
before it (0: none), if there is one; `none` if a pointer leads to no node. -/
def walk (s : HSt) (key : Word) : Nat → Nat → Nat → Option (Option (Nat × Nat))
  | 0, _, _ => none
  | f + 1, pred, n =>
    if n = 0 then some none
    else match s.heap n with
      | none => none
      | some x => if x.key = key then some (some (pred, n)) else walk s key f n x.next

/-- `search_bucket` (chm:1725-1744) and the search in `internal_erase` (3210-3219).  The first asserts that the bucket is rehashed
(1729); the second does not, but the assertion of 1793 has just held. -/
def search (t : Nat) (b : Loc) (key : Word) : HP (Option (Nat × Nat)) := atom fun s =>
  if s.fl b = false then .abort
  else if Holds t s b then match walk s key (s.allocs + 1) 0 (s.list b) with
    | none => .ub
    | some r => .ok r s
  else .ub

/-- `try_lock()` of a node's mutex (chm:138-152, from 3040-3043).  The node must be live: here the thread holds the lock of its bucket. -/
def tryItem (t n : Nat) : HP Bool := atom fun s =>
  if (s.heap n).isNone then .ub
  else if s.nl n = none then .ok true { s with nl := fun m => if m = n then some t else s.nl m } else .ok false s

/-- `unlock()` of a node's mutex (chm:127-136, from the destructor of an accessor, 106-111). -/
def unlockItem (t n : Nat) : HP Unit := atom fun s =>
  if (s.heap n).isSome ∧ s.nl n = some t then .ok () { s with nl := fun m => if m = n then none else s.nl m } else .ub

/-- Reading the value through an accessor (chm:2096-2101, pmemMap.hpp:54-55). -/
def rdItem (t n : Nat) : HP Word := atom fun s =>
  if s.nl n = some t then match s.heap n with
    | none => .ub
    | some x => .ok x.val s
  else .ub

/-- The transaction of `insert_new_node` (chm:1248-1259, 1280-1287): a new node at the front of the list, and the thread's counter.  The
allocator throws if what it picks is not free. -/
def insertTx (E : HEnv) (t : Nat) (b : Loc) (key val : Word) : HP Unit := atom fun s =>
  if s.wr b = some t then
    let n := E.pick s.allocs
    if n ≠ 0 ∧ (s.heap n).isNone then
      .ok () { s with heap := fun m => if m = n then some ⟨s.list b, key, val⟩ else s.heap m, allocs := s.allocs + 1,
                      list := fun c => if c = b then n else s.list c, diff := s.diff + 1 }
    else .oom
  else .ub

/-- `++my_size` (chm:1290): the new size. -/
def incSize : HP Int := atom fun s => .ok (s.size + 1) { s with size := s.size + 1 }

/-- `--my_size` (chm:3271). -/
def decSize : HP Unit := atom fun s => .ok () { s with size := s.size - 1 }

/-- The transaction of `internal_erase` (chm:3264-3269): `*p = del->next` and the node is freed.  `pred` is the node whose pointer `p`
is, 0 for the bucket's. Undefined if somebody holds the node's lock. -/
def eraseTx (t : Nat) (b : Loc) (pred n : Nat) : HP Unit := atom fun s =>
  if s.wr b = some t ∧ s.nl n = none then match s.rd' (.next n) with
    | none => .ub
    | some v =>
      if pred ≠ 0 ∧ (s.heap pred).isNone then .ub
      else
        let s1 := s.wr' (if pred = 0 then .head b else .next pred) v
        .ok () { s1 with heap := fun m => if m = n then none else s1.heap m, diff := s.diff - 1 }
  else .ub

/-! ### Growth -/

/-- Loading `my_mask` (e.g. chm:3064). -/
def rdMask : HP Nat := atom fun s => .ok s.mask s

/-- Storing `my_mask` (chm:1175). -/
def wrMask (m : Nat) : HP Unit := atom fun s => .ok () { s with mask := m }

/-- `try_lock` on `my_segment_enable_mutex` (chm:1311-1312). -/
def trySeg (t : Nat) : HP Bool := atom fun s => if s.sm = none then .ok true { s with sm := some t } else .ok false s

/-- Its release (the destructor of `lock`, chm:1325). -/
def unlockSeg (t : Nat) : HP Unit := atom fun s => if s.sm = some t then .ok () { s with sm := none } else .ub

/-- `is_valid` of a segment (chm:700-711), whose number must be below 32 (506). -/
def isValid (k : Nat) : HP Bool := atom fun s => if k < 32 then .ok (segValid s k) s else .abort

/-- New arrays of buckets for some blocks (`make_persistent<bucket[]>` runs the constructor of `bucket`, chm:872-880).  No code of its
own. -/
def HSt.newBuckets (s : HSt) (p : Nat → Bool) : HSt :=
  { s with list := fun c => if p c.1 then 0 else s.list c, fl := fun c => !p c.1 && s.fl c, dfl := fun c => !p c.1 && s.dfl c }

/-- `enable` of a segment (chm:644-654) with `enable_first_block` (727-753) and `enable_big_segment` (756-771). -/
def enable (E : HEnv) (k : Nat) : HP Unit := atom fun s =>
  if k < 8 then
    if k ≠ 1 then .abort
    else if E.pool < 254 then .oom
    else
      let s1 := s.newBuckets (· == 1)
      .ok () { s1 with len := fun a => if a = 1 then 254 else s.len a,
                       blk := fun b => if 1 ≤ b ∧ b < 8 then some (1, segBase b - segBase 1) else s.blk b }
  else
    let p := fun b => decide (firstBlock k ≤ b ∧ b < firstBlock k + blocksIn k)
    if (List.range (blocksIn k)).any fun j => (s.blk (firstBlock k + j)).isSome then .abort
    else if E.pool < 2 ^ k then .oom
    else
      let s1 := s.newBuckets p
      .ok () { s1 with len := fun a => if p a then blockSize a else s.len a,
                       blk := fun b => if p b then some (b, 0) else s.blk b }

end PMap.Pmem
