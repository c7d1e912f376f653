import Verif.Pmem.Mem

/-!
# libpmemobj's concurrent_hash_map: its functions, and pmemMap.hpp on top of it

`t` is the thread that runs the program.
-/

namespace PMap.Pmem

open HP

/-- `bucket_accessor::acquire` (chm:1773-1794) and `rehash_bucket` (1898-1980), which call each other: bucket `h` is rehashed if need
be and locked; the result is where it is and whether it is locked as a writer.  `1u << Log2(h)` at 1927 is undefined from 2^32 on. -/
def acquire (E : HEnv) (t : Nat) : Nat → Nat → Bool → HP (Loc × Bool)
  | 0, _, _ => .spin
  | d + 1, h, w => do
    let b ← getBucket h
    let r ← isRehashed b
    let go ← if r = false then tryLock t b else pure false
    if go then
      let r' ← isRehashed b
      if r' = false then
        if h ≤ 1 then atom fun _ => .abort
        else
          let x ← rdHead t b
          if x ≠ 0 then
            assertRehashed b false
            setRehashed b
            persistFlag b
          else if 32 ≤ Nat.log2 h then atom fun _ => .ub
          else
            let m := 2 ^ Nat.log2 h - 1
            if h ≤ h &&& m then atom fun _ => .abort
            else
              let (o, ow) ← acquire E t d (h &&& m) true
              let m' := 2 * m + 1
              if m' &&& (m' + 1) ≠ 0 ∨ h &&& m' ≠ h then atom fun _ => .abort
              else
                moveTx E t b o m' h
                setRehashed b
                persistFlag b
                unlock t o ow
      assertRehashed b true
      pure (b, true)
    else
      lock t b w
      assertRehashed b true
      pure (b, w)

/-- The loop that looks for the next mask (chm:1228-1229), from the bit `x`. -/
def nextBit (h : Nat) : Nat → Nat → Nat
  | 0, x => x
  | f + 1, x => if h &&& x = 0 then nextBit h f (2 * x) else x

/-- `check_mask_race` (chm:1199-1213) with `check_rehashing_collision` (1218-1242): whether to try again, and the mask, which is a
reference parameter. -/
def checkMaskRace (h m : Nat) : HP (Bool × Nat) := do
  let m' ← rdMask
  if m ≠ m' then
    if h &&& m ≠ h &&& m' then
      let x := 2 * nextBit h 64 (m + 1) - 1
      if x &&& (x + 1) ≠ 0 ∨ m' < x then atom fun _ => .abort
      else
        let b ← getBucket (h &&& x)
        let r ← isRehashed b
        pure (r, m')
    else pure (false, m')
  else pure (false, m)

/-- `try_acquire_item` (chm:3030-3050): so many tries. -/
def tryAcquireItem (t n : Nat) : Nat → HP Bool
  | 0 => pure false
  | f + 1 => do
    if ← tryItem t n then pure true else tryAcquireItem t n f

/-- The number of tries: once before the loop, and in the loop until the pause of `atomic_backoff` has grown from 2 to 16
(atomic_backoff.hpp:95-99, 120-131).  -/
def itemTries : Nat := 5

/-- The loop of `internal_find` with an accessor (chm:3075-3105, pmemMap.hpp:46-51): the node, which is then locked, if there is one. -/
def findLoop (E : HEnv) (t : Nat) (key : Word) : Nat → Nat → HP (Option Nat)
  | 0, _ => .spin
  | f + 1, m => do
    let h := E.hash key
    let (b, w) ← acquire E t 64 (h &&& m) false
    match ← search t b key with
    | none =>
      let (again, m') ← checkMaskRace h m
      unlock t b w
      if again then findLoop E t key f m' else pure none
    | some (_, n) =>
      if ← tryAcquireItem t n itemTries then
        unlock t b w
        pure (some n)
      else
        unlock t b w
        let m' ← rdMask
        findLoop E t key f m'

/-- `internal_find` (chm:3052-3113). -/
def find (E : HEnv) (t : Nat) (key : Word) (f : Nat) : HP (Option Nat) := do
  let m ← rdMask
  if m &&& (m + 1) ≠ 0 then atom fun _ => .abort else findLoop E t key f m

/-- The loop over the segments of the first block in `enable_segment` (chm:1158-1169). -/
def enableAll (E : HEnv) : List Nat → HP Unit
  | [] => pure ()
  | k :: ks => do
    let v ← isValid k
    if v = false then enable E k
    enableAll E ks

/-- `enable_segment` (chm:1134-1176); `is_initial` is false where it is called from `check_growth`. -/
def enableSegment (E : HEnv) (k : Nat) : HP Unit := do
  if k = 0 then atom fun _ => .abort
  else if 8 ≤ k then
    let v ← isValid k
    if v = false then enable E k
    wrMask (2 * 2 ^ k - 1)
  else if k ≠ 1 then atom fun _ => .abort
  else
    enableAll E [1, 2, 3, 4, 5, 6, 7]
    wrMask (2 ^ 8 - 1)

/-- `check_growth` (chm:1300-1329). -/
def checkGrowth (E : HEnv) (t m : Nat) (sz : Int) : HP Unit := do
  if (m : Int) ≤ sz then
    let k := Nat.log2 (m + 1)
    let v ← isValid (k - 1)
    if v = false then atom fun _ => .abort
    else if ← trySeg t then
      let m' ← rdMask
      if m' = m then enableSegment E k
      unlockSeg t
    else pure ()
  else pure ()

/-- The loop of `internal_insert` without an accessor (chm:3143-3177, pmemMap.hpp:34-37): whether the node is new, the mask and the size
for `check_growth`. -/
def insertLoop (E : HEnv) (t : Nat) (key val : Word) : Nat → Nat → HP (Bool × Nat × Int)
  | 0, _ => .spin
  | f + 1, m => do
    let h := E.hash key
    let (b, w) ← acquire E t 64 (h &&& m) true
    match ← search t b key with
    | none =>
      let (again, m') ← checkMaskRace h m
      if again then
        unlock t b w
        insertLoop E t key val f m'
      else
        insertTx E t b key val
        let sz ← incSize
        unlock t b w
        pure (true, m', sz)
    | some _ =>
      unlock t b w
      pure (false, m, 0)

/-- `internal_insert` (chm:3115-3187). -/
def insert (E : HEnv) (t : Nat) (key val : Word) (f : Nat) : HP Bool := do
  let m ← rdMask
  if m &&& (m + 1) ≠ 0 then atom fun _ => .abort
  else
    let (r, m', sz) ← insertLoop E t key val f m
    checkGrowth E t m' sz
    pure r

/-- The loop of `internal_erase` (chm:3206-3272).  The lock is taken as a writer, so the branch at 3231-3238 is left out. -/
def eraseLoop (E : HEnv) (t : Nat) (key : Word) : Nat → Nat → HP Bool
  | 0, _ => .spin
  | f + 1, m => do
    let h := E.hash key
    let (b, w) ← acquire E t 64 (h &&& m) true
    match ← search t b key with
    | none =>
      let (again, m') ← checkMaskRace h m
      unlock t b w
      if again then eraseLoop E t key f m' else pure false
    | some (pred, n) =>
      if ← tryAcquireItem t n itemTries then
        unlockItem t n
        eraseTx t b pred n
        decSize
        unlock t b w
        pure true
      else
        unlock t b w
        let m' ← rdMask
        eraseLoop E t key f m'

/-- `internal_erase` (chm:3189-3275). -/
def erase (E : HEnv) (t : Nat) (key : Word) (f : Nat) : HP Bool := do
  let m ← rdMask
  eraseLoop E t key f m

/-! ### pmemMap.hpp -/

/-- The calls of pmemMap.hpp that the tests make (34-83), apart from `count`.  `increment` calls `insert` and returns at once
(pmemMap.hpp:67-68). -/
inductive Cmd where
  | insert (el : Word)
  | erase (el : Word)
  | contains (el : Word)
  | get (el : Word)
  | increment (el : Word)
  deriving DecidableEq

/-- What a call returns, as a number: 1 for `true`.  No code of its own. -/
abbrev Ans := Word

/-- A Boolean result.  No code of its own. -/
def ofBool (b : Bool) : Ans := if b then 1#64 else 0#64

/-- `insert`, `erase`, `contains`, `get` and `increment` of pmemMap.hpp:34-69.  The accessor of `contains` and `get` is destroyed at their
end, which unlocks the node. -/
def Cmd.prog (E : HEnv) (t f : Nat) : Cmd → HP Ans
  | .insert el => do
    let r ← Pmem.insert E t el el f
    pure (ofBool r)
  | .erase el => do
    let r ← Pmem.erase E t el f
    pure (ofBool r)
  | .contains el => do
    match ← find E t el f with
    | none => pure (ofBool false)
    | some n =>
      unlockItem t n
      pure (ofBool true)
  | .get el => do
    match ← find E t el f with
    | none => pure 0#64
    | some n =>
      let v ← rdItem t n
      unlockItem t n
      pure v
  | .increment el => do
    let r ← Pmem.insert E t el el f
    pure (ofBool r)

/-! ### Creation, power failures and reopening -/

/-- A new table (`hash_map_base()`, chm:1023-1056, and `runtime_initialize`, 2184-2219): two buckets, which count as rehashed. -/
def HSt.new : HSt where
  heap := fun _ => none
  allocs := 0
  blk := fun b => if b = 0 then some (0, 0) else none
  len := fun a => if a = 0 then 2 else 0
  list := fun _ => 0
  fl := fun c => c == (0, 0) || c == (0, 1)
  dfl := fun c => c == (0, 0) || c == (0, 1)
  mask := 1
  size := 0
  base := 0
  diff := 0
  wr := fun _ => none
  rd := fun _ => []
  nl := fun _ => none
  sm := none

/-- A power failure: what was stored in flags and not made durable may be there or not, as `keep` says; the locks are free when the pool
is opened again (libpmemobj's mutexes are); `my_mask` and `my_size` are computed anew.  No code of its own. -/
def HSt.crash (s : HSt) (keep : Loc → Bool) : HSt :=
  { s with fl := fun c => s.dfl c || (s.fl c && keep c), dfl := fun c => s.dfl c || (s.fl c && keep c), mask := 0, size := 0,
           wr := fun _ => none, rd := fun _ => [], nl := fun _ => none, sm := none }

/-- The loop of `calculate_mask` (chm:1098-1101) from segment `k`.  Segment 32 is read outside `my_table`. -/
def calcMask (s : HSt) : Nat → Nat → Nat → Out Nat
  | 0, _, _ => .ub
  | f + 1, k, m =>
    if 32 ≤ k then .ub
    else if segValid s k then calcMask s f (k + 1) (m + segSize k) else .ok m s

/-- The number of nodes in a list (`std::distance` of the iterators, chm:1487-1497, 1555-1582).  No code of its own. -/
def countFrom (s : HSt) : Nat → Nat → Option Nat
  | 0, _ => none
  | f + 1, n => if n = 0 then some 0 else match s.heap n with
    | none => none
    | some x => (countFrom s f x.next).map (· + 1)

/-- The nodes of the buckets from `k` on, `f` of them (chm:1428-1440, 1555-1582). -/
def countAll (s : HSt) : Nat → Nat → Option Nat
  | 0, _ => some 0
  | f + 1, k => match locate s k with
    | .ok b _ => match countFrom s (s.allocs + 1) (s.list b) with
      | none => none
      | some x => (countAll s f (k + 1)).map (x + ·)
    | _ => none

/-- `runtime_initialize` (chm:2184-2219) on a table that was created before, with `calculate_mask` (1080-1104) and `tls_restore`
(990-1012); pmemMap.hpp:126-127 calls it. -/
def reopen (s : HSt) : Out Unit :=
  match calcMask s 33 1 1 with
  | .ok m _ =>
    if 0 ≤ s.diff ∨ 0 ≤ s.diff + s.base then
      let s1 : HSt := { s with mask := m, base := s.base + s.diff, diff := 0, size := s.base + s.diff }
      match countAll s1 (m + 1) 0 with
      | none => .ub
      | some c => if s1.size = c then .ok () s1 else .abort
    else .abort
  | .wait => .wait
  | .oom => .oom
  | .ub => .ub
  | .abort => .abort

end PMap.Pmem
