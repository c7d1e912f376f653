import Verif.Clevel.Mem

/-!
# The functions of the clevel hash table

`include/libpmemobj++/experimental/clevel_hash.hpp`, called "clevel" below, function by function.  Every loop that the code does
not bound by a constant takes a number of rounds and is `spin` when they are used up.
-/

namespace PMap.Clevel

open CP

/-- `FindCode` (clevel:101-108). -/
inductive FCode where
  | absent
  | foundLeft
  | foundRight
  | vacLeft
  | vacRight
  deriving DecidableEq

/-- The two codes of a key that was found (clevel:1054). -/
def FCode.isFound : FCode → Bool
  | .foundLeft => true
  | .foundRight => true
  | _ => false

/-- The two codes of a free slot (clevel:1059). -/
def FCode.isVac : FCode → Bool
  | .vacLeft => true
  | .vacRight => true
  | _ => false

/-- One slot of `search` (clevel:573-581, 587-595).  The code names the slot three times, and each time is a load. -/
def searchSlot (l b j : Nat) (p : BitVec 16) (key : Word) : CP Bool := do
  let w1 ← rdSlot l b j
  if tagOf w1 = p then
    let w2 ← rdSlot l b j
    if getOffset w2 ≠ 0#64 then
      let w3 ← rdSlot l b j
      let k ← rdKey w3
      pure (decide (k = key))
    else pure false
  else pure false

/-- The loop over the slots of a bucket in `search` (clevel:571-582, 585-596): the slot with the key. -/
def searchBucket (l b : Nat) (p : BitVec 16) (key : Word) : List Nat → CP (Option Nat)
  | [] => pure none
  | j :: js => do
    if ← searchSlot l b j p key then pure (some j) else searchBucket l b p key js

/-- The loop over the levels in `search` (clevel:563-600), from level number `i`, at `li`: whether the key was found.
Simplified: the position reported with it (`ret(i, f_idx, j)`) is left out, nobody uses it. -/
def searchLevels (E : CEnv) (m : Nat) (key : Word) : Nat → Nat → CP Bool
  | 0, _ => .spin
  | f + 1, li => do
    let cap ← rdCap li
    let fi := firstIndex (E.hash key) cap
    let p := getPartial (E.hash key)
    match ← searchBucket li fi p key (List.range assocNum) with
    | some _ => pure true
    | none =>
      match ← searchBucket li (secondIndex p fi cap) p key (List.range assocNum) with
      | some _ => pure true
      | none =>
        let next ← rdUp li
        let M ← deMeta m
        if li ≠ M.first then searchLevels E m key f next else pure false

/-- `search` (clevel:548-606).  The first number bounds the rounds of the outer loop, the second the levels. -/
def search (E : CEnv) (key : Word) (lf : Nat) : Nat → CP Bool
  | 0 => .spin
  | f + 1 => do
    let m ← rdMeta
    let M ← deMeta m
    if ← searchLevels E m key lf M.last then pure true
    else
      let m' ← rdMeta
      if m = m' then pure false else search E key lf f

/-- A slot's address: level, bucket, slot (`&(f_b.slots[j].p)`, e.g. clevel:807).  No code of its own. -/
structure Pos where
  l : Nat
  b : Nat
  j : Nat
  deriving DecidableEq

/-- `del_dup` (clevel:611-646).  Line 632 compares the key of the first entry with itself, so after reading it the test holds. -/
def delDup (p1 p2 : Pos) (e1 e2 : Word) : CP Unit := do
  let w1 ← rdSlot p1.l p1.b p1.j
  if e1 ≠ w1 then pure ()
  else
    let w2 ← rdSlot p2.l p2.b p2.j
    if e2 ≠ w2 then pure ()
    else if tagOf e1 = tagOf e2 then
      if getOffset e1 = getOffset e2 then
        let _ ← casSlot p2.l p2.b p2.j e2 0#64
        pure ()
      else
        let k1 ← rdKey e1
        let k2 ← rdKey e1
        if k1 = k2 then
          if ← casSlot p2.l p2.b p2.j e2 0#64 then freeEntry e2 else pure ()
        else pure ()
    else pure ()

/-- The loop that lists the levels, bottom first (clevel:667-676, 768-777): `acc` is `levels[0..n_levels)`. -/
def collect (m : Nat) : Nat → Nat → List Nat → CP (List Nat)
  | 0, _, _ => .spin
  | f + 1, li, acc =>
    if acc.length < maxLevel then do
      let next ← rdUp li
      let M ← deMeta m
      if li ≠ M.first then collect m f next (acc ++ [li]) else pure (acc ++ [li])
    else outOfBounds

/-- The variables `find` fills in (clevel:757-766 and its reference parameters): the result, `old_e`, `*e`, `level_num`, `idx`,
`slot_idx`, `prev_e`, `prev_i`. -/
structure Fd where
  res : FCode
  oldE : Word
  e : Option Pos
  levelNum : Nat
  idx : Nat
  slotIdx : Nat
  prevE : Word
  prevI : Nat

/-- Their values when a round begins (clevel:758-781).  `level_num` and `old_e` come from the caller (clevel:1037, 1039), `idx`,
`slot_idx`, `prev_i` are uninitialised and not read before they are assigned. -/
def Fd.init (levelNum : Nat) (oldE : Word) : Fd := ⟨.absent, oldE, none, levelNum, 0, 0, 0#64, 0⟩

/-- What one slot of `find` leads to: the next slot (with `found_empty_in_b`), returning, or `goto RETRY_FIND`.  No code of its
own. -/
inductive FStep where
  | next (f : Fd) (emp : Bool)
  | found (f : Fd)
  | retry

/-- One slot of `find` (clevel:794-873 for the first bucket, `right = false`; 879-963 for the second): level number `i`, the
level, bucket and slot, and the level list for the address of an earlier match. -/
def findSlot (ls : List Nat) (right : Bool) (i l b j : Nat) (p : BitVec 16) (key : Word) (fixDup : Bool) (f : Fd) (emp : Bool) :
    CP FStep := do
  let w ← rdSlot l b j
  if getOffset w = 0#64 then
    if !f.res.isFound && !emp then
      if right && decide (f.res = .vacLeft) && decide (f.levelNum = i) && decide (f.slotIdx ≤ j) then pure (.next f true)
      else
        pure (.next { f with res := if right then .vacRight else .vacLeft, oldE := w, e := some ⟨l, b, j⟩, levelNum := i, idx := b,
                             slotIdx := j } true)
    else pure (.next f emp)
  else
    let w2 ← rdSlot l b j
    if tagOf w2 ≠ p then pure (.next f emp)
    else
      let k ← rdKey w
      if k ≠ key then pure (.next f emp)
      else
        let code : FCode := if right then .foundRight else .foundLeft
        if !fixDup then pure (.found { f with res := code, levelNum := i, idx := b, slotIdx := j })
        else if f.res.isFound then
          let prev : Pos := ⟨ls.getD f.levelNum 0, f.idx, f.slotIdx⟩
          if getOffset w = getOffset f.prevE then
            if f.prevI < i then
              delDup ⟨l, b, j⟩ prev w f.prevE
              pure .retry
            else failAssert
          else
            delDup ⟨l, b, j⟩ prev w f.prevE
            pure .retry
        else
          pure (.next { f with res := code, oldE := w, e := some ⟨l, b, j⟩, levelNum := i, idx := b, slotIdx := j,
                               prevE := w, prevI := i } emp)

/-- The loop over the slots of a bucket in `find` (clevel:793-874, 878-964). -/
def findBucket (ls : List Nat) (right : Bool) (i l b : Nat) (p : BitVec 16) (key : Word) (fixDup : Bool) :
    List Nat → Fd → Bool → CP FStep
  | [], f, emp => pure (.next f emp)
  | j :: js, f, emp => do
    match ← findSlot ls right i l b j p key fixDup f emp with
    | .next f' emp' => findBucket ls right i l b p key fixDup js f' emp'
    | r => pure r

/-- The loop over the levels in `find` (clevel:783-966), from level number `i`. -/
def findLevels (E : CEnv) (ls : List Nat) (key : Word) (fixDup : Bool) : List Nat → Nat → Fd → CP FStep
  | [], _, f => pure (.next f false)
  | l :: rest, i, f => do
    let cap ← rdCap l
    let fi := firstIndex (E.hash key) cap
    let p := getPartial (E.hash key)
    match ← findBucket ls false i l fi p key fixDup (List.range assocNum) f false with
    | .next f1 _ =>
      match ← findBucket ls true i l (secondIndex p fi cap) p key fixDup (List.range assocNum) f1 false with
      | .next f2 _ => findLevels E ls key fixDup rest (i + 1) f2
      | r => pure r
    | r => pure r

/-- `find` (clevel:746-979): what it found and the metadata it looked at (`m_copy`, a reference parameter). -/
def find (E : CEnv) (key : Word) (fixDup : Bool) (lf : Nat) : Nat → Nat → Word → Nat → CP (Fd × Nat)
  | 0, _, _, _ => .spin
  | f + 1, levelNum, oldE, m => do
    let M ← deMeta m
    let ls ← collect m lf M.last []
    match ← findLevels E ls key fixDup ls 0 (Fd.init levelNum oldE) with
    | .retry => find E key fixDup lf f levelNum oldE m
    | .found r => pure (r, m)
    | .next r _ =>
      let m' ← rdMeta
      if m = m' then pure (r, m)
      else
        let m'' ← rdMeta
        find E key fixDup lf f r.levelNum r.oldE m''

/-- One bucket of `find_empty_slot` (clevel:689-702, 706-725). -/
def emptyBucket (right : Bool) (i l b : Nat) : List Nat → Fd → Bool → CP Fd
  | [], f, _ => pure f
  | j :: js, f, emp =>
    if emp then emptyBucket right i l b js f emp
    else do
      let w ← rdSlot l b j
      if getOffset w = 0#64 then
        if right && decide (f.res = .vacLeft) && decide (f.levelNum = i) && decide (f.slotIdx ≤ j) then
          emptyBucket right i l b js f true
        else
          emptyBucket right i l b js { f with res := if right then .vacRight else .vacLeft, e := some ⟨l, b, j⟩, levelNum := i,
                                              slotIdx := j } true
      else emptyBucket right i l b js f false

/-- The loop over the levels in `find_empty_slot`, top first (clevel:681-729). -/
def emptyLevels (E : CEnv) (key : Word) : List (Nat × Nat) → Fd → CP Fd
  | [], f => pure f
  | (i, l) :: rest, f => do
    let cap ← rdCap l
    let fi := firstIndex (E.hash key) cap
    let f1 ← emptyBucket false i l fi (List.range assocNum) f false
    let f2 ← emptyBucket true i l (secondIndex (getPartial (E.hash key)) fi cap) (List.range assocNum) f1 false
    if f2.res ≠ .absent then pure f2 else emptyLevels E key rest f2

/-- `find_empty_slot` (clevel:651-741).  It does not set `old_e`. -/
def findEmptySlot (E : CEnv) (key : Word) (lf : Nat) : Nat → Nat → Nat → CP (Fd × Nat)
  | 0, _, _ => .spin
  | f + 1, levelNum, m => do
    let M ← deMeta m
    let ls ← collect m lf M.last []
    let r ← emptyLevels E key ((List.range ls.length).zip ls).reverse (Fd.init levelNum 0#64)
    let m' ← rdMeta
    if m = m' then pure (r, m)
    else
      let m'' ← rdMeta
      findEmptySlot E key lf f r.levelNum m''

/-- The loop of `expand` that installs the new metadata (clevel:1335-1374, 1385-1423).  The arguments are `m_copy`, `m` (in
full), `cl` and `new_capacity`. -/
def expandLoop (t newCap : Nat) : Nat → Nat → Meta → Nat → CP Unit
  | 0, _, _, _ => .spin
  | f + 1, m, M, cl => do
    let c ← rdCap cl
    if c ≥ newCap then newMeta t ⟨M.first, M.last, true⟩
    else
      let u ← rdUp cl
      if u = 0 then failAssert
      else newMeta t ⟨u, M.last, true⟩
    let n ← rdTmpMeta t
    if ← casMeta m n then pure ()
    else
      let m' ← rdMeta
      let M' ← deMeta m'
      let c' ← rdCap M'.first
      if c' ≥ newCap ∧ M'.resizing = true then freeTmpMeta t
      else expandLoop t newCap f m' M' M'.first

/-- `expand` (clevel:1294-1426). -/
def expand (E : CEnv) (t m f : Nat) : CP Unit := do
  let M ← deMeta m
  let cl := M.first
  let u ← rdUp cl
  if u = 0 then
    let c ← rdCap cl
    newLevel E t (c * 2)
    let n ← rdTmpLevel t
    if ← casUp cl n then expandLoop t (c * 2) f m M cl
    else
      freeTmpLevel t
      expandLoop t (c * 2) f m M cl
  else
    let m' ← rdMeta
    if m' = m then
      let c ← rdCap cl
      expandLoop t c f m M cl
    else pure ()

/-- The loop of `generic_insert` (clevel:1014-1095) with `check_duplicate`: whether the entry is new (`!found`).  Simplified: the
other parts of `ret` are left out. -/
def insertLoop (E : CEnv) (t : Nat) (key created : Word) (lf : Nat) : Nat → Bool → CP Bool
  | 0, _ => .spin
  | f + 1, chk => do
    let m0 ← rdMeta
    let (r, m) ← if chk then find E key false lf (f + 1) 0 0#64 m0 else findEmptySlot E key lf (f + 1) 0 m0
    if r.res.isFound then
      freeTmpEntry t
      pure false
    else
      let M ← deMeta m
      if r.res.isVac && (decide (r.levelNum > 0) || !M.resizing) then
        match r.e with
        | none => outOfBounds
        | some e =>
          if ← casSlot e.l e.b e.j r.oldE created then
            let m' ← rdMeta
            let M' ← deMeta m'
            if !M.resizing && M'.resizing && decide (r.levelNum = 0) then insertLoop E t key created lf f false
            else pure true
          else insertLoop E t key created lf f chk
      else
        expand E t m (f + 1)
        insertLoop E t key created lf f chk

/-- `generic_insert` (clevel:984-1096). -/
def insert (E : CEnv) (t : Nat) (key val : Word) (lf f : Nat) : CP Bool := do
  let o ← newEntry E t key val
  insertLoop E t key (setTag o (getPartial (E.hash key))) lf f true

/-- One slot of `erase` (clevel:1129-1162, 1169-1202): whether an entry was removed.  The test at 1156-1158 and 1196-1198 reads
`expand_bucket_old`, which is never assigned; whatever it says the loop goes on with the next slot, so it is left out here. -/
def eraseSlot (l b j : Nat) (p : BitVec 16) (key : Word) : CP Bool := do
  let w ← rdSlot l b j
  if tagOf w = p ∧ getOffset w ≠ 0#64 then
    let k ← rdKey w
    if k = key then
      if ← casSlot l b j w 0#64 then
        freeEntry w
        pure true
      else pure false
    else pure false
  else pure false

/-- The loop over the slots of a bucket in `erase` (clevel:1127-1164, 1167-1204) with `succ_deletion`. -/
def eraseBucket (l b : Nat) (p : BitVec 16) (key : Word) : List Nat → Bool → CP Bool
  | [], s => pure s
  | j :: js, s => do
    let d ← eraseSlot l b j p key
    eraseBucket l b p key js (s || d)

/-- The loop over the levels in `erase` (clevel:1118-1207). -/
def eraseLevels (E : CEnv) (m : Nat) (key : Word) : Nat → Nat → Bool → CP Bool
  | 0, _, _ => .spin
  | f + 1, li, s => do
    let cap ← rdCap li
    let fi := firstIndex (E.hash key) cap
    let p := getPartial (E.hash key)
    let s1 ← eraseBucket li fi p key (List.range assocNum) s
    let s2 ← eraseBucket li (secondIndex p fi cap) p key (List.range assocNum) s1
    let next ← rdUp li
    let M ← deMeta m
    if li ≠ M.first then eraseLevels E m key f next s2 else pure s2

/-- `erase` (clevel:1101-1214). -/
def erase (E : CEnv) (key : Word) (lf : Nat) : Nat → Bool → CP Bool
  | 0, _ => .spin
  | f + 1, s => do
    let m ← rdMeta
    let M ← deMeta m
    let s' ← eraseLevels E m key lf M.last s
    let m' ← rdMeta
    if m = m' then pure s' else erase E key lf f s'

/-- The loop of `generic_update` (clevel:1236-1288) with `succ_update`. -/
def updateLoop (E : CEnv) (t : Nat) (key created : Word) (lf : Nat) : Nat → Bool → CP Bool
  | 0, _ => .spin
  | f + 1, succ => do
    let m0 ← rdMeta
    let old ← rdExp
    let (r, m) ← find E key true lf (f + 1) 0 0#64 m0
    if r.res.isFound then
      if succ = true ∧ r.oldE = created then pure true
      else
        match r.e with
        | none => outOfBounds
        | some e =>
          if ← casSlot e.l e.b e.j r.oldE created then
            let m' ← rdMeta
            let x ← rdExp
            if m ≠ m' ∨ (r.levelNum = 0 ∧ r.idx ≤ x ∧ r.idx ≥ old) then updateLoop E t key created lf f true
            else pure true
          else updateLoop E t key created lf f succ
    else
      if succ then pure true
      else
        freeTmpEntry t
        pure false

/-- `generic_update` (clevel:1219-1289). -/
def update (E : CEnv) (t : Nat) (key val : Word) (lf f : Nat) : CP Bool := do
  let o ← newEntry E t key val
  updateLoop E t key (setTag o (getPartial (E.hash key))) lf f false

/-- One candidate slot of a moved entry (clevel:1490-1504, 1507-1522): whether the entry went there. -/
def moveTo (bl eb i tl b j : Nat) (src : Word) : CP Bool := do
  let d ← rdSlot tl b j
  if getOffset d = 0#64 then
    if ← casSlot tl b j d src then
      wrSlot bl eb i 0#64
      pure true
    else pure false
  else pure false

/-- The loop over the candidate slots (clevel:1485-1523): whether the entry was moved. -/
def moveSlots (bl eb i tl b1 b2 : Nat) (src : Word) : List Nat → CP Bool
  | [] => pure false
  | j :: js => do
    if ← moveTo bl eb i tl b1 j src then pure true
    else if ← moveTo bl eb i tl b2 j src then pure true
    else moveSlots bl eb i tl b1 b2 src js

/-- One slot of the bucket being rehashed (clevel:1471-1530): false if there was no room for its entry. -/
def rehashSlot (E : CEnv) (bl eb tl i : Nat) : CP Bool := do
  let src ← rdSlot bl eb i
  if getOffset src = 0#64 then pure true
  else
    let k ← rdKey src
    let hv := E.hash k
    let cap ← rdCap tl
    let fi := firstIndex hv cap
    moveSlots bl eb i tl fi (secondIndex (getPartial hv) fi cap) src (List.range assocNum)

/-- The loop over the slots of the bucket being rehashed (clevel:1469-1531): false if there was no room. -/
def rehashSlots (E : CEnv) (bl eb tl : Nat) : List Nat → CP Bool
  | [] => pure true
  | i :: is => do
    if ← rehashSlot E bl eb tl i then rehashSlots E bl eb tl is else pure false

/-- Rehashing one bucket (clevel:1460-1534), expanding when there is no room: the metadata it looked at. -/
def rehash (E : CEnv) : Nat → CP (Nat × Meta)
  | 0 => .spin
  | f + 1 => do
    let m ← rdMeta
    let M ← deMeta m
    let eb ← rdExp
    if ← rehashSlots E M.last eb M.first (List.range assocNum) then
      let x ← rdExp
      wrExp (x + 1)
      pure (m, M)
    else
      expand E 0 m (f + 1)
      rehash E f

/-- Counting the steps from `li` to the top (clevel:1447-1449 and 1540-1546). -/
def countUp (first : Nat) : Nat → Nat → CP Nat
  | 0, _ => .spin
  | f + 1, li =>
    if li ≠ first then do
      let u ← rdUp li
      let n ← countUp first f u
      pure (n + 1)
    else pure 0

/-- The loop that drops the bottom level (clevel:1538-1571). -/
def dropLoop (lf : Nat) (bl : Nat) : Nat → Nat → Meta → CP Unit
  | 0, _, _ => .spin
  | f + 1, m, M => do
    let n ← countUp M.first lf M.last
    let u ← rdUp bl
    newMeta 0 ⟨M.first, u, decide (n ≠ 2)⟩
    let x ← rdTmpMeta 0
    if ← casMeta m x then wrExp 0
    else
      freeTmpMeta 0
      let m' ← rdMeta
      let M' ← deMeta m'
      dropLoop lf bl f m' M'

/-- One round of the background thread (clevel:1438-1576; `resize_bulk` is 1, clevel:129).  Simplified: the check that `meta` is
not null is left out, and so is the sleep. -/
def round (E : CEnv) (lf f : Nat) : CP Unit := do
  let m ← rdMeta
  let M ← deMeta m
  let n ← countUp M.first lf M.last
  if n + 1 = 2 then pure ()
  else
    let (m', M') ← rehash E f
    let x ← rdExp
    let c ← rdCap M'.last
    if x = c then dropLoop lf M'.last f m' M' else pure ()

/-- `capacity(meta)` (clevel:410-434), from level `li`. -/
def capacityFrom (m : Nat) : Nat → Nat → CP Nat
  | 0, _ => .spin
  | f + 1, li => do
    let M ← deMeta m
    let c ← rdCap li
    if li ≠ M.first then
      let u ← rdUp li
      let n ← capacityFrom m f u
      pure (c * assocNum + n)
    else pure (c * assocNum)

/-- `capacity()` (clevel:410-434). -/
def capacity (lf : Nat) : CP Nat := do
  let m ← rdMeta
  let M ← deMeta m
  capacityFrom m lf M.last

/-- A new table (the constructor, clevel:278-316, and `set_thread_num(tn)`, clevel:449-491) with `hashpower` `hp`. -/
def CSt.new (hp tn : Nat) : CSt where
  heap := fun _ => none
  allocs := 0
  lv := fun l => if l = 1 then some ⟨2 ^ hp, 0, fun _ _ => 0#64⟩
    else if l = 2 then some ⟨2 ^ (hp - 1), 1, fun _ _ => 0#64⟩ else none
  nl := 2
  mt := fun m => if m = 1 then some ⟨1, 2, false⟩ else none
  nm := 1
  root := 1
  exp := 0
  tn := tn
  tmpE := fun _ => 0#64
  tmpL := fun _ => 0
  tmpM := fun _ => 0

end PMap.Clevel
