import Verif.Prog

/-!
# Transcription of `include/persistence.hpp` and `containers/cliffMap/hashMap.hpp`

Every definition cites the lines it transcribes (hashMap.hpp unless another file is named).
The map is compiled with `RESIZE` defined (hashMap.hpp:59) and `DURABLE` (persistence.hpp:11).
`assert(idx < len)` is not repeated: an index out of range is undefined behaviour in `Act.exec`.
`assert(&(oldTable->chm) == this)` holds by construction: `this` is identified by the table number.
-/

namespace PMap

open Prog

/-- `assert(b)`: records a failure and goes on, as in the release build. -/
def check (b : Bool) : Prog Unit := do1 (.check b)

/-! ## include/persistence.hpp -/

/-- persistence.hpp:69-76 `persist`.  The result is the `value` argument after `compare_exchange_strong`. -/
def persist (a : Addr) (value : Word) : Prog Word := do
  do1 (.flush a)
  do1 .fence
  let r ← do1 (.cas a value (clearMark value DirtyFlag))
  return r.2

/-- persistence.hpp:81-90 `pcas_read`. -/
def pcasRead (a : Addr) : Prog Word := do
  let word ← do1 (.load a)
  if isDirty word then
    let _ ← persist a word
    return clean word
  else
    return clean word

/-- persistence.hpp:94-104 `pcas`.  The second component is `oldVal` after the call. -/
def pcas (a : Addr) (oldVal newVal : Word) : Prog (Bool × Word) := do
  let _ ← pcasRead a
  let r ← do1 (.cas a oldVal (dirty newVal))
  check ((r.1 && oldVal == r.2) || (!r.1 && oldVal != r.2))
  return r

/-! ## Table accessors -/

/-- 500-505 `Table::key`. -/
def tableKey (t idx : Nat) : Prog Word := pcasRead (.key t idx)
/-- 507-512 `Table::value`. -/
def tableValue (t idx : Nat) : Prog Word := pcasRead (.val t idx)
/-- 514-520 `Table::CASkey`. -/
def casKey (t idx : Nat) (oldKey newKey : Word) : Prog Word := do
  let r ← pcas (.key t idx) oldKey newKey
  return r.2
/-- 523-529 `Table::CASvalue`. -/
def casValue (t idx : Nat) (oldValue newValue : Word) : Prog Word := do
  let r ← pcas (.val t idx) oldValue newValue
  return r.2
/-- 536-542: the value stored by `increment`. -/
def incremented (oldValue : Word) : Word :=
  let old := if oldValue = VINITIAL ∨ oldValue = VTOMBSTONE then 0#64 else oldValue
  ((old >>> BITS_MARKED) + 1#64) <<< BITS_MARKED
/-- 532-546 `Table::increment`; the `newValue` argument is overwritten. -/
def increment (t idx : Nat) (oldValue _newValue : Word) : Prog Word := do
  let r ← pcas (.val t idx) oldValue (incremented oldValue)
  return r.2

/-- The function pointers passed as `CAS` (943, 1043, ucfMap.hpp:49): `Table::CASvalue` or `Table::increment`. -/
inductive CasFn
  | casValue
  | increment
  deriving DecidableEq

/-- Call through the `CAS` function pointer (1193). -/
def CasFn.call : CasFn → Nat → Nat → Word → Word → Prog Word
  | .casValue, t, idx, o, n => PMap.casValue t idx o n
  | .increment, t, idx, o, n => PMap.increment t idx o n

/-! ## Heuristics and growth -/

/-- 61 `REPROBE_LIMIT`. -/
def REPROBE_LIMIT : Nat := 10
/-- 478 `MIN_SIZE`. -/
def MIN_SIZE : Nat := 8
/-- 84-87 `reprobeLimit`. -/
def reprobeLimit (len : Nat) : Nat := REPROBE_LIMIT + len / 4

/-- 283-291 `tableFull`; the second test is only reached if the first holds. -/
def tableFull (t reprobeCount len : Nat) : Prog Bool :=
  if REPROBE_LIMIT ≤ reprobeCount then do
    let s ← do1 (.getSlots t)
    return decide (REPROBE_LIMIT + len / 4 ≤ s)
  else
    return false

/-- 309-339: the length chosen for the new table, from the old length and the element counter.
`oldLen << 1` on `size_t` is modelled without wrap-around (a table of 2^63 slots does not exist). -/
def newLen (oldLen : Nat) (size : Word) : Nat :=
  let newSize := size.toNat
  let newSize :=
    if oldLen / 4 ≤ size.toNat then
      let newSize := oldLen * 2
      if oldLen / 2 ≤ size.toNat then oldLen * 2 else newSize
    else newSize
  if newSize ≤ oldLen then oldLen * 2 else newSize

/-- hashMap.hpp:309-339 on machine words: exactly the C++ arithmetic, with wrap-around. -/
def newLenW (oldLen size : Word) : Word :=
  let newSize := size
  let newSize :=
    if oldLen / 4#64 ≤ size then
      let newSize := oldLen <<< 1
      if oldLen / 2#64 ≤ size then oldLen <<< 1 else newSize
    else newSize
  if newSize ≤ oldLen then oldLen <<< 1 else newSize

/-- 295-374 `resize`.  `munmapTable` of the losing table only touches the private table (755 passes the wrong pointer
to `munmap`, which fails without effect), so it is not modelled. -/
def resize (t : Nat) : Prog Nat := do
  let nt ← do1 (.getNew t)
  match nt with
  | some n => do
    let l ← do1 (.len n)
    let lo ← do1 (.len t)
    check (decide (lo < l))
    return n
  | none => do
    let oldLen ← do1 (.len t)
    let size ← do1 (.getSize t)
    let nt ← do1 (.getNew t)
    match nt with
    | some n => do
      let l ← do1 (.len n)
      check (decide (oldLen < l))
      return n
    | none => do
      let a ← do1 (.alloc (newLen oldLen size) size)
      match a with
      | none => .halt .threw
      | some n => do
        let ok ← do1 (.casNew t n)
        if ok then do
          let l ← do1 (.len n)
          check (decide (oldLen < l))
          return n
        else do
          let nt ← do1 (.getNew t)
          match nt with
          | none => do
            check false
            .halt .ub
          | some n => do
            let l ← do1 (.len n)
            check (decide (oldLen < l))
            return n

/-! ## Migration -/

/-- 121-148 `copyCheckAndPromote`. -/
def copyCheckAndPromote (oldTable workDone : Nat) : Prog Unit := do
  let oldLen ← do1 (.len oldTable)
  let copyDone ← do1 (.getDone oldTable)
  check (decide (copyDone + workDone ≤ oldLen))
  if 0 < workDone then do
    do1 (.addDone oldTable workDone)
  else pure ()
  if copyDone + workDone = oldLen then do
    let nt ← do1 (.getNew oldTable)
    match nt with
    | none => .halt .ub
    | some n => do
      let _ ← do1 (.casRoot oldTable n)
      return ()
  else return ()

/-- The type of the recursive call `putIfMatch(Table*, Key, Value, Value)` with the default `CAS`. -/
abbrev PutFn := Nat → Word → Word → Word → Prog Word

/-- 153-157: wait until the slot holds a key, placing a tombstone if it is empty. -/
def copySlotKey (n : Nat) (idx oldTable : Nat) : Prog Word :=
  loop n (fun (_ : Unit) => do
    let key ← tableKey oldTable idx
    if key = KINITIAL then do
      let _ ← casKey oldTable idx KINITIAL KTOMBSTONE
      return .next ()
    else
      return .done key) ()

/-- Result of the marking loop of `copySlot`. -/
inductive Marked
  /-- `return true` at 176 -/
  | finished
  /-- the loop was left with this `oldVal` -/
  | val (v : Word)

/-- 163-188: the marking loop of `copySlot`. -/
def copySlotMark (n : Nat) (idx oldTable : Nat) (oldVal : Word) : Prog Marked :=
  loop n (fun (oldVal : Word) =>
    if isMig oldVal then return .done (.val oldVal)
    else do
      let mark := if oldVal = VINITIAL ∨ oldVal = VTOMBSTONE then TOMBPRIME else setMark oldVal MigrationFlag
      let actualVal ← casValue oldTable idx oldVal mark
      if actualVal = oldVal then
        if mark = TOMBPRIME then return .done .finished
        else return .done (.val mark)
      else return .next actualVal) oldVal

/-- 219-224: overwrite the migrated value with `TOMBPRIME`, retrying until the CAS succeeds. -/
def copySlotFinish (n : Nat) (idx oldTable : Nat) (oldVal : Word) : Prog Unit :=
  loop n (fun (oldVal : Word) => do
    let actualVal ← casValue oldTable idx oldVal TOMBPRIME
    if actualVal = oldVal then return .done () else return .next actualVal) oldVal

/-- 150-229 `copySlot`. -/
def copySlot (put : PutFn) (n : Nat) (idx oldTable newTable : Nat) : Prog Bool := do
  let key ← copySlotKey n idx oldTable
  let oldVal ← tableValue oldTable idx
  let r ← copySlotMark n idx oldTable oldVal
  match r with
  | .finished => return true
  | .val oldVal =>
    if oldVal = TOMBPRIME then return false
    else do
      let oldUnmarked := clearMark oldVal MigrationFlag
      check (oldUnmarked != VTOMBSTONE)
      let r ← put newTable key oldUnmarked VINITIAL
      let copiedIntoNew := decide (r = VINITIAL)
      copySlotFinish n idx oldTable oldVal
      return copiedIntoNew

/-- 423-427: claim a chunk of work. -/
def claimChunk (n : Nat) (t oldLen minWork : Nat) : Prog Nat := do
  let c ← do1 (.getIdx t)
  loop n (fun (c : Nat) =>
    if c < oldLen * 2 then do
      let r ← do1 (.casIdx t c (c + minWork))
      if r.1 then return .done c else return .next r.2
    else return .done c) c

/-- 437-449: copy the slots of one chunk, counting those we finished.  `todo` counts down `MIN_COPY_WORK - i`. -/
def copyChunk (put : PutFn) (n : Nat) (oldTable newTable oldLen copyIdx : Nat) : (todo i workDone : Nat) → Prog Nat
  | 0, _, workDone => return workDone
  | todo + 1, i, workDone => do
    let b ← copySlot put n ((copyIdx + i) &&& (oldLen - 1)) oldTable newTable
    copyChunk put n oldTable newTable oldLen copyIdx todo (i + 1) (if b then workDone + 1 else workDone)

/-- 398-469 `helpCopyImpl`.  The loop state is `(copyIdx, panicked)`; `panicStart` is only compared with `-1`. -/
def helpCopyImpl (put : PutFn) (n : Nat) (oldTable : Nat) : Prog Unit := do
  let nt ← do1 (.getNew oldTable)
  check nt.isSome
  match nt with
  | none => .halt .ub
  | some newTable => do
    let oldLen ← do1 (.len oldTable)
    let minWork := if oldLen < 1024 then oldLen else 1024
    loop n (fun (s : Nat × Bool) => do
      let d ← do1 (.getDone oldTable)
      if d < oldLen then do
        let c ← if s.2 then (pure s.1 : Prog Nat) else claimChunk n oldTable oldLen minWork
        let panicked := s.2 || decide (oldLen * 2 ≤ c)
        let workDone ← copyChunk put n oldTable newTable oldLen c minWork 0 0
        if 0 < workDone then do
          copyCheckAndPromote oldTable workDone
        else pure ()
        return .next (c + minWork, panicked)
      else return .done ()) (0, false)
    copyCheckAndPromote oldTable 0

/-- 1234-1245 `helpCopy`. -/
def helpCopy (put : PutFn) (n : Nat) (helper : Nat) : Prog Nat := do
  let top ← do1 .getRoot
  let nt ← do1 (.getNew top)
  match nt with
  | none => return helper
  | some _ => do
    helpCopyImpl put n top
    return helper

/-- 377-394 `copySlotAndCheck`; `shouldHelp` true returns without helping (393). -/
def copySlotAndCheck (put : PutFn) (n : Nat) (oldTable idx : Nat) (shouldHelp : Bool) : Prog Nat := do
  let nt ← do1 (.getNew oldTable)
  check nt.isSome
  match nt with
  | none => .halt .ub
  | some newTable => do
    let b ← copySlot put n idx oldTable newTable
    if b then do
      copyCheckAndPromote oldTable 1
    else pure ()
    if shouldHelp then return newTable else helpCopy put n newTable

/-! ## putIfMatch -/

/-- 1055: `Hash{}(key) & (len - 1)`. -/
def homePut (hash : Word → Word) (key : Word) (len : Nat) : Nat := (hash key).toNat &&& (len - 1)

/-- 960, 966, 1031-1033: the hash is narrowed to `int`, then converted to `size_t` (sign extension) for the `&`. -/
def homeGet (hash : Word → Word) (key : Word) (len : Nat) : Nat :=
  (((hash key).setWidth 32).signExtend 64).toNat &&& (len - 1)

/-- How the probe loop of `putIfMatch` (1067-1136) ends. -/
inductive Probe
  /-- `return newVal` at 1082 -/
  | returned (v : Word)
  /-- `break` with this `idx`, `reprobeCount`, `V` -/
  | slot (idx reprobeCount : Nat) (V : Word)
  /-- probed too far, or tombstone key (1110-1112) -/
  | full

/-- 1104-1136: the second half of the probe loop body, after the empty-slot case. -/
def probeMatch (key : Word) (len idx reprobeCount : Nat) (K V : Word) : Prog (Ctl (Nat × Nat) Probe) :=
  if K = key then return .done (.slot idx reprobeCount V)
  else if reprobeLimit len ≤ reprobeCount + 1 ∨ K = KTOMBSTONE then return .done .full
  else return .next ((idx + 1) &&& (len - 1), reprobeCount + 1)

/-- 1067-1136: one iteration of the probe loop of `putIfMatch`; the state is `(idx, reprobeCount)`. -/
def probeBody (t : Nat) (key newVal : Word) (len : Nat) (s : Nat × Nat) : Prog (Ctl (Nat × Nat) Probe) := do
  let K ← tableKey t s.1
  let V ← tableValue t s.1
  if K = VINITIAL then
    if newVal = VTOMBSTONE then return .done (.returned newVal)
    else do
      let actualKey ← casKey t s.1 KINITIAL key
      if actualKey = KINITIAL then do
        do1 (.incSlots t)
        return .done (.slot s.1 s.2 V)
      else probeMatch key len s.1 s.2 actualKey V
  else probeMatch key len s.1 s.2 K V

/-- 1175-1185: the early-exit test of the update loop. -/
def mismatch (V oldVal : Word) : Bool :=
  oldVal != NO_MATCH_OLD && V != oldVal && (oldVal != MATCH_ANY || V == VTOMBSTONE || V == VINITIAL) &&
    (V != VINITIAL || oldVal != VTOMBSTONE)

/-- 1199-1211: the size counter. -/
def adjustSize (t : Nat) (V newVal oldVal : Word) : Prog Unit :=
  if oldVal ≠ VINITIAL then
    if (V = VINITIAL ∨ V = VTOMBSTONE) ∧ newVal ≠ VTOMBSTONE then do1 (.addSize t 1#64)
    else if ¬(V = VINITIAL ∨ V = VTOMBSTONE) ∧ newVal = VTOMBSTONE then do1 (.addSize t (-1#64))
    else pure ()
  else pure ()

/-- How the update loop (1168-1229) ends. -/
inductive Upd
  | returned (v : Word)
  /-- the slot is being migrated (1223-1226) -/
  | migrated

/-- 1168-1229: one iteration of the update loop; the state is `V`. -/
def updateBody (cf : CasFn) (t idx : Nat) (newVal oldVal : Word) (V : Word) : Prog (Ctl Word Upd) := do
  check (!isMig V)
  if mismatch V oldVal then return .done (.returned V)
  else do
    let actualValue ← cf.call t idx V newVal
    if actualValue = V then do
      adjustSize t V newVal oldVal
      return .done (.returned (if V = VINITIAL ∧ oldVal ≠ VINITIAL then VTOMBSTONE else V))
    else do
      let V' ← tableValue t idx
      if isMig V' then return .done .migrated
      else return .next actualValue

/-- 1149-1153: should we go to a new table before writing? -/
def wantNewTable (t reprobeCount len : Nat) (V : Word) : Prog Bool := do
  if V = VINITIAL then do
    let f ← tableFull t reprobeCount len
    return f || isMig V
  else return isMig V

/-- 1042-1230 `putIfMatch(Table*, …)` with the recursive calls abstracted as `put`. The recursive calls at 1128, 1164
and 1225 do not pass the `CAS` argument, so they use the default. -/
def putBody (hash : Word → Word) (put : PutFn) (n : Nat) (cf : CasFn) (t : Nat) (key newVal oldVal : Word) :
    Prog Word := do
  check (newVal != VINITIAL)
  check (!isMig newVal)
  check (!isMig oldVal)
  let len ← do1 (.len t)
  let p ← loop n (probeBody t key newVal len) (homePut hash key len, 0)
  match p with
  | .returned v => return v
  | .full => do
    let newTable ← resize t
    if oldVal ≠ VINITIAL then do
      let _ ← helpCopy put n newTable
      put newTable key newVal oldVal
    else put newTable key newVal oldVal
  | .slot idx reprobeCount V =>
    if newVal = V then return V
    else do
      let w ← wantNewTable t reprobeCount len V
      if w then do
        let _ ← resize t
        let nt ← copySlotAndCheck put n t idx (decide (oldVal = VINITIAL))
        put nt key newVal oldVal
      else do
        let u ← loop n (updateBody cf t idx newVal oldVal) V
        match u with
        | .returned v => return v
        | .migrated => do
          let nt ← copySlotAndCheck put n t idx (decide (oldVal = VINITIAL))
          put nt key newVal oldVal

/-- 1042-1230 `putIfMatch(Table*, …)`; `n` bounds the recursion depth and every loop. -/
def putIfMatch (hash : Word → Word) : Nat → CasFn → PutFn
  | 0, _, _, _, _, _ => .halt .fuel
  | n + 1, cf, t, key, newVal, oldVal => putBody hash (putIfMatch hash n .casValue) n cf t key newVal oldVal

/-! ## getImpl -/

/-- How the probe loop of `getImpl` (971-1024) ends. -/
inductive GProbe
  | returned (v : Word)
  /-- key found but value marked (1003) -/
  | copy (idx : Nat)
  /-- go on in the new table (1015) -/
  | chase (newTable : Nat)

/-- 971-1024: one iteration of the probe loop of `getImpl`. -/
def getProbeBody (t : Nat) (key : Word) (len : Nat) (s : Nat × Nat) : Prog (Ctl (Nat × Nat) GProbe) := do
  let K ← tableKey t s.1
  let V ← tableValue t s.1
  if K = KINITIAL then return .done (.returned VINITIAL)
  else do
    let newTable ← do1 (.getNew t)
    if K = key then
      if isMig V then return .done (.copy s.1)
      else return .done (.returned (if V = VTOMBSTONE then VINITIAL else V))
    else if reprobeLimit len ≤ s.2 + 1 ∨ K = KTOMBSTONE then
      match newTable with
      | none => return .done (.returned VINITIAL)
      | some nt => return .done (.chase nt)
    else return .next ((s.1 + 1) &&& (len - 1), s.2 + 1)

/-- 960-1025 `getImpl`; `n` bounds the recursion depth and every loop. -/
def getImpl (hash : Word → Word) : Nat → Nat → Word → Prog Word
  | 0, _, _ => .halt .fuel
  | n + 1, t, key => do
    let len ← do1 (.len t)
    let p ← loop n (getProbeBody t key len) (homeGet hash key len, 0)
    match p with
    | .returned v => return v
    | .copy idx => do
      let nt ← copySlotAndCheck (putIfMatch hash n .casValue) n t idx (decide (key = KINITIAL))
      getImpl hash n nt key
    | .chase nt => do
      let nt ← helpCopy (putIfMatch hash n .casValue) n nt
      getImpl hash n nt key

/-! ## Public interface -/

/-- 1028-1038 `get`. -/
def mapGet (hash : Word → Word) (n : Nat) (key : Word) : Prog Word := do
  let root ← do1 .getRoot
  let V ← getImpl hash n root key
  check (!isMig V)
  return V

/-- 937-944 the public `putIfMatch(Key, Value, Value, CAS)`. -/
def mapPutIfMatch (hash : Word → Word) (n : Nat) (cf : CasFn) (key newVal oldVal : Word) : Prog Word := do
  check (newVal != VINITIAL)
  check (oldVal != VINITIAL)
  let root ← do1 .getRoot
  let retVal ← putIfMatch hash n cf root key newVal oldVal
  check (!isMig retVal)
  return if retVal = VTOMBSTONE then VINITIAL else retVal

/-- 909-912 `put`. -/
def mapPut (hash : Word → Word) (n : Nat) (key value : Word) : Prog Word :=
  mapPutIfMatch hash n .casValue key value NO_MATCH_OLD
/-- 913-916 `putIfAbsent`. -/
def mapPutIfAbsent (hash : Word → Word) (n : Nat) (key value : Word) : Prog Word :=
  mapPutIfMatch hash n .casValue key value VTOMBSTONE
/-- 917-920 `bool remove(Key)`: the returned value is converted to `bool`. -/
def mapRemove (hash : Word → Word) (n : Nat) (key : Word) : Prog Bool := do
  let r ← mapPutIfMatch hash n .casValue key VTOMBSTONE NO_MATCH_OLD
  return r != 0#64
/-- 922-925 `remove(Key, Value)`. -/
def mapRemoveIf (hash : Word → Word) (n : Nat) (key value : Word) : Prog Bool := do
  let r ← mapPutIfMatch hash n .casValue key VTOMBSTONE value
  return r == value
/-- 926-929 `replace`. -/
def mapReplace (hash : Word → Word) (n : Nat) (key oldValue newValue : Word) : Prog Bool := do
  let r ← mapPutIfMatch hash n .casValue key newValue oldValue
  return r == oldValue
/-- 932-935 `update`, with the only function the repository passes, `Table::increment`. -/
def mapUpdate (hash : Word → Word) (n : Nat) (key value : Word) : Prog Word :=
  mapPutIfMatch hash n .increment key value NO_MATCH_OLD
/-- 905-908 `containsKey`. -/
def mapContainsKey (hash : Word → Word) (n : Nat) (key : Word) : Prog Bool := do
  let r ← mapGet hash n key
  return r != KINITIAL
/-- 896-900 `size`. -/
def mapSize : Prog Word := do
  let root ← do1 .getRoot
  do1 (.getSize root)
/-- 901-904 `isEmpty`. -/
def mapIsEmpty : Prog Bool := do
  let s ← mapSize
  return s == 0#64

/-- 866-874: the non-recovering constructor on a fresh file: `mmapTable(true, size, 0)` stored in `table`. -/
def freshMem (len cap : Nat) : Mem :=
  { word := freshWords (fun _ => 0#64) 0
    nv := freshWords (fun _ => 0#64) 0
    tab := fun _ => freshTab len 0#64
    next := 1
    root := 0
    cap := cap
    failed := false
    reopened := false }

end PMap
