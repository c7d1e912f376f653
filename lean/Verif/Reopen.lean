import Verif.AMap

/-!
# Table files: creating them, opening existing ones, restarting

Transcribes hashMap.hpp:595-752 (`mmapTable`) and the way a restart uses it (hashMap.hpp:866-874).
A file is its length in key/value pairs and the pairs.  `open`, `fstat`, `ftruncate` and `mmap` are assumed to succeed.
-/

namespace PMap

open Prog

/-- A table file (hashMap.hpp:646-648: the length comes from the file size; :95-99 the pairs, key first). -/
structure File where
  len : Nat
  pair : Nat → Word × Word

/-- The file of table `t`, given the content of persistent memory (hashMap.hpp:651 maps the file `MAP_SHARED`). -/
def fileOf (w : Addr → Word) (t len : Nat) : File := ⟨len, fun i => (w (.key t i), w (.val t i))⟩

/-- hashMap.hpp:651-668: the memory after mapping an existing file as table 0, before the scan: `size` and `slots` are
set to 0.  `existingSize` is overwritten, so it does not appear. -/
def reopenMem (f : File) (cap : Nat) : Mem :=
  { word := fun a => match a with
      | .key 0 i => (f.pair i).1
      | .val 0 i => (f.pair i).2
      | _ => 0#64
    nv := fun a => match a with
      | .key 0 i => (f.pair i).1
      | .val 0 i => (f.pair i).2
      | _ => 0#64
    tab := fun _ => { freshTab f.len 0#64 with slots := 0 }
    next := 1
    root := 0
    cap := cap
    failed := false
    reopened := true }

/-- hashMap.hpp:677-687: a key without a value becomes a tombstone; the result is the value to count. -/
def scanFix (i : Nat) (K V : Word) : Prog Word :=
  if K ≠ KINITIAL ∧ V = VINITIAL then do
    let _ ← casValue 0 i VINITIAL VTOMBSTONE
    let V ← tableValue 0 i
    check (V == VTOMBSTONE)
    return V
  else return V

/-- hashMap.hpp:669-700: one round of the scan of an existing file. -/
def scanSlot (i : Nat) : Prog Unit := do
  let V ← tableValue 0 i
  let K ← tableKey 0 i
  let V ← scanFix i K V
  if V ≠ VINITIAL ∧ V ≠ VTOMBSTONE ∧ V ≠ TOMBPRIME then do1 (.addSize 0 1#64)
  else if V ≠ VTOMBSTONE ∧ V ≠ TOMBPRIME then do1 (.incSlots 0)
  else return ()

/-- hashMap.hpp:669-700: the scan, from slot `i` on, `todo` rounds left. -/
def scan : (todo i : Nat) → Prog Unit
  | 0, _ => return ()
  | todo + 1, i => do
    scanSlot i
    scan todo (i + 1)

/-- hashMap.hpp:637-700: `mmapTable` on an existing file: map it, then scan it. -/
def openFile (f : File) (cap : Nat) : Outcome Unit := run (scan f.len 0) (reopenMem f cap)

/-- hashMap.hpp:866-874 with :611 and :623: a restart (without recovery) maps the file number 0 of the directory, whatever
other files there are; `m` is the memory when the process stopped, `w` the content of the files at that point.  The file
number 0 is the one of table 0. -/
def restart (m : Mem) (w : Addr → Word) : Outcome Unit := openFile (fileOf w 0 (m.tab 0).len) m.cap

/-! ## Stopping while a file is being opened -/

/-- What can happen while an existing file is being opened (hashMap.hpp:669-700). -/
inductive OpenStep
  /-- the scan makes its next access to memory -/
  | step
  /-- the cache writes back the line of pair `i` -/
  | writeBack (i : Nat)

/-- hashMap.hpp:669-700: the memory after these steps of a scan of which `p` is left; `none` is undefined behaviour. -/
def scanSteps : List OpenStep → Prog Unit → Mem → Option Mem
  | [], _, m => some m
  | .writeBack i :: xs, p, m => scanSteps xs p { m with nv := writeBack m 0 i }
  | .step :: xs, .act a k, m =>
    match a.exec m with
    | none => none
    | some (r, m') => scanSteps xs (k r) m'
  | .step :: xs, p, m => scanSteps xs p m

/-- hashMap.hpp:637-700: the file that is left when the machine stops after these steps of opening it. -/
def cutOpen (cap : Nat) (xs : List OpenStep) (f : File) : Option File :=
  (scanSteps xs (scan f.len 0) (reopenMem f cap)).map fun m => fileOf m.nv 0 f.len

/-- hashMap.hpp:637-700: the file that is left after several attempts to open it, in each of which the machine stopped. -/
def cutOpens (cap : Nat) : List (List OpenStep) → File → Option File
  | [], f => some f
  | xs :: xss, f => (cutOpen cap xs f).bind (cutOpens cap xss)

/-! ## What a file means -/

/-- Pair `(k, v)` is stored in the file: some pair has this key and this value up to the dirty bit (marking.hpp), and the
value is neither the "empty" nor the "removed" marker (hashMap.hpp:69-70). -/
def File.Holds (f : File) (k v : Word) : Prop :=
  ∃ i, i < f.len ∧ clean (f.pair i).1 = k ∧ clean (f.pair i).2 = v ∧ v ≠ VINITIAL ∧ v ≠ VTOMBSTONE

/-- The table invariant of C25, for a table not being migrated: a power-of-two length; an empty key slot has an empty
value; no key was blocked and no value marked by a migration (hashMap.hpp:156, 166); every key is found by probing from its home slot (hashMap.hpp:1055-1136). -/
structure FileOK (hash : Word → Word) (f : File) : Prop where
  pow : ∃ p, p ≤ 32 ∧ f.len = 2 ^ p
  empty : ∀ i, i < f.len → clean (f.pair i).1 = KINITIAL → clean (f.pair i).2 = VINITIAL
  no_tomb : ∀ i, i < f.len → clean (f.pair i).1 ≠ KTOMBSTONE
  no_mig : ∀ i, i < f.len → isMig (f.pair i).2 = false
  path : ∀ i, i < f.len → clean (f.pair i).1 ≠ KINITIAL →
    ∃ d, d < reprobeLimit f.len ∧ i = ((hash (clean (f.pair i).1)).toNat + d) % f.len ∧
      ∀ e < d, clean (f.pair (((hash (clean (f.pair i).1)).toNat + e) % f.len)).1 ≠ KINITIAL ∧
        clean (f.pair (((hash (clean (f.pair i).1)).toNat + e) % f.len)).1 ≠ clean (f.pair i).1

/-! ## Creating a file -/

/-- State of the creation of a file: the pairs as stored, the pairs as a crash would leave them, and the number of
stores of the loop (hashMap.hpp:731-737) already executed: store `2 i` is the key of pair `i`, store `2 i + 1` its value. -/
structure Creating where
  len : Nat
  vol : Nat → Word × Word
  dur : Nat → Word × Word
  stores : Nat

/-- hashMap.hpp:712-722: after `ftruncate` ("filling with NULL") and `mmap`. -/
def Creating.start (len : Nat) : Creating := ⟨len, fun _ => (0#64, 0#64), fun _ => (0#64, 0#64), 0⟩

/-- What can happen while the file is being created (hashMap.hpp:731-740). -/
inductive CreateStep
  /-- the next store of the loop 731-737 -/
  | store
  /-- the cache writes back the line of pair `i`, spontaneously or in `PERSIST` (740) -/
  | writeBack (i : Nat)

/-- hashMap.hpp:731-740: one step. -/
def Creating.step (c : Creating) : CreateStep → Creating
  | .store =>
    if c.stores < 2 * c.len then
      let i := c.stores / 2
      let p := if c.stores % 2 = 0 then (dirty KINITIAL, (c.vol i).2) else ((c.vol i).1, dirty VINITIAL)
      { c with vol := fun j => if j = i then p else c.vol j, stores := c.stores + 1 }
    else c
  | .writeBack i => { c with dur := fun j => if j = i then c.vol j else c.dur j }

/-- hashMap.hpp:731-740: any number of steps. -/
def Creating.steps : List CreateStep → Creating → Creating
  | [], c => c
  | x :: xs, c => Creating.steps xs (c.step x)

/-- The file a crash leaves behind (hashMap.hpp:722: the mapping is `MAP_SHARED`). -/
def Creating.file (c : Creating) : File := ⟨c.len, c.dur⟩

/-- hashMap.hpp:731-740: the whole creation: all stores, then `PERSIST` of all pairs. -/
def Creating.all (len : Nat) : List CreateStep :=
  List.replicate (2 * len) .store ++ (List.range len).map .writeBack

/-! ## The directory -/

/-- hashMap.hpp:595-752: which pairs a table starts with when it is mapped as file number `count` with `newTable` true:
those of the existing file, or those of a new file of `tableCapacity` pairs.  `dir` lists the files by number. -/
def mmapPairs (dir : Nat → Option File) (count tableCapacity : Nat) : File :=
  match dir count with
  | some f => f
  | none => (Creating.steps (Creating.all tableCapacity) (Creating.start tableCapacity)).file

end PMap
