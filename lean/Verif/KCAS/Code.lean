import Verif.Word
import Mathlib.Data.List.Sort

/-!
# `include/KCAS/pmwcas.hpp`

The file as committed does not compile: `marking.hpp:8-9` has `PMwCASFlag` and `RDCSSFlag` commented out.  The model takes the
values of the comments (2 and 4), which are those of the bit fields at pmwcas.hpp:67-69.

Simplified: flushes and fences are left out (nothing here is said about crashes); the debugging counters `helps` and `opsDone`
(26-27) are left out; the fields of descriptors that are not atomic are read and written one at a time, each read or write being
one step; `T = uintptr_t`; addresses are offsets from `baseAddress` (167-172), and different offsets are different words.
-/

namespace PMap.KCAS

/-! ## Bit fields -/

/-- pmwcas.hpp:58 `tidSize`: `64 - clzl(P) - 1` is the position of the highest set bit; zero is replaced by one. -/
def tidSize (P : Nat) : Nat := if Nat.log2 P = 0 then 1 else Nat.log2 P

/-- pmwcas.hpp:63 `seqSize`. -/
def seqSize (tb : Nat) : Nat := 61 - tb

/-- pmwcas.hpp:67-74: the fields of a `DescRef`. -/
structure Ref where
  dirty : Bool
  kcas : Bool
  rdcss : Bool
  seq : Word
  tid : Word
  deriving DecidableEq, Repr

/-- pmwcas.hpp:89-93, 428-429: assignment to a bit field of `b` bits keeps the low bits. -/
def low (b : Nat) (w : Word) : Word := w &&& BitVec.ofNat 64 (2 ^ b - 1)

/-- pmwcas.hpp:103-105: a `bool` as a word. -/
def bit (b : Bool) : Word := if b then 1#64 else 0#64

/-- pmwcas.hpp:98-106 `operator T`. -/
def pack (tb : Nat) (d : Ref) : Word :=
  (d.tid <<< (seqSize tb + 3)) + (d.seq <<< 3) + (bit d.rdcss <<< 2) + (bit d.kcas <<< 1) + bit d.dirty

/-- pmwcas.hpp:84-94 `DescRef(T)`. -/
def unpack (tb : Nat) (w : Word) : Ref where
  tid := low tb (w >>> (seqSize tb + 3))
  seq := low (seqSize tb) (w >>> 3)
  rdcss := low 1 (w >>> 2) != 0#64
  kcas := low 1 (w >>> 1) != 0#64
  dirty := low 1 w != 0#64

/-- pmwcas.hpp:45-52 `Status`. -/
inductive Status
  | undecided | succeeded | failed
  deriving DecidableEq, Repr

/-- pmwcas.hpp:49-51 the enumerators' values. -/
def Status.word : Status → Word
  | .undecided => 0#64
  | .succeeded => 1#64
  | .failed => 2#64

/-- pmwcas.hpp:230-234 the fields of `KCASDescriptor::Mutable` (the status as its two bits). -/
structure KMut where
  dirty : Bool
  status : Word
  seq : Word
  deriving DecidableEq, Repr

/-- pmwcas.hpp:236-242 `operator uintptr_t`. -/
def KMut.pack (m : KMut) : Word := (m.seq <<< 3) + (m.status <<< 1) + bit m.dirty

/-- pmwcas.hpp:244-250 `Mutable(uintptr_t)`. -/
def KMut.unpack (w : Word) : KMut where
  seq := low 61 (w >>> 3)
  status := low 2 (w >>> 1)
  dirty := low 1 w != 0#64

/-- pmwcas.hpp:186-188 the fields of `WordDescriptor::Mutable`. -/
structure WMut where
  dirty : Bool
  seq : Word
  deriving DecidableEq, Repr

/-- pmwcas.hpp:190-195 `operator uintptr_t`. -/
def WMut.pack (m : WMut) : Word := (m.seq <<< 1) + bit m.dirty

/-- pmwcas.hpp:197-202 `Mutable(uintptr_t)`. -/
def WMut.unpack (w : Word) : WMut where
  seq := low 63 (w >>> 1)
  dirty := low 1 w != 0#64

/-! ## Memory and programs -/

/-- The atomic words: those of the array, and the `mutables` of the descriptors (pmwcas.hpp:167-172, 205, 253). -/
inductive Loc
  | arr (off : Word)
  | kmut (tid : Word)
  | wmut (tid : Word)
  deriving DecidableEq

/-- The fields of descriptors that are not atomic: pmwcas.hpp:256-259 `count`, `words[i]`; 159-161 `offset`, `oldVal`,
`newVal`; 208-209 `KCASseq`, `KCAStid`. -/
inductive Fld
  | count (tid : Word)
  | koff (tid : Word) (i : Nat)
  | kold (tid : Word) (i : Nat)
  | knew (tid : Word) (i : Nat)
  | woff (tid : Word)
  | wold (tid : Word)
  | wnew (tid : Word)
  | wkseq (tid : Word)
  | wktid (tid : Word)
  deriving DecidableEq

/-- The memory of pmwcas.hpp:269-274 and of the array it works on; `failed` records a failed assertion. -/
structure S where
  mem : Loc → Word
  fld : Fld → Word
  failed : Bool

/-- Atomic steps: the operations of `std::atomic` used in persistence.hpp:74, 84, 101 and pmwcas.hpp:389, 724, reads and writes
of plain fields, and `assert`. -/
inductive Act
  | ld (l : Loc)
  | st (l : Loc) (w : Word)
  /-- `compare_exchange_strong`; the response is the value found -/
  | cas (l : Loc) (e n : Word)
  | rd (f : Fld)
  | wr (f : Fld) (w : Word)
  | check (b : Bool)

/-- Effect of a step (sequentially consistent, as the default memory order of persistence.hpp:74, 84, 101). -/
def Act.exec : Act → S → Word × S
  | .ld l, s => (s.mem l, s)
  | .st l w, s => (0#64, { s with mem := fun l' => if l' = l then w else s.mem l' })
  | .cas l e n, s => (s.mem l, if s.mem l = e then { s with mem := fun l' => if l' = l then n else s.mem l' } else s)
  | .rd f, s => (s.fld f, s)
  | .wr f w, s => (0#64, { s with fld := fun f' => if f' = f then w else s.fld f' })
  | .check b, s => (0#64, { s with failed := s.failed || !b })

/-- Why a program stops without a result: fuel used up, the exception of pmwcas.hpp:372, or a descriptor beyond the `P` of
pmwcas.hpp:269-270 (980). -/
inductive Stop
  | fuel | threw | beyond
  deriving DecidableEq

/-- Programs over these steps (no code of its own). -/
inductive Prog (α : Type) : Type
  | ret (a : α)
  | act (a : Act) (k : Word → Prog α)
  | halt (h : Stop)

/-- Sequencing (no code of its own). -/
def Prog.bind {α β : Type} : Prog α → (α → Prog β) → Prog β
  | .ret a, f => f a
  | .act a k, f => .act a fun r => (k r).bind f
  | .halt h, _ => .halt h

instance : Monad Prog where
  pure := .ret
  bind := .bind

/-- One step (no code of its own). -/
def step (a : Act) : Prog Word := .act a .ret

/-- How a run ends (no code of its own). -/
inductive Out (α : Type)
  | done (a : α) (s : S)
  | halted (h : Stop)

/-- A program running alone (no code of its own). -/
def run {α : Type} : Prog α → S → Out α
  | .ret a, s => .done a s
  | .act a k, s => run (k (a.exec s).1) (a.exec s).2
  | .halt h, _ => .halted h

/-- Go round again, or leave the loop (`continue` and `break`, pmwcas.hpp:592, 622). -/
inductive Ctl (σ α : Type)
  | next (s : σ)
  | done (a : α)

/-- A loop (pmwcas.hpp:574, 719, 760, 811) bounded by fuel. -/
def loop {σ α : Type} : Nat → (σ → Prog (Ctl σ α)) → σ → Prog α
  | 0, _, _ => .halt .fuel
  | n + 1, body, s => do
    match ← body s with
    | .next s' => loop n body s'
    | .done a => return a

/-! ## persistence.hpp -/

/-- marking.hpp:7. -/
def DirtyBit : Word := 1#64
/-- marking.hpp:8, from the comment. -/
def PMwCASBit : Word := 2#64
/-- marking.hpp:9, from the comment. -/
def RDCSSBit : Word := 4#64

/-- persistence.hpp:89: the word without its dirty bit. -/
def cl (w : Word) : Word := w &&& ~~~DirtyBit

/-- persistence.hpp:70-76 `persist`. -/
def persist (l : Loc) (v : Word) : Prog Unit := do
  let _ ← step (.cas l v (cl v))
  return ()

/-- persistence.hpp:82-90 `pcas_read`. -/
def pcasRead (l : Loc) : Prog Word := do
  let w ← step (.ld l)
  if w &&& DirtyBit ≠ 0#64 then persist l w else pure ()
  return cl w

/-- persistence.hpp:95-104 `pcas`: success, and `oldVal` afterwards. -/
def pcas (l : Loc) (oldVal newVal : Word) : Prog (Bool × Word) := do
  let _ ← pcasRead l
  let r ← step (.cas l oldVal (newVal ||| DirtyBit))
  return (r == oldVal, r)

/-! ## Descriptors -/

variable (tb : Nat)

/-- pmwcas.hpp:360-375 `getSeq`. -/
def getSeq (d : Ref) : Prog Word :=
  if d.kcas ∧ ¬ d.rdcss then do return (KMut.unpack (← pcasRead (.kmut d.tid))).seq
  else if ¬ d.kcas ∧ d.rdcss then do return (WMut.unpack (← pcasRead (.wmut d.tid))).seq
  else .halt .threw

/-- pmwcas.hpp:159-161: one word of a multi-word CAS. -/
structure Entry where
  off : Word
  old : Word
  new : Word
  deriving DecidableEq, Repr

/-- pmwcas.hpp:403-406: copy the words into the descriptor. -/
def writeWords (tid : Word) : Nat → List Entry → Prog Unit
  | _, [] => return ()
  | i, e :: es => do
    let _ ← step (.wr (.koff tid i) e.off)
    let _ ← step (.wr (.kold tid i) e.old)
    let _ ← step (.wr (.knew tid i) e.new)
    writeWords tid (i + 1) es

/-- pmwcas.hpp:396-399: the assertion after sorting. -/
def ascending : List Entry → Bool
  | [] => true
  | [_] => true
  | a :: b :: l => decide (a.off < b.off) && ascending (b :: l)

/-- pmwcas.hpp:394 `std::sort` with 163-166 `operator<`. -/
def sortWords (ws : List Entry) : List Entry := ws.insertionSort (fun a b => a.off ≤ b.off)

/-- pmwcas.hpp:377-435 `createNew(threadNum, size, words)`. -/
def createKCAS (threadNum : Word) (ws : List Entry) : Prog Ref := do
  let m := KMut.unpack (← pcasRead (.kmut threadNum))
  let m : KMut := ⟨true, Status.undecided.word, low 61 (m.seq + 1#64)⟩
  let _ ← step (.st (.kmut threadNum) m.pack)
  persist (.kmut threadNum) m.pack
  let _ ← step (.check (ascending (sortWords ws) && decide (0 < ws.length)))
  let _ ← step (.wr (.count threadNum) (BitVec.ofNat 64 ws.length))
  writeWords threadNum 0 (sortWords ws)
  let m : KMut := ⟨true, m.status, low 61 (m.seq + 1#64)⟩
  let _ ← step (.st (.kmut threadNum) m.pack)
  persist (.kmut threadNum) m.pack
  return ⟨false, true, false, low (seqSize tb) m.seq, low tb threadNum⟩

/-- pmwcas.hpp:437-485 `createNew(helpingThreadNum, word, KCASDesc)`; `me` is `localThreadNum`. -/
def createRDCSS (me : Word) (helping : Word) (word : Entry) (d : Ref) : Prog Ref := do
  let m := WMut.unpack (← pcasRead (.wmut me))
  let m : WMut := ⟨true, low 63 (m.seq + 1#64)⟩
  let _ ← step (.st (.wmut me) m.pack)
  persist (.wmut me) m.pack
  let _ ← step (.wr (.woff me) word.off)
  let _ ← step (.wr (.wold me) word.old)
  let _ ← step (.wr (.wnew me) word.new)
  let _ ← step (.wr (.wkseq me) d.seq)
  let _ ← step (.wr (.wktid me) helping)
  let m : WMut := ⟨true, low 63 (m.seq + 1#64)⟩
  let _ ← step (.st (.wmut me) m.pack)
  persist (.wmut me) m.pack
  return ⟨false, false, true, low (seqSize tb) m.seq, low tb me⟩

/-- pmwcas.hpp:488-499 `readField`: the value, and `success`. -/
def readField (d : Ref) (l : Loc) (success : Bool) : Prog (Word × Bool) := do
  let r ← pcasRead l
  let q ← getSeq d
  return (r, if d.seq ≠ q then false else success)

/-- pmwcas.hpp:521-537 `CASField`: the result, `fExp` and `success` afterwards. -/
def casField (d : Ref) (fExp fNew : Word) (l : Loc) (success : Bool) : Prog (Bool × Word × Bool) := do
  let e ← pcasRead l
  let q ← getSeq d
  if d.seq ≠ q then return (false, fExp, false)
  else if e ≠ fExp then return (false, e, success)
  else do
    let r ← pcas l fExp fNew
    return (r.1, r.2, success)

/-! ## RDCSS -/

/-- pmwcas.hpp:850-889 `CompleteInstall`. -/
def completeInstall (r : Ref) : Prog Bool := do
  let kseq ← step (.rd (.wkseq r.tid))
  let ktid ← step (.rd (.wktid r.tid))
  let dummy : Ref := ⟨false, true, false, low (seqSize tb) kseq, low tb ktid⟩
  let ktid' ← step (.rd (.wktid r.tid))
  let f ← readField dummy (.kmut ktid') true
  let u := ((KMut.unpack f.1).status == Status.undecided.word) && f.2
  let expected := pack tb r
  let _ ← step (.check (expected &&& RDCSSBit != 0#64))
  let oldVal ← step (.rd (.wold r.tid))
  let off ← step (.rd (.woff r.tid))
  let c ← casField r expected (if u then pack tb dummy else oldVal) (.arr off) f.2
  return c.1

/-- pmwcas.hpp:808-848 `InstallMwCASDescriptor`: the value found, and `success`. -/
def install (n : Nat) (d : Ref) : Prog (Word × Bool) :=
  loop n (fun (_ : Unit) => do
    let oldVal ← step (.rd (.wold d.tid))
    let off ← step (.rd (.woff d.tid))
    let c ← casField d oldVal (pack tb d) (.arr off) true
    let _ ← step (.check ((c.1 && c.2.1 == oldVal) || (!c.1 && c.2.1 != oldVal) || (!c.1 && !c.2.2)))
    if !c.2.2 then return .done (c.2.1, false)
    else if (unpack tb c.2.1).rdcss then do
      let _ ← completeInstall tb (unpack tb c.2.1)
      return .next ()
    else if c.2.1 = oldVal then do
      let _ ← completeInstall tb d
      return .done (c.2.1, true)
    else return .done (c.2.1, true)) ()

/-! ## PMwCAS -/

/-- pmwcas.hpp:556-568: where a helper starts. -/
def startAt (n : Nat) (tid : Word) : Option Word → Prog Nat
  | none => return 0
  | some addr => loop n (fun (i : Nat) => do
      let c ← step (.rd (.count tid))
      if i < c.toNat then do
        let o ← step (.rd (.koff tid i))
        if o = addr then return .done (i + 1) else return .next (i + 1)
      else return .done 0) 0

/-- pmwcas.hpp:576-623, the body after the loop condition (from the label `retry`) for word `i`. The state of the loop is `i`
and whether the condition is tested. -/
def placeWord (help : Ref → Option Word → Prog Bool) (n : Nat) (me : Word) (d : Ref) (i : Nat) :
    Prog (Ctl (Nat × Bool) Status) := do
  let off ← step (.rd (.koff d.tid i))
  let old ← step (.rd (.kold d.tid i))
  let new ← step (.rd (.knew d.tid i))
  let w ← createRDCSS tb me d.tid ⟨off, old, new⟩ d
  let r ← install tb n w
  if !r.2 then return .done .succeeded
  else do
    let wo ← step (.rd (.wold w.tid))
    if r.1 = wo then return .next (i + 1, true)
    else if (unpack tb r.1).kcas then do
      if (unpack tb r.1).dirty then do
        let off ← step (.rd (.koff d.tid i))
        persist (.arr off) r.1
      else pure ()
      if (unpack tb r.1).tid = d.tid ∧ (unpack tb r.1).seq = d.seq then return .next (i + 1, true)
      else do
        let off ← step (.rd (.koff d.tid i))
        let _ ← help (unpack tb r.1) (some off)
        return .next (i, false)
    else return .done .failed

/-- pmwcas.hpp:571-624: place the descriptor in the words from `start` on; the result is `st`. -/
def place (help : Ref → Option Word → Prog Bool) (n : Nat) (me : Word) (d : Ref) (start : Nat) : Prog Status :=
  loop n (fun (x : Nat × Bool) => do
    if x.2 then do
      let c ← step (.rd (.count d.tid))
      if x.1 < c.toNat then placeWord tb help n me d x.1 else return .done .succeeded
    else placeWord tb help n me d x.1) (start, true)

/-- pmwcas.hpp:627-639: persist all target words. -/
def persistAll (n : Nat) (d : Ref) : Prog Unit :=
  loop n (fun (i : Nat) => do
    let c ← step (.rd (.count d.tid))
    if i < c.toNat then do
      let off ← step (.rd (.koff d.tid i))
      let _ ← pcasRead (.arr off)
      return .next (i + 1)
    else return .done ()) 0

/-- pmwcas.hpp:667-710: install the final values. -/
def finish (n : Nat) (d : Ref) (st : Status) : Prog Unit :=
  loop n (fun (i : Nat) => do
    let c ← step (.rd (.count d.tid))
    if i < c.toNat then do
      let v ← step (.rd (if st = .succeeded then .knew d.tid i else .kold d.tid i))
      let expected := pack tb d ||| PMwCASBit ||| DirtyBit
      let off ← step (.rd (.koff d.tid i))
      let c1 ← casField d expected v (.arr off) true
      if !c1.2.2 then return .done ()
      else if c1.2.1 = pack tb d ||| PMwCASBit then do
        let off ← step (.rd (.koff d.tid i))
        let c2 ← casField d (expected &&& ~~~DirtyBit) v (.arr off) c1.2.2
        if !c2.2.2 then return .done ()
        else do
          let off ← step (.rd (.koff d.tid i))
          persist (.arr off) v
          return .next (i + 1)
      else do
        let off ← step (.rd (.koff d.tid i))
        persist (.arr off) v
        return .next (i + 1)
    else return .done ()) 0

/-- pmwcas.hpp:553-714 `PMwCAS(desc, addr)`; `n` bounds the recursion and every loop, `me` is `localThreadNum`. -/
def pmwcas (me : Word) : Nat → Ref → Option Word → Prog Bool
  | 0, _, _ => .halt .fuel
  | n + 1, d, addr => do
    let start ← startAt n d.tid addr
    let st ← place tb (pmwcas me n) n me d start
    if st = .succeeded then persistAll n d else pure ()
    let mOld : KMut := ⟨false, Status.undecided.word, d.seq⟩
    let mNew : KMut := ⟨true, st.word, d.seq⟩
    let c ← casField d mOld.pack mNew.pack (.kmut d.tid) true
    persist (.kmut d.tid) mNew.pack
    if !c.2.2 then return false
    else do
      finish tb n d st
      return decide (st = .succeeded)

/-- pmwcas.hpp:541-551 `PMwCAS(threadNum, size, words)`. -/
def mwcas (n : Nat) (threadNum : Word) (ws : List Entry) : Prog Bool := do
  let d ← createKCAS tb threadNum ws
  pmwcas tb threadNum n d none

/-- pmwcas.hpp:717-753 `PMwCASRead`. -/
def mwRead (n : Nat) (me : Word) (off : Word) : Prog Word :=
  loop n (fun (_ : Unit) => do
    let v ← step (.ld (.arr off))
    if v &&& RDCSSBit ≠ 0#64 then do
      let _ ← step (.check ((unpack tb v).tid != me))
      let _ ← completeInstall tb (unpack tb v)
      return .next ()
    else do
      if v &&& DirtyBit ≠ 0#64 then persist (.arr off) v else pure ()
      let v := cl v
      if v &&& PMwCASBit ≠ 0#64 then do
        let _ ← pmwcas tb me n (unpack tb v) none
        return .next ()
      else return .done v) ()

/-- pmwcas.hpp:756-803 `CAS`: the result, and `oldVal` afterwards. -/
def mwCAS1 (n : Nat) (me : Word) (off oldVal newVal : Word) : Prog (Bool × Word) :=
  loop n (fun (_ : Unit) => do
    let r ← pcas (.arr off) oldVal newVal
    if r.1 then return .done (true, r.2)
    else if r.2 &&& RDCSSBit = 0#64 ∧ r.2 &&& PMwCASBit = 0#64 ∧ r.2 &&& DirtyBit = 0#64 then return .done (false, r.2)
    else do
      if r.2 &&& RDCSSBit ≠ 0#64 then do
        let _ ← step (.check ((unpack tb r.2).tid != me))
        let _ ← completeInstall tb (unpack tb r.2)
      else pure ()
      if r.2 &&& DirtyBit ≠ 0#64 then persist (.arr off) r.2 else pure ()
      if cl r.2 &&& PMwCASBit ≠ 0#64 then do
        let _ ← pmwcas tb me n (unpack tb (cl r.2)) none
      else pure ()
      return .next ()) ()

/-- pmwcas.hpp:330-356: the descriptors after construction (sequence numbers zero, marked dirty, `Succeeded`), over given words. -/
def fresh (arr : Word → Word) : S where
  mem
    | .arr o => arr o
    | .kmut _ => KMut.pack ⟨true, Status.succeeded.word, 0#64⟩
    | .wmut _ => WMut.pack ⟨true, 0#64⟩
  fld _ := 0#64
  failed := false

end PMap.KCAS
