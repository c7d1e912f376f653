import Verif.KCAS.Code

/-!
# `recover` of `include/KCAS/pmwcas.hpp` (890-999)

Left out: opening and mapping the file (892-919); the descriptors and the array are taken as the crash left them.  `me` is
`localThreadNum`, which in the thread that constructs the manager is 0 unless set (include/define.hpp:33).
-/

namespace PMap.KCAS

variable (tb : Nat)

/-- pmwcas.hpp:922, 937: `for (size_t i = 0; i < P; i++)`, from `i` on, with `k` indices left. -/
def upTo : Nat → Nat → (Nat → Prog Unit) → Prog Unit
  | 0, _, _ => return ()
  | k + 1, i, body => do
    body i
    upTo k (i + 1) body

/-- pmwcas.hpp:924-934: the word that single-word descriptor `i` names. -/
def recoverWord (i : Nat) : Prog Unit := do
  let off ← step (.rd (.woff (BitVec.ofNat 64 i)))
  let v ← pcasRead (.arr off)
  if (unpack tb v).rdcss ∧ ¬ (unpack tb v).kcas then do
    let _ ← completeInstall tb (unpack tb v)
  else pure ()
  let off ← step (.rd (.woff (BitVec.ofNat 64 i)))
  let v ← pcasRead (.arr off)
  let _ ← step (.check (!(unpack tb v).rdcss))
  return ()

/-- pmwcas.hpp:969-993: the check behind each multi-word descriptor.  Its index `i` hides the one of the loop around it, so it
looks at word `i` of descriptor `i` for `i = 0, 1, ...` until `i` reaches the count of descriptor `i`; nothing stops it at `P`
(reading descriptor `P` is `beyond`). -/
def recoverCheck (P n : Nat) : Prog Unit :=
  loop n (fun (i : Nat) => do
    if P ≤ i then .halt .beyond
    else do
      let c ← step (.rd (.count (BitVec.ofNat 64 i)))
      if i < c.toNat then do
        let off ← step (.rd (.koff (BitVec.ofNat 64 i) i))
        let v ← pcasRead (.arr off)
        let _ ← step (.check ((unpack tb v).kcas == (unpack tb v).rdcss))
        let v ← if (unpack tb v).rdcss ∧ ¬ (unpack tb v).kcas then do
            let _ ← completeInstall tb (unpack tb v)
            let off ← step (.rd (.koff (BitVec.ofNat 64 i) i))
            pcasRead (.arr off)
          else pure v
        let _ ← step (.check (!(unpack tb v).kcas && !(unpack tb v).rdcss))
        return .next (i + 1)
      else return .done ()) 0

/-- pmwcas.hpp:939-994: multi-word descriptor `i`. -/
def recoverDesc (P n : Nat) (me : Word) (i : Nat) : Prog Unit := do
  let m := KMut.unpack (← pcasRead (.kmut (BitVec.ofNat 64 i)))
  if m.seq.toNat % 2 ≠ 0 then do
    let _ ← step (.st (.kmut (BitVec.ofNat 64 i)) (KMut.pack ⟨true, Status.succeeded.word, 0#64⟩))
    let _ ← step (.wr (.count (BitVec.ofNat 64 i)) 0#64)
    return ()
  else do
    let m := KMut.unpack (← pcasRead (.kmut (BitVec.ofNat 64 i)))
    if m.status = Status.undecided.word then do
      let m := KMut.unpack (← pcasRead (.kmut (BitVec.ofNat 64 i)))
      let _ ← pmwcas tb me n ⟨false, true, false, low (seqSize tb) m.seq, low tb (BitVec.ofNat 64 i)⟩ none
    else pure ()
    recoverCheck tb P n

/-- pmwcas.hpp:921-998 `recover`, behind the mapping of the file. -/
def recover (P n : Nat) (me : Word) : Prog Unit := do
  upTo P 0 (recoverWord tb)
  upTo P 0 (recoverDesc tb P n me)

end PMap.KCAS
