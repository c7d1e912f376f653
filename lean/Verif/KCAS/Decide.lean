import Verif.KCAS.Calls

/-! # Decisions of multi-word CASes under every interleaving (helper lemmas) -/

namespace PMap.KCAS

/-- Sequence number and status in the state of a multi-word descriptor. -/
def seqW (w : Word) : Word := (KMut.unpack w).seq
/-- Status bits. -/
def statusW (w : Word) : Word := (KMut.unpack w).status

theorem seqW_toNat (w : Word) : (seqW w).toNat = w.toNat / 8 := (KMut.unpack_fields w).1
theorem statusW_toNat (w : Word) : (statusW w).toNat = w.toNat / 2 % 4 := (KMut.unpack_fields w).2.1

/-- The change from `e` to `n` keeps the sequence number and any decision. -/
def Keeps (e n : Word) : Prop := seqW n = seqW e ∧ (statusW e = 0#64 ∨ statusW n = statusW e)

theorem or_dirty_toNat (w : Word) : (w ||| DirtyBit).toNat = w.toNat / 2 * 2 + 1 := by
  have h : (w ||| DirtyBit) = cl w ||| DirtyBit := by
    apply BitVec.eq_of_getLsbD_eq
    intro i hi
    unfold cl DirtyBit
    simp only [BitVec.getLsbD_or, BitVec.getLsbD_and, BitVec.getLsbD_not, hi, decide_true, Bool.true_and]
    cases w.getLsbD i <;> cases (1#64 : Word).getLsbD i <;> rfl
  have h2 : cl w ||| DirtyBit = cl w + DirtyBit := by
    apply (BitVec.add_eq_or_of_and_eq_zero _ _ ?_).symm
    unfold cl
    rw [BitVec.and_assoc]
    have : ~~~DirtyBit &&& DirtyBit = 0#64 := by decide
    rw [this, BitVec.and_zero]
  rw [h, h2, BitVec.toNat_add, cl_toNat]
  have := w.isLt
  show (w.toNat / 2 * 2 + 1) % 2 ^ 64 = _
  omega

theorem seqW_cl (w : Word) : seqW (cl w) = seqW w := by
  apply BitVec.eq_of_toNat_eq; rw [seqW_toNat, seqW_toNat, cl_toNat]; omega
theorem statusW_cl (w : Word) : statusW (cl w) = statusW w := by
  apply BitVec.eq_of_toNat_eq; rw [statusW_toNat, statusW_toNat, cl_toNat]; omega
theorem seqW_or (w : Word) : seqW (w ||| DirtyBit) = seqW w := by
  apply BitVec.eq_of_toNat_eq; rw [seqW_toNat, seqW_toNat, or_dirty_toNat]; omega
theorem statusW_or (w : Word) : statusW (w ||| DirtyBit) = statusW w := by
  apply BitVec.eq_of_toNat_eq; rw [statusW_toNat, statusW_toNat, or_dirty_toNat]; omega

/-- Steps that keep every descriptor's sequence number and decision. -/
def Act.Quiet : Act → Prop
  | .st (.kmut _) _ => False
  | .cas (.kmut _) e n => Keeps e n
  | _ => True

/-- All steps of the program are such, whatever it reads. -/
def Quiet {α : Type} : Prog α → Prop
  | .ret _ => True
  | .halt _ => True
  | .act a k => a.Quiet ∧ ∀ r, Quiet (k r)

theorem Quiet.bind {α β : Type} {p : Prog α} {f : α → Prog β} (h : Quiet p) (hf : ∀ a, Quiet (f a)) : Quiet (p >>= f) := by
  show Quiet (p.bind f)
  induction p with
  | ret a => exact hf a
  | halt h' => trivial
  | act a k ih => exact ⟨h.1, fun r => ih r (h.2 r)⟩

theorem Quiet.pure {α : Type} (a : α) : Quiet (pure a : Prog α) := trivial

theorem Quiet.step {a : Act} (h : a.Quiet) : Quiet (step a) := ⟨h, fun _ => trivial⟩

theorem Quiet.ite {α : Type} {c : Prop} [Decidable c] {p q : Prog α} (h1 : Quiet p) (h2 : Quiet q) :
    Quiet (if c then p else q) := by split <;> assumption

theorem Quiet.loop {σ α : Type} (n : Nat) {body : σ → Prog (Ctl σ α)} (h : ∀ x, Quiet (body x)) (x : σ) :
    Quiet (loop n body x) := by
  induction n generalizing x with
  | zero => trivial
  | succ n ih =>
    unfold KCAS.loop
    refine Quiet.bind (h x) ?_
    rintro (y | a)
    · exact ih y
    · trivial

theorem Quiet.persist (l : Loc) (v : Word) : Quiet (persist l v) := by
  refine Quiet.bind (Quiet.step ?_) fun _ => Quiet.pure _
  cases l with
  | kmut t => exact ⟨seqW_cl v, Or.inr (statusW_cl v)⟩
  | arr o => trivial
  | wmut t => trivial

theorem Quiet.pcasRead (l : Loc) : Quiet (pcasRead l) := by
  refine Quiet.bind (Quiet.step ?_) fun w => ?_
  · cases l <;> trivial
  · exact Quiet.ite (Quiet.bind (Quiet.persist _ _) fun _ => Quiet.pure _) (Quiet.pure _)

/-- `CASField` on anything but the state of a multi-word descriptor, or from an undecided state. -/
def CasOk (l : Loc) (e n : Word) : Prop := ∀ t, l = .kmut t → Keeps e n

theorem Quiet.pcas {l : Loc} {e n : Word} (h : CasOk l e n) : Quiet (pcas l e n) := by
  refine Quiet.bind (Quiet.pcasRead l) fun _ => Quiet.bind (Quiet.step ?_) fun _ => Quiet.pure _
  cases l with
  | kmut t =>
    obtain ⟨h1, h2⟩ := h t rfl
    exact ⟨(seqW_or n).trans h1, h2.imp id fun h => (statusW_or n).trans h⟩
  | arr o => trivial
  | wmut t => trivial

theorem Quiet.getSeq (d : Ref) : Quiet (getSeq d) := by
  unfold KCAS.getSeq
  refine Quiet.ite ?_ (Quiet.ite ?_ trivial)
  · exact Quiet.bind (Quiet.pcasRead _) fun _ => Quiet.pure _
  · exact Quiet.bind (Quiet.pcasRead _) fun _ => Quiet.pure _

theorem Quiet.casField (d : Ref) {e n : Word} {l : Loc} (b : Bool) (h : CasOk l e n) : Quiet (casField d e n l b) := by
  refine Quiet.bind (Quiet.pcasRead l) fun _ => Quiet.bind (Quiet.getSeq d) fun _ => Quiet.ite (Quiet.pure _) (Quiet.ite (Quiet.pure _) ?_)
  exact Quiet.bind (Quiet.pcas h) fun _ => Quiet.pure _

theorem casOk_arr (o e n : Word) : CasOk (.arr o) e n := by intro t h; cases h

theorem Quiet.rd (f : Fld) : Quiet (KCAS.step (.rd f)) := Quiet.step trivial
theorem Quiet.wr (f : Fld) (w : Word) : Quiet (KCAS.step (.wr f w)) := Quiet.step trivial
theorem Quiet.check (b : Bool) : Quiet (KCAS.step (.check b)) := Quiet.step trivial
theorem Quiet.stW (t w : Word) : Quiet (KCAS.step (.st (.wmut t) w)) := Quiet.step trivial

variable (tb : Nat)

theorem Quiet.createRDCSS (me t : Word) (e : Entry) (d : Ref) : Quiet (createRDCSS tb me t e d) := by
  unfold KCAS.createRDCSS
  refine Quiet.bind (Quiet.pcasRead _) fun _ => ?_
  refine Quiet.bind (Quiet.stW _ _) fun _ => Quiet.bind (Quiet.persist _ _) fun _ => Quiet.bind (Quiet.wr _ _) fun _ =>
    Quiet.bind (Quiet.wr _ _) fun _ => Quiet.bind (Quiet.wr _ _) fun _ => Quiet.bind (Quiet.wr _ _) fun _ =>
    Quiet.bind (Quiet.wr _ _) fun _ => ?_
  exact Quiet.bind (Quiet.stW _ _) fun _ => Quiet.bind (Quiet.persist _ _) fun _ => Quiet.pure _

theorem Quiet.completeInstall (r : Ref) : Quiet (completeInstall tb r) := by
  unfold KCAS.completeInstall
  refine Quiet.bind (Quiet.rd _) fun _ => Quiet.bind (Quiet.rd _) fun _ => ?_
  refine Quiet.bind (Quiet.rd _) fun _ => Quiet.bind ?_ fun _ => ?_
  · exact Quiet.bind (Quiet.pcasRead _) fun _ => Quiet.bind (Quiet.getSeq _) fun _ => Quiet.pure _
  · refine Quiet.bind (Quiet.check _) fun _ => Quiet.bind (Quiet.rd _) fun _ => Quiet.bind (Quiet.rd _) fun _ => ?_
    exact Quiet.bind (Quiet.casField _ _ (casOk_arr _ _ _)) fun _ => Quiet.pure _

theorem Quiet.install (n : Nat) (d : Ref) : Quiet (install tb n d) := by
  refine Quiet.loop n (fun _ => ?_) _
  refine Quiet.bind (Quiet.rd _) fun _ => Quiet.bind (Quiet.rd _) fun _ => Quiet.bind (Quiet.casField _ _ (casOk_arr _ _ _)) fun _ =>
    Quiet.bind (Quiet.check _) fun _ => ?_
  refine Quiet.ite (Quiet.pure _) (Quiet.ite ?_ (Quiet.ite ?_ (Quiet.pure _)))
  · exact Quiet.bind (Quiet.completeInstall tb _) fun _ => Quiet.pure _
  · exact Quiet.bind (Quiet.completeInstall tb _) fun _ => Quiet.pure _

theorem Quiet.startAt (n : Nat) (t : Word) (a : Option Word) : Quiet (startAt n t a) := by
  cases a with
  | none => trivial
  | some a =>
    refine Quiet.loop n (fun _ => ?_) _
    refine Quiet.bind (Quiet.rd _) fun _ => Quiet.ite ?_ (Quiet.pure _)
    exact Quiet.bind (Quiet.rd _) fun _ => Quiet.ite (Quiet.pure _) (Quiet.pure _)

theorem Quiet.placeWord {help : Ref → Option Word → Prog Bool} (hh : ∀ d a, Quiet (help d a)) (n : Nat) (me : Word) (d : Ref)
    (i : Nat) : Quiet (placeWord tb help n me d i) := by
  unfold KCAS.placeWord
  refine Quiet.bind (Quiet.rd _) fun _ => Quiet.bind (Quiet.rd _) fun _ => Quiet.bind (Quiet.rd _) fun _ =>
    Quiet.bind (Quiet.createRDCSS tb _ _ _ _) fun _ => Quiet.bind (Quiet.install tb _ _) fun r => Quiet.ite (Quiet.pure _) ?_
  refine Quiet.bind (Quiet.rd _) fun _ => Quiet.ite (Quiet.pure _) (Quiet.ite ?_ (Quiet.pure _))
  have hrest : Quiet (if (unpack tb r.1).tid = d.tid ∧ (unpack tb r.1).seq = d.seq then
      (return .next (i + 1, true) : Prog (Ctl (Nat × Bool) Status)) else do
        let off ← KCAS.step (.rd (.koff d.tid i))
        let _ ← help (unpack tb r.1) (some off)
        return .next (i, false)) :=
    Quiet.ite (Quiet.pure _) (Quiet.bind (Quiet.rd _) fun _ => Quiet.bind (hh _ _) fun _ => Quiet.pure _)
  exact Quiet.ite (Quiet.bind (Quiet.rd _) fun _ => Quiet.bind (Quiet.persist _ _) fun _ => hrest) hrest

theorem Quiet.place {help : Ref → Option Word → Prog Bool} (hh : ∀ d a, Quiet (help d a)) (n : Nat) (me : Word) (d : Ref)
    (i : Nat) : Quiet (place tb help n me d i) := by
  refine Quiet.loop n (fun _ => ?_) _
  refine Quiet.ite (Quiet.bind (Quiet.rd _) fun _ => Quiet.ite (Quiet.placeWord tb hh _ _ _ _) (Quiet.pure _)) ?_
  exact Quiet.placeWord tb hh _ _ _ _

theorem Quiet.persistAll (n : Nat) (d : Ref) : Quiet (persistAll n d) := by
  refine Quiet.loop n (fun _ => ?_) _
  exact Quiet.bind (Quiet.rd _) fun _ => Quiet.ite (Quiet.bind (Quiet.rd _) fun _ => Quiet.bind (Quiet.pcasRead _) fun _ =>
    Quiet.pure _) (Quiet.pure _)

theorem Quiet.finish (n : Nat) (d : Ref) (st : Status) : Quiet (finish tb n d st) := by
  refine Quiet.loop n (fun _ => ?_) _
  refine Quiet.bind (Quiet.rd _) fun _ => Quiet.ite (Quiet.bind (Quiet.rd _) fun _ => ?_) (Quiet.pure _)
  refine Quiet.bind (Quiet.rd _) fun _ => Quiet.bind (Quiet.casField _ _ (casOk_arr _ _ _)) fun _ =>
    Quiet.ite (Quiet.pure _) (Quiet.ite ?_ ?_)
  · refine Quiet.bind (Quiet.rd _) fun _ => Quiet.bind (Quiet.casField _ _ (casOk_arr _ _ _)) fun _ => Quiet.ite (Quiet.pure _) ?_
    exact Quiet.bind (Quiet.rd _) fun _ => Quiet.bind (Quiet.persist _ _) fun _ => Quiet.pure _
  · exact Quiet.bind (Quiet.rd _) fun _ => Quiet.bind (Quiet.persist _ _) fun _ => Quiet.pure _

theorem keeps_decide (st : Status) (q : Word) :
    Keeps (KMut.pack ⟨false, Status.undecided.word, q⟩) (KMut.pack ⟨true, st.word, q⟩) := by
  have h1 : (KMut.pack ⟨false, Status.undecided.word, q⟩).toNat = q.toNat * 8 % 2 ^ 64 := by
    unfold KMut.pack
    simp only [BitVec.toNat_add, BitVec.toNat_shiftLeft, Nat.shiftLeft_eq, bit_toNat, Nat.mod_add_mod, Nat.add_mod_mod]
    show (q.toNat * 2 ^ 3 + 0 * 2 ^ 1 + 0) % 2 ^ 64 = _
    omega
  have h2 : (KMut.pack ⟨true, st.word, q⟩).toNat = (q.toNat * 8 + st.word.toNat * 2 + 1) % 2 ^ 64 := by
    unfold KMut.pack
    simp only [BitVec.toNat_add, BitVec.toNat_shiftLeft, Nat.shiftLeft_eq, bit_toNat, Nat.mod_add_mod, Nat.add_mod_mod]
    rfl
  have hs : st.word.toNat < 3 := by cases st <;> decide
  refine ⟨?_, Or.inl ?_⟩
  · apply BitVec.eq_of_toNat_eq
    rw [seqW_toNat, seqW_toNat, h1, h2]
    omega
  · apply BitVec.eq_of_toNat_eq
    rw [statusW_toNat, h1]
    show _ = 0
    omega

theorem Quiet.pmwcas (me : Word) (n : Nat) (d : Ref) (a : Option Word) : Quiet (pmwcas tb me n d a) := by
  induction n generalizing d a with
  | zero => trivial
  | succ n ih =>
    unfold KCAS.pmwcas
    refine Quiet.bind (Quiet.startAt _ _ _) fun _ => Quiet.bind (Quiet.place tb ih _ _ _ _) fun st => ?_
    have hrest : Quiet (do
        let c ← KCAS.casField d (KMut.pack ⟨false, Status.undecided.word, d.seq⟩) (KMut.pack ⟨true, st.word, d.seq⟩) (.kmut d.tid) true
        KCAS.persist (.kmut d.tid) (KMut.pack ⟨true, st.word, d.seq⟩)
        if !c.2.2 then return false
        else do
          KCAS.finish tb n d st
          return decide (st = .succeeded)) := by
      refine Quiet.bind (Quiet.casField _ _ fun _ _ => keeps_decide st _) fun _ => Quiet.bind (Quiet.persist _ _) fun _ =>
        Quiet.ite (Quiet.pure _) ?_
      exact Quiet.bind (Quiet.finish tb _ _ _) fun _ => Quiet.pure _
    exact Quiet.ite (Quiet.bind (Quiet.persistAll _ _) fun _ => hrest) hrest

theorem Quiet.mwRead (n : Nat) (me o : Word) : Quiet (mwRead tb n me o) := by
  refine Quiet.loop n (fun _ => ?_) _
  refine Quiet.bind (Quiet.step trivial) fun v => Quiet.ite ?_ ?_
  · exact Quiet.bind (Quiet.check _) fun _ => Quiet.bind (Quiet.completeInstall tb _) fun _ => Quiet.pure _
  · have hrest : Quiet (if cl v &&& PMwCASBit ≠ 0#64 then (do
        let _ ← KCAS.pmwcas tb me n (unpack tb (cl v)) none
        return .next ()) else (return .done (cl v) : Prog (Ctl Unit Word))) :=
      Quiet.ite (Quiet.bind (Quiet.pmwcas tb _ _ _ _) fun _ => Quiet.pure _) (Quiet.pure _)
    exact Quiet.ite (Quiet.bind (Quiet.persist _ _) fun _ => hrest) hrest

theorem Quiet.mwCAS1 (n : Nat) (me o a b : Word) : Quiet (mwCAS1 tb n me o a b) := by
  refine Quiet.loop n (fun _ => ?_) _
  refine Quiet.bind (Quiet.pcas (casOk_arr _ _ _)) fun r => Quiet.ite (Quiet.pure _) (Quiet.ite (Quiet.pure _) ?_)
  have h3 : Quiet (if cl r.2 &&& PMwCASBit ≠ 0#64 then (do
        let _ ← KCAS.pmwcas tb me n (unpack tb (cl r.2)) none
        return .next ()) else (return .next () : Prog (Ctl Unit (Bool × Word)))) :=
    Quiet.ite (Quiet.bind (Quiet.pmwcas tb _ _ _ _) fun _ => Quiet.pure _) (Quiet.pure _)
  have h2 : Quiet (if r.2 &&& DirtyBit ≠ 0#64 then (do
        KCAS.persist (.arr o) r.2
        if cl r.2 &&& PMwCASBit ≠ 0#64 then (do
          let _ ← KCAS.pmwcas tb me n (unpack tb (cl r.2)) none
          return .next ()) else (return .next () : Prog (Ctl Unit (Bool × Word))))
      else (if cl r.2 &&& PMwCASBit ≠ 0#64 then (do
          let _ ← KCAS.pmwcas tb me n (unpack tb (cl r.2)) none
          return .next ()) else (return .next () : Prog (Ctl Unit (Bool × Word))))) :=
    Quiet.ite (Quiet.bind (Quiet.persist _ _) fun _ => h3) h3
  exact Quiet.ite (Quiet.bind (Quiet.check _) fun _ => Quiet.bind (Quiet.completeInstall tb _) fun _ => h2) h2

/-! ## The owner's stores -/

/-- All steps keep sequence numbers and decisions, except that thread `me`, whose descriptor has sequence number `q`, may store
the next sequence number with an undecided status. -/
def Obey {α : Type} (me : Word) : Prog α → (α → Word → Prop) → Word → Prop
  | .ret a, Q, q => Q a q
  | .halt _, _, _ => True
  | .act (.st (.kmut x) w) k, Q, q =>
    x = me ∧ seqW w = low 61 (q + 1#64) ∧ statusW w = 0#64 ∧ ∀ r, Obey me (k r) Q (seqW w)
  | .act (.ld (.kmut x)) k, Q, q => ∀ r, (x = me → seqW r = q) → Obey me (k r) Q q
  | .act a k, Q, q => a.Quiet ∧ ∀ r, Obey me (k r) Q q

theorem Obey.of_quiet {α : Type} {me : Word} {p : Prog α} {Q : α → Word → Prop} {q : Word} (h : Quiet p) (hq : ∀ a, Q a q) :
    Obey me p Q q := by
  induction p with
  | ret a => exact hq a
  | halt _ => trivial
  | act a k ih =>
    cases a with
    | st l w => cases l with
      | kmut x => exact absurd h.1 id
      | arr o => exact ⟨trivial, fun r => ih r (h.2 r)⟩
      | wmut o => exact ⟨trivial, fun r => ih r (h.2 r)⟩
    | ld l => cases l with
      | kmut x => exact fun r _ => ih r (h.2 r)
      | arr o => exact ⟨trivial, fun r => ih r (h.2 r)⟩
      | wmut o => exact ⟨trivial, fun r => ih r (h.2 r)⟩
    | cas l e n => exact ⟨h.1, fun r => ih r (h.2 r)⟩
    | rd f => exact ⟨trivial, fun r => ih r (h.2 r)⟩
    | wr f w => exact ⟨trivial, fun r => ih r (h.2 r)⟩
    | check b => exact ⟨trivial, fun r => ih r (h.2 r)⟩

theorem Obey.bind {α β : Type} {me : Word} {p : Prog α} {f : α → Prog β} {Q : β → Word → Prop} {q : Word}
    (h : Obey me p (fun a q' => Obey me (f a) Q q') q) : Obey me (p >>= f) Q q := by
  show Obey me (p.bind f) Q q
  induction p generalizing q with
  | ret a => exact h
  | halt _ => trivial
  | act a k ih =>
    cases a with
    | st l w => cases l with
      | kmut x => exact ⟨h.1, h.2.1, h.2.2.1, fun r => ih r (h.2.2.2 r)⟩
      | arr o => exact ⟨trivial, fun r => ih r (h.2 r)⟩
      | wmut o => exact ⟨trivial, fun r => ih r (h.2 r)⟩
    | ld l => cases l with
      | kmut x => exact fun r hr => ih r (h r hr)
      | arr o => exact ⟨trivial, fun r => ih r (h.2 r)⟩
      | wmut o => exact ⟨trivial, fun r => ih r (h.2 r)⟩
    | cas l e n => exact ⟨h.1, fun r => ih r (h.2 r)⟩
    | rd f => exact ⟨trivial, fun r => ih r (h.2 r)⟩
    | wr f w => exact ⟨trivial, fun r => ih r (h.2 r)⟩
    | check b => exact ⟨trivial, fun r => ih r (h.2 r)⟩

theorem Quiet.writeWords (t : Word) (es : List Entry) (i : Nat) : Quiet (writeWords t i es) := by
  induction es generalizing i with
  | nil => trivial
  | cons e es ih =>
    exact Quiet.bind (Quiet.wr _ _) fun _ => Quiet.bind (Quiet.wr _ _) fun _ => Quiet.bind (Quiet.wr _ _) fun _ => ih _

theorem stored (q st : Word) (hq : q.toNat < 2 ^ 61) (hst : st.toNat < 4) : seqW (KMut.pack ⟨true, st, q⟩) = q
    ∧ statusW (KMut.pack ⟨true, st, q⟩) = st := by
  unfold seqW statusW
  rw [KMut.unpack_pack _ ⟨hst, hq⟩]
  exact ⟨rfl, rfl⟩

theorem Obey.createKCAS (me : Word) (ws : List Entry) {Q : Ref → Word → Prop} (h : ∀ a q, Q a q) (q : Word) :
    Obey me (createKCAS tb me ws) Q q := by
  unfold KCAS.createKCAS
  apply Obey.bind
  unfold KCAS.pcasRead
  show Obey me (Prog.act (.ld (.kmut me)) _) _ q
  intro r hr
  have hr := hr rfl
  have hl : ∀ x : Word, (low 61 x).toNat < 2 ^ 61 := fun x => low_lt 61 (by decide) x
  -- what follows the read
  have hnext : Obey me (do
      let _ ← KCAS.step (.st (.kmut me) (KMut.pack ⟨true, Status.undecided.word, low 61 (seqW r + 1#64)⟩))
      KCAS.persist (.kmut me) (KMut.pack ⟨true, Status.undecided.word, low 61 (seqW r + 1#64)⟩)
      let _ ← KCAS.step (.check (ascending (sortWords ws) && decide (0 < ws.length)))
      let _ ← KCAS.step (.wr (.count me) (BitVec.ofNat 64 ws.length))
      KCAS.writeWords me 0 (sortWords ws)
      let _ ← KCAS.step (.st (.kmut me)
        (KMut.pack ⟨true, Status.undecided.word, low 61 (low 61 (seqW r + 1#64) + 1#64)⟩))
      KCAS.persist (.kmut me) (KMut.pack ⟨true, Status.undecided.word, low 61 (low 61 (seqW r + 1#64) + 1#64)⟩)
      return (⟨false, true, false, low (seqSize tb) (low 61 (low 61 (seqW r + 1#64) + 1#64)), low tb me⟩ : Ref)) Q q := by
    obtain ⟨a1, a2⟩ := stored (low 61 (seqW r + 1#64)) Status.undecided.word (hl _) (by decide)
    obtain ⟨b1, b2⟩ := stored (low 61 (low 61 (seqW r + 1#64) + 1#64)) Status.undecided.word (hl _) (by decide)
    apply Obey.bind
    refine ⟨rfl, by rw [a1, hr], a2, fun _ => ?_⟩
    rw [a1]
    apply Obey.bind
    refine Obey.of_quiet (Quiet.persist _ _) fun _ => ?_
    apply Obey.bind
    refine Obey.of_quiet (Quiet.check _) fun _ => ?_
    apply Obey.bind
    refine Obey.of_quiet (Quiet.wr _ _) fun _ => ?_
    apply Obey.bind
    refine Obey.of_quiet (Quiet.writeWords _ _ _) fun _ => ?_
    apply Obey.bind
    refine ⟨rfl, b1, b2, fun _ => ?_⟩
    apply Obey.bind
    refine Obey.of_quiet (Quiet.persist _ _) fun _ => ?_
    exact h _ _
  rw [← seqW_cl r] at hnext
  have hw : ∀ p : Prog Word, p = (if r &&& DirtyBit ≠ 0#64 then (do KCAS.persist (.kmut me) r; return cl r) else return cl r) →
      Quiet p := by
    rintro p rfl
    exact Quiet.ite (Quiet.bind (Quiet.persist _ _) fun _ => Quiet.pure _) (Quiet.pure _)
  show Obey me (if r &&& DirtyBit ≠ 0#64 then (do KCAS.persist (.kmut me) r; return cl r) else return cl r) _ q
  split
  · apply Obey.bind
    refine Obey.of_quiet (Quiet.persist _ _) fun _ => ?_
    exact hnext
  · exact hnext

theorem Obey.call (n : Nat) (me : Word) (c : Call) {Q : Answer → Word → Prop} (h : ∀ a q, Q a q) (q : Word) :
    Obey me (c.prog tb n me) Q q := by
  cases c with
  | mwcas ws =>
    apply Obey.bind
    apply Obey.bind
    apply Obey.createKCAS
    intro d q'
    exact Obey.of_quiet (Quiet.pmwcas tb _ _ _ _) fun _ => h _ _
  | read off => exact Obey.of_quiet (Quiet.bind (Quiet.mwRead tb _ _ _) fun _ => Quiet.pure _) fun _ => h _ _
  | cas off old new => exact Obey.of_quiet (Quiet.bind (Quiet.mwCAS1 tb _ _ _ _ _) fun _ => Quiet.pure _) fun _ => h _ _

theorem Obey.calls (n : Nat) (me : Word) (cs : List Call) (q : Word) :
    Obey me (calls tb n (cs.map fun c => (me, c))) (fun _ _ => True) q := by
  induction cs generalizing q with
  | nil => trivial
  | cons c cs ih =>
    apply Obey.bind
    apply Obey.call
    intro a q'
    apply Obey.bind
    have hmono : ∀ (p : Prog (List Answer)) (q : Word), Obey me p (fun _ _ => True) q →
        Obey me p (fun as q => Obey me (return a :: as) (fun _ _ => True) q) q := by
      intro p
      induction p with
      | ret _ => intro _ _; trivial
      | halt _ => intro _ _; trivial
      | act b k ih =>
        intro q h
        cases b with
        | st l w => cases l with
          | kmut x => exact ⟨h.1, h.2.1, h.2.2.1, fun r => ih r _ (h.2.2.2 r)⟩
          | arr o => exact ⟨trivial, fun r => ih r _ (h.2 r)⟩
          | wmut o => exact ⟨trivial, fun r => ih r _ (h.2 r)⟩
        | ld l => cases l with
          | kmut x => exact fun r hr => ih r _ (h r hr)
          | arr o => exact ⟨trivial, fun r => ih r _ (h.2 r)⟩
          | wmut o => exact ⟨trivial, fun r => ih r _ (h.2 r)⟩
        | cas l e n => exact ⟨h.1, fun r => ih r _ (h.2 r)⟩
        | rd f => exact ⟨trivial, fun r => ih r _ (h.2 r)⟩
        | wr f w => exact ⟨trivial, fun r => ih r _ (h.2 r)⟩
        | check b => exact ⟨trivial, fun r => ih r _ (h.2 r)⟩
    exact hmono _ _ (ih q')

/-! ## Every interleaving -/

/-- One step keeps sequence number and decision of every descriptor, or starts a new operation of its owner. -/
def Kept (s s' : S) (t : Word) : Prop :=
  (seqW (s'.mem (.kmut t)) = seqW (s.mem (.kmut t))
      ∧ (statusW (s.mem (.kmut t)) = 0#64 ∨ statusW (s'.mem (.kmut t)) = statusW (s.mem (.kmut t))))
    ∨ (seqW (s'.mem (.kmut t)) = low 61 (seqW (s.mem (.kmut t)) + 1#64) ∧ statusW (s'.mem (.kmut t)) = 0#64)

theorem quiet_kept {a : Act} (h : a.Quiet) (s : S) (t : Word) :
    seqW ((a.exec s).2.mem (.kmut t)) = seqW (s.mem (.kmut t))
      ∧ (statusW (s.mem (.kmut t)) = 0#64 ∨ statusW ((a.exec s).2.mem (.kmut t)) = statusW (s.mem (.kmut t))) := by
  cases a with
  | ld l => exact ⟨rfl, Or.inr rfl⟩
  | rd f => exact ⟨rfl, Or.inr rfl⟩
  | wr f w => exact ⟨rfl, Or.inr rfl⟩
  | check b => exact ⟨rfl, Or.inr rfl⟩
  | st l w =>
    cases l with
    | kmut x => exact absurd h id
    | arr o => exact ⟨rfl, Or.inr rfl⟩
    | wmut o => exact ⟨rfl, Or.inr rfl⟩
  | cas l e n =>
    rw [exec_cas]
    simp only
    split
    · rename_i he
      show seqW (if Loc.kmut t = l then n else s.mem (.kmut t)) = _ ∧ (_ ∨ statusW (if Loc.kmut t = l then n else s.mem (.kmut t)) = _)
      split
      · rename_i hl
        subst hl
        rw [he]
        exact h
      · exact ⟨rfl, Or.inr rfl⟩
    · exact ⟨rfl, Or.inr rfl⟩

theorem obey_steps (tid : Nat → Word) (used : Nat → Prop) (hinj : ∀ i j, used i → used j → tid i = tid j → i = j)
    {α : Type} (p : Nat → Prog α) (s0 : S) (hused : ∀ i, ¬ used i → ∃ a, p i = .ret a)
    (hp : ∀ i q, Obey (tid i) (p i) (fun _ _ => True) q) (c : Cfg α) (h : Steps ⟨p, s0⟩ c) :
    (∀ i, ¬ used i → ∃ a, c.threads i = .ret a) ∧
      ∀ i, used i → Obey (tid i) (c.threads i) (fun _ _ => True) (seqW (c.mem.mem (.kmut (tid i)))) := by
  generalize hc0 : (⟨p, s0⟩ : Cfg α) = c0 at h
  induction h with
  | refl =>
    subst hc0
    exact ⟨hused, fun i _ => hp i _⟩
  | @tail b c' _ s ih =>
    obtain ⟨hu, hall⟩ := ih
    cases s with
    | mk i a k hk =>
      have hui : used i := by
        by_contra hn
        obtain ⟨x, hx⟩ := hu i hn
        rw [hx] at hk; cases hk
      have hi := hall i hui
      rw [hk] at hi
      refine ⟨?_, ?_⟩
      · intro j hj
        have hji : j ≠ i := fun e => hj (e ▸ hui)
        show ∃ x, (if j = i then _ else b.threads j) = _
        rw [if_neg hji]; exact hu j hj
      · intro j hj
        show Obey (tid j) (if j = i then k (a.exec b.mem).1 else b.threads j) _ (seqW ((a.exec b.mem).2.mem (.kmut (tid j))))
        -- quiet steps
        have hquiet : a.Quiet → (∀ r, (r = (a.exec b.mem).1) → Obey (tid i) (k r) (fun _ _ => True) (seqW (b.mem.mem (.kmut (tid i))))) →
            Obey (tid j) (if j = i then k (a.exec b.mem).1 else b.threads j) (fun _ _ => True)
              (seqW ((a.exec b.mem).2.mem (.kmut (tid j)))) := by
          intro hq hkr
          rw [(quiet_kept hq b.mem (tid j)).1]
          by_cases hji : j = i
          · subst hji
            rw [if_pos rfl]; exact hkr _ rfl
          · rw [if_neg hji]; exact hall j hj
        cases a with
        | st l w =>
          cases l with
          | kmut x =>
            obtain ⟨rfl, h2, h3, h4⟩ := hi
            by_cases hji : j = i
            · subst hji
              rw [if_pos rfl]
              show Obey (tid j) (k 0#64) _ (seqW (if Loc.kmut (tid j) = Loc.kmut (tid j) then w else _))
              rw [if_pos rfl]; exact h4 _
            · rw [if_neg hji]
              show Obey (tid j) (b.threads j) _ (seqW (if Loc.kmut (tid j) = Loc.kmut (tid i) then w else b.mem.mem (.kmut (tid j))))
              rw [if_neg]
              · exact hall j hj
              · intro e
                exact hji (hinj j i hj hui (Loc.kmut.inj e))
          | arr o => exact hquiet trivial fun r _ => hi.2 r
          | wmut o => exact hquiet trivial fun r _ => hi.2 r
        | ld l =>
          cases l with
          | kmut x =>
            refine hquiet trivial ?_
            rintro r rfl
            exact hi _ (fun e => by rw [e]; rfl)
          | arr o => exact hquiet trivial fun r _ => hi.2 r
          | wmut o => exact hquiet trivial fun r _ => hi.2 r
        | cas l e n => exact hquiet hi.1 fun r _ => hi.2 r
        | rd f => exact hquiet trivial fun r _ => hi.2 r
        | wr f w => exact hquiet trivial fun r _ => hi.2 r
        | check b' => exact hquiet trivial fun r _ => hi.2 r

theorem step_kept (tid : Nat → Word) (used : Nat → Prop) (hinj : ∀ i j, used i → used j → tid i = tid j → i = j)
    {α : Type} (p : Nat → Prog α) (s0 : S) (hused : ∀ i, ¬ used i → ∃ a, p i = .ret a)
    (hp : ∀ i q, Obey (tid i) (p i) (fun _ _ => True) q) (c c' : Cfg α) (h : Steps ⟨p, s0⟩ c) (hs : Step c c') (t : Word) :
    Kept c.mem c'.mem t := by
  obtain ⟨hu, hall⟩ := obey_steps tid used hinj p s0 hused hp c h
  cases hs with
  | mk i a k hk =>
    have hui : used i := by
      by_contra hn
      obtain ⟨x, hx⟩ := hu i hn
      rw [hx] at hk; cases hk
    have hi := hall i hui
    rw [hk] at hi
    cases a with
    | st l w =>
      cases l with
      | kmut x =>
        obtain ⟨rfl, h2, h3, h4⟩ := hi
        by_cases ht : t = tid i
        · subst ht
          right
          show seqW (if Loc.kmut (tid i) = Loc.kmut (tid i) then w else _) = _ ∧
            statusW (if Loc.kmut (tid i) = Loc.kmut (tid i) then w else _) = _
          rw [if_pos rfl]
          exact ⟨h2, h3⟩
        · left
          show seqW (if Loc.kmut t = Loc.kmut (tid i) then w else c.mem.mem (.kmut t)) = _ ∧
            (_ ∨ statusW (if Loc.kmut t = Loc.kmut (tid i) then w else c.mem.mem (.kmut t)) = _)
          rw [if_neg (fun e => ht (Loc.kmut.inj e))]
          exact ⟨rfl, Or.inr rfl⟩
      | arr o => exact Or.inl (quiet_kept (a := .st (.arr o) w) trivial _ _)
      | wmut o => exact Or.inl (quiet_kept (a := .st (.wmut o) w) trivial _ _)
    | ld l => exact Or.inl (quiet_kept (a := .ld l) (by cases l <;> trivial) _ _)
    | cas l e n => exact Or.inl (quiet_kept hi.1 _ _)
    | rd f => exact Or.inl (quiet_kept (a := .rd f) trivial _ _)
    | wr f w => exact Or.inl (quiet_kept (a := .wr f w) trivial _ _)
    | check b' => exact Or.inl (quiet_kept (a := .check b') trivial _ _)

end PMap.KCAS
