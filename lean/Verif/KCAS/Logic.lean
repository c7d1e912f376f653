import Verif.KCAS.Bits

/-! # Total correctness of programs of `pmwcas.hpp` running alone (helper lemmas)

The view of a state forgets dirty bits: that is all a program sees through `pcas_read`. -/

namespace PMap.KCAS

/-- The state without dirty bits. -/
structure V where
  mem : Loc → Word
  fld : Fld → Word
  failed : Bool

/-- The view of a state. -/
def view (s : S) : V := ⟨fun l => cl (s.mem l), s.fld, s.failed⟩

/-- Change one word. -/
def V.put (v : V) (l : Loc) (w : Word) : V := { v with mem := fun l' => if l' = l then w else v.mem l' }
/-- Change one field. -/
def V.set (v : V) (f : Fld) (w : Word) : V := { v with fld := fun f' => if f' = f then w else v.fld f' }

/-- A part of memory: words and fields. -/
structure Foot where
  L : Loc → Prop
  G : Fld → Prop

/-- The step stays within the part of memory. -/
def Act.In (F : Foot) : Act → Prop
  | .ld l | .st l _ | .cas l _ _ => F.L l
  | .rd f | .wr f _ => F.G f
  | .check _ => True

/-- The program, running alone, returns, and stays within the part of memory. -/
inductive Runs {α : Type} (F : Foot) : Prog α → S → α → S → Prop
  | ret (a : α) (s : S) : Runs F (.ret a) s a s
  | act {b : Act} {k : Word → Prog α} {s : S} {a : α} {s' : S} (hF : b.In F)
      (h : Runs F (k (b.exec s).1) (b.exec s).2 a s') : Runs F (.act b k) s a s'

theorem Runs.run {α : Type} {F : Foot} {p : Prog α} {s : S} {a : α} {s' : S} (h : Runs F p s a s') : run p s = .done a s' := by
  induction h with
  | ret => rfl
  | act _ _ ih => exact ih

theorem Runs.bind {α β : Type} {F : Foot} {p : Prog α} {f : α → Prog β} {s s' s'' : S} {a : α} {b : β} (h : Runs F p s a s')
    (h' : Runs F (f a) s' b s'') : Runs F (p.bind f) s b s'' := by
  induction h with
  | ret => exact h'
  | act hF _ ih => exact .act hF (ih h')

/-- Run alone from any state with this view, the program stays within `F` and returns, with a result and a view as
described. -/
def W {α : Type} (F : Foot) (p : Prog α) (Q : α → V → Prop) (v : V) : Prop :=
  ∀ s, view s = v → ∃ a s', Runs F p s a s' ∧ Q a (view s')

variable {F : Foot}

theorem W.bind {α β : Type} {p : Prog α} {f : α → Prog β} {Q : β → V → Prop} {v : V}
    (h : W F p (fun a v' => W F (f a) Q v') v) : W F (p >>= f) Q v := by
  intro s hs
  obtain ⟨a, s', e, hq⟩ := h s hs
  obtain ⟨b, s'', e', hq'⟩ := hq s' rfl
  exact ⟨b, s'', e.bind e', hq'⟩

theorem W.ret {α : Type} {a : α} {Q : α → V → Prop} {v : V} (h : Q a v) : W F (pure a) Q v := by
  intro s hs; exact ⟨a, s, .ret _ _, hs ▸ h⟩

theorem W.mono {α : Type} {p : Prog α} {Q R : α → V → Prop} {v : V} (h : W F p Q v) (hr : ∀ a v', Q a v' → R a v') :
    W F p R v := by
  intro s hs
  obtain ⟨a, s', e, hq⟩ := h s hs
  exact ⟨a, s', e, hr _ _ hq⟩

theorem cl_cl (w : Word) : cl (cl w) = cl w := by
  unfold cl; rw [BitVec.and_assoc, BitVec.and_self]

theorem cl_or (w : Word) : cl (w ||| DirtyBit) = cl w := by
  unfold cl DirtyBit
  rw [BitVec.and_comm, BitVec.and_or_distrib_left]
  rw [show ~~~(1#64) &&& 1#64 = 0#64 from rfl, BitVec.or_zero, BitVec.and_comm]

theorem cl_toNat (w : Word) : (cl w).toNat = w.toNat / 2 * 2 := by
  unfold cl DirtyBit
  have : (w &&& ~~~1#64) = (w >>> 1) <<< 1 := by
    apply BitVec.eq_of_getLsbD_eq
    intro i hi
    rw [BitVec.getLsbD_and, BitVec.getLsbD_not, BitVec.getLsbD_shiftLeft, BitVec.getLsbD_ushiftRight]
    rcases i with _ | i
    · simp
    · have : (1#64 : Word).getLsbD (i + 1) = false := by
        rw [BitVec.getLsbD, show (1#64 : Word).toNat = 2 ^ 0 from rfl, Nat.testBit_two_pow]; simp
      rw [this]
      have e : 1 + (i + 1 - 1) = i + 1 := by omega
      have e2 : ¬ (i + 1 < 1) := by omega
      simp only [hi, e, e2, decide_true, decide_false, Bool.not_false, Bool.true_and, Bool.and_true]
  rw [this, BitVec.toNat_shiftLeft, BitVec.toNat_ushiftRight, Nat.shiftLeft_eq, Nat.shiftRight_eq_div_pow]
  have := w.isLt
  omega

theorem cl_eq_iff (w : Word) : cl w = w ↔ w.toNat % 2 = 0 := by
  constructor
  · intro h
    have := cl_toNat w
    rw [h] at this; omega
  · intro h
    apply BitVec.eq_of_toNat_eq
    rw [cl_toNat]; omega

/-- Change one word of a state. -/
def S.put (s : S) (l : Loc) (w : Word) : S := { s with mem := fun l' => if l' = l then w else s.mem l' }

theorem view_put (s : S) (l : Loc) (w : Word) : view (s.put l w) = (view s).put l (cl w) := by
  unfold view S.put V.put
  congr 1
  funext l'
  show cl (if l' = l then w else s.mem l') = if l' = l then cl w else cl (s.mem l')
  split <;> rfl

theorem V.put_same (v : V) (l : Loc) : v.put l (v.mem l) = v := by
  cases v
  unfold V.put
  congr 1
  funext l'
  simp only
  split
  · rename_i e; rw [e]
  · rfl

theorem Runs.step {a : Act} {s : S} (h : a.In F) : Runs F (step a) s (a.exec s).1 (a.exec s).2 := .act h (.ret _ _)

theorem W.rd {f : Fld} {Q : Word → V → Prop} {v : V} (hF : F.G f) (h : Q (v.fld f) v) : W F (step (.rd f)) Q v := by
  intro s hs
  refine ⟨_, _, .step hF, ?_⟩
  subst hs; exact h

theorem W.wr {f : Fld} {w : Word} {Q : Word → V → Prop} {v : V} (hF : F.G f) (h : Q 0#64 (v.set f w)) : W F (step (.wr f w)) Q v := by
  intro s hs
  refine ⟨_, _, .step hF, ?_⟩
  subst hs; exact h

theorem W.st {l : Loc} {w : Word} {Q : Word → V → Prop} {v : V} (hF : F.L l) (h : Q 0#64 (v.put l (cl w))) : W F (step (.st l w)) Q v := by
  intro s hs
  refine ⟨0#64, s.put l w, .step (a := .st l w) hF, ?_⟩
  rw [view_put, hs]; exact h

theorem W.check {b : Bool} {Q : Word → V → Prop} {v : V} (hb : b = true) (h : Q 0#64 v) : W F (step (.check b)) Q v := by
  intro s hs
  refine ⟨_, _, .step (a := .check b) trivial, ?_⟩
  subst hb
  show Q 0#64 (view { s with failed := s.failed || !true })
  rw [show (s.failed || !true) = s.failed from Bool.or_false _]
  exact hs ▸ h

theorem exec_cas (l : Loc) (e n : Word) (s : S) :
    (Act.cas l e n).exec s = (s.mem l, if s.mem l = e then s.put l n else s) := rfl

theorem view_persist (s : S) (l : Loc) (w : Word) : view ((Act.cas l w (cl w)).exec s).2 = view s := by
  rw [exec_cas]
  simp only
  split
  · rename_i e
    rw [view_put, cl_cl, ← e]
    exact V.put_same (view s) l
  · rfl

theorem W.persist {l : Loc} {w : Word} {Q : Unit → V → Prop} {v : V} (hF : F.L l) (h : Q () v) : W F (persist l w) Q v := by
  intro s hs
  refine ⟨(), _, .act (b := .cas l w (cl w)) hF (.ret _ _), ?_⟩
  rw [view_persist, hs]; exact h

/-- After `pcas_read` the word itself is clean. -/
theorem run_pcasRead (l : Loc) (hF : F.L l) (s : S) :
    ∃ s', Runs F (pcasRead l) s (cl (s.mem l)) s' ∧ view s' = view s ∧ s'.mem l = cl (s.mem l) := by
  by_cases hd : s.mem l &&& DirtyBit ≠ 0#64
  · refine ⟨((Act.cas l (s.mem l) (cl (s.mem l))).exec s).2, ?_, view_persist _ _ _, ?_⟩
    · refine .act (b := .ld l) hF ?_
      show Runs F (if s.mem l &&& DirtyBit ≠ 0#64 then (KCAS.persist l (s.mem l)).bind fun _ => .ret (cl (s.mem l)) else
        .ret (cl (s.mem l))) s _ _
      rw [if_pos hd]
      exact .act (b := .cas l (s.mem l) (cl (s.mem l))) hF (.ret _ _)
    · rw [exec_cas]; simp [S.put]
  · refine ⟨s, ?_, rfl, ?_⟩
    · refine .act (b := .ld l) hF ?_
      show Runs F (if s.mem l &&& DirtyBit ≠ 0#64 then (KCAS.persist l (s.mem l)).bind fun _ => .ret (cl (s.mem l)) else
        .ret (cl (s.mem l))) s _ _
      rw [if_neg hd]
      exact .ret _ _
    · symm; rw [cl_eq_iff]
      exact (dirty_iff _).1 (not_not.1 hd)

theorem W.pcasRead {l : Loc} {Q : Word → V → Prop} {v : V} (hF : F.L l) (h : Q (v.mem l) v) : W F (pcasRead l) Q v := by
  intro s hs
  obtain ⟨s', e, hv, -⟩ := run_pcasRead l hF s
  refine ⟨_, s', e, ?_⟩
  rw [hv]; subst hs; exact h

theorem W.pcas {l : Loc} {e n : Word} {Q : Bool × Word → V → Prop} {v : V} (hF : F.L l)
    (h1 : v.mem l = e → Q (true, e) (v.put l (cl n))) (h2 : v.mem l ≠ e → Q (false, v.mem l) v) : W F (pcas l e n) Q v := by
  intro s hs
  obtain ⟨s', er, hv, hm⟩ := run_pcasRead l hF s
  refine ⟨_, _, er.bind (.act (b := .cas l e (n ||| DirtyBit)) hF (.ret _ _)), ?_⟩
  have hm' : s'.mem l = v.mem l := by rw [hm, ← hs]; rfl
  rw [exec_cas]
  simp only
  by_cases hc : v.mem l = e
  · rw [hm', hc, if_pos rfl, view_put, hv, hs, cl_or]
    simpa using h1 hc
  · rw [hm', if_neg hc, hv, hs]
    rw [beq_false_of_ne hc]
    exact h2 hc

theorem W.loop {σ α : Type} {n : Nat} {body : σ → Prog (Ctl σ α)} {x : σ} {Q : α → V → Prop} {v : V}
    (h : W F (body x) (fun c v' => match c with | .next y => W F (loop n body y) Q v' | .done a => Q a v') v) :
    W F (loop (n + 1) body x) Q v := by
  unfold KCAS.loop
  apply W.bind
  refine W.mono h ?_
  rintro (y | a) v' hq
  · exact hq
  · exact W.ret hq

theorem W.ite {α : Type} {c : Prop} [Decidable c] {p q : Prog α} {Q : α → V → Prop} {v : V} (h1 : c → W F p Q v)
    (h2 : ¬ c → W F q Q v) : W F (if c then p else q) Q v := by
  split
  · exact h1 ‹_›
  · exact h2 ‹_›

end PMap.KCAS
