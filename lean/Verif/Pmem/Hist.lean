import Verif.Pmem.Crash

/-!
# libpmemobj's concurrent_hash_map: histories

`DLin` says what durable linearizability is; the rest are lemmas.  Nothing here is code.
-/

namespace PMap.Pmem

/-- Where a thread's call is: no call, a call that has not taken effect, one that has. -/
inductive CSt where
  | idle
  | called (op : Cmd)
  | done (op : Cmd) (a : Ans)

/-- One thread's call changed. -/
def setC (P : Nat → CSt) (t : Nat) (x : CSt) : Nat → CSt := fun u => if u = t then x else P u

/-- What is seen can be explained by an ordinary map, from the map `A` and the calls `P`: each call takes effect at one moment between its
beginning and its end.  A power failure ends all calls; those that have not taken effect never do, and the map stays as it is. -/
inductive DLin : AM → (Nat → CSt) → List Ev → Prop
  | nil {A : AM} {P : Nat → CSt} : DLin A P []
  | inv {A : AM} {P : Nat → CSt} {es : List Ev} {t : Nat} {op : Cmd} : P t = .idle → DLin A (setC P t (.called op)) es → DLin A P (.inv t op :: es)
  | effect {A : AM} {P : Nat → CSt} {es : List Ev} {t : Nat} {op : Cmd} : P t = .called op →
      DLin (spec op A).2 (setC P t (.done op (spec op A).1)) es → DLin A P es
  | res {A : AM} {P : Nat → CSt} {es : List Ev} {t : Nat} {op : Cmd} {a : Ans} : P t = .done op a → DLin A (setC P t .idle) es →
      DLin A P (.res t op a :: es)
  | crash {A : AM} {P : Nat → CSt} {es : List Ev} : DLin A (fun _ => .idle) es → DLin A P (.crash :: es)

/-- Durable linearizability of what is seen of a map that is empty at first. -/
def DurablyLinearizable (es : List Ev) : Prop := DLin (fun _ => none) (fun _ => .idle) es

section
variable {E : HEnv} {m0 t : Nat} {op : Cmd}

theorem W_rel {α : Type} {p : HP α} {Q : α → HSt → AM → Option Ans → Prop} {s s' : HSt} {A A' : AM} {st : Option Ans}
    (h : W E m0 t op False p Q s A st) (hr : Rel t s s') (hQ : ∀ a, Q a s A st → Q a s' A' st) :
    W E m0 t op False p Q s' A' st := by
  cases p with
  | ret a => exact hQ a h
  | act f k => exact fun s1 A1 hi1 hr1 _ => h s1 A1 hi1 (hr.trans hr1) (fun hf => hf.elim)
  | spin => exact id

/-- How a call ends. -/
def Fin (E : HEnv) (m0 t : Nat) (a : Ans) (s : HSt) (A : AM) (st : Option Ans) : Prop :=
  Inv E m0 s A ∧ Own t s Emp none none false ∧ st = some a

/-- Where a call is that has given `st`. -/
def status (op : Cmd) : Option Ans → CSt
  | none => .called op
  | some a => .done op a

/-- What holds of a thread. -/
def TI (E : HEnv) (m0 t : Nat) (s : HSt) (A : AM) : Th → CSt → Prop
  | .idle, p => Own t s Emp none none false ∧ p = .idle
  | .run op prog, p => ∃ st, p = status op st ∧ W E m0 t op False prog (Fin E m0 t) s A st

theorem TI.rel {s s' : HSt} {A A' : AM} {th : Th} {p : CSt} (h : TI E m0 t s A th p) (hi : Inv E m0 s' A') (hr : Rel t s s') :
    TI E m0 t s' A' th p := by
  cases th with
  | idle => exact ⟨h.1.rel hr, h.2⟩
  | run op prog =>
    obtain ⟨st, h1, h2⟩ := h
    exact ⟨st, h1, W_rel h2 hr fun a ⟨_, b, c⟩ => ⟨hi, b.rel hr, c⟩⟩

/-- What holds of memory and threads. -/
def CInv (E : HEnv) (c : Cfg) (A : AM) (P : Nat → CSt) : Prop := ∃ m0, Inv E m0 c.s A ∧ ∀ t, TI E m0 t c.s A (c.th t) (P t)

theorem new_CInv (E : HEnv) : CInv E Cfg.new (fun _ => none) (fun _ => .idle) := ⟨1, new_inv E, fun t => ⟨new_own t, rfl⟩⟩

theorem step_ok (hp : E.pool < 2 ^ 31) {c c1 : Cfg} {es : List Ev} {A : AM} {P : Nat → CSt} (h : CInv E c A P) (hs : Step E c es c1) :
    ∃ A' P', CInv E c1 A' P' ∧ ∀ fs, DLin A' P' fs → DLin A P (es ++ fs) := by
  obtain ⟨m0, hi, ht⟩ := h
  cases hs with
  | @call t op f hid =>
    have h0 := ht t
    rw [hid] at h0
    refine ⟨A, setC P t (.called op), ⟨m0, hi, fun u => ?_⟩, fun fs hl => .inv h0.2 hl⟩
    by_cases e : u = t
    · subst e
      simp only [setTh, setC, if_true]
      exact ⟨none, rfl, prog_W hp h0.1 (fun h => h.elim)⟩
    · simp only [setTh, setC, e, if_false]
      exact ht u
  | @act t op β f k b s' hrun hf =>
    have h0 := ht t
    rw [hrun] at h0
    obtain ⟨st, h1, h2⟩ := h0
    have h3 := h2 c.s A hi (.refl _ _) (fun h => h.elim)
    rw [hf] at h3
    obtain ⟨A2, st2, hl, hi2, hg, hw⟩ := h3
    refine ⟨A2, setC P t (status op st2), ⟨m0, hi2, fun u => ?_⟩, fun fs hfs => ?_⟩
    · by_cases e : u = t
      · subst e
        simp only [setTh, setC, if_true]
        exact ⟨st2, rfl, hw⟩
      · simp only [setTh, setC, e, if_false]
        exact (ht u).rel hi2 (hg u e)
    · rcases hl with ⟨rfl, rfl⟩ | ⟨rfl, rfl, rfl⟩
      · have : setC P t (status op st2) = P := by
          funext u
          simp only [setC]
          split
          · rename_i e
            rw [e, h1]
          · rfl
        rw [this] at hfs
        exact hfs
      · exact .effect h1 hfs
  | @ret t op a hrun =>
    have h0 := ht t
    rw [hrun] at h0
    obtain ⟨st, h1, _, h3, h4⟩ := h0
    refine ⟨A, setC P t .idle, ⟨m0, hi, fun u => ?_⟩, fun fs hfs => ?_⟩
    · by_cases e : u = t
      · subst e
        simp only [setTh, setC, if_true]
        exact ⟨h3, rfl⟩
      · simp only [setTh, setC, e, if_false]
        exact ht u
    · refine .res ?_ hfs
      rw [h1, h4]
      rfl
  | crash keep hre =>
    obtain ⟨s', e, hi', ho'⟩ := reopen_ok keep hi
    rw [e] at hre
    cases hre
    exact ⟨A, fun _ => .idle, ⟨_, hi', fun t => ⟨ho' t, rfl⟩⟩, fun fs hfs => .crash hfs⟩

theorem runs_ok (hp : E.pool < 2 ^ 31) {c c1 : Cfg} {es : List Ev} (hs : Runs E c es c1) : ∀ {A : AM} {P : Nat → CSt}, CInv E c A P →
    ∃ A' P', CInv E c1 A' P' ∧ ∀ fs, DLin A' P' fs → DLin A P (es ++ fs) := by
  induction hs with
  | nil => exact fun {A P} h => ⟨A, P, h, fun fs h => h⟩
  | cons h1 _ ih =>
    intro A P h
    obtain ⟨A1, P1, i1, d1⟩ := step_ok hp h h1
    obtain ⟨A2, P2, i2, d2⟩ := ih i1
    refine ⟨A2, P2, i2, fun gs h => ?_⟩
    rw [List.append_assoc]
    exact d1 _ (d2 _ h)

theorem reach_ok (hp : E.pool < 2 ^ 31) {c : Cfg} {es : List Ev} (hs : Runs E .new es c) : ∃ A P, CInv E c A P ∧ DurablyLinearizable es := by
  obtain ⟨A, P, h1, h2⟩ := runs_ok hp hs (new_CInv E)
  refine ⟨A, P, h1, ?_⟩
  have := h2 [] .nil
  rwa [List.append_nil] at this

/-- The thread's next access is one that has to wait. -/
def Waiting (c : Cfg) (t : Nat) : Prop := ∃ (op : Cmd) (β : Type) (f : HSt → Out β) (k : β → HP Ans), c.th t = .run op (.act f k) ∧ f c.s = .wait

theorem waits_of_waiting {c : Cfg} (hi : Inv E m0 c.s A) {P : CSt} (ht : TI E m0 t c.s A (c.th t) P) (hw : Waiting c t) : Waits t c.s := by
  obtain ⟨op, β, f, k, e, hf⟩ := hw
  rw [e] at ht
  obtain ⟨st, _, h⟩ := ht
  have := h c.s A hi (.refl _ _) (fun h => h.elim)
  rw [hf] at this
  exact this

/-- Among waiting threads there is always one that waits for a thread that does not. -/
theorem progress {c : Cfg} {A : AM} {P : Nat → CSt} (h : CInv E c A P) (hw : Waiting c t) :
    ∃ u op p, u ≠ t ∧ c.th u = .run op p ∧ ¬ Waiting c u ∧ ∀ a, p ≠ .ret a := by
  obtain ⟨m0, hi, ht⟩ := h
  obtain ⟨b, ⟨v, hv⟩, hb⟩ := waits_of_waiting hi (ht t) hw
  have hfree : ∀ u d, Own u c.s Emp none none false → ¬ Holds u c.s (loc d) := fun u d ho hh => by
    rcases ho.holds.1 hh with h | h
    · exact h
    · cases h
  have key : ∀ b, ∀ v, Holds v c.s (loc b) → ∃ u op p, c.th u = .run op p ∧ ¬ Waiting c u ∧ ∀ a, p ≠ .ret a := by
    intro b
    induction b using Nat.strong_induction_on with
    | _ b ih =>
      intro v hv
      by_cases hwv : Waiting c v
      · obtain ⟨b', ⟨u, hu⟩, hb'⟩ := waits_of_waiting hi (ht v) hwv
        exact ih b' (hb' b hv) u hu
      · have := ht v
        cases e : c.th v with
        | idle =>
          rw [e] at this
          exact absurd hv (hfree v b this.1)
        | run op p =>
          refine ⟨v, op, p, e, hwv, ?_⟩
          rintro a rfl
          rw [e] at this
          obtain ⟨_, _, h⟩ := this
          exact hfree v b h.2.1 hv
  obtain ⟨u, op, p, h1, h2, h3⟩ := key b v hv
  exact ⟨u, op, p, fun e => h2 (e ▸ hw), h1, h2, h3⟩

/-- A thread that runs alone does not go on for ever. -/
theorem W_exec {α : Type} {Q : α → HSt → AM → Option Ans → Prop} : ∀ {p : HP α} {s : HSt} {A : AM} {st : Option Ans}, Inv E m0 s A →
    (∀ u, u ≠ t → Own u s Emp none none false) → W E m0 t op True p Q s A st →
    p.exec s = .oom ∨ ∃ a s' A' st', p.exec s = .ok a s' ∧ Q a s' A' st' ∧ (∀ u, u ≠ t → Own u s' Emp none none false) ∧
      ((st' = st ∧ A' = A) ∨ (st = none ∧ st' = some (spec op A).1 ∧ A' = (spec op A).2)) := by
  intro p
  induction p with
  | ret a => exact fun {s A st} hi ho h => Or.inr ⟨a, s, A, st, rfl, h, ho, Or.inl ⟨rfl, rfl⟩⟩
  | spin => exact fun hi ho h => absurd trivial h
  | act f k ih =>
    intro s A st hi ho h
    have h1 := h s A hi (.refl _ _) (fun _ => ⟨rfl, rfl⟩)
    unfold HP.exec
    cases e : f s with
    | ok b s2 =>
      rw [e] at h1
      obtain ⟨A2, st2, hl, hi2, hg, hw⟩ := h1
      rcases ih b hi2 (fun u hu => (ho u hu).rel (hg u hu)) hw with h | ⟨a, s', A', st', g1, g2, g3, g4⟩
      · exact Or.inl h
      · refine Or.inr ⟨a, s', A', st', g1, g2, g3, ?_⟩
        rcases hl with ⟨rfl, rfl⟩ | ⟨rfl, rfl, rfl⟩
        · exact g4
        · rcases g4 with ⟨rfl, rfl⟩ | ⟨h, _⟩
          · exact Or.inr ⟨rfl, rfl, rfl⟩
          · cases h
    | wait =>
      rw [e] at h1
      obtain ⟨c, ⟨v, hv⟩, hc⟩ := h1
      exfalso
      by_cases hvt : v = t
      · subst hvt
        exact absurd (hc c hv) (Nat.lt_irrefl _)
      · rcases (ho v hvt).holds.1 hv with h | h
        · exact h
        · cases h
    | oom => exact Or.inl rfl
    | ub => rw [e] at h1; exact h1.elim
    | abort => rw [e] at h1; exact h1.elim

/-- A call made alone. -/
theorem alone {c : Cfg} {A : AM} {P : Nat → CSt} (hp : E.pool < 2 ^ 31) (h : CInv E c A P) (hid : ∀ t, c.th t = .idle) {f : Nat} (hf : 0 < f) :
    (op.prog E t f).exec c.s = .oom ∨ ∃ s', (op.prog E t f).exec c.s = .ok (spec op A).1 s' ∧
      CInv E ⟨s', fun _ => .idle⟩ (spec op A).2 (fun _ => .idle) := by
  obtain ⟨m0, hi, ht⟩ := h
  have ho : ∀ u, Own u c.s Emp none none false := fun u => by
    have := ht u
    rw [hid u] at this
    exact this.1
  rcases W_exec hi (fun u _ => ho u) (prog_W (E := E) (m0 := m0) (t := t) (op := op) (q := True) (f := f) (s := c.s) (A := A) hp (ho t)
    (fun _ => ⟨fun n u hn => (by have := ((ho u).nl n).1 hn; cases this), hf⟩)) with h | ⟨a, s', A', st', g1, ⟨g2, g3, g4⟩, g5, g6⟩
  · exact Or.inl h
  · right
    rcases g6 with ⟨rfl, _⟩ | ⟨_, h2, rfl⟩
    · cases g4
    · rw [g4] at h2
      cases h2
      refine ⟨s', g1, m0, g2, fun u => ⟨?_, rfl⟩⟩
      by_cases e : u = t
      · rw [e]; exact g3
      · exact g5 u e

end

end PMap.Pmem
