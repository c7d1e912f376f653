import Verif.Pmem.Inv

/-!
# libpmemobj's concurrent_hash_map: locks and flags keep the invariant

Nothing here is code.
-/

namespace PMap.Pmem

/-- What thread `t` does is what the others allow for. -/
def Guar (t : Nat) (s s' : HSt) : Prop := ∀ u, u ≠ t → Rel u s s'

theorem Guar.refl (t : Nat) (s : HSt) : Guar t s s := fun u _ => .refl u s

/-- A step that changes only locks. -/
theorem Rel.ofBare {t : Nat} {s s' : HSt} (e : s'.bare = s.bare) (hwr : ∀ b, s'.wr b = some t ↔ s.wr b = some t)
    (hrd : ∀ b, (s'.rd b).count t = (s.rd b).count t) (hnl : ∀ n, s'.nl n = some t ↔ s.nl n = some t) (hsm : s'.sm = some t ↔ s.sm = some t)
    (hnlw : ∀ c l, s.wr (loc c) = some t → Chain s.heap (s.list (loc c)) l → ∀ n ∈ l, s.nl n = none → s'.nl n = none)
    (hflag : ∀ b, s.fl b = true ∨ (∃ v, v ≠ t ∧ s.wr b = some v) → s.fl b = true ∨ ∃ v, v ≠ t ∧ s'.wr b = some v) : Rel t s s' := by
  have e1 : s'.fl = s.fl := (congrArg HSt.fl e :)
  have e2 : s'.dfl = s.dfl := (congrArg HSt.dfl e :)
  have e3 : s'.mask = s.mask := (congrArg HSt.mask e :)
  have e4 : s'.list = s.list := (congrArg HSt.list e :)
  have e5 : s'.heap = s.heap := (congrArg HSt.heap e :)
  have e6 : s'.blk = s.blk := (congrArg HSt.blk e :)
  exact {
    wr := hwr
    rd := hrd
    nl := hnl
    sm := hsm
    fl := fun b h => by rw [e1]; exact h
    dfl := fun b h => by rw [e2]; exact h
    mask := by rw [e3]
    seg := fun _ => ⟨e3, e6⟩
    held := fun b _ => by rw [e4]
    nodes := fun b l _ _ n _ => by rw [e5]
    flw := fun b _ => by rw [e1, e2]; exact ⟨rfl, rfl⟩
    nlw := hnlw
    kids := fun d _ _ h => by unfold eff at *; rw [e1, e4] at h; exact h
    item := fun n x _ h => ⟨x, by rw [e5]; exact h, rfl, rfl⟩
    flag := fun b h => by rw [e1]; exact hflag b h }

theorem lockW_ok {E : HEnv} {m0 t : Nat} {s : HSt} {A : AM} {b : Loc} (hi : Inv E m0 s A) (hb : ∃ c, c ≤ s.mask ∧ b = loc c)
    (hf : Free s b) :
    Inv E m0 (s.lockW t b) A ∧ Guar t s (s.lockW t b) := by
  obtain ⟨⟨kk, L, V, hc⟩, hl⟩ := hi
  have key : ∀ c v, s.wr c = some v → (s.lockW t b).wr c = some v := fun c v h => by
    have : c ≠ b := fun e => by rw [e, hf.1] at h; cases h
    simp [HSt.lockW, this, h]
  refine ⟨⟨⟨kk, L, V, hc.congr rfl⟩, ?_⟩, ?_⟩
  · refine ⟨?_, ?_, hl.rdfl, ?_, ?_, hl.nl⟩
    · intro c h
      by_cases e : c = b
      · rw [e]; exact hb
      · simp only [HSt.lockW, e, if_false] at h
        exact hl.real c h
    · intro c v h
      by_cases e : c = b
      · rw [e]; exact hf.2
      · simp only [HSt.lockW, e, if_false] at h
        exact hl.excl c v h
    · intro c h
      rcases hl.dur c h with h' | h'
      · exact Or.inl h'
      · right
        obtain ⟨v, hv⟩ := Option.ne_none_iff_exists'.1 h'
        rw [key c v hv]
        simp
    · intro c h
      rcases hl.pend c h with h' | h' | ⟨v, h1, h2⟩
      · exact Or.inl h'
      · exact Or.inr (Or.inl h')
      · exact Or.inr (Or.inr ⟨v, key _ v h1, key _ v h2⟩)
  · intro u hu
    refine Rel.ofBare rfl ?_ (fun _ => rfl) (fun _ => Iff.rfl) Iff.rfl (fun _ _ _ _ _ _ h => h) ?_
    · intro c
      by_cases e : c = b
      · simp [HSt.lockW, e, hf.1, Ne.symm hu]
      · simp [HSt.lockW, e]
    · rintro c (h | ⟨v, h1, h2⟩)
      · exact Or.inl h
      · exact Or.inr ⟨v, h1, key c v h2⟩

theorem lockR_ok {E : HEnv} {m0 t : Nat} {s : HSt} {A : AM} {b : Loc} (hi : Inv E m0 s A)
    (hb : ∃ c, c ≤ s.mask ∧ b = loc c) (hw : s.wr b = none) (hfl : s.fl b = true) :
    Inv E m0 (s.lockR t b) A ∧ Guar t s (s.lockR t b) := by
  obtain ⟨⟨kk, L, V, hc⟩, hl⟩ := hi
  refine ⟨⟨⟨kk, L, V, hc.congr rfl⟩, ?_⟩, ?_⟩
  · refine ⟨?_, ?_, ?_, hl.dur, hl.pend, hl.nl⟩
    · intro c h
      by_cases e : c = b
      · rw [e]; exact hb
      · simp only [HSt.lockR, e, if_false] at h
        exact hl.real c h
    · intro c v h
      have : c ≠ b := fun e => by
        rw [e] at h
        have : s.wr b = some v := h
        rw [hw] at this
        cases this
      simp only [HSt.lockR, this, if_false]
      exact hl.excl c v h
    · intro c h
      by_cases e : c = b
      · rw [e]; exact hfl
      · simp only [HSt.lockR, e, if_false] at h
        exact hl.rdfl c h
  · intro u hu
    refine Rel.ofBare rfl (fun _ => Iff.rfl) ?_ (fun _ => Iff.rfl) Iff.rfl (fun _ _ _ _ _ _ h => h) (fun _ h => h)
    intro c
    by_cases e : c = b
    · simp [HSt.lockR, e, Ne.symm hu]
    · simp [HSt.lockR, e]

theorem unlockW_ok {E : HEnv} {m0 t : Nat} {s : HSt} {A : AM} {b : Loc} (hi : Inv E m0 s A) (hw : s.wr b = some t) (hd : s.dfl b = true)
    (hp : ∀ c, b = loc (parent c) → s.wr (loc c) = some t → eff s c → s.fl (loc c) = true) :
    Inv E m0 { s with wr := fun c => if c = b then none else s.wr c } A ∧ Guar t s { s with wr := fun c => if c = b then none else s.wr c } := by
  obtain ⟨⟨kk, L, V, hc⟩, hl⟩ := hi
  have hfl := hc.dfl b hd
  refine ⟨⟨⟨kk, L, V, hc.congr rfl⟩, ?_⟩, ?_⟩
  · refine ⟨?_, ?_, hl.rdfl, ?_, ?_, hl.nl⟩
    · intro c h
      refine hl.real c (h.imp (fun h e => h ?_) id)
      show (if c = b then none else s.wr c) = none
      rw [e]
      simp
    · intro c v h
      by_cases e : c = b
      · simp [e] at h
      · simp only [e, if_false] at h
        exact hl.excl c v h
    · intro c h
      by_cases e : c = b
      · rw [e]; exact Or.inl hd
      · rcases hl.dur c h with h' | h'
        · exact Or.inl h'
        · right
          simp only [e, if_false]
          exact h'
    · intro c h
      by_cases e : loc c = b
      · left
        show s.fl (loc c) = true
        rw [e]
        exact hfl
      rcases hl.pend c h with h' | h' | ⟨v, h1, h2⟩
      · exact Or.inl h'
      · exact Or.inr (Or.inl h')
      · by_cases e2 : loc (parent c) = b
        · left
          rw [e2, hw] at h2
          cases h2
          exact hp c e2.symm h1 h
        · exact Or.inr (Or.inr ⟨v, by simp [e, h1], by simp [e2, h2]⟩)
  · intro u hu
    refine Rel.ofBare rfl ?_ (fun _ => rfl) (fun _ => Iff.rfl) Iff.rfl (fun _ _ _ _ _ _ h => h) ?_
    · intro c
      by_cases e : c = b
      · simp [e, hw, Ne.symm hu]
      · simp [e]
    · rintro c (h | ⟨v, h1, h2⟩)
      · exact Or.inl h
      · by_cases e : c = b
        · left; rw [e]; exact hfl
        · exact Or.inr ⟨v, h1, by simp [e, h2]⟩

theorem unlockR_ok {E : HEnv} {m0 t : Nat} {s : HSt} {A : AM} {b : Loc} (hi : Inv E m0 s A) :
    Inv E m0 { s with rd := fun c => if c = b then (s.rd c).erase t else s.rd c } A ∧
      Guar t s { s with rd := fun c => if c = b then (s.rd c).erase t else s.rd c } := by
  obtain ⟨⟨kk, L, V, hc⟩, hl⟩ := hi
  refine ⟨⟨⟨kk, L, V, hc.congr rfl⟩, ?_⟩, ?_⟩
  · refine ⟨?_, ?_, ?_, hl.dur, hl.pend, hl.nl⟩
    · intro c h
      refine hl.real c (h.imp id (fun h e => h ?_))
      show (if c = b then (s.rd c).erase t else s.rd c) = []
      rw [e]
      simp
    · intro c v h
      have := hl.excl c v h
      by_cases e : c = b
      · subst e; simp [this]
      · simp [e, this]
    · intro c h
      refine hl.rdfl c fun h0 => h ?_
      by_cases e : c = b
      · subst e; simp [h0]
      · simp [e, h0]
  · intro u hu
    refine Rel.ofBare rfl (fun _ => Iff.rfl) ?_ (fun _ => Iff.rfl) Iff.rfl (fun _ _ _ _ _ _ h => h) (fun _ h => h)
    intro c
    by_cases e : c = b
    · simp only [e, if_true]
      exact List.count_erase_of_ne hu
    · simp [e]

theorem lockItem_ok {E : HEnv} {m0 t n c : Nat} {s : HSt} {A : AM} {l : List Nat} (hi : Inv E m0 s A) (hh : Holds t s (loc c))
    (hl : Chain s.heap (s.list (loc c)) l) (hn : n ∈ l) (h0 : s.nl n = none) :
    Inv E m0 { s with nl := fun m => if m = n then some t else s.nl m } A ∧
      Guar t s { s with nl := fun m => if m = n then some t else s.nl m } := by
  obtain ⟨⟨kk, L, V, hc⟩, hk⟩ := hi
  have := hl.det (hc.chain c)
  subst this
  refine ⟨⟨⟨kk, L, V, hc.congr rfl⟩, ⟨hk.real, hk.excl, hk.rdfl, hk.dur, hk.pend, ?_⟩⟩, ?_⟩
  · intro m hm
    have : m ≠ n := by
      rintro rfl
      obtain ⟨x, hx⟩ := hl.live m hn
      have hm' : s.heap m = none := hm
      rw [hx] at hm'
      cases hm'
    simp only [this, if_false]
    exact hk.nl m hm
  · intro u hu
    refine Rel.ofBare rfl (fun _ => Iff.rfl) (fun _ => rfl) ?_ Iff.rfl ?_ (fun _ h => h)
    · intro m
      by_cases e : m = n
      · simp [e, h0, Ne.symm hu]
      · simp [e]
    · intro d l' hd hl' m hm hz
      have := hl'.det (hc.chain d)
      subst this
      have : m ≠ n := by
        rintro rfl
        have := hc.disj c d m hn hm
        subst this
        exact hu (hk.other hd hh).symm
      simp [this, hz]

theorem unlockItem_ok {E : HEnv} {m0 t n : Nat} {s : HSt} {A : AM} (hi : Inv E m0 s A) (h0 : s.nl n = some t) :
    Inv E m0 { s with nl := fun m => if m = n then none else s.nl m } A ∧ Guar t s { s with nl := fun m => if m = n then none else s.nl m } := by
  obtain ⟨⟨kk, L, V, hc⟩, hk⟩ := hi
  refine ⟨⟨⟨kk, L, V, hc.congr rfl⟩, ⟨hk.real, hk.excl, hk.rdfl, hk.dur, hk.pend, ?_⟩⟩, ?_⟩
  · intro m hm
    have := hk.nl m hm
    simp [this]
  · intro u hu
    refine Rel.ofBare rfl (fun _ => Iff.rfl) (fun _ => rfl) ?_ Iff.rfl ?_ (fun _ h => h)
    · intro m
      by_cases e : m = n
      · simp [e, h0, Ne.symm hu]
      · simp [e]
    · intro d l' hd hl' m hm hz
      simp [hz]

theorem size_ok {E : HEnv} {m0 t : Nat} {s : HSt} {A : AM} (hi : Inv E m0 s A) (z : Int) :
    Inv E m0 { s with size := z } A ∧ Guar t s { s with size := z } := by
  obtain ⟨⟨kk, L, V, hc⟩, hk⟩ := hi
  refine ⟨⟨⟨kk, L, V, hc.congr rfl⟩, ⟨hk.real, hk.excl, hk.rdfl, hk.dur, hk.pend, hk.nl⟩⟩, ?_⟩
  intro u hu
  exact Rel.ofBare rfl (fun _ => Iff.rfl) (fun _ => rfl) (fun _ => Iff.rfl) Iff.rfl (fun _ _ _ _ _ _ h => h) (fun _ h => h)

theorem lockSeg_ok {E : HEnv} {m0 t : Nat} {s : HSt} {A : AM} (hi : Inv E m0 s A) (h0 : s.sm = none) :
    Inv E m0 { s with sm := some t } A ∧ Guar t s { s with sm := some t } := by
  obtain ⟨⟨kk, L, V, hc⟩, hk⟩ := hi
  refine ⟨⟨⟨kk, L, V, hc.congr rfl⟩, ⟨hk.real, hk.excl, hk.rdfl, hk.dur, hk.pend, hk.nl⟩⟩, ?_⟩
  intro u hu
  exact Rel.ofBare rfl (fun _ => Iff.rfl) (fun _ => rfl) (fun _ => Iff.rfl) (by simp [h0, Ne.symm hu]) (fun _ _ _ _ _ _ h => h) (fun _ h => h)

theorem unlockSeg_ok {E : HEnv} {m0 t : Nat} {s : HSt} {A : AM} (hi : Inv E m0 s A) (h0 : s.sm = some t) :
    Inv E m0 { s with sm := none } A ∧ Guar t s { s with sm := none } := by
  obtain ⟨⟨kk, L, V, hc⟩, hk⟩ := hi
  refine ⟨⟨⟨kk, L, V, hc.congr rfl⟩, ⟨hk.real, hk.excl, hk.rdfl, hk.dur, hk.pend, hk.nl⟩⟩, ?_⟩
  intro u hu
  exact Rel.ofBare rfl (fun _ => Iff.rfl) (fun _ => rfl) (fun _ => Iff.rfl) (by simp [h0, Ne.symm hu]) (fun _ _ _ _ _ _ h => h) (fun _ h => h)

/-- The memory when a bucket has been marked. -/
def HSt.mark (s : HSt) (b : Loc) : HSt := { s with fl := fun c => if c = b then true else s.fl c }

theorem eff_mark {s : HSt} {d c : Nat} : eff (s.mark (loc d)) c ↔ c = d ∨ eff s c := by
  unfold eff
  by_cases e : c = d
  · subst e
    simp [HSt.mark]
  · have : loc c ≠ loc d := fun h => e (loc_inj h)
    simp [HSt.mark, this, e]

theorem mark_ok {E : HEnv} {m0 t d : Nat} {s : HSt} {A : AM} (hi : Inv E m0 s A) (hw : s.wr (loc d) = some t) (hm : d ≤ s.mask)
    (h2 : 2 ≤ d) (hpar : s.dfl (loc (parent d)) = true)
    (hh : eff s d ∨ s.wr (loc (parent d)) = some t ∧ ∀ l, Chain s.heap (s.list (loc (parent d))) l → ∀ n ∈ l, ∀ x, s.heap n = some x →
      ¬ Pre (E.hash x.key) d) :
    Inv E m0 (s.mark (loc d)) A ∧ Guar t s (s.mark (loc d)) := by
  obtain ⟨⟨kk, L, V, hc⟩, hk⟩ := hi
  have hmono : ∀ b, s.fl b = true → (s.mark (loc d)).fl b = true := fun b h => by
    simp only [HSt.mark]
    split
    · rfl
    · exact h
  refine ⟨⟨⟨kk, L, V, ?_⟩, ?_⟩, ?_⟩
  · refine { hc with tab := ⟨hc.tab.two, hc.tab.b0, hc.tab.l0, hc.tab.b1, hc.tab.l1, hc.tab.big, hc.tab.none⟩, below := ?_,
                     real := ?_, dfl := fun b h => hmono b (hc.dfl b h), par := ?_, keys := ?_ }
    · intro c h
      rcases eff_mark.1 h with rfl | h
      · exact hm
      · exact hc.below c h
    · intro b h
      by_cases e : b = loc d
      · exact ⟨d, e⟩
      · simp only [HSt.mark, e, if_false] at h
        exact hc.real b h
    · intro c h2 h
      rcases eff_mark.1 h with rfl | h
      · exact hpar
      · exact hc.par c h2 h
    · intro c n x hn hx
      have := hc.keys c n x hn hx
      refine ⟨this.1, fun e he hlt hf => ?_⟩
      rcases eff_mark.1 hf with rfl | hf
      · rcases hh with hh | ⟨_, hh⟩
        · exact this.2 e he hlt hh
        · have hle := this.1.le_parent he hlt
          rcases Nat.lt_or_ge c (parent e) with h3 | h3
          · exact this.2 _ he.parent h3 (Or.inl (hc.dfl _ hpar))
          · have : c = parent e := by omega
            subst this
            exact hh _ (hc.chain _) n hn x hx he
      · exact this.2 e he hlt hf
  · refine ⟨hk.real, hk.excl, fun b h => hmono b (hk.rdfl b h), ?_, ?_, hk.nl⟩
    · intro b h
      by_cases e : b = loc d
      · right
        rw [e]
        show s.wr (loc d) ≠ none
        rw [hw]
        simp
      · simp only [HSt.mark, e, if_false] at h
        exact hk.dur b h
    · intro c h
      rcases eff_mark.1 h with rfl | h
      · left
        simp [HSt.mark]
      · rcases hk.pend c h with h' | h'
        · exact Or.inl (hmono _ h')
        · exact Or.inr h'
  · intro u hu
    refine { Rel.refl u s with fl := hmono, flw := ?_, kids := ?_, flag := ?_ }
    · intro b hb
      have : b ≠ loc d := by
        rintro rfl
        rw [hw] at hb
        cases hb
        exact hu rfl
      exact ⟨by simp [HSt.mark, this], rfl⟩
    · intro e h2 hu' hf
      rcases eff_mark.1 hf with rfl | hf
      · rcases hh with hh | ⟨hh, _⟩
        · exact hh
        · exact absurd (hk.other hh hu') hu
      · exact hf
    · rintro b (h | h)
      · exact Or.inl (hmono b h)
      · exact Or.inr h

/-- The memory when the mark of a bucket is durable. -/
def HSt.markD (s : HSt) (b : Loc) : HSt := { s with dfl := fun c => if c = b then s.fl c else s.dfl c }

theorem markD_ok {E : HEnv} {m0 t : Nat} {s : HSt} {A : AM} {b : Loc} (hi : Inv E m0 s A) (hw : s.wr b = some t) (hf : s.fl b = true) :
    Inv E m0 (s.markD b) A ∧ Guar t s (s.markD b) := by
  obtain ⟨⟨kk, L, V, hc⟩, hk⟩ := hi
  have hmono : ∀ c, s.dfl c = true → (s.markD b).dfl c = true := fun c h => by
    simp only [HSt.markD]
    split
    · rename_i e
      rw [e]; exact hf
    · exact h
  refine ⟨⟨⟨kk, L, V, ?_⟩, ?_⟩, ?_⟩
  · refine { hc with tab := ⟨hc.tab.two, hc.tab.b0, hc.tab.l0, hc.tab.b1, hc.tab.l1, hc.tab.big, hc.tab.none⟩, base := ⟨hmono _ hc.base.1, hmono _ hc.base.2⟩, dfl := ?_, par := fun c h2 h => hmono _ (hc.par c h2 h) }
    intro c h
    simp only [HSt.markD] at h
    split at h
    · exact h
    · exact hc.dfl c h
  · refine ⟨hk.real, hk.excl, hk.rdfl, ?_, hk.pend, hk.nl⟩
    intro c h
    rcases hk.dur c h with h' | h'
    · exact Or.inl (hmono c h')
    · exact Or.inr h'
  · intro u hu
    refine { Rel.refl u s with dfl := hmono, flw := ?_ }
    intro c hb
    have : c ≠ b := by
      rintro rfl
      rw [hw] at hb
      cases hb
      exact hu rfl
    exact ⟨rfl, by simp [HSt.markD, this]⟩

end PMap.Pmem
