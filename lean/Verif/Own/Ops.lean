import Verif.Own.Put
import Verif.Fixed.Ops

/-!
# Every call of a thread that keeps to its own keys, as an `owp` fact (proof machinery)
-/

namespace PMap

open Prog

variable {C : Cfg} {t : Nat} {op : Op} {s : OSt} {k : Word}

/-- Values a caller may pass as the expected one. -/
def OldArg (o : Word) : Prop := ValidVal o ∨ o = NO_MATCH_OLD ∨ o = MATCH_ANY ∨ o = VTOMBSTONE

theorem OldArg.ne_init {o : Word} (h : OldArg o) : o ≠ VINITIAL := by
  rcases h with h | rfl | rfl | rfl
  · exact h.ne_init
  all_goals decide

theorem OldArg.mig {o : Word} (h : OldArg o) : isMig o = false := by
  rcases h with h | rfl | rfl | rfl
  · exact h.2.1
  all_goals decide

theorem mismatch_admits {V o : Word} (hV : Stored V) (ho : OldArg o) : mismatch V o = false ↔ admits o (dec V) := by
  have key : ∀ {V o : Word}, Stored V → ValidVal o → (mismatch V o = false ↔ dec V = some o) := by
    intro V o hV ho
    have h1 : (o != NO_MATCH_OLD) = true := bne_iff_ne.mpr ho.ne_no
    have h2 : (o != MATCH_ANY) = true := bne_iff_ne.mpr ho.ne_any
    have h3 : (o != VTOMBSTONE) = true := bne_iff_ne.mpr ho.ne_tomb
    have : mismatch V o = (V != o) := by simp [mismatch, h1, h2, h3]
    rw [this]
    constructor
    · intro h
      have : V = o := by simpa using h
      rw [this]; exact dec_valid ho
    · intro h
      simpa using (hV.dec_some h).1
  rcases ho with ho | rfl | rfl | rfl
  · rw [key hV ho, admits, if_neg ho.ne_no, if_neg ho.ne_any, if_neg ho.ne_tomb]
  · simp [mismatch_no, admits]
  · rw [admits, if_neg (by decide), if_pos rfl]
    rcases hV with rfl | rfl | hV
    · simp [dec_init]; decide
    · simp [dec_tomb]; decide
    · have h1 := hV.ne_tomb
      have h2 := hV.ne_init
      simp [mismatch, dec_valid hV, h1, h2]
  · rw [admits, if_neg (by decide), if_neg (by decide), if_pos rfl]
    rcases hV with rfl | rfl | hV
    · simp [dec_init]; decide
    · simp [dec_tomb]; decide
    · rw [mismatch_tomb hV, dec_valid hV]; simp

/-- Calls that write `v` if the content is the expected one. -/
theorem wop_set {v o : Word} {res : Option Word → Res} (hv : ValidVal v) (ho : OldArg o)
    (hn : ∀ M, specNext op M = if admits o (M k) then M.set k v else M) (hr : ∀ M y, specRes op M = some y → res (M k) = y) :
    WOp op k .casValue v o (fun c => if admits o c then some v else c) res where
  next M k' := by
    rw [hn]
    by_cases h : admits o (M k)
    · rw [if_pos h, if_pos h]; rfl
    · rw [if_neg h, if_neg h]
      split
      · next e => rw [e]
      · rfl
  spec := hr
  nv_init := hv.ne_init
  nv_mig := hv.2.1
  ov_init := ho.ne_init
  ov_mig := ho.mig
  same V _ e := by
    subst e
    rw [dec_valid hv]; simp
  skip e := absurd e hv.ne_tomb
  stop V hV hm := by
    refine if_neg fun h => ?_
    rw [(mismatch_admits hV ho).mpr h] at hm; cases hm
  go V hV hm _ _ := by
    rw [if_pos ((mismatch_admits hV ho).mp hm)]
    simp only [CasFn.stored]
    rw [hv.clean_eq]
    exact ⟨dec_valid hv, .inr (.inr hv), by simp [hv.ne_tomb]⟩

/-- Calls that remove the key if the content is the expected one. -/
theorem wop_del {o : Word} {res : Option Word → Res} (ho : OldArg o)
    (hn : ∀ M, specNext op M = if admits o (M k) then M.erase k else M) (hr : ∀ M y, specRes op M = some y → res (M k) = y) :
    WOp op k .casValue VTOMBSTONE o (fun c => if admits o c then none else c) res where
  next M k' := by
    rw [hn]
    by_cases h : admits o (M k)
    · rw [if_pos h, if_pos h]; rfl
    · rw [if_neg h, if_neg h]
      split
      · next e => rw [e]
      · rfl
  spec := hr
  nv_init := by decide
  nv_mig := by decide
  ov_init := ho.ne_init
  ov_mig := ho.mig
  same V _ e := by
    subst e
    rw [dec_tomb]; simp
  skip _ := by simp
  stop V hV hm := by
    refine if_neg fun h => ?_
    rw [(mismatch_admits hV ho).mpr h] at hm; cases hm
  go V hV hm _ _ := by
    rw [if_pos ((mismatch_admits hV ho).mp hm)]
    simp only [CasFn.stored]
    rw [clean_VTOMBSTONE]
    exact ⟨dec_tomb, .inr (.inl rfl), by simp⟩

theorem wop_update : WOp (.update k MATCH_ANY) k .increment MATCH_ANY NO_MATCH_OLD (fun c => some (addOne c))
    (fun o => .word (resWord o)) where
  next M k' := rfl
  spec M y h := by cases h; rfl
  nv_init := by decide
  nv_mig := by decide
  ov_init := by decide
  ov_mig := by decide
  same V hV e := by
    subst e
    rcases hV with h | h | h
    · exact absurd h (by decide)
    · exact absurd h (by decide)
    · exact absurd rfl h.ne_any
  skip e := absurd e (by decide)
  stop V _ hm := by rw [mismatch_no] at hm; cases hm
  go V hV _ _ hv := by
    have hs : CasFn.stored .increment V MATCH_ANY = addOne (dec V) := by
      simp only [CasFn.stored, incremented, BITS_MARKED, addOne, dec]
      split <;> rfl
    have hv' := hv _ rfl
    rw [hs, hv'.clean_eq]
    exact ⟨dec_valid hv', .inr (.inr hv'), by simp; decide⟩

theorem word_beq {o : Option Word} {v : Word} (hv : ValidVal v) : (resWord o == v) = decide (o = some v) := by
  cases o with
  | none =>
    have : (VINITIAL == v) = false := by simpa using hv.ne_init.symm
    simpa [resWord] using this
  | some w => simp [resWord]; rfl

theorem omapSize (hcount : Counted C t s) {g : Word → Res} (hn : ∀ M, specNext op M = M) (hr : ∀ M y, specRes op M ≠ some y) :
    owp C t op (fun w s' c => c = some (g w) ∧ Counted C t s') mapSize s none := by
  refine owp_bind' (owp_getRoot fun s1 r1 i1 => ?_)
  change owp C t op _ (.act (.getSize 0) .ret) s1 none
  rw [owp]
  intro s2 r2 i2 _
  refine ⟨(s2.m.tab 0).size, s2, by simp [Act.exec, i2.lt], .inr ⟨i2, fun _ _ => Rely.refl _, .inr ⟨rfl, (hn _).symm, g (s2.m.tab 0).size, fun y hy => ?_, ?_⟩⟩⟩
  · exact absurd hy (hr _ y)
  · exact owp_ret ⟨rfl, hcount.rely (r1.trans r2)⟩

/-- The calls, from their parts; `L` is a modification of programs that results pass through. -/
theorem op_owp_of (hC : C.OK) (n : Nat) (ho : op.By C.S C.own t) (hcount : Counted C t s) (L : (α : Type) → Prog α → Prog α)
    (hL : ∀ {α β : Type} (p : Prog α) (g : α → β), L β (p >>= fun a => pure (g a)) = L α p >>= fun a => pure (g a))
    (hput : ∀ {k cf nv ov f res}, WOp op k cf nv ov f res → k ∈ C.S → C.own k = t →
      owp C t op (fun w s' c' => ∃ o, w = resWord o ∧ (∀ v, o = some v → ValidVal v) ∧ c' = some (res o) ∧ Counted C t s')
        (L _ (mapPutIfMatch C.hash n cf k nv ov)) s none)
    (hget : ∀ {k} {res : Option Word → Res}, k ∈ C.S → (∀ M, specNext op M = M) → (∀ M y, specRes op M = some y → res (M k) = y) →
      owp C t op (fun w s' c => ∃ o, w = resWord o ∧ c = some (res o) ∧ (∀ v, o = some v → ValidVal v) ∧ Rely C t s s')
        (L _ (mapGet C.hash n k)) s none)
    (habs : ∀ {k} {res : Option Word → Res}, ValidKey k → k ∉ C.S → (∀ M, specNext op M = M) →
      (∀ M y, specRes op M = some y → res (M k) = y) →
      owp C t op (fun w s' c => w = VINITIAL ∧ c = some (res none) ∧ Rely C t s s') (L _ (mapGet C.hash n k)) s none)
    (hsize : ∀ {g : Word → Res}, (∀ M, specNext op M = M) → (∀ M y, specRes op M ≠ some y) →
      owp C t op (fun w s' c => c = some (g w) ∧ Counted C t s') (L _ mapSize) s none) :
    owp C t op (fun r s' c => c = some r ∧ Counted C t s') (L _ (op.prog C.hash n)) s none := by
  have word : ∀ {k cf nv ov f}, WOp op k cf nv ov f (fun o => .word (resWord o)) → op.changes = some k →
      owp C t op (fun r s' c => c = some r ∧ Counted C t s') (L _ (do return Res.word (← mapPutIfMatch C.hash n cf k nv ov))) s none := by
    intro k cf nv ov f hw hk
    obtain ⟨h1, h2⟩ := ho.keys k hk
    rw [hL]
    refine owp_bind' (owp_mono (hput hw h1 h2) ?_)
    rintro w s' c ⟨o, rfl, -, rfl, h⟩
    exact owp_pure ⟨rfl, h⟩
  have hv := ho.valid
  cases op with
  | get k =>
    change owp C t _ _ (L _ (do return Res.word (← mapGet C.hash n k))) s none
    rw [hL]
    refine owp_bind' ?_
    by_cases hk : k ∈ C.S
    · refine owp_mono (hget (res := fun o => .word (resWord o)) hk (fun _ => rfl) ?_) ?_
      · intro M y hy; cases hy; rfl
      · rintro w s' c ⟨o, rfl, rfl, -, hr⟩
        exact owp_pure ⟨rfl, hcount.rely hr⟩
    · refine owp_mono (habs (res := fun o => .word (resWord o)) hv hk (fun _ => rfl) ?_) ?_
      · intro M y hy; cases hy; rfl
      · rintro w s' c ⟨rfl, rfl, hr⟩
        exact owp_pure ⟨rfl, hcount.rely hr⟩
  | containsKey k =>
    change owp C t _ _ (L _ (do return Res.bool (← mapContainsKey C.hash n k))) s none
    rw [hL, mapContainsKey, hL]
    refine owp_bind' (owp_bind' ?_)
    by_cases hk : k ∈ C.S
    · refine owp_mono (hget (res := fun o => .bool o.isSome) hk (fun _ => rfl) ?_) ?_
      · intro M y hy; cases hy; rfl
      · rintro w s' c ⟨o, rfl, rfl, hv, hr⟩
        refine owp_pure (owp_pure ⟨?_, hcount.rely hr⟩)
        cases o with
        | none => decide
        | some v =>
          have : (v != KINITIAL) = true := bne_iff_ne.mpr (hv v rfl).ne_init
          simp [resWord, this]
    · refine owp_mono (habs (res := fun o => .bool o.isSome) hv hk (fun _ => rfl) ?_) ?_
      · intro M y hy; cases hy; rfl
      · rintro w s' c ⟨rfl, rfl, hr⟩
        exact owp_pure (owp_pure ⟨by decide, hcount.rely hr⟩)
  | put k v =>
    refine word (wop_set (o := NO_MATCH_OLD) hv.2 (.inr (.inl rfl)) (fun M => ?_) (fun M y h => by cases h; rfl)) rfl
    rw [if_pos (by simp [admits])]; rfl
  | putIfAbsent k v =>
    refine word (wop_set (o := VTOMBSTONE) hv.2 (.inr (.inr (.inr rfl))) (fun M => ?_) (fun M y h => by cases h; rfl)) rfl
    have : admits VTOMBSTONE (M k) ↔ M k = none := by
      rw [admits, if_neg (by decide), if_neg (by decide), if_pos rfl]
    simp only [this]; rfl
  | putIfMatch k v o =>
    exact word (wop_set (o := o) hv.2.1 hv.2.2 (fun M => rfl) (fun M y h => by cases h; rfl)) rfl
  | update k v =>
    obtain rfl := ho.upd k v rfl
    exact word wop_update rfl
  | remove k =>
    change owp C t _ _ (L _ (do return Res.bool (← mapRemove C.hash n k))) s none
    rw [hL, mapRemove, hL]
    obtain ⟨h1, h2⟩ := ho.keys k rfl
    have hw : WOp (.remove k) k .casValue VTOMBSTONE NO_MATCH_OLD (fun c => if admits NO_MATCH_OLD c then none else c)
        (fun o => .bool (resWord o != 0#64)) := by
      refine wop_del (.inr (.inl rfl)) (fun M => ?_) (fun M y h => by cases h)
      rw [if_pos (by simp [admits])]; rfl
    refine owp_bind' (owp_bind' (owp_mono (hput hw h1 h2) ?_))
    rintro w s' c ⟨o, rfl, -, rfl, h⟩
    exact owp_pure (owp_pure ⟨rfl, h⟩)
  | removeIf k v =>
    change owp C t _ _ (L _ (do return Res.bool (← mapRemoveIf C.hash n k v))) s none
    rw [hL, mapRemoveIf, hL]
    obtain ⟨h1, h2⟩ := ho.keys k rfl
    have hw : WOp (.removeIf k v) k .casValue VTOMBSTONE v (fun c => if admits v c then none else c)
        (fun o => .bool (decide (o = some v))) := by
      refine wop_del (.inl hv.2) (fun M => ?_) (fun M y h => by cases h; rfl)
      have : admits v (M k) ↔ M k = some v := by
        rw [admits, if_neg hv.2.ne_no, if_neg hv.2.ne_any, if_neg hv.2.ne_tomb]
      simp only [this]; rfl
    refine owp_bind' (owp_bind' (owp_mono (hput hw h1 h2) ?_))
    rintro w s' c ⟨o, rfl, -, rfl, h⟩
    exact owp_pure (owp_pure ⟨by rw [word_beq hv.2], h⟩)
  | replace k o v =>
    change owp C t _ _ (L _ (do return Res.bool (← mapReplace C.hash n k o v))) s none
    rw [hL, mapReplace, hL]
    obtain ⟨h1, h2⟩ := ho.keys k rfl
    have hw : WOp (.replace k o v) k .casValue v o (fun c => if admits o c then some v else c)
        (fun c => .bool (decide (c = some o))) := by
      refine wop_set hv.2.2 (.inl hv.2.1) (fun M => ?_) (fun M y h => by cases h; rfl)
      have : admits o (M k) ↔ M k = some o := by
        rw [admits, if_neg hv.2.1.ne_no, if_neg hv.2.1.ne_any, if_neg hv.2.1.ne_tomb]
      simp only [this]; rfl
    refine owp_bind' (owp_bind' (owp_mono (hput hw h1 h2) ?_))
    rintro w s' c ⟨o', rfl, -, rfl, h⟩
    exact owp_pure (owp_pure ⟨by rw [word_beq hv.2.1], h⟩)
  | size =>
    change owp C t _ _ (L _ (do return Res.word (← mapSize))) s none
    rw [hL]
    refine owp_bind' (owp_mono (hsize (g := .word) (fun _ => rfl) (fun _ y h => by cases h)) ?_)
    rintro w s' c ⟨rfl, h⟩
    exact owp_pure ⟨rfl, h⟩
  | isEmpty =>
    change owp C t _ _ (L _ (do return Res.bool (← mapIsEmpty))) s none
    rw [hL, mapIsEmpty, hL]
    refine owp_bind' (owp_bind' (owp_mono (hsize (g := fun w => .bool (w == 0#64)) (fun _ => rfl) (fun _ y h => by cases h)) ?_))
    rintro w s' c ⟨rfl, h⟩
    exact owp_pure (owp_pure ⟨rfl, h⟩)

/-- **Every call** of a thread that keeps to its own keys takes effect exactly once on the represented map, between its first
and its last action, returns the result fixed at that moment, and leaves the size counter right for the thread's keys. -/
theorem op_owp (hC : C.OK) (n : Nat) (ho : op.By C.S C.own t) (hcount : Counted C t s) :
    owp C t op (fun r s' c => c = some r ∧ Counted C t s') (op.prog C.hash n) s none :=
  op_owp_of hC n ho hcount (fun _ p => p) (fun _ _ => rfl) (fun hw h1 h2 => omapPut hC hw h1 h2 n hcount)
    (fun hk h1 h2 => omapGet hC hk n h1 h2) (fun hv hk h1 h2 => omapGet_absent hC hv hk n h1 h2) (fun h1 h2 => omapSize hcount h1 h2)

end PMap
