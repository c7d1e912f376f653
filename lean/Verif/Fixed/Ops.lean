import Verif.Fixed.Map
import Verif.Fixed.Spec

/-!
# Every admitted call, as a `lwp` fact (proof machinery)
-/

namespace PMap

open Prog

variable {hash : Word → Word} {D : Desc}

theorem unmark_back {V : Word} {o : Option Word} (ho : ∀ v, o = some v → ValidVal v) (h : clean V = enc o) :
    unmark (backWord V) = resWord o := by
  have hb : clean (backWord V) = if V = VTOMBSTONE then VINITIAL else clean V := by
    rw [backWord]; split
    · decide
    · rfl
  rw [unmark, hb]
  cases o with
  | none =>
    rw [h]
    by_cases e : V = VTOMBSTONE
    · rw [if_pos e, if_neg VINITIAL_ne_VTOMBSTONE]; rfl
    · rw [if_neg e, if_pos (show enc none = VTOMBSTONE from rfl)]; rfl
  | some v =>
    have hv := ho v rfl
    have e : V ≠ VTOMBSTONE := by
      rintro rfl
      rw [clean_VTOMBSTONE] at h
      exact hv.ne_tomb h.symm
    rw [if_neg e, h, if_neg (show enc (some v) ≠ VTOMBSTONE from hv.ne_tomb)]; rfl

theorem unmark_res {o : Option Word} (ho : ∀ v, o = some v → ValidVal v) : unmark (resWord o) = resWord o := by
  cases o with
  | none => decide
  | some v =>
    have hv := ho v rfl
    change (if clean v = VTOMBSTONE then VINITIAL else clean v) = v
    rw [hv.clean_eq, if_neg hv.ne_tomb]

theorem mismatch_no (V : Word) : mismatch V NO_MATCH_OLD = false := by simp [mismatch]

theorem mismatch_any {k : Word} (hr : D.rem k = false) {V : Word} (hV : D.Value k V) : mismatch V MATCH_ANY = false := by
  have h1 : (V == VINITIAL) = false := by simpa using hV.ne_init
  have h2 : (V == VTOMBSTONE) = false := by
    rcases hV with ⟨-, h⟩ | h
    · rw [hr] at h; cases h
    · simp only [beq_eq_false_iff_ne]
      rintro rfl
      exact h.ne_tomb (by decide)
  simp [mismatch, h1, h2]

theorem Fits.value {M : AMap} (h : Fits D M) {k : Word} (hk : D.has k) : D.Value k (enc (M k)) := by
  rw [Desc.Value, enc_clean (h.vals k hk)]
  cases hM : M k with
  | none =>
    refine .inl ⟨rfl, ?_⟩
    cases hr : D.rem k with
    | true => rfl
    | false => exact absurd hM (h.there k hr hk)
  | some v => exact .inr (h.vals k hk v hM)

/-- An expected value other than the two wildcards. -/
theorem mismatch_cond {V ov : Word} (h1 : ov ≠ NO_MATCH_OLD) (h2 : ov ≠ MATCH_ANY) (hV : V ≠ VINITIAL) :
    mismatch V ov = (V != ov) := by
  rw [mismatch, bne_iff_ne.mpr h1, bne_iff_ne.mpr h2, bne_iff_ne.mpr hV]
  simp

theorem mismatch_tomb {v : Word} (hv : ValidVal v) : mismatch v VTOMBSTONE = true := by
  have h1 := hv.ne_tomb
  have h2 := hv.ne_init
  have h3 : VTOMBSTONE ≠ NO_MATCH_OLD := by decide
  have h4 : VTOMBSTONE ≠ MATCH_ANY := by decide
  simp [mismatch, h1, h2, h3, h4]

theorem set_same {M : AMap} {k v : Word} (h : M k = some v) : M.set k v = M := by
  funext k'
  simp only [AMap.set]
  split
  · next e => rw [e, h]
  · rfl

/-- Results of the calls that return a word. -/
def finWord (V : Word) : Res := .word (unmark (backWord V))

/-- Calls that write `v` whatever is there. -/
theorem putLike_set {op : Op} {k v ov : Word} (hm : D.stored D.me k v) (hk : D.has k) (hv : ValidVal v)
    (ho : ov = NO_MATCH_OLD ∨ (D.rem k = false ∧ ov = MATCH_ANY)) (hn : ∀ M, Fits D M → specNext op M = M.set k v)
    (hr : ∀ M, specRes op M = some (.word (resWord (M k)))) :
    PutLike D op k .casValue v ov finWord (fun o => o = some v) := by
  have hmis : ∀ V, D.Value k V → mismatch V ov = false := by
    intro V hV
    rcases ho with rfl | ⟨hr, rfl⟩
    · exact mismatch_no V
    · exact mismatch_any hr hV
  exact {
  has := hk
  nv_init := hv.ne_init
  nv_mig := hv.2.1
  ov_mig := by rcases ho with rfl | ⟨-, rfl⟩ <;> decide
  ov_init := by rcases ho with rfl | ⟨-, rfl⟩ <;> decide
  other M hF k' h := by rw [hn M hF]; exact if_neg h
  early_res M hF _ y hy := by
    rw [hr] at hy; cases hy
    rw [finWord, unmark_back (hF.vals k hk) (enc_clean (hF.vals k hk))]
  early_next M hF he := by
    rw [hn M hF]
    exact set_same he
  early_stop M _ he := .inl (by rw [he]; rfl)
  late M hF he := by
    refine ⟨fun e => ?_, hmis _ (hF.value hk)⟩
    cases hM : M k with
    | none => rw [hM] at e; exact hv.ne_tomb e
    | some w => rw [hM] at e he; exact he (by rw [e]; rfl)
  miss _ M V _ hV _ h := by rw [hmis V hV] at h; cases h
  hit_res _ M V hF _ hc _ y hy := by
    rw [hr] at hy; cases hy
    rw [finWord, unmark_back (hF.vals k hk) hc]
  stored _ M V hF _ _ _ := by
    rw [hn M hF]
    simp only [CasFn.stored, AMap.set, if_true]
    exact hv.clean_eq
  mine _ M V _ _ _ _ _ := by rw [CasFn.stored, hv.clean_eq]; exact hm }

theorem putLike_remove {k : Word} (hm : D.stored D.me k VTOMBSTONE) (hk : D.has k) :
    PutLike D (.remove k) k .casValue VTOMBSTONE NO_MATCH_OLD (fun V => .bool (backWord V != 0#64)) (fun o => o = none) where
  has := hk
  nv_init := by decide
  nv_mig := by decide
  ov_mig := by decide
  ov_init := by decide
  other M _ k' h := if_neg h
  early_res M _ _ y hy := by cases hy
  early_next M _ he := by
    funext k'
    simp only [specNext, AMap.erase]
    split
    · next e => rw [e, he]
    · rfl
  early_stop M _ he := .inl (by rw [he]; rfl)
  late M hF he := by
    refine ⟨?_, mismatch_no _⟩
    cases hM : M k with
    | none => exact absurd hM he
    | some w => exact (hF.vals k hk w hM).ne_tomb.symm
  miss _ M V _ _ _ h := by rw [mismatch_no] at h; cases h
  hit_res _ M V _ _ _ _ y hy := by cases hy
  stored _ M V _ _ _ _ := by
    simp only [CasFn.stored, specNext, AMap.erase, if_true]
    exact clean_VTOMBSTONE
  mine _ M V _ _ _ _ _ := by rw [CasFn.stored, clean_VTOMBSTONE]; exact hm

theorem shiftRight_clean (V : Word) : V >>> 3 = clean V >>> 3 := by
  apply BitVec.eq_of_getLsbD_eq
  intro i hi
  simp only [clean, clearMark, BitVec.getLsbD_ushiftRight, BitVec.getLsbD_and]
  have m : ∀ j, j < 64 → 3 ≤ j → (~~~DirtyFlag).getLsbD j = true := by decide
  by_cases h : 3 + i < 64
  · rw [m _ h (by omega), Bool.and_true]
  · rw [BitVec.getLsbD_of_ge _ _ (by omega), Bool.false_and]

theorem putLike_update {k : Word} (hm : ∀ v, v ≠ VTOMBSTONE → D.stored D.me k v) (hk : D.has k) (hrem : D.rem k = false) :
    PutLike D (.update k MATCH_ANY) k .increment MATCH_ANY NO_MATCH_OLD finWord (fun _ => False) := by
  have hst : ∀ M V, Fits D M → D.Value k V → clean V = enc (M k) →
      clean (CasFn.stored .increment V MATCH_ANY) = enc (specNext (.update k MATCH_ANY) M k) := by
    intro M V hF hV hc
    cases hM : M k with
    | none => exact absurd hM (hF.there k hrem hk)
    | some w =>
      rw [hM] at hc
      have hw := hF.vals k hk w hM
      have h1 : V ≠ VINITIAL := hV.ne_init
      have h2 : V ≠ VTOMBSTONE := by
        rintro rfl
        rw [clean_VTOMBSTONE] at hc
        exact hw.ne_tomb hc.symm
      have hs : CasFn.stored .increment V MATCH_ANY = addOne (some w) := by
        simp only [CasFn.stored, incremented, BITS_MARKED, addOne, Option.getD]
        rw [if_neg (by tauto), shiftRight_clean V, hc]
        rfl
      simp only [specNext, AMap.set, if_true, hM, hs]
      rw [← hs]
      exact (incremented_marks V).1
  exact {
  has := hk
  nv_init := by decide
  nv_mig := by decide
  ov_mig := by decide
  ov_init := by decide
  other M _ k' h := if_neg h
  early_res _ _ he := he.elim
  early_next _ _ he := he.elim
  early_stop _ _ he := he.elim
  late M hF _ := by
    refine ⟨?_, mismatch_no _⟩
    cases hM : M k with
    | none => decide
    | some w => exact (hF.vals k hk w hM).ne_any.symm
  miss _ M V _ _ _ h := by rw [mismatch_no] at h; cases h
  hit_res _ M V hF _ hc _ y hy := by
    cases hy
    rw [finWord, unmark_back (hF.vals k hk) hc]
  stored _ M V hF hV hc _ := hst M V hF hV hc
  mine _ M V hF hV hc _ hF' := by
    rw [hst M V hF hV hc]
    have h1 : specNext (.update k MATCH_ANY) M k = some (addOne (M k)) := by simp only [specNext, AMap.set, if_true]
    have h2 := hF'.vals k hk _ h1
    rw [h1]
    exact hm _ h2.ne_tomb }

/-- Calls that write `nv` if the content is `ov`, and may give up otherwise. -/
theorem putLike_cond {op : Op} {k nv ov : Word} {fin : Word → Res} (hex : op.expects = some (k, ov)) (hst : D.stored D.me k nv) (hk : D.has k)
    (hnv : nv = VTOMBSTONE ∨ ValidVal nv) (hov : ov = VTOMBSTONE ∨ ValidVal ov)
    (hother : ∀ M, ∀ k', k' ≠ k → specNext op M k' = M k')
    (hn1 : ∀ M, Fits D M → enc (M k) ≠ ov → specNext op M = M)
    (hn2 : ∀ M, Fits D M → enc (M k) = ov → enc (specNext op M k) = nv)
    (hn3 : ∀ M, Fits D M → enc (M k) = ov → nv = ov → specNext op M = M)
    (hr : ∀ M V, Fits D M → clean V = enc (M k) → (V = enc (M k) ∨ enc (M k) ≠ ov) → ∀ y, specRes op M = some y → fin V = y)
    (hs : ∀ M V, Fits D M → clean V = enc (M k) → enc (M k) = ov → V ≠ ov → spurRes op M = some (fin V)) :
    PutLike D op k .casValue nv ov fin (fun o => enc o = nv ∨ enc o ≠ ov) := by
  have o1 : ov ≠ NO_MATCH_OLD := by rcases hov with rfl | h; exacts [by decide, h.ne_no]
  have o2 : ov ≠ MATCH_ANY := by rcases hov with rfl | h; exacts [by decide, h.ne_any]
  have hm : ∀ V, D.Value k V → mismatch V ov = (V != ov) := fun V hV => mismatch_cond o1 o2 hV.ne_init
  have hnc : clean nv = nv := by rcases hnv with rfl | h; exacts [clean_VTOMBSTONE, h.clean_eq]
  have hoc : clean ov = ov := by rcases hov with rfl | h; exacts [clean_VTOMBSTONE, h.clean_eq]
  exact {
  has := hk
  nv_init := by rcases hnv with rfl | h; exacts [by decide, h.ne_init]
  nv_mig := by rcases hnv with rfl | h; exacts [by decide, h.2.1]
  ov_mig := by rcases hov with rfl | h; exacts [by decide, h.2.1]
  ov_init := by rcases hov with rfl | h; exacts [by decide, h.ne_init]
  other M _ k' h := hother M k' h
  early_res M hF _ y hy := hr M _ hF (enc_clean (hF.vals k hk)) (.inl rfl) y hy
  early_next M hF he := by
    by_cases h : enc (M k) = ov
    · exact hn3 M hF h (by rcases he with he | he; exacts [he ▸ h, absurd h he])
    · exact hn1 M hF h
  early_stop M hF he := by
    rcases he with he | he
    · exact .inl he.symm
    · right; rw [hm _ (hF.value hk)]; simpa using he
  late M hF he := by
    rw [not_or, not_not] at he
    refine ⟨fun h => he.1 h.symm, ?_⟩
    rw [hm _ (hF.value hk)]; simpa using he.2
  miss _ M V hF hV hc h hd := by
    rw [hm V hV, bne_iff_ne] at h
    by_cases e : enc (M k) = ov
    · refine .inr ⟨?_, hs M V hF hc e h⟩
      have hdirty : isDirty V = true := by
        cases hD : isDirty V with
        | true => rfl
        | false => exact absurd ((clean_of_not_dirty hD).symm.trans (hc.trans e)) h
      obtain ⟨j, hj, hs⟩ := hd hdirty
      exact ⟨k, ov, hex, j, hj, by rw [← e, ← hc]; exact hs⟩
    · exact .inl ⟨hn1 M hF e, hr M V hF hc (.inr e)⟩
  hit_res _ M V hF hV hc h := by
    rw [hm V hV, bne_eq_false_iff_eq] at h
    exact hr M V hF hc (.inl (by rw [← hc, h, hoc]))
  stored _ M V hF hV hc h := by
    rw [hm V hV, bne_eq_false_iff_eq] at h
    rw [hn2 M hF (by rw [← hc, h, hoc])]
    exact hnc
  mine _ M V _ _ _ _ _ := by rw [CasFn.stored, hnc]; exact hst }

theorem enc_eq_valid {o : Option Word} {v : Word} (hv : ValidVal v) : enc o = v ↔ o = some v := by
  cases o with
  | none => exact ⟨fun h => absurd h.symm hv.ne_tomb, fun h => by cases h⟩
  | some w => exact ⟨fun h => by rw [← h]; rfl, fun h => by cases h; rfl⟩

theorem enc_eq_tomb {o : Option Word} (ho : ∀ v, o = some v → ValidVal v) : enc o = VTOMBSTONE ↔ o = none := by
  cases o with
  | none => exact ⟨fun _ => rfl, fun _ => rfl⟩
  | some w => exact ⟨fun h => absurd h (ho w rfl).ne_tomb, fun h => by cases h⟩

theorem backWord_eq {V v : Word} (hv : ValidVal v) : (backWord V == v) = (V == v) := by
  rw [backWord]
  split
  · next h =>
    subst h
    rw [beq_eq_false_iff_ne.mpr hv.ne_init.symm, beq_eq_false_iff_ne.mpr hv.ne_tomb.symm]
  · rfl

theorem putLike_replace {k o v : Word} (hst : D.stored D.me k v) (hk : D.has k) (ho : ValidVal o) (hv : ValidVal v) :
    PutLike D (.replace k o v) k .casValue v o (fun V => .bool (backWord V == o)) (fun x => enc x = v ∨ enc x ≠ o) := by
  refine putLike_cond rfl hst hk (.inr hv) (.inr ho) ?_ ?_ ?_ ?_ ?_ ?_
  · intro M k' h
    simp only [specNext]
    split
    · exact if_neg h
    · rfl
  · intro M _ h
    exact if_neg fun e => h ((enc_eq_valid ho).mpr e)
  · intro M _ h
    simp only [specNext]
    rw [if_pos ((enc_eq_valid ho).mp h)]
    simp only [AMap.set, if_true]; rfl
  · intro M _ h e
    simp only [specNext]
    rw [if_pos ((enc_eq_valid ho).mp h), e]
    exact set_same ((enc_eq_valid ho).mp h)
  · intro M V hF hc hor y hy
    cases hy
    rw [backWord_eq ho]
    congr 1
    by_cases e : M k = some o
    · have e' : enc (M k) = o := (enc_eq_valid ho).mpr e
      rcases hor with h | h
      · rw [h, e', decide_eq_true e]; simp
      · exact absurd e' h
    · rw [decide_eq_false e, beq_eq_false_iff_ne]
      rintro rfl
      rw [ho.clean_eq] at hc
      exact e ((enc_eq_valid ho).mp hc.symm)
  · intro M V hF hc e hV
    rw [backWord_eq ho, beq_eq_false_iff_ne.mpr hV]
    exact if_pos ((enc_eq_valid ho).mp e)

theorem putLike_removeIf {k v : Word} (hst : D.stored D.me k VTOMBSTONE) (hk : D.has k) (ho : ValidVal v) :
    PutLike D (.removeIf k v) k .casValue VTOMBSTONE v (fun V => .bool (backWord V == v))
      (fun x => enc x = VTOMBSTONE ∨ enc x ≠ v) := by
  refine putLike_cond rfl hst hk (.inl rfl) (.inr ho) ?_ ?_ ?_ ?_ ?_ ?_
  · intro M k' h
    simp only [specNext]
    split
    · exact if_neg h
    · rfl
  · intro M _ h
    exact if_neg fun e => h ((enc_eq_valid ho).mpr e)
  · intro M _ h
    simp only [specNext]
    rw [if_pos ((enc_eq_valid ho).mp h)]
    simp only [AMap.erase, if_true]; rfl
  · intro M _ h e
    exact absurd e.symm ho.ne_tomb
  · intro M V hF hc hor y hy
    cases hy
    rw [backWord_eq ho]
    congr 1
    by_cases e : M k = some v
    · have e' : enc (M k) = v := (enc_eq_valid ho).mpr e
      rcases hor with h | h
      · rw [h, e', decide_eq_true e]; simp
      · exact absurd e' h
    · rw [decide_eq_false e, beq_eq_false_iff_ne]
      rintro rfl
      rw [ho.clean_eq] at hc
      exact e ((enc_eq_valid ho).mp hc.symm)
  · intro M V hF hc e hV
    rw [backWord_eq ho, beq_eq_false_iff_ne.mpr hV]
    exact if_pos ((enc_eq_valid ho).mp e)

/-- Conditional calls that write `v` and return the content. -/
theorem putLike_word {op : Op} {k v ov : Word} (hex : op.expects = some (k, ov)) (hst : D.stored D.me k v) (hk : D.has k) (hv : ValidVal v)
    (hov : ov = VTOMBSTONE ∨ ValidVal ov) (hyes : ∀ M, Fits D M → enc (M k) = ov → specNext op M = M.set k v)
    (hno : ∀ M, Fits D M → enc (M k) ≠ ov → specNext op M = M) (hother : ∀ M, ∀ k', k' ≠ k → specNext op M k' = M k')
    (hr : ∀ M, specRes op M = some (.word (resWord (M k))))
    (hs : ∀ M, Fits D M → enc (M k) = ov → spurRes op M = some (.word (resWord (M k)))) :
    PutLike D op k .casValue v ov finWord (fun x => enc x = v ∨ enc x ≠ ov) := by
  refine putLike_cond hex hst hk (.inr hv) hov hother hno ?_ ?_ ?_ ?_
  · intro M hF h
    rw [hyes M hF h]
    simp only [AMap.set, if_true]; rfl
  · intro M hF h e
    rw [hyes M hF h]
    exact set_same ((enc_eq_valid hv).mp (h.trans e.symm))
  · intro M V hF hc _ y hy
    rw [hr] at hy; cases hy
    rw [finWord, unmark_back (hF.vals k hk) hc]
  · intro M V hF hc e _
    rw [finWord, unmark_back (hF.vals k hk) hc, hs M hF e]

theorem putLike_putIfAbsent {k v : Word} (hst : D.stored D.me k v) (hk : D.has k) (hv : ValidVal v) :
    PutLike D (.putIfAbsent k v) k .casValue v VTOMBSTONE finWord (fun x => enc x = v ∨ enc x ≠ VTOMBSTONE) := by
  refine putLike_word rfl hst hk hv (.inl rfl) (fun M hF e => if_pos ((enc_eq_tomb (hF.vals k hk)).mp e))
    (fun M hF e => if_neg fun h => e (by rw [h]; rfl)) ?_ (fun _ => rfl) ?_
  · intro M k' h
    simp only [specNext]
    split
    · exact if_neg h
    · rfl
  · intro M hF e
    have hM := (enc_eq_tomb (hF.vals k hk)).mp e
    simp only [spurRes, hM, if_true]; rfl

theorem admits_iff {ov : Word} {o : Option Word} (hov : ov = VTOMBSTONE ∨ ValidVal ov) (ho : ∀ v, o = some v → ValidVal v) :
    admits ov o ↔ enc o = ov := by
  rcases hov with rfl | hov
  · rw [enc_eq_tomb ho, admits, if_neg (by decide), if_neg (by decide), if_pos rfl]
  · rw [enc_eq_valid hov, admits, if_neg hov.ne_no, if_neg hov.ne_any, if_neg hov.ne_tomb]

theorem putLike_match {k v ov : Word} (hst : D.stored D.me k v) (hk : D.has k) (hv : ValidVal v)
    (hov : ov = VTOMBSTONE ∨ ValidVal ov) :
    PutLike D (.putIfMatch k v ov) k .casValue v ov finWord (fun x => enc x = v ∨ enc x ≠ ov) := by
  refine putLike_word (if_neg ?_) hst hk hv hov (fun M hF e => if_pos ((admits_iff hov (hF.vals k hk)).mpr e))
    (fun M hF e => if_neg fun h => e ((admits_iff hov (hF.vals k hk)).mp h)) ?_ (fun _ => rfl) ?_
  · rcases hov with rfl | h
    · decide
    · exact not_or.mpr ⟨h.ne_no, h.ne_any⟩
  · intro M k' h
    simp only [specNext]
    split
    · exact if_neg h
    · rfl
  · intro M hF e
    refine if_pos ⟨?_, ?_, (admits_iff hov (hF.vals k hk)).mpr e⟩
    · rcases hov with rfl | h; exacts [by decide, h.ne_no]
    · rcases hov with rfl | h; exacts [by decide, h.ne_any]

/-- **Every admitted call** takes effect exactly once on the represented map, between its first and its last action, and
returns the result fixed at that moment, or gives up at one such moment if another thread may store
what it waits for. -/
theorem op_lwp (h : D.OK hash) (n : Nat) {op : Op} (ho : op.OnW D.has D.rem)
    (hst : ∀ k v, op.leaves k v → D.stored D.me k v) :
    lwp D op (fun r c => c = some r.unmark) (op.prog hash n) none := by
  have word : ∀ {p : Prog Word} {k : Word}, lwp D op (fun w c => ∃ V, w = backWord V ∧ D.Value k V ∧ c = some (finWord V)) p none →
      lwp D op (fun r c => c = some (Res.unmark r)) (do return Res.word (← p)) none := by
    intro p k hp
    refine lwp_bind' (lwp_mono hp ?_)
    rintro w c ⟨V, rfl, -, rfl⟩
    exact lwp_pure rfl
  cases op with
  | get k =>
    refine lwp_bind' ?_
    by_cases hk : D.has k
    · refine lwp_mono (mapGet_lwp (res := fun o => .word (resWord o)) h hk n (fun _ => rfl) ?_) ?_
      · intro M y hy; cases hy; rfl
      · rintro w c ⟨o, rfl, rfl, hv⟩
        refine lwp_pure ?_
        rw [Res.unmark, unmark_res hv]
    · refine lwp_mono (mapGet_absent (res := fun o => .word (resWord o)) h ho hk n (fun _ => rfl) ?_) ?_
      · intro M y hy; cases hy; rfl
      · rintro w c ⟨rfl, rfl⟩
        exact lwp_pure (by decide)
  | containsKey k =>
    refine lwp_bind' (lwp_bind' ?_)
    by_cases hk : D.has k
    · refine lwp_mono (mapGet_lwp (res := fun o => .bool o.isSome) h hk n (fun _ => rfl) ?_) ?_
      · intro M y hy; cases hy; rfl
      · rintro w c ⟨o, rfl, rfl, hv⟩
        refine lwp_pure (lwp_pure ?_)
        cases o with
        | none => decide
        | some v =>
          have : (v != KINITIAL) = true := bne_iff_ne.mpr (hv v rfl).ne_init
          simp [Res.unmark, resWord, this]
    · refine lwp_mono (mapGet_absent (res := fun o => .bool o.isSome) h ho hk n (fun _ => rfl) ?_) ?_
      · intro M y hy; cases hy; rfl
      · rintro w c ⟨rfl, rfl⟩
        exact lwp_pure (lwp_pure (by decide))
  | put k v =>
    exact word (mapPutIfMatch_lwp h (putLike_set (hst k v ⟨rfl, rfl⟩) ho.1 ho.2 (.inl rfl) (fun _ _ => rfl) (fun _ => rfl)) n)
  | putIfAbsent k v =>
    exact word (mapPutIfMatch_lwp h (putLike_putIfAbsent (hst k v ⟨rfl, rfl⟩) ho.1 ho.2) n)
  | remove k =>
    refine lwp_bind' (lwp_bind' (lwp_mono (mapPutIfMatch_lwp h (putLike_remove (hst k _ ⟨rfl, rfl⟩) ho.1) n) ?_))
    rintro w c ⟨V, rfl, -, rfl⟩
    exact lwp_pure (lwp_pure rfl)
  | removeIf k v =>
    refine lwp_bind' (lwp_bind' (lwp_mono (mapPutIfMatch_lwp h (putLike_removeIf (hst k _ ⟨rfl, rfl⟩) ho.1 ho.2.1) n) ?_))
    rintro w c ⟨V, rfl, -, rfl⟩
    exact lwp_pure (lwp_pure rfl)
  | replace k o v =>
    refine lwp_bind' (lwp_bind' (lwp_mono (mapPutIfMatch_lwp h (putLike_replace (hst k v ⟨rfl, rfl⟩) ho.1 ho.2.1 ho.2.2) n) ?_))
    rintro w c ⟨V, rfl, -, rfl⟩
    exact lwp_pure (lwp_pure rfl)
  | putIfMatch k v o =>
    obtain ⟨h1, h2, h3⟩ := ho
    have hst' : D.stored D.me k v := hst k v ⟨rfl, rfl⟩
    clear hst
    rcases h3 with h3 | rfl | rfl | ⟨hr, rfl⟩
    · exact word (mapPutIfMatch_lwp h (putLike_match hst' h1 h2 (.inr h3)) n)
    · exact word (mapPutIfMatch_lwp h (putLike_set hst' h1 h2 (.inl rfl) (fun _ _ => rfl) (fun _ => rfl)) n)
    · exact word (mapPutIfMatch_lwp h (putLike_match hst' h1 h2 (.inl rfl)) n)
    · refine word (mapPutIfMatch_lwp h (putLike_set hst' h1 h2 (.inr ⟨hr, rfl⟩) (fun M hF => ?_) (fun _ => rfl)) n)
      refine if_pos ?_
      rw [admits, if_neg (by decide), if_pos rfl]
      exact hF.there k hr h1
  | update k v =>
    obtain ⟨h1, rfl, h3⟩ := ho
    exact word (mapPutIfMatch_lwp h (putLike_update (fun v hv => hst k v ⟨rfl, hv⟩) h1 h3) n)
  | size =>
    refine lwp_bind' (lwp_bind' (lwp_getRoot ?_))
    refine lwp_act fun m M hR _ => ?_
    refine ⟨(m.tab D.tab).size, m, by simp only [Act.exec, hR.lt, if_true], Desc.keep_same fun _ => rfl, .inr (.inl ⟨rfl, hR, _, ?_, lwp_pure (lwp_pure rfl)⟩)⟩
    intro y hy; cases hy
  | isEmpty =>
    refine lwp_bind' (lwp_bind' (lwp_bind' (lwp_getRoot ?_)))
    refine lwp_act fun m M hR _ => ?_
    refine ⟨(m.tab D.tab).size, m, by simp only [Act.exec, hR.lt, if_true], Desc.keep_same fun _ => rfl,
      .inr (.inl ⟨rfl, hR, _, ?_, lwp_pure (lwp_pure (lwp_pure rfl))⟩)⟩
    intro y hy; cases hy

end PMap
