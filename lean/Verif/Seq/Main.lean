import Verif.Seq.Put

/-!
# Sequential specification of the public calls (proof machinery)
-/

namespace PMap

open Prog
open scoped Classical

variable {hash : Word → Word} {s : A} {M : Word → Option Word} {t idx : Nat} {k : Word}

/-! ## Contents and results -/

/-- The content a value word stands for. -/
noncomputable def valOf (w : Word) : Option Word := if Storable w then some w else none

/-- A returned word agrees with a content. -/
def RetOK (r : Word) : Option Word → Prop
  | some v => r = v
  | none => r = VINITIAL ∨ r = VTOMBSTONE

/-- Does the expected value admit the update? -/
def Matches (c : Option Word) (ov : Word) : Prop :=
  ov = NO_MATCH_OLD ∨ (ov = MATCH_ANY ∧ c ≠ none) ∨ (ov = VTOMBSTONE ∧ c = none) ∨ c = some ov

/-- The content after a conditional update. -/
noncomputable def newM (M : Word → Option Word) (k w ov : Word) : Word → Option Word :=
  if Matches (M k) ov then putM M k w else M

/-- Number of keys present. -/
noncomputable def msize (M : Word → Option Word) : Nat := Set.ncard {k | M k ≠ none}

instance : Finite Word := Finite.of_injective BitVec.toFin (fun a b h => by
  cases a; cases b; simp_all)

theorem putM_self {w : Word} (h : M k = valOf w) : putM M k w = M := by
  funext k'; simp only [putM]; split
  · next e => rw [e, h]; rfl
  · rfl

theorem newM_self {w ov : Word} (h : M k = valOf w) : newM M k w ov = M := by
  simp only [newM, putM_self h, ite_self]

theorem valOf_init : valOf VINITIAL = none := if_neg (fun h => h.ne_init rfl)
theorem valOf_tomb : valOf VTOMBSTONE = none := if_neg (fun h => h.ne_tomb rfl)
theorem valOf_storable {w : Word} (h : Storable w) : valOf w = some w := if_pos h

theorem Inv.cur (hI : Inv hash s M) (hk : UserKey k) (ht : t < s.next) (hi : idx < (s.tab t).len)
    (e : s.ck t idx = k) (hm : isMig (s.cv t idx) = false) : M k = valOf (s.cv t idx) := by
  have h := fun v => hI.content_live hk ht hi e hm v
  cases hM : M k with
  | none =>
    by_cases hs : Storable (s.cv t idx)
    · have := (h _).mpr ⟨hs, rfl⟩; rw [hM] at this; cases this
    · exact (if_neg hs).symm
  | some v =>
    obtain ⟨h1, h2⟩ := (h v).mp hM
    rw [valOf_storable h1, h2]

/-- A value word that is not marked. -/
def Plain (V : Word) : Prop := V = VINITIAL ∨ V = VTOMBSTONE ∨ Storable V

theorem Inv.plain (hI : Inv hash s M) (ht : t < s.next) (hi : idx < (s.tab t).len)
    (hm : isMig (s.cv t idx) = false) : Plain (s.cv t idx) := by
  rcases hI.val t idx ht hi with h | h | h | h
  · exact .inl h
  · exact .inr (.inl h)
  · exact .inr (.inr h)
  · rw [hm] at h; cases h

theorem retOK_plain {V : Word} (h : Plain V) : RetOK V (valOf V) := by
  rcases h with rfl | rfl | h
  · rw [valOf_init]; exact .inl rfl
  · rw [valOf_tomb]; exact .inr rfl
  · rw [valOf_storable h]; rfl

theorem sent_ne : NO_MATCH_OLD ≠ VTOMBSTONE ∧ MATCH_ANY ≠ VTOMBSTONE ∧ NO_MATCH_OLD ≠ VINITIAL ∧ MATCH_ANY ≠ VINITIAL ∧
    VTOMBSTONE ≠ VINITIAL ∧ MATCH_ANY ≠ NO_MATCH_OLD := by decide

theorem mismatch_iff {V ov : Word} (hV : Plain V) (hov : ov ≠ VINITIAL) :
    mismatch V ov = true ↔ ¬ Matches (valOf V) ov := by
  obtain ⟨h1, h2, h3, h4, h5, h6⟩ := sent_ne
  simp only [mismatch, Matches, Bool.and_eq_true, Bool.or_eq_true, bne_iff_ne, beq_iff_eq]
  rcases hV with rfl | rfl | hs
  · rw [valOf_init]
    constructor
    · rintro ⟨⟨⟨a, b⟩, -⟩, d⟩
      have d : ov ≠ VTOMBSTONE := d.resolve_left (by simp)
      rintro (c | ⟨-, c⟩ | ⟨c, -⟩ | c)
      · exact a c
      · exact c rfl
      · exact d c
      · cases c
    · intro h
      refine ⟨⟨⟨fun c => h (.inl c), fun c => hov c.symm⟩, .inr rfl⟩, .inr fun c => h (.inr (.inr (.inl ⟨c, rfl⟩)))⟩
  · rw [valOf_tomb]
    constructor
    · rintro ⟨⟨⟨a, b⟩, -⟩, d⟩
      rintro (c | ⟨-, c⟩ | ⟨c, -⟩ | c)
      · exact a c
      · exact c rfl
      · exact b c.symm
      · cases c
    · intro h
      refine ⟨⟨⟨fun c => h (.inl c), fun c => h (.inr (.inr (.inl ⟨c.symm, rfl⟩)))⟩, .inl (.inr rfl)⟩, .inl h5⟩
  · rw [valOf_storable hs]
    constructor
    · rintro ⟨⟨⟨a, b⟩, c⟩, d⟩
      have c : ov ≠ MATCH_ANY := by
        rcases c with (c | c) | c
        · exact c
        · exact absurd c hs.ne_tomb
        · exact absurd c hs.ne_init
      rintro (e | ⟨e, -⟩ | ⟨-, e⟩ | e)
      · exact a e
      · exact c e
      · cases e
      · exact b (Option.some.inj e)
    · intro h
      refine ⟨⟨⟨fun c => h (.inl c), fun c => h (.inr (.inr (.inr (by rw [c]))))⟩, .inl (.inl fun c => h (.inr (.inl ⟨c, by simp⟩)))⟩, .inl hs.ne_init⟩

/-! ## Counting -/

theorem msize_putM_some {w : Word} (hw : Storable w) (h : M k = none) : msize (putM M k w) = msize M + 1 := by
  have e : {k' | putM M k w k' ≠ none} = insert k {k' | M k' ≠ none} := by
    ext k'; simp only [putM, if_pos hw, Set.mem_ofPred_eq, Set.mem_insert_iff]
    by_cases h' : k' = k <;> simp [h']
  rw [msize, e, Set.ncard_insert_of_notMem (by simp [h]) (Set.toFinite _)]; rfl

theorem msize_putM_same {w : Word} (hw : Storable w) (h : M k ≠ none) : msize (putM M k w) = msize M := by
  have e : {k' | putM M k w k' ≠ none} = {k' | M k' ≠ none} := by
    ext k'; simp only [putM, if_pos hw, Set.mem_ofPred_eq]
    by_cases h' : k' = k
    · simp [h', h]
    · simp [h']
  rw [msize, e]; rfl

theorem msize_erase {w : Word} (hw : ¬ Storable w) (h : M k ≠ none) : msize (putM M k w) + 1 = msize M := by
  have e : {k' | M k' ≠ none} = insert k {k' | putM M k w k' ≠ none} := by
    ext k'; simp only [putM, if_neg hw, Set.mem_ofPred_eq, Set.mem_insert_iff]
    by_cases h' : k' = k
    · simp [h', h]
    · simp [h']
  rw [msize, msize, e, Set.ncard_insert_of_notMem (by simp [putM, if_neg hw]) (Set.toFinite _)]

/-- What `adjustSize` adds. -/
noncomputable def sizeDelta (V nv : Word) : Word :=
  if (V = VINITIAL ∨ V = VTOMBSTONE) ∧ nv ≠ VTOMBSTONE then 1#64
  else if ¬(V = VINITIAL ∨ V = VTOMBSTONE) ∧ nv = VTOMBSTONE then -1#64 else 0#64

theorem msize_delta {V nv w : Word} (hV : Plain V) (hM : M k = valOf V)
    (hw : Storable w ∧ nv ≠ VTOMBSTONE ∨ w = VTOMBSTONE ∧ nv = VTOMBSTONE) :
    BitVec.ofNat 64 (msize (putM M k w)) = BitVec.ofNat 64 (msize M) + sizeDelta V nv := by
  have habs : (V = VINITIAL ∨ V = VTOMBSTONE) → M k = none := by
    rintro (h | h)
    · rw [hM, h, valOf_init]
    · rw [hM, h, valOf_tomb]
  have hpres : ¬ (V = VINITIAL ∨ V = VTOMBSTONE) → M k ≠ none := by
    intro h
    rcases hV with h' | h' | h'
    · exact absurd (.inl h') h
    · exact absurd (.inr h') h
    · rw [hM, valOf_storable h']; simp
  rcases hw with ⟨hw, hn⟩ | ⟨rfl, hn⟩
  · by_cases h : V = VINITIAL ∨ V = VTOMBSTONE
    · rw [msize_putM_some hw (habs h), sizeDelta, if_pos ⟨h, hn⟩, BitVec.ofNat_add]
    · rw [msize_putM_same hw (hpres h), sizeDelta, if_neg (fun c => h c.1), if_neg (fun c => hn c.2), BitVec.add_zero]
  · by_cases h : V = VINITIAL ∨ V = VTOMBSTONE
    · have : putM M k VTOMBSTONE = M := putM_self (by rw [habs h, valOf_tomb])
      rw [this, sizeDelta, if_neg (fun c => c.2 hn), if_neg (fun c => c.1 h), BitVec.add_zero]
    · have := msize_erase (w := VTOMBSTONE) (fun h => h.ne_tomb rfl) (hpres h)
      rw [← this, sizeDelta, if_neg (fun c => c.2 hn), if_pos ⟨h, hn⟩, BitVec.ofNat_add]
      simp [BitVec.add_assoc]

/-- The view after the element counter changed. -/
def addA (s : A) (t : Nat) (d : Word) : A := { s with tab := upd s.tab t { s.tab t with size := (s.tab t).size + d } }

theorem addA_zero : addA s t 0#64 = s := by
  have : upd s.tab t { s.tab t with size := (s.tab t).size + 0#64 } = s.tab := by
    funext t'; by_cases e : t' = t
    · subst e; simp [upd]
    · simp [upd, e]
  simp only [addA, this]

theorem addA_tabEq (d : Word) : TabEq s (addA s t d) := tabEq_upd rfl rfl (le_refl _)

theorem addA_drift (d : Word) : drift (addA s t d) = drift s :=
  drift_tabEq (addA_tabEq d) (fun t' _ => by by_cases e : t' = t <;> simp [addA, upd, e])

theorem adjustSize_spec {V nv ov : Word} (ht : t < s.next) (hov : ov ≠ VINITIAL) :
    W (adjustSize t V nv ov) (fun _ s' => s' = addA s t (sizeDelta V nv)) s := by
  unfold adjustSize
  rw [if_pos hov]
  unfold sizeDelta
  split
  · exact W_addSize ht rfl
  · split
    · exact W_addSize ht rfl
    · exact W_pure addA_zero.symm

/-! ## The public update -/

/-- The counter of the newest table stays exact, unless a migration is pending. -/
def SizeRel (s : A) (M : Word → Option Word) (s' : A) (M' : Word → Option Word) : Prop :=
  s.lastSize = BitVec.ofNat 64 (msize M) → s'.root + 1 < s'.next ∨ s'.lastSize = BitVec.ofNat 64 (msize M')

/-- Word standing for the current content, as the increment function sees it. -/
def curWord (M : Word → Option Word) (k : Word) : Word := (M k).getD VINITIAL

/-- What a call of `putIfMatch` on table `t` achieves. -/
def PutPost (hash : Word → Word) (cf : CasFn) (s : A) (M : Word → Option Word) (t : Nat) (k nv ov r : Word) (s' : A) :
    Prop :=
  ∃ w, RetOK r (M k) ∧ Inv hash s' (newM M k w ov) ∧ Rest s' 0 ∧ (drift s' = fun _ => 0) ∧ Ext s s' ∧
    ((w = nv ∧ (cf = .casValue ∨ t + 1 < s'.next ∨ M k = some nv)) ∨
      (cf = .increment ∧ w = incremented (curWord M k) ∧ M k ≠ some nv ∧ s'.next = s.next)) ∧
    ((w = nv ∨ Storable w) → SizeRel s M s' (newM M k w ov))

/-- Specification of `putIfMatch` on behalf of a user. -/
def MainPut (hash : Word → Word) (cf : CasFn) (put : PutFn) : Prop :=
  ∀ (s : A) (M : Word → Option Word) (t : Nat) (k nv ov : Word), Inv hash s M → Rest s 0 → (drift s = fun _ => 0) →
    t < s.next → UserKey k → (Storable nv ∨ nv = VTOMBSTONE ∧ cf = .casValue) → ov ≠ VINITIAL → isMig ov = false →
    (∀ t0, t0 < t → Pass hash s t0 k) →
    W (put t k nv ov) (PutPost hash cf s M t k nv ov) s

theorem SizeRel.keep {s1 s2 : A} {M' : Word → Option Word} (h : SizeRel s1 M s2 M') (hK : Keep s s1) : SizeRel s M s2 M' :=
  fun h0 => h (hK.last.trans h0)

theorem post_rec {put : PutFn} (hmain : MainPut hash .casValue put) {s s1 : A} {cf : CasFn} {nv ov : Word}
    (hI1 : Inv hash s1 M) (hR1 : Rest s1 0) (hd1 : drift s1 = fun _ => 0) (hK : Keep s s1) (ht1 : t + 1 < s1.next)
    (hk : UserKey k) (hnv : Storable nv ∨ nv = VTOMBSTONE ∧ cf = .casValue) (hov : ov ≠ VINITIAL)
    (hom : isMig ov = false) (hp : ∀ t0, t0 < t + 1 → Pass hash s1 t0 k) :
    W (put (t + 1) k nv ov) (PutPost hash cf s M t k nv ov) s1 := by
  refine W_mono (hmain s1 M (t + 1) k nv ov hI1 hR1 hd1 ht1 hk (hnv.imp id (fun h => ⟨h.1, rfl⟩)) hov hom hp) ?_
  rintro r s2 ⟨w, h1, h2, h3, h4, h5, h6, h7⟩
  have hw : w = nv := by
    rcases h6 with h | h
    · exact h.1
    · cases h.1
  subst hw
  exact ⟨w, h1, h2, h3, h4, hK.ext.trans h5, .inl ⟨rfl, .inr (.inl (lt_of_lt_of_le ht1 h5.next))⟩,
    fun h => (h7 h).keep hK⟩

theorem shift_and {f : Word} (hf : ∀ j : Fin 64, 3 ≤ j.val → f.getLsbD j.val = false) (x : Word) :
    (x <<< BITS_MARKED) &&& f = 0#64 := by
  apply BitVec.eq_of_getLsbD_eq
  intro j hj
  simp only [BITS_MARKED, BitVec.getLsbD_and, BitVec.getLsbD_shiftLeft, BitVec.getLsbD_zero]
  by_cases h : j < 3
  · simp [h]
  · rw [hf ⟨j, hj⟩ (show 3 ≤ j by omega), Bool.and_false]

theorem incremented_marks (V : Word) : clean (incremented V) = incremented V ∧ isMig (incremented V) = false := by
  simp only [incremented]
  generalize ((if V = VINITIAL ∨ V = VTOMBSTONE then 0#64 else V) >>> BITS_MARKED + 1#64) = x
  exact ⟨clean_of_not_dirty (isMarked_eq_false.mpr (shift_and (by decide) x)),
    isMarked_eq_false.mpr (shift_and (by decide) x)⟩

/-- The value a call writes over `V`. -/
def written (cf : CasFn) (nv V : Word) : Word :=
  match cf with
  | .casValue => nv
  | .increment => incremented V

theorem incremented_plain (V : Word) : clean (incremented V) = incremented V ∧ Plain (incremented V) := by
  have h := incremented_marks V
  refine ⟨h.1, ?_⟩
  by_cases h1 : incremented V = VINITIAL
  · exact .inl h1
  · by_cases h2 : incremented V = VTOMBSTONE
    · exact .inr (.inl h2)
    · exact .inr (.inr ⟨h.1, h.2, h1, h2⟩)

theorem incremented_cur {V : Word} (hV : Plain V) (hM : M k = valOf V) : incremented V = incremented (curWord M k) := by
  rcases hV with rfl | rfl | h
  · simp [curWord, hM, valOf_init]
  · simp [curWord, hM, valOf_tomb, incremented]
  · simp [curWord, hM, valOf_storable h]

theorem casFn_call {cf : CasFn} {i : Nat} {o n : Word} {Q : Word → A → Prop} (ht : t < s.next) (hi : i < (s.tab t).len)
    (hn : clean n = n) (he : s.cv t i = o)
    (h1 : Q o { s with cv := upd2 s.cv t i (written cf n o) }) :
    W (cf.call t i o n) Q s := by
  cases cf with
  | casValue => exact W_casValue ht hi (fun _ => by rw [hn]; exact h1) (fun h => absurd he h)
  | increment =>
    exact W_increment (n := n) ht hi (fun _ => by rw [(incremented_plain o).1]; exact h1) (fun h => absurd he h)

theorem mainPut_body {put : PutFn} (hcopy : CopyPut hash put) (hmain : MainPut hash .casValue put) (n : Nat)
    (cf : CasFn) : MainPut hash cf (fun t k nv ov => putBody hash put n cf t k nv ov) := by
  intro s M t k nv ov hI hR hd0 ht hk hnv hov hom hpass
  show W (putBody hash put n cf t k nv ov) _ s
  have hnp : Plain nv := by
    rcases hnv with h | ⟨h, -⟩
    · exact .inr (.inr h)
    · exact .inr (.inl h)
  have hnm : isMig nv = false := by
    rcases hnv with h | ⟨h, -⟩
    · exact h.mig
    · rw [h]; exact isMig_VTOMBSTONE
  have hnc : clean nv = nv := by
    rcases hnv with h | ⟨h, -⟩
    · exact h.clean
    · rw [h]; exact clean_VTOMBSTONE
  have hni : nv ≠ VINITIAL := by
    rcases hnv with h | ⟨h, -⟩
    · exact h.ne_init
    · rw [h]; exact sent_ne.2.2.2.2.1
  refine W_bind' (W_check (by simpa using hni) ?_)
  refine W_bind' (W_check (by rw [hnm]; rfl) ?_)
  refine W_bind' (W_check (by rw [hom]; rfl) ?_)
  refine W_bind' (W_len ht ?_)
  refine W_bind' (W_mono (probe_spec n hI ht hk nv) ?_)
  rintro (v' | ⟨i, d, V⟩ | -) s1 hp
  · -- removing an absent key
    obtain ⟨rfl, rfl, he, d, hd, hu, h0⟩ := hp
    have he := he.symm
    subst he
    have hM : M k = none := hI.content_none hk hpass (fun t' i h1 h2 h3 => hI.init_unclaimed hk ht hd hu h0 h1 h2 h3)
    refine W_pure ⟨VTOMBSTONE, by rw [hM]; exact .inr rfl, ?_, hR, hd0, Ext.refl _, .inl ⟨rfl, ?_⟩, fun _ h => .inr ?_⟩
    · rw [newM_self (by rw [hM, valOf_tomb])]; exact hI
    · rcases hnv with h | ⟨-, h⟩
      · exact absurd rfl h.ne_tomb
      · exact .inl h
    · rw [newM_self (by rw [hM, valOf_tomb])]; exact h
  · obtain ⟨hd, hi, hu, hV, hs⟩ := hp
    have so := slot_out hI ht hk hpass hd hi hu hs
    have hV1 : s1.cv t i = V := by rw [so.cv, hV]
    have ht1 : t < s1.next := by rw [so.next]; exact ht
    have hR1 : Rest s1 0 := by
      intro t' j h1 h2 h3; rw [so.cv]; rw [so.next] at h2; rw [so.len] at h3; exact hR t' j h1 h2 h3
    have hd1 : drift s1 = fun _ => 0 := by rw [so.drift]; exact hd0
    have hpass1 : ∀ t0, t0 < t → Pass hash s1 t0 k := fun t0 h => hI.pass_ext hk so.keep.ext (by omega) (hpass t0 h)
    clear hs
    simp only
    by_cases hnV : nv = V
    · rw [if_pos hnV]
      have hM : M k = valOf nv := by
        have := so.inv.cur hk ht1 so.ilt so.key (by rw [hV1, ← hnV]; exact hnm)
        rw [hV1, ← hnV] at this; exact this
      refine W_pure ⟨nv, by rw [← hnV, hM]; exact retOK_plain hnp, ?_, hR1, hd1, so.keep.ext, .inl ⟨rfl, ?_⟩,
        fun _ h => .inr ?_⟩
      · rw [newM_self hM]; exact so.inv
      · rcases hnv with h | ⟨-, h⟩
        · exact .inr (.inr (by rw [hM, valOf_storable h]))
        · exact .inl h
      · rw [newM_self hM, so.keep.last]; exact h
    · rw [if_neg hnV, ← so.len t]
      refine W_bind' (W_mono (wantNewTable_spec so.inv ht1 d V) ?_)
      rintro b s2 ⟨he, hb, -⟩
      have he := he.symm
      subst he
      cases b with
      | true =>
        refine W_bind' (W_mono (resize_spec so.inv ht1) ?_)
        rintro nt s2 ⟨rfl, ht2, hI2, hs2⟩
        obtain ⟨hK2, hd2, hR2, hB2, hkv2, -⟩ := grow_cases hs2
        have hi2 : i < (s2.tab t).len := by rw [hK2.ext.len t ht1]; exact so.ilt
        rw [decide_eq_false hov]
        refine W_bind' (W_mono (copySlotAndCheck_spec hcopy n hI2 (hR2 0 hR1) (by rw [hd2, hd1]) ht2 hi2) ?_)
        rintro nt s3 ⟨rfl, hI3, hR3, hK3, hd3, hm3, -⟩
        have hK13 := hK2.trans hK3
        have hkey3 : s3.ck t i = k := by
          rw [hK13.ext.key t i ht1 so.ilt (by rw [so.key]; exact hk.ne_init), so.key]
        refine post_rec hmain hI3 hR3 hd3 (so.keep.trans hK13) (lt_of_lt_of_le ht2 hK3.ext.next) hk hnv hov hom ?_
        intro t0 h0
        rcases Nat.lt_succ_iff_lt_or_eq.mp h0 with h | rfl
        · exact so.inv.pass_ext hk hK13.ext (by omega) (hpass1 t0 h)
        · exact pass_of_mig (by rw [lim_ext hK13.ext ht1]; exact so.lt)
            (by rw [slotAt_ext hK13.ext ht1]; exact so.idx)
            (so.inv.upto_ext hK13.ext ht1 so.upto) hkey3 hm3
      | false =>
        obtain ⟨hVm, hfar⟩ := hb rfl
        have hVm1 : isMig (s1.cv t i) = false := by rw [hV1]; exact hVm
        have hVp : Plain V := by rw [← hV1]; exact so.inv.plain ht1 so.ilt hVm1
        have hM : M k = valOf V := by
          have := so.inv.cur hk ht1 so.ilt so.key hVm1
          rw [hV1] at this; exact this
        have hMn : M k ≠ some nv := by
          intro h
          rw [hM] at h
          by_cases hs : Storable V
          · rw [valOf_storable hs] at h; exact hnV (Option.some.inj h).symm
          · rw [valOf, if_neg hs] at h; cases h
        have hmm := mismatch_iff (ov := ov) hVp hov
        rw [← hM] at hmm
        have hend : W (loop n (updateBody cf t i nv ov) V) (fun u s' => ∃ r, u = .returned r ∧
            PutPost hash cf s M t k nv ov r s') s1 := by
          refine W_loop (I := fun V' s' => V' = V ∧ s' = s1) ?_ n _ _ ⟨rfl, rfl⟩
          rintro V' s' ⟨e1, e2⟩
          have e1 := e1.symm
          have e2 := e2.symm
          subst e1 e2
          refine W_bind' (W_check (by rw [hVm]; rfl) ?_)
          by_cases hmis : mismatch V ov = true
          · rw [if_pos hmis]
            have hnew : ∀ w, newM M k w ov = M := fun w => if_neg (hmm.mp hmis)
            refine W_pure ⟨V, rfl, match cf with | .casValue => nv | .increment => incremented (curWord M k),
              by rw [hM]; exact retOK_plain hVp, by rw [hnew]; exact so.inv, hR1, hd1, so.keep.ext, ?_,
              fun _ h => .inr (by rw [hnew, so.keep.last]; exact h)⟩
            cases cf
            · exact .inl ⟨rfl, .inl rfl⟩
            · exact .inr ⟨rfl, rfl, hMn, so.next⟩
          · rw [if_neg hmis]
            have hmt : Matches (M k) ov := by
              by_contra hc; exact hmis (hmm.mpr hc)
            have hnew : ∀ w, newM M k w ov = putM M k w := fun w => if_pos hmt
            refine W_bind' (casFn_call ht1 so.ilt hnc hV1 ?_)
            rw [if_pos rfl]
            generalize hwdef : written cf nv V = w
            have hwp : Plain w := by
              rw [← hwdef]
              cases cf
              · exact hnp
              · exact (incremented_plain V).2
            have hwm : isMig w = false := by
              rcases hwp with h | h | h
              · rw [h]; exact isMig_VINITIAL
              · rw [h]; exact isMig_VTOMBSTONE
              · exact h.mig
            have hI2 : Inv hash { s1 with cv := upd2 s1.cv t i w } (putM M k w) := by
              refine so.inv.setVal_live hk ht1 so.ilt so.key hVm1 ?_
                (hwp.elim .inl (fun h => h.elim (fun h => .inr (.inl h)) (fun h => .inr (.inr (.inl h))))) (by rw [hwm]; exact fun h => nomatch h)
              intro d' h1 h2 hre h3 h4
              exfalso
              obtain ⟨d2, -, p1, p2, p3⟩ := so.inv.path t i ht1 so.ilt (by rw [so.key]; exact hk)
              rw [so.key] at p1 p2
              have e' : d' = d := h2.unique so.upto (by rw [← h1]; exact .inr (.inr so.key))
                (by rw [← so.idx]; exact .inr (.inr so.key))
              have e2 : d2 = d := p2.unique so.upto (by rw [← p1]; exact .inr (.inr so.key))
                (by rw [← so.idx]; exact .inr (.inr so.key))
              rcases p3 hre h3 (by omega) with h | h
              · have := hfar (by rw [← hV1]; exact h) hre h3
                omega
              · rw [hVm1] at h; cases h
            refine W_bind' (W_mono (adjustSize_spec (s := { s1 with cv := upd2 s1.cv t i w }) (V := V) (nv := nv) ht1 hov) ?_)
            rintro - s3 rfl
            have hT := addA_tabEq (s := { s1 with cv := upd2 s1.cv t i w }) (t := t) (sizeDelta V nv)
            have hI3 := hI2.tabEq' hT rfl
            refine W_pure ⟨_, rfl, w, ?_, by rw [hnew]; exact hI3, ?_, ?_, ?_, ?_, ?_⟩
            · rw [hM]
              split
              · next h => rw [h.1, valOf_init]; exact .inr rfl
              · exact retOK_plain hVp
            · exact (rest_set hR1 (fun h => by rw [hwm] at h; cases h)).tabEq hT
            · rw [addA_drift, drift_setVal_other ?_ ?_]
              · exact hd1
              · intro h; rw [h, isMig_TOMBPRIME] at hVm1; cases hVm1
              · intro h; rw [h, isMig_TOMBPRIME] at hwm; cases hwm
            · exact so.keep.ext.trans ((ext_set hVm1).trans (hT.ext (le_refl _)))
            · rw [← hwdef]
              cases cf
              · exact .inl ⟨rfl, .inl rfl⟩
              · exact .inr ⟨rfl, incremented_cur hVp hM, hMn, so.next⟩
            · intro hw h0
              by_cases hlast : t + 1 < s1.next
              · left
                show s1.root + 1 < s1.next
                by_contra hc
                have := so.inv.dead t i (by omega) so.ilt
                rw [this, isMig_TOMBPRIME] at hVm1; cases hVm1
              · right
                rw [hnew, msize_delta (w := w) (nv := nv) hVp hM ?_, ← h0, ← so.keep.last]
                · have e : s1.next - 1 = t := by omega
                  show (upd s1.tab t _ (s1.next - 1)).size = (s1.tab (s1.next - 1)).size + _
                  rw [e, upd_same]
                · rcases hnv with h | ⟨h, hc⟩
                  · exact .inl ⟨by rcases hw with h' | h'
                                   · rw [h']; exact h
                                   · exact h', h.ne_tomb⟩
                  · subst hc
                    exact .inr ⟨hwdef.symm.trans h, h⟩
        refine W_bind' (W_mono hend ?_)
        rintro u s' ⟨r, rfl, h⟩
        exact W_pure h
  · obtain ⟨he, hpt⟩ := hp
    have he := he.symm
    subst he
    refine W_bind' (W_mono (resize_spec hI ht) ?_)
    rintro nt s2 ⟨rfl, ht2, hI2, hs2⟩
    obtain ⟨hK2, hd2, hR2, hB2, hkv2, -⟩ := grow_cases hs2
    simp only [ne_eq, hov, not_false_eq_true, if_true]
    refine W_bind' (W_mono (helpCopy_spec hcopy n hI2 (hR2 0 hR) (by rw [hd2, hd0]) (t + 1)) ?_)
    rintro - s3 ⟨-, hI3, hR3, hK3, hd3, -, -⟩
    have hK := hK2.trans hK3
    refine post_rec hmain hI3 hR3 hd3 hK (lt_of_lt_of_le ht2 hK3.ext.next) hk hnv hov hom ?_
    intro t0 h0
    rcases Nat.lt_succ_iff_lt_or_eq.mp h0 with h | rfl
    · exact hI.pass_ext hk hK.ext (by omega) (hpass t0 h)
    · exact hI.pass_ext hk hK.ext ht hpt

theorem mainPut (hash : Word → Word) (n : Nat) : MainPut hash .casValue (putIfMatch hash n .casValue) := by
  induction n with
  | zero => intro s M t k nv ov _ _ _ _ _ _ _ _ _; exact W_fuel
  | succ n ih => exact mainPut_body (copyPut hash n) ih n _

theorem mainPut' (hash : Word → Word) (n : Nat) (cf : CasFn) : MainPut hash cf (putIfMatch hash n cf) := by
  cases n with
  | zero => intro s M t k nv ov _ _ _ _ _ _ _ _ _; exact W_fuel
  | succ n => exact mainPut_body (copyPut hash n) (mainPut hash n) n _

end PMap
