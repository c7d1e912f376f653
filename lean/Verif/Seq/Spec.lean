import Verif.Seq.Steps

/-!
# Sequential specifications of the functions of the map (proof machinery)
-/

namespace PMap

open Prog

variable {hash : Word → Word} {s : A} {M : Word → Option Word} {t idx : Nat} {k : Word}

theorem isMig_false_of {b : Bool} (h : ¬ b = true) : b = false := by simpa using h

theorem resize_spec (hI : Inv hash s M) (ht : t < s.next) :
    W (resize t) (fun n s' => n = t + 1 ∧ t + 1 < s'.next ∧ Inv hash s' M ∧
      (s' = s ∨ (t + 1 = s.next ∧ s' = growA s t))) s := by
  refine W_bind' (W_getNew ht ?_)
  by_cases h : t + 1 < s.next
  · rw [hI.newT t ht, if_pos h]
    refine W_bind' (W_len h ?_)
    refine W_bind' (W_len ht ?_)
    refine W_bind' (W_check ?_ (W_pure ⟨rfl, h, hI, .inl rfl⟩))
    rw [hI.len_dbl t h]
    have := hI.len_pos ht
    exact decide_eq_true (show (s.tab t).len < 2 * (s.tab t).len by omega)
  · have hn : (s.tab t).newT = none := by rw [hI.newT t ht, if_neg h]
    have hlast : t + 1 = s.next := by omega
    rw [hn]
    refine W_bind' (W_len ht ?_)
    refine W_bind' (W_getSize ht ?_)
    refine W_bind' (W_getNew ht ?_)
    rw [hn]
    refine W_bind' (W_alloc ?_ (fun _ => W_threw))
    intro hcap
    rw [newLen_double, Nat.mul_comm] at hcap
    refine W_bind' (W_casNew (t := t) (n := s.next) ?_ ?_ ?_)
    · simp only [allocA]; omega
    · simp only [allocA]; rw [upd_ne (by omega), hn]
    have e : ({ allocA s (newLen (s.tab t).len (s.tab t).size) (s.tab t).size with
        tab := upd (allocA s (newLen (s.tab t).len (s.tab t).size) (s.tab t).size).tab t
          { (allocA s (newLen (s.tab t).len (s.tab t).size) (s.tab t).size).tab t with newT := some s.next } } : A)
        = growA s t := by
      have : (allocA s (newLen (s.tab t).len (s.tab t).size) (s.tab t).size).tab t = s.tab t := by
        simp only [allocA]; rw [upd_ne (by omega)]
      rw [this]; rfl
    rw [e]
    rw [if_pos rfl]
    have hg := hI.grow hlast hcap
    refine W_bind' (W_len (by rw [growA_next]; omega) ?_)
    refine W_bind' (W_check ?_ (W_pure ⟨hlast.symm, by rw [growA_next]; omega, hg, .inr ⟨hlast, rfl⟩⟩))
    rw [growA_tab_new ht]
    have := hI.len_pos ht
    exact decide_eq_true (show (s.tab t).len < 2 * (s.tab t).len by omega)

/-- What the helpers keep. -/
structure Keep (s s' : A) : Prop where
  ext : Ext s s'
  last : s'.lastSize = s.lastSize

theorem Keep.refl (s : A) : Keep s s := ⟨Ext.refl s, rfl⟩
theorem Keep.trans {s1 s2 s3 : A} (h : Keep s1 s2) (h' : Keep s2 s3) : Keep s1 s3 :=
  ⟨h.ext.trans h'.ext, h'.last.trans h.last⟩

theorem grow_cases {s' : A} (h : s' = s ∨ (t + 1 = s.next ∧ s' = growA s t)) :
    Keep s s' ∧ drift s' = drift s ∧ (∀ T, Rest s T → Rest s' T) ∧ Below t s s' ∧
      (∀ i, s'.ck t i = s.ck t i ∧ s'.cv t i = s.cv t i) ∧ (∀ t' i, s'.ck t' i = s.ck t' i ∨ s'.ck t' i = KINITIAL) := by
  rcases h with rfl | ⟨hl, rfl⟩
  · exact ⟨Keep.refl _, rfl, fun _ h => h, Below.refl _ _, fun _ => ⟨rfl, rfl⟩, fun _ _ => .inl rfl⟩
  · refine ⟨⟨ext_grow, lastSize_grow hl⟩, drift_grow (by omega), fun _ h => h.grow, ?_,
      fun i => ⟨growA_ck (by omega) i, growA_cv (by omega) i⟩, ?_⟩
    · refine ⟨rfl, fun t' i h => growA_ck (by omega) i, fun t' i h => growA_cv (by omega) i,
        fun t' h => growA_tab_old (by omega) (by omega)⟩
    · intro t' i
      by_cases h : t' = s.next
      · subst h; exact .inr (growA_ck_new i)
      · left; simp only [growA, allocA]; rw [if_neg h]

theorem lastSize_tab (x : Tab) (hx : x.size = (s.tab t).size) :
    ({ s with tab := upd s.tab t x } : A).lastSize = s.lastSize := by
  simp only [A.lastSize, upd]; split
  · next h => rw [hx, h]
  · rfl

/-- `copyCheckAndPromote`: with `w` freshly migrated slots, the counter catches up and the root may move. -/
theorem promote_spec {w : Nat} (hI : Inv hash s M) (ht : t + 1 < s.next) (hd : drift s t = w) :
    W (copyCheckAndPromote t w) (fun _ s' => Inv hash s' M ∧ Keep s s' ∧
      drift s' = (fun t' => if t' = t then 0 else drift s t') ∧ TabEq s s' ∧
      (∀ t', t' ≠ t → s'.tab t' = s.tab t') ∧
      s'.root = (if s.root = t ∧ cnt s t = (s.tab t).len then t + 1 else s.root) ∧
      (s'.tab t).copyDone = cnt s t) s := by
  have ht' : t < s.next := by omega
  simp only [drift, if_pos ht'] at hd
  have hcd : (s.tab t).copyDone + w = cnt s t := by omega
  have hle := cnt_le s t
  refine W_bind' (W_len ht' ?_)
  refine W_bind' (W_getDone ht' ?_)
  refine W_bind' (W_check (decide_eq_true (show (s.tab t).copyDone + w ≤ (s.tab t).len by omega)) ?_)
  -- the state after the optional fetch_add
  set s1 : A := { s with tab := upd s.tab t { s.tab t with copyDone := (s.tab t).copyDone + w } } with hs1
  have hT : TabEq s s1 := tabEq_upd rfl rfl (le_refl _)
  have hI1 : Inv hash s1 M := hI.tabEq' hT rfl
  have hl1 : s1.lastSize = s.lastSize := lastSize_tab _ rfl
  have hcd1 : (s1.tab t).copyDone = cnt s t := by simp only [hs1, upd_same]; exact hcd
  have hother : ∀ t', t' ≠ t → s1.tab t' = s.tab t' := fun t' h => upd_ne h
  have hd1 : drift s1 = (fun t' => if t' = t then 0 else drift s t') := by
    funext t'
    by_cases e : t' = t
    · subst e
      simp only [if_true, drift]
      rw [if_pos (show t' < s1.next from ht'), hcd1]
      have : cnt s1 t' = cnt s t' := by simp only [cnt, hT.cv, hT.len t' ht']
      rw [this]; ring
    · simp only [if_neg e, drift]
      by_cases h : t' < s.next
      · rw [if_pos (show t' < s1.next from h), if_pos h, hother t' e]
        have : cnt s1 t' = cnt s t' := by simp only [cnt, hT.cv, hT.len t' h]
        rw [this]
      · rw [if_neg (show ¬ t' < s1.next from h), if_neg h]
  have key : W (if (s.tab t).copyDone + w = (s.tab t).len then do
        let nt ← do1 (.getNew t)
        match nt with
        | none => .halt .ub
        | some n => do
          let _ ← do1 (.casRoot t n)
          return ()
      else return () : Prog Unit) (fun _ s' => Inv hash s' M ∧ Keep s s' ∧
      drift s' = (fun t' => if t' = t then 0 else drift s t') ∧ TabEq s s' ∧
      (∀ t', t' ≠ t → s'.tab t' = s.tab t') ∧
      s'.root = (if s.root = t ∧ cnt s t = (s.tab t).len then t + 1 else s.root) ∧
      (s'.tab t).copyDone = cnt s t) s1 := by
    rw [hcd]
    by_cases hfull : cnt s t = (s.tab t).len
    · rw [if_pos hfull]
      refine W_bind' (W_getNew ht' ?_)
      rw [hI1.newT t ht', if_pos (show t + 1 < s1.next from ht)]
      refine W_bind' (W_casRoot (fun b => W_pure ?_))
      by_cases hr : s.root = t
      · rw [if_pos (show s1.root = t from hr), if_pos ⟨hr, hfull⟩]
        set s2 : A := { s1 with root := t + 1 } with hs2
        have hT2 : TabEq s1 s2 := ⟨rfl, rfl, rfl, rfl, rfl, rfl, fun _ _ => rfl, fun _ _ => rfl, fun _ _ => le_refl _⟩
        have hrr : s1.root ≤ s2.root := by show s.root ≤ t + 1; omega
        refine ⟨hI1.tabEq hT2 hrr ht ?_, ⟨(hT.ext (le_refl _)).trans (hT2.ext hrr), hl1⟩, ?_, ?_, hother, rfl, hcd1⟩
        · intro t' i h hi
          have h' : t' < t + 1 := h
          rcases Nat.lt_succ_iff_lt_or_eq.mp h' with h'' | rfl
          · exact hI1.dead t' i (by show t' < s.root; omega) hi
          · rw [hT.len t' ht'] at hi; exact cnt_eq_len hfull i hi
        · rw [← hd1]; exact drift_tabEq hT2 (fun _ _ => rfl)
        · exact ⟨rfl, rfl, rfl, rfl, rfl, rfl, hT.len, hT.newT, hT.slots⟩
      · rw [if_neg (show ¬ s1.root = t from hr), if_neg (fun h => hr h.1)]
        exact ⟨hI1, ⟨hT.ext (le_refl _), hl1⟩, hd1, hT, hother, rfl, hcd1⟩
    · rw [if_neg hfull, if_neg (fun h => hfull h.2)]
      exact W_pure ⟨hI1, ⟨hT.ext (le_refl _), hl1⟩, hd1, hT, hother, rfl, hcd1⟩
  by_cases hw : 0 < w
  · rw [if_pos hw]
    exact W_bind' (W_addDone ht' key)
  · rw [if_neg hw]
    refine W_bind' (W_pure ?_)
    have h0 : w = 0 := by omega
    have e : s1 = s := by
      simp only [hs1, h0, Nat.add_zero]
      have : upd s.tab t (s.tab t) = s.tab := by
        funext t'; by_cases e : t' = t <;> simp [upd, e]
      rw [this]
    rw [e] at key
    exact key

/-- Specification of the recursive call made by migration: `putIfMatch(newTable, key, value, VINITIAL)`. -/
def CopyPut (hash : Word → Word) (put : PutFn) : Prop :=
  ∀ (s : A) (M : Word → Option Word) (t : Nat) (k v : Word), Inv hash s M → t < s.next → s.root < t → Rest s t →
    UserKey k → Storable v → (∀ t0, t0 < t → Pass hash s t0 k) →
    (∀ t' i, t ≤ t' → t' < s.next → i < (s.tab t').len → s.ck t' i ≠ k) →
    (∀ t', t ≤ t' → drift s t' = 0) →
    W (put t k v VINITIAL) (fun r s' => r = VINITIAL ∧ Inv hash s' (putM M k v) ∧ Rest s' t ∧ Keep s s' ∧
      Below t s s' ∧ drift s' = drift s) s

theorem putM_storable (M : Word → Option Word) {k v : Word} (hv : Storable v) :
    putM M k v = fun k' => if k' = k then some v else M k' := by
  funext k'; simp only [putM, if_pos hv]
theorem putM_none (M : Word → Option Word) {k v : Word} (hv : ¬ Storable v) :
    putM M k v = fun k' => if k' = k then none else M k' := by
  funext k'; simp only [putM, if_neg hv]

theorem storable_setMig_not {v : Word} : ¬ Storable (setMark v MigrationFlag) :=
  fun h => by have := h.mig; rw [isMig_setMig] at this; cases this

theorem copySlotKey_spec (n : Nat) (hI : Inv hash s M) (ht : t + 1 < s.next) (hi : idx < (s.tab t).len) :
    W (copySlotKey n idx t) (fun r s' => r = s'.ck t idx ∧ r ≠ KINITIAL ∧ Inv hash s' M ∧
      (s' = s ∧ s.ck t idx ≠ KINITIAL ∨
        s.ck t idx = KINITIAL ∧ s' = { s with ck := upd2 s.ck t idx KTOMBSTONE })) s := by
  refine W_loop (I := fun _ s' => Inv hash s' M ∧ (s' = s ∨
        s.ck t idx = KINITIAL ∧ s' = { s with ck := upd2 s.ck t idx KTOMBSTONE })) ?_ n () s ⟨hI, .inl rfl⟩
  rintro - s' ⟨hI', hs'⟩
  have hn : s'.next = s.next := by rcases hs' with rfl | ⟨-, rfl⟩ <;> rfl
  have hl : (s'.tab t).len = (s.tab t).len := by rcases hs' with rfl | ⟨-, rfl⟩ <;> rfl
  refine W_bind' (W_tableKey (by omega) (by omega) ?_)
  by_cases h0 : s'.ck t idx = KINITIAL
  · rw [if_pos h0]
    have : s' = s := by
      rcases hs' with rfl | ⟨-, rfl⟩
      · rfl
      · simp only [upd2_same] at h0; exact absurd h0.symm KINITIAL_ne_KTOMBSTONE
    subst this
    refine W_bind' (W_casKey (by omega) (by omega) (fun _ => W_pure ?_) (fun h => absurd h0 h))
    rw [clean_KTOMBSTONE]
    exact ⟨hI'.tombKey ht hi h0, .inr ⟨h0, rfl⟩⟩
  · rw [if_neg h0]
    refine W_pure ⟨rfl, h0, hI', ?_⟩
    rcases hs' with rfl | h
    · exact .inl ⟨rfl, h0⟩
    · exact .inr h

/-- The result of `copySlot` when there was nothing to copy: an exact description. -/
theorem copySlot_empty {put : PutFn} (n : Nat) (hI : Inv hash s M) (ht : t + 1 < s.next) (hi : idx < (s.tab t).len)
    (hk : s.ck t idx ≠ KINITIAL) (hv : s.cv t idx = VINITIAL ∨ s.cv t idx = VTOMBSTONE) (nt : Nat) :
    W (copySlot put n idx t nt) (fun b s' => b = true ∧ Inv hash s' M ∧
      s' = { s with cv := upd2 s.cv t idx TOMBPRIME }) s := by
  refine W_bind' (W_mono (copySlotKey_spec n hI ht hi) ?_)
  rintro key s1 ⟨-, -, -, hs1⟩
  have : s1 = s := by
    rcases hs1 with ⟨rfl, -⟩ | ⟨h, -⟩
    · rfl
    · exact absurd h hk
  subst this
  refine W_bind' (W_tableValue (by omega) hi ?_)
  have hnm : isMig (s1.cv t idx) = false := by
    rcases hv with h | h <;> rw [h]
    · exact isMig_VINITIAL
    · exact isMig_VTOMBSTONE
  have hns : ¬ Storable (s1.cv t idx) := fun h => by
    rcases hv with h' | h'
    · exact h.ne_init h'
    · exact h.ne_tomb h'
  have hI' := hI.setVal_prime ht hi hk hns
  refine W_bind' (W_mono (Q := fun r s' => r = .finished ∧ s' = { s1 with cv := upd2 s1.cv t idx TOMBPRIME }) ?_ ?_)
  · refine W_loop (I := fun v s' => v = s1.cv t idx ∧ s' = s1) ?_ n _ _ ⟨rfl, rfl⟩
    rintro v s' ⟨rfl, rfl⟩
    rw [if_neg (by rw [hnm]; simp)]
    simp only [if_pos hv]
    refine W_bind' (W_casValue (by omega) hi (fun _ => ?_) (fun h => absurd rfl h))
    rw [if_pos rfl]
    refine W_pure ⟨rfl, by rw [clean_TOMBPRIME]⟩
  · rintro r s' ⟨rfl, rfl⟩
    exact W_pure ⟨rfl, hI', rfl⟩

/-- `copySlot`: the slot ends migrated, its content (if any) is in a later table. -/
theorem copySlot_spec {put : PutFn} (hput : CopyPut hash put) (n : Nat) (hI : Inv hash s M) (hR : Rest s t)
    (ht : t + 1 < s.next) (hi : idx < (s.tab t).len) (hdr : ∀ t', t + 1 ≤ t' → drift s t' = 0) :
    W (copySlot put n idx t (t + 1)) (fun b s' => Inv hash s' M ∧ Rest s' t ∧ Keep s s' ∧ Below t s s' ∧
      s'.tab t = s.tab t ∧
      s'.cv t idx = TOMBPRIME ∧
      drift s' = (fun t' => drift s t' + if t' = t ∧ b = true then 1 else 0)) s := by
  refine W_bind' (W_mono (copySlotKey_spec n hI ht hi) ?_)
  rintro key s1 ⟨rfl, hk1, hI1, hs1⟩
  have hcv : s1.cv = s.cv := by rcases hs1 with ⟨rfl, -⟩ | ⟨-, rfl⟩ <;> rfl
  have htab : s1.tab = s.tab := by rcases hs1 with ⟨rfl, -⟩ | ⟨-, rfl⟩ <;> rfl
  have hnext : s1.next = s.next := by rcases hs1 with ⟨rfl, -⟩ | ⟨-, rfl⟩ <;> rfl
  have hroot1 : s1.root = s.root := by rcases hs1 with ⟨rfl, -⟩ | ⟨-, rfl⟩ <;> rfl
  have hE1 : Ext s s1 := by
    rcases hs1 with ⟨rfl, -⟩ | ⟨h, rfl⟩
    · exact Ext.refl _
    · exact ext_setKey h _
  have hB1 : Below t s s1 := by
    rcases hs1 with ⟨rfl, -⟩ | ⟨h, rfl⟩
    · exact Below.refl _ _
    · exact ⟨rfl, fun t' i h => upd2_ne (by omega), fun _ _ _ => rfl, fun _ _ => rfl⟩
  have hl1 : s1.lastSize = s.lastSize := by simp only [A.lastSize, htab, hnext]
  have hR1 : Rest s1 t := by
    intro t' i h1 h2 h3
    rw [hcv]; rw [hnext] at h2; rw [htab] at h3; exact hR t' i h1 h2 h3
  have hd1 : drift s1 = drift s := by
    funext t'; simp only [drift, cnt, hcv, htab, hnext]
  have hi1 : idx < (s1.tab t).len := by rw [htab]; exact hi
  have ht1 : t + 1 < s1.next := by rw [hnext]; exact ht
  clear hs1
  refine W_bind' (W_tableValue (by omega) hi1 ?_)
  by_cases hmig : isMig (s1.cv t idx) = true
  · -- already migrated
    have hprime := hR1 t idx (le_refl _) (by omega) hi1 hmig
    refine W_bind' (W_mono (Q := fun r s' => r = .val TOMBPRIME ∧ s' = s1) ?_ ?_)
    · refine W_loop (I := fun v s' => v = TOMBPRIME ∧ s' = s1) ?_ n _ _ ⟨hprime, rfl⟩
      rintro v s' ⟨rfl, rfl⟩
      rw [if_pos isMig_TOMBPRIME]
      exact W_pure ⟨rfl, rfl⟩
    · rintro r s' ⟨rfl, rfl⟩
      simp only [if_true]
      refine W_pure ⟨hI1, hR1, ⟨hE1, hl1⟩, hB1, by rw [htab], hprime, ?_⟩
      rw [hd1]; funext t'; simp
  · have hmig : isMig (s1.cv t idx) = false := by simpa using hmig
    by_cases hv : s1.cv t idx = VINITIAL ∨ s1.cv t idx = VTOMBSTONE
    · -- nothing to copy
      have hns : ¬ Storable (s1.cv t idx) := fun h => by
        rcases hv with h' | h'
        · exact h.ne_init h'
        · exact h.ne_tomb h'
      have hI2 := hI1.setVal_prime ht1 hi1 hk1 hns
      refine W_bind' (W_mono (Q := fun r s' => r = .finished ∧ s' = { s1 with cv := upd2 s1.cv t idx TOMBPRIME }) ?_ ?_)
      · refine W_loop (I := fun v s' => v = s1.cv t idx ∧ s' = s1) ?_ n _ _ ⟨rfl, rfl⟩
        rintro v s' ⟨rfl, rfl⟩
        rw [if_neg (by rw [hmig]; simp)]
        simp only [if_pos hv]
        refine W_bind' (W_casValue (by omega) hi1 (fun _ => ?_) (fun h => absurd rfl h))
        rw [if_pos rfl]
        refine W_pure ⟨rfl, by rw [clean_TOMBPRIME]⟩
      · rintro r s' ⟨rfl, rfl⟩
        refine W_pure ⟨hI2, ?_, ?_, ?_, ?_, ?_, ?_⟩
        · intro t' i h1 h2 h3
          by_cases h : t' = t ∧ i = idx
          · obtain ⟨rfl, rfl⟩ := h; intro _; exact upd2_same _ _ _ _
          · show isMig (upd2 s1.cv t idx TOMBPRIME t' i) = true → upd2 s1.cv t idx TOMBPRIME t' i = _
            rw [upd2_ne h]; exact hR1 t' i h1 h2 h3
        · exact ⟨hE1.trans (ext_setVal (fun _ => isMig_TOMBPRIME)), hl1⟩
        · exact hB1.trans ⟨rfl, fun _ _ _ => rfl, fun t' i h => upd2_ne (by omega), fun _ _ => rfl⟩
        · exact congrFun htab t
        · exact upd2_same _ _ _ _
        · rw [drift_setVal_prime (by omega) hi1 (by intro h; rw [h, isMig_TOMBPRIME] at hmig; cases hmig), hd1]
          simp
    · -- a live value: mark it, copy it, overwrite it
      have hst : Storable (s1.cv t idx) := by
        rcases hI1.val t idx (by omega) hi1 with h | h | h | h
        · exact absurd (.inl h) hv
        · exact absurd (.inr h) hv
        · exact h
        · rw [hmig] at h; cases h
      generalize hvdef : s1.cv t idx = v at *
      have hku : UserKey (s1.ck t idx) := by
        refine ⟨hI1.kclean t idx (by omega) hi1, hk1, fun h => ?_⟩
        rcases (hI1.ktomb t idx (by omega) hi1 h).2 with h' | h'
        · exact hst.ne_init (hvdef.symm.trans h')
        · exact hst.ne_prime (hvdef.symm.trans h')
      generalize hkdef : s1.ck t idx = key at *
      have hcm : clean (setMark v MigrationFlag) = setMark v MigrationFlag := by
        rw [clean_setMig, hst.clean]
      have hmne : setMark v MigrationFlag ≠ TOMBPRIME := by
        intro h
        exact hst.ne_tomb (setMig_inj hst.mig isMig_VTOMBSTONE h)
      set s2 : A := { s1 with cv := upd2 s1.cv t idx (setMark v MigrationFlag) } with hs2
      have hI2 : Inv hash s2 (putM M key (setMark v MigrationFlag)) :=
        hI1.setVal_live hku (by omega) hi1 hkdef (by rw [hvdef]; exact hmig) (fun _ _ _ _ _ _ => .inr (isMig_setMig _))
          (.inr (.inr (.inr (isMig_setMig _)))) (fun _ => ht1)
      have hE2 : Ext s1 s2 := ext_setVal (fun _ => isMig_setMig _)
      have hR2 : Rest s2 (t + 1) := by
        intro t' i h1 h2 h3
        show isMig (upd2 s1.cv t idx _ t' i) = true → upd2 s1.cv t idx _ t' i = _
        rw [upd2_ne (by omega)]; exact hR1 t' i (by omega) h2 h3
      have hd2 : drift s2 = drift s1 := drift_setVal_other (by rw [hvdef]; exact hst.ne_prime) hmne
      have hB2 : Below t s1 s2 := ⟨rfl, fun _ _ _ => rfl, fun t' i h => upd2_ne (by omega), fun _ _ => rfl⟩
      refine W_bind' (W_mono (Q := fun r s' => r = .val (setMark v MigrationFlag) ∧ s' = s2) ?_ ?_)
      · refine W_loop (I := fun v' s' => v' = v ∧ s' = s1) ?_ n _ _ ⟨rfl, rfl⟩
        rintro v' s' ⟨rfl, rfl⟩
        rw [if_neg (by rw [hmig]; simp)]
        simp only [if_neg hv]
        refine W_bind' (W_casValue (by omega) hi1 (fun _ => ?_) (fun h => absurd hvdef h))
        rw [if_pos rfl, if_neg hmne]
        exact W_pure ⟨rfl, by rw [hcm]⟩
      · rintro r s' ⟨rfl, rfl⟩
        simp only [if_neg hmne]
        rw [clearMig_setMig hst.mig]
        refine W_bind' (W_check (by simpa using hst.ne_tomb) ?_)
        have hpass : ∀ t0, t0 < t + 1 → Pass hash s2 t0 key := by
          intro t0 h0
          rcases Nat.lt_succ_iff_lt_or_eq.mp h0 with h | rfl
          · have := hI1.cross t idx t0 (by omega) hi1 (by rw [hkdef]; exact hku) h
            rw [hkdef] at this
            exact hI1.pass_ext hku hE2 (by omega) this
          · obtain ⟨d, h1, h2, h3, -⟩ := hI1.path t0 idx (by omega) hi1 (by rw [hkdef]; exact hku)
            rw [hkdef] at h2 h3
            refine ⟨d, le_of_lt h1, hI1.upto_ext hE2 (by omega) h3, .inr (.inr ?_)⟩
            rw [slotAt_ext hE2 (by omega), ← h2]
            refine ⟨hkdef, ?_⟩
            show isMig (upd2 s1.cv t0 idx _ t0 idx) = true
            rw [upd2_same]; exact isMig_setMig _
        have hncl : ∀ t' i, t + 1 ≤ t' → t' < s2.next → i < (s2.tab t').len → s2.ck t' i ≠ key := by
          intro t' i h1 h2 h3 h4
          have := hI1.cross t' i t h2 h3 (by rw [show s1.ck t' i = key from h4]; exact hku) (by omega)
          rw [show s1.ck t' i = key from h4] at this
          have := hI1.pass_mig hku (by omega) this hi1 hkdef
          rw [hvdef, hmig] at this; cases this
        have hrt : s2.root < t + 1 := by
          show s1.root < t + 1
          by_contra hc
          have := hI1.dead t idx (by omega) hi1
          exact hst.ne_prime (hvdef.symm.trans this)
        refine W_bind' (W_mono (hput s2 _ (t + 1) key v hI2 ht1 hrt hR2 hku hst hpass hncl
          (by rw [hd2, hd1]; exact hdr)) ?_)
        rintro r s3 ⟨rfl, hI3, hR3, hK3, hB3, hd3⟩
        have hM3 : putM (putM M key (setMark v MigrationFlag)) key v = M := by
          have hMk : M key = some v :=
            (hI1.content_live hku (by omega) hi1 hkdef (by rw [hvdef]; exact hmig) v).mpr
              ⟨by rw [hvdef]; exact hst, hvdef⟩
          funext k'
          simp only [putM, if_pos hst]
          split
          · next h => rw [h, hMk]
          · rfl
        rw [hM3] at hI3
        have hcv3 : s3.cv t idx = setMark v MigrationFlag := by
          rw [hB3.cv t idx (by omega)]; exact upd2_same _ _ _ _
        have hck3 : s3.ck t idx = key := by rw [hB3.ck t idx (by omega)]; exact hkdef
        have ht3 : t + 1 < s3.next := lt_of_lt_of_le ht1 hK3.ext.next
        have htab3 : s3.tab t = s1.tab t := hB3.tab t (by omega)
        have hi3 : idx < (s3.tab t).len := by rw [htab3]; exact hi1
        have hI4 := hI3.setVal_prime ht3 hi3 (by rw [hck3]; exact hku.ne_init) (by rw [hcv3]; exact storable_setMig_not)
        refine W_bind' (W_mono (Q := fun _ s' => s' = { s3 with cv := upd2 s3.cv t idx TOMBPRIME }) ?_ ?_)
        · refine W_loop (I := fun v' s' => v' = setMark v MigrationFlag ∧ s' = s3) ?_ n _ _ ⟨rfl, rfl⟩
          rintro v' s' ⟨rfl, rfl⟩
          refine W_bind' (W_casValue (by omega) hi3 (fun _ => ?_) (fun h => absurd hcv3 h))
          rw [if_pos rfl]
          exact W_pure (by rw [clean_TOMBPRIME])
        · rintro - s4 rfl
          refine W_pure ⟨hI4, ?_, ?_, ?_, ?_, ?_, ?_⟩
          · intro t' i h1 h2 h3
            show isMig (upd2 s3.cv t idx _ t' i) = true → upd2 s3.cv t idx _ t' i = _
            by_cases h : t' = t ∧ i = idx
            · obtain ⟨rfl, rfl⟩ := h; rw [upd2_same]; intro _; rfl
            · rw [upd2_ne h]
              rcases Nat.eq_or_lt_of_le h1 with rfl | h1'
              · rw [hB3.cv t i (by omega)]
                show isMig (upd2 s1.cv t idx _ t i) = true → upd2 s1.cv t idx _ t i = _
                rw [upd2_ne h]
                refine hR1 t i h1 (by omega) ?_
                have h3' : i < (s3.tab t).len := h3
                rw [htab3] at h3'; exact h3'
              · exact hR3 t' i h1' h2 h3
          · exact ⟨((hE1.trans hE2).trans hK3.ext).trans (ext_setVal (fun _ => isMig_TOMBPRIME)),
              show s3.lastSize = _ from hK3.last.trans hl1⟩
          · exact ((hB1.trans hB2).trans (hB3.weaken (by omega))).trans
              ⟨rfl, fun _ _ _ => rfl, fun t' i h => upd2_ne (by omega), fun _ _ => rfl⟩
          · exact htab3.trans (congrFun htab t)
          · exact upd2_same _ _ _ _
          · rw [drift_setVal_prime (by omega) hi3 (by rw [hcv3]; exact hmne), hd3, hd2, hd1]
            simp

end PMap
