import Verif.Seq.Spec
import Mathlib.Data.Set.Card

/-!
# Sequential specification of migration, `putIfMatch` and `getImpl` (proof machinery)
-/

namespace PMap

open Prog

variable {hash : Word → Word} {s : A} {M : Word → Option Word} {t idx : Nat} {k : Word}

/-! ## Migration of whole tables -/

theorem Rest.glue {s' : A} {T : Nat} (hR : Rest s T) (h : Rest s' t) (hB : Below t s s') (ht : t ≤ s.next) :
    Rest s' T := by
  intro t' i h1 h2 h3
  rcases Nat.lt_or_ge t' t with h4 | h4
  · rw [hB.cv t' i h4]; rw [hB.tab t' h4] at h3
    exact hR t' i h1 (by omega) h3
  · exact h t' i h4 h2 h3

theorem Rest.mono {T T' : Nat} (h : Rest s T) (hT : T ≤ T') : Rest s T' :=
  fun t i h1 => h t i (le_trans hT h1)

theorem and_len_lt {x len : Nat} (h : ∃ p, p ≤ 32 ∧ len = 2 ^ p) : x &&& (len - 1) < len := by
  obtain ⟨p, -, rfl⟩ := h
  rw [and_pow_two_sub_one]; exact Nat.mod_lt _ (by positivity)

theorem and_len {x len : Nat} (h : ∃ p, p ≤ 32 ∧ len = 2 ^ p) : x &&& (len - 1) = x % len := by
  obtain ⟨p, -, rfl⟩ := h
  exact and_pow_two_sub_one x p

theorem copyChunk_spec {put : PutFn} (hput : CopyPut hash put) (n c : Nat) :
    ∀ (todo i wd : Nat) (s : A), Inv hash s M → Rest s 0 → t + 1 < s.next →
      drift s = (fun t' => if t' = t then (wd : Int) else 0) →
      W (copyChunk put n t (t + 1) (s.tab t).len c todo i wd) (fun r s' => Inv hash s' M ∧ Rest s' 0 ∧ Keep s s' ∧
        s'.root = s.root ∧ s'.tab t = s.tab t ∧ drift s' = (fun t' => if t' = t then (r : Int) else 0)) s := by
  intro todo
  induction todo with
  | zero => intro i wd s hI hR ht hd; exact W_pure ⟨hI, hR, Keep.refl s, rfl, rfl, hd⟩
  | succ todo ih =>
    intro i wd s hI hR ht hd
    refine W_bind' (W_mono (copySlot_spec hput n hI (hR.mono (Nat.zero_le _)) ht
      (and_len_lt (hI.len_pow t (by omega))) (fun t' h => by rw [hd]; simp only; rw [if_neg (by omega)])) ?_)
    rintro b s1 ⟨hI1, hR1, hK1, hB1, htab, -, hd1⟩
    have := ih (i + 1) (if b = true then wd + 1 else wd) s1 hI1 (hR.glue hR1 hB1 (by omega))
      (lt_of_lt_of_le ht hK1.ext.next) (by
        rw [hd1, hd]; funext t'
        by_cases e : t' = t <;> cases b <;> simp [e])
    rw [htab] at this
    refine W_mono this ?_
    rintro r s2 ⟨hI2, hR2, hK2, hr2, ht2, hd2⟩
    exact ⟨hI2, hR2, hK1.trans hK2, hr2.trans hB1.root, ht2, hd2⟩

theorem claimChunk_spec (n mw : Nat) (hI : Inv hash s M) (hR : Rest s 0) (ht : t < s.next) :
    W (claimChunk n t (s.tab t).len mw) (fun _ s' => Inv hash s' M ∧ Rest s' 0 ∧ Keep s s' ∧
        s'.root = s.root ∧ s'.next = s.next ∧ (s'.tab t).len = (s.tab t).len ∧ (s'.tab t).copyDone = (s.tab t).copyDone
        ∧ drift s' = drift s) s := by
  refine W_bind' (W_getIdx ht ?_)
  refine W_loop (I := fun _ s' => s' = s) ?_ n _ _ rfl
  intro c s0 he
  have he := he.symm
  subst he
  split
  · refine W_bind' (W_casIdx ht ?_ ?_)
    · intro _
      have hT : TabEq s { s with tab := upd s.tab t { s.tab t with copyIdx := c + mw } } :=
        tabEq_upd rfl rfl (le_refl _)
      exact W_pure ⟨hI.tabEq' hT rfl, hR.tabEq hT, ⟨hT.ext (le_refl _), lastSize_tab _ rfl⟩, rfl, rfl,
        hT.len t ht, by simp [upd_same], drift_tabEq hT (fun t' _ => by by_cases e : t' = t <;> simp [upd, e])⟩
    · intro _; exact W_pure rfl
  · exact W_pure ⟨hI, hR, Keep.refl _, rfl, rfl, rfl, rfl, rfl⟩

theorem cnt_of_drift (h : drift s t = 0) (ht : t < s.next) : (s.tab t).copyDone = cnt s t := by
  simp only [drift, if_pos ht] at h; omega

theorem helpCopyImpl_spec {put : PutFn} (hput : CopyPut hash put) (n : Nat) (hI : Inv hash s M) (hR : Rest s 0)
    (hd : drift s = fun _ => 0) (ht : t + 1 < s.next) (hroot : s.root = t) :
    W (helpCopyImpl put n t) (fun _ s' => Inv hash s' M ∧ Rest s' 0 ∧ Keep s s' ∧ (drift s' = fun _ => 0) ∧
      s'.root = t + 1) s := by
  refine W_bind' (W_getNew (by omega) ?_)
  rw [hI.newT t (by omega), if_pos ht]
  refine W_bind' (W_check rfl ?_)
  refine W_bind' (W_len (by omega) ?_)
  generalize hmw : (if (s.tab t).len < 1024 then (s.tab t).len else 1024) = mw
  refine W_bind' (W_mono (Q := fun _ s' => (Inv hash s' M ∧ Rest s' 0 ∧ Keep s s' ∧ (drift s' = fun _ => 0) ∧
      (s'.root = t ∨ s'.root = t + 1)) ∧ (s'.tab t).len ≤ (s'.tab t).copyDone) ?_ ?_)
  · refine W_loop (I := fun _ s' => Inv hash s' M ∧ Rest s' 0 ∧ Keep s s' ∧ (drift s' = fun _ => 0) ∧
      (s'.root = t ∨ s'.root = t + 1)) ?_ n _ _ ⟨hI, hR, Keep.refl s, hd, .inl hroot⟩
    rintro ⟨c0, pan⟩ s1 ⟨hI1, hR1, hK1, hd1, hr1⟩
    have ht1 : t + 1 < s1.next := lt_of_lt_of_le ht hK1.ext.next
    have hlen1 : (s1.tab t).len = (s.tab t).len := hK1.ext.len t (by omega)
    refine W_bind' (W_getDone (by omega) ?_)
    by_cases hlt : (s1.tab t).copyDone < (s.tab t).len
    · rw [if_pos hlt]
      have hcl : W (claimChunk n t (s.tab t).len mw)
          (fun _ s' => Inv hash s' M ∧ Rest s' 0 ∧ Keep s1 s' ∧ s'.root = s1.root ∧ s'.next = s1.next ∧
            (s'.tab t).len = (s1.tab t).len ∧ drift s' = drift s1) s1 := by
        rw [← hlen1]
        refine W_mono (claimChunk_spec n mw hI1 hR1 (by omega)) ?_
        rintro c s2 ⟨h1, h2, h3, h4, h5, h6, -, h8⟩
        exact ⟨h1, h2, h3, h4, h5, h6, h8⟩
      have hcl' : W (pure c0 : Prog Nat)
          (fun _ s' => Inv hash s' M ∧ Rest s' 0 ∧ Keep s1 s' ∧ s'.root = s1.root ∧ s'.next = s1.next ∧
            (s'.tab t).len = (s1.tab t).len ∧ drift s' = drift s1) s1 :=
        W_pure ⟨hI1, hR1, Keep.refl _, rfl, rfl, rfl, rfl⟩
      cases pan
      on_goal 1 => refine W_bind' (W_mono hcl ?_)
      on_goal 2 => refine W_bind' (W_mono hcl' ?_)
      all_goals
        rintro c s2 ⟨hI2, hR2, hK2, hr2, hn2, hl2, hd2⟩
        have e : (s.tab t).len = (s2.tab t).len := by rw [hl2, hlen1]
        have hch := copyChunk_spec (t := t) hput n c mw 0 0 s2 hI2 hR2 (by omega) (by
          rw [hd2, hd1]; funext t'; simp)
        rw [← e] at hch
        refine W_bind' (W_mono hch ?_)
        rintro wd s3 ⟨hI3, hR3, hK3, hr3, htab3, hd3⟩
        have ht3 : t + 1 < s3.next := by have := hK3.ext.next; omega
        by_cases hw : 0 < wd
        · rw [if_pos hw]
          refine W_bind' (W_mono (promote_spec (w := wd) hI3 ht3 (by rw [hd3]; simp)) ?_)
          rintro - s4 ⟨hI4, hK4, hd4, hT4, -, hr4, -⟩
          refine W_pure ⟨hI4, hR3.tabEq hT4, ((hK1.trans hK2).trans hK3).trans hK4, ?_, ?_⟩
          · rw [hd4, hd3]; funext t'; by_cases e : t' = t <;> simp [e]
          · rw [hr4, hr3, hr2]
            rcases hr1 with h | h
            · rw [h]; split
              · exact .inr rfl
              · exact .inl rfl
            · rw [h, if_neg (by omega)]; exact .inr rfl
        · rw [if_neg hw]
          refine W_bind' (W_pure (W_pure ⟨hI3, hR3, (hK1.trans hK2).trans hK3, ?_, ?_⟩))
          · have : wd = 0 := by omega
            rw [hd3, this]; funext t'; simp
          · rw [hr3, hr2]; exact hr1
    · rw [if_neg hlt]
      exact W_pure ⟨⟨hI1, hR1, hK1, hd1, hr1⟩, by omega⟩
  · rintro - s1 ⟨⟨hI1, hR1, hK1, hd1, hr1⟩, hge⟩
    have ht1 : t + 1 < s1.next := lt_of_lt_of_le ht hK1.ext.next
    refine W_mono (promote_spec (w := 0) hI1 ht1 (by rw [hd1]; rfl)) ?_
    rintro - s2 ⟨hI2, hK2, hd2, hT2, -, hr2, -⟩
    refine ⟨hI2, hR1.tabEq hT2, hK1.trans hK2, ?_, ?_⟩
    · rw [hd2, hd1]; funext t'; simp
    · have hc := cnt_of_drift (s := s1) (t := t) (by rw [hd1]) (by omega)
      have hfull : cnt s1 t = (s1.tab t).len := by
        have := cnt_le s1 t; omega
      rw [hr2]
      rcases hr1 with h | h
      · rw [if_pos ⟨h, hfull⟩]
      · rw [if_neg (by omega), h]

theorem helpCopy_spec {put : PutFn} (hput : CopyPut hash put) (n : Nat) (hI : Inv hash s M) (hR : Rest s 0)
    (hd : drift s = fun _ => 0) (helper : Nat) :
    W (helpCopy put n helper) (fun r s' => r = helper ∧ Inv hash s' M ∧ Rest s' 0 ∧ Keep s s' ∧
      (drift s' = fun _ => 0) ∧ s'.root = (if s.root + 1 < s.next then s.root + 1 else s.root) ∧
      (¬ s.root + 1 < s.next → s' = s)) s := by
  refine W_bind' (W_getRoot ?_)
  refine W_bind' (W_getNew hI.root_lt ?_)
  by_cases h : s.root + 1 < s.next
  · rw [hI.newT _ hI.root_lt, if_pos h]
    refine W_bind' (W_mono (helpCopyImpl_spec hput n hI hR hd h rfl) ?_)
    rintro - s' ⟨h1, h2, h3, h4, h5⟩
    exact W_pure ⟨rfl, h1, h2, h3, h4, by rw [if_pos h]; exact h5, fun h' => absurd h h'⟩
  · rw [hI.newT _ hI.root_lt, if_neg h]
    exact W_pure ⟨rfl, hI, hR, Keep.refl _, hd, by rw [if_neg h], fun _ => rfl⟩

theorem copySlotAndCheck_spec {put : PutFn} (hput : CopyPut hash put) (n : Nat) (hI : Inv hash s M) (hR : Rest s 0)
    (hd : drift s = fun _ => 0) (ht : t + 1 < s.next) (hi : idx < (s.tab t).len) :
    W (copySlotAndCheck put n t idx false) (fun r s' => r = t + 1 ∧ Inv hash s' M ∧ Rest s' 0 ∧ Keep s s' ∧
      (drift s' = fun _ => 0) ∧ isMig (s'.cv t idx) = true ∧ (s.root = t → t < s'.root)) s := by
  refine W_bind' (W_getNew (by omega) ?_)
  rw [hI.newT t (by omega), if_pos ht]
  refine W_bind' (W_check rfl ?_)
  refine W_bind' (W_mono (copySlot_spec hput n hI (hR.mono (Nat.zero_le _)) ht hi (fun t' _ => by rw [hd])) ?_)
  rintro b s1 ⟨hI1, hR1, hK1, hB1, htab1, hcv1, hd1⟩
  have ht1 : t + 1 < s1.next := lt_of_lt_of_le ht hK1.ext.next
  have hi1 : idx < (s1.tab t).len := by rw [htab1]; exact hi
  have hR1' := hR.glue hR1 hB1 (by omega)
  have tail : ∀ s2 : A, Inv hash s2 M → Rest s2 0 → Keep s s2 → (drift s2 = fun _ => 0) → isMig (s2.cv t idx) = true →
      W (helpCopy put n (t + 1)) (fun r s' => r = t + 1 ∧ Inv hash s' M ∧ Rest s' 0 ∧ Keep s s' ∧
      (drift s' = fun _ => 0) ∧ isMig (s'.cv t idx) = true ∧ (s.root = t → t < s'.root)) s2 := by
    intro s2 hI2 hR2 hK2 hd2 hm2
    refine W_mono (helpCopy_spec hput n hI2 hR2 hd2 (t + 1)) ?_
    rintro r s3 ⟨rfl, hI3, hR3, hK3, hd3, hr3, -⟩
    refine ⟨rfl, hI3, hR3, hK2.trans hK3, hd3, hK3.ext.mig t idx (by have := hK2.ext.next; omega)
      (by rw [hK2.ext.len t (by omega)]; exact hi) hm2, fun hroot => ?_⟩
    have h1 := hK2.ext.root
    have h2 := hK2.ext.next
    rw [hr3]
    split <;> omega
  cases b with
  | true =>
    refine W_bind' (W_mono (promote_spec (w := 1) hI1 ht1 (by rw [hd1, hd]; simp)) ?_)
    rintro - s2 ⟨hI2, hK2, hd2, hT2, -, -, -⟩
    refine tail s2 hI2 (hR1'.tabEq hT2) (hK1.trans hK2) ?_ (by rw [hT2.cv, hcv1]; exact isMig_TOMBPRIME)
    rw [hd2, hd1, hd]; funext t'; by_cases e : t' = t <;> simp [e]
  | false =>
    refine tail s1 hI1 hR1' hK1 ?_ (by rw [hcv1]; exact isMig_TOMBPRIME)
    rw [hd1, hd]; funext t'; simp

/-! ## The probe loop of `putIfMatch` -/

/-- The view after claiming a slot. -/
def claimA (s : A) (t i : Nat) (k : Word) : A :=
  { s with ck := upd2 s.ck t i k, tab := upd s.tab t { s.tab t with slots := (s.tab t).slots + 1 } }

theorem claimA_tabEq (i : Nat) : TabEq { s with ck := upd2 s.ck t i k } (claimA s t i k) :=
  tabEq_upd (s := { s with ck := upd2 s.ck t i k }) rfl rfl (Nat.le_succ _)

theorem slotAt_lt_pow (hp : ∃ p, p ≤ 32 ∧ (s.tab t).len = 2 ^ p) (d : Nat) : slotAt hash s t k d < (s.tab t).len :=
  Nat.mod_lt _ (by obtain ⟨p, -, e⟩ := hp; rw [e]; positivity)

theorem slotAt_succ (hp : ∃ p, p ≤ 32 ∧ (s.tab t).len = 2 ^ p) (d : Nat) :
    (slotAt hash s t k d + 1) &&& ((s.tab t).len - 1) = slotAt hash s t k (d + 1) := by
  rw [and_len hp]
  simp only [slotAt]
  rw [Nat.mod_add_mod, Nat.add_assoc]

theorem slotAt_zero (hp : ∃ p, p ≤ 32 ∧ (s.tab t).len = 2 ^ p) : homePut hash k (s.tab t).len = slotAt hash s t k 0 := by
  simp only [slotAt, Nat.add_zero]
  rw [Nat.mod_eq_of_lt]
  exact and_len_lt hp

theorem Upto.succ {d : Nat} (h : Upto hash s t k d) (h0 : s.ck t (slotAt hash s t k d) ≠ KINITIAL)
    (h1 : s.ck t (slotAt hash s t k d) ≠ KTOMBSTONE) (h2 : s.ck t (slotAt hash s t k d) ≠ k) :
    Upto hash s t k (d + 1) := by
  intro e he
  rcases Nat.lt_succ_iff_lt_or_eq.mp he with h' | rfl
  · exact h e h'
  · exact ⟨h0, h1, h2⟩

/-- How the probe loop may end. -/
def ProbePost (hash : Word → Word) (s : A) (t : Nat) (k nv : Word) : Probe → A → Prop
  | .returned v, s' => v = VTOMBSTONE ∧ nv = VTOMBSTONE ∧ s' = s ∧
      ∃ d, d < s.lim t ∧ Upto hash s t k d ∧ s.ck t (slotAt hash s t k d) = KINITIAL
  | .full, s' => s' = s ∧ Pass hash s t k
  | .slot i d V, s' => d < s.lim t ∧ i = slotAt hash s t k d ∧ Upto hash s t k d ∧ V = s.cv t i ∧
      (s' = s ∧ s.ck t i = k ∨ s.ck t i = KINITIAL ∧ s' = claimA s t i k)

theorem probe_pow (n : Nat) (hp : ∃ p, p ≤ 32 ∧ (s.tab t).len = 2 ^ p) (ht : t < s.next) (hk : UserKey k) (nv : Word) :
    W (loop n (probeBody t k nv (s.tab t).len) (homePut hash k (s.tab t).len, 0)) (ProbePost hash s t k nv) s := by
  refine W_loop (I := fun x s' => s' = s ∧ x.1 = slotAt hash s t k x.2 ∧ x.2 < s.lim t ∧ Upto hash s t k x.2) ?_ n _ _
    ⟨rfl, slotAt_zero hp, by simp [A.lim, reprobeLimit, REPROBE_LIMIT], fun e he => by simp at he⟩
  rintro ⟨i, d⟩ s0 ⟨he, hi, hd, hu⟩
  have he := he.symm
  subst he
  simp only at hi hd hu
  subst hi
  have hlt := slotAt_lt_pow (hash := hash) (k := k) hp d
  refine W_bind' (W_tableKey ht hlt ?_)
  refine W_bind' (W_tableValue ht hlt ?_)
  have hmatch : s.ck t (slotAt hash s t k d) ≠ KINITIAL →
      W (probeMatch k (s.tab t).len (slotAt hash s t k d) d (s.ck t (slotAt hash s t k d))
        (s.cv t (slotAt hash s t k d)))
        (fun c s' => match c with
          | .next x => s' = s ∧ x.1 = slotAt hash s t k x.2 ∧ x.2 < s.lim t ∧ Upto hash s t k x.2
          | .done a => ProbePost hash s t k nv a s') s := by
    intro h0
    unfold probeMatch
    by_cases h1 : s.ck t (slotAt hash s t k d) = k
    · rw [if_pos h1]
      exact W_pure ⟨hd, rfl, hu, rfl, .inl ⟨rfl, h1⟩⟩
    · rw [if_neg h1]
      by_cases h2 : reprobeLimit (s.tab t).len ≤ d + 1 ∨ s.ck t (slotAt hash s t k d) = KTOMBSTONE
      · rw [if_pos h2]
        refine W_pure ⟨rfl, ?_⟩
        by_cases h3 : s.ck t (slotAt hash s t k d) = KTOMBSTONE
        · exact ⟨d, le_of_lt hd, hu, .inr (.inl h3)⟩
        · have : d + 1 = s.lim t := by
            have : s.lim t ≤ d + 1 := h2.resolve_right h3
            omega
          exact ⟨d + 1, by omega, hu.succ h0 h3 h1, .inl this⟩
      · rw [if_neg h2]
        push Not at h2
        exact W_pure ⟨rfl, slotAt_succ hp d, h2.1, hu.succ h0 h2.2 h1⟩
  by_cases h0 : s.ck t (slotAt hash s t k d) = KINITIAL
  · rw [if_pos (show s.ck t (slotAt hash s t k d) = VINITIAL from h0)]
    by_cases hnv : nv = VTOMBSTONE
    · rw [if_pos hnv]
      exact W_pure ⟨hnv, hnv, rfl, d, hd, hu, h0⟩
    · rw [if_neg hnv]
      refine W_bind' (W_casKey ht hlt (fun _ => ?_) (fun h => absurd h0 h))
      rw [if_pos rfl, hk.clean]
      refine W_bind' (W_incSlots ht ?_)
      exact W_pure ⟨hd, rfl, hu, rfl, .inr ⟨h0, rfl⟩⟩
  · rw [if_neg (show ¬ s.ck t (slotAt hash s t k d) = VINITIAL from h0)]
    refine W_mono (hmatch h0) ?_
    rintro (c | c) s' h <;> exact h

theorem probe_spec (n : Nat) (hI : Inv hash s M) (ht : t < s.next) (hk : UserKey k) (nv : Word) :
    W (loop n (probeBody t k nv (s.tab t).len) (homePut hash k (s.tab t).len, 0)) (ProbePost hash s t k nv) s :=
  probe_pow n (hI.len_pow t ht) ht hk nv

/-- Summary of the `slot` outcome. -/
structure SlotOut (hash : Word → Word) (s s' : A) (M : Word → Option Word) (t i d : Nat) (k : Word) : Prop where
  inv : Inv hash s' M
  keep : Keep s s'
  drift : drift s' = drift s
  below : Below t s s'
  cv : s'.cv = s.cv
  next : s'.next = s.next
  key : s'.ck t i = k
  upto : Upto hash s' t k d
  idx : i = slotAt hash s' t k d
  lt : d < s'.lim t
  len : ∀ t, (s'.tab t).len = (s.tab t).len
  other : ∀ t' i', t' ≠ t → s'.ck t' i' = s.ck t' i'
  ilt : i < (s'.tab t).len

theorem slot_out {i d : Nat} {s' : A} (hI : Inv hash s M) (ht : t < s.next) (hk : UserKey k)
    (hp : ∀ t0, t0 < t → Pass hash s t0 k) (hd : d < s.lim t) (hi : i = slotAt hash s t k d)
    (hu : Upto hash s t k d)
    (hs : s' = s ∧ s.ck t i = k ∨ s.ck t i = KINITIAL ∧ s' = claimA s t i k) : SlotOut hash s s' M t i d k := by
  have hlt : i < (s.tab t).len := by rw [hi]; exact hI.slotAt_lt ht d
  rcases hs with ⟨rfl, hck⟩ | ⟨hck, rfl⟩
  · exact ⟨hI, Keep.refl _, rfl, Below.refl _ _, rfl, rfl, hck, hu, hi, hd, fun _ => rfl, fun _ _ _ => rfl, hlt⟩
  · have hE1 : Ext s { s with ck := upd2 s.ck t i k } := ext_setKey hck k
    have hT := claimA_tabEq (s := s) (t := t) (k := k) i
    have hI1 : Inv hash { s with ck := upd2 s.ck t i k } M := by
      subst hi; exact hI.claim hk ht hd hu hck hp
    have hE2 : Ext { s with ck := upd2 s.ck t i k } (claimA s t i k) := hT.ext (le_refl _)
    have hE := hE1.trans hE2
    have hlen : ∀ t', ((claimA s t i k).tab t').len = (s.tab t').len := by
      intro t'; simp only [claimA, upd]; split <;> simp_all
    refine ⟨hI1.tabEq' hT rfl, ⟨hE, lastSize_tab (s := s) _ rfl⟩, ?_, ?_, rfl, rfl, upd2_same _ _ _ _,
      hI.upto_ext hE ht hu, by rw [slotAt_ext hE ht]; exact hi, by rw [lim_ext hE ht]; exact hd, hlen, ?_, ?_⟩
    · rw [drift_tabEq hT (fun t' _ => by by_cases e : t' = t <;> simp [claimA, upd, e])]; rfl
    · exact ⟨rfl, fun t' i' h => upd2_ne (by omega), fun _ _ _ => rfl, fun t' h => upd_ne (by omega)⟩
    · intro t' i' h; exact upd2_ne (by tauto)
    · rw [hlen]; exact hlt

/-! ## `tableFull` -/

theorem wantNewTable_spec (hI : Inv hash s M) (ht : t < s.next) (d : Nat) (V : Word) :
    W (wantNewTable t d (s.tab t).len V) (fun b s' => s' = s ∧
      (b = false → isMig V = false ∧ (V = VINITIAL → s.reopened = false → 16 ≤ (s.tab t).len → d < 10)) ∧
      (b = true → V = VINITIAL ∨ isMig V = true)) s := by
  unfold wantNewTable
  by_cases hV : V = VINITIAL
  · rw [if_pos hV]
    unfold tableFull
    have hm : isMig V = false := by rw [hV]; exact isMig_VINITIAL
    by_cases h : REPROBE_LIMIT ≤ d
    · rw [if_pos h]
      refine W_bind' (W_bind' (W_getSlots ht (W_pure (W_pure ⟨rfl, ?_, fun _ => .inl hV⟩))))
      intro hb
      refine ⟨hm, fun _ hre hl => ?_⟩
      exfalso
      have := hI.slots hre t ht
      simp only [Bool.or_eq_false_iff] at hb
      have h2 := of_decide_eq_false hb.1
      apply h2
      show REPROBE_LIMIT + (s.tab t).len / 4 ≤ (s.tab t).slots
      simp only [REPROBE_LIMIT]; omega
    · rw [if_neg h]
      refine W_bind' (W_pure (W_pure ⟨rfl, fun _ => ⟨hm, fun _ _ _ => ?_⟩, fun _ => .inl hV⟩))
      simp only [REPROBE_LIMIT] at h; omega
  · rw [if_neg hV]
    exact W_pure ⟨rfl, fun h => ⟨h, fun h => absurd h hV⟩, fun h => .inr h⟩


/-! ## `putIfMatch` called by migration -/

theorem mismatch_init : mismatch VINITIAL VINITIAL = false := by decide

theorem ext_set {s : A} {i : Nat} {w : Word} (h : isMig (s.cv t i) = false) :
    Ext s { s with cv := upd2 s.cv t i w } := ext_setVal (fun h' => by rw [h] at h'; cases h')

theorem pass_of_mig {i d : Nat} (hd : d < s.lim t) (hi : i = slotAt hash s t k d) (hu : Upto hash s t k d)
    (hk : s.ck t i = k) (hm : isMig (s.cv t i) = true) : Pass hash s t k :=
  ⟨d, le_of_lt hd, hu, .inr (.inr (by rw [← hi]; exact ⟨hk, hm⟩))⟩

theorem rest_set {T i : Nat} {w : Word} (hR : Rest s T) (hw : isMig w = true → w = TOMBPRIME) :
    Rest { s with cv := upd2 s.cv t i w } T := by
  intro t' j h1 h2 h3
  show isMig (upd2 s.cv t i w t' j) = true → upd2 s.cv t i w t' j = _
  by_cases e : t' = t ∧ j = i
  · obtain ⟨rfl, rfl⟩ := e; rw [upd2_same]; exact hw
  · rw [upd2_ne e]; exact hR t' j h1 h2 h3

theorem grow_unclaimed {T : Nat} {s2 : A} (hk : UserKey k) (ht : t < s.next)
    (hs : s2 = s ∨ (t + 1 = s.next ∧ s2 = growA s t))
    (h : ∀ t' i, T ≤ t' → t' < s.next → i < (s.tab t').len → s.ck t' i ≠ k) :
    ∀ t' i, T ≤ t' → t' < s2.next → i < (s2.tab t').len → s2.ck t' i ≠ k := by
  rcases hs with rfl | ⟨hl, rfl⟩
  · exact h
  · intro t' i h1 h2 h3
    rw [growA_next] at h2
    rcases Nat.lt_or_ge t' s.next with h4 | h4
    · rw [growA_ck h4]
      rw [growA_len h4] at h3
      exact h t' i h1 h4 h3
    · have : t' = s.next := by omega
      subst this
      rw [growA_ck_new]; exact hk.ne_init.symm

theorem copyPut_body {put : PutFn} (hput : CopyPut hash put) (n : Nat) :
    CopyPut hash (fun t k nv ov => putBody hash put n .casValue t k nv ov) := by
  intro s M t k v hI ht hroot hR hk hv hpass hncl hdr
  show W (putBody hash put n .casValue t k v VINITIAL) _ s
  refine W_bind' (W_check (by simpa using hv.ne_init) ?_)
  refine W_bind' (W_check (by rw [hv.mig]; rfl) ?_)
  refine W_bind' (W_check (by rw [isMig_VINITIAL]; rfl) ?_)
  refine W_bind' (W_len ht ?_)
  refine W_bind' (W_mono (probe_spec n hI ht hk v) ?_)
  rintro (v' | ⟨i, d, V⟩ | -) s1 hp
  · exact absurd hp.2.1 hv.ne_tomb
  · -- a slot: it must have been claimed just now
    obtain ⟨hd, hi, hu, hV, hs⟩ := hp
    have hilt : i < (s.tab t).len := by rw [hi]; exact hI.slotAt_lt ht d
    have hs' : s.ck t i = KINITIAL ∧ s1 = claimA s t i k := by
      rcases hs with ⟨-, h⟩ | h
      · exact absurd h (hncl t i (le_refl _) ht hilt)
      · exact h
    have so := slot_out hI ht hk hpass hd hi hu hs
    have hV0 : V = VINITIAL := by rw [hV]; exact hI.kinit t i ht hilt hs'.1
    have hcv1 : s1.cv t i = VINITIAL := by rw [so.cv, ← hV, hV0]
    have ht1 : t < s1.next := by rw [so.next]; exact ht
    have hR1 : Rest s1 t := by
      intro t' j h1 h2 h3; rw [so.cv]; rw [so.next] at h2; rw [so.len] at h3; exact hR t' j h1 h2 h3
    have hpass1 : ∀ t0, t0 < t → Pass hash s1 t0 k := fun t0 h => hI.pass_ext hk so.keep.ext (by omega) (hpass t0 h)
    have hn1 : ∀ t' j, t + 1 ≤ t' → t' < s1.next → j < (s1.tab t').len → s1.ck t' j ≠ k := by
      intro t' j h1 h2 h3
      rw [so.other t' j (by omega)]; rw [so.next] at h2; rw [so.len] at h3
      exact hncl t' j (by omega) h2 h3
    have hdr1 : ∀ t', t ≤ t' → drift s1 t' = 0 := by rw [so.drift]; exact hdr
    have hroot1 : s1.root < t := by rw [so.below.root]; exact hroot
    clear hs hs'
    simp only
    rw [if_neg (by rw [hV0]; exact hv.ne_init)]
    rw [← so.len t]
    refine W_bind' (W_mono (wantNewTable_spec so.inv ht1 d V) ?_)
    rintro b s2 ⟨he, hb, -⟩
    have he := he.symm
    subst he
    cases b with
    | true =>
      refine W_bind' (W_mono (resize_spec so.inv ht1) ?_)
      rintro nt s2 ⟨rfl, ht2, hI2, hs2⟩
      obtain ⟨hK2, hd2, hR2, hB2, hkv2, hck2⟩ := grow_cases hs2
      have hl2 : (s2.tab t).len = (s1.tab t).len := hK2.ext.len t ht1
      have hi2 : i < (s2.tab t).len := by rw [hl2]; exact so.ilt
      have hk2 : s2.ck t i = k := by rw [(hkv2 i).1]; exact so.key
      have hv2 : s2.cv t i = VINITIAL := by rw [(hkv2 i).2]; exact hcv1
      have hcs : W (copySlotAndCheck put n t i true) (fun r s' => r = t + 1 ∧ Inv hash s' M ∧ Rest s' t ∧ Keep s2 s' ∧
          Below t s2 s' ∧ drift s' = drift s2 ∧ isMig (s'.cv t i) = true ∧ s'.ck = s2.ck ∧ s'.next = s2.next ∧
          (∀ t', t + 1 ≤ t' → s'.tab t' = s2.tab t')) s2 := by
        refine W_bind' (W_getNew (by omega) ?_)
        rw [hI2.newT t (by omega), if_pos ht2]
        refine W_bind' (W_check rfl ?_)
        refine W_bind' (W_mono (copySlot_empty n hI2 ht2 hi2 (by rw [hk2]; exact hk.ne_init) (.inl hv2) (t + 1)) ?_)
        rintro b s3 ⟨rfl, hI3, rfl⟩
        have hd3 : drift { s2 with cv := upd2 s2.cv t i TOMBPRIME } = fun t' => drift s2 t' + if t' = t then 1 else 0 :=
          drift_setVal_prime (by omega) hi2 (by rw [hv2]; exact VINITIAL_ne_TOMBPRIME)
        have hdt : drift s2 t = 0 := by rw [hd2]; exact hdr1 t (le_refl _)
        refine W_bind' (W_mono (promote_spec (w := 1) hI3 ht2 (by rw [hd3]; simp [hdt])) ?_)
        rintro - s4 ⟨hI4, hK4, hd4, hT4, hoth4, hr4, -⟩
        have hroot2 : s2.root < t := by rw [hB2.root]; exact hroot1
        have hr4' : s4.root = s2.root := by
          rw [hr4, if_neg (by rintro ⟨h, -⟩; have h : s2.root = t := h; omega)]
        refine W_pure ⟨rfl, hI4, ?_, ?_, ?_, ?_, ?_, ?_, ?_, ?_⟩
        · exact (rest_set (hR2 t hR1) (fun _ => rfl)).tabEq hT4
        · exact Keep.trans (s2 := { s2 with cv := upd2 s2.cv t i TOMBPRIME }) ⟨ext_setVal (fun _ => isMig_TOMBPRIME), rfl⟩ hK4
        · refine ⟨hr4', fun t' j h => ?_, fun t' j h => ?_, fun t' h => ?_⟩
          · rw [hT4.ck]
          · rw [hT4.cv]; exact upd2_ne (by omega)
          · exact hoth4 t' (by omega)
        · rw [hd4, hd3]; funext t'
          by_cases e : t' = t
          · simp [e, hdt]
          · simp [e]
        · rw [hT4.cv]; show isMig (upd2 s2.cv t i TOMBPRIME t i) = true
          rw [upd2_same]; exact isMig_TOMBPRIME
        · rw [hT4.ck]
        · rw [hT4.next]
        · intro t' h; exact hoth4 t' (by omega)
      refine W_bind' (W_mono hcs ?_)
      rintro nt s3 ⟨rfl, hI3, hR3, hK3, hB3, hd3, hm3, hck3, hn3, htab3⟩
      have hK13 : Keep s1 s3 := hK2.trans hK3
      have hpass3 : ∀ t0, t0 < t + 1 → Pass hash s3 t0 k := by
        intro t0 h0
        rcases Nat.lt_succ_iff_lt_or_eq.mp h0 with h | rfl
        · exact so.inv.pass_ext hk hK13.ext (by omega) (hpass1 t0 h)
        · exact pass_of_mig (by rw [lim_ext hK13.ext ht1]; exact so.lt)
            (by rw [slotAt_ext hK13.ext ht1]; exact so.idx)
            (so.inv.upto_ext hK13.ext ht1 so.upto) (by rw [hck3]; exact hk2) hm3
      refine W_mono (hput s3 M (t + 1) k v hI3 (by omega) ?_ (hR3.mono (by omega)) hk hv hpass3 ?_ ?_) ?_
      · rw [hB3.root, hB2.root]; omega
      · intro t' j h1 h2 h3
        rw [hck3]
        exact grow_unclaimed hk ht1 hs2 hn1 t' j h1 (by omega) (by rw [← htab3 t' h1]; exact h3)
      · intro t' h; rw [hd3, hd2]; exact hdr1 t' (by omega)
      · rintro r s4 ⟨rfl, hI4, hR4, hK4, hB4, hd4⟩
        exact ⟨rfl, hI4, hR3.glue hR4 hB4 (by omega), (so.keep.trans hK13).trans hK4,
          ((so.below.trans hB2).trans hB3).trans (hB4.weaken (by omega)), by rw [hd4, hd3, hd2, so.drift]⟩
    | false =>
      obtain ⟨-, hfar⟩ := hb rfl
      have hI2 : Inv hash { s1 with cv := upd2 s1.cv t i v } (putM M k v) := by
        refine so.inv.setVal_live hk ht1 so.ilt so.key (by rw [hcv1]; exact isMig_VINITIAL) ?_ (.inr (.inr (.inl hv)))
          (by rw [hv.mig]; exact fun h => nomatch h)
        intro d' h1 h2 h3 h4
        have : d' = d := h2.unique so.upto (by rw [← h1]; exact .inr (.inr so.key))
          (by rw [← so.idx]; exact .inr (.inr so.key))
        have := hfar hV0 h3
        omega
      refine W_bind' (W_mono (Q := fun u s' => u = .returned VINITIAL ∧
        s' = { s1 with cv := upd2 s1.cv t i v }) ?_ ?_)
      · refine W_loop (I := fun V' s' => V' = VINITIAL ∧ s' = s1) ?_ n _ _ ⟨hV0, rfl⟩
        rintro V' s' ⟨rfl, rfl⟩
        refine W_bind' (W_check (by rw [isMig_VINITIAL]; rfl) ?_)
        rw [mismatch_init]
        refine W_bind' (W_casValue ht1 so.ilt (fun _ => ?_) (fun h => absurd hcv1 h))
        rw [if_pos rfl]
        refine W_bind' (W_pure (W_pure ?_))
        rw [hv.clean]
        exact ⟨rfl, rfl⟩
      · rintro u s' ⟨rfl, rfl⟩
        refine W_pure ⟨rfl, hI2, rest_set hR1 (fun h => by rw [hv.mig] at h; cases h), ?_, ?_, ?_⟩
        · exact so.keep.trans ⟨ext_set (by rw [hcv1]; exact isMig_VINITIAL), rfl⟩
        · exact so.below.trans ⟨rfl, fun _ _ _ => rfl, fun t' j h => upd2_ne (by omega), fun _ _ => rfl⟩
        · rw [drift_setVal_other (by rw [hcv1]; exact VINITIAL_ne_TOMBPRIME) hv.ne_prime, so.drift]
  · -- the table is full
    obtain ⟨he, hpt⟩ := hp
    have he := he.symm
    subst he
    refine W_bind' (W_mono (resize_spec hI ht) ?_)
    rintro nt s2 ⟨rfl, ht2, hI2, hs2⟩
    obtain ⟨hK2, hd2, hR2, hB2, hkv2, -⟩ := grow_cases hs2
    simp only [ne_eq, not_true, if_false]
    have hpass2 : ∀ t0, t0 < t + 1 → Pass hash s2 t0 k := by
      intro t0 h0
      rcases Nat.lt_succ_iff_lt_or_eq.mp h0 with h | rfl
      · exact hI.pass_ext hk hK2.ext (by omega) (hpass t0 h)
      · exact hI.pass_ext hk hK2.ext ht hpt
    refine W_mono (hput s2 M (t + 1) k v hI2 ht2 (by rw [hB2.root]; omega) ((hR2 t hR).mono (by omega)) hk hv hpass2
      ?_ ?_) ?_
    · exact grow_unclaimed hk ht hs2 (fun t' i h1 => hncl t' i (by omega))
    · intro t' h; rw [hd2]; exact hdr t' (by omega)
    · rintro r s4 ⟨rfl, hI4, hR4, hK4, hB4, hd4⟩
      exact ⟨rfl, hI4, (hR2 t hR).glue hR4 hB4 (by omega), hK2.trans hK4, hB2.trans (hB4.weaken (by omega)),
        by rw [hd4, hd2]⟩

theorem copyPut (hash : Word → Word) (n : Nat) : CopyPut hash (putIfMatch hash n .casValue) := by
  induction n with
  | zero => intro s M t k v _ _ _ _ _ _ _ _ _; exact W_fuel
  | succ n ih => exact copyPut_body ih n

end PMap
