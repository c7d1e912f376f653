import Verif.Seq.Main
import Verif.Conc

/-!
# Sequential specification of `get` and of the public calls (proof machinery)
-/

namespace PMap

open Prog
open scoped Classical

variable {hash : Word → Word} {s : A} {M : Word → Option Word} {t idx : Nat} {k : Word}

/-! ## `getImpl` -/

theorem home_eq (hI : Inv hash s M) (ht : t < s.next) : homeGet hash k (s.tab t).len = slotAt hash s t k 0 := by
  obtain ⟨p, hp, e⟩ := hI.len_pow t ht
  rw [← slotAt_zero (hI.len_pow _ ht), e]
  obtain ⟨h1, h2⟩ := c04_same_home_slot hash k p hp
  rw [h1, h2]

theorem getD_storable (hI : Inv hash s M) {v : Word} (h : M k = some v) : Storable v := ((hI.cont k v).mp h).2.1

theorem get_valOf {V : Word} (hV : Plain V) (hM : M k = valOf V) :
    (if V = VTOMBSTONE then VINITIAL else V) = curWord M k := by
  rcases hV with rfl | rfl | h
  · rw [if_neg VINITIAL_ne_VTOMBSTONE]; simp [curWord, hM, valOf_init]
  · rw [if_pos rfl]; simp [curWord, hM, valOf_tomb]
  · rw [if_neg h.ne_tomb]; simp [curWord, hM, valOf_storable h]

/-- How the probe loop of `getImpl` may end. -/
def GProbePost (hash : Word → Word) (s : A) (M : Word → Option Word) (t : Nat) (k : Word) : GProbe → A → Prop
  | .returned v, s' => s' = s ∧ v = curWord M k
  | .copy i, s' => s' = s ∧ i < (s.tab t).len ∧ t + 1 < s.next ∧ Pass hash s t k
  | .chase nt, s' => s' = s ∧ nt = t + 1 ∧ t + 1 < s.next ∧ Pass hash s t k

theorem gprobe_spec (n : Nat) (hI : Inv hash s M) (ht : t < s.next) (hk : UserKey k)
    (hpass : ∀ t0, t0 < t → Pass hash s t0 k) :
    W (loop n (getProbeBody t k (s.tab t).len) (homeGet hash k (s.tab t).len, 0)) (GProbePost hash s M t k) s := by
  refine W_loop (I := fun x s' => s' = s ∧ x.1 = slotAt hash s t k x.2 ∧ x.2 < s.lim t ∧ Upto hash s t k x.2) ?_ n _ _
    ⟨rfl, home_eq hI ht, by simp [A.lim, reprobeLimit, REPROBE_LIMIT], fun e he => by simp at he⟩
  rintro ⟨i, d⟩ s0 ⟨he, hi, hd, hu⟩
  have he := he.symm
  subst he
  simp only at hi hd hu
  subst hi
  have hlt := hI.slotAt_lt (k := k) ht d
  refine W_bind' (W_tableKey ht hlt ?_)
  refine W_bind' (W_tableValue ht hlt ?_)
  by_cases h0 : s.ck t (slotAt hash s t k d) = KINITIAL
  · rw [if_pos h0]
    have hM : M k = none := hI.content_none hk hpass (fun t' i h1 h2 h3 => hI.init_unclaimed hk ht hd hu h0 h1 h2 h3)
    exact W_pure ⟨rfl, by simp [curWord, hM]⟩
  · rw [if_neg h0]
    refine W_bind' (W_getNew ht ?_)
    by_cases h1 : s.ck t (slotAt hash s t k d) = k
    · rw [if_pos h1]
      by_cases hm : isMig (s.cv t (slotAt hash s t k d)) = true
      · rw [if_pos hm]
        exact W_pure ⟨rfl, hlt, hI.mig t _ ht hlt hm, pass_of_mig hd rfl hu h1 hm⟩
      · rw [if_neg hm]
        have hm : isMig (s.cv t (slotAt hash s t k d)) = false := by simpa using hm
        exact W_pure ⟨rfl, get_valOf (hI.plain ht hlt hm) (hI.cur hk ht hlt h1 hm)⟩
    · rw [if_neg h1]
      by_cases h2 : reprobeLimit (s.tab t).len ≤ d + 1 ∨ s.ck t (slotAt hash s t k d) = KTOMBSTONE
      · rw [if_pos h2]
        have hp : Pass hash s t k := by
          by_cases h3 : s.ck t (slotAt hash s t k d) = KTOMBSTONE
          · exact ⟨d, le_of_lt hd, hu, .inr (.inl h3)⟩
          · have : d + 1 = s.lim t := by
              have : s.lim t ≤ d + 1 := h2.resolve_right h3
              omega
            exact ⟨d + 1, by omega, hu.succ h0 h3 h1, .inl this⟩
        rw [hI.newT t ht]
        by_cases hn : t + 1 < s.next
        · rw [if_pos hn]
          exact W_pure ⟨rfl, rfl, hn, hp⟩
        · rw [if_neg hn]
          have hM : M k = none := hI.content_none (t := t + 1) hk (fun t0 h => by
            rcases Nat.lt_succ_iff_lt_or_eq.mp h with h | rfl
            · exact hpass t0 h
            · exact hp) (fun t' i h1 h2 => by omega)
          exact W_pure ⟨rfl, by simp [curWord, hM]⟩
      · rw [if_neg h2]
        push Not at h2
        exact W_pure ⟨rfl, slotAt_succ (hI.len_pow _ ht) d, h2.1, hu.succ h0 h2.2 h1⟩

theorem getImpl_spec (n : Nat) : ∀ (s : A) (t : Nat), Inv hash s M → Rest s 0 → (drift s = fun _ => 0) → t < s.next →
    UserKey k → (∀ t0, t0 < t → Pass hash s t0 k) →
    W (getImpl hash n t k) (fun r s' => r = curWord M k ∧ Inv hash s' M ∧ Rest s' 0 ∧ (drift s' = fun _ => 0) ∧
      Keep s s') s := by
  induction n with
  | zero => intro s t _ _ _ _ _ _; exact W_fuel
  | succ n ih =>
    intro s t hI hR hd ht hk hp
    refine W_bind' (W_len ht ?_)
    refine W_bind' (W_mono (gprobe_spec n hI ht hk hp) ?_)
    have hrec : ∀ s1, Inv hash s1 M → Rest s1 0 → (drift s1 = fun _ => 0) → Keep s s1 → t + 1 < s1.next →
        Pass hash s t k → W (getImpl hash n (t + 1) k) (fun r s' => r = curWord M k ∧ Inv hash s' M ∧ Rest s' 0 ∧
          (drift s' = fun _ => 0) ∧ Keep s s') s1 := by
      intro s1 h1 h2 h3 h4 h5 h6
      refine W_mono (ih s1 (t + 1) h1 h2 h3 h5 hk ?_) ?_
      · intro t0 h0
        rcases Nat.lt_succ_iff_lt_or_eq.mp h0 with h | rfl
        · exact hI.pass_ext hk h4.ext (by omega) (hp t0 h)
        · exact hI.pass_ext hk h4.ext ht h6
      · rintro r s2 ⟨g1, g2, g3, g4, g5⟩
        exact ⟨g1, g2, g3, g4, h4.trans g5⟩
    rintro (v | i | nt) s1 hpost
    · obtain ⟨rfl, rfl⟩ := hpost
      exact W_pure ⟨rfl, hI, hR, hd, Keep.refl _⟩
    · obtain ⟨he, hi, htn, hpt⟩ := hpost
      have he := he.symm
      subst he
      simp only
      rw [decide_eq_false hk.ne_init]
      refine W_bind' (W_mono (copySlotAndCheck_spec (copyPut hash n) n hI hR hd htn hi) ?_)
      rintro nt s2 ⟨rfl, hI2, hR2, hK2, hd2, -⟩
      exact hrec s2 hI2 hR2 hd2 hK2 (lt_of_lt_of_le htn hK2.ext.next) hpt
    · obtain ⟨he, rfl, htn, hpt⟩ := hpost
      have he := he.symm
      subst he
      refine W_bind' (W_mono (helpCopy_spec (copyPut hash n) n hI hR hd (t + 1)) ?_)
      rintro nt s2 ⟨rfl, hI2, hR2, hK2, hd2, -, -⟩
      exact hrec s2 hI2 hR2 hd2 hK2 (lt_of_lt_of_le htn hK2.ext.next) hpt

/-! ## Public calls -/

/-- Everything that holds between two calls. -/
structure Good (hash : Word → Word) (s : A) (M : Word → Option Word) : Prop where
  inv : Inv hash s M
  rest : Rest s 0
  drift : drift s = fun _ => 0

theorem Good.pass (h : Good hash s M) (hk : UserKey k) : ∀ t0, t0 < s.root → Pass hash s t0 k :=
  fun _ h0 => h.inv.pass_dead hk h0

theorem mapGet_spec (n : Nat) (h : Good hash s M) (hk : UserKey k) :
    W (mapGet hash n k) (fun r s' => r = curWord M k ∧ Good hash s' M ∧ Keep s s') s := by
  refine W_bind' (W_getRoot ?_)
  refine W_bind' (W_mono (getImpl_spec n s s.root h.inv h.rest h.drift h.inv.root_lt hk (h.pass hk)) ?_)
  rintro r s' ⟨rfl, h2, h3, h4, h5⟩
  refine W_bind' (W_check ?_ (W_pure ⟨rfl, ⟨h2, h3, h4⟩, h5⟩))
  cases hM : M k with
  | none => simp [curWord, hM, isMig_VINITIAL]
  | some v => simp [curWord, hM, (getD_storable h.inv hM).mig]

/-- What a public update achieves. -/
def UpdPost (hash : Word → Word) (cf : CasFn) (s : A) (M : Word → Option Word) (k nv ov r : Word) (s' : A) : Prop :=
  ∃ w, r = curWord M k ∧ Good hash s' (newM M k w ov) ∧ Ext s s' ∧
    ((w = nv ∧ (cf = .casValue ∨ s.root + 1 < s'.next ∨ M k = some nv)) ∨
      (cf = .increment ∧ w = incremented (curWord M k) ∧ M k ≠ some nv ∧ s'.next = s.next)) ∧
    ((w = nv ∨ Storable w) → SizeRel s M s' (newM M k w ov))

theorem mapPutIfMatch_spec (n : Nat) (cf : CasFn) {nv ov : Word} (h : Good hash s M) (hk : UserKey k)
    (hnv : Storable nv ∨ nv = VTOMBSTONE ∧ cf = .casValue) (hov : ov ≠ VINITIAL) (hom : isMig ov = false) :
    W (mapPutIfMatch hash n cf k nv ov) (UpdPost hash cf s M k nv ov) s := by
  have hni : nv ≠ VINITIAL := by
    rcases hnv with h | ⟨h, -⟩
    · exact h.ne_init
    · rw [h]; exact sent_ne.2.2.2.2.1
  refine W_bind' (W_check (by simpa using hni) ?_)
  refine W_bind' (W_check (by simpa using hov) ?_)
  refine W_bind' (W_getRoot ?_)
  refine W_bind' (W_mono (mainPut' hash n cf s M s.root k nv ov h.inv h.rest h.drift h.inv.root_lt hk hnv hov hom
    (h.pass hk)) ?_)
  rintro r s' ⟨w, h1, h2, h3, h4, h5, h6, h7⟩
  have hr : isMig r = false ∧ (if r = VTOMBSTONE then VINITIAL else r) = curWord M k := by
    cases hM : M k with
    | none =>
      rw [hM] at h1
      rcases h1 with rfl | rfl
      · exact ⟨isMig_VINITIAL, by rw [if_neg VINITIAL_ne_VTOMBSTONE]; simp [curWord, hM]⟩
      · exact ⟨isMig_VTOMBSTONE, by rw [if_pos rfl]; simp [curWord, hM]⟩
    | some v =>
      rw [hM] at h1
      have hs := getD_storable h.inv hM
      have h1 : r = v := h1
      subst h1
      exact ⟨hs.mig, by rw [if_neg hs.ne_tomb]; simp [curWord, hM]⟩
  refine W_bind' (W_check (by rw [hr.1]; rfl) (W_pure ⟨w, hr.2, ⟨h2, h3, h4⟩, h5, h6, h7⟩))

theorem curWord_eq_iff {v : Word} (hv : v ≠ VINITIAL) : curWord M k = v ↔ M k = some v := by
  cases hM : M k with
  | none => simp [curWord, hM]; exact fun h => hv h.symm
  | some w => simp [curWord, hM]

theorem curWord_init_iff (hI : Inv hash s M) : curWord M k = VINITIAL ↔ M k = none := by
  cases hM : M k with
  | none => simp [curWord, hM]
  | some w => simp [curWord, hM]; exact (getD_storable hI hM).ne_init

theorem mapSize_spec (h : Good hash s M) :
    W mapSize (fun r s' => r = (s.tab s.root).size ∧ s' = s) s := by
  refine W_bind' (W_getRoot ?_)
  exact W_getSize h.inv.root_lt ⟨rfl, rfl⟩

/-- The fresh map satisfies the invariant, with no content. -/
theorem good_fresh {len cap : Nat} (hl : ∃ p, p ≤ 32 ∧ len = 2 ^ p) (hc : cap ≤ 2 ^ 32) :
    Good hash (abs (freshMem len cap)) (fun _ => none) ∧ (abs (freshMem len cap)).lastSize = 0#64 := by
  have hck : ∀ i, (abs (freshMem len cap)).ck 0 i = KINITIAL := fun i => by
    simp only [abs, freshMem, freshWords, if_true]; decide
  have hcv : ∀ i, (abs (freshMem len cap)).cv 0 i = VINITIAL := fun i => by
    simp only [abs, freshMem, freshWords, if_true]; decide
  have hn : (abs (freshMem len cap)).next = 1 := rfl
  have h0 : ∀ {t}, t < (abs (freshMem len cap)).next → t = 0 := fun h => by rw [hn] at h; omega
  have nm : ¬ isMig VINITIAL = true := by decide
  have nk : ¬ UserKey KINITIAL := fun h => h.ne_init rfl
  refine ⟨⟨?_, ?_, ?_⟩, rfl⟩
  · refine ⟨rfl, by rw [hn]; exact Nat.one_pos, hc, fun t _ => hl, fun t h => by rw [hn] at h; omega,
      fun t h => ?_, fun _ t h => le_refl _, ?_, ?_, ?_, ?_, ?_, ?_, ?_, fun t i h => absurd h (Nat.not_lt_zero _), ?_⟩
    · rw [if_neg (by rw [hn]; omega)]; rfl
    · intro t i h _; cases h0 h; rw [hck]; decide
    · intro t i h _ _; cases h0 h; exact hcv i
    · intro t i h _ e; cases h0 h; rw [hck] at e; exact absurd e KINITIAL_ne_KTOMBSTONE
    · intro t i h _ e; cases h0 h; rw [hck] at e; exact absurd e nk
    · intro t i h _; cases h0 h; exact .inl (hcv i)
    · intro t i h _ e; cases h0 h; rw [hcv] at e; exact absurd e nm
    · intro t i t0 h _ e; cases h0 h; rw [hck] at e; exact absurd e nk
    · intro k v
      constructor
      · intro h; cases h
      · rintro ⟨-, hv, t, i, h, -, -, e⟩
        cases h0 h; rw [hcv] at e; exact absurd e.symm hv.ne_init
  · intro t i _ h _ e; cases h0 h; rw [hcv] at e; exact absurd e nm
  · funext t
    simp only [drift]
    split
    · next h =>
      cases h0 h
      have : cnt (abs (freshMem len cap)) 0 = 0 := by
        simp only [cnt, Finset.card_eq_zero, Finset.filter_eq_empty_iff]
        intro i _ e; rw [hcv] at e; exact VINITIAL_ne_TOMBPRIME e
      rw [this]; rfl
    · rfl

end PMap
