import Verif.Own.Logic

/-!
# Reading, with one writer per key (proof machinery)
-/

namespace PMap

open Prog

/-- The set-up is in order. -/
structure Cfg.OK (C : Cfg) : Prop where
  pow : ∃ p, p ≤ 32 ∧ C.len = 2 ^ p
  valid : ∀ k ∈ C.S, ValidKey k
  room : C.grow = false → Roomy C.hash C.len C.S

variable {C : Cfg} {t : Nat} {op : Op} {s : OSt} {c : Option Res} {k : Word}

theorem Cfg.OK.pos (h : C.OK) : 0 < C.len := by
  obtain ⟨p, -, e⟩ := h.pow
  rw [e]; positivity

theorem Cfg.OK.pat_zero (h : C.OK) (k : Word) : homePut C.hash k C.len = pat C.hash C.len k 0 := by
  rw [pat, Nat.add_zero, Nat.mod_eq_of_lt]
  exact and_len_lt h.pow

theorem Cfg.OK.home (h : C.OK) (k : Word) : homeGet C.hash k C.len = pat C.hash C.len k 0 := by
  rw [← h.pat_zero]
  obtain ⟨p, hp, e⟩ := h.pow
  obtain ⟨h1, h2⟩ := c04_same_home_slot C.hash k p hp
  rw [e, h1, h2]

theorem Cfg.OK.pat_succ (h : C.OK) (k : Word) (d : Nat) :
    (pat C.hash C.len k d + 1) &&& (C.len - 1) = pat C.hash C.len k (d + 1) := by
  rw [and_len h.pow, pat, pat, Nat.mod_add_mod, Nat.add_assoc]

theorem Cfg.OK.at_lt (h : C.OK) (k : Word) (d : Nat) : pat C.hash C.len k d < C.len := pat_lt h.pos k d

theorem Cfg.OK.user (h : C.OK) (hk : k ∈ C.S) : UserKey k := userKey_of_valid (h.valid k hk)

theorem owp_tableKey {i : Nat} (hi : i < C.len) {Q : Word → OSt → Option Res → Prop}
    (h : After C t s fun s1 => After C t s1 fun s2 => (s2.key i = clean (s1.key i) ∨ s2.key i ≠ s1.key i) →
      OInv C s1 → OInv C s2 → Q (clean (s1.key i)) s2 c) : owp C t op Q (tableKey 0 i) s c :=
  owp_pcasRead (slot_key hi) (owp_load (slot_key hi) fun s1 h1 i1 => ⟨i1, rfl, fun s2 h2 i2 hw => h s1 h1 i1 s2 h2 i2 hw i1 i2⟩)

theorem owp_tableValue {i : Nat} (hi : i < C.len) {Q : Word → OSt → Option Res → Prop}
    (h : After C t s fun s1 => After C t s1 fun s2 => (s2.val i = clean (s1.val i) ∨ s2.val i ≠ s1.val i) →
      OInv C s1 → OInv C s2 → Q (clean (s1.val i)) s2 c) : owp C t op Q (tableValue 0 i) s c :=
  owp_pcasRead (slot_val hi) (owp_load (slot_val hi) fun s1 h1 i1 => ⟨i1, rfl, fun s2 h2 i2 hw => h s1 h1 i1 s2 h2 i2 hw i1 i2⟩)

theorem resWord_dec {V : Word} (h : Stored V) : (if V = VTOMBSTONE then VINITIAL else V) = resWord (dec V) := by
  rcases h with rfl | rfl | h
  · rw [dec_init, if_neg VINITIAL_ne_VTOMBSTONE]; rfl
  · rw [dec_tomb, if_pos rfl]; rfl
  · rw [dec_valid h, if_neg h.ne_tomb]; rfl

/-- A key that has been passed by, one slot further. -/
theorem Passed.step {hash : Word → Word} {len d : Nat} {key : Nat → Word} (hp : Passed hash len key k d)
    (h0 : key (pat hash len k d) ≠ KINITIAL) (h1 : key (pat hash len k d) ≠ k) : Passed hash len key k (d + 1) := by
  intro e he
  rcases Nat.lt_or_eq_of_le (Nat.lt_succ_iff.mp he) with he | rfl
  · exact hp e he
  · exact ⟨h0, h1⟩

/-- If the keys fit, a probe for one of them ends within the bound. -/
theorem Cfg.OK.near (hC : C.OK) (hg : C.grow = false) (hI : OInv C s) (hk : k ∈ C.S) {d : Nat} (hd : d < C.len)
    (hp : Passed C.hash C.len (fun i => clean (s.key i)) k (d + 1)) : d + 1 < 10 ∧ d + 1 < C.len := by
  have h := hI.placed
  have hb : C.bound = 10 := by rw [Cfg.bound, hg]; rfl
  rw [hb] at h
  exact h.near hC.pow (hC.room hg) hk hd hp

/-- How the probe loop of `getImpl` ends for a key that may be added. -/
theorem ogprobe (hC : C.OK) (hk : k ∈ C.S) (n : Nat) {res : Option Word → Res} (hnext : ∀ M, specNext op M = M)
    (hres : ∀ M y, specRes op M = some y → res (M k) = y) :
    owp C t op (fun p s' c => ∃ o, p = .returned (resWord o) ∧ c = some (res o) ∧ (∀ v, o = some v → ValidVal v) ∧ Rely C t s s')
      (loop n (getProbeBody 0 k C.len) (homeGet C.hash k C.len, 0)) s none := by
  have hu := hC.user hk
  refine owp_loop (I := fun x s' c => c = none ∧ x.1 = pat C.hash C.len k x.2 ∧ Rely C t s s' ∧
    Passed C.hash C.len (fun i => clean (s'.key i)) k x.2) ?_ n _ _ _
    ⟨rfl, hC.home k, Rely.refl _, fun e he => absurd he (Nat.not_lt_zero _)⟩
  rintro ⟨i, d⟩ s' c ⟨rfl, hi, hR, hP⟩
  simp only at hi hP
  subst hi
  have hlt := hC.at_lt k d
  generalize hi : pat C.hash C.len k d = i at hlt
  refine owp_bind' (owp_pcasRead (slot_key hlt) (owp_loadEff (slot_key hlt) fun s1 r1 i1 => ?_))
  have hP1 := r1.passed hC.pos hP
  change _ ∨ _ ∧ ∃ x, _ ∧ OInv C s1 ∧ s1.key i = s1.key i ∧ _
  by_cases h0 : clean (s1.key i) = KINITIAL
  · right
    have hM : s1.M k = none := by
      refine i1.absent k (hC.valid k hk) (i1.placed.nowhere hu.ne_init hP1 ?_)
      rw [hi]; exact h0
    refine ⟨hnext _, res none, fun y hy => by rw [← hM]; exact hres _ y hy, i1, rfl, fun s2 r2 _ _ => ?_⟩
    rw [show clean (s1.m.word (.key 0 i)) = KINITIAL from h0]
    refine owp_bind' (owp_tableValue hlt fun s3 r3 _ s4 r4 _ _ _ _ => ?_)
    rw [if_pos rfl]
    exact owp_pure ⟨none, rfl, rfl, fun v e => (by cases e), hR.trans (r1.trans (r2.trans (r3.trans r4)))⟩
  · by_cases hend : reprobeLimit C.len ≤ d + 1 ∧ clean (s1.key i) ≠ k
    · -- the last slot of the probe, and not the key
      right
      have hM : s1.M k = none := by
        refine i1.absent k (hC.valid k hk) (i1.placed.nowhere_of_passed hu.ne_init (le_trans C.bound_le hend.1)
          (hP1.step ?_ ?_)) <;> rw [hi]
        · exact h0
        · exact hend.2
      refine ⟨hnext _, res none, fun y hy => by rw [← hM]; exact hres _ y hy, i1, rfl, fun s2 r2 _ _ => ?_⟩
      change clean (s1.m.word (.key 0 i)) ≠ KINITIAL at h0
      refine owp_bind' (owp_tableValue hlt fun s3 r3 _ s4 r4 _ _ _ _ => ?_)
      rw [if_neg h0]
      refine owp_bind' (owp_getNew fun s5 r5 _ => ?_)
      rw [if_neg (show clean (s1.m.word (.key 0 i)) ≠ k from hend.2), if_pos (.inl hend.1)]
      exact owp_pure ⟨none, rfl, rfl, fun v e => (by cases e), hR.trans (r1.trans (r2.trans (r3.trans (r4.trans r5))))⟩
    left
    refine ⟨i1, rfl, fun s2 r2 i2 _ => ?_⟩
    change ¬ (_ ∧ clean (s1.m.word (.key 0 i)) ≠ k) at hend
    change clean (s1.m.word (.key 0 i)) ≠ KINITIAL at h0
    have hk2 : clean (s2.key i) = clean (s1.m.word (.key 0 i)) := r2.key i hlt h0
    have hmem : clean (s1.m.word (.key 0 i)) ∈ C.S := i1.placed.mem i hlt h0
    generalize clean (s1.m.word (.key 0 i)) = K at h0 hk2 hmem hend
    by_cases hK : K = k
    · subst hK
      refine owp_bind' (owp_pcasRead (slot_val hlt) (owp_loadEff (slot_val hlt) fun s3 r3 i3 => .inr ?_))
      have hk3 : clean (s3.key i) = K := by rw [r3.key i hlt (by rw [hk2]; exact h0), hk2]
      obtain ⟨hv, hst⟩ := i3.vals i hlt (by rw [hk3]; exact h0)
      rw [hk3] at hv
      refine ⟨hnext _, res (s3.M K), fun y hy => hres _ y hy, i3, rfl, fun s4 r4 _ _ => ?_⟩
      change Stored (clean (s3.m.word (.val 0 i))) at hst
      change s3.M K = dec (clean (s3.m.word (.val 0 i))) at hv
      generalize clean (s3.m.word (.val 0 i)) = V at hst hv
      rw [if_neg h0]
      refine owp_bind' (owp_getNew fun s5 r5 _ => ?_)
      rw [if_pos rfl, hst.mig, if_neg (by decide), resWord_dec hst, hv]
      exact owp_pure ⟨_, rfl, rfl, fun v e => (hst.dec_some e).2, hR.trans (r1.trans (r2.trans (r3.trans (r4.trans r5))))⟩
    · refine owp_bind' (owp_tableValue hlt fun s3 r3 i3 s4 r4 i4 _ _ _ => ?_)
      rw [if_neg h0]
      refine owp_bind' (owp_getNew fun s5 r5 i5 => ?_)
      have r35 := r3.trans (r4.trans r5)
      have hk5 : clean (s5.key i) = K := by rw [r35.key i hlt (by rw [hk2]; exact h0), hk2]
      have hP5 := (r2.trans r35).passed hC.pos hP1
      have hP' := hP5.step (by rw [hi, hk5]; exact h0) (by rw [hi, hk5]; exact hK)
      have h3 : ¬ (reprobeLimit C.len ≤ d + 1 ∨ K = KTOMBSTONE) := by
        rintro (h3 | h3)
        · exact hend ⟨h3, hK⟩
        · exact (hC.user hmem).ne_tomb h3
      rw [if_neg hK, if_neg h3]
      refine owp_pure ⟨rfl, ?_, hR.trans (r1.trans (r2.trans r35)), hP'⟩
      rw [← hi]; exact hC.pat_succ k d

/-- How the probe loop of `getImpl` ends for a key that nobody adds. -/
theorem ogprobe_absent (hC : C.OK) (hk : k ∉ C.S) (n : Nat) :
    owp C t op (fun p s' c' => p = .returned VINITIAL ∧ c' = c ∧ Rely C t s s')
      (loop n (getProbeBody 0 k C.len) (homeGet C.hash k C.len, 0)) s c := by
  refine owp_loop (I := fun x s' c' => c' = c ∧ x.1 < C.len ∧ Rely C t s s') ?_ n _ _ _
    ⟨rfl, by rw [hC.home]; exact hC.at_lt k 0, Rely.refl _⟩
  rintro ⟨i, d⟩ s' c' ⟨rfl, hlt, hR⟩
  simp only at hlt
  refine owp_bind' (owp_tableKey hlt fun s1 r1 i1 s2 r2 i2 _ _ _ => ?_)
  refine owp_bind' (owp_tableValue hlt fun s3 r3 i3 s4 r4 i4 _ _ _ => ?_)
  by_cases h0 : clean (s1.key i) = KINITIAL
  · rw [if_pos h0]
    exact owp_pure ⟨rfl, rfl, hR.trans (r1.trans (r2.trans (r3.trans r4)))⟩
  · rw [if_neg h0]
    refine owp_bind' (owp_getNew fun s5 r5 i5 => ?_)
    have hr := hR.trans (r1.trans (r2.trans (r3.trans (r4.trans r5))))
    have hne : clean (s1.key i) ≠ k := fun e => hk (by rw [← e]; exact i1.placed.mem i hlt h0)
    rw [if_neg hne]
    split
    · exact owp_pure ⟨rfl, rfl, hr⟩
    · exact owp_pure ⟨rfl, and_len_lt hC.pow, hr⟩

theorem omapGet (hC : C.OK) (hk : k ∈ C.S) (n : Nat) {res : Option Word → Res} (hnext : ∀ M, specNext op M = M)
    (hres : ∀ M y, specRes op M = some y → res (M k) = y) :
    owp C t op (fun w s' c => ∃ o, w = resWord o ∧ c = some (res o) ∧ (∀ v, o = some v → ValidVal v) ∧ Rely C t s s')
      (mapGet C.hash n k) s none := by
  refine owp_bind' (owp_getRoot fun s1 r1 i1 => ?_)
  cases n with
  | zero => exact owp_bind' owp_fuel
  | succ n =>
    refine owp_bind' (owp_bind' (owp_len fun s2 r2 i2 => owp_bind' (owp_mono (ogprobe hC hk n hnext hres) ?_)))
    rintro p s3 c ⟨o, rfl, rfl, ho, r3⟩
    refine owp_pure (owp_bind' (owp_check ?_ fun s4 r4 i4 => owp_pure ⟨o, rfl, rfl, ho, r1.trans (r2.trans (r3.trans r4))⟩))
    rw [resWord_mig ho]; rfl

theorem omapGet_absent (hC : C.OK) (hv : ValidKey k) (hk : k ∉ C.S) (n : Nat) {res : Option Word → Res}
    (hnext : ∀ M, specNext op M = M) (hres : ∀ M y, specRes op M = some y → res (M k) = y) :
    owp C t op (fun w s' c => w = VINITIAL ∧ c = some (res none) ∧ Rely C t s s') (mapGet C.hash n k) s none := by
  refine owp_bind' ?_
  rw [do1, owp]
  intro s1 r1 i1 _
  have hM : s1.M k = none := by
    refine i1.absent k hv fun i hi e => hk ?_
    rw [← e]
    refine i1.placed.mem i hi ?_
    rw [e]; exact (userKey_of_valid hv).ne_init
  refine ⟨s1.m.root, s1, rfl, .inr ⟨i1, fun _ _ => Rely.refl _, .inr ⟨rfl, (hnext _).symm, res none, fun y hy => ?_, ?_⟩⟩⟩
  · rw [← hM]; exact hres _ y hy
  · rw [owp, i1.root]
    cases n with
    | zero => exact owp_bind' owp_fuel
    | succ n =>
      refine owp_bind' (owp_bind' (owp_len fun s2 r2 i2 => owp_bind' (owp_mono (ogprobe_absent hC hk n) ?_)))
      rintro p s3 c ⟨rfl, rfl, r3⟩
      exact owp_pure (owp_bind' (owp_check rfl fun s4 r4 i4 => owp_pure ⟨rfl, rfl, r1.trans (r2.trans (r3.trans r4))⟩))

end PMap
