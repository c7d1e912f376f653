import Verif.Pmem.Acquire

/-!
# libpmemobj's concurrent_hash_map: searching a bucket, and whether it was the right one

Nothing here is code.
-/

namespace PMap.Pmem

open HP

/-- What a thread knows that has bucket `c` (as a writer if `w`) and maybe a node. -/
structure Got (t c : Nat) (w : Bool) (N : Option Nat) (s : HSt) : Prop where
  own : Own t s (fun g => w = true ∧ g = c) (if w then none else some c) N false
  dfl : s.dfl (loc c) = true

theorem Got.rel {t c : Nat} {w : Bool} {N : Option Nat} {s s' : HSt} (h : Got t c w N s) (hr : Rel t s s') : Got t c w N s' :=
  ⟨h.own.rel hr, hr.dfl _ h.dfl⟩

theorem Got.holds {t c : Nat} {w : Bool} {N : Option Nat} {s : HSt} (h : Got t c w N s) : Holds t s (loc c) := by
  rw [h.own.holds]
  cases w
  · right; rfl
  · left; exact ⟨rfl, rfl⟩

theorem Got.wr {t c : Nat} {N : Option Nat} {s : HSt} (h : Got t c true N s) : s.wr (loc c) = some t := h.own.wr'.2 ⟨rfl, rfl⟩

theorem Inv.fl {E : HEnv} {m0 : Nat} {s : HSt} {A : AM} (h : Inv E m0 s A) {b : Loc} (hd : s.dfl b = true) : s.fl b = true := by
  obtain ⟨⟨_, _, _, hc⟩, _⟩ := h
  exact hc.dfl b hd

/-- The key is not in the bucket. -/
def NoKey (s : HSt) (c : Nat) (key : Word) : Prop :=
  ∀ l, Chain s.heap (s.list (loc c)) l → ∀ n ∈ l, ∀ x, s.heap n = some x → x.key ≠ key

theorem NoKey.rel {E : HEnv} {m0 t c : Nat} {key : Word} {s s' : HSt} {A : AM} (h : NoKey s c key) (hi : Inv E m0 s A) (hr : Rel t s s')
    (hh : Holds t s (loc c)) : NoKey s' c key := by
  obtain ⟨⟨_, L, _, hc⟩, _⟩ := hi
  intro l hl n hn x hx
  have hnod := hr.nodes c (L c) hh (hc.chain c)
  have hl' := (hc.chain c).congr hnod
  rw [← hr.held _ hh] at hl'
  have := hl.det hl'
  subst this
  exact h _ (hc.chain c) n hn x (by rw [← hnod n hn]; exact hx)

/-- The key is in node `n` of the bucket, which holds `x`, and `pred` comes before it. -/
def FoundAt (s : HSt) (c : Nat) (x : Node) (pred n : Nat) : Prop :=
  ∃ l1 l2, Chain s.heap (s.list (loc c)) (l1 ++ n :: l2) ∧ s.heap n = some x ∧ PSeg s (.head (loc c)) l1 (ptr (loc c) pred) ∧
    s.rd' (ptr (loc c) pred) = some n ∧ (pred ≠ 0 → (s.heap pred).isSome = true)

theorem PSeg.congr {s s' : HSt} : ∀ {p : Ptr} {l : List Nat} {q : Ptr}, PSeg s p l q → (l ≠ [] → s'.rd' p = s.rd' p) →
    (∀ m ∈ l, s'.heap m = s.heap m) → PSeg s' p l q
  | _, [], _, h, _, _ => h
  | _, m :: l, _, ⟨h1, h2, h3, h⟩, hp, hl =>
    ⟨(hp (by simp)).trans h1, h2, by rw [hl m (by simp)]; exact h3,
      h.congr (fun _ => by simp only [HSt.rd', hl m (by simp)]) fun k hk => hl k (by simp [hk])⟩

theorem FoundAt.rel {t c pred n : Nat} {x : Node} {s s' : HSt} (h : FoundAt s c x pred n) (hr : Rel t s s')
    (hh : Holds t s (loc c)) : FoundAt s' c x pred n := by
  obtain ⟨l1, l2, h1, h2, h3, h4, h5⟩ := h
  have hnod := hr.nodes c _ hh h1
  have hlist := hr.held _ hh
  have hpm := h3.end_mem
  have hpred : pred ≠ 0 → pred ∈ l1 := by
    intro hp
    rcases hpm with e | ⟨m, hm, e⟩
    · rw [ptr, if_neg hp] at e; cases e
    · rw [ptr, if_neg hp] at e; cases e; exact hm
  refine ⟨l1, l2, ?_, by rw [hnod n (by simp)]; exact h2, ?_, ?_, ?_⟩
  · rw [hlist]
    exact h1.congr hnod
  · exact h3.congr (fun _ => by simp only [HSt.rd', hlist]) fun m hm => hnod m (by simp [hm])
  · by_cases hp : pred = 0
    · simp only [ptr, hp, if_true, HSt.rd'] at h4 ⊢
      rw [hlist]
      exact h4
    · simp only [ptr, hp, if_false, HSt.rd'] at h4 ⊢
      rw [hnod pred (by simp [hpred hp])]
      exact h4
  · intro hp
    rw [hnod pred (by simp [hpred hp])]
    exact h5 hp

theorem FoundAt.present {E : HEnv} {m0 c pred n : Nat} {x : Node} {s : HSt} {A : AM} (h : FoundAt s c x pred n) (hi : Inv E m0 s A) :
    A x.key = some x.val := by
  obtain ⟨⟨_, L, _, hc⟩, _⟩ := hi
  obtain ⟨l1, l2, h1, h2, _⟩ := h
  have := h1.det (hc.chain c)
  exact hc.present (c := c) (n := n) (by rw [← this]; simp) h2

/-- What the search of a bucket gives. -/
theorem search_ok {E : HEnv} {m0 t c : Nat} {w : Bool} {N : Option Nat} {key : Word} {s : HSt} {A : AM} (hi : Inv E m0 s A)
    (hg : Got t c w N s) : ∃ r, (if s.fl (loc c) = false then Out.abort
      else if Holds t s (loc c) then match walk s key (s.allocs + 1) 0 (s.list (loc c)) with
        | none => .ub
        | some r => .ok r s
      else .ub) = .ok r s ∧ ((r = none ∧ NoKey s c key) ∨ ∃ pred n x, r = some (pred, n) ∧ FoundAt s c x pred n ∧ x.key = key) := by
  have hfl := hi.fl hg.dfl
  obtain ⟨⟨_, L, _, hc⟩, _⟩ := hi
  rw [if_neg (by simp [hfl]), if_pos hg.holds]
  rcases walk_spec (s := s) (key := key) (b := loc c) (f := s.allocs + 1) (pred := 0) (hc.chain c) (by have := hc.len c; omega) rfl with
    ⟨h1, h2⟩ | ⟨l1, m, l2, x, pred', h1, h2, h3, h4, h5, h6, h7⟩
  · rw [h1]
    refine ⟨_, rfl, Or.inl ⟨rfl, fun l hl n hn x hx => ?_⟩⟩
    have := hl.det (hc.chain c)
    subst this
    exact h2 n hn x hx
  · rw [h2]
    refine ⟨_, rfl, Or.inr ⟨pred', m, x, rfl, ⟨l1, l2, by rw [← h1]; exact hc.chain c, h3, h5, h6, h7⟩, h4⟩⟩

/-! ### Masks -/

/-- `m` was the mask at some time since the table was opened. -/
def Msk (m0 m : Nat) (s : HSt) : Prop := m0 ≤ m ∧ m ≤ s.mask ∧ ∃ j, 1 ≤ j ∧ m = 2 ^ j - 1

theorem Inv.msk {E : HEnv} {m0 : Nat} {s : HSt} {A : AM} (h : Inv E m0 s A) : Msk m0 s.mask s := by
  obtain ⟨⟨_, _, _, hc⟩, _⟩ := h
  obtain ⟨j, h1, _, h3⟩ := hc.mask
  exact ⟨hc.m0, Nat.le_refl _, j, by omega, h3⟩

theorem Msk.mono {m0 m : Nat} {s s' : HSt} (h : Msk m0 m s) (hm : s.mask ≤ s'.mask) : Msk m0 m s' := ⟨h.1, h.2.1.trans hm, h.2.2⟩

theorem Msk.le {m0 m h : Nat} {s : HSt} (hm : Msk m0 m s) : h &&& m ≤ s.mask := Nat.and_le_right.trans hm.2.1

theorem mask_and {j : Nat} : (2 ^ j - 1) &&& (2 ^ j - 1 + 1) = 0 := by
  have hp := Nat.two_pow_pos j
  rw [show 2 ^ j - 1 + 1 = 2 ^ j by omega, Nat.and_comm, and_mask, Nat.mod_self]

theorem nodeep_of_mask {E : HEnv} {m0 h j : Nat} {s : HSt} {A : AM} (hi : Inv E m0 s A) (hm : s.mask = 2 ^ j - 1) : NoDeep s h (h % 2 ^ j) := by
  obtain ⟨⟨_, _, _, hc⟩, _⟩ := hi
  rintro d ⟨i, rfl⟩ hlt hf
  have h1 := hc.below _ hf
  have hp := Nat.two_pow_pos j
  have : h % 2 ^ i < 2 ^ j := by omega
  have := pre_eq this (by omega)
  omega

theorem testBit_and_pow (h l : Nat) : h &&& 2 ^ l = 0 ↔ h.testBit l = false := by
  constructor
  · intro e
    have := congrArg (fun x => x.testBit l) e
    simpa [Nat.testBit_and, Nat.testBit_two_pow_self] using this
  · intro e
    refine Nat.eq_of_testBit_eq fun i => ?_
    rw [Nat.testBit_and, Nat.testBit_two_pow, Nat.zero_testBit]
    by_cases h' : l = i
    · subst h'; simp [e]
    · simp [h']

theorem mod_succ_of_testBit_false {h l : Nat} (hb : h.testBit l = false) : h % 2 ^ (l + 1) = h % 2 ^ l := by
  rw [Nat.mod_pow_succ]
  rw [Nat.testBit_eq_decide_div_mod_eq, decide_eq_false_iff_not] at hb
  have : h / 2 ^ l % 2 = 0 := by omega
  rw [this]
  omega

theorem mod_succ_of_testBit_true {h l : Nat} (hb : h.testBit l = true) : h % 2 ^ (l + 1) = h % 2 ^ l + 2 ^ l := by
  rw [Nat.mod_pow_succ]
  rw [Nat.testBit_eq_decide_div_mod_eq, decide_eq_true_eq] at hb
  rw [hb]
  omega

/-- The loop at chm:1228-1229 finds the next bit. -/
theorem nextBit_spec {h j' : Nat} : ∀ {f j : Nat}, j' < j + f → h % 2 ^ j ≠ h % 2 ^ j' → j ≤ j' →
    ∃ i, j ≤ i ∧ i < j' ∧ nextBit h f (2 ^ j) = 2 ^ i ∧ h.testBit i = true ∧ h % 2 ^ i = h % 2 ^ j
  | 0, j, hf, _, hj => by omega
  | f + 1, j, hf, hne, hj => by
    have hlt : j < j' := by
      rcases Nat.eq_or_lt_of_le hj with rfl | h
      · exact absurd rfl hne
      · exact h
    by_cases hb : h.testBit j = true
    · refine ⟨j, Nat.le_refl _, hlt, ?_, hb, rfl⟩
      rw [nextBit, if_neg]
      rw [testBit_and_pow]
      simp [hb]
    · have hb' : h.testBit j = false := by simpa using hb
      have e := mod_succ_of_testBit_false hb'
      obtain ⟨i, h1, h2, h3, h4, h5⟩ := nextBit_spec (f := f) (j := j + 1) (j' := j') (by omega) (by rw [e]; exact hne) hlt
      refine ⟨i, by omega, h2, ?_, h4, h5.trans e⟩
      rw [nextBit, if_pos ((testBit_and_pow h j).2 hb'), ← h3, pow_succ, Nat.mul_comm]

section
variable {E : HEnv} {m0 t : Nat} {op : Cmd} {q : Prop}

/-- What `check_mask_race` leads to. -/
structure Raced (E : HEnv) (m0 t : Nat) (q : Prop) (s0 : HSt) (st0 st1 : Option Ans) (c : Nat) (w : Bool) (key : Word) (m : Nat)
    (r : Bool × Nat) (s : HSt) (A : AM) (st : Option Ans) : Prop where
  inv : Inv E m0 s A
  got : Got t c w none s
  nokey : NoKey s c key
  msk : Msk m0 r.2 s
  keep : Keep q s0 s
  again : r.1 = true → st = st0 ∧ (q → m ≠ s0.mask)
  done : r.1 = false → st = st1 ∧ NoDeep s (E.hash key) c

theorem race_W {c m : Nat} {w : Bool} {key : Word} {s : HSt} {A : AM} {st st' : Option Ans} (hi : Inv E m0 s A) (hg : Got t c w none s)
    (hn : NoKey s c key) (hm : Msk m0 m s) (hc : c = E.hash key &&& m) (hlin : ∀ A : AM, A key = none → Lin op A st A st') :
    W E m0 t op q (checkMaskRace (E.hash key) m) (Raced E m0 t q s st st' c w key m) s A st := by
  unfold checkMaskRace
  refine W_ok fun s1 A1 hi1 hr1 hq1 => ?_
  have hg1 := hg.rel hr1
  have hn1 := hn.rel hi hr1 hg.holds
  have hm1 := hm.mono hr1.mask
  have hk1 : Keep q s s1 := Keep.rel hr1 hq1
  obtain ⟨_, hle, j, hj1, rfl⟩ := id hm1
  rw [and_mask] at hc
  have hpre : Pre (E.hash key) c := ⟨j, hc⟩
  have habs : ∀ {s' : HSt} {A' : AM}, Inv E m0 s' A' → Got t c w none s' → NoKey s' c key → NoDeep s' (E.hash key) c → A' key = none := by
    intro s' A' hi' hg' hn' hd'
    have hf := hi'.fl hg'.dfl
    obtain ⟨⟨_, _, _, hcc⟩, _⟩ := hi'
    exact hcc.absent hf hpre hd' (hn' _ (hcc.chain c))
  obtain ⟨_, _, j', hj'1, hmask⟩ := id hi1.msk
  by_cases hne : 2 ^ j - 1 ≠ s1.mask
  · by_cases hdiff : E.hash key &&& (2 ^ j - 1) ≠ E.hash key &&& s1.mask
    · refine ⟨_, s1, A1, st, rfl, .none, hi1, .refl _ _, ?_⟩
      rw [if_pos hne, if_pos hdiff]
      have hmsk1 := hi1.msk
      have h31 := hi1.mask31
      rw [hmask] at hdiff hle h31 hmsk1 ⊢
      rw [and_mask, and_mask] at hdiff
      have hp := Nat.two_pow_pos j
      have hp' := Nat.two_pow_pos j'
      have hjj : j ≤ j' := by
        by_contra hlt
        have := Nat.pow_lt_pow_right (a := 2) (by omega) (Nat.not_le.1 hlt)
        omega
      have hj32 : j' < 32 := by
        by_contra h32
        have := Nat.pow_le_pow_right (n := 2) (by omega) (show 32 ≤ j' by omega)
        omega
      obtain ⟨i, hi_1, hi_2, hi_3, hi_4, hi_5⟩ := nextBit_spec (h := E.hash key) (f := 64) (j := j) (j' := j') (by omega) hdiff hjj
      have e1 : 2 ^ j - 1 + 1 = 2 ^ j := by omega
      have hpi := Nat.two_pow_pos i
      have e2 : 2 * 2 ^ i - 1 = 2 ^ (i + 1) - 1 := by rw [pow_succ, Nat.mul_comm]
      dsimp only
      rw [e1, hi_3, e2, mask_and]
      have hle2 : 2 ^ (i + 1) ≤ 2 ^ j' := Nat.pow_le_pow_right (by omega) hi_2
      rw [if_neg (by omega), and_mask]
      have hd0 := mod_succ_of_testBit_true hi_4
      have hgt : c < E.hash key % 2 ^ (i + 1) := by
        rw [hd0, hi_5, ← hc]
        omega
      have hge : 2 ^ j ≤ E.hash key % 2 ^ (i + 1) := by
        rw [hd0]
        have := Nat.pow_le_pow_right (n := 2) (by omega) hi_1
        omega
      have hmin : ∀ e, Pre (E.hash key) e → c < e → E.hash key % 2 ^ (i + 1) ≤ e := by
        rintro e ⟨l, rfl⟩ hlt
        refine pre_mono _ ?_
        by_contra hl
        have := pre_mono (E.hash key) (show l ≤ i by omega)
        omega
      have hpd : Pre (E.hash key) (E.hash key % 2 ^ (i + 1)) := ⟨_, rfl⟩
      have hdm : E.hash key % 2 ^ (i + 1) ≤ s1.mask := by
        have := Nat.mod_lt (E.hash key) (Nat.two_pow_pos (i + 1))
        omega
      generalize E.hash key % 2 ^ (i + 1) = d0 at *
      refine W_read fun s2 A2 hi2 hr2 hq2 => ⟨loc d0, hi2.locate (hdm.trans hr2.mask), ?_⟩
      refine W_ok fun s3 A3 hi3 hr3 hq3 => ?_
      have hr13 := hr2.trans hr3
      have hg3 := hg1.rel hr13
      have hn3 := hn1.rel hi1 hr13 hg1.holds
      have hk3 := (hk1.trans (Keep.rel hr2 hq2)).trans (Keep.rel hr3 hq3)
      have hm3 := hmsk1.mono hr13.mask
      cases hfl : s3.fl (loc d0) with
      | true =>
        refine ⟨true, s3, A3, st, rfl, .none, hi3, .refl _ _, W_pure ⟨hi3, hg3, hn3, hm3, hk3, fun _ => ⟨rfl, fun hq e => ?_⟩, fun h => (by cases h)⟩⟩
        rw [(hq1 hq).1] at hne
        exact hne e
      | false =>
        have hd3 : NoDeep s3 (E.hash key) c := by
          obtain ⟨⟨_, _, _, hcc⟩, hlk⟩ := id hi3
          intro e
          induction e using Nat.strong_induction_on with
          | _ e ih =>
            intro he hlt hf
            by_cases he2 : e < 2
            · have hd1 := hmin e he hlt
              have : d0 = 1 := by omega
              subst this
              rw [hcc.dfl _ hcc.base.2] at hfl
              cases hfl
            · have hle := hpre.le_parent he hlt
              rcases Nat.lt_or_ge c (parent e) with h3 | h3
              · exact ih _ (parent_lt (by omega)) he.parent h3 (Or.inl (hcc.dfl _ (hcc.par e (by omega) hf)))
              · have hpe : parent e = c := by omega
                have hed : e = d0 := by
                  have h1 := hmin e he hlt
                  rcases Nat.eq_or_lt_of_le h1 with h | h
                  · exact h.symm
                  · have := hpd.le_parent he h
                    omega
                subst hed
                rcases hlk.pend e hf with h | h | ⟨v, hv1, hv2⟩
                · rw [hfl] at h; cases h
                · have := hm.1
                  omega
                · rw [hpe] at hv2
                  have := hlk.other hv2 hg3.holds
                  subst this
                  obtain ⟨_, e'⟩ := hg3.own.wr'.1 hv1
                  omega
        have hab := habs hi3 hg3 hn3 hd3
        exact ⟨false, s3, A3, st', rfl, hlin A3 hab, hi3, .refl _ _, W_pure ⟨hi3, hg3, hn3, hm3, hk3, fun h => (by cases h), fun _ => ⟨rfl, hd3⟩⟩⟩
    · rw [not_not] at hdiff
      have hd : NoDeep s1 (E.hash key) c := by
        have := nodeep_of_mask (h := E.hash key) hi1 hmask
        rw [hmask, and_mask, and_mask] at hdiff
        rw [hc, hdiff]
        exact this
      refine ⟨s1.mask, s1, A1, st', rfl, hlin A1 (habs hi1 hg1 hn1 hd), hi1, .refl _ _, ?_⟩
      rw [if_pos hne, if_neg (by rw [not_not]; exact hdiff)]
      exact W_pure ⟨hi1, hg1, hn1, hi1.msk, hk1, fun h => (by cases h), fun _ => ⟨rfl, hd⟩⟩
  · rw [not_not] at hne
    have hd : NoDeep s1 (E.hash key) c := by
      rw [hc]
      exact nodeep_of_mask hi1 hne.symm
    refine ⟨s1.mask, s1, A1, st', rfl, hlin A1 (habs hi1 hg1 hn1 hd), hi1, .refl _ _, ?_⟩
    rw [if_neg (by rw [not_not]; exact hne)]
    exact W_pure ⟨hi1, hg1, hn1, hm1, hk1, fun h => (by cases h), fun _ => ⟨rfl, hd⟩⟩

end

end PMap.Pmem
