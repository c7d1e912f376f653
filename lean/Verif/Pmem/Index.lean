import Verif.Pmem.Code
import Mathlib.Tactic.Ring
import Mathlib.Tactic.Linarith

/-!
# Where buckets are
-/

namespace PMap.Pmem

/-- Where bucket `i` is.  No code of its own: this is the specification of `get_bucket`. -/
def loc (i : Nat) : Loc :=
  if i < 2 then (0, i) else if i < 256 then (1, i - 2)
  else
    let b := firstBlock (Nat.log2 i)
    (b + (i - 2 ^ Nat.log2 i) / blockSize b, (i - 2 ^ Nat.log2 i) % blockSize b)

/-- Which bucket is at a place.  No code of its own. -/
def unloc (c : Loc) : Nat :=
  if c.1 = 0 then c.2 else if c.1 = 1 then c.2 + 2 else if c.1 < 27 then 2 ^ c.1 + c.2 else 2 ^ 27 * (c.1 - 26) + c.2

theorem log2_spec {i : Nat} (h : 1 ≤ i) : 2 ^ Nat.log2 i ≤ i ∧ i < 2 ^ (Nat.log2 i + 1) :=
  ⟨Nat.log2_self_le (by omega), Nat.lt_log2_self⟩

theorem log2_of {i k : Nat} (h1 : 2 ^ k ≤ i) (h2 : i < 2 ^ (k + 1)) : Nat.log2 i = k := by
  have hi : i ≠ 0 := by have := Nat.two_pow_pos k; omega
  have a := (Nat.le_log2 hi).2 h1
  have b := (Nat.log2_lt hi).2 h2
  omega

theorem le_log2_256 {i : Nat} (h : 256 ≤ i) : 8 ≤ Nat.log2 i := (Nat.le_log2 (by omega)).2 (by omega)

theorem unloc_loc (i : Nat) : unloc (loc i) = i := by
  unfold loc
  by_cases h1 : i < 2
  · simp [h1, unloc]
  by_cases h2 : i < 256
  · simp only [h1, h2, if_true, if_false, unloc]
    simp
    omega
  simp only [h1, h2, if_false]
  have hk := le_log2_256 (Nat.not_lt.1 h2)
  obtain ⟨l1, l2⟩ := log2_spec (i := i) (by omega)
  generalize Nat.log2 i = k at *
  rw [pow_succ] at l2
  by_cases h3 : k < 27
  · have hb : firstBlock k = k := by simp [firstBlock, h3]
    have hs : blockSize k = 2 ^ k := by simp [blockSize, h3, show k ≠ 0 by omega]
    rw [hb, hs, Nat.div_eq_of_lt (by omega), Nat.mod_eq_of_lt (by omega)]
    simp only [unloc, Nat.add_zero, show k ≠ 0 by omega, show k ≠ 1 by omega, h3, if_true, if_false]
    omega
  · have hp := Nat.two_pow_pos (k - 27)
    have hb : firstBlock k = 26 + 2 ^ (k - 27) := by simp only [firstBlock, h3, if_false]; omega
    have hs : blockSize (26 + 2 ^ (k - 27)) = 2 ^ 27 := by unfold blockSize; rw [if_neg (by omega)]
    rw [hb, hs]
    have e : 2 ^ k = 2 ^ 27 * 2 ^ (k - 27) := by rw [← pow_add]; congr 1; omega
    generalize 2 ^ (k - 27) = p at *
    have := Nat.div_add_mod (i - 2 ^ k) (2 ^ 27)
    generalize (i - 2 ^ k) / 2 ^ 27 = q at *
    generalize (i - 2 ^ k) % 2 ^ 27 = r at *
    simp only [unloc, show 26 + p + q ≠ 0 by omega, show 26 + p + q ≠ 1 by omega, show ¬ 26 + p + q < 27 by omega, if_false]
    rw [show 26 + p + q - 26 = p + q by omega, Nat.mul_add]
    omega

/-- Different buckets are in different places. -/
theorem loc_inj {i j : Nat} (h : loc i = loc j) : i = j := by rw [← unloc_loc i, h, unloc_loc]

theorem firstBlock_succ (k : Nat) : firstBlock (k + 1) = firstBlock k + blocksIn k := by
  unfold firstBlock blocksIn
  by_cases h : k < 26
  · simp [show k < 27 by omega, show k + 1 < 27 by omega]
  by_cases h' : k = 26
  · subst h'; rfl
  · have hp := Nat.two_pow_pos (k - 27)
    simp only [show ¬ k < 27 by omega, show ¬ k + 1 < 27 by omega, if_false]
    rw [show k + 1 - 27 = (k - 27) + 1 by omega, pow_succ]
    omega

theorem firstBlock_mono {k l : Nat} (h : k ≤ l) : firstBlock k ≤ firstBlock l := by
  induction h with
  | refl => exact Nat.le_refl _
  | step _ ih => rw [firstBlock_succ]; omega

theorem firstBlock_ge {k : Nat} (h : 8 ≤ k) : 8 ≤ firstBlock k := by
  have := firstBlock_mono h
  simpa [firstBlock] using this

/-- The table has segments `0, …, kk - 1`.  No code of its own. -/
structure Tab (s : HSt) (kk : Nat) : Prop where
  two : kk = 1 ∨ 8 ≤ kk
  b0 : s.blk 0 = some (0, 0)
  l0 : s.len 0 = 2
  b1 : 8 ≤ kk → ∀ b, 1 ≤ b → b < 8 → s.blk b = some (1, 2 ^ b - 2)
  l1 : 8 ≤ kk → s.len 1 = 254
  big : ∀ b, 8 ≤ b → b < firstBlock kk → s.blk b = some (b, 0) ∧ s.len b = blockSize b
  none : ∀ b, firstBlock kk ≤ b → s.blk b = none

theorem Tab.isSome {s : HSt} {kk b : Nat} (h : Tab s kk) (hb : b < firstBlock kk) : (s.blk b).isSome = true := by
  rcases Nat.eq_zero_or_pos b with rfl | h0
  · rw [h.b0]; rfl
  · rcases h.two with rfl | h8
    · simp [firstBlock] at hb; omega
    · by_cases h' : b < 8
      · rw [h.b1 h8 b h0 h']; rfl
      · rw [(h.big b (by omega) hb).1]; rfl

theorem Tab.valid {s : HSt} {kk k : Nat} (h : Tab s kk) : segValid s k = decide (k < kk) := by
  by_cases hk : k < kk
  · simp only [hk, decide_true]
    unfold segValid
    rw [List.all_eq_true]
    intro j hj
    rw [List.mem_range] at hj
    refine h.isSome ?_
    have := firstBlock_mono (show k + 1 ≤ kk from hk)
    rw [firstBlock_succ] at this
    omega
  · simp only [hk, decide_false]
    unfold segValid
    rw [← Bool.not_eq_true, List.all_eq_true]
    intro hh
    have h0 := hh 0 (List.mem_range.2 (by unfold blocksIn; split <;> simp))
    rw [Nat.add_zero, h.none _ (firstBlock_mono (Nat.not_lt.1 hk))] at h0
    cases h0

theorem log2_or_one (h : Nat) : Nat.log2 (h ||| 1) = Nat.log2 h := by
  by_cases h0 : h = 0
  · subst h0; decide
  · have hm : h ||| 1 = if h % 2 = 0 then h + 1 else h := by
      have hb : (h ||| 1) / 2 = h / 2 := by
        have := Nat.or_div_two (a := h) (b := 1)
        simpa using this
      have hm2 : (h ||| 1) % 2 = 1 := by
        have := Nat.or_mod_two_eq_one (a := h) (b := 1)
        exact this.2 (Or.inr rfl)
      split <;> omega
    rw [hm]
    split
    · rename_i hp
      obtain ⟨l1, l2⟩ := log2_spec (i := h) (by omega)
      refine log2_of (by omega) ?_
      rw [pow_succ] at l2 ⊢
      omega
    · rfl

theorem Tab.locate {s : HSt} {kk i : Nat} (h : Tab s kk) (hkk : kk ≤ 32) (hi : i < 2 ^ kk) : locate s i = .ok (loc i) s := by
  unfold Pmem.locate
  rw [log2_or_one]
  have hk : Nat.log2 i < kk := by
    by_cases h0 : i = 0
    · subst h0
      have := h.two
      rw [show Nat.log2 0 = 0 by decide]
      omega
    · exact (Nat.log2_lt h0).2 hi
  have hv := h.valid (k := Nat.log2 i)
  simp only [hk, decide_true] at hv
  rw [if_neg (by omega), if_neg (by rw [hv]; simp)]
  by_cases h1 : i < 2
  · have e : Nat.log2 i = 0 := by
      rcases (show i = 0 ∨ i = 1 by omega) with rfl | rfl <;> decide
    simp only [e, segBase, segSize, if_true]
    rw [if_neg (by simp; omega)]
    have e2 : i / blockSize (firstBlock 0) = 0 := by simp [firstBlock, blockSize]; omega
    have e3 : i % blockSize (firstBlock 0) = i := by simp [firstBlock, blockSize]; omega
    simp only [Nat.sub_zero, e2, e3]
    rw [show firstBlock 0 + 0 = 0 by rfl, h.b0]
    simp only [h.l0, Nat.zero_add, h1, if_true, loc]
  · obtain ⟨l1, l2⟩ := log2_spec (i := i) (by omega)
    have hk0 : Nat.log2 i ≠ 0 := by
      intro e
      rw [e] at l2
      simp at l2
      omega
    rw [pow_succ] at l2
    have h8 : 8 ≤ kk := by rcases h.two with rfl | h8 <;> omega
    simp only [segBase, segSize, hk0, if_false]
    rw [if_neg (by omega)]
    by_cases h2 : i < 256
    · have hk8 : Nat.log2 i < 8 := (Nat.log2_lt (by omega)).2 (by omega)
      have hl : loc i = (1, i - 2) := by simp [loc, h1, h2]
      rw [hl]
      generalize Nat.log2 i = k at *
      have hb : firstBlock k = k := by simp [firstBlock, show k < 27 by omega]
      have hs : blockSize k = 2 ^ k := by simp [blockSize, show k < 27 by omega, hk0]
      rw [hb, hs, Nat.div_eq_of_lt (by omega), Nat.mod_eq_of_lt (by omega), Nat.add_zero, h.b1 h8 k (by omega) hk8]
      simp only [h.l1 h8]
      have : 2 ≤ 2 ^ k := by
        calc 2 = 2 ^ 1 := rfl
          _ ≤ 2 ^ k := Nat.pow_le_pow_right (by omega) (by omega)
      rw [if_pos (by omega)]
      congr 2
      omega
    · have hl : loc i = (firstBlock (Nat.log2 i) + (i - 2 ^ Nat.log2 i) / blockSize (firstBlock (Nat.log2 i)),
          (i - 2 ^ Nat.log2 i) % blockSize (firstBlock (Nat.log2 i))) := by simp [loc, h1, h2]
      rw [hl]
      have hk8 := le_log2_256 (Nat.not_lt.1 h2)
      generalize Nat.log2 i = k at *
      have hq : (i - 2 ^ k) / blockSize (firstBlock k) < blocksIn k := by
        by_cases h3 : k < 27
        · have hb : firstBlock k = k := by simp [firstBlock, h3]
          have hs : blockSize k = 2 ^ k := by simp [blockSize, h3, hk0]
          rw [hb, hs, Nat.div_eq_of_lt (by omega)]
          simp [blocksIn, h3]
        · have hp := Nat.two_pow_pos (k - 27)
          have hb : firstBlock k = 26 + 2 ^ (k - 27) := by simp only [firstBlock, h3, if_false]; omega
          have hs : blockSize (26 + 2 ^ (k - 27)) = 2 ^ 27 := by unfold blockSize; rw [if_neg (by omega)]
          rw [hb, hs, blocksIn, if_neg h3, Nat.div_lt_iff_lt_mul (by positivity), ← pow_add, show k - 27 + 27 = k by omega]
          omega
      have hlt : firstBlock k + (i - 2 ^ k) / blockSize (firstBlock k) < firstBlock kk := by
        have := firstBlock_mono (show k + 1 ≤ kk from hk)
        rw [firstBlock_succ] at this
        omega
      obtain ⟨e1, e2⟩ := h.big _ ((firstBlock_ge hk8).trans (Nat.le_add_right _ _)) hlt
      rw [e1]
      simp only [e2, Nat.zero_add]
      rw [if_pos]
      have hz : 0 < blockSize (firstBlock k) := by unfold blockSize; split <;> positivity
      refine (Nat.mod_lt _ hz).trans_le ?_
      by_cases h3 : k < 27
      · have hb : firstBlock k = k := by simp [firstBlock, h3]
        have : blocksIn k = 1 := by simp [blocksIn, h3]
        have hq0 : (i - 2 ^ k) / blockSize (firstBlock k) = 0 := by rw [this] at hq; exact Nat.lt_one_iff.1 hq
        rw [hq0, Nat.add_zero]
      · have hp := Nat.two_pow_pos (k - 27)
        have hb : firstBlock k = 26 + 2 ^ (k - 27) := by simp only [firstBlock, h3, if_false]; omega
        have hs : ∀ x, blockSize (firstBlock k + x) = 2 ^ 27 := fun x => by unfold blockSize; rw [if_neg (by omega)]
        rw [hs, ← Nat.add_zero (firstBlock k), hs]

/-! ### Prefixes of hashes -/

/-- The bucket from which bucket `c` is filled (`h & mask` at chm:1927-1931).  No code of its own. -/
def parent (c : Nat) : Nat := c % 2 ^ Nat.log2 c

theorem parent_lt {c : Nat} (h : 1 ≤ c) : parent c < c :=
  (Nat.mod_lt _ (Nat.two_pow_pos _)).trans_le (log2_spec h).1

theorem parent_pre {h j : Nat} (hc : 1 ≤ h % 2 ^ j) : parent (h % 2 ^ j) = h % 2 ^ Nat.log2 (h % 2 ^ j) := by
  unfold parent
  refine Nat.mod_mod_of_dvd _ (Nat.pow_dvd_pow 2 ?_)
  have : h % 2 ^ j < 2 ^ j := Nat.mod_lt _ (Nat.two_pow_pos _)
  exact ((Nat.log2_lt (by omega)).2 this).le

theorem pre_mono (h : Nat) {i j : Nat} (hij : i ≤ j) : h % 2 ^ i ≤ h % 2 ^ j := by
  rw [← Nat.mod_mod_of_dvd h (Nat.pow_dvd_pow 2 hij)]
  exact Nat.mod_le _ _

theorem and_mask (h k : Nat) : h &&& (2 ^ k - 1) = h % 2 ^ k := Nat.and_two_pow_sub_one_eq_mod h k

/-- A prefix is determined by an upper bound of its bits. -/
theorem pre_eq {h i k : Nat} (hk : h % 2 ^ i < 2 ^ k) (hi : h % 2 ^ k ≤ h % 2 ^ i) : h % 2 ^ i = h % 2 ^ k := by
  rcases Nat.le_total i k with hik | hik
  · exact Nat.le_antisymm (pre_mono h hik) hi
  · rw [← Nat.mod_mod_of_dvd h (Nat.pow_dvd_pow 2 hik), Nat.mod_eq_of_lt hk]

/-- Going from prefix to parent one does not jump over a prefix. -/
theorem pre_parent {h i j : Nat} (hlt : h % 2 ^ i < h % 2 ^ j) : h % 2 ^ i ≤ parent (h % 2 ^ j) := by
  rw [parent_pre (by omega)]
  rcases Nat.lt_or_ge (Nat.log2 (h % 2 ^ j)) i with hl | hl
  · exfalso
    have hp := (log2_spec (i := h % 2 ^ j) (by omega)).2
    have hp2 : h % 2 ^ j < 2 ^ i := hp.trans_le (Nat.pow_le_pow_right (by omega) hl)
    rcases Nat.le_total i j with hij | hij
    · rw [← Nat.mod_mod_of_dvd h (Nat.pow_dvd_pow 2 hij), Nat.mod_eq_of_lt hp2] at hlt
      omega
    · have := pre_mono h hij
      omega
  · exact pre_mono h hl

end PMap.Pmem
