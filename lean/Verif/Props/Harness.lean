import Verif.Harness
import Mathlib.Algebra.BigOperators.Group.Finset.Basic
import Mathlib.Algebra.BigOperators.Group.Finset.Piecewise
import Mathlib.Algebra.BigOperators.Intervals

/-!
# C32: work splitting
-/

namespace PMap.Harness

open Finset

/-- **C32.** The shares of the threads add up to the total, for every total and every positive thread count. -/
theorem c32_shares_add_up (numThreads totalOps : Nat) (h : 0 < numThreads) :
    ∑ t ∈ range numThreads, (opsPerThread numThreads totalOps t).getD 0 = totalOps := by
  have hne : numThreads ≠ 0 := by omega
  have : ∀ t, (opsPerThread numThreads totalOps t).getD 0
      = totalOps / numThreads + (if t = 0 then totalOps % numThreads else 0) := by
    intro t
    simp only [opsPerThread, hne, if_false, Option.getD_some]
    split_ifs <;> omega
  simp only [this, sum_add_distrib, sum_const, card_range, nsmul_eq_mul, Nat.cast_id]
  rw [Finset.sum_ite_eq' (range numThreads) 0 (fun _ => totalOps % numThreads)]
  simp only [mem_range, h, if_true]
  exact Nat.div_add_mod totalOps numThreads

/-- No share is undefined when there is a thread, and thread 0's share is the largest (it bounds the element numbers). -/
theorem c32_share_bound (numThreads totalOps t : Nat) (h : 0 < numThreads) :
    ∃ share maxops, opsPerThread numThreads totalOps t = some share ∧ opsPerThread numThreads totalOps 0 = some maxops
      ∧ share ≤ maxops := by
  have hne : numThreads ≠ 0 := by omega
  refine ⟨_, _, by simp [opsPerThread, hne]; rfl, by simp [opsPerThread, hne]; rfl, ?_⟩
  split_ifs <;> simp_all

/-- The prefix and the main loop together are exactly the share. -/
theorem c32_main_loop_le (n : Nat) : opsMainLoop n ≤ n ∧ opsMainLoop n + n / 10 = n := by
  unfold opsMainLoop; omega

/-- **C32.** Different (thread, operation number) pairs generate different elements. -/
theorem c32_elements_distinct (maxops n₁ t₁ n₂ t₂ : Nat) (h₁ : n₁ < maxops) (h₂ : n₂ < maxops)
    (e : genElem n₁ t₁ maxops = genElem n₂ t₂ maxops) : n₁ = n₂ ∧ t₁ = t₂ := by
  unfold genElem at e
  have d₁ : (t₁ * maxops + n₁) / maxops = t₁ := by
    rw [Nat.mul_comm, Nat.mul_add_div (by omega), Nat.div_eq_of_lt h₁]; simp
  have d₂ : (t₂ * maxops + n₂) / maxops = t₂ := by
    rw [Nat.mul_comm, Nat.mul_add_div (by omega), Nat.div_eq_of_lt h₂]; simp
  have ht : t₁ = t₂ := by rw [← d₁, e, d₂]
  subst ht
  exact ⟨by omega, rfl⟩

theorem passed_low (num thrid maxops : Nat) (h : genElem num thrid maxops < 2 ^ 31) :
    passedElem num thrid maxops = BitVec.ofNat 64 (genElem num thrid maxops) := by
  unfold passedElem
  generalize genElem num thrid maxops = g at *
  apply BitVec.eq_of_getLsbD_eq
  intro i hi
  rw [BitVec.getLsbD_signExtend, BitVec.getLsbD_setWidth, BitVec.msb_setWidth]
  have hb : ∀ j, 31 ≤ j → (BitVec.ofNat 64 g).getLsbD j = false := by
    intro j hj
    rw [BitVec.getLsbD_ofNat]
    have : g.testBit j = false := Nat.testBit_lt_two_pow (lt_of_lt_of_le h (Nat.pow_le_pow_right (by norm_num) hj))
    simp [this]
  by_cases h32 : i < 32
  · simp [h32, hi]
  · simp only [h32, if_false]
    rw [hb i (by omega)]
    have := hb 31 (by omega)
    simp at this ⊢
    intro _; exact this

/-- **C32.** The element passed to the container is the generated one as long as it is below 2^31 … -/
theorem c32_passed_elem_partial (num thrid maxops : Nat) (h : genElem num thrid maxops < 2 ^ 31) :
    (passedElem num thrid maxops).toNat = genElem num thrid maxops := by
  rw [passed_low num thrid maxops h, BitVec.toNat_ofNat, Nat.mod_eq_of_lt]; omega

/-- … but from 2^31 on the narrowing to `int` inserts a different element from the one `check_elements` looks for. -/
theorem c32_passed_elem_wrong : ∃ num thrid maxops, num < maxops
    ∧ (passedElem num thrid maxops).toNat ≠ genElem num thrid maxops := by
  refine ⟨0, 1, 2 ^ 31, by norm_num, ?_⟩
  have : genElem 0 1 (2 ^ 31) = 2147483648 := by norm_num [genElem]
  unfold passedElem
  rw [this]; decide

example : (opsPerThread 3 100 0, opsPerThread 3 100 1, opsPerThread 3 100 2) = (some 34, some 33, some 33) := by decide

/-! ## C38: the alternating test accepts a correct container -/

theorem prefixLoop_mem (ins : Nat → Nat) (hi : Function.Injective ins) (n w : Nat) (c : Cont) (i : Nat) :
    prefixLoop ins n w c (ins i) = (decide (w ≤ i ∧ i < w + n) || c (ins i)) := by
  induction n generalizing w c with
  | zero => simp [prefixLoop]
  | succ n ih =>
    rw [prefixLoop, ih]
    by_cases h : i = w
    · subst h; simp
    · have : (ins i == ins w) = false := by simp; exact fun e => h (hi e)
      rw [this, Bool.false_or]
      congr 1
      apply decide_eq_decide.2
      constructor <;> intro ⟨_, _⟩ <;> constructor <;> omega

/-- The main loop keeps exactly the elements below `lo` and those between the read and write positions. -/
theorem mainLoop_mem (ins : Nat → Nat) (hi : Function.Injective ins) (lo n w r : Nat) (c : Cont)
    (hc : ∀ i, c (ins i) = decide (i < lo ∨ (r ≤ i ∧ i < w))) (hlo : lo ≤ r) (hrw : r ≤ w)
    (he : n % 2 = 0 → 0 < n → r < w) (i : Nat) :
    mainLoop ins n w r c (ins i) = decide (i < lo ∨ (r + n / 2 ≤ i ∧ i < w + (n + 1) / 2)) := by
  induction n generalizing w r c with
  | zero => simpa [mainLoop] using hc i
  | succ n ih =>
    rw [mainLoop]
    by_cases hodd : (n + 1) % 2 = 1
    · rw [if_pos hodd, ih (w + 1) r]
      · apply decide_eq_decide.2; constructor <;> rintro (h | ⟨_, _⟩) <;> omega
      · intro j
        by_cases hj : j = w
        · subst hj; simp [hrw]
        · have : (ins j == ins w) = false := by simp; exact fun e => hj (hi e)
          simp only [this, Bool.false_or, hc]
          apply decide_eq_decide.2; constructor <;> rintro (h | ⟨_, _⟩) <;> omega
      · exact hlo
      · omega
      · intro _ _; omega
    · have hr := he (by omega) (by omega)
      rw [if_neg hodd, ih w (r + 1)]
      · apply decide_eq_decide.2; constructor <;> rintro (h | ⟨_, _⟩) <;> omega
      · intro j
        by_cases hj : j = r
        · subst hj; simp; omega
        · have : (ins j != ins r) = true := by simp; exact fun e => hj (hi e)
          simp only [this, Bool.true_and, hc]
          apply decide_eq_decide.2; constructor <;> rintro (h | ⟨_, _⟩) <;> omega
      · omega
      · omega
      · intro _ _; omega

theorem advance_eq (p : Nat → Bool) (maxops e fuel r : Nat) (hre : r ≤ e) (hem : e ≤ maxops) (hf : e - r ≤ fuel)
    (hp : ∀ i, r ≤ i → i < e → p i = true) (hs : e < maxops → p e = false) : advance p maxops fuel r = e := by
  induction fuel generalizing r with
  | zero => simp [advance]; omega
  | succ n ih =>
    rw [advance]
    by_cases h : r = e
    · subst h
      rw [if_neg]
      rintro ⟨h1, h2⟩
      rw [hs h1] at h2; cases h2
    · rw [if_pos ⟨by omega, hp r (Nat.le_refl _) (by omega)⟩]
      exact ih (r + 1) (by omega) (by omega) (fun i h1 h2 => hp i (by omega) h2)

/-- After one thread's run on a perfect container, the thread's elements present are exactly these: the first half of
the prefix, and those between the last erased and the last inserted one.  Holds for every share of at least ten
operations and for every odd share. -/
theorem c38_final_contents (ins : Nat → Nat) (hi : Function.Injective ins) (numops : Nat) (c : Cont)
    (hc : ∀ i, c (ins i) = false) (hn : 10 ≤ numops ∨ numops % 2 = 1) (i : Nat) :
    alternatingRun ins numops c (ins i) = decide (i < numops / 10 / 2 ∨
      (numops / 10 / 2 + opsMainLoop numops / 2 ≤ i ∧ i < numops / 10 + (opsMainLoop numops + 1) / 2)) := by
  have hw : numops - opsMainLoop numops = numops / 10 := by unfold opsMainLoop; omega
  unfold alternatingRun
  simp only [hw]
  apply mainLoop_mem ins hi
  · intro j
    rw [prefixLoop_mem ins hi, hc]
    simp only [Bool.or_false]
    apply decide_eq_decide.2
    constructor
    · intro ⟨_, _⟩; omega
    · rintro (h | ⟨_, _⟩) <;> omega
  · omega
  · omega
  · unfold opsMainLoop; omega

/-- **C38, partial.** For every share of at least ten operations, and every odd one, `check_elements` accepts what a
perfect container holds after the run.  Missing: the even shares below ten, see `c38_oracle_rejects_correct`. -/
theorem c38_oracle_accepts_partial (ins : Nat → Nat) (hi : Function.Injective ins) (maxops numops : Nat)
    (hm : numops ≤ maxops) (c : Cont) (hc : ∀ i, c (ins i) = false) (hn : 10 ≤ numops ∨ numops % 2 = 1) :
    (checkElements maxops numops (fun i => alternatingRun ins numops c (ins i))).2 = true := by
  have hw : numops - opsMainLoop numops = numops / 10 := by unfold opsMainLoop; omega
  have hN : opsMainLoop numops = numops - numops / 10 := rfl
  simp only [c38_final_contents ins hi numops c hc hn]
  unfold checkElements
  simp only [hw]
  generalize hW : numops / 10 = W at *
  generalize hNN : opsMainLoop numops = N at *
  have h1 : advance (fun i => !decide (i < W / 2 ∨ (W / 2 + N / 2 ≤ i ∧ i < W + (N + 1) / 2))) maxops maxops (W / 2)
      = W / 2 + N / 2 := by
    apply advance_eq
    · omega
    · omega
    · omega
    · intro i h1 h2; simp; omega
    · intro _; simp; omega
  have h2 : advance (fun i => decide (i < W / 2 ∨ (W / 2 + N / 2 ≤ i ∧ i < W + (N + 1) / 2))) maxops maxops
      (W / 2 + N / 2) = W + (N + 1) / 2 := by
    apply advance_eq
    · omega
    · omega
    · omega
    · intro i h1 h2; simp; omega
    · intro _; simp; omega
  rw [h1, h2]
  simp only [Bool.and_eq_true]
  refine ⟨⟨⟨?_, ?_⟩, ?_⟩, ?_⟩
  · simp; intro i hi; left; exact hi
  · simp; omega
  · simp; omega
  · simp
    intro i h3 h4
    split_ifs at h4 <;> omega

/-- **C38, refuted.** With four operations the test rejects a perfect container: the first operation erases an element
that has not been inserted yet. -/
theorem c38_oracle_rejects_correct :
    (checkElements 4 4 (fun i => alternatingRun id 4 (fun _ => false) (id i))).2 = false := by decide

example : (checkElements 25 20 (fun i => alternatingRun (fun i => 25 + i) 20 (fun _ => false) (25 + i))).2 = true := by
  decide

end PMap.Harness
