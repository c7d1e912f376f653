import Verif.XXHash
import Mathlib.Tactic.IntervalCases
import Mathlib.Data.Fintype.Card
import Mathlib.Data.Fintype.EquivFin

/-!
# C37: xxHash-64 is one-to-one on 8-byte keys
-/

namespace PMap.XXH

theorem rotr_rotl (x : Word) (r : Nat) (h0 : 0 < r) (h : r < 64) : rotr64 (rotl64 x r) r = x := by
  apply BitVec.eq_of_getLsbD_eq
  intro i hi
  simp only [rotr64, rotl64, BitVec.getLsbD_or, BitVec.getLsbD_ushiftRight, BitVec.getLsbD_shiftLeft]
  by_cases h1 : r + i < 64
  · have e1 : r + i - r = i := by omega
    have e2 : ¬ (r + i < r) := by omega
    have e3 : i < 64 - r := by omega
    have e4 : 64 ≤ 64 - r + (r + i) := by omega
    simp [h1, e1, e3, BitVec.getLsbD_of_ge x _ e4]
  · have e1 : i - (64 - r) < r := by omega
    have e2 : ¬ (i < 64 - r) := by omega
    have e3 : 64 - r + (i - (64 - r)) = i := by omega
    simp [h1, e1, e2, e3, hi]
    intro hx
    rw [BitVec.getLsbD_of_ge x _ (by omega)] at hx; cases hx

theorem rotl_inj {x y : Word} {r : Nat} (h0 : 0 < r) (h : r < 64) (e : rotl64 x r = rotl64 y r) : x = y := by
  rw [← rotr_rotl x r h0 h, e, rotr_rotl y r h0 h]

theorem mul_inj {x y p q : Word} (hp : p * q = 1#64) (e : x * p = y * p) : x = y := by
  have : x * p * q = y * p * q := by rw [e]
  rwa [BitVec.mul_assoc, BitVec.mul_assoc, hp, BitVec.mul_one, BitVec.mul_one] at this

theorem xorshift_inj {x y : Word} {s : Nat} (hs : 64 ≤ 3 * s) (e : x ^^^ (x >>> s) = y ^^^ (y >>> s)) : x = y := by
  have hz : (x ^^^ y) = (x ^^^ y) >>> s := by
    apply BitVec.eq_of_getLsbD_eq
    intro i hi
    have := congrArg (fun b => b.getLsbD i) e
    simp only [BitVec.getLsbD_xor, BitVec.getLsbD_ushiftRight] at this ⊢
    revert this
    cases x.getLsbD i <;> cases y.getLsbD i <;> cases x.getLsbD (s + i) <;> cases y.getLsbD (s + i) <;> decide
  have h0 : x ^^^ y = 0#64 := by
    apply BitVec.eq_of_getLsbD_eq
    intro i hi
    have b : ∀ j, (x ^^^ y).getLsbD j = (x ^^^ y).getLsbD (s + j) := by
      intro j
      conv_lhs => rw [hz]
      rw [BitVec.getLsbD_ushiftRight]
    rw [b, b, b, BitVec.getLsbD_of_ge _ _ (by omega)]; simp
  exact BitVec.xor_eq_zero_iff.1 h0

/-- Multiplicative inverse of `P1` modulo 2^64. -/
def P1inv : Word := 0x887493432badb37#64
/-- Multiplicative inverse of `P2` modulo 2^64. -/
def P2inv : Word := 0xba79078168d4baf#64
/-- Multiplicative inverse of `P3` modulo 2^64. -/
def P3inv : Word := 0xe9e9f4c41d6df849#64

theorem round_inj {s x y : Word} (e : round s x = round s y) : x = y := by
  unfold round at e
  have e1 := mul_inj (q := P1inv) (by decide) e
  have e2 := rotl_inj (by norm_num) (by norm_num) e1
  have e3 : x * P2 = y * P2 := by
    have := congrArg (fun z => z - s) e2
    simpa [BitVec.add_comm s] using this
  exact mul_inj (q := P2inv) (by decide) e3

theorem finalMix_inj {x y : Word} (e : finalMix x = finalMix y) : x = y := by
  unfold finalMix at e
  have e1 := xorshift_inj (by norm_num) e
  have e2 := mul_inj (q := P3inv) (by decide) e1
  have e3 := xorshift_inj (by norm_num) e2
  have e4 := mul_inj (q := P2inv) (by decide) e3
  exact xorshift_inj (by norm_num) e4

theorem xor_left_inj' {a x y : Word} (e : a ^^^ x = a ^^^ y) : x = y := by
  have : a ^^^ (a ^^^ x) = a ^^^ (a ^^^ y) := by rw [e]
  simpa [← BitVec.xor_assoc] using this

theorem add_right_inj' {a x y : Word} (e : x + a = y + a) : x = y := by
  have := congrArg (fun z => z - a) e
  simpa using this

theorem readLE_keyBytes (k : Word) : readLE (keyBytes k) = k := by
  apply BitVec.eq_of_getLsbD_eq
  intro i hi
  simp only [keyBytes, List.range, List.range.loop, List.map, readLE, BitVec.getLsbD_or, BitVec.getLsbD_shiftLeft,
    BitVec.getLsbD_setWidth, BitVec.getLsbD_ushiftRight]
  interval_cases i <;> simp

theorem keyBytes_length (k : Word) : (keyBytes k).length = 8 := by simp [keyBytes]

/-- What the code computes on eight bytes, unrolled. -/
theorem xxh64_eight (p : List (BitVec 8)) (hp : p.length = 8) (seed : Word) :
    xxh64 p seed = finalMix (rotl64 ((seed + P5 + 8#64) ^^^ round 0#64 (readLE p)) 27 * P1 + P4) := by
  have h1 : p.take 8 = p := List.take_of_length_le (by omega)
  have h2 : p.drop 8 = [] := List.drop_of_length_le (by omega)
  simp [xxh64, subEnding, hp, steps8, h1, h2, step4, steps1]

/-- The eight-byte hash is a one-to-one function of the bytes read as a number, for every seed. -/
theorem xxh64_eight_inj {p q : List (BitVec 8)} (hp : p.length = 8) (hq : q.length = 8) (seed : Word)
    (e : xxh64 p seed = xxh64 q seed) : readLE p = readLE q := by
  rw [xxh64_eight p hp, xxh64_eight q hq] at e
  have e1 := add_right_inj' (finalMix_inj e)
  have e2 := mul_inj (q := P1inv) (by decide) e1
  have e3 := rotl_inj (by norm_num) (by norm_num) e2
  exact round_inj (xor_left_inj' e3)

/-- **C37.** For every seed, two 64-bit keys with the same xxHash-64 are the same key. -/
theorem c37_xxh64_injective_on_keys (seed k₁ k₂ : Word) (e : xxh64 (keyBytes k₁) seed = xxh64 (keyBytes k₂) seed) :
    k₁ = k₂ := by
  have := xxh64_eight_inj (keyBytes_length k₁) (keyBytes_length k₂) seed e
  rwa [readLE_keyBytes, readLE_keyBytes] at this

/-- **C37.** The `xxhash` functor of hash.hpp is a permutation of the 64-bit words. -/
theorem c37_hashKey_bijective : Function.Bijective hashKey :=
  haveI : Finite Word := Finite.of_injective BitVec.toFin (fun _ _ h => BitVec.toFin_inj.1 h)
  Finite.injective_iff_bijective.1 fun k₁ k₂ e => c37_xxh64_injective_on_keys 0#64 k₁ k₂ e

/-- Known answers of the reference implementation: the empty input and the bytes 0..7 … -/
example : xxh64 [] 0#64 = 0xEF46DB3751D8E999#64 := by decide +kernel
/-- … `XXH64("a")`, `XXH64("abc")`, and a 32-byte-plus input (39 letters), seed 0. -/
example : xxh64 [97#8] 0#64 = 0xD24EC4F1A98C6E5B#64 ∧ xxh64 [97#8, 98#8, 99#8] 0#64 = 0x44BC2CF5AD770999#64 := by
  decide +kernel
/-- The hash is not constant and not the identity on small keys. -/
example : hashKey 0#64 ≠ hashKey 1#64 ∧ hashKey 8#64 ≠ 8#64 := by decide +kernel

end PMap.XXH
