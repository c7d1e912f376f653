import Verif.Code
import Mathlib.Tactic.IntervalCases

/-!
# C04, C05, C11: words, slot arithmetic, growth
-/

namespace PMap

/-! ## C04: get and put start probing at the same slot -/

/-- `len - 1` of a power of two masks the low bits. -/
theorem and_pow_two_sub_one (x k : Nat) : x &&& (2 ^ k - 1) = x % 2 ^ k := Nat.and_two_pow_sub_one_eq_mod x k

theorem c04_put_home (hash : Word → Word) (key : Word) (k : Nat) :
    homePut hash key (2 ^ k) = (hash key).toNat % 2 ^ k := by
  simp only [homePut, and_pow_two_sub_one]

/-- **C04.** For every hash function, key and power-of-two table length up to 2^32, `get` starts probing at the slot
`hash mod len`, although it narrows the hash to `int`; so does `put`. -/
theorem c04_same_home_slot (hash : Word → Word) (key : Word) (k : Nat) (hk : k ≤ 32) :
    homeGet hash key (2 ^ k) = (hash key).toNat % 2 ^ k ∧ homePut hash key (2 ^ k) = (hash key).toNat % 2 ^ k := by
  refine ⟨?_, c04_put_home hash key k⟩
  simp only [homeGet, and_pow_two_sub_one]
  generalize hash key = h
  apply Nat.eq_of_testBit_eq
  intro i
  simp only [Nat.testBit_mod_two_pow]
  by_cases hi : i < k
  · simp only [hi, decide_true, Bool.true_and]
    have h32 : i < 32 := by omega
    rw [← BitVec.getLsbD, ← BitVec.getLsbD, BitVec.getLsbD_signExtend, BitVec.getLsbD_setWidth]
    simp only [h32, if_true, decide_true, Bool.true_and]
    have : i < 64 := by omega
    simp [this]
  · simp [hi]

/-- Beyond 2^32 slots the two start slots differ for some hash value: every larger table that an index can address. -/
theorem c04_home_slots_differ_beyond (k : Nat) (h1 : 33 ≤ k) :
    ∃ (hash : Word → Word) (key : Word), homeGet hash key (2 ^ k) ≠ homePut hash key (2 ^ k) := by
  refine ⟨fun _ => 4294967296#64, 0#64, ?_⟩
  have h2 : homePut (fun _ => 4294967296#64) 0#64 (2 ^ k) = 4294967296 := by
    rw [c04_put_home]
    have : (2:Nat) ^ 33 ≤ 2 ^ k := Nat.pow_le_pow_right (by norm_num) h1
    rw [Nat.mod_eq_of_lt]
    · rfl
    · have : (4294967296#64 : Word).toNat = 4294967296 := by decide
      omega
  have h3 : homeGet (fun _ => 4294967296#64) 0#64 (2 ^ k) = 0 := by
    simp only [homeGet]
    have : (((4294967296#64 : Word).setWidth 32).signExtend 64).toNat = 0 := by decide
    rw [this]; simp
  rw [h2, h3]; decide

/-- The hypotheses are met by a hash with bit 31 set, where the narrowing is visible. -/
example : homeGet (fun _ => 0xFFFFFFFF80000001#64) 8#64 (2 ^ 20) = 1
    ∧ homeGet (fun _ => 0x0000000080000001#64) 8#64 (2 ^ 32) = 0x80000001 := by decide

/-! ## C05: sentinels and marks -/

/-- The sentinel values as numbers. The initialisers overflow: `(2^62 - 1) << 3` does not fit in 64 bits. -/
theorem c05_sentinel_values :
    VINITIAL.toNat = 2 ^ 64 - 8 ∧ VTOMBSTONE.toNat = 2 ^ 64 - 16 ∧ TOMBPRIME.toNat = 2 ^ 64 - 14
    ∧ MATCH_ANY.toNat = 2 ^ 64 - 24 ∧ NO_MATCH_OLD.toNat = 2 ^ 64 - 32
    ∧ KINITIAL = VINITIAL ∧ KTOMBSTONE = VTOMBSTONE := by decide

/-- All five value markers are distinct, and so are the two key markers. -/
theorem c05_markers_distinct :
    [VINITIAL, VTOMBSTONE, TOMBPRIME, MATCH_ANY, NO_MATCH_OLD].Nodup ∧ KINITIAL ≠ KTOMBSTONE := by decide

/-- `isKeyReserved` accepts exactly the two key markers. -/
theorem c05_isKeyReserved (k : Word) : isKeyReserved k = true ↔ k.toNat = 2 ^ 64 - 8 ∨ k.toNat = 2 ^ 64 - 16 := by
  have h1 : k.toNat = 2 ^ 64 - 8 ↔ k = KINITIAL :=
    ⟨fun h => BitVec.eq_of_toNat_eq h, fun h => h ▸ by decide⟩
  have h2 : k.toNat = 2 ^ 64 - 16 ↔ k = KTOMBSTONE :=
    ⟨fun h => BitVec.eq_of_toNat_eq h, fun h => h ▸ by decide⟩
  rw [h1, h2]; simp [isKeyReserved]

/-- `isValueReserved` accepts exactly the five value markers. -/
theorem c05_isValueReserved (v : Word) :
    isValueReserved v = true ↔ v.toNat ∈ [2 ^ 64 - 8, 2 ^ 64 - 16, 2 ^ 64 - 14, 2 ^ 64 - 24, 2 ^ 64 - 32] := by
  have h1 : v.toNat = 2 ^ 64 - 8 ↔ v = VINITIAL := ⟨fun h => BitVec.eq_of_toNat_eq h, fun h => h ▸ by decide⟩
  have h2 : v.toNat = 2 ^ 64 - 16 ↔ v = VTOMBSTONE := ⟨fun h => BitVec.eq_of_toNat_eq h, fun h => h ▸ by decide⟩
  have h3 : v.toNat = 2 ^ 64 - 14 ↔ v = TOMBPRIME := ⟨fun h => BitVec.eq_of_toNat_eq h, fun h => h ▸ by decide⟩
  have h4 : v.toNat = 2 ^ 64 - 24 ↔ v = MATCH_ANY := ⟨fun h => BitVec.eq_of_toNat_eq h, fun h => h ▸ by decide⟩
  have h5 : v.toNat = 2 ^ 64 - 32 ↔ v = NO_MATCH_OLD := ⟨fun h => BitVec.eq_of_toNat_eq h, fun h => h ▸ by decide⟩
  simp only [List.mem_cons, List.not_mem_nil, or_false, h1, h2, h3, h4, h5]
  simp [isValueReserved, or_assoc]

/-- Marks on a word whose flag bits are clear are recovered exactly, whatever the order, and no other bit changes. -/
theorem c05_marks_roundtrip (w : Word) (hw : w &&& 3#64 = 0#64) :
    clearMark (setMark w DirtyFlag) DirtyFlag = w
    ∧ clearMark (setMark w MigrationFlag) MigrationFlag = w
    ∧ clearMark (clearMark (setMark (setMark w MigrationFlag) DirtyFlag) DirtyFlag) MigrationFlag = w
    ∧ isMarked (setMark w DirtyFlag) MigrationFlag = false
    ∧ isMarked (setMark w MigrationFlag) DirtyFlag = false
    ∧ isMarked (setMark w DirtyFlag) DirtyFlag = true
    ∧ isMarked (setMark w MigrationFlag) MigrationFlag = true
    ∧ setMark w DirtyFlag &&& AddressMask = w ∧ setMark w MigrationFlag &&& AddressMask = w := by
  have hD : w &&& 1#64 = 0#64 := by
    have : (1#64 : Word) = 3#64 &&& 1#64 := by decide
    rw [this, ← BitVec.and_assoc, hw]; simp
  have hM : w &&& 2#64 = 0#64 := by
    have : (2#64 : Word) = 3#64 &&& 2#64 := by decide
    rw [this, ← BitVec.and_assoc, hw]; simp
  have hnD : isMarked w DirtyFlag = false := isMarked_eq_false.2 hD
  have hnM : isMarked w MigrationFlag = false := isMarked_eq_false.2 hM
  have hA : w &&& AddressMask = w := by
    have : w = clearMark (clearMark w DirtyFlag) MigrationFlag := by
      rw [clearMark_of_not_marked hnD, clearMark_of_not_marked hnM]
    have e : AddressMask = ~~~DirtyFlag &&& ~~~MigrationFlag := by decide
    rw [e, ← BitVec.and_assoc]; exact this.symm
  refine ⟨?_, ?_, ?_, ?_, ?_, isMarked_setMark w (by decide), isMarked_setMark w (by decide), ?_, ?_⟩
  · rw [clearMark_setMark, clearMark_of_not_marked hnD]
  · rw [clearMark_setMark, clearMark_of_not_marked hnM]
  · rw [clearMark_setMark, clearMark_setMark_disjoint dirty_mig_disjoint, clearMark_of_not_marked hnD,
      clearMark_setMark, clearMark_of_not_marked hnM]
  · have := isMig_dirty w; rw [isMig, dirty, isMig] at this; rw [this]; exact hnM
  · rw [← isMarked_clearMark_disjoint (f := MigrationFlag) (g := DirtyFlag) (by decide), clearMark_setMark,
      clearMark_of_not_marked hnM]; exact hnD
  · have : setMark w DirtyFlag &&& AddressMask = (w &&& AddressMask) ||| (DirtyFlag &&& AddressMask) := by
      simp only [setMark]; ext i hi; simp; grind
    rw [this, hA]; have : DirtyFlag &&& AddressMask = 0#64 := by decide
    rw [this]; simp
  · have : setMark w MigrationFlag &&& AddressMask = (w &&& AddressMask) ||| (MigrationFlag &&& AddressMask) := by
      simp only [setMark]; ext i hi; simp; grind
    rw [this, hA]; have : MigrationFlag &&& AddressMask = 0#64 := by decide
    rw [this]; simp

/-- Whatever flags are put on an ordinary (unreserved, three low bits clear) word, it never becomes one of the markers
the code compares with, clean or dirty. -/
theorem c05_user_word_never_marker (w f g : Word) (hw : w &&& 7#64 = 0#64) (hr : isValueReserved w = false)
    (hf : f = 0#64 ∨ f = DirtyFlag ∨ f = MigrationFlag ∨ f = DirtyFlag ||| MigrationFlag)
    (hg : g = 0#64 ∨ g = DirtyFlag) :
    ∀ s ∈ [VINITIAL, VTOMBSTONE, TOMBPRIME, MATCH_ANY, NO_MATCH_OLD], w ||| f ≠ s ||| g := by
  intro s hs h
  have hw' : (w ||| f) &&& ~~~7#64 = w := by
    have e : (w ||| f) &&& ~~~7#64 = (w &&& ~~~7#64) ||| (f &&& ~~~7#64) := by
      ext i hi; simp; grind
    have e2 : f &&& ~~~7#64 = 0#64 := by rcases hf with rfl | rfl | rfl | rfl <;> decide
    have e3 : w &&& ~~~7#64 = w := clearMark_of_not_marked (f := 7#64) (isMarked_eq_false.2 hw)
    rw [e, e2, e3]; simp
  have hv : w = (s ||| g) &&& ~~~7#64 := by rw [← h, hw']
  have : isValueReserved w = true := by
    rw [hv]
    simp only [List.mem_cons, List.not_mem_nil, or_false] at hs
    rcases hs with rfl | rfl | rfl | rfl | rfl <;> rcases hg with rfl | rfl <;> decide
  rw [hr] at this; cases this

example : (8#64 : Word) &&& 7#64 = 0#64 ∧ isValueReserved 8#64 = false := by decide

/-! ## C11: growth -/

/-- **C11.** Whatever the element counter says, growing doubles the capacity, as long as the doubled capacity is
representable. -/
theorem c11_growth_doubles (oldLen size : Word) (h0 : 0 < oldLen.toNat) (h : oldLen.toNat < 2 ^ 63) :
    (newLenW oldLen size).toNat = 2 * oldLen.toNat := by
  have hs : (oldLen <<< 1).toNat = 2 * oldLen.toNat := by
    rw [BitVec.toNat_shiftLeft]; omega
  have hlt : ¬ (oldLen <<< 1) ≤ oldLen := by
    rw [BitVec.le_def, hs]; omega
  unfold newLenW
  by_cases h1 : oldLen / 4#64 ≤ size
  · simp only [h1, if_true, ite_self, hlt]; exact hs
  · have h2 : size ≤ oldLen := by
      rw [BitVec.le_def] at h1 ⊢
      rw [BitVec.toNat_udiv] at h1
      have h4 : (4#64 : Word).toNat = 4 := by decide
      rw [h4] at h1
      have := Nat.div_le_self oldLen.toNat 4
      omega
    simp only [h1, if_false, h2, if_true]; exact hs

/-- Capacities stay powers of two and strictly grow. -/
theorem c11_stays_power_of_two (oldLen size : Word) (k : Nat) (hk : k < 63) (h : oldLen.toNat = 2 ^ k) :
    (newLenW oldLen size).toNat = 2 ^ (k + 1) ∧ oldLen.toNat < (newLenW oldLen size).toNat := by
  have hp : (0:Nat) < 2 ^ k := Nat.pos_of_ne_zero (by positivity)
  have hlt : (2:Nat) ^ k < 2 ^ 63 := Nat.pow_lt_pow_right (by norm_num) hk
  rw [c11_growth_doubles oldLen size (by omega) (by omega), h, pow_succ]
  constructor <;> omega

/-- At 2^63 slots the capacity computation wraps to 0 for a counter of at least a quarter: the bound above is needed. -/
theorem c11_wraps_at_2_63 : newLenW 9223372036854775808#64 9223372036854775808#64 = 0#64 := by decide

/-- In the map model, growth doubles for every counter value. -/
theorem newLen_double (oldLen : Nat) (size : Word) : newLen oldLen size = oldLen * 2 := by
  unfold newLen
  have hd := Nat.div_le_self oldLen 4
  dsimp only
  split_ifs <;> omega

/-- **C11**, the length `resize` uses in the map model is the machine computation, and is twice the old length. -/
theorem c11_map_growth (oldLen size : Word) (h0 : 0 < oldLen.toNat) (h : oldLen.toNat < 2 ^ 63) :
    newLen oldLen.toNat size = (newLenW oldLen size).toNat ∧ newLen oldLen.toNat size = 2 * oldLen.toNat := by
  rw [c11_growth_doubles oldLen size h0 h, newLen_double]; omega

/-- A counter that has wrapped below zero still gives a doubling. -/
example : newLenW 16#64 (-1#64) = 32#64 ∧ newLenW 1024#64 3#64 = 2048#64 := by decide

end PMap
