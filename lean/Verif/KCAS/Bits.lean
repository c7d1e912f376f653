import Verif.KCAS.Code
import Mathlib.Tactic.Ring
import Mathlib.Tactic.Linarith

/-! # Arithmetic of the bit fields of `pmwcas.hpp` (helper lemmas) -/

namespace PMap.KCAS

theorem low_toNat (b : Nat) (hb : b ≤ 64) (w : Word) : (low b w).toNat = w.toNat % 2 ^ b := by
  have h1 : (2 : Nat) ^ b ≤ 2 ^ 64 := Nat.pow_le_pow_right (by decide) hb
  have h0 : 0 < (2 : Nat) ^ b := Nat.two_pow_pos b
  unfold low
  rw [BitVec.toNat_and, BitVec.toNat_ofNat, Nat.mod_eq_of_lt (by omega), Nat.and_two_pow_sub_one_eq_mod]

theorem low_id (b : Nat) (hb : b ≤ 64) (w : Word) (h : w.toNat < 2 ^ b) : low b w = w := by
  apply BitVec.eq_of_toNat_eq
  rw [low_toNat b hb, Nat.mod_eq_of_lt h]

theorem low_lt (b : Nat) (hb : b ≤ 64) (w : Word) : (low b w).toNat < 2 ^ b := by
  rw [low_toNat b hb]; exact Nat.mod_lt _ (Nat.two_pow_pos b)

theorem bit_toNat (b : Bool) : (bit b).toNat = b.toNat := by cases b <;> rfl

theorem low_one_bool (w : Word) : (low 1 w != 0#64) = decide (w.toNat % 2 = 1) := by
  have h := low_toNat 1 (by decide) w
  by_cases hm : w.toNat % 2 = 1
  · have : low 1 w ≠ 0#64 := by intro e; rw [e] at h; simp at h; omega
    simp [hm, this]
  · have : low 1 w = 0#64 := by apply BitVec.eq_of_toNat_eq; rw [h]; simp; omega
    simp [hm, this]

/-- All fields of a reference fit. -/
def Ref.Fits (tb : Nat) (d : Ref) : Prop := d.tid.toNat < 2 ^ tb ∧ d.seq.toNat < 2 ^ seqSize tb

instance (tb : Nat) (d : Ref) : Decidable (d.Fits tb) := by unfold Ref.Fits; infer_instance

theorem split_pow (tb : Nat) (h : tb ≤ 61) : 2 ^ tb * 2 ^ (seqSize tb + 3) = 2 ^ 64 := by
  rw [← Nat.pow_add]; congr 1; unfold seqSize; omega

theorem pow_seq (tb : Nat) : 2 ^ (seqSize tb + 3) = 2 ^ seqSize tb * 8 := by rw [Nat.pow_add]

theorem bound_sum (A B t q : Nat) (ht : t < A) (hq : q < B) (r k d : Nat) (hr : r < 2) (hk : k < 2) (hd : d < 2) :
    t * (B * 8) + q * 8 + r * 4 + k * 2 + d < A * (B * 8) := by
  have h1 : (t + 1) * (B * 8) ≤ A * (B * 8) := Nat.mul_le_mul_right _ ht
  have h2 : (t + 1) * (B * 8) = t * (B * 8) + B * 8 := by ring
  omega

theorem pack_toNat (tb : Nat) (hb : tb ≤ 61) (d : Ref) (h : d.Fits tb) :
    (pack tb d).toNat = d.tid.toNat * (2 ^ seqSize tb * 8) + d.seq.toNat * 8 + d.rdcss.toNat * 4 + d.kcas.toNat * 2
      + d.dirty.toNat := by
  have hA := split_pow tb hb
  have hB := pow_seq tb
  have h0 : ∀ b : Bool, b.toNat < 2 := by intro b; cases b <;> decide
  have hs := bound_sum (2 ^ tb) (2 ^ seqSize tb) d.tid.toNat d.seq.toNat h.1 h.2 _ _ _ (h0 d.rdcss) (h0 d.kcas) (h0 d.dirty)
  rw [← hB, hA] at hs
  unfold pack
  simp only [BitVec.toNat_add, BitVec.toNat_shiftLeft, Nat.shiftLeft_eq, bit_toNat, Nat.mod_add_mod, Nat.add_mod_mod]
  rw [← hB]
  exact Nat.mod_eq_of_lt hs

/-- Number read back from a packed reference. -/
theorem unpack_fields (tb : Nat) (hb : tb ≤ 61) (w : Word) :
    (unpack tb w).tid.toNat = w.toNat / (2 ^ seqSize tb * 8) ∧ (unpack tb w).seq.toNat = w.toNat / 8 % 2 ^ seqSize tb
      ∧ (unpack tb w).rdcss = decide (w.toNat / 4 % 2 = 1) ∧ (unpack tb w).kcas = decide (w.toNat / 2 % 2 = 1)
      ∧ (unpack tb w).dirty = decide (w.toNat % 2 = 1) := by
  have hA := split_pow tb hb
  have hB := pow_seq tb
  refine ⟨?_, ?_, ?_, ?_, ?_⟩
  · show (low tb (w >>> (seqSize tb + 3))).toNat = _
    rw [low_toNat tb (by omega), BitVec.toNat_ushiftRight, Nat.shiftRight_eq_div_pow, hB]
    apply Nat.mod_eq_of_lt
    rw [← hB]
    apply Nat.div_lt_of_lt_mul
    rw [Nat.mul_comm, hA]; exact w.isLt
  · show (low (seqSize tb) (w >>> 3)).toNat = _
    rw [low_toNat _ (by unfold seqSize; omega), BitVec.toNat_ushiftRight, Nat.shiftRight_eq_div_pow]
  · show (low 1 (w >>> 2) != 0#64) = _
    rw [low_one_bool, BitVec.toNat_ushiftRight, Nat.shiftRight_eq_div_pow]
  · show (low 1 (w >>> 1) != 0#64) = _
    rw [low_one_bool, BitVec.toNat_ushiftRight, Nat.shiftRight_eq_div_pow]
  · show (low 1 w != 0#64) = _
    rw [low_one_bool]

theorem ref_ext {a b : Ref} (h1 : a.tid.toNat = b.tid.toNat) (h2 : a.seq.toNat = b.seq.toNat) (h3 : a.rdcss = b.rdcss)
    (h4 : a.kcas = b.kcas) (h5 : a.dirty = b.dirty) : a = b := by
  cases a; cases b
  have e1 := BitVec.eq_of_toNat_eq h1
  have e2 := BitVec.eq_of_toNat_eq h2
  simp only at e1 e2 h3 h4 h5
  subst e1; subst e2; subst h3; subst h4; subst h5; rfl

theorem low_fields (x r k d : Nat) (hr : r < 2) (hk : k < 2) (hd : d < 2) :
    (x * 8 + r * 4 + k * 2 + d) % 2 = d ∧ (x * 8 + r * 4 + k * 2 + d) / 2 % 2 = k ∧ (x * 8 + r * 4 + k * 2 + d) / 4 % 2 = r
      ∧ (x * 8 + r * 4 + k * 2 + d) / 8 = x := by omega

theorem unpack_pack (tb : Nat) (hb : tb ≤ 61) (d : Ref) (h : d.Fits tb) : unpack tb (pack tb d) = d := by
  obtain ⟨a1, a2, a3, a4, a5⟩ := unpack_fields tb hb (pack tb d)
  have hp := pack_toNat tb hb d h
  have h0 : ∀ b : Bool, b.toNat < 2 := by intro b; cases b <;> decide
  have hx : d.tid.toNat * (2 ^ seqSize tb * 8) + d.seq.toNat * 8 = (d.tid.toNat * 2 ^ seqSize tb + d.seq.toNat) * 8 := by ring
  rw [hx] at hp
  obtain ⟨b1, b2, b3, b4⟩ := low_fields (d.tid.toNat * 2 ^ seqSize tb + d.seq.toNat) _ _ _ (h0 d.rdcss) (h0 d.kcas) (h0 d.dirty)
  rw [← hp] at b1 b2 b3 b4
  have hpos : 0 < 2 ^ seqSize tb := Nat.two_pow_pos _
  apply ref_ext
  · rw [a1, Nat.mul_comm (2 ^ seqSize tb) 8, ← Nat.div_div_eq_div_mul, b4, Nat.mul_comm, Nat.mul_add_div hpos,
      Nat.div_eq_of_lt h.2, Nat.add_zero]
  · rw [a2, b4, Nat.mul_comm, Nat.mul_add_mod, Nat.mod_eq_of_lt h.2]
  · rw [a3, b3]; cases d.rdcss <;> decide
  · rw [a4, b2]; cases d.kcas <;> decide
  · rw [a5, b1]; cases d.dirty <;> decide

theorem unpack_fits (tb : Nat) (hb : tb ≤ 61) (w : Word) : (unpack tb w).Fits tb :=
  ⟨low_lt tb (by omega) _, low_lt _ (by unfold seqSize; omega) _⟩

theorem pack_unpack (tb : Nat) (hb : tb ≤ 61) (w : Word) : pack tb (unpack tb w) = w := by
  apply BitVec.eq_of_toNat_eq
  rw [pack_toNat tb hb _ (unpack_fits tb hb w)]
  obtain ⟨a1, a2, a3, a4, a5⟩ := unpack_fields tb hb w
  rw [a1, a2, a3, a4, a5, Nat.mul_comm (2 ^ seqSize tb) 8, ← Nat.div_div_eq_div_mul]
  have hx := Nat.div_add_mod (w.toNat / 8) (2 ^ seqSize tb)
  have hy : w.toNat / 8 / 2 ^ seqSize tb * (8 * 2 ^ seqSize tb) + w.toNat / 8 % 2 ^ seqSize tb * 8
      = (2 ^ seqSize tb * (w.toNat / 8 / 2 ^ seqSize tb) + w.toNat / 8 % 2 ^ seqSize tb) * 8 := by ring
  rw [hy, hx]
  have hd : ∀ n : Nat, (decide (n % 2 = 1)).toNat = n % 2 := by
    intro n; rcases Nat.mod_two_eq_zero_or_one n with h | h <;> simp [h]
  rw [hd, hd, hd]
  omega

/-! ## The packed descriptor states -/

/-- All fields fit. -/
def KMut.Fits (m : KMut) : Prop := m.status.toNat < 4 ∧ m.seq.toNat < 2 ^ 61

instance (m : KMut) : Decidable m.Fits := by unfold KMut.Fits; infer_instance

theorem KMut.pack_toNat (m : KMut) (h : m.Fits) :
    m.pack.toNat = m.seq.toNat * 8 + m.status.toNat * 2 + m.dirty.toNat := by
  have h0 : m.dirty.toNat < 2 := by cases m.dirty <;> decide
  obtain ⟨h1, h2⟩ := h
  unfold KMut.pack
  simp only [BitVec.toNat_add, BitVec.toNat_shiftLeft, Nat.shiftLeft_eq, bit_toNat, Nat.mod_add_mod, Nat.add_mod_mod]
  omega

theorem KMut.unpack_fields (w : Word) :
    (KMut.unpack w).seq.toNat = w.toNat / 8 ∧ (KMut.unpack w).status.toNat = w.toNat / 2 % 4
      ∧ (KMut.unpack w).dirty = decide (w.toNat % 2 = 1) := by
  refine ⟨?_, ?_, ?_⟩
  · show (low 61 (w >>> 3)).toNat = _
    rw [low_toNat _ (by decide), BitVec.toNat_ushiftRight, Nat.shiftRight_eq_div_pow]
    have := w.isLt
    omega
  · show (low 2 (w >>> 1)).toNat = _
    rw [low_toNat _ (by decide), BitVec.toNat_ushiftRight, Nat.shiftRight_eq_div_pow]
    rfl
  · show (low 1 w != 0#64) = _
    rw [low_one_bool]

theorem KMut.unpack_pack (m : KMut) (h : m.Fits) : KMut.unpack m.pack = m := by
  obtain ⟨a1, a2, a3⟩ := KMut.unpack_fields m.pack
  have hp := KMut.pack_toNat m h
  have h0 : m.dirty.toNat < 2 := by cases m.dirty <;> decide
  obtain ⟨h1, h2⟩ := h
  have e1 : (KMut.unpack m.pack).seq = m.seq := BitVec.eq_of_toNat_eq (by rw [a1, hp]; omega)
  have e2 : (KMut.unpack m.pack).status = m.status := BitVec.eq_of_toNat_eq (by rw [a2, hp]; omega)
  have e3 : (KMut.unpack m.pack).dirty = m.dirty := by
    rw [a3, hp, show (m.seq.toNat * 8 + m.status.toNat * 2 + m.dirty.toNat) % 2 = m.dirty.toNat by omega]
    cases m.dirty <;> decide
  cases hm : KMut.unpack m.pack; cases m
  rw [hm] at e1 e2 e3
  simp only at e1 e2 e3
  subst e1; subst e2; subst e3; rfl

theorem KMut.pack_unpack (w : Word) : (KMut.unpack w).pack = w := by
  obtain ⟨a1, a2, a3⟩ := KMut.unpack_fields w
  have hf : (KMut.unpack w).Fits := ⟨low_lt 2 (by decide) _, low_lt 61 (by decide) _⟩
  apply BitVec.eq_of_toNat_eq
  rw [KMut.pack_toNat _ hf, a1, a2, a3]
  have : (decide (w.toNat % 2 = 1)).toNat = w.toNat % 2 := by
    rcases Nat.mod_two_eq_zero_or_one w.toNat with h | h <;> simp [h]
  omega

/-- The sequence number fits. -/
def WMut.Fits (m : WMut) : Prop := m.seq.toNat < 2 ^ 63

instance (m : WMut) : Decidable m.Fits := by unfold WMut.Fits; infer_instance

theorem WMut.pack_toNat (m : WMut) (h : m.Fits) : m.pack.toNat = m.seq.toNat * 2 + m.dirty.toNat := by
  have h0 : m.dirty.toNat < 2 := by cases m.dirty <;> decide
  unfold WMut.Fits at h
  unfold WMut.pack
  simp only [BitVec.toNat_add, BitVec.toNat_shiftLeft, Nat.shiftLeft_eq, bit_toNat, Nat.mod_add_mod]
  omega

theorem WMut.unpack_fields (w : Word) :
    (WMut.unpack w).seq.toNat = w.toNat / 2 ∧ (WMut.unpack w).dirty = decide (w.toNat % 2 = 1) := by
  refine ⟨?_, ?_⟩
  · show (low 63 (w >>> 1)).toNat = _
    rw [low_toNat _ (by decide), BitVec.toNat_ushiftRight, Nat.shiftRight_eq_div_pow]
    have := w.isLt
    omega
  · show (low 1 w != 0#64) = _
    rw [low_one_bool]

theorem WMut.unpack_pack (m : WMut) (h : m.Fits) : WMut.unpack m.pack = m := by
  obtain ⟨a1, a3⟩ := WMut.unpack_fields m.pack
  have hp := WMut.pack_toNat m h
  have h0 : m.dirty.toNat < 2 := by cases m.dirty <;> decide
  have e1 : (WMut.unpack m.pack).seq = m.seq := BitVec.eq_of_toNat_eq (by rw [a1, hp]; omega)
  have e3 : (WMut.unpack m.pack).dirty = m.dirty := by
    rw [a3, hp, show (m.seq.toNat * 2 + m.dirty.toNat) % 2 = m.dirty.toNat by omega]
    cases m.dirty <;> decide
  cases hm : WMut.unpack m.pack; cases m
  rw [hm] at e1 e3
  simp only at e1 e3
  subst e1; subst e3; rfl

theorem WMut.pack_unpack (w : Word) : (WMut.unpack w).pack = w := by
  obtain ⟨a1, a3⟩ := WMut.unpack_fields w
  have hf : (WMut.unpack w).Fits := low_lt 63 (by decide) _
  apply BitVec.eq_of_toNat_eq
  rw [WMut.pack_toNat _ hf, a1, a3]
  have : (decide (w.toNat % 2 = 1)).toNat = w.toNat % 2 := by
    rcases Nat.mod_two_eq_zero_or_one w.toNat with h | h <;> simp [h]
  omega

/-! ## The flag bits -/

theorem and_pow_ne (w : Word) (i : Nat) (hi : i < 64) : (w &&& BitVec.ofNat 64 (2 ^ i) = 0#64) ↔ w.toNat / 2 ^ i % 2 = 0 := by
  have e : w &&& BitVec.ofNat 64 (2 ^ i) = 0#64 ↔ w.getLsbD i = false := by
    constructor
    · intro h
      have := congrArg (fun x => x.getLsbD i) h
      simp only [BitVec.getLsbD_and, BitVec.getLsbD_ofNat, Nat.testBit_two_pow_self, hi, decide_true, Bool.and_true,
        Nat.zero_testBit, Bool.and_false] at this
      exact this
    · intro h
      apply BitVec.eq_of_getLsbD_eq
      intro j hj
      rw [BitVec.getLsbD_and, BitVec.getLsbD_ofNat, Nat.testBit_two_pow]
      by_cases hij : i = j
      · subst hij; simp [h]
      · simp [hij]
  rw [e, BitVec.getLsbD, Nat.testBit_eq_decide_div_mod_eq]
  rcases Nat.mod_two_eq_zero_or_one (w.toNat / 2 ^ i) with h | h <;> simp [h]

theorem dirty_iff (w : Word) : w &&& DirtyBit = 0#64 ↔ w.toNat % 2 = 0 := by
  simpa [DirtyBit] using and_pow_ne w 0 (by decide)
theorem pmwcas_iff (w : Word) : w &&& PMwCASBit = 0#64 ↔ w.toNat / 2 % 2 = 0 := by
  simpa [PMwCASBit] using and_pow_ne w 1 (by decide)
theorem rdcss_iff (w : Word) : w &&& RDCSSBit = 0#64 ↔ w.toNat / 4 % 2 = 0 := by
  simpa [RDCSSBit] using and_pow_ne w 2 (by decide)

theorem tidSize_pow (k : Nat) : tidSize (2 ^ k) = if k = 0 then 1 else k := by
  unfold tidSize; rw [Nat.log2_two_pow]

end PMap.KCAS
