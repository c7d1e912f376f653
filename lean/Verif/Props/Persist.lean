import Verif.Persist

/-!
# C31: `PERSIST` flushes exactly the cache lines of the range
-/

namespace PMap.Persist

theorem and_align (a : Word) : (a &&& ~~~(FLUSH_ALIGN - 1#64)).toNat = a.toNat / 64 * 64 := by
  have e : ~~~(FLUSH_ALIGN - 1#64) = BitVec.ofNat 64 (2 ^ 64 - 64) := by decide
  have key : a &&& ~~~(FLUSH_ALIGN - 1#64) = (a >>> 6) <<< 6 := by
    apply BitVec.eq_of_getLsbD_eq
    intro i hi
    have m : ∀ i, i < 64 → (~~~(FLUSH_ALIGN - 1#64)).getLsbD i = decide (6 ≤ i) := by decide
    rw [BitVec.getLsbD_and, m i hi]
    simp only [BitVec.getLsbD_shiftLeft, BitVec.getLsbD_ushiftRight]
    by_cases h : 6 ≤ i
    · have h1 : ¬ i < 6 := by omega
      have h2 : 6 + (i - 6) = i := by omega
      simp [h, h1, h2, hi]
    · have h1 : i < 6 := by omega
      simp [h, h1]
  rw [key, BitVec.toNat_shiftLeft, BitVec.toNat_ushiftRight, Nat.shiftRight_eq_div_pow, Nat.shiftLeft_eq]
  have := a.isLt
  rw [Nat.mod_eq_of_lt]; all_goals omega

/-- The loop without wrap-around: the multiples of 64 from `u` to below `stop`. -/
theorem flushLoop_spec (k : Nat) : ∀ (u stop : Word), stop.toNat + 64 ≤ 2 ^ 64 → stop.toNat ≤ u.toNat + 64 * k →
    ∃ l, flushLoop (k + 1) u stop = some l ∧
      ∀ n : Nat, (∃ x ∈ l, x.toNat = n) ↔ (u.toNat ≤ n ∧ n < stop.toNat ∧ 64 ∣ n - u.toNat) := by
  induction k with
  | zero =>
    intro u stop _ h
    have : ¬ u < stop := by rw [BitVec.lt_def]; omega
    refine ⟨[], by simp [flushLoop, this], fun n => ?_⟩
    simp; omega
  | succ k ih =>
    intro u stop hs h
    by_cases hu : u < stop
    · have hu' := BitVec.lt_def.1 hu
      have hadd : (u + FLUSH_ALIGN).toNat = u.toNat + 64 := by
        rw [BitVec.toNat_add]
        have : FLUSH_ALIGN.toNat = 64 := by decide
        rw [this, Nat.mod_eq_of_lt]; omega
      obtain ⟨l, hl, hm⟩ := ih (u + FLUSH_ALIGN) stop hs (by omega)
      refine ⟨u :: l, ?_, fun n => ?_⟩
      · rw [flushLoop, if_pos hu, hl]
      · simp only [List.mem_cons, exists_eq_or_imp, hm, hadd]
        constructor
        · rintro (rfl | ⟨h1, h2, h3⟩)
          · simp [hu']
          · refine ⟨by omega, h2, ?_⟩
            have : n - u.toNat = (n - (u.toNat + 64)) + 64 := by omega
            rw [this]; exact Nat.dvd_add h3 (Nat.dvd_refl _)
        · rintro ⟨h1, h2, h3⟩
          by_cases he : u.toNat = n
          · left; exact he
          · right
            have : 64 ≤ n - u.toNat := Nat.le_of_dvd (by omega) h3
            refine ⟨by omega, h2, ?_⟩
            have e : n - (u.toNat + 64) = (n - u.toNat) - 64 := by omega
            rw [e]; exact Nat.dvd_sub h3 (Nat.dvd_refl _)
    · refine ⟨[], by simp [flushLoop, hu], fun n => ?_⟩
      rw [BitVec.lt_def] at hu
      simp; omega

/-- **C31.** For every non-empty range that does not reach the last cache line of the address space, `PERSIST`
terminates, and the set of flushed addresses is exactly the set of cache-line starts whose line overlaps the range. -/
theorem c31_persist_exact (addr len : Word) (h0 : 0 < len.toNat) (h : addr.toNat + len.toNat + 64 ≤ 2 ^ 64) :
    ∃ fuel l, persistRange fuel addr len = some l ∧
      ∀ line : Nat, (∃ x ∈ l, x.toNat = line) ↔
        (line % 64 = 0 ∧ ∃ byte, addr.toNat ≤ byte ∧ byte < addr.toNat + len.toNat ∧ line ≤ byte ∧ byte < line + 64) := by
  have hstop : (addr + len).toNat = addr.toNat + len.toNat := by
    rw [BitVec.toNat_add, Nat.mod_eq_of_lt]; omega
  obtain ⟨l, hl, hm⟩ := flushLoop_spec ((addr.toNat + len.toNat)) (addr &&& ~~~(FLUSH_ALIGN - 1#64)) (addr + len)
    (by omega) (by omega)
  refine ⟨_, l, hl, fun n => ?_⟩
  rw [hm, and_align, hstop]
  constructor
  · rintro ⟨h1, h2, h3⟩
    obtain ⟨c, hc⟩ := h3
    refine ⟨by omega, max addr.toNat n, by omega, by omega, by omega, ?_⟩
    omega
  · rintro ⟨h1, b, h2, h3, h4, h5⟩
    exact ⟨by omega, by omega, by omega⟩

/-- In particular every byte of the range is in a flushed line. -/
theorem c31_every_byte_flushed (addr len : Word) (h : addr.toNat + len.toNat + 64 ≤ 2 ^ 64) (byte : Nat)
    (hb : addr.toNat ≤ byte ∧ byte < addr.toNat + len.toNat) :
    ∃ fuel l, persistRange fuel addr len = some l ∧ ∃ x ∈ l, x.toNat = byte / 64 * 64 := by
  obtain ⟨f, l, hl, hm⟩ := c31_persist_exact addr len (by omega) h
  exact ⟨f, l, hl, (hm _).2 ⟨by omega, byte, hb.1, hb.2, by omega, by omega⟩⟩

/-- The bound is needed: a range ending in the last cache line of the address space never finishes, because the line
counter wraps around to 0. -/
theorem c31_top_of_memory_never_ends (fuel : Nat) (uptr : Word) (hu : uptr.toNat % 64 = 0) :
    flushLoop fuel uptr 0xFFFFFFFFFFFFFFFF#64 = none := by
  induction fuel generalizing uptr with
  | zero => rfl
  | succ n ih =>
    have hlt : uptr < 0xFFFFFFFFFFFFFFFF#64 := by
      rw [BitVec.lt_def]
      have : (0xFFFFFFFFFFFFFFFF#64 : Word).toNat = 2 ^ 64 - 1 := by decide
      have := uptr.isLt
      omega
    have hadd : (uptr + FLUSH_ALIGN).toNat % 64 = 0 := by
      rw [BitVec.toNat_add]
      have : FLUSH_ALIGN.toNat = 64 := by decide
      rw [this]; omega
    rw [flushLoop, if_pos hlt, ih _ hadd]

/-- A range that crosses two line boundaries. -/
example : persistRange 5 0x1030#64 100#64 = some [0x1000#64, 0x1040#64, 0x1080#64] := by decide

end PMap.Persist
