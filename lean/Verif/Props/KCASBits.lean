import Verif.KCAS.Bits

/-! # C34: descriptor references and packed descriptor states -/

namespace PMap.KCAS

/-- Every reference made of a thread below a power of two `P`, a sequence number that fits and any flags survives packing. -/
theorem c34_reference (P k : Nat) (hk : k ≤ 16) (hP : P = 2 ^ k) (t seq : Word) (ht : t.toNat < P)
    (hs : seq.toNat < 2 ^ (61 - tidSize P)) (dirty kcas rdcss : Bool) :
    unpack (tidSize P) (pack (tidSize P) ⟨dirty, kcas, rdcss, seq, t⟩) = ⟨dirty, kcas, rdcss, seq, t⟩ := by
  subst hP
  have hsz := tidSize_pow k
  have hb : tidSize (2 ^ k) ≤ 61 := by rw [hsz]; split <;> omega
  refine unpack_pack _ hb _ ⟨?_, hs⟩
  refine Nat.lt_of_lt_of_le ht ?_
  rw [hsz]
  exact Nat.pow_le_pow_right (by decide) (by split <;> omega)

example : unpack (tidSize 8) (pack (tidSize 8) ⟨true, false, true, 0x3ffffffffffffff#64, 7#64⟩)
    = ⟨true, false, true, 0x3ffffffffffffff#64, 7#64⟩ :=
  c34_reference 8 3 (by decide) rfl _ _ (by decide) (by decide) _ _ _

/-- Conversely every word is the packed form of what is read from it; so no two words are read as the same reference. -/
theorem c34_word (P k : Nat) (hk : k ≤ 16) (hP : P = 2 ^ k) (w : Word) : pack (tidSize P) (unpack (tidSize P) w) = w := by
  subst hP
  exact pack_unpack _ (by rw [tidSize_pow]; split <;> omega) w

example : pack (tidSize 4) (unpack (tidSize 4) 0xdeadbeefcafef00d#64) = 0xdeadbeefcafef00d#64 := c34_word 4 2 (by decide) rfl _

/-- The flag masks of marking.hpp test exactly the flags of the reference. -/
theorem c34_flags (P k : Nat) (hk : k ≤ 16) (hP : P = 2 ^ k) (t seq : Word) (ht : t.toNat < P)
    (hs : seq.toNat < 2 ^ (61 - tidSize P)) (dirty kcas rdcss : Bool) :
    let w := pack (tidSize P) ⟨dirty, kcas, rdcss, seq, t⟩
    (w &&& 1#64 ≠ 0#64 ↔ dirty = true) ∧ (w &&& 2#64 ≠ 0#64 ↔ kcas = true) ∧ (w &&& 4#64 ≠ 0#64 ↔ rdcss = true) := by
  intro w
  have hu : unpack (tidSize P) w = ⟨dirty, kcas, rdcss, seq, t⟩ := c34_reference P k hk hP t seq ht hs dirty kcas rdcss
  obtain ⟨-, -, a3, a4, a5⟩ := unpack_fields (tidSize P) (by subst hP; rw [tidSize_pow]; split <;> omega) w
  rw [hu] at a3 a4 a5
  simp only at a3 a4 a5
  refine ⟨?_, ?_, ?_⟩
  · rw [Ne, show w &&& 1#64 = 0#64 ↔ _ from dirty_iff w, a5]; simp
  · rw [Ne, show w &&& 2#64 = 0#64 ↔ _ from pmwcas_iff w, a4]; simp
  · rw [Ne, show w &&& 4#64 = 0#64 ↔ _ from rdcss_iff w, a3]; simp

example : pack (tidSize 8) ⟨false, true, false, 5#64, 6#64⟩ &&& 2#64 ≠ 0#64 :=
  (c34_flags 8 3 (by decide) rfl 6#64 5#64 (by decide) (by decide) false true false).2.1.2 rfl

/-- The state of a multi-word descriptor survives packing, and every word is the packed form of what is read from it. -/
theorem c34_kcas_state (dirty : Bool) (st : Status) (seq w : Word) (hs : seq.toNat < 2 ^ 61) :
    KMut.unpack (KMut.pack ⟨dirty, st.word, seq⟩) = ⟨dirty, st.word, seq⟩ ∧ (KMut.unpack w).pack = w :=
  ⟨KMut.unpack_pack _ ⟨show st.word.toNat < 4 by cases st <;> decide, hs⟩, KMut.pack_unpack w⟩

example : KMut.unpack (KMut.pack ⟨true, Status.failed.word, 0x1fffffffffffffff#64⟩)
    = ⟨true, Status.failed.word, 0x1fffffffffffffff#64⟩ := (c34_kcas_state true .failed _ 0#64 (by decide)).1

/-- The same for single-word descriptors. -/
theorem c34_word_state (dirty : Bool) (seq w : Word) (hs : seq.toNat < 2 ^ 63) :
    WMut.unpack (WMut.pack ⟨dirty, seq⟩) = ⟨dirty, seq⟩ ∧ (WMut.unpack w).pack = w :=
  ⟨WMut.unpack_pack _ hs, WMut.pack_unpack w⟩

example : WMut.unpack (WMut.pack ⟨true, 0x7fffffffffffffff#64⟩) = ⟨true, 0x7fffffffffffffff#64⟩ :=
  (c34_word_state true _ 0#64 (by decide)).1

/-- When `P` is not a power of two (the constructor asserts that it is), some thread below `P` does not fit its bit field: the
assignment `ref.tid = threadNum` loses it, whatever the rest of the reference is. -/
theorem c34_not_power_of_two (P : Nat) (h1 : 2 ≤ P) (h2 : P ≤ 2 ^ 16) (h : ∀ k, P ≠ 2 ^ k) :
    ∃ t : Word, t.toNat < P ∧ ∀ (seq : Word) (dirty kcas rdcss : Bool), seq.toNat < 2 ^ (61 - tidSize P) →
      (unpack (tidSize P) (pack (tidSize P) ⟨dirty, kcas, rdcss, seq, low (tidSize P) t⟩)).tid ≠ t := by
  have hlog : Nat.log2 P ≠ 0 := by
    intro e
    have := (Nat.log2_lt (n := P) (k := 1) (by omega)).1 (by omega)
    omega
  have hle : 2 ^ Nat.log2 P ≤ P := Nat.log2_self_le (by omega)
  have hlt : 2 ^ Nat.log2 P < P := lt_of_le_of_ne hle (fun e => h _ e.symm)
  have hsz : tidSize P = Nat.log2 P := by unfold tidSize; rw [if_neg hlog]
  have hb : tidSize P ≤ 16 := by
    rw [hsz]
    by_contra hc
    have : 2 ^ 17 ≤ 2 ^ Nat.log2 P := Nat.pow_le_pow_right (by decide) (by omega)
    omega
  have hn : (BitVec.ofNat 64 (2 ^ tidSize P) : Word).toNat = 2 ^ tidSize P := by
    rw [BitVec.toNat_ofNat]
    apply Nat.mod_eq_of_lt
    exact Nat.pow_lt_pow_right (by decide) (by omega)
  refine ⟨BitVec.ofNat 64 (2 ^ tidSize P), by rw [hn, hsz]; exact hlt, ?_⟩
  intro seq dirty kcas rdcss hseq
  rw [unpack_pack _ (by omega) _ ⟨low_lt _ (by omega) _, hseq⟩]
  intro e
  have := low_lt (tidSize P) (by omega) (BitVec.ofNat 64 (2 ^ tidSize P))
  simp only at e
  rw [e, hn] at this
  omega

example : ∃ t : Word, t.toNat < 6 ∧ ∀ (seq : Word) (dirty kcas rdcss : Bool), seq.toNat < 2 ^ (61 - tidSize 6) →
      (unpack (tidSize 6) (pack (tidSize 6) ⟨dirty, kcas, rdcss, seq, low (tidSize 6) t⟩)).tid ≠ t := by
  refine c34_not_power_of_two 6 (by decide) (by decide) ?_
  intro k hk
  rcases k with _ | _ | _ | k
  · simp at hk
  · simp at hk
  · simp at hk
  · rw [Nat.pow_add] at hk; omega

/-- A descriptor counts its uses in 61 bits, a reference to it has `61 - tidSize` bits for that (pmwcas.hpp:63, 226, 429).  For every
thread count: a descriptor's number that is too large for a reference is kept by the descriptor, but the reference `createNew` makes of
it, packed and read again, has another number; so every later test `desc.seq != getSeq(desc)` (492, 508, 524) takes the reference
for an outdated one. -/
theorem c34_sequence_overflow (P k : Nat) (hk : k ≤ 16) (hP : P = 2 ^ k) (t : Word) (ht : t.toNat < P) (seq : Word)
    (h1 : 2 ^ (61 - tidSize P) ≤ seq.toNat) (h2 : seq.toNat < 2 ^ 61) (st : Status) :
    (KMut.unpack (KMut.pack ⟨true, st.word, seq⟩)).seq = seq ∧
    (unpack (tidSize P) (pack (tidSize P) ⟨false, true, false, low (seqSize (tidSize P)) seq, low (tidSize P) t⟩)).tid = t ∧
    (unpack (tidSize P) (pack (tidSize P) ⟨false, true, false, low (seqSize (tidSize P)) seq, low (tidSize P) t⟩)).seq ≠ seq := by
  have hb : tidSize P ≤ 61 := by subst hP; rw [tidSize_pow]; split <;> omega
  have ht' : t.toNat < 2 ^ tidSize P := by
    refine Nat.lt_of_lt_of_le ht ?_
    subst hP
    rw [tidSize_pow]
    exact Nat.pow_le_pow_right (by decide) (by split <;> omega)
  have hsz : seqSize (tidSize P) = 61 - tidSize P := by unfold seqSize; omega
  have hlow := low_lt (61 - tidSize P) (by omega) seq
  rw [hsz, low_id _ (by omega) t ht', c34_reference P k hk hP t _ ht hlow]
  refine ⟨congrArg KMut.seq (c34_kcas_state true st seq 0#64 h2).1, rfl, fun e => ?_⟩
  have e' : low (61 - tidSize P) seq = seq := e
  rw [e'] at hlow
  omega

example := c34_sequence_overflow 8 3 (by decide) rfl 7#64 (by decide) 0x400000000000002#64 (by decide) (by decide) .undecided

end PMap.KCAS
