import Verif.XXStream
import Mathlib.Data.List.GetD
import Mathlib.Tactic.Ring

/-!
# C60: hashing in pieces
-/

namespace PMap.XXH

variable {N : Nat}

/-- All whole stripes (no code of its own). -/
def absorb (v : Acc N) (p : List Byte) : Acc N × List Byte := stripesN (p.length / (N / 2)) v p

theorem absorb_short {v : Acc N} {p : List Byte} (h : p.length < N / 2) : absorb v p = (v, p) := by
  rw [absorb, Nat.div_eq_of_lt h]; rfl

theorem absorb_step {v : Acc N} {p : List Byte} (h0 : 0 < N / 2) (h : N / 2 ≤ p.length) :
    absorb v p = absorb (stripe v p) (p.drop (N / 2)) := by
  have e : p.length / (N / 2) = (p.drop (N / 2)).length / (N / 2) + 1 := by
    rw [List.length_drop, ← Nat.add_div_right _ h0]
    congr 1; omega
  rw [absorb, e, stripesN, if_pos h]
  rfl

theorem stripe_append {v : Acc N} {p q : List Byte} (h : N / 2 ≤ p.length) (h4 : 4 * (N / 8) = N / 2) :
    stripe v (p ++ q) = stripe v p := by
  unfold stripe
  rw [List.drop_append_of_le_length (by omega), List.drop_append_of_le_length (by omega),
    List.drop_append_of_le_length (by omega), List.take_append_of_le_length (by omega),
    List.take_append_of_le_length (by simp only [List.length_drop]; omega),
    List.take_append_of_le_length (by simp only [List.length_drop]; omega),
    List.take_append_of_le_length (by simp only [List.length_drop]; omega)]

theorem absorb_append (h0 : 0 < N / 2) (h4 : 4 * (N / 8) = N / 2) (q : List Byte) (k : Nat) :
    ∀ (v : Acc N) (p : List Byte), p.length ≤ k →
    absorb v (p ++ q) = absorb (absorb v p).1 ((absorb v p).2 ++ q) := by
  induction k with
  | zero =>
    intro v p h
    rw [absorb_short (p := p) (by omega)]
  | succ k ih =>
    intro v p h
    by_cases hp : N / 2 ≤ p.length
    · rw [absorb_step h0 hp, absorb_step h0 (p := p ++ q) (by rw [List.length_append]; omega), stripe_append hp h4,
        List.drop_append_of_le_length hp]
      exact ih _ _ (by rw [List.length_drop]; omega)
    · rw [absorb_short (p := p) (by omega)]

theorem absorb_rest (h0 : 0 < N / 2) (k : Nat) : ∀ (v : Acc N) (p : List Byte), p.length ≤ k → (absorb v p).2.length < N / 2 := by
  induction k with
  | zero => intro v p h; rw [absorb_short (by omega)]; show p.length < _; omega
  | succ k ih =>
    intro v p h
    by_cases hp : N / 2 ≤ p.length
    · rw [absorb_step h0 hp]; exact ih _ _ (by rw [List.length_drop]; omega)
    · rw [absorb_short (by omega)]; show p.length < _; omega

/-- What the state says about the bytes so far. -/
structure Absorbed (seed : BitVec N) (bs : List Byte) (s : Stream N) : Prop where
  total : s.total = BitVec.ofNat 64 bs.length
  mem : s.mem.length = N / 2
  size : s.memsize < N / 2
  acc : absorb (acc0 seed) bs = (s.v, s.mem.take s.memsize)

theorem Absorbed.init (h0 : 0 < N / 2) (seed : BitVec N) : Absorbed seed [] (Stream.init seed) where
  total := rfl
  mem := List.length_replicate
  size := h0
  acc := by rw [absorb_short h0]; rfl

theorem memcpy_ok {dst src : List Byte} {off n : Nat} (h1 : off + n ≤ dst.length) (h2 : n ≤ src.length) :
    memcpy dst off src n = some (dst.take off ++ src.take n ++ dst.drop (off + n)) := if_pos ⟨h1, h2⟩

theorem memcpy_length {dst src : List Byte} {off n : Nat} (h1 : off + n ≤ dst.length) (h2 : n ≤ src.length) :
    (dst.take off ++ src.take n ++ dst.drop (off + n)).length = dst.length := by
  simp only [List.length_append, List.length_take, List.length_drop]; omega

theorem memcpy_take {dst src : List Byte} {off n : Nat} (h1 : off + n ≤ dst.length) (h2 : n ≤ src.length) :
    (dst.take off ++ src.take n ++ dst.drop (off + n)).take (off + n) = dst.take off ++ src.take n := by
  rw [List.take_append_of_le_length (by simp only [List.length_append, List.length_take]; omega)]
  exact List.take_of_length_le (by simp only [List.length_append, List.length_take]; omega)

theorem Absorbed.update (h0 : 0 < N / 2) (h4 : 4 * (N / 8) = N / 2) {seed : BitVec N} {bs : List Byte} {s : Stream N}
    (h : Absorbed seed bs s) (c : List Byte) (hc : c.length + N / 2 ≤ 2 ^ 64) :
    ∃ s', s.update c = some s' ∧ Absorbed seed (bs ++ c) s' := by
  have hs := h.size
  have hm := h.mem
  have htot : s.total + BitVec.ofNat 64 c.length = BitVec.ofNat 64 (bs ++ c).length := by
    rw [h.total, List.length_append, BitVec.ofNat_add]
  have hacc : absorb (acc0 seed) (bs ++ c) = absorb s.v (s.mem.take s.memsize ++ c) := by
    rw [absorb_append h0 h4 c bs.length _ _ (le_refl _), h.acc]
  have hw : (s.memsize + c.length) % 2 ^ 64 = s.memsize + c.length := Nat.mod_eq_of_lt (by omega)
  unfold Stream.update
  rw [hw]
  by_cases hb : s.memsize + c.length < N / 2
  · rw [if_pos hb, memcpy_ok (by omega) (le_refl _)]
    refine ⟨_, rfl, htot, ?_, hb, ?_⟩
    · exact (memcpy_length (by omega) (le_refl _)).trans hm
    · dsimp only
      rw [hacc, memcpy_take (by omega) (le_refl _), List.take_length,
        absorb_short (by simp only [List.length_append, List.length_take]; omega)]
  · rw [if_neg hb]
    -- the rest, from a buffer that has been used up
    have fin : ∀ (v : Acc N) (mem p : List Byte) (k : Nat), k = 0 → mem.length = N / 2 → absorb (acc0 seed) (bs ++ c) = absorb v p →
        ∃ s', (if 0 < (stripesN (p.length / (N / 2)) v p).2.length then do
            let mem ← memcpy mem 0 (stripesN (p.length / (N / 2)) v p).2 (stripesN (p.length / (N / 2)) v p).2.length
            return (⟨s.total + BitVec.ofNat 64 c.length, (stripesN (p.length / (N / 2)) v p).1, mem,
              (stripesN (p.length / (N / 2)) v p).2.length⟩ : Stream N)
          else return ⟨s.total + BitVec.ofNat 64 c.length, (stripesN (p.length / (N / 2)) v p).1, mem, k⟩) = some s' ∧
          Absorbed seed (bs ++ c) s' := by
      rintro v mem p _ rfl hmem ha
      have hr := absorb_rest h0 _ v p (le_refl _)
      change ∃ s', (if 0 < (absorb v p).2.length then do
            let mem ← memcpy mem 0 (absorb v p).2 (absorb v p).2.length
            return (⟨s.total + BitVec.ofNat 64 c.length, (absorb v p).1, mem, (absorb v p).2.length⟩ : Stream N)
          else return ⟨s.total + BitVec.ofNat 64 c.length, (absorb v p).1, mem, 0⟩) = some s' ∧ _
      generalize absorb v p = r at ha hr
      by_cases hz : 0 < r.2.length
      · rw [if_pos hz, memcpy_ok (by omega) (le_refl _)]
        refine ⟨_, rfl, htot, (memcpy_length (by omega) (le_refl _)).trans hmem, hr, ?_⟩
        dsimp only
        have := memcpy_take (dst := mem) (src := r.2) (off := 0) (n := r.2.length) (by omega) (le_refl _)
        simp only [Nat.zero_add, List.take_zero, List.nil_append, List.take_length] at this ⊢
        rw [this, ha]
      · rw [if_neg hz]
        refine ⟨_, rfl, htot, hmem, h0, ?_⟩
        have : r.2 = [] := List.eq_nil_of_length_eq_zero (by omega)
        dsimp only
        rw [ha, List.take_zero, ← this]
    by_cases hz : 0 < s.memsize
    · rw [if_pos hz, memcpy_ok (by omega) (by omega)]
      refine fin _ _ _ _ rfl ((memcpy_length (by omega) (by omega)).trans hm) ?_
      have e : s.memsize + (N / 2 - s.memsize) = N / 2 := by omega
      rw [hacc, absorb_step h0 (by simp only [List.length_append, List.length_take]; omega), e,
        List.drop_of_length_le (l := s.mem) (by omega), List.append_nil]
      have hsplit : s.mem.take s.memsize ++ c =
          (s.mem.take s.memsize ++ c.take (N / 2 - s.memsize)) ++ c.drop (N / 2 - s.memsize) := by
        rw [List.append_assoc, List.take_append_drop]
      have hl : (s.mem.take s.memsize ++ c.take (N / 2 - s.memsize)).length = N / 2 := by
        simp only [List.length_append, List.length_take]; omega
      rw [hsplit, stripe_append (by omega) h4, List.drop_append_of_le_length (by omega),
        List.drop_of_length_le (by omega), List.nil_append]
    · rw [if_neg hz]
      have hz' : s.memsize = 0 := by omega
      exact fin s.v s.mem c _ hz' hm (by rw [hacc, hz']; rfl)

theorem Absorbed.updates (h0 : 0 < N / 2) (h4 : 4 * (N / 8) = N / 2) {seed : BitVec N} :
    ∀ (cs : List (List Byte)) {bs : List Byte} {s : Stream N}, Absorbed seed bs s →
    (∀ c ∈ cs, c.length + N / 2 ≤ 2 ^ 64) → ∃ s', s.updates cs = some s' ∧ Absorbed seed (bs ++ cs.flatten) s' := by
  intro cs
  induction cs with
  | nil => intro bs s h _; exact ⟨s, rfl, by simpa using h⟩
  | cons c cs ih =>
    intro bs s h hc
    obtain ⟨s1, e1, h1⟩ := h.update h0 h4 c (hc c List.mem_cons_self)
    obtain ⟨s2, e2, h2⟩ := ih h1 fun d hd => hc d (List.mem_cons_of_mem _ hd)
    refine ⟨s2, ?_, ?_⟩
    · rw [Stream.updates, e1]; exact e2
    · rw [List.flatten_cons, ← List.append_assoc]; exact h2

theorem stripesN_v3 (v : Acc N) : absorb v [] = (v, []) := by rw [absorb, List.length_nil, Nat.zero_div]; rfl

theorem Absorbed.digest (h0 : 0 < N / 2) (hN : N ≤ 64) {seed : BitVec N} {bs : List Byte} {s : Stream N}
    (h : Absorbed seed bs s) (hb : bs.length < 2 ^ 64) : s.digest = oneShot N bs seed := by
  have ht : s.total.toNat = bs.length := by rw [h.total, BitVec.toNat_ofNat]; exact Nat.mod_eq_of_lt hb
  have hw : s.total.setWidth N = BitVec.ofNat N bs.length := by
    apply BitVec.eq_of_toNat_eq
    rw [BitVec.toNat_setWidth, ht, BitVec.toNat_ofNat]
  unfold Stream.digest oneShot
  rw [ht, hw]
  have ha := h.acc
  by_cases hl : N / 2 ≤ bs.length
  · rw [if_pos hl, if_pos hl]
    dsimp only
    change _ = ending (collect (absorb (acc0 seed) bs).1 + _) (absorb (acc0 seed) bs).2
    rw [ha]
  · rw [if_neg hl, if_neg hl]
    rw [absorb_short (by omega)] at ha
    have h1 := (Prod.mk.inj ha).1
    have h2 := (Prod.mk.inj ha).2
    dsimp only
    rw [← h1, ← h2]
    simp [acc0]

/-- **C60**: however the input is cut into pieces, pieces of no bytes among them, hashing it piece by piece writes only inside the
state's buffer and the digest is the hash of the whole input.  The two widths are those the code allows. -/
theorem c60_pieces (hN : N = 32 ∨ N = 64) (seed : BitVec N) (pieces : List (List Byte)) (hl : pieces.flatten.length + 32 ≤ 2 ^ 64) :
    ∃ s, (Stream.init seed).updates pieces = some s ∧ s.digest = oneShot N pieces.flatten seed := by
  have h0 : 0 < N / 2 := by rcases hN with rfl | rfl <;> decide
  have h4 : 4 * (N / 8) = N / 2 := by rcases hN with rfl | rfl <;> rfl
  have h32 : N / 2 ≤ 32 := by rcases hN with rfl | rfl <;> decide
  obtain ⟨s, e, h⟩ := (Absorbed.init h0 seed).updates h0 h4 pieces fun c hc => by
    have : c.length ≤ pieces.flatten.length := (List.sublist_flatten_of_mem hc).length_le
    omega
  exact ⟨s, e, h.digest h0 (by rcases hN with rfl | rfl <;> decide) (by simp only [List.nil_append]; omega)⟩

/-- **C60**, consequence: a digest may be taken at any time; more input can follow it. -/
theorem c60_digest_between (hN : N = 32 ∨ N = 64) (seed : BitVec N) (before after : List (List Byte))
    (hl : (before ++ after).flatten.length + 32 ≤ 2 ^ 64) :
    ∃ s s', (Stream.init seed).updates before = some s ∧ s.updates after = some s' ∧
      s.digest = oneShot N before.flatten seed ∧ s'.digest = oneShot N (before ++ after).flatten seed := by
  have h0 : 0 < N / 2 := by rcases hN with rfl | rfl <;> decide
  have h4 : 4 * (N / 8) = N / 2 := by rcases hN with rfl | rfl <;> rfl
  have h32 : N / 2 ≤ 32 := by rcases hN with rfl | rfl <;> decide
  have h64 : N ≤ 64 := by rcases hN with rfl | rfl <;> decide
  have hb : ∀ c ∈ before ++ after, c.length + N / 2 ≤ 2 ^ 64 := fun c hc => by
    have : c.length ≤ (before ++ after).flatten.length := (List.sublist_flatten_of_mem hc).length_le
    omega
  have hl' : (before ++ after).flatten.length = before.flatten.length + after.flatten.length := by
    rw [List.flatten_append, List.length_append]
  obtain ⟨s, e, h⟩ := (Absorbed.init h0 seed).updates h0 h4 before fun c hc => hb c (List.mem_append_left _ hc)
  obtain ⟨s', e', h'⟩ := h.updates h0 h4 after fun c hc => hb c (List.mem_append_right _ hc)
  refine ⟨s, s', e, e', h.digest h0 h64 (by simp only [List.nil_append]; omega), ?_⟩
  rw [h'.digest h0 h64 (by simp only [List.nil_append, List.length_append]; omega), List.flatten_append]
  rfl

/-! ## The hash of the map -/

theorem readBytes_eq : ∀ p, readBytes 64 p = readLE p
  | [] => rfl
  | b :: bs => by rw [readBytes, readLE, readBytes_eq bs]

theorem roundN_eq (a b : Word) : roundN a b = round a b := by
  have h1 : PRIME 64 1 = P1 := by decide
  have h2 : PRIME 64 2 = P2 := by decide
  unfold roundN round
  rw [h1, h2]; rfl

theorem stripesN_eq : ∀ n (v : Acc 64) p, stripesN n v p = stripes n v p
  | 0, _, _ => rfl
  | n + 1, v, p => by
    rw [stripesN, stripes]
    simp only [stripe, readBytes_eq, roundN_eq, stripesN_eq n]

theorem words64_eq : ∀ n (h : Word) p, words64 n h p = steps8 n h p
  | 0, _, _ => rfl
  | n + 1, h, p => by
    have h1 : PRIME 64 1 = P1 := by decide
    have h4 : PRIME 64 4 = P4 := by decide
    rw [words64, steps8]
    simp only [readBytes_eq, roundN_eq, words64_eq n, h1, h4]
    rfl

theorem bytes64_eq : ∀ p (h : Word), bytes64 h p = steps1 h p
  | [], _ => rfl
  | b :: bs, h => by
    have h1 : PRIME 64 1 = P1 := by decide
    have h5 : PRIME 64 5 = P5 := by decide
    rw [bytes64, steps1, bytes64_eq bs, h1, h5]
    rfl

theorem ending_eq (h : Word) (p : List Byte) : ending h p = subEnding h p := by
  have h1 : PRIME 64 1 = P1 := by decide
  have h2 : PRIME 64 2 = P2 := by decide
  have h3 : PRIME 64 3 = P3 := by decide
  unfold ending subEnding
  rw [if_neg (by decide)]
  simp only [words64_eq, bytes64_eq, half64, step4, readBytes_eq, mixN, finalMix, h1, h2, h3]
  rfl

/-- **C60**: in 64-bit mode this is the hash function of the map (C37). -/
theorem c60_same_hash (p : List Byte) (seed : Word) : oneShot 64 p seed = xxh64 p seed := by
  have h1 : PRIME 64 1 = P1 := by decide
  have h2 : PRIME 64 2 = P2 := by decide
  have h4 : PRIME 64 4 = P4 := by decide
  have h5 : PRIME 64 5 = P5 := by decide
  unfold oneShot xxh64
  rw [ending_eq]
  simp only [stripesN_eq, collect, mergeRound, mergeRound64, roundN_eq, acc0, h1, h2, h4, h5]
  rfl

/-! ## Multiplication and canonical form -/

theorem mult32_toNat (x y : Word) : (mult32to64 x y).toNat = x.toNat % 2 ^ 32 * (y.toNat % 2 ^ 32) := by
  have hx : x.toNat % 2 ^ 32 < 2 ^ 32 := Nat.mod_lt _ (by decide)
  have hy : y.toNat % 2 ^ 32 < 2 ^ 32 := Nat.mod_lt _ (by decide)
  have : x.toNat % 2 ^ 32 * (y.toNat % 2 ^ 32) < 2 ^ 32 * 2 ^ 32 := Nat.mul_lt_mul'' hx hy
  unfold mult32to64
  rw [BitVec.toNat_mul, BitVec.toNat_setWidth, BitVec.toNat_setWidth, BitVec.toNat_setWidth, BitVec.toNat_setWidth,
    Nat.mod_eq_of_lt (a := x.toNat % 2 ^ 32) (by omega), Nat.mod_eq_of_lt (a := y.toNat % 2 ^ 32) (by omega)]
  exact Nat.mod_eq_of_lt (by omega)

theorem low_toNat (x : Word) : (x &&& 0xFFFFFFFF#64).toNat = x.toNat % 2 ^ 32 := by
  rw [BitVec.toNat_and]
  exact Nat.and_two_pow_sub_one_eq_mod x.toNat 32

theorem high_toNat (x : Word) : (x >>> 32).toNat = x.toNat / 2 ^ 32 := by
  rw [BitVec.toNat_ushiftRight, Nat.shiftRight_eq_div_pow]

theorem join_toNat (a b : Word) : ((a <<< 32) ||| (b &&& 0xFFFFFFFF#64)).toNat = a.toNat % 2 ^ 32 * 2 ^ 32 + b.toNat % 2 ^ 32 := by
  have hb : b.toNat % 2 ^ 32 < 2 ^ 32 := Nat.mod_lt _ (by decide)
  have e : (a.toNat <<< 32) % 2 ^ 64 = (a.toNat % 2 ^ 32) <<< 32 := by
    rw [Nat.shiftLeft_eq, Nat.shiftLeft_eq]; omega
  rw [BitVec.toNat_or, low_toNat, BitVec.toNat_shiftLeft, e, ← Nat.shiftLeft_add_eq_or_of_lt hb, Nat.shiftLeft_eq]

/-- **C60**: without 128-bit integers the product is put together from four products without losing a carry. -/
theorem c60_product (x y : Word) :
    (mult64to128 x y).1.toNat + 2 ^ 64 * (mult64to128 x y).2.toNat = x.toNat * y.toNat := by
  have hx := x.isLt
  have hy := y.isLt
  have ex : x.toNat = 2 ^ 32 * (x.toNat / 2 ^ 32) + x.toNat % 2 ^ 32 := (Nat.div_add_mod _ _).symm
  have ey : y.toNat = 2 ^ 32 * (y.toNat / 2 ^ 32) + y.toNat % 2 ^ 32 := (Nat.div_add_mod _ _).symm
  have key : ∀ a b c d : Nat, a < 2 ^ 32 → b < 2 ^ 32 → a * b ≤ (2 ^ 32 - 1) * (2 ^ 32 - 1) := fun a b _ _ ha hb =>
    Nat.mul_le_mul (by omega) (by omega)
  unfold mult64to128
  simp only [join_toNat, BitVec.toNat_add, mult32_toNat, low_toNat, high_toNat, Nat.mod_mod]
  have h1 : x.toNat / 2 ^ 32 < 2 ^ 32 := by omega
  have h2 : y.toNat / 2 ^ 32 < 2 ^ 32 := by omega
  have h3 : x.toNat % 2 ^ 32 < 2 ^ 32 := by omega
  have h4 : y.toNat % 2 ^ 32 < 2 ^ 32 := by omega
  rw [Nat.mod_eq_of_lt h1, Nat.mod_eq_of_lt h2]
  have hp : x.toNat * y.toNat = 2 ^ 64 * (x.toNat / 2 ^ 32 * (y.toNat / 2 ^ 32)) +
      2 ^ 32 * (x.toNat / 2 ^ 32 * (y.toNat % 2 ^ 32)) + 2 ^ 32 * (x.toNat % 2 ^ 32 * (y.toNat / 2 ^ 32)) +
      x.toNat % 2 ^ 32 * (y.toNat % 2 ^ 32) := by
    conv_lhs => rw [ex, ey]
    ring
  rw [hp]
  have k1 := key _ _ 0 0 h1 h2
  have k2 := key _ _ 0 0 h1 h4
  have k3 := key _ _ 0 0 h3 h2
  have k4 := key _ _ 0 0 h3 h4
  generalize x.toNat / 2 ^ 32 * (y.toNat / 2 ^ 32) = A at *
  generalize x.toNat / 2 ^ 32 * (y.toNat % 2 ^ 32) = B at *
  generalize x.toNat % 2 ^ 32 * (y.toNat / 2 ^ 32) = C at *
  generalize x.toNat % 2 ^ 32 * (y.toNat % 2 ^ 32) = D at *
  clear hp ex ey key hx hy h1 h2 h3 h4
  omega

theorem bytesLE_length (x : BitVec N) : (bytesLE N x).length = N / 8 := by simp [bytesLE]

theorem readBytes_bit : ∀ (l : List Byte) (j : Nat), j < N → (readBytes N l).getLsbD j = (l.getD (j / 8) 0).getLsbD (j % 8)
  | [], j, _ => by simp [readBytes]
  | b :: bs, j, hj => by
    rw [readBytes, BitVec.getLsbD_or, BitVec.getLsbD_setWidth, BitVec.getLsbD_shiftLeft]
    by_cases h : j < 8
    · have e1 : j / 8 = 0 := by omega
      have e2 : j % 8 = j := by omega
      simp [h, e1, e2, hj]
    · have e1 : j / 8 = (j - 8) / 8 + 1 := by omega
      have e2 : j % 8 = (j - 8) % 8 := by omega
      rw [BitVec.getLsbD_of_ge b j (by omega), readBytes_bit bs (j - 8) (by omega), e1, e2]
      simp [h, hj]

theorem readBytes_bytesLE (h8 : 8 * (N / 8) = N) (x : BitVec N) : readBytes N (bytesLE N x) = x := by
  apply BitVec.eq_of_getLsbD_eq
  intro j hj
  rw [readBytes_bit _ _ hj, bytesLE, List.getD_eq_getElem _ _ (by simp; omega)]
  simp only [List.getElem_map, List.getElem_range, BitVec.getLsbD_setWidth, BitVec.getLsbD_ushiftRight]
  rw [show 8 * (j / 8) + j % 8 = j by omega, show decide (j % 8 < 8) = true by simp; omega, Bool.true_and]

theorem bytesLE_readBytes (h8 : 8 * (N / 8) = N) {l : List Byte} (hl : l.length = N / 8) : bytesLE N (readBytes N l) = l := by
  apply List.ext_getElem (by rw [bytesLE_length, hl])
  intro i h1 h2
  simp only [bytesLE, List.getElem_map, List.getElem_range]
  apply BitVec.eq_of_getLsbD_eq
  intro j hj
  rw [BitVec.getLsbD_setWidth, BitVec.getLsbD_ushiftRight, readBytes_bit _ _ (by omega),
    show (8 * i + j) / 8 = i by omega, show (8 * i + j) % 8 = j by omega, List.getD_eq_getElem _ _ h2,
    show decide (j < 8) = true by simpa using hj, Bool.true_and]

theorem canonical_eq (h8 : 8 * (N / 8) = N) (h : BitVec N) : canonical N h = (bytesLE N h).reverse := by
  unfold canonical swapN
  exact bytesLE_readBytes h8 (by rw [List.length_reverse, bytesLE_length])

theorem swap_read (h8 : 8 * (N / 8) = N) (h : BitVec N) : swapN N (readBytes N (bytesLE N h).reverse) = h := by
  unfold swapN
  rw [bytesLE_readBytes h8 (by rw [List.length_reverse, bytesLE_length]), List.reverse_reverse, readBytes_bytesLE h8]

/-- **C60**: the canonical form has the highest byte first, and gives the hash back. -/
theorem c60_canonical (hN : N = 32 ∨ N = 64) (h : BitVec N) :
    canonical N h = (bytesLE N h).reverse ∧ getHash N (canonical N h) = h := by
  have h8 : 8 * (N / 8) = N := by rcases hN with rfl | rfl <;> rfl
  refine ⟨canonical_eq h8 h, ?_⟩
  unfold getHash
  rw [canonical_eq h8, List.take_of_length_le (by rw [List.length_reverse, bytesLE_length]), swap_read h8]

/-- **C60**: for 128 bits likewise. -/
theorem c60_canonical128 (h : Word × Word) :
    canonical128 h = (bytesLE 64 h.1 ++ bytesLE 64 h.2).reverse ∧ getHash128 (canonical128 h) = h := by
  have h8 : 8 * (64 / 8) = 64 := rfl
  have e : canonical128 h = (bytesLE 64 h.2).reverse ++ (bytesLE 64 h.1).reverse := by
    unfold canonical128
    rw [← canonical_eq h8, ← canonical_eq h8]; rfl
  refine ⟨by rw [e, List.reverse_append], ?_⟩
  have hl : ∀ x : Word, (bytesLE 64 x).reverse.length = 8 := fun x => by rw [List.length_reverse, bytesLE_length]
  unfold getHash128
  rw [e, List.drop_append_of_le_length (by rw [hl]), List.drop_of_length_le (by rw [hl]), List.nil_append,
    List.take_of_length_le (by rw [hl]), List.take_append_of_le_length (by rw [hl]), List.take_of_length_le (by rw [hl]),
    swap_read h8, swap_read h8]

/-! ## Examples -/

/-- The bytes of a text (no code of its own). -/
def ascii (s : String) : List Byte := s.toList.map fun c => BitVec.ofNat 8 c.toNat

/-- Known hashes: of nothing and of "abc", in both widths. -/
example : oneShot 32 [] 0 = 0x02CC5D05 ∧ oneShot 64 [] 0 = 0xEF46DB3751D8E999 ∧
    oneShot 32 (ascii "abc") 0 = 0x32D153FF ∧ oneShot 64 (ascii "abc") 0 = 0x44BC2CF5AD770999 := by decide +kernel

/-- Nine pieces: one ends in the middle of the buffer, one fills it exactly, one is empty, one has several stripes. -/
def somePieces : List (List Byte) :=
  [ascii "abc", [], ascii "defgh", List.replicate 8 7#8, List.replicate 16 9#8, List.replicate 100 1#8, ascii "x",
    List.replicate 31 2#8, List.replicate 64 3#8]

/-- The hypotheses of `c60_pieces` are met, and the digests are not trivial. -/
example : somePieces.flatten.length + 32 ≤ 2 ^ 64 ∧
    (((Stream.init (5 : BitVec 64)).updates somePieces).map Stream.digest) = some (oneShot 64 somePieces.flatten 5) ∧
    (((Stream.init (5 : BitVec 32)).updates somePieces).map Stream.digest) = some (oneShot 32 somePieces.flatten 5) ∧
    oneShot 64 somePieces.flatten 5 ≠ oneShot 64 somePieces.flatten 6 := by decide +kernel

example : mult64to128 (-1) (-1) = (1, -2) := by decide

example : canonical 32 0x01020304#32 = [1#8, 2#8, 3#8, 4#8] := by decide

end PMap.XXH
