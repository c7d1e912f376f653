import Mathlib.Tactic.Ring
import Mathlib.Tactic.NormNum
import Mathlib.Tactic.Tauto
import Verif.XXH3
import Verif.Props.Stream

/-!
# C61: XXH3, at once and in pieces
-/

namespace PMap.XXH

variable {wide : Bool} {secret : List Byte}

theorem foldlM_congr {α β : Type} {f g : α → β → Option α} : ∀ (l : List β), (∀ x ∈ l, ∀ a, f a x = g a x) →
    ∀ a, l.foldlM f a = l.foldlM g a
  | [], _, _ => rfl
  | x :: l, h, a => by
    rw [List.foldlM_cons, List.foldlM_cons, h x List.mem_cons_self]
    congr 1
    funext b
    exact foldlM_congr l (fun y hy => h y (List.mem_cons_of_mem _ hy)) b

theorem rd_take {N n : Nat} {p : List Byte} {i : Nat} (h : i + N / 8 ≤ n) : rd N (p.take n) i = rd N p i := by
  unfold rd
  rw [List.length_take]
  by_cases hp : i + N / 8 ≤ p.length
  · rw [if_pos hp, if_pos (by omega), List.drop_take, List.take_take, Nat.min_eq_left (by omega)]
  · rw [if_neg hp, if_neg (by omega)]

theorem acc512_take {acc : Acc8} {p s : List Byte} : accumulate512 wide acc (p.take 64) s = accumulate512 wide acc p s := by
  unfold accumulate512
  apply foldlM_congr
  intro i hi a
  have : i < 8 := List.mem_range.mp hi
  unfold accumLane
  rw [rd_take (by omega)]

theorem acc512_congr {acc : Acc8} {p q s : List Byte} (h : p.take 64 = q.take 64) :
    accumulate512 wide acc p s = accumulate512 wide acc q s := by
  rw [← acc512_take (p := p), h, acc512_take]

theorem foldlM_some {α β : Type} {f : α → β → Option α} : ∀ (l : List β), (∀ x ∈ l, ∀ a, ∃ b, f a x = some b) →
    ∀ a, ∃ b, l.foldlM f a = some b
  | [], _, a => ⟨a, rfl⟩
  | x :: l, h, a => by
    obtain ⟨b, hb⟩ := h x List.mem_cons_self a
    rw [List.foldlM_cons, hb]
    exact foldlM_some l (fun y hy => h y (List.mem_cons_of_mem _ hy)) b

theorem rd_some {N : Nat} {p : List Byte} {i : Nat} (h : i + N / 8 ≤ p.length) :
    rd N p i = some (readBytes N ((p.drop i).take (N / 8))) := if_pos h

theorem acc512_some {acc : Acc8} {p s : List Byte} (hp : 64 ≤ p.length) (hs : 64 ≤ s.length) :
    ∃ a, accumulate512 wide acc p s = some a := by
  apply foldlM_some
  intro i hi a
  have : i < 8 := List.mem_range.mp hi
  unfold accumLane
  rw [rd_some (by omega), rd_some (by omega)]
  exact ⟨_, rfl⟩

theorem scramble_some {acc : Acc8} {s : List Byte} (hs : 64 ≤ s.length) : ∃ a, scramble acc s = some a := by
  apply foldlM_some
  intro i hi a
  have : i < 8 := List.mem_range.mp hi
  unfold scrambleLane
  rw [rd_some (by omega)]
  exact ⟨_, rfl⟩

/-! ## One stripe after the other -/

/-- Stripes in a block (no code of its own). -/
def perBlock (secret : List Byte) : Nat := (secret.length - 64) / 8

/-- One stripe, and the scrambling if it ends a block (no code of its own). -/
def eat (wide : Bool) (secret : List Byte) (x : Acc8 × Nat) (p : List Byte) : Option (Acc8 × Nat) := do
  let acc ← accumulate512 wide x.1 p (secret.drop (x.2 * 8))
  if x.2 + 1 = perBlock secret then do
    let acc ← scramble acc (secret.drop (secret.length - 64))
    return (acc, 0)
  else return (acc, x.2 + 1)

/-- Several stripes (no code of its own). -/
def eats (wide : Bool) (secret : List Byte) : Nat → Acc8 × Nat → List Byte → Option (Acc8 × Nat)
  | 0, x, _ => some x
  | k + 1, x, p => do
    let x ← eat wide secret x p
    eats wide secret k x (p.drop 64)

theorem eats_add (a b : Nat) : ∀ (x : Acc8 × Nat) (p : List Byte),
    eats wide secret (a + b) x p = (eats wide secret a x p).bind fun y => eats wide secret b y (p.drop (64 * a)) := by
  induction a with
  | zero => intro x p; rw [Nat.zero_add]; rfl
  | succ a ih =>
    intro x p
    rw [Nat.succ_add, eats, eats]
    cases eat wide secret x p with
    | none => rfl
    | some y =>
      show eats wide secret (a + b) y (p.drop 64) = _
      rw [ih, List.drop_drop]
      show _ = (eats wide secret a y (p.drop 64)).bind _
      rw [show 64 + 64 * a = 64 * (a + 1) by omega]

theorem eat_congr {x : Acc8 × Nat} {p q : List Byte} (h : p.take 64 = q.take 64) :
    eat wide secret x p = eat wide secret x q := by
  unfold eat
  rw [acc512_congr h]

theorem eats_congr (k : Nat) : ∀ {x : Acc8 × Nat} {p q : List Byte}, p.take (64 * k) = q.take (64 * k) →
    eats wide secret k x p = eats wide secret k x q := by
  induction k with
  | zero => intros; rfl
  | succ k ih =>
    intro x p q h
    have h1 : p.take 64 = q.take 64 := by
      have := congrArg (List.take 64) h
      rwa [List.take_take, List.take_take, Nat.min_eq_left (by omega)] at this
    have h2 : (p.drop 64).take (64 * k) = (q.drop 64).take (64 * k) := by
      have := congrArg (List.drop 64) h
      rwa [List.drop_take, List.drop_take, show 64 * (k + 1) - 64 = 64 * k by omega] at this
    rw [eats, eats, eat_congr h1]
    congr 1
    funext y
    exact ih h2

theorem eat_some {x : Acc8 × Nat} {p : List Byte} (hp : 64 ≤ p.length) (hx : x.2 < perBlock secret) :
    ∃ y, eat wide secret x p = some y ∧ y.2 < perBlock secret := by
  have hb : perBlock secret = (secret.length - 64) / 8 := rfl
  obtain ⟨a, ha⟩ := acc512_some (wide := wide) (acc := x.1) (s := secret.drop (x.2 * 8)) hp (by rw [List.length_drop]; omega)
  unfold eat
  rw [ha]
  by_cases h : x.2 + 1 = perBlock secret
  · obtain ⟨b, hs⟩ := scramble_some (acc := a) (s := secret.drop (secret.length - 64)) (by rw [List.length_drop]; omega)
    exact ⟨(b, 0), by simp [h, hs], by show 0 < _; omega⟩
  · exact ⟨(a, x.2 + 1), by simp [h], by show x.2 + 1 < _; omega⟩

theorem eats_some (k : Nat) : ∀ {x : Acc8 × Nat} {p : List Byte}, 64 * k ≤ p.length → x.2 < perBlock secret →
    ∃ y, eats wide secret k x p = some y ∧ y.2 < perBlock secret := by
  induction k with
  | zero => intro x p _ hx; exact ⟨x, rfl, hx⟩
  | succ k ih =>
    intro x p hp hx
    obtain ⟨y, hy, hy'⟩ := eat_some (wide := wide) (p := p) (by omega) hx
    rw [eats, hy]
    exact ih (by rw [List.length_drop]; omega) hy'

theorem eats_accumulate (k : Nat) : ∀ {x : Acc8 × Nat} {p : List Byte}, x.2 + k < perBlock secret →
    eats wide secret k x p = (accumulate wide k x.1 p (secret.drop (x.2 * 8))).map fun a => (a, x.2 + k) := by
  induction k with
  | zero => intro x p _; rfl
  | succ k ih =>
    intro x p h
    rw [eats, accumulate, eat]
    cases accumulate512 wide x.1 p (secret.drop (x.2 * 8)) with
    | none => rfl
    | some a =>
      show (if x.2 + 1 = _ then _ else _) >>= _ = _
      rw [if_neg (by omega)]
      show eats wide secret k (a, x.2 + 1) (p.drop 64) = _
      rw [ih (by show x.2 + 1 + k < _; omega), List.drop_drop, show x.2 * 8 + 8 = (x.2 + 1) * 8 by omega]
      show _ = (accumulate wide k a (p.drop 64) (secret.drop ((x.2 + 1) * 8))).map _
      congr 1
      funext b
      show (b, x.2 + 1 + k) = _
      rw [show x.2 + 1 + k = x.2 + (k + 1) by omega]

theorem eats_block {k : Nat} : ∀ {x : Acc8 × Nat} {p : List Byte}, 0 < k → x.2 + k = perBlock secret →
    eats wide secret k x p = (accumulate wide k x.1 p (secret.drop (x.2 * 8))).bind fun a =>
      (scramble a (secret.drop (secret.length - 64))).map fun a => (a, 0) := by
  induction k with
  | zero => intro x p h; omega
  | succ k ih =>
    intro x p _ h
    rw [eats, accumulate, eat]
    cases accumulate512 wide x.1 p (secret.drop (x.2 * 8)) with
    | none => rfl
    | some a =>
      show (if x.2 + 1 = _ then _ else _) >>= _ = _
      rcases Nat.eq_zero_or_pos k with rfl | hk
      · rw [if_pos (by omega)]
        show _ = (scramble a (secret.drop (secret.length - 64))).map _
        cases scramble a (secret.drop (secret.length - 64)) <;> rfl
      · rw [if_neg (by omega)]
        show eats wide secret k (a, x.2 + 1) (p.drop 64) = _
        rw [ih hk (by show x.2 + 1 + k = _; omega)]
        show _ = (accumulate wide k a (p.drop 64) ((secret.drop (x.2 * 8)).drop 8)).bind _
        rw [List.drop_drop, show x.2 * 8 + 8 = (x.2 + 1) * 8 by omega]

theorem consume_eq {acc : Acc8} {so k : Nat} {p : List Byte} (hso : so < perBlock secret) (hk : k ≤ perBlock secret) :
    consume wide secret (perBlock secret) (secret.length - 64) acc so k p = eats wide secret k (acc, so) p := by
  unfold consume
  by_cases h : perBlock secret - so ≤ k
  · rw [if_pos h]
    have e : k = (perBlock secret - so) + (k - (perBlock secret - so)) := by omega
    conv_rhs => rw [e, eats_add]
    rw [eats_block (by omega) (by show so + _ = _; omega)]
    show (accumulate wide (perBlock secret - so) acc p (secret.drop (so * 8)) >>= _) = _
    cases accumulate wide (perBlock secret - so) acc p (secret.drop (so * 8)) with
    | none => rfl
    | some a =>
      show (scramble a (secret.drop (secret.length - 64)) >>= _) = _
      show _ = ((scramble a (secret.drop (secret.length - 64))).map _).bind _
      cases scramble a (secret.drop (secret.length - 64)) with
      | none => rfl
      | some b =>
        show _ = eats wide secret (k - (perBlock secret - so)) (b, 0) _
        rw [eats_accumulate _ (by show 0 + _ < _; omega)]
        show (accumulate wide (k - (perBlock secret - so)) b (p.drop ((perBlock secret - so) * 64)) secret >>= _) = _
        rw [show 64 * (perBlock secret - so) = (perBlock secret - so) * 64 by omega]
        show _ = (accumulate wide (k - (perBlock secret - so)) b (p.drop ((perBlock secret - so) * 64)) (secret.drop (0 * 8))).map _
        rw [Nat.zero_mul, List.drop_zero]
        cases accumulate wide (k - (perBlock secret - so)) b (p.drop ((perBlock secret - so) * 64)) secret with
        | none => rfl
        | some c => simp [Option.bind]
  · rw [if_neg h, eats_accumulate _ (by show so + k < _; omega)]
    show (accumulate wide k acc p (secret.drop (so * 8)) >>= _) = Option.map _ (accumulate wide k acc p (secret.drop (so * 8)))
    cases accumulate wide k acc p (secret.drop (so * 8)) <;> rfl

theorem blocks_eq (hb : 0 < perBlock secret) (n : Nat) : ∀ {acc : Acc8} {p : List Byte},
    eats wide secret (n * perBlock secret) (acc, 0) p = (blocks wide (perBlock secret) secret n acc p).map fun a => (a, 0) := by
  induction n with
  | zero => intro acc p; rw [Nat.zero_mul]; rfl
  | succ n ih =>
    intro acc p
    rw [Nat.succ_mul, Nat.add_comm, eats_add, eats_block hb (by show 0 + _ = _; omega), blocks]
    show ((accumulate wide (perBlock secret) acc p (secret.drop (0 * 8))).bind _).bind _ = _
    rw [Nat.zero_mul, List.drop_zero]
    cases accumulate wide (perBlock secret) acc p secret with
    | none => rfl
    | some a =>
      show ((scramble a (secret.drop (secret.length - 64))).map _).bind _ = _
      show _ = (scramble a (secret.drop (secret.length - 64)) >>= _).map _
      cases scramble a (secret.drop (secret.length - 64)) with
      | none => rfl
      | some b => exact ih

theorem longLoop_eq (h72 : 72 ≤ secret.length) {acc : Acc8} {p : List Byte} :
    longLoop wide acc p secret = (eats wide secret (p.length / 64) (acc, 0) p).bind fun x =>
      if p.length % 64 ≠ 0 then accumulate512 wide x.1 (p.drop (p.length - 64)) (secret.drop (secret.length - 64 - 7))
      else some x.1 := by
  have hb : 0 < perBlock secret := by show 0 < (secret.length - 64) / 8; omega
  have hpb : (secret.length - 64) / 8 = perBlock secret := rfl
  unfold longLoop
  rw [if_neg (by omega)]
  dsimp only
  rw [hpb]
  generalize hq : p.length / (64 * perBlock secret) = q
  have h1 : 64 * perBlock secret * q ≤ p.length := by rw [← hq]; exact Nat.mul_div_le _ _
  have h2 : p.length < 64 * perBlock secret * q + 64 * perBlock secret := by
    rw [← hq]
    have := Nat.lt_mul_div_succ p.length (show 0 < 64 * perBlock secret by omega)
    rw [Nat.mul_add, Nat.mul_one] at this
    exact this
  have h3 : p.length / 64 = q * perBlock secret + (p.length - 64 * perBlock secret * q) / 64 := by
    have : 64 * perBlock secret * q = 64 * (q * perBlock secret) := by rw [Nat.mul_assoc, Nat.mul_comm q]
    omega
  have h4 : (p.length - 64 * perBlock secret * q) / 64 < perBlock secret := by omega
  rw [h3, eats_add, blocks_eq hb]
  cases blocks wide (perBlock secret) secret q acc p with
  | none => rfl
  | some a =>
    show (accumulate wide _ a (p.drop (q * (64 * perBlock secret))) secret >>= _) = (eats wide secret _ (a, 0) _).bind _
    rw [eats_accumulate _ (by show 0 + _ < _; omega)]
    show _ = ((accumulate wide _ a _ (secret.drop (0 * 8))).map _).bind _
    rw [Nat.zero_mul, List.drop_zero, show 64 * (q * perBlock secret) = q * (64 * perBlock secret) by
      rw [Nat.mul_left_comm]]
    cases accumulate wide ((p.length - 64 * perBlock secret * q) / 64) a (p.drop (q * (64 * perBlock secret))) secret <;> rfl

/-! ## The stream -/

theorem direct_eq {s : Stream3} (hs : s.secret = secret) (h4 : 4 ≤ perBlock secret) (n : Nat) :
    ∀ {x : Acc8 × Nat} {p : List Byte}, x.2 < perBlock secret → 256 * n ≤ p.length →
    direct wide s n x p = (eats wide secret (4 * n) x p).map fun y => (y, p.drop (256 * n)) := by
  have e1 : s.perBlock = perBlock secret := by rw [Stream3.perBlock, Stream3.limit, hs]; rfl
  have e2 : s.limit = secret.length - 64 := by rw [Stream3.limit, hs]
  induction n with
  | zero => intro x p _ _; rfl
  | succ n ih =>
    intro x p hx hp
    obtain ⟨y, hy, hy'⟩ := eats_some (wide := wide) (p := p) 4 (by omega) hx
    rw [direct, if_pos (by omega), hs, e1, e2, consume_eq hx h4, show 4 * (n + 1) = 4 + 4 * n by omega, eats_add]
    rw [show ((x.1, x.2) : Acc8 × Nat) = x from rfl, hy]
    show direct wide s n y (p.drop 256) = (eats wide secret (4 * n) y (p.drop 256)).map _
    rw [ih hy' (by rw [List.length_drop]; omega), List.drop_drop, show 256 + 256 * n = 256 * (n + 1) by omega]

/-- What the state says about the bytes so far.  `short`: what is behind the buffered bytes is the end of what has been consumed. -/
structure Fed (wide : Bool) (short : Prop) (secret : List Byte) (seed : Word) (bs : List Byte) (m : Nat) (s : Stream3) : Prop where
  total : s.total = BitVec.ofNat 64 bs.length
  seed : s.seed = seed
  sec : s.secret = secret
  buf : s.buffer.length = 256
  mod : m % 256 = 0
  le : m ≤ bs.length
  size : s.bufferedSize = bs.length - m
  max : s.bufferedSize ≤ 256
  data : s.buffer.take s.bufferedSize = bs.drop m
  acc : eats wide secret (m / 64) (initAcc, 0) bs = some (s.acc, s.stripesSoFar)
  sofar : s.stripesSoFar < perBlock secret
  tail : short → 0 < m → s.bufferedSize ≤ 192 → s.buffer.drop 192 = (bs.drop (m - 64)).take 64

theorem eats_append {k : Nat} {x : Acc8 × Nat} {p q : List Byte} (h : 64 * k ≤ p.length) :
    eats wide secret k x (p ++ q) = eats wide secret k x p :=
  eats_congr k (List.take_append_of_le_length h)

theorem memcpy_drop {dst src : List Byte} {off n k : Nat} (h1 : off + n ≤ k) (hk : k ≤ dst.length) (h2 : n ≤ src.length) :
    (dst.take off ++ src.take n ++ dst.drop (off + n)).drop k = dst.drop k := by
  have hl : (dst.take off ++ src.take n).length = off + n := by
    simp only [List.length_append, List.length_take]; omega
  rw [List.drop_append, hl, List.drop_of_length_le (by omega), List.nil_append, List.drop_drop]
  congr 1; omega

theorem Fed.update {short : Prop} {seed : Word} {bs : List Byte} {m : Nat} {s : Stream3} (h4 : 4 ≤ perBlock secret)
    (h : Fed wide short secret seed bs m s) (c : List Byte) (hc : c.length + 256 < 2 ^ 64) (hs : short → c.length < 256) :
    ∃ s' m', s.update wide c = some s' ∧ Fed wide short secret seed (bs ++ c) m' s' := by
  have hm := h.mod
  have hle := h.le
  have hsz := h.size
  have hbuf := h.buf
  have hmax := h.max
  have hlen : (bs ++ c).length = bs.length + c.length := List.length_append
  have e1 : s.perBlock = perBlock secret := by rw [Stream3.perBlock, Stream3.limit, h.sec]; rfl
  have e2 : s.limit = secret.length - 64 := by rw [Stream3.limit, h.sec]
  have htot : s.total + BitVec.ofNat 64 c.length = BitVec.ofNat 64 (bs ++ c).length := by
    rw [h.total, List.length_append, BitVec.ofNat_add]
  have hacc : eats wide secret (m / 64) (initAcc, 0) (bs ++ c) = some (s.acc, s.stripesSoFar) := by
    rw [eats_append (by omega), h.acc]
  have hw : (s.bufferedSize + c.length) % 2 ^ 64 = s.bufferedSize + c.length := Nat.mod_eq_of_lt (by omega)
  have hdrop : (bs ++ c).drop m = s.buffer.take s.bufferedSize ++ c := by
    rw [List.drop_append_of_le_length hle, h.data]
  unfold Stream3.update
  rw [hw]
  by_cases hb : s.bufferedSize + c.length ≤ 256
  · rw [if_pos hb, memcpy_ok (by omega) (le_refl _)]
    refine ⟨_, m, rfl, htot, h.seed, h.sec, ?_, hm, by omega, ?_, hb, ?_, hacc, h.sofar, ?_⟩
    · exact (memcpy_length (by omega) (le_refl _)).trans hbuf
    · show s.bufferedSize + c.length = _; omega
    · dsimp only
      rw [hdrop, memcpy_take (by omega) (le_refl _), List.take_length]
    · intro h1 h2 h3
      replace h3 : s.bufferedSize + c.length ≤ 192 := h3
      dsimp only
      rw [memcpy_drop h3 (by omega) (le_refl _), h.tail h1 h2 (by omega), List.drop_append_of_le_length (by omega),
        List.take_append_of_le_length (by rw [List.length_drop]; omega)]
  · rw [if_neg hb]
    have fin : ∀ (x : Acc8 × Nat) (buf p : List Byte) (k m1 : Nat), k = 0 → m1 % 256 = 0 → m1 ≤ (bs ++ c).length →
        buf.length = 256 → p = (bs ++ c).drop m1 → x.2 < perBlock secret →
        eats wide secret (m1 / 64) (initAcc, 0) (bs ++ c) = some x →
        (short → p.length < 256 ∧ buf.drop 192 = ((bs ++ c).drop (m1 - 64)).take 64) →
        ∃ s' m', (do
          let r ← direct wide s (p.length / 256) x p
          if 0 < r.2.length then do
            let buffer ← memcpy buf 0 r.2 r.2.length
            return { s with acc := r.1.1, stripesSoFar := r.1.2, total := s.total + BitVec.ofNat 64 c.length, buffer,
                            bufferedSize := r.2.length }
          else return { s with acc := r.1.1, stripesSoFar := r.1.2, total := s.total + BitVec.ofNat 64 c.length, buffer := buf,
                               bufferedSize := k }) = some s' ∧ Fed wide short secret seed (bs ++ c) m' s' := by
      rintro x buf p k m1 rfl hm1 hle1 hbl hp hx hea htl
      have hpl : p.length = (bs ++ c).length - m1 := by rw [hp, List.length_drop]
      obtain ⟨y, hy, hy'⟩ := eats_some (wide := wide) (p := p) (4 * (p.length / 256)) (by omega) hx
      rw [direct_eq h.sec h4 _ hx (by omega), hy]
      have hr : p.drop (256 * (p.length / 256)) = (bs ++ c).drop (m1 + 256 * (p.length / 256)) := by
        rw [hp, List.drop_drop]
      have hrl : (p.drop (256 * (p.length / 256))).length = p.length % 256 := by rw [List.length_drop]; omega
      have hea2 : eats wide secret ((m1 + 256 * (p.length / 256)) / 64) (initAcc, 0) (bs ++ c) = some y := by
        rw [show (m1 + 256 * (p.length / 256)) / 64 = m1 / 64 + 4 * (p.length / 256) by omega, eats_add, hea]
        show eats wide secret _ x ((bs ++ c).drop (64 * (m1 / 64))) = _
        rw [show 64 * (m1 / 64) = m1 by omega, ← hp, hy]
      show ∃ s' m', (if 0 < (p.drop (256 * (p.length / 256))).length then _ else _) = some s' ∧ _
      have htail : short → 0 < m1 + 256 * (p.length / 256) →
          buf.drop 192 = ((bs ++ c).drop (m1 + 256 * (p.length / 256) - 64)).take 64 := by
        intro h1 h2
        obtain ⟨h3, h5⟩ := htl h1
        rw [show p.length / 256 = 0 by omega] at h2 ⊢
        exact h5
      by_cases hz : 0 < (p.drop (256 * (p.length / 256))).length
      · rw [if_pos hz]
        dsimp only
        rw [memcpy_ok (by omega) (le_refl _)]
        refine ⟨_, m1 + 256 * (p.length / 256), rfl, htot, h.seed, h.sec, ?_, by omega, by omega, ?_, ?_, ?_, hea2, hy', ?_⟩
        · exact (memcpy_length (by omega) (le_refl _)).trans hbl
        · show (p.drop (256 * (p.length / 256))).length = _; omega
        · show (p.drop (256 * (p.length / 256))).length ≤ _; omega
        · dsimp only
          have := memcpy_take (dst := buf) (src := p.drop (256 * (p.length / 256))) (off := 0) (by omega) (le_refl _)
          rw [Nat.zero_add] at this ⊢
          rw [this, List.take_zero, List.nil_append, List.take_length, hr]
        · intro h1 h2 h3
          dsimp only at h3 ⊢
          rw [memcpy_drop (by omega) (by omega) (le_refl _)]
          exact htail h1 h2
      · rw [if_neg hz]
        refine ⟨_, m1 + 256 * (p.length / 256), rfl, htot, h.seed, h.sec, hbl, by omega, by omega, ?_, Nat.zero_le _, ?_, hea2,
          hy', ?_⟩
        · show 0 = _; omega
        · dsimp only
          rw [List.take_zero, ← hr]
          exact (List.eq_nil_of_length_eq_zero (by omega)).symm
        · intro h1 h2 _
          exact htail h1 h2
    by_cases hz : 0 < s.bufferedSize
    · rw [if_pos hz]
      dsimp only
      rw [memcpy_ok (by omega) (by omega)]
      have e : s.bufferedSize + (256 - s.bufferedSize) = 256 := by omega
      have hfull : s.buffer.take s.bufferedSize ++ c.take (256 - s.bufferedSize) = ((bs ++ c).drop m).take 256 := by
        have hl : (s.buffer.take s.bufferedSize).length = s.bufferedSize := by rw [List.length_take]; omega
        rw [hdrop, List.take_append, hl, List.take_of_length_le (i := 256) (by omega)]
      have hfl : (s.buffer.take s.bufferedSize ++ c.take (256 - s.bufferedSize)).length = 256 := by
        simp only [List.length_append, List.length_take]; omega
      rw [e, List.drop_of_length_le (l := s.buffer) (by omega), List.append_nil]
      obtain ⟨y, hy, hy'⟩ := eats_some (wide := wide) (secret := secret) (x := (s.acc, s.stripesSoFar))
        (p := s.buffer.take s.bufferedSize ++ c.take (256 - s.bufferedSize)) 4 (by omega) h.sofar
      have hcon : consume wide s.secret s.perBlock s.limit s.acc s.stripesSoFar 4
          (s.buffer.take s.bufferedSize ++ c.take (256 - s.bufferedSize)) = some y := by
        rw [h.sec, e1, e2, consume_eq h.sofar h4, hy]
      rw [Option.bind_eq_bind, Option.bind_some, hcon]
      refine fin y _ (c.drop (256 - s.bufferedSize)) 0 (m + 256) rfl (by omega) (by omega) hfl ?_ hy' ?_ ?_
      · have : (bs ++ c).drop (m + 256) = ((bs ++ c).drop m).drop 256 := by rw [List.drop_drop]
        rw [this, hdrop, List.drop_append, List.drop_of_length_le (l := s.buffer.take _) (by rw [List.length_take]; omega), List.nil_append,
          List.length_take, Nat.min_eq_left (by omega)]
      · rw [show (m + 256) / 64 = m / 64 + 4 by omega, eats_add, hacc]
        show eats wide secret 4 _ ((bs ++ c).drop (64 * (m / 64))) = _
        rw [show 64 * (m / 64) = m by omega, ← hy]
        apply eats_congr
        rw [hfull, List.take_take]
        rfl
      · intro h1
        have := hs h1
        refine ⟨by rw [List.length_drop]; omega, ?_⟩
        rw [hfull, List.drop_take, List.drop_drop, show m + 256 - 64 = m + 192 by omega]
    · rw [if_neg hz]
      refine fin (s.acc, s.stripesSoFar) s.buffer c s.bufferedSize m (by omega) hm (by omega) hbuf ?_ h.sofar hacc ?_
      · rw [hdrop, show s.bufferedSize = 0 by omega, List.take_zero, List.nil_append]
      · intro h1
        have := hs h1
        omega

theorem Fed.updates {short : Prop} {seed : Word} (h4 : 4 ≤ perBlock secret) : ∀ (cs : List (List Byte)) {bs : List Byte} {m : Nat}
    {s : Stream3}, Fed wide short secret seed bs m s → (∀ c ∈ cs, c.length + 256 < 2 ^ 64) → (short → ∀ c ∈ cs, c.length < 256) →
    ∃ s' m', s.updates wide cs = some s' ∧ Fed wide short secret seed (bs ++ cs.flatten) m' s' := by
  intro cs
  induction cs with
  | nil => intro bs m s h _ _; exact ⟨s, m, rfl, by simpa using h⟩
  | cons c cs ih =>
    intro bs m s h hc hs
    obtain ⟨s1, m1, e1, h1⟩ := h.update h4 c (hc c List.mem_cons_self) fun hh => hs hh c List.mem_cons_self
    obtain ⟨s2, m2, e2, h2⟩ := ih h1 (fun d hd => hc d (List.mem_cons_of_mem _ hd))
      fun hh d hd => hs hh d (List.mem_cons_of_mem _ hd)
    refine ⟨s2, m2, ?_, ?_⟩
    · rw [Stream3.updates, e1]; exact e2
    · rw [List.flatten_cons, ← List.append_assoc]; exact h2

/-- What the code hashes long inputs with (no code of its own). -/
def longSecret (seed : Word) (secret : List Byte) : List Byte := if seed ≠ 0 then customSecret seed else secret

theorem Fed.digestLong {short : Prop} {seed : Word} {bs : List Byte} {m : Nat} {s : Stream3} (h4 : 4 ≤ perBlock secret)
    (h : Fed wide short secret seed bs m s) (hl : 240 < bs.length)
    (hs : short ∨ bs.length % 256 = 0 ∨ 64 ≤ bs.length % 256) : s.digestLong wide = longLoop wide initAcc bs secret := by
  have hm := h.mod
  have hle := h.le
  have hsz := h.size
  have hbuf := h.buf
  have hmax := h.max
  have e1 : s.perBlock = perBlock secret := by rw [Stream3.perBlock, Stream3.limit, h.sec]; rfl
  have e2 : s.limit = secret.length - 64 := by rw [Stream3.limit, h.sec]
  have h72 : 72 ≤ secret.length := by
    have : perBlock secret = (secret.length - 64) / 8 := rfl
    omega
  have hd : s.buffer.take s.bufferedSize = bs.drop m := h.data
  rw [longLoop_eq h72, show bs.length / 64 = m / 64 + s.bufferedSize / 64 by omega, eats_add, h.acc, Option.bind_some,
    show 64 * (m / 64) = m by omega]
  unfold Stream3.digestLong
  by_cases hb : 64 ≤ s.bufferedSize
  · rw [if_pos hb, h.sec, e1, e2, consume_eq h.sofar (by omega)]
    have : eats wide secret (s.bufferedSize / 64) (s.acc, s.stripesSoFar) s.buffer =
        eats wide secret (s.bufferedSize / 64) (s.acc, s.stripesSoFar) (bs.drop m) := by
      rw [← hd]
      apply eats_congr
      rw [List.take_take, Nat.min_eq_left (by omega)]
    rw [this]
    cases eats wide secret (s.bufferedSize / 64) (s.acc, s.stripesSoFar) (bs.drop m) with
    | none => rfl
    | some x =>
      show (if s.bufferedSize % 64 ≠ 0 then _ else _) = (if bs.length % 64 ≠ 0 then _ else _)
      by_cases h0 : bs.length % 64 ≠ 0
      · rw [if_pos h0, if_pos (by omega)]
        apply acc512_congr
        rw [show bs.length - 64 = m + (s.bufferedSize - 64) by omega, ← List.drop_drop, ← hd, List.drop_take, List.take_take]
        rw [show min 64 (s.bufferedSize - (s.bufferedSize - 64)) = 64 by omega]
      · rw [if_neg h0, if_neg (by omega)]; rfl
  · rw [if_neg hb, show s.bufferedSize / 64 = 0 by omega]
    show _ = (if bs.length % 64 ≠ 0 then _ else _)
    by_cases h0 : 0 < s.bufferedSize
    · rw [if_pos h0, if_pos (by omega), h.sec, e2]
      apply acc512_congr
      have hsh : short := by
        rcases hs with h1 | h1 | h1
        · exact h1
        · omega
        · omega
      have ht := h.tail hsh (by omega) (by omega)
      have : (s.buffer.drop (256 - (64 - s.bufferedSize))).take (64 - s.bufferedSize) =
          ((bs.drop (m - 64)).drop s.bufferedSize).take (64 - s.bufferedSize) := by
        rw [show 256 - (64 - s.bufferedSize) = 192 + s.bufferedSize by omega, ← List.drop_drop, ht, List.drop_take, List.take_take,
          Nat.min_self]
      rw [this, hd]
      rw [List.drop_drop, show m - 64 + s.bufferedSize = bs.length - 64 by omega]
      have hx : bs.drop m = (bs.drop (bs.length - 64)).drop (64 - s.bufferedSize) := by
        rw [List.drop_drop]; congr 1; omega
      rw [hx, List.take_append_drop]
    · rw [if_neg h0, if_neg (by omega)]; rfl

theorem customSecret_length (seed : Word) : (customSecret seed).length = 192 := by
  unfold customSecret
  rw [List.length_flatMap]
  simp [bytesLE_length]

theorem Fed.digest {short : Prop} {seed : Word} {sec : List Byte} {bs : List Byte} {m : Nat} {s : Stream3}
    (hsec : secret = longSecret seed sec) (h4 : 4 ≤ perBlock secret) (h : Fed wide short secret seed bs m s)
    (hb : bs.length < 2 ^ 64) (hs : short ∨ bs.length ≤ 240 ∨ bs.length % 256 = 0 ∨ 64 ≤ bs.length % 256) :
    s.digest wide = xxh3 wide bs seed sec := by
  have ht : s.total.toNat = bs.length := by rw [h.total, BitVec.toNat_ofNat]; exact Nat.mod_eq_of_lt hb
  unfold Stream3.digest
  rw [ht]
  by_cases hl : 240 < bs.length
  · rw [if_pos hl, h.digestLong h4 hl (by rcases hs with h1 | h1 | h1 <;> [exact .inl h1; omega; exact .inr h1])]
    unfold xxh3
    rw [if_neg (by omega), if_neg (by omega), if_neg (by omega)]
    unfold hashLong
    have e2 : s.limit = secret.length - 64 := by rw [Stream3.limit, h.sec]
    rw [h.sec, e2, h.total, ← longSecret, ← hsec]
    have h72 : 72 ≤ secret.length := by
      have : perBlock secret = (secret.length - 64) / 8 := rfl
      omega
    have : secret.length - 64 + 64 - 64 - 11 = secret.length - 64 - 11 := by omega
    rw [this]
  · rw [if_neg hl, h.seed, h.sec]
    have hm : m = 0 := by have := h.mod; have := h.le; omega
    have hsz := h.size
    have hd := h.data
    subst hm
    rw [Nat.sub_zero] at hsz
    rw [hsz, List.drop_zero] at hd
    rw [hd, hsec]
    unfold xxh3 longSecret
    by_cases h0 : seed = 0
    · subst h0; simp
    · simp only [if_pos h0, ne_eq]

theorem Fed.init {short : Prop} {s : Stream3} (h4 : 4 ≤ perBlock secret) (h1 : s.acc = initAcc) (h2 : s.buffer = List.replicate 256 0)
    (h3 : s.bufferedSize = 0) (h5 : s.stripesSoFar = 0) (h6 : s.total = 0) (h7 : s.secret = secret) :
    Fed wide short secret s.seed [] 0 s where
  total := by rw [h6]; rfl
  seed := rfl
  sec := h7
  buf := by rw [h2]; exact List.length_replicate
  mod := rfl
  le := Nat.zero_le _
  size := by rw [h3]; rfl
  max := by omega
  data := by rw [h3]; rfl
  acc := by rw [h1, h5]; rfl
  sofar := by omega
  tail := fun _ h => absurd h (by omega)

/-- The state made for a seed or for a secret of the caller's (no code of its own). -/
def Stream3.make (seed : Word) (secret : Option (List Byte)) : Stream3 :=
  match secret with
  | none => .ofSeed seed
  | some sec => .ofSecret sec

theorem stream3_of {short : Prop} (seed : Word) (secret : Option (List Byte)) (hsec : ∀ sec, secret = some sec → 136 ≤ sec.length ∧ seed = 0)
    (pieces : List (List Byte)) (hl : pieces.flatten.length + 256 < 2 ^ 64) (hs : short → ∀ c ∈ pieces, c.length < 256)
    (hs' : short ∨ pieces.flatten.length ≤ 240 ∨ pieces.flatten.length % 256 = 0 ∨ 64 ≤ pieces.flatten.length % 256) :
    ∃ s, (Stream3.make seed secret).updates wide pieces = some s ∧
      s.digest wide = xxh3 wide pieces.flatten seed (secret.getD defaultSecret) := by
  have hd : defaultSecret.length = 192 := rfl
  have key : ∀ (st : Stream3), st.acc = initAcc → st.buffer = List.replicate 256 0 → st.bufferedSize = 0 → st.stripesSoFar = 0 →
      st.total = 0 → st.seed = seed → st.secret = longSecret seed (secret.getD defaultSecret) → 136 ≤ st.secret.length →
      ∃ s, st.updates wide pieces = some s ∧ s.digest wide = xxh3 wide pieces.flatten seed (secret.getD defaultSecret) := by
    intro st h1 h2 h3 h5 h6 h7 h8 h9
    have h4 : 4 ≤ perBlock st.secret := by show 4 ≤ (st.secret.length - 64) / 8; omega
    obtain ⟨s, m, e, h⟩ := (Fed.init (wide := wide) (short := short) h4 h1 h2 h3 h5 h6 rfl).updates h4 pieces
      (fun c hc => by
        have : c.length ≤ pieces.flatten.length := (List.sublist_flatten_of_mem hc).length_le
        omega) hs
    rw [List.nil_append, h7] at h
    exact ⟨s, e, h.digest h8 h4 (by omega) hs'⟩
  cases secret with
  | none =>
    refine key (.ofSeed seed) rfl rfl rfl rfl rfl rfl ?_ ?_
    · show (if seed = 0 then _ else _) = (if seed ≠ 0 then _ else _)
      by_cases h : seed = 0 <;> simp [h]
    · show 136 ≤ (if seed = 0 then defaultSecret else customSecret seed).length
      split
      · rw [hd]; decide
      · rw [customSecret_length]; decide
  | some sec =>
    obtain ⟨h1, rfl⟩ := hsec sec rfl
    exact key (.ofSecret sec) rfl rfl rfl rfl rfl rfl rfl h1

/-- **C61**: if every piece has less than 256 bytes, the digest is the hash of the whole input, for both widths, every seed and every
secret of the smallest size the header names (`secret_size_min`, xxhash.hpp:955) or more. -/
theorem c61_short_pieces_partial (seed : Word) (secret : Option (List Byte))
    (hsec : ∀ sec, secret = some sec → 136 ≤ sec.length ∧ seed = 0) (pieces : List (List Byte))
    (hl : pieces.flatten.length + 256 < 2 ^ 64) (hs : ∀ c ∈ pieces, c.length < 256) :
    ∃ s, (Stream3.make seed secret).updates wide pieces = some s ∧
      s.digest wide = xxh3 wide pieces.flatten seed (secret.getD defaultSecret) :=
  stream3_of (short := True) seed secret hsec pieces hl (fun _ => hs) (.inl trivial)

/-- **C61**: for pieces of any size, the digest is the hash of the whole input if the input is short or does not end within the first
63 bytes of a group of 256.  (Otherwise it need not be: `c61_wrong_digest`.) -/
theorem c61_any_pieces_partial (seed : Word) (secret : Option (List Byte))
    (hsec : ∀ sec, secret = some sec → 136 ≤ sec.length ∧ seed = 0) (pieces : List (List Byte))
    (hl : pieces.flatten.length + 256 < 2 ^ 64)
    (hs : pieces.flatten.length ≤ 240 ∨ pieces.flatten.length % 256 = 0 ∨ 64 ≤ pieces.flatten.length % 256) :
    ∃ s, (Stream3.make seed secret).updates wide pieces = some s ∧
      s.digest wide = xxh3 wide pieces.flatten seed (secret.getD defaultSecret) :=
  stream3_of (short := False) seed secret hsec pieces hl (fun h => h.elim) (.inr hs)

/-- Input for the witness. -/
def piece257 : List Byte := List.replicate 257 1#8

/-- **C61 is false of the code**: one piece of 257 bytes, or 256 bytes and then one.  The digest of the first reads the end of a
buffer nothing has been written to, and differs from the hash of the input and from the digest of the same bytes in two pieces. -/
theorem c61_wrong_digest : ∃ s s', (Stream3.ofSeed 0).updates false [piece257] = some s ∧
    (Stream3.ofSeed 0).updates false [piece257.take 256, piece257.drop 256] = some s' ∧
    s.digest false ≠ xxh3 false piece257 0 defaultSecret ∧ s'.digest false = xxh3 false piece257 0 defaultSecret := by
  have h : (match (Stream3.ofSeed 0).updates false [piece257],
      (Stream3.ofSeed 0).updates false [piece257.take 256, piece257.drop 256] with
    | some s, some s' => decide (s.digest false ≠ xxh3 false piece257 0 defaultSecret ∧
        s'.digest false = xxh3 false piece257 0 defaultSecret)
    | _, _ => false) = true := by decide +kernel
  split at h
  · next s s' e1 e2 => exact ⟨s, s', e1, e2, of_decide_eq_true h⟩
  · cases h

/-! ## No read outside the input or the secret -/

theorem ok_bind {α β : Type} {x : Option α} {f : α → Option β} (h : ∃ a, x = some a) (k : ∀ a, ∃ b, f a = some b) :
    ∃ b, (x >>= f) = some b := by
  obtain ⟨a, rfl⟩ := h
  exact k a

theorem rd_ok {N : Nat} {p : List Byte} {i : Nat} (h : i + N / 8 ≤ p.length) : ∃ a, rd N p i = some a := ⟨_, if_pos h⟩

theorem mix16_ok {p s : List Byte} {i j : Nat} {seed : Word} (h1 : i + 16 ≤ p.length) (h2 : j + 16 ≤ s.length) :
    ∃ a, mix16 p i s j seed = some a := by
  unfold mix16
  iterate 4 refine ok_bind (rd_ok (by omega)) fun _ => ?_
  exact ⟨_, rfl⟩

theorem mix32_ok {acc : Word × Word} {p s : List Byte} {i1 i2 j : Nat} {seed : Word} (h1 : i1 + 16 ≤ p.length)
    (h2 : i2 + 16 ≤ p.length) (h3 : j + 32 ≤ s.length) : ∃ a, mix32 acc p i1 i2 s j seed = some a := by
  unfold mix32
  refine ok_bind (mix16_ok h1 (by omega)) fun _ => ?_
  iterate 2 refine ok_bind (rd_ok (by omega)) fun _ => ?_
  refine ok_bind (mix16_ok h2 (by omega)) fun _ => ?_
  iterate 2 refine ok_bind (rd_ok (by omega)) fun _ => ?_
  exact ⟨_, rfl⟩

theorem mixes16_ok {p s : List Byte} {seed : Word} {f : Nat → Nat} : ∀ (k i : Nat) (acc : Word),
    (∀ j, i ≤ j → j < i + k → j * 16 + 16 ≤ p.length ∧ f j + 16 ≤ s.length) → ∃ a, mixes16 p s seed f k i acc = some a
  | 0, _, acc, _ => ⟨acc, rfl⟩
  | k + 1, i, acc, h =>
    ok_bind (mix16_ok (h i (by omega) (by omega)).1 (h i (by omega) (by omega)).2)
      fun _ => mixes16_ok k (i + 1) _ fun j h1 h2 => h j (by omega) (by omega)

theorem mixes32_ok {p s : List Byte} {seed : Word} {f : Nat → Nat} : ∀ (k i : Nat) (acc : Word × Word),
    (∀ j, i ≤ j → j < i + k → j * 32 + 32 ≤ p.length ∧ f j + 32 ≤ s.length) → ∃ a, mixes32 p s seed f k i acc = some a
  | 0, _, acc, _ => ⟨acc, rfl⟩
  | k + 1, i, acc, h => by
    obtain ⟨h1, h2⟩ := h i (by omega) (by omega)
    exact ok_bind (mix32_ok (by omega) (by omega) h2)
      fun _ => mixes32_ok k (i + 1) _ fun j h1 h2 => h j (by omega) (by omega)

theorem if_ok {c : Prop} [Decidable c] {α : Type} {x y : Option α} (hx : c → ∃ a, x = some a) (hy : ¬c → ∃ a, y = some a) :
    ∃ a, (if c then x else y) = some a := by
  by_cases h : c
  · rw [if_pos h]; exact hx h
  · rw [if_neg h]; exact hy h

theorem len0to16_ok {p s : List Byte} {seed : Word} (hp : p.length ≤ 16) (hs : 96 ≤ s.length) :
    ∃ r, len0to16 wide p s seed = some r := by
  unfold len0to16
  refine if_ok (fun h1 => ?_) fun h1 => if_ok (fun h2 => ?_) fun h2 => if_ok (fun h3 => ?_) fun h3 => if_ok (fun h4 => ?_) fun h4 => ?_
  · unfold len9to16
    iterate 6 refine ok_bind (rd_ok (by omega)) fun _ => ?_
    refine if_ok (fun _ => ?_) fun _ => ⟨_, rfl⟩
    exact ok_bind (rd_ok (by omega)) fun _ => ⟨_, rfl⟩
  · unfold len4to8
    iterate 2 refine ok_bind (rd_ok (by omega)) fun _ => ?_
    refine if_ok (fun _ => ?_) fun _ => ?_
    all_goals
      iterate 2 refine ok_bind (rd_ok (by omega)) fun _ => ?_
      exact ⟨_, rfl⟩
  · unfold len1to3
    iterate 5 refine ok_bind (rd_ok (by omega)) fun _ => ?_
    refine if_ok (fun _ => ?_) fun _ => ⟨_, rfl⟩
    iterate 2 refine ok_bind (rd_ok (by omega)) fun _ => ?_
    exact ⟨_, rfl⟩
  · iterate 4 refine ok_bind (rd_ok (by omega)) fun _ => ?_
    exact ⟨_, rfl⟩
  · iterate 2 refine ok_bind (rd_ok (by omega)) fun _ => ?_
    exact ⟨_, rfl⟩

theorem len17to128_ok {p s : List Byte} {seed : Word} (hp : 16 < p.length) (hs : 128 ≤ s.length) :
    ∃ r, len17to128 wide p s seed = some r := by
  unfold len17to128
  refine if_ok (fun _ => ?_) fun _ => ?_
  · refine if_ok (fun _ => ok_bind (mix32_ok (by omega) (by omega) (by omega)) fun _ => ?_) fun _ => ok_bind ⟨_, rfl⟩ fun _ => ?_
    all_goals
      refine if_ok (fun _ => ok_bind (mix32_ok (by omega) (by omega) (by omega)) fun _ => ?_) fun _ => ok_bind ⟨_, rfl⟩ fun _ => ?_
      all_goals
        refine if_ok (fun _ => ok_bind (mix32_ok (by omega) (by omega) (by omega)) fun _ => ?_) fun _ => ok_bind ⟨_, rfl⟩ fun _ => ?_
        all_goals exact ok_bind (mix32_ok (by omega) (by omega) (by omega)) fun _ => ⟨_, rfl⟩
  · refine if_ok (fun _ => ok_bind (mix16_ok (by omega) (by omega)) fun _ => ok_bind (mix16_ok (by omega) (by omega)) fun _ =>
      ok_bind ⟨_, rfl⟩ fun _ => ?_)
      fun _ => ok_bind ⟨_, rfl⟩ fun _ => ?_
    all_goals
      refine if_ok (fun _ => ok_bind (mix16_ok (by omega) (by omega)) fun _ => ok_bind (mix16_ok (by omega) (by omega)) fun _ =>
      ok_bind ⟨_, rfl⟩ fun _ => ?_)
        fun _ => ok_bind ⟨_, rfl⟩ fun _ => ?_
      all_goals
        refine if_ok (fun _ => ok_bind (mix16_ok (by omega) (by omega)) fun _ => ok_bind (mix16_ok (by omega) (by omega)) fun _ =>
      ok_bind ⟨_, rfl⟩ fun _ => ?_)
          fun _ => ok_bind ⟨_, rfl⟩ fun _ => ?_
        all_goals exact ok_bind (mix16_ok (by omega) (by omega)) fun _ => ok_bind (mix16_ok (by omega) (by omega)) fun _ => ⟨_, rfl⟩

theorem len129to240_ok {p s : List Byte} {seed : Word} (hp : 128 < p.length) (hp' : p.length ≤ 240) (hs : 135 ≤ s.length) :
    ∃ r, len129to240 wide p s seed = some r := by
  unfold len129to240
  refine if_ok (fun _ => ?_) fun _ => ?_
  · refine ok_bind (mixes32_ok _ _ _ fun j _ _ => by omega) fun _ => ?_
    refine ok_bind (mixes32_ok _ _ _ fun j _ _ => by omega) fun _ => ?_
    exact ok_bind (mix32_ok (by omega) (by omega) (by omega)) fun _ => ⟨_, rfl⟩
  · refine ok_bind (mixes16_ok _ _ _ fun j _ _ => by omega) fun _ => ?_
    refine ok_bind (mixes16_ok _ _ _ fun j _ _ => by omega) fun _ => ?_
    exact ok_bind (mix16_ok (by omega) (by omega)) fun _ => ⟨_, rfl⟩

theorem mergeAccs_ok {acc : Acc8} {s : List Byte} {w : Word} (hs : 64 ≤ s.length) : ∃ r, mergeAccs acc s w = some r := by
  unfold mergeAccs mix2
  iterate 4 refine ok_bind (ok_bind (rd_ok (by omega)) fun _ => ok_bind (rd_ok (by omega)) fun _ => ⟨_, rfl⟩) fun _ => ?_
  exact ⟨_, rfl⟩

theorem hashLong_ok {p s : List Byte} (hp : 240 < p.length) (hs : 75 ≤ s.length) : ∃ r, hashLong wide p s = some r := by
  have h0 : (0 : Nat) < perBlock s := by show 0 < (s.length - 64) / 8; omega
  unfold hashLong
  refine ok_bind ?_ fun _ => ok_bind (mergeAccs_ok (by rw [List.length_drop]; omega)) fun _ => if_ok (fun _ =>
    ok_bind (mergeAccs_ok (by rw [List.length_drop]; omega)) fun _ => ⟨_, rfl⟩) fun _ => ⟨_, rfl⟩
  rw [longLoop_eq (by omega)]
  obtain ⟨y, hy, _⟩ := eats_some (wide := wide) (secret := s) (x := (initAcc, 0)) (p := p) (p.length / 64) (by omega) h0
  rw [hy]
  exact if_ok (fun _ => acc512_some (by rw [List.length_drop]; omega) (by rw [List.length_drop]; omega)) fun _ => ⟨_, rfl⟩

/-- **C61**: hashing reads neither outside the input nor outside the secret, for every input, every seed and every secret of at least
135 bytes (`secret_size_min` at xxhash.hpp:955 is 136). -/
theorem c61_in_bounds (input secret : List Byte) (seed : Word) (hs : 135 ≤ secret.length) :
    ∃ r, xxh3 wide input seed secret = some r := by
  have hd : defaultSecret.length = 192 := rfl
  have h1 : 135 ≤ (if seed ≠ 0 then customSecret seed else secret).length := by
    split
    · rw [customSecret_length]; decide
    · exact hs
  have h2 : 135 ≤ (if seed ≠ 0 then defaultSecret else secret).length := by
    split
    · rw [hd]; decide
    · exact hs
  unfold xxh3
  exact if_ok (fun _ => len0to16_ok (by omega) (by omega)) fun _ => if_ok (fun _ => len17to128_ok (by omega) (by omega)) fun _ =>
    if_ok (fun _ => len129to240_ok (by omega) (by omega) (by omega)) fun _ => hashLong_ok (by omega) (by omega)

/-- 135 is the least: with one byte less, hashing 129 bytes reads behind the secret, for both widths. -/
theorem c61_short_secret (wide : Bool) :
    xxh3 wide (List.replicate 129 0) 0 (List.replicate 134 0) = none := by
  cases wide <;> decide +kernel

/-! ## Vector modes -/

theorem ofLanes_self (a : Word) : ofLanes (a.setWidth 32) ((a >>> 32).setWidth 32) = a := by
  unfold ofLanes
  apply BitVec.eq_of_getLsbD_eq
  intro i hi
  simp only [BitVec.getLsbD_or, BitVec.getLsbD_setWidth, BitVec.getLsbD_shiftLeft, BitVec.getLsbD_ushiftRight]
  by_cases h : i < 32
  · simp [h, hi]
  · have h1 : i - 32 < 32 := by omega
    have h2 : 32 + (i - 32) = i := by omega
    have h3 : i - 32 < 64 := by omega
    simp [h, hi, h1, h2, h3]

theorem ofLanes_low (lo hi : BitVec 32) : (ofLanes lo hi).setWidth 32 = lo := by
  unfold ofLanes
  apply BitVec.eq_of_getLsbD_eq
  intro i hi
  simp only [BitVec.getLsbD_or, BitVec.getLsbD_setWidth, BitVec.getLsbD_shiftLeft]
  have h1 : i < 64 := by omega
  simp [hi, h1]

theorem low_half (x : Word) : (x.setWidth 32).setWidth 64 = x &&& 0xFFFFFFFF#64 := by
  apply BitVec.eq_of_toNat_eq
  rw [BitVec.toNat_setWidth, BitVec.toNat_setWidth, BitVec.toNat_and, show (0xFFFFFFFF#64).toNat = 2 ^ 32 - 1 from rfl,
    Nat.and_two_pow_sub_one_eq_mod]
  omega

theorem lane_product (x : Word) : (x.setWidth 32).setWidth 64 * (((x >>> 32).setWidth 32).setWidth 64) =
    mult32to64 (x &&& 0xFFFFFFFF#64) (x >>> 32) := by
  unfold mult32to64
  rw [← low_half]
  congr 1
  apply BitVec.eq_of_toNat_eq
  simp only [BitVec.toNat_setWidth]
  omega

theorem lane_scramble (x : Word) (q : BitVec 32) : (x.setWidth 32).setWidth 64 * q.setWidth 64 +
    ((((x >>> 32).setWidth 32).setWidth 64 * q.setWidth 64) <<< 32) = x * q.setWidth 64 := by
  apply BitVec.eq_of_toNat_eq
  simp only [BitVec.toNat_add, BitVec.toNat_mul, BitVec.toNat_setWidth, BitVec.toNat_shiftLeft, BitVec.toNat_ushiftRight,
    Nat.shiftRight_eq_div_pow, Nat.shiftLeft_eq]
  have hx := x.isLt
  have hq := q.isLt
  generalize x.toNat = a at hx
  generalize q.toNat = b at hq
  have e : a = a % 2 ^ 32 + 2 ^ 32 * (a / 2 ^ 32) := (Nat.mod_add_div a (2 ^ 32)).symm
  rw [Nat.mod_eq_of_lt (a := a / 2 ^ 32) (b := 2 ^ 32) (by omega), Nat.mod_eq_of_lt (a := a / 2 ^ 32) (b := 2 ^ 64) (by omega),
    Nat.mod_eq_of_lt (a := a % 2 ^ 32) (b := 2 ^ 64) (by omega), Nat.mod_eq_of_lt (a := b) (b := 2 ^ 64) (by omega)]
  rw [Nat.add_mod, Nat.mod_mod, Nat.mod_mod, ← Nat.add_mod, Nat.add_mod _ (_ % _ * _), Nat.mod_mul_mod, ← Nat.add_mod]
  congr 1
  conv_rhs => rw [e]
  ring

theorem low_of_shuffle (a : Word) (b : BitVec 32) : ((ofLanes ((a >>> 32).setWidth 32) b).setWidth 32).setWidth 64 =
    ((a >>> 32).setWidth 32).setWidth 64 := by rw [ofLanes_low]

theorem word_left_comm (a b c : Word) : a + (b + c) = b + (a + c) := by ac_rfl

theorem list8 {α : Type} {l : List α} (h : l.length = 8) : ∃ a b c d e f g i, l = [a, b, c, d, e, f, g, i] := by
  match l, h with
  | [a, b, c, d, e, f, g, i], _ => exact ⟨a, b, c, d, e, f, g, i, rfl⟩

/-- The words of a stripe (no code of its own). -/
theorem rd_words {p : List Byte} (h : 64 ≤ p.length) : ∃ f : Nat → Word, ∀ i < 8, rd 64 p (8 * i) = some (f i) :=
  ⟨fun i => readBytes 64 ((p.drop (8 * i)).take 8), fun i hi => rd_some (by omega)⟩

/-- **C61**: the SSE2 (`w = 2`) and AVX2 (`w = 4`) versions of `accumulate_512` and `scramble_acc` compute what the scalar ones do,
for all accumulators, stripes and secrets. -/
theorem c61_vector_modes (w : Nat) (hw : w = 2 ∨ w = 4) (acc : Acc8) (ha : acc.length = 8) (input secret : List Byte)
    (hi : 64 ≤ input.length) (hs : 64 ≤ secret.length) :
    accumulate512V w wide acc input secret = accumulate512 wide acc input secret ∧ scrambleV w acc secret = scramble acc secret := by
  obtain ⟨a0, a1, a2, a3, a4, a5, a6, a7, rfl⟩ := list8 ha
  obtain ⟨d, hd⟩ := rd_words hi
  obtain ⟨k, hk⟩ := rd_words hs
  have hd0 := hd 0 (by decide); have hd1 := hd 1 (by decide); have hd2 := hd 2 (by decide); have hd3 := hd 3 (by decide)
  have hd4 := hd 4 (by decide); have hd5 := hd 5 (by decide); have hd6 := hd 6 (by decide); have hd7 := hd 7 (by decide)
  have hk0 := hk 0 (by decide); have hk1 := hk 1 (by decide); have hk2 := hk 2 (by decide); have hk3 := hk 3 (by decide)
  have hk4 := hk 4 (by decide); have hk5 := hk 5 (by decide); have hk6 := hk 6 (by decide); have hk7 := hk 7 (by decide)
  norm_num only at hd0 hd1 hd2 hd3 hd4 hd5 hd6 hd7 hk0 hk1 hk2 hk3 hk4 hk5 hk6 hk7
  constructor
  · cases wide <;> rcases hw with rfl | rfl <;>
      simp [accumulate512V, accumVec, accumulate512, accumLane, loadV, List.range_succ, hd0, hd1, hd2, hd3, hd4, hd5, hd6, hd7, hk0, hk1,
        hk2, hk3, hk4, hk5, hk6, hk7, xorV, mulEpu32, shuffle, lanes, addV, ofLanes_low, ofLanes_self, lane_product, List.modify, -BitVec.setWidth_xor,
        -BitVec.setWidth_setWidth, BitVec.add_assoc, BitVec.add_comm, word_left_comm]
  · rcases hw with rfl | rfl <;>
      simp [scrambleV, scrambleVec, scramble, scrambleLane, loadV, List.range_succ, hk0, hk1,
        hk2, hk3, hk4, hk5, hk6, hk7, xorV, mulEpu32, shuffle, lanes, addV, ofLanes_low, ofLanes_self, lane_scramble, List.modify, -BitVec.setWidth_xor,
        -BitVec.setWidth_setWidth]

/-- **C61**: `operator>` on 128-bit hashes is not an order: each of 1 and 2^64 is greater than the other, and neither is less. -/
theorem c61_not_an_order : gt128 (1, 0) (0, 1) = true ∧ gt128 (0, 1) (1, 0) = true ∧
    lt128 (1, 0) (0, 1) = false ∧ lt128 (0, 1) (1, 0) = false := by decide

/-- `operator<` holds between 128-bit hashes exactly if neither half is greater and one is less: less is right, but not complete. -/
theorem c61_less (a b : Word × Word) : lt128 a b = true ↔ a.1 ≤ b.1 ∧ a.2 ≤ b.2 ∧ a ≠ b := by
  unfold lt128 gt128
  rw [ne_eq, Prod.ext_iff]
  simp only [Bool.not_eq_true', Bool.or_eq_false_iff, decide_eq_false_iff_not, Bool.and_eq_false_iff, beq_eq_false_iff_ne, gt_iff_lt,
    BitVec.not_lt]
  tauto

/-! ## Cases that meet the hypotheses -/

/-- Pieces for the examples: one short piece after another, 300 bytes in all (no code of its own). -/
def pieces300 : List (List Byte) := [List.replicate 100 7, List.replicate 150 8, List.replicate 50 9]

example : pieces300.flatten.length + 256 < 2 ^ 64 ∧ (∀ c ∈ pieces300, c.length < 256) ∧ pieces300.flatten.length % 256 = 44 := by decide +kernel
example : ∃ s, (Stream3.make 5 none).updates true pieces300 = some s ∧
    s.digest true = xxh3 true pieces300.flatten 5 defaultSecret :=
  c61_short_pieces_partial 5 none (fun _ h => by cases h) pieces300 (by decide +kernel) (by decide +kernel)
example : ∃ s, (Stream3.make 0 (some (List.replicate 136 3))).updates false pieces300 = some s ∧
    s.digest false = xxh3 false pieces300.flatten 0 (List.replicate 136 3) :=
  c61_short_pieces_partial 0 (some (List.replicate 136 3)) (fun _ h => by cases h; decide +kernel) pieces300 (by decide +kernel) (by decide +kernel)
/-- One piece of 320 bytes: the end lies 64 bytes into a group of 256. -/
example : ∃ s, (Stream3.make 0 none).updates false [List.replicate 320 3] = some s ∧
    s.digest false = xxh3 false [List.replicate 320 3].flatten 0 defaultSecret :=
  c61_any_pieces_partial 0 none (fun _ h => by cases h) [List.replicate 320 3] (by decide +kernel) (by decide +kernel)
/-- The hash is not constant: two inputs of every kind of length have different hashes. -/
example : xxh3 false (List.replicate 3 1) 0 defaultSecret ≠ xxh3 false (List.replicate 3 2) 0 defaultSecret ∧
    xxh3 true (List.replicate 7 1) 0 defaultSecret ≠ xxh3 true (List.replicate 7 2) 0 defaultSecret ∧
    xxh3 false (List.replicate 100 1) 9 defaultSecret ≠ xxh3 false (List.replicate 100 1) 8 defaultSecret := by decide +kernel
example : (2 = 2 ∨ 2 = 4) ∧ initAcc.length = 8 ∧ 64 ≤ (List.replicate 64 (1 : Byte)).length ∧ 64 ≤ defaultSecret.length := by decide +kernel
/-- `accumulate_512` changes the accumulators. -/
example : accumulate512 true initAcc (List.replicate 64 1) defaultSecret ≠ some initAcc := by decide +kernel

end PMap.XXH
