import Verif.CCEH.Model
import Mathlib.Tactic.Ring
import Mathlib.Tactic.Positivity
import Mathlib.Data.Nat.Bitwise

/-!
# The invariant of `CCEH` (proof machinery)
-/

namespace PMap.CCEH

variable {hash : Key → BitVec 64} {len : Nat} {S : Key → Prop} {m : BitVec 64 → Nat}

theorem bind_done {α β : Type} {r : Res α} {f : α → Res β} {b : β} (h : (r >>= f) = .done b) : ∃ a, r = .done a ∧ f a = .done b := by
  cases r with
  | done a => exact ⟨a, rfl, h⟩
  | ub => cases h
  | fuel => cases h

theorem done_bind {α β : Type} (a : α) (f : α → Res β) : ((Res.done a : Res α) >>= f) = f a := rfl

theorem top_done {h : BitVec 64} {d p : Nat} (e : top h d = .done p) : 1 ≤ d ∧ d ≤ 64 ∧ p = h.toNat / 2 ^ (64 - d) := by
  unfold top at e
  split at e
  · cases e
  · cases e
    exact ⟨by omega, by omega, Nat.shiftRight_eq_div_pow ..⟩

theorem top_eq {h : BitVec 64} {d : Nat} (h1 : 1 ≤ d) (h2 : d ≤ 64) : top h d = .done (h.toNat / 2 ^ (64 - d)) := by
  rw [top, if_neg (by omega), Nat.shiftRight_eq_div_pow]

theorem top_lt (h : BitVec 64) {d : Nat} (h2 : d ≤ 64) : h.toNat / 2 ^ (64 - d) < 2 ^ d := by
  rw [Nat.div_lt_iff_lt_mul (by positivity), ← Nat.pow_add]
  have := h.isLt
  rwa [show d + (64 - d) = 64 by omega]

/-- Bytes that `strncmp` compares to the end. -/
def Plain (len : Nat) (k : Key) : Prop := k.length = len ∧ ∀ b ∈ k, b ≠ 0

theorem keyEqual_plain {a b : Key} (ha : Plain len a) (hb : Plain len b) : keyEqual len a b = .done (decide (a = b)) := by
  induction a generalizing b len with
  | nil =>
    obtain ⟨rfl, -⟩ := ha
    have : b = [] := List.eq_nil_of_length_eq_zero hb.1
    subst this
    rfl
  | cons x a ih =>
    obtain ⟨rfl, hx⟩ := ha
    cases b with
    | nil => have := hb.1; simp at this
    | cons y b =>
      rw [List.length_cons, keyEqual]
      by_cases e : x = y
      · subst e
        rw [if_neg (by simp), if_neg (hx x (by simp))]
        rw [ih ⟨rfl, fun b hb => hx b (List.mem_cons_of_mem _ hb)⟩
          ⟨by have := hb.1; simpa using this, fun c hc => hb.2 c (List.mem_cons_of_mem _ hc)⟩]
        simp
      · rw [if_pos e]
        simp [e]

/-- The key does not go over the end of a segment. -/
def Inside (hash : Key → BitVec 64) (k : Key) : Prop := (hash k).toNat % 256 ≤ 252

theorem Inside.loc {k : Key} (h : Inside hash k) : loc (hash k) + 15 < 1024 := by
  unfold Inside at h
  unfold CCEH.loc
  omega

/-! ## One segment -/

/-- Where the keys of a segment lie. -/
def Placed (hash : Key → BitVec 64) (S : Key → Prop) (s : Seg) : Prop :=
  ∀ i k, s.slots i = some k → S k ∧ loc (hash k) ≤ i ∧ i ≤ loc (hash k) + 15

/-- The slots before `n` with a key of hash `h`. -/
def cnt (hash : Key → BitVec 64) (s : Seg) (h : BitVec 64) : Nat → Nat
  | 0 => 0
  | n + 1 => cnt hash s h n + if (s.slots n).map hash = some h then 1 else 0

theorem cnt_congr {s s' : Seg} {h : BitVec 64} {n : Nat} (e : ∀ i < n, (s.slots i).map hash = some h ↔ (s'.slots i).map hash = some h) :
    cnt hash s h n = cnt hash s' h n := by
  induction n with
  | zero => rfl
  | succ n ih =>
    rw [cnt, cnt, ih (fun i hi => e i (by omega))]
    simp only [e n (by omega)]

theorem cnt_new (d p : Nat) (h : BitVec 64) (n : Nat) : cnt hash (Seg.new d p) h n = 0 := by
  induction n with
  | zero => rfl
  | succ n ih => rw [cnt, ih]; simp [Seg.new]

theorem cnt_mono {s : Seg} {h : BitVec 64} {n n' : Nat} (hn : n ≤ n') : cnt hash s h n ≤ cnt hash s h n' := by
  induction n' with
  | zero => rw [Nat.le_zero.mp hn]
  | succ n' ih =>
    rcases Nat.lt_or_eq_of_le hn with hlt | rfl
    · rw [cnt]
      have := ih (by omega)
      omega
    · exact Nat.le_refl _

theorem cnt_ge {s : Seg} {h : BitVec 64} {a w : Nat} (hw : ∀ i, a ≤ i → i < a + w → (s.slots i).map hash = some h) : w ≤ cnt hash s h (a + w) := by
  induction w with
  | zero => omega
  | succ w ih =>
    have := ih (fun i h1 h2 => hw i h1 (by omega))
    rw [← Nat.add_assoc, cnt, if_pos (hw _ (by omega) (by omega))]
    omega

theorem cnt_set {s : Seg} {h : BitVec 64} {i : Nat} {key : Key} (hi : (s.slots i).map hash ≠ some h) (n : Nat) :
    cnt hash (s.set i (some key)) h n = cnt hash s h n + if i < n ∧ hash key = h then 1 else 0 := by
  induction n with
  | zero => simp [cnt]
  | succ n ih =>
    rw [cnt, cnt, ih]
    by_cases e : n = i
    · subst e
      rw [if_neg (by omega), if_neg hi]
      simp [Seg.set]
    · have : (i < n + 1 ∧ hash key = h) ↔ (i < n ∧ hash key = h) := by
        constructor <;> (intro ⟨a, b⟩; exact ⟨by omega, b⟩)
      simp only [Seg.set, if_neg e, this]
      omega

theorem cnt_le {s : Seg} (hp : Placed hash S s) (h : BitVec 64) (n : Nat) : cnt hash s h n ≤ n - loc h ∧ cnt hash s h n ≤ 16 := by
  induction n with
  | zero => simp [cnt]
  | succ n ih =>
    rw [cnt]
    split
    · next e =>
      cases e' : s.slots n with
      | none => rw [e'] at e; cases e
      | some k =>
        rw [e'] at e
        cases e
        have := hp n k e'
        omega
    · omega

theorem insertSlot_spec {s s' : Seg} {key : Key} {start : Nat} (hst : start + 15 < 1024)
    (hlen : ∀ i k, s.slots i = some k → k.length = key.length) {n : Nat} (hn : n ≤ 16)
    (h : insertSlot hash s key start n = .done (some s')) :
    ∃ i, start ≤ i ∧ i ≤ start + 15 ∧ s' = s.set i (some key) ∧
      ∀ k, s.slots i = some k → (hash k).toNat / 2 ^ (64 - s.depth) ≠ s.pattern := by
  induction n with
  | zero => simp [insertSlot] at h
  | succ n ih =>
    rw [insertSlot] at h
    rw [Nat.mod_eq_of_lt (by omega)] at h
    split at h
    · next e =>
      cases h
      exact ⟨start + (15 - n), by omega, by omega, rfl, fun k hk => by rw [e] at hk; cases hk⟩
    · next k e =>
      obtain ⟨hv, h1, h⟩ := bind_done h
      obtain ⟨p, h2, h⟩ := bind_done h
      have hl := hlen _ _ e
      rw [hasher, if_pos (by omega), ← hl, List.take_length] at h1
      cases h1
      obtain ⟨-, -, rfl⟩ := top_done h2
      split at h
      · exact ih (by omega) h
      · next hne =>
        cases h
        refine ⟨start + (15 - n), by omega, by omega, rfl, fun k' hk => ?_⟩
        rw [e] at hk
        cases hk
        exact hne

theorem insert4split_spec {s : Seg} {key : Key} {start j : Nat} (hst : start + 15 < 1024) (h2 : j ≤ start + 15)
    (hj : s.slots j = none) {n : Nat} (hn : n ≤ 16) (h1 : start + (16 - n) ≤ j) :
    ∃ p, start ≤ p ∧ p ≤ j ∧ s.slots p = none ∧ insert4split s key start n = s.set p (some key) := by
  induction n with
  | zero => omega
  | succ n ih =>
    rw [insert4split]
    rw [Nat.mod_eq_of_lt (by omega)]
    split
    · next e => exact ⟨start + (15 - n), by omega, by omega, e, rfl⟩
    · next k e =>
      refine ih (by omega) ?_
      rcases Nat.lt_or_ge (start + (15 - n)) j with h | h
      · omega
      · have : start + (15 - n) = j := by omega
        rw [this, hj] at e
        cases e

theorem migrate_spec {s : Seg} (hS : ∀ k, S k → Inside hash k) (hp : Placed hash S s) (d p : Nat) (i : Nat) :
    (∀ j k, j < i → s.slots j = some k → (hash k).getLsbD (64 - s.depth - 1) = true →
      ∃ q, (migrate hash s i (Seg.new d p)).slots q = some k) ∧
    (∀ q k, (migrate hash s i (Seg.new d p)).slots q = some k → q < i ∧ S k ∧ loc (hash k) ≤ q ∧ q ≤ loc (hash k) + 15) ∧
    (migrate hash s i (Seg.new d p)).depth = d ∧
    (∀ h, h.getLsbD (64 - s.depth - 1) = true → cnt hash (migrate hash s i (Seg.new d p)) h 1024 = cnt hash s h i) := by
  induction i with
  | zero =>
    refine ⟨fun j k h => absurd h (Nat.not_lt_zero _), fun q k h => (by simp [migrate, Seg.new] at h), rfl, fun h _ => ?_⟩
    exact cnt_new d p h 1024
  | succ i ih =>
    obtain ⟨h1, h2, h3, h4⟩ := ih
    rw [migrate]
    have hlt : ∀ q k, (migrate hash s i (Seg.new d p)).slots q = some k → q < i + 1 ∧ S k ∧ loc (hash k) ≤ q ∧
        q ≤ loc (hash k) + 15 := fun q k h => ⟨by have := (h2 q k h).1; omega, (h2 q k h).2⟩
    split
    · next e =>
      refine ⟨fun j k hj hk hb => ?_, hlt, h3, fun h hb => by rw [h4 h hb, cnt, e]; simp⟩
      rcases Nat.lt_or_eq_of_le (Nat.le_of_lt_succ hj) with h | rfl
      · exact h1 j k h hk hb
      · rw [e] at hk; cases hk
    · next k e =>
      obtain ⟨g1, g2, g3⟩ := hp i k e
      split
      · next hbit =>
        have hfree : (migrate hash s i (Seg.new d p)).slots i = none := by
          cases e' : (migrate hash s i (Seg.new d p)).slots i with
          | none => rfl
          | some k' => exact absurd (h2 i k' e').1 (Nat.lt_irrefl _)
        obtain ⟨q, f1, f2, f3, f4⟩ := insert4split_spec (key := k) (hS k g1).loc g3 hfree (n := 16) (Nat.le_refl _) (by omega)
        rw [f4]
        refine ⟨fun j k' hj hk hb => ?_, fun q' k' hk => ?_, h3, fun h hb => ?_⟩
        · rcases Nat.lt_or_eq_of_le (Nat.le_of_lt_succ hj) with h | rfl
          · obtain ⟨q', hq'⟩ := h1 j k' h hk hb
            refine ⟨q', ?_⟩
            simp only [Seg.set]
            rw [if_neg (fun c => by rw [c, f3] at hq'; cases hq'), hq']
          · rw [e] at hk
            cases hk
            exact ⟨q, if_pos rfl⟩
        · simp only [Seg.set] at hk
          split at hk
          · next hq =>
            cases hk
            exact ⟨by omega, g1, by omega, by omega⟩
          · exact hlt q' k' hk
        · rw [cnt_set (by rw [f3]; simp), h4 h hb, cnt, e]
          have : q < 1024 := by have := (hS k g1).loc; omega
          simp [this]
      · next hbit =>
        refine ⟨fun j k' hj hk hb => ?_, hlt, h3, fun h hb => ?_⟩
        rcases Nat.lt_or_eq_of_le (Nat.le_of_lt_succ hj) with h | rfl
        · exact h1 j k' h hk hb
        · rw [e] at hk
          cases hk
          exact absurd hb hbit
        · rw [h4 h hb, cnt, e, if_neg]
          · omega
          · simp only [Option.map_some, Option.some.injEq]
            rintro rfl
            exact hbit hb

/-! ## The table -/

structure Inv (hash : Key → BitVec 64) (S : Key → Prop) (m : BitVec 64 → Nat) (c : Table) : Prop where
  d1 : 1 ≤ c.depth
  d2 : c.depth ≤ 64
  lt : ∀ x, x < 2 ^ c.depth → c.dir x < c.next
  ld : ∀ x, x < 2 ^ c.depth → 1 ≤ (c.segs (c.dir x)).depth ∧ (c.segs (c.dir x)).depth ≤ c.depth
  pat : ∀ x, x < 2 ^ c.depth → (c.segs (c.dir x)).pattern = x / 2 ^ (c.depth - (c.segs (c.dir x)).depth)
  same : ∀ x x', x < 2 ^ c.depth → x' < 2 ^ c.depth →
    x' / 2 ^ (c.depth - (c.segs (c.dir x)).depth) = x / 2 ^ (c.depth - (c.segs (c.dir x)).depth) → c.dir x' = c.dir x
  slot : ∀ t, Placed hash S (c.segs t)
  has : ∀ k, S k → ∃ i, (c.segs (c.dir ((hash k).toNat / 2 ^ (64 - c.depth)))).slots i = some k
  cnt : ∀ h : BitVec 64, m h = cnt hash (c.segs (c.dir (h.toNat / 2 ^ (64 - c.depth)))) h 1024

theorem inv_new {d : Nat} (h1 : 1 ≤ d) (h2 : d ≤ 64) : Inv hash (fun _ => False) (fun _ => 0) (Table.new d) where
  d1 := h1
  d2 := h2
  lt := fun _ h => h
  ld := fun _ _ => ⟨h1, Nat.le_refl _⟩
  pat := fun x _ => by simp [Table.new, Seg.new]
  same := fun x x' _ _ h => by simpa [Table.new, Seg.new] using h
  slot := fun t i k h => by cases h
  has := fun k h => h.elim
  cnt := fun h => (cnt_new _ _ h 1024).symm

theorem Inv.double {c : Table} (h : Inv hash S m c) (hd : c.depth < 64) :
    Inv hash S m { c with depth := c.depth + 1, dir := fun i => c.dir (i / 2) } := by
  have hx : ∀ {x}, x < 2 ^ (c.depth + 1) → x / 2 < 2 ^ c.depth := fun {x} hx => by rw [Nat.pow_succ] at hx; omega
  have hdiv : ∀ x e, e ≤ c.depth → x / 2 ^ (c.depth + 1 - e) = x / 2 / 2 ^ (c.depth - e) := by
    intro x e he
    rw [Nat.div_div_eq_div_mul, show c.depth + 1 - e = (c.depth - e) + 1 by omega, Nat.pow_succ, Nat.mul_comm]
  refine ⟨by simp only; omega, by simp only; omega, fun x h' => h.lt _ (hx h'), fun x h' => ?_, fun x h' => ?_, fun x x' h1 h2 e => ?_, h.slot, fun k hk => ?_, fun k => ?_⟩
  · have := h.ld _ (hx h')
    exact ⟨this.1, Nat.le_succ_of_le this.2⟩
  · simp only at h' ⊢
    rw [hdiv x _ (h.ld _ (hx h')).2]
    exact h.pat _ (hx h')
  · simp only at h1 h2 e ⊢
    rw [hdiv x _ (h.ld _ (hx h1)).2, hdiv x' _ (h.ld _ (hx h1)).2] at e
    exact h.same _ _ (hx h1) (hx h2) e
  · obtain ⟨i, hi⟩ := h.has k hk
    refine ⟨i, ?_⟩
    simp only
    rw [Nat.div_div_eq_div_mul, ← Nat.pow_succ, show (64 - (c.depth + 1)).succ = 64 - c.depth by omega]
    exact hi
  · have hi := h.cnt k
    simp only
    rw [Nat.div_div_eq_div_mul, ← Nat.pow_succ, show (64 - (c.depth + 1)).succ = 64 - c.depth by omega]
    exact hi

/-- A segment that does not use the whole depth of the directory is split. -/
theorem Inv.halved {c : Table} (h : Inv hash S m c) (hS : ∀ k, S k → Inside hash k) {x : Nat} (hx : x < 2 ^ c.depth)
    (hd : (c.segs (c.dir x)).depth < c.depth) {s' new : Seg}
    (hs : s' = { c.segs (c.dir x) with depth := (c.segs (c.dir x)).depth + 1, pattern := 2 * (c.segs (c.dir x)).pattern })
    (hn : new = { migrate hash (c.segs (c.dir x)) 1024 (Seg.new ((c.segs (c.dir x)).depth + 1) 0) with
      pattern := 2 * (c.segs (c.dir x)).pattern + 1 }) :
    Inv hash S m {
      segs := fun i => if i = c.next then new else if i = c.dir x then s' else c.segs i
      next := c.next + 1
      depth := c.depth
      dir := fun i => if i / 2 ^ (c.depth - (c.segs (c.dir x)).depth - 1) = 2 * (c.segs (c.dir x)).pattern + 1 then c.next else c.dir i } := by
  obtain ⟨m1, m2, m3, m4⟩ := migrate_spec hS (h.slot (c.dir x)) ((c.segs (c.dir x)).depth + 1) 0 1024
  have hsd : s'.depth = (c.segs (c.dir x)).depth + 1 := by rw [hs]
  have hsp : s'.pattern = 2 * (c.segs (c.dir x)).pattern := by rw [hs]
  have hss : s'.slots = (c.segs (c.dir x)).slots := by rw [hs]
  have hnd : new.depth = (c.segs (c.dir x)).depth + 1 := by rw [hn]; exact m3
  have hnp : new.pattern = 2 * (c.segs (c.dir x)).pattern + 1 := by rw [hn]
  have hns : new.slots = (migrate hash (c.segs (c.dir x)) 1024 (Seg.new ((c.segs (c.dir x)).depth + 1) 0)).slots := by rw [hn]
  clear hs hn
  have hpat := h.pat x hx
  have hld := h.ld x hx
  have hne : ∀ y, y < 2 ^ c.depth → c.dir y ≠ c.next := fun y hy e => by have := h.lt y hy; omega
  generalize ht : c.dir x = t at *
  generalize hP : (c.segs t).pattern = P at *
  generalize hdd : (c.segs t).depth = d at *
  have hchunk : ∀ y, y / 2 ^ (c.depth - d) = y / 2 ^ (c.depth - d - 1) / 2 := by
    intro y
    rw [Nat.div_div_eq_div_mul, ← Nat.pow_succ, show (c.depth - d - 1).succ = c.depth - d by omega]
  -- the right half belonged to `t`
  have hright : ∀ y, y < 2 ^ c.depth → y / 2 ^ (c.depth - d - 1) = 2 * P + 1 → c.dir y = t := by
    intro y hy e
    rw [← ht]
    refine h.same x y hx hy ?_
    rw [ht, hdd, ← hpat, hchunk, e]
    omega
  -- the rest of `t`
  have hleft : ∀ y, y < 2 ^ c.depth → c.dir y = t → y / 2 ^ (c.depth - d - 1) ≠ 2 * P + 1 → y / 2 ^ (c.depth - d - 1) = 2 * P := by
    intro y hy e hno
    have := h.pat y hy
    rw [e, hdd, hP, hchunk] at this
    omega
  have e1 : c.depth - (d + 1) = c.depth - d - 1 := by omega
  refine ⟨h.d1, h.d2, fun y hy => ?_, fun y hy => ?_, fun y hy => ?_, fun y y' hy hy' e => ?_, fun u => ?_, fun k hk => ?_, fun k => ?_⟩
  · simp only at hy ⊢
    split
    · omega
    · have := h.lt y hy; omega
  · simp only at hy ⊢
    split
    · rw [if_pos rfl, hnd]; omega
    · rw [if_neg (hne y hy)]
      split
      · rw [hsd]; omega
      · exact h.ld y hy
  · simp only at hy ⊢
    split
    · next e => rw [if_pos rfl, hnp, hnd, e1, e]
    · next e =>
      rw [if_neg (hne y hy)]
      split
      · next e' => rw [hsp, hsd, e1, hleft y hy e' e]
      · exact h.pat y hy
  · simp only at hy hy' e ⊢
    by_cases r : y / 2 ^ (c.depth - d - 1) = 2 * P + 1
    · simp only [if_pos r, if_true, hnd, e1] at e ⊢
      rw [if_pos (e.trans r)]
    · simp only [if_neg r, if_neg (hne y hy)] at e ⊢
      by_cases e' : c.dir y = t
      · simp only [if_pos e', hsd, e1] at e
        rw [hleft y hy e' r] at e
        rw [if_neg (by omega), e', ← ht]
        refine h.same x y' hx hy' ?_
        rw [ht, hdd, ← hpat, hchunk, e]
        omega
      · simp only [if_neg e'] at e
        have := h.same y y' hy hy' e
        rw [if_neg (fun r' => e' (this.symm.trans (hright y' hy' r')))]
        exact this
  · simp only
    split
    · intro i k hk
      rw [hns] at hk
      exact (m2 i k hk).2
    · split
      · intro i k hk
        rw [hss] at hk
        exact h.slot t i k hk
      · exact h.slot u
  · simp only
    obtain ⟨i, hi⟩ := h.has k hk
    have hxk := top_lt (hash k) h.d2
    split
    · next r =>
      rw [hright _ hxk r] at hi
      rw [if_pos rfl, hns]
      obtain ⟨-, q2, q3⟩ := h.slot t i k hi
      refine m1 i k (by have := (hS k hk).loc; omega) hi ?_
      rw [BitVec.getLsbD, Nat.testBit_eq_decide_div_mod_eq, decide_eq_true_eq]
      rw [Nat.div_div_eq_div_mul, ← Nat.pow_add, show 64 - c.depth + (c.depth - d - 1) = 64 - d - 1 by have := h.d2; omega] at r
      rw [r]
      omega
    · rw [if_neg (hne _ hxk)]
      split
      · next e => rw [e] at hi; exact ⟨i, by rw [hss]; exact hi⟩
      · exact ⟨i, hi⟩
  · simp only
    have hi := h.cnt k
    have hxk := top_lt k h.d2
    split
    · next r =>
      rw [hright _ hxk r] at hi
      rw [if_pos rfl, cnt_congr (s' := migrate hash (c.segs t) 1024 (Seg.new (d + 1) 0)) (fun _ _ => by rw [hns]), m4]
      · exact hi
      · rw [BitVec.getLsbD, Nat.testBit_eq_decide_div_mod_eq, decide_eq_true_eq]
        rw [Nat.div_div_eq_div_mul, ← Nat.pow_add, show 64 - c.depth + (c.depth - d - 1) = 64 - d - 1 by have := h.d2; omega] at r
        rw [r]
        omega
    · rw [if_neg (hne _ hxk)]
      split
      · next e =>
        rw [e] at hi
        rwa [cnt_congr (s' := c.segs t) (fun _ _ => by rw [hss])]
      · exact hi

/-- A key is stored. -/
theorem Inv.store {c : Table} (h : Inv hash S m c) {key : Key} (hk : Inside hash key) {s' : Seg} {i : Nat}
    (hi : loc (hash key) ≤ i ∧ i ≤ loc (hash key) + 15)
    (hs : s' = (c.segs (c.dir ((hash key).toNat / 2 ^ (64 - c.depth)))).set i (some key))
    (hst : ∀ k, (c.segs (c.dir ((hash key).toNat / 2 ^ (64 - c.depth)))).slots i = some k →
      (hash k).toNat / 2 ^ (64 - (c.segs (c.dir ((hash key).toNat / 2 ^ (64 - c.depth)))).depth) ≠
        (c.segs (c.dir ((hash key).toNat / 2 ^ (64 - c.depth)))).pattern) :
    Inv hash (fun k => S k ∨ k = key) (fun x => m x + if hash key = x then 1 else 0)
      { c with segs := fun j => if j = c.dir ((hash key).toNat / 2 ^ (64 - c.depth)) then s' else c.segs j } := by
  have hx := top_lt (hash key) h.d2
  generalize hxx : (hash key).toNat / 2 ^ (64 - c.depth) = x at *
  generalize ht : c.dir x = t at *
  subst hs
  have hd : ∀ j, (if j = t then (c.segs t).set i (some key) else c.segs j).depth = (c.segs j).depth := by
    intro j; split
    · next e => rw [e]; rfl
    · rfl
  have hp : ∀ j, (if j = t then (c.segs t).set i (some key) else c.segs j).pattern = (c.segs j).pattern := by
    intro j; split
    · next e => rw [e]; rfl
    · rfl
  -- what is overwritten is not of this segment
  have hlive : ∀ k : BitVec 64, c.dir (k.toNat / 2 ^ (64 - c.depth)) = t → ((c.segs t).slots i).map hash ≠ some k := by
    intro k e hk
    cases e' : (c.segs t).slots i with
    | none => rw [e'] at hk; cases hk
    | some k' =>
      rw [e'] at hk
      cases hk
      apply hst k' e'
      have hk' := top_lt (hash k') h.d2
      have := h.pat _ hk'
      have hl := (h.ld _ hk').2
      rw [e] at this hl
      rw [this, Nat.div_div_eq_div_mul, ← Nat.pow_add]
      congr 2
      have := h.d2
      omega
  refine ⟨h.d1, h.d2, h.lt, fun y hy => ?_, fun y hy => ?_, fun y y' hy hy' e => ?_, fun u => ?_, fun k hk => ?_, fun k => ?_⟩
  · simp only [hd]; exact h.ld y hy
  · simp only [hd, hp]; exact h.pat y hy
  · simp only [hd] at e; exact h.same y y' hy hy' e
  · intro j k hj
    simp only at hj
    split at hj
    · simp only [Seg.set] at hj
      split at hj
      · next e => cases hj; exact ⟨Or.inr rfl, by omega, by omega⟩
      · have := h.slot t j k hj
        exact ⟨Or.inl this.1, this.2⟩
    · have := h.slot u j k hj
      exact ⟨Or.inl this.1, this.2⟩
  · simp only
    by_cases hkk : k = key
    · subst hkk
      rw [hxx, ht, if_pos rfl]
      exact ⟨i, if_pos rfl⟩
    obtain ⟨j, hj⟩ := h.has k (hk.resolve_right hkk)
    refine ⟨j, ?_⟩
    split
    · next e =>
      rw [e] at hj
      have hne : j ≠ i := fun c' => hlive (hash k) e (by rw [← c', hj]; rfl)
      simp only [Seg.set, if_neg hne, hj]
    · exact hj
  · simp only
    have hc := h.cnt k
    by_cases e : c.dir (k.toNat / 2 ^ (64 - c.depth)) = t
    · rw [if_pos e]
      rw [e] at hc
      rw [cnt_set (hlive k e)]
      have : i < 1024 := by have := hk.loc; omega
      simp only [this, true_and]
      omega
    · rw [if_neg e, if_neg]
      · exact hc
      · rintro rfl
        exact e (by rw [hxx, ht])

/-- A full segment is split, and its right half entered in the directory. -/
theorem Inv.full {c c1 c' : Table} (h : Inv hash S m c) (hS : ∀ k, S k → Inside hash k) {k : BitVec 64}
    (h1 : split hash c (c.dir (k.toNat / 2 ^ (64 - c.depth))) k = .done c1)
    (h2 : link (setPattern c1 (c.dir (k.toNat / 2 ^ (64 - c.depth))) c.next k) (c.dir (k.toNat / 2 ^ (64 - c.depth))) c.next k = .done c') :
    Inv hash S m c' ∧ (c'.segs (c'.dir (k.toNat / 2 ^ (64 - c'.depth)))).depth = (c.segs (c.dir (k.toNat / 2 ^ (64 - c.depth)))).depth + 1 := by
  have hx := top_lt k h.d2
  have hpat := h.pat _ hx
  have hld := h.ld _ hx
  have hd2 := h.d2
  have hlt := h.lt _ hx
  have hP : (c.segs (c.dir (k.toNat / 2 ^ (64 - c.depth)))).pattern = k.toNat / 2 ^ (64 - (c.segs (c.dir (k.toNat / 2 ^ (64 - c.depth)))).depth) := by
    rw [hpat, Nat.div_div_eq_div_mul, ← Nat.pow_add]
    congr 2
    omega
  have main : ∀ b : Table, b.segs = c.segs → b.next = c.next → Inv hash S m b →
      b.dir (k.toNat / 2 ^ (64 - b.depth)) = c.dir (k.toNat / 2 ^ (64 - c.depth)) → (c.segs (c.dir (k.toNat / 2 ^ (64 - c.depth)))).depth < b.depth →
      c'.segs = (fun i => if i = c.next then
          { migrate hash (c.segs (c.dir (k.toNat / 2 ^ (64 - c.depth)))) 1024 (Seg.new ((c.segs (c.dir (k.toNat / 2 ^ (64 - c.depth)))).depth + 1) 0) with
            pattern := 2 * (c.segs (c.dir (k.toNat / 2 ^ (64 - c.depth)))).pattern + 1 }
        else if i = c.dir (k.toNat / 2 ^ (64 - c.depth)) then
          { c.segs (c.dir (k.toNat / 2 ^ (64 - c.depth))) with depth := (c.segs (c.dir (k.toNat / 2 ^ (64 - c.depth)))).depth + 1, pattern := 2 * (c.segs (c.dir (k.toNat / 2 ^ (64 - c.depth)))).pattern }
        else c.segs i) →
      c'.next = c.next + 1 → c'.depth = b.depth →
      (∀ i, c'.dir i = if i / 2 ^ (b.depth - (c.segs (c.dir (k.toNat / 2 ^ (64 - c.depth)))).depth - 1) =
        2 * (c.segs (c.dir (k.toNat / 2 ^ (64 - c.depth)))).pattern + 1 then c.next else b.dir i) →
      Inv hash S m c' ∧ (c'.segs (c'.dir (k.toNat / 2 ^ (64 - c'.depth)))).depth = (c.segs (c.dir (k.toNat / 2 ^ (64 - c.depth)))).depth + 1 := by
    intro b b1 b2 hb hby hbd e1 e2 e3 e4
    have := hb.halved hS (top_lt k hb.d2) (by rw [hby, b1]; exact hbd) rfl rfl
    rw [hby, b1, b2] at this
    obtain ⟨g1, g2, g3, g4⟩ := c'
    simp only at e1 e2 e3 e4
    rw [e1, e2, e3, funext e4]
    refine ⟨this, ?_⟩
    simp only
    split
    · rw [if_pos rfl]
      exact (migrate_spec hS (h.slot _) _ 0 1024).2.2.1
    · rw [hby, if_neg (by omega)]
  generalize hxx : k.toNat / 2 ^ (64 - c.depth) = x at *
  generalize ht : c.dir x = t at *
  unfold split at h1
  simp only at h1
  split at h1
  · cases h1
  next hnd =>
  cases h1
  have hne : t ≠ c.next := by omega
  unfold link at h2
  obtain ⟨x', hx', h2⟩ := bind_done h2
  obtain ⟨-, -, rfl⟩ := top_done hx'
  have hk0 : k.toNat >>> (64 - ((c.segs t).depth + 1) + 1) <<< 1 = 2 * (c.segs t).pattern := by
    rw [Nat.shiftLeft_eq, Nat.shiftRight_eq_div_pow, hP, show 64 - ((c.segs t).depth + 1) + 1 = 64 - (c.segs t).depth by omega]
    omega
  simp only [setPattern, hxx, ht, if_neg hne, if_true, hk0] at h2
  have hsegs : (fun i => if i = c.next then
      { (if c.next = t then { slots := (c.segs t).slots, depth := (c.segs t).depth + 1, pattern := 2 * (c.segs t).pattern }
          else migrate hash (c.segs t) 1024 (Seg.new ((c.segs t).depth + 1) 0)) with pattern := 2 * (c.segs t).pattern + 1 }
      else if i = t then { c.segs t with depth := (c.segs t).depth + 1, pattern := 2 * (c.segs t).pattern }
      else if i = c.next then migrate hash (c.segs t) 1024 (Seg.new ((c.segs t).depth + 1) 0) else c.segs i) =
      (fun i => if i = c.next then
          { migrate hash (c.segs t) 1024 (Seg.new ((c.segs t).depth + 1) 0) with pattern := 2 * (c.segs t).pattern + 1 }
        else if i = t then { c.segs t with depth := (c.segs t).depth + 1, pattern := 2 * (c.segs t).pattern }
        else c.segs i) := by
    funext i
    rw [if_neg (Ne.symm hne)]
    split
    · rfl
    · rfl
  rw [hsegs] at h2
  by_cases hc : (c.segs t).depth + 1 - 1 < c.depth
  · rw [if_pos hc] at h2
    have hc' : (c.segs t).depth < c.depth := by omega
    have hhalf : 2 ^ (c.depth - (c.segs t).depth) = 2 * 2 ^ (c.depth - (c.segs t).depth - 1) := by
      rw [← Nat.pow_succ', show (c.depth - (c.segs t).depth - 1).succ = c.depth - (c.segs t).depth by omega]
    split at h2
    · next h0 =>
      cases h2
      refine main c rfl rfl h (by rw [hxx, ht]) hc' rfl rfl rfl (fun i => ?_)
      have : c.depth - (c.segs t).depth = 1 := by omega
      simp only [this, Nat.sub_self, Nat.pow_zero, Nat.div_one, Nat.pow_one] at hpat ⊢
      have : (i = if x % 2 = 0 then x + 1 else x) ↔ i = 2 * (c.segs t).pattern + 1 := by
        rw [hpat]; split <;> omega
      simp only [this]
    · next h0 =>
      cases h2
      refine main c rfl rfl h (by rw [hxx, ht]) hc' rfl rfl rfl (fun i => ?_)
      simp only [Nat.add_sub_cancel]
      have hpos : 0 < 2 ^ (c.depth - (c.segs t).depth - 1) := by positivity
      have hx0 : x - x % 2 ^ (c.depth - (c.segs t).depth) = 2 * (c.segs t).pattern * 2 ^ (c.depth - (c.segs t).depth - 1) := by
        have := Nat.div_add_mod x (2 ^ (c.depth - (c.segs t).depth))
        rw [← hpat, hhalf] at this
        rw [hhalf]
        have e : 2 * (c.segs t).pattern * 2 ^ (c.depth - (c.segs t).depth - 1) =
          2 * 2 ^ (c.depth - (c.segs t).depth - 1) * (c.segs t).pattern := by ring
        omega
      rw [hx0, hhalf, Nat.mul_div_cancel_left _ (by omega)]
      generalize 2 ^ (c.depth - (c.segs t).depth - 1) = w at *
      have : (2 * (c.segs t).pattern * w + w ≤ i ∧ i < 2 * (c.segs t).pattern * w + w + w) ↔ i / w = 2 * (c.segs t).pattern + 1 := by
        have e2 : (2 * (c.segs t).pattern + 1) * w = 2 * (c.segs t).pattern * w + w := by ring
        rw [Nat.div_eq_iff hpos, e2]
        omega
      simp only [this]
  · rw [if_neg hc] at h2
    have hc' : (c.segs t).depth = c.depth := by omega
    cases h2
    refine main { c with depth := c.depth + 1, dir := fun i => c.dir (i / 2) } rfl rfl (h.double (by omega))
      ?_ (by simp only; omega) rfl rfl rfl (fun i => ?_)
    · simp only
      rw [Nat.div_div_eq_div_mul, ← Nat.pow_succ, show (64 - (c.depth + 1)).succ = 64 - c.depth by omega, hxx, ht]
    · rw [hc', Nat.sub_self, Nat.pow_zero, Nat.div_one] at hpat
      simp only [hc', hpat, Nat.add_sub_cancel_left, Nat.sub_self, Nat.pow_zero, Nat.div_one]
      by_cases e : i / 2 = x
      · rw [if_pos e]
        split
        · rw [if_neg (by omega), e, ht]
        · rw [if_pos (by omega)]
      · rw [if_neg e, if_neg (by omega)]

theorem full_done {c : Table} (h : Inv hash S m c) {k : BitVec 64} (hd : (c.segs (c.dir (k.toNat / 2 ^ (64 - c.depth)))).depth < 64) :
    ∃ c1 c', split hash c (c.dir (k.toNat / 2 ^ (64 - c.depth))) k = .done c1 ∧
      link (setPattern c1 (c.dir (k.toNat / 2 ^ (64 - c.depth))) c.next k) (c.dir (k.toNat / 2 ^ (64 - c.depth))) c.next k = .done c' := by
  have hld := h.ld _ (top_lt k h.d2)
  unfold split
  simp only
  rw [if_neg (by omega)]
  refine ⟨_, Exists.imp (fun _ => And.intro rfl) ?_⟩
  unfold link
  have : ∀ f : Nat → Res Table, (∀ x, ∃ c', f x = .done c') → ∃ c', (top k c.depth >>= f) = .done c' := by
    intro f hf
    rw [top_eq h.d1 h.d2]
    exact hf _
  refine this _ (fun x => ?_)
  simp only
  split
  · split
    · exact ⟨_, rfl⟩
    · exact ⟨_, rfl⟩
  · exact ⟨_, rfl⟩

theorem insertSlot_done {s : Seg} {key : Key} {start : Nat} (hst : start + 15 < 1024) (hd : 1 ≤ s.depth ∧ s.depth ≤ 64)
    (hlen : ∀ i k, s.slots i = some k → k.length = key.length) {n : Nat} (hn : n ≤ 16) :
    ∃ r, insertSlot hash s key start n = .done r ∧ (r = none → ∀ i, start + (16 - n) ≤ i → i ≤ start + 15 →
      ∃ k, s.slots i = some k ∧ (hash k).toNat / 2 ^ (64 - s.depth) = s.pattern) := by
  induction n with
  | zero => exact ⟨none, rfl, fun _ i h1 h2 => by omega⟩
  | succ n ih =>
    rw [insertSlot]
    rw [Nat.mod_eq_of_lt (by omega)]
    split
    · exact ⟨_, rfl, fun h => by cases h⟩
    · next k e =>
      have hl := hlen _ _ e
      rw [hasher, if_pos (by omega), ← hl, List.take_length]
      simp only [done_bind, top_eq hd.1 hd.2]
      split
      · next hp =>
        obtain ⟨r, h1, h2⟩ := ih (by omega)
        refine ⟨r, h1, fun hr i hi1 hi2 => ?_⟩
        rcases Nat.lt_or_ge (start + (15 - n)) i with h | h
        · exact h2 hr i (by omega) hi2
        · have : i = start + (15 - n) := by omega
          subst this
          exact ⟨k, e, hp⟩
      · exact ⟨_, rfl, fun h => by cases h⟩

/-! ## `insert` and `get` -/

theorem segInsert_some {s s' : Seg} {key : Key} {h : BitVec 64} (hd : 1 ≤ s.depth ∧ s.depth ≤ 64)
    (hp : s.pattern = h.toNat / 2 ^ (64 - s.depth)) (e : insertSlot hash s key (loc h) 16 = .done (some s')) :
    segInsert hash s key h = .done (.stored s') := by
  simp only [segInsert, top_eq hd.1 hd.2, done_bind, hp, e, ne_eq, not_true, if_false]
  rfl

theorem segInsert_none {s : Seg} {key : Key} {h : BitVec 64} (hd : 1 ≤ s.depth ∧ s.depth ≤ 64)
    (hp : s.pattern = h.toNat / 2 ^ (64 - s.depth)) (e : insertSlot hash s key (loc h) 16 = .done none) :
    segInsert hash s key h = .done .full := by
  simp only [segInsert, top_eq hd.1 hd.2, done_bind, hp, e, ne_eq, not_true, if_false]
  rfl

/-- One round of `insert`. -/
theorem insert_step {c : Table} (h : Inv hash S m c) (hS : ∀ k, S k → Inside hash k ∧ Plain len k) {key : Key}
    (hi : Inside hash key) (hk : Plain len key) (hl : 8 ≤ len) (n : Nat) :
    (∃ c', insert hash key (n + 1) c = .done c' ∧
      Inv hash (fun k => S k ∨ k = key) (fun x => m x + if hash key = x then 1 else 0) c') ∨
    (∃ c', insert hash key (n + 1) c = insert hash key n c' ∧ Inv hash S m c' ∧
      (c'.segs (c'.dir ((hash key).toNat / 2 ^ (64 - c'.depth)))).depth =
        (c.segs (c.dir ((hash key).toNat / 2 ^ (64 - c.depth)))).depth + 1) ∨
    (insert hash key (n + 1) c = .ub ∧ m (hash key) = 16) := by
  have hx := top_lt (hash key) h.d2
  have hld := h.ld _ hx
  have hpat := h.pat _ hx
  have hd2 := h.d2
  have hP : (c.segs (c.dir ((hash key).toNat / 2 ^ (64 - c.depth)))).pattern =
      (hash key).toNat / 2 ^ (64 - (c.segs (c.dir ((hash key).toNat / 2 ^ (64 - c.depth)))).depth) := by
    rw [hpat, Nat.div_div_eq_div_mul, ← Nat.pow_add]
    congr 2
    omega
  have hlen : ∀ i k, (c.segs (c.dir ((hash key).toNat / 2 ^ (64 - c.depth)))).slots i = some k → k.length = key.length :=
    fun i k e => by rw [(hS k (h.slot _ i k e).1).2.1, hk.1]
  obtain ⟨r, hr, hfull⟩ := insertSlot_done (hash := hash) (key := key) hi.loc ⟨hld.1, by omega⟩ hlen (n := 16) (Nat.le_refl _)
  rw [insert, if_neg (by rw [hk.1]; omega)]
  simp only [top_eq h.d1 h.d2, done_bind]
  cases r with
  | some s' =>
    left
    obtain ⟨i, i1, i2, i3, i4⟩ := insertSlot_spec hi.loc hlen (Nat.le_refl _) hr
    refine ⟨_, ?_, h.store hi ⟨i1, i2⟩ i3 i4⟩
    rw [segInsert_some ⟨hld.1, by omega⟩ hP hr]
    rfl
  | none =>
    right
    by_cases hd : (c.segs (c.dir ((hash key).toNat / 2 ^ (64 - c.depth)))).depth < 64
    · left
      obtain ⟨c1, c', h1, h2⟩ := full_done h hd
      obtain ⟨g1, g2⟩ := h.full (fun k hk => (hS k hk).1) h1 h2
      refine ⟨c', ?_, g1, g2⟩
      rw [segInsert_none ⟨hld.1, by omega⟩ hP hr]
      simp only [done_bind, h1, h2]
    · right
      have hd64 : (c.segs (c.dir ((hash key).toNat / 2 ^ (64 - c.depth)))).depth = 64 := by omega
      constructor
      · rw [segInsert_none ⟨hld.1, by omega⟩ hP hr]
        simp only [done_bind, CCEH.split]
        rw [if_pos (by omega)]
        rfl
      · have hc := h.cnt (hash key)
        have h1 := (cnt_le (h.slot (c.dir ((hash key).toNat / 2 ^ (64 - c.depth)))) (hash key) 1024).2
        have h2 : 16 ≤ cnt hash (c.segs (c.dir ((hash key).toNat / 2 ^ (64 - c.depth)))) (hash key) (loc (hash key) + 16) := by
          refine cnt_ge (fun i hi1 hi2 => ?_)
          obtain ⟨k, e1, e2⟩ := hfull rfl i (by omega) (by omega)
          rw [hP, hd64] at e2
          simp only [Nat.sub_self, Nat.pow_zero, Nat.div_one] at e2
          rw [e1]
          exact congrArg some (BitVec.eq_of_toNat_eq e2)
        have h3 := Nat.le_trans h2 (cnt_mono (n' := 1024) (by have := hi.loc; omega))
        omega

/-- `insert` returns unless 16 keys of the same hash are there. -/
theorem insert_total {c : Table} (h : Inv hash S m c) (hS : ∀ k, S k → Inside hash k ∧ Plain len k) {key : Key}
    (hi : Inside hash key) (hk : Plain len key) (hl : 8 ≤ len) {n : Nat}
    (hn : 64 - (c.segs (c.dir ((hash key).toNat / 2 ^ (64 - c.depth)))).depth < n) :
    (∃ c', insert hash key n c = .done c') ∨ (insert hash key n c = .ub ∧ m (hash key) = 16) := by
  induction n generalizing c with
  | zero => omega
  | succ n ih =>
    rcases insert_step h hS hi hk hl n with ⟨c', e, -⟩ | ⟨c', e, h', hd⟩ | e
    · exact Or.inl ⟨c', e⟩
    · have h1 := h'.ld _ (top_lt (hash key) h'.d2)
      have h2 := h'.d2
      rw [e]
      exact ih h' (by omega)
    · exact Or.inr e

theorem insert_inv {c c' : Table} (h : Inv hash S m c) (hS : ∀ k, S k → Inside hash k ∧ Plain len k) {key : Key}
    (hi : Inside hash key) (hk : Plain len key) (hl : 8 ≤ len) {n : Nat} (e : insert hash key n c = .done c') :
    Inv hash (fun k => S k ∨ k = key) (fun x => m x + if hash key = x then 1 else 0) c' := by
  induction n generalizing c with
  | zero => cases e
  | succ n ih =>
    rcases insert_step h hS hi hk hl n with ⟨c1, e1, h1⟩ | ⟨c1, e1, h1, -⟩ | ⟨e1, -⟩
    · rw [e] at e1
      cases e1
      exact h1
    · exact ih h1 (e1.symm.trans e)
    · rw [e] at e1
      cases e1

theorem getSlot_none {s : Seg} {key : Key} {start : Nat} (hk : Plain len key) (hs : ∀ i k, s.slots i = some k → Plain len k ∧ k ≠ key)
    (n : Nat) : getSlot s key start n = .done false := by
  induction n with
  | zero => rfl
  | succ n ih =>
    rw [getSlot]
    split
    · exact ih
    · next k e =>
      rw [hk.1, keyEqual_plain hk (hs _ _ e).1, decide_eq_false (Ne.symm (hs _ _ e).2), done_bind]
      exact ih

theorem getSlot_some {s : Seg} {key : Key} {start j : Nat} (hk : Plain len key) (hs : ∀ i k, s.slots i = some k → Plain len k)
    (hst : start + 15 < 1024) (h2 : j ≤ start + 15) (hj : s.slots j = some key) {n : Nat} (hn : n ≤ 16)
    (h1 : start + (16 - n) ≤ j) : getSlot s key start n = .done true := by
  induction n with
  | zero => omega
  | succ n ih =>
    rw [getSlot, Nat.mod_eq_of_lt (by omega)]
    have next : start + (15 - n) ≠ j → getSlot s key start n = .done true := fun h => ih (by omega) (by omega)
    split
    · next e => exact next (fun c => by rw [c, hj] at e; cases e)
    · next k e =>
      rw [hk.1, keyEqual_plain hk (hs _ _ e), done_bind]
      by_cases hkk : key = k
      · rw [decide_eq_true hkk]
        rfl
      · rw [decide_eq_false hkk]
        exact next (fun c => hkk (by rw [c, hj] at e; cases e; rfl))

theorem get_spec {c : Table} (h : Inv hash S m c) (hS : ∀ k, S k → Inside hash k ∧ Plain len k) {key : Key} (hk : Plain len key) :
    (S key → get hash key c = .done true) ∧ (¬ S key → get hash key c = .done false) := by
  unfold get
  simp only [top_eq h.d1 h.d2, done_bind]
  refine ⟨fun hs => ?_, fun hs => ?_⟩
  · obtain ⟨i, hi⟩ := h.has key hs
    have := h.slot _ i key hi
    exact getSlot_some hk (fun i k e => (hS k (h.slot _ i k e).1).2) (hS key hs).1.loc this.2.2 hi (Nat.le_refl _) (by omega)
  · exact getSlot_none hk (fun i k e => ⟨(hS k (h.slot _ i k e).1).2, fun c => hs (c ▸ (h.slot _ i k e).1)⟩) 16

end PMap.CCEH
