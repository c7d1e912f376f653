import Verif.Pmem.Calls

/-!
# libpmemobj's concurrent_hash_map: growth, and whole calls

Nothing here is code.
-/

namespace PMap.Pmem

open HP

theorem Tab.uniq {s s' : HSt} {k k' : Nat} (h : Tab s k) (h' : Tab s' k') (e : s'.blk = s.blk) : k' = k := by
  have h1 : ∀ j, decide (j < k') = decide (j < k) := fun j => by
    rw [← h.valid, ← h'.valid]
    unfold segValid
    rw [e]
  have a := h1 k
  have b := h1 k'
  simp at a b
  omega

/-- What the thread knows that holds the mutex of the segments. -/
structure Seg (t kk m : Nat) (s : HSt) : Prop where
  own : Own t s Emp none none true
  tab : Tab s kk
  mask : s.mask = m

section
variable {E : HEnv} {m0 t : Nat} {op : Cmd} {q : Prop}

theorem Seg.rel {kk m : Nat} {s s' : HSt} {A' : AM} (h : Seg t kk m s) (hi : Inv E m0 s' A') (hr : Rel t s s') : Seg t kk m s' := by
  obtain ⟨h1, h2⟩ := hr.seg (h.own.sm.2 rfl)
  obtain ⟨⟨kk', _, _, hc⟩, _⟩ := hi
  have := h.tab.uniq hc.tab h2
  subst this
  exact ⟨h.own.rel hr, hc.tab, h1.trans h.mask⟩

/-- The first block of segments. -/
theorem tab_first {s : HSt} (h : Tab s 1) : Tab { s.newBuckets (· == 1) with
    len := fun a => if a = 1 then 254 else s.len a, blk := fun b => if 1 ≤ b ∧ b < 8 then some (1, segBase b - segBase 1) else s.blk b } 8 where
  two := Or.inr (by omega)
  b0 := by simpa using h.b0
  l0 := by simpa using h.l0
  b1 := fun _ b h1 h8 => by
    simp only [h1, h8, and_self, if_true, segBase]
    rw [if_neg (by omega), if_neg (by omega), pow_one]
  l1 := fun _ => by simp
  big := fun b h8 hb => by simp [firstBlock] at hb; omega
  none := fun b hb => by
    simp [firstBlock] at hb
    dsimp only
    rw [if_neg (by omega)]
    exact h.none b (by simp [firstBlock]; omega)

/-- A later segment. -/
theorem tab_big {s : HSt} {k : Nat} (h8 : 8 ≤ k) (h : Tab s k) : Tab { s.newBuckets (fun b => decide (firstBlock k ≤ b ∧ b < firstBlock k + blocksIn k)) with
    len := fun a => if decide (firstBlock k ≤ a ∧ a < firstBlock k + blocksIn k) = true then blockSize a else s.len a,
    blk := fun b => if decide (firstBlock k ≤ b ∧ b < firstBlock k + blocksIn k) = true then some (b, 0) else s.blk b } (k + 1) where
  two := Or.inr (by omega)
  b0 := by
    have := firstBlock_ge h8
    dsimp only
    rw [if_neg (by simp; omega)]
    exact h.b0
  l0 := by
    have := firstBlock_ge h8
    dsimp only
    rw [if_neg (by simp; omega)]
    exact h.l0
  b1 := fun _ b h1 hb => by
    have := firstBlock_ge h8
    dsimp only
    rw [if_neg (by simp; omega)]
    exact h.b1 h8 b h1 hb
  l1 := fun _ => by
    have := firstBlock_ge h8
    dsimp only
    rw [if_neg (by simp; omega)]
    exact h.l1 h8
  big := fun b hb hlt => by
    rw [firstBlock_succ] at hlt
    dsimp only
    by_cases e : firstBlock k ≤ b
    · simp [e, hlt]
    · rw [if_neg (by simp; omega), if_neg (by simp; omega)]
      exact h.big b hb (by omega)
  none := fun b hb => by
    rw [firstBlock_succ] at hb
    dsimp only
    rw [if_neg (by simp; omega)]
    exact h.none b (by omega)

/-- Nothing is left to enable in the first block. -/
theorem enableAll_W {kk m : Nat} {st : Option Ans} (h8 : 8 ≤ kk) : ∀ (ks : List Nat) {s : HSt} {A : AM}, (∀ k ∈ ks, k < 8) → Inv E m0 s A →
    Seg t kk m s → W E m0 t op q (enableAll E ks) (fun _ s' A' st' => Inv E m0 s' A' ∧ Seg t kk m s' ∧ st' = st) s A st
  | [], s, A, _, hi, hs => W_pure ⟨hi, hs, rfl⟩
  | k :: ks, s, A, hk, hi, hs => by
    unfold enableAll
    refine W_read fun s1 A1 hi1 hr1 hq1 => ⟨segValid s1 k, ?_, ?_⟩
    · have := hk k (by simp)
      exact if_pos (by omega)
    · have hs1 := hs.rel hi1 hr1
      have hv : segValid s1 k = true := by
        rw [hs1.tab.valid]
        have := hk k (by simp)
        simp
        omega
      rw [hv, if_neg (by simp)]
      exact W_bind (W_pure (enableAll_W h8 ks (fun j hj => hk j (by simp [hj])) hi1 hs1))

/-- The store to `my_mask`. -/
theorem wrMask_W {kk j m' m : Nat} {st : Option Ans} {s : HSt} {A : AM} (hs : Seg t kk m s) (hj : j = 1 ∨ 8 ≤ j) (hjk : j ≤ kk) (hle : m ≤ 2 ^ j - 1)
    (e : m' = 2 ^ j - 1) : W E m0 t op q (wrMask m') (fun _ s' A' st' => Inv E m0 s' A' ∧ Own t s' Emp none none true ∧ st' = st) s A st := by
  subst e
  refine W_last (W_ok fun s1 A1 hi1 hr1 hq1 => ?_)
  have hs1 := hs.rel hi1 hr1
  obtain ⟨i2, g2⟩ := mask_ok hi1 hs1.tab hj hjk (by rw [hs1.mask]; exact hle) (hs1.own.sm.2 rfl)
  exact ⟨(), _, A1, st, rfl, .none, i2, g2, W_pure ⟨i2, ⟨hs1.own.wr, hs1.own.rd, hs1.own.nl, hs1.own.sm⟩, rfl⟩⟩

theorem enableSegment_W {kk k : Nat} {st : Option Ans} {s : HSt} {A : AM} (hp : E.pool < 2 ^ 31) (hi : Inv E m0 s A) (hs : Seg t kk (2 ^ k - 1) s)
    (hk : k = 1 ∨ 8 ≤ k) (hkk : k ≤ kk) (h31 : kk ≤ 31) :
    W E m0 t op q (enableSegment E k) (fun _ s' A' st' => Inv E m0 s' A' ∧ Own t s' Emp none none true ∧ st' = st) s A st := by
  unfold enableSegment
  rw [if_neg (by omega)]
  rcases hk with rfl | h8
  · rw [if_neg (by omega), if_neg (by simp)]
    refine W_bind ?_
    have hfin : W E m0 t op q (enableAll E [1, 2, 3, 4, 5, 6, 7]) (fun _ s A st' => st' = st ∧ W E m0 t op q (wrMask (2 ^ 8 - 1))
          (fun _ s' A' st' => Inv E m0 s' A' ∧ Own t s' Emp none none true ∧ st' = st) s A st) s A st := by
      by_cases h8 : 8 ≤ kk
      · refine W_mono ?_ (enableAll_W h8 [1, 2, 3, 4, 5, 6, 7] (by decide) hi hs)
        rintro _ s1 A1 st1 ⟨hi1, hs1, rfl⟩
        exact ⟨rfl, wrMask_W hs1 (Or.inr (Nat.le_refl 8)) h8 (by norm_num) rfl⟩
      · have hkk1 : kk = 1 := by
          rcases hs.tab.two with h | h
          · exact h
          · omega
        subst hkk1
        unfold enableAll
        refine W_read fun s1 A1 hi1 hr1 hq1 => ⟨segValid s1 1, rfl, ?_⟩
        have hs1 := hs.rel hi1 hr1
        rw [hs1.tab.valid]
        rw [if_pos (by simp)]
        refine W_atom fun s2 A2 hi2 hr2 hq2 => ?_
        have hs2 := hs1.rel hi2 hr2
        rw [if_pos (by omega), if_neg (by simp)]
        by_cases hpo : E.pool < 254
        · rw [if_pos hpo]
          trivial
        · rw [if_neg hpo]
          obtain ⟨i3, g3⟩ := grow_ok (p := (· == 1)) hi2 hs2.tab (tab_first hs2.tab) (by omega) (by omega) (hs2.own.sm.2 rfl)
            (by
              intro c hc
              have : c < 2 := by omega
              simp [loc, this]) rfl
          refine ⟨A2, st, .none, i3, g3, ?_⟩
          refine W_mono ?_ (enableAll_W (st := st) (m := 2 ^ 1 - 1) (Nat.le_refl 8) [2, 3, 4, 5, 6, 7] (by decide) i3
            ⟨⟨hs2.own.wr, hs2.own.rd, hs2.own.nl, hs2.own.sm⟩, tab_first hs2.tab, hs2.mask⟩)
          rintro _ s1 A1 st1 ⟨hi1, hs1, rfl⟩
          exact ⟨rfl, wrMask_W hs1 (Or.inr (Nat.le_refl 8)) (Nat.le_refl 8) (by norm_num) rfl⟩
    refine W_mono ?_ hfin
    rintro _ s1 A1 st1 ⟨rfl, h⟩
    exact h
  · rw [if_pos h8]
    have hpk := Nat.two_pow_pos k
    have e2 : 2 * 2 ^ k - 1 = 2 ^ (k + 1) - 1 := by rw [pow_succ, Nat.mul_comm]
    have hlek : 2 ^ k - 1 ≤ 2 ^ (k + 1) - 1 := by rw [pow_succ]; omega
    refine W_read fun s1 A1 hi1 hr1 hq1 => ⟨segValid s1 k, if_pos (by omega), ?_⟩
    have hs1 := hs.rel hi1 hr1
    rw [hs1.tab.valid]
    by_cases hv : k < kk
    · rw [if_neg (by simp [hv])]
      exact W_bind (W_pure (wrMask_W hs1 (Or.inr (by omega)) hv hlek e2))
    · have hkk' : kk = k := by omega
      subst hkk'
      rw [if_pos (by simp)]
      refine W_atom fun s2 A2 hi2 hr2 hq2 => ?_
      have hs2 := hs1.rel hi2 hr2
      rw [if_neg (by omega)]
      dsimp only
      rw [if_neg (by
        simp only [List.any_eq_true, List.mem_range, not_exists, not_and]
        intro j _
        rw [hs2.tab.none _ (by omega)]
        simp)]
      by_cases hpo : E.pool < 2 ^ kk
      · rw [if_pos hpo]
        trivial
      · rw [if_neg hpo]
        have hk31 : kk < 31 := by
          by_contra hh
          have := Nat.pow_le_pow_right (n := 2) (by omega) (Nat.not_lt.1 hh)
          omega
        obtain ⟨i3, g3⟩ := grow_ok (p := fun b => decide (firstBlock kk ≤ b ∧ b < firstBlock kk + blocksIn kk)) hi2 hs2.tab (tab_big h8 hs2.tab)
          (by omega) (by omega) (hs2.own.sm.2 rfl) (by
            intro c hc
            have := loc_arr h8 hc
            simp
            omega) rfl
        refine ⟨A2, st, .none, i3, g3, ?_⟩
        refine wrMask_W (kk := kk + 1) (m := 2 ^ kk - 1) ⟨⟨hs2.own.wr, hs2.own.rd, hs2.own.nl, hs2.own.sm⟩, tab_big h8 hs2.tab, hs2.mask⟩
          (Or.inr (by omega)) (Nat.le_refl _) hlek e2

theorem log2_pow_sub {j : Nat} : Nat.log2 (2 ^ j - 1 + 1) = j := by
  have := Nat.two_pow_pos j
  rw [show 2 ^ j - 1 + 1 = 2 ^ j by omega, Nat.log2_two_pow]

theorem checkGrowth_W {m : Nat} {sz : Int} {st : Option Ans} {s : HSt} {A : AM} (hp : E.pool < 2 ^ 31) (hi : Inv E m0 s A)
    (ho : Own t s Emp none none false) (hm : Msk m0 m s) :
    W E m0 t op q (checkGrowth E t m sz) (fun _ s' A' st' => Inv E m0 s' A' ∧ Own t s' Emp none none false ∧ st' = st) s A st := by
  unfold checkGrowth
  by_cases hsz : (m : Int) ≤ sz
  · rw [if_pos hsz]
    refine W_read fun s1 A1 hi1 hr1 hq1 => ?_
    have ho1 := ho.rel hr1
    have hm1 := hm.mono hr1.mask
    obtain ⟨_, hle, j, hj1, rfl⟩ := id hm1
    rw [log2_pow_sub]
    have hpj := Nat.two_pow_pos j
    obtain ⟨⟨kk, L, V, hc⟩, _⟩ := id hi1
    obtain ⟨j1, hj2, hj3, hj4⟩ := id hc.mask
    have hpj1 := Nat.two_pow_pos j1
    have hjj : j ≤ j1 := by
      by_contra hlt
      have := Nat.pow_lt_pow_right (a := 2) (by omega) (Nat.not_le.1 hlt)
      omega
    have hk31 := hc.kk31
    refine ⟨segValid s1 (j - 1), if_pos (by omega), ?_⟩
    rw [hc.tab.valid, if_neg (by simp; omega)]
    refine W_ok fun s2 A2 hi2 hr2 hq2 => ?_
    have ho2 := ho1.rel hr2
    by_cases hsm : s2.sm = none
    · obtain ⟨i3, g3⟩ := lockSeg_ok (t := t) hi2 hsm
      refine ⟨true, _, A2, st, if_pos hsm, .none, i3, g3, ?_⟩
      have ho3 : Own t { s2 with sm := some t } Emp none none true := ⟨ho2.wr, ho2.rd, ho2.nl, by simp⟩
      generalize { s2 with sm := some t } = s3 at *
      rw [if_pos rfl]
      refine W_read fun s4 A4 hi4 hr4 hq4 => ⟨_, rfl, ?_⟩
      have ho4 := ho3.rel hr4
      have hend : ∀ {s : HSt} {A : AM}, Own t s Emp none none true → W E m0 t op q (unlockSeg t)
          (fun _ s' A' st' => Inv E m0 s' A' ∧ Own t s' Emp none none false ∧ st' = st) s A st := by
        intro s A ho
        refine W_last (W_ok fun s1 A1 hi1 hr1 hq1 => ?_)
        have ho1 := ho.rel hr1
        obtain ⟨i2, g2⟩ := unlockSeg_ok hi1 (ho1.sm.2 rfl)
        exact ⟨(), _, A1, st, if_pos (ho1.sm.2 rfl), .none, i2, g2, W_pure ⟨i2, ⟨ho1.wr, ho1.rd, ho1.nl, by simp⟩, rfl⟩⟩
      by_cases heq : s4.mask = 2 ^ j - 1
      · rw [if_pos heq]
        obtain ⟨⟨kk4, L4, V4, hc4⟩, _⟩ := id hi4
        obtain ⟨j4, a1, a2, a3⟩ := hc4.mask
        have hjj4 : j4 = j := by
          have := Nat.two_pow_pos j4
          exact Nat.pow_right_injective (Nat.le_refl 2) (by dsimp only; omega)
        subst hjj4
        refine W_bind (W_mono ?_ (enableSegment_W (st := st) hp hi4 ⟨ho4, hc4.tab, heq⟩ a1 a2 hc4.kk31))
        rintro _ s5 A5 st5 ⟨_, ho5, rfl⟩
        exact hend ho5
      · rw [if_neg heq]
        exact W_bind (W_pure (hend ho4))
    · exact ⟨false, s2, A2, st, if_neg hsm, .none, hi2, .refl _ _, W_pure ⟨hi2, ho2, rfl⟩⟩
  · rw [if_neg hsz]
    exact W_pure ⟨hi, ho, rfl⟩

theorem insert_W {key : Word} (h0 : ∀ A : AM, A key = none → Lin op A none (A.set key (some key)) (some 1#64))
    (h1 : ∀ (A : AM) v, A key = some v → Lin op A none A (some 0#64)) {f : Nat} {s : HSt} {A : AM} (hp : E.pool < 2 ^ 31)
    (ho : Own t s Emp none none false) (hs : q → 0 < f) : W E m0 t op q (insert E t key key f) (Gone E m0 t) s A none := by
  unfold insert
  refine W_read fun s1 A1 hi1 hr1 hq1 => ⟨_, rfl, ?_⟩
  have hm := hi1.msk
  obtain ⟨_, _, j, _, e⟩ := id hm
  rw [if_neg (by rw [e, mask_and]; simp)]
  refine W_bind (W_mono ?_ (insertLoop_W h0 h1 f _ hi1 (ho.rel hr1) hm fun hq => ⟨rfl, hs hq⟩))
  rintro ⟨r, m', sz⟩ s2 A2 st2 ⟨hi2, ho2, hm2, rfl⟩
  refine W_bind (W_mono ?_ (checkGrowth_W hp hi2 ho2 hm2))
  rintro _ s3 A3 st3 ⟨hi3, ho3, rfl⟩
  exact W_pure ⟨hi3, ho3, rfl⟩

theorem erase_W {key : Word} (h0 : ∀ A : AM, A key = none → Lin op A none A (some 0#64))
    (h1 : ∀ (A : AM) v, A key = some v → Lin op A none (A.set key none) (some 1#64)) {f : Nat} {s : HSt} {A : AM}
    (ho : Own t s Emp none none false) (hs : q → Solo t s ∧ 0 < f) : W E m0 t op q (erase E t key f) (Gone E m0 t) s A none := by
  unfold erase
  refine W_read fun s1 A1 hi1 hr1 hq1 => ⟨_, rfl, ?_⟩
  exact eraseLoop_W h0 h1 f _ hi1 (ho.rel hr1) hi1.msk fun hq => ⟨by rw [(hq1 hq).1]; exact (hs hq).1, rfl, (hs hq).2⟩

/-- The end of a call that has found a node. -/
theorem unlockItem_W {n : Nat} {s : HSt} {A : AM} {st : Option Ans} {α : Type} {k : Unit → HP α} {Q : α → HSt → AM → Option Ans → Prop} {x : Node}
    (ho : Own t s Emp none (some n) false) (hx : s.heap n = some x)
    (hk : ∀ s' A', Inv E m0 s' A' → Own t s' Emp none none false → W E m0 t op q (k ()) Q s' A' st) :
    W E m0 t op q (unlockItem t n >>= k) Q s A st := by
  refine W_ok fun s1 A1 hi1 hr1 hq1 => ?_
  have ho1 := ho.rel hr1
  have hnl : s1.nl n = some t := (ho1.nl n).2 rfl
  obtain ⟨x', hx', _⟩ := hr1.item n x ((ho.nl n).2 rfl) hx
  obtain ⟨i2, g2⟩ := unlockItem_ok hi1 hnl
  refine ⟨(), _, A1, st, if_pos ⟨by simp [hx'], hnl⟩, .none, i2, g2, hk _ _ i2 ⟨ho1.wr, ho1.rd, fun m => ?_, ho1.sm⟩⟩
  have := ho1.nl m
  by_cases e : m = n
  · simp [e]
  · have e' : n ≠ m := Ne.symm e
    simp only [Option.some.injEq, e', iff_false] at this
    simp only [e, if_false]
    exact ⟨fun h => absurd h this, fun h => by cases h⟩

/-- A whole call beside others: it keeps the invariant, does nothing undefined, takes effect once, as an ordinary map would, and holds no
lock at its end. -/
theorem prog_W {f : Nat} {s : HSt} {A : AM} (hp : E.pool < 2 ^ 31) (ho : Own t s Emp none none false) (hs : q → Solo t s ∧ 0 < f) :
    W E m0 t op q (op.prog E t f) (fun a s' A' st' => Inv E m0 s' A' ∧ Own t s' Emp none none false ∧ st' = some a) s A none := by
  cases op with
  | insert el =>
    refine W_bind (W_mono ?_ (insert_W (fun A h => Or.inr ⟨rfl, by simp [spec, h], by simp [spec, h]⟩)
      (fun A v h => Or.inr ⟨rfl, by simp [spec, h], by simp [spec, h]⟩) hp ho fun hq => (hs hq).2))
    rintro r s1 A1 st1 ⟨h1, h2, h3⟩
    exact W_pure ⟨h1, h2, h3⟩
  | erase el =>
    refine W_bind (W_mono ?_ (erase_W (fun A h => Or.inr ⟨rfl, by simp [spec, h], by simp [spec, h]⟩)
      (fun A v h => Or.inr ⟨rfl, by simp [spec, h], by simp [spec, h]⟩) ho hs))
    rintro r s1 A1 st1 ⟨h1, h2, h3⟩
    exact W_pure ⟨h1, h2, h3⟩
  | contains el =>
    refine W_bind (W_mono ?_ (find_W (st0 := some 0#64) (st1 := fun _ => some 1#64) (fun A h => Or.inr ⟨rfl, by simp [spec, h], by simp [spec]⟩)
      (fun A v h => Or.inr ⟨rfl, by simp [spec, h], by simp [spec]⟩) ho hs))
    rintro r s1 A1 st1 ⟨h1, h2⟩
    cases r with
    | none => exact W_pure ⟨h1, h2.1, h2.2⟩
    | some n =>
      obtain ⟨x, hx, ho1, rfl⟩ := h2
      exact unlockItem_W ho1 hx fun s2 A2 hi2 ho2 => W_pure ⟨hi2, ho2, rfl⟩
  | get el =>
    refine W_bind (W_mono ?_ (find_W (st0 := some 0#64) (st1 := fun v => some v) (fun A h => Or.inr ⟨rfl, by simp [spec, h], by simp [spec]⟩)
      (fun A v h => Or.inr ⟨rfl, by simp [spec, h], by simp [spec]⟩) ho hs))
    rintro r s1 A1 st1 ⟨h1, h2⟩
    cases r with
    | none => exact W_pure ⟨h1, h2.1, h2.2⟩
    | some n =>
      obtain ⟨x, hx, ho1, rfl⟩ := h2
      refine W_read fun s2 A2 hi2 hr2 hq2 => ?_
      have hnl := (ho1.nl n).2 rfl
      obtain ⟨x', hx', _, hv⟩ := hr2.item n x hnl hx
      refine ⟨x.val, ?_, ?_⟩
      · rw [if_pos ((hr2.nl n).2 hnl), hx']
        dsimp only
        rw [hv]
      · exact unlockItem_W (ho1.rel hr2) hx' fun s2 A2 hi2 ho2 => W_pure ⟨hi2, ho2, rfl⟩
  | increment el =>
    refine W_bind (W_mono ?_ (insert_W (fun A h => Or.inr ⟨rfl, by simp [spec, h], by simp [spec, h]⟩)
      (fun A v h => Or.inr ⟨rfl, by simp [spec, h], by simp [spec, h]⟩) hp ho fun hq => (hs hq).2))
    rintro r s1 A1 st1 ⟨h1, h2, h3⟩
    exact W_pure ⟨h1, h2, h3⟩

end

end PMap.Pmem
