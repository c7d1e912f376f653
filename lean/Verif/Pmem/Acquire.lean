import Verif.Pmem.Logic

/-!
# libpmemobj's concurrent_hash_map: acquiring a bucket

Nothing here is code.
-/

namespace PMap.Pmem

open HP

theorem Own.congr {t : Nat} {s : HSt} {H H' : Nat → Prop} {R N : Option Nat} {M : Bool} (h : Own t s H R N M) (e : ∀ g, H g ↔ H' g) :
    Own t s H' R N M := by
  have : H = H' := funext fun g => propext (e g)
  rw [← this]
  exact h

section
variable {E : HEnv} {m0 t : Nat} {op : Cmd} {q : Prop}

/-- Waiting for the lock (chm:1790-1793). -/
theorem lock_W {c : Nat} {w : Bool} {s0 s : HSt} {A : AM} {st : Option Ans} {H : Nat → Prop} (ho : Own t s H none none false) (hc : Cold s H c)
    (hm : c ≤ s.mask) (hk : Keep q s0 s) (hf : s.fl (loc c) = true ∨ ∃ v, v ≠ t ∧ s.wr (loc c) = some v) :
    W E m0 t op q (do
      lock t (loc c) w
      assertRehashed (loc c) true
      pure (loc c, w)) (Acq E m0 t q s0 st H c w) s A st := by
  refine W_atom fun s1 A1 hi hr hq => ?_
  have ho1 := ho.rel hr
  have hc1 := hc.rel ho hr
  have hk1 := hk.trans (Keep.rel hr hq)
  have hm1 : c ≤ s1.mask := hm.trans hr.mask
  have hf1 := hr.flag _ hf
  have hfl : s1.wr (loc c) = none → s1.fl (loc c) = true ∧ s1.dfl (loc c) = true := by
    intro hn
    have h1 : s1.fl (loc c) = true := by
      rcases hf1 with h | ⟨v, _, h⟩
      · exact h
      · rw [hn] at h; cases h
    rcases hi.2.dur _ h1 with h | h
    · exact ⟨h1, h⟩
    · exact absurd hn h
  have hwait : (∃ v, Holds v s1 (loc c)) → Waits t s1 := fun h =>
    ⟨c, h, fun d hd => by
      rcases ho1.holds.1 hd with h | h
      · exact (hc1 d h).1
      · cases h⟩
  cases w with
  | true =>
    rw [if_pos rfl]
    by_cases hfree : Free s1 (loc c)
    · rw [if_pos hfree]
      obtain ⟨h1, h2⟩ := lockW_ok (t := t) hi ⟨c, hm1, rfl⟩ hfree
      obtain ⟨f1, f2⟩ := hfl hfree.1
      refine ⟨A1, st, .none, h1, h2, ?_⟩
      have ho2 := ho1.lockW c
      have hk2 : Keep q s1 (s1.lockW t (loc c)) := Keep.of_eq rfl rfl
      have hc2 : Cold (s1.lockW t (loc c)) H c := hc1
      have f2' : (s1.lockW t (loc c)).dfl (loc c) = true := f2
      generalize s1.lockW t (loc c) = s2 at *
      refine W_read fun s3 A3 hi3 hr3 hq3 => ?_
      have hd := hr3.dfl _ f2'
      obtain ⟨⟨_, _, _, hcore⟩, _⟩ := id hi3
      refine ⟨(), by rw [if_pos (hcore.dfl _ hd)], W_pure ?_⟩
      exact ⟨hi3, rfl, rfl, (ho2.rel hr3).congr (by simp), fun _ => rfl, hd,
        fun g hg => by
          have hw := ho2.wr'.2 (Or.inr hg)
          exact ⟨(hc2 g hg).1, (hr3.flw _ hw).1.trans (hc2 g hg).2.1, (hr3.held _ (Or.inl hw)).trans (hc2 g hg).2.2⟩,
        (hk1.trans hk2).trans (Keep.rel hr3 hq3)⟩
    · rw [if_neg hfree]
      refine hwait ?_
      by_cases hn : s1.wr (loc c) = none
      · have : s1.rd (loc c) ≠ [] := fun e => hfree ⟨hn, e⟩
        obtain ⟨v, hv⟩ := List.exists_mem_of_ne_nil _ this
        exact ⟨v, Or.inr hv⟩
      · obtain ⟨v, hv⟩ := Option.ne_none_iff_exists'.1 hn
        exact ⟨v, Or.inl hv⟩
  | false =>
    rw [if_neg (by simp)]
    by_cases hn : s1.wr (loc c) = none
    · rw [if_pos hn]
      obtain ⟨f1, f2⟩ := hfl hn
      obtain ⟨h1, h2⟩ := lockR_ok (t := t) hi ⟨c, hm1, rfl⟩ hn f1
      refine ⟨A1, st, .none, h1, h2, ?_⟩
      have ho2 := ho1.lockR c
      have hk2 : Keep q s1 (s1.lockR t (loc c)) := Keep.of_eq rfl rfl
      have hc2 : Cold (s1.lockR t (loc c)) H c := hc1
      have f2' : (s1.lockR t (loc c)).dfl (loc c) = true := f2
      generalize s1.lockR t (loc c) = s2 at *
      refine W_read fun s3 A3 hi3 hr3 hq3 => ?_
      have hd := hr3.dfl _ f2'
      obtain ⟨⟨_, _, _, hcore⟩, _⟩ := id hi3
      refine ⟨(), by rw [if_pos (hcore.dfl _ hd)], W_pure ?_⟩
      exact ⟨hi3, rfl, rfl, (ho2.rel hr3).congr (by simp), fun h => (by cases h), hd, hc2.rel ho2 hr3,
        (hk1.trans hk2).trans (Keep.rel hr3 hq3)⟩
    · rw [if_neg hn]
      refine hwait ?_
      obtain ⟨v, hv⟩ := Option.ne_none_iff_exists'.1 hn
      exact ⟨v, Or.inl hv⟩

/-- What thread `t` knows while it has bucket `c` and, above it, the buckets `H` still to be filled. -/
structure Mine (t : Nat) (q : Prop) (s0 : HSt) (H : Nat → Prop) (c : Nat) (s : HSt) : Prop where
  own : Own t s (fun g => g = c ∨ H g) none none false
  cold : Cold s H c
  mask : c ≤ s.mask
  keep : Keep q s0 s

theorem Mine.rel {s0 s s' : HSt} {A A' : AM} {H : Nat → Prop} {c : Nat} (h : Mine t q s0 H c s) (hr : Rel t s s')
    (hq : q → s' = s ∧ A' = A) : Mine t q s0 H c s' where
  own := h.own.rel hr
  cold := fun g hg => by
    have hw := h.own.wr'.2 (Or.inr hg)
    exact ⟨(h.cold g hg).1, (hr.flw _ hw).1.trans (h.cold g hg).2.1, (hr.held _ (Or.inl hw)).trans (h.cold g hg).2.2⟩
  mask := h.mask.trans hr.mask
  keep := h.keep.trans (Keep.rel hr hq)

theorem Mine.wr {s0 s : HSt} {H : Nat → Prop} {c : Nat} (h : Mine t q s0 H c s) : s.wr (loc c) = some t := h.own.wr'.2 (Or.inl rfl)

/-- The end of `acquire` when the bucket was locked for filling it (chm:1793). -/
theorem finish_W {c : Nat} {w : Bool} {s0 s : HSt} {A : AM} {st : Option Ans} {H : Nat → Prop} (h : Mine t q s0 H c s)
    (hd : s.dfl (loc c) = true) :
    W E m0 t op q (do
      assertRehashed (loc c) true
      pure (loc c, true)) (Acq E m0 t q s0 st H c w) s A st := by
  refine W_read fun s3 A3 hi3 hr3 hq3 => ?_
  have hd := hr3.dfl _ hd
  obtain ⟨⟨_, _, _, hcore⟩, _⟩ := id hi3
  have h3 := h.rel hr3 hq3
  exact ⟨(), by rw [if_pos (hcore.dfl _ hd)], W_pure ⟨hi3, rfl, rfl, h3.own.congr (by simp), fun _ => rfl, hd, h3.cold, h3.keep⟩⟩

theorem mark_W {c : Nat} {s0 s : HSt} {A : AM} {st : Option Ans} {H : Nat → Prop} {α : Type} {k : Unit → HP α}
    {Q : α → HSt → AM → Option Ans → Prop} (h : Mine t q s0 H c s) (hf : s.fl (loc c) = true)
    (hk : ∀ s' A', Inv E m0 s' A' → Mine t q s0 H c s' → s'.dfl (loc c) = true → W E m0 t op q (k ()) Q s' A' st) :
    W E m0 t op q (persistFlag (loc c) >>= k) Q s A st := by
  refine W_ok fun s1 A1 hi hr hq => ?_
  have h1 := h.rel hr hq
  have hf1 := hr.fl _ hf
  obtain ⟨i2, g2⟩ := markD_ok hi h1.wr hf1
  refine ⟨(), _, A1, st, rfl, .none, i2, g2, ?_⟩
  refine hk _ A1 i2 ⟨⟨h1.own.wr, h1.own.rd, h1.own.nl, h1.own.sm⟩, h1.cold, h1.mask, h1.keep.trans (Keep.of_eq rfl rfl)⟩ ?_
  simp [hf1]

theorem acquire_W : ∀ {d c : Nat} {w : Bool} {s : HSt} {A : AM} {st : Option Ans} {H : Nat → Prop}, Nat.log2 c < d →
    Own t s H none none false → Cold s H c → c ≤ s.mask → W E m0 t op q (acquire E t d c w) (Acq E m0 t q s st H c w) s A st := by
  intro d
  induction d with
  | zero => intro c w s A st H h; exact absurd h (Nat.not_lt_zero _)
  | succ d ih =>
    intro c w s A st H hd ho hcold hm
    have hHc : ¬ H c := fun h => Nat.lt_irrefl _ (hcold c h).1
    rw [acquire]
    refine W_read fun s1 A1 hi1 hr1 hq1 => ⟨loc c, hi1.locate (hm.trans hr1.mask), ?_⟩
    have ho1 := ho.rel hr1
    have hc1 := hcold.rel ho hr1
    have hm1 := hm.trans hr1.mask
    have hk1 : Keep q s s1 := Keep.rel hr1 hq1
    refine W_read fun s2 A2 hi2 hr2 hq2 => ⟨s2.fl (loc c), rfl, ?_⟩
    have ho2 := ho1.rel hr2
    have hc2 := hc1.rel ho1 hr2
    have hm2 := hm1.trans hr2.mask
    have hk2 := hk1.trans (Keep.rel hr2 hq2)
    dsimp only
    by_cases hfl : s2.fl (loc c) = true
    · rw [if_neg (by simp [hfl])]
      exact lock_W ho2 hc2 hm2 hk2 (Or.inl hfl)
    rw [if_pos (by simpa using hfl)]
    refine W_ok fun s3 A3 hi3 hr3 hq3 => ?_
    have ho3 := ho2.rel hr3
    have hc3 := hc2.rel ho2 hr3
    have hm3 := hm2.trans hr3.mask
    have hk3 := hk2.trans (Keep.rel hr3 hq3)
    by_cases hfree : Free s3 (loc c)
    swap
    · rw [if_neg hfree]
      refine ⟨false, s3, A3, st, rfl, .none, hi3, .refl _ _, ?_⟩
      rw [if_neg (by simp)]
      refine lock_W ho3 hc3 hm3 hk3 ?_
      by_cases hn : s3.wr (loc c) = none
      · exact Or.inl (hi3.2.rdfl _ fun e => hfree ⟨hn, e⟩)
      · obtain ⟨v, hv⟩ := Option.ne_none_iff_exists'.1 hn
        refine Or.inr ⟨v, ?_, hv⟩
        rintro rfl
        exact hHc (ho3.wr'.1 hv)
    rw [if_pos hfree]
    obtain ⟨i4, g4⟩ := lockW_ok (t := t) hi3 ⟨c, hm3, rfl⟩ hfree
    refine ⟨true, _, A3, st, rfl, .none, i4, g4, ?_⟩
    rw [if_pos rfl]
    have hM : Mine t q s H c (s3.lockW t (loc c)) := ⟨ho3.lockW c, hc3, hm3, hk3.trans (Keep.of_eq rfl rfl)⟩
    have hfd : (s3.lockW t (loc c)).fl (loc c) = true → (s3.lockW t (loc c)).dfl (loc c) = true := fun h => by
      rcases hi3.2.dur _ h with h' | h'
      · exact h'
      · exact absurd hfree.1 h'
    generalize s3.lockW t (loc c) = s4 at *
    refine W_read fun s5 A5 hi5 hr5 hq5 => ⟨s5.fl (loc c), rfl, ?_⟩
    have hM5 := hM.rel hr5 hq5
    have hflw := hr5.flw _ hM.wr
    by_cases hf5 : s5.fl (loc c) = true
    · rw [if_neg (by simp [hf5])]
      refine finish_W hM5 ?_
      rw [hflw.2]
      exact hfd (hflw.1 ▸ hf5)
    rw [if_pos (by simpa using hf5)]
    have h2 : 2 ≤ c := by
      by_contra h2
      obtain ⟨⟨kk, L, V, hh⟩, _⟩ := hi5
      rcases (show c = 0 ∨ c = 1 by omega) with rfl | rfl
      · exact hf5 (hh.dfl _ hh.base.1)
      · exact hf5 (hh.dfl _ hh.base.2)
    rw [if_neg (by omega)]
    refine W_read fun s6 A6 hi6 hr6 hq6 => ⟨s6.list (loc c), by
      exact if_pos (show Holds t s6 (loc c) from Or.inl (hM5.rel hr6 hq6).wr), ?_⟩
    have hM6 := hM5.rel hr6 hq6
    have hf6 : s6.fl (loc c) = false := by
      rw [(hr6.flw _ hM5.wr).1]
      simpa using hf5
    by_cases hl : s6.list (loc c) ≠ 0
    · rw [if_pos hl]
      refine W_read fun s7 A7 hi7 hr7 hq7 => ?_
      have hM7 := hM6.rel hr7 hq7
      have hl7 : s7.list (loc c) ≠ 0 := by rw [hr7.held _ (Or.inl hM6.wr)]; exact hl
      refine ⟨(), by rw [if_pos ((hr7.flw _ hM6.wr).1.trans hf6)], ?_⟩
      refine W_ok fun s8 A8 hi8 hr8 hq8 => ?_
      have hM8 := hM7.rel hr8 hq8
      have hl8 : s8.list (loc c) ≠ 0 := by rw [hr8.held _ (Or.inl hM7.wr)]; exact hl7
      obtain ⟨⟨kk, L, V, hh⟩, _⟩ := id hi8
      obtain ⟨i9, g9⟩ := mark_ok hi8 hM8.wr hM8.mask h2 (hh.par c h2 (Or.inr hl8)) (Or.inl (Or.inr hl8))
      refine ⟨(), s8.mark (loc c), A8, st, rfl, .none, i9, g9, ?_⟩
      have hne : ∀ g, H g → loc g ≠ loc c := fun g hg e => hHc (loc_inj e ▸ hg)
      have hM9 : Mine t q s H c (s8.mark (loc c)) := ⟨⟨hM8.own.wr, hM8.own.rd, hM8.own.nl, hM8.own.sm⟩,
        fun g hg => ⟨(hM8.cold g hg).1, by simp [HSt.mark, hne g hg, (hM8.cold g hg).2.1], (hM8.cold g hg).2.2⟩, hM8.mask,
        hM8.keep.trans (Keep.of_eq rfl rfl)⟩
      exact mark_W hM9 (by simp [HSt.mark]) fun s' A' _ hM' hd' => finish_W hM' hd'
    · rw [if_neg hl]
      rw [not_not] at hl
      have h31 := hi6.mask31
      have hlog : Nat.log2 c < 32 := (Nat.log2_lt (by omega)).2 (by have := hM6.mask; omega)
      rw [if_neg (by omega)]
      have hpar : c &&& (2 ^ Nat.log2 c - 1) = parent c := and_mask c _
      have hplt : parent c < c := parent_lt (by omega)
      rw [hpar, if_neg (by omega)]
      have hlog1 : 1 ≤ Nat.log2 c := (Nat.le_log2 (by omega)).2 (by omega)
      have hdp : Nat.log2 (parent c) < d := by
        by_cases hz : parent c = 0
        · rw [hz, show Nat.log2 0 = 0 by decide]; omega
        · have : Nat.log2 (parent c) < Nat.log2 c := (Nat.log2_lt hz).2 (Nat.mod_lt _ (Nat.two_pow_pos _))
          omega
      have hcold' : Cold s6 (fun g => g = c ∨ H g) (parent c) := by
        rintro g (rfl | hg)
        · exact ⟨hplt, hf6, hl⟩
        · exact ⟨hplt.trans (hM6.cold g hg).1, (hM6.cold g hg).2⟩
      refine W_bind (W_mono ?_ (ih (w := true) hdp hM6.own hcold' (by have := hM6.mask; omega)))
      rintro ⟨o, ow⟩ s7 A7 st7 ⟨i7, e1, e2, o7, w7, d7, c7, k7⟩
      have hw7 := w7 rfl
      dsimp only at hw7 e2 o7
      subst hw7 e1 e2
      have o7' : Own t s7 (fun g => g = parent c ∨ (g = c ∨ H g)) none none false := o7.congr (by simp)
      have em : 2 * (2 ^ Nat.log2 c - 1) + 1 = 2 ^ (Nat.log2 c + 1) - 1 := by
        have := Nat.two_pow_pos (Nat.log2 c)
        rw [pow_succ]
        omega
      dsimp only
      rw [em]
      have hchk : ¬ (2 ^ (Nat.log2 c + 1) - 1 &&& 2 ^ (Nat.log2 c + 1) - 1 + 1 ≠ 0 ∨ c &&& 2 ^ (Nat.log2 c + 1) - 1 ≠ c) := by
        have hp := Nat.two_pow_pos (Nat.log2 c + 1)
        rw [not_or, not_not, not_not]
        constructor
        · rw [show 2 ^ (Nat.log2 c + 1) - 1 + 1 = 2 ^ (Nat.log2 c + 1) by omega, Nat.and_comm, and_mask, Nat.mod_self]
        · rw [and_mask]
          exact Nat.mod_eq_of_lt (log2_spec (by omega)).2
      rw [if_neg hchk]
      -- moving
      refine W_ok fun s8 A8 hi8 hr8 hq8 => ?_
      have o8 := o7'.rel hr8
      have wc : s8.wr (loc c) = some t := o8.wr'.2 (Or.inr (Or.inl rfl))
      have wp : s8.wr (loc (parent c)) = some t := o8.wr'.2 (Or.inl rfl)
      have cold8 : ∀ g, (g = c ∨ H g) → parent c < g ∧ s8.fl (loc g) = false ∧ s8.list (loc g) = 0 := by
        intro g hg
        have hw := o7'.wr'.2 (Or.inr hg)
        exact ⟨(c7 g hg).1, (hr8.flw _ hw).1.trans (c7 g hg).2.1, (hr8.held _ (Or.inl hw)).trans (c7 g hg).2.2⟩
      have k8 := (hM6.keep.trans k7).trans (Keep.rel hr8 hq8)
      have m8 : c ≤ s8.mask := hM6.mask.trans (k7.1.trans hr8.mask)
      obtain ⟨s9, hmv, i9, g9, e9, l9, p9⟩ := move_ok hi8 wc wp h2 m8 (cold8 c (Or.inl rfl)).2.1 (cold8 c (Or.inl rfl)).2.2 (hr8.dfl _ d7)
      refine ⟨(), s9, A8, _, by rw [if_pos ⟨wc, wp⟩]; exact hmv, .none, i9, g9, ?_⟩
      have o9 : Own t s9 (fun g => g = parent c ∨ (g = c ∨ H g)) none none false := by
        rw [e9]; exact ⟨o8.wr, o8.rd, o8.nl, o8.sm⟩
      have cold9 : Cold s9 H c := by
        intro g hg
        refine ⟨(hM6.cold g hg).1, ?_, ?_⟩
        · rw [e9]; exact (cold8 g (Or.inr hg)).2.1
        · have hcg := (hM6.cold g hg).1
          rw [l9 g (by omega) (by omega)]
          exact (cold8 g (Or.inr hg)).2.2
      have k9 : Keep q s s9 := k8.trans (by rw [e9]; exact Keep.of_eq rfl rfl)
      have m9 : c ≤ s9.mask := by rw [e9]; exact m8
      have d9 : s9.dfl (loc (parent c)) = true := by rw [e9]; exact hr8.dfl _ d7
      -- marking
      refine W_ok fun s10 A10 hi10 hr10 hq10 => ?_
      have o10 := o9.rel hr10
      have wc10 : s10.wr (loc c) = some t := o10.wr'.2 (Or.inr (Or.inl rfl))
      have wp10 : s10.wr (loc (parent c)) = some t := o10.wr'.2 (Or.inl rfl)
      have d10 := hr10.dfl _ d9
      have wp9 : s9.wr (loc (parent c)) = some t := o9.wr'.2 (Or.inl rfl)
      obtain ⟨i11, g11⟩ := mark_ok hi10 wc10 (m9.trans hr10.mask) h2 d10 (Or.inr ⟨wp10, by
        intro l hl n hn x hx
        obtain ⟨⟨kk, L, V, hh⟩, _⟩ := id i9
        have hch := hh.chain (parent c)
        have hnod := hr10.nodes (parent c) (L (parent c)) (Or.inl wp9) hch
        have hl' := hch.congr hnod
        rw [← hr10.held _ (Or.inl wp9)] at hl'
        have := hl.det hl'
        subst this
        exact p9 _ hch n hn x (by rw [← hnod n hn]; exact hx)⟩)
      refine ⟨(), s10.mark (loc c), A10, _, rfl, .none, i11, g11, ?_⟩
      have hne : ∀ g, H g → loc g ≠ loc c := fun g hg e => hHc (loc_inj e ▸ hg)
      have cold11 : Cold (s10.mark (loc c)) H c := by
        intro g hg
        have hw := o9.wr'.2 (Or.inr (Or.inr hg))
        refine ⟨(cold9 g hg).1, ?_, ?_⟩
        · simp only [HSt.mark, hne g hg, if_false]
          exact (hr10.flw _ hw).1.trans (cold9 g hg).2.1
        · exact (hr10.held _ (Or.inl hw)).trans (cold9 g hg).2.2
      have o11 : Own t (s10.mark (loc c)) (fun g => g = parent c ∨ (g = c ∨ H g)) none none false := ⟨o10.wr, o10.rd, o10.nl, o10.sm⟩
      have k11 : Keep q s (s10.mark (loc c)) := (k9.trans (Keep.rel hr10 hq10)).trans (Keep.of_eq rfl rfl)
      have m11 : c ≤ (s10.mark (loc c)).mask := m9.trans hr10.mask
      have d11 : (s10.mark (loc c)).dfl (loc (parent c)) = true := d10
      have f11 : (s10.mark (loc c)).fl (loc c) = true := by simp [HSt.mark]
      generalize s10.mark (loc c) = s11 at *
      -- the mark made durable
      refine W_ok fun s12 A12 hi12 hr12 hq12 => ?_
      have o12 := o11.rel hr12
      have wc12 : s12.wr (loc c) = some t := o12.wr'.2 (Or.inr (Or.inl rfl))
      have f12 := hr12.fl _ f11
      obtain ⟨i13, g13⟩ := markD_ok hi12 wc12 f12
      refine ⟨(), s12.markD (loc c), A12, _, rfl, .none, i13, g13, ?_⟩
      have o13 : Own t (s12.markD (loc c)) (fun g => g = parent c ∨ (g = c ∨ H g)) none none false := ⟨o12.wr, o12.rd, o12.nl, o12.sm⟩
      have cold13 : Cold (s12.markD (loc c)) H c := by
        intro g hg
        have hw := o11.wr'.2 (Or.inr (Or.inr hg))
        exact ⟨(cold11 g hg).1, (hr12.flw _ hw).1.trans (cold11 g hg).2.1, (hr12.held _ (Or.inl hw)).trans (cold11 g hg).2.2⟩
      have k13 : Keep q s (s12.markD (loc c)) := (k11.trans (Keep.rel hr12 hq12)).trans (Keep.of_eq rfl rfl)
      have m13 : c ≤ (s12.markD (loc c)).mask := m11.trans hr12.mask
      have hpc : loc (parent c) ≠ loc c := fun e => by have := loc_inj e; omega
      have d13p : (s12.markD (loc c)).dfl (loc (parent c)) = true := by
        simp only [HSt.markD, hpc, if_false]
        exact hr12.dfl _ d11
      have d13 : (s12.markD (loc c)).dfl (loc c) = true := by simp [HSt.markD, f12]
      generalize s12.markD (loc c) = s13 at *
      -- releasing the parent
      refine W_ok fun s14 A14 hi14 hr14 hq14 => ?_
      have o14 := o13.rel hr14
      have wp14 : s14.wr (loc (parent c)) = some t := o14.wr'.2 (Or.inl rfl)
      obtain ⟨⟨kk, L, V, hh⟩, _⟩ := id hi14
      obtain ⟨i15, g15⟩ := unlockW_ok hi14 wp14 (hr14.dfl _ d13p) (by
        intro g hg hw he
        rcases o14.wr'.1 hw with rfl | rfl | hg'
        · exact hh.dfl _ (hr14.dfl _ d13p)
        · exact hh.dfl _ (hr14.dfl _ d13)
        · exfalso
          have hw13 := o13.wr'.2 (Or.inr (Or.inr hg'))
          rcases he with he | he
          · rw [(hr14.flw _ hw13).1, (cold13 g hg').2.1] at he
            cases he
          · rw [hr14.held _ (Or.inl hw13)] at he
            exact he (cold13 g hg').2.2)
      refine ⟨(), _, A14, _, by rw [if_pos rfl, if_pos wp14], .none, i15, g15, ?_⟩
      have hM15 : Mine t q s H c { s14 with wr := fun d => if d = loc (parent c) then none else s14.wr d } := by
        refine ⟨o14.unlockW ?_, ?_, m13.trans hr14.mask, (k13.trans (Keep.rel hr14 hq14)).trans (Keep.of_eq rfl rfl)⟩
        · rintro (e | hg)
          · omega
          · have := (cold13 _ hg).1; omega
        · intro g hg
          have hw := o13.wr'.2 (Or.inr (Or.inr hg))
          exact ⟨(cold13 g hg).1, (hr14.flw _ hw).1.trans (cold13 g hg).2.1, (hr14.held _ (Or.inl hw)).trans (cold13 g hg).2.2⟩
      exact finish_W hM15 (hr14.dfl _ d13)

end

end PMap.Pmem
