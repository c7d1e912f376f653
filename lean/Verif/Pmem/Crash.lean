import Verif.Pmem.Grow
import Verif.Pmem.System

/-!
# libpmemobj's concurrent_hash_map: the new table, and the table after a power failure

Nothing here is code.
-/

namespace PMap.Pmem

theorem new_tab : Tab HSt.new 1 where
  two := Or.inl rfl
  b0 := rfl
  l0 := rfl
  b1 := fun h => by omega
  l1 := fun h => by omega
  big := fun b h8 hb => by simp [firstBlock] at hb; omega
  none := fun b hb => by
    simp [firstBlock] at hb
    show (if b = 0 then some (0, 0) else Option.none) = Option.none
    rw [if_neg (by omega)]

theorem new_fl (b : Loc) : HSt.new.fl b = true ↔ b = loc 0 ∨ b = loc 1 := by
  show (b == (0, 0) || b == (0, 1)) = true ↔ _
  simp [loc]

theorem new_inv (E : HEnv) : Inv E 1 HSt.new (fun _ => none) := by
  refine ⟨⟨1, fun _ => [], [], ?_⟩, ?_⟩
  · have heff : ∀ c, eff HSt.new c → c ≤ 1 := by
      rintro c (h | h)
      · rcases (new_fl _).1 h with h | h
        · have := loc_inj h; omega
        · have := loc_inj h; omega
      · exact absurd rfl h
    exact {
      tab := new_tab
      kk31 := by omega
      mask := ⟨1, Or.inl rfl, Nat.le_refl _, rfl⟩
      m0 := Nat.le_refl _
      below := heff
      base := ⟨rfl, rfl⟩
      real := fun b h => by
        rcases (new_fl b).1 h with h | h
        · exact ⟨0, h⟩
        · exact ⟨1, h⟩
      dfl := fun b h => h
      par := fun c h2 h => by have := heff c h; omega
      chain := fun c => by simp [HSt.new, Chain]
      nodup := fun c => List.nodup_nil
      disj := fun c d n h => by cases h
      keys := fun c n x h => by cases h
      uniq := fun c n n' x x' h => by cases h
      abs := fun k v => by simp
      vdup := List.nodup_nil
      live := fun n => by simp [HSt.new]
      all := fun n h => by cases h
      cnt := rfl
      allocs := Nat.zero_le _ }
  · exact {
      real := fun b h => by rcases h with h | h <;> exact absurd rfl h
      excl := fun b t h => by cases h
      rdfl := fun b h => absurd rfl h
      dur := fun b h => Or.inl h
      pend := fun c h => by
        rcases h with h | h
        · exact Or.inl h
        · exact absurd rfl h
      nl := fun n _ => rfl }

theorem Tab.same {s s' : HSt} {kk : Nat} (h : Tab s kk) (e1 : s'.blk = s.blk) (e2 : s'.len = s.len) : Tab s' kk :=
  ⟨h.two, by rw [e1]; exact h.b0, by rw [e2]; exact h.l0, by rw [e1]; exact h.b1, by rw [e2]; exact h.l1, by rw [e1, e2]; exact h.big, by rw [e1]; exact h.none⟩

theorem calcMask_eq {s : HSt} {kk : Nat} (h : Tab s kk) (h31 : kk ≤ 31) : ∀ (f k : Nat), 1 ≤ k → k ≤ kk → kk < k + f →
    calcMask s f k (2 ^ k - 1) = .ok (2 ^ kk - 1) s
  | 0, k, _, h1, h2 => by omega
  | f + 1, k, h0, h1, h2 => by
    rw [calcMask, if_neg (by omega), h.valid]
    by_cases hk : k < kk
    · rw [if_pos (by simp [hk]), segSize, if_neg (by omega)]
      have hp := Nat.two_pow_pos k
      rw [show 2 ^ k - 1 + 2 ^ k = 2 ^ (k + 1) - 1 by rw [pow_succ]; omega]
      exact calcMask_eq h h31 f (k + 1) (by omega) hk (by omega)
    · have : k = kk := by omega
      subst this
      rw [if_neg (by simp)]

theorem countFrom_eq {s : HSt} : ∀ {l : List Nat} {f n : Nat}, Chain s.heap n l → l.length < f → countFrom s f n = some l.length
  | [], f, n, h, hf => by
    obtain ⟨f, rfl⟩ := Nat.exists_eq_succ_of_ne_zero (show f ≠ 0 by simp at hf; omega)
    have : n = 0 := h
    simp [countFrom, this]
  | m :: l, f, n, h, hf => by
    obtain ⟨f, rfl⟩ := Nat.exists_eq_succ_of_ne_zero (show f ≠ 0 by omega)
    obtain ⟨rfl, h0, x, hx, h⟩ := h
    simp only [List.length_cons] at hf
    simp only [countFrom, h0, if_false, hx, countFrom_eq h (show l.length < f by omega), Option.map_some, List.length_cons]

theorem countAll_eq {s : HSt} {kk : Nat} {L : Nat → List Nat} (ht : Tab s kk) (h31 : kk ≤ 31) (hch : ∀ c, Chain s.heap (s.list (loc c)) (L c))
    (hlen : ∀ c, (L c).length ≤ s.allocs) : ∀ (f k : Nat), k + f ≤ 2 ^ kk →
      countAll s f k = some ((List.range' k f).flatMap L).length
  | 0, k, _ => rfl
  | f + 1, k, hk => by
    rw [countAll, ht.locate (by omega) (by omega)]
    dsimp only
    rw [countFrom_eq (hch k) (by have := hlen k; omega)]
    dsimp only
    rw [countAll_eq ht h31 hch hlen f (k + 1) (by omega), List.range'_succ, List.flatMap_cons, List.length_append]
    rfl

/-- After a power failure the pool can be opened, and the map is the same. -/
theorem reopen_ok {E : HEnv} {m0 : Nat} {s : HSt} {A : AM} (keep : Loc → Bool) (hi : Inv E m0 s A) :
    ∃ s', reopen (s.crash keep) = .ok () s' ∧ Inv E s'.mask s' A ∧ (∀ t, Own t s' Emp none none false) := by
  obtain ⟨⟨kk, L, V, hc⟩, hk⟩ := hi
  have ht : Tab (s.crash keep) kk := hc.tab.same rfl rfl
  have h31 := hc.kk31
  have hkk : 1 ≤ kk := by
    rcases hc.tab.two with h | h <;> omega
  have hmask : calcMask (s.crash keep) 33 1 1 = .ok (2 ^ kk - 1) (s.crash keep) := calcMask_eq ht h31 33 1 (by omega) hkk (by omega)
  obtain ⟨j, hj1, hj2, hj3⟩ := hc.mask
  have hpk := Nat.two_pow_pos kk
  have hmle : s.mask ≤ 2 ^ kk - 1 := by
    have := Nat.pow_le_pow_right (n := 2) (by omega) hj2
    omega
  have hcnt := hc.cnt
  have hmem : ∀ c n, n ∈ L c → n ∈ V ∧ c < 2 ^ kk := fun c n hn => by
    obtain ⟨x, hx⟩ := (hc.chain c).live n hn
    refine ⟨(hc.live n).2 (by rw [hx]; rfl), ?_⟩
    have := hc.below c (hc.eff_mem hn)
    omega
  have hsum : ((List.range' 0 (2 ^ kk)).flatMap L).length = V.length := by
    refine List.Perm.length_eq ((List.perm_ext_iff_of_nodup ?_ hc.vdup).2 fun n => ?_)
    · rw [List.nodup_flatMap]
      refine ⟨fun c _ => hc.nodup c, ?_⟩
      refine List.Pairwise.imp_of_mem ?_ (List.nodup_range' (s := 0) (n := 2 ^ kk))
      intro c d _ _ hne n h1 h2
      exact hne (hc.disj c d n h1 h2)
    · rw [List.mem_flatMap]
      constructor
      · rintro ⟨c, _, hn⟩
        exact (hmem c n hn).1
      · intro hn
        obtain ⟨c, h⟩ := hc.all n hn
        exact ⟨c, by rw [List.mem_range'_1]; have := (hmem c n h).2; omega, h⟩
  generalize hs1 : ({ s.crash keep with mask := 2 ^ kk - 1, base := (s.crash keep).base + (s.crash keep).diff, diff := 0, size := (s.crash keep).base + (s.crash keep).diff } : HSt) = s1
  have hall : countAll s1 (2 ^ kk - 1 + 1) 0 = some V.length := by
    rw [← hsum, show 2 ^ kk - 1 + 1 = 2 ^ kk by omega]
    exact countAll_eq (s := s1) (ht.same (by rw [← hs1]) (by rw [← hs1])) h31 (by rw [← hs1]; exact hc.chain) (by rw [← hs1]; exact hc.len)
      (2 ^ kk) 0 (by omega)
  refine ⟨s1, ?_, ?_, ?_⟩
  · unfold reopen
    rw [hmask]
    dsimp only
    rw [if_pos (show 0 ≤ (s.crash keep).diff ∨ 0 ≤ (s.crash keep).diff + (s.crash keep).base from Or.inr (show 0 ≤ s.diff + s.base by omega))]
    subst hs1
    rw [hall]
    exact if_pos hcnt
  · subst hs1
    have hfl : ∀ b, (s.dfl b || (s.fl b && keep b)) = true → s.fl b = true := fun b h => by
      rw [Bool.or_eq_true, Bool.and_eq_true] at h
      rcases h with h | h
      · exact hc.dfl b h
      · exact h.1
    have hdf : ∀ b, s.dfl b = true → (s.dfl b || (s.fl b && keep b)) = true := fun b h => by rw [h]; rfl
    have heff : ∀ c, eff ({ s.crash keep with mask := 2 ^ kk - 1, base := s.base + s.diff, diff := 0, size := s.base + s.diff } : HSt) c → eff s c := by
      rintro c (h | h)
      · exact Or.inl (hfl _ h)
      · exact Or.inr h
    refine ⟨⟨kk, L, V, ?_⟩, ?_⟩
    · exact {
        tab := ht.same rfl rfl
        kk31 := h31
        mask := ⟨kk, hc.tab.two, Nat.le_refl _, rfl⟩
        m0 := Nat.le_refl _
        below := fun c h => (hc.below c (heff c h)).trans hmle
        base := ⟨hdf _ hc.base.1, hdf _ hc.base.2⟩
        real := fun b h => hc.real b (hfl b h)
        dfl := fun b h => h
        par := fun c h2 h => hdf _ (hc.par c h2 (heff c h))
        chain := hc.chain
        nodup := hc.nodup
        disj := hc.disj
        keys := fun c n x h hx => ⟨(hc.keys c n x h hx).1, fun d hd hlt hf => (hc.keys c n x h hx).2 d hd hlt (heff d hf)⟩
        uniq := hc.uniq
        abs := hc.abs
        vdup := hc.vdup
        live := hc.live
        all := hc.all
        cnt := by show s.base + s.diff + 0 = _; omega
        allocs := hc.allocs }
    · exact {
        real := fun b h => by rcases h with h | h <;> exact absurd rfl h
        excl := fun b t h => by cases h
        rdfl := fun b h => absurd rfl h
        dur := fun b h => Or.inl h
        pend := fun c h => Or.inr (Or.inl ((hc.below c (heff c h)).trans hmle))
        nl := fun n _ => rfl }
  · intro t
    subst hs1
    exact ⟨fun b => by simp [HSt.crash, Emp], fun b => by simp [HSt.crash], fun n => by simp [HSt.crash], by simp [HSt.crash]⟩

theorem new_own (t : Nat) : Own t HSt.new Emp none none false :=
  ⟨fun b => by simp [HSt.new, Emp], fun b => by simp [HSt.new], fun n => by simp [HSt.new], by simp [HSt.new]⟩

end PMap.Pmem
