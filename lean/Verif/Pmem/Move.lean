import Verif.Pmem.Data

/-!
# libpmemobj's concurrent_hash_map: filling a bucket and growing keep the invariant

Nothing here is code.
-/

namespace PMap.Pmem

/-- The assertion in `rehash_bucket` holds (chm:1942-1950). -/
theorem bmask_ok {h d : Nat} (h2 : 2 ≤ d) (hp : Pre h (parent d)) (h0 : parent d = 0 → h % 2 = 0) :
    h &&& (if d &&& (2 ^ (Nat.log2 d + 1) - 1) / 2 = 0 then 1 else 2 ^ (Nat.log2 (d &&& (2 ^ (Nat.log2 d + 1) - 1) / 2) + 1) - 1) =
      d &&& (if d &&& (2 ^ (Nat.log2 d + 1) - 1) / 2 = 0 then 1 else 2 ^ (Nat.log2 (d &&& (2 ^ (Nat.log2 d + 1) - 1) / 2) + 1) - 1) := by
  have e : (2 ^ (Nat.log2 d + 1) - 1) / 2 = 2 ^ Nat.log2 d - 1 := by
    rw [pow_succ]
    have := Nat.two_pow_pos (Nat.log2 d)
    omega
  rw [e, and_mask]
  change _ &&& (if parent d = 0 then 1 else 2 ^ (Nat.log2 (parent d) + 1) - 1) = _ &&& (if parent d = 0 then 1 else 2 ^ (Nat.log2 (parent d) + 1) - 1)
  by_cases hz : parent d = 0
  · rw [if_pos hz, show (1 : Nat) = 2 ^ 1 - 1 by rfl, and_mask, and_mask, pow_one, h0 hz]
    have hk : 1 ≤ Nat.log2 d := (Nat.le_log2 (by omega)).2 (by omega)
    unfold parent at hz
    have := Nat.mod_mod_of_dvd d (Nat.pow_dvd_pow 2 hk)
    rw [hz, pow_one] at this
    omega
  · rw [if_neg hz, and_mask, and_mask, (pre_iff (by omega)).1 hp]
    have : Pre d (parent d) := ⟨_, rfl⟩
    rw [(pre_iff (by omega)).1 this]

theorem move_ok {E : HEnv} {m0 t d : Nat} {s : HSt} {A : AM} (hi : Inv E m0 s A) (hw : s.wr (loc d) = some t)
    (hwp : s.wr (loc (parent d)) = some t) (h2 : 2 ≤ d) (hm : d ≤ s.mask) (hfd : s.fl (loc d) = false) (hl0 : s.list (loc d) = 0)
    (hdp : s.dfl (loc (parent d)) = true) :
    ∃ s', moveLoop E (2 ^ (Nat.log2 d + 1) - 1) d (s.allocs + 1) (.head (loc (parent d))) (.head (loc d)) s = .ok () s' ∧
      Inv E m0 s' A ∧ Guar t s s' ∧ s' = { s with heap := s'.heap, list := s'.list } ∧
      (∀ c, c ≠ d → c ≠ parent d → s'.list (loc c) = s.list (loc c)) ∧
      ∀ l, Chain s'.heap (s'.list (loc (parent d))) l → ∀ n ∈ l, ∀ x, s'.heap n = some x → ¬ Pre (E.hash x.key) d := by
  obtain ⟨⟨kk, L, V, hc⟩, hk⟩ := hi
  have hpd : parent d < d := parent_lt (by omega)
  generalize hP : (fun n => match s.heap n with
    | none => false
    | some x => decide (E.hash x.key &&& (2 ^ (Nat.log2 d + 1) - 1) = d)) = P
  have hPx : ∀ n x, s.heap n = some x → (P n = true ↔ Pre (E.hash x.key) d) := by
    intro n x hx
    rw [← hP, pre_iff (by omega)]
    simp only [hx, and_mask, decide_eq_true_eq]
  have hLd : L d = [] := by
    have := hc.chain d
    rw [hl0] at this
    exact this.zero
  have hne : loc (parent d) ≠ loc d := fun e => by have := loc_inj e; omega
  obtain ⟨s', hmv, hfr, hco, hcn⟩ := moveLoop_spec (E := E) (mask := 2 ^ (Nat.log2 d + 1) - 1) (h := d) hne (P := P) (S := L (parent d))
    (f := s.allocs + 1) (s := s) (pOld := .head (loc (parent d))) (pNew := .head (loc d)) (O := []) (R := L (parent d)) (N := [])
    (r := s.list (loc (parent d))) (by have := hc.len (parent d); omega) rfl rfl (hc.chain _) rfl ⟨_, rfl⟩ (by simpa using hc.nodup _)
    (fun n hn => by simpa using hn) (fun n hn x hx => by
      have hkx := hc.keys _ n x hn hx
      refine ⟨?_, bmask_ok h2 hkx.1 fun hz => ?_⟩
      · rw [← hP]
        simp only [hx, decide_eq_true_eq]
      · by_contra hodd
        have h1 : Pre (E.hash x.key) 1 := ⟨1, by rw [pow_one]; omega⟩
        exact hkx.2 1 h1 (by omega) (hc.fl0 (by omega)))
  simp only [List.nil_append] at hco hcn
  have hrest := hfr.rest
  have e1 : s'.fl = s.fl := by rw [hrest]
  have e2 : s'.dfl = s.dfl := by rw [hrest]
  have e3 : s'.mask = s.mask := by rw [hrest]
  have e4 : s'.blk = s.blk := by rw [hrest]
  have e5 : s'.len = s.len := by rw [hrest]
  have e6 : s'.wr = s.wr := by rw [hrest]
  have e7 : s'.rd = s.rd := by rw [hrest]
  have e8 : s'.nl = s.nl := by rw [hrest]
  have e9 : s'.sm = s.sm := by rw [hrest]
  have e10 : s'.base = s.base := by rw [hrest]
  have e11 : s'.allocs = s.allocs := by rw [hrest]
  have e12 : s'.diff = s.diff := by rw [hrest]
  have hlist : ∀ c, c ≠ d → c ≠ parent d → s'.list (loc c) = s.list (loc c) := fun c a b =>
    hfr.list _ (fun e => b (loc_inj e)) (fun e => a (loc_inj e))
  have hfp := hc.dfl _ hdp
  have heff : ∀ c, eff s' c → c = d ∨ eff s c := by
    intro c h
    by_cases ed : c = d
    · exact Or.inl ed
    · right
      unfold eff at *
      by_cases ep : c = parent d
      · left; rw [ep]; exact hfp
      · rw [e1, hlist c ed ep] at h
        exact h
  have hold : ∀ n x, s'.heap n = some x → ∃ y, s.heap n = some y ∧ y.key = x.key ∧ y.val = x.val := fun n x h => hfr.back h
  have hmem : ∀ c n, n ∈ (if c = d then (L (parent d)).filter P else if c = parent d then (L (parent d)).filter (fun n => !P n) else L c) →
      (c = d ∧ n ∈ L (parent d) ∧ P n = true) ∨ (c = parent d ∧ n ∈ L (parent d) ∧ P n = false) ∨ (c ≠ d ∧ c ≠ parent d ∧ n ∈ L c) := by
    intro c n h
    by_cases ed : c = d
    · rw [if_pos ed] at h
      exact Or.inl ⟨ed, (List.mem_filter.1 h).1, (List.mem_filter.1 h).2⟩
    · rw [if_neg ed] at h
      by_cases ep : c = parent d
      · rw [if_pos ep] at h
        refine Or.inr (Or.inl ⟨ep, (List.mem_filter.1 h).1, ?_⟩)
        simpa using (List.mem_filter.1 h).2
      · rw [if_neg ep] at h
        exact Or.inr (Or.inr ⟨ed, ep, h⟩)
  have hmem' : ∀ c n, n ∈ L c → ∃ c', n ∈ (if c' = d then (L (parent d)).filter P else if c' = parent d then
      (L (parent d)).filter (fun n => !P n) else L c') := by
    intro c n h
    by_cases ed : c = d
    · rw [ed, hLd] at h
      cases h
    · by_cases ep : c = parent d
      · by_cases hp : P n = true
        · exact ⟨d, by rw [if_pos rfl]; exact List.mem_filter.2 ⟨ep ▸ h, hp⟩⟩
        · refine ⟨parent d, ?_⟩
          rw [if_neg (by omega), if_pos rfl]
          exact List.mem_filter.2 ⟨ep ▸ h, by simpa using hp⟩
      · exact ⟨c, by rw [if_neg ed, if_neg ep]; exact h⟩
  have hsrc : ∀ c n, n ∈ (if c = d then (L (parent d)).filter P else if c = parent d then (L (parent d)).filter (fun n => !P n) else L c) →
      ∃ c', n ∈ L c' := by
    intro c n h
    rcases hmem c n h with ⟨_, h, _⟩ | ⟨_, h, _⟩ | ⟨_, _, h⟩
    · exact ⟨_, h⟩
    · exact ⟨_, h⟩
    · exact ⟨_, h⟩
  refine ⟨s', hmv, ⟨⟨kk, fun c => if c = d then (L (parent d)).filter P else if c = parent d then (L (parent d)).filter (fun n => !P n) else L c,
    V, ?_⟩, ?_⟩, ?_, hrest, hlist, ?_⟩
  · refine { tab := ⟨hc.tab.two, e4 ▸ hc.tab.b0, e5 ▸ hc.tab.l0, e4 ▸ hc.tab.b1, e5 ▸ hc.tab.l1, e4 ▸ e5 ▸ hc.tab.big, e4 ▸ hc.tab.none⟩,
             kk31 := hc.kk31, mask := e3 ▸ hc.mask,
             m0 := e3 ▸ hc.m0, below := ?_, base := e2 ▸ hc.base, real := e1 ▸ hc.real,
             dfl := e1 ▸ e2 ▸ hc.dfl,
             par := ?_, chain := ?_, nodup := ?_, disj := ?_, keys := ?_, uniq := ?_, abs := ?_,
             vdup := hc.vdup, live := ?_, all := ?_, cnt := by rw [e10, e12]; exact hc.cnt, allocs := by rw [e11]; exact hc.allocs }
    · intro c h
      rw [e3]
      rcases heff c h with rfl | h
      · exact hm
      · exact hc.below c h
    · intro c hc2 h
      rw [e2]
      rcases heff c h with rfl | h
      · exact hdp
      · exact hc.par c hc2 h
    · intro c
      by_cases ed : c = d
      · rw [if_pos ed, ed]
        exact hcn
      · rw [if_neg ed]
        by_cases ep : c = parent d
        · rw [if_pos ep, ep]
          exact hco
        · rw [if_neg ep, hlist c ed ep]
          exact (hc.chain c).congr fun m hm => hfr.heap m fun h => ep (hc.disj c _ m hm h)
    · intro c
      split
      · exact (hc.nodup _).filter _
      · split
        · exact (hc.nodup _).filter _
        · exact hc.nodup c
    · intro c c' n h h'
      rcases hmem c n h with ⟨a, b, e⟩ | ⟨a, b, e⟩ | ⟨a, b, e⟩ <;> rcases hmem c' n h' with ⟨a', b', e'⟩ | ⟨a', b', e'⟩ | ⟨a', b', e'⟩
      · rw [a, a']
      · rw [e] at e'; cases e'
      · exact absurd (hc.disj _ _ n e' b) b'
      · rw [e] at e'; cases e'
      · rw [a, a']
      · exact absurd (hc.disj _ _ n e' b) b'
      · exact absurd (hc.disj _ _ n e b') b
      · exact absurd (hc.disj _ _ n e b') b
      · exact hc.disj c c' n e e'
    · intro c n x h hx
      obtain ⟨y, hy, ky, _⟩ := hold n x hx
      rw [← ky]
      rcases hmem c n h with ⟨a, b, e⟩ | ⟨a, b, e⟩ | ⟨a, b, e⟩
      · have hkk := hc.keys _ n y b hy
        rw [a]
        refine ⟨(hPx n y hy).1 e, fun g hg hlt hf => ?_⟩
        rcases heff g hf with rfl | hf
        · omega
        · exact hkk.2 g hg (by omega) hf
      · have hkk := hc.keys _ n y b hy
        rw [a]
        refine ⟨hkk.1, fun g hg hlt hf => ?_⟩
        rcases heff g hf with rfl | hf
        · rw [(hPx n y hy).2 hg] at e
          cases e
        · exact hkk.2 g hg hlt hf
      · have hkk := hc.keys _ n y e hy
        refine ⟨hkk.1, fun g hg hlt hf => ?_⟩
        rcases heff g hf with rfl | hf
        · have hle := hkk.1.le_parent hg hlt
          exact hkk.2 _ hg.parent (by omega) (Or.inl hfp)
        · exact hkk.2 g hg hlt hf
    · intro c n n' x x' h h' hx hx' hkey
      obtain ⟨y, hy, ky, _⟩ := hold n x hx
      obtain ⟨y', hy', ky', _⟩ := hold n' x' hx'
      obtain ⟨g, hg⟩ := hsrc c n h
      obtain ⟨g', hg'⟩ := hsrc c n' h'
      exact (hc.home hg hg' hy hy' (by rw [ky, ky', hkey])).2
    · intro k v
      rw [hc.abs]
      constructor
      · rintro ⟨c, n, x, h1, hx, h3, h4⟩
        obtain ⟨c', h'⟩ := hmem' c n h1
        obtain ⟨y, hy, k1, k2⟩ := hfr.fwd hx
        exact ⟨c', n, y, h', hy, by rw [k1, h3], by rw [k2, h4]⟩
      · rintro ⟨c, n, x, h1, hx, h3, h4⟩
        obtain ⟨c', h'⟩ := hsrc c n h1
        obtain ⟨y, hy, k1, k2⟩ := hold n x hx
        exact ⟨c', n, y, h', hy, by rw [k1, h3], by rw [k2, h4]⟩
    · intro n
      rw [hc.live]
      have := congrArg Option.isSome (hfr.kv n)
      simp only [Option.isSome_map] at this
      rw [this]
    · intro n hn
      obtain ⟨c, h⟩ := hc.all n hn
      exact hmem' c n h
  · refine ⟨by rw [e3, e6, e7]; exact hk.real, by rw [e6, e7]; exact hk.excl, by rw [e1, e7]; exact hk.rdfl,
      by rw [e1, e2, e6]; exact hk.dur, ?_, ?_⟩
    · intro c h
      rw [e1, e6]
      rcases heff c h with rfl | h
      · exact Or.inr (Or.inr ⟨t, hw, hwp⟩)
      · exact hk.pend c h
    · intro n hn
      rw [e8]
      refine hk.nl n ?_
      have := hfr.kv n
      rw [hn] at this
      cases e : s.heap n with
      | none => rfl
      | some y => rw [e] at this; cases this
  · intro u hu
    refine { wr := fun b => by rw [e6], rd := fun b => by rw [e7], nl := fun b => by rw [e8], sm := by rw [e9], fl := fun b h => by rw [e1]; exact h,
             dfl := fun b h => by rw [e2]; exact h, mask := by rw [e3], seg := fun _ => ⟨e3, e4⟩, held := ?_, nodes := ?_,
             flw := fun b _ => by rw [e1, e2]; exact ⟨rfl, rfl⟩, nlw := fun d l _ _ m _ h => by rw [e8]; exact h,
             kids := ?_, item := ?_, flag := fun b h => by rw [e1, e6]; exact h }
    · intro b hb
      refine hfr.list b ?_ ?_
      · rintro rfl
        exact hu (hk.other hwp hb)
      · rintro rfl
        exact hu (hk.other hw hb)
    · intro c l hc' hl' m hm
      have hdc : c ≠ parent d := by
        rintro rfl
        exact hu (hk.other hwp hc')
      have := hl'.det (hc.chain c)
      subst this
      exact hfr.heap m fun h => hdc (hc.disj c _ m hm h)
    · intro e _ hh h
      rcases heff e h with rfl | h
      · exact absurd (hk.other hwp hh) hu
      · exact h
    · intro m y _ hy
      exact hfr.fwd hy
  · intro l hl n hn x hx
    have := hl.det hco
    subst this
    obtain ⟨y, hy, ky, _⟩ := hold n x hx
    have hp := (List.mem_filter.1 hn).2
    rw [← ky]
    intro hpre
    rw [(hPx n y hy).2 hpre] at hp
    cases hp

/-! ### Growth -/

theorem loc_arr {kk c : Nat} (h8 : 8 ≤ kk) (hc : c < 2 ^ kk) : (loc c).1 < firstBlock kk := by
  have h9 := firstBlock_ge h8
  unfold loc
  by_cases h1 : c < 2
  · simp only [h1, if_true]; omega
  by_cases h2 : c < 256
  · simp only [h1, h2, if_true, if_false]; omega
  simp only [h1, h2, if_false]
  have hk8 := le_log2_256 (Nat.not_lt.1 h2)
  have hk : Nat.log2 c < kk := (Nat.log2_lt (by omega)).2 hc
  obtain ⟨l1, l2⟩ := log2_spec (i := c) (by omega)
  generalize Nat.log2 c = k at *
  rw [pow_succ] at l2
  have hq : (c - 2 ^ k) / blockSize (firstBlock k) < blocksIn k := by
    by_cases h3 : k < 27
    · have hb : firstBlock k = k := by simp [firstBlock, h3]
      have hs : blockSize k = 2 ^ k := by simp [blockSize, h3, show k ≠ 0 by omega]
      rw [hb, hs, Nat.div_eq_of_lt (by omega)]
      simp [blocksIn, h3]
    · have hp := Nat.two_pow_pos (k - 27)
      have hb : firstBlock k = 26 + 2 ^ (k - 27) := by simp only [firstBlock, h3, if_false]; omega
      have hs : blockSize (26 + 2 ^ (k - 27)) = 2 ^ 27 := by unfold blockSize; rw [if_neg (by omega)]
      rw [hb, hs, blocksIn, if_neg h3, Nat.div_lt_iff_lt_mul (by positivity), ← pow_add, show k - 27 + 27 = k by omega]
      omega
  have := firstBlock_mono (show k + 1 ≤ kk from hk)
  rw [firstBlock_succ] at this
  exact (Nat.add_lt_add_left hq _).trans_le this

/-- New arrays of buckets that are none of those in use. -/
theorem grow_ok {E : HEnv} {m0 t kk kk' : Nat} {s s' : HSt} {A : AM} {p : Nat → Bool} (hi : Inv E m0 s A) (ht : Tab s kk) (ht' : Tab s' kk')
    (hkk : kk ≤ kk') (h31 : kk' ≤ 31) (hsm : s.sm = some t) (hp : ∀ c, c < 2 ^ kk → p (loc c).1 = false)
    (e : s' = { s.newBuckets p with len := s'.len, blk := s'.blk }) :
    Inv E m0 s' A ∧ Guar t s s' := by
  obtain ⟨⟨kk0, L, V, hc⟩, hk⟩ := hi
  have hkk0 : kk0 = kk := by
    have h1 : ∀ k, decide (k < kk0) = decide (k < kk) := fun k => hc.tab.valid.symm.trans ht.valid
    have a := h1 kk0
    have b := h1 kk
    simp at a b
    omega
  subst hkk0
  have hml : ∀ c, c ≤ s.mask → p (loc c).1 = false := by
    intro c h
    obtain ⟨j, _, hj, em⟩ := hc.mask
    refine hp c ?_
    have := Nat.pow_le_pow_right (n := 2) (by omega) hj
    have := Nat.two_pow_pos j
    omega
  have hfl0 : ∀ b, s.fl b = true → p b.1 = false := by
    intro b h
    obtain ⟨c, rfl⟩ := hc.real b h
    exact hml c (hc.below c (Or.inl h))
  have f1 : s'.fl = s.fl := by
    rw [e]
    funext b
    show (!p b.1 && s.fl b) = s.fl b
    cases h : s.fl b with
    | false => simp
    | true => simp [hfl0 b h]
  have f2 : s'.dfl = s.dfl := by
    rw [e]
    funext b
    show (!p b.1 && s.dfl b) = s.dfl b
    cases h : s.dfl b with
    | false => simp
    | true => simp [hfl0 b (hc.dfl b h)]
  have f3 : ∀ c, s'.list (loc c) = s.list (loc c) := by
    intro c
    rw [e]
    show (if p (loc c).1 then 0 else s.list (loc c)) = s.list (loc c)
    by_cases h : s.list (loc c) = 0
    · simp [h]
    · simp [hml c (hc.below c (Or.inr h))]
  have g1 : s'.heap = s.heap := by rw [e]; rfl
  have g2 : s'.mask = s.mask := by rw [e]; rfl
  have g3 : s'.wr = s.wr := by rw [e]; rfl
  have g4 : s'.rd = s.rd := by rw [e]; rfl
  have g5 : s'.nl = s.nl := by rw [e]; rfl
  have g6 : s'.sm = s.sm := by rw [e]; rfl
  have g7 : s'.base = s.base := by rw [e]; rfl
  have g8 : s'.diff = s.diff := by rw [e]; rfl
  have g9 : s'.allocs = s.allocs := by rw [e]; rfl
  have heff : ∀ c, eff s' c ↔ eff s c := fun c => by unfold eff; rw [f1, f3]
  have hnode : ∀ h d, NoDeep s h d → NoDeep s' h d := fun h d hh e a b f => hh e a b ((heff e).1 f)
  refine ⟨⟨⟨kk', L, V, ?_⟩, ?_⟩, ?_⟩
  · refine { tab := ht', kk31 := h31, mask := ?_, m0 := g2 ▸ hc.m0, below := fun c h => g2 ▸ hc.below c ((heff c).1 h),
             base := f2 ▸ hc.base, real := f1 ▸ hc.real, dfl := f1 ▸ f2 ▸ hc.dfl, par := fun d h2 h => f2 ▸ hc.par d h2 ((heff d).1 h),
             chain := fun c => by rw [g1, f3]; exact hc.chain c, nodup := hc.nodup, disj := hc.disj, keys := ?_, uniq := g1 ▸ hc.uniq,
             abs := g1 ▸ hc.abs, vdup := hc.vdup, live := g1 ▸ hc.live, all := hc.all, cnt := by rw [g7, g8]; exact hc.cnt,
             allocs := g9 ▸ hc.allocs }
    · obtain ⟨j, h1, h2, h3⟩ := hc.mask
      exact ⟨j, h1, h2.trans hkk, g2 ▸ h3⟩
    · intro c n x hn hx
      rw [g1] at hx
      have := hc.keys c n x hn hx
      exact ⟨this.1, hnode _ _ this.2⟩
  · refine ⟨by rw [g2, g3, g4]; exact hk.real, by rw [g3, g4]; exact hk.excl, by rw [f1, g4]; exact hk.rdfl,
      by rw [f1, f2, g3]; exact hk.dur, fun c h => by rw [f1, g3]; exact hk.pend c ((heff c).1 h), by rw [g1, g5]; exact hk.nl⟩
  · intro u hu
    refine { wr := fun b => by rw [g3], rd := fun b => by rw [g4], nl := fun b => by rw [g5], sm := by rw [g6], fl := fun b h => by rw [f1]; exact h,
             dfl := fun b h => by rw [f2]; exact h, mask := by rw [g2], seg := ?_, held := ?_, nodes := fun d l _ _ m _ => by rw [g1],
             flw := fun b _ => by rw [f1, f2]; exact ⟨rfl, rfl⟩, nlw := fun d l _ _ m _ h => by rw [g5]; exact h,
             kids := fun d _ _ h => (heff d).1 h, item := fun n x _ h => ⟨x, by rw [g1]; exact h, rfl, rfl⟩,
             flag := fun b h => by rw [f1, g3]; exact h }
    · intro h
      rw [hsm] at h
      cases h
      exact absurd rfl hu
    · intro b hb
      obtain ⟨c, _, rfl⟩ := hk.real b (hb.imp (fun h => by rw [h]; simp) (fun h e => by rw [e] at h; cases h))
      exact f3 c

/-- Storing the mask. -/
theorem mask_ok {E : HEnv} {m0 t kk j : Nat} {s : HSt} {A : AM} (hi : Inv E m0 s A) (ht : Tab s kk) (hj : j = 1 ∨ 8 ≤ j) (hjk : j ≤ kk)
    (hle : s.mask ≤ 2 ^ j - 1) (hsm : s.sm = some t) :
    Inv E m0 { s with mask := 2 ^ j - 1 } A ∧ Guar t s { s with mask := 2 ^ j - 1 } := by
  obtain ⟨⟨kk0, L, V, hc⟩, hk⟩ := hi
  have hkk0 : kk0 = kk := by
    have h1 : ∀ k, decide (k < kk0) = decide (k < kk) := fun k => hc.tab.valid.symm.trans ht.valid
    have a := h1 kk0
    have b := h1 kk
    simp at a b
    omega
  subst hkk0
  refine ⟨⟨⟨kk0, L, V, ?_⟩, ?_⟩, ?_⟩
  · exact { hc with tab := ⟨hc.tab.two, hc.tab.b0, hc.tab.l0, hc.tab.b1, hc.tab.l1, hc.tab.big, hc.tab.none⟩, mask := ⟨j, hj, hjk, rfl⟩,
                    m0 := hc.m0.trans hle, below := fun c h => (hc.below c h).trans hle }
  · refine ⟨fun b h => ?_, hk.excl, hk.rdfl, hk.dur, hk.pend, hk.nl⟩
    obtain ⟨c, h1, h2⟩ := hk.real b h
    exact ⟨c, h1.trans hle, h2⟩
  · intro u hu
    refine { Rel.refl u s with mask := hle, seg := ?_ }
    intro h
    rw [hsm] at h
    cases h
    exact absurd rfl hu

end PMap.Pmem
