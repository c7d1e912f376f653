import Verif.Pmem.Lists

/-!
# libpmemobj's concurrent_hash_map: the transactions keep the invariant

Nothing here is code.
-/

namespace PMap.Pmem

section
variable {E : HEnv} {m0 kk : Nat} {L : Nat → List Nat} {V : List Nat} {A : AM} {s : HSt}

theorem Core.eff_mem (hc : Core E m0 kk L V A s) {c n : Nat} (h : n ∈ L c) : eff s c := by
  right
  intro e
  have := hc.chain c
  rw [e] at this
  rw [this.zero] at h
  cases h

/-- A key is in one bucket only. -/
theorem Core.home (hc : Core E m0 kk L V A s) {c c' n n' : Nat} {x x' : Node} (h : n ∈ L c) (h' : n' ∈ L c') (hx : s.heap n = some x)
    (hx' : s.heap n' = some x') (e : x.key = x'.key) : c = c' ∧ n = n' := by
  have k := hc.keys c n x h hx
  have k' := hc.keys c' n' x' h' hx'
  rw [← e] at k'
  have hcc : c = c' := by
    rcases Nat.lt_trichotomy c c' with hlt | he | hlt
    · exact absurd (hc.eff_mem h') (k.2 c' k'.1 hlt)
    · exact he
    · exact absurd (hc.eff_mem h) (k'.2 c k.1 hlt)
  subst hcc
  exact ⟨rfl, hc.uniq c n n' x x' h h' hx hx' e⟩

theorem Core.present (hc : Core E m0 kk L V A s) {c n : Nat} {x : Node} (h : n ∈ L c) (hx : s.heap n = some x) : A x.key = some x.val :=
  (hc.abs _ _).2 ⟨c, n, x, h, hx, rfl, rfl⟩

theorem Core.absent (hc : Core E m0 kk L V A s) {c : Nat} {key : Word} (hf : s.fl (loc c) = true) (hp : Pre (E.hash key) c)
    (hd : NoDeep s (E.hash key) c) (hno : ∀ n ∈ L c, ∀ x, s.heap n = some x → x.key ≠ key) : A key = none := by
  cases e : A key with
  | none => rfl
  | some v =>
    exfalso
    obtain ⟨c', n, x, h1, h2, h3, _⟩ := (hc.abs key v).1 e
    have k := hc.keys c' n x h1 h2
    rw [h3] at k
    rcases Nat.lt_trichotomy c c' with hlt | he | hlt
    · exact hd c' k.1 hlt (hc.eff_mem h1)
    · subst he
      exact hno n h1 x h2 h3
    · exact k.2 c hp hlt (Or.inl hf)

end

/-- An ordinary map with one entry changed. -/
def AM.set (A : AM) (k : Word) (v : Option Word) : AM := fun j => if j = k then v else A j

/-- The memory after the transaction of `insert_new_node`. -/
def HSt.ins (s : HSt) (b : Loc) (n : Nat) (key val : Word) : HSt :=
  { s with heap := fun m => if m = n then some ⟨s.list b, key, val⟩ else s.heap m, allocs := s.allocs + 1,
           list := fun c => if c = b then n else s.list c, diff := s.diff + 1 }

theorem ins_ok {E : HEnv} {m0 t c n : Nat} {s : HSt} {A : AM} {key val : Word} (hi : Inv E m0 s A) (hw : s.wr (loc c) = some t)
    (hf : s.fl (loc c) = true) (hp : Pre (E.hash key) c) (hd : NoDeep s (E.hash key) c)
    (hno : ∀ l, Chain s.heap (s.list (loc c)) l → ∀ n ∈ l, ∀ x, s.heap n = some x → x.key ≠ key) (hn0 : n ≠ 0) (hn : s.heap n = none) :
    Inv E m0 (s.ins (loc c) n key val) (A.set key (some val)) ∧ Guar t s (s.ins (loc c) n key val) ∧ A key = none := by
  obtain ⟨⟨kk, L, V, hc⟩, hk⟩ := hi
  have habs := hc.absent hf hp hd (hno _ (hc.chain c))
  have hnew : ∀ d, n ∉ L d := fun d h => by
    obtain ⟨x, hx⟩ := (hc.chain d).live n h
    rw [hn] at hx
    cases hx
  have hheap : ∀ m, m ≠ n → (s.ins (loc c) n key val).heap m = s.heap m := fun m h => by simp [HSt.ins, h]
  have hheapn : (s.ins (loc c) n key val).heap n = some ⟨s.list (loc c), key, val⟩ := by simp [HSt.ins]
  have hlist : ∀ d, d ≠ c → (s.ins (loc c) n key val).list (loc d) = s.list (loc d) := fun d h => by
    have : loc d ≠ loc c := fun e => h (loc_inj e)
    simp [HSt.ins, this]
  have heff : ∀ d, eff (s.ins (loc c) n key val) d ↔ eff s d := fun d => by
    unfold eff
    by_cases e : d = c
    · subst e
      have : (s.ins (loc d) n key val).fl (loc d) = true := hf
      simp [this, hf]
    · rw [hlist d e]
      exact Iff.rfl
  have hnode : ∀ h d, NoDeep s h d → NoDeep (s.ins (loc c) n key val) h d := fun h d hh e a b f => hh e a b ((heff e).1 f)
  have hchain : ∀ d, Chain (s.ins (loc c) n key val).heap ((s.ins (loc c) n key val).list (loc d)) (if d = c then n :: L c else L d) := by
    intro d
    by_cases e : d = c
    · subst e
      rw [if_pos rfl]
      refine ⟨by simp [HSt.ins], by simpa [HSt.ins] using hn0, ⟨s.list (loc d), key, val⟩, by simp [HSt.ins], ?_⟩
      exact (hc.chain d).congr fun m hm => hheap m fun e => hnew d (e ▸ hm)
    · rw [if_neg e, hlist d e]
      exact (hc.chain d).congr fun m hm => hheap m fun e => hnew d (e ▸ hm)
  have hmem : ∀ d m, m ∈ (if d = c then n :: L c else L d) → (d = c ∧ m = n) ∨ (m ≠ n ∧ m ∈ L d) := by
    intro d m hm
    by_cases e : d = c
    · subst e
      rw [if_pos rfl] at hm
      rcases List.mem_cons.1 hm with rfl | hm
      · exact Or.inl ⟨rfl, rfl⟩
      · exact Or.inr ⟨fun e => hnew d (e ▸ hm), hm⟩
    · rw [if_neg e] at hm
      exact Or.inr ⟨fun e => hnew d (e ▸ hm), hm⟩
  have hmem' : ∀ d m, m ∈ L d → m ∈ (if d = c then n :: L c else L d) := by
    intro d m hm
    by_cases e : d = c
    · subst e
      rw [if_pos rfl]
      exact List.mem_cons_of_mem _ hm
    · rwa [if_neg e]
  refine ⟨⟨⟨kk, fun d => if d = c then n :: L c else L d, n :: V, ?_⟩, ?_⟩, ?_, habs⟩
  · refine { tab := ⟨hc.tab.two, hc.tab.b0, hc.tab.l0, hc.tab.b1, hc.tab.l1, hc.tab.big, hc.tab.none⟩, kk31 := hc.kk31, mask := hc.mask,
             m0 := hc.m0, below := fun d h => hc.below d ((heff d).1 h), base := hc.base, real := hc.real, dfl := hc.dfl,
             par := fun d h2 h => hc.par d h2 ((heff d).1 h), chain := hchain, nodup := ?_, disj := ?_, keys := ?_, uniq := ?_, abs := ?_,
             vdup := ?_, live := ?_, all := ?_, cnt := ?_, allocs := ?_ }
    · intro d
      split
      · exact List.nodup_cons.2 ⟨hnew c, hc.nodup c⟩
      · exact hc.nodup d
    · intro d e m h1 h2
      rcases hmem d m h1 with ⟨a, b⟩ | ⟨g, h1⟩ <;> rcases hmem e m h2 with ⟨a', b'⟩ | ⟨g', h2⟩
      · rw [a, a']
      · exact absurd b g'
      · exact absurd b' g
      · exact hc.disj d e m h1 h2
    · intro d m x h1 hx
      rcases hmem d m h1 with ⟨rfl, rfl⟩ | ⟨g, h1⟩
      · rw [hheapn] at hx
        cases hx
        exact ⟨hp, hnode _ _ hd⟩
      · rw [hheap m g] at hx
        have := hc.keys d m x h1 hx
        exact ⟨this.1, hnode _ _ this.2⟩
    · intro d m m' x x' h1 h2 hx hx' e
      rcases hmem d m h1 with ⟨e', b⟩ | ⟨g, h1'⟩ <;> rcases hmem d m' h2 with ⟨e', b'⟩ | ⟨g', h2'⟩
      · rw [b, b']
      · subst e'
        rw [b, hheapn] at hx
        rw [hheap m' g'] at hx'
        cases hx
        exact absurd e.symm (hno _ (hc.chain d) m' h2' x' hx')
      · subst e'
        rw [b', hheapn] at hx'
        rw [hheap m g] at hx
        cases hx'
        exact absurd e (hno _ (hc.chain d) m h1' x hx)
      · rw [hheap m g] at hx
        rw [hheap m' g'] at hx'
        exact hc.uniq d m m' x x' h1' h2' hx hx' e
    · intro k v
      unfold AM.set
      by_cases e : k = key
      · subst e
        rw [if_pos rfl]
        constructor
        · intro h
          cases h
          exact ⟨c, n, _, by simp, hheapn, rfl, rfl⟩
        · rintro ⟨d, m, x, h1, hx, h3, h4⟩
          rcases hmem d m h1 with ⟨rfl, rfl⟩ | ⟨g, h1⟩
          · rw [hheapn] at hx
            cases hx
            rw [← h4]
          · rw [hheap m g] at hx
            have := hc.present h1 hx
            rw [h3, habs] at this
            cases this
      · rw [if_neg e, hc.abs]
        constructor
        · rintro ⟨d, m, x, h1, hx, h3, h4⟩
          exact ⟨d, m, x, hmem' d m h1, by rw [hheap m fun e => hnew d (e ▸ h1)]; exact hx, h3, h4⟩
        · rintro ⟨d, m, x, h1, hx, h3, h4⟩
          rcases hmem d m h1 with ⟨rfl, rfl⟩ | ⟨g, h1⟩
          · rw [hheapn] at hx
            cases hx
            exact absurd h3.symm e
          · rw [hheap m g] at hx
            exact ⟨d, m, x, h1, hx, h3, h4⟩
    · refine List.nodup_cons.2 ⟨?_, hc.vdup⟩
      rw [hc.live, hn]
      simp
    · intro m
      by_cases e : m = n
      · subst e
        simp [hheapn]
      · rw [List.mem_cons, hc.live, hheap m e]
        simp [e]
    · intro m hm
      rcases List.mem_cons.1 hm with rfl | hm
      · exact ⟨c, by simp⟩
      · obtain ⟨d, hd⟩ := hc.all m hm
        exact ⟨d, hmem' d m hd⟩
    · have := hc.cnt
      simp only [HSt.ins, List.length_cons]
      push_cast
      omega
    · have := hc.allocs
      simp only [HSt.ins, List.length_cons]
      omega
  · refine ⟨hk.real, hk.excl, hk.rdfl, hk.dur, fun d h => hk.pend d ((heff d).1 h), ?_⟩
    intro m hm
    by_cases e : m = n
    · subst e
      rw [hheapn] at hm
      cases hm
    · rw [hheap m e] at hm
      exact hk.nl m hm
  · intro u hu
    refine { Rel.refl u s with held := ?_, nodes := ?_, kids := fun d _ _ h => (heff d).1 h, item := ?_ }
    · intro b hb
      have : b ≠ loc c := by
        rintro rfl
        exact hu (hk.other hw hb)
      simp [HSt.ins, this]
    · intro d l _ hl m hm
      refine hheap m ?_
      rintro rfl
      obtain ⟨x, hx⟩ := hl.live m hm
      rw [hn] at hx
      cases hx
    · intro m x _ hx
      refine ⟨x, ?_, rfl, rfl⟩
      rw [hheap m (by rintro rfl; rw [hn] at hx; cases hx)]
      exact hx

/-- The memory after the transaction of `internal_erase`. -/
def HSt.del (s : HSt) (p : Ptr) (n v : Nat) : HSt :=
  { s.wr' p v with heap := fun m => if m = n then none else (s.wr' p v).heap m, diff := s.diff - 1 }

theorem del_ok {E : HEnv} {m0 t c n pred : Nat} {s : HSt} {A : AM} {l1 l2 : List Nat} {x : Node} (hi : Inv E m0 s A)
    (hw : s.wr (loc c) = some t) (hf : s.fl (loc c) = true) (hl : Chain s.heap (s.list (loc c)) (l1 ++ n :: l2))
    (hs : PSeg s (.head (loc c)) l1 (ptr (loc c) pred)) (hr : s.rd' (ptr (loc c) pred) = some n) (hx : s.heap n = some x)
    (hnl : s.nl n = none) :
    Inv E m0 (s.del (ptr (loc c) pred) n x.next) (A.set x.key none) ∧ Guar t s (s.del (ptr (loc c) pred) n x.next) ∧
      A x.key = some x.val := by
  obtain ⟨⟨kk, L, V, hc⟩, hk⟩ := hi
  have hLc := hl.det (hc.chain c)
  have hnm : n ∈ L c := by rw [← hLc]; simp
  have hpres := hc.present hnm hx
  have hnd := hc.nodup c
  rw [← hLc] at hnd
  obtain ⟨hd1, hd2, hd3⟩ := List.nodup_append.1 hnd
  obtain ⟨hn2, hd2⟩ := List.nodup_cons.1 hd2
  have hn1 : n ∉ l1 := fun h => hd3 n h n (by simp) rfl
  generalize hp : ptr (loc c) pred = p at *
  have hpm : p = .head (loc c) ∨ ∃ m ∈ l1, p = .next m := hs.end_mem
  have hfr : Fr (loc c) (loc c) (L c) s (s.wr' p x.next) := by
    refine Fr.wr ?_
    rcases hpm with rfl | ⟨m, hm, rfl⟩
    · exact Or.inl rfl
    · exact Or.inr (Or.inr ⟨m, by rw [← hLc]; simp [hm], rfl⟩)
  have hpn : ∀ m, m ∉ l1 → p ≠ .next m := by
    rintro m hm rfl
    rcases hpm with e | ⟨k, hk, e⟩
    · cases e
    · cases e; exact hm hk
  generalize hs' : s.del p n x.next = s'
  have hheap : ∀ m, m ≠ n → s'.heap m = (s.wr' p x.next).heap m := fun m h => by rw [← hs']; simp [HSt.del, h]
  have hheapn : s'.heap n = none := by rw [← hs']; simp [HSt.del]
  have hlist' : s'.list = (s.wr' p x.next).list := by rw [← hs']; rfl
  have hrest := hfr.rest
  have e1 : s'.fl = s.fl := by rw [← hs']; simp only [HSt.del]; rw [hrest]
  have e2 : s'.dfl = s.dfl := by rw [← hs']; simp only [HSt.del]; rw [hrest]
  have e3 : s'.mask = s.mask := by rw [← hs']; simp only [HSt.del]; rw [hrest]
  have e4 : s'.blk = s.blk := by rw [← hs']; simp only [HSt.del]; rw [hrest]
  have e5 : s'.len = s.len := by rw [← hs']; simp only [HSt.del]; rw [hrest]
  have e6 : s'.wr = s.wr := by rw [← hs']; simp only [HSt.del]; rw [hrest]
  have e7 : s'.rd = s.rd := by rw [← hs']; simp only [HSt.del]; rw [hrest]
  have e8 : s'.nl = s.nl := by rw [← hs']; simp only [HSt.del]; rw [hrest]
  have e9 : s'.sm = s.sm := by rw [← hs']; simp only [HSt.del]; rw [hrest]
  have e10 : s'.base = s.base := by rw [← hs']; simp only [HSt.del]; rw [hrest]
  have e11 : s'.allocs = s.allocs := by rw [← hs']; simp only [HSt.del]; rw [hrest]
  have e12 : s'.diff = s.diff - 1 := by rw [← hs']; rfl
  have hlist : ∀ d, d ≠ c → s'.list (loc d) = s.list (loc d) := fun d h => by
    rw [hlist']
    exact hfr.list _ (fun e => h (loc_inj e)) (fun e => h (loc_inj e))
  have heff : ∀ d, eff s' d ↔ eff s d := fun d => by
    unfold eff
    rw [e1]
    by_cases e : d = c
    · subst e
      simp [hf]
    · rw [hlist d e]
  have hnode : ∀ h d, NoDeep s h d → NoDeep s' h d := fun h d hh e a b f => hh e a b ((heff e).1 f)
  have hback : ∀ m y, s'.heap m = some y → ∃ z, s.heap m = some z ∧ z.key = y.key ∧ z.val = y.val ∧ m ≠ n := by
    intro m y hy
    have : m ≠ n := by
      rintro rfl
      rw [hheapn] at hy
      cases hy
    rw [hheap m this] at hy
    obtain ⟨z, h1, h2, h3⟩ := hfr.back hy
    exact ⟨z, h1, h2, h3, this⟩
  have hfwd : ∀ m y, s.heap m = some y → m ≠ n → ∃ z, s'.heap m = some z ∧ z.key = y.key ∧ z.val = y.val := by
    intro m y hy hm
    rw [hheap m hm]
    exact hfr.fwd hy
  have hmem : ∀ d m, m ∈ (if d = c then l1 ++ l2 else L d) ↔ m ∈ L d ∧ m ≠ n := by
    intro d m
    by_cases e : d = c
    · subst e
      rw [if_pos rfl, ← hLc]
      simp only [List.mem_append, List.mem_cons]
      constructor
      · rintro (h | h)
        · exact ⟨Or.inl h, fun e => hn1 (e ▸ h)⟩
        · exact ⟨Or.inr (Or.inr h), fun e => hn2 (e ▸ h)⟩
      · rintro ⟨h | h | h, g⟩
        · exact Or.inl h
        · exact absurd h g
        · exact Or.inr h
    · rw [if_neg e]
      exact ⟨fun h => ⟨h, fun e' => e (hc.disj d c n (e' ▸ h) hnm)⟩, fun h => h.1⟩
  have hchain : ∀ d, Chain s'.heap (s'.list (loc d)) (if d = c then l1 ++ l2 else L d) := by
    intro d
    by_cases e : d = c
    · subst e
      rw [if_pos rfl]
      have hx2 : Chain s.heap x.next l2 := by
        have h1 : ∀ (l : List Nat) (q : Nat), Chain s.heap q (l ++ n :: l2) → Chain s.heap x.next l2 := by
          intro l
          induction l with
          | nil =>
            rintro q ⟨rfl, _, y, hy, h⟩
            rw [hx] at hy
            cases hy
            exact h
          | cons a l ih =>
            rintro q ⟨_, _, y, _, h⟩
            exact ih _ h
        exact h1 _ _ hl
      have a1 : PSeg (s.wr' p x.next) (.head (loc d)) l1 p := hs.wr_end hd1 (fun m _ => by simp)
      have a2 : Chain (s.wr' p x.next).heap x.next l2 :=
        hx2.wr fun m hm => hpn m fun h => hd3 m h m (by simp [hm]) rfl
      obtain ⟨v, hv, hvl⟩ := a1.toChain (rd_wr_self hr) a2
      simp only [HSt.rd'] at hv
      cases hv
      rw [hlist']
      refine hvl.congr fun m hm => hheap m ?_
      rintro rfl
      rcases List.mem_append.1 hm with h | h
      · exact hn1 h
      · exact hn2 h
    · rw [if_neg e, hlist d e]
      refine (hc.chain d).congr fun m hm => ?_
      have hmn : m ≠ n := fun e' => e (hc.disj d c n (e' ▸ hm) hnm)
      rw [hheap m hmn]
      exact hfr.heap m fun h => e (hc.disj d c m hm h)
  refine ⟨⟨⟨kk, fun d => if d = c then l1 ++ l2 else L d, V.erase n, ?_⟩, ?_⟩, ?_, hpres⟩
  · refine { tab := ⟨hc.tab.two, e4 ▸ hc.tab.b0, e5 ▸ hc.tab.l0, e4 ▸ hc.tab.b1, e5 ▸ hc.tab.l1, e4 ▸ e5 ▸ hc.tab.big, e4 ▸ hc.tab.none⟩,
             kk31 := hc.kk31, mask := e3 ▸ hc.mask,
             m0 := e3 ▸ hc.m0, below := fun d h => e3 ▸ hc.below d ((heff d).1 h), base := e2 ▸ hc.base, real := e1 ▸ hc.real,
             dfl := e1 ▸ e2 ▸ hc.dfl,
             par := fun d h2 h => e2 ▸ hc.par d h2 ((heff d).1 h), chain := hchain, nodup := ?_, disj := ?_, keys := ?_, uniq := ?_, abs := ?_,
             vdup := hc.vdup.erase n, live := ?_, all := ?_, cnt := ?_, allocs := ?_ }
    · intro d
      split
      · exact List.nodup_append.2 ⟨hd1, hd2, fun a ha b hb => hd3 a ha b (by simp [hb])⟩
      · exact hc.nodup d
    · intro d e m h1 h2
      exact hc.disj d e m ((hmem d m).1 h1).1 ((hmem e m).1 h2).1
    · intro d m y h1 hy
      obtain ⟨z, hz, k1, _, _⟩ := hback m y hy
      have := hc.keys d m z ((hmem d m).1 h1).1 hz
      rw [k1] at this
      exact ⟨this.1, hnode _ _ this.2⟩
    · intro d m m' y y' h1 h2 hy hy' e
      obtain ⟨z, hz, k1, _, _⟩ := hback m y hy
      obtain ⟨z', hz', k1', _, _⟩ := hback m' y' hy'
      exact hc.uniq d m m' z z' ((hmem d m).1 h1).1 ((hmem d m').1 h2).1 hz hz' (by rw [k1, k1', e])
    · intro k v
      unfold AM.set
      by_cases e : k = x.key
      · rw [if_pos e]
        refine ⟨fun h => (by cases h), ?_⟩
        rintro ⟨d, m, y, h1, hy, h3, h4⟩
        obtain ⟨z, hz, k1, _, hne⟩ := hback m y hy
        exact absurd (hc.home ((hmem d m).1 h1).1 hnm hz hx (by rw [k1, h3, e])).2 hne
      · rw [if_neg e, hc.abs]
        constructor
        · rintro ⟨d, m, y, h1, hy, h3, h4⟩
          have hne : m ≠ n := by
            rintro rfl
            rw [hx] at hy
            cases hy
            exact e h3.symm
          obtain ⟨z, hz, k1, k2⟩ := hfwd m y hy hne
          exact ⟨d, m, z, (hmem d m).2 ⟨h1, hne⟩, hz, by rw [k1, h3], by rw [k2, h4]⟩
        · rintro ⟨d, m, y, h1, hy, h3, h4⟩
          obtain ⟨z, hz, k1, k2, _⟩ := hback m y hy
          exact ⟨d, m, z, ((hmem d m).1 h1).1, hz, by rw [k1, h3], by rw [k2, h4]⟩
    · intro m
      rw [hc.vdup.mem_erase_iff, hc.live]
      by_cases e : m = n
      · subst e
        simp [hheapn]
      · rw [hheap m e, live_wr]
        simp [e]
    · intro m hm
      rw [hc.vdup.mem_erase_iff] at hm
      obtain ⟨d, hd⟩ := hc.all m hm.2
      exact ⟨d, (hmem d m).2 ⟨hd, hm.1⟩⟩
    · have h1 := hc.cnt
      have hV : n ∈ V := by rw [hc.live, hx]; rfl
      have h2 := List.length_erase_of_mem hV
      have h3 : 0 < V.length := List.length_pos_of_mem hV
      rw [e10, e12, h2]
      omega
    · have h1 := hc.allocs
      have h2 := (List.erase_sublist (a := n) (l := V)).length_le
      rw [e11]
      omega
  · refine ⟨by rw [e3, e6, e7]; exact hk.real, by rw [e6, e7]; exact hk.excl, by rw [e1, e7]; exact hk.rdfl,
      by rw [e1, e2, e6]; exact hk.dur, fun d h => by rw [e1, e6]; exact hk.pend d ((heff d).1 h), ?_⟩
    intro m hm
    rw [e8]
    by_cases e : m = n
    · rw [e]; exact hnl
    · refine hk.nl m ?_
      cases h : s.heap m with
      | none => rfl
      | some y =>
        obtain ⟨z, hz, _⟩ := hfwd m y h e
        rw [hm] at hz
        cases hz
  · intro u hu
    refine { wr := fun b => by rw [e6], rd := fun b => by rw [e7], nl := fun b => by rw [e8], sm := by rw [e9], fl := fun b h => by rw [e1]; exact h,
             dfl := fun b h => by rw [e2]; exact h, mask := by rw [e3], seg := fun _ => ⟨e3, e4⟩, held := ?_, nodes := ?_,
             flw := fun b _ => by rw [e1, e2]; exact ⟨rfl, rfl⟩, nlw := fun d l _ _ m _ h => by rw [e8]; exact h,
             kids := fun d _ _ h => (heff d).1 h, item := ?_, flag := fun b h => by rw [e1, e6]; exact h }
    · intro b hb
      have : b ≠ loc c := by
        rintro rfl
        exact hu (hk.other hw hb)
      rw [hlist']
      exact hfr.list b this this
    · intro d l hd hl' m hm
      have hdc : d ≠ c := by
        rintro rfl
        exact hu (hk.other hw hd)
      have := hl'.det (hc.chain d)
      subst this
      have hmc : m ∉ L c := fun h => hdc (hc.disj d c m hm h)
      rw [hheap m fun e => hmc (e ▸ hnm)]
      exact hfr.heap m hmc
    · intro m y hm hy
      have hne : m ≠ n := by
        rintro rfl
        rw [hnl] at hm
        cases hm
      exact hfwd m y hy hne

end PMap.Pmem
