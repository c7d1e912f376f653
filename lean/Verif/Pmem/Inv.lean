import Verif.Pmem.Index

/-!
# libpmemobj's concurrent_hash_map: the invariant, and what a thread may do to the others

Nothing here is code.
-/

namespace PMap.Pmem

/-- An ordinary map. -/
abbrev AM := Word → Option Word

/-- The nodes that one meets from node `n` on. -/
def Chain (heap : Nat → Option Node) : Nat → List Nat → Prop
  | n, [] => n = 0
  | n, m :: l => n = m ∧ n ≠ 0 ∧ ∃ x, heap n = some x ∧ Chain heap x.next l

theorem Chain.det {heap : Nat → Option Node} : ∀ {n : Nat} {l l' : List Nat}, Chain heap n l → Chain heap n l' → l = l'
  | _, [], [], _, _ => rfl
  | _, [], _ :: _, h, h' => absurd h h'.2.1
  | _, _ :: _, [], h, h' => absurd h' h.2.1
  | _, m :: l, m' :: l', ⟨e, _, x, hx, h⟩, ⟨e', _, x', hx', h'⟩ => by
    rw [hx] at hx'
    cases hx'
    rw [← e, ← e', Chain.det h h']

theorem Chain.congr {heap heap' : Nat → Option Node} : ∀ {n : Nat} {l : List Nat}, Chain heap n l → (∀ m ∈ l, heap' m = heap m) →
    Chain heap' n l
  | _, [], h, _ => h
  | _, m :: l, ⟨e, z, x, hx, h⟩, hh =>
    ⟨e, z, x, by rw [e, hh m (by simp), ← e, hx], h.congr fun k hk => hh k (by simp [hk])⟩

theorem Chain.live {heap : Nat → Option Node} : ∀ {n : Nat} {l : List Nat}, Chain heap n l → ∀ m ∈ l, ∃ x, heap m = some x
  | _, _ :: l, ⟨e, _, x, hx, h⟩, m, hm => by
    rcases List.mem_cons.1 hm with rfl | hm
    · exact ⟨x, e ▸ hx⟩
    · exact h.live m hm

theorem Chain.ne_zero {heap : Nat → Option Node} : ∀ {n : Nat} {l : List Nat}, Chain heap n l → ∀ m ∈ l, m ≠ 0
  | _, _ :: l, ⟨e, z, x, hx, h⟩, m, hm => by
    rcases List.mem_cons.1 hm with rfl | hm
    · exact e ▸ z
    · exact h.ne_zero m hm

theorem Chain.zero {heap : Nat → Option Node} {l : List Nat} (h : Chain heap 0 l) : l = [] := by
  cases l with
  | nil => rfl
  | cons m l => exact absurd rfl h.2.1

/-- `c` is made of the last bits of `h`. -/
def Pre (h c : Nat) : Prop := ∃ j, c = h % 2 ^ j

theorem Pre.parent {h d : Nat} (hd : Pre h d) : Pre h (parent d) := by
  obtain ⟨j, rfl⟩ := hd
  by_cases h1 : 1 ≤ h % 2 ^ j
  · exact ⟨_, parent_pre h1⟩
  · have : h % 2 ^ j = 0 := by omega
    rw [this]
    exact ⟨0, by simp [Pmem.parent, Nat.mod_one]⟩

theorem Pre.le_parent {h c d : Nat} (hc : Pre h c) (hd : Pre h d) (hlt : c < d) : c ≤ Pmem.parent d := by
  obtain ⟨i, rfl⟩ := hc
  obtain ⟨j, rfl⟩ := hd
  exact pre_parent hlt

theorem pre_iff {h d : Nat} (h1 : 1 ≤ d) : Pre h d ↔ h % 2 ^ (Nat.log2 d + 1) = d := by
  refine ⟨?_, fun e => ⟨_, e.symm⟩⟩
  rintro ⟨j, rfl⟩
  have h2 := (log2_spec h1).2
  have h3 : Nat.log2 (h % 2 ^ j) + 1 ≤ j := by
    have := (Nat.log2_lt (by omega)).2 (Nat.mod_lt h (Nat.two_pow_pos j))
    omega
  exact (pre_eq h2 (pre_mono h h3)).symm

/-- Bucket `c` has been filled: it is marked so, or it was filled and the mark is still to come. -/
def eff (s : HSt) (c : Nat) : Prop := s.fl (loc c) = true ∨ s.list (loc c) ≠ 0

/-- No bucket after `c` in which a key with hash `h` could be has been filled. -/
def NoDeep (s : HSt) (h c : Nat) : Prop := ∀ d, Pre h d → c < d → ¬ eff s d

/-- What holds of the data.  The table has segments `0, …, kk - 1`, the nodes of bucket `c` are `L c`, the live ones `V`, and the map is
`A`; `m0` is the mask at the time when the table was opened. -/
structure Core (E : HEnv) (m0 kk : Nat) (L : Nat → List Nat) (V : List Nat) (A : AM) (s : HSt) : Prop where
  tab : Tab s kk
  kk31 : kk ≤ 31
  mask : ∃ j, (j = 1 ∨ 8 ≤ j) ∧ j ≤ kk ∧ s.mask = 2 ^ j - 1
  m0 : m0 ≤ s.mask
  below : ∀ c, eff s c → c ≤ s.mask
  base : s.dfl (loc 0) = true ∧ s.dfl (loc 1) = true
  real : ∀ b, s.fl b = true → ∃ c, b = loc c
  dfl : ∀ b, s.dfl b = true → s.fl b = true
  par : ∀ c, 2 ≤ c → eff s c → s.dfl (loc (parent c)) = true
  chain : ∀ c, Chain s.heap (s.list (loc c)) (L c)
  nodup : ∀ c, (L c).Nodup
  disj : ∀ c d n, n ∈ L c → n ∈ L d → c = d
  keys : ∀ c n x, n ∈ L c → s.heap n = some x → Pre (E.hash x.key) c ∧ NoDeep s (E.hash x.key) c
  uniq : ∀ c n n' x x', n ∈ L c → n' ∈ L c → s.heap n = some x → s.heap n' = some x' → x.key = x'.key → n = n'
  abs : ∀ k v, A k = some v ↔ ∃ c n x, n ∈ L c ∧ s.heap n = some x ∧ x.key = k ∧ x.val = v
  vdup : V.Nodup
  live : ∀ n, n ∈ V ↔ (s.heap n).isSome = true
  all : ∀ n, n ∈ V → ∃ c, n ∈ L c
  cnt : s.base + s.diff = V.length
  allocs : V.length ≤ s.allocs

/-- What holds of the locks. -/
structure Lk (m0 : Nat) (s : HSt) : Prop where
  real : ∀ b, s.wr b ≠ none ∨ s.rd b ≠ [] → ∃ c, c ≤ s.mask ∧ b = loc c
  excl : ∀ b t, s.wr b = some t → s.rd b = []
  rdfl : ∀ b, s.rd b ≠ [] → s.fl b = true
  dur : ∀ b, s.fl b = true → s.dfl b = true ∨ s.wr b ≠ none
  pend : ∀ c, eff s c → s.fl (loc c) = true ∨ c ≤ m0 ∨ ∃ v, s.wr (loc c) = some v ∧ s.wr (loc (parent c)) = some v
  nl : ∀ n, s.heap n = none → s.nl n = none

/-- The invariant. -/
def Inv (E : HEnv) (m0 : Nat) (s : HSt) (A : AM) : Prop := (∃ kk L V, Core E m0 kk L V A s) ∧ Lk m0 s

/-- The memory without its locks and `my_size`. -/
def HSt.bare (s : HSt) : HSt := { s with wr := fun _ => none, rd := fun _ => [], nl := fun _ => none, sm := none, size := 0 }

theorem Core.to_bare {E : HEnv} {m0 kk : Nat} {L : Nat → List Nat} {V : List Nat} {A : AM} {s : HSt} (h : Core E m0 kk L V A s) :
    Core E m0 kk L V A s.bare where
  tab := ⟨h.tab.two, h.tab.b0, h.tab.l0, h.tab.b1, h.tab.l1, h.tab.big, h.tab.none⟩
  kk31 := h.kk31
  mask := h.mask
  m0 := h.m0
  below := h.below
  base := h.base
  real := h.real
  dfl := h.dfl
  par := h.par
  chain := h.chain
  nodup := h.nodup
  disj := h.disj
  keys := h.keys
  uniq := h.uniq
  abs := h.abs
  vdup := h.vdup
  live := h.live
  all := h.all
  cnt := h.cnt
  allocs := h.allocs

theorem Core.of_bare {E : HEnv} {m0 kk : Nat} {L : Nat → List Nat} {V : List Nat} {A : AM} {s : HSt} (h : Core E m0 kk L V A s.bare) :
    Core E m0 kk L V A s where
  tab := ⟨h.tab.two, h.tab.b0, h.tab.l0, h.tab.b1, h.tab.l1, h.tab.big, h.tab.none⟩
  kk31 := h.kk31
  mask := h.mask
  m0 := h.m0
  below := h.below
  base := h.base
  real := h.real
  dfl := h.dfl
  par := h.par
  chain := h.chain
  nodup := h.nodup
  disj := h.disj
  keys := h.keys
  uniq := h.uniq
  abs := h.abs
  vdup := h.vdup
  live := h.live
  all := h.all
  cnt := h.cnt
  allocs := h.allocs

theorem Core.congr {E : HEnv} {m0 kk : Nat} {L : Nat → List Nat} {V : List Nat} {A : AM} {s s' : HSt} (h : Core E m0 kk L V A s)
    (e : s'.bare = s.bare) : Core E m0 kk L V A s' := Core.of_bare (e ▸ h.to_bare)

/-- What the other threads leave alone, as thread `t` sees it. -/
structure Rel (t : Nat) (s s' : HSt) : Prop where
  wr : ∀ b, s'.wr b = some t ↔ s.wr b = some t
  rd : ∀ b, (s'.rd b).count t = (s.rd b).count t
  nl : ∀ n, s'.nl n = some t ↔ s.nl n = some t
  sm : s'.sm = some t ↔ s.sm = some t
  fl : ∀ b, s.fl b = true → s'.fl b = true
  dfl : ∀ b, s.dfl b = true → s'.dfl b = true
  mask : s.mask ≤ s'.mask
  seg : s.sm = some t → s'.mask = s.mask ∧ s'.blk = s.blk
  held : ∀ b, Holds t s b → s'.list b = s.list b
  nodes : ∀ c l, Holds t s (loc c) → Chain s.heap (s.list (loc c)) l → ∀ n ∈ l, s'.heap n = s.heap n
  flw : ∀ b, s.wr b = some t → s'.fl b = s.fl b ∧ s'.dfl b = s.dfl b
  nlw : ∀ c l, s.wr (loc c) = some t → Chain s.heap (s.list (loc c)) l → ∀ n ∈ l, s.nl n = none → s'.nl n = none
  kids : ∀ d, 2 ≤ d → Holds t s (loc (parent d)) → eff s' d → eff s d
  item : ∀ n x, s.nl n = some t → s.heap n = some x → ∃ x', s'.heap n = some x' ∧ x'.key = x.key ∧ x'.val = x.val
  flag : ∀ b, (s.fl b = true ∨ ∃ v, v ≠ t ∧ s.wr b = some v) → s'.fl b = true ∨ ∃ v, v ≠ t ∧ s'.wr b = some v

theorem Rel.holds {t : Nat} {s s' : HSt} (h : Rel t s s') (b : Loc) : Holds t s' b ↔ Holds t s b := by
  unfold Holds
  rw [h.wr b, ← List.count_pos_iff, ← List.count_pos_iff, h.rd b]

theorem Rel.refl (t : Nat) (s : HSt) : Rel t s s where
  wr := fun _ => Iff.rfl
  rd := fun _ => rfl
  nl := fun _ => Iff.rfl
  sm := Iff.rfl
  fl := fun _ h => h
  dfl := fun _ h => h
  mask := Nat.le_refl _
  seg := fun _ => ⟨rfl, rfl⟩
  held := fun _ _ => rfl
  nodes := fun _ _ _ _ _ _ => rfl
  flw := fun _ _ => ⟨rfl, rfl⟩
  nlw := fun _ _ _ _ _ _ h => h
  kids := fun _ _ _ h => h
  item := fun _ x _ h => ⟨x, h, rfl, rfl⟩
  flag := fun _ h => h

theorem Rel.trans {t : Nat} {s1 s2 s3 : HSt} (h : Rel t s1 s2) (g : Rel t s2 s3) : Rel t s1 s3 where
  wr := fun b => (g.wr b).trans (h.wr b)
  rd := fun b => (g.rd b).trans (h.rd b)
  nl := fun b => (g.nl b).trans (h.nl b)
  sm := g.sm.trans h.sm
  fl := fun b e => g.fl b (h.fl b e)
  dfl := fun b e => g.dfl b (h.dfl b e)
  mask := h.mask.trans g.mask
  seg := fun e => by
    have a := h.seg e
    have b := g.seg (h.sm.2 e)
    exact ⟨b.1.trans a.1, b.2.trans a.2⟩
  held := fun b e => (g.held b ((h.holds b).2 e)).trans (h.held b e)
  nodes := fun b l e c n hn => by
    have e1 := h.nodes b l e c
    rw [← e1 n hn]
    refine g.nodes b l ((h.holds _).2 e) ?_ n hn
    rw [h.held _ e]
    exact c.congr e1
  flw := fun b e => by
    have a := h.flw b e
    have c := g.flw b ((h.wr b).2 e)
    exact ⟨c.1.trans a.1, c.2.trans a.2⟩
  nlw := fun b l e c n hn z => by
    refine g.nlw b l ((h.wr _).2 e) ?_ n hn (h.nlw b l e c n hn z)
    rw [h.held _ (Or.inl e)]
    exact c.congr (h.nodes b l (Or.inl e) c)
  kids := fun d d2 e f => h.kids d d2 e (g.kids d d2 ((h.holds _).2 e) f)
  item := fun n x e f => by
    obtain ⟨y, a, b, c⟩ := h.item n x e f
    obtain ⟨z, a', b', c'⟩ := g.item n y ((h.nl n).2 e) a
    exact ⟨z, a', b'.trans b, c'.trans c⟩
  flag := fun b e => g.flag b (h.flag b e)

/-- Two threads do not both hold a lock of which one is a writer. -/
theorem Lk.other {m0 t u : Nat} {s : HSt} (h : Lk m0 s) {b : Loc} (ht : s.wr b = some t) (hu : Holds u s b) : u = t := by
  rcases hu with hu | hu
  · rw [ht] at hu
    cases hu
    rfl
  · rw [h.excl b t ht] at hu
    cases hu

theorem Core.fl0 {E : HEnv} {m0 kk : Nat} {L : Nat → List Nat} {V : List Nat} {A : AM} {s : HSt} (h : Core E m0 kk L V A s) {c : Nat}
    (hc : c < 2) : eff s c := by
  left
  rcases (show c = 0 ∨ c = 1 by omega) with rfl | rfl
  · exact h.dfl _ h.base.1
  · exact h.dfl _ h.base.2

theorem Core.len {E : HEnv} {m0 kk : Nat} {L : Nat → List Nat} {V : List Nat} {A : AM} {s : HSt} (h : Core E m0 kk L V A s) (c : Nat) :
    (L c).length ≤ s.allocs := by
  refine le_trans ?_ h.allocs
  refine List.Subperm.length_le ?_
  refine (h.nodup c).subperm fun n hn => ?_
  obtain ⟨x, hx⟩ := (h.chain c).live n hn
  rw [h.live, hx]
  rfl

/-- Where a lock is held, the absence of filled buckets further down lasts. -/
theorem NoDeep.stable {E : HEnv} {m0 t h c : Nat} {s s' : HSt} {A A' : AM} (hd : NoDeep s h c) (hp : Pre h c) (hi : Inv E m0 s A)
    (hi' : Inv E m0 s' A') (hr : Rel t s s') (hl : Holds t s (loc c)) : NoDeep s' h c := by
  obtain ⟨⟨kk, L, V, hc⟩, _⟩ := hi
  obtain ⟨⟨kk', L', V', hc'⟩, _⟩ := hi'
  intro e
  induction e using Nat.strong_induction_on with
  | _ e ih =>
    intro he hlt hf
    by_cases h2 : e < 2
    · exact hd e he hlt (hc.fl0 h2)
    · have hle := hp.le_parent he hlt
      rcases Nat.lt_or_ge c (parent e) with h3 | h3
      · exact ih _ (parent_lt (by omega)) he.parent h3 (Or.inl (hc'.dfl _ (hc'.par e (by omega) hf)))
      · have : c = parent e := by omega
        subst this
        exact hd e he hlt (hr.kids e (by omega) hl hf)

end PMap.Pmem
