import Verif.Clevel.Round
import Verif.Workload

/-!
# Calls to a clevel table, one after the other
-/

namespace PMap.Clevel

open CP

variable {E : CEnv} {B : Prop} {p0 : Nat} {s : CSt} {p : Nat} {ls : List Nat} {M : Word → Option Word} {J : Word → Prop} {key val : Word}

/-- Calls to a table (clevel:548, 984, 1101, 1219) and rounds of its background thread (clevel:1438-1576). -/
inductive Call where
  | contains (k : Word)
  | insert (t : Nat) (k v : Word)
  | erase (k : Word)
  | update (t : Nat) (k v : Word)
  | background
  deriving DecidableEq

/-- A call and what it reports: whether the key was found, for `insert` whether it was new.  No code of its own. -/
def Call.prog (E : CEnv) (lf f : Nat) : Call → CP Bool
  | .contains k => Clevel.search E k lf f
  | .insert t k v => Clevel.insert E t k v lf f
  | .erase k => Clevel.erase E k lf f false
  | .update t k v => Clevel.update E t k v lf f
  | .background => do
    round E lf f
    pure false

/-- Calls one after the other and what they report.  No code of its own. -/
def Call.progs (E : CEnv) (lf f : Nat) : List Call → CP (List Bool)
  | [] => pure []
  | c :: cs => do
    let b ← c.prog E lf f
    let bs ← Call.progs E lf f cs
    pure (b :: bs)

/-- The calls of levelMap.hpp:42-96; `localThreadNum` is 0. -/
def levelCall (E : CEnv) (lf f : Nat) : UOp → CP Work.CRes
  | .insert el => do
    let b ← Clevel.insert E 0 el el lf f
    pure (.bool b)
  | .erase el => do
    let b ← Clevel.erase E el lf f false
    pure (.bool b)
  | .contains el => do
    let b ← Clevel.search E el lf f
    pure (.bool b)
  | .get el => do
    let b ← Clevel.search E el lf f
    pure (.word (if b then el else 0#64))
  | .count => do
    let n ← capacity lf
    pure (.word (BitVec.ofNat 64 n))
  | .increment el => do
    let b ← Clevel.insert E 0 el el lf f
    pure (.word (Work.boolWord b))

/-- Some rounds of the background thread.  No code of its own. -/
def rounds (E : CEnv) (lf f : Nat) : Nat → CP Unit
  | 0 => pure ()
  | n + 1 => do
    round E lf f
    rounds E lf f n

/-- Calls of levelMap.hpp, each with the number of rounds the background thread takes before it.  No code of its own. -/
def levelCalls (E : CEnv) (lf f : Nat) : List (Nat × UOp) → CP (List Work.CRes)
  | [] => pure []
  | (n, c) :: cs => do
    rounds E lf f n
    let b ← levelCall E lf f c
    let bs ← levelCalls E lf f cs
    pure (b :: bs)

/-- A new table is an empty map. -/
theorem Inv.init {hp tn : Nat} (hhp : 2 ≤ hp) (htn : 0 < tn) (h1 : 2 ^ hp ≤ E.pool) (h2 : E.pool < 2 ^ (hp + 14)) :
    Inv E B (hp - 1) (CSt.new hp tn) (hp - 1) [2, 1] (fun _ => none) (fun _ => False) := by
  have hw : ∀ l b j, word (CSt.new hp tn) l b j = 0#64 := by
    intro l b j
    unfold word CSt.new
    dsimp only
    split
    · rfl
    · rename_i L hL
      split at hL
      · cases hL
        rfl
      · split at hL
        · cases hL
          rfl
        · cases hL
  have hv : ∀ l b j, view (CSt.new hp tn) l b j = none := fun l b j => view_of_zero (by rw [hw]; decide)
  refine ⟨by omega, le_refl _, ?_, ?_, ?_, by decide, by decide, rfl, ?_, le_refl _, htn, fun l b j _ => .inl (hw l b j), ?_, ?_, ?_, ?_, ?_,
    fun _ _ => rfl, fun _ b j hb => absurd hb (Nat.not_lt_zero b), by decide, fun l _ _ _ _ b j _ _ => hw l b j,
    fun l hl => ?_, fun m hm => ?_⟩
  · rw [show hp - 1 + 15 = hp + 14 by omega]
    exact h2
  · rw [show hp - 1 + [2, 1].length - 1 = hp by simp; omega]
    exact h1
  · refine ⟨rfl, ?_⟩
    unfold Chain
    rw [show hp - 1 + 1 = hp by omega]
    rfl
  · intro l hl
    simp only [List.mem_cons, List.not_mem_nil, or_false] at hl
    show l ≤ 2
    omega
  · intro l b j l' b' j' _ _ k v v' h
    rw [hv] at h
    cases h
  · intro k v
    refine ⟨fun h => (by cases h), ?_⟩
    rintro ⟨l, b, j, _, h⟩
    rw [hv] at h
    cases h
  · intro o e h
    cases h
  · intro o h
    exact h.elim
  · exact fun _ => Nat.pos_of_ne_zero (pow_ne_zero _ (by decide))
  · have hl' : 2 < l := hl
    simp [geo, CSt.new, show l ≠ 1 by omega, show l ≠ 2 by omega]
  · have hm' : 1 < m := hm
    simp [CSt.new, show m ≠ 1 by omega]

/-- The live entries are one for each pair of the map, and those in `J`. -/
theorem Inv.entries (h : Inv E B p0 s p ls M J) :
    (∀ o k v, s.heap o = some (k, v) → ¬ J o → M k = some v) ∧ (∀ k v, M k = some v → ∃ o, s.heap o = some (k, v) ∧ ¬ J o) ∧
    ∀ o o' k v v', s.heap o = some (k, v) → s.heap o' = some (k, v') → ¬ J o → ¬ J o' → o = o' := by
  have hslot : ∀ o k v, s.heap o = some (k, v) → ¬ J o → ∃ l b j, InUse s ls l b j ∧ getOffset (word s l b j) = o ∧
      view s l b j = some (k, v) := by
    intro o k v ho hJ
    obtain ⟨hg, h2⟩ := h.live o _ ho
    obtain ⟨l, b, j, hu, hw⟩ := h2.resolve_left hJ
    refine ⟨l, b, j, hu, hw, ?_⟩
    unfold view
    rw [hw, if_neg hg.1, ho]
  refine ⟨fun o k v ho hJ => ?_, fun k v hm => ?_, fun o o' k v v' ho ho' hJ hJ' => ?_⟩
  · obtain ⟨l, b, j, hu, -, hv⟩ := hslot o k v ho hJ
    exact (h.rep k v).2 ⟨l, b, j, hu, hv⟩
  · obtain ⟨l, b, j, hu, hv⟩ := (h.rep k v).1 hm
    exact ⟨_, (view_some hv).2, fun hJ => (h.junk _ hJ).2 l b j hu rfl⟩
  · obtain ⟨l, b, j, hu, hw, hv⟩ := hslot o k v ho hJ
    obtain ⟨l', b', j', hu', hw', hv'⟩ := hslot o' k v' ho' hJ'
    obtain ⟨e1, e2, e3⟩ := h.uniq _ _ _ _ _ _ hu hu' k v v' hv hv'
    rw [← hw, ← hw', e1, e2, e3]

/-- The buckets in all levels. -/
theorem cwp_capacityFrom (h : Inv E B p0 s p ls M J) {Q : Nat → CSt → Prop} :
    ∀ {suf pre : List Nat} {f : Nat}, ls = pre ++ suf → suf ≠ [] → suf.length ≤ f →
      Q (assocNum * (2 ^ (p + ls.length) - 2 ^ (p + pre.length))) s → cwp (capacityFrom s.root f (suf.headD 0)) Q s
  | [], _, _, _, hs, _, _ => absurd rfl hs
  | l :: r, pre, 0, _, _, hf, _ => by simp at hf
  | l :: r, pre, f + 1, he, _, hf, hQ => by
    have hi : ls[pre.length]? = some l := by rw [he]; simp
    obtain ⟨u, hg⟩ := chain_get h.chain hi
    have hc := chain_suffix (he ▸ h.chain) (by simp : l :: r ≠ [])
    have hlen : ls.length = pre.length + (r.length + 1) := by rw [he]; simp
    have hpow : 2 ^ (p + (pre.length + 1)) = 2 * 2 ^ (p + pre.length) := by
      rw [← Nat.add_assoc, pow_succ, Nat.mul_comm]
    unfold capacityFrom
    simp only [List.headD_cons]
    rw [cwp_bind, cwp_deMeta h.mt, cwp_bind, cwp_rdCap hg]
    refine cwp_if (fun hl => ?_) (fun hl => ?_)
    all_goals
      simp only at hl
      rw [he, last_ne (he ▸ h.nodup)] at hl
    · rw [cwp_bind, cwp_rdUp (chain_head hc), cwp_bind]
      refine cwp_capacityFrom h (pre := pre ++ [l]) (by simp [he]) hl (by simpa using hf) ?_
      rw [cwp_pure, List.length_append, List.length_singleton, hpow]
      have hle : 2 * 2 ^ (p + pre.length) ≤ 2 ^ (p + ls.length) := by
        rw [← hpow]
        exact Nat.pow_le_pow_right (by decide) (by omega)
      have : 2 ^ (p + pre.length) * assocNum + assocNum * (2 ^ (p + ls.length) - 2 * 2 ^ (p + pre.length)) =
          assocNum * (2 ^ (p + ls.length) - 2 ^ (p + pre.length)) := by
        unfold assocNum
        omega
      rw [this]
      exact hQ
    · have hlast := not_not.1 hl
      subst hlast
      rw [cwp_pure]
      rw [hlen, List.length_nil, Nat.zero_add, hpow] at hQ
      have : 2 ^ (p + pre.length) * assocNum = assocNum * (2 * 2 ^ (p + pre.length) - 2 ^ (p + pre.length)) := by
        unfold assocNum
        omega
      rw [this]
      exact hQ

theorem cwp_capacity (h : Inv E B p0 s p ls M J) {Q : Nat → CSt → Prop} {lf : Nat} (hlf : maxLevel ≤ lf)
    (hQ : Q (assocNum * (2 ^ (p + ls.length) - 2 ^ p)) s) : cwp (capacity lf) Q s := by
  have hne : ls ≠ [] := by rintro rfl; have := h.len; simp at this
  unfold capacity
  rw [cwp_bind, cwp_rdMeta, cwp_bind, cwp_deMeta h.mt]
  exact cwp_capacityFrom h (pre := []) rfl hne (h.levels.le.trans hlf) (by simpa using hQ)

/-- A program that allocates nothing.  No code of its own. -/
def NoAlloc {α : Type} : CP α → Prop
  | .ret _ => True
  | .spin => True
  | .act f k => (∀ s, f s ≠ .oom) ∧ ∀ b, NoAlloc (k b)

theorem noAlloc_run {α : Type} : ∀ {q : CP α} {s : CSt}, NoAlloc q → q.run s ≠ some .oom
  | .ret a, s, _ => fun h => by cases h
  | .spin, _, _ => fun h => by cases h
  | .act f k, s, h => by
    rw [CP.run]
    cases hf : f s with
    | ok b t => exact noAlloc_run (h.2 b)
    | oom => exact absurd hf (h.1 s)
    | ub => intro e; cases e
    | abort => intro e; cases e

theorem noAlloc_bind' {α β : Type} {g : α → CP β} (hg : ∀ a, NoAlloc (g a)) : ∀ {q : CP α}, NoAlloc q → NoAlloc (q.bind g)
  | .ret a, _ => hg a
  | .spin, _ => trivial
  | .act _ _, h => ⟨h.1, fun b => noAlloc_bind' hg (h.2 b)⟩

theorem noAlloc_bind {α β : Type} {g : α → CP β} {q : CP α} (hq : NoAlloc q) (hg : ∀ a, NoAlloc (g a)) : NoAlloc (q >>= g) :=
  noAlloc_bind' hg hq

theorem noAlloc_if {α : Type} {c : Prop} [Decidable c] {a b : CP α} (h1 : NoAlloc a) (h2 : NoAlloc b) :
    NoAlloc (if c then a else b) := by
  split
  · exact h1
  · exact h2

theorem noAlloc_pure {α : Type} {a : α} : NoAlloc (pure a : CP α) := trivial

theorem noAlloc_atom {α : Type} {g : CSt → R CSt α} (h : ∀ s, g s ≠ .oom) : NoAlloc (atom g) := ⟨h, fun _ => trivial⟩

theorem noAlloc_rdMeta : NoAlloc rdMeta := noAlloc_atom fun s h => by cases h
theorem noAlloc_deMeta (m : Nat) : NoAlloc (deMeta m) := noAlloc_atom fun s h => by
  split at h <;> cases h
theorem noAlloc_rdCap (l : Nat) : NoAlloc (rdCap l) := noAlloc_atom fun s h => by
  split at h <;> cases h
theorem noAlloc_rdUp (l : Nat) : NoAlloc (rdUp l) := noAlloc_atom fun s h => by
  split at h <;> cases h
theorem noAlloc_rdSlot (l b j : Nat) : NoAlloc (rdSlot l b j) := noAlloc_atom fun s h => by
  split at h <;> (try split at h) <;> cases h
theorem noAlloc_rdKey (w : Word) : NoAlloc (rdKey w) := noAlloc_atom fun s h => by
  split at h <;> cases h
theorem noAlloc_casSlot (l b j : Nat) (o n : Word) : NoAlloc (casSlot l b j o n) := noAlloc_atom fun s h => by
  split at h <;> (try split at h) <;> (try split at h) <;> cases h
theorem noAlloc_freeEntry (w : Word) : NoAlloc (freeEntry w) := noAlloc_atom fun s h => by
  split at h <;> cases h

theorem noAlloc_capacityFrom (m : Nat) : ∀ f l, NoAlloc (capacityFrom m f l)
  | 0, _ => trivial
  | f + 1, l => noAlloc_bind (noAlloc_deMeta m) fun _ => noAlloc_bind (noAlloc_rdCap l) fun _ =>
    noAlloc_if (noAlloc_bind (noAlloc_rdUp l) fun u => noAlloc_bind (noAlloc_capacityFrom m f u) fun _ => noAlloc_pure) noAlloc_pure

theorem noAlloc_capacity (lf : Nat) : NoAlloc (capacity lf) :=
  noAlloc_bind noAlloc_rdMeta fun _ => noAlloc_bind (noAlloc_deMeta _) fun _ => noAlloc_capacityFrom _ _ _

theorem noAlloc_searchBucket (l b : Nat) (q : BitVec 16) (k : Word) : ∀ js, NoAlloc (searchBucket l b q k js)
  | [] => noAlloc_pure
  | _ :: js => noAlloc_bind
    (noAlloc_bind (noAlloc_rdSlot _ _ _) fun _ => noAlloc_if (noAlloc_bind (noAlloc_rdSlot _ _ _) fun _ =>
      noAlloc_if (noAlloc_bind (noAlloc_rdSlot _ _ _) fun _ => noAlloc_bind (noAlloc_rdKey _) fun _ => noAlloc_pure) noAlloc_pure) noAlloc_pure)
    fun _ => noAlloc_if noAlloc_pure (noAlloc_searchBucket l b q k js)

theorem noAlloc_searchLevels (m : Nat) (k : Word) : ∀ f l, NoAlloc (searchLevels E m k f l)
  | 0, _ => trivial
  | f + 1, l => noAlloc_bind (noAlloc_rdCap l) fun _ => noAlloc_bind (noAlloc_searchBucket _ _ _ _ _) fun
    | some _ => noAlloc_pure
    | none => noAlloc_bind (noAlloc_searchBucket _ _ _ _ _) fun
      | some _ => noAlloc_pure
      | none => noAlloc_bind (noAlloc_rdUp l) fun u => noAlloc_bind (noAlloc_deMeta m) fun _ =>
        noAlloc_if (noAlloc_searchLevels m k f u) noAlloc_pure

theorem noAlloc_search (k : Word) (lf : Nat) : ∀ f, NoAlloc (search E k lf f)
  | 0 => trivial
  | f + 1 => noAlloc_bind noAlloc_rdMeta fun _ => noAlloc_bind (noAlloc_deMeta _) fun _ =>
    noAlloc_bind (noAlloc_searchLevels _ _ _ _) fun _ => noAlloc_if noAlloc_pure
      (noAlloc_bind noAlloc_rdMeta fun _ => noAlloc_if noAlloc_pure (noAlloc_search k lf f))

theorem noAlloc_eraseBucket (l b : Nat) (q : BitVec 16) (k : Word) : ∀ js d, NoAlloc (eraseBucket l b q k js d)
  | [], _ => noAlloc_pure
  | _ :: js, _ => noAlloc_bind
    (noAlloc_bind (noAlloc_rdSlot _ _ _) fun _ => noAlloc_if (noAlloc_bind (noAlloc_rdKey _) fun _ =>
      noAlloc_if (noAlloc_bind (noAlloc_casSlot _ _ _ _ _) fun _ =>
        noAlloc_if (noAlloc_bind (noAlloc_freeEntry _) fun _ => noAlloc_pure) noAlloc_pure) noAlloc_pure) noAlloc_pure)
    fun _ => noAlloc_eraseBucket l b q k js _

theorem noAlloc_eraseLevels (m : Nat) (k : Word) : ∀ f l d, NoAlloc (eraseLevels E m k f l d)
  | 0, _, _ => trivial
  | f + 1, l, _ => noAlloc_bind (noAlloc_rdCap l) fun _ => noAlloc_bind (noAlloc_eraseBucket _ _ _ _ _ _) fun _ =>
    noAlloc_bind (noAlloc_eraseBucket _ _ _ _ _ _) fun _ => noAlloc_bind (noAlloc_rdUp l) fun u =>
      noAlloc_bind (noAlloc_deMeta m) fun _ => noAlloc_if (noAlloc_eraseLevels m k f u _) noAlloc_pure

theorem noAlloc_erase (k : Word) (lf : Nat) : ∀ f d, NoAlloc (erase E k lf f d)
  | 0, _ => trivial
  | f + 1, _ => noAlloc_bind noAlloc_rdMeta fun _ => noAlloc_bind (noAlloc_deMeta _) fun _ =>
    noAlloc_bind (noAlloc_eraseLevels _ _ _ _ _) fun _ => noAlloc_bind noAlloc_rdMeta fun _ =>
      noAlloc_if noAlloc_pure (noAlloc_erase k lf f _)

end PMap.Clevel
