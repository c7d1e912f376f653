import Verif.Clevel.Conc

/-!
# What a search may rely on beside the background thread
-/

namespace PMap.Clevel

open CP

variable {E : CEnv} {B : Prop} {p0 : Nat} {s t : CSt} {p : Nat} {ls : List Nat} {M : Word → Option Word} {J : Word → Prop} {key val : Word}

/-- The levels `ls` are linked bottom to top and their sizes double, starting at `2 ^ p`; the last may already have a successor.  No
code of its own. -/
def Seg (g : Nat → Option (Nat × Nat)) : Nat → List Nat → Prop
  | _, [] => False
  | p, [l] => ∃ u, g l = some (2 ^ p, u)
  | p, l :: l' :: r => g l = some (2 ^ p, l') ∧ l' ≠ 0 ∧ Seg g (p + 1) (l' :: r)

/-- What holds of the table after every access of the background thread: `M` is the map in it.  No code of its own. -/
structure RInv (E : CEnv) (M : Word → Option Word) (s : CSt) : Prop where
  heap0 : s.heap 0#64 = none
  slots : ∀ l c u b j, geo s l = some (c, u) → b < c → j < assocNum → word s l b j = 0#64 ∨
    ∃ k v, getOffset (word s l b j) ≠ 0#64 ∧ s.heap (getOffset (word s l b j)) = some (k, v) ∧
      tagOf (word s l b j) = getPartial (E.hash k) ∧ Home E k c b ∧ (M k).isSome = true
  root : ∃ p ls X, 1 ≤ p ∧ ls.Nodup ∧ (2 ≤ ls.length ∧ ls.length < maxLevel) ∧ s.mt s.root = some X ∧ X.last = ls.headD 0 ∧ X.first = ls.getLastD 0 ∧
    Seg (geo s) p ls ∧ ∀ k, (M k).isSome = true → ∃ l b j v, InUse s ls l b j ∧ view s l b j = some (k, v)

/-- What the accesses of the background thread do to the table.  No code of its own. -/
structure Rely (s t : CSt) : Prop where
  heap : t.heap = s.heap
  mt : ∀ m X, s.mt m = some X → t.mt m = some X
  geo : ∀ l c u, geo s l = some (c, u) → ∃ u', geo t l = some (c, u') ∧ (u ≠ 0 → u' = u)
  root : s.root ≤ t.root
  keep : t.root = s.root → ∀ X, s.mt s.root = some X → ∀ l b j, getOffset (word s l b j) ≠ 0#64 →
    word t l b j = word s l b j ∨ (l = X.last ∧ X.last ≠ X.first ∧
      ∃ b' j' c u, Clevel.geo t X.first = some (c, u) ∧ b' < c ∧ j' < assocNum ∧ word t X.first b' j' = word s l b j)

theorem Rely.refl (s : CSt) : Rely s s :=
  ⟨rfl, fun _ _ h => h, fun _ _ u h => ⟨u, h, fun _ => rfl⟩, le_refl _, fun _ _ _ _ _ _ _ => .inl rfl⟩

theorem Rely.trans (s t r : CSt) (h1 : Rely s t) (h2 : Rely t r) : Rely s r where
  heap := h2.heap.trans h1.heap
  mt := fun m X h => h2.mt m X (h1.mt m X h)
  geo := fun l c u h => by
    obtain ⟨u', h3, h4⟩ := h1.geo l c u h
    obtain ⟨u2, h5, h6⟩ := h2.geo l c u' h3
    exact ⟨u2, h5, fun hu => by rw [h6 (by rw [h4 hu]; exact hu), h4 hu]⟩
  root := h1.root.trans h2.root
  keep := fun hr X hX l b j h0 => by
    have hrt : t.root = s.root := le_antisymm (by rw [← hr]; exact h2.root) h1.root
    have hX' := h1.mt _ _ hX
    rw [← hrt] at hX'
    have k2 := h2.keep (hr.trans hrt.symm) X hX'
    rcases h1.keep hrt X hX l b j h0 with h | ⟨hl, hne, b', j', c, u, hg, hb, hj, hw⟩
    · have := k2 l b j (by rw [h]; exact h0)
      rw [h] at this
      exact this
    · right
      refine ⟨hl, hne, b', j', ?_⟩
      obtain ⟨u', hg', -⟩ := h2.geo _ c u hg
      refine ⟨c, u', hg', hb, hj, ?_⟩
      rcases k2 X.first b' j' (by rw [hw]; exact h0) with h | ⟨he, -⟩
      · rw [h, hw]
      · exact absurd he.symm hne

theorem seg_of_chain {g : Nat → Option (Nat × Nat)} : ∀ {ls : List Nat} {p : Nat}, 0 ∉ ls → Chain g p ls → Seg g p ls
  | [l], p, _, h => ⟨0, h⟩
  | l :: l' :: r, p, h0, h => ⟨h.1, fun e => h0 (by simp [e]), seg_of_chain (fun hx => h0 (by simp [List.mem_cons.1 hx])) h.2⟩

theorem seg_mono {g g' : Nat → Option (Nat × Nat)} (hg : ∀ l c u, g l = some (c, u) → ∃ u', g' l = some (c, u') ∧ (u ≠ 0 → u' = u)) :
    ∀ {ls : List Nat} {p : Nat}, Seg g p ls → Seg g' p ls
  | [l], p, ⟨u, h⟩ => by
    obtain ⟨u', h', -⟩ := hg l _ u h
    exact ⟨u', h'⟩
  | l :: l' :: r, p, ⟨h1, h2, h3⟩ => by
    obtain ⟨u', h', h4⟩ := hg l _ _ h1
    rw [h4 h2] at h'
    exact ⟨h', h2, seg_mono hg h3⟩

theorem seg_suffix {g : Nat → Option (Nat × Nat)} : ∀ {pre : List Nat} {p : Nat} {suf : List Nat}, Seg g p (pre ++ suf) →
    suf ≠ [] → Seg g (p + pre.length) suf
  | [], p, suf, h, _ => by simpa using h
  | [l], p, l' :: r, h, _ => by
    simp only [List.cons_append, List.nil_append, Seg] at h
    simpa using h.2.2
  | l :: l' :: pre, p, suf, h, hs => by
    simp only [List.cons_append, Seg] at h
    have := seg_suffix (pre := l' :: pre) h.2.2 hs
    simpa [Nat.add_assoc, Nat.add_comm, Nat.add_left_comm] using this

theorem seg_head {g : Nat → Option (Nat × Nat)} {p l : Nat} {r : List Nat} (h : Seg g p (l :: r)) :
    ∃ u, g l = some (2 ^ p, u) ∧ (r ≠ [] → u = r.headD 0) := by
  cases r with
  | nil =>
    obtain ⟨u, h⟩ := h
    exact ⟨u, h, fun h => absurd rfl h⟩
  | cons l' r => exact ⟨l', h.1, fun _ => rfl⟩

theorem seg_mem {g : Nat → Option (Nat × Nat)} : ∀ {ls : List Nat} {p l : Nat}, Seg g p ls → l ∈ ls →
    ∃ i u, ls[i]? = some l ∧ g l = some (2 ^ (p + i), u)
  | [l'], p, l, ⟨u, h⟩, hl => by
    simp at hl
    subst hl
    exact ⟨0, u, by simp, by simpa using h⟩
  | l' :: l'' :: r, p, l, h, hl => by
    rcases List.mem_cons.1 hl with rfl | hl
    · exact ⟨0, l'', by simp, by simpa using h.1⟩
    · obtain ⟨i, u, hg, hu⟩ := seg_mem h.2.2 hl
      exact ⟨i + 1, u, by simpa using hg, by rw [hu, Nat.add_assoc, Nat.add_comm 1 i]⟩

theorem seg_get {g : Nat → Option (Nat × Nat)} : ∀ {ls : List Nat} {p i l : Nat}, Seg g p ls → ls[i]? = some l →
    ∃ u, g l = some (2 ^ (p + i), u)
  | [l'], p, 0, l, ⟨u, h⟩, hi => by
    simp at hi
    subst hi
    exact ⟨u, h⟩
  | l' :: l'' :: r, p, 0, l, h, hi => by
    simp at hi
    subst hi
    exact ⟨l'', h.1⟩
  | l' :: l'' :: r, p, i + 1, l, h, hi => by
    obtain ⟨u, hu⟩ := seg_get h.2.2 (i := i) (l := l) (by simpa using hi)
    exact ⟨u, by rw [hu, Nat.add_assoc, Nat.add_comm 1 i]⟩
  | [l'], p, i + 1, l, h, hi => by simp at hi

/-- Between rounds the table is as the searches expect it. -/
theorem Inv.rinv (h : Inv E B p0 s p ls M J) : RInv E M s where
  heap0 := by
    cases he : s.heap 0#64 with
    | none => rfl
    | some e => exact absurd rfl (h.live _ _ he).1.1
  slots := fun l c u b j hg hb hj => by
    by_cases hl : l ∈ ls
    · have hu : InUse s ls l b j := ⟨hl, ⟨c, u, hg, hb⟩, hj⟩
      rcases h.slots l b j hu with h0 | ⟨k, v, c', u', h1, h2, h3, h4, h5⟩
      · exact .inl h0
      · rw [hg] at h4
        cases h4
        refine .inr ⟨k, v, h1, h2, h3, h5, ?_⟩
        rw [(h.rep k v).2 ⟨l, b, j, hu, by simp [view, h1, h2]⟩]
        rfl
    · exact .inl (h.gone l c u hl hg b j hb hj)
  root := by
    refine ⟨p, ls, _, ?_, h.nodup, ⟨h.len, h.levels⟩, h.mt, rfl, rfl, seg_of_chain h.pos h.chain, fun k hk => ?_⟩
    · have := h.base
      have := h.grown
      omega
    · obtain ⟨v, hv⟩ := Option.isSome_iff_exists.1 hk
      obtain ⟨l, b, j, hu, hw⟩ := (h.rep k v).1 hv
      exact ⟨l, b, j, v, hu, hw⟩

/-- What a search knows of the metadata `m` it looks at: the levels `ls`.  No code of its own. -/
structure Walk (s : CSt) (m : Nat) (X : Meta) (p : Nat) (ls : List Nat) : Prop where
  base : 1 ≤ p
  nodup : ls.Nodup
  len : 2 ≤ ls.length
  mt : s.mt m = some X
  le : m ≤ s.root
  bot : X.last = ls.headD 0
  top : X.first = ls.getLastD 0
  seg : Seg (geo s) p ls

variable {m : Nat} {X : Meta}

theorem Walk.stable (h : Walk s m X p ls) (hr : Rely s t) : Walk t m X p ls :=
  ⟨h.base, h.nodup, h.len, hr.mt _ _ h.mt, h.le.trans hr.root, h.bot, h.top, seg_mono hr.geo h.seg⟩

theorem Walk.last_get (h : Walk s m X p ls) : ls[ls.length - 1]? = some X.first := by
  have hl := h.len
  rw [h.top, List.getLastD_eq_getLast?, List.getLast?_eq_getElem?, List.getElem?_eq_getElem (by omega)]
  rfl

theorem Walk.ne (h : Walk s m X p ls) : X.last ≠ X.first := by
  have hn := h.nodup
  have hl := h.len
  rw [h.bot, h.top]
  clear h
  obtain ⟨x, y, r, rfl⟩ : ∃ x y r, ls = x :: y :: r := by
    cases ls with
    | nil => simp at hl
    | cons x t => cases t with
      | nil => simp at hl
      | cons y r => exact ⟨x, y, r, rfl⟩
  intro e
  have := getLastD_mem (ls := y :: r) (by simp)
  rw [List.headD_cons, show (x :: y :: r).getLastD 0 = (y :: r).getLastD 0 from rfl] at e
  rw [← e] at this
  exact (List.nodup_cons.1 hn).1 this

/-- As long as `m` is in use and the key is in the map, one of the slots `rem` has it.  No code of its own. -/
def Ahead (M : Word → Option Word) (m : Nat) (key : Word) (rem : List Pos) (s : CSt) : Prop :=
  s.root = m → (M key).isSome = true → ∃ x ∈ rem, ∃ v, view s x.l x.b x.j = some (key, v)

/-- The slots `rem` are all in higher levels than the bottom one, or all slots of the key in the top level are among them.  No code of
its own. -/
def Tops (E : CEnv) (key : Word) (X : Meta) (n : Nat) (rem : List Pos) : Prop :=
  (∀ b j, Home E key n b → j < assocNum → Pos.mk X.first b j ∈ rem) ∨ ∀ x ∈ rem, x.l ≠ X.last

theorem Ahead.stable {rem : List Pos} (hw : Walk s m X p ls) (hT : Tops E key X (2 ^ (p + ls.length - 1)) rem) (hr : Rely s t)
    (hI : RInv E M t) (h : Ahead M m key rem s) : Ahead M m key rem t := by
  intro hm hM
  have hrs : s.root = m := le_antisymm (by rw [← hm]; exact hr.root) hw.le
  obtain ⟨x, hx, v, hv⟩ := h hrs hM
  obtain ⟨h0, hh⟩ := view_some hv
  have hX : s.mt s.root = some X := by rw [hrs]; exact hw.mt
  rcases hr.keep (hm.trans hrs.symm) X hX x.l x.b x.j h0 with he | ⟨hl, -, b', j', c, u, hg, hb, hj, he⟩
  · refine ⟨x, hx, v, ?_⟩
    unfold view
    rw [he, hr.heap, if_neg h0, hh]
  · rcases hT with hT | hT
    · obtain ⟨u', hg'⟩ := seg_get (seg_mono hr.geo hw.seg) hw.last_get
      rw [hg] at hg'
      have hlen := hw.len
      have hc : c = 2 ^ (p + ls.length - 1) := by
        cases hg'
        congr 1
        omega
      subst hc
      rcases hI.slots _ _ _ b' j' hg hb hj with hz | ⟨k, v', h1, h2, h3, h4, h5⟩
      · rw [hz] at he
        rw [← he] at h0
        exact absurd (by decide) h0
      · rw [he, hr.heap, hh] at h2
        cases h2
        refine ⟨⟨X.first, b', j'⟩, hT b' j' h4 hj, v, ?_⟩
        unfold view
        rw [he, hr.heap, if_neg h0, hh]
    · exact absurd hl (hT x hx)

theorem Ahead.tail {x : Pos} {rest : List Pos} (h : Ahead M m key (x :: rest) s) (hn : ∀ v, view s x.l x.b x.j ≠ some (key, v)) :
    Ahead M m key rest s := by
  intro hm hM
  obtain ⟨y, hy, v, hv⟩ := h hm hM
  rcases List.mem_cons.1 hy with rfl | hy
  · exact absurd hv (hn v)
  · exact ⟨y, hy, v, hv⟩

/-! ### The loads of a search -/

variable {B : Prop}

/-- A program of a search beside the background thread.  No code of its own. -/
abbrev swpC {α : Type} (B : Prop) (E : CEnv) (M : Word → Option Word) : CP α → (α → CSt → Prop) → CSt → Prop := rwp B (RInv E M) Rely

theorem swpC_rdMeta {Q : Nat → CSt → Prop} (h : ∀ t, RInv E M t → Rely s t → Q t.root t) : swpC B E M rdMeta Q s :=
  fun t h1 h2 => ⟨rfl, h t h1 h2⟩

theorem swpC_deMeta {Q : Meta → CSt → Prop} (hm : s.mt m = some X) (h : ∀ t, RInv E M t → Rely s t → Q X t) :
    swpC B E M (deMeta m) Q s := by
  intro t h1 h2
  simp only [h2.mt _ _ hm]
  exact ⟨trivial, h t h1 h2⟩

theorem swpC_rdCap {Q : Nat → CSt → Prop} {l c u : Nat} (hg : geo s l = some (c, u)) (h : ∀ t, RInv E M t → Rely s t → Q c t) :
    swpC B E M (rdCap l) Q s := by
  intro t h1 h2
  obtain ⟨u', hg', -⟩ := h2.geo _ _ _ hg
  obtain ⟨L, hL, rfl, -, -⟩ := geo_some hg'
  simp only [hL]
  exact ⟨trivial, h t h1 h2⟩

theorem swpC_rdUp {Q : Nat → CSt → Prop} {l c u : Nat} (hg : geo s l = some (c, u))
    (h : ∀ t u', RInv E M t → Rely s t → (u ≠ 0 → u' = u) → Q u' t) : swpC B E M (rdUp l) Q s := by
  intro t h1 h2
  obtain ⟨u', hg', hu⟩ := h2.geo _ _ _ hg
  obtain ⟨L, hL, -, rfl, -⟩ := geo_some hg'
  simp only [hL]
  exact ⟨trivial, h t _ h1 h2 hu⟩

theorem swpC_rdSlot {Q : Word → CSt → Prop} {l b j c u : Nat} (hg : geo s l = some (c, u)) (hb : b < c) (hj : j < assocNum)
    (h : ∀ t, RInv E M t → Rely s t → Q (word t l b j) t) : swpC B E M (rdSlot l b j) Q s := by
  intro t h1 h2
  obtain ⟨u', hg', -⟩ := h2.geo _ _ _ hg
  obtain ⟨L, hL, rfl, -, hw⟩ := geo_some hg'
  simp only [hL, hb, hj, and_self, if_true]
  exact ⟨trivial, by rw [← hw]; exact h t h1 h2⟩

theorem swpC_rdKey {Q : Word → CSt → Prop} {w : Word} (hn : s.heap (getOffset w) = none → B)
    (h : ∀ t e, RInv E M t → Rely s t → s.heap (getOffset w) = some e → Q e.1 t) : swpC B E M (rdKey w) Q s := by
  intro t h1 h2
  dsimp only [rdKey, atom]
  rw [h2.heap]
  cases he : s.heap (getOffset w) with
  | none => exact hn he
  | some e => exact ⟨rfl, h t e h1 h2 he⟩

/-- What a search of one slot does, whatever the background thread does meanwhile.  No code of its own: the loop rules below are for
any program that does so. -/
def SlotSpec (B : Prop) (E : CEnv) (sl : Nat → Nat → Nat → BitVec 16 → Word → CP Bool) : Prop :=
  ∀ (M : Word → Option Word) (m : Nat) (X : Meta) (p : Nat) (ls : List Nat) (key : Word) (s : CSt) (l b j c u : Nat) (rest : List Pos),
    Walk s m X p ls → geo s l = some (c, u) → b < c → j < assocNum → RInv E M s →
    Tops E key X (2 ^ (p + ls.length - 1)) (⟨l, b, j⟩ :: rest) → Tops E key X (2 ^ (p + ls.length - 1)) rest →
    Ahead M m key (⟨l, b, j⟩ :: rest) s →
    swpC B E M (sl l b j (getPartial (E.hash key)) key)
      (fun r t => RInv E M t ∧ Rely s t ∧ (r = true → (M key).isSome = true) ∧ (r = false → Ahead M m key rest t)) s

/-- The key is not in a slot whose tag is another.  Helper. -/
theorem RInv.not_view (hI : RInv E M s) {l b j c u : Nat} (hg : geo s l = some (c, u)) (hb : b < c) (hj : j < assocNum)
    (h : tagOf (word s l b j) ≠ getPartial (E.hash key)) (v : Word) : view s l b j ≠ some (key, v) := by
  intro hv
  obtain ⟨h0, hh⟩ := view_some hv
  rcases hI.slots l c u b j hg hb hj with hz | ⟨k, v', -, h2, h3, -, -⟩
  · rw [hz] at h0
    exact h0 (by decide)
  · rw [hh] at h2
    cases h2
    exact h h3

theorem geo_rely {l c u : Nat} (hr : Rely s t) (hg : geo s l = some (c, u)) : ∃ u', geo t l = some (c, u') := by
  obtain ⟨u', h, -⟩ := hr.geo _ _ _ hg
  exact ⟨u', h⟩

/-- The search of a slot as the code has it: with its three loads its behaviour may be undefined. -/
theorem slotSpec_search : SlotSpec True E searchSlot := by
  intro M m X p ls key s l b j c u rest hw hg hb hj _ hT hT' hA
  unfold searchSlot
  refine rwp_bind (swpC_rdSlot hg hb hj fun t1 hI1 hr1 => ?_)
  have hA1 := hA.stable hw hT hr1 hI1
  obtain ⟨u1, hg1⟩ := geo_rely hr1 hg
  split
  · refine rwp_bind (swpC_rdSlot hg1 hb hj fun t2 hI2 hr2 => ?_)
    have hw1 := hw.stable hr1
    have hA2 := hA1.stable hw1 hT hr2 hI2
    obtain ⟨u2, hg2⟩ := geo_rely hr2 hg1
    have hr02 := hr1.trans _ _ _ hr2
    split
    · refine rwp_bind (swpC_rdSlot hg2 hb hj fun t3 hI3 hr3 => ?_)
      have hw2 := hw1.stable hr2
      have hA3 := hA2.stable hw2 hT hr3 hI3
      obtain ⟨u3, hg3⟩ := geo_rely hr3 hg2
      have hr03 := hr02.trans _ _ _ hr3
      refine rwp_bind (swpC_rdKey (fun _ => trivial) fun t4 e hI4 hr4 he => ?_)
      refine ⟨hI4, hr03.trans _ _ _ hr4, fun h => ?_, fun h => ?_⟩
      · rcases hI3.slots l c u3 b j hg3 hb hj with hz | ⟨k, v, -, h2, -, -, h5⟩
        · rw [hz, show getOffset 0#64 = 0#64 by decide, hI3.heap0] at he
          cases he
        · rw [he] at h2
          rw [Option.some.inj h2] at h
          rw [← of_decide_eq_true h]
          exact h5
      · refine (hA3.tail fun v hv => ?_).stable (hw2.stable hr3) hT' hr4 hI4
        rw [(view_some hv).2] at he
        rw [← Option.some.inj he] at h
        exact of_decide_eq_false h rfl
    · rename_i h0
      refine ⟨hI2, hr02, fun h => (by cases h), fun _ => hA2.tail fun v hv => ?_⟩
      exact h0 (view_some hv).1
  · rename_i ht
    exact ⟨hI1, hr1, fun h => (by cases h), fun _ => hA1.tail fun v => hI1.not_view hg1 hb hj ht v⟩

/-! ### The loops of a search -/

/-- `searchBucket` for any search of a slot.  No code of its own. -/
def searchBucketBy (sl : Nat → Nat → Nat → BitVec 16 → Word → CP Bool) (l b : Nat) (p : BitVec 16) (key : Word) :
    List Nat → CP (Option Nat)
  | [] => pure none
  | j :: js => do
    if ← sl l b j p key then pure (some j) else searchBucketBy sl l b p key js

/-- `searchLevels` for any search of a slot.  No code of its own. -/
def searchLevelsBy (sl : Nat → Nat → Nat → BitVec 16 → Word → CP Bool) (E : CEnv) (m : Nat) (key : Word) : Nat → Nat → CP Bool
  | 0, _ => .spin
  | f + 1, li => do
    let cap ← rdCap li
    let fi := firstIndex (E.hash key) cap
    let p := getPartial (E.hash key)
    match ← searchBucketBy sl li fi p key (List.range assocNum) with
    | some _ => pure true
    | none =>
      match ← searchBucketBy sl li (secondIndex p fi cap) p key (List.range assocNum) with
      | some _ => pure true
      | none =>
        let next ← rdUp li
        let M ← deMeta m
        if li ≠ M.first then searchLevelsBy sl E m key f next else pure false

/-- `search` for any search of a slot.  No code of its own. -/
def searchBy (sl : Nat → Nat → Nat → BitVec 16 → Word → CP Bool) (E : CEnv) (key : Word) (lf : Nat) : Nat → CP Bool
  | 0 => .spin
  | f + 1 => do
    let m ← rdMeta
    let M ← deMeta m
    if ← searchLevelsBy sl E m key lf M.last then pure true
    else
      let m' ← rdMeta
      if m = m' then pure false else searchBy sl E key lf f

theorem searchBucketBy_eq (l b : Nat) (q : BitVec 16) (key : Word) : ∀ js, searchBucketBy searchSlot l b q key js = searchBucket l b q key js
  | [] => rfl
  | j :: js => by
    unfold searchBucketBy searchBucket
    simp only [searchBucketBy_eq l b q key js]

theorem searchLevelsBy_eq (E : CEnv) (m : Nat) (key : Word) : ∀ f l, searchLevelsBy searchSlot E m key f l = searchLevels E m key f l
  | 0, _ => rfl
  | f + 1, l => by
    unfold searchLevelsBy searchLevels
    simp only [searchBucketBy_eq, searchLevelsBy_eq E m key f]
    rfl

theorem searchBy_eq (E : CEnv) (key : Word) (lf : Nat) : ∀ f, searchBy searchSlot E key lf f = search E key lf f
  | 0 => rfl
  | f + 1 => by
    unfold searchBy search
    simp only [searchLevelsBy_eq, searchBy_eq E key lf f]

variable {sl : Nat → Nat → Nat → BitVec 16 → Word → CP Bool}

theorem Tops.more {n l b : Nat} {rest : List Pos}
    (h : (∀ b j, Home E key n b → j < assocNum → Pos.mk X.first b j ∈ rest) ∨ (l ≠ X.last ∧ ∀ x ∈ rest, x.l ≠ X.last)) (js : List Nat) :
    Tops E key X n (js.map (fun j => Pos.mk l b j) ++ rest) := by
  rcases h with h | ⟨h1, h2⟩
  · exact .inl fun b j hb hj => List.mem_append.2 (.inr (h b j hb hj))
  · refine .inr fun x hx => ?_
    rcases List.mem_append.1 hx with hx | hx
    · obtain ⟨j, -, rfl⟩ := List.mem_map.1 hx
      exact h1
    · exact h2 x hx

theorem swpC_searchBucket (hsl : SlotSpec B E sl) {l b c : Nat} {rest : List Pos}
    (hT : (∀ b j, Home E key (2 ^ (p + ls.length - 1)) b → j < assocNum → Pos.mk X.first b j ∈ rest) ∨
      (l ≠ X.last ∧ ∀ x ∈ rest, x.l ≠ X.last)) (hb : b < c) :
    ∀ {js : List Nat} {s : CSt} {u : Nat}, (∀ j ∈ js, j < assocNum) → Walk s m X p ls → geo s l = some (c, u) → RInv E M s →
      Ahead M m key (js.map (fun j => Pos.mk l b j) ++ rest) s →
      ∀ {Q : Option Nat → CSt → Prop}, (∀ j t, (M key).isSome = true → RInv E M t → Rely s t → Q (some j) t) →
        (∀ t, RInv E M t → Rely s t → Ahead M m key rest t → Q none t) →
        swpC B E M (searchBucketBy sl l b (getPartial (E.hash key)) key js) Q s
  | [], s, _, _, _, _, hI, hA, _, _, h2 => h2 s hI (Rely.refl s) (by simpa using hA)
  | j :: js, s, u, hj, hw, hg, hI, hA, Q, h1, h2 => by
    unfold searchBucketBy
    refine rwp_bind (rwp_mono ?_ (hsl M m X p ls key s l b j c u _ hw hg hb (hj j (by simp)) hI (Tops.more hT (j :: js)) (Tops.more hT js) hA))
    rintro r t ⟨hI', hr, ht, hf⟩
    cases r with
    | true => exact h1 j t (ht rfl) hI' hr
    | false =>
      obtain ⟨u', hg'⟩ := geo_rely hr hg
      exact swpC_searchBucket hsl hT hb (fun x hx => hj x (by simp [hx])) (hw.stable hr) hg' hI' (hf rfl)
        (fun j' t' hm hI2 hr2 => h1 j' t' hm hI2 (hr.trans _ _ _ hr2)) (fun t' hI2 hr2 => h2 t' hI2 (hr.trans _ _ _ hr2))

theorem swpC_searchLevels (hsl : SlotSpec B E sl) {Q : Bool → CSt → Prop}
    (hQ : ∀ r t, RInv E M t → Walk t m X p ls → (r = true → (M key).isSome = true) → (r = false → Ahead M m key [] t) → Q r t) :
    ∀ {suf pre : List Nat} {f : Nat} {s : CSt}, ls = pre ++ suf → suf ≠ [] → Walk s m X p ls → RInv E M s →
      Ahead M m key (cands E key (p + pre.length) suf) s → swpC B E M (searchLevelsBy sl E m key f (suf.headD 0)) Q s
  | [], _, _, _, _, hs, _, _, _ => absurd rfl hs
  | l :: r, pre, 0, _, _, _, _, _, _ => trivial
  | l :: r, pre, f + 1, s, he, _, hw, hI, hA => by
    have hi : ls[pre.length]? = some l := by rw [he]; simp
    have hs : Seg (geo s) (p + pre.length) (l :: r) := seg_suffix (he ▸ hw.seg) (by simp)
    obtain ⟨u, hg, hu⟩ := seg_head hs
    have hbase := hw.base
    have hlen : ls.length = pre.length + (r.length + 1) := by rw [he]; simp
    have htop : X.first = (l :: r).getLastD 0 := by
      rw [hw.top, he]
      simp only [List.getLastD_eq_getLast?, List.getLast?_append]
      rw [List.getLast?_eq_getLast_of_ne_nil (by simp)]
      rfl
    -- the slots of the key in the top level are still ahead, unless this is the top level
    have hrest : (∀ b j, Home E key (2 ^ (p + ls.length - 1)) b → j < assocNum → Pos.mk X.first b j ∈ cands E key (p + pre.length + 1) r) ∨
        (l ≠ X.last ∧ r = []) := by
      by_cases hr : r = []
      · right
        refine ⟨?_, hr⟩
        have : X.first = l := by rw [htop, hr]; rfl
        rw [← this]
        exact hw.ne.symm
      · left
        intro b j hb hj
        have hlast : r[r.length - 1]? = some X.first := by
          rw [htop]
          obtain ⟨x, y, rfl⟩ := List.exists_cons_of_ne_nil hr
          rw [show (l :: x :: y).getLastD 0 = (x :: y).getLastD 0 from rfl, List.getLastD_eq_getLast?, List.getLast?_eq_getElem?,
            List.getElem?_eq_getElem (by simp)]
          rfl
        refine cands_mem hj hlast ?_
        have : 0 < r.length := List.length_pos_of_ne_nil hr
        rw [show p + pre.length + 1 + (r.length - 1) = p + ls.length - 1 by omega]
        exact hb
    have hT1 : (∀ b j, Home E key (2 ^ (p + ls.length - 1)) b → j < assocNum → Pos.mk X.first b j ∈
        (List.range assocNum).map (fun j => Pos.mk l (secondIndex (getPartial (E.hash key)) (firstIndex (E.hash key) (2 ^ (p + pre.length))) (2 ^ (p + pre.length))) j) ++
          cands E key (p + pre.length + 1) r) ∨ (l ≠ X.last ∧ ∀ x ∈
        (List.range assocNum).map (fun j => Pos.mk l (secondIndex (getPartial (E.hash key)) (firstIndex (E.hash key) (2 ^ (p + pre.length))) (2 ^ (p + pre.length))) j) ++
          cands E key (p + pre.length + 1) r, x.l ≠ X.last) := by
      rcases hrest with h | ⟨h1, h2⟩
      · exact .inl fun b j hb hj => List.mem_append.2 (.inr (h b j hb hj))
      · refine .inr ⟨h1, fun x hx => ?_⟩
        rw [h2] at hx
        simp only [cands, List.append_nil] at hx
        obtain ⟨j, -, rfl⟩ := List.mem_map.1 hx
        exact h1
    have hT2 : (∀ b j, Home E key (2 ^ (p + ls.length - 1)) b → j < assocNum → Pos.mk X.first b j ∈ cands E key (p + pre.length + 1) r) ∨
        (l ≠ X.last ∧ ∀ x ∈ cands E key (p + pre.length + 1) r, x.l ≠ X.last) := by
      rcases hrest with h | ⟨h1, h2⟩
      · exact .inl h
      · refine .inr ⟨h1, fun x hx => ?_⟩
        rw [h2] at hx
        cases hx
    have hT0 := Tops.more (b := firstIndex (E.hash key) (2 ^ (p + pre.length))) hT1 (List.range assocNum)
    have hT3 := Tops.more (l := l) (b := 0) hT2 []
    have hb1 : firstIndex (E.hash key) (2 ^ (p + pre.length)) < 2 ^ (p + pre.length) := Home.lt (by omega) (.inl rfl)
    have hb2 : secondIndex (getPartial (E.hash key)) (firstIndex (E.hash key) (2 ^ (p + pre.length))) (2 ^ (p + pre.length)) <
        2 ^ (p + pre.length) := Home.lt (by omega) (.inr rfl)
    simp only [cands, slotsOf] at hA
    unfold searchLevelsBy
    simp only [List.headD_cons]
    refine rwp_bind (swpC_rdCap hg fun t1 hI1 hr1 => rwp_bind ?_)
    obtain ⟨u1, hg1⟩ := geo_rely hr1 hg
    refine swpC_searchBucket hsl hT1 hb1 (fun j hj => List.mem_range.1 hj) (hw.stable hr1) hg1 hI1 (hA.stable hw hT0 hr1 hI1)
      (fun j t2 hm hI2 hr2 => hQ true t2 hI2 ((hw.stable hr1).stable hr2) (fun _ => hm) (fun h => by cases h)) (fun t2 hI2 hr2 hA2 => rwp_bind ?_)
    obtain ⟨u2, hg2⟩ := geo_rely hr2 hg1
    have hw2 := (hw.stable hr1).stable hr2
    refine swpC_searchBucket hsl hT2 hb2 (fun j hj => List.mem_range.1 hj) hw2 hg2 hI2 hA2
      (fun j t3 hm hI3 hr3 => hQ true t3 hI3 (hw2.stable hr3) (fun _ => hm) (fun h => by cases h)) (fun t3 hI3 hr3 hA3 => rwp_bind ?_)
    have hw3 := hw2.stable hr3
    have hs3 : Seg (geo t3) (p + pre.length) (l :: r) := seg_suffix (he ▸ hw3.seg) (by simp)
    obtain ⟨u3, hg3, hu3⟩ := seg_head hs3
    refine swpC_rdUp hg3 fun t4 u4 hI4 hr4 hu4 => rwp_bind (swpC_deMeta (hw3.stable hr4).mt fun t5 hI5 hr5 => ?_)
    have hw5 := (hw3.stable hr4).stable hr5
    have hA4 := hA3.stable hw3 (by simpa using hT3) hr4 hI4
    have hA5 := hA4.stable (hw3.stable hr4) (by simpa using hT3) hr5 hI5
    have hne : l ≠ X.first ↔ r ≠ [] := by
      rw [hw.top, he]
      exact last_ne (he ▸ hw.nodup)
    refine rwp_if (fun hl => ?_) (fun hl => ?_)
    · have hr := hne.1 hl
      have hu' : u4 = r.headD 0 := by
        rw [hu4, hu3 hr]
        rw [hu3 hr]
        obtain ⟨x, y, rfl⟩ := List.exists_cons_of_ne_nil hr
        exact hs3.2.1
      rw [hu']
      refine swpC_searchLevels hsl hQ (pre := pre ++ [l]) (by simp [he]) hr hw5 hI5 ?_
      rw [List.length_append, List.length_singleton, ← Nat.add_assoc]
      exact hA5
    · have hr : r = [] := by
        by_contra hc
        exact hl (hne.2 hc)
      rw [hr] at hA5
      exact hQ false t5 hI5 hw5 (fun h => by cases h) (fun _ => hA5)

/-- A search beside the background thread, when it returns, tells whether the key is in the map. -/
theorem swpC_search (hsl : SlotSpec B E sl) {lf : Nat} : ∀ {f : Nat} {s : CSt},
    swpC B E M (searchBy sl E key lf f) (fun b _ => b = (M key).isSome) s
  | 0, _ => trivial
  | f + 1, s => by
    unfold searchBy
    refine rwp_bind (swpC_rdMeta fun t1 hI1 hr1 => ?_)
    obtain ⟨p, ls, X, hp, hnd, ⟨hlen, -⟩, hmt, hbot, htop, hseg, hpres⟩ := hI1.root
    have hw : Walk t1 t1.root X p ls := ⟨hp, hnd, hlen, hmt, le_refl _, hbot, htop, hseg⟩
    have hne : ls ≠ [] := by rintro rfl; simp at hlen
    have hA : Ahead M t1.root key (cands E key p ls) t1 := by
      intro _ hM
      obtain ⟨l, b, j, v, hu, hv⟩ := hpres key hM
      obtain ⟨hl, ⟨c, u, hg, hb⟩, hj⟩ := hu
      obtain ⟨i, u', hi, hg'⟩ := seg_mem hseg hl
      refine ⟨⟨l, b, j⟩, cands_mem hj hi ?_, v, hv⟩
      obtain ⟨h0, hh⟩ := view_some hv
      rcases hI1.slots l c u b j hg hb hj with hz | ⟨k, v', -, h2, -, h4, -⟩
      · rw [hz] at h0
        exact absurd (by decide) h0
      · rw [hh] at h2
        cases h2
        rw [hg] at hg'
        cases hg'
        exact h4
    have hT : Tops E key X (2 ^ (p + ls.length - 1)) (cands E key p ls) := by
      refine .inl fun b j hb hj => cands_mem hj hw.last_get ?_
      rw [show p + (ls.length - 1) = p + ls.length - 1 by omega]
      exact hb
    refine rwp_bind (swpC_deMeta hmt fun t2 hI2 hr2 => rwp_bind ?_)
    have hA2 := hA.stable hw hT hr2 hI2
    have hb : X.last = ls.headD 0 := hbot
    rw [hb]
    refine swpC_searchLevels hsl (fun r t hI hw' h1 h2 => ?_) (pre := []) rfl hne (hw.stable hr2) hI2 (by simpa using hA2)
    cases r with
    | true => exact (h1 rfl).symm
    | false =>
      refine rwp_bind (swpC_rdMeta fun t3 hI3 hr3 => ?_)
      split
      · rename_i hm
        have hA3 := (h2 rfl).stable hw' (E := E) (.inr (by simp)) hr3 hI3
        show false = (M key).isSome
        cases hk : (M key).isSome with
        | false => rfl
        | true =>
          obtain ⟨x, hx, -⟩ := hA3 hm.symm hk
          cases hx
      · exact swpC_search hsl

end PMap.Clevel
