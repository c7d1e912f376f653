import Verif.Clevel.Cut

/-!
# Calls on a table that was cut short
-/

namespace PMap.Clevel

open CP

variable {E : CEnv} {B : Prop} {p0 : Nat} {s : CSt} {p : Nat} {ls : List Nat} {M : Word → Option Word} {J : Word → Prop} {key val : Word} {X : Meta}

/-- The levels `ls` of a table that may have been cut short, and its metadata `X`; `M` says which keys it has.  No code of its own. -/
structure Tbl (E : CEnv) (M : Word → Option Word) (s : CSt) (X : Meta) (p : Nat) (ls : List Nat) : Prop where
  base : 1 ≤ p
  nodup : ls.Nodup
  len : 2 ≤ ls.length
  levels : ls.length < maxLevel
  mt : s.mt s.root = some X
  bot : X.last = ls.headD 0
  top : X.first = ls.getLastD 0
  seg : Seg (geo s) p ls
  slots : ∀ l b j, InUse s ls l b j → SlotOK E s l b j
  sound : ∀ l b j k v, InUse s ls l b j → view s l b j = some (k, v) → (M k).isSome = true
  pres : ∀ k, (M k).isSome = true → ∃ l b j v, InUse s ls l b j ∧ view s l b j = some (k, v)

theorem RInv.tbl (h : RInv E M s) : ∃ X p ls, Tbl E M s X p ls := by
  obtain ⟨p, ls, X, h1, h2, ⟨h3, h4⟩, h5, h6, h7, h8, h9⟩ := h.root
  refine ⟨X, p, ls, h1, h2, h3, h4, h5, h6, h7, h8, ?_, ?_, h9⟩
  · rintro l b j ⟨-, ⟨c, u, hg, hb⟩, hj⟩
    rcases h.slots l c u b j hg hb hj with hz | ⟨k, v, ha, hb', hc, hd, -⟩
    · exact .inl hz
    · exact .inr ⟨k, v, c, u, ha, hb', hc, hg, hd⟩
  · rintro l b j k v ⟨-, ⟨c, u, hg, hb⟩, hj⟩ hv
    obtain ⟨h0, hh⟩ := view_some hv
    rcases h.slots l c u b j hg hb hj with hz | ⟨k', v', ha, hb', hc, hd, he⟩
    · rw [hz] at h0
      exact absurd (by decide) h0
    · rw [hh] at hb'
      cases hb'
      exact he

theorem Tbl.inUse (h : Tbl E M s X p ls) {i l b j : Nat} (hi : ls[i]? = some l) (hb : Home E key (2 ^ (p + i)) b) (hj : j < assocNum) :
    InUse s ls l b j := by
  obtain ⟨u, hg⟩ := seg_get h.seg hi
  exact ⟨List.mem_of_getElem? hi, ⟨_, _, hg, hb.lt (by have := h.base; omega)⟩, hj⟩

theorem Tbl.rem (h : Tbl E M s X p ls) (key : Word) : Rem s ls key (cands E key p ls) := by
  intro l b j hu v hv
  obtain ⟨h0, hh⟩ := view_some hv
  obtain ⟨k, v', c, u, hv', -, -, hg, hb⟩ := (h.slots l b j hu).of_ne h0
  rw [hv] at hv'
  cases hv'
  obtain ⟨i, u', hi, hg'⟩ := seg_mem h.seg hu.1
  rw [hg] at hg'
  cases hg'
  exact cands_mem hu.2.2 hi hb

theorem Tbl.none_of_rem (h : Tbl E M s X p ls) (hr : Rem s ls key []) : (M key).isSome = false := by
  cases hM : (M key).isSome with
  | false => rfl
  | true =>
    obtain ⟨l, b, j, v, hu, hv⟩ := h.pres key hM
    exact absurd (hr l b j hu v hv) List.not_mem_nil

/-- The successor of a level that is not the top one.  Helper. -/
theorem Tbl.next (h : Tbl E M s X p ls) {pre : List Nat} {l : Nat} {r : List Nat} (he : ls = pre ++ l :: r) :
    ∃ u, geo s l = some (2 ^ (p + pre.length), u) ∧ (r ≠ [] → u = r.headD 0) :=
  seg_head (seg_suffix (he ▸ h.seg) (by simp))

/-! ### A search -/

theorem cwp_searchBucket' (h : Tbl E M s X p ls) {Q : Option Nat → CSt → Prop} {l b : Nat} {rest : List Pos} :
    ∀ {js : List Nat}, (∀ j ∈ js, InUse s ls l b j) → Rem s ls key (js.map (fun j => Pos.mk l b j) ++ rest) →
      (∀ j, (M key).isSome → Q (some j) s) → (Rem s ls key rest → Q none s) →
      cwp (searchBucket l b (getPartial (E.hash key)) key js) Q s
  | [], _, hr, _, h2 => h2 (by simpa using hr)
  | j :: js, hj, hr, h1, h2 => by
    unfold searchBucket
    rw [cwp_bind]
    have hu := hj j (by simp)
    refine cwp_searchSlot hu (h.slots _ _ _ hu) (fun v hv => ?_) (fun hv => ?_)
    · rw [if_pos rfl]
      exact h1 j (h.sound l b j key v hu hv)
    · rw [if_neg (by decide)]
      exact cwp_searchBucket' h (fun j' h' => hj j' (by simp [h'])) (Rem.tail hr hv) h1 h2

theorem cwp_searchLevels' (h : Tbl E M s X p ls) {Q : Bool → CSt → Prop} (hQ : ∀ b, (b = (M key).isSome) → Q b s) :
    ∀ {suf pre : List Nat} {f : Nat}, ls = pre ++ suf → suf ≠ [] → suf.length ≤ f →
      Rem s ls key (cands E key (p + pre.length) suf) → cwp (searchLevels E s.root key f (suf.headD 0)) Q s
  | [], _, _, _, hs, _, _ => absurd rfl hs
  | l :: r, pre, 0, _, _, hf, _ => by simp at hf
  | l :: r, pre, f + 1, he, _, hf, hr => by
    have hi : ls[pre.length]? = some l := by rw [he]; simp
    obtain ⟨u, hg, hnx⟩ := h.next he
    unfold searchLevels
    simp only [List.headD_cons]
    rw [cwp_bind, cwp_rdCap hg, cwp_bind]
    simp only [cands, slotsOf] at hr
    have hsome : ∀ {v}, (M key).isSome = true → (v = true → v = (M key).isSome) := fun h1 h2 => by rw [h1, h2]
    refine cwp_searchBucket' h (fun j hj => h.inUse (key := key) hi (.inl rfl) (List.mem_range.1 hj)) hr
      (fun j hm => hQ true (hsome hm rfl)) (fun hr => ?_)
    rw [cwp_bind]
    refine cwp_searchBucket' h (fun j hj => h.inUse (key := key) hi (.inr rfl) (List.mem_range.1 hj)) hr
      (fun j hm => hQ true (hsome hm rfl)) (fun hr => ?_)
    rw [cwp_bind, cwp_rdUp hg, cwp_bind, cwp_deMeta h.mt]
    refine cwp_if (fun hl => ?_) (fun hl => ?_)
    all_goals
      rw [h.top, he, last_ne (he ▸ h.nodup)] at hl
    swap
    · have hlast := not_not.1 hl
      subst hlast
      exact hQ false (by rw [h.none_of_rem hr])
    · rw [hnx hl]
      refine cwp_searchLevels' h hQ (pre := pre ++ [l]) (by simp [he]) hl (by simpa using hf) ?_
      rw [List.length_append, List.length_singleton, ← Nat.add_assoc]
      exact hr

/-- A search on a table that was cut short ends, changes nothing and finds the keys of the map. -/
theorem cwp_search_cut (hI : RInv E M s) {Q : Bool → CSt → Prop} {lf f : Nat} (hf : maxLevel ≤ lf)
    (hQ : Q (M key).isSome s) : cwp (search E key lf (f + 1)) Q s := by
  obtain ⟨X, p, ls, h⟩ := hI.tbl
  have hne : ls ≠ [] := by rintro rfl; have := h.len; simp at this
  unfold search
  rw [cwp_bind, cwp_rdMeta, cwp_bind, cwp_deMeta h.mt, cwp_bind, h.bot]
  refine cwp_searchLevels' h (fun b hb => ?_) (pre := []) rfl hne (h.levels.le.trans hf) (by simpa using h.rem key)
  cases b with
  | true => rw [if_pos rfl, cwp_pure, hb]; exact hQ
  | false => rw [if_neg (by decide), cwp_bind, cwp_rdMeta, if_pos rfl, cwp_pure, hb]; exact hQ

/-! ### An insert that never ends -/

/-- The levels from `l` upwards, to `top`.  No code of its own. -/
def levelsFrom (s : CSt) (top : Nat) : Nat → Nat → List Nat
  | 0, _ => []
  | f + 1, l => l :: if l = top then [] else match s.lv l with
    | none => []
    | some L => levelsFrom s top f L.up

/-- The levels the metadata mentions, bottom first.  No code of its own. -/
def levelsOf (s : CSt) : List Nat := match s.mt s.root with
  | none => []
  | some X => levelsFrom s X.first maxLevel X.last

/-- No slot of the buckets of a key is empty.  No code of its own: this is the specification. -/
def Full (E : CEnv) (key : Word) (s : CSt) : Prop :=
  ∀ l ∈ levelsOf s, ∀ L, s.lv l = some L → ∀ j < assocNum,
    getOffset (L.slot (firstIndex (E.hash key) L.cap) j) ≠ 0#64 ∧
    getOffset (L.slot (secondIndex (getPartial (E.hash key)) (firstIndex (E.hash key) L.cap) L.cap) j) ≠ 0#64

theorem Tbl.levelsFrom_eq (h : Tbl E M s X p ls) : ∀ {suf pre : List Nat} {f : Nat}, ls = pre ++ suf → suf ≠ [] → suf.length ≤ f →
    levelsFrom s X.first f (suf.headD 0) = suf
  | [], _, _, _, hs, _ => absurd rfl hs
  | l :: r, pre, 0, _, _, hf => by simp at hf
  | l :: r, pre, f + 1, he, _, hf => by
    obtain ⟨u, hg, hnx⟩ := h.next he
    obtain ⟨L, hL, -, hup, -⟩ := geo_some hg
    unfold levelsFrom
    rw [List.headD_cons, hL]
    by_cases hl : l = X.first
    · have : ¬ (r ≠ []) := by
        rw [← last_ne (he ▸ h.nodup), ← he, ← h.top]
        exact fun hx => hx hl
      rw [if_pos hl, not_not.1 this]
    · have hr : r ≠ [] := by
        rw [← last_ne (he ▸ h.nodup), ← he, ← h.top]
        exact hl
      rw [if_neg hl]
      dsimp only
      rw [hup, hnx hr, h.levelsFrom_eq (pre := pre ++ [l]) (by simp [he]) hr (by simpa using hf)]

theorem Tbl.levelsOf_eq (h : Tbl E M s X p ls) : levelsOf s = ls := by
  have hne : ls ≠ [] := by rintro rfl; have := h.len; simp at this
  unfold levelsOf
  rw [h.mt]
  dsimp only
  rw [h.bot]
  exact h.levelsFrom_eq (pre := []) rfl hne h.levels.le

theorem Tbl.full (h : Tbl E M s X p ls) (hF : Full E key s) {i l b j : Nat} (hi : ls[i]? = some l) (hb : Home E key (2 ^ (p + i)) b)
    (hj : j < assocNum) : getOffset (word s l b j) ≠ 0#64 := by
  obtain ⟨u, hg⟩ := seg_get h.seg hi
  obtain ⟨L, hL, hcap, -, hw⟩ := geo_some hg
  have := hF l (by rw [h.levelsOf_eq]; exact List.mem_of_getElem? hi) L hL j hj
  rw [hcap] at this
  rw [hw]
  rcases hb with rfl | rfl
  · exact this.1
  · exact this.2

theorem cwp_collect' (h : Tbl E M s X p ls) {Q : List Nat → CSt → Prop} (hQ : Q ls s) :
    ∀ {suf pre : List Nat} {f : Nat}, ls = pre ++ suf → suf ≠ [] → suf.length ≤ f →
      cwp (collect s.root f (suf.headD 0) pre) Q s
  | [], _, _, _, hs, _ => absurd rfl hs
  | l :: r, pre, 0, _, _, hf => by simp at hf
  | l :: r, pre, f + 1, he, _, hf => by
    obtain ⟨u, hg, hnx⟩ := h.next he
    have hlen := h.levels
    unfold collect
    rw [if_pos (by rw [he] at hlen; simp at hlen; omega)]
    simp only [List.headD_cons]
    rw [cwp_bind, cwp_rdUp hg, cwp_bind, cwp_deMeta h.mt]
    refine cwp_if (fun hl => ?_) (fun hl => ?_)
    all_goals
      rw [h.top, he, last_ne (he ▸ h.nodup)] at hl
    swap
    · have hlast := not_not.1 hl
      subst hlast
      rw [cwp_pure, ← he]
      exact hQ
    · rw [hnx hl]
      exact cwp_collect' h hQ (pre := pre ++ [l]) (by simp [he]) hl (by simpa using hf)

theorem cwp_findSlot' (h : Tbl E M s X p ls) (hM : (M key).isSome = false) {Q : FStep → CSt → Prop} {right fixDup emp : Bool}
    {i l b j : Nat} {f : Fd} (hu : InUse s ls l b j) (h0 : getOffset (word s l b j) ≠ 0#64) (hQ : Q (.next f emp) s) :
    cwp (findSlot ls right i l b j (getPartial (E.hash key)) key fixDup f emp) Q s := by
  obtain ⟨hl, ⟨c, u, hg, hbc⟩, hj⟩ := id hu
  obtain ⟨k, v, c', u', hv, hh, ht, -, -⟩ := (h.slots l b j hu).of_ne h0
  unfold findSlot
  rw [cwp_bind, cwp_rdSlot hg hbc hj, if_neg h0, cwp_bind, cwp_rdSlot hg hbc hj]
  refine cwp_if (fun _ => hQ) (fun _ => ?_)
  rw [cwp_bind, cwp_rdKey hh]
  refine cwp_if (fun _ => hQ) (fun hk => ?_)
  have hk' : k = key := not_not.1 hk
  subst hk'
  rw [h.sound l b j k v hu hv] at hM
  cases hM

theorem cwp_findBucket' (h : Tbl E M s X p ls) (hM : (M key).isSome = false) {Q : FStep → CSt → Prop} {right fixDup emp : Bool}
    {i l b : Nat} {f : Fd} (hQ : Q (.next f emp) s) : ∀ {js : List Nat}, (∀ j ∈ js, InUse s ls l b j ∧ getOffset (word s l b j) ≠ 0#64) →
    cwp (findBucket ls right i l b (getPartial (E.hash key)) key fixDup js f emp) Q s
  | [], _ => hQ
  | j :: js, hj => by
    unfold findBucket
    rw [cwp_bind]
    have := hj j (by simp)
    exact cwp_findSlot' h hM this.1 this.2 (cwp_findBucket' h hM hQ fun j' h' => hj j' (by simp [h']))

theorem cwp_findLevels' (h : Tbl E M s X p ls) (hM : (M key).isSome = false) (hF : Full E key s) {Q : FStep → CSt → Prop} {fixDup : Bool}
    {f : Fd} (hQ : ∀ e, Q (.next f e) s) : ∀ {suf pre : List Nat}, ls = pre ++ suf → cwp (findLevels E ls key fixDup suf pre.length f) Q s
  | [], _, _ => hQ false
  | l :: r, pre, he => by
    have hi : ls[pre.length]? = some l := by rw [he]; simp
    obtain ⟨u, hg, -⟩ := h.next he
    unfold findLevels
    rw [cwp_bind, cwp_rdCap hg, cwp_bind]
    refine cwp_findBucket' h hM ?_ fun j hj => ⟨h.inUse hi (.inl rfl) (List.mem_range.1 hj), h.full hF hi (.inl rfl) (List.mem_range.1 hj)⟩
    dsimp only
    rw [cwp_bind]
    refine cwp_findBucket' h hM ?_ fun j hj => ⟨h.inUse hi (.inr rfl) (List.mem_range.1 hj), h.full hF hi (.inr rfl) (List.mem_range.1 hj)⟩
    dsimp only
    have := cwp_findLevels' h hM hF (fixDup := fixDup) hQ (suf := r) (pre := pre ++ [l]) (by simp [he])
    rw [List.length_append, List.length_singleton] at this
    exact this

/-- A `find` of a key that is not there, with no room for it. -/
theorem cwp_find_full (h : Tbl E M s X p ls) (hM : (M key).isSome = false) (hF : Full E key s) {Q : Fd × Nat → CSt → Prop} {fixDup : Bool}
    {lf f ln : Nat} {old : Word} (hf : maxLevel ≤ lf) (hQ : Q (Fd.init ln old, s.root) s) :
    cwp (find E key fixDup lf (f + 1) ln old s.root) Q s := by
  have hne : ls ≠ [] := by rintro rfl; have := h.len; simp at this
  unfold find
  rw [cwp_bind, cwp_deMeta h.mt, cwp_bind, h.bot]
  refine cwp_collect' h ?_ (pre := []) rfl hne (h.levels.le.trans hf)
  rw [cwp_bind]
  refine cwp_findLevels' h hM hF (pre := []) (fun e => ?_) rfl
  dsimp only
  rw [cwp_bind, cwp_rdMeta, if_pos rfl]
  exact hQ

/-- New metadata that says the same, except that the table is being resized. -/
theorem Tbl.again (h : Tbl E M s X p ls) {s' : CSt} (h1 : s'.heap = s.heap) (h2 : s'.lv = s.lv)
    (h3 : s'.mt s'.root = some ⟨X.first, X.last, true⟩) : Tbl E M s' ⟨X.first, X.last, true⟩ p ls := by
  have hgeo : geo s' = geo s := by funext l; unfold geo; rw [h2]
  have hw : word s' = word s := by funext l b j; unfold word; rw [h2]
  have hv : view s' = view s := by funext l b j; unfold view; rw [hw, h1]
  have hu : ∀ l b j, InUse s' ls l b j ↔ InUse s ls l b j := fun l b j => by unfold InUse; rw [hgeo]
  refine ⟨h.base, h.nodup, h.len, h.levels, h3, h.bot, h.top, by rw [hgeo]; exact h.seg, fun l b j hx => ?_, fun l b j k v hx hy => ?_, fun k hk => ?_⟩
  · have := h.slots l b j ((hu l b j).1 hx)
    unfold SlotOK at this ⊢
    rw [hw, h1, hgeo]
    exact this
  · rw [hv] at hy
    exact h.sound l b j k v ((hu l b j).1 hx) hy
  · obtain ⟨l, b, j, v, hx, hy⟩ := h.pres k hk
    exact ⟨l, b, j, v, (hu l b j).2 hx, by rw [hv]; exact hy⟩

/-- The program has not ended, or the allocator threw.  No code of its own. -/
def NoEnd {α : Type} (r : Option (R CSt α)) : Prop := r = none ∨ r = some .oom

theorem noEnd_bind' {α β : Type} {g : α → CP β} : ∀ {q : CP α} {s : CSt}, cwp q (fun a t => NoEnd ((g a).run t)) s → NoEnd ((q.bind g).run s)
  | .ret _, _, h => h
  | .spin, _, _ => .inl rfl
  | .act f k, s, h => by
    rw [cwp] at h
    rw [CP.bind, CP.run]
    revert h
    cases f s with
    | ok b t => exact fun h => noEnd_bind' h
    | oom => exact fun _ => .inr rfl
    | ub => exact fun h => h.elim
    | abort => exact fun h => h.elim

theorem noEnd_bind {α β : Type} {g : α → CP β} {q : CP α} (h : cwp q (fun a t => NoEnd ((g a).run t)) s) : NoEnd ((q >>= g).run s) :=
  noEnd_bind' h

theorem insertLoop_stuck {t : Nat} {created : Word} {lf : Nat} (hlf : maxLevel ≤ lf) : ∀ {f : Nat} {s : CSt} {X : Meta}, t < s.tn →
    Tbl E M s X p ls → Linked s → (M key).isSome = false → Full E key s → NoEnd ((insertLoop E t key created lf f true).run s)
  | 0, _, _, _, _, _, _, _ => .inl rfl
  | f + 1, s, X, ht, h, hL, hM, hF => by
    obtain ⟨X', L, hX, hlv, hup⟩ := hL
    rw [h.mt] at hX
    cases hX
    have hg : geo s X.first = some (L.cap, L.up) := by unfold geo; rw [hlv]; rfl
    unfold insertLoop
    refine noEnd_bind (cwp_rdMeta.2 ?_)
    dsimp only
    rw [if_pos rfl]
    refine noEnd_bind (cwp_find_full h hM hF hlf ?_)
    dsimp only
    rw [if_neg (by simp [Fd.init, FCode.isFound])]
    refine noEnd_bind ((cwp_deMeta h.mt).2 ?_)
    rw [if_neg (by simp [Fd.init, FCode.isVac])]
    refine noEnd_bind ?_
    unfold expand
    rw [cwp_bind, cwp_deMeta h.mt, cwp_bind, cwp_rdUp hg, if_neg hup, cwp_bind, cwp_rdMeta, if_pos rfl, cwp_bind, cwp_rdCap hg]
    unfold expandLoop
    rw [cwp_bind, cwp_rdCap hg]
    rw [if_pos (le_refl _), cwp_bind, cwp_newMeta ht, cwp_bind]
    generalize hs2 : ({ s with mt := fun m => if m = s.nm + 1 then some ⟨X.first, X.last, true⟩ else s.mt m, nm := s.nm + 1, tmpM := fun t' => if t' = t then s.nm + 1 else s.tmpM t' } : CSt) = s2
    rw [cwp_rdTmpMeta (by rw [← hs2]; exact ht), cwp_bind, cwp_casMeta, if_pos (by rw [← hs2]), if_pos rfl, cwp_pure]
    have hmt : s2.mt (s2.tmpM t) = some ⟨X.first, X.last, true⟩ := by rw [← hs2]; simp
    have hlv2 : s2.lv = s.lv := by rw [← hs2]
    have h2 : Tbl E M { s2 with root := s2.tmpM t } ⟨X.first, X.last, true⟩ p ls := h.again (by rw [← hs2]) hlv2 hmt
    refine insertLoop_stuck hlf (by rw [← hs2]; exact ht) h2 ⟨_, L, hmt, by rw [hlv2]; exact hlv, hup⟩ hM ?_
    intro l hl L' hL'
    rw [h2.levelsOf_eq, ← h.levelsOf_eq] at hl
    exact hF l hl L' (by rw [← hlv2]; exact hL')

theorem Tbl.alloc (h : Tbl E M s X p ls) {t : Nat} {o : Word} (hg : GoodOffset o) (ho : s.heap o = none) :
    Tbl E M (s.addEntry t o key val) X p ls := by
  have hoff : ∀ {l b j}, InUse s ls l b j → getOffset (word s l b j) ≠ o := by
    intro l b j hu e
    rcases h.slots l b j hu with hz | ⟨k, v, c, u, h1, h2, -⟩
    · rw [hz] at e
      exact hg.1 (by rw [← e]; decide)
    · rw [e, ho] at h2
      cases h2
  generalize hs' : s.addEntry t o key val = s'
  have hgeo : geo s' = geo s := by rw [← hs']; rfl
  have hw : word s' = word s := by rw [← hs']; rfl
  have hu : ∀ l b j, InUse s' ls l b j ↔ InUse s ls l b j := fun l b j => by unfold InUse; rw [hgeo]
  have hheap : ∀ a, a ≠ o → s'.heap a = s.heap a := fun a ha => by rw [← hs']; simp [CSt.addEntry, ha]
  have hv : ∀ l b j, InUse s ls l b j → view s' l b j = view s l b j := fun l b j hx => by
    unfold view
    rw [hw, hheap _ (hoff hx)]
  refine ⟨h.base, h.nodup, h.len, h.levels, by rw [← hs']; exact h.mt, h.bot, h.top, by rw [hgeo]; exact h.seg, fun l b j hx => ?_,
    fun l b j k v hx hy => ?_, fun k hk => ?_⟩
  · have hx' := (hu l b j).1 hx
    have := h.slots l b j hx'
    unfold SlotOK at this ⊢
    rw [hw, hheap _ (hoff hx'), hgeo]
    exact this
  · have hx' := (hu l b j).1 hx
    rw [hv _ _ _ hx'] at hy
    exact h.sound l b j k v hx' hy
  · obtain ⟨l, b, j, v, hx, hy⟩ := h.pres k hk
    exact ⟨l, b, j, v, (hu l b j).2 hx, by rw [hv _ _ _ hx]; exact hy⟩

/-- An insert of a new key for which there is no room never ends, if the top level has a successor that the metadata does not
mention: it installs new metadata that says the same, over and over. -/
theorem insert_stuck {t : Nat} {lf f : Nat} (hlf : maxLevel ≤ lf) (ht : t < s.tn) (hI : RInv E M s) (hL : Linked s)
    (hM : (M key).isSome = false) (hF : Full E key s) : NoEnd ((insert E t key val lf f).run s) := by
  obtain ⟨X, p, ls, h⟩ := hI.tbl
  unfold insert
  refine noEnd_bind (cwp_newEntry ht fun o hg ho => ?_)
  have h2 : Tbl E M (s.addEntry t o key val) X p ls := h.alloc hg ho
  obtain ⟨X', L, hX, hlv, hup⟩ := hL
  refine insertLoop_stuck hlf (by exact ht) h2 ⟨X', L, hX, hlv, hup⟩ hM ?_
  intro l hl L' hL'
  rw [h2.levelsOf_eq, ← h.levelsOf_eq] at hl
  exact hF l hl L' hL'

end PMap.Clevel
