import Verif.Clevel.Search

/-!
# What the writes to a slot do to the table
-/

namespace PMap.Clevel

open CP

variable {E : CEnv} {B : Prop} {p0 : Nat} {s : CSt} {p : Nat} {ls : List Nat} {M : Word → Option Word} {J : Word → Prop} {key val : Word}
  {l b j : Nat}

/-- The map with a key set.  No code of its own. -/
def setKey (M : Word → Option Word) (key val : Word) : Word → Option Word := fun k => if k = key then some val else M k

/-- The map with a key removed.  No code of its own. -/
def delKey (M : Word → Option Word) (key : Word) : Word → Option Word := fun k => if k = key then none else M k

theorem InUse.congr {s' : CSt} (hg : ∀ l, geo s' l = geo s l) : InUse s' ls l b j ↔ InUse s ls l b j := by
  unfold InUse
  rw [hg]

theorem Inv.congr {s' : CSt} {M' : Word → Option Word} {J' : Word → Prop} (h : Inv E B p0 s p ls M J)
    (hg : ∀ l, geo s' l = geo s l) (hmt : s'.mt = s.mt) (hroot : s'.root = s.root) (hnl : s'.nl = s.nl) (hnm : s'.nm = s.nm)
    (htn : s'.tn = s.tn) (hexp : s'.exp = s.exp)
    (slots : ∀ l b j, InUse s ls l b j → SlotOK E s' l b j)
    (uniq : ∀ l b j l' b' j', InUse s ls l b j → InUse s ls l' b' j' → ∀ k v v', view s' l b j = some (k, v) →
      view s' l' b' j' = some (k, v') → l = l' ∧ b = b' ∧ j = j')
    (rep : ∀ k v, M' k = some v ↔ ∃ l b j, InUse s ls l b j ∧ view s' l b j = some (k, v))
    (live : ∀ o e, s'.heap o = some e → GoodOffset o ∧ (J' o ∨ ∃ l b j, InUse s ls l b j ∧ getOffset (word s' l b j) = o))
    (junk : ∀ o, J' o → s'.heap o ≠ none ∧ ∀ l b j, InUse s ls l b j → getOffset (word s' l b j) ≠ o)
    (done : B → ∀ b j, b < s.exp → j < assocNum → word s' (ls.headD 0) b j = 0#64)
    (other : ∀ l b j, l ∉ ls → word s' l b j = word s l b j) : Inv E B p0 s' p ls M' J' where
  base := h.base
  grown := h.grown
  pool := h.pool
  fit := h.fit
  chain := chain_congr (fun l _ => hg l) h.chain
  nodup := h.nodup
  len := h.len
  mt := by rw [hmt, hroot]; exact h.mt
  nl := by rw [hnl]; exact h.nl
  nm := by rw [hroot, hnm]; exact h.nm
  tn := by rw [htn]; exact h.tn
  slots := fun l b j hu => slots l b j ((InUse.congr hg).1 hu)
  uniq := fun l b j l' b' j' hu hu' => uniq l b j l' b' j' ((InUse.congr hg).1 hu) ((InUse.congr hg).1 hu')
  rep := fun k v => by
    rw [rep]
    exact ⟨fun ⟨l, b, j, hu, hv⟩ => ⟨l, b, j, (InUse.congr hg).2 hu, hv⟩, fun ⟨l, b, j, hu, hv⟩ => ⟨l, b, j, (InUse.congr hg).1 hu, hv⟩⟩
  live := fun o e ho => by
    obtain ⟨h1, h2⟩ := live o e ho
    refine ⟨h1, h2.imp_right ?_⟩
    exact fun ⟨l, b, j, hu, hv⟩ => ⟨l, b, j, (InUse.congr hg).2 hu, hv⟩
  junk := fun o ho => ⟨(junk o ho).1, fun l b j hu => (junk o ho).2 l b j ((InUse.congr hg).1 hu)⟩
  exp := by rw [hexp]; exact h.exp
  exp2 := by rw [hexp]; exact h.exp2
  done := fun hB b j hb hj => done hB b j (by rwa [hexp] at hb) hj
  pos := h.pos
  gone := fun l c u hl hg' b j hb hj => by
    rw [other l b j hl]
    exact h.gone l c u hl (by rw [← hg l]; exact hg') b j hb hj
  fresh := fun l hl => by rw [hg]; exact h.fresh l (by rwa [hnl] at hl)
  mfresh := fun m hm => by rw [hmt]; exact h.mfresh m (by rwa [hnm] at hm)

/-- Slots in use with the same entry are the same.  Helper. -/
theorem Inv.same (h : Inv E B p0 s p ls M J) {l' b' j' : Nat} (hu : InUse s ls l b j) (hu' : InUse s ls l' b' j')
    (h0 : getOffset (word s l b j) ≠ 0#64) (he : getOffset (word s l b j) = getOffset (word s l' b' j')) :
    l = l' ∧ b = b' ∧ j = j' := by
  obtain ⟨k, v, -, -, hv, hh, -, -, -⟩ := (h.slots l b j hu).of_ne h0
  obtain ⟨k', v', -, -, hv', hh', -, -, -⟩ := (h.slots l' b' j' hu').of_ne (he ▸ h0)
  rw [he, hh'] at hh
  cases hh
  exact h.uniq l b j l' b' j' hu hu' k v v hv hv'

/-- Putting a new entry into an empty slot. -/
theorem Inv.put (h : Inv E B p0 s p ls M J) {i : Nat} {o : Word} (hi : ls[i]? = some l) (hb : Home E key (2 ^ (p + i)) b)
    (hj : j < assocNum) (h0 : getOffset (word s l b j) = 0#64) (ho : s.heap o = some (key, val)) (hM : M key = none)
    (hbot : i = 0 → ls.length = 2) :
    Inv E B p0 (s.setSlot l b j (setTag o (getPartial (E.hash key)))) p ls (setKey M key val) (fun x => J x ∧ x ≠ o) := by
  have hu := h.inUse hi hb hj
  obtain ⟨-, ⟨c, u, hg, -⟩, -⟩ := id hu
  have hgood := (h.live o _ ho).1
  have hoff : getOffset (setTag o (getPartial (E.hash key))) = o := getOffset_setTag hgood.2 _
  have hw := word_setSlot (b := b) (j := j) hg (setTag o (getPartial (E.hash key)))
  have hcap : c = 2 ^ (p + i) := by
    obtain ⟨u', hg'⟩ := chain_get h.chain hi
    rw [hg] at hg'
    cases hg'
    rfl
  have hview : ∀ l' b' j', view (s.setSlot l b j (setTag o (getPartial (E.hash key)))) l' b' j' =
      if l' = l ∧ b' = b ∧ j' = j then some (key, val) else view s l' b' j' := by
    intro l' b' j'
    unfold view
    rw [hw]
    split
    · rw [hoff, if_neg hgood.1]
      exact ho
    · rfl
  have hkey : ∀ l' b' j' v, InUse s ls l' b' j' → view s l' b' j' ≠ some (key, v) := by
    intro l' b' j' v hu' hv
    rw [(h.rep key v).2 ⟨l', b', j', hu', hv⟩] at hM
    cases hM
  refine h.congr (fun l' => geo_setSlot l b j _ l') rfl rfl rfl rfl rfl rfl ?_ ?_ ?_ ?_ ?_ ?_
    (fun l' b' j' hl' => by rw [hw, if_neg]; rintro ⟨rfl, -, -⟩; exact hl' hu.1)
  · intro l' b' j' hu'
    unfold SlotOK
    rw [hw, geo_setSlot]
    split
    · rename_i e
      obtain ⟨rfl, rfl, rfl⟩ := e
      exact .inr ⟨key, val, c, u, by rw [hoff]; exact hgood.1, by rw [hoff]; exact ho, tagOf_setTag _ _, hg, hcap ▸ hb⟩
    · exact h.slots l' b' j' hu'
  · intro l1 b1 j1 l2 b2 j2 hu1 hu2 k v v' hv1 hv2
    rw [hview] at hv1 hv2
    split at hv1 <;> split at hv2
    · rename_i e1 e2
      exact ⟨e1.1.trans e2.1.symm, e1.2.1.trans e2.2.1.symm, e1.2.2.trans e2.2.2.symm⟩
    · cases hv1
      exact absurd hv2 (hkey _ _ _ _ hu2)
    · cases hv2
      exact absurd hv1 (hkey _ _ _ _ hu1)
    · exact h.uniq _ _ _ _ _ _ hu1 hu2 k v v' hv1 hv2
  · intro k v
    unfold setKey
    constructor
    · intro hk
      split at hk
      · rename_i e
        subst e
        cases hk
        exact ⟨l, b, j, hu, by rw [hview, if_pos ⟨rfl, rfl, rfl⟩]⟩
      · obtain ⟨l', b', j', hu', hv⟩ := (h.rep k v).1 hk
        refine ⟨l', b', j', hu', ?_⟩
        rw [hview, if_neg, hv]
        rintro ⟨rfl, rfl, rfl⟩
        rw [view_of_zero h0] at hv
        cases hv
    · rintro ⟨l', b', j', hu', hv⟩
      rw [hview] at hv
      split at hv
      · cases hv
        rw [if_pos rfl]
      · rw [if_neg]
        · exact (h.rep k v).2 ⟨l', b', j', hu', hv⟩
        · rintro rfl
          exact hkey _ _ _ _ hu' hv
  · intro o' e he
    obtain ⟨hgo, h2⟩ := h.live o' e he
    refine ⟨hgo, ?_⟩
    by_cases ho' : o' = o
    · exact .inr ⟨l, b, j, hu, by rw [hw, if_pos ⟨rfl, rfl, rfl⟩, hoff, ho']⟩
    · rcases h2 with h2 | ⟨l', b', j', hu', hv⟩
      · exact .inl ⟨h2, ho'⟩
      · refine .inr ⟨l', b', j', hu', ?_⟩
        rw [hw, if_neg, hv]
        rintro ⟨rfl, rfl, rfl⟩
        rw [h0] at hv
        exact hgo.1 hv.symm
  · rintro o' ⟨hJ', hne⟩
    refine ⟨(h.junk o' hJ').1, fun l' b' j' hu' => ?_⟩
    rw [hw]
    split
    · rw [hoff]
      exact fun e => hne e.symm
    · exact (h.junk o' hJ').2 l' b' j' hu'
  · intro hB b' j' hb' hj'
    rw [hw, if_neg]
    · exact h.done hB b' j' hb' hj'
    · rintro ⟨hl, rfl, rfl⟩
      have hlen := h.len
      have hi0 : i = 0 := by
        obtain ⟨x, r, e⟩ := List.exists_cons_of_ne_nil (l := ls) (by rintro rfl; simp at hlen)
        rw [e] at hi hl
        have hd := h.nodup
        rw [e] at hd
        have h0' : (x :: r)[0]? = some l := by simp at hl; simp [hl]
        by_contra hne
        have := List.Nodup.getElem_inj_iff hd (i := i) (j := 0) (hi := (List.getElem?_eq_some_iff.1 hi).1) (hj := by simp)
        obtain ⟨h1, h2⟩ := List.getElem?_eq_some_iff.1 hi
        obtain ⟨h3, h4⟩ := List.getElem?_eq_some_iff.1 h0'
        exact hne (this.1 (h2.trans h4.symm))
      have := h.exp2 hB (hbot hi0)
      omega

/-- Clearing a slot and freeing its entry. -/
theorem Inv.clear (h : Inv E B p0 s p ls M J) (hu : InUse s ls l b j) (hv : view s l b j = some (key, val)) :
    Inv E B p0 { s.setSlot l b j 0#64 with heap := fun a => if a = getOffset (word s l b j) then none else s.heap a } p ls
      (delKey M key) J := by
  obtain ⟨h0, hh⟩ := view_some hv
  obtain ⟨-, ⟨c, u, hg, -⟩, -⟩ := id hu
  have hw : ∀ l' b' j', word { s.setSlot l b j 0#64 with heap := fun a => if a = getOffset (word s l b j) then none else s.heap a }
      l' b' j' = if l' = l ∧ b' = b ∧ j' = j then 0#64 else word s l' b' j' := word_setSlot hg 0#64
  have hview : ∀ l' b' j', InUse s ls l' b' j' →
      view { s.setSlot l b j 0#64 with heap := fun a => if a = getOffset (word s l b j) then none else s.heap a } l' b' j' =
      if l' = l ∧ b' = b ∧ j' = j then none else view s l' b' j' := by
    intro l' b' j' hu'
    unfold view
    rw [hw]
    split
    · rw [if_pos (by decide)]
    · rename_i hne
      split
      · rfl
      · rename_i hne0
        dsimp only
        rw [if_neg]
        intro e
        obtain ⟨e1, e2, e3⟩ := h.same hu' hu hne0 e
        exact hne ⟨e1, e2, e3⟩
  refine h.congr (fun l' => geo_setSlot l b j _ l') rfl rfl rfl rfl rfl rfl ?_ ?_ ?_ ?_ ?_ ?_
    (fun l' b' j' hl' => by rw [hw, if_neg]; rintro ⟨rfl, -, -⟩; exact hl' hu.1)
  · intro l' b' j' hu'
    by_cases e : l' = l ∧ b' = b ∧ j' = j
    · exact .inl (by rw [hw, if_pos e])
    · rcases h.slots l' b' j' hu' with hz | ⟨k, v, c', u', h1, h2, h3, h4, h5⟩
      · exact .inl (by rw [hw, if_neg e, hz])
      · refine .inr ⟨k, v, c', u', ?_⟩
        rw [hw, if_neg e]
        refine ⟨h1, ?_, h3, (geo_setSlot l b j _ l').trans h4, h5⟩
        dsimp only
        rw [if_neg]
        · exact h2
        · intro e'
          obtain ⟨e1, e2, e3⟩ := h.same hu' hu h1 e'
          exact e ⟨e1, e2, e3⟩
  · intro l1 b1 j1 l2 b2 j2 hu1 hu2 k v v' hv1 hv2
    rw [hview _ _ _ hu1] at hv1
    rw [hview _ _ _ hu2] at hv2
    split at hv1
    · cases hv1
    · split at hv2
      · cases hv2
      · exact h.uniq _ _ _ _ _ _ hu1 hu2 k v v' hv1 hv2
  · intro k v
    unfold delKey
    constructor
    · intro hk
      split at hk
      · cases hk
      · rename_i hkne
        obtain ⟨l', b', j', hu', hv'⟩ := (h.rep k v).1 hk
        refine ⟨l', b', j', hu', ?_⟩
        rw [hview _ _ _ hu', if_neg, hv']
        rintro ⟨rfl, rfl, rfl⟩
        rw [hv] at hv'
        cases hv'
        exact hkne rfl
    · rintro ⟨l', b', j', hu', hv'⟩
      rw [hview _ _ _ hu'] at hv'
      split at hv'
      · cases hv'
      · rename_i hne
        rw [if_neg]
        · exact (h.rep k v).2 ⟨l', b', j', hu', hv'⟩
        · rintro rfl
          exact hne (h.uniq _ _ _ _ _ _ hu' hu k v val hv' hv)
  · intro o e he
    dsimp only at he
    split at he
    · cases he
    · rename_i hne
      obtain ⟨hgo, h2⟩ := h.live o e he
      refine ⟨hgo, h2.imp_right ?_⟩
      rintro ⟨l', b', j', hu', hv'⟩
      refine ⟨l', b', j', hu', ?_⟩
      rw [hw, if_neg, hv']
      rintro ⟨rfl, rfl, rfl⟩
      exact hne hv'.symm
  · intro o hJ
    obtain ⟨h1, h2⟩ := h.junk o hJ
    refine ⟨?_, fun l' b' j' hu' => ?_⟩
    · dsimp only
      rw [if_neg]
      · exact h1
      · exact fun e => h2 l b j hu e.symm
    · rw [hw]
      split
      · intro e
        obtain ⟨e', he'⟩ := Option.ne_none_iff_exists'.1 h1
        exact (h.live o e' he').1.1 (by rw [← e]; decide)
      · exact h2 l' b' j' hu'
  · intro hB b' j' hb' hj'
    rw [hw]
    split
    · rfl
    · exact h.done hB b' j' hb' hj'

/-- Giving a slot another entry for its key. -/
theorem Inv.swap (h : Inv E B p0 s p ls M J) {o v0 : Word} (hu : InUse s ls l b j) (hv : view s l b j = some (key, v0)) (hJ : J o)
    (ho : s.heap o = some (key, val)) :
    Inv E B p0 (s.setSlot l b j (setTag o (getPartial (E.hash key)))) p ls (setKey M key val)
      (fun x => (J x ∧ x ≠ o) ∨ x = getOffset (word s l b j)) := by
  obtain ⟨h0, hh⟩ := view_some hv
  obtain ⟨k', v', c, u, hv', -, -, hg, hb⟩ := (h.slots l b j hu).of_ne h0
  rw [hv] at hv'
  cases hv'
  have hgood := (h.live o _ ho).1
  have hoff : getOffset (setTag o (getPartial (E.hash key))) = o := getOffset_setTag hgood.2 _
  have hw := word_setSlot (b := b) (j := j) hg (setTag o (getPartial (E.hash key)))
  have hne : getOffset (word s l b j) ≠ o := (h.junk o hJ).2 l b j hu
  have hview : ∀ l' b' j', view (s.setSlot l b j (setTag o (getPartial (E.hash key)))) l' b' j' =
      if l' = l ∧ b' = b ∧ j' = j then some (key, val) else view s l' b' j' := by
    intro l' b' j'
    unfold view
    rw [hw]
    split
    · rw [hoff, if_neg hgood.1]
      exact ho
    · rfl
  refine h.congr (fun l' => geo_setSlot l b j _ l') rfl rfl rfl rfl rfl rfl ?_ ?_ ?_ ?_ ?_ ?_
    (fun l' b' j' hl' => by rw [hw, if_neg]; rintro ⟨rfl, -, -⟩; exact hl' hu.1)
  · intro l' b' j' hu'
    unfold SlotOK
    rw [hw, geo_setSlot]
    split
    · rename_i e
      obtain ⟨rfl, rfl, rfl⟩ := e
      exact .inr ⟨key, val, c, u, by rw [hoff]; exact hgood.1, by rw [hoff]; exact ho, tagOf_setTag _ _, hg, hb⟩
    · exact h.slots l' b' j' hu'
  · intro l1 b1 j1 l2 b2 j2 hu1 hu2 k v v' hv1 hv2
    rw [hview] at hv1 hv2
    split at hv1 <;> split at hv2
    · rename_i e1 e2
      exact ⟨e1.1.trans e2.1.symm, e1.2.1.trans e2.2.1.symm, e1.2.2.trans e2.2.2.symm⟩
    · rename_i e1 e2
      cases hv1
      exact absurd (h.uniq _ _ _ _ _ _ hu2 hu _ _ _ hv2 hv) e2
    · rename_i e1 e2
      cases hv2
      exact absurd (h.uniq _ _ _ _ _ _ hu1 hu _ _ _ hv1 hv) e1
    · exact h.uniq _ _ _ _ _ _ hu1 hu2 k v v' hv1 hv2
  · intro k v
    unfold setKey
    constructor
    · intro hk
      split at hk
      · rename_i e
        subst e
        cases hk
        exact ⟨l, b, j, hu, by rw [hview, if_pos ⟨rfl, rfl, rfl⟩]⟩
      · rename_i hkne
        obtain ⟨l', b', j', hu', hv'⟩ := (h.rep k v).1 hk
        refine ⟨l', b', j', hu', ?_⟩
        rw [hview, if_neg, hv']
        rintro ⟨rfl, rfl, rfl⟩
        rw [hv] at hv'
        cases hv'
        exact hkne rfl
    · rintro ⟨l', b', j', hu', hv'⟩
      rw [hview] at hv'
      split at hv'
      · cases hv'
        rw [if_pos rfl]
      · rename_i hpos
        rw [if_neg]
        · exact (h.rep k v).2 ⟨l', b', j', hu', hv'⟩
        · rintro rfl
          exact hpos (h.uniq _ _ _ _ _ _ hu' hu _ _ _ hv' hv)
  · intro o' e he
    obtain ⟨hgo, h2⟩ := h.live o' e he
    refine ⟨hgo, ?_⟩
    by_cases ho' : o' = o
    · exact .inr ⟨l, b, j, hu, by rw [hw, if_pos ⟨rfl, rfl, rfl⟩, hoff, ho']⟩
    · rcases h2 with h2 | ⟨l', b', j', hu', hv'⟩
      · exact .inl (.inl ⟨h2, ho'⟩)
      · by_cases hpos : l' = l ∧ b' = b ∧ j' = j
        · obtain ⟨rfl, rfl, rfl⟩ := hpos
          exact .inl (.inr hv'.symm)
        · refine .inr ⟨l', b', j', hu', ?_⟩
          rw [hw, if_neg hpos, hv']
  · intro o' hJ'
    have hother : ∀ l' b' j', InUse s ls l' b' j' → ¬ (l' = l ∧ b' = b ∧ j' = j) → o' = getOffset (word s l b j) →
        getOffset (word s l' b' j') ≠ o' := by
      rintro l' b' j' hu' hpos rfl e
      obtain ⟨e1, e2, e3⟩ := h.same hu hu' h0 e.symm
      exact hpos ⟨e1.symm, e2.symm, e3.symm⟩
    rcases hJ' with ⟨hJ', hne'⟩ | rfl
    · refine ⟨(h.junk o' hJ').1, fun l' b' j' hu' => ?_⟩
      rw [hw]
      split
      · rw [hoff]
        exact fun e => hne' e.symm
      · exact (h.junk o' hJ').2 l' b' j' hu'
    · refine ⟨by show s.heap _ ≠ none; rw [hh]; simp, fun l' b' j' hu' => ?_⟩
      rw [hw]
      split
      · rw [hoff]
        exact fun e => hne e.symm
      · exact hother l' b' j' hu' ‹_› rfl
  · intro hB b' j' hb' hj'
    rw [hw, if_neg]
    · exact h.done hB b' j' hb' hj'
    · rintro ⟨rfl, rfl, rfl⟩
      rw [h.done hB b' j' hb' hj'] at h0
      exact h0 (by decide)

/-- Moving an entry to an empty slot. -/
theorem Inv.move (h : Inv E B p0 s p ls M J) {i l' b' j' : Nat} (hi : ls[i]? = some l') (hi0 : i ≠ 0)
    (hb : Home E key (2 ^ (p + i)) b') (hj : j' < assocNum) (h0 : getOffset (word s l' b' j') = 0#64)
    (hu : InUse s ls l b j) (hv : view s l b j = some (key, val)) :
    Inv E B p0 ((s.setSlot l' b' j' (word s l b j)).setSlot l b j 0#64) p ls M J := by
  obtain ⟨h1, hh⟩ := view_some hv
  obtain ⟨k', v', c, u, hv', -, ht, hg, hb0⟩ := (h.slots l b j hu).of_ne h1
  rw [hv] at hv'
  cases hv'
  have hu' := h.inUse hi hb hj
  obtain ⟨u', hg'⟩ := chain_get h.chain hi
  have hdiff : ¬ (l' = l ∧ b' = b ∧ j' = j) := by
    rintro ⟨rfl, rfl, rfl⟩
    exact h1 h0
  have hw : ∀ x y z, word ((s.setSlot l' b' j' (word s l b j)).setSlot l b j 0#64) x y z =
      if x = l ∧ y = b ∧ z = j then 0#64 else if x = l' ∧ y = b' ∧ z = j' then word s l b j else word s x y z := by
    intro x y z
    rw [word_setSlot (c := c) (u := u) (by rw [geo_setSlot]; exact hg), word_setSlot hg']
  have hview : ∀ x y z, view ((s.setSlot l' b' j' (word s l b j)).setSlot l b j 0#64) x y z =
      if x = l ∧ y = b ∧ z = j then none else if x = l' ∧ y = b' ∧ z = j' then some (key, val) else view s x y z := by
    intro x y z
    unfold view
    rw [hw]
    split
    · rw [if_pos (by decide)]
    · split
      · exact hh
      · rfl
  refine h.congr (fun x => by rw [geo_setSlot, geo_setSlot]) rfl rfl rfl rfl rfl rfl ?_ ?_ ?_ ?_ ?_ ?_
    (fun x y z hx => by
      rw [hw, if_neg (by rintro ⟨rfl, -, -⟩; exact hx hu.1), if_neg (by rintro ⟨rfl, -, -⟩; exact hx hu'.1)])
  · intro x y z hx
    unfold SlotOK
    rw [hw, geo_setSlot, geo_setSlot]
    split
    · exact .inl rfl
    · split
      · rename_i e
        obtain ⟨rfl, rfl, rfl⟩ := e
        exact .inr ⟨key, val, _, u', h1, hh, ht, hg', hb⟩
      · exact h.slots x y z hx
  · intro x1 y1 z1 x2 y2 z2 hu1 hu2 k v v' hv1 hv2
    rw [hview] at hv1 hv2
    split at hv1
    · cases hv1
    rename_i n1
    split at hv2
    · cases hv2
    rename_i n2
    split at hv1 <;> split at hv2
    · rename_i e1 e2
      exact ⟨e1.1.trans e2.1.symm, e1.2.1.trans e2.2.1.symm, e1.2.2.trans e2.2.2.symm⟩
    · cases hv1
      exact absurd (h.uniq _ _ _ _ _ _ hu2 hu _ _ _ hv2 hv) n2
    · cases hv2
      exact absurd (h.uniq _ _ _ _ _ _ hu1 hu _ _ _ hv1 hv) n1
    · exact h.uniq _ _ _ _ _ _ hu1 hu2 k v v' hv1 hv2
  · intro k v
    rw [h.rep]
    constructor
    · rintro ⟨x, y, z, hx, hxv⟩
      by_cases e : x = l ∧ y = b ∧ z = j
      · obtain ⟨rfl, rfl, rfl⟩ := e
        rw [hv] at hxv
        cases hxv
        exact ⟨l', b', j', hu', by rw [hview, if_neg hdiff, if_pos ⟨rfl, rfl, rfl⟩]⟩
      · refine ⟨x, y, z, hx, ?_⟩
        rw [hview, if_neg e, if_neg, hxv]
        rintro ⟨rfl, rfl, rfl⟩
        rw [view_of_zero h0] at hxv
        cases hxv
    · rintro ⟨x, y, z, hx, hxv⟩
      rw [hview] at hxv
      split at hxv
      · cases hxv
      · split at hxv
        · cases hxv
          exact ⟨l, b, j, hu, hv⟩
        · exact ⟨x, y, z, hx, hxv⟩
  · intro o e he
    obtain ⟨hgo, h2⟩ := h.live o e he
    refine ⟨hgo, h2.imp_right ?_⟩
    rintro ⟨x, y, z, hx, hxw⟩
    by_cases e : x = l ∧ y = b ∧ z = j
    · obtain ⟨rfl, rfl, rfl⟩ := e
      exact ⟨l', b', j', hu', by rw [hw, if_neg hdiff, if_pos ⟨rfl, rfl, rfl⟩, hxw]⟩
    · refine ⟨x, y, z, hx, ?_⟩
      rw [hw, if_neg e, if_neg, hxw]
      rintro ⟨rfl, rfl, rfl⟩
      rw [h0] at hxw
      exact hgo.1 hxw.symm
  · intro o hJ
    obtain ⟨hl, hn⟩ := h.junk o hJ
    refine ⟨hl, fun x y z hx => ?_⟩
    rw [hw]
    split
    · intro e
      obtain ⟨e', he'⟩ := Option.ne_none_iff_exists'.1 hl
      exact (h.live o e' he').1.1 (by rw [← e]; decide)
    · split
      · exact hn l b j hu
      · exact hn x y z hx
  · intro hB y z hy hz
    rw [hw]
    split
    · rfl
    · rw [if_neg]
      · exact h.done hB y z hy hz
      · rintro ⟨hl, rfl, rfl⟩
        obtain ⟨x, r, e⟩ := List.exists_cons_of_ne_nil (l := ls) (by rintro rfl; simpa using h.len)
        rw [e] at hi hl
        have hd := h.nodup
        rw [e] at hd
        have h0' : (x :: r)[0]? = some l' := by simp at hl; simp [hl]
        have := List.Nodup.getElem_inj_iff hd (i := i) (j := 0) (hi := (List.getElem?_eq_some_iff.1 hi).1) (hj := by simp)
        obtain ⟨h1, h2⟩ := List.getElem?_eq_some_iff.1 hi
        obtain ⟨h3, h4⟩ := List.getElem?_eq_some_iff.1 h0'
        exact hi0 (this.1 (h2.trans h4.symm))

end PMap.Clevel
