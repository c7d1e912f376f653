import Verif.Clevel.Expand

/-!
# An insert and an update that run alone
-/

namespace PMap.Clevel

open CP

variable {E : CEnv} {B : Prop} {p0 : Nat} {s : CSt} {p : Nat} {ls : List Nat} {M : Word → Option Word} {J : Word → Prop} {key val : Word}

theorem Inv.congrJ {J' : Word → Prop} (h : Inv E B p0 s p ls M J) (hJ : ∀ x, J x ↔ J' x) : Inv E B p0 s p ls M J' := by
  have : J = J' := funext fun x => propext (hJ x)
  exact this ▸ h

/-- The state after `make_persistent_atomic` for an entry: no code of its own, the effect of `newEntry` (clevel:953-965). -/
def CSt.addEntry (s : CSt) (t : Nat) (o key val : Word) : CSt :=
  { s with heap := fun a => if a = o then some (key, val) else s.heap a, allocs := s.allocs + 1, tmpE := fun t' => if t' = t then o else s.tmpE t' }

/-- The state after `delete_persistent_atomic` for the entry of a call: no code of its own, the effect of `freeTmpEntry`. -/
def CSt.dropEntry (s : CSt) (t : Nat) (o : Word) : CSt :=
  { s with heap := fun a => if a = o then none else s.heap a, tmpE := fun t' => if t' = t then 0#64 else s.tmpE t' }

/-- A new entry that no slot refers to. -/
theorem Inv.alloc (h : Inv E B p0 s p ls M J) {t : Nat} {o : Word} (hg : GoodOffset o) (ho : s.heap o = none) :
    Inv E B p0 (s.addEntry t o key val) p ls M (fun x => J x ∨ x = o) := by
  have hoff : ∀ {l b j}, InUse s ls l b j → getOffset (word s l b j) ≠ o := by
    intro l b j hu e
    rcases h.slots l b j hu with hz | ⟨k, v, c, u, h1, h2, -⟩
    · rw [hz] at e
      exact hg.1 (by rw [← e]; decide)
    · rw [e, ho] at h2
      cases h2
  generalize hs' : s.addEntry t o key val = s'
  have hgeo : ∀ l, geo s' l = geo s l := fun l => by rw [← hs']; rfl
  have hw : ∀ l b j, word s' l b j = word s l b j := fun l b j => by rw [← hs']; rfl
  have hheap : ∀ a, s'.heap a = if a = o then some (key, val) else s.heap a := fun a => by rw [← hs']; rfl
  have hview : ∀ l b j, InUse s ls l b j → view s' l b j = view s l b j := by
    intro l b j hu
    unfold view
    rw [hw, hheap, if_neg (hoff hu)]
  refine h.congr hgeo (by rw [← hs']; rfl) (by rw [← hs']; rfl) (by rw [← hs']; rfl) (by rw [← hs']; rfl) (by rw [← hs']; rfl) (by rw [← hs']; rfl) ?_ ?_ ?_ ?_ ?_ ?_
    (fun l b j _ => hw l b j)
  · intro l b j hu
    unfold SlotOK
    rw [hw, hheap, if_neg (hoff hu), hgeo]
    exact h.slots l b j hu
  · intro l b j l' b' j' hu hu' k v v' hv hv'
    rw [hview _ _ _ hu] at hv
    rw [hview _ _ _ hu'] at hv'
    exact h.uniq _ _ _ _ _ _ hu hu' k v v' hv hv'
  · intro k v
    rw [h.rep]
    exact ⟨fun ⟨l, b, j, hu, hv⟩ => ⟨l, b, j, hu, by rw [hview _ _ _ hu, hv]⟩,
      fun ⟨l, b, j, hu, hv⟩ => ⟨l, b, j, hu, by rw [← hview _ _ _ hu, hv]⟩⟩
  · intro x e he
    rw [hheap] at he
    split at he
    · rename_i hx
      exact ⟨hx ▸ hg, .inl (.inr hx)⟩
    · obtain ⟨h1, h2⟩ := h.live x e he
      refine ⟨h1, ?_⟩
      rcases h2 with h2 | ⟨l, b, j, hu, hw'⟩
      · exact .inl (.inl h2)
      · exact .inr ⟨l, b, j, hu, by rw [hw, hw']⟩
  · rintro x (hx | rfl)
    · obtain ⟨h1, h2⟩ := h.junk x hx
      refine ⟨?_, fun l b j hu => by rw [hw]; exact h2 l b j hu⟩
      rw [hheap]
      split
      · simp
      · exact h1
    · exact ⟨by rw [hheap, if_pos rfl]; simp, fun l b j hu => by rw [hw]; exact hoff hu⟩
  · intro hB b j hb hj
    rw [hw]
    exact h.done hB b j hb hj

/-- Freeing an entry that no slot refers to. -/
theorem Inv.free (h : Inv E B p0 s p ls M J) {t : Nat} {o : Word} (ho : J o) :
    Inv E B p0 (s.dropEntry t o) p ls M (fun x => J x ∧ x ≠ o) := by
  have hoff := (h.junk o ho).2
  generalize hs' : s.dropEntry t o = s'
  have hgeo : ∀ l, geo s' l = geo s l := fun l => by rw [← hs']; rfl
  have hw : ∀ l b j, word s' l b j = word s l b j := fun l b j => by rw [← hs']; rfl
  have hheap : ∀ a, s'.heap a = if a = o then none else s.heap a := fun a => by rw [← hs']; rfl
  have hview : ∀ l b j, InUse s ls l b j → view s' l b j = view s l b j := by
    intro l b j hu
    unfold view
    rw [hw, hheap, if_neg (hoff l b j hu)]
  refine h.congr hgeo (by rw [← hs']; rfl) (by rw [← hs']; rfl) (by rw [← hs']; rfl) (by rw [← hs']; rfl) (by rw [← hs']; rfl) (by rw [← hs']; rfl) ?_ ?_ ?_ ?_ ?_ ?_
    (fun l b j _ => hw l b j)
  · intro l b j hu
    unfold SlotOK
    rw [hw, hheap, if_neg (hoff l b j hu), hgeo]
    exact h.slots l b j hu
  · intro l b j l' b' j' hu hu' k v v' hv hv'
    rw [hview _ _ _ hu] at hv
    rw [hview _ _ _ hu'] at hv'
    exact h.uniq _ _ _ _ _ _ hu hu' k v v' hv hv'
  · intro k v
    rw [h.rep]
    exact ⟨fun ⟨l, b, j, hu, hv⟩ => ⟨l, b, j, hu, by rw [hview _ _ _ hu, hv]⟩,
      fun ⟨l, b, j, hu, hv⟩ => ⟨l, b, j, hu, by rw [← hview _ _ _ hu, hv]⟩⟩
  · intro x e he
    rw [hheap] at he
    split at he
    · cases he
    · rename_i hx
      obtain ⟨h1, h2⟩ := h.live x e he
      refine ⟨h1, ?_⟩
      rcases h2 with h2 | ⟨l, b, j, hu, hw'⟩
      · exact .inl ⟨h2, hx⟩
      · exact .inr ⟨l, b, j, hu, by rw [hw, hw']⟩
  · rintro x ⟨hx, hne⟩
    obtain ⟨h1, h2⟩ := h.junk x hx
    refine ⟨?_, fun l b j hu => by rw [hw]; exact h2 l b j hu⟩
    rw [hheap, if_neg hne]
    exact h1
  · intro hB b j hb hj
    rw [hw]
    exact h.done hB b j hb hj

theorem cwp_freeTmpEntry {Q : Unit → CSt → Prop} {t : Nat} {o : Word} {e : Word × Word} (ht : t < s.tn) (ho : s.tmpE t = o)
    (he : s.heap o = some e) : cwp (freeTmpEntry t) Q s ↔
    Q () (s.dropEntry t o) := by
  simp [freeTmpEntry, atom, cwp, ht, ho, he, CSt.dropEntry]

theorem cwp_newEntry {Q : Word → CSt → Prop} {t : Nat} (ht : t < s.tn)
    (hQ : ∀ o, GoodOffset o → s.heap o = none → Q o (s.addEntry t o key val)) :
    cwp (newEntry E t key val) Q s := by
  by_cases hc : GoodOffset (E.pick s.allocs) ∧ s.heap (E.pick s.allocs) = none
  · simp only [newEntry, atom, cwp, if_pos ht, if_pos hc]
    exact hQ _ hc.1 hc.2
  · simp only [newEntry, atom, cwp, if_pos ht, if_neg hc]

/-- One round of the loop of `generic_insert`: it is done, or there is no room where the key may go. -/
theorem cwp_insertLoop {o : Word} (hJ : ∀ x, J x → x ≠ o) (h : Inv E B p0 s p ls M (fun x => J x ∨ x = o)) (ho : s.heap o = some (key, val))
    {Q : Bool → CSt → Prop} {t lf f : Nat} (ht : t < s.tn) (hto : s.tmpE t = o) (hlf : ls.length ≤ lf)
    (hold : ∀ s', (M key).isSome → Inv E B p0 s' p ls M J → s'.tn = s.tn → Q false s')
    (hnew : ∀ s', M key = none → Inv E B p0 s' p ls (setKey M key val) J → s'.tn = s.tn → Q true s')
    (hexp : getOffset (word s (ls.getLastD 0) (firstIndex (E.hash key) (2 ^ (p + ls.length - 1))) 0) ≠ 0#64 →
      cwp (do expand E t s.root (f + 1); insertLoop E t key (setTag o (getPartial (E.hash key))) lf f true) Q s) :
    cwp (insertLoop E t key (setTag o (getPartial (E.hash key))) lf (f + 1) true) Q s := by
  have hfound : (M key).isSome → cwp (do freeTmpEntry t; pure false) Q s := by
    intro hm
    rw [cwp_bind, cwp_freeTmpEntry ht hto ho, cwp_pure]
    refine hold _ hm ((h.free (t := t) (o := o) (.inr rfl)).congrJ fun x => ?_) rfl
    exact ⟨fun hx => hx.1.resolve_right hx.2, fun hx => ⟨.inl hx, hJ x hx⟩⟩
  unfold insertLoop
  rw [cwp_bind, cwp_rdMeta]
  dsimp only
  rw [if_pos rfl, cwp_bind]
  refine cwp_find h hlf (fun _ f' hf' hm => ?_) (fun f' hf' ha => ?_)
  · dsimp only
    rw [if_pos hf']
    exact hfound hm
  · dsimp only
    refine cwp_if (fun hc => ?_) (fun hc => ?_)
    · obtain ⟨e, v, -, hu, hv, -⟩ := hf'.fnd hc
      exact hfound (by rw [(h.rep key v).2 ⟨_, _, _, hu, hv⟩]; rfl)
    · have hM : M key = none := h.none_of_rem (hf'.nf (by simpa using hc))
      rw [cwp_bind, cwp_deMeta h.mt]
      refine cwp_if (fun hv => ?_) (fun hv => ?_)
      · simp only [Bool.and_eq_true, Bool.or_eq_true, decide_eq_true_eq, Bool.not_eq_true', decide_eq_false_iff_not] at hv
        obtain ⟨e, he, hi, hb, hj, h0, hold'⟩ := hf'.vac hv.1
        obtain ⟨-, ⟨c, u, hg, hbc⟩, -⟩ := h.inUse hi hb hj
        rw [he]
        dsimp only
        rw [cwp_bind, cwp_casSlot hg hbc hj, if_pos hold'.symm, if_pos rfl, cwp_bind, cwp_rdMeta, cwp_bind,
          cwp_deMeta (s := s.setSlot e.l e.b e.j _) (m := (s.setSlot e.l e.b e.j _).root) h.mt]
        refine cwp_if (fun hx => ?_) (fun _ => ?_)
        · simp at hx
        · refine hnew _ hM ((h.put hi hb hj h0 ho hM ?_).congrJ fun x => ?_) rfl
          · intro hi0
            have := h.len
            rcases hv.2 with h1 | h1 <;> omega
          · exact ⟨fun hx => hx.1.resolve_right hx.2, fun hx => ⟨.inl hx, hJ x hx⟩⟩
      · refine hexp fun hz => hv ?_
        have hlen := h.len
        rcases ha hz with h1 | ⟨h1, h2⟩
        · exact absurd h1 hc
        · simp [h1, h2]
          omega

/-- An insert that runs alone ends (or the allocator throws): it reports whether the key was new, and only then puts it into the
map. -/
theorem cwp_insert (h : Inv E B p0 s p ls M J) {Q : Bool → CSt → Prop} {t lf f : Nat} (ht : t < s.tn) (hlf : maxLevel ≤ lf)
    (hQ : ∀ s' ls', Inv E B p0 s' p ls' (if (M key).isSome then M else setKey M key val) J → s'.tn = s.tn →
      Q (!(M key).isSome) s') :
    cwp (insert E t key val lf (f + 2)) Q s := by
  unfold insert
  rw [cwp_bind]
  refine cwp_newEntry ht fun o hg ho => ?_
  have hJ : ∀ x, J x → x ≠ o := by
    rintro x hx rfl
    exact (h.junk x hx).1 ho
  have h1 := h.alloc (key := key) (val := val) (t := t) hg ho
  have hold : ∀ s' ls', (M key).isSome → Inv E B p0 s' p ls' M J → s'.tn = s.tn → Q false s' := by
    intro s' ls' hm hi htn
    have := hQ s' ls'
    rw [if_pos hm, hm] at this
    exact this hi htn
  have hnew : ∀ s' ls', M key = none → Inv E B p0 s' p ls' (setKey M key val) J → s'.tn = s.tn → Q true s' := by
    intro s' ls' hm hi htn
    have := hQ s' ls'
    rw [hm] at this
    exact this hi htn
  refine cwp_insertLoop hJ h1 (by simp [CSt.addEntry]) ht (by simp [CSt.addEntry]) (h1.levels.le.trans hlf) (fun s' => hold s' ls) (fun s' => hnew s' ls)
    (fun _ => ?_)
  rw [cwp_bind]
  refine cwp_expand h1 ht fun s' n h2 hn hheap htmp htn _ _ hz => ?_
  refine cwp_insertLoop hJ h2 (by rw [hheap]; simp [CSt.addEntry]) (by rw [htn]; exact ht) (by rw [htmp]; simp [CSt.addEntry]) (h2.levels.le.trans hlf)
    (fun s'' hm hi hx => hold s'' _ hm hi (hx.trans htn)) (fun s'' hm hi hx => hnew s'' _ hm hi (hx.trans htn)) (fun hnz => ?_)
  refine absurd ?_ hnz
  have : (ls ++ [n]).getLastD 0 = n := by simp [List.getLastD_eq_getLast?]
  rw [this, hz]
  decide

/-- An update that runs alone ends (or the allocator throws): it reports whether the map has the key and then sets its value.  The
entry it replaces stays allocated. -/
theorem cwp_update (h : Inv E B p0 s p ls M J) {Q : Bool → CSt → Prop} {t lf f : Nat} (ht : t < s.tn) (hlf : maxLevel ≤ lf)
    (hnone : ∀ s', M key = none → Inv E B p0 s' p ls M J → s'.tn = s.tn → Q false s')
    (hsome : ∀ s' o, (M key).isSome → s.heap o ≠ none → ¬ J o →
      Inv E B p0 s' p ls (setKey M key val) (fun x => J x ∨ x = o) → s'.tn = s.tn → Q true s') :
    cwp (update E t key val lf (f + 2)) Q s := by
  unfold update
  rw [cwp_bind]
  refine cwp_newEntry ht fun o hg ho => ?_
  have hJ : ∀ x, J x → x ≠ o := by
    rintro x hx rfl
    exact (h.junk x hx).1 ho
  have h1 := h.alloc (key := key) (val := val) (t := t) hg ho
  generalize hs1 : s.addEntry t o key val = s1 at h1
  have ho1 : s1.heap o = some (key, val) := by rw [← hs1]; simp [CSt.addEntry]
  have htn1 : s1.tn = s.tn := by rw [← hs1]; rfl
  have hto1 : s1.tmpE t = o := by rw [← hs1]; simp [CSt.addEntry]
  have hh1 : ∀ a, a ≠ o → s1.heap a = s.heap a := fun a ha => by rw [← hs1]; simp [ha, CSt.addEntry]
  unfold updateLoop
  rw [cwp_bind, cwp_rdMeta, cwp_bind, cwp_rdExp, cwp_bind]
  refine cwp_find h1 (h1.levels.le.trans hlf) (fun hx => by cases hx) (fun f' hf' _ => ?_)
  dsimp only
  refine cwp_if (fun hc => ?_) (fun hc => ?_)
  · obtain ⟨e, v, he, hu, hv, hold, -, hlev, hidx⟩ := hf'.fnd hc
    obtain ⟨-, ⟨c, u, hgeo, hbc⟩, hj⟩ := id hu
    have hoff : getOffset (setTag o (getPartial (E.hash key))) = o := getOffset_setTag hg.2 _
    have hne : getOffset (word s1 e.l e.b e.j) ≠ o := (h1.junk o (.inr rfl)).2 _ _ _ hu
    have h2 := (h1.swap (val := val) hu hv (.inr rfl) ho1).congrJ (J' := fun x => J x ∨ x = getOffset (word s1 e.l e.b e.j))
      fun x => ⟨fun hx => hx.imp_left fun hx => hx.1.resolve_right hx.2, fun hx => hx.imp_left fun hx => ⟨.inl hx, hJ x hx⟩⟩
    have hm : (M key).isSome := by rw [(h1.rep key v).2 ⟨_, _, _, hu, hv⟩]; rfl
    have hdone : Q true (s1.setSlot e.l e.b e.j (setTag o (getPartial (E.hash key)))) := by
      refine hsome _ _ hm ?_ ?_ h2 htn1
      · rw [← hh1 _ hne, (view_some hv).2]
        simp
      · exact fun hJo => (h1.junk _ (.inl hJo)).2 _ _ _ hu rfl
    refine cwp_if (fun hx => by simp at hx) (fun _ => ?_)
    rw [he]
    dsimp only
    rw [cwp_bind, cwp_casSlot hgeo hbc hj, if_pos hold.symm, if_pos rfl, cwp_bind, cwp_rdMeta, cwp_bind, cwp_rdExp]
    refine cwp_if (fun _ => ?_) (fun _ => hdone)
    unfold updateLoop
    rw [cwp_bind, cwp_rdMeta, cwp_bind, cwp_rdExp, cwp_bind]
    refine cwp_find h2 (h2.levels.le.trans hlf) (fun hx => by cases hx) (fun f2 hf2 _ => ?_)
    dsimp only
    have hw := word_setSlot (b := e.b) (j := e.j) hgeo (setTag o (getPartial (E.hash key)))
    have hview : view (s1.setSlot e.l e.b e.j (setTag o (getPartial (E.hash key)))) e.l e.b e.j = some (key, val) := by
      unfold view
      have h3 : word (s1.setSlot e.l e.b e.j (setTag o (getPartial (E.hash key)))) e.l e.b e.j = _ := (hw e.l e.b e.j).trans (if_pos ⟨rfl, rfl, rfl⟩)
      rw [h3, hoff, if_neg hg.1]
      exact ho1
    have hu2 : InUse (s1.setSlot e.l e.b e.j (setTag o (getPartial (E.hash key)))) ls e.l e.b e.j :=
      (InUse.congr fun l => geo_setSlot _ _ _ _ l).2 hu
    refine cwp_if (fun hc2 => ?_) (fun hc2 => ?_)
    · obtain ⟨e2, v2, -, hu', hv', hold', -⟩ := hf2.fnd hc2
      obtain ⟨e1, e2', e3⟩ := h2.uniq _ _ _ _ _ _ hu' hu2 key v2 val hv' hview
      rw [e1, e2', e3, hw, if_pos ⟨rfl, rfl, rfl⟩] at hold'
      refine cwp_if (fun _ => hdone) (fun hx => absurd ⟨rfl, hold'⟩ hx)
    · have := hf2.nf (by simpa using hc2) _ _ _ hu2 _ hview
      cases this
  · have hM : M key = none := h1.none_of_rem (hf'.nf (by simpa using hc))
    refine cwp_if (fun hx => by cases hx) (fun _ => ?_)
    rw [cwp_bind, cwp_freeTmpEntry (by rw [htn1]; exact ht) hto1 ho1, cwp_pure]
    refine hnone _ hM ((h1.free (t := t) (o := o) (.inr rfl)).congrJ fun x => ?_) htn1
    exact ⟨fun hx => hx.1.resolve_right hx.2, fun hx => ⟨.inl hx, hJ x hx⟩⟩

end PMap.Clevel
