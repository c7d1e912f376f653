import Verif.Clevel.Inv

/-!
# A search and an erase that run alone
-/

namespace PMap.Clevel

open CP

variable {E : CEnv} {B : Prop} {p0 : Nat} {s : CSt} {p : Nat} {ls : List Nat} {M : Word → Option Word} {J : Word → Prop} {key : Word}

/-- Every slot with the key is among `rem`.  No code of its own. -/
def Rem (s : CSt) (ls : List Nat) (key : Word) (rem : List Pos) : Prop :=
  ∀ l b j, InUse s ls l b j → ∀ v, view s l b j = some (key, v) → Pos.mk l b j ∈ rem

/-- A slot of a key.  Helper. -/
theorem view_some {l b j : Nat} {k v : Word} (h : view s l b j = some (k, v)) :
    getOffset (word s l b j) ≠ 0#64 ∧ s.heap (getOffset (word s l b j)) = some (k, v) := by
  unfold view at h
  split at h
  · cases h
  · exact ⟨‹_›, h⟩

theorem SlotOK.of_ne {l b j : Nat} (h : SlotOK E s l b j) (h0 : getOffset (word s l b j) ≠ 0#64) :
    ∃ k v c u, view s l b j = some (k, v) ∧ s.heap (getOffset (word s l b j)) = some (k, v) ∧
      tagOf (word s l b j) = getPartial (E.hash k) ∧ geo s l = some (c, u) ∧ Home E k c b := by
  rcases h with h | ⟨k, v, c, u, h1, h2, h3, h4, h5⟩
  · rw [h] at h0
    exact absurd (by decide) h0
  · exact ⟨k, v, c, u, by simp [view, h1, h2], h2, h3, h4, h5⟩

theorem view_of_zero {l b j : Nat} (h0 : getOffset (word s l b j) = 0#64) : view s l b j = none := by
  simp [view, h0]

theorem Inv.rem (h : Inv E B p0 s p ls M J) (key : Word) : Rem s ls key (cands E key p ls) := by
  intro l b j hu v hv
  obtain ⟨h0, hh⟩ := view_some hv
  obtain ⟨k, v', c, u, hv', -, -, hg, hb⟩ := (h.slots l b j hu).of_ne h0
  rw [hv] at hv'
  cases hv'
  obtain ⟨i, u', -, hi, hg'⟩ := chain_mem h.chain hu.1
  rw [hg] at hg'
  cases hg'
  exact cands_mem hu.2.2 hi hb

theorem Inv.none_of_rem (h : Inv E B p0 s p ls M J) (hr : Rem s ls key []) : M key = none := by
  cases hM : M key with
  | none => rfl
  | some v =>
    obtain ⟨l, b, j, hu, hv⟩ := (h.rep key v).1 hM
    exact absurd (hr l b j hu v hv) List.not_mem_nil

theorem Rem.tail {x : Pos} {rem : List Pos} (h : Rem s ls key (x :: rem)) (hx : ∀ v, view s x.l x.b x.j ≠ some (key, v)) :
    Rem s ls key rem := by
  intro l b j hu v hv
  rcases List.mem_cons.1 (h l b j hu v hv) with rfl | h'
  · exact absurd hv (hx v)
  · exact h'

/-- A bucket of the key in a level in use.  Helper. -/
theorem Inv.inUse (h : Inv E B p0 s p ls M J) {i l b j : Nat} (hi : ls[i]? = some l) (hb : Home E key (2 ^ (p + i)) b)
    (hj : j < assocNum) : InUse s ls l b j := by
  obtain ⟨u, hg⟩ := chain_get h.chain hi
  exact ⟨List.mem_of_getElem? hi, ⟨_, _, hg, hb.lt (by have := h.base; have := h.grown; omega)⟩, hj⟩

theorem cwp_searchSlot {Q : Bool → CSt → Prop} {l b j : Nat} (hu : InUse s ls l b j) (hs : SlotOK E s l b j)
    (h1 : ∀ v, view s l b j = some (key, v) → Q true s) (h2 : (∀ v, view s l b j ≠ some (key, v)) → Q false s) :
    cwp (searchSlot l b j (getPartial (E.hash key)) key) Q s := by
  obtain ⟨hl, ⟨c, u, hg, hb⟩, hj⟩ := hu
  unfold searchSlot
  rw [cwp_bind, cwp_rdSlot hg hb hj]
  by_cases h0 : getOffset (word s l b j) = 0#64
  · have hn : ∀ v, view s l b j ≠ some (key, v) := fun v => by rw [view_of_zero h0]; simp
    split
    · rw [cwp_bind, cwp_rdSlot hg hb hj, if_neg (not_not.2 h0), cwp_pure]
      exact h2 hn
    · exact h2 hn
  · obtain ⟨k, v, c', u', hv, hh, ht, -, -⟩ := hs.of_ne h0
    split
    · rw [cwp_bind, cwp_rdSlot hg hb hj, if_pos h0, cwp_bind, cwp_rdSlot hg hb hj, cwp_bind, cwp_rdKey hh, cwp_pure]
      by_cases hk : k = key
      · rw [decide_eq_true hk]
        exact h1 v (by rw [hv, hk])
      · rw [decide_eq_false hk]
        exact h2 fun v' e => hk (by rw [hv] at e; cases e; rfl)
    · rename_i ht'
      exact h2 fun v' e => ht' (by rw [hv] at e; cases e; exact ht)

theorem cwp_searchBucket (h : Inv E B p0 s p ls M J) {Q : Option Nat → CSt → Prop} {l b : Nat} {rest : List Pos} :
    ∀ {js : List Nat}, (∀ j ∈ js, InUse s ls l b j) → Rem s ls key (js.map (fun j => Pos.mk l b j) ++ rest) →
      (∀ j, (M key).isSome → Q (some j) s) → (Rem s ls key rest → Q none s) →
      cwp (searchBucket l b (getPartial (E.hash key)) key js) Q s
  | [], _, hr, _, h2 => h2 (by simpa using hr)
  | j :: js, hj, hr, h1, h2 => by
    unfold searchBucket
    rw [cwp_bind]
    have hu := hj j (by simp)
    refine cwp_searchSlot hu (h.slots _ _ _ hu) (fun v hv => ?_) (fun hv => ?_)
    · rw [if_pos rfl]
      exact h1 j (by rw [(h.rep key v).2 ⟨l, b, j, hu, hv⟩]; rfl)
    · rw [if_neg (by decide)]
      exact cwp_searchBucket h (fun j' h' => hj j' (by simp [h'])) (Rem.tail hr hv) h1 h2

/-- The metadata in use.  Helper. -/
theorem last_ne {pre : List Nat} {l : Nat} {suf : List Nat} (hd : (pre ++ l :: suf).Nodup) :
    (l ≠ (pre ++ l :: suf).getLastD 0) ↔ suf ≠ [] := by
  have e1 : (pre ++ l :: suf).getLastD 0 = (l :: suf).getLastD 0 := by
    simp only [List.getLastD_eq_getLast?, List.getLast?_append]
    rw [List.getLast?_eq_getLast_of_ne_nil (by simp)]
    rfl
  rw [e1]
  have hd' := (List.nodup_append.1 hd).2.1
  constructor
  · rintro h rfl
    exact h (by simp)
  · intro hs e
    have hm : (l :: suf).getLastD 0 ∈ suf := by
      obtain ⟨x, r, rfl⟩ := List.exists_cons_of_ne_nil hs
      simp only [List.getLastD]
      rw [List.getLast_cons (by simp)]
      exact List.getLast_mem _
    exact (List.nodup_cons.1 hd').1 (e ▸ hm)

theorem cwp_searchLevels (h : Inv E B p0 s p ls M J) {Q : Bool → CSt → Prop} (hQ : ∀ b, (b = (M key).isSome) → Q b s) :
    ∀ {suf pre : List Nat} {f : Nat}, ls = pre ++ suf → suf ≠ [] → suf.length ≤ f →
      Rem s ls key (cands E key (p + pre.length) suf) → cwp (searchLevels E s.root key f (suf.headD 0)) Q s
  | [], _, _, _, hs, _, _ => absurd rfl hs
  | l :: r, pre, 0, _, _, hf, _ => by simp at hf
  | l :: r, pre, f + 1, he, _, hf, hr => by
    have hi : ls[pre.length]? = some l := by rw [he]; simp
    obtain ⟨u, hg⟩ := chain_get h.chain hi
    have hc := chain_suffix (he ▸ h.chain) (by simp : l :: r ≠ [])
    unfold searchLevels
    simp only [List.headD_cons]
    rw [cwp_bind, cwp_rdCap hg, cwp_bind]
    simp only [cands, slotsOf] at hr
    have hsome : ∀ {v}, (M key).isSome = true → (v = true → v = (M key).isSome) := fun h1 h2 => by rw [h1, h2]
    refine cwp_searchBucket h (fun j hj => h.inUse (key := key) hi (.inl rfl) (List.mem_range.1 hj)) hr
      (fun j hm => hQ true (hsome hm rfl)) (fun hr => ?_)
    rw [cwp_bind]
    refine cwp_searchBucket h (fun j hj => h.inUse (key := key) hi (.inr rfl) (List.mem_range.1 hj)) hr
      (fun j hm => hQ true (hsome hm rfl)) (fun hr => ?_)
    rw [cwp_bind, cwp_rdUp (chain_head hc), cwp_bind, cwp_deMeta h.mt]
    refine cwp_if (fun hl => ?_) (fun hl => ?_)
    all_goals
      simp only at hl
      rw [he, last_ne (he ▸ h.nodup)] at hl
    swap
    · have hlast := not_not.1 hl
      subst hlast
      exact hQ false (by rw [h.none_of_rem hr]; rfl)
    · have hlast := hl
      refine cwp_searchLevels h hQ (pre := pre ++ [l]) (by simp [he]) hlast (by simpa using hf) ?_
      rw [List.length_append, List.length_singleton, ← Nat.add_assoc]
      exact hr

/-- A search that runs alone ends, changes nothing and finds exactly the keys of the map. -/
theorem cwp_search (h : Inv E B p0 s p ls M J) {Q : Bool → CSt → Prop} {lf f : Nat} (hf : ls.length ≤ lf)
    (hQ : Q (M key).isSome s) : cwp (search E key lf (f + 1)) Q s := by
  have hne : ls ≠ [] := by rintro rfl; have := h.len; simp at this
  unfold search
  rw [cwp_bind, cwp_rdMeta, cwp_bind, cwp_deMeta h.mt, cwp_bind]
  refine cwp_searchLevels h (fun b hb => ?_) (pre := []) rfl hne hf (by simpa using h.rem key)
  cases b with
  | true => rw [if_pos rfl, cwp_pure, hb]; exact hQ
  | false => rw [if_neg (by decide), cwp_bind, cwp_rdMeta, if_pos rfl, cwp_pure, hb]; exact hQ

end PMap.Clevel
