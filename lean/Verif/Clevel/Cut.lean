import Verif.Clevel.Mover

/-!
# What a call that is cut short leaves behind

Every store of the table is flushed before the next (clevel:1062-1076, 1136-1138, 1258-1260, 1319-1332, 1350-1352, 1493-1503,
1533-1559), so with one caller a power failure leaves the memory as it was after some access of that caller.
-/

namespace PMap.Clevel

open CP

variable {E : CEnv} {B : Prop} {p0 : Nat} {s : CSt} {p : Nat} {ls : List Nat} {M : Word → Option Word} {J : Word → Prop} {key val : Word}
variable {G : CSt → CSt → Prop}

/-- The memory after the first `n` accesses of a program, or after its last one.  No code of its own. -/
def CP.cut {α : Type} : Nat → CP α → CSt → CSt
  | 0, _, s => s
  | _ + 1, .ret _, s => s
  | _ + 1, .spin, s => s
  | n + 1, .act f k, s => match f s with
    | .ok b t => (k b).cut n t
    | _ => s

/-- What each access keeps holds wherever the program is cut. -/
theorem gcwp_cut {α : Type} {K : CSt → Prop} {Q : α → CSt → Prop} : ∀ {n : Nat} {q : CP α} {s : CSt}, K s →
    gcwp (fun _ t => K t) q Q s → K (q.cut n s)
  | 0, _, _, hs, _ => hs
  | _ + 1, .ret _, _, hs, _ => hs
  | _ + 1, .spin, _, hs, _ => hs
  | n + 1, .act f k, s, hs, h => by
    rw [gcwp] at h
    rw [CP.cut]
    revert h
    cases f s with
    | ok b t =>
      rintro ⟨h1, h2⟩
      refine gcwp_cut ?_ h2
      rcases h1 with rfl | h1
      · exact hs
      · exact h1
    | oom => exact fun _ => hs
    | ub => exact fun _ => hs
    | abort => exact fun _ => hs

theorem gcwp_weaken {α : Type} {G' : CSt → CSt → Prop} (hG : ∀ s t, G s t → G' s t) {Q : α → CSt → Prop} :
    ∀ {q : CP α} {s : CSt}, gcwp G q Q s → gcwp G' q Q s
  | .ret _, _, h => h
  | .spin, _, h => h
  | .act f k, s, h => by
    rw [gcwp] at h ⊢
    revert h
    cases f s with
    | ok b t => exact fun h => ⟨h.1.imp_right (hG _ _), gcwp_weaken hG h.2⟩
    | oom => exact id
    | ub => exact id
    | abort => exact id

section atoms

variable {l b j c u : Nat}

theorem gcwp_rdMeta {Q : Nat → CSt → Prop} : gcwp G rdMeta Q s ↔ Q s.root s := by simp [rdMeta, atom, gcwp]
theorem gcwp_rdExp {Q : Nat → CSt → Prop} : gcwp G rdExp Q s ↔ Q s.exp s := by simp [rdExp, atom, gcwp]
theorem gcwp_deMeta {Q : Meta → CSt → Prop} {m : Nat} {X : Meta} (h : s.mt m = some X) : gcwp G (deMeta m) Q s ↔ Q X s := by
  simp [deMeta, atom, gcwp, h]

theorem gcwp_rdCap {Q : Nat → CSt → Prop} (h : geo s l = some (c, u)) : gcwp G (rdCap l) Q s ↔ Q c s := by
  obtain ⟨L, hL, rfl, -, -⟩ := geo_some h
  simp [rdCap, atom, gcwp, hL]

theorem gcwp_rdUp {Q : Nat → CSt → Prop} (h : geo s l = some (c, u)) : gcwp G (rdUp l) Q s ↔ Q u s := by
  obtain ⟨L, hL, -, rfl, -⟩ := geo_some h
  simp [rdUp, atom, gcwp, hL]

theorem gcwp_rdSlot {Q : Word → CSt → Prop} (h : geo s l = some (c, u)) (hb : b < c) (hj : j < assocNum) :
    gcwp G (rdSlot l b j) Q s ↔ Q (word s l b j) s := by
  obtain ⟨L, hL, rfl, -, hw⟩ := geo_some h
  simp [rdSlot, atom, gcwp, hL, hb, hj, hw]

theorem gcwp_rdKey {Q : Word → CSt → Prop} {w : Word} {e : Word × Word} (h : s.heap (getOffset w) = some e) :
    gcwp G (rdKey w) Q s ↔ Q e.1 s := by
  simp [rdKey, atom, gcwp, h]

theorem gcwp_casSlot {Q : Bool → CSt → Prop} {new : Word} (h : geo s l = some (c, u)) (hb : b < c) (hj : j < assocNum)
    (hG : G s (s.setSlot l b j new)) (hQ : Q true (s.setSlot l b j new)) : gcwp G (casSlot l b j (word s l b j) new) Q s := by
  obtain ⟨L, hL, rfl, -, hw⟩ := geo_some h
  simp only [casSlot, atom, gcwp, hL, hb, hj, hw, and_self, if_true]
  exact ⟨.inr hG, hQ⟩

theorem gcwp_freeEntry {Q : Unit → CSt → Prop} {w : Word} {e : Word × Word} (h : s.heap (getOffset w) = some e)
    (hG : G s { s with heap := fun a => if a = getOffset w then none else s.heap a })
    (hQ : Q () { s with heap := fun a => if a = getOffset w then none else s.heap a }) : gcwp G (freeEntry w) Q s := by
  simp only [freeEntry, atom, gcwp, h]
  exact ⟨.inr hG, hQ⟩

theorem gcwp_freeTmpEntry {Q : Unit → CSt → Prop} {t : Nat} {o : Word} {e : Word × Word} (ht : t < s.tn) (ho : s.tmpE t = o)
    (he : s.heap o = some e) (hG : G s (s.dropEntry t o)) (hQ : Q () (s.dropEntry t o)) : gcwp G (freeTmpEntry t) Q s := by
  simp only [freeTmpEntry, atom, gcwp, if_pos ht, ho, he]
  exact ⟨.inr hG, hQ⟩

theorem gcwp_newEntry {Q : Word → CSt → Prop} {t : Nat} (ht : t < s.tn)
    (hQ : ∀ o, GoodOffset o → s.heap o = none → G s (s.addEntry t o key val) ∧ Q o (s.addEntry t o key val)) :
    gcwp G (newEntry E t key val) Q s := by
  by_cases hc : GoodOffset (E.pick s.allocs) ∧ s.heap (E.pick s.allocs) = none
  · simp only [newEntry, atom, gcwp, if_pos ht, if_pos hc]
    exact ⟨.inr (hQ _ hc.1 hc.2).1, (hQ _ hc.1 hc.2).2⟩
  · simp only [newEntry, atom, gcwp, if_pos ht, if_neg hc]

theorem gcwp_newLevel {Q : Unit → CSt → Prop} {t c : Nat} (ht : t < s.tn)
    (hQ : ∀ s', s' = { s with lv := fun l => if l = s.nl + 1 then some ⟨c, 0, fun _ _ => 0#64⟩ else s.lv l, nl := s.nl + 1, tmpL := fun t' => if t' = t then s.nl + 1 else s.tmpL t' } →
      c ≤ E.pool → G s s' ∧ Q () s') : gcwp G (newLevel E t c) Q s := by
  by_cases hc : c ≤ E.pool
  · simp only [newLevel, atom, gcwp, if_pos ht, if_pos hc]
    exact ⟨.inr (hQ _ rfl hc).1, (hQ _ rfl hc).2⟩
  · simp only [newLevel, atom, gcwp, if_pos ht, if_neg hc]

theorem gcwp_rdTmpLevel {Q : Nat → CSt → Prop} {t : Nat} (ht : t < s.tn) : gcwp G (rdTmpLevel t) Q s ↔ Q (s.tmpL t) s := by
  simp [rdTmpLevel, atom, gcwp, ht]

theorem gcwp_rdTmpMeta {Q : Nat → CSt → Prop} {t : Nat} (ht : t < s.tn) : gcwp G (rdTmpMeta t) Q s ↔ Q (s.tmpM t) s := by
  simp [rdTmpMeta, atom, gcwp, ht]

theorem gcwp_newMeta {Q : Unit → CSt → Prop} {t : Nat} {X : Meta} (ht : t < s.tn)
    (hQ : ∀ s', s' = { s with mt := fun m => if m = s.nm + 1 then some X else s.mt m, nm := s.nm + 1, tmpM := fun t' => if t' = t then s.nm + 1 else s.tmpM t' } →
      G s s' ∧ Q () s') : gcwp G (newMeta t X) Q s := by
  simp only [newMeta, atom, gcwp, if_pos ht]
  exact ⟨.inr (hQ _ rfl).1, (hQ _ rfl).2⟩

theorem gcwp_casUp {Q : Bool → CSt → Prop} {l n : Nat} {L : Level} (hL : s.lv l = some L) (h0 : L.up = 0)
    (hQ : ∀ s', s' = { s with lv := fun l' => if l' = l then some { L with up := n } else s.lv l' } → G s s' ∧ Q true s') :
    gcwp G (casUp l n) Q s := by
  simp only [casUp, atom, gcwp, hL, h0, if_true]
  exact ⟨.inr (hQ _ rfl).1, (hQ _ rfl).2⟩

theorem gcwp_casMeta {Q : Bool → CSt → Prop} {m n : Nat} (hm : s.root = m) (hG : G s { s with root := n })
    (hQ : Q true { s with root := n }) : gcwp G (casMeta m n) Q s := by
  simp only [casMeta, atom, gcwp, hm, if_true]
  exact ⟨.inr hG, hQ⟩

end atoms

/-! ### The parts that only read -/

theorem gcwp_searchSlot {Q : Bool → CSt → Prop} {l b j : Nat} (hu : InUse s ls l b j) (hs : SlotOK E s l b j)
    (h1 : ∀ v, view s l b j = some (key, v) → Q true s) (h2 : (∀ v, view s l b j ≠ some (key, v)) → Q false s) :
    gcwp G (searchSlot l b j (getPartial (E.hash key)) key) Q s := by
  obtain ⟨hl, ⟨c, u, hg, hb⟩, hj⟩ := hu
  unfold searchSlot
  rw [gcwp_bind, gcwp_rdSlot hg hb hj]
  by_cases h0 : getOffset (word s l b j) = 0#64
  · have hn : ∀ v, view s l b j ≠ some (key, v) := fun v => by rw [view_of_zero h0]; simp
    split
    · rw [gcwp_bind, gcwp_rdSlot hg hb hj, if_neg (not_not.2 h0), gcwp_pure]
      exact h2 hn
    · exact h2 hn
  · obtain ⟨k, v, c', u', hv, hh, ht, -, -⟩ := hs.of_ne h0
    split
    · rw [gcwp_bind, gcwp_rdSlot hg hb hj, if_pos h0, gcwp_bind, gcwp_rdSlot hg hb hj, gcwp_bind, gcwp_rdKey hh, gcwp_pure]
      by_cases hk : k = key
      · rw [decide_eq_true hk]
        exact h1 v (by rw [hv, hk])
      · rw [decide_eq_false hk]
        exact h2 fun v' e => hk (by rw [hv] at e; cases e; rfl)
    · rename_i ht'
      exact h2 fun v' e => ht' (by rw [hv] at e; cases e; exact ht)

theorem gcwp_searchBucket (h : Inv E B p0 s p ls M J) {Q : Option Nat → CSt → Prop} {l b : Nat} {rest : List Pos} :
    ∀ {js : List Nat}, (∀ j ∈ js, InUse s ls l b j) → Rem s ls key (js.map (fun j => Pos.mk l b j) ++ rest) →
      (∀ j, (M key).isSome → Q (some j) s) → (Rem s ls key rest → Q none s) →
      gcwp G (searchBucket l b (getPartial (E.hash key)) key js) Q s
  | [], _, hr, _, h2 => h2 (by simpa using hr)
  | j :: js, hj, hr, h1, h2 => by
    unfold searchBucket
    rw [gcwp_bind]
    have hu := hj j (by simp)
    refine gcwp_searchSlot hu (h.slots _ _ _ hu) (fun v hv => ?_) (fun hv => ?_)
    · rw [if_pos rfl]
      exact h1 j (by rw [(h.rep key v).2 ⟨l, b, j, hu, hv⟩]; rfl)
    · rw [if_neg (by decide)]
      exact gcwp_searchBucket h (fun j' h' => hj j' (by simp [h'])) (Rem.tail hr hv) h1 h2

theorem gcwp_searchLevels (h : Inv E B p0 s p ls M J) {Q : Bool → CSt → Prop} (hQ : ∀ b, (b = (M key).isSome) → Q b s) :
    ∀ {suf pre : List Nat} {f : Nat}, ls = pre ++ suf → suf ≠ [] → suf.length ≤ f →
      Rem s ls key (cands E key (p + pre.length) suf) → gcwp G (searchLevels E s.root key f (suf.headD 0)) Q s
  | [], _, _, _, hs, _, _ => absurd rfl hs
  | l :: r, pre, 0, _, _, hf, _ => by simp at hf
  | l :: r, pre, f + 1, he, _, hf, hr => by
    have hi : ls[pre.length]? = some l := by rw [he]; simp
    obtain ⟨u, hg⟩ := chain_get h.chain hi
    have hc := chain_suffix (he ▸ h.chain) (by simp : l :: r ≠ [])
    unfold searchLevels
    simp only [List.headD_cons]
    rw [gcwp_bind, gcwp_rdCap hg, gcwp_bind]
    simp only [cands, slotsOf] at hr
    have hsome : ∀ {v}, (M key).isSome = true → (v = true → v = (M key).isSome) := fun h1 h2 => by rw [h1, h2]
    refine gcwp_searchBucket h (fun j hj => h.inUse (key := key) hi (.inl rfl) (List.mem_range.1 hj)) hr
      (fun j hm => hQ true (hsome hm rfl)) (fun hr => ?_)
    rw [gcwp_bind]
    refine gcwp_searchBucket h (fun j hj => h.inUse (key := key) hi (.inr rfl) (List.mem_range.1 hj)) hr
      (fun j hm => hQ true (hsome hm rfl)) (fun hr => ?_)
    rw [gcwp_bind, gcwp_rdUp (chain_head hc), gcwp_bind, gcwp_deMeta h.mt]
    refine gcwp_if (fun hl => ?_) (fun hl => ?_)
    all_goals
      simp only at hl
      rw [he, last_ne (he ▸ h.nodup)] at hl
    swap
    · have hlast := not_not.1 hl
      subst hlast
      exact hQ false (by rw [h.none_of_rem hr]; rfl)
    · have hlast := hl
      refine gcwp_searchLevels h hQ (pre := pre ++ [l]) (by simp [he]) hlast (by simpa using hf) ?_
      rw [List.length_append, List.length_singleton, ← Nat.add_assoc]
      exact hr

theorem gcwp_search (h : Inv E B p0 s p ls M J) {Q : Bool → CSt → Prop} {lf f : Nat} (hf : ls.length ≤ lf)
    (hQ : Q (M key).isSome s) : gcwp G (search E key lf (f + 1)) Q s := by
  have hne : ls ≠ [] := by rintro rfl; have := h.len; simp at this
  unfold search
  rw [gcwp_bind, gcwp_rdMeta, gcwp_bind, gcwp_deMeta h.mt, gcwp_bind]
  refine gcwp_searchLevels h (fun b hb => ?_) (pre := []) rfl hne hf (by simpa using h.rem key)
  cases b with
  | true => rw [if_pos rfl, gcwp_pure, hb]; exact hQ
  | false => rw [if_neg (by decide), gcwp_bind, gcwp_rdMeta, if_pos rfl, gcwp_pure, hb]; exact hQ

theorem gcwp_collect (h : Inv E B p0 s p ls M J) {Q : List Nat → CSt → Prop} (hQ : Q ls s) :
    ∀ {suf pre : List Nat} {f : Nat}, ls = pre ++ suf → suf ≠ [] → suf.length ≤ f →
      gcwp G (collect s.root f (suf.headD 0) pre) Q s
  | [], _, _, _, hs, _ => absurd rfl hs
  | l :: r, pre, 0, _, _, hf => by simp at hf
  | l :: r, pre, f + 1, he, _, hf => by
    have hc := chain_suffix (he ▸ h.chain) (by simp : l :: r ≠ [])
    have hlen := h.levels
    unfold collect
    rw [if_pos (by rw [he] at hlen; simp at hlen; omega)]
    simp only [List.headD_cons]
    rw [gcwp_bind, gcwp_rdUp (chain_head hc), gcwp_bind, gcwp_deMeta h.mt]
    refine gcwp_if (fun hl => ?_) (fun hl => ?_)
    all_goals
      simp only at hl
      rw [he, last_ne (he ▸ h.nodup)] at hl
    swap
    · have hlast := not_not.1 hl
      subst hlast
      rw [gcwp_pure, ← he]
      exact hQ
    · exact gcwp_collect h hQ (pre := pre ++ [l]) (by simp [he]) hl (by simpa using hf)

theorem gcwp_findSlot (h : Inv E B p0 s p ls M J) {Q : FStep → CSt → Prop} {right fixDup emp : Bool} {i l b j : Nat} {f : Fd}
    {rem : List Pos} (hi : ls[i]? = some l) (hb : Home E key (2 ^ (p + i)) b) (hj : j < assocNum)
    (hf : FOK E s p ls key f (⟨l, b, j⟩ :: rem)) (hn : Pos.mk l b j ∉ rem)
    (hnext : ∀ f' emp', FOK E s p ls key f' rem →
      ((AtLevel i f ∨ (emp = false ∧ getOffset (word s l b j) = 0#64)) → AtLevel i f') → Q (.next f' emp') s)
    (hfound : fixDup = false → ∀ f', f'.res.isFound = true → (M key).isSome → Q (.found f') s) :
    gcwp G (findSlot ls right i l b j (getPartial (E.hash key)) key fixDup f emp) Q s := by
  have hu := h.inUse hi hb hj
  obtain ⟨hl, ⟨c, u, hg, hbc⟩, -⟩ := id hu
  have hskip : (∀ v, view s l b j ≠ some (key, v)) → FOK E s p ls key f rem := fun hv =>
    ⟨fun e => (hf.nf e).tail hv, hf.vac, fun e => by
      obtain ⟨e', v, h1, h2, h3, h4, h5, h6⟩ := hf.fnd e
      exact ⟨e', v, h1, h2, h3, h4, fun hm => h5 (by simp [hm]), h6⟩⟩
  unfold findSlot
  rw [gcwp_bind, gcwp_rdSlot hg hbc hj]
  refine gcwp_if (fun h0 => ?_) (fun h0 => ?_)
  · have hv : ∀ v, view s l b j ≠ some (key, v) := fun v => by rw [view_of_zero h0]; simp
    refine gcwp_if (fun hc => ?_) (fun hc => ?_)
    · simp only [Bool.and_eq_true, Bool.not_eq_true'] at hc
      refine gcwp_if (fun hr => ?_) (fun hr => ?_)
      · simp only [Bool.and_eq_true, decide_eq_true_eq] at hr
        exact hnext f true (hskip hv) fun _ => .inr ⟨by rw [hr.1.1.2]; rfl, hr.1.2⟩
      · have hvac : (if right then FCode.vacRight else FCode.vacLeft).isVac = true := by cases right <;> rfl
        have hnf : (if right then FCode.vacRight else FCode.vacLeft).isFound = false := by cases right <;> rfl
        refine hnext _ true ⟨fun _ => (hf.nf hc.1).tail hv, fun _ => ⟨⟨l, b, j⟩, rfl, hi, hb, hj, h0, rfl⟩, fun e => ?_⟩
          fun _ => .inr ⟨hvac, rfl⟩
        dsimp only at e
        rw [hnf] at e
        cases e
    · refine hnext f emp (hskip hv) ?_
      rintro (ha | ⟨he, -⟩)
      · exact ha
      · rw [he] at hc
        simp at hc
        exact .inl hc
  · obtain ⟨k, v, c', u', hv, hh, ht, -, -⟩ := (h.slots l b j hu).of_ne h0
    have hstay : (∀ v, view s l b j ≠ some (key, v)) → Q (.next f emp) s := fun hv' =>
      hnext f emp (hskip hv') fun ha => ha.elim id fun ha => absurd ha.2 h0
    rw [gcwp_bind, gcwp_rdSlot hg hbc hj]
    refine gcwp_if (fun hc => ?_) (fun _ => ?_)
    · exact hstay fun v' e => hc (by rw [hv] at e; cases e; exact ht)
    rw [gcwp_bind, gcwp_rdKey hh]
    refine gcwp_if (fun hc => ?_) (fun hc => ?_)
    · exact hstay fun v' e => hc (by rw [hv] at e; cases e; rfl)
    have hk : k = key := not_not.1 hc
    subst hk
    have hcode : (if right then FCode.foundRight else FCode.foundLeft).isFound = true := by cases right <;> rfl
    have hnv : (if right then FCode.foundRight else FCode.foundLeft).isVac = false := by cases right <;> rfl
    refine gcwp_if (fun hc => ?_) (fun hc => ?_)
    · exact hfound (by simpa using hc) _ hcode (by rw [(h.rep k v).2 ⟨l, b, j, hu, hv⟩]; rfl)
    refine gcwp_if (fun hc' => ?_) (fun hc' => ?_)
    · obtain ⟨e, v', h1, h2, h3, h4, h5, h6⟩ := hf.fnd hc'
      obtain ⟨e1, e2, e3⟩ := h.uniq _ _ _ _ _ _ h2 hu k v' v h3 hv
      exact absurd (by cases e; simp_all) h5
    · refine hnext _ emp ⟨fun e => ?_, fun e => ?_, fun _ => ⟨⟨l, b, j⟩, v, rfl, hu, hv, rfl, hn, hi, rfl⟩⟩ fun _ => .inl hcode
      · dsimp only at e
        rw [hcode] at e
        cases e
      · dsimp only at e
        rw [hnv] at e
        cases e

theorem gcwp_findBucket (h : Inv E B p0 s p ls M J) {Q : FStep → CSt → Prop} {right fixDup : Bool} {i l b : Nat}
    {rest : List Pos} (hi : ls[i]? = some l) (hb : Home E key (2 ^ (p + i)) b)
    (hfound : fixDup = false → ∀ f', f'.res.isFound = true → (M key).isSome → Q (.found f') s) :
    ∀ {js : List Nat} {f : Fd} {emp : Bool}, (∀ j ∈ js, j < assocNum) →
      FOK E s p ls key f (js.map (fun j => Pos.mk l b j) ++ rest) → (js.map (fun j => Pos.mk l b j) ++ rest).Nodup →
      (∀ f' emp', FOK E s p ls key f' rest →
        ((AtLevel i f ∨ (emp = false ∧ ∃ j, js.head? = some j ∧ getOffset (word s l b j) = 0#64)) → AtLevel i f') →
        Q (.next f' emp') s) →
      gcwp G (findBucket ls right i l b (getPartial (E.hash key)) key fixDup js f emp) Q s
  | [], f, emp, _, hf, _, hnext => hnext f emp (by simpa using hf) (by simp)
  | j :: js, f, emp, hj, hf, hd, hnext => by
    unfold findBucket
    rw [gcwp_bind]
    simp only [List.map_cons, List.cons_append] at hf hd
    refine gcwp_findSlot h hi hb (hj j (by simp)) hf (List.nodup_cons.1 hd).1 (fun f' emp' hf' ha => ?_)
      (fun hx f' h1 h2 => hfound hx f' h1 h2)
    refine gcwp_findBucket h hi hb hfound (fun j' h' => hj j' (by simp [h'])) hf' (List.nodup_cons.1 hd).2 (fun f2 e2 hf2 ha2 => ?_)
    refine hnext f2 e2 hf2 fun ha0 => ha2 (.inl (ha ?_))
    rcases ha0 with ha0 | ⟨he, j', hj', hz⟩
    · exact .inl ha0
    · simp at hj'
      subst hj'
      exact .inr ⟨he, hz⟩

theorem gcwp_findLevels (h : Inv E B p0 s p ls M J) {Q : FStep → CSt → Prop} {fixDup : Bool}
    (hfound : fixDup = false → ∀ f', f'.res.isFound = true → (M key).isSome → Q (.found f') s) :
    ∀ {suf pre : List Nat} {f : Fd}, ls = pre ++ suf →
      FOK E s p ls key f (cands E key (p + pre.length) suf) →
      (∀ f', FOK E s p ls key f' [] → (suf ≠ [] → getOffset (word s (ls.getLastD 0)
          (firstIndex (E.hash key) (2 ^ (p + ls.length - 1))) 0) = 0#64 → AtLevel (ls.length - 1) f') → (suf = [] → f' = f) →
        ∀ e, Q (.next f' e) s) →
      gcwp G (findLevels E ls key fixDup suf pre.length f) Q s
  | [], pre, f, he, hf, hnext => hnext f (by simpa [cands] using hf) (by simp) (fun _ => rfl) false
  | l :: r, pre, f, he, hf, hnext => by
    have hi : ls[pre.length]? = some l := by rw [he]; simp
    obtain ⟨u, hg⟩ := chain_get h.chain hi
    have hc := chain_suffix (he ▸ h.chain) (by simp : l :: r ≠ [])
    have hd := nodup_cands (E := E) (k := key) (p := p + pre.length) (ls := l :: r)
      (by have := h.base; have := h.grown; omega) (List.nodup_append.1 (he ▸ h.nodup)).2.1
    unfold findLevels
    rw [gcwp_bind, gcwp_rdCap hg, gcwp_bind]
    simp only [cands, slotsOf] at hf hd
    refine gcwp_findBucket h hi (.inl rfl) ?_ (fun j hj => List.mem_range.1 hj) hf hd (fun f1 e1 hf1 ha1 => ?_)
    · exact fun hx f' h1 h2 => hfound hx f' h1 h2
    dsimp only
    rw [gcwp_bind]
    refine gcwp_findBucket h hi (.inr rfl) ?_ (fun j hj => List.mem_range.1 hj) hf1 (List.nodup_append.1 hd).2.1
      (fun f2 e2 hf2 ha2 => ?_)
    · exact fun hx f' h1 h2 => hfound hx f' h1 h2
    dsimp only
    have := gcwp_findLevels h hfound (suf := r) (pre := pre ++ [l]) (f := f2) (by simp [he])
      (by rw [List.length_append, List.length_singleton, ← Nat.add_assoc]; exact hf2) (fun f' hf' ha' hs' e => ?_)
    · rw [List.length_append, List.length_singleton] at this
      exact this
    · refine hnext f' hf' (fun _ hz => ?_) (by simp) e
      by_cases hlast : r = []
      · rw [hs' hlast]
        subst hlast
        have e1 : ls.getLastD 0 = l := by
          rw [he]
          simp [List.getLastD_eq_getLast?]
        have e2 : ls.length - 1 = pre.length := by rw [he]; simp
        have e3 : p + ls.length - 1 = p + pre.length := by rw [he]; simp
        rw [e1, e3] at hz
        rw [e2]
        exact ha2 (.inl (ha1 (.inr ⟨rfl, 0, rfl, hz⟩)))
      · exact ha' hlast hz

theorem gcwp_find (h : Inv E B p0 s p ls M J) {Q : Fd × Nat → CSt → Prop} {fixDup : Bool} {lf f ln : Nat} {old : Word}
    (hf : ls.length ≤ lf)
    (hfound : fixDup = false → ∀ f', f'.res.isFound = true → (M key).isSome → Q (f', s.root) s)
    (hnext : ∀ f', FOK E s p ls key f' [] → (getOffset (word s (ls.getLastD 0)
          (firstIndex (E.hash key) (2 ^ (p + ls.length - 1))) 0) = 0#64 → AtLevel (ls.length - 1) f') → Q (f', s.root) s) :
    gcwp G (find E key fixDup lf (f + 1) ln old s.root) Q s := by
  have hne : ls ≠ [] := by rintro rfl; have := h.len; simp at this
  unfold find
  rw [gcwp_bind, gcwp_deMeta h.mt, gcwp_bind]
  refine gcwp_collect h ?_ (pre := []) rfl hne hf
  rw [gcwp_bind]
  refine gcwp_findLevels h (pre := []) ?_ rfl
    ⟨fun _ => (by simpa using h.rem key), fun e => (by cases e), fun e => (by cases e)⟩ (fun f' hf' ha _ e => ?_)
  · exact fun hx f' h1 h2 => hfound hx f' h1 h2
  dsimp only
  rw [gcwp_bind, gcwp_rdMeta, if_pos rfl]
  exact hnext f' hf' (ha hne)

/-! ### States between the accesses of a call -/

/-- What the invariant does not speak of may differ.  Helper. -/
theorem Inv.eqv {s' : CSt} (h : Inv E B p0 s p ls M J) (h1 : s'.heap = s.heap) (h2 : s'.lv = s.lv) (h3 : s'.nl = s.nl) (h4 : s'.mt = s.mt)
    (h5 : s'.nm = s.nm) (h6 : s'.root = s.root) (h7 : s'.exp = s.exp) (h8 : s'.tn = s.tn) : Inv E B p0 s' p ls M J := by
  obtain ⟨a, b, c, d, e, f, g, i, j, k, l, m⟩ := s
  obtain ⟨a', b', c', d', e', f', g', i', j', k', l', m'⟩ := s'
  dsimp only at h1 h2 h3 h4 h5 h6 h7 h8
  subst h1 h2 h3 h4 h5 h6 h7 h8
  exact ⟨h.base, h.grown, h.pool, h.fit, h.chain, h.nodup, h.len, h.mt, h.nl, h.nm, h.tn, h.slots, h.uniq, h.rep, h.live, h.junk, h.exp,
    h.exp2, h.done, h.pos, h.gone, h.fresh, h.mfresh⟩

/-- A slot emptied, its entry not yet freed. -/
theorem Inv.unlink {l b j : Nat} (h : Inv E B p0 s p ls M J) (hu : InUse s ls l b j) (hv : view s l b j = some (key, val)) :
    Inv E B p0 (s.setSlot l b j 0#64) p ls (delKey M key) (fun x => J x ∨ x = getOffset (word s l b j)) := by
  obtain ⟨h0, hh⟩ := view_some hv
  have hg := (h.live _ _ hh).1
  have h1 := (h.clear hu hv).alloc (key := key) (val := val) (t := 0) (o := getOffset (word s l b j)) hg (by simp)
  refine h1.eqv ?_ rfl rfl rfl rfl rfl rfl rfl
  funext a
  simp only [CSt.addEntry, CSt.setSlot]
  by_cases ha : a = getOffset (word s l b j)
  · rw [if_pos ha, ha, hh]
  · rw [if_neg ha, if_neg ha]

/-- A level allocated, not yet linked. -/
theorem Inv.spare (h : Inv E B p0 s p ls M J) {t c : Nat} : Inv E B p0 { s with lv := fun l => if l = s.nl + 1 then some ⟨c, 0, fun _ _ => 0#64⟩ else s.lv l, nl := s.nl + 1, tmpL := fun t' => if t' = t then s.nl + 1 else s.tmpL t' } p ls M J := by
  generalize hs' : ({ s with lv := fun l => if l = s.nl + 1 then some ⟨c, 0, fun _ _ => 0#64⟩ else s.lv l, nl := s.nl + 1, tmpL := fun t' => if t' = t then s.nl + 1 else s.tmpL t' } : CSt) = s'
  have hgeo : ∀ l, l ≠ s.nl + 1 → geo s' l = geo s l := fun l hl => by rw [← hs']; simp [geo, hl]
  have hw : ∀ l b j, word s' l b j = if l = s.nl + 1 then 0#64 else word s l b j := fun l b j => by
    rw [← hs']
    by_cases hl : l = s.nl + 1 <;> simp [word, hl]
  have hold : ∀ l ∈ ls, l ≠ s.nl + 1 := fun l hl e => by have := h.nl l hl; omega
  have hheap : s'.heap = s.heap := by rw [← hs']
  have hmt : s'.mt = s.mt := by rw [← hs']
  have hroot : s'.root = s.root := by rw [← hs']
  have huse : ∀ l b j, InUse s' ls l b j ↔ InUse s ls l b j := by
    intro l b j
    constructor
    · rintro ⟨h1, h2, h3⟩
      rw [hgeo l (hold l h1)] at h2
      exact ⟨h1, h2, h3⟩
    · rintro ⟨h1, h2, h3⟩
      rw [← hgeo l (hold l h1)] at h2
      exact ⟨h1, h2, h3⟩
  have hwu : ∀ l b j, InUse s ls l b j → word s' l b j = word s l b j := fun l b j hu => by rw [hw, if_neg (hold l hu.1)]
  have hview : ∀ l b j, InUse s ls l b j → view s' l b j = view s l b j := fun l b j hu => by unfold view; rw [hwu l b j hu, hheap]
  refine ⟨h.base, h.grown, h.pool, h.fit, chain_congr (fun l hl => hgeo l (hold l hl)) h.chain, h.nodup, h.len, by rw [hmt, hroot]; exact h.mt,
    fun l hl => ?_, ?_, ?_, fun l b j hu => ?_, fun l b j l' b' j' hu hu' k v v' hv hv' => ?_, fun k v => ?_, fun o e he => ?_,
    fun o ho => ?_, ?_, ?_, fun hB b j hb hj => ?_, h.pos, fun l c' u hl hg b j hb hj => ?_, fun l hl => ?_, fun m hm => ?_⟩
  · have := h.nl l hl
    rw [← hs']
    dsimp only
    omega
  · rw [← hs']
    exact h.nm
  · rw [← hs']
    exact h.tn
  · have hu' := (huse _ _ _).1 hu
    unfold SlotOK
    rw [hwu _ _ _ hu', hheap, hgeo l (hold l hu'.1)]
    exact h.slots l b j hu'
  · have h1 := (huse _ _ _).1 hu
    have h2 := (huse _ _ _).1 hu'
    rw [hview _ _ _ h1] at hv
    rw [hview _ _ _ h2] at hv'
    exact h.uniq _ _ _ _ _ _ h1 h2 k v v' hv hv'
  · rw [h.rep]
    constructor
    · rintro ⟨l, b, j, hu, hv⟩
      exact ⟨l, b, j, (huse _ _ _).2 hu, by rw [hview _ _ _ hu, hv]⟩
    · rintro ⟨l, b, j, hu, hv⟩
      have hu' := (huse _ _ _).1 hu
      exact ⟨l, b, j, hu', by rw [← hview _ _ _ hu', hv]⟩
  · rw [hheap] at he
    obtain ⟨h1, h2⟩ := h.live o e he
    refine ⟨h1, h2.imp_right ?_⟩
    rintro ⟨l, b, j, hu, hx⟩
    exact ⟨l, b, j, (huse _ _ _).2 hu, by rw [hwu _ _ _ hu, hx]⟩
  · obtain ⟨h1, h2⟩ := h.junk o ho
    refine ⟨by rw [hheap]; exact h1, fun l b j hu => ?_⟩
    have hu' := (huse _ _ _).1 hu
    rw [hwu _ _ _ hu']
    exact h2 l b j hu'
  · rw [← hs']
    exact h.exp
  · rw [← hs']
    exact h.exp2
  · rw [hw]
    split
    · rfl
    · exact h.done hB b j (by rw [← hs'] at hb; exact hb) hj
  · rw [hw]
    split
    · rfl
    · rename_i hn
      exact h.gone l c' u hl (by rw [← hgeo l hn]; exact hg) b j hb hj
  · have hl' : s.nl + 1 < l := by rw [← hs'] at hl; exact hl
    rw [hgeo l (by omega)]
    exact h.fresh l (by omega)
  · rw [hmt]
    exact h.mfresh m (by rw [← hs'] at hm; exact hm)

/-- The top level of the table already has a successor, which the metadata does not mention (between clevel:1319 and 1350).  No code of
its own. -/
def Linked (s : CSt) : Prop := ∃ X L, s.mt s.root = some X ∧ s.lv X.first = some L ∧ L.up ≠ 0

theorem Inv.not_linked (h : Inv E B p0 s p ls M J) : ¬ Linked s := by
  rintro ⟨X, L, h1, h2, h3⟩
  rw [h.mt] at h1
  cases h1
  have := chain_last h.chain
  obtain ⟨L', hL', -, hup, -⟩ := geo_some this
  dsimp only at h2
  rw [h2] at hL'
  cases hL'
  exact h3 hup

/-! ### Erase -/

theorem gcwp_eraseSlot {K : CSt → Prop} {Q : Bool → CSt → Prop} {l b j r n : Nat} {rem : List Pos} {d : Bool}
    (hK : ∀ t (J' : Word → Prop) {o : Word}, (∀ x, J' x ↔ J x ∨ x = o) → Inv E B p0 t p ls (delKey M key) J' → t.tn = n → K t)
    (hK0 : ∀ t, Inv E B p0 t p ls (delKey M key) J → t.tn = n → K t)
    (h : Erasing E B p0 p ls M J key r n (⟨l, b, j⟩ :: rem) d s) (hu : InUse s ls l b j)
    (hQ : ∀ x t, Erasing E B p0 p ls M J key r n rem (d || x) t → Q x t) :
    gcwp (fun _ t => K t) (eraseSlot l b j (getPartial (E.hash key)) key) Q s := by
  obtain ⟨-, M', hi⟩ := id h.inv
  have hnot : (∀ v, view s l b j ≠ some (key, v)) → Q false s := by
    intro hn
    refine hQ false s ⟨h.1, ?_⟩
    rw [Bool.or_false]
    rcases h.2 with ⟨hd, h1, h2⟩ | h2
    · exact .inl ⟨hd, h1, h2.tail hn⟩
    · exact .inr h2
  obtain ⟨hl, ⟨c, u, hg, hb⟩, hj⟩ := id hu
  unfold eraseSlot
  rw [gcwp_bind, gcwp_rdSlot hg hb hj]
  refine gcwp_if (fun hc => ?_) (fun hc => ?_)
  · obtain ⟨k, v, c', u', hv, hh, ht, -, -⟩ := (hi.slots l b j hu).of_ne hc.2
    rw [gcwp_bind, gcwp_rdKey hh]
    refine gcwp_if (fun hk => ?_) (fun hk => ?_)
    · dsimp only at hk
      subst hk
      rw [gcwp_bind]
      rcases h.2 with ⟨hd, h1, h2⟩ | ⟨-, -, h1⟩
      · refine gcwp_casSlot hg hb hj (hK _ _ (fun x => Iff.rfl) (h1.unlink hu hv) h.1.2) ?_
        rw [if_pos rfl, gcwp_bind]
        refine gcwp_freeEntry (s := s.setSlot l b j 0#64) (e := (k, v)) hh (hK0 _ (h1.clear hu hv) h.1.2) ?_
        rw [gcwp_pure]
        exact hQ true _ ⟨h.1, .inr ⟨by simp, by rw [(h1.rep k v).2 ⟨l, b, j, hu, hv⟩]; rfl, h1.clear hu hv⟩⟩
      · have := (h1.rep k v).2 ⟨l, b, j, hu, hv⟩
        rw [delKey_self] at this
        cases this
    · exact hnot fun v' e => hk (by rw [hv] at e; cases e; rfl)
  · refine hnot fun v e => ?_
    obtain ⟨h0, hh⟩ := view_some e
    obtain ⟨k, v', c', u', hv, -, ht, -, -⟩ := (hi.slots l b j hu).of_ne h0
    rw [e] at hv
    cases hv
    exact hc ⟨ht, h0⟩

theorem gcwp_eraseBucket {K : CSt → Prop} {Q : Bool → CSt → Prop} {l b r n i : Nat} {rest : List Pos}
    (hK : ∀ t (J' : Word → Prop) {o : Word}, (∀ x, J' x ↔ J x ∨ x = o) → Inv E B p0 t p ls (delKey M key) J' → t.tn = n → K t)
    (hK0 : ∀ t, Inv E B p0 t p ls (delKey M key) J → t.tn = n → K t)
    (hi : ls[i]? = some l)
    (hb : Home E key (2 ^ (p + i)) b) (hQ : ∀ x t, Erasing E B p0 p ls M J key r n rest x t → Q x t) :
    ∀ {js : List Nat} {d : Bool} {s : CSt}, (∀ j ∈ js, j < assocNum) →
      Erasing E B p0 p ls M J key r n (js.map (fun j => Pos.mk l b j) ++ rest) d s →
      gcwp (fun _ t => K t) (eraseBucket l b (getPartial (E.hash key)) key js d) Q s
  | [], d, s, _, h => hQ d s (by simpa using h)
  | j :: js, d, s, hj, h => by
    unfold eraseBucket
    rw [gcwp_bind]
    obtain ⟨-, M', h'⟩ := id h.inv
    refine gcwp_eraseSlot hK hK0 h (h'.inUse hi hb (hj j (by simp))) (fun x t ht => ?_)
    exact gcwp_eraseBucket hK hK0 hi hb hQ (fun j' h' => hj j' (by simp [h'])) ht

theorem gcwp_eraseLevels {K : CSt → Prop} {Q : Bool → CSt → Prop} {r n : Nat}
    (hK : ∀ t (J' : Word → Prop) {o : Word}, (∀ x, J' x ↔ J x ∨ x = o) → Inv E B p0 t p ls (delKey M key) J' → t.tn = n → K t)
    (hK0 : ∀ t, Inv E B p0 t p ls (delKey M key) J → t.tn = n → K t)
    (hQ : ∀ x t, Erasing E B p0 p ls M J key r n [] x t → Q x t) :
    ∀ {suf pre : List Nat} {f : Nat} {d : Bool} {s : CSt}, ls = pre ++ suf → suf ≠ [] → suf.length ≤ f →
      Erasing E B p0 p ls M J key r n (cands E key (p + pre.length) suf) d s →
      gcwp (fun _ t => K t) (eraseLevels E r key f (suf.headD 0) d) Q s
  | [], _, _, _, _, _, hs, _, _ => absurd rfl hs
  | l :: r', pre, 0, _, _, _, _, hf, _ => by simp at hf
  | l :: r', pre, f + 1, d, s, he, _, hf, h => by
    have hi : ls[pre.length]? = some l := by rw [he]; simp
    obtain ⟨-, M', h'⟩ := id h.inv
    obtain ⟨u, hg⟩ := chain_get h'.chain hi
    unfold eraseLevels
    simp only [List.headD_cons]
    rw [gcwp_bind, gcwp_rdCap hg, gcwp_bind]
    simp only [cands, slotsOf] at h
    refine gcwp_eraseBucket hK hK0 hi (.inl rfl) (fun x1 t1 h1 => ?_) (fun j hj => List.mem_range.1 hj) h
    rw [gcwp_bind]
    refine gcwp_eraseBucket hK hK0 hi (.inr rfl) (fun x2 t2 h2 => ?_) (fun j hj => List.mem_range.1 hj) h1
    obtain ⟨hr, M2, h2'⟩ := id h2.inv
    have hc := chain_suffix (he ▸ h2'.chain) (by simp : l :: r' ≠ [])
    rw [gcwp_bind, gcwp_rdUp (chain_head hc), gcwp_bind, gcwp_deMeta (by rw [← hr]; exact h2'.mt)]
    refine gcwp_if (fun hl => ?_) (fun hl => ?_)
    all_goals
      simp only at hl
      rw [he, last_ne (he ▸ h2'.nodup)] at hl
    swap
    · have hlast := not_not.1 hl
      subst hlast
      exact hQ _ _ h2
    · refine gcwp_eraseLevels hK hK0 hQ (pre := pre ++ [l]) (by simp [he]) hl (by simpa using hf) ?_
      rw [List.length_append, List.length_singleton, ← Nat.add_assoc]
      exact h2

theorem gcwp_erase {K : CSt → Prop} (h : Inv E B p0 s p ls M J) {Q : Bool → CSt → Prop} {lf f : Nat}
    (hK : ∀ t (J' : Word → Prop) {o : Word}, (∀ x, J' x ↔ J x ∨ x = o) → Inv E B p0 t p ls (delKey M key) J' → t.tn = s.tn → K t)
    (hK0 : ∀ t, Inv E B p0 t p ls (delKey M key) J → t.tn = s.tn → K t)
    (hf : ls.length ≤ lf)
    (hQ : ∀ t, Inv E B p0 t p ls (delKey M key) J → t.tn = s.tn → Q (M key).isSome t) : gcwp (fun _ t => K t) (erase E key lf (f + 1) false) Q s := by
  have hne : ls ≠ [] := by rintro rfl; have := h.len; simp at this
  unfold erase
  rw [gcwp_bind, gcwp_rdMeta, gcwp_bind, gcwp_deMeta h.mt, gcwp_bind]
  refine gcwp_eraseLevels hK hK0 (r := s.root) (n := s.tn) (fun x t ht => ?_) (pre := []) rfl hne hf
    ⟨⟨rfl, rfl⟩, .inl ⟨rfl, h, by simpa using h.rem key⟩⟩
  rw [gcwp_bind, gcwp_rdMeta, if_pos ht.1.1.symm, gcwp_pure]
  rcases ht.2 with ⟨rfl, h1, h2⟩ | ⟨rfl, hs, h1⟩
  · have hn := h1.none_of_rem h2
    rw [hn] at hQ
    refine hQ t ?_ ht.1.2
    have : delKey M key = M := by
      funext k
      unfold delKey
      split
      · rename_i e
        rw [e, hn]
      · rfl
    rw [this]
    exact h1
  · rw [hs] at hQ
    exact hQ t h1 ht.1.2

/-! ### Insert -/

theorem gcwp_expand {K : CSt → Prop} (h : Inv E B p0 s p ls M J) {Q : Unit → CSt → Prop} {t f : Nat} (ht : t < s.tn)
    (hK1 : ∀ s' ls', Inv E B p0 s' p ls' M J → s'.tn = s.tn → K s') (hK2 : ∀ s', RInv E M s' → Linked s' → s'.tn = s.tn → K s')
    (hQ : ∀ s' n, Inv E B p0 s' p (ls ++ [n]) M J → n ∉ ls → s'.heap = s.heap → s'.tmpE = s.tmpE → s'.tn = s.tn →
      (∀ b j, word s' n b j = 0#64) → Q () s') :
    gcwp (fun _ t => K t) (expand E t s.root (f + 1)) Q s := by
  have hlen := h.len
  have hne : ls ≠ [] := by rintro rfl; simp at hlen
  have hlast := chain_last h.chain
  have htop := getLastD_mem hne
  have hn : s.nl + 1 ∉ ls := fun hm => by have := h.nl _ hm; omega
  have hnt : s.nl + 1 ≠ ls.getLastD 0 := fun e => hn (e ▸ htop)
  obtain ⟨L, hL, hcap, hup, hw⟩ := geo_some hlast
  have hgrow := fun hc => h.grow (t := t) hL hc
  have hlt : L.cap < L.cap * 2 := by
    rw [hcap]
    have := Nat.pos_of_ne_zero (pow_ne_zero (p + ls.length - 1) (show (2 : Nat) ≠ 0 by decide))
    omega
  have h0 := h.rinv
  unfold expand
  rw [gcwp_bind, gcwp_deMeta h.mt, gcwp_bind, gcwp_rdUp hlast, if_pos rfl, gcwp_bind, gcwp_rdCap hlast, ← hcap, gcwp_bind]
  refine gcwp_newLevel ht fun s1 hs1 hfit => ⟨?_, ?_⟩
  · rw [hs1]
    exact hK1 _ _ h.spare rfl
  have hR1 : RInv E M s1 := by rw [hs1]; exact h.spare.rinv
  have hL1 : s1.lv (ls.getLastD 0) = some L := by rw [hs1]; simp only [if_neg (Ne.symm hnt)]; exact hL
  have htn1 : s1.tn = s.tn := by rw [hs1]
  have htl1 : s1.tmpL t = s.nl + 1 := by rw [hs1]; simp
  have hmt1 : s1.mt = s.mt := by rw [hs1]
  have hroot1 : s1.root = s.root := by rw [hs1]
  have hnm1 : s1.nm = s.nm := by rw [hs1]
  rw [gcwp_bind, gcwp_rdTmpLevel (by rw [htn1]; exact ht), htl1, gcwp_bind]
  refine gcwp_casUp (L := L) hL1 hup fun s2 hs2 => ?_
  have hR2 : RInv E M s2 := by rw [hs2]; exact (casUp_quiet hL1 hup).rinv hR1
  have hroot2 : s2.root = s.root := by rw [hs2]; exact hroot1
  have hmt2 : s2.mt = s.mt := by rw [hs2]; exact hmt1
  have htn2 : s2.tn = s.tn := by rw [hs2]; exact htn1
  have hnm2 : s2.nm = s.nm := by rw [hs2]; exact hnm1
  have hlv2 : s2.lv (ls.getLastD 0) = some { L with up := s.nl + 1 } := by rw [hs2]; simp
  refine ⟨hK2 _ hR2 ⟨_, _, by rw [hmt2, hroot2]; exact h.mt, hlv2, by simp⟩ htn2, ?_⟩
  have hg2 : geo s2 (ls.getLastD 0) = some (L.cap, s.nl + 1) := by unfold geo; rw [hlv2]; rfl
  rw [if_pos rfl]
  unfold expandLoop
  rw [gcwp_bind, gcwp_rdCap hg2]
  simp only [ge_iff_le]
  rw [if_neg (by omega), gcwp_bind, gcwp_rdUp hg2, if_neg (by omega), gcwp_bind]
  refine gcwp_newMeta (by rw [htn2]; exact ht) fun s3 hs3 => ?_
  have hq : Quiet s2 s3 := by
    refine ⟨by rw [hs3], by rw [hs3], fun m Y hy => ?_, fun l c u hg => ⟨u, by rw [hs3]; exact hg, fun _ => rfl⟩,
      fun l c u hg b j => by rw [hs3]; rfl, fun l hg b j => by rw [hs3]; exact word_none hg b j⟩
    have : m ≠ s2.nm + 1 := by
      rintro rfl
      rw [hmt2, hnm2, h.mfresh _ (Nat.lt_succ_self _)] at hy
      cases hy
    rw [hs3, ← hy]
    simp [this]
  have hmt3 : s3.mt s3.root = some ⟨ls.getLastD 0, ls.headD 0, decide (2 < ls.length)⟩ := by
    rw [hq.root]
    refine hq.mt _ _ ?_
    rw [hmt2, hroot2]
    exact h.mt
  have hlv3 : s3.lv (ls.getLastD 0) = some { L with up := s.nl + 1 } := by rw [hs3]; exact hlv2
  have htn3 : s3.tn = s.tn := by rw [hs3]; exact htn2
  refine ⟨hK2 _ (hq.rinv hR2) ⟨_, _, hmt3, hlv3, Nat.succ_ne_zero _⟩ htn3, ?_⟩
  rw [gcwp_bind, gcwp_rdTmpMeta (by rw [htn3]; exact ht), gcwp_bind]
  have e4 : { s3 with root := s3.tmpM t } = grownBy s t (ls.getLastD 0) L ⟨s.nl + 1, ls.headD 0, true⟩ := by
    subst hs3 hs2 hs1
    simp only [grownBy, if_true]
  refine gcwp_casMeta (by rw [hs3]; exact hroot2) ?_ ?_
  · rw [e4]
    exact hK1 _ _ (hgrow hfit) rfl
  rw [if_pos rfl, gcwp_pure, e4]
  refine hQ _ (s.nl + 1) (hgrow hfit) hn rfl rfl rfl (fun b j => ?_)
  simp only [word, grownBy, if_neg hnt, if_true]

/-- `J'` is `J` and at most one more.  No code of its own. -/
def OneMore (J J' : Word → Prop) : Prop := ∃ o, ∀ x, J' x → J x ∨ x = o

theorem OneMore.refl : OneMore J J := ⟨0#64, fun _ h => .inl h⟩

theorem gcwp_insertLoop {K : CSt → Prop} {o : Word} (hJ : ∀ x, J x → x ≠ o) (h : Inv E B p0 s p ls M (fun x => J x ∨ x = o)) (ho : s.heap o = some (key, val))
    {Q : Bool → CSt → Prop} {t lf f : Nat} (ht : t < s.tn) (hto : s.tmpE t = o) (hlf : ls.length ≤ lf)
    (hK : ∀ s' M' J', Inv E B p0 s' p ls M' J' → (M' = M ∨ (M key = none ∧ M' = setKey M key val)) → OneMore J J' → s'.tn = s.tn → K s')
    (hold : ∀ s', (M key).isSome → Inv E B p0 s' p ls M J → s'.tn = s.tn → Q false s')
    (hnew : ∀ s', M key = none → Inv E B p0 s' p ls (setKey M key val) J → s'.tn = s.tn → Q true s')
    (hexp : getOffset (word s (ls.getLastD 0) (firstIndex (E.hash key) (2 ^ (p + ls.length - 1))) 0) ≠ 0#64 →
      gcwp (fun _ t => K t) (do expand E t s.root (f + 1); insertLoop E t key (setTag o (getPartial (E.hash key))) lf f true) Q s) :
    gcwp (fun _ t => K t) (insertLoop E t key (setTag o (getPartial (E.hash key))) lf (f + 1) true) Q s := by
  have hfound : (M key).isSome → gcwp (fun _ t => K t) (do freeTmpEntry t; pure false) Q s := by
    intro hm
    have hi := (h.free (t := t) (o := o) (.inr rfl)).congrJ (J' := J) fun x =>
      ⟨fun hx => hx.1.resolve_right hx.2, fun hx => ⟨.inl hx, hJ x hx⟩⟩
    rw [gcwp_bind]
    exact gcwp_freeTmpEntry ht hto ho (hK _ _ _ hi (.inl rfl) .refl rfl) (hold _ hm hi rfl)
  unfold insertLoop
  rw [gcwp_bind, gcwp_rdMeta]
  dsimp only
  rw [if_pos rfl, gcwp_bind]
  refine gcwp_find h hlf (fun _ f' hf' hm => ?_) (fun f' hf' ha => ?_)
  · dsimp only
    rw [if_pos hf']
    exact hfound hm
  · dsimp only
    refine gcwp_if (fun hc => ?_) (fun hc => ?_)
    · obtain ⟨e, v, -, hu, hv, -⟩ := hf'.fnd hc
      exact hfound (by rw [(h.rep key v).2 ⟨_, _, _, hu, hv⟩]; rfl)
    · have hM : M key = none := h.none_of_rem (hf'.nf (by simpa using hc))
      rw [gcwp_bind, gcwp_deMeta h.mt]
      refine gcwp_if (fun hv => ?_) (fun hv => ?_)
      · simp only [Bool.and_eq_true, Bool.or_eq_true, decide_eq_true_eq, Bool.not_eq_true', decide_eq_false_iff_not] at hv
        obtain ⟨e, he, hi, hb, hj, h0, hold'⟩ := hf'.vac hv.1
        obtain ⟨-, ⟨c, u, hg, hbc⟩, -⟩ := h.inUse hi hb hj
        rw [he]
        dsimp only
        have hput := (h.put hi hb hj h0 ho hM (by
          intro hi0
          have := h.len
          rcases hv.2 with h1 | h1 <;> omega)).congrJ (J' := J) fun x =>
            ⟨fun hx => hx.1.resolve_right hx.2, fun hx => ⟨.inl hx, hJ x hx⟩⟩
        rw [gcwp_bind, hold']
        refine gcwp_casSlot hg hbc hj (hK _ _ _ hput (.inr ⟨hM, rfl⟩) .refl rfl) ?_
        rw [if_pos rfl, gcwp_bind, gcwp_rdMeta, gcwp_bind,
          gcwp_deMeta (s := s.setSlot e.l e.b e.j _) (m := (s.setSlot e.l e.b e.j _).root) h.mt]
        refine gcwp_if (fun hx => ?_) (fun _ => ?_)
        · simp at hx
        · exact hnew _ hM hput rfl
      · refine hexp fun hz => hv ?_
        have hlen := h.len
        rcases ha hz with h1 | ⟨h1, h2⟩
        · exact absurd h1 hc
        · simp [h1, h2]
          omega

theorem gcwp_insert {K : CSt → Prop} (h : Inv E B p0 s p ls M J) {Q : Bool → CSt → Prop} {t lf f : Nat} (ht : t < s.tn) (hlf : maxLevel ≤ lf)
    (hK : ∀ s' ls' M' J', Inv E B p0 s' p ls' M' J' → (M' = M ∨ (M key = none ∧ M' = setKey M key val)) → OneMore J J' → s'.tn = s.tn → K s')
    (hK2 : ∀ s', RInv E M s' → Linked s' → s'.tn = s.tn → K s')
    (hQ : ∀ s' ls', Inv E B p0 s' p ls' (if (M key).isSome then M else setKey M key val) J → s'.tn = s.tn →
      Q (!(M key).isSome) s') :
    gcwp (fun _ t => K t) (insert E t key val lf (f + 2)) Q s := by
  unfold insert
  rw [gcwp_bind]
  refine gcwp_newEntry ht fun o hg ho => ⟨?_, ?_⟩
  · exact hK _ _ _ _ (h.alloc hg ho) (.inl rfl) ⟨o, fun _ hx => hx⟩ rfl
  have hJ : ∀ x, J x → x ≠ o := by
    rintro x hx rfl
    exact (h.junk x hx).1 ho
  have h1 := h.alloc (key := key) (val := val) (t := t) hg ho
  have hold : ∀ s' ls', (M key).isSome → Inv E B p0 s' p ls' M J → s'.tn = s.tn → Q false s' := by
    intro s' ls' hm hi htn
    have := hQ s' ls'
    rw [if_pos hm, hm] at this
    exact this hi htn
  have hnew : ∀ s' ls', M key = none → Inv E B p0 s' p ls' (setKey M key val) J → s'.tn = s.tn → Q true s' := by
    intro s' ls' hm hi htn
    have := hQ s' ls'
    rw [hm] at this
    exact this hi htn
  refine gcwp_insertLoop hJ h1 (by simp [CSt.addEntry]) ht (by simp [CSt.addEntry]) (h1.levels.le.trans hlf) (fun s' M' J' => hK s' ls M' J') (fun s' => hold s' ls) (fun s' => hnew s' ls)
    (fun _ => ?_)
  rw [gcwp_bind]
  refine gcwp_expand h1 ht (fun s' ls' hi htn => hK s' ls' _ _ hi (.inl rfl) ⟨o, fun _ hx => hx⟩ htn) (fun s' hr hl htn => hK2 s' hr hl htn)
    fun s' n h2 hn hheap htmp htn hz => ?_
  refine gcwp_insertLoop hJ h2 (by rw [hheap]; simp [CSt.addEntry]) (by rw [htn]; exact ht) (by rw [htmp]; simp [CSt.addEntry]) (h2.levels.le.trans hlf)
    (fun s'' M' J' hi hm hj hx => hK s'' _ M' J' hi hm hj (hx.trans htn))
    (fun s'' hm hi hx => hold s'' _ hm hi (hx.trans htn)) (fun s'' hm hi hx => hnew s'' _ hm hi (hx.trans htn)) (fun hnz => ?_)
  refine absurd ?_ hnz
  have : (ls ++ [n]).getLastD 0 = n := by simp [List.getLastD_eq_getLast?]
  rw [this, hz]
  decide

theorem gcwp_update {K : CSt → Prop} (h : Inv E B p0 s p ls M J) {Q : Bool → CSt → Prop} {t lf f : Nat} (ht : t < s.tn) (hlf : maxLevel ≤ lf)
    (hK : ∀ s' M' J', Inv E B p0 s' p ls M' J' → (M' = M ∨ ((M key).isSome ∧ M' = setKey M key val)) → OneMore J J' → s'.tn = s.tn → K s')
    (hnone : ∀ s', M key = none → Inv E B p0 s' p ls M J → s'.tn = s.tn → Q false s')
    (hsome : ∀ s' o, (M key).isSome → s.heap o ≠ none → ¬ J o →
      Inv E B p0 s' p ls (setKey M key val) (fun x => J x ∨ x = o) → s'.tn = s.tn → Q true s') :
    gcwp (fun _ t => K t) (update E t key val lf (f + 2)) Q s := by
  unfold update
  rw [gcwp_bind]
  refine gcwp_newEntry ht fun o hg ho => ⟨?_, ?_⟩
  · exact hK _ _ _ (h.alloc hg ho) (.inl rfl) ⟨o, fun _ hx => hx⟩ rfl
  have hJ : ∀ x, J x → x ≠ o := by
    rintro x hx rfl
    exact (h.junk x hx).1 ho
  have h1 := h.alloc (key := key) (val := val) (t := t) hg ho
  generalize hs1 : s.addEntry t o key val = s1 at h1
  have ho1 : s1.heap o = some (key, val) := by rw [← hs1]; simp [CSt.addEntry]
  have htn1 : s1.tn = s.tn := by rw [← hs1]; rfl
  have hto1 : s1.tmpE t = o := by rw [← hs1]; simp [CSt.addEntry]
  have hh1 : ∀ a, a ≠ o → s1.heap a = s.heap a := fun a ha => by rw [← hs1]; simp [ha, CSt.addEntry]
  unfold updateLoop
  rw [gcwp_bind, gcwp_rdMeta, gcwp_bind, gcwp_rdExp, gcwp_bind]
  refine gcwp_find h1 (h1.levels.le.trans hlf) (fun hx => by cases hx) (fun f' hf' _ => ?_)
  dsimp only
  refine gcwp_if (fun hc => ?_) (fun hc => ?_)
  · obtain ⟨e, v, he, hu, hv, hold, -, hlev, hidx⟩ := hf'.fnd hc
    obtain ⟨-, ⟨c, u, hgeo, hbc⟩, hj⟩ := id hu
    have hoff : getOffset (setTag o (getPartial (E.hash key))) = o := getOffset_setTag hg.2 _
    have hne : getOffset (word s1 e.l e.b e.j) ≠ o := (h1.junk o (.inr rfl)).2 _ _ _ hu
    have h2 := (h1.swap (val := val) hu hv (.inr rfl) ho1).congrJ (J' := fun x => J x ∨ x = getOffset (word s1 e.l e.b e.j))
      fun x => ⟨fun hx => hx.imp_left fun hx => hx.1.resolve_right hx.2, fun hx => hx.imp_left fun hx => ⟨.inl hx, hJ x hx⟩⟩
    have hm : (M key).isSome := by rw [(h1.rep key v).2 ⟨_, _, _, hu, hv⟩]; rfl
    have hdone : Q true (s1.setSlot e.l e.b e.j (setTag o (getPartial (E.hash key)))) := by
      refine hsome _ _ hm ?_ ?_ h2 htn1
      · rw [← hh1 _ hne, (view_some hv).2]
        simp
      · exact fun hJo => (h1.junk _ (.inl hJo)).2 _ _ _ hu rfl
    refine gcwp_if (fun hx => by simp at hx) (fun _ => ?_)
    rw [he]
    dsimp only
    rw [gcwp_bind, hold]
    refine gcwp_casSlot hgeo hbc hj (hK _ _ _ h2 (.inr ⟨hm, rfl⟩) ⟨_, fun _ hx => hx⟩ htn1) ?_
    rw [if_pos rfl, gcwp_bind, gcwp_rdMeta, gcwp_bind, gcwp_rdExp]
    refine gcwp_if (fun _ => ?_) (fun _ => hdone)
    unfold updateLoop
    rw [gcwp_bind, gcwp_rdMeta, gcwp_bind, gcwp_rdExp, gcwp_bind]
    refine gcwp_find h2 (h2.levels.le.trans hlf) (fun hx => by cases hx) (fun f2 hf2 _ => ?_)
    dsimp only
    have hw := word_setSlot (b := e.b) (j := e.j) hgeo (setTag o (getPartial (E.hash key)))
    have hview : view (s1.setSlot e.l e.b e.j (setTag o (getPartial (E.hash key)))) e.l e.b e.j = some (key, val) := by
      unfold view
      have h3 : word (s1.setSlot e.l e.b e.j (setTag o (getPartial (E.hash key)))) e.l e.b e.j = _ := (hw e.l e.b e.j).trans (if_pos ⟨rfl, rfl, rfl⟩)
      rw [h3, hoff, if_neg hg.1]
      exact ho1
    have hu2 : InUse (s1.setSlot e.l e.b e.j (setTag o (getPartial (E.hash key)))) ls e.l e.b e.j :=
      (InUse.congr fun l => geo_setSlot _ _ _ _ l).2 hu
    refine gcwp_if (fun hc2 => ?_) (fun hc2 => ?_)
    · obtain ⟨e2, v2, -, hu', hv', hold', -⟩ := hf2.fnd hc2
      obtain ⟨e1, e2', e3⟩ := h2.uniq _ _ _ _ _ _ hu' hu2 key v2 val hv' hview
      rw [e1, e2', e3, hw, if_pos ⟨rfl, rfl, rfl⟩] at hold'
      refine gcwp_if (fun _ => hdone) (fun hx => absurd ⟨rfl, hold'⟩ hx)
    · have := hf2.nf (by simpa using hc2) _ _ _ hu2 _ hview
      cases this
  · have hM : M key = none := h1.none_of_rem (hf'.nf (by simpa using hc))
    refine gcwp_if (fun hx => by cases hx) (fun _ => ?_)
    have hi := (h1.free (t := t) (o := o) (.inr rfl)).congrJ (J' := J) fun x =>
      ⟨fun hx => hx.1.resolve_right hx.2, fun hx => ⟨.inl hx, hJ x hx⟩⟩
    rw [gcwp_bind]
    exact gcwp_freeTmpEntry (by rw [htn1]; exact ht) hto1 ho1 (hK _ _ _ hi (.inl rfl) .refl htn1) (hnone _ hM hi htn1)

end PMap.Clevel
