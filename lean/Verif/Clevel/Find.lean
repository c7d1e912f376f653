import Verif.Clevel.Erase

/-!
# A `find` that runs alone
-/

namespace PMap.Clevel

open CP

variable {E : CEnv} {B : Prop} {p0 : Nat} {s : CSt} {p : Nat} {ls : List Nat} {M : Word → Option Word} {J : Word → Prop} {key : Word}

theorem Inv.levels (h : Inv E B p0 s p ls M J) : ls.length < maxLevel := by
  have h1 := lt_of_le_of_lt h.fit h.pool
  have h2 := (Nat.pow_lt_pow_iff_right (by decide : 1 < 2)).1 h1
  have h3 := h.grown
  have h4 := h.base
  unfold maxLevel
  omega

theorem cwp_collect (h : Inv E B p0 s p ls M J) {Q : List Nat → CSt → Prop} (hQ : Q ls s) :
    ∀ {suf pre : List Nat} {f : Nat}, ls = pre ++ suf → suf ≠ [] → suf.length ≤ f →
      cwp (collect s.root f (suf.headD 0) pre) Q s
  | [], _, _, _, hs, _ => absurd rfl hs
  | l :: r, pre, 0, _, _, hf => by simp at hf
  | l :: r, pre, f + 1, he, _, hf => by
    have hc := chain_suffix (he ▸ h.chain) (by simp : l :: r ≠ [])
    have hlen := h.levels
    unfold collect
    rw [if_pos (by rw [he] at hlen; simp at hlen; omega)]
    simp only [List.headD_cons]
    rw [cwp_bind, cwp_rdUp (chain_head hc), cwp_bind, cwp_deMeta h.mt]
    refine cwp_if (fun hl => ?_) (fun hl => ?_)
    all_goals
      simp only at hl
      rw [he, last_ne (he ▸ h.nodup)] at hl
    swap
    · have hlast := not_not.1 hl
      subst hlast
      rw [cwp_pure, ← he]
      exact hQ
    · exact cwp_collect h hQ (pre := pre ++ [l]) (by simp [he]) hl (by simpa using hf)

/-- What the variables of `find` say, with the slots `rem` still to come.  No code of its own. -/
structure FOK (E : CEnv) (s : CSt) (p : Nat) (ls : List Nat) (key : Word) (f : Fd) (rem : List Pos) : Prop where
  nf : f.res.isFound = false → Rem s ls key rem
  vac : f.res.isVac = true → ∃ e, f.e = some e ∧ ls[f.levelNum]? = some e.l ∧ Home E key (2 ^ (p + f.levelNum)) e.b ∧
    e.j < assocNum ∧ getOffset (word s e.l e.b e.j) = 0#64 ∧ f.oldE = word s e.l e.b e.j
  fnd : f.res.isFound = true → ∃ e v, f.e = some e ∧ InUse s ls e.l e.b e.j ∧ view s e.l e.b e.j = some (key, v) ∧
    f.oldE = word s e.l e.b e.j ∧ e ∉ rem ∧ ls[f.levelNum]? = some e.l ∧ f.idx = e.b

/-- The key was found or a free slot at level number `i`.  No code of its own. -/
def AtLevel (i : Nat) (f : Fd) : Prop := f.res.isFound = true ∨ (f.res.isVac = true ∧ f.levelNum = i)

theorem cwp_findSlot (h : Inv E B p0 s p ls M J) {Q : FStep → CSt → Prop} {right fixDup emp : Bool} {i l b j : Nat} {f : Fd}
    {rem : List Pos} (hi : ls[i]? = some l) (hb : Home E key (2 ^ (p + i)) b) (hj : j < assocNum)
    (hf : FOK E s p ls key f (⟨l, b, j⟩ :: rem)) (hn : Pos.mk l b j ∉ rem)
    (hnext : ∀ f' emp', FOK E s p ls key f' rem →
      ((AtLevel i f ∨ (emp = false ∧ getOffset (word s l b j) = 0#64)) → AtLevel i f') → Q (.next f' emp') s)
    (hfound : fixDup = false → ∀ f', f'.res.isFound = true → (M key).isSome → Q (.found f') s) :
    cwp (findSlot ls right i l b j (getPartial (E.hash key)) key fixDup f emp) Q s := by
  have hu := h.inUse hi hb hj
  obtain ⟨hl, ⟨c, u, hg, hbc⟩, -⟩ := id hu
  have hskip : (∀ v, view s l b j ≠ some (key, v)) → FOK E s p ls key f rem := fun hv =>
    ⟨fun e => (hf.nf e).tail hv, hf.vac, fun e => by
      obtain ⟨e', v, h1, h2, h3, h4, h5, h6⟩ := hf.fnd e
      exact ⟨e', v, h1, h2, h3, h4, fun hm => h5 (by simp [hm]), h6⟩⟩
  unfold findSlot
  rw [cwp_bind, cwp_rdSlot hg hbc hj]
  refine cwp_if (fun h0 => ?_) (fun h0 => ?_)
  · have hv : ∀ v, view s l b j ≠ some (key, v) := fun v => by rw [view_of_zero h0]; simp
    refine cwp_if (fun hc => ?_) (fun hc => ?_)
    · simp only [Bool.and_eq_true, Bool.not_eq_true'] at hc
      refine cwp_if (fun hr => ?_) (fun hr => ?_)
      · simp only [Bool.and_eq_true, decide_eq_true_eq] at hr
        exact hnext f true (hskip hv) fun _ => .inr ⟨by rw [hr.1.1.2]; rfl, hr.1.2⟩
      · have hvac : (if right then FCode.vacRight else FCode.vacLeft).isVac = true := by cases right <;> rfl
        have hnf : (if right then FCode.vacRight else FCode.vacLeft).isFound = false := by cases right <;> rfl
        refine hnext _ true ⟨fun _ => (hf.nf hc.1).tail hv, fun _ => ⟨⟨l, b, j⟩, rfl, hi, hb, hj, h0, rfl⟩, fun e => ?_⟩
          fun _ => .inr ⟨hvac, rfl⟩
        dsimp only at e
        rw [hnf] at e
        cases e
    · refine hnext f emp (hskip hv) ?_
      rintro (ha | ⟨he, -⟩)
      · exact ha
      · rw [he] at hc
        simp at hc
        exact .inl hc
  · obtain ⟨k, v, c', u', hv, hh, ht, -, -⟩ := (h.slots l b j hu).of_ne h0
    have hstay : (∀ v, view s l b j ≠ some (key, v)) → Q (.next f emp) s := fun hv' =>
      hnext f emp (hskip hv') fun ha => ha.elim id fun ha => absurd ha.2 h0
    rw [cwp_bind, cwp_rdSlot hg hbc hj]
    refine cwp_if (fun hc => ?_) (fun _ => ?_)
    · exact hstay fun v' e => hc (by rw [hv] at e; cases e; exact ht)
    rw [cwp_bind, cwp_rdKey hh]
    refine cwp_if (fun hc => ?_) (fun hc => ?_)
    · exact hstay fun v' e => hc (by rw [hv] at e; cases e; rfl)
    have hk : k = key := not_not.1 hc
    subst hk
    have hcode : (if right then FCode.foundRight else FCode.foundLeft).isFound = true := by cases right <;> rfl
    have hnv : (if right then FCode.foundRight else FCode.foundLeft).isVac = false := by cases right <;> rfl
    refine cwp_if (fun hc => ?_) (fun hc => ?_)
    · exact hfound (by simpa using hc) _ hcode (by rw [(h.rep k v).2 ⟨l, b, j, hu, hv⟩]; rfl)
    refine cwp_if (fun hc' => ?_) (fun hc' => ?_)
    · obtain ⟨e, v', h1, h2, h3, h4, h5, h6⟩ := hf.fnd hc'
      obtain ⟨e1, e2, e3⟩ := h.uniq _ _ _ _ _ _ h2 hu k v' v h3 hv
      exact absurd (by cases e; simp_all) h5
    · refine hnext _ emp ⟨fun e => ?_, fun e => ?_, fun _ => ⟨⟨l, b, j⟩, v, rfl, hu, hv, rfl, hn, hi, rfl⟩⟩ fun _ => .inl hcode
      · dsimp only at e
        rw [hcode] at e
        cases e
      · dsimp only at e
        rw [hnv] at e
        cases e

theorem cwp_findBucket (h : Inv E B p0 s p ls M J) {Q : FStep → CSt → Prop} {right fixDup : Bool} {i l b : Nat}
    {rest : List Pos} (hi : ls[i]? = some l) (hb : Home E key (2 ^ (p + i)) b)
    (hfound : fixDup = false → ∀ f', f'.res.isFound = true → (M key).isSome → Q (.found f') s) :
    ∀ {js : List Nat} {f : Fd} {emp : Bool}, (∀ j ∈ js, j < assocNum) →
      FOK E s p ls key f (js.map (fun j => Pos.mk l b j) ++ rest) → (js.map (fun j => Pos.mk l b j) ++ rest).Nodup →
      (∀ f' emp', FOK E s p ls key f' rest →
        ((AtLevel i f ∨ (emp = false ∧ ∃ j, js.head? = some j ∧ getOffset (word s l b j) = 0#64)) → AtLevel i f') →
        Q (.next f' emp') s) →
      cwp (findBucket ls right i l b (getPartial (E.hash key)) key fixDup js f emp) Q s
  | [], f, emp, _, hf, _, hnext => hnext f emp (by simpa using hf) (by simp)
  | j :: js, f, emp, hj, hf, hd, hnext => by
    unfold findBucket
    rw [cwp_bind]
    simp only [List.map_cons, List.cons_append] at hf hd
    refine cwp_findSlot h hi hb (hj j (by simp)) hf (List.nodup_cons.1 hd).1 (fun f' emp' hf' ha => ?_)
      (fun hx f' h1 h2 => hfound hx f' h1 h2)
    refine cwp_findBucket h hi hb hfound (fun j' h' => hj j' (by simp [h'])) hf' (List.nodup_cons.1 hd).2 (fun f2 e2 hf2 ha2 => ?_)
    refine hnext f2 e2 hf2 fun ha0 => ha2 (.inl (ha ?_))
    rcases ha0 with ha0 | ⟨he, j', hj', hz⟩
    · exact .inl ha0
    · simp at hj'
      subst hj'
      exact .inr ⟨he, hz⟩

theorem cwp_findLevels (h : Inv E B p0 s p ls M J) {Q : FStep → CSt → Prop} {fixDup : Bool}
    (hfound : fixDup = false → ∀ f', f'.res.isFound = true → (M key).isSome → Q (.found f') s) :
    ∀ {suf pre : List Nat} {f : Fd}, ls = pre ++ suf →
      FOK E s p ls key f (cands E key (p + pre.length) suf) →
      (∀ f', FOK E s p ls key f' [] → (suf ≠ [] → getOffset (word s (ls.getLastD 0)
          (firstIndex (E.hash key) (2 ^ (p + ls.length - 1))) 0) = 0#64 → AtLevel (ls.length - 1) f') → (suf = [] → f' = f) →
        ∀ e, Q (.next f' e) s) →
      cwp (findLevels E ls key fixDup suf pre.length f) Q s
  | [], pre, f, he, hf, hnext => hnext f (by simpa [cands] using hf) (by simp) (fun _ => rfl) false
  | l :: r, pre, f, he, hf, hnext => by
    have hi : ls[pre.length]? = some l := by rw [he]; simp
    obtain ⟨u, hg⟩ := chain_get h.chain hi
    have hc := chain_suffix (he ▸ h.chain) (by simp : l :: r ≠ [])
    have hd := nodup_cands (E := E) (k := key) (p := p + pre.length) (ls := l :: r)
      (by have := h.base; have := h.grown; omega) (List.nodup_append.1 (he ▸ h.nodup)).2.1
    unfold findLevels
    rw [cwp_bind, cwp_rdCap hg, cwp_bind]
    simp only [cands, slotsOf] at hf hd
    refine cwp_findBucket h hi (.inl rfl) ?_ (fun j hj => List.mem_range.1 hj) hf hd (fun f1 e1 hf1 ha1 => ?_)
    · exact fun hx f' h1 h2 => hfound hx f' h1 h2
    dsimp only
    rw [cwp_bind]
    refine cwp_findBucket h hi (.inr rfl) ?_ (fun j hj => List.mem_range.1 hj) hf1 (List.nodup_append.1 hd).2.1
      (fun f2 e2 hf2 ha2 => ?_)
    · exact fun hx f' h1 h2 => hfound hx f' h1 h2
    dsimp only
    have := cwp_findLevels h hfound (suf := r) (pre := pre ++ [l]) (f := f2) (by simp [he])
      (by rw [List.length_append, List.length_singleton, ← Nat.add_assoc]; exact hf2) (fun f' hf' ha' hs' e => ?_)
    · rw [List.length_append, List.length_singleton] at this
      exact this
    · refine hnext f' hf' (fun _ hz => ?_) (by simp) e
      by_cases hlast : r = []
      · rw [hs' hlast]
        subst hlast
        have e1 : ls.getLastD 0 = l := by
          rw [he]
          simp [List.getLastD_eq_getLast?]
        have e2 : ls.length - 1 = pre.length := by rw [he]; simp
        have e3 : p + ls.length - 1 = p + pre.length := by rw [he]; simp
        rw [e1, e3] at hz
        rw [e2]
        exact ha2 (.inl (ha1 (.inr ⟨rfl, 0, rfl, hz⟩)))
      · exact ha' hlast hz

/-- A `find` that runs alone ends and changes nothing.  It finds the key exactly if the map has it; otherwise it may report an
empty slot in one of the key's buckets, and does so at the top level if the key's first slot there is empty. -/
theorem cwp_find (h : Inv E B p0 s p ls M J) {Q : Fd × Nat → CSt → Prop} {fixDup : Bool} {lf f ln : Nat} {old : Word}
    (hf : ls.length ≤ lf)
    (hfound : fixDup = false → ∀ f', f'.res.isFound = true → (M key).isSome → Q (f', s.root) s)
    (hnext : ∀ f', FOK E s p ls key f' [] → (getOffset (word s (ls.getLastD 0)
          (firstIndex (E.hash key) (2 ^ (p + ls.length - 1))) 0) = 0#64 → AtLevel (ls.length - 1) f') → Q (f', s.root) s) :
    cwp (find E key fixDup lf (f + 1) ln old s.root) Q s := by
  have hne : ls ≠ [] := by rintro rfl; have := h.len; simp at this
  unfold find
  rw [cwp_bind, cwp_deMeta h.mt, cwp_bind]
  refine cwp_collect h ?_ (pre := []) rfl hne hf
  rw [cwp_bind]
  refine cwp_findLevels h (pre := []) ?_ rfl
    ⟨fun _ => (by simpa using h.rem key), fun e => (by cases e), fun e => (by cases e)⟩ (fun f' hf' ha _ e => ?_)
  · exact fun hx f' h1 h2 => hfound hx f' h1 h2
  dsimp only
  rw [cwp_bind, cwp_rdMeta, if_pos rfl]
  exact hnext f' hf' (ha hne)

end PMap.Clevel
