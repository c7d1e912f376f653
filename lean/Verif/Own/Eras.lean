import Verif.Own.Shift
import Verif.Props.Fixed

/-!
# Phases with growth between them (proof machinery)
-/

namespace PMap

open Prog

variable {M : AMap} {hash : Word → Word} {len cap n r : Nat} {own : Word → Nat} {m m0 : Mem}

/-- The memory without the tables before the current one. -/
def dropOld (m : Mem) : Mem :=
  { m with
    word := fun a => m.word (a.up m.root)
    tab := fun t => { m.tab (m.root + t) with newT := (m.tab (m.root + t)).newT.map (· - m.root) }
    next := m.next - m.root
    root := 0 }

theorem shift_dropOld (h1 : m.root + 1 = m.next) (h2 : (m.tab m.root).newT = none) : Shift m.root m (dropOld m) := by
  refine ⟨fun _ => rfl, fun t ht => ?_, ?_, rfl, rfl, rfl, rfl⟩
  · have ht : t < m.next - m.root := ht
    obtain rfl : t = 0 := by omega
    rw [Nat.add_zero]
    show _ = Tab.up m.root { m.tab (m.root + 0) with newT := (m.tab (m.root + 0)).newT.map (· - m.root) }
    rw [Nat.add_zero, h2]
    have : ∀ x : Tab, x.newT = none → x = Tab.up m.root { x with newT := Option.map (· - m.root) none } := by
      intro x hx
      cases x
      simp only at hx
      subst hx
      rfl
    exact this _ h2
  · show m.next = m.root + (m.next - m.root); omega

/-- After single-threaded calls that have migrated to the current table, it is in order for phases. -/
theorem between_dropOld (hg : Good hash (abs m) M) (h1 : m.root + 1 = m.next) (hre : m.reopened = false)
    (hV : ∀ k v, M k = some v → ValidVal v) (hs : (abs m).lastSize = BitVec.ofNat 64 (msize M)) :
    Between (anyCfg hash (m.tab m.root).len validKeys own) (dropOld m) M := by
  have hI := hg.inv
  have hlt : m.root < (abs m).next := hI.root_lt
  have hnext : ¬ m.root + 1 < (abs m).next := by show ¬ m.root + 1 < m.next; omega
  have hpos : 0 < (m.tab m.root).len := hI.len_pos hlt
  have hnew : (m.tab m.root).newT = none := (hI.newT m.root hlt).trans (if_neg hnext)
  have hck : ∀ i, clean ((dropOld m).word (.key 0 i)) = (abs m).ck m.root i := fun i => rfl
  have hcv : ∀ i, clean ((dropOld m).word (.val 0 i)) = (abs m).cv m.root i := fun i => rfl
  have hslot : ∀ k d, slotAt hash (abs m) m.root k d = pat hash (m.tab m.root).len k d := fun k d => rfl
  have huser : ∀ i, i < (m.tab m.root).len → (abs m).ck m.root i ≠ KINITIAL → UserKey ((abs m).ck m.root i) := fun i hi h0 =>
    ⟨hI.kclean _ i hlt hi, h0, fun h => hnext (hI.ktomb _ i hlt hi h).1⟩
  have hnomig : ∀ i, i < (m.tab m.root).len → isMig ((abs m).cv m.root i) = false := fun i hi => by
    cases e : isMig ((abs m).cv m.root i) with
    | false => rfl
    | true => exact absurd (hI.mig _ i hlt hi e) hnext
  have hmem : ∀ k, ValidKey k → k ∈ validKeys.filter ValidKey := fun k hk => Finset.mem_filter.mpr ⟨mem_validKeys.mpr hk, hk⟩
  have hpath : ∀ i, i < (m.tab m.root).len → UserKey ((abs m).ck m.root i) → ∃ d, d < reprobeLimit (m.tab m.root).len ∧
      d < (m.tab m.root).len ∧ i = slotAt hash (abs m) m.root ((abs m).ck m.root i) d ∧
      Upto hash (abs m) m.root ((abs m).ck m.root i) d ∧
      (16 ≤ (m.tab m.root).len → 10 ≤ d → (abs m).cv m.root i = VINITIAL) := by
    intro i hi hu
    obtain ⟨d, h2, h3, h4, h5⟩ := hI.path _ i hlt hi hu
    refine ⟨d, h2, ?_, h3, h4, fun ha hb => ?_⟩
    · by_contra hd
      refine (h4 (d - (m.tab m.root).len) (by omega)).2.2 ?_
      have : slotAt hash (abs m) m.root ((abs m).ck m.root i) (d - (m.tab m.root).len) = i := by
        rw [h3]
        show _ % (m.tab m.root).len = _ % (m.tab m.root).len
        rw [← Nat.add_mod_right, Nat.add_assoc, Nat.sub_add_cancel (by omega), ← h3]
      rw [this]
    · rcases h5 hre ha hb with h | h
      · exact h
      · rw [hnomig i hi] at h; cases h
  -- where the content of a key is
  have hat : ∀ {k v}, M k = some v → UserKey k ∧ Storable v ∧ ∃ i, i < (m.tab m.root).len ∧ (abs m).ck m.root i = k ∧
      (abs m).cv m.root i = v := by
    intro k v h
    obtain ⟨h2, h3, t, i, h4, h5, h6, h7⟩ := (hI.cont k v).mp h
    refine ⟨h2, h3, ?_⟩
    have : t = m.root := by
      by_contra hne
      have h4' : t < m.next := h4
      have := hI.dead t i (show t < m.root by omega) h5
      rw [h7] at this
      exact h3.ne_prime this
    subst this
    exact ⟨i, h5, h6, h7⟩
  have hone : ∀ {i j}, i < (m.tab m.root).len → j < (m.tab m.root).len → (abs m).ck m.root i ≠ KINITIAL →
      (abs m).ck m.root i = (abs m).ck m.root j → i = j := by
    intro i j hi hj h0 e
    have hu := huser i hi h0
    obtain ⟨d, -, -, h3, h4, -⟩ := hpath j hj (e ▸ hu)
    rw [h3]
    rw [← e] at h3 h4 ⊢
    exact hI.at_unique hu hlt hi rfl h4 (.inr (.inr (by rw [← h3]; exact e.symm)))
  have hsize : (m.tab m.root).size = BitVec.ofNat 64 ((validKeys.filter ValidKey).filter fun k => (M k).isSome = true).card := by
    have e1 : (abs m).lastSize = (m.tab m.root).size := by
      show (m.tab (m.next - 1)).size = _
      rw [show m.next - 1 = m.root by omega]
    rw [← e1, hs, msize, ← Set.ncard_coe_finset]
    congr 2
    ext k
    simp only [Set.mem_ofPred_eq, Finset.coe_filter]
    rw [Option.isSome_iff_ne_none]
    refine ⟨fun h => ⟨?_, h⟩, fun h => h.2⟩
    obtain ⟨v, hv⟩ := Option.ne_none_iff_exists'.mp h
    exact hmem k (validKey_of_user (hat hv).1)
  have hdone : (m.tab m.root).copyDone = 0 := by
    have h2 : drift (abs m) m.root = 0 := by rw [hg.drift]
    rw [drift, if_pos hlt] at h2
    have h3 : cnt (abs m) m.root = 0 := by
      rw [cnt, Finset.card_eq_zero, Finset.filter_eq_empty_iff]
      intro i hi h
      rw [Finset.mem_range] at hi
      have := hnomig i hi
      rw [h, isMig_TOMBPRIME] at this; cases this
    rw [h3] at h2
    have h4 : ((abs m).tab m.root).copyDone = (m.tab m.root).copyDone := rfl
    omega
  refine ⟨⟨rfl, by show 0 < m.next - m.root; omega, rfl, by show Option.map _ (m.tab m.root).newT = none; rw [hnew]; rfl, hI.ok, ⟨?_, ?_⟩, ?_, ?_, ?_, ?_,
    hsize, ⟨by show m.next - m.root = 1; omega, hdone, fun _ => hI.slots hre m.root hlt, hI.cap_le, hre⟩⟩, hV, ?_⟩
  · intro i hi h0
    exact hmem _ (validKey_of_user (huser i hi h0))
  · intro i hi h0
    obtain ⟨d, h2, h3, h4, h5, -⟩ := hpath i hi (huser i hi h0)
    exact ⟨d, h2, h3, h4, fun e he => ⟨(h5 e he).1, (h5 e he).2.2⟩⟩
  · intro i hi h0
    exact hI.kinit _ i hlt hi h0
  · intro i hi h0
    have hu := huser i hi h0
    show M ((abs m).ck m.root i) = dec ((abs m).cv m.root i) ∧ Stored ((abs m).cv m.root i)
    have hnone : ¬ Storable ((abs m).cv m.root i) → M ((abs m).ck m.root i) = none := by
      intro hn
      by_contra hne
      obtain ⟨v, hv⟩ := Option.ne_none_iff_exists'.mp hne
      obtain ⟨-, h3, j, h4, h5, h6⟩ := hat hv
      have := hone hi h4 h0 h5.symm
      subst this
      rw [h6] at hn
      exact hn h3
    rcases hI.val _ i hlt hi with h | h | h | h
    · have h' : (abs m).cv m.root i = VINITIAL := h
      exact ⟨by rw [hnone (by rw [h']; exact fun h => h.ne_init rfl), h', dec_init], .inl h'⟩
    · have h' : (abs m).cv m.root i = VTOMBSTONE := h
      exact ⟨by rw [hnone (by rw [h']; exact fun h => h.ne_tomb rfl), h', dec_tomb], .inr (.inl h')⟩
    · have h2 : M ((abs m).ck m.root i) = some ((abs m).cv m.root i) := (hI.cont _ _).mpr ⟨hu, h, _, i, hlt, hi, rfl, rfl⟩
      have h3 := hV _ _ h2
      exact ⟨by rw [h2, dec_valid h3], .inr (.inr h3)⟩
    · have := hnomig i hi
      rw [show isMig ((abs m).cv m.root i) = true from h] at this; cases this
  · intro _ i hi h0 hv
    obtain ⟨d, h2, h3, h4, -, h5⟩ := hpath i hi (huser i hi h0)
    refine ⟨d, ?_, h4⟩
    by_contra hd
    refine hv (h5 ?_ (by omega))
    obtain ⟨p, -, e⟩ := hI.len_pow _ hlt
    have e : (m.tab m.root).len = 2 ^ p := e
    have h3' : d < (m.tab m.root).len := h3
    by_contra hl
    have : p < 4 := by
      by_contra hp
      have := Nat.pow_le_pow_right (n := 2) (by decide) (not_lt.mp hp)
      omega
    interval_cases p <;> omega
  · intro k hk h
    by_contra hne
    obtain ⟨v, hv⟩ := Option.ne_none_iff_exists'.mp hne
    obtain ⟨-, -, i, h4, h5, -⟩ := hat hv
    exact h i h4 h5
  · intro k hk
    obtain ⟨v, hv⟩ := Option.ne_none_iff_exists'.mp hk
    exact hmem k (validKey_of_user (hat hv).1)

theorem Between.lastSize {C : Cfg} (h : Between C m M) : (abs m).lastSize = BitVec.ofNat 64 (msize M) := by
  show (m.tab (m.next - 1)).size = _
  rw [show m.next - 1 = 0 by have : m.next = 1 := h.inv.lone.next; omega, show (m.tab 0).size = _ from h.inv.size, msize, ← Set.ncard_coe_finset]
  congr 2
  ext k
  simp only [Set.mem_ofPred_eq, Finset.coe_filter]
  rw [Option.isSome_iff_ne_none]
  exact ⟨fun h => h.2, fun hk => ⟨h.keys k hk, hk⟩⟩

/-- What holds of a map that has been used in eras. -/
def EraOK (hash : Word → Word) (m : Mem) (M : AMap) : Prop :=
  ∃ r m0 len, Shift r m m0 ∧ (∃ p, p ≤ 32 ∧ len = 2 ^ p) ∧ ∀ own, Between (anyCfg hash len validKeys own) m0 M

theorem mine_by {calls : Nat → List Op} (hc : ∀ t, ∀ op ∈ calls t, op.Mine own t ∧ op.isUpdate = false) :
    ∀ t, ∀ op ∈ calls t, op.By (validKeys.filter ValidKey) own t ∧ op.isUpdate = false :=
  fun t op ho => ⟨(hc t op ho).1.by, (hc t op ho).2⟩

theorem EraOK.phase (h : EraOK hash m M) {calls : Nat → List Op} (hc : ∀ t, ∀ op ∈ calls t, op.Mine own t ∧ op.isUpdate = false)
    (xs : List Sched) {s : Sys} (he : s = (Sys.start m calls).exec hash n xs) (hi : ∀ t, ∃ todo, s.thr t = .idle todo)
    (hn : s.mem.next = m.next) : EraOK hash s.mem (phaseMap own s.hist M) := by
  obtain ⟨r, m0, len, hS, hp, hB⟩ := h
  have hU := SysUp.exec (hash := hash) (n := n) xs (hS.start calls)
  rw [← he] at hU
  refine ⟨r, _, len, hU.mem, hp, fun own' => ?_⟩
  have h0 : m0.next = 1 := (hB own).inv.lone.next
  have h1 := hU.mem.next
  have h2 := hS.next
  rw [hU.hist]
  refine Between.anyOwn (C := anyCfg hash len validKeys own) (Between.phase (n := n) (C := anyCfg hash len validKeys own) (anyCfg_ok hp) (hB own)
    (mine_by hc) (runsOnly xs) rfl (anyCfg_calm (by omega)) fun t => ?_)
  obtain ⟨todo, ht⟩ := hi t
  have := hU.thr t
  rw [ht] at this
  cases h3 : ((Sys.start m0 calls).exec hash n (runsOnly xs)).thr t with
  | idle c => exact ⟨c, rfl⟩
  | busy op p c => rw [h3] at this; exact this.elim

theorem EraOK.call (h : EraOK hash m M) {op : Op} (hv : op.Valid) (hu : op.isUpdate = false) {r : Res} {m' : Mem}
    (hr : run (op.prog hash n) m = .done r m') (hs : (m'.tab m'.root).newT = none) : EraOK hash m' (specNext op M) := by
  obtain ⟨r0, m0, len, hS, hp, hB⟩ := h
  obtain ⟨r1, m0', hr0, rfl, hS'⟩ := ((up_op (r := r0) (hash := hash) (n := n) op).run hS).1 _ _ hr
  have hB0 := hB fun _ => 0
  have hP := (op_spec n op hv hu (hB0.good (anyCfg_ok hp)) m0 rfl).2 _ _ hr0
  have hI := hP.good.inv
  have hlt : m0'.root < m0'.next := hI.root_lt
  have hnew : (m0'.tab m0'.root).newT = none := by
    rw [hS'.root, hS'.tab _ hlt] at hs
    simpa [Tab.up] using hs
  have hlast : m0'.root + 1 = m0'.next := by
    have h1 : (m0'.tab m0'.root).newT = if m0'.root + 1 < m0'.next then some (m0'.root + 1) else none := hI.newT m0'.root hlt
    rw [hnew] at h1
    split at h1
    · cases h1
    · omega
  have hsz : (abs m0').lastSize = BitVec.ofNat 64 (msize (specNext op M)) := by
    rcases hP.size hB0.lastSize with h1 | h1
    · have h1 : m0'.root + 1 < m0'.next := h1
      omega
    · exact h1
  refine ⟨r0 + m0'.root, dropOld m0', _, hS'.trans (shift_dropOld hlast hnew), hI.len_pow _ hlt, fun own => ?_⟩
  exact between_dropOld hP.good hlast ((run_reopened hr0).trans hB0.inv.lone.reopened) (specNext_valid hv hu hB0.valid) hsz

theorem eras_ok (hs : Sized len cap) (h : Eras hash len cap m M) : EraOK hash m M := by
  induction h with
  | fresh => exact ⟨0, _, len, Shift.refl _, hs.pow, fun own => between_fresh (C := anyCfg hash len validKeys own) rfl hs.cap⟩
  | phase n own calls xs _ hc he hi hn ih => exact ih.phase hc xs he hi hn
  | call n _ hv hu hr hq ih => exact ih.call hv hu hr hq

/-- The next phase, until a table is allocated. -/
theorem EraOK.start (h : EraOK hash m M) {calls : Nat → List Op} (hc : ∀ t, ∀ op ∈ calls t, op.Mine own t ∧ op.isUpdate = false)
    (xs : List Sched) (hn : ((Sys.start m calls).exec hash n xs).mem.next = m.next) :
    LinRun M (fun _ => .idle) ((Sys.start m calls).exec hash n xs).hist ∧
      ((Sys.start m calls).exec hash n xs).ub = false ∧ ((Sys.start m calls).exec hash n xs).mem.failed = false := by
  obtain ⟨r, m0, len, hS, hp, hB⟩ := h
  have hU := SysUp.exec (hash := hash) (n := n) xs (hS.start calls)
  have h0 : m0.next = 1 := (hB own).inv.lone.next
  have h1 := hU.mem.next
  have h2 := hS.next
  obtain ⟨M', sz, P, fx, hO⟩ := (hB own).start (n := n) (anyCfg_ok hp) (mine_by hc) (runsOnly xs)
    (anyCfg_calm (by show ((Sys.start m0 calls).exec hash n (runsOnly xs)).mem.next ≤ 1; omega))
  rw [hU.hist, hU.ub, hU.mem.failed]
  refine ⟨?_, hO.noub, hO.inv.ok⟩
  have := hO.lin.run [] .nil
  rwa [List.append_nil] at this

/-- Safe in the one memory, safe in the other. -/
theorem Up.safe {α β : Type} {R : α → β → Prop} {p : Prog α} {p0 : Prog β} (h : Up r R p p0) :
    ∀ {m m0 : Mem}, Shift r m m0 → Safe p0 m0 → Safe p m := by
  induction h with
  | ret h => exact fun _ _ => trivial
  | halt h => exact fun _ h => h
  | act a hk ih =>
    intro m m0 hm hs
    rw [Safe] at hs
    rw [Safe]
    obtain ⟨hs1, hs2⟩ := hs
    refine ⟨fun b e => ?_, ?_⟩
    · cases a <;> cases e
      exact hs1 _ rfl
    · rcases hm.exec a with ⟨e0, e⟩ | ⟨x, m', m0', e0, e, hm'⟩
      · rw [e0] at hs2; exact hs2.elim
      · rw [e0] at hs2; rw [e]; exact ih x hm' hs2

theorem up_runOps (hash : Word → Word) (n : Nat) : ∀ (ops : List Op) {m m0 : Mem}, Shift r m m0 → ∀ {rs m'},
    runOps hash n ops m = .done rs m' → ∃ m0', runOps hash n ops m0 = .done rs m0' ∧ Shift r m' m0'
  | [], _, m0, h, _, _, e => by cases e; exact ⟨m0, rfl, h⟩
  | op :: ops, m, m0, h, rs, m', e => by
    simp only [runOps] at e ⊢
    cases e1 : run (op.prog hash n) m with
    | halted x => rw [e1] at e; cases e
    | done x m1 =>
      rw [e1] at e
      simp only at e
      obtain ⟨_, m2, h1, rfl, h2⟩ := ((up_op (r := r) op).run h).1 _ _ e1
      cases e3 : runOps hash n ops m1 with
      | halted x => rw [e3] at e; cases e
      | done ys m3 =>
        rw [e3] at e
        cases e
        obtain ⟨m4, h4, h5⟩ := up_runOps hash n ops h2 e3
        exact ⟨m4, by simp only [h1, h4], h5⟩

theorem runChk_eras (ops : List Op) {m m' : Mem} {M : AMap} (h : Eras hash len cap m M)
    (hv : ∀ op ∈ ops, op.Valid ∧ op.isUpdate = false)
    (hr : runChk hash n (fun m => decide ((m.tab m.root).newT = none)) ops m = some m') : Eras hash len cap m' (specRun ops M) := by
  induction ops generalizing m M with
  | nil => cases hr; exact h
  | cons op ops ih =>
    rw [runChk] at hr
    have ho := hv op (List.mem_cons_self ..)
    cases he : run (op.prog hash n) m with
    | halted x => rw [he] at hr; cases hr
    | done r m1 =>
      rw [he] at hr
      simp only at hr
      split at hr
      · next hc => exact ih (h.call n ho.1 ho.2 he (of_decide_eq_true hc)) (fun o h => hv o (List.mem_cons_of_mem _ h)) hr
      · cases hr

end PMap
