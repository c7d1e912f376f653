import Verif.Own.Get

/-!
# Writing by the owner of a key (proof machinery)
-/

namespace PMap

open Prog

variable {C : Cfg} {t : Nat} {op : Op} {s : OSt} {c : Option Res} {k : Word}

/-- What the owner `t` of the key `k` knows: its content, whether it is counted, and that the other keys of `t` are counted
exactly when they are present. -/
structure Held (C : Cfg) (t : Nat) (k : Word) (o : Option Word) (b : Bool) (s : OSt) : Prop where
  map : s.M k = o
  sz : s.sz k = b
  rest : ∀ k', C.own k' = t → k' ≠ k → s.sz k' = (s.M k').isSome

/-- The keys of `t` are counted exactly when they are present. -/
def Counted (C : Cfg) (t : Nat) (s : OSt) : Prop := ∀ k, C.own k = t → s.sz k = (s.M k).isSome

theorem Held.rely {o : Option Word} {b : Bool} {s' : OSt} (h : Held C t k o b s) (hr : Rely C t s s') (hk : C.own k = t) :
    Held C t k o b s' where
  map := by rw [hr.map k hk, h.map]
  sz := by rw [hr.sz k hk, h.sz]
  rest k' h1 h2 := by rw [hr.sz k' h1, hr.map k' h1]; exact h.rest k' h1 h2

theorem Counted.held (h : Counted C t s) (hk : C.own k = t) : Held C t k (s.M k) (s.M k).isSome s :=
  ⟨rfl, h k hk, fun k' h1 _ => h k' h1⟩

theorem Held.counted {o : Option Word} (h : Held C t k o o.isSome s) : Counted C t s := by
  intro k' hk'
  by_cases e : k' = k
  · subst e; rw [h.sz, h.map]
  · exact h.rest k' hk' e

theorem Counted.rely {s' : OSt} (h : Counted C t s) (hr : Rely C t s s') : Counted C t s' := by
  intro k hk
  rw [hr.sz k hk, hr.map k hk]; exact h k hk

/-! ## Claiming a slot -/

/-- What the owner knows of the slot it is about to claim. -/
structure Free (C : Cfg) (t : Nat) (k : Word) (o : Option Word) (b : Bool) (V : Word) (d : Nat) (s : OSt) : Prop where
  held : Held C t k o b s
  passed : Passed C.hash C.len (fun i => clean (s.key i)) k d
  nowhere : ∀ i, i < C.len → clean (s.key i) ≠ k
  key : s.key (pat C.hash C.len k d) = KINITIAL ∨ clean (s.key (pat C.hash C.len k d)) ≠ KINITIAL
  val : (V = VINITIAL ∧ s.val (pat C.hash C.len k d) = VINITIAL) ∨ clean (s.key (pat C.hash C.len k d)) ≠ KINITIAL

theorem Free.rely {o : Option Word} {b : Bool} {V : Word} {d : Nat} {s' : OSt} (h : Free C t k o b V d s) (hC : C.OK)
    (hk : k ∈ C.S) (ho : C.own k = t) (hr : Rely C t s s') : Free C t k o b V d s' where
  held := h.held.rely hr ho
  passed := hr.passed hC.pos h.passed
  nowhere i hi e := by
    have := hr.mine i hi (by rw [e]; exact (hC.user hk).ne_init) (by rw [e]; exact ho)
    exact h.nowhere i hi (by rw [this, e])
  key := by
    have hlt := hC.at_lt k d
    rcases h.key with e | e
    · exact hr.keyC _ hlt e
    · right; rw [hr.key _ hlt e]; exact e
  val := by
    have hlt := hC.at_lt k d
    rcases h.val with ⟨e1, e2⟩ | e
    · rcases hr.valC _ hlt e2 with e3 | e3
      · exact .inl ⟨e1, e3⟩
      · exact .inr e3
    · right; rw [hr.key _ hlt e]; exact e

/-- Claiming an empty slot keeps the table in order and disturbs nobody. -/
theorem claim (hC : C.OK) (hk : k ∈ C.S) (ho : C.own k = t) {d : Nat} (h10 : d < C.bound) (hI : OInv C s)
    (hp : Passed C.hash C.len (fun i => clean (s.key i)) k d) (hn : ∀ i, i < C.len → clean (s.key i) ≠ k)
    (h0 : s.key (pat C.hash C.len k d) = KINITIAL) {s' : OSt}
    (hs' : s' = { s with m := { s.m with word := setWord s.m.word (.key 0 (pat C.hash C.len k d)) (dirty k) } }) :
    OInv C s' ∧ (∀ t', t' ≠ t → Rely C t' s s') ∧ clean (s'.key (pat C.hash C.len k d)) = k ∧ (∀ i, s'.val i = s.val i) ∧
      s'.M = s.M ∧ s'.sz = s.sz := by
  have hu := hC.user hk
  have hlt := hC.at_lt k d
  have hlen : d < C.len := hp.lt hC.pos (by rw [h0]; exact clean_KINITIAL)
  generalize hi : pat C.hash C.len k d = i at h0 hs' hlt
  have hki : clean (s'.key i) = k := by
    rw [hs']
    change clean (setWord s.m.word (.key 0 i) (dirty k) (.key 0 i)) = k
    simp only [setWord, if_true]
    rw [clean_dirty, hu.clean]
  have hkj : ∀ j, j ≠ i → s'.key j = s.key j := by
    intro j hj
    rw [hs']
    change setWord s.m.word (.key 0 i) (dirty k) (.key 0 j) = s.m.word (.key 0 j)
    simp [setWord, hj]
  have hv : ∀ j, s'.val j = s.val j := by
    intro j
    rw [hs']
    change setWord s.m.word (.key 0 i) (dirty k) (.val 0 j) = s.m.word (.val 0 j)
    simp [setWord]
  have hM : s'.M = s.M := by rw [hs']
  have hz : s'.sz = s.sz := by rw [hs']
  have h0c : clean (s.key i) = KINITIAL := by rw [h0]; exact clean_KINITIAL
  refine ⟨⟨by rw [hs']; exact hI.root, by rw [hs']; exact hI.lt, by rw [hs']; exact hI.len, by rw [hs']; exact hI.newT,
      by rw [hs']; exact hI.ok, ⟨?_, ?_⟩, ?_, ?_, ?_, ?_, by rw [hz, hs']; exact hI.size,
      by rw [hs']; exact ⟨hI.lone.1, hI.lone.2, hI.lone.3, hI.lone.4, hI.lone.5⟩⟩, ?_, hki, hv, hM, hz⟩
  · intro j hj hne
    by_cases e : j = i
    · subst e; simp only [hki]; exact hk
    · simp only [hkj j e] at hne ⊢; exact hI.placed.mem j hj hne
  · intro j hj hne
    change clean (s'.key j) ≠ KINITIAL at hne
    change ∃ d, d < C.bound ∧ d < C.len ∧ j = pat C.hash C.len (clean (s'.key j)) d ∧ ∀ x, x < d →
      clean (s'.key (pat C.hash C.len (clean (s'.key j)) x)) ≠ KINITIAL ∧
      clean (s'.key (pat C.hash C.len (clean (s'.key j)) x)) ≠ clean (s'.key j)
    by_cases e : j = i
    · subst e
      rw [hki]
      refine ⟨d, h10, hlen, hi.symm, fun x hx => ?_⟩
      have : pat C.hash C.len k x ≠ j := by
        rw [← hi]
        intro e
        have := pat_inj (by omega) hlen e
        omega
      rw [hkj _ this]
      exact hp x hx
    · rw [hkj j e] at hne ⊢
      obtain ⟨d', h1, h2, h3, h4⟩ := hI.placed.path j hj hne
      refine ⟨d', h1, h2, h3, fun x hx => ?_⟩
      have h5 := h4 x hx
      have : pat C.hash C.len (clean (s.key j)) x ≠ i := by
        intro e'
        rw [e'] at h5
        exact h5.1 h0c
      rw [hkj _ this]
      exact h5
  · intro j hj he
    by_cases e : j = i
    · subst e; rw [hki] at he; exact absurd he hu.ne_init
    · rw [hkj j e] at he; rw [hv]; exact hI.empty j hj he
  · intro j hj hne
    by_cases e : j = i
    · subst e
      rw [hki, hv, hM, hI.empty j hj h0c, dec_init]
      exact ⟨hI.absent k (hC.valid k hk) hn, .inl rfl⟩
    · rw [hkj j e] at hne ⊢
      rw [hv, hM]; exact hI.vals j hj hne
  · intro hre j hj hne hvj
    rw [hv] at hvj
    by_cases e : j = i
    · subst e; exact absurd (hI.empty j hj h0c) hvj
    · rw [hkj j e] at hne ⊢
      exact hI.near hre j hj hne hvj
  · intro k' hk' hnone
    rw [hM]
    refine hI.absent k' hk' fun j hj e => ?_
    by_cases e' : j = i
    · subst e'; rw [h0c] at e; exact (userKey_of_valid hk').ne_init e.symm
    · exact hnone j hj (by rw [hkj j e']; exact e)
  · intro t' ht'
    refine ⟨fun j hj hne => ?_, fun j hj he => ?_, fun j hj he => .inl (by rw [hv]; exact he), fun j hj hne hown => ?_,
      fun j _ _ _ => .inl (hv j), fun k' _ => by rw [hM], fun k' _ => by rw [hz]⟩
    · by_cases e : j = i
      · subst e; exact absurd h0c hne
      · rw [hkj j e]
    · by_cases e : j = i
      · subst e; right; rw [hki]; exact hu.ne_init
      · left; rw [hkj j e]; exact he
    · by_cases e : j = i
      · subst e; rw [hki, ho] at hown; exact absurd hown.symm ht'
      · rw [hkj j e]

/-- `CASkey` by the owner. -/
theorem ocasKey (hC : C.OK) (hk : k ∈ C.S) (ho : C.own k = t) {d : Nat} (h10 : d < C.bound) {o : Option Word}
    {b : Bool} {V : Word} (hF : Free C t k o b V d s) :
    owp C t op (fun a s' c' => c' = c ∧ OInv C s' ∧ Held C t k o b s' ∧
        ((a = KINITIAL ∧ clean (s'.key (pat C.hash C.len k d)) = k ∧ s'.val (pat C.hash C.len k d) = VINITIAL ∧ V = VINITIAL) ∨
         (a ≠ KINITIAL ∧ clean a = clean (s'.key (pat C.hash C.len k d)) ∧ clean a ≠ KINITIAL ∧ clean a ≠ k ∧
           Passed C.hash C.len (fun i => clean (s'.key i)) k d)))
      (casKey 0 (pat C.hash C.len k d) KINITIAL k) s c := by
  have hlt := hC.at_lt k d
  refine owp_bind' (owp_bind' (owp_tableKey hlt fun s1 r1 i1 s2 r2 i2 _ _ _ => ?_))
  have hF2 := hF.rely hC hk ho (r1.trans r2)
  refine owp_bind' ?_
  rw [do1, owp]
  intro s3 r3 i3 _
  have hF3 := hF2.rely hC hk ho r3
  by_cases hw : s3.key (pat C.hash C.len k d) = KINITIAL
  · obtain ⟨j1, j2, j3, j4, j5, j6⟩ := claim hC hk ho h10 i3 hF3.passed hF3.nowhere hw rfl
    refine ⟨(true, KINITIAL), _, ?_, .inr ⟨j1, j2, .inl ⟨j5, ?_⟩⟩⟩
    · rw [Act.exec, if_pos (i3.exec_ok (slot_key hlt)), if_pos (show s3.m.word (.key 0 (pat C.hash C.len k d)) = KINITIAL from hw)]
    · rw [owp]
      obtain ⟨hV, hv⟩ := hF3.val.resolve_right (fun h => h (by rw [hw]; exact clean_KINITIAL))
      have hh : Held C t k o b { s3 with m := { s3.m with word := setWord s3.m.word (.key 0 (pat C.hash C.len k d)) (dirty k) } } :=
        ⟨hF3.held.map, hF3.held.sz, hF3.held.rest⟩
      refine owp_bind' (owp_check (by decide) fun s4 r4 i4 => owp_pure (owp_pure ⟨rfl, i4, hh.rely r4 ho, .inl ⟨rfl, ?_, ?_, hV⟩⟩))
      · rw [r4.key _ hlt (by rw [j3]; exact (hC.user hk).ne_init), j3]
      · have hv' := (j4 (pat C.hash C.len k d)).trans hv
        rcases r4.val _ hlt (by rw [j3]; exact (hC.user hk).ne_init) (by rw [j3]; exact ho) with e | e
        · rw [e, hv']
        · rw [e, hv']; exact clean_VINITIAL
  · have hcl := hF3.key.resolve_left hw
    refine ⟨(false, s3.key (pat C.hash C.len k d)), s3, ?_, .inr ⟨i3, fun _ _ => Rely.refl _, .inl ⟨rfl, ?_⟩⟩⟩
    · rw [Act.exec, if_pos (i3.exec_ok (slot_key hlt)), if_neg (show ¬ s3.m.word (.key 0 (pat C.hash C.len k d)) = KINITIAL from hw)]; rfl
    · rw [owp]
      refine owp_bind' (owp_check (by simpa using fun e => hw e.symm) fun s4 r4 i4 => owp_pure (owp_pure
        ⟨rfl, i4, hF3.held.rely r4 ho, .inr ⟨hw, ?_, hcl, hF3.nowhere _ hlt, r4.passed hC.pos hF3.passed⟩⟩))
      exact (r4.key _ hlt hcl).symm

/-! ## Counters -/

theorem tabStep {s' : OSt} (hI : OInv C s) {x : Tab} (h1 : x.len = (s.m.tab 0).len) (h2 : x.newT = (s.m.tab 0).newT)
    (h3 : x.size = BitVec.ofNat 64 (C.S.filter fun k => s'.sz k = true).card)
    (hm : s'.m = { s.m with tab := upd s.m.tab 0 x }) (hM : s'.M = s.M) (h4 : x.copyDone = (s.m.tab 0).copyDone)
    (h5 : (s.m.tab 0).slots ≤ x.slots) : OInv C s' := by
  have ht : s'.m.tab 0 = x := by rw [hm]; rfl
  have hk : ∀ i, s'.key i = s.key i := fun i => by simp only [OSt.key, hm]
  have hv : ∀ i, s'.val i = s.val i := fun i => by simp only [OSt.val, hm]
  refine ⟨by rw [hm]; exact hI.root, by rw [hm]; exact hI.lt, by rw [ht, h1]; exact hI.len, by rw [ht, h2]; exact hI.newT,
      by rw [hm]; exact hI.ok, ?_, ?_, ?_, ?_, ?_, by rw [ht]; exact h3,
      ⟨by rw [hm]; exact hI.lone.next, by rw [ht, h4]; exact hI.lone.done, fun hre => by rw [ht, h1]; exact le_trans (hI.lone.slots hre) h5,
        by rw [hm]; exact hI.lone.cap, by rw [hm]; exact hI.lone.reopened⟩⟩
  · simp only [hk]; exact hI.placed
  · simp only [hk, hv]; exact hI.empty
  · simp only [hk, hv, hM]; exact hI.vals
  · simp only [hk, hv]; exact hI.near
  · simp only [hk, hM]; exact hI.absent

theorem owp_incSlots {Q : Unit → OSt → Option Res → Prop} (h : After C t s fun s' => Q () s' c) :
    owp C t op Q (do1 (.incSlots 0)) s c := by
  rw [do1, owp]
  intro s1 r1 i1 _
  have hr : ∀ t', Rely C t' s1 { s1 with m := { s1.m with tab := upd s1.m.tab 0 { s1.m.tab 0 with slots := (s1.m.tab 0).slots + 1 } } } :=
    fun t' => Rely.same (fun _ => rfl) rfl rfl
  have hI : OInv C { s1 with m := { s1.m with tab := upd s1.m.tab 0 { s1.m.tab 0 with slots := (s1.m.tab 0).slots + 1 } } } :=
    tabStep (x := { s1.m.tab 0 with slots := (s1.m.tab 0).slots + 1 }) i1 rfl rfl i1.size rfl rfl rfl (Nat.le_succ _)
  exact ⟨(), _, by simp only [Act.exec, i1.lt, if_true], .inr ⟨hI, fun t' _ => hr t', .inl ⟨rfl, h _ (r1.trans (hr t)) hI⟩⟩⟩

/-- The owner's size counter update. -/
theorem oaddSize (hk : k ∈ C.S) (ho : C.own k = t) {o : Option Word} {b : Bool} (hH : Held C t k o b s) {x : Word}
    (hx : x = if b then -1#64 else 1#64) {Q : Unit → OSt → Option Res → Prop}
    (h : ∀ s', Held C t k o (!b) s' → Q () s' c) : owp C t op Q (do1 (.addSize 0 x)) s c := by
  rw [do1, owp]
  intro s1 r1 i1 _
  have hH1 := hH.rely r1 ho
  generalize hs2 : (⟨{ s1.m with tab := upd s1.m.tab 0 { s1.m.tab 0 with size := (s1.m.tab 0).size + x } }, s1.M,
    fun k' => if k' = k then !b else s1.sz k'⟩ : OSt) = s2
  have hsz : s2.sz = fun k' => if k' = k then !b else s1.sz k' := by rw [← hs2]
  have hM : s2.M = s1.M := by rw [← hs2]
  have hm : s2.m = { s1.m with tab := upd s1.m.tab 0 { s1.m.tab 0 with size := (s1.m.tab 0).size + x } } := by rw [← hs2]
  have hcount : (s1.m.tab 0).size + x = BitVec.ofNat 64 (C.S.filter fun k => s2.sz k = true).card := by
    rw [i1.size, hx]
    have hsz1 := hH1.sz
    cases b with
    | false =>
      have e : (C.S.filter fun k => s2.sz k = true) = insert k (C.S.filter fun k => s1.sz k = true) := by
        ext y
        simp only [Finset.mem_filter, Finset.mem_insert, hsz]
        by_cases hy : y = k
        · subst hy; simp [hk]
        · simp [hy]
      rw [e, Finset.card_insert_of_notMem (by simp [hsz1])]
      simp [BitVec.ofNat_add]
    | true =>
      have e : (C.S.filter fun k => s1.sz k = true) = insert k (C.S.filter fun k => s2.sz k = true) := by
        ext y
        simp only [Finset.mem_filter, Finset.mem_insert, hsz]
        by_cases hy : y = k
        · subst hy; simp [hk, hsz1]
        · simp [hy]
      rw [e, Finset.card_insert_of_notMem (by simp [hsz])]
      simp only [if_true]
      rw [BitVec.ofNat_add, BitVec.add_assoc]
      simp
  refine ⟨(), s2, by rw [hm]; simp only [Act.exec, i1.lt, if_true], .inr ⟨tabStep (x := { s1.m.tab 0 with size := (s1.m.tab 0).size + x }) i1 rfl rfl hcount hm hM rfl (le_refl _), fun t' ht' => ?_,
    .inl ⟨hM, h s2 ⟨by rw [hM]; exact hH1.map, by rw [hsz]; simp, fun k' h1 h2 => ?_⟩⟩⟩⟩
  · refine ⟨fun i _ _ => ?_, fun i _ h => .inl ?_, fun i _ h => .inl ?_, fun i _ _ _ => ?_, fun i _ _ _ => .inl ?_,
      fun k' _ => by rw [hM], fun k' hk' => ?_⟩
    · simp only [OSt.key, hm]
    · simpa only [OSt.key, hm] using h
    · simpa only [OSt.val, hm] using h
    · simp only [OSt.key, hm]
    · simp only [OSt.val, hm]
    · rw [hsz]
      exact if_neg (by rintro rfl; exact ht' (hk'.symm.trans ho))
  · rw [hM, ← hH1.rest k' h1 h2, hsz]
    exact if_neg h2

/-! ## `putIfMatch` -/

/-- How the probe loop of `putIfMatch` ends for the owner of the key. -/
def Found (C : Cfg) (t : Nat) (k nv : Word) (o : Option Word) (b : Bool) (p : Probe) (s : OSt) : Prop :=
  Held C t k o b s ∧ ((p = .returned VTOMBSTONE ∧ nv = VTOMBSTONE ∧ o = none) ∨
    (p = .full ∧ C.grow = true) ∨
    ∃ i d V, p = .slot i d V ∧ i < C.len ∧ i = pat C.hash C.len k d ∧ d < C.len ∧ (d < 10 ∨ C.grow = true ∧ (V = VINITIAL ∨ C.re = true)) ∧ clean (s.key i) = k ∧ s.val i = V ∧ Stored V ∧ dec V = o)

theorem oprobe (hC : C.OK) (hk : k ∈ C.S) (ho : C.own k = t) (n : Nat) {nv : Word} {o : Option Word} {b : Bool}
    (hH : Held C t k o b s) :
    owp C t op (fun p s' c' => c' = c ∧ Found C t k nv o b p s')
      (loop n (probeBody 0 k nv C.len) (homePut C.hash k C.len, 0)) s c := by
  have hu := hC.user hk
  refine owp_loop (I := fun x s' c' => c' = c ∧ x.1 = pat C.hash C.len k x.2 ∧ x.2 < C.bound ∧ (C.grow = false → x.2 < C.len) ∧ Held C t k o b s' ∧
    Passed C.hash C.len (fun i => clean (s'.key i)) k x.2) ?_ n _ _ _
    ⟨rfl, hC.pat_zero k, lt_of_lt_of_le (Nat.zero_lt_succ 9) C.le_bound, fun _ => hC.pos, hH, fun e he => absurd he (Nat.not_lt_zero _)⟩
  clear hH
  rintro ⟨i, d⟩ s c' ⟨rfl, hi, h10, hd, hH, hP⟩
  simp only at hi hd hP h10
  subst hi
  have hlt := hC.at_lt k d
  -- the part of the body that goes on to the next slot
  have hnext : ∀ (s : OSt) (V K : Word), OInv C s → Held C t k o b s → Passed C.hash C.len (fun i => clean (s.key i)) k d →
      clean (s.key (pat C.hash C.len k d)) ≠ KINITIAL → clean (s.key (pat C.hash C.len k d)) ≠ k → K ≠ k → K ≠ KTOMBSTONE →
      owp C t op (fun r s' c'' => match r with
          | .next x => c'' = c' ∧ x.1 = pat C.hash C.len k x.2 ∧ x.2 < C.bound ∧ (C.grow = false → x.2 < C.len) ∧ Held C t k o b s' ∧
              Passed C.hash C.len (fun i => clean (s'.key i)) k x.2
          | .done p => c'' = c' ∧ Found C t k nv o b p s')
        (probeMatch k C.len (pat C.hash C.len k d) d K V) s c' := by
    intro s V K hI hH hP h0 h1 h2 h3
    have g1 := hP.step h0 h1
    have hg : C.grow = false → d + 1 < 10 ∧ d + 1 < C.len := fun hg => hC.near hg hI hk (hd hg) g1
    by_cases h4 : reprobeLimit C.len ≤ d + 1
    · rw [probeMatch, if_neg h2, if_pos (.inl h4)]
      refine owp_pure ⟨rfl, hH, .inr (.inl ⟨rfl, ?_⟩)⟩
      cases e : C.grow with
      | true => rfl
      | false =>
        have := hg e
        unfold reprobeLimit REPROBE_LIMIT at h4; omega
    · have h4' : ¬ (reprobeLimit C.len ≤ d + 1 ∨ K = KTOMBSTONE) := by
        rintro (h | h)
        · exact h4 h
        · exact h3 h
      rw [probeMatch, if_neg h2, if_neg h4']
      refine owp_pure ⟨rfl, hC.pat_succ k d, ?_, fun e => (hg e).2, hH, g1⟩
      rw [Cfg.bound]
      cases e : C.grow with
      | true => rw [if_pos rfl]; omega
      | false => rw [if_neg (by decide)]; exact (hg e).1
  have hten : ∀ {p : Prop}, p → (d < 10 ∨ C.grow = true ∧ p) := by
    intro p hp
    cases e : C.grow with
    | true => exact .inr ⟨rfl, hp⟩
    | false => rw [Cfg.bound, e] at h10; exact .inl h10
  have hS : ∀ K ∈ C.S, K ≠ KTOMBSTONE := fun K hK => (hC.user hK).ne_tomb
  refine owp_bind' (owp_tableKey hlt fun s1 r1 i1 s2 r2 i2 hw2 _ _ => ?_)
  refine owp_bind' (owp_tableValue hlt fun s3 r3 i3 s4 r4 i4 hw4 _ _ => ?_)
  have hP1 := r1.passed hC.pos hP
  by_cases h0 : clean (s1.key (pat C.hash C.len k d)) = KINITIAL
  · rw [if_pos (show clean (s1.key (pat C.hash C.len k d)) = VINITIAL from h0)]
    have hno : ∀ i, i < C.len → clean (s1.key i) ≠ k := i1.placed.nowhere hu.ne_init hP1 h0
    have hnone : o = none := by
      rw [← (hH.rely r1 ho).map]; exact i1.absent k (hC.valid k hk) hno
    have r14 := r2.trans (r3.trans r4)
    have hF : Free C t k o b (clean (s3.val (pat C.hash C.len k d))) d s4 := by
      refine ⟨hH.rely (r1.trans r14) ho, r14.passed hC.pos hP1, fun i hi e => ?_, ?_, val_settled hlt i3 i4 r4 hw4⟩
      · have := r14.mine i hi (by rw [e]; exact hu.ne_init) (by rw [e]; exact ho)
        exact hno i hi (by rw [this, e])
      · rcases key_settled hlt r2 h0 hw2 with e | e
        · exact (r3.trans r4).keyC _ hlt e
        · right; rw [(r3.trans r4).key _ hlt e]; exact e
    by_cases hnv : nv = VTOMBSTONE
    · rw [if_pos hnv]
      exact owp_pure ⟨rfl, hF.held, .inl ⟨by rw [hnv], hnv, hnone⟩⟩
    · rw [if_neg hnv]
      refine owp_bind' (owp_mono (ocasKey hC hk ho h10 hF) ?_)
      rintro a s5 c5 ⟨rfl, i5, hH5, ⟨rfl, e1, e2, e3⟩ | ⟨h1, e1, e2, e3, hP5⟩⟩
      · rw [if_pos rfl]
        refine owp_bind' (owp_incSlots fun s6 r6 i6 => owp_pure ⟨rfl, hH5.rely r6 ho, .inr (.inr ⟨_, _, _, rfl, hlt, rfl, hP1.lt hC.pos h0, ?_, ?_, ?_, ?_, ?_⟩)⟩)
        · exact hten (.inl e3)
        · rw [r6.key _ hlt (by rw [e1]; exact hu.ne_init), e1]
        · rw [e3]
          rcases r6.val _ hlt (by rw [e1]; exact hu.ne_init) (by rw [e1]; exact ho) with e | e
          · rw [e, e2]
          · rw [e, e2]; exact clean_VINITIAL
        · rw [e3]; exact .inl rfl
        · rw [e3, dec_init, hnone]
      · rw [if_neg h1]
        have hm := i5.placed.mem _ hlt (by rw [← e1]; exact e2)
        rw [← e1] at hm
        refine owp_mono (hnext s5 (clean (s3.val (pat C.hash C.len k d))) a i5 hH5 hP5 (by rw [← e1]; exact e2)
          (by rw [← e1]; exact e3) ?_ ?_) (by rintro (_ | _) _ _ h <;> exact h)
        · rintro rfl; exact e3 hu.clean
        · rintro rfl
          exact hS _ hm (by decide)
  · rw [if_neg (show clean (s1.key (pat C.hash C.len k d)) ≠ VINITIAL from h0)]
    by_cases hK : clean (s1.key (pat C.hash C.len k d)) = k
    · rw [probeMatch, if_pos hK]
      have hk3 : clean (s3.key (pat C.hash C.len k d)) = k := by rw [(r2.trans r3).key _ hlt h0, hK]
      have h3 : clean (s3.key (pat C.hash C.len k d)) ≠ KINITIAL := by rw [hk3]; exact hu.ne_init
      obtain ⟨hv1, hv2⟩ := i3.vals _ hlt h3
      have hP3 := (r2.trans r3).passed hC.pos hP1
      refine owp_pure ⟨rfl, hH.rely (r1.trans (r2.trans (r3.trans r4))) ho,
        .inr (.inr ⟨_, _, _, rfl, hlt, rfl, (i3.placed.found hu.ne_init hP3 hC.pos hk3).2, ?_, ?_, ?_, hv2, ?_⟩)⟩
      · by_cases hvi : clean (s3.val (pat C.hash C.len k d)) = VINITIAL
        · exact hten (.inl hvi)
        cases hre : C.re with
        | true => exact hten (.inr rfl)
        | false =>
          obtain ⟨d', hd', e⟩ := i3.near hre _ hlt h3 hvi
          rw [hk3] at e
          left
          by_contra hge
          refine (hP3 d' (by omega)).2 ?_
          change clean (s3.key _) = k
          rw [← e]; exact hk3
      · rw [r4.key _ hlt h3, hk3]
      · exact own_settled hlt r4 h3 (by rw [hk3]; exact ho) hw4
      · rw [← hv1, hk3]; exact (hH.rely (r1.trans (r2.trans r3)) ho).map
    · have r24 := r2.trans (r3.trans r4)
      have e4 := r24.key _ hlt h0
      exact owp_mono (hnext s4 (clean (s3.val (pat C.hash C.len k d))) _ i4 (hH.rely (r1.trans r24) ho) (r24.passed hC.pos hP1)
        (by rw [e4]; exact h0) (by rw [e4]; exact hK) hK (hS _ (i1.placed.mem _ hlt h0))) (by rintro (_ | _) _ _ h <;> exact h)

/-- What a modifying call on `k` needs to be told about itself: `f` is its effect on the content. -/
structure WOp (op : Op) (k : Word) (cf : CasFn) (nv ov : Word) (f : Option Word → Option Word) (res : Option Word → Res) :
    Prop where
  next : ∀ M k', specNext op M k' = if k' = k then f (M k) else M k'
  spec : ∀ M y, specRes op M = some y → res (M k) = y
  nv_init : nv ≠ VINITIAL
  nv_mig : isMig nv = false
  ov_init : ov ≠ VINITIAL
  ov_mig : isMig ov = false
  same : ∀ V, Stored V → nv = V → f (dec V) = dec V
  skip : nv = VTOMBSTONE → f none = none
  stop : ∀ V, Stored V → mismatch V ov = true → f (dec V) = dec V
  go : ∀ V, Stored V → mismatch V ov = false → nv ≠ V → (∀ v, f (dec V) = some v → ValidVal v) →
    dec (clean (cf.stored V nv)) = f (dec V) ∧ Stored (clean (cf.stored V nv)) ∧
    ((f (dec V)).isSome = true ↔ nv ≠ VTOMBSTONE)

variable {cf : CasFn} {nv ov : Word} {f : Option Word → Option Word} {res : Option Word → Res}

theorem WOp.stay (hw : WOp op k cf nv ov f res) {M : AMap} (h : f (M k) = M k) : specNext op M = M := by
  funext k'
  rw [hw.next]
  split
  · next e => rw [h, e]
  · rfl

/-- Writing the value of an own key. -/
theorem write (hC : C.OK) (hw : WOp op k cf nv ov f res) (hk : k ∈ C.S) (ho : C.own k = t) {i : Nat} (hi : i < C.len)
    (hI : OInv C s) (hki : clean (s.key i) = k) (hnear : C.re = false → ∃ d, d < 10 ∧ i = pat C.hash C.len k d) {w : Word} (hd : dec (clean w) = f (s.M k)) (hst : Stored (clean w)) {s' : OSt}
    (hs' : s' = ⟨{ s.m with word := setWord s.m.word (.val 0 i) w }, specNext op s.M, s.sz⟩) :
    OInv C s' ∧ (∀ t', t' ≠ t → Rely C t' s s') ∧ (∀ j, s'.key j = s.key j) ∧ s'.val i = w := by
  have hu := hC.user hk
  have hkk : ∀ j, s'.key j = s.key j := by
    intro j
    rw [hs']
    change setWord s.m.word (.val 0 i) w (.key 0 j) = s.m.word (.key 0 j)
    simp [setWord]
  have hvi : s'.val i = w := by
    rw [hs']
    change setWord s.m.word (.val 0 i) w (.val 0 i) = w
    simp [setWord]
  have hvj : ∀ j, j ≠ i → s'.val j = s.val j := by
    intro j hj
    rw [hs']
    change setWord s.m.word (.val 0 i) w (.val 0 j) = s.m.word (.val 0 j)
    simp [setWord, hj]
  have hM : s'.M = specNext op s.M := by rw [hs']
  have hz : s'.sz = s.sz := by rw [hs']
  refine ⟨⟨by rw [hs']; exact hI.root, by rw [hs']; exact hI.lt, by rw [hs']; exact hI.len, by rw [hs']; exact hI.newT,
      by rw [hs']; exact hI.ok, ?_, ?_, ?_, ?_, ?_, by rw [hz, hs']; exact hI.size,
      by rw [hs']; exact ⟨hI.lone.1, hI.lone.2, hI.lone.3, hI.lone.4, hI.lone.5⟩⟩, ?_, hkk, hvi⟩
  · simp only [hkk]; exact hI.placed
  · intro j hj he
    rw [hkk] at he
    have : j ≠ i := by rintro rfl; rw [hki] at he; exact hu.ne_init he
    rw [hvj j this]; exact hI.empty j hj he
  · intro j hj hne
    rw [hkk] at hne ⊢
    by_cases e : j = i
    · subst e
      rw [hvi, hM, hki, hw.next, if_pos rfl]
      exact ⟨hd.symm, hst⟩
    · have : clean (s.key j) ≠ k := fun e' => e (hI.placed.inj hj hi hne (e'.trans hki.symm))
      rw [hvj j e, hM, hw.next, if_neg this]
      exact hI.vals j hj hne
  · intro hre j hj hne hvn
    rw [hkk] at hne ⊢
    by_cases e : j = i
    · subst e
      rw [hki]; exact hnear hre
    · rw [hvj j e] at hvn
      exact hI.near hre j hj hne hvn
  · intro k' hk' hnone
    simp only [hkk] at hnone
    have : k' ≠ k := by rintro rfl; exact hnone i hi hki
    rw [hM, hw.next, if_neg this]
    exact hI.absent k' hk' hnone
  · intro t' ht'
    refine ⟨fun j _ _ => by rw [hkk], fun j _ h => .inl (by rw [hkk]; exact h), fun j hj h => ?_, fun j _ _ _ => by rw [hkk],
      fun j hj hne hown => .inl ?_, fun k' hk' => ?_, fun k' _ => by rw [hz]⟩
    · by_cases e : j = i
      · subst e; right; rw [hkk, hki]; exact hu.ne_init
      · left; rw [hvj j e]; exact h
    · apply hvj
      rintro rfl
      rw [hki, ho] at hown; exact ht' hown.symm
    · rw [hM, hw.next, if_neg]
      rintro rfl
      exact ht' (hk'.symm.trans ho)

/-- The CAS of the update loop. -/
theorem ocall (hC : C.OK) (hw : WOp op k cf nv ov f res) (hk : k ∈ C.S) (ho : C.own k = t) {i : Nat} (hi : i < C.len) {V : Word}
    {o : Option Word} {b : Bool} (hH : Held C t k o b s) (hki : clean (s.key i) = k) (hnear : C.re = false → ∃ d, d < 10 ∧ i = pat C.hash C.len k d) (hv : s.val i = V) (hV : Stored V)
    (hd : dec V = o) (hm : mismatch V ov = false) (hne : nv ≠ V) (hc : c = some (res o) ∧ f o = o ∨ c = none)
    (hvalid : c = some (res o) → ∀ v, f o = some v → ValidVal v) :
    owp C t op (fun a s' c' => a = V ∧ c' = some (res o) ∧ Held C t k (f o) b s' ∧ ((f o).isSome = true ↔ nv ≠ VTOMBSTONE))
      (cf.call 0 i V nv) s c := by
  have hu := hC.user hk
  have hk0 : clean (s.key i) ≠ KINITIAL := by rw [hki]; exact hu.ne_init
  have hown : C.own (clean (s.key i)) = t := by rw [hki]; exact ho
  have hval : ∀ s', Rely C t s s' → s'.val i = V := by
    intro s' hr
    rcases hr.val i hi hk0 hown with e | e <;> rw [e, hv]
    exact hV.clean
  rw [CasFn.call_eq]
  refine owp_bind' (owp_bind' (owp_tableValue hi fun s1 r1 i1 s2 r2 i2 _ _ _ => ?_))
  refine owp_bind' ?_
  rw [do1, owp]
  intro s3 r3 i3 hF
  have r := r1.trans (r2.trans r3)
  have hH3 := hH.rely r ho
  have hv3 := hval s3 r
  have hk3 : clean (s3.key i) = k := by rw [r.key i hi hk0, hki]
  have hfv : ∀ v, f (dec V) = some v → ValidVal v := by
    rw [hd]
    rcases hc with ⟨hc, -⟩ | hc
    · exact hvalid hc
    · intro v e
      refine hF hc k v ?_
      rw [hw.next, if_pos rfl, hH3.map, e]
  obtain ⟨g1, g2, g3⟩ := hw.go V hV hm hne hfv
  obtain ⟨j1, j2, j3, j4⟩ := write hC hw hk ho hi i3 hk3 hnear (w := dirty (cf.stored V nv))
    (by rw [clean_dirty, g1, hH3.map, hd]) (by rw [clean_dirty]; exact g2) rfl
  refine ⟨(true, V), _, ?_, .inr ⟨j1, j2, ?_⟩⟩
  · rw [Act.exec, if_pos (i3.exec_ok (slot_val hi)), if_pos (show s3.m.word (.val 0 i) = V from hv3)]
  have hres : ∀ y, specRes op s3.M = some y → res o = y := by
    intro y hy
    rw [← hH3.map]; exact hw.spec _ y hy
  have hH4 : Held C t k (f o) b ⟨{ s3.m with word := setWord s3.m.word (.val 0 i) (dirty (cf.stored V nv)) }, specNext op s3.M, s3.sz⟩ := by
    refine ⟨?_, hH3.sz, fun k' h1 h2 => ?_⟩
    · change specNext op s3.M k = f o
      rw [hw.next, if_pos rfl, hH3.map]
    · change s3.sz k' = (specNext op s3.M k').isSome
      rw [hw.next, if_neg h2]; exact hH3.rest k' h1 h2
  rw [hd] at g3
  have hrest : ∀ s4, Rely C t ⟨{ s3.m with word := setWord s3.m.word (.val 0 i) (dirty (cf.stored V nv)) }, specNext op s3.M, s3.sz⟩ s4 →
      Held C t k (f o) b s4 := fun s4 r4 => hH4.rely r4 ho
  rcases hc with ⟨rfl, hf⟩ | rfl
  · refine .inl ⟨?_, ?_⟩
    · exact hw.stay (by rw [hH3.map]; exact hf)
    · rw [owp]
      exact owp_bind' (owp_check (by simp) fun s4 r4 i4 => owp_pure (owp_pure ⟨rfl, rfl, hrest s4 r4, g3⟩))
  · refine .inr ⟨rfl, rfl, res o, hres, ?_⟩
    rw [owp]
    exact owp_bind' (owp_check (by simp) fun s4 r4 i4 => owp_pure (owp_pure ⟨rfl, rfl, hrest s4 r4, g3⟩))

theorem oadjust (hk : k ∈ C.S) (ho : C.own k = t) (hov : ov ≠ VINITIAL) {V : Word} (hV : Stored V) {o' : Option Word}
    (hH : Held C t k o' (dec V).isSome s) (hf : o'.isSome = true ↔ nv ≠ VTOMBSTONE) {Q : Unit → OSt → Option Res → Prop}
    (h : ∀ s', Counted C t s' → Q () s' c) : owp C t op Q (adjustSize 0 V nv ov) s c := by
  rw [adjustSize, if_pos hov]
  by_cases hv : V = VINITIAL ∨ V = VTOMBSTONE
  · have hd : dec V = none := by rcases hv with rfl | rfl <;> simp [dec]
    rw [hd] at hH
    by_cases hn : nv ≠ VTOMBSTONE
    · rw [if_pos ⟨hv, hn⟩]
      refine oaddSize hk ho hH rfl fun s' hs' => h s' (Held.counted (k := k) (o := o') ?_)
      rw [hf.mpr hn]; exact hs'
    · rw [if_neg (fun h => hn h.2), if_neg (fun h => h.1 hv)]
      refine owp_pure (h _ (Held.counted (k := k) (o := o') ?_))
      cases ho' : o'.isSome with
      | true => exact absurd (hf.mp ho') hn
      | false => exact hH
  · have hd : dec V = some V := by simp [dec, hv]
    rw [hd] at hH
    rw [if_neg (fun h => hv h.1)]
    by_cases hn : nv = VTOMBSTONE
    · rw [if_pos ⟨hv, hn⟩]
      refine oaddSize hk ho hH rfl fun s' hs' => h s' (Held.counted (k := k) (o := o') ?_)
      cases ho' : o'.isSome with
      | true => exact absurd hn (hf.mp ho')
      | false => exact hs'
    · rw [if_neg (fun h => hn h.2)]
      refine owp_pure (h _ (Held.counted (k := k) (o := o') ?_))
      rw [hf.mpr hn]; exact hH

/-- The update loop. -/
theorem oupdate (hC : C.OK) (hw : WOp op k cf nv ov f res) (hk : k ∈ C.S) (ho : C.own k = t) (n : Nat) {i : Nat} (hi : i < C.len)
    {V : Word} {o : Option Word} (hH : Held C t k o o.isSome s) (hki : clean (s.key i) = k) (hnear : C.re = false → ∃ d, d < 10 ∧ i = pat C.hash C.len k d) (hv : s.val i = V) (hV : Stored V)
    (hd : dec V = o) (hne : nv ≠ V) (hc : c = some (res o) ∧ f o = o ∨ c = none ∧ f o ≠ o) :
    owp C t op (fun u s' c' => ∃ V', u = .returned V' ∧ Stored V' ∧ dec V' = o ∧ c' = some (res o) ∧ Counted C t s')
      (loop n (updateBody cf 0 i nv ov) V) s c := by
  cases n with
  | zero => exact owp_fuel
  | succ n =>
    refine owp_bind (owp_bind' (owp_check (by rw [hV.mig]; rfl) fun s1 r1 i1 => ?_))
    have hk0 : clean (s.key i) ≠ KINITIAL := by rw [hki]; exact (hC.user hk).ne_init
    have hH1 := hH.rely r1 ho
    have hk1 : clean (s1.key i) = k := by rw [r1.key i hi hk0, hki]
    have hv1 : s1.val i = V := by
      rcases r1.val i hi hk0 (by rw [hki]; exact ho) with e | e <;> rw [e, hv]
      exact hV.clean
    cases hm : mismatch V ov with
    | true =>
      rw [if_pos rfl]
      have := hw.stop V hV hm
      rw [hd] at this
      refine owp_pure ⟨V, rfl, hV, hd, ?_, hH1.counted⟩
      rcases hc with ⟨hc, -⟩ | ⟨-, hc⟩
      · exact hc
      · exact absurd this hc
    | false =>
      rw [if_neg (by decide)]
      have hov : ∀ v, o = some v → ValidVal v := by
        intro v e
        rw [← hd] at e
        exact (hV.dec_some e).2
      refine owp_bind' (owp_mono (ocall hC hw hk ho hi hH1 hk1 hnear hv1 hV hd hm hne (hc.imp id (·.1)) ?_) ?_)
      · intro e v hv
        rcases hc with ⟨-, hf⟩ | ⟨hn, -⟩
        · rw [hf] at hv; exact hov v hv
        · rw [hn] at e; cases e
      rintro a s2 c2 ⟨rfl, rfl, hH2, hf⟩
      rw [if_pos rfl]
      rw [← hd] at hH2 hf
      refine owp_bind' (oadjust hk ho hw.ov_init hV hH2 hf fun s3 h3 => owp_pure ?_)
      refine ⟨_, rfl, ?_, ?_, rfl, h3⟩
      · split
        · exact .inr (.inl rfl)
        · exact hV
      · split
        · next e => rw [dec_tomb, ← hd, e.1, dec_init]
        · exact hd

/-- A call that makes a new table: this is not looked at any further. -/
theorem oresize (hg : C.grow = true) {Q : Nat → OSt → Option Res → Prop} : owp C t op Q (resize 0) s c := by
  refine owp_bind' (owp_getNew fun s1 r1 i1 => owp_bind' (owp_len fun s2 r2 i2 => owp_bind' ?_))
  refine owp_noop fun s3 _ i3 => ⟨(s3.m.tab 0).size, s3.m, by simp [Act.exec, i3.lt], fun _ => rfl, rfl, rfl, rfl, rfl, rfl, rfl, fun s4 _ _ _ => ?_⟩
  refine owp_bind' (owp_getNew fun s5 r5 i5 => owp_bind' ?_)
  change owp C t op _ (.act (.alloc (newLen C.len (s3.m.tab 0).size) (s3.m.tab 0).size) .ret) s5 c
  rw [owp]
  intro s6 r6 i6 _
  generalize newLen C.len (s3.m.tab 0).size = l
  by_cases hl : l ≤ s6.m.cap
  · refine ⟨some s6.m.next, ⟨_, s6.M, s6.sz⟩, by rw [Act.exec, if_pos hl], .inl ⟨hg, ?_⟩⟩
    have := i6.lt
    change 2 ≤ s6.m.next + 1
    omega
  · refine ⟨none, s6, by rw [Act.exec, if_neg hl], .inr ⟨i6, fun _ _ => Rely.refl _, .inl ⟨rfl, ?_⟩⟩⟩
    change Halt.threw ≠ .ub
    decide

/-- A new key at a distance of ten slots or more makes the table count as full. -/
theorem owant (hC : C.OK) (hre : C.re = false) {d : Nat} (h10 : ¬ d < 10) (hd : d < C.len) {Q : Bool → OSt → Option Res → Prop}
    (h : ∀ {s}, Q true s c) : owp C t op Q (wantNewTable 0 d C.len VINITIAL) s c := by
  have h16 : REPROBE_LIMIT + C.len / 4 ≤ C.len := by
    obtain ⟨p, -, e⟩ := hC.pow
    unfold REPROBE_LIMIT
    have : ¬ p < 4 := by
      intro hp
      have := Nat.pow_le_pow_right (n := 2) (by decide) (Nat.le_of_lt_succ hp)
      omega
    obtain ⟨q, rfl⟩ : ∃ q, p = 4 + q := ⟨p - 4, by omega⟩
    have := Nat.pos_of_ne_zero (pow_ne_zero q (by decide : 2 ≠ 0))
    rw [pow_add] at e
    omega
  unfold wantNewTable
  rw [if_pos rfl, tableFull, if_pos (by unfold REPROBE_LIMIT; omega)]
  refine owp_bind' (owp_bind' (owp_noop fun s1 _ i1 => ⟨(s1.m.tab 0).slots, s1.m, by simp [Act.exec, i1.lt], fun _ => rfl, rfl, rfl, rfl,
    rfl, rfl, rfl, fun s2 _ _ _ => owp_pure (owp_pure ?_)⟩))
  have h1 := i1.lone.slots hre
  rw [i1.len] at h1
  rw [decide_eq_true (le_trans h16 h1)]
  exact h

/-- Otherwise the answer depends on the number of slots counted as used, which a reopened table has not counted. -/
theorem owant_any {d : Nat} {V : Word} {Q : Bool → OSt → Option Res → Prop} (h : ∀ b s', Rely C t s s' → Q b s' c) :
    owp C t op Q (wantNewTable 0 d C.len V) s c := by
  unfold wantNewTable
  split
  · unfold tableFull
    split
    · exact owp_bind' (owp_bind' (owp_noop fun s1 _ i1 => ⟨(s1.m.tab 0).slots, s1.m, by simp [Act.exec, i1.lt], fun _ => rfl, rfl, rfl,
        rfl, rfl, rfl, rfl, fun s2 _ r2 _ => owp_pure (owp_pure (h _ s2 r2))⟩))
    · exact owp_bind' (owp_pure (owp_pure (h _ _ (Rely.refl _))))
  · exact owp_pure (h _ _ (Rely.refl _))

theorem oput (hC : C.OK) (hw : WOp op k cf nv ov f res) (hk : k ∈ C.S) (ho : C.own k = t) (n : Nat) {o : Option Word}
    (hH : Held C t k o o.isSome s) (hc : c = some (res o) ∧ f o = o ∨ c = none ∧ f o ≠ o) :
    owp C t op (fun V s' c' => Stored V ∧ dec V = o ∧ c' = some (res o) ∧ Counted C t s') (putIfMatch C.hash n cf 0 k nv ov) s c := by
  cases n with
  | zero => exact owp_fuel
  | succ n =>
    refine owp_bind' (owp_check (by simpa using hw.nv_init) fun s1 r1 i1 => ?_)
    refine owp_bind' (owp_check (by rw [hw.nv_mig]; rfl) fun s2 r2 i2 => ?_)
    refine owp_bind' (owp_check (by rw [hw.ov_mig]; rfl) fun s3 r3 i3 => ?_)
    refine owp_bind' (owp_len fun s4 r4 i4 => ?_)
    have hH4 := hH.rely (r1.trans (r2.trans (r3.trans r4))) ho
    refine owp_bind' (owp_mono (oprobe (nv := nv) hC hk ho n hH4) ?_)
    rintro p s5 c5 ⟨rfl, hH5, ⟨rfl, hnv, hnone⟩ | ⟨rfl, hg⟩ | ⟨i, d, V, rfl, hi, hid, hdl, hten, hki, hv, hV, hd⟩⟩
    · have := hw.skip hnv
      rw [← hnone] at this
      refine owp_pure ⟨.inr (.inl rfl), by rw [dec_tomb, hnone], ?_, hH5.counted⟩
      rcases hc with ⟨hc, -⟩ | ⟨-, hc⟩
      · exact hc
      · exact absurd this hc
    · exact owp_bind' (oresize hg)
    · simp only
      by_cases he : nv = V
      · rw [if_pos he]
        have := hw.same V hV he
        rw [hd] at this
        refine owp_pure ⟨hV, hd, ?_, hH5.counted⟩
        rcases hc with ⟨hc, -⟩ | ⟨-, hc⟩
        · exact hc
        · exact absurd this hc
      · rw [if_neg he]
        by_cases h10 : d < 10
        swap
        · obtain ⟨hg, hVi⟩ := hten.resolve_left h10
          cases hre : C.re with
          | false =>
            obtain rfl := hVi.resolve_right (by rw [hre]; decide)
            exact owp_bind' (owant hC hre h10 hdl (by rw [if_pos rfl]; exact owp_bind' (oresize hg)))
          | true =>
            refine owp_bind' (owant_any fun b s6 r6 => ?_)
            cases b with
            | true => rw [if_pos rfl]; exact owp_bind' (oresize hg)
            | false =>
              have hk0 : clean (s5.key i) ≠ KINITIAL := by rw [hki]; exact (hC.user hk).ne_init
              have hk6 : clean (s6.key i) = k := by rw [r6.key i hi hk0, hki]
              have hv6 : s6.val i = V := by
                rcases r6.val i hi hk0 (by rw [hki]; exact ho) with e | e <;> rw [e, hv]
                exact hV.clean
              rw [if_neg (by decide)]
              refine owp_bind' (owp_mono (oupdate hC hw hk ho n hi (hH5.rely r6 ho) hk6 (fun e => by rw [hre] at e; cases e) hv6 hV hd
                he hc) ?_)
              rintro u s7 c7 ⟨V', rfl, hV', hd', hc', hcount⟩
              exact owp_pure ⟨hV', hd', hc', hcount⟩
        have hwant : ∀ Q : Bool → OSt → Option Res → Prop, Q false s5 c5 → owp C t op Q (wantNewTable 0 d C.len V) s5 c5 := by
          intro Q hQ
          unfold wantNewTable
          split
          · rw [tableFull, if_neg (by unfold REPROBE_LIMIT; omega)]
            refine owp_bind' (owp_pure (owp_pure ?_))
            rw [hV.mig]; exact hQ
          · refine owp_pure ?_
            rw [hV.mig]; exact hQ
        refine owp_bind' (hwant _ ?_)
        rw [if_neg (by decide)]
        refine owp_bind' (owp_mono (oupdate hC hw hk ho n hi hH5 hki (fun _ => ⟨d, h10, hid⟩) hv hV hd he hc) ?_)
        rintro u s6 c6 ⟨V', rfl, hV', hd', hc', hcount⟩
        exact owp_pure ⟨hV', hd', hc', hcount⟩

/-- The public function, called by the owner of the key. -/
theorem omapPut (hC : C.OK) (hw : WOp op k cf nv ov f res) (hk : k ∈ C.S) (ho : C.own k = t) (n : Nat) (hcount : Counted C t s) :
    owp C t op (fun w s' c' => ∃ o, w = resWord o ∧ (∀ v, o = some v → ValidVal v) ∧ c' = some (res o) ∧ Counted C t s')
      (mapPutIfMatch C.hash n cf k nv ov) s none := by
  refine owp_bind' (owp_check (by simpa using hw.nv_init) fun s1 r1 i1 => ?_)
  refine owp_bind' (owp_check (by simpa using hw.ov_init) fun s2 r2 i2 => ?_)
  refine owp_bind' ?_
  rw [do1, owp]
  intro s3 r3 i3 _
  have hH := (hcount.rely (r1.trans (r2.trans r3))).held ho
  have hrest : ∀ c, (c = some (res (s3.M k)) ∧ f (s3.M k) = s3.M k ∨ c = none ∧ f (s3.M k) ≠ s3.M k) →
      owp C t op (fun w s' c' => ∃ o, w = resWord o ∧ (∀ v, o = some v → ValidVal v) ∧ c' = some (res o) ∧ Counted C t s') (do
        let retVal ← putIfMatch C.hash n cf 0 k nv ov
        check (!isMig retVal)
        return if retVal = VTOMBSTONE then VINITIAL else retVal) s3 c := by
    intro c hc
    refine owp_bind' (owp_mono (oput hC hw hk ho n hH hc) ?_)
    rintro V s4 c4 ⟨hV, hd, rfl, h4⟩
    refine owp_bind' (owp_check (by rw [hV.mig]; rfl) fun s5 r5 i5 => owp_pure ⟨s3.M k, ?_, fun v e => ?_, rfl, h4.rely r5⟩)
    · rw [resWord_dec hV, hd]
    · rw [← hd] at e; exact (hV.dec_some e).2
  refine ⟨s3.m.root, s3, rfl, .inr ⟨i3, fun _ _ => Rely.refl _, ?_⟩⟩
  by_cases hf : f (s3.M k) = s3.M k
  · refine .inr ⟨rfl, (hw.stay hf).symm, res (s3.M k), fun y hy => hw.spec _ y hy, ?_⟩
    rw [owp, i3.root]
    exact hrest _ (.inl ⟨rfl, hf⟩)
  · refine .inl ⟨rfl, ?_⟩
    rw [owp, i3.root]
    exact hrest _ (.inr ⟨rfl, hf⟩)

end PMap
