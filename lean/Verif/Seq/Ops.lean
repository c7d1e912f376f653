import Verif.Seq.Top
import Verif.AMap

/-!
# The public calls against the ordinary map (proof machinery)
-/

namespace PMap

open Prog
open scoped Classical

variable {hash : Word → Word}

theorem userKey_of_valid {k : Word} (h : ValidKey k) : UserKey k := by
  obtain ⟨h1, h2⟩ := h
  simp only [isKeyReserved, Bool.or_eq_false_iff, beq_eq_false_iff_ne] at h2
  exact ⟨clean_of_not_dirty h1, h2.1, h2.2⟩

theorem validVal_ne {v : Word} (h : ValidVal v) :
    v ≠ VINITIAL ∧ v ≠ VTOMBSTONE ∧ v ≠ MATCH_ANY ∧ v ≠ NO_MATCH_OLD := by
  obtain ⟨-, -, h2⟩ := h
  refine ⟨?_, ?_, ?_, ?_⟩ <;> (rintro rfl; revert h2; decide)

theorem storable_of_valid {v : Word} (h : ValidVal v) : Storable v :=
  ⟨clean_of_not_dirty h.1, h.2.1, (validVal_ne h).1, (validVal_ne h).2.1⟩

theorem storable_matchAny : Storable MATCH_ANY := by
  constructor <;> decide

theorem putM_set {M : AMap} {k v : Word} (h : Storable v) : putM M k v = M.set k v := by
  rw [putM_storable M h]; rfl
theorem putM_erase {M : AMap} {k : Word} : putM M k VTOMBSTONE = M.erase k := by
  rw [putM_none M (fun h => h.ne_tomb rfl)]; rfl

theorem matches_val {o : Word} {c : Option Word} (h : ValidVal o) : Matches c o ↔ c = some o := by
  obtain ⟨-, h2, h3, h4⟩ := validVal_ne h
  simp [Matches, h4, h3, h2]
theorem matches_any {c : Option Word} : Matches c NO_MATCH_OLD := .inl rfl
theorem matches_absent {M : AMap} {k : Word} {s : A} (hI : Inv hash s M) : Matches (M k) VTOMBSTONE ↔ M k = none := by
  obtain ⟨h1, h2, -⟩ := sent_ne
  constructor
  · rintro (h | ⟨h, -⟩ | ⟨-, h⟩ | h)
    · exact absurd h.symm h1
    · exact absurd h.symm h2
    · exact h
    · exact absurd rfl (getD_storable hI h).ne_tomb
  · exact fun h => .inr (.inr (.inl ⟨rfl, h⟩))

theorem matches_admits {M : AMap} {k o : Word} {s : A} (hI : Inv hash s M)
    (ho : ValidVal o ∨ o = NO_MATCH_OLD ∨ o = MATCH_ANY ∨ o = VTOMBSTONE) : Matches (M k) o ↔ admits o (M k) := by
  obtain ⟨h1, h2, h3, h4, h5, h6⟩ := sent_ne
  rcases ho with ho | rfl | rfl | rfl
  · rw [matches_val ho]
    obtain ⟨-, a, b, c⟩ := validVal_ne ho
    simp only [admits, if_neg c, if_neg b, if_neg a]
  · exact ⟨fun _ => by simp [admits], fun _ => matches_any⟩
  · simp only [admits, if_neg h6, if_true]
    constructor
    · rintro (h | ⟨-, h⟩ | ⟨h, -⟩ | h)
      · exact absurd h h6
      · exact h
      · exact absurd h h2
      · rw [h]; simp
    · exact fun h => .inr (.inl ⟨rfl, h⟩)
  · rw [matches_absent hI]
    simp only [admits, if_neg (Ne.symm h1), if_neg (Ne.symm h2), if_true]

/-- What a call may do, as far as later proofs need it. -/
structure OpPost (hash : Word → Word) (op : Op) (s : A) (M : AMap) (r : Res) (s' : A) : Prop where
  good : Good hash s' (specNext op M)
  res : ∀ x, specRes op M = some x → r = x
  ext : Ext s s'
  size : SizeRel s M s' (specNext op M)
  rem : ∀ k, op = .remove k → r = .bool (resWord (M k) != 0#64)
  sz : op = .size → r = .word (s.tab s.root).size
  emp : op = .isEmpty → r = .bool ((s.tab s.root).size == 0#64)

theorem opPost_keep {op : Op} {s : A} {M : AMap} {r : Res} {s' : A} (hn : specNext op M = M)
    (hg : Good hash s' M) (hK : Keep s s') (hr : ∀ x, specRes op M = some x → r = x)
    (h1 : ∀ k, op ≠ .remove k) (h2 : op = .size → r = .word (s.tab s.root).size)
    (h3 : op = .isEmpty → r = .bool ((s.tab s.root).size == 0#64)) : OpPost hash op s M r s' where
  good := by rw [hn]; exact hg
  res := hr
  ext := hK.ext
  size := by rw [hn]; exact fun h0 => .inr (hK.last.trans h0)
  rem k h := absurd h (h1 k)
  sz := h2
  emp := h3

theorem put_W {s : A} {M : AMap} {n : Nat} {k nv ov : Word} (h : Good hash s M) (hk : ValidKey k)
    (hnv : ValidVal nv ∨ nv = VTOMBSTONE) (hov : ov ≠ VINITIAL) (hom : isMig ov = false) :
    W (mapPutIfMatch hash n .casValue k nv ov) (fun r s' => r = resWord (M k) ∧ Good hash s' (newM M k nv ov) ∧
      Ext s s' ∧ SizeRel s M s' (newM M k nv ov)) s := by
  refine W_mono (mapPutIfMatch_spec n .casValue h (userKey_of_valid hk)
    (hnv.imp storable_of_valid (fun h => ⟨h, rfl⟩)) hov hom) ?_
  rintro r s' ⟨w, h1, h2, h3, h4, h5⟩
  have : w = nv := by
    rcases h4 with h4 | h4
    · exact h4.1
    · cases h4.1
  subst this
  exact ⟨h1, h2, h3, h5 (.inl rfl)⟩

theorem nm_facts : isMig NO_MATCH_OLD = false ∧ isMig VTOMBSTONE = false ∧ isMig MATCH_ANY = false := by decide

theorem resWord_beq {M : AMap} {k v : Word} (hv : v ≠ VINITIAL) : (resWord (M k) == v) = decide (M k = some v) := by
  have := curWord_eq_iff (M := M) (k := k) hv
  rw [Bool.eq_iff_iff, beq_iff_eq, decide_eq_true_iff]; exact this

/-- What any call but `update` does. -/
theorem op_spec {s : A} {M : AMap} (n : Nat) (op : Op) (hv : op.Valid) (hu : op.isUpdate = false) (h : Good hash s M) :
    W (op.prog hash n) (OpPost hash op s M) s := by
  obtain ⟨n1, n2, n3⟩ := nm_facts
  have hne := sent_ne
  cases op with
  | get k =>
    refine W_bind' (W_mono (mapGet_spec n h (userKey_of_valid hv)) ?_)
    rintro r s' ⟨rfl, h2, h3⟩
    exact W_pure (opPost_keep rfl h2 h3 (fun x hx => Option.some.inj hx) (by simp) (by simp) (by simp))
  | containsKey k =>
    refine W_bind' (W_bind' (W_mono (mapGet_spec n h (userKey_of_valid hv)) ?_))
    rintro r s' ⟨rfl, h2, h3⟩
    refine W_pure (W_pure (opPost_keep rfl h2 h3 (fun x hx => ?_) (by simp) (by simp) (by simp)))
    rw [← Option.some.inj hx]
    congr 1
    have := curWord_init_iff (k := k) h.inv
    rw [Bool.eq_iff_iff, bne_iff_ne, Option.isSome_iff_ne_none]
    exact not_congr this
  | put k v =>
    refine W_bind' (W_mono (put_W (n := n) (ov := NO_MATCH_OLD) h hv.1 (.inl hv.2) hne.2.2.1 n1) ?_)
    rintro r s' ⟨rfl, h2, h3, h4⟩
    have e : newM M k v NO_MATCH_OLD = specNext (.put k v) M := by
      rw [newM, if_pos matches_any, putM_set (storable_of_valid hv.2)]; rfl
    rw [e] at h2 h4
    exact W_pure ⟨h2, fun x hx => Option.some.inj hx, h3, h4, by simp, by simp, by simp⟩
  | putIfAbsent k v =>
    refine W_bind' (W_mono (put_W (n := n) (ov := VTOMBSTONE) h hv.1 (.inl hv.2) hne.2.2.2.2.1 n2) ?_)
    rintro r s' ⟨rfl, h2, h3, h4⟩
    have e : newM M k v VTOMBSTONE = specNext (.putIfAbsent k v) M := by
      simp only [newM, matches_absent h.inv, putM_set (storable_of_valid hv.2), specNext]
    rw [e] at h2 h4
    exact W_pure ⟨h2, fun x hx => Option.some.inj hx, h3, h4, by simp, by simp, by simp⟩
  | remove k =>
    refine W_bind' (W_bind' (W_mono (put_W (n := n) (nv := VTOMBSTONE) (ov := NO_MATCH_OLD) h hv (.inr rfl)
      hne.2.2.1 n1) ?_))
    rintro r s' ⟨rfl, h2, h3, h4⟩
    have e : newM M k VTOMBSTONE NO_MATCH_OLD = specNext (.remove k) M := by
      rw [newM, if_pos matches_any, putM_erase]; rfl
    rw [e] at h2 h4
    refine W_pure (W_pure ⟨h2, fun x hx => by simp [specRes] at hx, h3, h4, ?_, by simp, by simp⟩)
    rintro k' hk'; cases hk'; rfl
  | removeIf k v =>
    refine W_bind' (W_bind' (W_mono (put_W (n := n) (nv := VTOMBSTONE) (ov := v) h hv.1 (.inr rfl)
      (validVal_ne hv.2).1 hv.2.2.1) ?_))
    rintro r s' ⟨rfl, h2, h3, h4⟩
    have e : newM M k VTOMBSTONE v = specNext (.removeIf k v) M := by
      simp only [newM, matches_val hv.2, putM_erase, specNext]
    rw [e] at h2 h4
    refine W_pure (W_pure ⟨h2, fun x hx => ?_, h3, h4, by simp, by simp, by simp⟩)
    rw [← Option.some.inj hx, resWord_beq (validVal_ne hv.2).1]
  | replace k o v =>
    refine W_bind' (W_bind' (W_mono (put_W (n := n) (nv := v) (ov := o) h hv.1 (.inl hv.2.2)
      (validVal_ne hv.2.1).1 hv.2.1.2.1) ?_))
    rintro r s' ⟨rfl, h2, h3, h4⟩
    have e : newM M k v o = specNext (.replace k o v) M := by
      simp only [newM, matches_val hv.2.1, putM_set (storable_of_valid hv.2.2), specNext]
    rw [e] at h2 h4
    refine W_pure (W_pure ⟨h2, fun x hx => ?_, h3, h4, by simp, by simp, by simp⟩)
    rw [← Option.some.inj hx, resWord_beq (validVal_ne hv.2.1).1]
  | putIfMatch k v o =>
    have ho : o ≠ VINITIAL ∧ isMig o = false := by
      rcases hv.2.2 with ho | rfl | rfl | rfl
      · exact ⟨(validVal_ne ho).1, ho.2.1⟩
      · exact ⟨hne.2.2.1, n1⟩
      · exact ⟨hne.2.2.2.1, n3⟩
      · exact ⟨hne.2.2.2.2.1, n2⟩
    refine W_bind' (W_mono (put_W (n := n) (ov := o) h hv.1 (.inl hv.2.1) ho.1 ho.2) ?_)
    rintro r s' ⟨rfl, h2, h3, h4⟩
    have e : newM M k v o = specNext (.putIfMatch k v o) M := by
      simp only [newM, matches_admits h.inv hv.2.2, putM_set (storable_of_valid hv.2.1), specNext]
    rw [e] at h2 h4
    exact W_pure ⟨h2, fun x hx => Option.some.inj hx, h3, h4, by simp, by simp, by simp⟩
  | update k v => cases hu
  | size =>
    refine W_bind' (W_mono (mapSize_spec h) ?_)
    rintro r s' ⟨rfl, rfl⟩
    exact W_pure (opPost_keep rfl h (Keep.refl _) (fun x hx => by simp [specRes] at hx) (by simp) (by simp) (by simp))
  | isEmpty =>
    refine W_bind' (W_bind' (W_mono (mapSize_spec h) ?_))
    rintro r s' ⟨rfl, rfl⟩
    exact W_pure (W_pure (opPost_keep rfl h (Keep.refl _) (fun x hx => by simp [specRes] at hx) (by simp) (by simp)
      (by simp)))

/-- What `update` does: it adds one, or (when a resize got in the way) stores the placeholder. -/
theorem update_spec {s : A} {M : AMap} (n : Nat) {k v : Word} (hk : ValidKey k) (hv : Storable v)
    (h : Good hash s M) :
    W (mapUpdate hash n k v) (fun r s' => r = resWord (M k) ∧ Ext s s' ∧
      (Good hash s' (putM M k v) ∧ (s.root + 1 < s'.next ∨ M k = some v) ∨
       Good hash s' (putM M k (incremented (curWord M k))) ∧ M k ≠ some v ∧ s'.next = s.next)) s := by
  refine W_mono (mapPutIfMatch_spec n .increment h (userKey_of_valid hk) (.inl hv) sent_ne.2.2.1 nm_facts.1) ?_
  rintro r s' ⟨w, h1, h2, h3, h4, h5⟩
  rw [newM, if_pos matches_any] at h2
  refine ⟨h1, h3, ?_⟩
  rcases h4 with ⟨rfl, h4⟩ | ⟨-, rfl, h6⟩
  · left
    refine ⟨h2, ?_⟩
    rcases h4 with h4 | h4
    · cases h4
    · exact h4
  · exact .inr ⟨h2, h6⟩

theorem incremented_addOne {s : A} {M : AMap} {k : Word} (hI : Inv hash s M) :
    incremented (curWord M k) = addOne (M k) := by
  cases hM : M k with
  | none => simp [curWord, hM, incremented, addOne, BITS_MARKED]
  | some v =>
    have hs := getD_storable hI hM
    simp [curWord, hM, incremented, addOne, BITS_MARKED, hs.ne_init, hs.ne_tomb]

/-- Any valid call keeps the invariant, for some content. -/
theorem any_spec {s : A} {M : AMap} (n : Nat) (op : Op) (hv : op.Valid) (h : Good hash s M) :
    W (op.prog hash n) (fun _ s' => ∃ M', Good hash s' M') s := by
  by_cases hu : op.isUpdate = false
  · exact W_mono (op_spec n op hv hu h) (fun r s' hp => ⟨_, hp.good⟩)
  · cases op with
    | update k v =>
      refine W_bind' (W_mono (update_spec n hv.1 (hv.2.elim storable_of_valid (fun e => e ▸ storable_matchAny)) h) ?_)
      rintro r s' ⟨-, -, h | h⟩
      · exact W_pure ⟨_, h.1⟩
      · exact W_pure ⟨_, h.1⟩
    | _ => exact absurd rfl hu

/-! ## Lists of calls -/

/-- The same for calls one after the other. -/
theorem runOps_good (n : Nat) : ∀ (ops : List Op) (m : Mem) (M : AMap), (∀ op ∈ ops, op.Valid ∧ op.isUpdate = false) →
    Good hash (abs m) M → ∀ rs m', runOps hash n ops m = .done rs m' →
      Good hash (abs m') (specRun ops M) ∧ specAgrees ops M rs := by
  intro ops
  induction ops with
  | nil => intro m M _ h rs m' hr; cases hr; exact ⟨h, rfl⟩
  | cons op ops ih =>
    intro m M hv h rs m' hr
    have hop := hv op (by simp)
    have hW := op_spec n op hop.1 hop.2 h m rfl
    simp only [runOps] at hr
    cases h1 : run (op.prog hash n) m with
    | halted x => rw [h1] at hr; cases hr
    | done r m1 =>
      rw [h1] at hr
      simp only at hr
      have hp := hW.2 r m1 h1
      cases h2 : runOps hash n ops m1 with
      | halted x => rw [h2] at hr; cases hr
      | done rs1 m2 =>
        rw [h2] at hr
        cases hr
        obtain ⟨g1, g2⟩ := ih m1 _ (fun o ho => hv o (by simp [ho])) hp.good rs1 m' h2
        exact ⟨g1, hp.res, g2⟩

end PMap
