import Verif.Own.Sys

/-!
# What holds once calls have ended, one writer per key (proof machinery)
-/

namespace PMap

open Prog

variable {C : Cfg} {M0 M : AMap} {P : Nat → CallState} {es : List Event} {fx : List (Nat × Op)} {n U : Nat} {ctr : Word → Prop}

theorem specRun_append (ops : List Op) (op : Op) : ∀ M : AMap, specRun (ops ++ [op]) M = specNext op (specRun ops M) := by
  induction ops with
  | nil => intro M; rfl
  | cons o ops ih => intro M; exact ih _

theorem LinTo.map_eq (h : LinTo M0 M P es fx) : M = specRun (fx.map Prod.snd) M0 := by
  induction h with
  | nil => rfl
  | inv _ _ _ _ ih => exact ih
  | res _ _ _ _ _ ih => exact ih
  | effect t op r _ hp hr ih => rw [List.map_append, List.map_singleton, specRun_append, ← ih]

/-- The call that has taken effect but not returned. -/
def CallState.left : CallState → List Op
  | .effected op _ => [op]
  | _ => []

theorem LinTo.order (h : LinTo M0 M P es fx) : ∀ t, orderOf t fx = returnedOf t es ++ (P t).left := by
  induction h with
  | nil => intro t; rfl
  | inv t op _ hp ih =>
    intro t'
    rw [ih t']
    simp only [returnedOf, List.filterMap_append, List.filterMap_cons, List.filterMap_nil, List.append_nil]
    by_cases e : t' = t
    · subst e; simp [upd, hp, CallState.left]
    · simp [upd, if_neg e]
  | effect t op r _ hp hr ih =>
    intro t'
    have := ih t'
    simp only [orderOf, List.filterMap_append, List.filterMap_cons, List.filterMap_nil] at this ⊢
    rw [this]
    by_cases e : t' = t
    · subst e; simp [upd, hp, CallState.left]
    · simp [upd, if_neg e, Ne.symm e]
  | res t op r _ hp ih =>
    intro t'
    rw [ih t']
    simp only [returnedOf, List.filterMap_append, List.filterMap_cons, List.filterMap_nil]
    by_cases e : t' = t
    · subst e; simp [upd, hp, CallState.left]
    · simp [upd, if_neg e, Ne.symm e]

/-- The calls whose result is the content they found (hashMap.hpp:906-944). -/
def Op.tells : Op → Bool
  | .get _ | .put _ _ | .putIfAbsent _ _ | .putIfMatch _ _ _ | .update _ _ => true
  | _ => false

theorem specRes_tells {op : Op} (h : op.tells = true) (hV : ∀ k v, M k = some v → ValidVal v) {r : Res}
    (hr : ∀ x, specRes op M = some x → r = x) {w : Word} (hw : r = .word w) : w = VINITIAL ∨ ValidVal w := by
  have key : ∀ k, r = .word (resWord (M k)) → w = VINITIAL ∨ ValidVal w := by
    intro k e
    rw [e] at hw
    cases hM : M k with
    | none => rw [hM] at hw; cases hw; exact .inl rfl
    | some v => rw [hM] at hw; cases hw; exact .inr (hV k v hM)
  cases op <;> simp only [Op.tells, Bool.false_eq_true] at h <;> exact key _ (hr _ rfl)

theorem LinTo.words (h : LinTo M0 M P es fx) (hV : ∀ k v, M0 k = some v → ValidVal v) (hB : Bound ctr U 0 M0)
    (hA : ∀ x ∈ fx, x.2.Valid ∧ x.2.Room ctr U ∧ (x.2.isUpdate = true → 8 * U < LIM)) (hU : (effTids Op.isUpdate fx).length ≤ U) :
    ((∀ k v, M k = some v → ValidVal v) ∧ Bound ctr U (effTids Op.isUpdate fx).length M) ∧
    (∀ t op w, P t = .effected op (.word w) → op.tells = true → w = VINITIAL ∨ ValidVal w) ∧
    ∀ t op w, .res t op (.word w) ∈ es → op.tells = true → w = VINITIAL ∨ ValidVal w := by
  induction h with
  | nil => exact ⟨⟨hV, hB⟩, fun _ _ _ h => (by cases h), fun _ _ _ h => (by cases h)⟩
  | inv t op _ hp ih =>
    obtain ⟨h1, h2, h3⟩ := ih hA hU
    refine ⟨h1, fun t' op' w h' => ?_, fun t' op' w h' => ?_⟩
    · unfold upd at h'
      split at h'
      · cases h'
      · exact h2 _ _ _ h'
    · rw [List.mem_append] at h'
      rcases h' with h' | h'
      · exact h3 _ _ _ h'
      · simp at h'
  | @effect M P es fx t op r _ hp hr ih =>
    have e : (effTids Op.isUpdate (fx ++ [(t, op)])).length =
        (effTids Op.isUpdate fx).length + (if op.isUpdate then 1 else 0) := by
      simp only [effTids, List.filterMap_append, List.length_append]
      cases hq : op.isUpdate <;> simp [hq]
    rw [e] at hU ⊢
    obtain ⟨h1, h2, h3⟩ := ih (fun x hx => hA x (List.mem_append_left _ hx)) (by omega)
    obtain ⟨a1, a2, a3⟩ := hA (t, op) (List.mem_append_right _ (List.mem_singleton.mpr rfl))
    refine ⟨own_next_ok h1.1 h1.2 a1 a2 hU a3, fun t' op' w h' ht => ?_, h3⟩
    unfold upd at h'
    split at h'
    · cases h'; exact specRes_tells ht h1.1 hr rfl
    · exact h2 _ _ _ h' ht
  | res t op r _ hp ih =>
    obtain ⟨h1, h2, h3⟩ := ih hA hU
    refine ⟨h1, fun t' op' w h' => ?_, fun t' op' w h' ht => ?_⟩
    · unfold upd at h'
      split at h'
      · cases h'
      · exact h2 _ _ _ h'
    · rw [List.mem_append] at h'
      rcases h' with h' | h'
      · exact h3 _ _ _ h' ht
      · simp only [List.mem_singleton, Event.res.injEq] at h'
        obtain ⟨rfl, rfl, rfl⟩ := h'
        exact h2 _ _ _ hp ht

theorem LinTo.counter0 {k : Word} (h : LinTo M0 M P es fx) (hv : M0 k = none) (hw : ∀ x ∈ fx, x.2.writes ≠ some k)
    (hlim : 8 * (effTids (Op.isInc k) fx).length < LIM + 8) :
    (M k = none ∧ (effTids (Op.isInc k) fx).length = 0) ∨ ∃ w, M k = some w ∧ w.toNat = 8 * (effTids (Op.isInc k) fx).length := by
  induction h with
  | nil => exact .inl ⟨hv, rfl⟩
  | inv t op _ hp ih => exact ih hw hlim
  | res t op r _ hp ih => exact ih hw hlim
  | @effect M P es fx t op r _ hp hr ih =>
    have e : (effTids (Op.isInc k) (fx ++ [(t, op)])).length =
        (effTids (Op.isInc k) fx).length + (if op.isInc k then 1 else 0) := by
      simp only [effTids, List.filterMap_append, List.length_append]
      cases hq : op.isInc k <;> simp [hq]
    rw [e] at hlim ⊢
    have ih := ih (fun x hx => hw x (List.mem_append_left _ hx)) (by omega)
    have hwo := hw (t, op) (List.mem_append_right _ (List.mem_singleton.mpr rfl))
    cases hq : op.isInc k with
    | false => rw [specNext_of_writes hwo hq]; simpa using ih
    | true =>
      rw [hq, if_pos rfl] at hlim
      cases op <;> simp only [Op.isInc, beq_iff_eq, Bool.false_eq_true] at hq
      subst hq
      refine .inr ⟨_, by simp only [specNext, AMap.set, if_true]; rfl, ?_⟩
      rw [if_pos rfl]
      rcases ih with ⟨h1, h2⟩ | ⟨w, h1, h2⟩
      · rw [h1, h2]; decide
      · rw [h1, addOne_toNat (by omega)]
        omega

theorem LinTo.counter0_pos {k : Word} (h : LinTo M0 M P es fx) (hv : M0 k = none) (hw : ∀ x ∈ fx, x.2.writes ≠ some k)
    (hM : M k ≠ none) : 0 < (effTids (Op.isInc k) fx).length := by
  induction h with
  | nil => exact absurd hv hM
  | inv t op _ hp ih => exact ih hw hM
  | res t op r _ hp ih => exact ih hw hM
  | @effect M P es fx t op r _ hp hr ih =>
    have e : (effTids (Op.isInc k) (fx ++ [(t, op)])).length =
        (effTids (Op.isInc k) fx).length + (if op.isInc k then 1 else 0) := by
      simp only [effTids, List.filterMap_append, List.length_append]
      cases hq : op.isInc k <;> simp [hq]
    rw [e]
    have hwo := hw (t, op) (List.mem_append_right _ (List.mem_singleton.mpr rfl))
    cases hq : op.isInc k with
    | false =>
      rw [specNext_of_writes hwo hq] at hM
      have := ih (fun x hx => hw x (List.mem_append_left _ hx)) hM
      omega
    | true => simp

/-- Keys outside `S` are never in the map. -/
theorem LinTo.inside {own : Word → Nat} {S : Finset Word} (h : LinTo M0 M P es fx) (h0 : ∀ k, M0 k ≠ none → k ∈ S)
    (hA : ∀ x ∈ fx, x.2.By S own x.1) {k : Word} (hk : M k ≠ none) : k ∈ S := by
  induction h with
  | nil => exact h0 k hk
  | inv t op _ hp ih => exact ih hA hk
  | res t op r _ hp ih => exact ih hA hk
  | @effect M P es fx t op r _ hp hr ih =>
    have ih := ih fun x hx => hA x (List.mem_append_left _ hx)
    have ho := hA (t, op) (List.mem_append_right _ (List.mem_singleton.mpr rfl))
    by_contra hS
    have hM : M k = none := by
      by_contra h'
      exact hS (ih h')
    have hne : ∀ k', op.changes = some k' → k ≠ k' := fun k' e e' => hS (e' ▸ (ho.keys k' e).1)
    refine hk ?_
    cases op <;> simp only [specNext, AMap.set, AMap.erase] <;> try exact hM
    all_goals
      have := hne _ rfl
      first | (rw [if_neg this]; exact hM) | (split <;> simp [AMap.set, AMap.erase, this, hM])

/-- When every thread is idle the size counter is right. -/
theorem size_own {s : OSt} (hC : C.OK) (hI : OInv C s) (hc : ∀ t, Counted C t s) (hS : ∀ k, s.M k ≠ none → k ∈ C.S) :
    ∃ w, run mapSize s.m = .done w s.m ∧ w.toNat = s.M.card ∧
      run mapIsEmpty s.m = .done (decide (s.M.card = 0)) s.m := by
  have e : s.M.card = (C.S.filter fun k => s.sz k = true).card := by
    rw [AMap.card, ← Set.ncard_coe_finset]
    congr 1
    ext k
    simp only [Set.mem_ofPred_eq, Finset.coe_filter]
    rw [hc (C.own k) k rfl, Option.isSome_iff_ne_none]
    exact ⟨fun h => ⟨hS k h, h⟩, fun h => h.2⟩
  have hle : s.M.card < 2 ^ 64 := by
    have h1 : s.M.card ≤ C.len := by
      classical
      rw [AMap.card]
      refine le_trans (Set.ncard_le_ncard (t := ((Finset.range C.len).image fun i => clean (s.key i) : Finset Word)) ?_ (Finset.finite_toSet _)) ?_
      · intro k hk
        by_contra hn
        refine hk (hI.absent k (hC.valid k (hS k hk)) fun i hi e => hn ?_)
        exact Finset.mem_coe.mpr (Finset.mem_image.mpr ⟨i, Finset.mem_range.mpr hi, e⟩)
      · rw [Set.ncard_coe_finset]
        exact le_trans Finset.card_image_le (le_of_eq (Finset.card_range _))
    obtain ⟨p, hp, hl⟩ := hC.pow
    have h3 : (2 : Nat) ^ p ≤ 2 ^ 32 := Nat.pow_le_pow_right (by decide) hp
    omega
  have hs : (s.m.tab 0).size = BitVec.ofNat 64 s.M.card := by rw [hI.size, e]
  have hr : run mapSize s.m = .done (BitVec.ofNat 64 s.M.card) s.m := by
    simp only [mapSize, do1, Bind.bind, Prog.bind, run, Act.exec]
    rw [hI.root, if_pos hI.lt, hs]
  refine ⟨_, hr, by rw [BitVec.toNat_ofNat, Nat.mod_eq_of_lt hle], ?_⟩
  have : (BitVec.ofNat 64 s.M.card == 0#64) = decide (s.M.card = 0) := by
    rw [Bool.eq_iff_iff, beq_iff_eq, decide_eq_true_eq, ← BitVec.toNat_inj, BitVec.toNat_ofNat, Nat.mod_eq_of_lt hle]
    rfl
  rw [← this]
  simp only [mapIsEmpty, mapSize, do1, Bind.bind, Prog.bind, run, Act.exec]
  rw [hI.root, if_pos hI.lt, hs]
  rfl

end PMap
