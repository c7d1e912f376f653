import Verif.Lin

/-!
# A search that refutes linearizability (proof machinery)

`linS` looks for a linearization by trying all orders of effects.  If it finds none within its depth there is none, so a
history is refuted by evaluating it.  The depth bounds only the search: a search that is cut off answers "perhaps".
-/

namespace PMap


/-- The state of a call in the search: like `CallState`, the result left open where `specRes` leaves it open (no code of its own). -/
inductive SearchState
  | idle
  | called (op : Op)
  | effected (op : Op) (r : Option Res)

/-- Can the history be explained?  `true` also when the search is cut off (no code of its own). -/
def linS (T : Nat) : Nat → AMap → (Nat → SearchState) → List Event → Bool
  | 0, _, _, _ => true
  | _ + 1, _, _, [] => true
  | f + 1, M, P, e :: es =>
    (match e with
      | .inv t op => decide (T ≤ t) || (match P t with | .idle => linS T f M (upd P t (.called op)) es | _ => false)
      | .res t op r =>
        match P t with
        | .effected op' o => decide (op' = op) && (match o with | some x => decide (r = x) | none => true) &&
            linS T f M (upd P t .idle) es
        | _ => false) ||
    (List.range T).any fun t =>
      match P t with
      | .called op => linS T f (specNext op M) (upd P t (.effected op (specRes op M))) (e :: es)
      | _ => false

/-- The search state describes the call state. -/
def SearchState.fits : SearchState → CallState → Prop
  | .idle, .idle => True
  | .called op, .called op' => op = op'
  | .effected op o, .effected op' r => op = op' ∧ ∀ x, o = some x → r = x
  | _, _ => False

theorem fits_upd {Q : Nat → SearchState} {P : Nat → CallState} (h : ∀ t, (Q t).fits (P t)) {t : Nat} {q : SearchState} {p : CallState}
    (hq : q.fits p) (u : Nat) : (upd Q t q u).fits (upd P t p u) := by
  unfold upd; split
  · exact hq
  · exact h u

theorem linS_complete {T : Nat} {M : AMap} {P : Nat → CallState} {es : List Event} (h : LinRun M P es) :
    ∀ (f : Nat) (Q : Nat → SearchState), (∀ t, (Q t).fits (P t)) → (∀ t, T ≤ t → P t = .idle) → linS T f M Q es = true := by
  induction h with
  | nil => intro f Q _ _; cases f <;> rfl
  | @inv M P es t op hi _ ih =>
    intro f Q hQ hT
    cases f with
    | zero => rfl
    | succ f =>
      have ht := hQ t
      rw [hi] at ht
      simp only [linS, Bool.or_eq_true]
      refine .inl ?_
      by_cases hle : T ≤ t
      · exact .inl (by simp [hle])
      · right
        cases hq : Q t with
        | idle =>
          refine ih f _ (fits_upd hQ (by rfl)) (fun u hu => ?_)
          unfold upd; split
          · next e => subst e; exact absurd hu hle
          · exact hT u hu
        | called _ => rw [hq] at ht; exact ht.elim
        | effected _ _ => rw [hq] at ht; exact ht.elim
  | @effect M P es t op r hi hr _ ih =>
    intro f Q hQ hT
    cases f with
    | zero => rfl
    | succ f =>
      have ht := hQ t
      rw [hi] at ht
      have htT : t < T := by
        by_contra hle
        rw [hT t (by omega)] at hi; cases hi
      cases es with
      | nil => rfl
      | cons e es =>
        simp only [linS, Bool.or_eq_true, List.any_eq_true, List.mem_range]
        refine .inr ⟨t, htT, ?_⟩
        cases hq : Q t with
        | called op' =>
          rw [hq] at ht
          obtain rfl : op' = op := ht
          refine ih f _ (fits_upd hQ ⟨rfl, hr⟩) (fun u hu => ?_)
          unfold upd; split
          · omega
          · exact hT u hu
        | idle => rw [hq] at ht; exact ht.elim
        | effected _ _ => rw [hq] at ht; exact ht.elim
  | @res M P es t op r hi _ ih =>
    intro f Q hQ hT
    cases f with
    | zero => rfl
    | succ f =>
      have ht := hQ t
      rw [hi] at ht
      simp only [linS, Bool.or_eq_true]
      refine .inl ?_
      cases hq : Q t with
      | effected op' o =>
        rw [hq] at ht
        obtain ⟨rfl, ho⟩ := ht
        simp only [Bool.and_eq_true, decide_eq_true_eq]
        refine ⟨⟨trivial, ?_⟩, ih f _ (fits_upd hQ trivial) (fun u hu => ?_)⟩
        · cases o with
          | none => rfl
          | some x => simpa using ho x rfl
        · unfold upd; split
          · rfl
          · exact hT u hu
      | idle => rw [hq] at ht; exact ht.elim
      | called _ => rw [hq] at ht; exact ht.elim

/-- A history of threads below `T` that the search rejects is not linearizable. -/
theorem not_linearizable {es : List Event} (T f : Nat) (h : linS T f AMap.empty (fun _ => .idle) es = false) : ¬ Linearizable es := by
  intro hl
  rw [linS_complete hl f (fun _ => .idle) (fun _ => trivial) (fun _ _ => rfl)] at h
  cases h

end PMap
