import Verif.Props.Spurious
import Verif.Par.Ops
import Verif.Live.Sys

/-!
# C56: one winner

Conditional calls are used to decide between threads (as one takes a lock).  They may give up although their condition holds
(`c18_replace_not_linearizable`), but never do two of them win.
-/

namespace PMap

/-- The calls that replace or remove the value `v` of the key `k` (hashMap.hpp:922-929). -/
def Op.claims (k v : Word) : Op → Bool
  | .replace k' o w => k' == k && o == v && w != v
  | .removeIf k' o => k' == k && o == v
  | _ => false

/-- A claim of `v` has returned true. -/
def Event.won (k v : Word) : Event → Bool
  | .res _ op (.bool true) => op.claims k v
  | _ => false

/-- The call is a claim that has won and not returned yet. -/
def CallState.won (k v : Word) : CallState → Bool
  | .effected op (.bool true) => op.claims k v
  | _ => false

/-- The call does not bring the value `v` back. -/
def Op.Spares (k v : Word) (op : Op) : Prop := ∀ M : AMap, M k ≠ some v → specNext op M k ≠ some v

theorem claims_spec {k v : Word} {op : Op} (h : op.claims k v = true) (M : AMap) :
    specRes op M = some (.bool (decide (M k = some v))) ∧ spurRes op M ≠ some (.bool true) ∧
      (M k = some v → specNext op M k ≠ some v) := by
  cases op <;> simp only [Op.claims, Bool.and_eq_true, beq_iff_eq, bne_iff_ne, Bool.false_eq_true] at h
  · obtain ⟨rfl, rfl⟩ := h
    refine ⟨rfl, ?_, fun h => ?_⟩
    · simp only [spurRes]; split <;> simp
    · simp only [specNext, h, if_true, AMap.erase]; simp
  · obtain ⟨⟨rfl, rfl⟩, hw⟩ := h
    refine ⟨rfl, ?_, fun h => ?_⟩
    · simp only [spurRes]; split <;> simp
    · simp only [specNext, h, if_true, AMap.set]; simpa using hw

/-- How many more wins a state allows. -/
def Budget (k v : Word) (M : AMap) (P : Nat → CallState) (b : Nat) : Prop :=
  (M k = some v ∧ (∀ t, (P t).won k v = false) ∧ b = 1) ∨
  (M k ≠ some v ∧ (∃ t, (P t).won k v = true ∧ ∀ t', t' ≠ t → (P t').won k v = false) ∧ b = 1) ∨
  (M k ≠ some v ∧ (∀ t, (P t).won k v = false) ∧ b = 0)

theorem Budget.upd_lost {k v : Word} {M : AMap} {P : Nat → CallState} {b t : Nat} {s : CallState} (h : Budget k v M P b)
    (hs : s.won k v = false) (ht : (P t).won k v = false) : Budget k v M (upd P t s) b := by
  have key : ∀ t', (upd P t s t').won k v = (P t').won k v := by
    intro t'
    simp only [upd]
    split
    · next e => rw [hs, e, ht]
    · rfl
  simp only [Budget, key]
  exact h

theorem won_le {k v : Word} {M : AMap} {P : Nat → CallState} {es : List Event} {sp : Nat → Op → Prop} (h : WeakRun sp M P es) :
    ∀ b, Budget k v M P b → (∀ t op, P t = .called op → op.Spares k v) → (∀ t op, .inv t op ∈ es → op.Spares k v) →
      es.countP (Event.won k v) ≤ b := by
  induction h with
  | nil => intro b _ _ _; exact Nat.zero_le _
  | @inv M P es t op hi _ ih =>
    intro b hb hP he
    rw [List.countP_cons_of_neg (by simp [Event.won])]
    refine ih b (hb.upd_lost rfl (by rw [hi]; rfl)) ?_ fun t' op' h => he t' op' (List.mem_cons_of_mem _ h)
    intro t' op' h
    simp only [upd] at h
    split at h
    · cases h; exact he t op (List.mem_cons_self ..)
    · exact hP t' op' h
  | @res M P es t op r hi _ ih =>
    intro b hb hP he
    have hP' : ∀ t' op', upd P t .idle t' = .called op' → op'.Spares k v := by
      intro t' op' h
      simp only [upd] at h
      split at h
      · cases h
      · exact hP t' op' h
    have he' : ∀ t' op', .inv t' op' ∈ es → op'.Spares k v := fun t' op' h => he t' op' (List.mem_cons_of_mem _ h)
    have hw : (P t).won k v = Event.won k v (.res t op r) := by
      rw [hi]
      cases r with
      | word w => rfl
      | bool x => cases x <;> rfl
    cases hwon : Event.won k v (.res t op r) with
    | false =>
      rw [List.countP_cons_of_neg (by simp [hwon])]
      exact ih b (hb.upd_lost rfl (by rw [hw, hwon])) hP' he'
    | true =>
      rw [List.countP_cons_of_pos hwon]
      rw [hwon] at hw
      rcases hb with ⟨_, h2, _⟩ | ⟨h1, ⟨t0, _, h3⟩, rfl⟩ | ⟨_, h2, _⟩
      · rw [h2 t] at hw; cases hw
      · have ht : t = t0 := by
          by_contra hne
          rw [h3 t hne] at hw; cases hw
        subst ht
        have := ih 0 (.inr (.inr ⟨h1, fun t' => by
          simp only [upd]
          split
          · rfl
          · next hne => exact h3 t' hne, rfl⟩)) hP' he'
        omega
      · rw [h2 t] at hw; cases hw
  | @effect M P es t op r hi hr _ ih =>
    intro b hb hP he
    have hsp := hP t op hi
    have hP' : ∀ t' op', upd P t (.effected op r) t' = .called op' → op'.Spares k v := by
      intro t' op' h
      simp only [upd] at h
      split at h
      · cases h
      · exact hP t' op' h
    have ht : (P t).won k v = false := by rw [hi]; rfl
    have hwon : (CallState.effected op r).won k v = true → M k = some v ∧ specNext op M k ≠ some v := by
      intro h
      have hc : op.claims k v = true ∧ r = .bool true := by
        cases r with
        | word w => cases h
        | bool x => cases x with
          | false => cases h
          | true => exact ⟨h, rfl⟩
      obtain ⟨h1, -, h3⟩ := claims_spec hc.1 M
      have := hr _ h1
      rw [hc.2] at this
      have e : M k = some v := by simpa using this.symm
      exact ⟨e, h3 e⟩
    cases hw : (CallState.effected op r).won k v with
    | true =>
      obtain ⟨h1, h2⟩ := hwon hw
      rcases hb with ⟨_, h4, rfl⟩ | ⟨h3, _⟩ | ⟨h3, _⟩
      · refine ih 1 (.inr (.inl ⟨h2, ⟨t, by simp only [upd, if_true]; exact hw, fun t' hne => ?_⟩, rfl⟩)) hP' he
        simp only [upd, if_neg hne]; exact h4 t'
      · exact absurd h1 h3
      · exact absurd h1 h3
    | false =>
      have hb' : Budget k v M (upd P t (.effected op r)) b := hb.upd_lost hw ht
      rcases hb' with ⟨_, h4, rfl⟩ | ⟨h3, h4, rfl⟩ | ⟨h3, h4, rfl⟩
      · by_cases e : specNext op M k = some v
        · exact ih 1 (.inl ⟨e, h4, rfl⟩) hP' he
        · exact le_trans (ih 0 (.inr (.inr ⟨e, h4, rfl⟩)) hP' he) (Nat.zero_le _)
      · exact ih 1 (.inr (.inl ⟨hsp M h3, h4, rfl⟩)) hP' he
      · exact ih 0 (.inr (.inr ⟨hsp M h3, h4, rfl⟩)) hP' he
  | @giveUp M P es t op r hi _ hr _ ih =>
    intro b hb hP he
    refine ih b (hb.upd_lost ?_ (by rw [hi]; rfl)) ?_ he
    · cases hw : (CallState.effected op r).won k v with
      | false => rfl
      | true =>
        exfalso
        cases r with
        | word w => cases hw
        | bool x => cases x with
          | false => cases hw
          | true => exact (claims_spec hw M).2.1 hr
    · intro t' op' h
      simp only [upd] at h
      split at h
      · cases h
      · exact hP t' op' h

theorem won_unmark (k v : Word) (es : List Event) : (es.map Event.unmark).countP (Event.won k v) = es.countP (Event.won k v) := by
  rw [List.countP_map]
  congr 1
  funext e
  cases e with
  | inv t op => rfl
  | res t op r => cases r <;> rfl

/-- **C56.** A key has the value `v`, the table is not being replaced, and any number of threads make calls on present keys (the calls
of `c18_conditional_partial`), none of which stores `v` under that key again.  Then of all the calls `replace(k, v, w)` and
`remove(k, v)`, under every schedule, at most one has returned true at any moment. -/
theorem c56_one_winner {hash : Word → Word} {len cap n : Nat} (hs : Sized len cap) {m : Mem} {M : AMap}
    (h : Reach hash len cap (fun _ => True) m M) (hn : (m.tab m.root).newT = none) (rem : Word → Bool) {ctr : Word → Prop} {U : Nat}
    (hroom : ∀ k v, ctr k → M k = some v → v.toNat + 8 * U < LIM) {calls : Nat → List Op}
    (hc : ∀ t, ∀ op ∈ calls t, op.OnW (fun k => M k ≠ none) rem ∧ op.Room ctr U) {k v : Word} (hk : M k = some v)
    (hsp : ∀ t, ∀ op ∈ calls t, op.Spares k v) (xs : List Sched)
    (hU : ((Sys.start m calls).exec hash n xs).hist.countP Event.updBegins ≤ U) :
    ((Sys.start m calls).exec hash n xs).hist.countP (Event.won k v) ≤ 1 := by
  have hw := (c18_conditional_partial (n := n) hs h hn rem hroom hc xs hU).1
  rw [← won_unmark]
  refine won_le hw 1 (.inl ⟨hk, fun _ => rfl, rfl⟩) (fun t op h => by cases h) fun t op hi => ?_
  obtain ⟨e, he, hm⟩ := List.mem_map.mp hi
  cases e with
  | res t' op' r => cases hm
  | inv t' op' =>
    cases hm
    exact hsp t op (inv_calls _ _ _ _ _ he)

/-- `c56_one_winner` is not vacuous, and one thread does win: three threads claim the value 80 of the key 8, another removes the key. -/
example : Sized 8 64 ∧ (∃ m, Reach (fun x => x >>> 3) 8 64 (fun _ => True) m (specRun fixOps AMap.empty) ∧
      (m.tab m.root).newT = none ∧
      ((Sys.start m (callsOf [.replace 8#64 80#64 88#64] [.replace 8#64 80#64 96#64] [.removeIf 8#64 80#64]
        [.remove 8#64])).exec (fun x => x >>> 3) 30 (steps 0 9 ++ steps 1 12 ++ steps 2 40 ++ steps 0 60 ++ steps 1 40)).hist =
        [.inv 0 (.replace 8#64 80#64 88#64), .inv 1 (.replace 8#64 80#64 96#64), .inv 2 (.removeIf 8#64 80#64),
          .res 2 (.removeIf 8#64 80#64) (.bool true), .res 0 (.replace 8#64 80#64 88#64) (.bool false),
          .res 1 (.replace 8#64 80#64 96#64) (.bool false)]) ∧
    (∀ k v, False → specRun fixOps AMap.empty k = some v → v.toNat + 8 * 0 < LIM) ∧
    specRun fixOps AMap.empty 8#64 = some 80#64 ∧
    ∀ t, ∀ op ∈ callsOf [.replace 8#64 80#64 88#64] [.replace 8#64 80#64 96#64] [.removeIf 8#64 80#64] [.remove 8#64] t,
      (op.OnW (fun k => specRun fixOps AMap.empty k ≠ none) (fun _ => true) ∧ op.Room (fun _ => False) 0) ∧ op.Spares 8#64 80#64 := by
  have h8 : specRun fixOps AMap.empty 8#64 ≠ none := by decide
  refine ⟨⟨⟨3, by decide, rfl⟩, by decide⟩, ?_, fun _ _ h => h.elim, by decide, ?_⟩
  · have h : ((runChk (fun x => x >>> 3) 30 (fun _ => true) fixOps (freshMem 8 64)).map
      (fun m => decide ((m.tab m.root).newT = none) && decide (((Sys.start m (callsOf [.replace 8#64 80#64 88#64]
        [.replace 8#64 80#64 96#64] [.removeIf 8#64 80#64]
        [.remove 8#64])).exec (fun x => x >>> 3) 30 (steps 0 9 ++ steps 1 12 ++ steps 2 40 ++ steps 0 60 ++ steps 1 40)).hist =
        [.inv 0 (.replace 8#64 80#64 88#64), .inv 1 (.replace 8#64 80#64 96#64), .inv 2 (.removeIf 8#64 80#64),
          .res 2 (.removeIf 8#64 80#64) (.bool true), .res 0 (.replace 8#64 80#64 88#64) (.bool false),
          .res 1 (.replace 8#64 80#64 96#64) (.bool false)]))) = some true := by decide +kernel
    rw [Option.map_eq_some_iff] at h
    obtain ⟨m, h1, h2⟩ := h
    rw [Bool.and_eq_true, decide_eq_true_eq, decide_eq_true_eq] at h2
    exact ⟨m, runChk_reach (fun _ _ => trivial) fixOps .init (by decide) h1, h2⟩
  · have spare : ∀ o w : Word, w ≠ 80#64 → Op.Spares 8#64 80#64 (.replace 8#64 o w) := by
      intro o w hw M hM
      simp only [specNext]
      split
      · simp only [AMap.set, if_true]; simpa using hw
      · exact hM
    refine callsOf_all ?_ ?_ ?_ ?_ <;> intro op h <;> rw [List.mem_singleton] at h <;> subst h
    · exact ⟨⟨⟨h8, by decide, by decide⟩, fun h => h.elim⟩, spare _ _ (by decide)⟩
    · exact ⟨⟨⟨h8, by decide, by decide⟩, fun h => h.elim⟩, spare _ _ (by decide)⟩
    · refine ⟨⟨⟨h8, by decide, rfl⟩, trivial⟩, fun M hM => ?_⟩
      simp only [specNext]
      split
      · simp [AMap.erase]
      · exact hM
    · exact ⟨⟨⟨h8, rfl⟩, trivial⟩, fun M _ => by simp [specNext, AMap.erase]⟩

/-! ## Exactly one -/

/-- The call claims `v`, or does not change the key `k`. -/
def Op.ClaimsOnly (k v : Word) (op : Op) : Prop := op.claims k v = true ∨ (op.writes ≠ some k ∧ op.isInc k = false)

theorem ClaimsOnly.spares {k v : Word} {op : Op} (h : op.ClaimsOnly k v) : op.Spares k v := by
  intro M hM
  rcases h with h | ⟨h1, h2⟩
  · cases op <;> simp only [Op.claims, Bool.and_eq_true, beq_iff_eq, bne_iff_ne, Bool.false_eq_true] at h
    · obtain ⟨rfl, rfl⟩ := h
      simp only [specNext, if_neg hM]; exact hM
    · obtain ⟨⟨rfl, rfl⟩, hw⟩ := h
      simp only [specNext, if_neg hM]; exact hM
  · rw [specNext_of_writes h1 h2]; exact hM

theorem ClaimsOnly.leaves {k v : Word} (hv : ValidVal v) {op : Op} (h : op.ClaimsOnly k v) : ¬ op.leaves k v := by
  rcases h with h | ⟨h1, h2⟩
  · cases op <;> simp only [Op.claims, Bool.and_eq_true, beq_iff_eq, bne_iff_ne, Bool.false_eq_true] at h
    · exact fun hl => hv.ne_tomb hl.2
    · exact fun hl => h.2 hl.2
  · cases op with
    | update k' w =>
      rintro ⟨rfl, -⟩
      simp [Op.isInc] at h2
    | put k' w => rintro ⟨rfl, -⟩; exact h1 rfl
    | putIfAbsent k' w => rintro ⟨rfl, -⟩; exact h1 rfl
    | putIfMatch k' w o => rintro ⟨rfl, -⟩; exact h1 rfl
    | replace k' w o => rintro ⟨rfl, -⟩; exact h1 rfl
    | remove k' => rintro ⟨rfl, -⟩; exact h1 rfl
    | removeIf k' w => rintro ⟨rfl, -⟩; exact h1 rfl
    | _ => exact id

/-- Either nobody has claimed the value, or somebody has won. -/
theorem WeakTo.claimed {sp : Nat → Op → Prop} {k v : Word} {M0 M : AMap} {P : Nat → CallState} {es : List Event}
    {fx : List (Nat × Op)} (h : WeakTo sp M0 M P es fx) (h0 : M0 k = some v) (hfx : ∀ x ∈ fx, x.2.ClaimsOnly k v)
    (hsp : ∀ x ∈ fx, x.2.claims k v = true → ¬ sp x.1 x.2) :
    (M k = some v ∧ ∀ x ∈ fx, x.2.claims k v = false) ∨ (∃ t, (P t).won k v = true) ∨ 0 < es.countP (Event.won k v) := by
  induction h with
  | nil => exact .inl ⟨h0, fun x hx => by cases hx⟩
  | @inv M P es fx t op _ hp ih =>
    rcases ih hfx hsp with h | ⟨t', h⟩ | h
    · exact .inl h
    · refine .inr (.inl ⟨t', ?_⟩)
      simp only [upd]
      split
      · next e => rw [e, hp] at h; cases h
      · exact h
    · exact .inr (.inr (by rw [List.countP_append]; omega))
  | @res M P es fx t op r _ hp ih =>
    rcases ih hfx hsp with h | ⟨t', h⟩ | h
    · exact .inl h
    · by_cases e : t' = t
      · right; right
        rw [e, hp] at h
        have : Event.won k v (.res t op r) = true := by
          cases r with
          | word w => cases h
          | bool b => cases b; cases h; exact h
        rw [List.countP_append, List.countP_cons_of_pos this]; omega
      · exact .inr (.inl ⟨t', by simp only [upd, if_neg e]; exact h⟩)
    · exact .inr (.inr (by rw [List.countP_append]; omega))
  | @effect M P es fx t op r _ hp hr ih =>
    have hlast := hfx (t, op) (List.mem_append_right _ (List.mem_singleton.mpr rfl))
    rcases ih (fun x hx => hfx x (List.mem_append_left _ hx)) (fun x hx => hsp x (List.mem_append_left _ hx)) with ⟨h1, h2⟩ | ⟨t', h⟩ | h
    · rcases hlast with hc | ⟨hw, hi⟩
      · refine .inr (.inl ⟨t, ?_⟩)
        simp only [upd, if_true]
        have := hr _ (claims_spec hc M).1
        rw [this, decide_eq_true h1]
        exact hc
      · refine .inl ⟨by rw [specNext_of_writes hw hi]; exact h1, fun x hx => ?_⟩
        rcases List.mem_append.mp hx with hx | hx
        · exact h2 x hx
        · rw [List.mem_singleton.mp hx]
          cases hcl : op.claims k v with
          | false => rfl
          | true =>
            exfalso
            cases op <;> simp only [Op.claims, Bool.and_eq_true, beq_iff_eq, bne_iff_ne, Bool.false_eq_true] at hcl
            · exact hw (by rw [hcl.1]; rfl)
            · exact hw (by rw [hcl.1.1]; rfl)
    · refine .inr (.inl ⟨t', ?_⟩)
      simp only [upd]
      split
      · next e => rw [e, hp] at h; cases h
      · exact h
    · exact .inr (.inr h)
  | @giveUp M P es fx t op r hs _ hp hr ih =>
    have hno := fun hc => hsp (t, op) (List.mem_append_right _ (List.mem_singleton.mpr rfl)) hc hs
    rcases ih (fun x hx => hfx x (List.mem_append_left _ hx)) (fun x hx => hsp x (List.mem_append_left _ hx)) with ⟨h1, h2⟩ | ⟨t', h⟩ | h
    · refine .inl ⟨h1, fun x hx => ?_⟩
      rcases List.mem_append.mp hx with hx | hx
      · exact h2 x hx
      · rw [List.mem_singleton.mp hx]; simpa using hno
    · refine .inr (.inl ⟨t', ?_⟩)
      simp only [upd]
      split
      · next e => rw [e, hp] at h; cases h
      · exact h
    · exact .inr (.inr h)

/-- **C56, exactly one.** If moreover the only calls that change the key `k` are claims of its value `v`, then once any claim has
been made and no call is in progress, exactly one claim has returned true: conditional calls do not all fail. -/
theorem c56_exactly_one {hash : Word → Word} {len cap n : Nat} (hs : Sized len cap) {m : Mem} {M : AMap}
    (h : Reach hash len cap (fun _ => True) m M) (hn : (m.tab m.root).newT = none) (rem : Word → Bool) {ctr : Word → Prop} {U : Nat}
    (hroom : ∀ k v, ctr k → M k = some v → v.toNat + 8 * U < LIM) {calls : Nat → List Op}
    (hc : ∀ t, ∀ op ∈ calls t, op.OnW (fun k => M k ≠ none) rem ∧ op.Room ctr U) {k v : Word} (hk : M k = some v)
    (hcl : ∀ t, ∀ op ∈ calls t, op.ClaimsOnly k v) (xs : List Sched)
    (hU : ((Sys.start m calls).exec hash n xs).hist.countP Event.updBegins ≤ U)
    (hidle : ∀ t, ∃ todo, ((Sys.start m calls).exec hash n xs).thr t = .idle todo) {t : Nat} {op : Op} (hop : op.claims k v = true)
    (hinv : .inv t op ∈ ((Sys.start m calls).exec hash n xs).hist) :
    ((Sys.start m calls).exec hash n xs).hist.countP (Event.won k v) = 1 := by
  have hle := c56_one_winner (n := n) hs h hn rem hroom hc hk (fun t op ho => ClaimsOnly.spares (hcl t op ho)) xs hU
  have hv := reach_valid h k v hk
  rw [← begTids_upd] at hU
  obtain ⟨M', P, fx, hf, hw⟩ := weak_start (n := n) hs h hn rem hroom hc xs hU
  have hPi : ∀ t, P t = .idle := by
    intro t
    obtain ⟨todo, ht⟩ := hidle t
    have := hf.thr t
    rw [ht] at this
    cases hp : P t <;> rw [hp] at this <;> first | rfl | exact this.elim
  rcases hw.claimed hk (fun x hx => hcl _ _ (hf.fx x hx)) (fun x hx hc => by
      rintro ⟨k', o, he, t', -, op', ho, hl⟩
      have : (k', o) = (k, v) := by
        generalize x.2 = op at hc he
        cases op <;> simp only [Op.claims, Bool.and_eq_true, beq_iff_eq, bne_iff_ne, Bool.false_eq_true] at hc
        · obtain ⟨rfl, rfl⟩ := hc; exact (Option.some.inj he).symm
        · obtain ⟨⟨rfl, rfl⟩, -⟩ := hc; exact (Option.some.inj he).symm
      cases this
      exact ClaimsOnly.leaves hv (hcl t' op' ho) hl) with ⟨-, h1⟩ | ⟨t', h1⟩ | h1
  · exfalso
    have hcnt := (hw.counts (Op.claims k v) t).1
    rw [hPi, begTids_unmark] at hcnt
    have e0 : effTids (Op.claims k v) fx = [] := by
      rw [effTids, List.filterMap_eq_nil_iff]
      intro x hx
      rw [h1 x hx]; rfl
    rw [e0] at hcnt
    have : t ∈ begTids (Op.claims k v) ((Sys.start m calls).exec hash n xs).hist := by
      rw [begTids, List.mem_filterMap]
      exact ⟨_, hinv, if_pos hop⟩
    have := List.count_pos_iff.mpr this
    simp [waitC] at hcnt
    omega
  · rw [hPi] at h1; cases h1
  · rw [won_unmark] at h1; omega

/-- Three claims. -/
def claimCalls : Nat → List Op :=
  callsOf [.replace 8#64 80#64 88#64] [.replace 8#64 80#64 96#64] [.removeIf 8#64 80#64, .get 8#64] []
/-- They run into one another. -/
def claimSched : List Sched := steps 0 9 ++ steps 1 12 ++ steps 2 8 ++ steps 0 60 ++ steps 1 40 ++ steps 2 60

/-- Whether the thread is between two calls. -/
def Thread.rests : Thread → Bool
  | .idle _ => true
  | _ => false

theorem claim_idle {hash : Word → Word} {n : Nat} {calls : Nat → List Op} {m : Mem} {xs : List Sched}
    (h : [0, 1, 2, 3].all (fun t => (((Sys.start m calls).exec hash n xs).thr t).rests) = true) (h4 : ∀ x ∈ xs, ∃ t < 4, x = .run t) :
    ∀ t, ∃ todo, ((Sys.start m calls).exec hash n xs).thr t = .idle todo := by
  intro t
  by_cases ht : t < 4
  · have := List.all_eq_true.mp h t (by simp only [List.mem_cons, List.not_mem_nil]; omega)
    cases hth : ((Sys.start m calls).exec hash n xs).thr t with
    | idle todo => exact ⟨todo, rfl⟩
    | busy op p todo => rw [hth] at this; cases this
  · rw [exec_other]
    · exact ⟨_, rfl⟩
    · intro hx
      obtain ⟨t', h1, h2⟩ := h4 _ hx
      cases h2
      exact ht h1

/-- `c56_exactly_one` is not vacuous: three claims that run into one another, and a read. -/
example : Sized 8 64 ∧ (∃ m, Reach (fun x => x >>> 3) 8 64 (fun _ => True) m (specRun fixOps AMap.empty) ∧
      (m.tab m.root).newT = none ∧
      (∀ t, ∃ todo, ((Sys.start m claimCalls).exec (fun x => x >>> 3) 30 claimSched).thr t = .idle todo) ∧
      .inv 0 (.replace 8#64 80#64 88#64) ∈ ((Sys.start m claimCalls).exec (fun x => x >>> 3) 30 claimSched).hist) ∧
    Op.claims 8#64 80#64 (.replace 8#64 80#64 88#64) = true ∧ specRun fixOps AMap.empty 8#64 = some 80#64 ∧
    (∀ k v, False → specRun fixOps AMap.empty k = some v → v.toNat + 8 * 0 < LIM) ∧
    ∀ t, ∀ op ∈ claimCalls t, (op.OnW (fun k => specRun fixOps AMap.empty k ≠ none) (fun _ => true) ∧ op.Room (fun _ => False) 0) ∧
      op.ClaimsOnly 8#64 80#64 := by
  have h8 : specRun fixOps AMap.empty 8#64 ≠ none := by decide
  refine ⟨⟨⟨3, by decide, rfl⟩, by decide⟩, ?_, by decide, by decide, fun _ _ h => h.elim, ?_⟩
  · have h : ((runChk (fun x => x >>> 3) 30 (fun _ => true) fixOps (freshMem 8 64)).map
      (fun m => decide ((m.tab m.root).newT = none) &&
        [0, 1, 2, 3].all (fun t => (((Sys.start m claimCalls).exec (fun x => x >>> 3) 30 claimSched).thr t).rests) &&
        decide (.inv 0 (.replace 8#64 80#64 88#64) ∈ ((Sys.start m claimCalls).exec (fun x => x >>> 3) 30 claimSched).hist))) =
        some true := by decide +kernel
    rw [Option.map_eq_some_iff] at h
    obtain ⟨m, h1, h2⟩ := h
    rw [Bool.and_eq_true, Bool.and_eq_true, decide_eq_true_eq, decide_eq_true_eq] at h2
    have hlt : ∀ x ∈ claimSched, ∃ t < 4, x = .run t := ?_
    · exact ⟨m, runChk_reach (fun _ _ => trivial) fixOps .init (by decide) h1, h2.1.1, claim_idle h2.1.2 hlt, h2.2⟩
    intro x hx
    simp only [claimSched, steps, List.mem_append, List.mem_replicate] at hx
    rcases hx with ((((hx | hx) | hx) | hx) | hx) | hx <;> exact ⟨_, by decide, hx.2⟩
  · refine callsOf_all ?_ ?_ ?_ ?_ <;> intro op h <;> simp only [List.mem_cons, List.not_mem_nil, or_false] at h
    · subst h
      exact ⟨⟨⟨h8, by decide, by decide⟩, fun h => h.elim⟩, .inl (by decide)⟩
    · subst h
      exact ⟨⟨⟨h8, by decide, by decide⟩, fun h => h.elim⟩, .inl (by decide)⟩
    · rcases h with rfl | rfl
      exacts [⟨⟨⟨h8, by decide, rfl⟩, trivial⟩, .inl (by decide)⟩,
        ⟨⟨(by decide : ValidKey _), trivial⟩, .inr ⟨by decide, by decide⟩⟩]

end PMap
