import Verif.Live.Own
import Verif.Own.Sys

/-!
# How many calls a thread has finished after a number of its own steps (proof machinery)
-/

namespace PMap

open Prog

variable {C : Cfg} {M0 M : AMap} {P : Nat → CallState} {fx : List (Nat × Op)} {n U : Nat} {ctr : Word → Prop}

/-- How many calls of the thread `t` have returned (no code of its own). -/
def returned (t : Nat) (h : List Event) : Nat :=
  h.countP fun e => match e with | .res t' _ _ => t' == t | .inv _ _ => false

/-- The same thread, its call limited to `N` further actions (no code of its own). -/
def Thread.limit (N : Nat) : Thread → Thread
  | .idle todo => .idle todo
  | .busy op p todo => .busy op (PMap.limit p N) todo

/-- The same system with all calls limited (no code of its own). -/
def Sys.limit (b : Nat → Nat) (s : Sys) : Sys := { s with thr := fun t => (s.thr t).limit (b t) }

/-- The thread has made `m` calls or is making them, has returned from `r`, and keeps pace: `c` is the number of its steps. -/
def Pace (B m c r N : Nat) : Thread → Prop
  | .idle todo => r + todo.length = m ∧ (todo ≠ [] → c ≤ r * (B + 2))
  | .busy _ _ todo => r + todo.length + 1 = m ∧ N ≤ B ∧ c + N ≤ r * (B + 2) + (B + 1)

theorem OwnOK.not_stuck {A : Nat → Op → Prop} {s : Sys} {sz : Word → Bool} (h : OwnOK C M0 ctr U A s M sz P fx) {t : Nat} {op : Op}
    {todo : List Op} : s.thr t ≠ .busy op (.halt .ub) todo := by
  intro e
  have ht := h.thr t
  rw [e] at ht
  cases hp : P t with
  | idle => rw [hp] at ht; exact ht
  | called op' =>
    rw [hp] at ht
    obtain ⟨-, -, -, s0, -, hw⟩ := ht
    exact absurd rfl hw
  | effected op' x =>
    rw [hp] at ht
    obtain ⟨-, -, s0, -, hw⟩ := ht
    exact absurd rfl hw

theorem upd_limit {b : Nat → Nat} {f : Nat → Thread} {t : Nat} {th th' : Thread} {N : Nat} (h : th' = th.limit N) :
    (fun t' => (upd f t th t').limit (upd b t N t')) = upd (fun t' => (f t').limit (b t')) t th' := by
  funext t'
  by_cases e : t' = t
  · subst e; simp [upd, h]
  · simp [upd, e]

/-- One step. -/
theorem pace_step {A : Nat → Op → Prop} {s : Sys} {sz : Word → Bool} {b m c : Nat → Nat} (hC : C.OK) (hg : C.grow = false)
    (hlim : ∀ t op, A t op → op.isUpdate = true → 8 * U < LIM) (hA : ∀ t op, A t op → op.By C.S C.own t ∧ op.Room ctr U)
    (hn : reprobeLimit C.len < n) (h : OwnOK C M0 ctr U A (s.limit b) M sz P fx)
    (hp : ∀ t, Pace (callBound C.len) (m t) (c t) (returned t s.hist) (b t) (s.thr t)) (x : Sched)
    (hU : (begTids Op.isUpdate s.hist).length ≤ U) :
    ∃ b M sz P fx, OwnOK C M0 ctr U A ((s.step C.hash n x).limit b) M sz P fx ∧
      ∀ t, Pace (callBound C.len) (m t) (c t + [x].count (.run t)) (returned t (s.step C.hash n x).hist) (b t) ((s.step C.hash n x).thr t) := by
  have hst := fun x => (h.stepW (g := fun op => limit (op.prog C.hash n) (callBound C.len)) hlim hA
    (fun t op s ha hc => op_bounded hC hg hn (hA t op ha).1 hc) x hU).resolve_right (Cfg.fits hg _)
  have hother : ∀ {t tid : Nat}, t ≠ tid → [Sched.run tid].count (.run t) = 0 := by
    intro t tid e
    simp only [List.count_singleton]
    exact if_neg (by simpa using fun h => e h.symm)
  have hself : ∀ {t : Nat}, [Sched.run t].count (.run t) = 1 := by intro t; simp
  cases x with
  | evict t i =>
    obtain ⟨M, sz, P, fx, h'⟩ := hst (.evict t i)
    refine ⟨b, M, sz, P, fx, h', fun t' => ?_⟩
    have : [Sched.evict t i].count (.run t') = 0 := by simp
    rw [this]; exact hp t'
  | run tid =>
    have h1 := hst (.run tid)
    have hpt := hp tid
    rw [Sys.stepW] at h1
    change ∃ M sz P fx, OwnOK C M0 ctr U A (match (s.thr tid).limit (b tid) with
      | .idle [] => _ | .idle (op :: todo) => _ | .busy _ (.halt .ub) _ => _ | .busy _ (.halt _) _ => _ | .busy op (.ret r) todo => _
      | .busy op (.act a k) todo => _) M sz P fx at h1
    rw [Sys.step]
    cases hs : s.thr tid with
    | idle todo =>
      rw [hs] at hpt h1
      cases todo with
      | nil =>
        refine ⟨b, M, sz, P, fx, h, fun t => ?_⟩
        by_cases e : t = tid
        · subst e
          simp only [hs, hself]
          exact ⟨hpt.1, fun h => absurd rfl h⟩
        · rw [hother e]; exact hp t
      | cons op todo =>
        obtain ⟨M, sz, P, fx, h'⟩ := h1
        refine ⟨upd b tid (callBound C.len), M, sz, P, fx, ?_, fun t => ?_⟩
        · simp only [Sys.limit]
          rw [upd_limit rfl]; exact h'
        · have hr : returned t (s.hist ++ [.inv tid op]) = returned t s.hist := by simp [returned]
          simp only [hr]
          by_cases e : t = tid
          · subst e
            simp only [upd, if_true, hself]
            have h1 := hpt.1
            have h2 := hpt.2 (List.cons_ne_nil _ _)
            simp only [List.length_cons] at h1
            exact ⟨by omega, le_refl _, by omega⟩
          · rw [hother e]; simp only [upd, if_neg e]; exact hp t
    | busy op p todo =>
      have hns := h.not_stuck (t := tid) (op := op) (todo := todo)
      change (s.thr tid).limit (b tid) ≠ _ at hns
      rw [hs] at hpt h1 hns
      cases p with
      | halt y => exact absurd rfl hns
      | ret r =>
        obtain ⟨M, sz, P, fx, h'⟩ := h1
        refine ⟨upd b tid 0, M, sz, P, fx, ?_, fun t => ?_⟩
        · simp only [Sys.limit]
          rw [upd_limit rfl]; exact h'
        · by_cases e : t = tid
          · subst e
            have hr : returned t (s.hist ++ [.res t op r]) = returned t s.hist + 1 := by simp [returned]
            simp only [hr, upd, if_true, hself]
            obtain ⟨h1, h2, h3⟩ := hpt
            refine ⟨by omega, fun _ => ?_⟩
            rw [Nat.add_mul]; omega
          · have hr : returned t (s.hist ++ [.res tid op r]) = returned t s.hist := by simp [returned, Ne.symm e]
            rw [hother e]; simp only [hr, upd, if_neg e]; exact hp t
      | act a k =>
        cases hb : b tid with
        | zero => rw [hb] at hns; exact absurd rfl hns
        | succ N =>
          rw [hb] at h1 hpt
          simp only [Thread.limit, limit] at h1
          change ∃ M sz P fx, OwnOK C M0 ctr U A (match a.exec s.mem with | none => _ | some (r, m') => _) M sz P fx at h1
          cases he : a.exec s.mem with
          | none =>
            rw [he] at h1
            obtain ⟨M, sz, P, fx, h'⟩ := h1
            exact absurd h'.noub (by simp)
          | some q =>
            rw [he] at h1
            simp only [he]
            obtain ⟨M, sz, P, fx, h'⟩ := h1
            refine ⟨upd b tid N, M, sz, P, fx, ?_, fun t => ?_⟩
            · simp only [Sys.limit]
              rw [upd_limit rfl]; exact h'
            · by_cases e : t = tid
              · subst e
                simp only [upd, if_true, hself]
                obtain ⟨h1, h2, h3⟩ := hpt
                exact ⟨h1, by omega, by omega⟩
              · rw [hother e]; simp only [upd, if_neg e]; exact hp t

theorem pace_exec {A : Nat → Op → Prop} {m : Nat → Nat} (hC : C.OK) (hg : C.grow = false)
    (hlim : ∀ t op, A t op → op.isUpdate = true → 8 * U < LIM) (hA : ∀ t op, A t op → op.By C.S C.own t ∧ op.Room ctr U)
    (hn : reprobeLimit C.len < n) (xs : List Sched) :
    ∀ {s : Sys} {M : AMap} {sz : Word → Bool} {P : Nat → CallState} {fx : List (Nat × Op)} {b c : Nat → Nat},
    OwnOK C M0 ctr U A (s.limit b) M sz P fx →
    (∀ t, Pace (callBound C.len) (m t) (c t) (returned t s.hist) (b t) (s.thr t)) →
    (begTids Op.isUpdate (s.exec C.hash n xs).hist).length ≤ U →
    ∃ b : Nat → Nat, ∀ t, Pace (callBound C.len) (m t) (c t + xs.count (.run t)) (returned t (s.exec C.hash n xs).hist) (b t) ((s.exec C.hash n xs).thr t) := by
  induction xs with
  | nil => intro s M sz P fx b c _ hp _; exact ⟨b, hp⟩
  | cons x xs ih =>
    intro s M sz P fx b c h hp hU
    have hle : (begTids Op.isUpdate s.hist).length ≤ U := by
      obtain ⟨h', e⟩ := exec_hist C.hash n (x :: xs) s
      rw [e, begTids, List.filterMap_append, List.length_append] at hU
      exact le_trans (Nat.le_add_right _ _) hU
    obtain ⟨b', M', sz', P', fx', h', hp'⟩ := pace_step hC hg hlim hA hn h hp x hle
    obtain ⟨b2, h2⟩ := ih h' hp' hU
    refine ⟨b2, fun t => ?_⟩
    have := h2 t
    rw [Nat.add_assoc, ← List.count_append] at this
    exact this

/-- From a new map: after `k` times the bound of its own steps a thread has finished `k` of its calls, or all. -/
theorem pace_start {A : Nat → Op → Prop} (hre : C.re = false) (hC : C.OK) (hg : C.grow = false) (hlim : ∀ t op, A t op → op.isUpdate = true → 8 * U < LIM)
    (hA : ∀ t op, A t op → op.By C.S C.own t ∧ op.Room ctr U) (hn : reprobeLimit C.len < n) {cap : Nat} (hcap : cap ≤ 2 ^ 32)
    {calls : Nat → List Op} (hc : ∀ t, ∀ op ∈ calls t, A t op) (xs : List Sched)
    (hU : (begTids Op.isUpdate ((Sys.init C.len cap calls).exec C.hash n xs).hist).length ≤ U) (t k : Nat) (hk : k ≤ (calls t).length)
    (hx : k * (callBound C.len + 2) ≤ xs.count (.run t)) :
    k ≤ returned t ((Sys.init C.len cap calls).exec C.hash n xs).hist ∧
      (k = (calls t).length → ((Sys.init C.len cap calls).exec C.hash n xs).thr t = .idle []) := by
  obtain ⟨b, h⟩ := pace_exec (m := fun t => (calls t).length) (s := Sys.init C.len cap calls) (b := fun _ => 0) (c := fun _ => 0)
    (M := AMap.empty) (sz := fun _ => false) (P := fun _ => .idle) (fx := []) (M0 := AMap.empty) hC hg hlim hA hn xs
    ⟨.nil, own_fresh hre hcap, fun k v _ h => (by cases h), fun k v h => (by cases h), rfl,
      fun t => ⟨fun op ho => hc t op ho, fun _ _ => rfl⟩, fun x hx => by cases hx⟩
    (fun t => ⟨by simp [returned, Sys.init], fun _ => Nat.zero_le _⟩) hU
  have h := h t
  rw [Nat.zero_add] at h
  generalize returned t ((Sys.init C.len cap calls).exec C.hash n xs).hist = r at h ⊢
  cases hth : ((Sys.init C.len cap calls).exec C.hash n xs).thr t with
  | idle todo =>
    rw [hth] at h
    cases todo with
    | nil =>
      have := h.1
      simp only [List.length_nil] at this
      exact ⟨by omega, fun _ => rfl⟩
    | cons op todo =>
      have := le_trans hx (h.2 (List.cons_ne_nil _ _))
      have h1 := h.1
      simp only [List.length_cons] at h1
      have := Nat.le_of_mul_le_mul_right this (by omega)
      exact ⟨this, fun e => by omega⟩
  | busy op p todo =>
    rw [hth] at h
    obtain ⟨h1, -, h3⟩ := h
    have : k * (callBound C.len + 2) < (r + 1) * (callBound C.len + 2) := by rw [Nat.add_mul]; omega
    have := Nat.lt_succ_iff.mp (Nat.lt_of_mul_lt_mul_right this)
    exact ⟨this, fun e => by omega⟩

end PMap
