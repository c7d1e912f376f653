import Verif.Live.Stuck
import Verif.Own.Spec
import Verif.Fast

/-!
# Interleavings: more fuel, one thread alone, and threads that wait (proof machinery)
-/

namespace PMap

open Prog

variable {hash : Word → Word} {n n' : Nat}

/-! ## More fuel -/

/-- The thread has run out of fuel. -/
def Thread.out : Thread → Prop
  | .busy _ (.halt .fuel) _ => True
  | _ => False

/-- The second thread is the first with possibly more fuel. -/
def Thread.More : Thread → Thread → Prop
  | .idle a, .idle b => a = b
  | .busy op p a, .busy op' q b => op = op' ∧ MoreFuel p q ∧ a = b
  | _, _ => False

/-- The second system is the first with possibly more fuel. -/
structure Sys.More (s s' : Sys) : Prop where
  mem : s'.mem = s.mem
  hist : s'.hist = s.hist
  ub : s'.ub = s.ub
  thr : ∀ t, (s.thr t).More (s'.thr t)

/-- A step does not touch the other threads. -/
theorem step_other {s : Sys} {t u : Nat} (e : t ≠ u) : (s.step hash n (.run u)).thr t = s.thr t := by
  simp only [Sys.step]
  split
  · rfl
  · simp [upd, e]
  · rfl
  · rfl
  · simp [upd, e]
  · split
    · rfl
    · simp [upd, e]

theorem exec_other {t : Nat} : ∀ (xs : List Sched) (s : Sys), Sched.run t ∉ xs → (s.exec hash n xs).thr t = s.thr t := by
  intro xs
  induction xs with
  | nil => intro s _; rfl
  | cons x xs ih =>
    intro s h
    rw [Sys.exec, ih _ fun h' => h (List.mem_cons_of_mem _ h')]
    cases x with
    | evict a i => rfl
    | run u => exact step_other (by rintro rfl; exact h List.mem_cons_self)

theorem out_step {s : Sys} {t : Nat} (h : (s.thr t).out) (x : Sched) : ((s.step hash n x).thr t).out := by
  cases x with
  | evict a i => exact h
  | run u =>
    by_cases e : t = u
    · subst e
      cases hs : s.thr t with
      | idle l => rw [hs] at h; exact h.elim
      | busy op p l =>
        rw [hs] at h
        cases p with
        | ret a => exact h.elim
        | act a k => exact h.elim
        | halt x =>
          cases x with
          | ub => exact h.elim
          | threw => exact h.elim
          | fuel => simp only [Sys.step, hs]; exact h
    · rw [step_other e]; exact h

theorem out_exec {t : Nat} : ∀ (xs : List Sched) (s : Sys), (s.thr t).out → ((s.exec hash n xs).thr t).out := by
  intro xs
  induction xs with
  | nil => intro s h; exact h
  | cons x xs ih => intro s h; exact ih _ (out_step h x)

theorem More.upd {f g : Nat → Thread} (h : ∀ t, (f t).More (g t)) {u : Nat} {a b : Thread} (hab : a.More b) :
    ∀ t, (upd f u a t).More (upd g u b t) := by
  intro t
  by_cases e : t = u
  · simpa [PMap.upd, e] using hab
  · simpa [PMap.upd, e] using h t

theorem Sys.More.step {s s' : Sys} (hn : n ≤ n') (h : s.More s') (ho : ∀ t, ¬ (s.thr t).out) (x : Sched) :
    (s.step hash n x).More (s'.step hash n' x) := by
  cases x with
  | evict a i =>
    refine ⟨?_, h.hist, h.ub, h.thr⟩
    simp only [Sys.step, h.mem]
  | run u =>
    have hu := h.thr u
    have hou := ho u
    cases hs : s.thr u with
    | idle l =>
      cases hs' : s'.thr u with
      | busy op p l' => rw [hs, hs'] at hu; exact hu.elim
      | idle l' =>
        rw [hs, hs'] at hu
        cases hu
        cases l with
        | nil => simp only [Sys.step, hs, hs']; exact h
        | cons op l =>
          simp only [Sys.step, hs, hs']
          exact ⟨h.mem, by simp only [h.hist], h.ub, More.upd h.thr ⟨rfl, more_op hash hn op, rfl⟩⟩
    | busy op p l =>
      cases hs' : s'.thr u with
      | idle l' => rw [hs, hs'] at hu; exact hu.elim
      | busy op' p' l' =>
        rw [hs, hs'] at hu
        obtain ⟨rfl, hm, rfl⟩ := hu
        rw [hs] at hou
        cases hm with
        | fuel q => exact absurd trivial hou
        | halt y =>
          cases y with
          | ub => simp only [Sys.step, hs, hs']; exact ⟨h.mem, h.hist, rfl, h.thr⟩
          | threw => simp only [Sys.step, hs, hs']; exact h
          | fuel => exact absurd trivial hou
        | ret a =>
          simp only [Sys.step, hs, hs']
          exact ⟨h.mem, by simp only [h.hist], h.ub, More.upd h.thr rfl⟩
        | act a hk =>
          simp only [Sys.step, hs, hs', h.mem]
          cases a.exec s.mem with
          | none => exact ⟨rfl, h.hist, rfl, h.thr⟩
          | some y => exact ⟨rfl, h.hist, h.ub, More.upd h.thr ⟨rfl, hk _, rfl⟩⟩

theorem Sys.More.exec (hn : n ≤ n') : ∀ (xs : List Sched) {s s' : Sys}, s.More s' → (∀ t, ¬ ((s.exec hash n xs).thr t).out) →
    (s.exec hash n xs).More (s'.exec hash n' xs) := by
  intro xs
  induction xs with
  | nil => intro s s' h _; exact h
  | cons x xs ih =>
    intro s s' h ho
    exact ih (h.step hn (fun t ht => ho t (out_exec (x :: xs) s ht)) x) ho

theorem Thread.More.refl (th : Thread) : th.More th := by
  cases th with
  | idle l => exact rfl
  | busy op p l => exact ⟨rfl, MoreFuel.refl p, rfl⟩

theorem Sys.More.refl (s : Sys) : s.More s := ⟨rfl, rfl, rfl, fun _ => Thread.More.refl _⟩

/-! ## One thread alone, in the fast interpreter -/

/-- A step of a thread that runs alone; nothing if it is stuck. -/
def fstep (hash : Word → Word) (n t : Nat) : Thread × FM × List Event → Option (Thread × FM × List Event)
  | (.idle [], _, _) => none
  | (.idle (op :: todo), m, es) => some (.busy op (op.prog hash n) todo, m, es ++ [.inv t op])
  | (.busy _ (.halt _) _, _, _) => none
  | (.busy op (.ret r) todo, m, es) => some (.idle todo, m, es ++ [.res t op r])
  | (.busy op (.act a k) todo, m, es) =>
    match m.exec a with
    | none => none
    | some (r, m') => some (.busy op (k r) todo, m', es)

/-- Several steps. -/
def fsteps (hash : Word → Word) (n t : Nat) : Nat → Thread × FM × List Event → Option (Thread × FM × List Event)
  | 0, x => some x
  | k + 1, x => (fstep hash n t x).bind (fsteps hash n t k)

theorem fstep_sound {t : Nat} {s : Sys} {th th' : Thread} {m m' : FM} {es es' : List Event} (hr : FM.Rel m s.mem)
    (ht : s.thr t = th) (h : fstep hash n t (th, m, es) = some (th', m', es')) :
    ∃ ev, es' = es ++ ev ∧ FM.Rel m' (s.step hash n (.run t)).mem ∧ (s.step hash n (.run t)).thr = upd s.thr t th' ∧
      (s.step hash n (.run t)).hist = s.hist ++ ev ∧ (s.step hash n (.run t)).ub = s.ub := by
  cases th with
  | idle l =>
    cases l with
    | nil => cases h
    | cons op l =>
      cases h
      simp only [Sys.step, ht]
      exact ⟨_, rfl, hr, by trivial, rfl, by trivial⟩
  | busy op p l =>
    cases p with
    | halt x => cases h
    | ret r =>
      cases h
      simp only [Sys.step, ht]
      exact ⟨_, rfl, hr, by trivial, rfl, by trivial⟩
    | act a k =>
      have he := FM.exec_rel a hr
      simp only [fstep] at h
      cases h1 : m.exec a with
      | none => rw [h1] at h; cases h
      | some x =>
        rw [h1] at h he
        cases h2 : a.exec s.mem with
        | none => rw [h2] at he; exact he.elim
        | some y =>
          rw [h2] at he
          obtain ⟨r, m1⟩ := x
          obtain ⟨r', m2⟩ := y
          obtain ⟨e, hR⟩ := he
          subst e
          simp only [Option.some.injEq, Prod.mk.injEq] at h
          obtain ⟨rfl, rfl, rfl⟩ := h
          simp only [Sys.step, ht, h2]
          exact ⟨[], by simp, hR, by trivial, by simp, by trivial⟩

theorem fsteps_sound {t : Nat} : ∀ (k : Nat) {s : Sys} {th th' : Thread} {m m' : FM} {es es' : List Event}, FM.Rel m s.mem →
    s.thr t = th → fsteps hash n t k (th, m, es) = some (th', m', es') →
    ∃ ev, es' = es ++ ev ∧ FM.Rel m' (s.exec hash n (List.replicate k (.run t))).mem ∧
      (s.exec hash n (List.replicate k (.run t))).thr = upd s.thr t th' ∧
      (s.exec hash n (List.replicate k (.run t))).hist = s.hist ++ ev ∧ (s.exec hash n (List.replicate k (.run t))).ub = s.ub := by
  intro k
  induction k with
  | zero =>
    intro s th th' m m' es es' hr ht h
    cases h
    refine ⟨[], by simp, hr, ?_, by simp [Sys.exec], rfl⟩
    funext j
    by_cases e : j = t
    · subst e; simp [upd, Sys.exec, ht]
    · simp [upd, e, Sys.exec]
  | succ k ih =>
    intro s th th' m m' es es' hr ht h
    rw [fsteps] at h
    cases h1 : fstep hash n t (th, m, es) with
    | none => rw [h1] at h; cases h
    | some x =>
      rw [h1] at h
      obtain ⟨th1, m1, es1⟩ := x
      obtain ⟨ev, e1, r1, t1, g1, u1⟩ := fstep_sound hr ht h1
      obtain ⟨ev', e2, r2, t2, g2, u2⟩ := ih r1 (by rw [t1]; simp [upd]) h
      refine ⟨ev ++ ev', by rw [e2, e1, List.append_assoc], r2, ?_, ?_, ?_⟩
      · rw [List.replicate_succ, Sys.exec, t2, t1]
        funext j
        by_cases e : j = t <;> simp [upd, e]
      · rw [List.replicate_succ, Sys.exec, g2, g1, List.append_assoc]
      · rw [List.replicate_succ, Sys.exec, u2, u1]

/-! ## Threads that wait -/

variable {r nt L : Nat}

theorem s_mapSize {Q : Word → Prop} (h : ∀ w, Q w) : swp (Stuck r nt L) Q mapSize :=
  swp_bind' (s_getRoot (swp_do fun m hm => ⟨(m.tab r).size, m, by simp [Act.exec, hm.lt], hm, h _⟩))

theorem valid_ne_TP {v : Word} (h : ValidVal v) : v ≠ TOMBPRIME := by
  rintro rfl; exact absurd h.2.2 (by decide)
theorem valid_ne_init {v : Word} (h : ValidVal v) : v ≠ VINITIAL := by
  rintro rfl; exact absurd h.2.2 (by decide)

/-- Calls that name a key do not return. -/
theorem s_op (hL : ∃ p, L = 2 ^ p) (op : Op) (hv : op.Valid) : swp (Stuck r nt L) (fun _ => op.key = none) (op.prog hash n) := by
  have hk : ∀ {k : Word}, ValidKey k → k ≠ KINITIAL := fun h => by rintro rfl; exact absurd h.2 (by decide)
  cases op with
  | get k => exact swp_bind' (s_mapGet hL (hk hv))
  | containsKey k => exact swp_bind' (swp_bind' (s_mapGet hL (hk hv)))
  | put k v => exact swp_bind' (s_mapPut hL (valid_ne_TP hv.2) (by decide))
  | putIfAbsent k v => exact swp_bind' (s_mapPut hL (valid_ne_TP hv.2) (by decide))
  | remove k => exact swp_bind' (swp_bind' (s_mapPut hL (by decide) (by decide)))
  | removeIf k v => exact swp_bind' (swp_bind' (s_mapPut hL (by decide) (valid_ne_init hv.2)))
  | replace k o v => exact swp_bind' (swp_bind' (s_mapPut hL (valid_ne_TP hv.2.2) (valid_ne_init hv.2.1)))
  | putIfMatch k v o =>
    refine swp_bind' (s_mapPut hL (valid_ne_TP hv.2.1) ?_)
    rcases hv.2.2 with h | rfl | rfl | rfl
    · exact valid_ne_init h
    all_goals decide
  | update k v =>
    refine swp_bind' (s_mapPut hL ?_ (by decide))
    rcases hv.2 with h | rfl
    · exact valid_ne_TP h
    · decide
  | size => exact swp_bind' (s_mapSize fun w => swp_pure rfl)
  | isEmpty => exact swp_bind' (swp_bind' (s_mapSize fun w => swp_pure (swp_pure rfl)))

/-- What is known of a thread that has begun its calls in the stuck memory. -/
def Waits (r nt L : Nat) : Thread → Prop
  | .idle todo => ∀ op ∈ todo, op.Valid
  | .busy op p todo => swp (Stuck r nt L) (fun _ => op.key = none) p ∧ ∀ op ∈ todo, op.Valid

/-- An event that is not the return of a call on a key. -/
def Event.keyless : Event → Prop
  | .inv _ _ => True
  | .res _ op _ => op.key = none

/-- The step of a thread is one of those in `F`. -/
def Sched.isRun (F : Nat → Prop) : Sched → Prop
  | .run t => F t
  | .evict _ _ => False

theorem waits_step (hL : ∃ p, L = 2 ^ p) {F : Nat → Prop} {s : Sys} (hS : Stuck r nt L s.mem) (hW : ∀ t, ¬ F t → Waits r nt L (s.thr t))
    (x : Sched) (hx : ¬ x.isRun F) : Stuck r nt L (s.step hash n x).mem ∧ (∀ t, ¬ F t → Waits r nt L ((s.step hash n x).thr t)) ∧
      (∃ ev, (s.step hash n x).hist = s.hist ++ ev ∧ ∀ e ∈ ev, e.keyless) ∧ (s.step hash n x).ub = s.ub ∧
      ∀ t, F t → (s.step hash n x).thr t = s.thr t := by
  cases x with
  | evict a i => exact ⟨hS.congr (fun _ => rfl) rfl rfl rfl rfl rfl, hW, ⟨[], by simp [Sys.step], by simp⟩, rfl, fun _ _ => rfl⟩
  | run u =>
    have hu := hW u hx
    have hupd : ∀ th, Waits r nt L th → ∀ t, ¬ F t → Waits r nt L (upd s.thr u th t) := by
      intro th h t ht
      by_cases e : t = u
      · simpa [upd, e] using h
      · simpa [upd, e] using hW t ht
    have hoth : ∀ th, ∀ t, F t → upd s.thr u th t = s.thr t := by
      intro th t ht
      have : t ≠ u := by rintro rfl; exact hx ht
      simp [upd, this]
    cases hs : s.thr u with
    | idle l =>
      rw [hs] at hu
      cases l with
      | nil => simp only [Sys.step, hs]; exact ⟨hS, hW, ⟨[], by simp, by simp⟩, by trivial, by simp⟩
      | cons op l =>
        simp only [Sys.step, hs]
        exact ⟨hS, hupd _ ⟨s_op hL op (hu op List.mem_cons_self), fun o ho => hu o (List.mem_cons_of_mem _ ho)⟩,
          ⟨_, rfl, by simp [Event.keyless]⟩, by trivial, hoth _⟩
    | busy op p l =>
      rw [hs] at hu
      obtain ⟨hp, hl⟩ := hu
      cases p with
      | halt y =>
        have : y = .fuel := hp
        subst this
        simp only [Sys.step, hs]
        exact ⟨hS, hW, ⟨[], by simp, by simp⟩, by trivial, by simp⟩
      | ret a =>
        simp only [Sys.step, hs]
        exact ⟨hS, hupd _ hl, ⟨_, rfl, by have hp : op.key = none := hp; simpa [Event.keyless] using hp⟩, by trivial, hoth _⟩
      | act a k =>
        obtain ⟨y, m2, e, h2, h3⟩ := hp s.mem hS
        simp only [Sys.step, hs, e]
        exact ⟨h2, hupd _ ⟨h3, hl⟩, ⟨[], by simp, by simp⟩, trivial, hoth _⟩

theorem waits_exec (hL : ∃ p, L = 2 ^ p) {F : Nat → Prop} : ∀ (xs : List Sched) {s : Sys}, Stuck r nt L s.mem →
    (∀ t, ¬ F t → Waits r nt L (s.thr t)) → (∀ x ∈ xs, ¬ x.isRun F) →
    Stuck r nt L (s.exec hash n xs).mem ∧ (∃ ev, (s.exec hash n xs).hist = s.hist ++ ev ∧ ∀ e ∈ ev, e.keyless) ∧
      (s.exec hash n xs).ub = s.ub ∧ (∀ t, F t → (s.exec hash n xs).thr t = s.thr t) ∧
      ∀ t, ¬ F t → Waits r nt L ((s.exec hash n xs).thr t) := by
  intro xs
  induction xs with
  | nil => intro s hS hW _; exact ⟨hS, ⟨[], by simp [Sys.exec], by simp⟩, rfl, fun _ _ => rfl, hW⟩
  | cons x xs ih =>
    intro s hS hW hx
    obtain ⟨h1, h2, ⟨ev, h3, h4⟩, h5, h7⟩ := waits_step (hash := hash) (n := n) hL hS hW x (hx x List.mem_cons_self)
    obtain ⟨g1, ⟨ev', g2, g3⟩, g4, g5, g6⟩ := ih h1 h2 fun y hy => hx y (List.mem_cons_of_mem _ hy)
    refine ⟨g1, ⟨ev ++ ev', by rw [Sys.exec, g2, h3, List.append_assoc], ?_⟩, by rw [Sys.exec, g4, h5],
      fun t ht => by rw [Sys.exec, g5 t ht, h7 t ht], g6⟩
    intro e he
    rcases List.mem_append.mp he with h | h
    · exact h4 e h
    · exact g3 e h

end PMap
