import Verif.Pmem.Size

/-!
# C66, C67: the libpmemobj table behind `pmemMap`, several threads and power failures

The pool that pmemMap.hpp:93-95 creates has 160 MB, hence the hypothesis that there is no room for 2^31 buckets.
-/

namespace PMap.Pmem

open HP

/-! ### Runs that can be computed -/

/-- What a schedule says.  No code of its own. -/
inductive Do where
  | call (t : Nat) (op : Cmd) (f : Nat)
  | act (t n : Nat)
  | ret (t : Nat)
  | crash (keep : Loc → Bool)

/-- Some accesses of one thread.  No code of its own. -/
def accesses (t : Nat) : Nat → Cfg → Option Cfg
  | 0, c => some c
  | n + 1, c => match c.th t with
    | .run op (.act f k) => match f c.s with
      | .ok b s' => accesses t n ⟨s', setTh c.th t (.run op (k b))⟩
      | _ => none
    | _ => none

/-- One line of a schedule.  No code of its own. -/
def Do.go (E : HEnv) : Do → Cfg → Option (List Ev × Cfg)
  | .call t op f, c => match c.th t with
    | .idle => some ([.inv t op], ⟨c.s, setTh c.th t (.run op (op.prog E t f))⟩)
    | _ => none
  | .act t n, c => (accesses t n c).map fun c' => ([], c')
  | .ret t, c => match c.th t with
    | .run op (.ret a) => some ([.res t op a], ⟨c.s, setTh c.th t .idle⟩)
    | _ => none
  | .crash keep, c => match reopen (c.s.crash keep) with
    | .ok () s' => some ([.crash], ⟨s', fun _ => .idle⟩)
    | _ => none

/-- A schedule.  No code of its own. -/
def sched (E : HEnv) : List Do → Cfg → Option (List Ev × Cfg)
  | [], c => some ([], c)
  | x :: xs, c => match x.go E c with
    | none => none
    | some (es, c') => (sched E xs c').map fun r => (es ++ r.1, r.2)

theorem Runs.trans {E : HEnv} {c c1 c2 : Cfg} {es fs : List Ev} (h : Runs E c es c1) (g : Runs E c1 fs c2) : Runs E c (es ++ fs) c2 := by
  induction h with
  | nil => exact g
  | cons h1 _ ih =>
    rw [List.append_assoc]
    exact .cons h1 (ih g)

theorem accesses_runs {E : HEnv} {t : Nat} : ∀ {n : Nat} {c c' : Cfg}, accesses t n c = some c' → Runs E c [] c'
  | 0, c, c', h => by
    cases h
    exact .nil
  | n + 1, c, c', h => by
    unfold accesses at h
    split at h
    · rename_i op β f k e
      split at h
      · rename_i b s' e'
        exact .cons (es := []) (fs := []) (.act e e') (accesses_runs h)
      · cases h
    · cases h

theorem sched_runs {E : HEnv} : ∀ {xs : List Do} {c c' : Cfg} {es : List Ev}, sched E xs c = some (es, c') → Runs E c es c'
  | [], c, c', es, h => by
    cases h
    exact .nil
  | x :: xs, c, c', es, h => by
    unfold sched at h
    split at h
    · cases h
    · rename_i es1 c1 e
      rw [Option.map_eq_some_iff] at h
      obtain ⟨⟨es2, c2⟩, h1, h2⟩ := h
      cases h2
      refine Runs.trans ?_ (sched_runs h1)
      cases x with
      | call t op f =>
        unfold Do.go at e
        dsimp only at e
        split at e
        · rename_i e'
          cases e
          exact .cons (fs := []) (.call op f e') .nil
        · cases e
      | act t n =>
        unfold Do.go at e
        dsimp only at e
        rw [Option.map_eq_some_iff] at e
        obtain ⟨c3, h3, h4⟩ := e
        cases h4
        exact accesses_runs h3
      | ret t =>
        unfold Do.go at e
        dsimp only at e
        split at e
        · rename_i e'
          cases e
          exact .cons (fs := []) (.ret e') .nil
        · cases e
      | crash keep =>
        unfold Do.go at e
        dsimp only at e
        split at e
        · rename_i e'
          cases e
          exact .cons (fs := []) (.crash keep e') .nil
        · cases e

/-- An environment for examples: keys hash to themselves, nodes are at 1, 2, and so on.  No code of its own. -/
def E0 : HEnv := ⟨fun k => k.toNat, fun n => n + 1, 100000⟩

example : E0.pool < 2 ^ 31 := by decide

/-- Two threads insert key 5, and the second waits for the first; then the power fails while `get` moves the key to the bucket it belongs to
since the table has grown: the key is there, the mark of the bucket is lost.  No code of its own. -/
def demo : List Do :=
  [.call 0 (.insert 5#64) 1, .act 0 8, .call 1 (.insert 5#64) 1, .act 1 3, .act 0 15, .ret 0, .act 1 4, .ret 1, .call 0 (.get 5#64) 1, .act 0 12,
    .crash (fun _ => false), .call 0 (.get 5#64) 1, .act 0 15, .ret 0, .call 2 (.erase 5#64) 1, .act 2 11, .ret 2]

/-- What is seen of it.  No code of its own. -/
def demoEvents : List Ev :=
  [.inv 0 (.insert 5#64), .inv 1 (.insert 5#64), .res 0 (.insert 5#64) 1#64, .res 1 (.insert 5#64) 0#64, .inv 0 (.get 5#64), .crash,
    .inv 0 (.get 5#64), .res 0 (.get 5#64) 5#64, .inv 2 (.erase 5#64), .res 2 (.erase 5#64) 1#64]

theorem demo_events : (sched E0 demo .new).map (·.1) = some demoEvents := by decide +kernel

theorem demo_runs : ∃ c, Runs E0 .new demoEvents c := by
  have h := demo_events
  rw [Option.map_eq_some_iff] at h
  obtain ⟨⟨es, c⟩, h1, h2⟩ := h
  have h2' : es = demoEvents := h2
  subst h2'
  exact ⟨c, sched_runs h1⟩

/-! ### C66: several threads -/

/-- Whatever the threads do and whenever the power fails, what is seen of the calls is what an ordinary map shows whose calls take effect at
once, one after the other. -/
theorem c66_linearizable {E : HEnv} (hp : E.pool < 2 ^ 31) {es : List Ev} {c : Cfg} (h : Runs E .new es c) : DurablyLinearizable es := by
  obtain ⟨_, _, _, h⟩ := reach_ok hp h
  exact h

example : DurablyLinearizable demoEvents := by
  obtain ⟨c, h⟩ := demo_runs
  exact c66_linearizable (by decide) h

/-- Not every history is: two inserts of one key that both succeed are not. -/
theorem c66_not_vacuous : ¬ DurablyLinearizable [.inv 0 (.insert 5#64), .res 0 (.insert 5#64) 1#64, .inv 0 (.insert 5#64), .res 0 (.insert 5#64) 1#64] := by
  have h0 : ∀ {A : AM} {P : Nat → CSt} {es : List Ev}, DLin A P es → (∀ u, P u = .idle ∨ ∃ op a, P u = .done op a) → ∀ t op es', es = .inv t op :: es' →
      P t = .idle ∧ DLin A (setC P t (.called op)) es' := by
    intro A P es h
    cases h with
    | nil => intro _ _ _ _ e; cases e
    | inv h1 h2 => intro _ _ _ _ e; cases e; exact ⟨h1, h2⟩
    | effect h1 _ =>
      rename_i t op _
      intro hP
      rcases hP t with h | ⟨_, _, h⟩ <;> (rw [h1] at h; cases h)
    | res => intro _ _ _ _ e; cases e
    | crash => intro _ _ _ _ e; cases e
  have h1 : ∀ {A : AM} {P : Nat → CSt} {es : List Ev}, DLin A P es → ∀ t op a es', (∀ u, u ≠ t → P u = .idle) → P t = .called op →
      es = .res t op a :: es' → a = (spec op A).1 ∧ DLin (spec op A).2 (setC P t .idle) es' := by
    intro A P es h
    cases h with
    | nil => intro _ _ _ _ _ _ e; cases e
    | inv => intro _ _ _ _ _ _ e; cases e
    | crash => intro _ _ _ _ _ _ e; cases e
    | res h1 =>
      intro t op a es' _ h2 e
      cases e
      rw [h1] at h2
      cases h2
    | @effect _ _ _ u op' h1 h2 =>
      intro t op a es' hu ht e
      have hut : u = t := by
        by_contra hne
        rw [hu u hne] at h1
        cases h1
      subst hut
      rw [h1] at ht
      cases ht
      subst e
      cases h2 with
      | effect h3 _ =>
        rename_i v op'' _
        by_cases e : v = u
        · subst e
          simp [setC] at h3
        · simp [setC, e, hu v e] at h3
      | res h3 h4 =>
        simp only [setC, if_true, CSt.done.injEq] at h3
        refine ⟨h3.2.symm, ?_⟩
        have : setC (setC P u (.done op' (spec op' A).1)) u .idle = setC P u .idle := by
          funext w
          simp only [setC]
          split <;> rfl
        rw [this] at h4
        exact h4
  intro h
  obtain ⟨_, h⟩ := h0 h (fun _ => Or.inl rfl) _ _ _ rfl
  obtain ⟨_, h⟩ := h1 h 0 _ _ _ (fun u hu => by simp [setC, hu]) (by simp [setC]) rfl
  obtain ⟨_, h⟩ := h0 h (fun u => Or.inl (by simp only [setC]; split <;> rfl)) _ _ _ rfl
  obtain ⟨h, _⟩ := h1 h 0 _ _ _ (fun u hu => by simp [setC, hu]) (by simp [setC]) rfl
  simp [spec, AM.set] at h

/-- No access is ever undefined behaviour (a freed or missing node, a list read or written without its bucket's lock, an unlock of a lock
not held, a bucket outside its array), and no assertion fails. -/
theorem c66_safe {E : HEnv} (hp : E.pool < 2 ^ 31) {es : List Ev} {c : Cfg} (h : Runs E .new es c) {t : Nat} {op : Cmd} {β : Type}
    {f : HSt → Out β} {k : β → HP Ans} (ht : c.th t = .run op (.act f k)) : f c.s ≠ .ub ∧ f c.s ≠ .abort := by
  obtain ⟨A, P, ⟨m0, hi, hT⟩, _⟩ := reach_ok hp h
  have h0 := hT t
  rw [ht] at h0
  obtain ⟨st, _, h1⟩ := h0
  have h2 := h1 c.s A hi (.refl _ _) (fun h => h.elim)
  constructor
  · intro e
    rw [e] at h2
    exact h2
  · intro e
    rw [e] at h2
    exact h2

/-- There is always such an access when a call has begun. -/
example : ∃ c, Runs E0 .new [.inv 0 (.insert 5#64)] c ∧ ∃ f k, c.th 0 = .run (.insert 5#64) (.act (β := Nat) f k) :=
  ⟨_, .cons (fs := []) (.call (.insert 5#64) 1 rfl) .nil, _, _, rfl⟩

/-- A thread that waits for a lock waits, maybe through others that wait, for a thread in a call that does not wait: there is no deadlock. -/
theorem c66_no_deadlock {E : HEnv} (hp : E.pool < 2 ^ 31) {es : List Ev} {c : Cfg} (h : Runs E .new es c) {t : Nat} (hw : Waiting c t) :
    ∃ u op p, u ≠ t ∧ c.th u = .run op p ∧ ¬ Waiting c u ∧ ∀ a, p ≠ .ret a := by
  obtain ⟨A, P, hc, _⟩ := reach_ok hp h
  exact progress hc hw

/-- The second of two inserts has to wait while the first is at work: if the first thread stops, so does the second. -/
theorem c66_waits : ∃ c es, Runs E0 .new es c ∧ Waiting c 1 := by
  have h : (sched E0 [.call 0 (.insert 5#64) 1, .act 0 8, .call 1 (.insert 5#64) 1, .act 1 3] .new).map (fun r => match r.2.th 1 with
      | .run _ (.act f _) => (match f r.2.s with
        | .wait => true
        | _ => false)
      | _ => false) = some true := by decide +kernel
  rw [Option.map_eq_some_iff] at h
  obtain ⟨⟨es, c⟩, h1, h2⟩ := h
  refine ⟨c, es, sched_runs h1, ?_⟩
  dsimp only at h2
  split at h2
  · rename_i op β f k e
    refine ⟨op, β, f, k, e, ?_⟩
    split at h2
    · assumption
    · cases h2
  · cases h2

theorem exec_runs {E : HEnv} {t : Nat} {op : Cmd} {a : Ans} {s' : HSt} : ∀ (p : HP Ans) {s : HSt} {th : Nat → Th}, p.exec s = .ok a s' →
    Runs E ⟨s, setTh th t (.run op p)⟩ [.res t op a] ⟨s', setTh th t .idle⟩
  | .ret b, s, th, h => by
    cases h
    have hr : Runs E ⟨s', setTh th t (.run op (.ret a))⟩ ([.res t op a] ++ []) ⟨s', setTh (setTh th t (.run op (.ret a))) t .idle⟩ :=
      .cons (.ret (by simp [setTh])) .nil
    have e : setTh (setTh th t (.run op (.ret a))) t .idle = setTh th t .idle := by
      funext u
      simp only [setTh]
      split <;> rfl
    rw [e] at hr
    exact hr
  | .act f k, s, th, h => by
    unfold HP.exec at h
    cases e : f s with
    | ok b s1 =>
      rw [e] at h
      have hr := exec_runs (E := E) (t := t) (op := op) (k b) (th := setTh th t (.run op (.act f k))) h
      have e2 : setTh (setTh th t (.run op (.act f k))) t .idle = setTh th t .idle := by
        funext u
        simp only [setTh]
        split <;> rfl
      rw [e2] at hr
      exact .cons (es := []) (.act (by simp [setTh]) e) hr
    | wait => rw [e] at h; cases h
    | oom => rw [e] at h; cases h
    | ub => rw [e] at h; cases h
    | abort => rw [e] at h; cases h
  | .spin, s, th, h => by cases h

/-- A call made while no other runs comes to an end, by itself and without a retry, unless there is no memory. -/
theorem c66_alone {E : HEnv} (hp : E.pool < 2 ^ 31) {es : List Ev} {c : Cfg} (h : Runs E .new es c) (hid : ∀ t, c.th t = .idle) (t : Nat) (op : Cmd) :
    (op.prog E t 1).exec c.s = .oom ∨ ∃ a s', (op.prog E t 1).exec c.s = .ok a s' ∧ Runs E c [.inv t op, .res t op a] ⟨s', c.th⟩ := by
  obtain ⟨A, P, hc, _⟩ := reach_ok hp h
  rcases alone (t := t) (op := op) hp hc hid (f := 1) (by omega) with h | ⟨s', h, _⟩
  · exact Or.inl h
  · refine Or.inr ⟨_, s', h, ?_⟩
    have hr := Runs.cons (.call op 1 (hid t)) (exec_runs (E := E) (t := t) (op := op) _ (th := c.th) h)
    have e : setTh c.th t .idle = c.th := by
      funext u
      simp only [setTh]
      split
      · rename_i e; rw [e, hid]
      · rfl
    rw [e] at hr
    exact hr

example : ∃ s', ((Cmd.insert 5#64).prog E0 3 1).exec Cfg.new.s = .ok 1#64 s' ∧ s'.mask = 255 := by
  have h : (match ((Cmd.insert 5#64).prog E0 3 1).exec HSt.new with
    | .ok a s' => a == 1#64 && s'.mask == 255
    | _ => false) = true := by decide +kernel
  split at h
  · rename_i a s' e
    rw [Bool.and_eq_true, beq_iff_eq, beq_iff_eq] at h
    exact ⟨s', by rw [← h.1]; exact e, h.2⟩
  · cases h

/-- A pool that is too small: then the first insert, after which the table grows, ends with an exception. -/
theorem c66_out_of_memory : ∃ E : HEnv, E.pool < 2 ^ 31 ∧ (match ((Cmd.insert 5#64).prog E 0 1).exec HSt.new with
    | .oom => true
    | _ => false) = true := ⟨{ E0 with pool := 253 }, by decide, by decide +kernel⟩

/-- Calls made one after the other.  No code of its own. -/
def calls (E : HEnv) : List (Nat × Cmd) → HSt → Out (List Ans)
  | [], s => .ok [] s
  | (t, op) :: ops, s => match (op.prog E t 1).exec s with
    | .ok a s' => match calls E ops s' with
      | .ok as s2 => .ok (a :: as) s2
      | r => r
    | .wait => .wait
    | .oom => .oom
    | .ub => .ub
    | .abort => .abort

/-- The answers of an ordinary map to calls made one after the other. -/
def answers : List (Nat × Cmd) → AM → List Ans
  | [], _ => []
  | (_, op) :: ops, A => (spec op A).1 :: answers ops (spec op A).2

/-- Calls made one after the other, by whichever threads, answer as an ordinary map does, unless there is no memory. -/
theorem c66_map {E : HEnv} (hp : E.pool < 2 ^ 31) (ops : List (Nat × Cmd)) :
    calls E ops HSt.new = .oom ∨ ∃ s', calls E ops HSt.new = .ok (answers ops fun _ => none) s' := by
  have key : ∀ (ops : List (Nat × Cmd)) {s : HSt} {A : AM}, CInv E ⟨s, fun _ => .idle⟩ A (fun _ => .idle) →
      calls E ops s = .oom ∨ ∃ s', calls E ops s = .ok (answers ops A) s' := by
    intro ops
    induction ops with
    | nil => exact fun {s A} _ => Or.inr ⟨s, rfl⟩
    | cons x ops ih =>
      obtain ⟨t, op⟩ := x
      intro s A hc
      unfold calls
      rcases alone (t := t) (op := op) hp hc (fun _ => rfl) (f := 1) (by omega) with h | ⟨s', h, h'⟩
      · left
        rw [show (op.prog E t 1).exec s = .oom from h]
      · rw [show (op.prog E t 1).exec s = .ok _ s' from h]
        rcases ih h' with g | ⟨s2, g⟩
        · left
          dsimp only
          rw [g]
        · right
          exact ⟨s2, by dsimp only; rw [g]; rfl⟩
  exact key ops (new_CInv E)

example : (match calls E0 [(0, .insert 0#64), (1, .insert 256#64), (0, .contains 256#64), (2, .insert 256#64), (0, .erase 0#64), (0, .get 256#64),
    (0, .get 0#64), (0, .increment 0#64), (0, .increment 0#64)] HSt.new with
    | .ok as _ => as
    | _ => []) = [1#64, 1#64, 1#64, 0#64, 1#64, 256#64, 0#64, 1#64, 0#64] := by decide +kernel

/-- When no call is running, `size()`, which is what `count()` returns (pmemMap.hpp:60-63), is the number of nodes, and no two nodes have the
same key. -/
theorem c66_count {E : HEnv} (hp : E.pool < 2 ^ 31) {es : List Ev} {c : Cfg} (h : Runs E .new es c) (hid : ∀ t, c.th t = .idle) :
    ∃ V : List Nat, V.Nodup ∧ (∀ n, n ∈ V ↔ c.s.heap n ≠ none) ∧ c.s.size = V.length ∧
      ∀ n n' x x', c.s.heap n = some x → c.s.heap n' = some x' → x.key = x'.key → n = n' := by
  have hz := size_eq (runs_SInv h new_SInv) hid
  obtain ⟨A, P, ⟨m0, ⟨⟨kk, L, V, hc⟩, _⟩, _⟩, _⟩ := reach_ok hp h
  refine ⟨V, hc.vdup, fun n => by rw [hc.live, Option.isSome_iff_ne_none], hz.trans hc.cnt, fun n n' x x' hx hx' e => ?_⟩
  have hm : ∀ n x, c.s.heap n = some x → ∃ d, n ∈ L d := fun n x hx => hc.all n ((hc.live n).2 (by rw [hx]; rfl))
  obtain ⟨d, hd⟩ := hm n x hx
  obtain ⟨d', hd'⟩ := hm n' x' hx'
  exact (hc.home hd hd' hx hx' e).2

/-- `contains`, called alone, says whether there is a node with the key. -/
theorem c66_contains {E : HEnv} (hp : E.pool < 2 ^ 31) {es : List Ev} {c : Cfg} (h : Runs E .new es c) (hid : ∀ t, c.th t = .idle) (t : Nat) (k : Word)
    {a : Ans} {s' : HSt} (he : ((Cmd.contains k).prog E t 1).exec c.s = .ok a s') :
    (a = 1#64 ↔ ∃ n x, c.s.heap n = some x ∧ x.key = k) ∧ (a = 0#64 ↔ ¬ ∃ n x, c.s.heap n = some x ∧ x.key = k) := by
  obtain ⟨A, P, hc, _⟩ := reach_ok hp h
  have ha : a = (spec (.contains k) A).1 := by
    rcases alone (t := t) (op := .contains k) hp hc hid (f := 1) (by omega) with h | ⟨s2, h, _⟩
    · rw [h] at he; cases he
    · rw [h] at he; cases he; rfl
  obtain ⟨m0, ⟨⟨kk, L, V, hc⟩, _⟩, _⟩ := hc
  have hA : A k ≠ none ↔ ∃ n x, c.s.heap n = some x ∧ x.key = k := by
    rw [Option.ne_none_iff_exists']
    constructor
    · rintro ⟨v, hv⟩
      obtain ⟨d, n, x, _, h2, h3, _⟩ := (hc.abs k v).1 hv
      exact ⟨n, x, h2, h3⟩
    · rintro ⟨n, x, hx, rfl⟩
      obtain ⟨d, hd⟩ := hc.all n ((hc.live n).2 (by rw [hx]; rfl))
      exact ⟨x.val, hc.present hd hx⟩
  rw [← hA, ha]
  unfold spec
  dsimp only
  split <;> simp_all

/-! ### C67: power failures -/

/-- At every moment, whatever has reached the memory of the marks that were not made durable, the pool can be opened again after a power
failure: no assertion fails and nothing undefined happens. -/
theorem c67_reopen {E : HEnv} (hp : E.pool < 2 ^ 31) {es : List Ev} {c : Cfg} (h : Runs E .new es c) (keep : Loc → Bool) :
    ∃ s', reopen (c.s.crash keep) = .ok () s' := by
  obtain ⟨A, P, ⟨m0, hi, _⟩, _⟩ := reach_ok hp h
  obtain ⟨s', h, _⟩ := reopen_ok keep hi
  exact ⟨s', h⟩

/-- A power failure between calls changes no answer. -/
theorem c67_same_answers {E : HEnv} (hp : E.pool < 2 ^ 31) {es : List Ev} {c : Cfg} (h : Runs E .new es c) (hid : ∀ t, c.th t = .idle)
    (keep : Loc → Bool) {s' : HSt} (hre : reopen (c.s.crash keep) = .ok () s') (t u : Nat) (op : Cmd) {a b : Ans} {s1 s2 : HSt}
    (h1 : (op.prog E t 1).exec c.s = .ok a s1) (h2 : (op.prog E u 1).exec s' = .ok b s2) : a = b := by
  obtain ⟨A, P, hc, _⟩ := reach_ok hp h
  have ha : a = (spec op A).1 := by
    rcases alone (t := t) (op := op) hp hc hid (f := 1) (by omega) with h | ⟨s2, h, _⟩
    · rw [h] at h1; cases h1
    · rw [h] at h1; cases h1; rfl
  obtain ⟨m0, hi, _⟩ := hc
  obtain ⟨s3, e, hi3, ho3⟩ := reopen_ok keep hi
  have e3 : s3 = s' := by
    rw [e] at hre
    cases hre
    rfl
  rw [e3] at hi3 ho3
  have hb : b = (spec op A).1 := by
    rcases alone (c := ⟨s', fun _ => .idle⟩) (P := fun _ => .idle) (t := u) (op := op) hp ⟨_, hi3, fun t => ⟨ho3 t, rfl⟩⟩ (fun _ => rfl) (f := 1)
      (by omega) with h | ⟨s2, h, _⟩
    · rw [show (op.prog E u 1).exec s' = .oom from h] at h2; cases h2
    · rw [show (op.prog E u 1).exec s' = .ok _ s2 from h] at h2; cases h2; rfl
  rw [ha, hb]

/-- What a call has done that has ended is there after a power failure: after an insert the key is there, after an erase it is not. -/
theorem c67_survives {E : HEnv} (hp : E.pool < 2 ^ 31) {es : List Ev} {c : Cfg} (h : Runs E .new es c) (hid : ∀ t, c.th t = .idle) (t : Nat) (k : Word)
    (ins : Bool) {a : Ans} {s1 : HSt} (h1 : ((if ins then Cmd.insert k else Cmd.erase k).prog E t 1).exec c.s = .ok a s1) (keep : Loc → Bool) :
    ∃ s2, reopen (s1.crash keep) = .ok () s2 ∧ ∀ u b s3, ((Cmd.contains k).prog E u 1).exec s2 = .ok b s3 → b = ofBool ins := by
  obtain ⟨A, P, hc, _⟩ := reach_ok hp h
  rcases alone (t := t) (op := if ins then Cmd.insert k else Cmd.erase k) hp hc hid (f := 1) (by omega) with h | ⟨s', h, hc'⟩
  · rw [h] at h1; cases h1
  rw [h] at h1
  cases h1
  obtain ⟨m0, hi, _⟩ := hc'
  obtain ⟨s3, e, hi3, ho3⟩ := reopen_ok keep hi
  refine ⟨s3, e, fun u b s4 h4 => ?_⟩
  rcases alone (c := ⟨s3, fun _ => .idle⟩) (P := fun _ => .idle) (t := u) (op := .contains k) hp ⟨_, hi3, fun t => ⟨ho3 t, rfl⟩⟩ (fun _ => rfl) (f := 1)
    (by omega) with h | ⟨s2, h, _⟩
  · rw [show ((Cmd.contains k).prog E u 1).exec s3 = .oom from h] at h4; cases h4
  · rw [show ((Cmd.contains k).prog E u 1).exec s3 = .ok _ s2 from h] at h4
    cases h4
    cases ins
    · simp only [Bool.false_eq_true, if_false, spec, ofBool]
      by_cases e : A k = none
      · simp [e]
      · simp [e, AM.set]
    · simp only [if_true, spec, ofBool]
      by_cases e : A k = none
      · simp [e, AM.set]
      · simp [e]

/-- A case for the three: an insert, a failure, and then the key is there. -/
example : (match ((Cmd.insert 5#64).prog E0 0 1).exec HSt.new with
    | .ok _ s => (match reopen (s.crash fun _ => false) with
      | .ok () s' => (match ((Cmd.contains 5#64).prog E0 0 1).exec s' with
        | .ok a _ => a == 1#64
        | _ => false)
      | _ => false)
    | _ => false) = true := by decide +kernel

/-- Nothing is leaked: at every moment, and so after every power failure, each node is in the list of a bucket that `get_bucket` finds. -/
theorem c67_no_leak {E : HEnv} (hp : E.pool < 2 ^ 31) {es : List Ev} {c : Cfg} (h : Runs E .new es c) {n : Nat} (hn : c.s.heap n ≠ none) :
    ∃ b ≤ c.s.mask, ∃ a, locate c.s b = .ok a c.s ∧ ∃ l, Chain c.s.heap (c.s.list a) l ∧ n ∈ l := by
  obtain ⟨A, P, ⟨m0, hi, _⟩, _⟩ := reach_ok hp h
  obtain ⟨⟨kk, L, V, hc⟩, _⟩ := id hi
  obtain ⟨d, hd⟩ := hc.all n ((hc.live n).2 (Option.isSome_iff_ne_none.2 hn))
  have hm := hc.below d (hc.eff_mem hd)
  exact ⟨d, hm, loc d, hi.locate hm, L d, hc.chain d, hd⟩

/-- A node in the middle of the demonstration, after the failure. -/
example : ∃ c es, Runs E0 .new es c ∧ c.s.heap 1 ≠ none := by
  have h : (sched E0 (demo.take 11) .new).map (fun r => (r.2.s.heap 1).isSome) = some true := by decide +kernel
  rw [Option.map_eq_some_iff] at h
  obtain ⟨⟨es, c⟩, h1, h2⟩ := h
  exact ⟨c, es, sched_runs h1, Option.isSome_iff_ne_none.1 h2⟩

end PMap.Pmem
