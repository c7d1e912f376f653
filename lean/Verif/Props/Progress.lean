import Verif.Live.FreeSys
import Verif.Props.Lockfree
import Verif.Props.Conc
import Verif.Own.Contents
import Mathlib.Algebra.Order.BigOperators.Group.Finset

/-!
# C55 while the table does not grow: lock-free, and wait-free for readers

Any threads, any valid calls on any keys (shared or not, present or not), any interleaving.
-/

namespace PMap

open Prog

variable {hash : Word → Word} {n len cap : Nat}

theorem calm_fresh (len cap : Nat) : CalmMem 0 len (freshMem len cap) :=
  ⟨rfl, Nat.one_pos, rfl, rfl, fun i _ => by
    change isMig (freshWords (fun _ => 0#64) 0 (.val 0 i)) = false
    simp only [freshWords, if_true]; decide⟩

theorem never_stuck (hs : Sized len cap) (calls : Nat → List Op) (hv : ∀ t, ∀ op ∈ calls t, op.Valid) {xs : List Sched}
    (hn : xs.length ≤ n) {t : Nat} (hthrow : ∀ op todo, ((Sys.init len cap calls).exec hash n xs).thr t ≠ .busy op (.halt .threw) todo)
    (op : Op) (y : Halt) (todo : List Op) : ((Sys.init len cap calls).exec hash n xs).thr t ≠ .busy op (.halt y) todo := by
  intro e
  cases y with
  | threw => exact hthrow op todo e
  | fuel => exact c13_fuel_lasts (Sys.init len cap calls) (fun t => ⟨calls t, rfl⟩) xs hn t op todo e
  | ub =>
    have := c16_no_ub (hash := hash) (n := n) hs calls hv (xs ++ [.run t])
    rw [exec_append] at this
    simp only [Sys.exec, Sys.step, e] at this
    cases this

theorem no_growth_before (calls : Nat → List Op) (xs ys : List Sched)
    (hgrow : (((Sys.init len cap calls).exec hash n (xs ++ ys)).mem.tab 0).newT = none) :
    (((Sys.init len cap calls).exec hash n xs).mem.tab 0).newT = none := by
  rw [exec_append] at hgrow
  by_contra h
  refine grown_exec (hash := hash) (n := n) ys ?_ h hgrow
  have hnext : ∀ (zs : List Sched) (s : Sys), 0 < s.mem.next → 0 < (s.exec hash n zs).mem.next := by
    intro zs
    induction zs with
    | nil => intro s h; exact h
    | cons z zs ih =>
      intro s h
      refine ih _ ?_
      cases z with
      | evict a i => exact h
      | run t =>
        simp only [Sys.step]
        split <;> try exact h
        split
        · exact h
        · next he => exact lt_of_lt_of_le h (next_mono he)
  exact hnext xs _ Nat.one_pos

/-- **C55, partial: lock-freedom while the table does not grow.** Take any execution `xs`, and any continuation `ys` of it in which
only threads numbered below `T` run, none of which had finished all its calls before.  If `ys` contains more than
`T * (T + 1) * (15 * (10 + len / 4) + 61)` steps of threads, then at least one call returns during `ys`, whichever threads are
scheduled, and in whatever state the others were stopped.  Provided that by then the table has no successor (`hgrow`), and no
exception has been thrown (the only one is a failure to create a file for a larger table).
Missing for the full claim: growth (refuted by `c55_not_lock_free`). -/
theorem c55_no_growth_partial (hs : Sized len cap) (calls : Nat → List Op) (hv : ∀ t, ∀ op ∈ calls t, op.Valid) (T : Nat)
    (xs ys : List Sched) (hn : (xs ++ ys).length ≤ n)
    (hgrow : (((Sys.init len cap calls).exec hash n (xs ++ ys)).mem.tab 0).newT = none)
    (hthrow : ∀ t op todo, ((Sys.init len cap calls).exec hash n (xs ++ ys)).thr t ≠ .busy op (.halt .threw) todo)
    (hwork : ∀ t, .run t ∈ ys → t < T ∧ ((Sys.init len cap calls).exec hash n xs).thr t ≠ .idle [])
    (hlong : T * (T + 1) * (15 * (10 + len / 4) + 61) < ys.countP fun x => match x with | .run _ => true | .evict _ _ => false) :
    ∃ ev t op w, ((Sys.init len cap calls).exec hash n (xs ++ ys)).hist = ((Sys.init len cap calls).exec hash n xs).hist ++ ev ∧
      .res t op w ∈ ev := by
  have hstuck := fun t => never_stuck (hash := hash) hs calls hv hn (hthrow t)
  have hub := c16_no_ub (hash := hash) (n := n) hs calls hv (xs ++ ys)
  have hgrow1 := no_growth_before calls xs ys hgrow
  rw [exec_append] at hgrow hub ⊢
  simp only [exec_append] at hstuck
  obtain ⟨b, N, g, hok⟩ := free_exec (hash := hash) (n := n) xs (free_start (calm_fresh len cap) hv) hgrow1
  by_contra hno
  have := free_progress (T := T) ys hok hwork hgrow hub hstuck (fun ev he t op w hw => hno ⟨ev, t, op, w, he, hw⟩)
  have h2 := rest_le (T := T) hok
  have h3 : freeBound len + 1 = 15 * (10 + len / 4) + 61 := rfl
  rw [h3] at h2
  have h4 : ys.countP Sched.ofThread = ys.countP fun x => match x with | .run _ => true | .evict _ _ => false := by
    congr 1
  rw [h4] at this
  omega

/-- **C55, partial: readers are wait-free while the table does not grow.** A thread that only makes calls of `get`, `containsKey`,
`size` and `isEmpty` has returned from `k` of them, or from all, after `k * (15 * (10 + len / 4) + 62)` of its own steps, whatever
the other threads do (they may write the same keys all the time), as long as the table has no successor.
Missing for the full claim: growth (refuted by `c55_not_lock_free`). -/
theorem c55_readers_partial (hs : Sized len cap) (calls : Nat → List Op) (hv : ∀ t, ∀ op ∈ calls t, op.Valid)
    (xs : List Sched) (hn : xs.length ≤ n) (hgrow : (((Sys.init len cap calls).exec hash n xs).mem.tab 0).newT = none) (t : Nat)
    (hread : ∀ op ∈ calls t, (∃ k, op = .get k) ∨ (∃ k, op = .containsKey k) ∨ op = .size ∨ op = .isEmpty)
    (k : Nat) (hk : k ≤ (calls t).length) (hx : k * (15 * (10 + len / 4) + 62) ≤ xs.count (.run t)) :
    k ≤ ((Sys.init len cap calls).exec hash n xs).hist.countP
        (fun e => match e with | .res t' _ _ => t' == t | .inv _ _ => false) ∧
      (k = (calls t).length → ((Sys.init len cap calls).exec hash n xs).thr t = .idle []) := by
  obtain ⟨N', h⟩ := reader_exec (t := t) (m := (calls t).length) (c := 0) (hash := hash) (n := n) xs
    (free_start (calm_fresh len cap) hv) (s := Sys.init len cap calls)
    (by
      intro op ho
      rcases hread op ho with ⟨k, rfl⟩ | ⟨k, rfl⟩ | rfl | rfl <;> rfl)
    ⟨by simp [returned, Sys.init], fun _ => Nat.zero_le _⟩ hgrow (c16_no_ub hs calls hv xs)
    (c13_fuel_lasts (Sys.init len cap calls) (fun t => ⟨calls t, rfl⟩) xs hn t)
  rw [Nat.zero_add] at h
  exact h.done hk hx

/-! ## All calls end -/

theorem idle_exec {t : Nat} (xs : List Sched) : ∀ {s : Sys}, s.thr t = .idle [] → (s.exec hash n xs).thr t = .idle [] := by
  induction xs with
  | nil => intro s h; exact h
  | cons x xs ih =>
    intro s h
    refine ih ?_
    cases x with
    | evict a i => exact h
    | run u =>
      by_cases e : u = t
      · subst e; simp only [Sys.step, h]
      · rw [step_other (fun e' => e e'.symm)]; exact h

/-- Only threads that run return. -/
theorem res_ran (ys : List Sched) : ∀ {s : Sys} {ev : List Event}, (s.exec hash n ys).hist = s.hist ++ ev →
    ∀ {t op w}, .res t op w ∈ ev → .run t ∈ ys := by
  intro s ev he t op w hw
  by_contra hno
  have h1 := Harness.returned_exec (hash := hash) (n := n) ys s t
  rw [exec_other ys s hno, he, Harness.returnedOf_append] at h1
  have h2 : returnedOf t ev = [] := by
    have := congrArg List.length h1
    simp only [List.length_append] at this
    exact List.length_eq_zero_iff.mp (by omega)
  have h3 : op ∈ returnedOf t ev := List.mem_filterMap.mpr ⟨_, hw, by simp⟩
  rw [h2] at h3
  cases h3

theorem split_count {p : Sched → Bool} : ∀ (xs : List Sched) (m : Nat), m ≤ xs.countP p → ∃ a b, xs = a ++ b ∧ a.countP p = m := by
  intro xs
  induction xs with
  | nil => intro m h; exact ⟨[], [], rfl, by simp at h; simp [h]⟩
  | cons x xs ih =>
    intro m h
    cases m with
    | zero => exact ⟨[], x :: xs, rfl, rfl⟩
    | succ m =>
      by_cases hx : p x = true
      · rw [List.countP_cons_of_pos hx] at h
        obtain ⟨a, b, rfl, hc⟩ := ih m (by omega)
        exact ⟨x :: a, b, rfl, by rw [List.countP_cons_of_pos hx, hc]⟩
      · rw [List.countP_cons_of_neg hx] at h
        obtain ⟨a, b, rfl, hc⟩ := ih (m + 1) h
        exact ⟨x :: a, b, rfl, by rw [List.countP_cons_of_neg hx, hc]⟩

/-- **C13, partial, with several threads: while the table does not grow all calls end.** Threads numbered below `T` make any valid
calls.  In any interleaving in which no finished thread is scheduled (`hwork`), and in which the table has no successor at the end and
no exception was thrown, the threads make fewer than `(k + 1) * (T * (T + 1) * (15 * (10 + len / 4) + 61) + 1)` steps in all, where
`k` is the number of their calls.  So all calls have returned by then, whatever the scheduler does, as long as it schedules threads
that have something to do.  Missing: growth, during which the calls of all other threads may wait for one (`c55_not_lock_free`). -/
theorem c13_interleaved_partial (hs : Sized len cap) (calls : Nat → List Op) (hv : ∀ t, ∀ op ∈ calls t, op.Valid) (T : Nat)
    (xs : List Sched) (hn : xs.length ≤ n) (hgrow : (((Sys.init len cap calls).exec hash n xs).mem.tab 0).newT = none)
    (hthrow : ∀ t op todo, ((Sys.init len cap calls).exec hash n xs).thr t ≠ .busy op (.halt .threw) todo)
    (hwork : ∀ xs1 t xs2, xs = xs1 ++ .run t :: xs2 → t < T ∧ ((Sys.init len cap calls).exec hash n xs1).thr t ≠ .idle []) :
    (xs.countP fun x => match x with | .run _ => true | .evict _ _ => false) <
      ((∑ t ∈ Finset.range T, (calls t).length) + 1) * (T * (T + 1) * (15 * (10 + len / 4) + 61) + 1) := by
  set p : Sched → Bool := fun x => match x with | .run _ => true | .evict _ _ => false with hp
  set C := T * (T + 1) * (15 * (10 + len / 4) + 61) with hC
  -- after `k` portions at least `k` calls have returned
  have key : ∀ k, k * (C + 1) ≤ xs.countP p → ∃ a b, xs = a ++ b ∧ a.countP p = k * (C + 1) ∧
      k ≤ ∑ t ∈ Finset.range T, (returnedOf t ((Sys.init len cap calls).exec hash n a).hist).length := by
    intro k
    induction k with
    | zero => intro _; exact ⟨[], xs, rfl, by simp, Nat.zero_le _⟩
    | succ k ih =>
      intro hk
      rw [Nat.succ_mul] at hk
      obtain ⟨a, b, rfl, ha, hr⟩ := ih (by omega)
      rw [List.countP_append, ha] at hk
      obtain ⟨c, d, rfl, hc⟩ := split_count (p := p) b (C + 1) (by omega)
      refine ⟨a ++ c, d, by rw [List.append_assoc], by rw [List.countP_append, ha, hc, Nat.succ_mul], ?_⟩
      rw [← List.append_assoc] at hgrow hn hthrow
      obtain ⟨ev, t, op, w, h1, h2⟩ := c55_no_growth_partial (hash := hash) (n := n) hs calls hv T a c
        (by rw [List.length_append] at hn; omega) (no_growth_before calls _ _ hgrow)
        (fun t op todo e => hthrow t op todo (by rw [exec_append]; exact halt_exec d e))
        (fun t ht => by
          obtain ⟨c1, c2, rfl⟩ := List.append_of_mem ht
          obtain ⟨h1, h2⟩ := hwork (a ++ c1) t (c2 ++ d) (by simp)
          exact ⟨h1, fun e => h2 (by rw [exec_append]; exact idle_exec c1 e)⟩)
        (by rw [← hp, hc]; omega)
      have ht : t < T := by
        have hx := h1
        rw [exec_append] at hx
        obtain ⟨c1, c2, rfl⟩ := List.append_of_mem (res_ran c hx h2)
        exact (hwork (a ++ c1) t (c2 ++ d) (by simp)).1
      refine Nat.lt_of_le_of_lt hr (Finset.sum_lt_sum (fun u _ => ?_) ⟨t, Finset.mem_range.mpr ht, ?_⟩)
      · rw [h1, Harness.returnedOf_append, List.length_append]; omega
      · rw [h1, Harness.returnedOf_append, List.length_append]
        have h3 : op ∈ returnedOf t ev := List.mem_filterMap.mpr ⟨_, h2, by simp⟩
        have := List.length_pos_of_mem h3
        omega
  by_contra hlt
  obtain ⟨a, b, rfl, -, h⟩ := key _ (Nat.le_of_not_lt hlt)
  have : ∑ t ∈ Finset.range T, (returnedOf t ((Sys.init len cap calls).exec hash n a).hist).length ≤
      ∑ t ∈ Finset.range T, (calls t).length := by
    refine Finset.sum_le_sum fun t _ => ?_
    have := congrArg List.length (Harness.returned_exec (hash := hash) (n := n) a (Sys.init len cap calls) t)
    simp only [List.length_append, Sys.init, Harness.pendingOps, returnedOf, List.filterMap_nil, List.length_nil] at this ⊢
    omega
  omega

/-! ## A case that meets the hypotheses -/

/-- Thread 0 begins a put and is stopped in its middle; then thread 1 runs alone. -/
def pauseRun (a b : Nat) (l0 l1 : List Op) (n : Nat) : Option (Thread × Thread × FM) :=
  (fsteps (fun w => w >>> 3) n 0 a (.idle l0, FM.fresh 8 64, [])).bind fun x =>
    (fsteps (fun w => w >>> 3) n 1 b (.idle l1, x.2.1, [])).map fun y => (x.1, y.1, y.2.1)

/-- What is checked of it. -/
def pauseCheck (x : Thread × Thread × FM) : Bool :=
  (match x.1 with | .busy _ (.act (.cas _ _ _) _) _ => true | _ => false) &&
  (match x.2.1 with | .busy _ (.halt _) _ => false | .idle [] => false | _ => true) && (x.2.2.tab 0).newT == none && decide (0 < x.2.2.next)

theorem pause_state {a b n : Nat} {l0 l1 : List Op} (h : (pauseRun a b l0 l1 n).map pauseCheck = some true) {calls : Nat → List Op}
    (h0 : calls 0 = l0) (h1 : calls 1 = l1) {s1 s : Sys}
    (hs1 : s1 = (Sys.init 8 64 calls).exec (fun w => w >>> 3) n (List.replicate a (.run 0)))
    (hs : s = (Sys.init 8 64 calls).exec (fun w => w >>> 3) n (List.replicate a (.run 0) ++ List.replicate b (.run 1))) :
    s1.thr 1 = .idle l1 ∧ (∃ op ad e v f todo, s.thr 0 = .busy op (.act (.cas ad e v) f) todo) ∧ (s.mem.tab 0).newT = none ∧
      (∀ t op y todo, s.thr t ≠ .busy op (.halt y) todo) ∧ s.thr 1 ≠ .idle [] := by
  cases hx : fsteps (fun w => w >>> 3) n 0 a (.idle l0, FM.fresh 8 64, []) with
  | none => rw [pauseRun, hx] at h; cases h
  | some x =>
    obtain ⟨th0, m0, es0⟩ := x
    rw [pauseRun, hx, Option.bind_some] at h
    cases hy : fsteps (fun w => w >>> 3) n 1 b (.idle l1, m0, []) with
    | none => rw [hy] at h; cases h
    | some y =>
      obtain ⟨th1, m1, es1⟩ := y
      rw [hy, Option.map_some, Option.map_some, Option.some.injEq, pauseCheck] at h
      simp only [Bool.and_eq_true, decide_eq_true_eq, beq_iff_eq] at h
      obtain ⟨⟨⟨c0, c1⟩, c2⟩, c3⟩ := h
      obtain ⟨ev, e1, e2, e3, e4, e5⟩ := fsteps_sound (t := 0) a (s := Sys.init 8 64 calls) (FM.fresh_rel 8 64)
        (by simp only [Sys.init, h0]) hx
      rw [← hs1] at e2 e3 e4 e5
      have ht1 : s1.thr 1 = .idle l1 := by rw [e3]; simp [upd, Sys.init, h1]
      obtain ⟨ev', f1, f2, f3, f4, f5⟩ := fsteps_sound (t := 1) b (s := s1) e2 ht1 hy
      rw [hs1, ← exec_append, ← hs, ← hs1] at f3
      rw [hs1, ← exec_append, ← hs] at f2
      refine ⟨ht1, ?_, by rw [← f2.tab 0 (by rw [← f2.next]; exact c3), c2], ?_, ?_⟩
      · rw [f3, e3]
        simp only [upd, Nat.zero_ne_one, if_false, if_true]
        cases th0 with
        | idle l => cases c0
        | busy op p l =>
          cases p with
          | ret a => cases c0
          | halt y => cases c0
          | act a f => cases a <;> first | exact ⟨_, _, _, _, _, _, rfl⟩ | cases c0
      · intro t op y todo e
        rw [f3, e3] at e
        simp only [upd, Sys.init] at e
        split at e
        · rw [e] at c1; cases c1
        · split at e
          · rw [e] at c0; cases c0
          · cases e
      · intro e
        rw [f3] at e
        simp only [upd, if_true] at e
        rw [e] at c1; cases c1

/-- Thread 0 is stopped when it is about to install its value; thread 1 makes 120 puts to the same key, for 1447 steps. -/
def pauseCalls : Nat → List Op
  | 0 => [.put 8#64 16#64]
  | 1 => List.replicate 120 (.put 8#64 24#64)
  | _ => []

theorem pause_ok : (pauseRun 17 1447 (pauseCalls 0) (pauseCalls 1) 1464).map pauseCheck = some true := by decide +kernel

/-- The hypotheses of `c55_no_growth_partial` are met (and a call returned). -/
example : ∃ (xs ys : List Sched) (s : Sys), s = (Sys.init 8 64 pauseCalls).exec (fun w => w >>> 3) 1464 (xs ++ ys) ∧
    (xs ++ ys).length ≤ 1464 ∧ (s.mem.tab 0).newT = none ∧ (∀ t op todo, s.thr t ≠ .busy op (.halt .threw) todo) ∧
    (∀ t, .run t ∈ ys → t < 2 ∧ ((Sys.init 8 64 pauseCalls).exec (fun w => w >>> 3) 1464 xs).thr t ≠ .idle []) ∧
    2 * (2 + 1) * (15 * (10 + 8 / 4) + 61) < (ys.countP fun x => match x with | .run _ => true | .evict _ _ => false) ∧
    (∃ op ad e v f todo, s.thr 0 = .busy op (.act (.cas ad e v) f) todo) ∧ ∃ t op w, .res t op w ∈ s.hist := by
  obtain ⟨h1, h2, h3, h4, -⟩ := pause_state pause_ok (calls := pauseCalls) rfl rfl rfl rfl
  have hlen : (List.replicate 17 (Sched.run 0) ++ List.replicate 1447 (Sched.run 1)).length ≤ 1464 := by
    rw [List.length_append, List.length_replicate, List.length_replicate]
  have hw : ∀ t, .run t ∈ List.replicate 1447 (Sched.run 1) →
      t < 2 ∧ ((Sys.init 8 64 pauseCalls).exec (fun w => w >>> 3) 1464 (List.replicate 17 (.run 0))).thr t ≠ .idle [] := by
    intro t ht
    obtain rfl : t = 1 := by simpa using (List.mem_replicate.mp ht).2
    refine ⟨by decide, ?_⟩
    rw [h1]; intro h; injection h with h; cases h
  have hc : 2 * (2 + 1) * (15 * (10 + 8 / 4) + 61) <
      ((List.replicate 1447 (Sched.run 1)).countP fun x => match x with | .run _ => true | .evict _ _ => false) := by
    rw [List.countP_replicate]; decide
  refine ⟨_, _, _, rfl, hlen, h3, fun t op todo => h4 t op .threw todo, hw, hc, h2, ?_⟩
  obtain ⟨ev, t, op, w, e1, e2⟩ := c55_no_growth_partial (hash := fun w => w >>> 3) (n := 1464) (len := 8) (cap := 64) ⟨by decide, by decide⟩
    pauseCalls (by
      intro t
      match t with
      | 0 => decide
      | 1 => intro op ho; obtain rfl := (List.mem_replicate.mp ho).2; decide
      | t + 2 => intro op ho; cases ho) 2 _ _ hlen h3 (fun t op todo => h4 t op .threw todo) hw hc
  exact ⟨t, op, w, by rw [e1]; exact List.mem_append_right _ e2⟩

/-- Thread 0 is stopped likewise; thread 1 reads that key and another. -/
def pauseReads : Nat → List Op
  | 0 => [.put 8#64 16#64]
  | 1 => .get 8#64 :: .containsKey 16#64 :: List.replicate 100 (.get 8#64)
  | _ => []

theorem pause_reads_ok : (pauseRun 17 484 (pauseReads 0) (pauseReads 1) 501).map pauseCheck = some true := by decide +kernel

/-- The hypotheses of `c55_readers_partial` are met: two reads have returned although the writer is stopped. -/
example : ∃ (xs : List Sched) (s : Sys), s = (Sys.init 8 64 pauseReads).exec (fun w => w >>> 3) 501 xs ∧
    xs.length ≤ 501 ∧ (s.mem.tab 0).newT = none ∧ 2 * (15 * (10 + 8 / 4) + 62) ≤ xs.count (.run 1) ∧
    (∃ op ad e v f todo, s.thr 0 = .busy op (.act (.cas ad e v) f) todo) ∧
    2 ≤ s.hist.countP (fun e => match e with | .res t' _ _ => t' == 1 | .inv _ _ => false) := by
  obtain ⟨h1, h2, h3, h4, -⟩ := pause_state pause_reads_ok (calls := pauseReads) rfl rfl rfl rfl
  have hlen : (List.replicate 17 (Sched.run 0) ++ List.replicate 484 (Sched.run 1)).length ≤ 501 := by
    rw [List.length_append, List.length_replicate, List.length_replicate]
  have hc : 2 * (15 * (10 + 8 / 4) + 62) ≤ (List.replicate 17 (Sched.run 0) ++ List.replicate 484 (Sched.run 1)).count (.run 1) := by
    rw [List.count_append, List.count_replicate_self]; exact Nat.le_trans (by decide) (Nat.le_add_left _ _)
  refine ⟨_, _, rfl, hlen, h3, hc, h2, ?_⟩
  exact (c55_readers_partial (hash := fun w => w >>> 3) (n := 501) (len := 8) (cap := 64) ⟨by decide, by decide⟩
    pauseReads (by
      intro t
      match t with
      | 0 => decide
      | 1 => decide
      | t + 2 => intro op ho; cases ho) _ hlen h3 1 (by
        intro op ho
        rcases List.mem_cons.mp ho with rfl | ho
        · exact .inl ⟨_, rfl⟩
        · rcases List.mem_cons.mp ho with rfl | ho
          · exact .inr (.inl ⟨_, rfl⟩)
          · exact .inl ⟨_, (List.mem_replicate.mp ho).2⟩) 2 (by decide) hc).1

/-- The hypotheses of `c13_interleaved_partial` are met by the same run: both threads still have something to do at its end. -/
example : ∃ (xs : List Sched) (s : Sys), s = (Sys.init 8 64 pauseReads).exec (fun w => w >>> 3) 501 xs ∧ xs.length ≤ 501 ∧
    (s.mem.tab 0).newT = none ∧ (∀ t op todo, s.thr t ≠ .busy op (.halt .threw) todo) ∧
    (∀ xs1 t xs2, xs = xs1 ++ .run t :: xs2 → t < 2 ∧ ((Sys.init 8 64 pauseReads).exec (fun w => w >>> 3) 501 xs1).thr t ≠ .idle []) ∧
    .run 0 ∈ xs ∧ .run 1 ∈ xs := by
  obtain ⟨h1, ⟨op, ad, e, v, f, todo, h2⟩, h3, h4, h5⟩ := pause_state pause_reads_ok (calls := pauseReads) rfl rfl rfl rfl
  refine ⟨_, _, rfl, ?_, h3, fun t op todo => h4 t op .threw todo, fun xs1 t xs2 hx => ?_, ?_, ?_⟩
  · rw [List.length_append, List.length_replicate, List.length_replicate]
  · rw [hx, exec_append] at h2 h5
    have ht : t = 0 ∨ t = 1 := by
      have : .run t ∈ List.replicate 17 (Sched.run 0) ++ List.replicate 484 (Sched.run 1) := by rw [hx]; simp
      rcases List.mem_append.mp this with h | h
      · exact .inl (by simpa using (List.mem_replicate.mp h).2)
      · exact .inr (by simpa using (List.mem_replicate.mp h).2)
    rcases ht with rfl | rfl
    · exact ⟨by decide, fun e => by rw [idle_exec _ e] at h2; cases h2⟩
    · exact ⟨by decide, fun e => h5 (idle_exec _ e)⟩
  · exact List.mem_append_left _ (List.mem_replicate.mpr ⟨by decide, rfl⟩)
  · exact List.mem_append_right _ (List.mem_replicate.mpr ⟨by decide, rfl⟩)

end PMap
