import Verif.Props.Witness
import Verif.Props.Conc
import Verif.Props.Path

/-!
# C54: the assertions under interference

The calls are those of every thread. `update` can store the absent marker itself, and after a growth the marker reaches the
assertion on the value to be stored; without `update` only the assertion on the number of migrated slots can fail.
-/

namespace PMap

open Prog

variable {hash : Word → Word} {n len cap : Nat}

theorem exec_failed {a : Act} {m m2 : Mem} {r : a.Resp} (h : a.exec m = some (r, m2)) (ha : a.fails = false) :
    m2.failed = m.failed := by
  cases a with
  | check b => cases h; cases b <;> simp_all [Act.fails]
  | load a => simp only [Act.exec] at h; split at h <;> simp_all
  | cas a e w =>
    simp only [Act.exec] at h
    split at h
    · split at h <;> (simp only [Option.some.injEq, Prod.mk.injEq] at h; rw [← h.2])
    · cases h
  | casNew a w =>
    simp only [Act.exec] at h
    split at h
    · split at h <;> (simp only [Option.some.injEq, Prod.mk.injEq] at h; rw [← h.2])
    · cases h
  | casIdx a e w =>
    simp only [Act.exec] at h
    split at h
    · split at h <;> (simp only [Option.some.injEq, Prod.mk.injEq] at h; rw [← h.2])
    · cases h
  | fence => cases h; rfl
  | getRoot => cases h; rfl
  | _ =>
    simp only [Act.exec] at h
    split at h
    · simp only [Option.some.injEq, Prod.mk.injEq] at h; rw [← h.2]
    · first
      | cases h; done
      | (simp only [Option.some.injEq, Prod.mk.injEq] at h; rw [← h.2])

/-- Thread `t` is about to evaluate an assertion that does not hold, and goes on with `k`. -/
def Sys.Refuted (s : Sys) (t : Nat) (k : Unit → Prog Res) : Prop :=
  ∃ op todo, s.thr t = .busy op (.act (.check false) k) todo

/-- **C54**: in every interleaving of valid calls, `update` among them, an assertion that does not hold is the one on the number
of migrated slots (hashMap.hpp:131), as in the next theorem, or else some table has a successor and `update` has been called.
(What is missing is which assertion fails in the second case; `c54_update_growth` shows that one does.) -/
theorem c54_count_or_update_partial (hs : Sized len cap) (calls : Nat → List Op) (hv : ∀ t, ∀ op ∈ calls t, op.Valid)
    (xs : List Sched) {tid : Nat} {k : Unit → Prog Res}
    (h : ((Sys.init len cap calls).exec hash n xs).Refuted tid k) :
    let m := ((Sys.init len cap calls).exec hash n xs).mem
    (∃ t w, t < m.next ∧ (m.tab t).newT ≠ none ∧ (m.tab t).len < (m.tab t).copyDone + w ∧
      (w = 0 ∨ ∃ k', k () = .act (.addDone t w) k')) ∨
    ((∃ t, t < m.next ∧ (m.tab t).newT ≠ none) ∧
      ∃ t key v, .inv t (.update key v) ∈ ((Sys.init len cap calls).exec hash n xs).hist) := by
  intro m
  have hA := asked_ok (init_valid hash n calls hv xs (len := len) (cap := cap))
  have hM : ∀ k, askedIn ((Sys.init len cap calls).exec hash n xs).hist k VINITIAL →
      ∃ t key v, .inv t (.update key v) ∈ ((Sys.init len cap calls).exec hash n xs).hist := by
    rintro k ⟨t, op, h1, h2⟩
    have hv' := hv t op (inv_calls hash n _ calls xs h1)
    have hno : ¬ ValidVal VINITIAL := by decide
    cases op with
    | put k' v' => obtain ⟨rfl, rfl⟩ := h2; exact absurd hv'.2 hno
    | putIfAbsent k' v' => obtain ⟨rfl, rfl⟩ := h2; exact absurd hv'.2 hno
    | replace k' o v' => obtain ⟨rfl, rfl⟩ := h2; exact absurd hv'.2.2 hno
    | putIfMatch k' v' o => obtain ⟨rfl, rfl⟩ := h2; exact absurd hv'.2.1 hno
    | update k' v' => exact ⟨t, k', v', h1⟩
    | get _ => exact h2.elim
    | containsKey _ => exact h2.elim
    | remove _ => exact h2.elim
    | removeIf _ _ => exact h2.elim
    | size => exact h2.elim
    | isEmpty => exact h2.elim
  have hok := (sys_okM (M := False) hA hash n (start_ok (PInv_fresh hs) calls) xs fun t op h =>
    ⟨hv t op (inv_calls hash n _ calls xs h), fun k v ha => ⟨t, op, h, ha⟩⟩).1
  obtain ⟨op, todo, e⟩ := h
  have ht := hok.thr tid
  rw [show (Sys.start (freshMem len cap) calls) = Sys.init len cap calls from rfl, e] at ht
  obtain ⟨r, m2, e2, -, -, hf, -⟩ := ht m (fun hm => ⟨hm, .refl _⟩) hok.inv
  cases e2
  rcases hf rfl with (h1 | ⟨h1, key, h2⟩) | h1
  · exact h1.elim
  · exact .inr ⟨h1, hM _ h2⟩
  · exact .inl h1

/-- **C54**: in every interleaving of valid calls other than `update`, an assertion that does not hold is the one on the number
of migrated slots (hashMap.hpp:131): there is a table that has a successor, and a number `w`, such that the table's count of
migrated slots and `w` together exceed its length, and the thread's next action adds `w` to that count (or `w` is zero). -/
theorem c54_only_the_count_partial (hs : Sized len cap) (calls : Nat → List Op) (hv : ∀ t, ∀ op ∈ calls t, op.Valid)
    (hu : ∀ t, ∀ op ∈ calls t, op.isUpdate = false) (xs : List Sched) {tid : Nat} {k : Unit → Prog Res}
    (h : ((Sys.init len cap calls).exec hash n xs).Refuted tid k) :
    let m := ((Sys.init len cap calls).exec hash n xs).mem
    ∃ t w, t < m.next ∧ (m.tab t).newT ≠ none ∧ (m.tab t).len < (m.tab t).copyDone + w ∧
      (w = 0 ∨ ∃ k', k () = .act (.addDone t w) k') := by
  refine (c54_count_or_update_partial hs calls hv xs h).resolve_right ?_
  rintro ⟨-, t, key, v, h1⟩
  have := hu t _ (inv_calls hash n _ calls xs h1)
  cases this

/-- An assertion has failed only if some thread was about to evaluate one that does not hold. -/
theorem failed_refuted (calls : Nat → List Op) (xs : List Sched)
    (h : ((Sys.init len cap calls).exec hash n xs).mem.failed = true) :
    ∃ ys tid zs k, xs = ys ++ .run tid :: zs ∧ ((Sys.init len cap calls).exec hash n ys).Refuted tid k := by
  induction xs using List.reverseRecOn with
  | nil => cases h
  | append_singleton xs x ih =>
    by_cases h0 : ((Sys.init len cap calls).exec hash n xs).mem.failed = true
    · obtain ⟨ys, tid, zs, k, e, h1⟩ := ih h0
      exact ⟨ys, tid, zs ++ [x], k, by rw [e]; simp, h1⟩
    · rw [exec_append] at h
      generalize hsx : (Sys.init len cap calls).exec hash n xs = s at h h0
      replace h : (s.step hash n x).mem.failed = true := h
      have key : ∃ tid k, x = .run tid ∧ s.Refuted tid k := by
        cases x with
        | evict t i => exact absurd h h0
        | run tid =>
          rw [Sys.step] at h
          split at h
          · exact absurd h h0
          · exact absurd h h0
          · exact absurd h h0
          · exact absurd h h0
          · exact absurd h h0
          · next op a k todo hs' =>
            split at h
            · exact absurd h h0
            · next r m2 he =>
              by_cases ha : a.fails = true
              · cases a with
                | check b =>
                  have hb : b = false := by simpa [Act.fails] using ha
                  subst hb
                  exact ⟨tid, k, rfl, op, todo, hs'⟩
                | _ => cases ha
              · exact absurd ((exec_failed he (by simpa using ha)).symm.trans h) h0
      obtain ⟨tid, k, rfl, hr⟩ := key
      exact ⟨xs, tid, [], k, rfl, by rw [hsx]; exact hr⟩

/-- **C54**, as an observation: if an assertion has failed by some point of the execution, then at some earlier point a
thread was about to change the count of migrated slots of a table with a successor to more than its length (or the count
was too large already). -/
theorem c54_first_failure_partial (hs : Sized len cap) (calls : Nat → List Op) (hv : ∀ t, ∀ op ∈ calls t, op.Valid)
    (hu : ∀ t, ∀ op ∈ calls t, op.isUpdate = false) (xs : List Sched)
    (h : ((Sys.init len cap calls).exec hash n xs).mem.failed = true) :
    ∃ ys tid zs k t w, xs = ys ++ .run tid :: zs ∧
      let s := (Sys.init len cap calls).exec hash n ys
      s.Refuted tid k ∧ t < s.mem.next ∧ (s.mem.tab t).newT ≠ none ∧ (s.mem.tab t).len < (s.mem.tab t).copyDone + w ∧
        (w = 0 ∨ ∃ k', k () = .act (.addDone t w) k') := by
  obtain ⟨ys, tid, zs, k, e, hr⟩ := failed_refuted calls xs h
  obtain ⟨t, w, h1⟩ := c54_only_the_count_partial hs calls hv hu ys hr
  exact ⟨ys, tid, zs, k, t, w, e, hr, h1⟩

/-- **C54**, consequence: whatever the calls, as long as no table has been given a successor, no assertion has failed. -/
theorem c54_no_growth (hs : Sized len cap) (calls : Nat → List Op) (hv : ∀ t, ∀ op ∈ calls t, op.Valid) (xs : List Sched)
    (hg : ∀ t, t < ((Sys.init len cap calls).exec hash n xs).mem.next →
      (((Sys.init len cap calls).exec hash n xs).mem.tab t).newT = none) :
    ((Sys.init len cap calls).exec hash n xs).mem.failed = false := by
  by_contra h
  obtain ⟨ys, tid, zs, k, e, hr⟩ := failed_refuted calls xs (by simpa using h)
  have key : ∃ t, t < ((Sys.init len cap calls).exec hash n ys).mem.next ∧
      (((Sys.init len cap calls).exec hash n ys).mem.tab t).newT ≠ none := by
    rcases c54_count_or_update_partial hs calls hv ys hr with ⟨t, w, h1, h2, -⟩ | ⟨h1, -⟩
    · exact ⟨t, h1, h2⟩
    · exact h1
  obtain ⟨t, h1, h2⟩ := key
  have := c17_fixed hs calls hv ys (.run tid :: zs) h1 (hash := hash) (n := n)
  rw [← e] at this
  obtain ⟨h3, -, h4⟩ := this
  obtain ⟨n', hn'⟩ := Option.ne_none_iff_exists'.mp h2
  rw [hg t h3] at h4
  exact absurd (h4 n' hn') (by simp)

/-- The calls and the schedule of `c20_counter_overrun`. -/
def overrunCalls : Nat → List Op := callsOf [.put 8#64 8#64, .remove 8#64, .put 16#64 8#64] [.put 24#64 8#64] [] []

/-- The run of `c20_counter_overrun` meets the hypotheses of both theorems: an assertion does fail there. -/
example : ∃ (xs : List Sched) (tid : Nat) (k : Unit → Prog Res),
    ((Sys.init 1 64 overrunCalls).exec (fun x => x >>> 3) 30 xs).Refuted tid k := by
  have hd : ∀ t, ∀ op ∈ overrunCalls t, op.Valid ∧ op.isUpdate = false := by
    intro t op h
    unfold overrunCalls callsOf at h
    split at h
    · rcases List.mem_cons.mp h with rfl | h
      · decide
      rcases List.mem_cons.mp h with rfl | h
      · decide
      rcases List.mem_cons.mp h with rfl | h
      · decide
      · cases h
    split at h
    · rcases List.mem_cons.mp h with rfl | h
      · decide
      · cases h
    split at h
    · cases h
    split at h <;> cases h
  have ho : ((Sys.init 1 64 overrunCalls).exec (fun x => x >>> 3) 30
      (steps 0 100 ++ steps 1 43 ++ steps 0 1 ++ steps 1 75 ++ steps 0 127)).mem.failed = true := by decide +kernel
  generalize steps 0 100 ++ steps 1 43 ++ steps 0 1 ++ steps 1 75 ++ steps 0 127 = xs at ho
  obtain ⟨ys, tid, _, k, _, _, _, h, _⟩ := c54_first_failure_partial (hash := fun x => x >>> 3) (n := 30)
    (len := 1) (cap := 64) ⟨⟨0, by omega, rfl⟩, by norm_num⟩ overrunCalls (fun t op h => (hd t op h).1)
    (fun t op h => (hd t op h).2) xs ho
  exact ⟨ys, tid, k, h⟩

/-- Two threads put, remove and update the same keys in one table. -/
def calmSys : Sys := (Sys.init 8 64 (callsOf [.put 8#64 8#64, .remove 16#64] [.put 16#64 24#64, .update 8#64 8#64] [] [])).exec
  (fun x => x >>> 3) 30 ((List.range 60).flatMap fun _ => [.run 0, .run 1])

/-- The hypothesis of `c54_no_growth` is met after all their calls. -/
example : calmSys.mem.next = 1 ∧ (calmSys.mem.tab 0).newT = none ∧ calmSys.hist.length = 8 := by decide +kernel

/-! ## With `update` and a growth -/

/-- Thread 0 puts and removes key 8, thread 1 updates it, thread 2 puts another key into a table of one slot and thread 3
reads key 8. -/
def markerCalls : Nat → List Op :=
  callsOf [.put 8#64 16#64, .remove 8#64, .put 8#64 8#64, .remove 8#64, .put 8#64 16#64, .remove 8#64, .put 8#64 8#64, .remove 8#64]
    [.update 8#64 8#64, .update 8#64 8#64] [.put 16#64 8#64] [.get 8#64]

/-- Both updates add to the removed marker and store the absent marker. The second does so while thread 2, which is copying the
slot, is about to seal it. -/
def markerRun : List (Nat × Nat) :=
  [(0, 27), (1, 18), (0, 17), (1, 1), (1, 7), (2, 47), (0, 37), (1, 1), (2, 1), (2, 5), (0, 17), (1, 3), (1, 15), (0, 17), (1, 1),
    (1, 7), (0, 37), (1, 1), (2, 1), (3, 14)]

/-- **C54 is false of the other assertions once `update` and a growth meet.** All calls are valid.  After `xs` no assertion has
failed, no slot has been counted as migrated, and thread 3, which is in `get(8)`, is about to evaluate `false`; it is helping to
copy the slot and is asked to store the absent marker (`assert(newVal != VINITIAL)`, hashMap.hpp:1046). -/
theorem c54_update_growth : ∃ xs, (∀ t, ∀ op ∈ markerCalls t, op.Valid) ∧ Sized 1 64 ∧
    (let s := (Sys.init 1 64 markerCalls).exec (fun x => x >>> 3) 30 xs;
      s.mem.failed = false ∧ s.mem.next = 2 ∧ (s.mem.tab 0).copyDone = 0 ∧ (s.mem.tab 1).copyDone = 0 ∧
      clean (s.mem.word (.val 0 0)) = VINITIAL ||| MigrationFlag ∧
      (match s.thr 3 with | .busy op (.act (.check b) _) _ => op == .get 8#64 && !b | _ => false) = true ∧
      (s.step (fun x => x >>> 3) 30 (.run 3)).mem.failed = true) := by
  refine ⟨turns markerRun, ?_, ⟨⟨0, by omega, rfl⟩, by norm_num⟩, ?_⟩
  · intro t op h
    unfold markerCalls callsOf at h
    split at h
    · revert op; decide
    split at h
    · revert op; decide
    split at h
    · revert op; decide
    split at h
    · revert op; decide
    · cases h
  · decide +kernel

end PMap
