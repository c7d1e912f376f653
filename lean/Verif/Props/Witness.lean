import Verif.Lin
import Verif.Reopen

/-!
# Concurrent executions that break C18, C19, C20, C23, and a single-threaded one that breaks C13

Each theorem exhibits a schedule; the kernel evaluates the model on it.
-/

namespace PMap

/-- Thread `t` takes `n` steps. -/
def steps (t n : Nat) : List Sched := List.replicate n (.run t)

/-- The calls of up to four threads. -/
def callsOf (c0 c1 c2 c3 : List Op) : Nat → List Op := fun t =>
  if t = 0 then c0 else if t = 1 then c1 else if t = 2 then c2 else if t = 3 then c3 else []

/-! ## C18 -/

/-- Only puts of storable words and gets. -/
def PG (op : Op) : Prop := (∃ k v, op = .put k v ∧ v ≠ VINITIAL) ∨ ∃ k, op = .get k

theorem lin_present {M : AMap} {P : Nat → CallState} {es : List Event} (h : LinRun M P es) (k : Word)
    (hP : ∀ t op, P t = .called op → PG op) (hes : ∀ t op, .inv t op ∈ es → PG op)
    (hM : ∃ v, M k = some v ∧ v ≠ VINITIAL) (hg : ∀ t, P t ≠ .effected (.get k) (.word VINITIAL)) :
    ∀ t, .res t (.get k) (.word VINITIAL) ∉ es := by
  induction h with
  | nil => intro t h; cases h
  | @inv M P es tid op hi _ ih =>
    intro t ht
    rw [List.mem_cons] at ht
    rcases ht with ht | ht
    · cases ht
    · refine ih ?_ (fun t op h => hes t op (List.mem_cons_of_mem _ h)) hM ?_ t ht
      · intro t' op' h'
        unfold upd at h'
        split at h'
        · cases h'; exact hes tid op (List.mem_cons_self ..)
        · exact hP t' op' h'
      · intro t' h'
        unfold upd at h'
        split at h'
        · cases h'
        · exact hg t' h'
  | @effect M P es tid op r hi hr _ ih =>
    refine ih ?_ hes ?_ ?_
    · intro t' op' h'
      unfold upd at h'
      split at h'
      · cases h'
      · exact hP t' op' h'
    · rcases hP tid op hi with ⟨k', v', rfl, hv'⟩ | ⟨k', rfl⟩
      · show ∃ v, (M.set k' v') k = some v ∧ v ≠ VINITIAL
        unfold AMap.set
        split
        · exact ⟨v', rfl, hv'⟩
        · exact hM
      · exact hM
    · intro t' h'
      unfold upd at h'
      split at h'
      · cases h'
        obtain ⟨v, hv, hne⟩ := hM
        have := hr (.word (resWord (M k))) rfl
        rw [hv] at this
        cases this
        exact hne rfl
      · exact hg t' h'
  | @res M P es tid op r hi _ ih =>
    intro t ht
    rw [List.mem_cons] at ht
    rcases ht with ht | ht
    · cases ht; exact hg tid hi
    · refine ih ?_ (fun t op h => hes t op (List.mem_cons_of_mem _ h)) hM ?_ t ht
      · intro t' op' h'
        unfold upd at h'
        split at h'
        · cases h'
        · exact hP t' op' h'
      · intro t' h'
        unfold upd at h'
        split at h'
        · cases h'
        · exact hg t' h'

/-- In a linearizable history of puts and gets, once a put of `k` has returned no later get of `k` finds it absent. -/
theorem lin_put_get {M : AMap} {P : Nat → CallState} {es : List Event} (h : LinRun M P es) (t : Nat) (k w : Word)
    (r : Res) (pre rest : List Event) (hes : es = pre ++ .res t (.put k w) r :: rest)
    (hpre : ∀ e ∈ pre, ∃ t' k' v', e = .inv t' (.put k' v') ∧ v' ≠ VINITIAL)
    (hrest : ∀ t op, .inv t op ∈ rest → PG op)
    (hM : ∀ k, M k ≠ some VINITIAL)
    (hc : ∀ t op, P t = .called op → ∃ k v, op = .put k v ∧ v ≠ VINITIAL)
    (he : ∀ t op r, P t = .effected op r → ∃ k v, op = .put k v ∧ v ≠ VINITIAL ∧ M k ≠ none) :
    ∀ t', .res t' (.get k) (.word VINITIAL) ∉ rest := by
  induction h generalizing pre with
  | nil => cases pre <;> cases hes
  | @inv M P es tid op hi _ ih =>
    cases pre with
    | nil => cases hes
    | cons e pre =>
      rw [List.cons_append] at hes
      injection hes with h1 h2
      obtain ⟨t', k', v', h3, h4⟩ := hpre e (List.mem_cons_self ..)
      rw [← h1] at h3
      cases h3
      refine ih pre h2 (fun e h => hpre e (List.mem_cons_of_mem _ h)) hM ?_ ?_
      · intro t'' op'' h'
        unfold upd at h'
        split at h'
        · cases h'; exact ⟨_, _, rfl, h4⟩
        · exact hc _ _ h'
      · intro t'' op'' r'' h'
        unfold upd at h'
        split at h'
        · cases h'
        · exact he _ _ _ h'
  | @effect M P es tid op r' hi hr _ ih =>
    obtain ⟨k', v', rfl, hv'⟩ := hc tid op hi
    refine ih pre hes hpre ?_ ?_ ?_
    · intro k2
      show (M.set k' v') k2 ≠ _
      unfold AMap.set
      split
      · intro e; cases e; exact hv' rfl
      · exact hM k2
    · intro t'' op'' h'
      unfold upd at h'
      split at h'
      · cases h'
      · exact hc _ _ h'
    · intro t'' op'' r'' h'
      unfold upd at h'
      split at h'
      · cases h'
        exact ⟨k', v', rfl, hv', by show (M.set k' v') k' ≠ none; simp [AMap.set]⟩
      · obtain ⟨a, b, h1, h2, h3⟩ := he _ _ _ h'
        refine ⟨a, b, h1, h2, ?_⟩
        show (M.set k' v') a ≠ none
        unfold AMap.set
        split
        · simp
        · exact h3
  | @res M P es tid op r' hi h ih =>
    cases pre with
    | cons e pre =>
      rw [List.cons_append] at hes
      injection hes with h1 h2
      obtain ⟨t', k', v', h3, -⟩ := hpre e (List.mem_cons_self ..)
      rw [← h1] at h3
      cases h3
    | nil =>
      rw [List.nil_append] at hes
      injection hes with h1 h2
      subst h2
      cases h1
      obtain ⟨a, b, e1, -, h3⟩ := he _ _ _ hi
      cases e1
      obtain ⟨v, hv⟩ := Option.ne_none_iff_exists'.mp h3
      refine lin_present h k ?_ hrest ⟨v, hv, fun e => hM k (by rw [hv, e])⟩ ?_
      · intro t' op' h'
        unfold upd at h'
        split at h'
        · cases h'
        · exact .inl (hc _ _ h')
      · intro t' h'
        unfold upd at h'
        split at h'
        · cases h'
        · obtain ⟨_, _, e, -⟩ := he _ _ _ h'
          cases e

/-- Thread 1 puts 8 ↦ 24 and then gets 8 while thread 0 puts 8 ↦ 16. -/
def dupSys : Sys := (Sys.init 8 64 (callsOf [.put 8#64 16#64] [.put 8#64 24#64, .get 8#64] [] [])).exec (fun x => x) 30
  (steps 1 17 ++ steps 0 12 ++ steps 1 60)

/-- The history of `dupSys`. -/
def dupHist : List Event := [.inv 1 (.put 8#64 24#64), .inv 0 (.put 8#64 16#64),
  .res 1 (.put 8#64 24#64) (.word VINITIAL), .inv 1 (.get 8#64), .res 1 (.get 8#64) (.word VINITIAL)]

theorem dup_hist : dupSys.hist = dupHist := by decide +kernel

/-- **C18 is false of the code.** Without any resize: two threads put the same new key; the failing CAS on the key slot
returns the other thread's key with its dirty bit, which does not compare equal, so the key is claimed twice; then a
thread that has completed its own put and calls get finds the key absent.  This history is not linearizable. -/
theorem c18_not_linearizable : ¬ Linearizable dupSys.hist := by
  rw [dup_hist]
  intro h
  exact lin_put_get h 1 8#64 24#64 (.word VINITIAL) [.inv 1 (.put 8#64 24#64), .inv 0 (.put 8#64 16#64)]
    [.inv 1 (.get 8#64), .res 1 (.get 8#64) (.word VINITIAL)] rfl
    (by
      intro e he
      simp only [List.mem_cons, List.not_mem_nil, or_false] at he
      rcases he with rfl | rfl
      · exact ⟨_, _, _, rfl, by decide⟩
      · exact ⟨_, _, _, rfl, by decide⟩)
    (by
      intro t op ho
      simp only [List.mem_cons, List.not_mem_nil, or_false, reduceCtorEq] at ho
      cases ho
      exact .inr ⟨_, rfl⟩)
    (by intro k e; cases e) (by intro t op e; cases e) (by intro t op r e; cases e) 1 (by simp)

/-- `Linearizable` is not a trap: the history in which the get returns 24 is linearizable. -/
example : Linearizable [.inv 1 (.put 8#64 24#64), .inv 0 (.put 8#64 16#64),
    .res 1 (.put 8#64 24#64) (.word VINITIAL), .inv 1 (.get 8#64), .res 1 (.get 8#64) (.word 24#64)] := by
  refine .inv rfl (.inv rfl (.effect (tid := 1) (op := .put 8#64 24#64) (r := .word VINITIAL) rfl ?_ (.res rfl (.inv rfl
    (.effect (tid := 1) (op := .get 8#64) (r := .word 24#64) rfl ?_ (.res rfl .nil))))))
  · intro x h; cases h; rfl
  · intro x h; cases h; rfl

/-! ## C19 -/

/-- **C19 is false of the code.** `putIfAbsent` loses the race for the value slot against `put(8, 24)`; the value it returns
to its caller is 25: the other thread's value with the dirty bit still set. -/
theorem c19_dirty_result : ((Sys.init 8 64 (callsOf [.putIfAbsent 8#64 16#64] [.put 8#64 24#64] [] [])).exec
      (fun x => x >>> 3) 30 (steps 0 22 ++ steps 1 20 ++ steps 0 9)).hist =
    [.inv 0 (.putIfAbsent 8#64 16#64), .inv 1 (.put 8#64 24#64), .res 1 (.put 8#64 24#64) (.word VINITIAL),
      .res 0 (.putIfAbsent 8#64 16#64) (.word 25#64)] ∧ isDirty 25#64 = true ∧ ValidVal 24#64 := by
  refine ⟨by decide +kernel, by decide, by decide⟩

/-! ## C20 -/

/-- Four threads: one grows the table, two others help. -/
def lostSys (xs : List Sched) : Sys := (Sys.init 2 64 (callsOf [.put 16#64 8#64, .put 8#64 8#64, .put 24#64 8#64]
  [.put 16#64 16#64] [.put 16#64 24#64] [.get 8#64])).exec (fun x => x >>> 3) 30 xs

/-- The schedule up to the moment the table is replaced. -/
def lostSched : List Sched := steps 0 114 ++ steps 1 35 ++ steps 2 26 ++ steps 1 1 ++ steps 2 1 ++ steps 1 13 ++ steps 2 32

/-- **C20 is false of the code.** Two helpers that both place the same key in the new table both count the slot as migrated,
so the table is replaced (root is 1) although the value 8 of key 8 is still unmigrated in it. -/
theorem c20_early_retirement : (lostSys lostSched).mem.root = 1 ∧ ((lostSys lostSched).mem.tab 0).len = 2 ∧
    (lostSys lostSched).mem.word (.key 0 1) = 8#64 ∧ (lostSys lostSched).mem.word (.val 0 1) = 8#64 ∧
    ((lostSys lostSched).mem.tab 0).copyDone = 2 ∧ (lostSys lostSched).ub = false := by decide +kernel

/-- **C20**, consequence: the put of key 8 had returned, nothing removes it, and a get that starts after the replacement
finds it absent. -/
theorem c20_lost_key : (lostSys (lostSched ++ steps 3 13)).hist.getLast? = some (.res 3 (.get 8#64) (.word VINITIAL)) ∧
    .res 0 (.put 8#64 8#64) (.word VINITIAL) ∈ (lostSys lostSched).hist := by decide +kernel

/-- **C20 is false of the code**, second half: the migration counter of a table of one slot reaches 2 and the assertion
`copyDone + workDone <= oldLen` fails, because a failing CAS that returns a dirty word is retried against a slot that has
been migrated meanwhile. -/
theorem c20_counter_overrun :
    let s := (Sys.init 1 64 (callsOf [.put 8#64 8#64, .remove 8#64, .put 16#64 8#64] [.put 24#64 8#64] [] [])).exec
      (fun x => x >>> 3) 30 (steps 0 100 ++ steps 1 43 ++ steps 0 1 ++ steps 1 75 ++ steps 0 127)
    (s.mem.tab 0).len = 1 ∧ (s.mem.tab 0).copyDone = 2 ∧ s.mem.failed = true := by decide +kernel

/-! ## C21 -/

/-- Two threads increment a key that is not in the map. -/
def incSys : Sys := (Sys.init 8 64 (callsOf [.update 8#64 MATCH_ANY] [.update 8#64 MATCH_ANY] [] [])).exec (fun x => x) 30
  (steps 1 17 ++ steps 0 12 ++ steps 1 31 ++ steps 0 40)

/-- **C21 is false of the code.** Two threads increment a counter that did not exist; both increments return, no call is in
progress and the table has not grown, but the counter is 1 (stored as 8) and not 2: as in `c18_not_linearizable` the key is
claimed twice. -/
theorem c21_lost_increment : incSys.hist = [.inv 1 (.update 8#64 MATCH_ANY), .inv 0 (.update 8#64 MATCH_ANY),
      .res 1 (.update 8#64 MATCH_ANY) (.word VINITIAL), .res 0 (.update 8#64 MATCH_ANY) (.word VINITIAL)] ∧
    incSys.mem.root = 0 ∧ (incSys.mem.tab 0).newT = none ∧
    ∃ m', run (mapGet (fun x => x) 30 8#64) incSys.mem = .done 8#64 m' := by
  refine ⟨by decide +kernel, by decide +kernel, by decide +kernel, Outcome.eq_done (by decide +kernel)⟩

/-! ## C23 -/

/-- The value goes 16, 24, 16 while another thread is between the flush and the CAS of `persist`. -/
def abaSys : Sys := (Sys.init 8 64 (callsOf [.put 8#64 16#64, .put 8#64 24#64, .get 8#64, .put 8#64 16#64, .get 8#64]
  [.get 8#64] [] [])).exec (fun x => x >>> 3) 30 (steps 0 27 ++ steps 1 10 ++ steps 0 46 ++ steps 1 4 ++ steps 0 8)

/-- **C23 is false of the code.** The last get returns 16, the latest value written; the machine stops; the file shows 24, an
older value.  (`persist` clears the dirty bit of a word that equals, but is not, the one it flushed.) -/
theorem c23_read_lost : abaSys.hist.getLast? = some (.res 0 (.get 8#64) (.word 16#64)) ∧
    (∃ m, restart abaSys.mem abaSys.mem.nv = .done () m ∧
      ∃ m', run (mapGet (fun x => x >>> 3) 30 8#64) m = .done 24#64 m') := by
  refine ⟨by decide +kernel, ?_⟩
  have h : (match restart abaSys.mem abaSys.mem.nv with
    | .halted _ => none
    | .done _ m => (run (mapGet (fun x => x >>> 3) 30 8#64) m).val?) = some 24#64 := by decide +kernel
  split at h
  · cases h
  · next m hm => exact ⟨m, hm, Outcome.eq_done h⟩

end PMap
