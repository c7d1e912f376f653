import Verif.Par.Ops
import Verif.Props.Witness
import Verif.Seq.Scan

/-!
# Properties of every interleaving: C14, C15, C16, C17, C24, and what remains of C19 and C20

`Sys.init len cap calls` is a fresh map and any number of threads, thread `t` going to make the calls `calls t`; a list of
`Sched` is any interleaving of their atomic actions with spontaneous write-backs of cache lines.
-/

namespace PMap

variable {hash : Word → Word} {n len cap : Nat}

/-- A demonstration run, used to show the hypotheses below are met: three threads on a table of two slots, which grows twice. -/
def demoCalls : Nat → List Op :=
  callsOf [.put 8#64 8#64, .put 16#64 16#64, .remove 8#64] [.put 24#64 24#64, .get 16#64] [.update 32#64 MATCH_ANY, .get 8#64] []
/-- Its schedule: the threads take turns of seven steps, and a line is written back now and then. -/
def demoSched (k : Nat) : List Sched :=
  (List.replicate k (steps 0 7 ++ steps 1 7 ++ [.evict 0 1] ++ steps 2 7)).flatten
def demoSys (k : Nat) : Sys := (Sys.init 2 64 demoCalls).exec (fun x => x >>> 3) 30 (demoSched k)

theorem demoCalls_valid : ∀ t, ∀ op ∈ demoCalls t, op.Valid := by
  intro t op h
  unfold demoCalls callsOf at h
  split at h
  · revert op; decide
  · split at h
    · revert op; decide
    · split at h
      · revert op; decide
      · split at h <;> cases h

theorem demo_sized : Sized 2 64 := ⟨⟨1, by decide, by decide⟩, by decide⟩

/-! ## C14 -/

/-- **C14.** For every fresh map, any threads with any valid calls, any interleaving: if a `get(k)` has returned `w`, then `w` is
the absent marker, or before that return some thread had called an operation asking for `w` to be stored under that same `k`. -/
theorem c14_get_asked (hs : Sized len cap) (calls : Nat → List Op) (hv : ∀ t, ∀ op ∈ calls t, op.Valid) (xs : List Sched)
    {h1 h2 : List Event} {t : Nat} {k w : Word}
    (hh : ((Sys.init len cap calls).exec hash n xs).hist = h1 ++ .res t (.get k) (.word w) :: h2) :
    w = VINITIAL ∨ ∃ t' op, .inv t' op ∈ h1 ∧ op.Asks k w := by
  obtain ⟨ys, zs, -, hy⟩ := hist_prefix hash n xs (Sys.init len cap calls) (h1 ++ [.res t (.get k) (.word w)]) h2
    (by rw [hh, List.append_assoc]; rfl) (by simp [Sys.init])
  have hok := init_ok (A := askedIn ((Sys.init len cap calls).exec hash n ys).hist) hs hash n calls hv ys (fun _ _ h => h)
    (asked_ok (init_valid hash n calls hv ys))
  obtain ⟨w', e, hw⟩ := hok.hist t (.get k) (.word w) (by rw [hy]; simp)
  cases e
  rcases hw with hw | ⟨t', op, hm, ha⟩
  · exact .inl hw
  · refine .inr ⟨t', op, ?_, ha⟩
    rw [hy] at hm
    rcases List.mem_append.mp hm with hm | hm
    · exact hm
    · simp at hm

/-- **C14**, second half: a returned value never carries the dirty or the migration bit, and unless `update` is used it is no
internal marker. -/
theorem c14_no_marks (hs : Sized len cap) (calls : Nat → List Op) (hv : ∀ t, ∀ op ∈ calls t, op.Valid) (xs : List Sched)
    {t : Nat} {k w : Word} (hh : .res t (.get k) (.word w) ∈ ((Sys.init len cap calls).exec hash n xs).hist) :
    isDirty w = false ∧ isMig w = false ∧ ((∀ t, ∀ op ∈ calls t, op.isUpdate = false) → w = VINITIAL ∨ ValidVal w) := by
  obtain ⟨h1, h2, e⟩ := List.append_of_mem hh
  rcases c14_get_asked hs calls hv xs e with h | ⟨t', op, hm, ha⟩
  · subst h; exact ⟨by decide, by decide, fun _ => .inl rfl⟩
  · have hc := inv_calls hash n (freshMem len cap) calls xs (t := t') (op := op)
      (by show _ ∈ ((Sys.init len cap calls).exec hash n xs).hist; rw [e]; exact List.mem_append_left _ hm)
    have hval := hv t' op hc
    have h3 := (asks_valid hval ha).1
    refine ⟨not_dirty_iff.mpr h3.1, h3.2, fun hu => .inr ?_⟩
    have hu := hu t' op hc
    cases op with
    | put k' v' => obtain ⟨-, rfl⟩ := ha; exact hval.2
    | putIfAbsent k' v' => obtain ⟨-, rfl⟩ := ha; exact hval.2
    | replace k' o v' => obtain ⟨-, rfl⟩ := ha; exact hval.2.2
    | putIfMatch k' v' o => obtain ⟨-, rfl⟩ := ha; exact hval.2.1
    | update k' v' => cases hu
    | get _ => exact ha.elim
    | containsKey _ => exact ha.elim
    | remove _ => exact ha.elim
    | removeIf _ _ => exact ha.elim
    | size => exact ha.elim
    | isEmpty => exact ha.elim

/-- **C14** for `containsKey`: it answers true only for keys some call has asked to store something under. -/
theorem c14_contains_asked (hs : Sized len cap) (calls : Nat → List Op) (hv : ∀ t, ∀ op ∈ calls t, op.Valid) (xs : List Sched)
    {t : Nat} {k : Word} (hh : .res t (.containsKey k) (.bool true) ∈ ((Sys.init len cap calls).exec hash n xs).hist) :
    ∃ v t' op, .inv t' op ∈ ((Sys.init len cap calls).exec hash n xs).hist ∧ op.Asks k v := by
  have hok := init_ok (A := askedIn ((Sys.init len cap calls).exec hash n xs).hist) hs hash n calls hv xs (fun _ _ h => h)
    (asked_ok (init_valid hash n calls hv xs))
  obtain ⟨v, t', op, h1, h2⟩ := hok.hist t (.containsKey k) (.bool true) hh rfl
  exact ⟨v, t', op, h1, h2⟩

/-- In the demonstration run a get returns a value another thread has put, and the table grows. -/
example : .res 2 (.get 8#64) (.word 8#64) ∈ (demoSys 60).hist ∧ (demoSys 60).mem.root ≠ 0 := by decide +kernel

/-- `containsKey` does answer true to another thread's put. -/
example : .res 1 (.containsKey 8#64) (.bool true) ∈
    ((Sys.init 8 64 (callsOf [.put 8#64 16#64] [.containsKey 8#64] [] [])).exec (fun x => x >>> 3) 30
      (steps 0 40 ++ steps 1 40)).hist := by decide +kernel

/-! ## C15 -/

/-- **C15.** Between any two points of any execution: a slot that holds a key keeps it; a value being migrated is never
overwritten by anything but the "migrated" marker; the "migrated" marker stays. -/
theorem c15_stable (hs : Sized len cap) (calls : Nat → List Op) (hv : ∀ t, ∀ op ∈ calls t, op.Valid) (xs ys : List Sched)
    {t i : Nat} (ht : t < ((Sys.init len cap calls).exec hash n xs).mem.next)
    (hi : i < (((Sys.init len cap calls).exec hash n xs).mem.tab t).len) :
    let m := ((Sys.init len cap calls).exec hash n xs).mem
    let m' := ((Sys.init len cap calls).exec hash n (xs ++ ys)).mem
    (clean (m.word (.key t i)) ≠ KINITIAL → clean (m'.word (.key t i)) = clean (m.word (.key t i))) ∧
    (isMig (m.word (.val t i)) = true →
      clean (m'.word (.val t i)) = clean (m.word (.val t i)) ∨ clean (m'.word (.val t i)) = TOMBPRIME) ∧
    (clean (m.word (.val t i)) = TOMBPRIME → clean (m'.word (.val t i)) = TOMBPRIME) := by
  have hA := asked_ok (init_valid hash n calls hv (xs ++ ys) (len := len) (cap := cap))
  obtain ⟨h', e⟩ := exec_hist hash n ys ((Sys.init len cap calls).exec hash n xs)
  rw [← exec_append] at e
  have hok := init_ok (A := askedIn ((Sys.init len cap calls).exec hash n (xs ++ ys)).hist) hs hash n calls hv xs
    (fun k v ⟨t, op, h1, h2⟩ => ⟨t, op, by rw [e]; exact List.mem_append_left _ h1, h2⟩) hA
  have henv := (sys_ok hA hash n hok ys (fun t op h => by
    rw [← exec_append] at h
    exact ⟨init_valid hash n calls hv (xs ++ ys) t op h, fun k v ha => ⟨t, op, h, ha⟩⟩)).2
  rw [← exec_append] at henv
  have hevo := (henv hok.inv).2
  refine ⟨fun h => hevo.key t i ⟨ht, hi⟩ h, fun h => hevo.mig' t i ⟨ht, hi⟩ (by rw [pv, isMig_clean]; exact h),
    fun h => hevo.prime t i ⟨ht, hi⟩ h⟩

/-- In the demonstration run, early on a slot of table 0 is marked for migration and another is already migrated. -/
example : 0 < (demoSys 11).mem.next ∧ ((demoSys 11).mem.tab 0).len = 2 ∧
    (List.range 2).any (fun i => isMig ((demoSys 11).mem.word (.val 0 i))) = true ∧
    clean ((demoSys 11).mem.word (.key 0 1)) = 8#64 := by decide +kernel

/-! ## C16 -/

/-- **C16.** In no execution does any thread dereference a null table or index outside a table. -/
theorem c16_no_ub (hs : Sized len cap) (calls : Nat → List Op) (hv : ∀ t, ∀ op ∈ calls t, op.Valid) (xs : List Sched) :
    ((Sys.init len cap calls).exec hash n xs).ub = false :=
  (init_ok (A := askedIn ((Sys.init len cap calls).exec hash n xs).hist) hs hash n calls hv xs (fun _ _ h => h)
    (asked_ok (init_valid hash n calls hv xs))).noub

/-- The demonstration run does follow new-table pointers: the table grows. -/
example : (demoSys 60).mem.root ≠ 0 ∧ (demoSys 60).ub = false := by decide +kernel

/-! ## C17 -/

/-- **C17**, the pointer: each step of the system leaves the current table or replaces it by its successor. -/
theorem c17_root_step (hs : Sized len cap) (calls : Nat → List Op) (hv : ∀ t, ∀ op ∈ calls t, op.Valid) (xs : List Sched)
    (x : Sched) :
    let m := ((Sys.init len cap calls).exec hash n xs).mem
    let m' := ((Sys.init len cap calls).exec hash n (xs ++ [x])).mem
    m'.root = m.root ∨ (m.tab m.root).newT = some m'.root := by
  have hA := asked_ok (init_valid hash n calls hv (xs ++ [x]) (len := len) (cap := cap))
  obtain ⟨h', e⟩ := exec_hist hash n [x] ((Sys.init len cap calls).exec hash n xs)
  rw [← exec_append] at e
  have hok := init_ok (A := askedIn ((Sys.init len cap calls).exec hash n (xs ++ [x])).hist) hs hash n calls hv xs
    (fun k v ⟨t, op, h1, h2⟩ => ⟨t, op, by rw [e]; exact List.mem_append_left _ h1, h2⟩) hA
  have hst := (SysOK.step (Ok := fun op => op.Valid ∧ ∀ k v, op.Asks k v →
      askedIn ((Sys.init len cap calls).exec hash n (xs ++ [x])).hist k v) hok p_evict
    (fun _ _ ho hm => p_op hA n ho.1 ho.2 hm) x (fun t op h => by
      have h : .inv t op ∈ ((Sys.init len cap calls).exec hash n (xs ++ [x])).hist := by rw [exec_append]; exact h
      exact ⟨init_valid hash n calls hv _ t op h, fun k v ha => ⟨t, op, h, ha⟩⟩)).2
  intro m m'
  have e' : m' = (((Sys.init len cap calls).exec hash n xs).step hash n x).mem := by
    show ((Sys.init len cap calls).exec hash n (xs ++ [x])).mem = _
    rw [exec_append]; rfl
  rw [e']
  exact hst.2.imp id (fun h => h.1)

/-- **C17**, the successors: in every reachable memory a table's successor is a later, existing table of exactly twice the
length. -/
theorem c17_double (hs : Sized len cap) (calls : Nat → List Op) (hv : ∀ t, ∀ op ∈ calls t, op.Valid) (xs : List Sched)
    {t s : Nat} (ht : t < ((Sys.init len cap calls).exec hash n xs).mem.next)
    (hn : (((Sys.init len cap calls).exec hash n xs).mem.tab t).newT = some s) :
    t < s ∧ s < ((Sys.init len cap calls).exec hash n xs).mem.next ∧
    (((Sys.init len cap calls).exec hash n xs).mem.tab s).len = 2 * (((Sys.init len cap calls).exec hash n xs).mem.tab t).len :=
  (init_ok (A := askedIn ((Sys.init len cap calls).exec hash n xs).hist) hs hash n calls hv xs (fun _ _ h => h)
    (asked_ok (init_valid hash n calls hv xs))).inv.newT t s ht hn

/-- **C17**, the choice: a successor once chosen is the successor at every later point, and no table changes its length. -/
theorem c17_fixed (hs : Sized len cap) (calls : Nat → List Op) (hv : ∀ t, ∀ op ∈ calls t, op.Valid) (xs ys : List Sched)
    {t : Nat} (ht : t < ((Sys.init len cap calls).exec hash n xs).mem.next) :
    let m := ((Sys.init len cap calls).exec hash n xs).mem
    let m' := ((Sys.init len cap calls).exec hash n (xs ++ ys)).mem
    t < m'.next ∧ (m'.tab t).len = (m.tab t).len ∧ ∀ s, (m.tab t).newT = some s → (m'.tab t).newT = some s := by
  have hA := asked_ok (init_valid hash n calls hv (xs ++ ys) (len := len) (cap := cap))
  obtain ⟨h', e⟩ := exec_hist hash n ys ((Sys.init len cap calls).exec hash n xs)
  rw [← exec_append] at e
  have hok := init_ok (A := askedIn ((Sys.init len cap calls).exec hash n (xs ++ ys)).hist) hs hash n calls hv xs
    (fun k v ⟨t, op, h1, h2⟩ => ⟨t, op, by rw [e]; exact List.mem_append_left _ h1, h2⟩) hA
  have henv := (sys_ok hA hash n hok ys (fun t op h => by
    rw [← exec_append] at h
    exact ⟨init_valid hash n calls hv (xs ++ ys) t op h, fun k v ha => ⟨t, op, h, ha⟩⟩)).2
  rw [← exec_append] at henv
  have hevo := (henv hok.inv).2
  exact ⟨lt_of_lt_of_le ht hevo.next, hevo.len t ht, fun s h => hevo.newT t s ht h⟩

/-- In the demonstration run the pointer moves from table 0 to its successor, and more than one replacement was created. -/
example : (demoSys 60).mem.root ≠ 0 ∧ ((demoSys 60).mem.tab 0).newT.isSome = true ∧ 2 < (demoSys 60).mem.next := by
  decide +kernel

/-! ## C19, C20: what is left of them -/

/-- **C19**, partial: a value returned by put, putIfAbsent, putIfMatch or update never has the migration bit and never is the
tombstone; without its dirty bit it is the absent marker or a value asked for under that key, unless it is the dirty tombstone.
Missing: the dirty bit may be set (`c19_dirty_result`). -/
theorem c19_results_partial (hs : Sized len cap) (calls : Nat → List Op) (hv : ∀ t, ∀ op ∈ calls t, op.Valid) (xs : List Sched)
    {t : Nat} {k w : Word} {op : Op} (hop : (∃ v, op = .put k v) ∨ (∃ v, op = .putIfAbsent k v) ∨ (∃ v o, op = .putIfMatch k v o) ∨
      ∃ v, op = .update k v) (hh : .res t op (.word w) ∈ ((Sys.init len cap calls).exec hash n xs).hist) :
    isMig w = false ∧ w ≠ VTOMBSTONE ∧ (clean w = VINITIAL ∨ w = dirty VTOMBSTONE ∨
      ∃ t' op', .inv t' op' ∈ ((Sys.init len cap calls).exec hash n xs).hist ∧ op'.Asks k (clean w)) := by
  have h := (init_ok (A := askedIn ((Sys.init len cap calls).exec hash n xs).hist) hs hash n calls hv xs (fun _ _ h => h)
    (asked_ok (init_valid hash n calls hv xs))).hist t op (.word w) hh
  have key : PutRes (askedIn ((Sys.init len cap calls).exec hash n xs).hist) k w := by
    rcases hop with ⟨v, rfl⟩ | ⟨v, rfl⟩ | ⟨v, o, rfl⟩ | ⟨v, rfl⟩ <;> (obtain ⟨w', e, h⟩ := h; cases e; exact h)
  exact key

/-- Met by the run of `c19_dirty_result`, and by undisturbed puts of the demonstration run. -/
example : .res 0 (.put 16#64 16#64) (.word VINITIAL) ∈ (demoSys 60).hist := by decide +kernel

/-- **C20**, partial: whenever a step replaces the current table, the table's count of migrated slots has reached its length.
Missing: the count can be wrong (`c20_early_retirement`, `c20_counter_overrun`). -/
theorem c20_counted_partial (hs : Sized len cap) (calls : Nat → List Op) (hv : ∀ t, ∀ op ∈ calls t, op.Valid) (xs : List Sched)
    (x : Sched) :
    let m := ((Sys.init len cap calls).exec hash n xs).mem
    ((Sys.init len cap calls).exec hash n (xs ++ [x])).mem.root ≠ m.root → (m.tab m.root).len ≤ (m.tab m.root).copyDone := by
  have hA := asked_ok (init_valid hash n calls hv (xs ++ [x]) (len := len) (cap := cap))
  obtain ⟨h', e⟩ := exec_hist hash n [x] ((Sys.init len cap calls).exec hash n xs)
  rw [← exec_append] at e
  have hok := init_ok (A := askedIn ((Sys.init len cap calls).exec hash n (xs ++ [x])).hist) hs hash n calls hv xs
    (fun k v ⟨t, op, h1, h2⟩ => ⟨t, op, by rw [e]; exact List.mem_append_left _ h1, h2⟩) hA
  have hst := (SysOK.step (Ok := fun op => op.Valid ∧ ∀ k v, op.Asks k v →
      askedIn ((Sys.init len cap calls).exec hash n (xs ++ [x])).hist k v) hok p_evict
    (fun _ _ ho hm => p_op hA n ho.1 ho.2 hm) x (fun t op h => by
      have h : .inv t op ∈ ((Sys.init len cap calls).exec hash n (xs ++ [x])).hist := by rw [exec_append]; exact h
      exact ⟨init_valid hash n calls hv _ t op h, fun k v ha => ⟨t, op, h, ha⟩⟩)).2
  intro m hne
  rw [exec_append] at hne
  exact (hst.2.resolve_left hne).2

/-! ## C24 -/

/-- **C24**, what is in a file was in memory: at any point of any execution, both words of a pair as a crash would leave them are
both words of that pair as they stood in memory together, at one earlier point of the same execution. -/
theorem c24_snapshot (calls : Nat → List Op) (xs : List Sched) (t i : Nat)
    (ht : t < ((Sys.init len cap calls).exec hash n xs).mem.next) :
    ∃ ys zs, xs = ys ++ zs ∧ t < ((Sys.init len cap calls).exec hash n ys).mem.next ∧
      ((Sys.init len cap calls).exec hash n xs).mem.nv (.key t i) = ((Sys.init len cap calls).exec hash n ys).mem.word (.key t i) ∧
      ((Sys.init len cap calls).exec hash n xs).mem.nv (.val t i) = ((Sys.init len cap calls).exec hash n ys).mem.word (.val t i) := by
  -- what one action does to the durable copy
  have hact : ∀ (a : Act) (m m' : Mem) (r : a.Resp), a.exec m = some (r, m') → t < m'.next →
      (t < m.next ∧ m'.nv (.key t i) = m.nv (.key t i) ∧ m'.nv (.val t i) = m.nv (.val t i)) ∨
      (m'.nv (.key t i) = m'.word (.key t i) ∧ m'.nv (.val t i) = m'.word (.val t i)) := by
    intro a m m' r he ht'
    cases a <;> simp only [Act.exec] at he
    case flush a =>
      split at he
      · cases he
        by_cases e : t = a.tab ∧ i = a.idx
        · right; exact ⟨if_pos e, if_pos e⟩
        · left; refine ⟨ht', ?_, ?_⟩ <;> (simp only [writeBack]; exact if_neg e)
      · cases he
    case alloc l sz =>
      split at he
      · cases he
        by_cases e : t = m.next
        · right; subst e; simp [freshWords]
        · left
          have : t < m.next := by have : t < m.next + 1 := ht'; omega
          exact ⟨this, by simp [freshWords, e], by simp [freshWords, e]⟩
      · cases he; exact .inl ⟨ht', rfl, rfl⟩
    all_goals first
      | (cases he; exact .inl ⟨ht', rfl, rfl⟩)
      | (split at he
         · first
           | (cases he; exact .inl ⟨ht', rfl, rfl⟩)
           | (split at he <;> (cases he; exact .inl ⟨ht', rfl, rfl⟩))
         · first
           | (cases he; exact .inl ⟨ht', rfl, rfl⟩)
           | cases he)
  have hstep : ∀ (s : Sys) (x : Sched), t < (s.step hash n x).mem.next →
      (t < s.mem.next ∧ (s.step hash n x).mem.nv (.key t i) = s.mem.nv (.key t i) ∧
        (s.step hash n x).mem.nv (.val t i) = s.mem.nv (.val t i)) ∨
      ((s.step hash n x).mem.nv (.key t i) = (s.step hash n x).mem.word (.key t i) ∧
        (s.step hash n x).mem.nv (.val t i) = (s.step hash n x).mem.word (.val t i)) := by
    intro s x ht'
    cases x with
    | evict t' i' =>
      by_cases e : t = t' ∧ i = i'
      · right; exact ⟨if_pos e, if_pos e⟩
      · left; refine ⟨ht', ?_, ?_⟩ <;> (simp only [Sys.step, writeBack]; exact if_neg e)
    | run tid =>
      revert ht'
      rw [Sys.step]
      split
      · exact fun ht' => .inl ⟨ht', rfl, rfl⟩
      · exact fun ht' => .inl ⟨ht', rfl, rfl⟩
      · exact fun ht' => .inl ⟨ht', rfl, rfl⟩
      · exact fun ht' => .inl ⟨ht', rfl, rfl⟩
      · exact fun ht' => .inl ⟨ht', rfl, rfl⟩
      · split
        · exact fun ht' => .inl ⟨ht', rfl, rfl⟩
        · next he => exact fun ht' => hact _ _ _ _ he ht'
  induction xs using List.reverseRecOn with
  | nil =>
    refine ⟨[], [], rfl, ht, ?_, ?_⟩ <;> rfl
  | append_singleton xs x ih =>
    have hx : ∀ s : Sys, s.exec hash n (xs ++ [x]) = (s.exec hash n xs).step hash n x := fun s => by
      rw [exec_append]; rfl
    have ht' := ht
    rw [hx] at ht'
    rcases hstep _ x ht' with ⟨h0, h1, h2⟩ | ⟨h1, h2⟩
    · obtain ⟨ys, zs, e, h3, h4, h5⟩ := ih h0
      exact ⟨ys, zs ++ [x], by rw [e, List.append_assoc], h3, by rw [hx, h1, h4], by rw [hx, h2, h5]⟩
    · exact ⟨xs ++ [x], [], by simp, ht, by rw [hx]; exact h1, by rw [hx]; exact h2⟩

/-- **C24.** At any point of any execution, every pair in a file: an empty key slot has an empty value; otherwise the value is
empty (claimed, value never arrived), a tombstone, the "migrated" marker, or a value some call asked to store under exactly
that key, possibly marked for migration. -/
theorem c24_pairs (hs : Sized len cap) (calls : Nat → List Op) (hv : ∀ t, ∀ op ∈ calls t, op.Valid) (xs : List Sched)
    {t i : Nat} (ht : t < ((Sys.init len cap calls).exec hash n xs).mem.next)
    (hi : i < (((Sys.init len cap calls).exec hash n xs).mem.tab t).len) :
    let s := (Sys.init len cap calls).exec hash n xs
    let K := clean (s.mem.nv (.key t i))
    let V := clean (s.mem.nv (.val t i))
    (K = KINITIAL → V = VINITIAL) ∧ (V = VINITIAL ∨ V = VTOMBSTONE ∨ V = TOMBPRIME ∨
      ∃ t' op v, .inv t' op ∈ s.hist ∧ op.Asks K v ∧ (V = v ∨ V = v ||| MigrationFlag)) := by
  have h := (init_ok (A := askedIn ((Sys.init len cap calls).exec hash n xs).hist) hs hash n calls hv xs (fun _ _ h => h)
    (asked_ok (init_valid hash n calls hv xs))).inv.durable t i ⟨ht, hi⟩
  intro s K V
  refine ⟨h.1, ?_⟩
  rcases h.2 with h | h | h | ⟨t', op, h1, h2⟩ | ⟨u, ⟨t', op, h1, h2⟩, h3⟩
  · exact .inl h
  · exact .inr (.inl h)
  · exact .inr (.inr (.inl h))
  · exact .inr (.inr (.inr ⟨t', op, _, h1, h2, .inl rfl⟩))
  · exact .inr (.inr (.inr ⟨t', op, u, h1, h2, .inr h3⟩))

/-- In the demonstration run the file of table 0 soon holds a value asked for, while the value of the other slot in the file is
behind the one in memory. -/
example : clean ((demoSys 6).mem.nv (.key 0 1)) = 8#64 ∧ clean ((demoSys 6).mem.nv (.val 0 1)) = 8#64 ∧
    clean ((demoSys 4).mem.nv (.val 0 0)) ≠ clean ((demoSys 4).mem.word (.val 0 0)) := by decide +kernel

/-- **C24**, after the crash: if the map had not started to grow, then opening its file again always succeeds, and in every
execution on the reopened map (any threads, calls and interleaving) there is no undefined behaviour and a `get(k)` returns the
absent marker or a value that was asked for under `k` before the crash or after it. -/
theorem c24_restart (hs : Sized len cap) (calls calls' : Nat → List Op) (hv : ∀ t, ∀ op ∈ calls t, op.Valid)
    (hv' : ∀ t, ∀ op ∈ calls' t, op.Valid) (xs ys : List Sched)
    (h1 : ((Sys.init len cap calls).exec hash n xs).mem.next = 1) :
    let s := (Sys.init len cap calls).exec hash n xs
    ∃ m, restart s.mem s.mem.nv = .done () m ∧
      let s' := (Sys.start m calls').exec hash n ys
      s'.ub = false ∧ ∀ t k w, .res t (.get k) (.word w) ∈ s'.hist →
        w = VINITIAL ∨ ∃ t' op, (.inv t' op ∈ s.hist ∨ .inv t' op ∈ s'.hist) ∧ op.Asks k w := by
  intro s
  obtain ⟨m, hm, -⟩ := openFile_spec (fileOf s.mem.nv 0 (s.mem.tab 0).len) s.mem.cap
  refine ⟨m, hm, ?_⟩
  intro s'
  let A : Word → Word → Prop := fun k v => askedIn s.hist k v ∨ askedIn s'.hist k v
  have hval : AllValid s.hist := init_valid hash n calls hv xs
  have hval' : AllValid s'.hist := fun t op h => hv' t op (inv_calls hash n m calls' ys h)
  have hA : AskedOK A := ⟨fun k v h => h.elim ((asked_ok hval).val k v) ((asked_ok hval').val k v),
    fun k v h => h.elim ((asked_ok hval).key k v) ((asked_ok hval').key k v)⟩
  have hinv : PInv A s.mem := (init_ok (A := A) hs hash n calls hv xs (fun k v h => .inl h) hA).inv
  have h0 : 0 < s.mem.next := by rw [h1]; exact Nat.one_pos
  have hPm : PInv A m := by
    refine openFile_PInv (hinv.pow 0 h0) hinv.cap (fun i hi => hinv.durable 0 i ⟨h0, hi⟩) (fun i hi => ?_) hm
    cases hc : isMig ((fileOf s.mem.nv 0 (s.mem.tab 0).len).pair i).2 with
    | false => rfl
    | true =>
      obtain ⟨nt, hnt⟩ := Option.ne_none_iff_exists'.mp (hinv.dmig 0 i ⟨h0, hi⟩ hc)
      have := hinv.newT 0 nt h0 hnt
      have h1' : s.mem.next = 1 := h1
      omega
  have hok := (sys_ok hA hash n (start_ok hPm calls') ys fun t op h =>
    ⟨hval' t op h, fun k v ha => .inr ⟨t, op, h, ha⟩⟩).1
  refine ⟨hok.noub, ?_⟩
  intro t k w h
  obtain ⟨w', e, hw⟩ := hok.hist t (.get k) (.word w) h
  cases e
  rcases hw with hw | ⟨t', op, h1, h2⟩ | ⟨t', op, h1, h2⟩
  · exact .inl hw
  · exact .inr ⟨t', op, .inl h1, h2⟩
  · exact .inr ⟨t', op, .inr h1, h2⟩

/-- Its hypothesis is met by a crash in the middle of two concurrent puts, one of which is already in the file. -/
example : ((Sys.init 8 64 (callsOf [.put 8#64 16#64] [.put 8#64 24#64] [] [])).exec (fun x => x >>> 3) 30
      (steps 0 40 ++ [.evict 0 1] ++ steps 1 15)).mem.next = 1 ∧
    ((Sys.init 8 64 (callsOf [.put 8#64 16#64] [.put 8#64 24#64] [] [])).exec (fun x => x >>> 3) 30
      (steps 0 40 ++ [.evict 0 1] ++ steps 1 15)).mem.nv (.val 0 1) = 17#64 := by decide +kernel

end PMap
