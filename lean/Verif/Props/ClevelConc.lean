import Verif.Clevel.Mover
import Verif.Props.Clevel

/-!
# C64: the clevel table under several threads

The clevel table is called by every thread of the program while its own background thread moves entries to higher levels.  Searches
beside the background thread return the right answer if they return, but may dereference null; inserts and erases beside it or beside
each other may use freed memory or insert one key twice.
-/

namespace PMap.Clevel

open CP

/-- The background thread for `n` rounds, as a thread (no code of its own; the loop is clevel:1437-1577). -/
def movers (E : CEnv) (lf f n : Nat) : CP Bool := do
  rounds E lf f n
  pure false

/-- Keys that share both buckets in every level (no code of its own). -/
def far (i : Nat) : Word := BitVec.ofNat 64 (2 ^ 20 * i)

/-- The memory after inserts of `n` keys into the table of levelMap.hpp (no code of its own). -/
def filled (n tn : Nat) : CSt :=
  match (Call.progs E0 16 3 ((List.range n).map fun i => .insert 0 (far (i + 1)) 7#64)).run (CSt.new 14 tn) with
  | some (.ok _ s) => s
  | _ => CSt.new 14 1

/-- The threads of a list, on a memory (no code of its own). -/
def threads (s : CSt) (l : List (CP Bool)) : Par := ⟨s, fun i => l.getD i (.ret false)⟩

/-- A schedule: the threads named take the number of steps named (no code of its own). -/
def turns (l : List (Nat × Nat)) : List Nat := l.flatMap fun x => List.replicate x.2 x.1

/-- The behaviour of thread `i` was undefined (no code of its own). -/
def POut.isUb (i : Nat) : POut → Bool
  | .ub j => decide (j = i)
  | _ => false

/-- What the first threads have returned (no code of its own). -/
def POut.returned (n : Nat) : POut → List (Option Bool)
  | .go x => (List.range n).map fun i => match x.th i with
    | .ret b => some b
    | _ => none
  | _ => []

/-! ## What goes wrong -/

/-- **C64 is false of searches beside the background thread**: `search` names the slot three times (clevel:573-577).  The background
thread moves the entry away after the test against null, and the third load gives the null pointer that is then dereferenced. -/
theorem c64_search_null : ((threads (filled 33 1) [movers E0 16 3 1, search E0 (far 17) 16 3]).run
    (turns [(1, 5), (0, 14), (1, 3)])).isUb 1 = true := by decide +kernel

/-- **C64 is false of searches beside erases**, with no background thread: the erase frees the entry between the load of the pointer
and the load of the key. -/
theorem c64_search_freed : ((threads (filled 1 1) [erase E0 (far 1) 16 3 false, search E0 (far 1) 16 3]).run
    (turns [(1, 41), (0, 100), (1, 1)])).isUb 1 = true := by decide +kernel

/-- **C64 is false of inserts beside erases**, with no background thread: `find` reads the key of an entry that was freed. -/
theorem c64_insert_freed : ((threads (filled 1 2) [insert E0 0 (far 2) 7#64 16 3, erase E0 (far 1) 16 3 false]).run
    (turns [(0, 26), (1, 300), (0, 300)])).isUb 0 = true := by decide +kernel

/-- **C64 is false of erases beside the background thread**: the background thread reads the key of the entry it moves after an erase
freed it. -/
theorem c64_move_freed : ((threads (filled 33 1) [movers E0 16 3 1, erase E0 (far 17) 16 3 false]).run
    (turns [(0, 8), (1, 200), (0, 300)])).isUb 0 = true := by decide +kernel

/-- **C64 is false of erases beside the background thread**: the erase has returned, and the entry comes back: the background
thread stores in the higher level the pointer that it loaded before.  A later search dereferences the freed entry. -/
theorem c64_erased_back : ((threads (filled 33 1) [movers E0 16 3 1, erase E0 (far 17) 16 3 false]).run
      (turns [(0, 9), (1, 200), (0, 300)])).returned 2 = [some false, some true] ∧
    ((threads (filled 33 1) [movers E0 16 3 1, erase E0 (far 17) 16 3 false, search E0 (far 17) 16 3]).run
      (turns [(0, 9), (1, 200), (0, 300), (2, 300)])).isUb 2 = true := by decide +kernel

/-- **C64 is false of the first thread beside the background thread**: both use `tmp_level[0]` (clevel:1304, 1433, 1528).  Both make a new
level, the insert links its own in, or rather the other's, for the place was overwritten; the background thread, which comes second,
frees that level, and the insert goes on in it. -/
theorem c64_shared_level : ((threads (filled 48 1) [movers E0 16 3 1, insert E0 0 (far 49) 7#64 16 3]).run
    (turns [(0, 29), (1, 162), (0, 1), (1, 2), (0, 3), (1, 300)])).isUb 1 = true := by decide +kernel

/-- **C64 is false of two inserts of one key**, with two places in `tmp_entry` and no background thread: both report that the key is
new.  The first has chosen a slot in the right bucket; an erase frees a slot in the left bucket, and the second takes that one. -/
theorem c64_inserted_twice : ((threads (filled 1 2) [insert E0 0 (far 2) 7#64 16 3, insert E0 1 (far 2) 8#64 16 3,
      erase E0 (far 1) 16 3 false]).run (turns [(0, 30), (2, 300), (1, 300), (0, 300)])).returned 3 =
    [some true, some true, some true] := by decide +kernel

/-! ## What is right -/

variable {E : CEnv} {hp tn lf f : Nat}

theorem inv_calls (hhp : 2 ≤ hp) (htn : 0 < tn) (hpool : 2 ^ hp ≤ E.pool ∧ E.pool < 2 ^ (hp + 14)) (hlf : maxLevel ≤ lf) (cs : List Call)
    (hcs : ∀ c ∈ cs, c.fits tn) {bs : List Bool} {s : CSt} (h : (Call.progs E lf (f + 2) cs).run (CSt.new hp tn) = some (.ok bs s)) :
    ∃ p ls J, Inv E True (hp - 1) s p ls (specCalls cs fun _ => none).2 J := by
  have h0 := (Inv.init (E := E) (B := True) hhp htn hpool.1 hpool.2).congrJ (J' := (· ∈ ([] : List Word))) (by simp)
  have := cwp_run (cwp_calls (f := f) hlf h0 List.nodup_nil rfl hcs (fun _ => trivial)
    (Q := fun _ s => ∃ p ls J, Inv E True (hp - 1) s p ls (specCalls cs fun _ => none).2 J)
    fun s' p' ls' W' h' _ _ _ => ⟨p', ls', _, h'⟩)
  rw [h] at this
  rcases this with h | ⟨_, _, h, h1⟩
  · cases h
  · cases h
    exact h1

/-- Searches by a search of a slot that meets `SlotSpec`, beside the background thread.  Helper. -/
theorem searches_beside {B : Prop} {sl : Nat → Nat → Nat → BitVec 16 → Word → CP Bool} (hsl : SlotSpec B E sl) (hhp : 2 ≤ hp)
    (htn : 0 < tn) (hpool : 2 ^ hp ≤ E.pool ∧ E.pool < 2 ^ (hp + 14)) (hlf : maxLevel ≤ lf) (cs : List Call)
    (hcs : ∀ c ∈ cs, c.fits tn) {bs : List Bool} {s : CSt} (h : (Call.progs E lf (f + 2) cs).run (CSt.new hp tn) = some (.ok bs s))
    (n lf' f' : Nat) (keys : Nat → Word) (sched : List Nat) :
    match (Par.mk s fun i => if i = 0 then movers E lf (f + 2) n else searchBy sl E (keys i) lf' f').run sched with
    | .go y => ∀ i, i ≠ 0 → ∀ b, y.th i = .ret b → b = ((specCalls cs fun _ => none).2 (keys i)).isSome
    | .oom i => i = 0
    | .ub i => i ≠ 0 ∧ B
    | .abort _ => False := by
  obtain ⟨p, ls, J, hI⟩ := inv_calls hhp htn hpool hlf cs hcs h
  have hR := hI.rinv
  have := par_run (B := B) (RI := RInv E (specCalls cs fun _ => none).2) (Rel := Rely) Rely.refl Rely.trans
    (fun i => ((specCalls cs fun _ => none).2 (keys i)).isSome) sched
    (Par.mk s fun i => if i = 0 then movers E lf (f + 2) n else searchBy sl E (keys i) lf' f') hR (by
      show gcwp _ (movers E lf (f + 2) n) _ _
      unfold movers
      rw [gcwp_bind]
      exact mwp_rounds trivial hlf hI fun _ _ _ _ => trivial) (fun i hi => by
      dsimp only
      rw [if_neg hi]
      exact swpC_search hsl)
  revert this
  cases Par.run sched _ with
  | go y => exact fun h => h.2
  | oom i => exact id
  | ub i => exact id
  | abort i => exact id

/-- **C64**, searches beside the background thread: start from the table after any calls, with any number of threads that each search
for some key while the background thread works, in any order of the accesses.  Every search that returns returns whether the key is in the map:
no key is overlooked while it is moved.  The behaviour of the background thread is defined, no assertion fails, and only the background
thread allocates.  Partial: no inserts, erases or updates beside them, and the behaviour of a search may be undefined
(`c64_search_null`). -/
theorem c64_searches_partial (hhp : 2 ≤ hp) (htn : 0 < tn) (hpool : 2 ^ hp ≤ E.pool ∧ E.pool < 2 ^ (hp + 14)) (hlf : maxLevel ≤ lf)
    (cs : List Call) (hcs : ∀ c ∈ cs, c.fits tn) {bs : List Bool} {s : CSt}
    (h : (Call.progs E lf (f + 2) cs).run (CSt.new hp tn) = some (.ok bs s)) (n lf' f' : Nat) (keys : Nat → Word) (sched : List Nat) :
    match (Par.mk s fun i => if i = 0 then movers E lf (f + 2) n else search E (keys i) lf' f').run sched with
    | .go y => ∀ i, i ≠ 0 → ∀ b, y.th i = .ret b → b = ((specCalls cs fun _ => none).2 (keys i)).isSome
    | .oom i => i = 0
    | .ub i => i ≠ 0
    | .abort _ => False := by
  have := searches_beside (B := True) (sl := searchSlot) slotSpec_search hhp htn hpool hlf cs hcs h n lf' f' keys sched
  simp only [searchBy_eq, and_true] at this
  exact this

/-- One slot of a repaired `search`: the slot is loaded once, as `erase` does it (clevel:1130).  No code of its own: the repair. -/
def searchSlotOnce (l b j : Nat) (p : BitVec 16) (key : Word) : CP Bool := do
  let w ← rdSlot l b j
  if tagOf w = p ∧ getOffset w ≠ 0#64 then
    let k ← rdKey w
    pure (decide (k = key))
  else pure false

theorem slotSpec_once : SlotSpec False E searchSlotOnce := by
  intro M m X p ls key s l b j c u rest hw hg hb hj _ hT hT' hA
  unfold searchSlotOnce
  refine rwp_bind (swpC_rdSlot hg hb hj fun t1 hI1 hr1 => ?_)
  have hA1 := hA.stable hw hT hr1 hI1
  obtain ⟨u1, hg1⟩ := geo_rely hr1 hg
  have hw1 := hw.stable hr1
  refine rwp_if (fun hc => ?_) fun hc => ?_
  · obtain ⟨htag, h0⟩ := hc
    rcases hI1.slots l c u1 b j hg1 hb hj with hz | ⟨k, v, -, h2, -, -, h5⟩
    · rw [hz] at h0
      exact absurd (by decide) h0
    refine rwp_bind (swpC_rdKey (fun hn => ?_) fun t2 e hI2 hr2 he => ?_)
    · rw [h2] at hn
      cases hn
    · rw [h2] at he
      cases he
      refine ⟨hI2, hr1.trans _ _ _ hr2, fun h => ?_, fun h => ?_⟩
      · rw [← of_decide_eq_true h]
        exact h5
      · refine (hA1.tail fun v' hv => ?_).stable hw1 hT' hr2 hI2
        rw [(view_some hv).2] at h2
        cases h2
        exact of_decide_eq_false h rfl
  · refine ⟨hI1, hr1, fun h => (by cases h), fun _ => hA1.tail fun v hv => ?_⟩
    by_cases ht : tagOf (word t1 l b j) = getPartial (E.hash key)
    · exact hc ⟨ht, (view_some hv).1⟩
    · exact hI1.not_view hg1 hb hj ht v hv

/-- **C64**, the repair of `search`: with one load of the slot in place of three the same holds of searches beside the background
thread, and their behaviour is defined. -/
theorem c64_search_once (hhp : 2 ≤ hp) (htn : 0 < tn) (hpool : 2 ^ hp ≤ E.pool ∧ E.pool < 2 ^ (hp + 14)) (hlf : maxLevel ≤ lf)
    (cs : List Call) (hcs : ∀ c ∈ cs, c.fits tn) {bs : List Bool} {s : CSt}
    (h : (Call.progs E lf (f + 2) cs).run (CSt.new hp tn) = some (.ok bs s)) (n lf' f' : Nat) (keys : Nat → Word) (sched : List Nat) :
    match (Par.mk s fun i => if i = 0 then movers E lf (f + 2) n else searchBy searchSlotOnce E (keys i) lf' f').run sched with
    | .go y => ∀ i, i ≠ 0 → ∀ b, y.th i = .ret b → b = ((specCalls cs fun _ => none).2 (keys i)).isSome
    | .oom i => i = 0
    | .ub _ => False
    | .abort _ => False := by
  have := searches_beside (B := False) (sl := searchSlotOnce) slotSpec_once hhp htn hpool hlf cs hcs h n lf' f' keys sched
  simp only [and_false] at this
  exact this

/-- The schedule of `c64_search_null` with the repaired search, and one in which the searches are overtaken by the background thread. -/
example : (((threads (filled 33 1) [movers E0 16 3 1, searchBy searchSlotOnce E0 (far 17) 16 3]).run
      (turns [(1, 5), (0, 14), (1, 300)])).returned 2 = [none, some true]) ∧
    (((threads (filled 33 1) [movers E0 16 3 1, search E0 (far 17) 16 3, search E0 (far 40) 16 3]).run
      (turns [(1, 4), (2, 20), (0, 100), (1, 300), (2, 300)])).returned 3 = [some false, some true, some false]) := by decide +kernel

/-- `filled 33` is such a state: the calls run through. -/
example : resultOf ((Call.progs E0 16 3 ((List.range 33).map fun i => .insert 0 (far (i + 1)) 7#64)).run (CSt.new 14 1)) =
    some (List.replicate 33 true) := by decide +kernel

end PMap.Clevel
