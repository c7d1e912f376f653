import Verif.LinSearch
import Verif.Props.Witness
import Verif.Props.Fixed

/-!
# C18: conditional calls fail although the value matches

All keys are present, nothing grows, nothing is removed: the calls that `c18_present_keys_partial` leaves out.

The update loop passes on the word the failed CAS has found (hashMap.hpp:1227), with its dirty bit, and compares it with the expected
value (1175-1185), which has none.
-/

namespace PMap

/-- Thread 1 stores 8 and then 16 under the key 8 and makes one conditional call; thread 0 stores 16 under the same key.  Thread 0 has
read the value 8 when it is stopped; thread 1 is stopped in its conditional call before its CAS; then thread 0 overwrites 16 by 16. -/
def spurious (op : Op) : Sys :=
  (Sys.init 8 64 (callsOf [.put 8#64 16#64] [.put 8#64 8#64, .put 8#64 16#64, op, .get 8#64] [] [])).exec (fun x => x) 30
    (steps 1 27 ++ steps 0 17 ++ steps 1 31 ++ steps 0 20 ++ steps 1 60)

/-- The history of `spurious`. -/
def spuriousHist (op : Op) (r : Res) : List Event :=
  [.inv 1 (.put 8#64 8#64), .res 1 (.put 8#64 8#64) (.word VINITIAL), .inv 0 (.put 8#64 16#64), .inv 1 (.put 8#64 16#64),
    .res 1 (.put 8#64 16#64) (.word 8#64), .inv 1 op, .res 0 (.put 8#64 16#64) (.word 16#64), .res 1 op r, .inv 1 (.get 8#64),
    .res 1 (.get 8#64) (.word 16#64)]

theorem spurious_replace : (spurious (.replace 8#64 16#64 24#64)).hist = spuriousHist (.replace 8#64 16#64 24#64) (.bool false) := by
  decide +kernel
theorem spurious_removeIf : (spurious (.removeIf 8#64 16#64)).hist = spuriousHist (.removeIf 8#64 16#64) (.bool false) := by
  decide +kernel
theorem spurious_putIfMatch : (spurious (.putIfMatch 8#64 24#64 16#64)).hist =
    spuriousHist (.putIfMatch 8#64 24#64 16#64) (.word 17#64) := by decide +kernel

/-- **C18 is false of `replace`, of a key that is present throughout.** The value of the key is 16 from before the call until its end,
`replace(8, 16, 24)` returns false and stores nothing.  The history is not linearizable, with or without the dirty bits of results. -/
theorem c18_replace_not_linearizable : ¬ Linearizable (spurious (.replace 8#64 16#64 24#64)).hist ∧
    ¬ Linearizable ((spurious (.replace 8#64 16#64 24#64)).hist.map Event.unmark) := by
  rw [spurious_replace]
  exact ⟨not_linearizable 2 30 (by decide +kernel), not_linearizable 2 30 (by decide +kernel)⟩

/-- **C18 is false of `remove(key, value)`** likewise. -/
theorem c18_removeIf_not_linearizable : ¬ Linearizable (spurious (.removeIf 8#64 16#64)).hist ∧
    ¬ Linearizable ((spurious (.removeIf 8#64 16#64)).hist.map Event.unmark) := by
  rw [spurious_removeIf]
  exact ⟨not_linearizable 2 30 (by decide +kernel), not_linearizable 2 30 (by decide +kernel)⟩

/-- **C18 is false of `putIfMatch` with an expected value** likewise: it returns the expected value with its dirty bit set, and without
the dirty bit the result reads as success although nothing is stored. -/
theorem c18_putIfMatch_not_linearizable : ¬ Linearizable (spurious (.putIfMatch 8#64 24#64 16#64)).hist ∧
    ¬ Linearizable ((spurious (.putIfMatch 8#64 24#64 16#64)).hist.map Event.unmark) := by
  rw [spurious_putIfMatch]
  exact ⟨not_linearizable 2 30 (by decide +kernel), not_linearizable 2 30 (by decide +kernel)⟩

/-- The search accepts what is linearizable: the same history with the result `true` and the value 24 found afterwards. -/
example : linS 2 30 AMap.empty (fun _ => .idle)
    [.inv 1 (.put 8#64 8#64), .res 1 (.put 8#64 8#64) (.word VINITIAL), .inv 0 (.put 8#64 16#64), .inv 1 (.put 8#64 16#64),
      .res 1 (.put 8#64 16#64) (.word 8#64), .inv 1 (.replace 8#64 16#64 24#64), .res 0 (.put 8#64 16#64) (.word 16#64),
      .res 1 (.replace 8#64 16#64 24#64) (.bool true), .inv 1 (.get 8#64), .res 1 (.get 8#64) (.word 24#64)] = true := by decide +kernel

/-- These runs have no undefined behaviour, no failed assertion and no growth. -/
example : ∀ op ∈ [Op.replace 8#64 16#64 24#64, .removeIf 8#64 16#64, .putIfMatch 8#64 24#64 16#64],
    (spurious op).ub = false ∧ (spurious op).mem.failed = false ∧ ((spurious op).mem.tab 0).newT = none := by decide +kernel

/-! ## What does hold of conditional calls -/

open Prog in
/-- **C18, partial**, with conditional calls.  On keys present in a table that is not being replaced, every history of any calls
(for each key increments or removals, not both; `putIfMatch` with "any value" only of keys that are not removed) by any number of
threads under any schedule is explained by an ordinary map in which a conditional call may, besides doing what it should, give up
although its condition holds, provided that another thread makes a call that may store what the call waits for; and no thread meets
undefined behaviour or fails an assertion.  In particular a `replace` or `remove(key, value)` that returns true has taken effect once on
the value it names, and one that returns false has changed nothing.  Missing for the full claim: that calls with rivals do not give up
(refuted above), calls that add keys (refuted by `c18_not_linearizable`), growth (refuted by `c20_lost_key`), and the two excluded
combinations (refuted below). -/
theorem c18_conditional_partial {hash : Word → Word} {len cap n : Nat} (hs : Sized len cap) {m : Mem} {M : AMap}
    (h : Reach hash len cap (fun _ => True) m M) (hn : (m.tab m.root).newT = none) (rem : Word → Bool) {ctr : Word → Prop} {U : Nat}
    (hroom : ∀ k v, ctr k → M k = some v → v.toNat + 8 * U < LIM) {calls : Nat → List Op}
    (hc : ∀ t, ∀ op ∈ calls t, op.OnW (fun k => M k ≠ none) rem ∧ op.Room ctr U) (xs : List Sched)
    (hU : ((Sys.start m calls).exec hash n xs).hist.countP Event.updBegins ≤ U) :
    WeakRun (Rivalled calls) M (fun _ => .idle) (((Sys.start m calls).exec hash n xs).hist.map Event.unmark) ∧
      ((Sys.start m calls).exec hash n xs).ub = false ∧ ((Sys.start m calls).exec hash n xs).mem.failed = false := by
  rw [← begTids_upd] at hU
  obtain ⟨M', P, fx, hf, hw⟩ := weak_start (n := n) hs h hn rem hroom hc xs hU
  refine ⟨?_, hf.noub, hf.rep.ok⟩
  have := hw.run [] .nil
  rwa [List.append_nil] at this

/-- **C18, partial**, with conditional calls that have no rivals: if no thread makes a call that may store what a conditional call of
another thread waits for, the histories of `c18_conditional_partial` are linearizable once the dirty bits of results are dropped. -/
theorem c18_unrivalled_partial {hash : Word → Word} {len cap n : Nat} (hs : Sized len cap) {m : Mem} {M : AMap}
    (h : Reach hash len cap (fun _ => True) m M) (hn : (m.tab m.root).newT = none) (rem : Word → Bool) {ctr : Word → Prop} {U : Nat}
    (hroom : ∀ k v, ctr k → M k = some v → v.toNat + 8 * U < LIM) {calls : Nat → List Op}
    (hc : ∀ t, ∀ op ∈ calls t, op.OnW (fun k => M k ≠ none) rem ∧ op.Room ctr U)
    (hrv : ∀ t, ∀ op ∈ calls t, ¬ Rivalled calls t op) (xs : List Sched)
    (hU : ((Sys.start m calls).exec hash n xs).hist.countP Event.updBegins ≤ U) :
    LinRun M (fun _ => .idle) (((Sys.start m calls).exec hash n xs).hist.map Event.unmark) ∧
      ((Sys.start m calls).exec hash n xs).ub = false ∧ ((Sys.start m calls).exec hash n xs).mem.failed = false := by
  rw [← begTids_upd] at hU
  exact fix_start (n := n) hs h hn rem hroom hc hrv xs hU

instance (k v : Word) (op : Op) : Decidable (op.leaves k v) := by
  cases op <;> simp only [Op.leaves] <;> infer_instance

/-- Two calls are not rivals. -/
def Op.apart (op op' : Op) : Bool :=
  match op.expects with
  | none => true
  | some p => !decide (op'.leaves p.1 p.2)

theorem unrivalled_of {c0 c1 c2 c3 : List Op}
    (h : ∀ t < 4, ∀ t' < 4, t' ≠ t → ∀ op ∈ callsOf c0 c1 c2 c3 t, ∀ op' ∈ callsOf c0 c1 c2 c3 t', op.apart op' = true) :
    ∀ t, ∀ op ∈ callsOf c0 c1 c2 c3 t, ¬ Rivalled (callsOf c0 c1 c2 c3) t op := by
  have lt : ∀ t op, op ∈ callsOf c0 c1 c2 c3 t → t < 4 := by
    intro t op ho
    by_contra hge
    rw [callsOf, if_neg (by omega), if_neg (by omega), if_neg (by omega), if_neg (by omega)] at ho
    cases ho
  rintro t op ho ⟨k, o, he, t', ht, op', ho', hl⟩
  have := h t (lt t op ho) t' (lt t' op' ho') ht op ho op' ho'
  rw [Op.apart, he] at this
  simp [hl] at this

/-- The call that gives up in `spurious` has a rival: the other thread stores the value it waits for. -/
example : Rivalled (callsOf [.put 8#64 16#64] [.put 8#64 8#64, .put 8#64 16#64, .replace 8#64 16#64 24#64, .get 8#64] [] []) 1
    (.replace 8#64 16#64 24#64) :=
  ⟨8#64, 16#64, rfl, 0, by decide, .put 8#64 16#64, List.mem_singleton.mpr rfl, rfl, rfl⟩

/-- `c18_unrivalled_partial` is not vacuous: three threads that each wait for a value the others do not store, and one that increments
another key. -/
example : Sized 8 64 ∧ (∃ m, Reach (fun x => x >>> 3) 8 64 (fun _ => True) m (specRun fixOps AMap.empty) ∧
      (m.tab m.root).newT = none) ∧ (∀ k v, k = 16#64 → specRun fixOps AMap.empty k = some v → v.toNat + 8 * 1 < LIM) ∧
    (∀ t, ∀ op ∈ callsOf [.replace 8#64 80#64 88#64, .replace 8#64 88#64 96#64] [.replace 8#64 80#64 104#64, .removeIf 8#64 104#64]
        [.putIfMatch 8#64 112#64 80#64, .putIfMatch 8#64 120#64 112#64] [.update 16#64 MATCH_ANY] t,
      op.OnW (fun k => specRun fixOps AMap.empty k ≠ none) (fun k => k == 8#64) ∧ op.Room (fun k => k = 16#64) 1) ∧
    ∀ t, ∀ op ∈ callsOf [.replace 8#64 80#64 88#64, .replace 8#64 88#64 96#64] [.replace 8#64 80#64 104#64, .removeIf 8#64 104#64]
        [.putIfMatch 8#64 112#64 80#64, .putIfMatch 8#64 120#64 112#64] [.update 16#64 MATCH_ANY] t,
      ¬ Rivalled (callsOf [.replace 8#64 80#64 88#64, .replace 8#64 88#64 96#64] [.replace 8#64 80#64 104#64, .removeIf 8#64 104#64]
        [.putIfMatch 8#64 112#64 80#64, .putIfMatch 8#64 120#64 112#64] [.update 16#64 MATCH_ANY]) t op := by
  have h8 : specRun fixOps AMap.empty 8#64 ≠ none := by decide
  have h16 : specRun fixOps AMap.empty 16#64 ≠ none := by decide
  refine ⟨⟨⟨3, by decide, rfl⟩, by decide⟩, fix_reach, ?_, ?_, ?_⟩
  · rintro k v rfl h
    have : some v = some 160#64 := h.symm.trans (by decide)
    cases this
    decide
  · refine callsOf_all ?_ ?_ ?_ ?_ <;> intro op h <;> simp only [List.mem_cons, List.not_mem_nil, or_false] at h
    · rcases h with rfl | rfl
      all_goals exact ⟨⟨h8, by decide, by decide⟩, fun h => absurd h (by decide)⟩
    · rcases h with rfl | rfl
      exacts [⟨⟨h8, by decide, by decide⟩, fun h => absurd h (by decide)⟩, ⟨⟨h8, by decide, rfl⟩, trivial⟩]
    · rcases h with rfl | rfl
      all_goals exact ⟨⟨h8, by decide, .inl (by decide)⟩, fun h => absurd h (by decide)⟩
    · rcases h with rfl
      exact ⟨⟨h16, rfl, rfl⟩, rfl⟩
  · exact unrivalled_of (by decide)

/-- `c18_conditional_partial` is not vacuous: three threads with all the conditional calls, and one with puts and a removal. -/
example : Sized 8 64 ∧ (∃ m, Reach (fun x => x >>> 3) 8 64 (fun _ => True) m (specRun fixOps AMap.empty) ∧
      (m.tab m.root).newT = none) ∧ (∀ k v, False → specRun fixOps AMap.empty k = some v → v.toNat + 8 * 0 < LIM) ∧
    ∀ t, ∀ op ∈ callsOf [.replace 8#64 80#64 88#64, .get 16#64] [.removeIf 8#64 88#64, .putIfAbsent 8#64 168#64]
        [.putIfMatch 8#64 96#64 88#64, .putIfMatch 8#64 96#64 VTOMBSTONE] [.put 8#64 80#64, .remove 8#64] t,
      op.OnW (fun k => specRun fixOps AMap.empty k ≠ none) (fun _ => true) ∧ op.Room (fun _ => False) 0 := by
  refine ⟨⟨⟨3, by decide, rfl⟩, by decide⟩, fix_reach, fun _ _ h => h.elim, ?_⟩
  have h8 : specRun fixOps AMap.empty 8#64 ≠ none := by decide
  refine callsOf_all ?_ ?_ ?_ ?_ <;> intro op h <;> simp only [List.mem_cons, List.not_mem_nil, or_false] at h
  · rcases h with rfl | rfl
    exacts [⟨⟨h8, by decide, by decide⟩, fun h => h.elim⟩, ⟨(by decide : ValidKey _), trivial⟩]
  · rcases h with rfl | rfl
    exacts [⟨⟨h8, by decide, rfl⟩, trivial⟩, ⟨⟨h8, by decide⟩, fun h => h.elim⟩]
  · rcases h with rfl | rfl
    exacts [⟨⟨h8, by decide, .inl (by decide)⟩, fun h => h.elim⟩, ⟨⟨h8, by decide, .inr (.inr (.inl rfl))⟩, fun h => h.elim⟩]
  · rcases h with rfl | rfl
    exacts [⟨⟨h8, by decide⟩, fun h => h.elim⟩, ⟨⟨h8, rfl⟩, trivial⟩]

/-! ## The two combinations left out

The "removed" marker with its dirty bit set is not recognised as such (hashMap.hpp:534-538, 1175-1185). -/

/-- Thread 1 puts, removes, puts and removes the key 8 and then reads it; thread 0 makes one call, which is stopped before each of its
first two CAS. -/
def staleTomb (op : Op) : Sys :=
  (Sys.init 8 64 (callsOf [op] [.put 8#64 16#64, .remove 8#64, .put 8#64 8#64, .remove 8#64, .get 8#64] [] [])).exec (fun x => x) 30
    (steps 1 27 ++ steps 0 18 ++ steps 1 17 ++ steps 0 8 ++ steps 1 37 ++ steps 0 4 ++ steps 1 11)

/-- The history of `staleTomb`. -/
def staleHist (op : Op) (w : Word) : List Event :=
  [.inv 1 (.put 8#64 16#64), .res 1 (.put 8#64 16#64) (.word VINITIAL), .inv 0 op, .inv 1 (.remove 8#64),
    .res 1 (.remove 8#64) (.bool true), .inv 1 (.put 8#64 8#64), .res 1 (.put 8#64 8#64) (.word VINITIAL), .inv 1 (.remove 8#64),
    .res 1 (.remove 8#64) (.bool true), .res 0 op (.word (dirty VTOMBSTONE)), .inv 1 (.get 8#64), .res 1 (.get 8#64) (.word w)]

theorem stale_update : (staleTomb (.update 8#64 MATCH_ANY)).hist = staleHist (.update 8#64 MATCH_ANY) VINITIAL := by decide +kernel
theorem stale_any : (staleTomb (.putIfMatch 8#64 24#64 MATCH_ANY)).hist = staleHist (.putIfMatch 8#64 24#64 MATCH_ANY) 24#64 := by
  decide +kernel

/-- **C21 is false of a key that has been removed**: the increment finds the "removed" marker with its dirty bit set, takes it for a
number and adds one, which gives the marker for "no value" (hashMap.hpp:532-546).  The increment is lost, the last call but one to end on
that key, and the history is not linearizable. -/
theorem c21_increment_of_marker : ¬ Linearizable (staleTomb (.update 8#64 MATCH_ANY)).hist ∧
    ¬ Linearizable ((staleTomb (.update 8#64 MATCH_ANY)).hist.map Event.unmark) ∧
    (staleTomb (.update 8#64 MATCH_ANY)).mem.word (.key 0 0) = 8#64 ∧
    clean ((staleTomb (.update 8#64 MATCH_ANY)).mem.word (.val 0 0)) = VINITIAL := by
  rw [stale_update]
  exact ⟨not_linearizable 2 30 (by decide +kernel), not_linearizable 2 30 (by decide +kernel), by decide +kernel, by decide +kernel⟩

/-- **C18 is false of `putIfMatch` with "any value"**: it stores a value under a key that has been removed. -/
theorem c18_matchAny_not_linearizable : ¬ Linearizable (staleTomb (.putIfMatch 8#64 24#64 MATCH_ANY)).hist ∧
    ¬ Linearizable ((staleTomb (.putIfMatch 8#64 24#64 MATCH_ANY)).hist.map Event.unmark) := by
  rw [stale_any]
  exact ⟨not_linearizable 2 30 (by decide +kernel), not_linearizable 2 30 (by decide +kernel)⟩

end PMap
