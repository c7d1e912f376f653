import Verif.Durable.OwnedLast
import Verif.Props.Durable
import Verif.Props.Path

/-!
# How much a crash can lose when each key has one writer (C22)

Any number of threads, all calls, every interleaving; each key is changed by one thread only, and every thread may read it.
-/

namespace PMap

open Prog

variable {hash : Word → Word} {n len cap : Nat} {own : Word → Nat}

theorem shared_init (hs : Sized len cap) (calls : Nat → List Op) (hv : ∀ t, ∀ op ∈ calls t, op.Valid) (xs : List Sched)
    (h1 : (((Sys.init len cap calls).exec hash n xs).mem.tab 0).newT = none)
    (hr : ∀ i, i < len → NoReturn hash n (Sys.init len cap calls) xs (.val 0 i)) :
    Shared hash n (Sys.init len cap calls) xs len := by
  have hF := still_init hs calls hv xs h1
  refine ⟨⟨hF, fun ys _ i _ => c23_keys hs calls hv ys 0 i, fun ys hy i hi => c23_words_partial calls ys
    fun x y z g1 g2 g3 => hr i hi x y z g1 g2 (g3.trans hy)⟩, fun ys hy i hi hK => ?_, fun ys hy i hi hK hT => ?_⟩
  · have hi' : Has ((Sys.init len cap calls).exec hash n ys).mem 0 i := ⟨hF.next ys hy, by rw [hF.len ys hy]; exact hi⟩
    exact ((init_ok hs hash n calls hv ys (A := askedIn ((Sys.init len cap calls).exec hash n ys).hist)
      (fun _ _ h => h) (asked_ok (init_valid hash n calls hv ys (len := len) (cap := cap)))).inv.pair 0 i hi').1 hK
  · obtain ⟨d, h2, h3, h4⟩ := c59_path_without_gaps hs hash n calls hv ys [] 0 i (hF.next ys hy) (by rw [hF.len ys hy]; exact hi) hK hT
    rw [hF.len ys hy] at h2 h3 h4
    refine ⟨d, h2, by rw [probeSlot_mod hF.pow]; exact h3, fun e he => ?_⟩
    rw [probeSlot_mod hF.pow]
    exact (h4 e (Nat.le_of_lt he)).1

/-- **C22, one writer per key.** For all valid calls of any number of threads such that each key is changed by one thread (`own`;
all threads may read all keys), every interleaving, any write-backs, and every crash point before the first growth (in the middle
of calls or not), as long as no value word has returned to an earlier value: for each key `k` the restart succeeds, and `get` of
`k` then finds either what a `get` made at the moment of the crash would have found, or what one made just before the last change
of `k` would have found: from the step after `ys` to the crash, every `get` made alone finds the same `w`.  So of each key at most
the last change is lost, and what was there before it comes back.  Partial: C22 claims that nothing is lost, which is false
(`c22_put_lost`); with values that return, more can be lost (`c22_two_changes_lost`); after a growth the restart opens the old
table (`c41_restart_after_growth`). -/
theorem c22_one_writer_partial (hs : Sized len cap) (calls : Nat → List Op) (hv : ∀ t, ∀ op ∈ calls t, op.Valid)
    (ho : ∀ t, ∀ op ∈ calls t, ∀ k, op.changes = some k → own k = t) (xs : List Sched)
    (h1 : (((Sys.init len cap calls).exec hash n xs).mem.tab 0).newT = none)
    (hr : ∀ i, i < len → NoReturn hash n (Sys.init len cap calls) xs (.val 0 i)) {k : Word} (hk : k ≠ KINITIAL) :
    ∃ m w' w, restart ((Sys.init len cap calls).exec hash n xs).mem ((Sys.init len cap calls).exec hash n xs).mem.nv = .done () m ∧
      (∀ N, reprobeLimit len + 1 < N → ∃ m', run (mapGet hash N k) m = .done w' m') ∧
      (∀ N, reprobeLimit len + 1 < N → ∃ m', run (mapGet hash N k) ((Sys.init len cap calls).exec hash n xs).mem = .done w m') ∧
      (w' = w ∨ ∃ ys x, ys ++ [x] <+: xs ∧
        (∀ N, reprobeLimit len + 1 < N → ∃ m', run (mapGet hash N k) ((Sys.init len cap calls).exec hash n ys).mem = .done w' m') ∧
        ∀ zs, ys ++ [x] <+: zs → zs <+: xs → ∀ N, reprobeLimit len + 1 < N →
          ∃ m', run (mapGet hash N k) ((Sys.init len cap calls).exec hash n zs).mem = .done w m') :=
  owned_restart (shared_init hs calls hv xs h1 hr) (own := own) (fun t op h => ⟨hv t op h, ho t op h⟩) (opened_fresh hs).begun hk

/-- **C22, one writer per key, different stores.** The same with hypotheses on the calls only: there are no `update`s, and no two
calls store the same value under the same key (a removal stores the deletion mark). -/
theorem c22_one_writer_distinct_partial (hs : Sized len cap) (calls : Nat → List Op) (hv : ∀ t, ∀ op ∈ calls t, op.Valid)
    (ho : ∀ t, ∀ op ∈ calls t, ∀ k, op.changes = some k → own k = t) (hc : DistinctStores calls) (xs : List Sched)
    (h1 : (((Sys.init len cap calls).exec hash n xs).mem.tab 0).newT = none) {k : Word} (hk : k ≠ KINITIAL) :
    ∃ m w' w, restart ((Sys.init len cap calls).exec hash n xs).mem ((Sys.init len cap calls).exec hash n xs).mem.nv = .done () m ∧
      (∀ N, reprobeLimit len + 1 < N → ∃ m', run (mapGet hash N k) m = .done w' m') ∧
      (∀ N, reprobeLimit len + 1 < N → ∃ m', run (mapGet hash N k) ((Sys.init len cap calls).exec hash n xs).mem = .done w m') ∧
      (w' = w ∨ ∃ ys x, ys ++ [x] <+: xs ∧
        (∀ N, reprobeLimit len + 1 < N → ∃ m', run (mapGet hash N k) ((Sys.init len cap calls).exec hash n ys).mem = .done w' m') ∧
        ∀ zs, ys ++ [x] <+: zs → zs <+: xs → ∀ N, reprobeLimit len + 1 < N →
          ∃ m', run (mapGet hash N k) ((Sys.init len cap calls).exec hash n zs).mem = .done w m') :=
  c22_one_writer_partial hs calls hv ho xs h1 (fun _ hi => noReturn_of_distinct (fun t => ⟨_, rfl, hv t⟩) (fun _ => rfl) hc
    (.inl (by simp [Sys.init, freshMem, freshWords]; decide)) (still_init hs calls hv xs h1) hi) hk

/-! ## Why values must not return -/

/-- One thread puts 16, 24, 16 and 32 under key 8; another is between the flush and the CAS of `persist` (for the first 16) when
the word is 16 again. -/
def twoLostCalls : Nat → List Op := callsOf [.put 8#64 16#64, .put 8#64 24#64, .get 8#64, .put 8#64 16#64, .put 8#64 32#64]
  [.get 8#64] [] []
def twoLostPre : List Sched := steps 0 27 ++ steps 1 10 ++ steps 0 46 ++ steps 1 4
def twoLostSys (j : Nat) : Sys := (Sys.init 8 64 twoLostCalls).exec (fun x => x >>> 3) 30 (twoLostPre ++ steps 0 j)

/-- **C22**: the one writer of a key can lose two changes when a value returns.  Its `put` of 16 over 24 has returned; `get` finds
16 until the 12th step after that schedule, and 32 from the 13th on; but after a crash at the 13th, or when the last `put` too has
returned, it finds 24, the value before the last two changes. -/
theorem c22_two_changes_lost : .res 0 (.put 8#64 16#64) (.word 24#64) ∈ (twoLostSys 12).hist ∧
    (run (mapGet (fun x => x >>> 3) 30 8#64) (twoLostSys 0).mem).val? = some 16#64 ∧
    (run (mapGet (fun x => x >>> 3) 30 8#64) (twoLostSys 12).mem).val? = some 16#64 ∧
    (run (mapGet (fun x => x >>> 3) 30 8#64) (twoLostSys 13).mem).val? = some 32#64 ∧
    (run (mapGet (fun x => x >>> 3) 30 8#64) (twoLostSys 30).mem).val? = some 32#64 ∧
    (twoLostSys 30).hist.getLast? = some (.res 0 (.put 8#64 32#64) (.word 16#64)) ∧
    ∀ j ∈ [13, 30], (match restart (twoLostSys j).mem (twoLostSys j).mem.nv with
      | .done _ m => (run (mapGet (fun x => x >>> 3) 30 8#64) m).val?
      | .halted _ => none) = some 24#64 := by decide +kernel

/-! ## Cases that meet the hypotheses -/

/-- Thread 0 puts 16 and 24 under key 8, thread 1 puts 40 and 48 under key 16 (which collide under this hash), thread 2 reads. -/
def eachCalls : Nat → List Op := callsOf [.put 8#64 16#64, .put 8#64 24#64] [.put 16#64 40#64, .put 16#64 48#64]
  [.get 8#64, .get 16#64] []
def eachSched : List Sched := steps 0 9 ++ steps 1 40 ++ steps 0 90 ++ steps 2 30 ++ steps 1 60 ++ [.evict 0 1]
def eachSys : Sys := (Sys.init 8 64 eachCalls).exec (fun _ => 0#64) 30 eachSched

theorem each_valid : ∀ t, ∀ op ∈ eachCalls t, op.Valid := by
  intro t op h
  unfold eachCalls callsOf at h
  split at h
  · revert op; decide
  · split at h
    · revert op; decide
    · split at h
      · revert op; decide
      · split at h <;> cases h

theorem each_own : ∀ t, ∀ op ∈ eachCalls t, ∀ k, op.changes = some k → (if k = 8#64 then 0 else 1) = t := by
  intro t op h k hk
  unfold eachCalls callsOf at h
  split at h
  · subst t; simp only [List.mem_cons, List.not_mem_nil, or_false] at h; rcases h with rfl | rfl <;> cases hk <;> rfl
  · split at h
    · subst t; simp only [List.mem_cons, List.not_mem_nil, or_false] at h; rcases h with rfl | rfl <;> cases hk <;> rfl
    · split at h
      · simp only [List.mem_cons, List.not_mem_nil, or_false] at h; rcases h with rfl | rfl <;> cases hk
      · split at h <;> cases h

theorem each_distinct : DistinctStores eachCalls := distinct_callsOf (by decide) (by decide)

/-- The hypotheses of both theorems are met, and both outcomes occur: all six calls have returned, key 8 (24) is in the file, and
the last change of key 16 (from 40 to 48) is lost. -/
example : (eachSys.mem.tab 0).newT = none ∧ eachSys.hist.length = 12 ∧
    (run (mapGet (fun _ => 0#64) 30 8#64) eachSys.mem).val? = some 24#64 ∧
    (run (mapGet (fun _ => 0#64) 30 16#64) eachSys.mem).val? = some 48#64 ∧
    (match restart eachSys.mem eachSys.mem.nv with
      | .done _ m => ((run (mapGet (fun _ => 0#64) 30 8#64) m).val?, (run (mapGet (fun _ => 0#64) 30 16#64) m).val?)
      | .halted _ => (none, none)) = (some 24#64, some 40#64) := by decide +kernel

/-- So the theorem says something of this run. -/
example := c22_one_writer_distinct_partial (n := 30) ⟨⟨3, by decide, by decide⟩, by decide⟩ eachCalls each_valid each_own each_distinct
  eachSched (by decide +kernel : (eachSys.mem.tab 0).newT = none) (k := 16#64) (by decide)

end PMap
