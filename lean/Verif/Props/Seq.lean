import Verif.Seq.Ops
import Verif.Fast

/-!
# Properties of single-threaded use: C01, C02, C03, C08, C09, C10, C12
-/

namespace PMap

open Prog

variable {hash : Word → Word} {len cap : Nat}

theorem reach_good {P : Mem → Prop} (hs : Sized len cap) {m : Mem} {M : AMap} (h : Reach hash len cap P m M) :
    Good hash (abs m) M := by
  induction h with
  | init => exact (good_fresh hs.pow hs.cap).1
  | step n _ hv hu hr _ ih => exact ((op_spec n _ hv hu ih _ rfl).2 _ _ hr).good

theorem reachAny_good (hs : Sized len cap) {m : Mem} (h : ReachAny hash len cap m) : ∃ M, Good hash (abs m) M := by
  induction h with
  | init => exact ⟨_, (good_fresh hs.pow hs.cap).1⟩
  | step n _ hv hr ih =>
    obtain ⟨M, hM⟩ := ih
    exact (any_spec n _ hv hM _ rfl).2 _ _ hr

/-! ## C01 -/

/-- **C01.** Whatever the hash function, the initial capacity, the fuel and the sequence of valid calls (other than
`update`), the results a single thread gets are those of an ordinary map with the same history. -/
theorem c01_single_thread_map (hs : Sized len cap) (n : Nat) (ops : List Op)
    (hv : ∀ op ∈ ops, op.Valid ∧ op.isUpdate = false) {rs : List Res} {m' : Mem}
    (h : runOps hash n ops (freshMem len cap) = .done rs m') : specAgrees ops AMap.empty rs :=
  (runOps_good n ops _ _ hv (good_fresh hs.pow hs.cap).1 rs m' h).2

/-- **C01**, one call at a time: from every state a single thread can reach, a call returns what the ordinary map
returns. -/
theorem c01_call_result (hs : Sized len cap) {m : Mem} {M : AMap} (h : Reach hash len cap (fun _ => True) m M) (n : Nat)
    {op : Op} (hv : op.Valid) (hu : op.isUpdate = false) {r : Res} {m' : Mem}
    (hr : run (op.prog hash n) m = .done r m') {x : Res} (hx : specRes op M = some x) : r = x :=
  ((op_spec n op hv hu (reach_good hs h) m rfl).2 r m' hr).res x hx

/-- **C01**, reads: `get` returns the last value written and not removed. -/
theorem c01_get (hs : Sized len cap) {m : Mem} {M : AMap} (h : Reach hash len cap (fun _ => True) m M) (n : Nat)
    {k : Word} (hk : ValidKey k) {r : Word} {m' : Mem} (hr : run (mapGet hash n k) m = .done r m') :
    r = resWord (M k) :=
  ((mapGet_spec n (reach_good hs h) (userKey_of_valid hk) m rfl).2 r m' hr).1

/-- Nine puts into a table of eight slots (which grows), then a conditional replacement, two removals and reads. -/
def demoOps : List Op :=
  (List.range 9).map (fun i => .put (BitVec.ofNat 64 (8 * i)) (BitVec.ofNat 64 (8 * i + 80))) ++
    [.replace 8#64 88#64 800#64, .putIfAbsent 8#64 96#64, .removeIf 16#64 8#64, .remove 24#64, .get 8#64, .get 24#64,
     .containsKey 16#64]

/-- C01 is not vacuous: these calls are valid, all return, and the table grows on the way. -/
example : (∀ op ∈ demoOps, op.Valid ∧ op.isUpdate = false) ∧ Sized 8 64 ∧
    ∃ m', runOps (fun x => x >>> 3) 40 demoOps (freshMem 8 64) = .done
      ((List.replicate 9 (.word VINITIAL)) ++
        [.bool true, .word 800#64, .bool false, .bool true, .word 800#64, .word VINITIAL, .bool true]) m' := by
  refine ⟨by decide +kernel, ⟨⟨3, by decide, rfl⟩, by decide⟩, Outcome.eq_done ?_⟩
  decide +kernel

/-- The state after those calls is reachable, with the table grown once. -/
theorem demo_reach : ∃ m', Reach (fun x => x >>> 3) 8 64 (fun _ => True) m' (specRun demoOps AMap.empty) ∧
    m'.next = 2 ∧ m'.root = 1 := by
  have h : ((runChk (fun x => x >>> 3) 40 (fun _ => true) demoOps (freshMem 8 64)).map
      (fun m => (m.next, m.root))) = some (2, 1) := by decide +kernel
  rw [Option.map_eq_some_iff] at h
  obtain ⟨m', h1, h2⟩ := h
  refine ⟨m', runChk_reach (fun _ _ => trivial) _ .init (by decide +kernel) h1, ?_, ?_⟩
  · exact congrArg Prod.fst h2
  · exact congrArg Prod.snd h2

/-! ## C02 -/

/-- **C02.** In every reachable state, helping the migration leaves what every `get` returns unchanged, and when it
returns, the table that was being migrated has been replaced by its successor. -/
theorem c02_help_preserves (hs : Sized len cap) {m : Mem} (h : ReachAny hash len cap m) (n helper : Nat) {r : Nat}
    {m' : Mem} (hr : run (helpCopy (putIfMatch hash n .casValue) n helper) m = .done r m') :
    (∀ k n1 n2 g1 g2 m1 m2, ValidKey k → run (mapGet hash n1 k) m = .done g1 m1 →
      run (mapGet hash n2 k) m' = .done g2 m2 → g1 = g2) ∧
    (∀ nt, (m.tab m.root).newT = some nt → m'.root = nt) := by
  obtain ⟨M, hM⟩ := reachAny_good hs h
  obtain ⟨-, h2, h3, h4, h5, h6, -⟩ :=
    (helpCopy_spec (copyPut hash n) n hM.inv hM.rest hM.drift helper m rfl).2 r m' hr
  constructor
  · intro k n1 n2 g1 g2 m1 m2 hk e1 e2
    rw [((mapGet_spec n1 hM (userKey_of_valid hk) m rfl).2 g1 m1 e1).1,
      ((mapGet_spec n2 ⟨h2, h3, h5⟩ (userKey_of_valid hk) m' rfl).2 g2 m2 e2).1]
  · intro nt hnt
    have hn := hM.inv.newT m.root hM.inv.root_lt
    have hn : (m.tab m.root).newT = if m.root + 1 < m.next then some (m.root + 1) else none := hn
    have h6 : m'.root = if m.root + 1 < m.next then m.root + 1 else m.root := h6
    rw [hnt] at hn
    split at hn
    · next h => rw [h6, if_pos h]; exact (Option.some.inj hn).symm
    · cases hn

/-- A key with low hash bits `h`, for the hash function `x >>> 3`. -/
def kk (h j : Nat) : Word := BitVec.ofNat 64 (8 * (h + 32 * j))
/-- Fourteen keys whose insertion into a table of 16 slots makes a nested resize and leaves a migration pending. -/
def nestKeys : List Word := (List.range 10).map (kk 10) ++ (List.range 3).map (kk 13) ++ [kk 27 0]
/-- The puts of `nestKeys`. -/
def nestOps : List Op := nestKeys.map fun k => .put k 8#64

theorem nest_run : ∃ m m', Reach (fun x => x >>> 3) 16 512 (fun _ => True) m (specRun nestOps AMap.empty) ∧
    ReachAny (fun x => x >>> 3) 16 512 m ∧ (m.tab m.root).newT = some 2 ∧
    run (helpCopy (putIfMatch (fun x => x >>> 3) 60 .casValue) 60 7) m = .done 7 m' := by
  have h : (match frunOps (fun x => x >>> 3) 60 nestOps (FM.fresh 16 512) with
    | none => none
    | some (_, s) => match frun (helpCopy (putIfMatch (fun x => x >>> 3) 60 .casValue) 60 7) s with
      | .error _ => none
      | .ok (r, _) => some (r, s.root, (s.tab s.root).newT)) = some (7, 1, some 2) := by decide +kernel
  split at h
  · cases h
  · next rs s h1 =>
    split at h
    · cases h
    · next r s' h2 =>
      simp only [Option.some.injEq, Prod.mk.injEq] at h
      obtain ⟨rfl, h3, h4⟩ := h
      obtain ⟨m, e1, r1⟩ := frunOps_ok _ (FM.fresh_rel 16 512) h1
      obtain ⟨m', e2, -⟩ := frun_ok r1 h2
      have hr := runOps_reach (n := 60) nestOps .init (by decide +kernel) e1
      have hlt : m.root < m.next := (reach_good ⟨⟨4, by decide, rfl⟩, by decide⟩ hr).inv.root_lt
      refine ⟨m, m', hr, runOps_reachAny _ .init (by decide +kernel) e1, ?_, e2⟩
      rw [← r1.tab _ hlt, ← r1.root, h4]

/-- C02 is not vacuous: a reachable state with a migration pending, from which helping returns. -/
example : ∃ m m', ReachAny (fun x => x >>> 3) 16 512 m ∧ (m.tab m.root).newT = some 2 ∧
    run (helpCopy (putIfMatch (fun x => x >>> 3) 60 .casValue) 60 7) m = .done 7 m' := by
  obtain ⟨m, m', -, h⟩ := nest_run
  exact ⟨m, m', h⟩

/-! ## C03 -/

/-- **C03.** In every reachable state, every valid call (including `update`) meets no null table, no index out of range
and no failing `assert`, whether it returns, throws or is cut short. -/
theorem c03_no_ub_no_assert (hs : Sized len cap) {m : Mem} (h : ReachAny hash len cap m) (n : Nat) {op : Op}
    (hv : op.Valid) : Safe (op.prog hash n) m := by
  obtain ⟨M, hM⟩ := reachAny_good hs h
  exact (any_spec n op hv hM m rfl).1

/-- C03 is not vacuous: increments mixed with other calls reach a grown table. -/
example : ∃ m, ReachAny (fun x => x >>> 3) 8 64 m ∧ m.next = 2 := by
  have h : ((runChk (fun x => x >>> 3) 40 (fun _ => true)
      ((List.range 9).flatMap fun i => [.update (BitVec.ofNat 64 (8 * i)) MATCH_ANY, .get (BitVec.ofNat 64 (8 * i))])
      (freshMem 8 64)).map (fun m => m.next)) = some 2 := by decide +kernel
  rw [Option.map_eq_some_iff] at h
  obtain ⟨m, h1, h2⟩ := h
  exact ⟨m, runChk_reachAny _ .init (by decide +kernel) h1, h2⟩

/-! ## C08 -/

/-- **C08 is false of the code**: `remove(key)` converts the previous value to `bool`, so what it returns is whether the
previous value (the absent marker for an absent key) is different from zero. -/
theorem c08_remove_result (hs : Sized len cap) {m : Mem} {M : AMap} (h : Reach hash len cap (fun _ => True) m M)
    (n : Nat) {k : Word} (hk : ValidKey k) {b : Bool} {m' : Mem} (hr : run (mapRemove hash n k) m = .done b m') :
    b = true ↔ M k ≠ some 0#64 := by
  have h0 : run (Op.prog hash n (.remove k)) m = .done (.bool b) m' := by
    show run (Prog.bind (mapRemove hash n k) _) m = _
    rw [run_bind, hr]; rfl
  have := ((op_spec n (.remove k) hk rfl (reach_good hs h) m rfl).2 _ _ h0).rem k rfl
  have hb : b = (resWord (M k) != 0#64) := by injection this
  rw [hb, bne_iff_ne]
  apply not_congr
  cases hM : M k with
  | none => simp [resWord]; decide
  | some v => simp [resWord]

/-- **C08, partial**: for a key that is present with a non-zero value `remove` reports true, and it always removes.
Missing: the report for absent keys, which is wrong (`c08_remove_absent_true`). -/
theorem c08_remove_present_partial (hs : Sized len cap) {m : Mem} {M : AMap}
    (h : Reach hash len cap (fun _ => True) m M) (n : Nat) {k v : Word} (hk : ValidKey k) (hM : M k = some v)
    (hv : v ≠ 0#64) {b : Bool} {m' : Mem} (hr : run (mapRemove hash n k) m = .done b m') :
    b = true ∧ ∀ n' r m'', run (mapGet hash n' k) m' = .done r m'' → r = VINITIAL := by
  refine ⟨(c08_remove_result hs h n hk hr).mpr (by rw [hM]; simpa using hv), ?_⟩
  intro n' r m'' hg
  have h0 : run (Op.prog hash n (.remove k)) m = .done (.bool b) m' := by
    show run (Prog.bind (mapRemove hash n k) _) m = _
    rw [run_bind, hr]; rfl
  have hst : Reach hash len cap (fun _ => True) m' (specNext (.remove k) M) :=
    Reach.step (op := .remove k) n h hk rfl h0 trivial
  have := c01_get hs hst n' hk hg
  rw [this]; simp [specNext, AMap.erase, resWord]

/-- **C08 is false of the code**: on an empty map `remove` reports that it removed the key; and a key stored with value
zero is removed with the report `false`. -/
theorem c08_remove_absent_true :
    (∃ m', run (mapRemove (fun x => x >>> 3) 20 8#64) (freshMem 8 64) = .done true m') ∧
    (∃ m', runOps (fun x => x >>> 3) 20 [.put 8#64 0#64, .remove 8#64, .containsKey 8#64] (freshMem 8 64) =
      .done [.word VINITIAL, .bool false, .bool false] m') :=
  ⟨Outcome.eq_done (by decide +kernel), Outcome.eq_done (by decide +kernel)⟩

/-- C08 is not vacuous: in the state of `demo_reach` a present key with a non-zero value can be removed. -/
example : ∃ m M b m', Reach (fun x => x >>> 3) 8 64 (fun _ => True) m M ∧ ValidKey 8#64 ∧ M 8#64 = some 800#64 ∧
    run (mapRemove (fun x => x >>> 3) 40 8#64) m = .done b m' := by
  have h : ((runChk (fun x => x >>> 3) 40 (fun _ => true) demoOps (freshMem 8 64)).map
      (fun m => (run (mapRemove (fun x => x >>> 3) 40 8#64) m).val?)) = some (some true) := by decide +kernel
  rw [Option.map_eq_some_iff] at h
  obtain ⟨m, h1, h2⟩ := h
  obtain ⟨m', h3⟩ := Outcome.eq_done h2
  exact ⟨m, _, true, m', runChk_reach (fun _ _ => trivial) _ .init (by decide +kernel) h1, by decide,
    by decide +kernel, h3⟩

/-! ## C09 -/

/-- **C09, partial.** If the table does not grow and no migration is pending, `update` with the increment function
returns the old counter, leaves it one higher (1 if it was absent), and leaves every other key as it was.
Excluded: a counter equal to the placeholder, and a counter so high that the next value is the tombstone marker.
Missing: calls during which the table grows, for which the claim is false (`c09_growth_destroys_counter`). -/
theorem c09_increment_partial (hs : Sized len cap) {m : Mem} (h : ReachAny hash len cap m) (n : Nat) {k : Word}
    (hk : ValidKey k) {n1 n2 : Nat} {g g' r : Word} {m1 m' m2 : Mem}
    (hg : run (mapGet hash n1 k) m = .done g m1) (hr : run (mapUpdate hash n k MATCH_ANY) m = .done r m')
    (hg' : run (mapGet hash n2 k) m' = .done g' m2) (hgrow : m'.next = m.root + 1) (hne : g ≠ MATCH_ANY)
    (hov : addOne (if g = VINITIAL then none else some g) ≠ VTOMBSTONE) :
    r = g ∧ g' = addOne (if g = VINITIAL then none else some g) ∧
    ∀ j n3 n4 a b ma mb, ValidKey j → j ≠ k → run (mapGet hash n3 j) m = .done a ma →
      run (mapGet hash n4 j) m' = .done b mb → a = b := by
  obtain ⟨M, hM⟩ := reachAny_good hs h
  have e1 := ((mapGet_spec n1 hM (userKey_of_valid hk) m rfl).2 g m1 hg).1
  obtain ⟨hr1, -, hcase⟩ := (update_spec n hk storable_matchAny hM m rfl).2 r m' hr
  have hMg : (if g = VINITIAL then none else some g) = M k := by
    rw [e1]
    cases hMk : M k with
    | none => simp [curWord, hMk]
    | some v => simp [curWord, hMk, (getD_storable hM.inv hMk).ne_init]
  rw [hMg] at hov ⊢
  rcases hcase with ⟨-, hc | hc⟩ | ⟨hG, -, -⟩
  · have hc : m.root + 1 < m'.next := hc
    omega
  · exfalso; apply hne; rw [e1, curWord, hc]; rfl
  · rw [incremented_addOne hM.inv] at hG
    refine ⟨by rw [hr1, e1]; rfl, ?_, ?_⟩
    · have := ((mapGet_spec n2 hG (userKey_of_valid hk) m' rfl).2 g' m2 hg').1
      rw [this]
      have hp := incremented_plain (curWord M k)
      rw [incremented_addOne hM.inv] at hp
      simp only [curWord, putM, if_true]
      rcases hp.2 with h1 | h1 | h1
      · rw [h1]; rw [if_neg (fun h => h.ne_init rfl)]; rfl
      · exact absurd h1 hov
      · rw [if_pos h1]; rfl
    · intro j n3 n4 a b ma mb hj hjk ea eb
      rw [((mapGet_spec n3 hM (userKey_of_valid hj) m rfl).2 a ma ea).1,
        ((mapGet_spec n4 hG (userKey_of_valid hj) m' rfl).2 b mb eb).1]
      simp [curWord, putM, hjk]

/-- **C09 is false of the code when the table grows**: whenever the table grows during an increment, the counter is
replaced by the placeholder word the container passes to `update`, whatever it was before. -/
theorem c09_growth_destroys_counter (hs : Sized len cap) {m : Mem} (h : ReachAny hash len cap m) (n : Nat) {k : Word}
    (hk : ValidKey k) {n2 : Nat} {g' r : Word} {m' m2 : Mem}
    (hr : run (mapUpdate hash n k MATCH_ANY) m = .done r m') (hgrow : m.next < m'.next)
    (hg' : run (mapGet hash n2 k) m' = .done g' m2) : g' = MATCH_ANY := by
  obtain ⟨M, hM⟩ := reachAny_good hs h
  obtain ⟨hr1, -, hcase⟩ := (update_spec n hk storable_matchAny hM m rfl).2 r m' hr
  rcases hcase with ⟨hG, -⟩ | ⟨-, -, hc⟩
  · have := ((mapGet_spec n2 hG (userKey_of_valid hk) m' rfl).2 g' m2 hg').1
    rw [this]; simp [curWord, putM, storable_matchAny]
  · have hc : m'.next = m.next := hc
    omega

/-- **C09**: once a counter holds the placeholder, increments never change it again (they also return it). -/
theorem c09_placeholder_stuck (hs : Sized len cap) {m : Mem} (h : ReachAny hash len cap m) (n : Nat) {k : Word}
    (hk : ValidKey k) {n1 n2 : Nat} {g' r : Word} {m1 m' m2 : Mem}
    (hg : run (mapGet hash n1 k) m = .done MATCH_ANY m1) (hr : run (mapUpdate hash n k MATCH_ANY) m = .done r m')
    (hg' : run (mapGet hash n2 k) m' = .done g' m2) : r = MATCH_ANY ∧ g' = MATCH_ANY := by
  obtain ⟨M, hM⟩ := reachAny_good hs h
  have e1 := ((mapGet_spec n1 hM (userKey_of_valid hk) m rfl).2 _ m1 hg).1
  have hMk : M k = some MATCH_ANY := (curWord_eq_iff sent_ne.2.2.2.1).mp e1.symm
  obtain ⟨hr1, -, hcase⟩ := (update_spec n hk storable_matchAny hM m rfl).2 r m' hr
  refine ⟨by rw [hr1, hMk]; rfl, ?_⟩
  rcases hcase with ⟨hG, -⟩ | ⟨-, hc, -⟩
  · have := ((mapGet_spec n2 hG (userKey_of_valid hk) m' rfl).2 g' m2 hg').1
    rw [this]; simp [curWord, putM, storable_matchAny]
  · exact absurd hMk hc

/-- The increments of nine counters, each incremented twice, in a table of eight slots. -/
def incOps (n : Nat) : List Op :=
  (List.range n).flatMap fun i => [.update (BitVec.ofNat 64 (8 * i)) MATCH_ANY, .update (BitVec.ofNat 64 (8 * i)) MATCH_ANY]

/-- C09 (partial) is not vacuous: with eight counters at two, one more increment of the first makes it three. -/
example : ∃ m g r g' m1 m' m2, ReachAny (fun x => x >>> 3) 8 64 m ∧
    run (mapGet (fun x => x >>> 3) 40 8#64) m = .done g m1 ∧ run (mapUpdate (fun x => x >>> 3) 40 8#64 MATCH_ANY) m = .done r m' ∧
    run (mapGet (fun x => x >>> 3) 40 8#64) m' = .done g' m2 ∧ m'.next = m.root + 1 ∧ g = 16#64 ∧ g' = 24#64 := by
  have h : ((runChk (fun x => x >>> 3) 40 (fun _ => true) (incOps 8) (freshMem 8 64)).map (fun m =>
      ((run (mapGet (fun x => x >>> 3) 40 8#64) m).val?,
        match run (mapUpdate (fun x => x >>> 3) 40 8#64 MATCH_ANY) m with
        | .done r m' => decide (r = 16#64 ∧ m'.next = m.root + 1 ∧
            (run (mapGet (fun x => x >>> 3) 40 8#64) m').val? = some 24#64)
        | _ => false))) = some (some 16#64, true) := by decide +kernel
  rw [Option.map_eq_some_iff] at h
  obtain ⟨m, h1, h2⟩ := h
  obtain ⟨m1, h3⟩ := Outcome.eq_done (congrArg Prod.fst h2)
  have h4 := congrArg Prod.snd h2
  simp only at h4
  cases h5 : run (mapUpdate (fun x => x >>> 3) 40 8#64 MATCH_ANY) m with
  | halted x => rw [h5] at h4; cases h4
  | done r m' =>
    rw [h5] at h4
    obtain ⟨-, h6, h7⟩ := of_decide_eq_true h4
    obtain ⟨m2, h8⟩ := Outcome.eq_done h7
    exact ⟨m, _, r, _, m1, m', m2, runChk_reachAny _ .init (by decide +kernel) h1, h3, h5, h8, h6, rfl, rfl⟩

/-- **C09 is false of the code**: incrementing a ninth counter in a table of eight slots leaves it at the placeholder
`2^61 - 3` instead of 1, and incrementing it again changes nothing. -/
theorem c09_lost_on_growth : ∃ m', runOps (fun x => x >>> 3) 40
    ([0, 1, 2, 3, 4, 5, 6, 7, 8].map (fun i => .update (BitVec.ofNat 64 (8 * i)) MATCH_ANY) ++
      [.get 64#64, .update 64#64 MATCH_ANY, .get 64#64]) (freshMem 8 64) =
    .done (List.replicate 9 (.word VINITIAL) ++ [.word (0x1FFFFFFFFFFFFFFD#64 <<< 3), .word (0x1FFFFFFFFFFFFFFD#64 <<< 3),
      .word (0x1FFFFFFFFFFFFFFD#64 <<< 3)]) m' :=
  Outcome.eq_done (by decide +kernel)

/-! ## C10 -/

/-- No migration is pending: the current table has no successor. -/
def Settled (m : Mem) : Prop := (m.tab m.root).newT = none

theorem settled_last (hs : Sized len cap) {P : Mem → Prop} {m : Mem} {M : AMap} (h : Reach hash len cap P m M)
    (hm : Settled m) : m.root + 1 = m.next := by
  have hI := (reach_good hs h).inv
  have h1 : (m.tab m.root).newT = if m.root + 1 < m.next then some (m.root + 1) else none := hI.newT m.root hI.root_lt
  have h2 : m.root < m.next := hI.root_lt
  rw [hm] at h1
  split at h1
  · cases h1
  · omega

theorem c10_counter (hs : Sized len cap) {m : Mem} {M : AMap} (h : Reach hash len cap Settled m M) :
    (abs m).lastSize = BitVec.ofNat 64 (AMap.card M) ∧ m.root + 1 = m.next := by
  induction h with
  | init =>
    refine ⟨?_, rfl⟩
    rw [(good_fresh (hash := hash) hs.pow hs.cap).2]
    simp [AMap.card, AMap.empty]
  | step n hm hv hu hr hP ih =>
    have h1 := ((op_spec n _ hv hu (reach_good hs hm) _ rfl).2 _ _ hr).size ih.1
    have h2 := settled_last hs (hm.step n hv hu hr hP) hP
    refine ⟨?_, h2⟩
    rcases h1 with h1 | h1
    · rename_i m' _ _ _
      have h1 : m'.root + 1 < m'.next := h1
      omega
    · exact h1

/-- **C10, partial.** As long as every call ends with no migration pending, `size()` is the number of keys present and
`isEmpty()` says whether there is none (up to 2^64 keys).  Missing: sequences in which some call leaves a migration
pending; there the counter of the newer table can be too low for ever (`c10_size_wrong`). -/
theorem c10_size_exact_partial (hs : Sized len cap) {m : Mem} {M : AMap} (h : Reach hash len cap Settled m M) :
    (∃ m', run mapSize m = .done (BitVec.ofNat 64 (AMap.card M)) m') ∧
    ∀ b m', run mapIsEmpty m = .done b m' → b = (BitVec.ofNat 64 (AMap.card M) == 0#64) := by
  obtain ⟨h1, h2⟩ := c10_counter hs h
  have hlt : m.root < m.next := by omega
  have he : (m.tab m.root).size = BitVec.ofNat 64 (AMap.card M) := by
    rw [← h1]
    show _ = (m.tab (m.next - 1)).size
    rw [← h2]; rfl
  constructor
  · refine ⟨m, ?_⟩
    show run (.act .getRoot fun r => .act (.getSize r) .ret) m = _
    simp only [run, Act.exec, if_pos hlt, he]
  · intro b m' hb
    have : run mapIsEmpty m = .done ((m.tab m.root).size == 0#64) m := by
      show run (.act .getRoot fun r => .act (.getSize r) fun s => .ret (s == 0#64)) m = _
      simp only [run, Act.exec, if_pos hlt]
    rw [this] at hb
    cases hb
    rw [he]

instance (m : Mem) : Decidable (Settled m) := by unfold Settled; infer_instance

/-- C10 (partial) is not vacuous: the calls of `demoOps`, one of which grows the table, all end settled. -/
example : ∃ m M, Reach (fun x => x >>> 3) 8 64 Settled m M ∧ m.next = 2 ∧ M 8#64 = some 800#64 := by
  have h : ((runChk (fun x => x >>> 3) 40 (fun m => decide (Settled m)) demoOps (freshMem 8 64)).map
      (fun m => m.next)) = some 2 := by decide +kernel
  rw [Option.map_eq_some_iff] at h
  obtain ⟨m, h1, h2⟩ := h
  exact ⟨m, _, runChk_reach (fun _ h => of_decide_eq_true h) _ .init (by decide +kernel) h1, h2, by decide +kernel⟩

/-- `nestKeys` and three more keys. -/
def lateKeys : List Word := nestKeys ++ [kk 1 0, kk 2 0, kk 10 10]

/-- **C10 is false of the code**: after seventeen puts of different keys (and nothing else) into a table of 16 slots,
`size()` returns 14.  The last put grows the table while copying into the table that is itself the replacement. -/
theorem c10_size_wrong : lateKeys.length = 17 ∧ lateKeys.Nodup ∧ ∃ m', runOps (fun x => x >>> 3) 60
    (lateKeys.map (fun k => .put k 8#64) ++ [.size]) (freshMem 16 512) =
      .done (List.replicate 17 (.word VINITIAL) ++ [.word 14#64]) m' := by
  refine ⟨by decide, by decide +kernel, ?_⟩
  have h : (frunOps (fun x => x >>> 3) 60 (lateKeys.map (fun k => .put k 8#64) ++ [.size]) (FM.fresh 16 512)).map
      (·.1) = some (List.replicate 17 (.word VINITIAL) ++ [.word 14#64]) := by decide +kernel
  rw [Option.map_eq_some_iff] at h
  obtain ⟨⟨rs, s⟩, h1, h2⟩ := h
  obtain ⟨m, e, -⟩ := frunOps_ok _ (FM.fresh_rel 16 512) h1
  exact ⟨m, by rw [e]; exact congrArg (fun l => Outcome.done l m) h2⟩

/-! ## C12 -/

/-- **C12.** With an initial capacity of at least 16, in every state a single thread can reach, a key that is present
is stored fewer than ten slots after its home slot, and the slots in between hold other keys, so the probe for it
examines at most ten slots of the table that holds it. -/
theorem c12_ten_probes {p : Nat} (hp : p ≤ 32) (h4 : 4 ≤ p) (hc : cap ≤ 2 ^ 32) {m : Mem} {M : AMap}
    (h : Reach hash (2 ^ p) cap (fun _ => True) m M) {k v : Word} (hk : M k = some v) :
    ∃ t d, t < m.next ∧ d < 10 ∧
      clean (m.word (.key t (((hash k).toNat + d) % (m.tab t).len))) = k ∧
      clean (m.word (.val t (((hash k).toNat + d) % (m.tab t).len))) = v ∧
      ∀ e < d, clean (m.word (.key t (((hash k).toNat + e) % (m.tab t).len))) ≠ k ∧
        clean (m.word (.key t (((hash k).toNat + e) % (m.tab t).len))) ≠ KINITIAL ∧
        clean (m.word (.key t (((hash k).toNat + e) % (m.tab t).len))) ≠ KTOMBSTONE := by
  have hs : Sized (2 ^ p) cap := ⟨⟨p, hp, rfl⟩, hc⟩
  have hG := reach_good hs h
  have hre : m.reopened = false := by
    clear hk hG
    induction h with
    | init => rfl
    | step n hm hv hu hr _ ih => rw [run_reopened hr]; exact ih
  have hlen0 : (m.tab 0).len = 2 ^ p ∧ 0 < m.next := by
    clear hk hG hre
    induction h with
    | init => exact ⟨rfl, Nat.one_pos⟩
    | step n hm hv hu hr _ ih =>
      have he := ((op_spec n _ hv hu (reach_good hs hm) _ rfl).2 _ _ hr).ext
      exact ⟨(he.len 0 ih.2).trans ih.1, lt_of_lt_of_le ih.2 he.next⟩
  have hlen : ∀ t, t < m.next → 16 ≤ (m.tab t).len := by
    intro t
    induction t with
    | zero =>
      intro _; rw [hlen0.1]
      calc 16 = 2 ^ 4 := by norm_num
        _ ≤ 2 ^ p := Nat.pow_le_pow_right (by norm_num) h4
    | succ t ih =>
      intro ht
      have h1 : (m.tab (t + 1)).len = 2 * (m.tab t).len := hG.inv.len_dbl t ht
      have := ih (by omega)
      omega
  obtain ⟨hku, hvs, t, i, ht, hi, ek, ev⟩ := (hG.inv.cont k v).mp hk
  obtain ⟨d, hd, h1, h2, h3⟩ := hG.inv.path t i ht hi (by rw [ek]; exact hku)
  rw [ek] at h1 h2
  have hslot : ∀ e, slotAt hash (abs m) t k e = ((hash k).toNat + e) % (m.tab t).len := by
    intro e
    obtain ⟨q, -, hq⟩ := hG.inv.len_pow t ht
    have hq : (m.tab t).len = 2 ^ q := hq
    show (homePut hash k (m.tab t).len + e) % (m.tab t).len = _
    rw [hq, c04_put_home, Nat.mod_add_mod]
  refine ⟨t, d, ht, ?_, ?_, ?_, ?_⟩
  · by_contra hcon
    rcases h3 hre (hlen t ht) (by omega) with h | h
    · exact hvs.ne_init (ev.symm.trans h)
    · rw [ev, hvs.mig] at h; cases h
  · rw [← hslot d, ← h1]; exact ek
  · rw [← hslot d, ← h1]; exact ev
  · intro e he
    obtain ⟨a, b, c⟩ := h2 e he
    rw [hslot e] at a b c
    exact ⟨c, a, b⟩

/-- C12 is not vacuous: ten keys with the same home slot, in a table of 16 slots that has grown. -/
example : ∃ m M, Reach (fun x => x >>> 3) (2 ^ 4) 512 (fun _ => True) m M ∧ M (kk 10 9) = some 8#64 := by
  obtain ⟨m, m', h, -⟩ := nest_run
  exact ⟨m, _, h, by decide +kernel⟩

end PMap
