import Verif.Own.Eras
import Verif.Props.Own

/-!
# C52: the writers of keys change hands while no call is in progress
-/

namespace PMap

open Prog

variable {hash : Word → Word} {len cap n : Nat} {S : Finset Word} {own : Word → Nat} {m : Mem} {M : AMap}

/-- **C52, partial.** A map has been used in phases, in each of which every key had one writer, the writers changing while no
call was in progress.  In the next phase, whoever the writers are now and whatever the keys, until the table grows every history
is linearizable from the contents the earlier phases left, and no thread meets undefined behaviour or fails an assertion.
Missing for the full claim: a key that gets a second writer while calls are in progress (refuted by `c18_not_linearizable`) and
growth (refuted by `c20_lost_key`). -/
theorem c52_next_phase_no_growth_partial (hs : Sized len cap) (h : Phases hash len cap S m M)
    {calls : Nat → List Op} (hc : ∀ t, ∀ op ∈ calls t, op.By S own t ∧ op.isUpdate = false) (xs : List Sched)
    (h1 : ((Sys.start m calls).exec hash n xs).mem.next ≤ 1) :
    LinRun M (fun _ => .idle) ((Sys.start m calls).exec hash n xs).hist ∧
      ((Sys.start m calls).exec hash n xs).ub = false ∧ ((Sys.start m calls).exec hash n xs).mem.failed = false := by
  obtain ⟨M', sz, P, fx, hO⟩ := (phases_any hs h ((next_le_exec hash n xs (Sys.start m calls)).trans h1) own).start (n := n)
    (anyCfg_ok hs.pow) (fun t op ho => ⟨(hc t op ho).1.filt, (hc t op ho).2⟩) xs (anyCfg_calm h1)
  refine ⟨?_, hO.noub, hO.inv.ok⟩
  have := hO.lin.run [] .nil
  rwa [List.append_nil] at this

/-- **C52, partial.** A map has been used in phases, in each of which every key had one writer, the writers changing while no
call was in progress, and the keys fit into the table.  In the next phase, whoever the writers are now, every history is linearizable from the contents the
earlier phases left, and no thread meets undefined behaviour or fails an assertion.  Missing for the full claim: a key that
gets a second writer while calls are in progress (refuted by `c18_not_linearizable`) and growth (refuted by `c20_lost_key`). -/
theorem c52_next_phase_partial (hs : Sized len cap) (hR : Roomy hash len S) (h : Phases hash len cap S m M)
    {calls : Nat → List Op} (hc : ∀ t, ∀ op ∈ calls t, op.By S own t ∧ op.isUpdate = false) (xs : List Sched) :
    LinRun M (fun _ => .idle) ((Sys.start m calls).exec hash n xs).hist ∧
      ((Sys.start m calls).exec hash n xs).ub = false ∧ ((Sys.start m calls).exec hash n xs).mem.failed = false := by
  obtain ⟨M', sz, P, fx, hO⟩ := (phases_between hs hR h own).start (n := n) (roomy_ok hs hR) hc xs (Cfg.fits rfl _)
  refine ⟨?_, hO.noub, hO.inv.ok⟩
  have := hO.lin.run [] .nil
  rwa [List.append_nil] at this

/-- **C52, partial**, what a phase leaves as long as the table has not grown: `size()` is the number of keys present, `isEmpty()` says whether there are none, and
`get` returns under each key what the key's writers, phase after phase and each in its own order, left there. -/
theorem c52_between_phases_no_growth_partial (hs : Sized len cap) (h : Phases hash len cap S m M) (hn : m.next ≤ 1) :
    (∃ w, run mapSize m = .done w m ∧ w.toNat = M.card) ∧ run mapIsEmpty m = .done (decide (M.card = 0)) m ∧
      ∀ k n' v m', ValidKey k → run (mapGet hash n' k) m = .done v m' → v = resWord (M k) := by
  have hB := phases_any hs h hn fun _ => 0
  have hC := anyCfg_ok (hash := hash) (S := S) (own := fun _ => 0) hs.pow
  obtain ⟨w, h1, h2, h3⟩ := size_own hC hB.inv (fun t k _ => rfl) hB.keys
  exact ⟨⟨w, h1, h2⟩, h3, fun k n' v m' hk hg => get_own (s := ⟨_, M, _⟩) hC hB.inv hB.valid hB.keys hk hg⟩

/-- **C52, partial**, the same for keys that fit into the table. -/
theorem c52_between_phases_partial (hs : Sized len cap) (hR : Roomy hash len S) (h : Phases hash len cap S m M) :
    (∃ w, run mapSize m = .done w m ∧ w.toNat = M.card) ∧ run mapIsEmpty m = .done (decide (M.card = 0)) m ∧
      ∀ k n' v m', ValidKey k → run (mapGet hash n' k) m = .done v m' → v = resWord (M k) :=
  c52_between_phases_no_growth_partial hs h (roomy_phases_next hs hR h)

/-- **C52, partial**, one thread alone after the phases, in none of which the table grew: whatever calls (other than `update`) it makes, on whatever keys and
with whatever growth of the table, its results are those of an ordinary map that starts with the contents the phases left,
and no call meets undefined behaviour or fails an assertion. -/
theorem c52_then_one_thread_no_growth_partial (hs : Sized len cap) (h : Phases hash len cap S m M) (hn : m.next ≤ 1)
    (ops : List Op) (hv : ∀ op ∈ ops, op.Valid ∧ op.isUpdate = false) {rs : List Res} {m' : Mem}
    (hr : runOps hash n ops m = .done rs m') :
    specAgrees ops M rs ∧ ∀ n' (op : Op), op.Valid → Safe (op.prog hash n') m' := by
  have hg := (phases_any hs h hn fun _ => 0).good (anyCfg_ok hs.pow)
  obtain ⟨h1, h2⟩ := runOps_good n ops m M hv hg rs m' hr
  exact ⟨h2, fun n' op hv => (any_spec n' op hv h1 m' rfl).1⟩

/-- **C52, partial**, the same after phases whose keys fit into the table. -/
theorem c52_then_one_thread_partial (hs : Sized len cap) (hR : Roomy hash len S) (h : Phases hash len cap S m M)
    (ops : List Op) (hv : ∀ op ∈ ops, op.Valid ∧ op.isUpdate = false) {rs : List Res} {m' : Mem}
    (hr : runOps hash n ops m = .done rs m') :
    specAgrees ops M rs ∧ ∀ n' (op : Op), op.Valid → Safe (op.prog hash n') m' :=
  c52_then_one_thread_no_growth_partial hs h (roomy_phases_next hs hR h) ops hv hr

/-- **C52, partial**, with growth between the phases: a map has been used in phases, in each of which every key had one writer, and
between the phases by one thread alone, for whose calls the table may have grown any number of times.  In the next phase, whoever
the writers are and whatever the keys, until another table is allocated every history is linearizable from the contents the
earlier eras left, and no thread meets undefined behaviour or fails an assertion.  Missing for the full claim: growth while more
than one thread makes calls (refuted by `c20_lost_key`), and a key that gets a second writer while calls are in progress (refuted
by `c18_not_linearizable`). -/
theorem c52_next_phase_after_growth_partial (hs : Sized len cap) (h : Eras hash len cap m M)
    {calls : Nat → List Op} (hc : ∀ t, ∀ op ∈ calls t, op.Mine own t ∧ op.isUpdate = false) (xs : List Sched)
    (hn : ((Sys.start m calls).exec hash n xs).mem.next = m.next) :
    LinRun M (fun _ => .idle) ((Sys.start m calls).exec hash n xs).hist ∧
      ((Sys.start m calls).exec hash n xs).ub = false ∧ ((Sys.start m calls).exec hash n xs).mem.failed = false :=
  (eras_ok hs h).start hc xs hn

/-- **C52, partial**, with growth between the phases: after each era `size()` is the number of keys present, `isEmpty()` says
whether there are none, and `get` returns under each key what the calls left there. -/
theorem c52_between_eras_partial (hs : Sized len cap) (h : Eras hash len cap m M) :
    (∃ w m', run mapSize m = .done w m' ∧ w.toNat = M.card) ∧ (∃ m', run mapIsEmpty m = .done (decide (M.card = 0)) m') ∧
      ∀ k n' v m', ValidKey k → run (mapGet hash n' k) m = .done v m' → v = resWord (M k) := by
  obtain ⟨r, m0, l, hS, hp, hB⟩ := eras_ok hs h
  have hB := hB fun _ => 0
  have hC := anyCfg_ok (hash := hash) (S := validKeys) (own := fun _ => 0) hp
  obtain ⟨w, h1, h2, h3⟩ := size_own hC hB.inv (fun t k _ => rfl) hB.keys
  refine ⟨?_, ?_, fun k n' v m' hk hg => ?_⟩
  · obtain ⟨_, m', h4, rfl, -⟩ := (up_mapSize.run hS).2 _ _ h1
    exact ⟨_, m', h4, h2⟩
  · obtain ⟨_, m', h4, rfl, -⟩ := ((Up.eq up_mapSize fun _ => .ret rfl : Up r Eq mapIsEmpty mapIsEmpty).run hS).2 _ _ h3
    exact ⟨m', h4⟩
  · obtain ⟨_, m', h4, rfl, -⟩ := ((up_mapGet k).run hS).1 _ _ hg
    exact get_own (s := ⟨_, M, _⟩) hC hB.inv hB.valid hB.keys hk h4

/-- **C52, partial**, one thread alone after any eras: whatever calls (other than `update`) it makes, with whatever growth of the
table, its results are those of an ordinary map that starts with the contents the eras left, and no call meets undefined
behaviour or fails an assertion. -/
theorem c52_eras_then_one_thread_partial (hs : Sized len cap) (h : Eras hash len cap m M)
    (ops : List Op) (hv : ∀ op ∈ ops, op.Valid ∧ op.isUpdate = false) {rs : List Res} {m' : Mem}
    (hr : runOps hash n ops m = .done rs m') :
    specAgrees ops M rs ∧ ∀ n' (op : Op), op.Valid → Safe (op.prog hash n') m' := by
  obtain ⟨r, m0, l, hS, hp, hB⟩ := eras_ok hs h
  obtain ⟨m0', hr0, hS'⟩ := up_runOps hash n ops hS hr
  obtain ⟨h1, h2⟩ := runOps_good n ops m0 M hv ((hB fun _ => 0).good (anyCfg_ok hp)) rs m0' hr0
  exact ⟨h2, fun n' op hv => (up_op op).safe hS' (any_spec n' op hv h1 m0' rfl).1⟩

/-! ### A case that meets the hypotheses -/

/-- First phase: thread 0 writes key 8, thread 1 key 16. -/
def phaseA : Nat → List Op := callsOf [.put 8#64 80#64, .get 16#64] [.put 16#64 160#64, .get 8#64] [] []
/-- Second phase: thread 0 writes key 16, thread 1 keys 8 and 24. -/
def phaseB : Nat → List Op := callsOf [.remove 16#64, .get 8#64] [.replace 8#64 80#64 88#64, .put 24#64 240#64] [] []
/-- The schedule of both phases. -/
def phaseSched : List Sched := steps 0 9 ++ steps 1 17 ++ steps 0 21 ++ steps 1 70 ++ steps 0 70
/-- The map after the first phase. -/
def phaseSysA : Sys := (Sys.start (freshMem 8 64) phaseA).exec (fun x => x >>> 3) 30 phaseSched
/-- The map after the second phase. -/
def phaseSysB : Sys := (Sys.start phaseSysA.mem phaseB).exec (fun x => x >>> 3) 30 phaseSched
/-- The keys. -/
def phaseKeys : Finset Word := {8#64, 16#64, 24#64}

theorem phase_idle {m : Mem} {calls : Nat → List Op} {s : Sys} (he : s = (Sys.start m calls).exec (fun x => x >>> 3) 30 phaseSched)
    (h : (s.thr 0).isIdle = true ∧ (s.thr 1).isIdle = true) : ∀ t, ∃ todo, s.thr t = .idle todo := by
  have key : ∀ t, (s.thr t).isIdle = true → ∃ todo, s.thr t = .idle todo := by
    intro t
    cases s.thr t with
    | idle todo => exact fun _ => ⟨todo, rfl⟩
    | busy op p todo => exact fun e => by cases e
  intro t
  by_cases h0 : t = 0
  · subst h0; exact key _ h.1
  by_cases h1 : t = 1
  · subst h1; exact key _ h.2
  rw [he, exec_thr_other]
  · exact ⟨_, rfl⟩
  · intro x hx e
    subst e
    simp only [phaseSched, steps, List.mem_append, List.mem_replicate, Sched.run.injEq] at hx
    omega

theorem phaseKeys_roomy : Roomy (fun x => x >>> 3) 8 phaseKeys := by
  refine roomy_of_ten (fun k hk => ?_) (by decide) (by decide)
  simp only [phaseKeys, Finset.mem_insert, Finset.mem_singleton] at hk
  rcases hk with rfl | rfl | rfl <;> decide

theorem phaseA_by : ∀ t, ∀ op ∈ phaseA t, op.By phaseKeys (fun k => if k = 16#64 then 1 else 0) t ∧ op.isUpdate = false := by
  intro t op h
  unfold phaseA callsOf at h
  split at h
  · next e =>
    subst e
    simp only [List.mem_cons, List.not_mem_nil, or_false] at h
    rcases h with rfl | rfl
    · exact ⟨⟨by decide, fun k e => by cases e; decide, fun k v e => by cases e⟩, rfl⟩
    · exact ⟨⟨(by decide : ValidKey _), fun k e => (by cases e), fun k v e => by cases e⟩, rfl⟩
  split at h
  · next e =>
    subst e
    simp only [List.mem_cons, List.not_mem_nil, or_false] at h
    rcases h with rfl | rfl
    · exact ⟨⟨by decide, fun k e => by cases e; decide, fun k v e => by cases e⟩, rfl⟩
    · exact ⟨⟨(by decide : ValidKey _), fun k e => (by cases e), fun k v e => by cases e⟩, rfl⟩
  split at h
  · cases h
  split at h <;> cases h

theorem phaseB_by : ∀ t, ∀ op ∈ phaseB t, op.By phaseKeys (fun k => if k = 16#64 then 0 else 1) t ∧ op.isUpdate = false := by
  intro t op h
  unfold phaseB callsOf at h
  split at h
  · next e =>
    subst e
    simp only [List.mem_cons, List.not_mem_nil, or_false] at h
    rcases h with rfl | rfl
    · exact ⟨⟨(by decide : ValidKey _), fun k e => by cases e; decide, fun k v e => by cases e⟩, rfl⟩
    · exact ⟨⟨(by decide : ValidKey _), fun k e => (by cases e), fun k v e => by cases e⟩, rfl⟩
  split at h
  · next e =>
    subst e
    simp only [List.mem_cons, List.not_mem_nil, or_false] at h
    rcases h with rfl | rfl
    · exact ⟨⟨(by decide : ValidKey _ ∧ ValidVal _ ∧ ValidVal _), fun k e => by cases e; decide, fun k v e => by cases e⟩, rfl⟩
    · exact ⟨⟨by decide, fun k e => by cases e; decide, fun k v e => by cases e⟩, rfl⟩
  split at h
  · cases h
  split at h <;> cases h

/-- Nine puts into the table of eight slots, and reads. -/
def phaseLater : List Op :=
  [.get 8#64, .get 16#64, .get 24#64] ++ (List.range 9).map (fun i => .put (BitVec.ofNat 64 (8 * i + 32)) 800#64) ++
    [.get 8#64, .containsKey 16#64, .get 24#64, .get 32#64]

/-- The C52 theorems are not vacuous: two phases with overlapping calls, in the second of which thread 0 writes the key thread 1
wrote before and the other way round; then one thread adds nine keys, for which the table grows, and reads. -/
example : Sized 8 64 ∧ Roomy (fun x => x >>> 3) 8 phaseKeys ∧
    Phases (fun x => x >>> 3) 8 64 phaseKeys phaseSysB.mem
      (phaseMap (fun k => if k = 16#64 then 0 else 1) phaseSysB.hist
        (phaseMap (fun k => if k = 16#64 then 1 else 0) phaseSysA.hist AMap.empty)) ∧
    phaseSysA.hist = [.inv 0 (.put 8#64 80#64), .inv 1 (.put 16#64 160#64)] ++ phaseSysA.hist.drop 2 ∧
    phaseSysA.hist.length = 8 ∧
    phaseSysB.hist.length = 8 ∧ phaseSysB.mem.next = 1 ∧
    (∃ m, runOps (fun x => x >>> 3) 40 phaseLater phaseSysB.mem = .done
      ([.word 88#64, .word VINITIAL, .word 240#64] ++ List.replicate 9 (.word VINITIAL) ++
        [.word 88#64, .bool false, .word 240#64, .word 800#64]) m) := by
  refine ⟨⟨⟨3, by decide, rfl⟩, by decide⟩, phaseKeys_roomy, ?_, by decide +kernel, by decide +kernel, by decide +kernel, by decide +kernel,
    Outcome.eq_done (by decide +kernel)⟩
  exact .phase 30 _ phaseB phaseSched (.phase 30 _ phaseA phaseSched .fresh phaseA_by rfl (phase_idle rfl (by decide +kernel)))
    phaseB_by rfl (phase_idle rfl (by decide +kernel))

/-! ### A case with growth between the phases -/

/-- Between the phases one thread puts nine keys. -/
def eraOps : List Op := (List.range 9).map fun i => .put (BitVec.ofNat 64 (8 * i + 32)) 800#64
/-- The map after these calls. -/
def eraMid : Mem := (runChk (fun x => x >>> 3) 40 (fun m => decide ((m.tab m.root).newT = none)) eraOps phaseSysA.mem).getD phaseSysA.mem
/-- The next phase, in the bigger table. -/
def eraSys : Sys := (Sys.start eraMid phaseB).exec (fun x => x >>> 3) 40 phaseSched

theorem eraMid_eras : Eras (fun x => x >>> 3) 8 64 eraMid
    (specRun eraOps (phaseMap (fun k => if k = 16#64 then 1 else 0) phaseSysA.hist AMap.empty)) := by
  have h : Eras (fun x => x >>> 3) 8 64 phaseSysA.mem (phaseMap (fun k => if k = 16#64 then 1 else 0) phaseSysA.hist AMap.empty) :=
    .phase 30 _ phaseA phaseSched .fresh (fun t op h => ⟨(phaseA_by t op h).1.mine, (phaseA_by t op h).2⟩) rfl
      (phase_idle rfl (by decide +kernel)) (by decide +kernel)
  have hs : (runChk (fun x => x >>> 3) 40 (fun m => decide ((m.tab m.root).newT = none)) eraOps phaseSysA.mem).isSome = true := by decide +kernel
  obtain ⟨x, hx⟩ := Option.isSome_iff_exists.mp hs
  have e : eraMid = x := by rw [eraMid, hx]; rfl
  rw [e]
  exact runChk_eras eraOps h (by decide +kernel) hx

theorem eraSys_idle : ∀ t, ∃ todo, eraSys.thr t = .idle todo := by
  have key : ∀ t, (eraSys.thr t).isIdle = true → ∃ todo, eraSys.thr t = .idle todo := by
    intro t
    cases eraSys.thr t with
    | idle todo => exact fun _ => ⟨todo, rfl⟩
    | busy op p todo => exact fun e => by cases e
  intro t
  by_cases h0 : t = 0
  · subst h0; exact key _ (by decide +kernel)
  by_cases h1 : t = 1
  · subst h1; exact key _ (by decide +kernel)
  have e : eraSys.thr t = (Sys.start eraMid phaseB).thr t := by
    rw [eraSys]
    generalize eraMid = m
    rw [exec_thr_other]
    intro x hx e
    subst e
    simp only [phaseSched, steps, List.mem_append, List.mem_replicate, Sched.run.injEq] at hx
    omega
  rw [e]
  exact ⟨_, rfl⟩

/-- The theorems with growth between the phases are not vacuous: two threads put a key each in overlapping calls; one thread puts
nine keys, for which the table grows; then the two threads write each other's keys in overlapping calls in the second table, and
`get` finds what they wrote and what was put before. -/
example : Sized 8 64 ∧ Eras (fun x => x >>> 3) 8 64 eraSys.mem
      (phaseMap (fun k => if k = 16#64 then 0 else 1) eraSys.hist
        (specRun eraOps (phaseMap (fun k => if k = 16#64 then 1 else 0) phaseSysA.hist AMap.empty))) ∧
    phaseSysA.mem.root = 0 ∧ eraMid.root = 1 ∧ eraSys.mem.root = 1 ∧ eraSys.mem.next = 2 ∧ eraSys.hist.length = 8 ∧
    eraSys.hist = [.inv 0 (.remove 16#64), .inv 1 (.replace 8#64 80#64 88#64)] ++ eraSys.hist.drop 2 ∧
    (run (mapGet (fun x => x >>> 3) 40 8#64) eraSys.mem).val? = some 88#64 ∧
    (run (mapGet (fun x => x >>> 3) 40 16#64) eraSys.mem).val? = some VINITIAL ∧
    (run (mapGet (fun x => x >>> 3) 40 96#64) eraSys.mem).val? = some 800#64 := by
  refine ⟨⟨⟨3, by decide, rfl⟩, by decide⟩, ?_, by decide +kernel, by decide +kernel, by decide +kernel, by decide +kernel,
    by decide +kernel, by decide +kernel, by decide +kernel, by decide +kernel, by decide +kernel⟩
  have hn : eraSys.mem.next = eraMid.next := by decide +kernel
  exact .phase 40 _ phaseB phaseSched eraMid_eras (fun t op h => ⟨(phaseB_by t op h).1.mine, (phaseB_by t op h).2⟩) rfl eraSys_idle hn

end PMap
