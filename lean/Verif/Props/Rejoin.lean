import Verif.Own.Reopened
import Verif.Props.Sessions
import Verif.Props.Phases

/-!
# One writer per key in a map opened from a file: C18 and C52
-/

namespace PMap

open Prog

variable {hash : Word → Word} {len cap n : Nat} {own : Word → Nat} {m m' : Mem} {M M' : AMap} {f : File}

/-- From the memory `m`, where no call is in progress and which stands for the map `M`, a map has been used in phases: in each phase
any number of threads make calls under any schedule, each key having one writer; between phases no call is in progress and the
keys get other writers.  The last index is the ordinary map after the same calls (no code of its own). -/
inductive PhasesFrom (hash : Word → Word) (m : Mem) (M : AMap) : Mem → AMap → Prop
  | start : PhasesFrom hash m M m M
  | phase {m' : Mem} {M' : AMap} {s : Sys} (n : Nat) (own : Word → Nat) (calls : Nat → List Op) (xs : List Sched) :
      PhasesFrom hash m M m' M' → (∀ t, ∀ op ∈ calls t, op.Mine own t ∧ op.isUpdate = false) →
      s = (Sys.start m' calls).exec hash n xs → (∀ t, ∃ todo, s.thr t = .idle todo) →
      PhasesFrom hash m M s.mem (phaseMap own s.hist M')

theorem phasesFrom_between (hp : ∃ p, p ≤ 32 ∧ len = 2 ^ p) (hB : ∀ own, Between (reCfg hash len own) m M)
    (h : PhasesFrom hash m M m' M') (h1 : m'.next ≤ 1) : ∀ own, Between (reCfg hash len own) m' M' := by
  induction h with
  | start => exact hB
  | @phase m' M' s n own calls xs _ hc he hi ih =>
    intro own'
    have hB := ih (by rw [he] at h1; exact (next_le_exec hash n xs (Sys.start m' calls)).trans h1)
    exact (Between.phase (C := reCfg hash len own) (reCfg_ok hp) (hB own) (mine_by hc) xs he (reCfg_calm h1) hi).anyOwn

theorem Between.linRun (hp : ∃ p, p ≤ 32 ∧ len = 2 ^ p) (hB : Between (reCfg hash len own) m M) {calls : Nat → List Op}
    (hc : ∀ t, ∀ op ∈ calls t, op.Mine own t ∧ op.isUpdate = false) (xs : List Sched)
    (hn : ((Sys.start m calls).exec hash n xs).mem.next ≤ 1) :
    LinRun M (fun _ => .idle) ((Sys.start m calls).exec hash n xs).hist ∧
      ((Sys.start m calls).exec hash n xs).ub = false ∧ ((Sys.start m calls).exec hash n xs).mem.failed = false := by
  obtain ⟨M', sz, P, fx, hO⟩ := hB.start (n := n) (reCfg_ok hp) (mine_by hc) xs (reCfg_calm hn)
  refine ⟨?_, hO.noub, hO.inv.ok⟩
  have := hO.lin.run [] .nil
  rwa [List.append_nil] at this

/-- **C18, partial**, in a map opened from a file.  The file is in order (as in C25) and its values are ones a user can store.
Opening it succeeds, its pairs form a map `M`, and from then on, for any number of threads making calls other than `update`,
each key having one writer, and any schedule: until a second table is allocated every history is linearizable from `M`, and no
thread meets undefined behaviour or fails an assertion.  Missing for the full claim: two writers of a key (refuted by
`c18_not_linearizable`), growth (refuted by `c20_lost_key`). -/
theorem c18_opened_one_writer_no_growth_partial (hf : FileOK hash f) (hc : cap ≤ 2 ^ 32) (hv : ∀ k v, f.Holds k v → ValidVal v) :
    ∃ (M : AMap) (m : Mem), (∀ k v, M k = some v ↔ f.Holds k v) ∧ openFile f cap = .done () m ∧
      ∀ (n : Nat) (own : Word → Nat) (calls : Nat → List Op) (xs : List Sched),
        (∀ t, ∀ op ∈ calls t, op.Mine own t ∧ op.isUpdate = false) → ((Sys.start m calls).exec hash n xs).mem.next ≤ 1 →
        LinRun M (fun _ => .idle) ((Sys.start m calls).exec hash n xs).hist ∧
          ((Sys.start m calls).exec hash n xs).ub = false ∧ ((Sys.start m calls).exec hash n xs).mem.failed = false := by
  obtain ⟨M, hM⟩ := file_map hf
  obtain ⟨m, hm, -⟩ := openFile_spec f cap
  exact ⟨M, m, hM, hm, fun n own calls xs hcl hn => (between_open (own := own) hf hc hv hM hm).linRun hf.pow hcl xs hn⟩

/-- **C52, partial**, in a map opened from a file: used in phases, between which the keys change writers, as long as the table has
not grown.  In the next phase every history is linearizable from the contents the earlier phases left; and when no call is in progress
`size()` is the number of keys present, `isEmpty()` says whether there are none, and `get` returns under each key what the key's
writers, phase after phase and each in its own order, left there, or, if nobody changed the key, what the file has. -/
theorem c52_opened_phases_no_growth_partial (hf : FileOK hash f) (hc : cap ≤ 2 ^ 32) (hv : ∀ k v, f.Holds k v → ValidVal v)
    (hM : ∀ k v, M k = some v ↔ f.Holds k v) (hm : openFile f cap = .done () m) (h : PhasesFrom hash m M m' M')
    (h1 : m'.next ≤ 1) :
    (∃ w, run mapSize m' = .done w m' ∧ w.toNat = M'.card) ∧ run mapIsEmpty m' = .done (decide (M'.card = 0)) m' ∧
      (∀ k n' v m'', ValidKey k → run (mapGet hash n' k) m' = .done v m'' → v = resWord (M' k)) ∧
      ∀ (n : Nat) (own : Word → Nat) (calls : Nat → List Op) (xs : List Sched),
        (∀ t, ∀ op ∈ calls t, op.Mine own t ∧ op.isUpdate = false) → ((Sys.start m' calls).exec hash n xs).mem.next ≤ 1 →
        LinRun M' (fun _ => .idle) ((Sys.start m' calls).exec hash n xs).hist ∧
          ((Sys.start m' calls).exec hash n xs).ub = false ∧ ((Sys.start m' calls).exec hash n xs).mem.failed = false := by
  have hB := phasesFrom_between hf.pow (fun own => between_open (own := own) hf hc hv hM hm) h h1
  have hC := reCfg_ok (hash := hash) (own := fun _ => 0) hf.pow
  obtain ⟨w, h2, h3, h4⟩ := size_own hC (hB fun _ => 0).inv (fun t k _ => rfl) (hB fun _ => 0).keys
  exact ⟨⟨w, h2, h3⟩, h4,
    fun k n' v m'' hk hg => get_own (s := ⟨_, M', _⟩) hC (hB fun _ => 0).inv (hB fun _ => 0).valid (hB fun _ => 0).keys hk hg,
    fun n own calls xs hcl hn => (hB own).linRun hf.pow hcl xs hn⟩

/-- **C52, partial**, one thread alone after the phases in a map opened from a file: whatever calls (other than `update`) it makes,
with whatever growth of the table, its results are those of an ordinary map that starts with the contents the phases left. -/
theorem c52_opened_then_one_thread_partial (hf : FileOK hash f) (hc : cap ≤ 2 ^ 32) (hv : ∀ k v, f.Holds k v → ValidVal v)
    (hM : ∀ k v, M k = some v ↔ f.Holds k v) (hm : openFile f cap = .done () m) (h : PhasesFrom hash m M m' M')
    (h1 : m'.next ≤ 1) (ops : List Op) (ho : ∀ op ∈ ops, op.Valid ∧ op.isUpdate = false) {rs : List Res} {m'' : Mem}
    (hr : runOps hash n ops m' = .done rs m'') :
    specAgrees ops M' rs ∧ ∀ n' (op : Op), op.Valid → Safe (op.prog hash n') m'' := by
  have hg := (phasesFrom_between hf.pow (fun own => between_open (own := own) hf hc hv hM hm) h h1 fun _ => 0).good (reCfg_ok hf.pow)
  obtain ⟨h1, h2⟩ := runOps_good n ops m' M' ho hg rs m'' hr
  exact ⟨h2, fun n' op hv => (any_spec n' op hv h1 m'' rfl).1⟩

/-! ## After crashes -/

/-- A memory that is new or comes from a file in order (no code of its own). -/
def InOrder (hash : Word → Word) (len cap : Nat) (m : Mem) : Prop :=
  m = freshMem len cap ∨ ∃ f c, FileOK hash f ∧ f.len = len ∧ c ≤ 2 ^ 32 ∧ openFile f c = .done () m

theorem crashed_inOrder (hs : Sized len cap) (h : Crashed hash len cap m) : InOrder hash len cap m := by
  cases h with
  | fresh => exact .inl rfl
  | @crash m _ f n calls t xs xss hm hv hx h1 hc hr =>
    have ih := crashed_opened hs hm
    obtain ⟨g, hg, hl⟩ := cutOpens_left ((Sys.start m calls).exec hash n xs).mem.cap xss
      (fileOf ((Sys.start m calls).exec hash n xs).mem.nv 0 (((Sys.start m calls).exec hash n xs).mem.tab 0).len)
    rw [hc] at hg
    cases hg
    rw [(ih.alone (n := n) hv hx h1).len xs (List.prefix_refl _)] at hl
    exact .inr ⟨f, _, hl.ok (ih.file hv hx h1), hl.len, (ih.ok (n := n) hv xs []).1.inv.cap, hr⟩

theorem crashes_inOrder (hs : Sized len cap) {K : Word → Prop} (hK : HomesApart hash len K) (h : Crashes hash len cap K m) :
    InOrder hash len cap m := by
  cases h with
  | fresh => exact .inl rfl
  | @crash m _ f n calls own xs xss hm hv ho h1 hr hc hf =>
    have ih := crashes_opened hs hK hm
    have hF := ih.1.shared hv h1 hr
    obtain ⟨g, hg, hl⟩ := cutOpens_left ((Sys.start m calls).exec hash n xs).mem.cap xss
      (fileOf ((Sys.start m calls).exec hash n xs).mem.nv 0 (((Sys.start m calls).exec hash n xs).mem.tab 0).len)
    rw [hc] at hg
    cases hg
    rw [hF.len xs (List.prefix_refl _)] at hl
    exact .inr ⟨f, _, hl.ok (ih.1.file_home hv h1 hF (fun t op h k hk => (ho t op h k hk).1)
      (home_exec hF hK (fun _ => rfl) hv ho ih.2 (List.prefix_refl _))), hl.len, (ih.1.ok (n := n) hv xs []).1.inv.cap, hf⟩

theorem inOrder_start (hs : Sized len cap) (h : InOrder hash len cap m)
    (hw : ∀ i, i < len → clean (m.word (.val 0 i)) = VINITIAL ∨ clean (m.word (.val 0 i)) = VTOMBSTONE ∨
      ValidVal (clean (m.word (.val 0 i)))) :
    ∃ M : AMap, (∃ w, run mapSize m = .done w m ∧ w.toNat = M.card) ∧
      (∀ k n' v m', ValidKey k → run (mapGet hash n' k) m = .done v m' → v = resWord (M k)) ∧
      ∀ (n : Nat) (own : Word → Nat) (calls : Nat → List Op) (xs : List Sched),
        (∀ t, ∀ op ∈ calls t, op.Mine own t ∧ op.isUpdate = false) → ((Sys.start m calls).exec hash n xs).mem.next ≤ 1 →
        LinRun M (fun _ => .idle) ((Sys.start m calls).exec hash n xs).hist ∧
          ((Sys.start m calls).exec hash n xs).ub = false ∧ ((Sys.start m calls).exec hash n xs).mem.failed = false := by
  rcases h with rfl | ⟨f, c, hf, rfl, hc, hm⟩
  · have hB : ∀ own, Between (anyCfg hash len validKeys own) (freshMem len cap) AMap.empty := fun own =>
      between_fresh (C := anyCfg hash len validKeys own) rfl hs.cap
    have hC := anyCfg_ok (hash := hash) (S := validKeys) (own := fun _ => 0) hs.pow
    obtain ⟨w, h2, h3, -⟩ := size_own hC (hB fun _ => 0).inv (fun t k _ => rfl) (hB fun _ => 0).keys
    refine ⟨AMap.empty, ⟨w, h2, h3⟩, fun k n' v m'' hk hg =>
      get_own (s := ⟨_, AMap.empty, _⟩) hC (hB fun _ => 0).inv (hB fun _ => 0).valid (hB fun _ => 0).keys hk hg, ?_⟩
    intro n own calls xs hcl hn
    obtain ⟨M', sz, P, fx, hO⟩ := (hB own).start (n := n) (anyCfg_ok hs.pow) (mine_by hcl) xs (anyCfg_calm hn)
    refine ⟨?_, hO.noub, hO.inv.ok⟩
    have := hO.lin.run [] .nil
    rwa [List.append_nil] at this
  · obtain ⟨M, hM⟩ := file_map hf
    have hv : ∀ k v, f.Holds k v → ValidVal v := by
      rintro k v ⟨i, hi, -, e, h3, h4⟩
      obtain ⟨m1, h', hs⟩ := openFile_spec f c
      rw [hm] at h'
      cases h'
      have hcv : clean (m.word (.val 0 i)) = f.fixed i := (hs.cv i).trans (if_pos hi)
      have e' : f.V i = v := e
      have := hw i hi
      rw [hcv, File.fixed, if_neg fun c => h3 (e'.symm.trans c.2), e'] at this
      exact (this.resolve_left h3).resolve_left h4
    have h := c52_opened_phases_no_growth_partial hf hc hv hM hm .start (by
      obtain ⟨m1, h', hs⟩ := openFile_spec f c
      rw [hm] at h'
      cases h'
      exact le_of_eq hs.next)
    exact ⟨M, h.1, h.2.2.1, h.2.2.2⟩

/-- **C18, partial**, after crashes: after any number of sessions of one thread each that ended in a crash, let the values in the
reopened table be ones a user can store (`hw`; only `update` stores others).  Then there is a map `M`, which `size()` and `get` show,
such that for any number of threads making calls other than `update`, each key having one writer, and any schedule, until a second
table is allocated every history is linearizable from `M`, and no thread meets undefined behaviour or fails an assertion.  Missing
for the full claim: as `c18_opened_one_writer_no_growth_partial`, and earlier sessions of several threads whose keys collide
(refuted by `c51_not_a_map`). -/
theorem c18_reopened_one_thread_before_partial (hs : Sized len cap) (h : Crashed hash len cap m)
    (hw : ∀ i, i < len → clean (m.word (.val 0 i)) = VINITIAL ∨ clean (m.word (.val 0 i)) = VTOMBSTONE ∨
      ValidVal (clean (m.word (.val 0 i)))) :
    ∃ M : AMap, (∃ w, run mapSize m = .done w m ∧ w.toNat = M.card) ∧
      (∀ k n' v m', ValidKey k → run (mapGet hash n' k) m = .done v m' → v = resWord (M k)) ∧
      ∀ (n : Nat) (own : Word → Nat) (calls : Nat → List Op) (xs : List Sched),
        (∀ t, ∀ op ∈ calls t, op.Mine own t ∧ op.isUpdate = false) → ((Sys.start m calls).exec hash n xs).mem.next ≤ 1 →
        LinRun M (fun _ => .idle) ((Sys.start m calls).exec hash n xs).hist ∧
          ((Sys.start m calls).exec hash n xs).ub = false ∧ ((Sys.start m calls).exec hash n xs).mem.failed = false :=
  inOrder_start hs (crashed_inOrder hs h) hw

/-- **C18, partial**, after crashes of sessions of several threads: the same when in the earlier sessions only keys with different
home slots were changed, each by one thread, no value word returning to an earlier value.  The calls of the new session may be on
any keys. -/
theorem c18_reopened_no_collisions_before_partial (hs : Sized len cap) {K : Word → Prop}
    (hK : ∀ k k', K k → K k' → (hash k).toNat % len = (hash k').toNat % len → k = k') (h : Crashes hash len cap K m)
    (hw : ∀ i, i < len → clean (m.word (.val 0 i)) = VINITIAL ∨ clean (m.word (.val 0 i)) = VTOMBSTONE ∨
      ValidVal (clean (m.word (.val 0 i)))) :
    ∃ M : AMap, (∃ w, run mapSize m = .done w m ∧ w.toNat = M.card) ∧
      (∀ k n' v m', ValidKey k → run (mapGet hash n' k) m = .done v m' → v = resWord (M k)) ∧
      ∀ (n : Nat) (own : Word → Nat) (calls : Nat → List Op) (xs : List Sched),
        (∀ t, ∀ op ∈ calls t, op.Mine own t ∧ op.isUpdate = false) → ((Sys.start m calls).exec hash n xs).mem.next ≤ 1 →
        LinRun M (fun _ => .idle) ((Sys.start m calls).exec hash n xs).hist ∧
          ((Sys.start m calls).exec hash n xs).ub = false ∧ ((Sys.start m calls).exec hash n xs).mem.failed = false :=
  inOrder_start hs (crashes_inOrder hs hK h) hw

/-! ### Cases that meet the hypotheses -/

theorem lost_values : ∀ i, i < 8 → clean (lostMem.word (.val 0 i)) = VINITIAL ∨ clean (lostMem.word (.val 0 i)) = VTOMBSTONE ∨
    ValidVal (clean (lostMem.word (.val 0 i))) := by decide +kernel

theorem first_values : ∀ i, i < 8 → clean (firstMem.word (.val 0 i)) = VINITIAL ∨ clean (firstMem.word (.val 0 i)) = VTOMBSTONE ∨
    ValidVal (clean (firstMem.word (.val 0 i))) := by decide +kernel

theorem join_mine : ∀ t, ∀ op ∈ joinCalls t, op.Mine (fun k => if k = 8#64 then 0 else 1) t ∧ op.isUpdate = false := by
  intro t op h
  refine ⟨⟨join_valid t op h, join_own t op h, ?_⟩, ?_⟩
  all_goals
    rcases mem_callsOf h with ⟨rfl, g⟩ | ⟨rfl, g⟩ | ⟨rfl, g⟩ | ⟨rfl, g⟩ <;>
      simp only [List.mem_cons, List.not_mem_nil, or_false] at g
    all_goals rcases g with rfl | rfl | rfl <;> first | (intro k v e; cases e) | rfl

theorem next_mine : ∀ t, ∀ op ∈ nextCalls t, op.Mine (fun k => if k = 8#64 then 1 else 0) t ∧ op.isUpdate = false := by
  intro t op h
  refine ⟨⟨next_valid t op h, fun k hk => (next_own t op h k hk).1, ?_⟩, ?_⟩
  all_goals
    rcases mem_callsOf h with ⟨rfl, g⟩ | ⟨rfl, g⟩ | ⟨rfl, g⟩ | ⟨rfl, g⟩ <;>
      simp only [List.mem_cons, List.not_mem_nil, or_false] at g
    all_goals rcases g with rfl | rfl | rfl <;> first | (intro k v e; cases e) | rfl

/-- What the theorem says of this run: the history is linearizable from what the reopened map holds. -/
example : ∃ M : AMap, resWord (M 8#64) = 16#64 ∧ resWord (M 16#64) = 40#64 ∧ LinRun M (fun _ => .idle) joinSys.hist ∧ joinSys.ub = false := by
  obtain ⟨M, -, h2, h3⟩ := c18_reopened_one_thread_before_partial sized8 lost_crashed lost_values
  have h := h3 30 _ joinCalls joinSched join_mine (by decide +kernel)
  have h8 : (run (mapGet (fun x => x >>> 3) 30 8#64) lostMem).val? = some 16#64 := by decide +kernel
  have h16 : (run (mapGet (fun x => x >>> 3) 30 16#64) lostMem).val? = some 40#64 := by decide +kernel
  have hg : ∀ {k v}, ValidKey k → (run (mapGet (fun x => x >>> 3) 30 k) lostMem).val? = some v → resWord (M k) = v := by
    intro k v hk e
    cases hr : run (mapGet (fun x => x >>> 3) 30 k) lostMem with
    | done w m' => rw [hr] at e; rw [← h2 k 30 w m' hk hr]; exact Option.some.inj e
    | halted m' => rw [hr] at e; cases e
  exact ⟨M, hg (by decide) h8, hg (by decide) h16, h.1, h.2.1⟩

/-- The map reopened after a crash and two openings that were cut short holds 16 under key 8 and 40 under key 16; three threads then
work on it at once, one of them putting a key whose home slot is taken. -/
example := (c18_reopened_one_thread_before_partial sized8 lost_crashed lost_values)
example : joinSys.mem.next ≤ 1 ∧ joinSys.hist.length = 6 := by decide +kernel

/-- The memory after opening the demonstration file of C25, which holds 88 under key 8 and 80 under key 32, a removed key 16 and the
half-inserted key 24. -/
def fileMem : Mem := match openFile demoFile 64 with | .done _ m => m | .halted _ => freshMem 4 64
/-- First phase: thread 0 changes key 8, thread 1 inserts key 24, thread 2 reads it. -/
def fileA : Nat → List Op := callsOf [.replace 8#64 88#64 96#64, .get 24#64] [.put 24#64 104#64] [.get 24#64, .get 32#64] []
/-- Second phase: thread 1 removes key 8, thread 0 inserts key 16 and removes key 24. -/
def fileB : Nat → List Op := callsOf [.putIfAbsent 16#64 112#64, .remove 24#64] [.remove 8#64] [.get 8#64] []
def againPhases : List Sched := steps 0 9 ++ steps 1 17 ++ steps 2 11 ++ steps 0 70 ++ steps 1 70 ++ steps 2 70
def fileSysA : Sys := (Sys.start fileMem fileA).exec (fun x => x >>> 3) 30 againPhases
def fileSysB : Sys := (Sys.start fileSysA.mem fileB).exec (fun x => x >>> 3) 30 againPhases

theorem fileDemo_values : ∀ k v, demoFile.Holds k v → ValidVal v := by
  have h : ∀ i, i < 4 → clean (demoFile.pair i).2 ≠ VINITIAL → clean (demoFile.pair i).2 ≠ VTOMBSTONE → ValidVal (clean (demoFile.pair i).2) := by
    decide +kernel
  rintro k v ⟨i, hi, -, rfl, h3, h4⟩
  exact h i hi h3 h4

theorem fileDemo_open : openFile demoFile 64 = .done () fileMem := by
  obtain ⟨m, hm, -⟩ := openFile_spec demoFile 64
  rw [hm]; unfold fileMem; rw [hm]

theorem fileA_mine : ∀ t, ∀ op ∈ fileA t, op.Mine (fun k => if k = 8#64 then 0 else 1) t ∧ op.isUpdate = false := by
  intro t op h
  rcases mem_callsOf h with ⟨rfl, g⟩ | ⟨rfl, g⟩ | ⟨rfl, g⟩ | ⟨rfl, g⟩ <;>
    simp only [List.mem_cons, List.not_mem_nil, or_false] at g
  all_goals rcases g with rfl | rfl <;>
    exact ⟨⟨by decide, fun k e => (by cases e <;> decide), fun k v e => (by cases e)⟩, rfl⟩

theorem fileB_mine : ∀ t, ∀ op ∈ fileB t, op.Mine (fun k => if k = 8#64 then 1 else 0) t ∧ op.isUpdate = false := by
  intro t op h
  rcases mem_callsOf h with ⟨rfl, g⟩ | ⟨rfl, g⟩ | ⟨rfl, g⟩ | ⟨rfl, g⟩ <;>
    simp only [List.mem_cons, List.not_mem_nil, or_false] at g
  all_goals rcases g with rfl | rfl <;>
    exact ⟨⟨by decide, fun k e => (by cases e <;> decide), fun k v e => (by cases e)⟩, rfl⟩

theorem fileDemo_idle {m : Mem} {calls : Nat → List Op} {s : Sys} (he : s = (Sys.start m calls).exec (fun x => x >>> 3) 30 againPhases)
    (h : (s.thr 0).isIdle = true ∧ (s.thr 1).isIdle = true ∧ (s.thr 2).isIdle = true) : ∀ t, ∃ todo, s.thr t = .idle todo := by
  have key : ∀ t, (s.thr t).isIdle = true → ∃ todo, s.thr t = .idle todo := by
    intro t
    cases s.thr t with
    | idle todo => exact fun _ => ⟨todo, rfl⟩
    | busy op p todo => exact fun e => by cases e
  intro t
  by_cases h0 : t = 0
  · subst h0; exact key _ h.1
  by_cases h1 : t = 1
  · subst h1; exact key _ h.2.1
  by_cases h2 : t = 2
  · subst h2; exact key _ h.2.2
  rw [he, exec_thr_other]
  · exact ⟨_, rfl⟩
  · intro x hx e
    subst e
    simp only [againPhases, steps, List.mem_append, List.mem_replicate, Sched.run.injEq] at hx
    omega

/-- Two phases with overlapping calls on the map opened from the file; after them keys 16 and 32 are present. -/
theorem fileDemo_phases (M : AMap) : PhasesFrom (fun x => x >>> 3) fileMem M fileSysB.mem
    (phaseMap (fun k => if k = 8#64 then 1 else 0) fileSysB.hist (phaseMap (fun k => if k = 8#64 then 0 else 1) fileSysA.hist M)) :=
  .phase 30 _ fileB againPhases (.phase 30 _ fileA againPhases .start fileA_mine rfl (fileDemo_idle rfl (by decide +kernel)))
    fileB_mine rfl (fileDemo_idle rfl (by decide +kernel))

example := fun M hM => c52_opened_phases_no_growth_partial (M := M) demoFile_ok (by decide : 64 ≤ 2 ^ 32) fileDemo_values hM fileDemo_open
  (fileDemo_phases M) (by decide +kernel)

example : fileSysA.hist.length = 10 ∧ fileSysB.hist.length = 8 ∧
    (runOps (fun x => x >>> 3) 30 [.get 8#64, .get 16#64, .get 24#64, .get 32#64, .size] fileSysA.mem).val? =
      some [.word 96#64, .word VINITIAL, .word 104#64, .word 80#64, .word 3#64] ∧
    (runOps (fun x => x >>> 3) 30 [.get 8#64, .get 16#64, .get 24#64, .get 32#64, .size] fileSysB.mem).val? =
      some [.word VINITIAL, .word 112#64, .word VINITIAL, .word 80#64, .word 2#64] := by decide +kernel

/-- The same for a map whose earlier session had several threads. -/
example := (c18_reopened_no_collisions_before_partial sized8 small_spread first_crashes first_values)
example : nextSys.mem.next ≤ 1 ∧ nextSys.hist.length = 11 := by decide +kernel

end PMap
