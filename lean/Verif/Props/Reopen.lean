import Verif.Seq.CutOpen
import Verif.Fast

/-!
# Properties of table files: C25, C30, C39, C41, and what a crash does to a completed put (C22)
-/

namespace PMap

open Prog

variable {hash : Word → Word} {cap : Nat}

/-! ## C25 -/

theorem file_map {f : File} (hf : FileOK hash f) : ∃ M : AMap, ∀ k v, M k = some v ↔ f.Holds k v := by
  classical
  refine ⟨fun k => if h : ∃ v, f.Holds k v then some h.choose else none, fun k v => ?_⟩
  constructor
  · intro h
    dsimp only at h
    split at h
    · next hh => rw [← Option.some.inj h]; exact hh.choose_spec
    · cases h
  · intro h
    have hh : ∃ v, f.Holds k v := ⟨v, h⟩
    dsimp only
    rw [dif_pos hh]
    obtain ⟨i, hi, e1, e2, h3, h4⟩ := h
    obtain ⟨j, hj, e1', e2', h3', h4'⟩ := hh.choose_spec
    have hne : f.K i ≠ KINITIAL := fun e => h3 (e2.symm.trans (hf.empty i hi e))
    have := K_inj hf hi hj hne (e1.trans e1'.symm)
    subst this
    rw [← e2, ← e2']

/-- **C25.** Opening a file that satisfies the table invariant succeeds; the stored pairs form a map `M`; `size()` is the
number of keys of `M`; and every sequence of valid calls on the opened map gets the results of an ordinary map that
starts as `M`. -/
theorem c25_reopen {f : File} (hf : FileOK hash f) (hc : cap ≤ 2 ^ 32) :
    ∃ (M : AMap) (m : Mem), (∀ k v, M k = some v ↔ f.Holds k v) ∧ openFile f cap = .done () m ∧
      run mapSize m = .done (BitVec.ofNat 64 M.card) m ∧
      ∀ n ops rs m', (∀ op ∈ ops, op.Valid ∧ op.isUpdate = false) → runOps hash n ops m = .done rs m' →
        specAgrees ops M rs := by
  obtain ⟨M, hM⟩ := file_map hf
  obtain ⟨m, hm, hs⟩ := openFile_spec f cap
  have hG := scanned_inv hf hc hM hs
  refine ⟨M, m, hM, hm, ?_, fun n ops rs m' hv hr => (runOps_good n ops m M hv hG rs m' hr).2⟩
  have h1 : m.root = 0 := hs.root
  have h2 : m.next = 1 := hs.next
  have h3 : (m.tab 0).size = _ := hs.size
  show run (.act .getRoot fun r => .act (.getSize r) .ret) m = _
  simp only [run, Act.exec, h1, h2, Nat.one_pos, if_true, h3, count_card hf hM]

/-- **C25**, half-finished insertions: a key whose value never arrived reads as absent after reopening. -/
theorem c25_half_inserted {f : File} (hf : FileOK hash f) (hc : cap ≤ 2 ^ 32) {i : Nat} (hi : i < f.len)
    (hk : clean (f.pair i).1 ≠ KINITIAL) (hv : clean (f.pair i).2 = VINITIAL) {m : Mem} (hm : openFile f cap = .done () m)
    (n : Nat) {r : Word} {m' : Mem} (hr : run (mapGet hash n (clean (f.pair i).1)) m = .done r m') : r = VINITIAL := by
  obtain ⟨M, hM⟩ := file_map hf
  obtain ⟨m1, hm1, hs⟩ := openFile_spec f cap
  rw [hm] at hm1
  cases hm1
  have hG := scanned_inv hf hc hM hs
  have h := ((mapGet_spec n hG (K_user hf hi hk) m rfl).2 r m' hr).1
  have hnone : M (f.K i) = none := by
    cases hMk : M (f.K i) with
    | none => rfl
    | some v =>
      obtain ⟨j, hj, e1, e2, h3, -⟩ := (hM _ v).mp hMk
      have := K_inj hf hi hj hk e1.symm
      subst this
      exact absurd (e2.symm.trans hv) h3
  rw [h]
  show (M (f.K i)).getD VINITIAL = VINITIAL
  rw [hnone]; rfl

/-- **C25**, stopping while the file is being opened: take a file that satisfies the table invariant, open it any number of times,
the machine stopping each time at any access to memory of the scan, with any lines written back.  The file left behind satisfies
the table invariant and stores the same pairs, so opening it gives the map that opening the first file would have given. -/
theorem c25_cut_opening {f : File} (hf : FileOK hash f) (xss : List (List OpenStep)) :
    ∃ g, cutOpens cap xss f = some g ∧ FileOK hash g ∧ g.len = f.len ∧ ∀ k v, g.Holds k v ↔ f.Holds k v := by
  obtain ⟨g, h1, h2⟩ := cutOpens_left cap xss f
  exact ⟨g, h1, h2.ok hf, h2.len, h2.holds⟩

/-- Several sessions: calls by a single thread, and clean restarts (all words reached the file) while the map has not
grown.  In a restart the machine may stop any number of times while the file is being opened.  `M` is the ordinary map after the
same calls. -/
inductive Session (hash : Word → Word) (len cap : Nat) : Mem → AMap → Prop
  | fresh : Session hash len cap (freshMem len cap) AMap.empty
  | call {m m' : Mem} {M : AMap} {op : Op} {r : Res} (n : Nat) : Session hash len cap m M → op.Valid →
      op.isUpdate = false → run (op.prog hash n) m = .done r m' → Session hash len cap m' (specNext op M)
  | cutRestart {m m' : Mem} {M : AMap} {f : File} (xss : List (List OpenStep)) : Session hash len cap m M → m.next = 1 →
      cutOpens m.cap xss (fileOf m.word 0 (m.tab 0).len) = some f → openFile f m.cap = .done () m' →
      Session hash len cap m' M

theorem Session.restart {len : Nat} {m m' : Mem} {M : AMap} (h : Session hash len cap m M) (h1 : m.next = 1)
    (hr : PMap.restart m m.word = .done () m') : Session hash len cap m' M :=
  h.cutRestart [] h1 rfl hr

theorem session_good {len : Nat} (hs : Sized len cap) {m : Mem} {M : AMap} (h : Session hash len cap m M) :
    Good hash (abs m) M ∧ m.cap ≤ 2 ^ 32 := by
  induction h with
  | fresh => exact ⟨(good_fresh hs.pow hs.cap).1, hs.cap⟩
  | call n _ hv hu hr ih =>
    have h := ((op_spec n _ hv hu ih.1 _ rfl).2 _ _ hr).good
    exact ⟨h, h.inv.cap_le⟩
  | @cutRestart m m' M f xss h h1 hx hr ih =>
    obtain ⟨hf, hM⟩ := file_of_good ih.1 h1
    obtain ⟨g, hg, hl⟩ := cutOpens_left m.cap xss (fileOf m.word 0 (m.tab 0).len)
    rw [hx] at hg
    cases hg
    obtain ⟨m2, hm2, hs2⟩ := openFile_spec f m.cap
    rw [hm2] at hr
    cases hr
    have h := scanned_inv (hl.ok hf) ih.2 (fun k v => (hM k v).trans (hl.holds k v).symm) hs2
    exact ⟨h, h.inv.cap_le⟩

/-- **C25**, over any number of sessions: as long as the map is only restarted before it has grown, every call in every
session returns what an ordinary map with the same history returns. -/
theorem c25_sessions {len : Nat} (hs : Sized len cap) {m : Mem} {M : AMap} (h : Session hash len cap m M) (n : Nat)
    {op : Op} (hv : op.Valid) (hu : op.isUpdate = false) {r : Res} {m' : Mem}
    (hr : run (op.prog hash n) m = .done r m') {x : Res} (hx : specRes op M = some x) : r = x :=
  ((op_spec n op hv hu (session_good hs h).1 m rfl).2 r m' hr).res x hx

/-- A file of four pairs: two entries, one removed entry, one key whose value never arrived; some words dirty. -/
def demoFile : File := ⟨4, fun i => if i = 0 then (33#64, 80#64) else if i = 1 then (8#64, 89#64) else
  if i = 2 then (16#64, VTOMBSTONE) else (25#64, dirty VINITIAL)⟩

theorem demoFile_ok : FileOK (fun x => x >>> 3) demoFile where
  pow := ⟨2, by decide, rfl⟩
  empty := by decide +kernel
  no_tomb := by decide +kernel
  no_mig := by decide +kernel
  path i hi hk := ⟨0, by decide, by
    have : i < 4 := hi
    interval_cases i <;> decide +kernel, fun e he => absurd he (Nat.not_lt_zero _)⟩

/-- C25 is not vacuous: opening `demoFile` gives a map with the two entries and no others; the half-finished key is
absent; the map can be used and grows. -/
example : ∃ m m', openFile demoFile 64 = .done () m ∧ runOps (fun x => x >>> 3) 40
    [.size, .get 32#64, .get 8#64, .get 16#64, .get 24#64, .put 24#64 8#64, .put 40#64 16#64, .get 24#64, .get 8#64,
     .get 40#64, .size] m =
    .done [.word 2#64, .word 80#64, .word 88#64, .word VINITIAL, .word VINITIAL, .word VINITIAL, .word VINITIAL,
      .word 8#64, .word 88#64, .word 16#64, .word 4#64] m' := by
  obtain ⟨m, hm, -⟩ := openFile_spec demoFile 64
  have h : (match openFile demoFile 64 with
    | .halted _ => none
    | .done _ m => (runOps (fun x => x >>> 3) 40 [.size, .get 32#64, .get 8#64, .get 16#64, .get 24#64, .put 24#64 8#64,
      .put 40#64 16#64, .get 24#64, .get 8#64, .get 40#64, .size] m).val?) =
      some [.word 2#64, .word 80#64, .word 88#64, .word VINITIAL, .word VINITIAL, .word VINITIAL, .word VINITIAL,
        .word 8#64, .word 88#64, .word 16#64, .word 4#64] := by decide +kernel
  rw [hm] at h
  obtain ⟨m', hm'⟩ := Outcome.eq_done h
  exact ⟨m, m', hm, hm'⟩

/-- The first attempt to open `demoFile` stops after 17 accesses, when the key without a value has become a removed key, with that
line not written back; the second attempt stops after 22, with it written back. -/
def demoCuts : List (List OpenStep) :=
  [List.replicate 17 .step ++ [.writeBack 1], List.replicate 22 .step ++ [.writeBack 3]]

/-- `c25_cut_opening` is not vacuous: the two attempts change words of `demoFile`, the second one more than a dirty bit; the map
opened afterwards is the one of the example above. -/
example : ((cutOpens 64 (demoCuts.take 1) demoFile).map fun g => (g.pair 1, g.pair 3)) =
      some ((8#64, 88#64), (25#64, dirty VINITIAL)) ∧
    ((cutOpens 64 demoCuts demoFile).map fun g => (g.pair 1, g.pair 3)) = some ((8#64, 88#64), (24#64, dirty VTOMBSTONE)) ∧
    (match cutOpens 64 demoCuts demoFile with
      | none => none
      | some g =>
        match openFile g 64 with
        | .halted _ => none
        | .done _ m => (runOps (fun x => x >>> 3) 40 [.size, .get 32#64, .get 8#64, .get 16#64, .get 24#64] m).val?) =
      some [.word 2#64, .word 80#64, .word 88#64, .word VINITIAL, .word VINITIAL] := by decide +kernel

/-- Calls (`some`) and restarts (`none`), one after the other. -/
def sessRun (hash : Word → Word) (n : Nat) : List (Option Op) → Mem → Option Mem
  | [], m => some m
  | some op :: xs, m =>
    match run (op.prog hash n) m with
    | .halted _ => none
    | .done _ m' => sessRun hash n xs m'
  | none :: xs, m =>
    if m.next = 1 then
      match restart m m.word with
      | .halted _ => none
      | .done _ m' => sessRun hash n xs m'
    else none

theorem sessRun_session {len n : Nat} (xs : List (Option Op)) {m m' : Mem} {M : AMap} (h : Session hash len cap m M)
    (hv : ∀ op, some op ∈ xs → op.Valid ∧ op.isUpdate = false) (hr : sessRun hash n xs m = some m') :
    Session hash len cap m' (specRun (xs.filterMap id) M) := by
  induction xs generalizing m M with
  | nil => cases hr; exact h
  | cons x xs ih =>
    have hv' := fun op ho => hv op (List.mem_cons_of_mem _ ho)
    cases x with
    | none =>
      rw [sessRun] at hr
      split at hr
      · next h1 =>
        split at hr
        · cases hr
        · next m1 hm1 => exact ih (h.restart h1 hm1) hv' hr
      · cases hr
    | some op =>
      rw [sessRun] at hr
      split at hr
      · cases hr
      · next r m1 hm1 =>
        have ho := hv op (List.mem_cons_self ..)
        exact ih (h.call n ho.1 ho.2 hm1) hv' hr

/-- `c25_sessions` is not vacuous: calls in three sessions, with growth in the last. -/
example : ∃ m M, Session (fun x => x >>> 3) 4 64 m M ∧ m.next = 2 ∧ M 8#64 = some 16#64 := by
  have h : (sessRun (fun x => x >>> 3) 40 [some (.put 8#64 8#64), some (.put 16#64 8#64), none, some (.put 8#64 16#64),
      some (.remove 16#64), none, some (.put 24#64 8#64), some (.put 32#64 8#64), some (.put 40#64 8#64)]
      (freshMem 4 64)).map (·.next) = some 2 := by decide +kernel
  rw [Option.map_eq_some_iff] at h
  obtain ⟨m, h1, h2⟩ := h
  refine ⟨m, _, sessRun_session _ .fresh ?_ h1, h2, by decide +kernel⟩
  intro op ho
  simp only [List.mem_cons, Option.some.injEq, List.not_mem_nil, or_false, reduceCtorEq, false_or] at ho
  rcases ho with rfl | rfl | rfl | rfl | rfl | rfl | rfl <;> decide +kernel

/-! ## C41 -/

/-- **C41 is false of the code.** A table of one slot takes two puts and grows.  After a clean restart (every word reached
its file) the second key reads as absent, and reading the first key dereferences a null table: the restarted map is the
oldest table file, which was emptied by the migration. -/
theorem c41_restart_after_growth : ∃ m m', runOps (fun x => x >>> 3) 30 [.put 8#64 8#64, .put 16#64 8#64]
      (freshMem 1 64) = .done [.word VINITIAL, .word VINITIAL] m ∧ m.root = 1 ∧ restart m m.word = .done () m' ∧
    (∃ m'', run (mapGet (fun x => x >>> 3) 30 16#64) m' = .done VINITIAL m'') ∧
    run (mapGet (fun x => x >>> 3) 30 8#64) m' = .halted .ub := by
  have h : (match runOps (fun x => x >>> 3) 30 [.put 8#64 8#64, .put 16#64 8#64] (freshMem 1 64) with
    | .halted _ => none
    | .done rs m =>
      match restart m m.word with
      | .halted _ => none
      | .done _ m' => some (rs, m.root, (run (mapGet (fun x => x >>> 3) 30 16#64) m').val?,
        match run (mapGet (fun x => x >>> 3) 30 8#64) m' with
          | .halted .ub => true
          | _ => false)) = some ([.word VINITIAL, .word VINITIAL], 1, some VINITIAL, true) := by decide +kernel
  split at h
  · cases h
  · next rs m hm =>
    split at h
    · cases h
    · next m' hm' =>
      simp only [Option.some.injEq, Prod.mk.injEq] at h
      obtain ⟨rfl, h2, h3, h4⟩ := h
      refine ⟨m, m', hm, h2, hm', Outcome.eq_done h3, ?_⟩
      revert h4
      split
      · next e => exact fun _ => e
      · exact fun e => nomatch e

/-- **C41, partial.** A clean restart keeps every entry if the map has not grown.  Missing: maps that have grown, for which
the claim is false (`c41_restart_after_growth`). -/
theorem c41_restart_partial {len : Nat} (hs : Sized len cap) {m : Mem} {M : AMap} (h : Session hash len cap m M)
    (h1 : m.next = 1) : ∃ m', restart m m.word = .done () m' ∧
      ∀ n k r m'', ValidKey k → run (mapGet hash n k) m' = .done r m'' → r = resWord (M k) := by
  obtain ⟨m', hm', -⟩ := openFile_spec (fileOf m.word 0 (m.tab 0).len) m.cap
  refine ⟨m', hm', fun n k r m'' hk hr => ?_⟩
  exact ((mapGet_spec n (session_good hs (h.restart h1 hm')).1 (userKey_of_valid hk) m' rfl).2 r m'' hr).1

/-! ## C22 -/

/-- **C22 is false of the code.** A put returns; the machine stops immediately afterwards; after the restart the key is
absent, because nothing has been flushed. -/
theorem c22_put_lost : ∃ m m' m'', run (mapPut (fun x => x >>> 3) 30 8#64 16#64) (freshMem 8 64) = .done VINITIAL m ∧
    restart m m.nv = .done () m' ∧ run (mapGet (fun x => x >>> 3) 30 8#64) m' = .done VINITIAL m'' := by
  have h : (match run (mapPut (fun x => x >>> 3) 30 8#64 16#64) (freshMem 8 64) with
    | .halted _ => none
    | .done r m =>
      match restart m m.nv with
      | .halted _ => none
      | .done _ m' => some (r, (run (mapGet (fun x => x >>> 3) 30 8#64) m').val?)) =
        some (VINITIAL, some VINITIAL) := by decide +kernel
  split at h
  · cases h
  · next r m hm =>
    split at h
    · cases h
    · next m' hm' =>
      simp only [Option.some.injEq, Prod.mk.injEq] at h
      obtain ⟨rfl, h3⟩ := h
      obtain ⟨m'', h''⟩ := Outcome.eq_done h3
      exact ⟨m, m', m'', hm, hm', h''⟩

/-! ## C30 -/

/-- The pairs as stored so far. -/
def VolOK (c : Creating) : Prop := ∀ j, c.vol j = if 2 * j + 1 < c.stores then (dirty KINITIAL, dirty VINITIAL)
  else if 2 * j < c.stores then (dirty KINITIAL, 0#64) else (0#64, 0#64)

theorem volOK_start (len : Nat) : VolOK (Creating.start len) := fun j => by simp [Creating.start]

theorem VolOK.step {c : Creating} (h2 : VolOK c) (x : CreateStep) : VolOK (c.step x) := by
  cases x with
  | writeBack k => intro j; simp only [Creating.step]; exact h2 j
  | store =>
    intro j
    simp only [Creating.step]
    split
    · next hl =>
      simp only
      split
      · next hj =>
        subst hj
        rw [h2 (c.stores / 2)]
        rcases Nat.mod_two_eq_zero_or_one c.stores with he | he
        · rw [if_pos he, if_neg (by omega), if_neg (by omega), if_neg (by omega), if_pos (by omega)]
        · rw [if_neg (by omega), if_neg (by omega), if_pos (by omega), if_pos (by omega)]
      · next hj =>
        rw [h2 j]
        by_cases a : 2 * j + 1 < c.stores
        · rw [if_pos a, if_pos (by omega)]
        · rw [if_neg a, if_neg (by omega), if_neg (by omega), if_neg (by omega)]
    · exact h2 j

theorem creating_len (xs : List CreateStep) (c : Creating) : (Creating.steps xs c).len = c.len := by
  induction xs generalizing c with
  | nil => rfl
  | cons x xs ih =>
    rw [Creating.steps, ih]
    cases x with
    | store => simp only [Creating.step]; split <;> rfl
    | writeBack k => rfl

theorem steps_append (xs ys : List CreateStep) (c : Creating) :
    Creating.steps (xs ++ ys) c = Creating.steps ys (Creating.steps xs c) := by
  induction xs generalizing c with
  | nil => rfl
  | cons x xs ih => exact ih _

theorem VolOK.steps (xs : List CreateStep) {c : Creating} (h : VolOK c) : VolOK (Creating.steps xs c) := by
  induction xs generalizing c with
  | nil => exact h
  | cons x xs ih => exact ih (h.step x)

/-- What a pair of a file being created can look like after a crash, at whatever point and whichever lines reached
memory: untouched, key initialised, or both initialised. -/
theorem c30_pairs (len : Nat) (xs : List CreateStep) (i : Nat) :
    (Creating.steps xs (Creating.start len)).file.pair i ∈
      [(0#64, 0#64), (dirty KINITIAL, 0#64), (dirty KINITIAL, dirty VINITIAL)] := by
  suffices h : ∀ c : Creating, (∀ j, c.dur j ∈ [(0#64, 0#64), (dirty KINITIAL, 0#64), (dirty KINITIAL, dirty VINITIAL)]) →
      VolOK c →
      ∀ j, (Creating.steps xs c).dur j ∈ [(0#64, 0#64), (dirty KINITIAL, 0#64), (dirty KINITIAL, dirty VINITIAL)] by
    exact h _ (fun j => by simp [Creating.start]) (volOK_start len) i
  induction xs with
  | nil => intro c h _; exact h
  | cons x xs ih =>
    intro c h1 h2
    refine ih (c.step x) ?_ (h2.step x)
    cases x with
    | store => intro j; simp only [Creating.step]; split <;> exact h1 j
    | writeBack k =>
      intro j
      simp only [Creating.step]
      split
      · rw [h2]
        split
        · simp
        · split <;> simp
      · exact h1 j

theorem getImpl_zero (n : Nat) {s : A} (h0 : 0 < s.next) (hl : homeGet hash 0#64 (s.tab 0).len < (s.tab 0).len)
    (hk : s.ck 0 (homeGet hash 0#64 (s.tab 0).len) = 0#64) (hv : s.cv 0 (homeGet hash 0#64 (s.tab 0).len) = 0#64)
    (hr : s.root = 0) : W (mapGet hash n 0#64) (fun r _ => r = 0#64) s := by
  refine W_bind' (W_getRoot ?_)
  rw [hr]
  refine W_bind' ?_
  cases n with
  | zero => exact W_fuel
  | succ n =>
    refine W_bind' (W_len h0 (W_bind' ?_))
    cases n with
    | zero => exact W_fuel
    | succ n =>
      rw [loop]
      refine W_bind ?_
      refine W_bind' (W_tableKey h0 hl ?_)
      refine W_bind' (W_tableValue h0 hl ?_)
      rw [hk, hv, if_neg (by decide)]
      refine W_bind' (W_getNew h0 ?_)
      rw [if_pos rfl, if_neg (by decide)]
      refine W_pure (W_ret (W_pure ?_))
      rw [if_neg (by decide)]
      exact W_bind' (W_check (by decide) (W_pure rfl))

/-- **C30 is false of the code.** For every hash function and table length, at every crash point at which the line of
the home slot of key 0 has not reached memory, the reopened file shows the entry `0 ↦ 0` that nobody stored. -/
theorem c30_crash_invents_entry {p : Nat} (hp : p ≤ 32) (xs : List CreateStep)
    (hx : (Creating.steps xs (Creating.start (2 ^ p))).file.pair ((hash 0#64).toNat % 2 ^ p) = (0#64, 0#64))
    {m : Mem} (hm : openFile (Creating.steps xs (Creating.start (2 ^ p))).file cap = .done () m) (n : Nat) {r : Word}
    {m' : Mem} (hr : run (mapGet hash n 0#64) m = .done r m') : r = 0#64 ∧ ValidKey 0#64 ∧ r ≠ VINITIAL := by
  have hlen : (Creating.steps xs (Creating.start (2 ^ p))).file.len = 2 ^ p := creating_len xs _
  generalize (Creating.steps xs (Creating.start (2 ^ p))).file = f at *
  obtain ⟨m1, hm1, hs⟩ := openFile_spec f cap
  rw [hm] at hm1
  cases hm1
  have hl : (m.tab 0).len = 2 ^ p := (show (m.tab 0).len = f.len from hs.len).trans hlen
  have hlt : (hash 0#64).toNat % 2 ^ p < f.len := by rw [hlen]; exact Nat.mod_lt _ (by positivity)
  have hh : homeGet hash 0#64 ((abs m).tab 0).len = (hash 0#64).toNat % 2 ^ p := by
    show homeGet hash 0#64 (m.tab 0).len = _
    rw [hl]; exact (c04_same_home_slot hash 0#64 p hp).1
  have hK : f.K ((hash 0#64).toNat % 2 ^ p) = 0#64 := by rw [File.K, hx]; decide
  have hV : f.V ((hash 0#64).toNat % 2 ^ p) = 0#64 := by rw [File.V, hx]; decide
  have h := (getImpl_zero (hash := hash) n (s := abs m) (by rw [hs.next]; exact Nat.one_pos)
    (by rw [hh, hs.len]; exact hlt) (by rw [hh, hs.ck, hK])
    (by rw [hh, hs.cv, if_pos hlt, File.fixed, hV, if_neg (fun hc => absurd hc.2 (by decide))]) hs.root m rfl).2 r m' hr
  exact ⟨h, by decide, by rw [h]; decide⟩

/-- C30's witness is not vacuous: a crash right after `ftruncate` leaves such a file, opening it succeeds, `size()` is 4
and `get(0)` returns 0. -/
example : ∃ m m', openFile (Creating.steps [.store, .store, .writeBack 1] (Creating.start 4)).file 64 = .done () m ∧
    runOps (fun x => x >>> 3) 30 [.size, .get 0#64, .containsKey 0#64] m =
      .done [.word 4#64, .word 0#64, .bool true] m' := by
  obtain ⟨m, hm, -⟩ := openFile_spec (Creating.steps [.store, .store, .writeBack 1] (Creating.start 4)).file 64
  have h : (match openFile (Creating.steps [.store, .store, .writeBack 1] (Creating.start 4)).file 64 with
    | .halted _ => none
    | .done _ m => (runOps (fun x => x >>> 3) 30 [.size, .get 0#64, .containsKey 0#64] m).val?) =
      some [.word 4#64, .word 0#64, .bool true] := by decide +kernel
  rw [hm] at h
  obtain ⟨m', hm'⟩ := Outcome.eq_done h
  exact ⟨m, m', hm, hm'⟩

theorem stores_done (xs : List CreateStep) {c : Creating} (h : c.stores = 2 * c.len) :
    (Creating.steps xs c).stores = 2 * c.len ∧ (Creating.steps xs c).vol = c.vol := by
  induction xs generalizing c with
  | nil => exact ⟨h, rfl⟩
  | cons x xs ih =>
    have h1 : (c.step x).stores = c.stores ∧ (c.step x).vol = c.vol ∧ (c.step x).len = c.len := by
      cases x with
      | store => simp only [Creating.step]; rw [if_neg (by omega)]; exact ⟨rfl, rfl, rfl⟩
      | writeBack k => exact ⟨rfl, rfl, rfl⟩
    have h2 := ih (c := c.step x) (by rw [h1.1, h1.2.2]; exact h)
    rw [Creating.steps]
    exact ⟨by rw [h2.1, h1.2.2], by rw [h2.2, h1.2.1]⟩

theorem dur_kept (xs : List CreateStep) {c : Creating} (h : c.stores = 2 * c.len) {i : Nat} (hi : c.dur i = c.vol i) :
    (Creating.steps xs c).dur i = c.vol i := by
  induction xs generalizing c with
  | nil => exact hi
  | cons x xs ih =>
    have h1 := stores_done [x] h
    have h2 := creating_len [x] c
    simp only [Creating.steps] at h1 h2
    rw [Creating.steps, ih (c := c.step x) (by rw [h1.1, h2]) ?_, h1.2]
    rw [h1.2]
    cases x with
    | store => simp only [Creating.step]; split <;> exact hi
    | writeBack k =>
      simp only [Creating.step]
      split
      · rfl
      · exact hi

theorem dur_written (l : List Nat) {c : Creating} (h : c.stores = 2 * c.len) {i : Nat} (hi : i ∈ l) :
    (Creating.steps (l.map .writeBack) c).dur i = c.vol i := by
  induction l generalizing c with
  | nil => cases hi
  | cons x l ih =>
    rw [List.map_cons, Creating.steps]
    by_cases hx : i = x
    · exact dur_kept _ (c := c.step (.writeBack x)) h (by simp [Creating.step, hx])
    · exact ih (c := c.step (.writeBack x)) h (by simpa [hx] using hi)

/-- **C30, partial.** Once all stores of the initialisation loop have been executed and `PERSIST` has written every line
back, whatever happens then (`ys`) a crash leaves an empty table: opening the file succeeds, `size()` is 0 and every key
reads as absent.  Missing: crashes before `PERSIST` is done, for which the claim is false
(`c30_crash_invents_entry`). -/
theorem c30_created_partial {p : Nat} (hp : p ≤ 32) (hc : cap ≤ 2 ^ 32) (xs ys : List CreateStep)
    (hx : (Creating.steps xs (Creating.start (2 ^ p))).stores = 2 * 2 ^ p) :
    ∃ m, openFile (Creating.steps (xs ++ (List.range (2 ^ p)).map .writeBack ++ ys) (Creating.start (2 ^ p))).file cap =
        .done () m ∧ run mapSize m = .done 0#64 m ∧
      ∀ n k r m', ValidKey k → run (mapGet hash n k) m = .done r m' → r = VINITIAL := by
  have hlen : (Creating.steps (xs ++ (List.range (2 ^ p)).map .writeBack ++ ys) (Creating.start (2 ^ p))).file.len =
    2 ^ p := creating_len _ _
  have hpair : ∀ i, i < 2 ^ p → (Creating.steps (xs ++ (List.range (2 ^ p)).map .writeBack ++ ys)
      (Creating.start (2 ^ p))).file.pair i = (dirty KINITIAL, dirty VINITIAL) := by
    intro i hi
    rw [steps_append, steps_append]
    have hl := creating_len xs (Creating.start (2 ^ p))
    have hv := (volOK_start (2 ^ p)).steps xs i
    generalize Creating.steps xs (Creating.start (2 ^ p)) = c at *
    have hl : c.len = 2 ^ p := hl
    rw [if_pos (by omega)] at hv
    have h2 := stores_done ((List.range (2 ^ p)).map .writeBack) (c := c) (by rw [hl]; exact hx)
    have h3 := creating_len ((List.range (2 ^ p)).map .writeBack) c
    have h4 := dur_written (List.range (2 ^ p)) (c := c) (by rw [hl]; exact hx) (List.mem_range.mpr hi)
    show (Creating.steps ys _).dur i = _
    rw [dur_kept ys (by rw [h2.1, h3]) (by rw [h4, h2.2]), h2.2, hv]
  generalize (Creating.steps (xs ++ (List.range (2 ^ p)).map .writeBack ++ ys) (Creating.start (2 ^ p))).file = f at *
  have hK : ∀ i, i < f.len → clean (f.pair i).1 = KINITIAL := fun i hi => by
    rw [hpair i (by rw [← hlen]; exact hi)]; decide
  have hV : ∀ i, i < f.len → clean (f.pair i).2 = VINITIAL := fun i hi => by
    rw [hpair i (by rw [← hlen]; exact hi)]; decide
  have hf : FileOK hash f := ⟨⟨p, hp, hlen⟩, fun i hi _ => hV i hi, fun i hi => by rw [hK i hi]; decide,
    fun i hi => by rw [hpair i (by rw [← hlen]; exact hi)]; decide, fun i hi h => absurd (hK i hi) h⟩
  have hM : ∀ k v, AMap.empty k = some v ↔ f.Holds k v := by
    intro k v
    constructor
    · intro h; cases h
    · rintro ⟨i, hi, -, e2, h3, -⟩
      exact absurd (e2.symm.trans (hV i hi)) h3
  obtain ⟨m, hm, hs⟩ := openFile_spec f cap
  have hG := scanned_inv hf hc hM hs
  refine ⟨m, hm, ?_, fun n k r m' hk hr => ((mapGet_spec n hG (userKey_of_valid hk) m rfl).2 r m' hr).1⟩
  have h1 : m.root = 0 := hs.root
  have h2 : m.next = 1 := hs.next
  have h3 : (m.tab 0).size = _ := hs.size
  have h4 : AMap.card AMap.empty = 0 := by simp [AMap.card, AMap.empty]
  show run (.act .getRoot fun r => .act (.getSize r) .ret) m = _
  simp only [run, Act.exec, h1, h2, Nat.one_pos, if_true, h3, count_card hf hM, h4]

/-- The hypothesis of `c30_created_partial` is met by the loop of the code. -/
example : (Creating.steps (List.replicate (2 * 2 ^ 3) .store) (Creating.start (2 ^ 3))).stores = 2 * 2 ^ 3 := by decide

/-! ## C39 -/

/-- **C39, partial.** If no file with the number taken from the counter exists, the table starts with the requested length
and no entry.  Missing: directories in which the file exists, for which the claim is false
(`c39_adopts_stale_file`). -/
theorem c39_new_file_partial {dir : Nat → Option File} {count tableCapacity : Nat} (h : dir count = none) :
    (mmapPairs dir count tableCapacity).len = tableCapacity ∧
      ∀ k v, ¬ (mmapPairs dir count tableCapacity).Holds k v := by
  have e : mmapPairs dir count tableCapacity =
      (Creating.steps (Creating.all tableCapacity) (Creating.start tableCapacity)).file := by rw [mmapPairs, h]
  rw [e]
  refine ⟨creating_len _ _, ?_⟩
  rintro k v ⟨i, hi, -, e2, h3, -⟩
  have hi : i < tableCapacity := by
    rw [show (Creating.steps (Creating.all tableCapacity) (Creating.start tableCapacity)).file.len = tableCapacity from
      creating_len _ _] at hi
    exact hi
  have hst : ∀ n (c : Creating), c.stores + n ≤ 2 * c.len →
      (Creating.steps (List.replicate n .store) c).stores = c.stores + n := by
    intro n
    induction n with
    | zero => intro c _; rfl
    | succ n ih =>
      intro c hc
      have h1 : (c.step .store).stores = c.stores + 1 ∧ (c.step .store).len = c.len := by
        simp only [Creating.step]; rw [if_pos (by omega)]; exact ⟨rfl, rfl⟩
      rw [List.replicate_succ, Creating.steps, ih _ (by rw [h1.1, h1.2]; omega), h1.1]; omega
  have h0 := hst (2 * tableCapacity) (Creating.start tableCapacity) (by simp [Creating.start])
  have hl := creating_len (List.replicate (2 * tableCapacity) .store) (Creating.start tableCapacity)
  have hv := (volOK_start tableCapacity).steps (List.replicate (2 * tableCapacity) .store) i
  have e3 : (Creating.steps (Creating.all tableCapacity) (Creating.start tableCapacity)).file.pair i =
      (dirty KINITIAL, dirty VINITIAL) := by
    show (Creating.steps (Creating.all tableCapacity) (Creating.start tableCapacity)).dur i = _
    rw [Creating.all, steps_append]
    generalize Creating.steps (List.replicate (2 * tableCapacity) .store) (Creating.start tableCapacity) = c at *
    have hl : c.len = tableCapacity := hl
    have h0 : c.stores = 2 * tableCapacity := by rw [h0]; simp [Creating.start]
    rw [dur_written _ (by rw [hl]; exact h0) (List.mem_range.mpr hi), hv, if_pos (by omega)]
  rw [e3] at e2
  exact h3 (e2.symm.trans (by decide))

/-- The directory left by a session: the files of the tables it created (hashMap.hpp:549-553 numbers them in order). -/
def dirOf (m : Mem) (w : Addr → Word) : Nat → Option File := fun t =>
  if t < m.next then some (fileOf w t (m.tab t).len) else none

/-- **C39 is false of the code.** A session makes two puts into a table of one slot and grows, so it leaves the files 0
and 1.  After the restart the counter is 1 (file 0 was taken by the restart); when the map grows, its "new" table, asked
to have 2 slots, is the old file 1 and holds the two entries of the previous session. -/
theorem c39_adopts_stale_file : ∃ m, runOps (fun x => x >>> 3) 30 [.put 8#64 8#64, .put 16#64 24#64]
      (freshMem 1 64) = .done [.word VINITIAL, .word VINITIAL] m ∧
    (mmapPairs (dirOf m m.word) 1 2).Holds 8#64 8#64 ∧ (mmapPairs (dirOf m m.word) 1 2).Holds 16#64 24#64 := by
  have h : (match runOps (fun x => x >>> 3) 30 [.put 8#64 8#64, .put 16#64 24#64] (freshMem 1 64) with
    | .halted _ => none
    | .done rs m => some (rs, (mmapPairs (dirOf m m.word) 1 2).len,
        (mmapPairs (dirOf m m.word) 1 2).pair 0, (mmapPairs (dirOf m m.word) 1 2).pair 1)) =
      some ([.word VINITIAL, .word VINITIAL], 2, (17#64, 25#64), (9#64, 9#64)) := by decide +kernel
  split at h
  · cases h
  · next rs m hm =>
    simp only [Option.some.injEq, Prod.mk.injEq] at h
    obtain ⟨rfl, hl, h0, h1⟩ := h
    refine ⟨m, hm, ⟨1, ?_, ?_, ?_, by decide, by decide⟩, ⟨0, ?_, ?_, ?_, by decide, by decide⟩⟩
    · rw [hl]; decide
    · rw [h1]; decide
    · rw [h1]; decide
    · rw [hl]; decide
    · rw [h0]; decide
    · rw [h0]; decide

/-- The hypothesis of `c39_new_file_partial` is met by a first start, and by growth in a map that was restarted before it
ever grew. -/
example : ∃ m, run (mapPut (fun x => x >>> 3) 30 8#64 16#64) (freshMem 8 64) = .done VINITIAL m ∧
    dirOf m m.word 1 = none := by
  have h : (match run (mapPut (fun x => x >>> 3) 30 8#64 16#64) (freshMem 8 64) with
    | .halted _ => none
    | .done r m => some (r, m.next)) = some (VINITIAL, 1) := by decide +kernel
  split at h
  · cases h
  · next r m hm =>
    simp only [Option.some.injEq, Prod.mk.injEq] at h
    obtain ⟨rfl, h2⟩ := h
    exact ⟨m, hm, by simp [dirOf, h2]⟩

end PMap
