import Verif.Props.Durable

/-!
# Sessions that end in a crash: C51
-/

namespace PMap

open Prog

variable {hash : Word → Word} {len cap n : Nat}

/-- Memories at the start of a session, after any number of earlier sessions each of which ended in a crash: in each, one thread
`t` made any calls, stopped at any step, with any write-backs, before the first growth; then the file was opened again, the machine
stopping any number of times (`xss`) while it was being opened. -/
inductive Crashed (hash : Word → Word) (len cap : Nat) : Mem → Prop
  | fresh : Crashed hash len cap (freshMem len cap)
  | crash {m m' : Mem} {f : File} (n : Nat) (calls : Nat → List Op) (t : Nat) (xs : List Sched) (xss : List (List OpenStep)) :
      Crashed hash len cap m → (∀ t, ∀ op ∈ calls t, op.Valid) → (∀ x ∈ xs, x.Only t) →
      (((Sys.start m calls).exec hash n xs).mem.tab 0).newT = none →
      cutOpens ((Sys.start m calls).exec hash n xs).mem.cap xss (fileOf ((Sys.start m calls).exec hash n xs).mem.nv 0
        (((Sys.start m calls).exec hash n xs).mem.tab 0).len) = some f →
      openFile f ((Sys.start m calls).exec hash n xs).mem.cap = .done () m' →
      Crashed hash len cap m'

theorem crashed_opened (hs : Sized len cap) {m : Mem} (h : Crashed hash len cap m) : Opened hash len m := by
  induction h with
  | fresh => exact opened_fresh hs
  | @crash m m' f n calls t xs xss _ hv hx h1 hc hr ih =>
    obtain ⟨g, hg, hl⟩ := cutOpens_left ((Sys.start m calls).exec hash n xs).mem.cap xss
      (fileOf ((Sys.start m calls).exec hash n xs).mem.nv 0 (((Sys.start m calls).exec hash n xs).mem.tab 0).len)
    rw [hc] at hg
    cases hg
    rw [(ih.alone (n := n) hv hx h1).len xs (List.prefix_refl _)] at hl
    exact ih.reopen hv hx h1 hl hr

/-- **C51, one thread.** After any number of sessions that ended in a crash, take one more: one thread, any valid calls, any
write-backs, a crash at any step before the first growth.  Then there is an ordinary map `M` such that the following holds however
often the machine then stops while the file is being opened (`xss`): the file can be opened, `size()` is the number of keys of `M`,
and every later sequence of calls gets the results of an ordinary map that starts as `M`.
`M` has each key's value at the crash (what a `get` made alone at that moment would find), or its value just before the key's last
change in this session.  Partial: with several threads the reopened map need not behave as a map at all (`c51_not_a_map`); after
a growth the restart opens the old table (`c41_restart_after_growth`). -/
theorem c51_one_thread_partial (hs : Sized len cap) {m : Mem} (h : Crashed hash len cap m) (calls : Nat → List Op)
    (hv : ∀ t, ∀ op ∈ calls t, op.Valid) (t : Nat) (xs : List Sched) (hx : ∀ x ∈ xs, x.Only t)
    (h1 : (((Sys.start m calls).exec hash n xs).mem.tab 0).newT = none) :
    ∃ M : AMap,
      (∀ xss, ∃ f m',
        cutOpens ((Sys.start m calls).exec hash n xs).mem.cap xss (fileOf ((Sys.start m calls).exec hash n xs).mem.nv 0
          (((Sys.start m calls).exec hash n xs).mem.tab 0).len) = some f ∧
        openFile f ((Sys.start m calls).exec hash n xs).mem.cap = .done () m' ∧
        run mapSize m' = .done (BitVec.ofNat 64 M.card) m' ∧
        ∀ N ops rs m'', (∀ op ∈ ops, op.Valid ∧ op.isUpdate = false) → runOps hash N ops m' = .done rs m'' →
          specAgrees ops M rs) ∧
      ∀ k, ValidKey k → ∃ w,
        (∀ N, reprobeLimit len + 1 < N → ∃ m', run (mapGet hash N k) ((Sys.start m calls).exec hash n xs).mem = .done w m') ∧
        ((M k).getD VINITIAL = w ∨ ∃ ys x, ys ++ [x] <+: xs ∧
          (∀ N, reprobeLimit len + 1 < N →
            ∃ m', run (mapGet hash N k) ((Sys.start m calls).exec hash n ys).mem = .done ((M k).getD VINITIAL) m') ∧
          ∀ zs, ys ++ [x] <+: zs → zs <+: xs → ∀ N, reprobeLimit len + 1 < N →
            ∃ m', run (mapGet hash N k) ((Sys.start m calls).exec hash n zs).mem = .done w m') := by
  have ho := crashed_opened hs h
  have hF := ho.alone (n := n) hv hx h1
  have hP := (ho.ok (n := n) hv xs []).1.inv
  have hlen := hF.len xs (List.prefix_refl _)
  have hok := ho.file hv hx h1
  obtain ⟨M, m', hM, g1, g2, g3⟩ := c25_reopen hok hP.cap
  have hr : restart ((Sys.start m calls).exec hash n xs).mem ((Sys.start m calls).exec hash n xs).mem.nv = .done () m' := by
    rw [restart, hlen]; exact g1
  refine ⟨M, fun xss => ?_, fun k hk => ?_⟩
  · obtain ⟨g, hg, hl⟩ := cutOpens_left ((Sys.start m calls).exec hash n xs).mem.cap xss
      (fileOf ((Sys.start m calls).exec hash n xs).mem.nv 0 len)
    obtain ⟨M', m1, hM', f1, f2, f3⟩ := c25_reopen (hl.ok hok) hP.cap
    have e : M' = M := by
      funext k
      refine Option.ext fun v => ?_
      rw [hM', hl.holds, hM]
    subst e
    exact ⟨g, m1, by rw [hlen]; exact hg, f1, f2, f3⟩
  · obtain ⟨m1, w', w, f1, f2, f3, f4⟩ := alone_restart hF (t := t) (hv t) hx ho.begun (userKey_of_valid hk).ne_init
    rw [hr] at f1
    cases f1
    have hw : (M k).getD VINITIAL = w' := by
      obtain ⟨m2, e⟩ := f2 (reprobeLimit len + 2) (by omega)
      have h := g3 (reprobeLimit len + 2) [.get k] [.word w'] m2 (fun op ho => by
        rw [List.mem_singleton.mp ho]; exact ⟨hk, rfl⟩) (by
          have e' : run ((Op.get k).prog hash (reprobeLimit len + 2)) m' = .done (.word w') m2 := by
            show run ((mapGet hash (reprobeLimit len + 2) k).bind _) m' = _
            rw [run_bind, e]; rfl
          rw [runOps, e']; rfl)
      exact (Res.word.inj (h.1 _ rfl)).symm
    rw [hw]
    exact ⟨w, f3, f4⟩

/-- Two attempts to open the file stop: after 9 accesses, with the line of pair 1 written back, and after 30. -/
def lostCuts : List (List OpenStep) := [List.replicate 9 .step ++ [.writeBack 1], List.replicate 30 .step]
/-- The memory after the crash of `loseSys` (key 8 has lost its last change), the two attempts, and the restart. -/
def lostMem : Mem :=
  match (cutOpens loseSys.mem.cap lostCuts (fileOf loseSys.mem.nv 0 (loseSys.mem.tab 0).len)).map
    fun f => openFile f loseSys.mem.cap with
  | some (.done _ m) => m
  | _ => freshMem 8 64
/-- The second session: key 8 is replaced again, key 16 is removed, key 24 is put.  It stops in the middle of the last call, with
the lines of keys 16 and 24 written back. -/
def againCalls : Nat → List Op := callsOf [.put 8#64 48#64, .remove 16#64, .put 24#64 56#64] [] [] []
def againSched : List Sched := steps 0 52 ++ [.evict 0 2, .evict 0 3]
def againSys : Sys := (Sys.start lostMem againCalls).exec (fun x => x >>> 3) 30 againSched

theorem lost_restart : ∃ f, cutOpens loseSys.mem.cap lostCuts (fileOf loseSys.mem.nv 0 (loseSys.mem.tab 0).len) = some f ∧
    openFile f loseSys.mem.cap = .done () lostMem := by
  obtain ⟨g, hg, -⟩ := cutOpens_left loseSys.mem.cap lostCuts (fileOf loseSys.mem.nv 0 (loseSys.mem.tab 0).len)
  obtain ⟨m, hm, -⟩ := openFile_spec g loseSys.mem.cap
  refine ⟨g, hg, ?_⟩
  unfold lostMem
  rw [hg, Option.map_some, hm]

theorem one_valid {l : List Op} (hl : ∀ op ∈ l, op.Valid) : ∀ t, ∀ op ∈ callsOf l [] [] [] t, op.Valid := by
  intro t op h
  unfold callsOf at h
  split at h
  · exact hl op h
  · split at h
    · cases h
    · split at h
      · cases h
      · split at h <;> cases h

theorem lost_crashed : Crashed (fun x => x >>> 3) 8 64 lostMem := by
  obtain ⟨f, hf1, hf2⟩ := lost_restart
  refine Crashed.crash 30 loseCalls 0 loseSched lostCuts .fresh (one_valid (by decide)) ?_ (by decide +kernel) hf1 hf2
  intro x hx
  simp only [loseSched, steps, List.mem_append, List.mem_replicate, List.mem_singleton] at hx
  rcases hx with ⟨-, rfl⟩ | rfl <;> trivial

/-- The hypotheses of `c51_one_thread_partial` are met by a second session that starts with the memory after a crash and two
attempts to open the file that were stopped.  After the
second crash key 8 has lost its last change again (16, not 48), key 16 is absent, and key 24, whose put has not returned, has its
value. -/
example : Crashed (fun x => x >>> 3) 8 64 lostMem ∧ (∀ t, ∀ op ∈ againCalls t, op.Valid) ∧ (∀ x ∈ againSched, x.Only 0) ∧
    (againSys.mem.tab 0).newT = none ∧ againSys.hist.length = 5 ∧
    (match restart againSys.mem againSys.mem.nv with
      | .done _ m => (runOps (fun x => x >>> 3) 30 [.size, .get 8#64, .get 16#64, .get 24#64] m).val?
      | .halted _ => none) = some [.word 2#64, .word 16#64, .word VINITIAL, .word 56#64] := by
  refine ⟨lost_crashed, one_valid (by decide), ?_, by decide +kernel, by decide +kernel, by decide +kernel⟩
  intro x hx
  simp only [againSched, steps, List.mem_append, List.mem_replicate, List.mem_cons, List.not_mem_nil, or_false] at hx
  rcases hx with ⟨-, rfl⟩ | rfl | rfl <;> trivial

/-! ## Several threads -/

/-- Thread 0 puts 16 under key 72 and thread 1 puts 24 under key 8; both keys have home slot 1. -/
def orphanCalls : Nat → List Op := callsOf [.put 72#64 16#64] [.put 8#64 24#64] [] []
/-- Thread 0 finds slot 1 empty; thread 1 makes its whole call; thread 0 fails to claim slot 1, goes on to slot 2 without writing
slot 1 back, and completes its call; slot 2 is written back. -/
def orphanSched : List Sched := steps 0 17 ++ steps 1 60 ++ steps 0 60 ++ [.evict 0 2]
def orphanSys : Sys := (Sys.init 8 64 orphanCalls).exec (fun x => x >>> 3) 30 orphanSched
/-- Calls after the restart: key 72 is looked up, put and removed; nine other keys are put, so that the map grows; key 72 is looked
up again. -/
def orphanAfter : List Op := [.get 72#64, .put 72#64 32#64, .remove 72#64, .get 72#64, .put 16#64 8#64, .put 24#64 8#64,
  .put 32#64 8#64, .put 40#64 8#64, .put 48#64 8#64, .put 56#64 8#64, .put 80#64 8#64, .put 88#64 8#64, .put 96#64 8#64, .get 72#64]

theorem orphan_valid : ∀ t, ∀ op ∈ orphanCalls t, op.Valid := by
  intro t op h
  unfold orphanCalls callsOf at h
  split at h
  · revert op; decide
  · split at h
    · revert op; decide
    · split at h
      · cases h
      · split at h <;> cases h

/-- **C51 is false of the code**, even when each key is changed by one thread.  Two threads; the puts of keys 72 and 8 have both returned; the machine stops, the map not having
grown.  The file then holds key 72 in slot 2 but nothing in its home slot 1, so probing does not reach it: the file is not in
order.  No map `M` describes the reopened map: after the restart key 72 is absent, is put, is removed, is absent, and after a
growth, which copies the unreachable pair, it is there again with the value 16 from before the crash. -/
theorem c51_not_a_map : (∀ t, ∀ op ∈ orphanCalls t, op.Valid) ∧ (orphanSys.mem.tab 0).newT = none ∧
    .res 0 (.put 72#64 16#64) (.word VINITIAL) ∈ orphanSys.hist ∧ .res 1 (.put 8#64 24#64) (.word VINITIAL) ∈ orphanSys.hist ∧
    ¬ FileOK (fun x => x >>> 3) (fileOf orphanSys.mem.nv 0 (orphanSys.mem.tab 0).len) ∧
    ∃ m', restart orphanSys.mem orphanSys.mem.nv = .done () m' ∧
      ¬ ∃ M : AMap, ∀ N ops rs m'', (∀ op ∈ ops, op.Valid ∧ op.isUpdate = false) →
        runOps (fun x => x >>> 3) N ops m' = .done rs m'' → specAgrees ops M rs := by
  refine ⟨orphan_valid, by decide +kernel, by decide +kernel, by decide +kernel, fun h => ?_, ?_⟩
  · obtain ⟨d, h1, h2, h3⟩ := h.path 2 (by decide +kernel) (by decide +kernel)
    cases d with
    | zero => revert h2; decide +kernel
    | succ d => exact (h3 0 (Nat.succ_pos _)).1 (by decide +kernel)
  · have hval : (match restart orphanSys.mem orphanSys.mem.nv with
      | .halted _ => none
      | .done _ m => (runOps (fun x => x >>> 3) 60 orphanAfter m).val?) =
      some [.word VINITIAL, .word VINITIAL, .bool true, .word VINITIAL, .word VINITIAL, .word VINITIAL, .word VINITIAL,
        .word VINITIAL, .word VINITIAL, .word VINITIAL, .word VINITIAL, .word VINITIAL, .word VINITIAL, .word 16#64] := by
      decide +kernel
    cases hm : restart orphanSys.mem orphanSys.mem.nv with
    | halted e => rw [hm] at hval; cases hval
    | done u m' =>
      refine ⟨m', rfl, ?_⟩
      rintro ⟨M, hM⟩
      rw [hm] at hval
      obtain ⟨m2, h2⟩ := Outcome.eq_done hval
      have h := hM 60 orphanAfter _ m2 (by
        intro op ho
        have := (by decide +kernel : orphanAfter.all (fun op => decide (op.Valid ∧ op.isUpdate = false)) = true)
        exact of_decide_eq_true (List.all_eq_true.mp this op ho)) h2
      have h := h.2.2.2.2.2.2.2.2.2.2.2.2.2.1 _ rfl
      simp [specNext, AMap.set, AMap.erase, resWord] at h
      exact absurd h (by decide)

end PMap
