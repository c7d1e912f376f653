import Verif.Own.Verdict
import Verif.Props.Phases
import Verif.Fast

/-!
# C53: the alternating self-test and the concurrent map, end to end; and what the test says when a prefix is missing (C38)
-/

namespace PMap.Harness

open Prog

variable {hash : Word → Word} {n T N len cap : Nat} {m : Mem}

/-! ## C38: `run_test` runs the prefix of thread 0 only -/

/-- **C38, refuted** for the driver's own use of the test: runTest.hpp:153-154 runs the prefix for thread number 0 only.  A
thread with another number and a share of at least twenty operations finds a perfect container without its prefix, runs its
main loop, and `check_elements` rejects the outcome. -/
theorem c38_missing_prefix_rejected (ins : Nat → Nat) (hi : Function.Injective ins) (maxops numops : Nat) (h20 : 20 ≤ numops)
    (c : Cont) (hc : ∀ i, c (ins i) = false) :
    (checkElements maxops numops fun i => mainLoop ins (opsMainLoop numops) (numops - opsMainLoop numops)
      ((numops - opsMainLoop numops) / 2) c (ins i)).2 = false := by
  have hw : numops - opsMainLoop numops = numops / 10 := by unfold opsMainLoop; omega
  rw [hw]
  unfold checkElements
  simp only [hw, Bool.and_eq_false_iff]
  refine .inl (.inl (.inl ?_))
  rw [List.all_eq_false]
  refine ⟨0, List.mem_range.mpr (by omega), ?_⟩
  rw [mainLoop_never ins hi 0 _ _ _ _ (by omega) (hc 0)]
  decide

/-- **C38, partial**: with a share of ten to nineteen operations, or an odd one below ten, the missing prefix makes no
difference and the outcome is accepted. -/
theorem c38_missing_prefix_accepted_partial (ins : Nat → Nat) (hi : Function.Injective ins) (maxops numops : Nat)
    (hm : numops ≤ maxops) (h20 : numops < 20) (hn : 10 ≤ numops ∨ numops % 2 = 1) (c : Cont) (hc : ∀ i, c (ins i) = false) :
    (checkElements maxops numops fun i => mainLoop ins (opsMainLoop numops) (numops - opsMainLoop numops)
      ((numops - opsMainLoop numops) / 2) c (ins i)).2 = true := by
  have hw : numops - opsMainLoop numops = numops / 10 := by unfold opsMainLoop; omega
  have e : (fun i => mainLoop ins (opsMainLoop numops) (numops / 10) (numops / 10 / 2) c (ins i)) = leftHas numops := by
    funext i
    rw [unprefixed_contents ins hi numops c hc hn i, leftHas]
    apply decide_eq_decide.2
    unfold opsMainLoop
    constructor
    · rintro ⟨h1, h2, h3⟩; exact .inr ⟨h2, h3⟩
    · rintro (h1 | ⟨h2, h3⟩) <;> omega
  rw [hw, e, left_check hm hn]

example : (20 : Nat) ≤ 25 ∧ Function.Injective fun i => 25 + i := ⟨by decide, fun a b e => by simpa using e⟩

/-! ## C53 -/

/-- **C53, partial.** `run_test` has run the alternating test on a new map, under any schedule, to the end.  If the table
has not grown, thread 0's share is odd or at least ten, the other threads' shares are odd or at least ten but below twenty,
and the elements stay below 2^31, then the check accepts the map: it throws nothing, fails no assertion and changes nothing.
Missing: growth of the table (C20), shares of twenty and more for other threads than 0 (`c53_rejects`), even shares
below ten (`c38_oracle_rejects_correct`), and line 96, which opens the container in a way that never succeeds (C26). -/
theorem c53_accepts_no_growth_partial (hs : Sized len cap) (hT : 0 < T)
    (hb : T * share T N 0 ≤ 2 ^ 31) (hodd : ∀ t, t < T → 10 ≤ share T N t ∨ share T N t % 2 = 1)
    (h20 : ∀ t, t < T → t ≠ 0 → share T N t < 20) (hr : TestRun hash len cap T N m) (h0 : m.next ≤ 1) (hn : reprobeLimit len + 1 < n) :
    ∃ m', run (liveCheck hash n T N) m = .done () m' ∧ abs m' = abs m ∧ m'.failed = false := by
  obtain ⟨M, hp, hM⟩ := run_phases hT hb hr
  have hB := phases_any hs hp h0 fun _ => 0
  have hG := hB.good (anyCfg_ok hs.pow)
  obtain ⟨w, h1, h2, -⟩ := size_own (C := anyCfg hash len (testKeys T N) fun _ => 0) (anyCfg_ok hs.pow) hB.inv (fun t k _ => rfl) hB.keys
  have e0 : m.root = 0 := hB.inv.root
  have e1 : m.next = 1 := hB.inv.lone.next
  have e2 : (m.tab 0).len = len := hB.inv.len
  have h2 : w.toNat = M.card := h2
  have hw : w = BitVec.ofNat 64 M.card := by rw [← h2, BitVec.ofNat_toNat, BitVec.setWidth_eq]
  subst hw
  obtain ⟨m', h3, h4⟩ := verdict hT hb hG (by rw [e0, e1]) (by rw [e0, e2]; exact hn) h1 (fun k hk => (Finset.mem_filter.mp (hB.keys k hk)).1)
    (fun t i ht hi => (hM t i ht hi).trans (final_left hT (hodd t ht) (h20 t ht) i)) hodd
  exact ⟨m', h3, h4, (congrArg A.failed h4).trans hG.inv.ok⟩

/-- **C53, partial**, for keys that fit into the table: then it never grows. -/
theorem c53_accepts_partial (hs : Sized len cap) (hR : Roomy hash len (testKeys T N)) (hT : 0 < T)
    (hb : T * share T N 0 ≤ 2 ^ 31) (hodd : ∀ t, t < T → 10 ≤ share T N t ∨ share T N t % 2 = 1)
    (h20 : ∀ t, t < T → t ≠ 0 → share T N t < 20) (hr : TestRun hash len cap T N m) (hn : reprobeLimit len + 1 < n) :
    ∃ m', run (liveCheck hash n T N) m = .done () m' ∧ abs m' = abs m ∧ m'.failed = false := by
  obtain ⟨M, hp, -⟩ := run_phases hT hb hr
  exact c53_accepts_no_growth_partial hs hT hb hodd h20 hr (roomy_phases_next hs hR hp) hn

/-- **C53, partial**, with a clean restart between the run and the check: the map is closed with all words in the file, and the
file is opened again as the recovery constructor would if it reached it. -/
theorem c53_accepts_reopened_no_growth_partial (hs : Sized len cap) (hT : 0 < T)
    (hb : T * share T N 0 ≤ 2 ^ 31) (hodd : ∀ t, t < T → 10 ≤ share T N t ∨ share T N t % 2 = 1)
    (h20 : ∀ t, t < T → t ≠ 0 → share T N t < 20) (hr : TestRun hash len cap T N m) (h0 : m.next ≤ 1) (hn : reprobeLimit len + 1 < n) :
    ∃ m' m'', restart m m.word = .done () m' ∧ run (liveCheck hash n T N) m' = .done () m'' ∧ m''.failed = false := by
  obtain ⟨M, hp, hM⟩ := run_phases hT hb hr
  have hB := phases_any hs hp h0 fun _ => 0
  have hG := hB.good (anyCfg_ok hs.pow)
  have e1 : m.next = 1 := hB.inv.lone.next
  have e2 : (m.tab 0).len = len := hB.inv.len
  obtain ⟨hf, hH⟩ := file_of_good hG e1
  obtain ⟨m', hm', hs'⟩ := openFile_spec (fileOf m.word 0 (m.tab 0).len) m.cap
  have hG' := scanned_inv hf hG.inv.cap_le hH hs'
  have r1 : m'.root = 0 := hs'.root
  have r2 : m'.next = 1 := hs'.next
  have r3 : (m'.tab 0).len = (m.tab 0).len := hs'.len
  have r4 : (m'.tab 0).size = _ := hs'.size
  have hw : run mapSize m' = .done (BitVec.ofNat 64 M.card) m' := by
    show run (.act .getRoot fun r => .act (.getSize r) .ret) m' = _
    simp only [run, Act.exec, r1, r2, Nat.one_pos, if_true, r4, count_card hf hH]
  obtain ⟨m'', h3, h4⟩ := verdict hT hb hG' (by rw [r1, r2]) (by rw [r1, r3, e2]; exact hn) hw (fun k hk => (Finset.mem_filter.mp (hB.keys k hk)).1)
    (fun t i ht hi => (hM t i ht hi).trans (final_left hT (hodd t ht) (h20 t ht) i)) hodd
  exact ⟨m', m'', hm', h3, (congrArg A.failed h4).trans hG'.inv.ok⟩

/-- The same for keys that fit into the table. -/
theorem c53_accepts_reopened_partial (hs : Sized len cap) (hR : Roomy hash len (testKeys T N)) (hT : 0 < T)
    (hb : T * share T N 0 ≤ 2 ^ 31) (hodd : ∀ t, t < T → 10 ≤ share T N t ∨ share T N t % 2 = 1)
    (h20 : ∀ t, t < T → t ≠ 0 → share T N t < 20) (hr : TestRun hash len cap T N m) (hn : reprobeLimit len + 1 < n) :
    ∃ m' m'', restart m m.word = .done () m' ∧ run (liveCheck hash n T N) m' = .done () m'' ∧ m''.failed = false := by
  obtain ⟨M, hp, -⟩ := run_phases hT hb hr
  exact c53_accepts_reopened_no_growth_partial hs hT hb hodd h20 hr (roomy_phases_next hs hR hp) hn

/-- **C53, refuted** as soon as there are two threads with twenty operations each: although the map has done nothing wrong, the
check throws after every run in which the table has not grown, because nobody ran the prefix of thread 1. -/
theorem c53_rejects_no_growth (hs : Sized len cap) (hT : 2 ≤ T) (hb : T * share T N 0 ≤ 2 ^ 31)
    (h20 : 20 ≤ N / T) (hr : TestRun hash len cap T N m) (h0 : m.next ≤ 1) (hn : reprobeLimit len + 1 < n) :
    run (liveCheck hash n T N) m = .halted .threw := by
  have hT0 : 0 < T := by omega
  have hsh : share T N 1 = N / T := share_other hT0 (by decide)
  obtain ⟨M, hp, hM⟩ := run_phases hT0 hb hr
  have hB := phases_any hs hp h0 fun _ => 0
  have hG := hB.good (anyCfg_ok hs.pow)
  obtain ⟨w, h1, h2, -⟩ := size_own (C := anyCfg hash len (testKeys T N) fun _ => 0) (anyCfg_ok hs.pow) hB.inv (fun t k _ => rfl) hB.keys
  have e0 : m.root = 0 := hB.inv.root
  have e1 : m.next = 1 := hB.inv.lone.next
  have e2 : (m.tab 0).len = len := hB.inv.len
  have := share_le (N := N) hT0 1
  refine verdict_missing (t := 1) hT0 hb hG (by rw [e0, e1]) (by rw [e0, e2]; exact hn) h1 (by omega) (by omega) ?_
  rw [hM 1 0 (by omega) (by omega), final_first (by decide) (by omega)]

/-- The same for keys that fit into the table. -/
theorem c53_rejects (hs : Sized len cap) (hR : Roomy hash len (testKeys T N)) (hT : 2 ≤ T) (hb : T * share T N 0 ≤ 2 ^ 31)
    (h20 : 20 ≤ N / T) (hr : TestRun hash len cap T N m) (hn : reprobeLimit len + 1 < n) :
    run (liveCheck hash n T N) m = .halted .threw := by
  obtain ⟨M, hp, -⟩ := run_phases (by omega) hb hr
  exact c53_rejects_no_growth hs hT hb h20 hr (roomy_phases_next hs hR hp) hn

/-! ### Cases that meet the hypotheses -/

/-- Two threads take turns. -/
def turns (k : Nat) : List Sched := (List.replicate k [.run 0, .run 1, .run 1, .run 0]).flatten
/-- The map after the prefix of a test with two threads. -/
def pairA (N : Nat) : Sys := (Sys.start (freshMem 32 64) (testPrefix 2 N)).exec (fun x => x >>> 3) 30 (turns 20)
/-- The map after the whole test with two threads. -/
def pairB (N : Nat) : Sys := (Sys.start (pairA N).mem (testMain 2 N)).exec (fun x => x >>> 3) 30 (turns 130)

/-- Has the thread made all its calls? -/
def isDone : Thread → Bool
  | .idle [] => true
  | _ => false

theorem done_idle {m : Mem} {calls : Nat → List Op} {s : Sys} {k : Nat}
    (he : s = (Sys.start m calls).exec (fun x => x >>> 3) 30 (turns k)) (hc : ∀ t, 2 ≤ t → calls t = [])
    (h : isDone (s.thr 0) = true ∧ isDone (s.thr 1) = true) : ∀ t, s.thr t = .idle [] := by
  have key : ∀ t, isDone (s.thr t) = true → s.thr t = .idle [] := by
    intro t
    cases s.thr t with
    | idle todo => cases todo with
      | nil => exact fun _ => rfl
      | cons _ _ => exact fun e => by cases e
    | busy op p todo => exact fun e => by cases e
  intro t
  by_cases h0 : t = 0
  · subst h0; exact key _ h.1
  by_cases h1 : t = 1
  · subst h1; exact key _ h.2
  rw [he, exec_thr_other]
  · show Thread.idle (calls t) = _
    rw [hc t (by omega)]
  · intro x hx e
    subst e
    simp only [turns, List.mem_flatten, List.mem_replicate] at hx
    obtain ⟨l, ⟨-, rfl⟩, hx⟩ := hx
    simp only [List.mem_cons, Sched.run.injEq, List.not_mem_nil, or_false] at hx
    omega

theorem pair_run (N : Nat) (h : (isDone ((pairA N).thr 0) && isDone ((pairA N).thr 1) && isDone ((pairB N).thr 0) &&
    isDone ((pairB N).thr 1)) = true) : TestRun (fun x => x >>> 3) 32 64 2 N (pairB N).mem := by
  simp only [Bool.and_eq_true] at h
  obtain ⟨⟨⟨h1, h2⟩, h3⟩, h4⟩ := h
  refine ⟨30, 30, turns 20, turns 130, pairA N, pairB N, rfl, done_idle rfl (fun t ht => ?_) ⟨h1, h2⟩, rfl,
    done_idle rfl (fun t ht => ?_) ⟨h3, h4⟩, rfl⟩
  · unfold testPrefix; rw [if_neg (by omega)]
  · unfold testMain; rw [if_neg (by omega)]

theorem pair_roomy {N : Nat} (h : share 2 N 0 ≤ 20) (h' : share 2 N 1 ≤ 20) :
    Roomy (fun x => x >>> 3) 32 (testKeys 2 N) := by
  have hkey : ∀ k ∈ testKeys 2 N, ∃ t i, t < 2 ∧ i < share 2 N 0 ∧ genElem i t (share 2 N 0) < 32 ∧ k = kw t (share 2 N 0) i := by
    intro k hk
    obtain ⟨t, i, ht, hi, rfl⟩ := (testKeys_mem (by decide) (by omega)).mp hk
    refine ⟨t, i, ht, lt_of_lt_of_le hi (bounds (by decide) t).2.1, ?_, rfl⟩
    have : t = 0 ∨ t = 1 := by omega
    unfold genElem opsMainLoop at *
    rcases this with rfl | rfl <;> omega
  have hval : ∀ g : Nat, g < 32 → (BitVec.ofNat 64 g <<< 3) >>> 3 = BitVec.ofNat 64 g := by decide
  refine roomy_of_inj (fun k hk => ?_) (by decide) fun k hk k' hk' e => ?_
  · obtain ⟨t, i, -, -, h, rfl⟩ := hkey k hk
    exact kw_valid (by omega)
  · obtain ⟨t, i, -, hi, h, rfl⟩ := hkey k hk
    obtain ⟨t', i', -, hi', h', rfl⟩ := hkey k' hk'
    rw [kw, kw, hval _ h, hval _ h', BitVec.toNat_ofNat, BitVec.toNat_ofNat] at e
    have : genElem i t (share 2 N 0) = genElem i' t' (share 2 N 0) := by omega
    rw [kw, kw, this]

/-- `c53_accepts_partial`, `c53_accepts_reopened_partial` and their versions without growth are not vacuous: two threads with eleven operations each. -/
example : Sized 32 64 ∧ Roomy (fun x => x >>> 3) 32 (testKeys 2 22) ∧ TestRun (fun x => x >>> 3) 32 64 2 22 (pairB 22).mem ∧
    2 * share 2 22 0 ≤ 2 ^ 31 ∧ (share 2 22 0, share 2 22 1) = (11, 11) ∧ reprobeLimit 32 + 1 < 30 ∧ (pairB 22).hist.length = 40 ∧
    (pairB 22).mem.next = 1 :=
  ⟨⟨⟨5, by decide, rfl⟩, by decide⟩, pair_roomy (by decide) (by decide), pair_run 22 (by decide +kernel), by decide,
    by decide, by decide, by decide +kernel, by decide +kernel⟩

/-- A thread that runs alone goes through its current call. -/
theorem solo_call {hash : Word → Word} {n : Nat} (t : Nat) (op : Op) (todo : List Op) {r : Res} {m' : Mem} :
    ∀ (p : Prog Res) (s : Sys), s.thr t = .busy op p todo → run p s.mem = .done r m' →
    ∃ k, s.exec hash n (List.replicate k (.run t)) =
      { s with mem := m', thr := upd s.thr t (.idle todo), hist := s.hist ++ [.res t op r] } := by
  intro p
  induction p with
  | ret a =>
    intro s hs hr
    simp only [run, Outcome.done.injEq] at hr
    obtain ⟨rfl, rfl⟩ := hr
    exact ⟨1, by simp [Sys.exec, Sys.step, hs]⟩
  | halt e => intro s _ hr; cases hr
  | act a f ih =>
    intro s hs hr
    rw [run] at hr
    cases he : a.exec s.mem with
    | none => rw [he] at hr; cases hr
    | some x =>
      obtain ⟨y, m1⟩ := x
      rw [he] at hr
      obtain ⟨k, hk⟩ := ih y { s with mem := m1, thr := upd s.thr t (.busy op (f y) todo) } (by simp [upd]) hr
      refine ⟨k + 1, ?_⟩
      have hstep : s.step hash n (.run t) = { s with mem := m1, thr := upd s.thr t (.busy op (f y) todo) } := by
        simp only [Sys.step, hs, he]
      rw [List.replicate_succ, Sys.exec, hstep, hk]
      congr 1
      funext j
      by_cases e : j = t <;> simp [upd, e]

/-- A thread that runs alone goes through all its calls. -/
theorem solo_calls {hash : Word → Word} {n : Nat} (t : Nat) : ∀ (ops : List Op) (s : Sys) {rs : List Res} {m' : Mem},
    s.thr t = .idle ops → runOps hash n ops s.mem = .done rs m' →
    ∃ xs, (s.exec hash n xs).mem = m' ∧ (s.exec hash n xs).thr = upd s.thr t (.idle []) := by
  intro ops
  induction ops with
  | nil =>
    intro s rs m' hs hr
    cases hr
    refine ⟨[], rfl, ?_⟩
    funext j
    by_cases e : j = t
    · subst e; simp [upd, Sys.exec, hs]
    · simp [upd, e, Sys.exec]
  | cons op ops ih =>
    intro s rs m' hs hr
    rw [runOps] at hr
    cases he : run (op.prog hash n) s.mem with
    | halted x => rw [he] at hr; cases hr
    | done r m1 =>
      rw [he] at hr
      simp only at hr
      cases h2 : runOps hash n ops m1 with
      | halted x => rw [h2] at hr; cases hr
      | done rs' m2 =>
        rw [h2] at hr
        cases hr
        obtain ⟨k, hk⟩ := solo_call (hash := hash) (n := n) t op ops (op.prog hash n)
          { s with thr := upd s.thr t (.busy op (op.prog hash n) ops), hist := s.hist ++ [.inv t op] } (by simp [upd]) he
        obtain ⟨xs, h3, h4⟩ := ih (Sys.exec hash n (List.replicate k (.run t))
          { s with thr := upd s.thr t (.busy op (op.prog hash n) ops), hist := s.hist ++ [.inv t op] })
          (by rw [hk]; simp [upd]) (by rw [hk]; exact h2)
        refine ⟨(.run t :: List.replicate k (.run t)) ++ xs, ?_⟩
        have hstep : s.step hash n (.run t) =
            { s with thr := upd s.thr t (.busy op (op.prog hash n) ops), hist := s.hist ++ [.inv t op] } := by
          simp only [Sys.step, hs]
        rw [exec_append, Sys.exec, hstep]
        refine ⟨h3, h4.trans ?_⟩
        rw [hk]
        funext j
        by_cases e : j = t <;> simp [upd, e]

/-- The test with two threads, one after the other, in the fast interpreter. -/
def fastPair (N : Nat) : Option (List Res × FM) := do
  let a ← frunOps (fun x => x >>> 3) 30 (testPrefix 2 N 0) (FM.fresh 32 64)
  let b ← frunOps (fun x => x >>> 3) 30 (testMain 2 N 0) a.2
  frunOps (fun x => x >>> 3) 30 (testMain 2 N 1) b.2

theorem fast_run {N : Nat} (h : (fastPair N).isSome = true) : ∃ m, TestRun (fun x => x >>> 3) 32 64 2 N m := by
  unfold fastPair at h
  cases ha : frunOps (fun x => x >>> 3) 30 (testPrefix 2 N 0) (FM.fresh 32 64) with
  | none => rw [ha] at h; cases h
  | some a =>
    cases hb : frunOps (fun x => x >>> 3) 30 (testMain 2 N 0) a.2 with
    | none => rw [ha] at h; simp [hb] at h
    | some b =>
      cases hc : frunOps (fun x => x >>> 3) 30 (testMain 2 N 1) b.2 with
      | none => rw [ha] at h; simp [hb, hc] at h
      | some c =>
        obtain ⟨m1, r1, R1⟩ := frunOps_ok _ (FM.fresh_rel 32 64) ha
        obtain ⟨m2, r2, R2⟩ := frunOps_ok _ R1 hb
        obtain ⟨m3, r3, R3⟩ := frunOps_ok _ R2 hc
        obtain ⟨xs1, e1, f1⟩ := solo_calls 0 _ (Sys.start (freshMem 32 64) (testPrefix 2 N)) rfl r1
        obtain ⟨xs2, e2, f2⟩ := solo_calls 0 _ (Sys.start m1 (testMain 2 N)) rfl r2
        obtain ⟨xs3, e3, f3⟩ := solo_calls 1 _ ((Sys.start m1 (testMain 2 N)).exec (fun x => x >>> 3) 30 xs2)
          (by rw [f2]; rfl) (by rw [e2]; exact r3)
        refine ⟨m3, 30, 30, xs1, xs2 ++ xs3, _, _, rfl, ?_, rfl, ?_, ?_⟩
        · intro t
          rw [f1]
          by_cases e : t = 0
          · subst e; rfl
          · simp [upd, e, Sys.start, testPrefix]
        · intro t
          rw [e1, exec_append, f3, f2]
          by_cases e : t = 1
          · subst e; rfl
          · by_cases e' : t = 0
            · subst e'; rfl
            · have : testMain 2 N t = [] := by unfold testMain; rw [if_neg (by omega)]
              simp [upd, e, e', Sys.start, this]
        · rw [e1, exec_append, e3]

/-- `c53_rejects` and `c53_rejects_no_growth` are not vacuous: two threads with twenty operations each. -/
example : Sized 32 64 ∧ Roomy (fun x => x >>> 3) 32 (testKeys 2 40) ∧ (∃ m, TestRun (fun x => x >>> 3) 32 64 2 40 m ∧ m.next ≤ 1) ∧
    2 * share 2 40 0 ≤ 2 ^ 31 ∧ 20 ≤ 40 / 2 ∧ reprobeLimit 32 + 1 < 30 :=
  ⟨⟨⟨5, by decide, rfl⟩, by decide⟩, pair_roomy (by decide) (by decide), by
      obtain ⟨m, hm⟩ := fast_run (N := 40) (by decide +kernel)
      obtain ⟨M, hp, -⟩ := run_phases (by decide) (by decide) hm
      exact ⟨m, hm, roomy_phases_next ⟨⟨5, by decide, rfl⟩, by decide⟩ (pair_roomy (by decide) (by decide)) hp⟩, by decide, by decide,
    by decide⟩

end PMap.Harness
