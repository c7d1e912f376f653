import Verif.Live.Sys
import Verif.Live.Deep
import Verif.Par.Logic
import Verif.Live.Pace
import Verif.Props.Own

/-!
# C55: a thread that stops does not stop the others

The paper the repository accompanies calls the map lock-free: whichever threads are delayed, some call of the others gets done.
That is refuted here: a helper leaves the migration loop (hashMap.hpp:417-465, the early return at 461-464 is commented out) only
when all slots are counted as migrated, and a slot is counted by the thread that migrated it, some time later (:454, :390).
If that thread stops in between, every call on a key made by anybody waits for ever.
-/

namespace PMap

open Prog

variable {hash : Word → Word} {n : Nat}

/-! ## More fuel in interleavings -/

/-- **C13, fuel in interleavings.** The fuel is only a bound: in an interleaving in which no thread has run out of it, the memory,
the history and the undefined behaviour are the same with more fuel. -/
theorem c13_fuel_interleaved {n' : Nat} (hn : n ≤ n') (s : Sys) (xs : List Sched)
    (h : ∀ t op todo, (s.exec hash n xs).thr t ≠ .busy op (.halt .fuel) todo) :
    (s.exec hash n' xs).mem = (s.exec hash n xs).mem ∧ (s.exec hash n' xs).hist = (s.exec hash n xs).hist ∧
      (s.exec hash n' xs).ub = (s.exec hash n xs).ub := by
  have := Sys.More.exec hn (hash := hash) xs (Sys.More.refl s) (by
    intro t ht
    cases e : (s.exec hash n xs).thr t with
    | idle l => rw [e] at ht; exact ht
    | busy op p l =>
      rw [e] at ht
      cases p with
      | ret a => exact ht
      | act a k => exact ht
      | halt y =>
        cases y with
        | ub => exact ht
        | threw => exact ht
        | fuel => exact h t op l e)
  exact ⟨this.mem, this.hist, this.ub⟩

/-- **C13, the fuel lasts.** Fuel for every loop and recursion equal to the length of the schedule is enough: started between calls,
no thread runs out of it. -/
theorem c13_fuel_lasts (s : Sys) (hs : ∀ t, ∃ todo, s.thr t = .idle todo) (xs : List Sched) (hn : xs.length ≤ n) (t : Nat) (op : Op)
    (todo : List Op) : (s.exec hash n xs).thr t ≠ .busy op (.halt .fuel) todo := by
  intro e
  have h := deep_exec (hash := hash) (n := n) xs s 1 (by omega) t (by obtain ⟨l, h⟩ := hs t; rw [h]; trivial)
  rw [e] at h
  exact h rfl

/-- **C13, the fuel is not part of the behaviour.** For every schedule, all large enough amounts of fuel give the same memory, the
same history and the same undefined behaviour; so the interleavings of the code, which has no fuel, are those of the model with an
amount of fuel that exceeds the length of the schedule. -/
theorem c13_fuel_irrelevant {n' : Nat} (s : Sys) (hs : ∀ t, ∃ todo, s.thr t = .idle todo) (xs : List Sched) (hn : xs.length ≤ n)
    (hn' : xs.length ≤ n') :
    (s.exec hash n' xs).mem = (s.exec hash n xs).mem ∧ (s.exec hash n' xs).hist = (s.exec hash n xs).hist ∧
      (s.exec hash n' xs).ub = (s.exec hash n xs).ub := by
  obtain ⟨a1, a2, a3⟩ := c13_fuel_interleaved hn s xs fun t op todo => c13_fuel_lasts s hs xs (le_refl _) t op todo
  obtain ⟨b1, b2, b3⟩ := c13_fuel_interleaved hn' s xs fun t op todo => c13_fuel_lasts s hs xs (le_refl _) t op todo
  exact ⟨b1.trans a1.symm, b2.trans a2.symm, b3.trans a3.symm⟩

example : ((Sys.init 8 8 fun _ => [.put 8#64 16#64]).exec id 1000 (List.replicate 300 (.run 0))).hist =
    ((Sys.init 8 8 fun _ => [.put 8#64 16#64]).exec id 300 (List.replicate 300 (.run 0))).hist :=
  (c13_fuel_irrelevant _ (fun _ => ⟨_, rfl⟩) _ (by rw [List.length_replicate]) (by rw [List.length_replicate]; omega)).2.1

/-! ## Refutation -/

/-- **C55, what a stopped thread does to the others.** Suppose every slot of the current table has been migrated, but not all of
them have been counted, and the threads in `F` (those that have still to count, say) take no more steps, while all others are
between calls.  Then, whatever the others do from now on, in any interleaving and for ever: none of their calls that names a key
returns, nor does any of them throw an exception (it would then stay where it is, but the last part says that the fuel of the
model is the only thing that stops it). -/
theorem c55_all_wait {s : Sys} {r nt p : Nat} (F : Nat → Prop) (hroot : s.mem.root = r) (hr : r < s.mem.next) (hnt : nt < s.mem.next)
    (hlen : (s.mem.tab r).len = 2 ^ p) (hnew : (s.mem.tab r).newT = some nt) (hdone : (s.mem.tab r).copyDone < 2 ^ p)
    (hslots : ∀ i, i < 2 ^ p → clean (s.mem.word (.key r i)) ≠ KINITIAL ∧ clean (s.mem.word (.val r i)) = TOMBPRIME)
    (hothers : ∀ t, ¬ F t → ∃ todo, s.thr t = .idle todo ∧ ∀ op ∈ todo, op.Valid) (xs : List Sched)
    (hxs : ∀ t, F t → Sched.run t ∉ xs) :
    (∃ ev, (s.exec hash n xs).hist = s.hist ++ ev ∧ ∀ t op w, .res t op w ∈ ev → op = .size ∨ op = .isEmpty) ∧
      (s.exec hash n xs).mem.root = r ∧ (s.exec hash n xs).ub = s.ub ∧
      ∀ t op todo, ¬ F t → (s.exec hash n xs).thr t ≠ .busy op (.halt .threw) todo := by
  have hS : Stuck r nt (2 ^ p) s.mem := ⟨hroot, hr, hnt, hlen, hnew, hdone, fun i hi => (hslots i hi).1, fun i hi => (hslots i hi).2⟩
  have hW : ∀ t, ¬ F t → Waits r nt (2 ^ p) (s.thr t) := by
    intro t ht
    obtain ⟨todo, e, h⟩ := hothers t ht
    rw [e]; exact h
  have hx : ∀ x ∈ xs, ¬ x.isRun F := by
    intro x hx hF
    cases x with
    | evict a i => exact hF
    | run t => exact hxs t hF hx
  obtain ⟨h1, ⟨ev, h2, h3⟩, h4, -, h5⟩ := waits_exec (hash := hash) (n := n) ⟨p, rfl⟩ xs hS hW hx
  refine ⟨⟨ev, h2, fun t op w he => ?_⟩, h1.root, h4, fun t op todo ht e => ?_⟩
  · have : op.key = none := h3 _ he
    cases op <;> first | (exact .inl rfl) | (exact .inr rfl) | cases this
  · have := h5 t ht
    rw [e] at this
    have : Halt.threw = Halt.fuel := this.1
    cases this

/-- Nine puts into a table of eight slots. -/
def ninePuts : List Op := (List.range 9).map fun i => .put (BitVec.ofNat 64 (8 * i)) 16#64

/-- The next action of the thread counts eight slots of table 0. -/
def Thread.counts : Thread → Bool
  | .busy _ (.act (.addDone t w) _) _ => t == 0 && w == 8
  | _ => false

/-- The nine puts up to the point where the migrated slots are counted. -/
def nineStop : Option (Thread × FM × List Event) := fsteps (fun w => w >>> 3) 30 0 571 (.idle ninePuts, FM.fresh 8 64, [])

/-- The thread an event belongs to. -/
def Event.thread : Event → Nat
  | .inv t _ => t
  | .res t _ _ => t

/-- What is checked of it. -/
def nineCheck (x : Thread × FM × List Event) : Bool :=
  x.1.counts && x.2.1.root == 0 && x.2.1.next == 2 && (x.2.1.tab 0).len == 8 && (x.2.1.tab 0).newT == some 1 &&
  (x.2.1.tab 0).copyDone == 0 && !x.2.1.failed && x.2.2.length == 17 && x.2.2.all (fun e => e.thread == 0) &&
  (List.range 8).all fun i => clean (x.2.1.word (.key 0 i)) != KINITIAL && clean (x.2.1.word (.val 0 i)) == TOMBPRIME

theorem nine_ok : (nineStop.map nineCheck) = some true := by decide +kernel


/-- The state in which the thread has stopped. -/
theorem nine_state {k : Nat} {x : Thread × FM × List Event} (hx : fsteps (fun w => w >>> 3) 30 0 k (.idle ninePuts, FM.fresh 8 64, []) = some x)
    (hstop : nineCheck x = true) {n : Nat} (hn : 30 ≤ n) {calls : Nat → List Op} (h0 : calls 0 = ninePuts) {s2 : Sys}
    (hs2 : (Sys.init 8 64 calls).exec (fun w => w >>> 3) n (List.replicate k (.run 0)) = s2) :
    Stuck 0 1 (2 ^ 3) s2.mem ∧ (∀ t, t ≠ 0 → s2.thr t = .idle (calls t)) ∧
      (∃ op f todo, s2.thr 0 = .busy op (.act (.addDone 0 8) f) todo) ∧ s2.ub = false ∧ ∀ t op w, t ≠ 0 → .res t op w ∉ s2.hist := by
  obtain ⟨th, fm, es⟩ := x
  simp only [nineCheck, Bool.and_eq_true, List.all_eq_true, List.mem_range, bne_iff_ne,
    beq_iff_eq, Bool.not_eq_true'] at hstop
  obtain ⟨⟨⟨⟨⟨⟨⟨⟨⟨c1, c2⟩, c3⟩, c4⟩, c5⟩, c6⟩, -⟩, -⟩, c8⟩, c9⟩ := hstop
  obtain ⟨ev, e1, e2, e3, e4, e5⟩ := fsteps_sound (hash := fun w => w >>> 3) (n := 30) (t := 0) k (s := Sys.init 8 64 calls)
    (FM.fresh_rel 8 64) (by simp only [Sys.init, h0]) hx
  generalize hs1 : (Sys.init 8 64 calls).exec (fun w => w >>> 3) 30 (List.replicate k (.run 0)) = s1 at e2 e3 e4 e5
  -- the thread that stops
  obtain ⟨op, f, todo, rfl⟩ : ∃ op f todo, th = .busy op (.act (.addDone 0 8) f) todo := by
    cases th with
    | idle l => cases c1
    | busy op p l =>
      cases p with
      | ret a => cases c1
      | halt y => cases c1
      | act a f =>
        cases a with
        | addDone t w =>
          simp only [Thread.counts, Bool.and_eq_true, beq_iff_eq] at c1
          obtain ⟨rfl, rfl⟩ := c1
          exact ⟨op, f, l, rfl⟩
        | _ => cases c1
  have hthr : ∀ t, t ≠ 0 → s1.thr t = .idle (calls t) := by
    intro t ht
    rw [e3]; simp [upd, ht, Sys.init]
  have hM : s1.More s2 := by
    rw [← hs1, ← hs2]
    refine Sys.More.exec hn _ (Sys.More.refl _) fun t ht => ?_
    rw [hs1] at ht
    by_cases h : t = 0
    · subst h; rw [e3] at ht; simp [upd, Thread.out] at ht
    · rw [hthr t h] at ht; exact ht
  have hthr2 : ∀ t, t ≠ 0 → s2.thr t = .idle (calls t) := by
    intro t ht
    have := hM.thr t
    rw [hthr t ht] at this
    cases e : s2.thr t with
    | busy op p l => rw [e] at this; exact this.elim
    | idle l => rw [e] at this; cases this; rfl
  have hth0 : ∃ f', s2.thr 0 = .busy op (.act (.addDone 0 8) f') todo := by
    have := hM.thr 0
    rw [e3] at this
    cases e : s2.thr 0 with
    | idle l => rw [e] at this; exact this.elim
    | busy op' p l =>
      rw [e] at this
      obtain ⟨rfl, h2, rfl⟩ := this
      cases h2 with
      | act a h => exact ⟨_, rfl⟩
  have hn0 : s1.mem.next = 2 := by rw [← e2.next, c3]
  have htab : fm.tab 0 = s1.mem.tab 0 := e2.tab 0 (by omega)
  rw [htab] at c4 c5 c6
  have hS : Stuck 0 1 (2 ^ 3) s2.mem := by
    rw [hM.mem]
    refine ⟨by rw [← e2.root, c2], by omega, by omega, c4, c5, by rw [c6]; decide, fun i hi => ?_, fun i hi => ?_⟩
    · rw [← e2.word _ (by simp only [Addr.tab]; omega)]; exact (c9 i hi).1
    · rw [← e2.word _ (by simp only [Addr.tab]; omega)]; exact (c9 i hi).2
  obtain ⟨f', hf'⟩ := hth0
  refine ⟨hS, hthr2, ⟨op, f', todo, hf'⟩, by rw [hM.ub, e5]; rfl, fun t op w ht h => ?_⟩
  rw [hM.hist, e4] at h
  have h : Event.res t op w ∈ es := by rw [e1]; simpa [Sys.init] using h
  exact ht (c8 _ h)

theorem nine_waits {k : Nat} {x : Thread × FM × List Event} (hx : fsteps (fun w => w >>> 3) 30 0 k (.idle ninePuts, FM.fresh 8 64, []) = some x)
    (hstop : nineCheck x = true) {n : Nat} (hn : 30 ≤ n) {calls : Nat → List Op} (h0 : calls 0 = ninePuts)
    (hv : ∀ t, ∀ op ∈ calls t, op.Valid) {ys : List Sched} (hys : Sched.run 0 ∉ ys) {s : Sys}
    (hs : s = (Sys.init 8 64 calls).exec (fun w => w >>> 3) n (List.replicate k (.run 0) ++ ys)) :
    (∃ op f todo, s.thr 0 = .busy op (.act (.addDone 0 8) f) todo) ∧ s.ub = false ∧
      ∀ t op w, t ≠ 0 → .res t op w ∈ s.hist → op = .size ∨ op = .isEmpty := by
  obtain ⟨hS, hthr2, ⟨op, f', todo, hf'⟩, hub, hh⟩ := nine_state hx hstop hn h0 rfl
  obtain ⟨-, ⟨ev', g2, g3⟩, g4, g5, -⟩ := waits_exec (hash := fun w => w >>> 3) (n := n) (F := fun t => t = 0) ⟨3, rfl⟩ ys hS
    (by intro t ht; rw [hthr2 t ht]; exact hv t)
    (by
      intro x hx hF
      cases x with
      | evict a i => exact hF
      | run t => have : t = 0 := hF; subst this; exact hys hx)
  rw [exec_append] at hs
  refine ⟨⟨op, f', todo, by rw [hs, g5 0 rfl, hf']⟩, by rw [hs, g4, hub], fun t op w ht hw => ?_⟩
  rw [hs, g2] at hw
  rcases List.mem_append.mp hw with h | h
  · exact absurd h (hh t op w ht)
  · have : op.key = none := g3 _ h
    cases op <;> first | (exact .inl rfl) | (exact .inr rfl) | cases this

/-- **C55 is false of the code.** A thread makes eight puts into a table of eight slots and begins a ninth, which grows the table;
it migrates all eight slots and stops just before it counts them (its next action is `copyDone.fetch_add(8)`, :129).  From then on
no call on a key made by any other thread returns, whatever the calls and however the other threads are scheduled, for any amount
of fuel.  (No thread ever holds anything like a lock in the source, but this counter acts as one.) -/
theorem c55_not_lock_free : ∃ (hash : Word → Word) (first : List Op) (k : Nat), (∀ op ∈ first, op.Valid) ∧
    ∀ n, 30 ≤ n → ∀ calls : Nat → List Op, calls 0 = first → (∀ t, ∀ op ∈ calls t, op.Valid) →
    ∀ ys, Sched.run 0 ∉ ys → ∀ s, s = (Sys.init 8 64 calls).exec hash n (List.replicate k (.run 0) ++ ys) →
      (∃ op f todo, s.thr 0 = .busy op (.act (.addDone 0 8) f) todo) ∧ s.ub = false ∧
      ∀ t op w, t ≠ 0 → .res t op w ∈ s.hist → op = .size ∨ op = .isEmpty := by
  refine ⟨fun w => w >>> 3, ninePuts, 571, by decide, ?_⟩
  intro n hn calls h0 hv ys hys s hs
  have hstop := nine_ok
  cases hx : nineStop with
  | none => rw [hx] at hstop; cases hstop
  | some x =>
    rw [hx] at hstop
    simp only [Option.map_some, Option.some.injEq] at hstop
    exact nine_waits hx hstop hn h0 hv hys hs

/-- `c55_all_wait` is not vacuous: the state of `c55_not_lock_free`, with two threads that want to read and to write. -/
example : ∃ s : Sys, s.mem.root = 0 ∧ 0 < s.mem.next ∧ 1 < s.mem.next ∧ (s.mem.tab 0).len = 2 ^ 3 ∧ (s.mem.tab 0).newT = some 1 ∧
    (s.mem.tab 0).copyDone < 2 ^ 3 ∧
    (∀ i, i < 2 ^ 3 → clean (s.mem.word (.key 0 i)) ≠ KINITIAL ∧ clean (s.mem.word (.val 0 i)) = TOMBPRIME) ∧
    (∀ t, t ≠ 0 → ∃ todo, s.thr t = .idle todo ∧ ∀ op ∈ todo, op.Valid) ∧ s.thr 1 = .idle [.get 8#64] ∧ s.thr 2 = .idle [.put 800#64 8#64] := by
  have hstop := nine_ok
  cases hx : nineStop with
  | none => rw [hx] at hstop; cases hstop
  | some x =>
    rw [hx] at hstop
    simp only [Option.map_some, Option.some.injEq] at hstop
    obtain ⟨hS, hthr, -⟩ := nine_state hx hstop (le_refl 30)
      (calls := fun t => if t = 0 then ninePuts else if t = 1 then [.get 8#64] else if t = 2 then [.put 800#64 8#64] else []) rfl rfl
    refine ⟨_, hS.root, hS.lt, hS.ltn, hS.len, hS.newT, hS.done, fun i hi => ⟨hS.keys i hi, hS.vals i hi⟩, fun t ht => ⟨_, hthr t ht, ?_⟩,
      hthr 1 (by decide), hthr 2 (by decide)⟩
    rw [if_neg ht]
    split
    · decide
    · split
      · decide
      · simp

/-- Five steps later the stopped thread has counted the slots and made the new table the current one, and a get returns at once. -/
example : ((fsteps (fun w => w >>> 3) 30 0 576 (.idle ninePuts, FM.fresh 8 64, [])).bind fun x =>
    ((frun ((Op.get 8#64).prog (fun w => w >>> 3) 30) x.2.1).toOption).map fun y => (x.2.1.root, y.1)) = some (1, .word 16#64) := by
  decide +kernel

/-- `c13_fuel_interleaved` is not vacuous: two threads, one in the middle of a put. -/
example : ∀ t op todo, ((Sys.init 8 64 fun t => if t = 0 then [.put 8#64 16#64] else if t = 1 then [.get 8#64] else []).exec id 20
    [.run 0, .run 1, .run 0, .run 1, .run 0, .run 0]).thr t ≠ .busy op (.halt .fuel) todo := by
  intro t op todo
  by_cases h0 : t = 0
  · subst h0; intro h; cases h
  · by_cases h1 : t = 1
    · subst h1; intro h; cases h
    · intro h
      rw [exec_other _ _ (by simp [h0, h1])] at h
      simp [Sys.init] at h

/-! ## What does hold -/

/-- **C55, partial: every call ends after a bounded number of the caller's own steps** (wait-freedom).  Any number of threads work
on a new map; every key has one writer (readers are free), and the keys in use fit into the table, so that it does not grow.
Whatever the others do, and even if they stop for ever in the middle of their calls: a thread that has taken
`k * (15 * (10 + len / 4) + 19)` steps has returned from `k` of its calls, or from all of them, and then it is between calls.
Missing for the full claim: growth (refuted by `c55_not_lock_free`), and keys with several writers. -/
theorem c55_one_writer_partial {len cap : Nat} {S : Finset Word} {own : Word → Nat} (hs : Sized len cap) (hR : Roomy hash len S)
    (hn : 10 + len / 4 < n) {calls : Nat → List Op} (hc : ∀ t, ∀ op ∈ calls t, op.By S own t ∧ op.isUpdate = false) (xs : List Sched)
    (t k : Nat) (hk : k ≤ (calls t).length) (hx : k * (15 * (10 + len / 4) + 19) ≤ xs.count (.run t)) :
    k ≤ ((Sys.init len cap calls).exec hash n xs).hist.countP
        (fun e => match e with | .res t' _ _ => t' == t | .inv _ _ => false) ∧
      (k = (calls t).length → ((Sys.init len cap calls).exec hash n xs).thr t = .idle []) :=
  pace_start (C := ⟨hash, len, S, own, false, false⟩) (A := fun t op => op.By S own t ∧ op.isUpdate = false) (ctr := fun _ => False)
    rfl (roomy_ok hs hR) rfl (fun t op h e => by rw [h.2] at e; cases e) (fun t op h => ⟨h.1, by
      have := h.2
      cases op <;> first | trivial | exact fun h => h.elim⟩) hn hs.cap hc xs (le_refl _) t k hk hx

/-- **C55, partial**, with increments: the same when threads also increment their keys (those in `ctr`), as long as no counter
can reach the reserved words within the increments made. -/
theorem c55_one_writer_increments_partial {len cap : Nat} {S : Finset Word} {own : Word → Nat} (hs : Sized len cap)
    (hR : Roomy hash len S) (hn : 10 + len / 4 < n) {ctr : Word → Prop} {U : Nat} (hU : 8 * U < LIM) {calls : Nat → List Op}
    (hc : ∀ t, ∀ op ∈ calls t, op.By S own t ∧ op.Room ctr U) (xs : List Sched)
    (hupd : ((Sys.init len cap calls).exec hash n xs).hist.countP Event.updBegins ≤ U) (t k : Nat) (hk : k ≤ (calls t).length)
    (hx : k * (15 * (10 + len / 4) + 19) ≤ xs.count (.run t)) :
    k ≤ ((Sys.init len cap calls).exec hash n xs).hist.countP
        (fun e => match e with | .res t' _ _ => t' == t | .inv _ _ => false) ∧
      (k = (calls t).length → ((Sys.init len cap calls).exec hash n xs).thr t = .idle []) := by
  rw [← begTids_upd] at hupd
  exact pace_start (C := ⟨hash, len, S, own, false, false⟩) (A := fun t op => op.By S own t ∧ op.Room ctr U) rfl (roomy_ok hs hR) rfl (fun _ _ _ _ => hU)
    (fun t op h => h) hn hs.cap hc xs hupd t k hk hx

/-- `c55_one_writer_partial` is not vacuous: of four threads, thread 2 finishes its three reads in any schedule in which it takes
597 steps or more, wherever the others are at that time. -/
example (xs : List Sched) (h : 597 ≤ xs.count (.run 2)) : ((Sys.init 8 64 ownCalls).exec (fun x => x >>> 3) 13 xs).thr 2 = .idle [] :=
  (c55_one_writer_partial (n := 13) ⟨⟨3, by decide, rfl⟩, by decide⟩ own_roomy (by decide) own_calls xs 2 3 (by decide)
    (le_trans (by decide) h)).2 rfl

/-- The same with increments: thread 1 owns counters 8 and 16, thread 2 reads one of them. -/
example (xs : List Sched) (h : 398 ≤ xs.count (.run 2)) (hupd : ((Sys.init 8 64 fun t => if t = 1 then
      [.update 8#64 MATCH_ANY, .update 16#64 MATCH_ANY, .put 8#64 80#64] else if t = 2 then [.get 8#64, .get 16#64] else []).exec
        (fun x => x >>> 3) 13 xs).hist.countP Event.updBegins ≤ 100) :
    ((Sys.init 8 64 fun t => if t = 1 then
      [.update 8#64 MATCH_ANY, .update 16#64 MATCH_ANY, .put 8#64 80#64] else if t = 2 then [.get 8#64, .get 16#64] else []).exec
        (fun x => x >>> 3) 13 xs).thr 2 = .idle [] := by
  refine (c55_one_writer_increments_partial (n := 13) (S := {8#64, 16#64}) (own := fun _ => 1) (ctr := fun _ => True) (U := 100)
    ⟨⟨3, by decide, rfl⟩, by decide⟩ (roomy_of_ten ?_ (by decide) (by decide)) (by decide) (by decide) ?_ xs hupd 2 2 (by decide)
    (le_trans (by decide) h)).2 rfl
  · intro k hk
    simp only [Finset.mem_insert, Finset.mem_singleton] at hk
    rcases hk with rfl | rfl <;> decide
  · intro t op h
    by_cases h1 : t = 1
    · subst h1
      simp only [if_true, List.mem_cons, List.not_mem_nil, or_false] at h
      rcases h with rfl | rfl | rfl
      · exact ⟨⟨(by decide : Op.Valid _), fun k e => by cases e; decide, fun k v e => by cases e; rfl⟩, trivial⟩
      · exact ⟨⟨(by decide : Op.Valid _), fun k e => by cases e; decide, fun k v e => by cases e; rfl⟩, trivial⟩
      · exact ⟨⟨(by decide : Op.Valid _), fun k e => by cases e; decide, fun k v e => by cases e⟩, fun _ => by decide⟩
    · rw [if_neg h1] at h
      by_cases h2 : t = 2
      · subst h2
        simp only [if_true, List.mem_cons, List.not_mem_nil, or_false] at h
        rcases h with rfl | rfl
        · exact ⟨⟨(by decide : ValidKey _), fun k e => (by cases e), fun k v e => by cases e⟩, trivial⟩
        · exact ⟨⟨(by decide : ValidKey _), fun k e => (by cases e), fun k v e => by cases e⟩, trivial⟩
      · rw [if_neg h2] at h; cases h

end PMap
