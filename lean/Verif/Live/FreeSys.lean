import Verif.Live.FreeOps
import Verif.Live.Pace
import Verif.Live.Sys
import Mathlib.Algebra.Order.BigOperators.Group.Finset

/-!
# All threads, while the table does not grow (proof machinery)
-/

namespace PMap

open Prog

variable {hash : Word → Word} {n r L : Nat}

/-- Once a table has a successor it keeps one. -/
theorem newT_stays {a : Act} {m m' : Mem} {x : a.Resp} (he : a.exec m = some (x, m')) (hr : r < m.next) (h : (m.tab r).newT ≠ none) :
    r < m'.next ∧ (m'.tab r).newT ≠ none := by
  have hupd : ∀ (t : Nat) (f : Tab → Tab), (∀ x : Tab, x.newT ≠ none → (f x).newT ≠ none) → ((upd m.tab t (f (m.tab t))) r).newT ≠ none := by
    intro t f hf
    simp only [upd]
    split
    · next e => rw [← e]; exact hf _ h
    · exact h
  cases a with
  | alloc l sz =>
    simp only [Act.exec] at he
    split at he <;> simp only [Option.some.injEq, Prod.mk.injEq] at he <;> obtain ⟨-, rfl⟩ := he
    · refine ⟨Nat.lt_succ_of_lt hr, ?_⟩
      simp only [upd, if_neg (show ¬ r = m.next by omega)]; exact h
    · exact ⟨hr, h⟩
  | casNew t n =>
    simp only [Act.exec] at he
    split at he
    · split at he <;> simp only [Option.some.injEq, Prod.mk.injEq] at he <;> obtain ⟨-, rfl⟩ := he
      · exact ⟨hr, hupd t (fun x => { x with newT := some n }) (fun _ _ => by simp)⟩
      · exact ⟨hr, h⟩
    · cases he
  | addSize t d =>
    simp only [Act.exec] at he
    split at he <;> simp only [Option.some.injEq, Prod.mk.injEq, reduceCtorEq] at he
    obtain ⟨-, rfl⟩ := he
    exact ⟨hr, hupd t (fun x => { x with size := x.size + d }) (fun _ h => h)⟩
  | incSlots t =>
    simp only [Act.exec] at he
    split at he <;> simp only [Option.some.injEq, Prod.mk.injEq, reduceCtorEq] at he
    obtain ⟨-, rfl⟩ := he
    exact ⟨hr, hupd t (fun x => { x with slots := x.slots + 1 }) (fun _ h => h)⟩
  | addDone t d =>
    simp only [Act.exec] at he
    split at he <;> simp only [Option.some.injEq, Prod.mk.injEq, reduceCtorEq] at he
    obtain ⟨-, rfl⟩ := he
    exact ⟨hr, hupd t (fun x => { x with copyDone := x.copyDone + d }) (fun _ h => h)⟩
  | casIdx t e n =>
    simp only [Act.exec] at he
    split at he
    · split at he <;> simp only [Option.some.injEq, Prod.mk.injEq] at he <;> obtain ⟨-, rfl⟩ := he
      · exact ⟨hr, hupd t (fun x => { x with copyIdx := n }) (fun _ h => h)⟩
      · exact ⟨hr, h⟩
    · cases he
  | cas a e n =>
    simp only [Act.exec] at he
    split at he
    · split at he <;> simp only [Option.some.injEq, Prod.mk.injEq] at he <;> obtain ⟨-, rfl⟩ := he <;> exact ⟨hr, h⟩
    · cases he
  | casRoot o n =>
    simp only [Act.exec] at he
    split at he <;> simp only [Option.some.injEq, Prod.mk.injEq] at he <;> obtain ⟨-, rfl⟩ := he <;> exact ⟨hr, h⟩
  | check c =>
    simp only [Act.exec, Option.some.injEq, Prod.mk.injEq] at he
    obtain ⟨-, rfl⟩ := he
    exact ⟨hr, h⟩
  | fence =>
    simp only [Act.exec, Option.some.injEq, Prod.mk.injEq] at he
    obtain ⟨-, rfl⟩ := he
    exact ⟨hr, h⟩
  | getRoot =>
    simp only [Act.exec, Option.some.injEq, Prod.mk.injEq] at he
    obtain ⟨-, rfl⟩ := he
    exact ⟨hr, h⟩
  | _ =>
    simp only [Act.exec] at he
    split at he <;> simp only [Option.some.injEq, Prod.mk.injEq, reduceCtorEq] at he
    obtain ⟨-, rfl⟩ := he
    exact ⟨hr, h⟩

theorem grown_step {s : Sys} (hr : r < s.mem.next) (h : (s.mem.tab r).newT ≠ none) (x : Sched) :
    r < (s.step hash n x).mem.next ∧ ((s.step hash n x).mem.tab r).newT ≠ none := by
  cases x with
  | evict t i => exact ⟨hr, h⟩
  | run t =>
    simp only [Sys.step]
    split
    · exact ⟨hr, h⟩
    · exact ⟨hr, h⟩
    · exact ⟨hr, h⟩
    · exact ⟨hr, h⟩
    · exact ⟨hr, h⟩
    · split
      · exact ⟨hr, h⟩
      · next he => exact newT_stays he hr h

theorem grown_exec (xs : List Sched) : ∀ {s : Sys}, r < s.mem.next → (s.mem.tab r).newT ≠ none →
    ((s.exec hash n xs).mem.tab r).newT ≠ none := by
  induction xs with
  | nil => intro s _ h; exact h
  | cons x xs ih =>
    intro s hr h
    obtain ⟨h1, h2⟩ := grown_step (hash := hash) (n := n) hr h x
    exact ih h1 h2

/-- The thread is within its budget (no code of its own). -/
def Thread.Free (r L : Nat) (b : Bool) (N : Nat) (w : World) : Thread → Prop
  | .idle todo => ∀ op ∈ todo, op.Valid
  | .busy op p todo => (∀ op ∈ todo, op.Valid) ∧ N ≤ freeBound L ∧ fwp r L (freeBound L) (!op.reads) (fun _ _ _ _ => True) p b N w

/-- The thread is in a call that does not write (no code of its own). -/
def Thread.reads : Thread → Bool
  | .busy op _ _ => op.reads
  | .idle _ => false

/-- All threads are within their budgets (no code of its own). -/
structure FreeOK (r L : Nat) (s : Sys) (b : Nat → Bool) (N : Nat → Nat) (g : Nat) : Prop where
  calm : CalmMem r L s.mem
  thr : ∀ t, (s.thr t).Free r L (b t) (N t) ⟨s.mem, g⟩

theorem Thread.Free.env {b : Bool} {N : Nat} {w w' : World} {th : Thread} (h : th.Free r L b N w) (he : Drift r L w w') :
    th.Free r L b (refill (!th.reads) (freeBound L) N w.g w'.g) w' := by
  cases th with
  | idle todo => exact h
  | busy op p todo =>
    obtain ⟨h1, h2, h3⟩ := h
    exact ⟨h1, refill_le' h2, fwp_env h3 he⟩

/-- What a step does to budgets and permissions to write: `t` is the thread that runs (no code of its own). -/
inductive Moved (hash : Word → Word) (n L : Nat) (s : Sys) (t : Nat) (b : Nat → Bool) (N : Nat → Nat) (s' : Sys) (b' : Nat → Bool) (N' : Nat → Nat) : Prop
  /-- it has nothing to do, or is stuck -/
  | none (h : s.thr t = .idle [] ∨ (∃ op y todo, s.thr t = .busy op (.halt y) todo) ∨ s'.ub = true) (hth : s'.thr = s.thr)
      (hh : s'.hist = s.hist) (hb : b' = b) (hN : N' = N)
  /-- it begins a call -/
  | beg (op : Op) (todo : List Op) (h : s.thr t = .idle (op :: todo)) (hth : s'.thr = upd s.thr t (.busy op (op.prog hash n) todo))
      (hh : s'.hist = s.hist ++ [.inv t op]) (hb : b' = upd b t true) (hN : N' = upd N t (freeBound L))
  /-- it returns -/
  | ret (op : Op) (x : Res) (todo : List Op) (h : s.thr t = .busy op (.ret x) todo) (hth : s'.thr = upd s.thr t (.idle todo))
      (hh : s'.hist = s.hist ++ [.res t op x]) (hb : b' = b) (hN : N' = N)
  /-- it acts without writing a value -/
  | act (op : Op) (p p' : Prog Res) (todo : List Op) (h : s.thr t = .busy op p todo) (hth : s'.thr = upd s.thr t (.busy op p' todo))
      (hh : s'.hist = s.hist) (hb : b' = b) (h0 : 0 < N t) (hN : N' = upd N t (N t - 1))
  /-- it writes a value -/
  | write (op : Op) (p p' : Prog Res) (todo : List Op) (h : s.thr t = .busy op p todo) (hth : s'.thr = upd s.thr t (.busy op p' todo))
      (hh : s'.hist = s.hist) (hbt : b t = true) (hb : b' = upd b t false) (h0 : 0 < N t) 
      (hN : N' = fun u => if u = t then N t - 1 else if (s.thr u).reads then N u else freeBound L)

theorem Thread.Free.same {b : Bool} {N : Nat} {w w' : World} {th : Thread} (h : th.Free r L b N w) (he : Drift r L w w')
    (hg : w.g = w'.g) : th.Free r L b N w' := by
  have := h.env he
  rwa [refill, if_neg (fun e => e.2 hg)] at this

theorem free_step {s : Sys} {b : Nat → Bool} {N : Nat → Nat} {g : Nat} (h : FreeOK r L s b N g) (t : Nat) :
    (r < (s.step hash n (.run t)).mem.next ∧ ((s.step hash n (.run t)).mem.tab r).newT ≠ none) ∨
      ∃ b' N' g', FreeOK r L (s.step hash n (.run t)) b' N' g' ∧ Moved hash n L s t b N (s.step hash n (.run t)) b' N' := by
  have ht := h.thr t
  rw [Sys.step]
  cases hs : s.thr t with
  | idle todo =>
    rw [hs] at ht
    cases todo with
    | nil => exact .inr ⟨b, N, g, h, .none (.inl hs) rfl rfl rfl rfl⟩
    | cons op todo =>
      refine .inr ⟨upd b t true, upd N t (freeBound L), g, ⟨h.calm, fun u => ?_⟩, .beg op todo hs rfl rfl rfl rfl⟩
      by_cases e : u = t
      · subst e
        simp only [upd, if_true]
        exact ⟨fun o ho => ht o (List.mem_cons_of_mem _ ho), le_refl _, fwp_op (ht op List.mem_cons_self)⟩
      · simp only [upd, if_neg e]; exact h.thr u
  | busy op p todo =>
    rw [hs] at ht
    obtain ⟨h1, h2, h3⟩ := ht
    cases p with
    | ret x =>
      refine .inr ⟨b, N, g, ⟨h.calm, fun u => ?_⟩, .ret op x todo hs rfl rfl rfl rfl⟩
      by_cases e : u = t
      · subst e
        simp only [upd, if_true]
        exact h1
      · simp only [upd, if_neg e]; exact h.thr u
    | halt y =>
      cases y with
      | ub => exact .inr ⟨b, N, g, ⟨h.calm, h.thr⟩, .none (.inr (.inl ⟨op, _, todo, hs⟩)) rfl rfl rfl rfl⟩
      | threw => exact .inr ⟨b, N, g, h, .none (.inr (.inl ⟨op, _, todo, hs⟩)) rfl rfl rfl rfl⟩
      | fuel => exact .inr ⟨b, N, g, h, .none (.inr (.inl ⟨op, _, todo, hs⟩)) rfl rfl rfl rfl⟩
    | act a k =>
      simp only
      cases he : a.exec s.mem with
      | none => exact .inr ⟨b, N, g, ⟨h.calm, h.thr⟩, .none (.inr (.inr rfl)) rfl rfl rfl rfl⟩
      | some q =>
        obtain ⟨x, m'⟩ := q
        simp only
        obtain ⟨h4, h5⟩ := h3 ⟨s.mem, g⟩ h.calm (Drift.refl _) x m' he
        rw [refill_self] at h4 h5
        rcases h5 with h5 | ⟨h5, h6, h7, h8⟩
        · exact .inl ⟨lt_of_lt_of_le h.calm.lt (next_mono he), h5⟩
        · right
          cases hw : a.writes s.mem with
          | false =>
            simp only [hw, Bool.toNat_false, Nat.add_zero, Bool.not_false, Bool.and_true] at h7 h8
            refine ⟨b, upd N t (N t - 1), g, ⟨h5, fun u => ?_⟩, .act op _ (k x) todo hs rfl rfl rfl h4 rfl⟩
            by_cases e : u = t
            · subst e
              simp only [upd, if_true]
              exact ⟨h1, by omega, h8⟩
            · simp only [upd, if_neg e]; exact (h.thr u).same h7 rfl
          | true =>
            simp only [hw, Bool.toNat_true, Bool.not_true, Bool.and_false] at h6 h7 h8
            refine ⟨upd b t false, _, g + 1, ⟨h5, fun u => ?_⟩, .write op _ (k x) todo hs rfl rfl (h6 trivial) rfl h4 rfl⟩
            by_cases e : u = t
            · subst e
              simp only [upd, if_true]
              exact ⟨h1, by omega, h8⟩
            · simp only [upd, if_neg e]
              have := (h.thr u).env h7
              rw [refill] at this
              cases hr : (s.thr u).reads with
              | true => simpa [hr] using this
              | false => simpa [hr] using this

theorem free_evict {s : Sys} {b : Nat → Bool} {N : Nat → Nat} {g : Nat} (h : FreeOK r L s b N g) (t i : Nat) :
    FreeOK r L (s.step hash n (.evict t i)) b N g :=
  ⟨⟨h.calm.root, h.calm.lt, h.calm.len, h.calm.newT, h.calm.mig⟩, fun u => (h.thr u).same ⟨le_refl _, fun _ _ _ => .inl rfl⟩ rfl⟩

theorem free_start {m : Mem} (h : CalmMem r L m) {calls : Nat → List Op} (hv : ∀ t, ∀ op ∈ calls t, op.Valid) :
    FreeOK r L (Sys.start m calls) (fun _ => false) (fun _ => 0) 0 := ⟨h, hv⟩

theorem ub_step {s : Sys} (h : s.ub = true) (x : Sched) : (s.step hash n x).ub = true := by
  cases x with
  | evict t i => exact h
  | run t =>
    simp only [Sys.step]
    split
    · exact h
    · exact h
    · rfl
    · exact h
    · exact h
    · split
      · rfl
      · exact h

theorem ub_exec (xs : List Sched) : ∀ {s : Sys}, s.ub = true → (s.exec hash n xs).ub = true := by
  induction xs with
  | nil => intro s h; exact h
  | cons x xs ih => intro s h; exact ih (ub_step h x)

theorem halt_step {s : Sys} {t : Nat} {op : Op} {y : Halt} {todo : List Op} (h : s.thr t = .busy op (.halt y) todo) (x : Sched) :
    (s.step hash n x).thr t = .busy op (.halt y) todo := by
  cases x with
  | evict a i => exact h
  | run u =>
    by_cases e : t = u
    · subst e
      cases y <;> simp only [Sys.step, h]
    · rw [step_other e]; exact h

theorem halt_exec {t : Nat} {op : Op} {y : Halt} {todo : List Op} (xs : List Sched) : ∀ {s : Sys}, s.thr t = .busy op (.halt y) todo →
    (s.exec hash n xs).thr t = .busy op (.halt y) todo := by
  induction xs with
  | nil => intro s h; exact h
  | cons x xs ih => intro s h; exact ih (halt_step h x)

/-! ## Progress of all together -/

/-- What is left to do for a thread before it returns (no code of its own). -/
def Thread.rest (L N : Nat) : Thread → Nat
  | .idle _ => freeBound L + 1
  | .busy _ _ _ => N

/-- May the thread still write before it returns (no code of its own)? -/
def Thread.may (b : Bool) : Thread → Nat
  | .idle _ => 1
  | .busy _ _ _ => b.toNat

/-- What is left to do before somebody returns, for the threads below `T` (no code of its own). -/
def Sys.rest (L T : Nat) (s : Sys) (b : Nat → Bool) (N : Nat → Nat) : Nat :=
  (∑ t ∈ Finset.range T, (s.thr t).may (b t)) * (T * (freeBound L + 1)) + ∑ t ∈ Finset.range T, (s.thr t).rest L (N t)

theorem rest_le {s : Sys} {b : Nat → Bool} {N : Nat → Nat} {g T : Nat} (h : FreeOK r L s b N g) :
    s.rest L T b N ≤ T * (T + 1) * (freeBound L + 1) := by
  have h1 : ∑ t ∈ Finset.range T, (s.thr t).may (b t) ≤ T := by
    have := Finset.sum_le_card_nsmul (Finset.range T) (fun t => (s.thr t).may (b t)) 1 (fun t _ => by
      cases s.thr t with
      | idle l => exact le_refl _
      | busy op p l => exact Bool.toNat_le _)
    simpa using this
  have h2 : ∑ t ∈ Finset.range T, (s.thr t).rest L (N t) ≤ T * (freeBound L + 1) := by
    have := Finset.sum_le_card_nsmul (Finset.range T) (fun t => (s.thr t).rest L (N t)) (freeBound L + 1) (fun t _ => by
      have ht := h.thr t
      cases hs : s.thr t with
      | idle l => exact le_refl _
      | busy op p l => rw [hs] at ht; exact le_trans ht.2.1 (Nat.le_succ _))
    simpa using this
  calc s.rest L T b N ≤ T * (T * (freeBound L + 1)) + T * (freeBound L + 1) := Nat.add_le_add (Nat.mul_le_mul_right _ h1) h2
    _ = T * (T + 1) * (freeBound L + 1) := by ring

/-- A step that is not a return takes something off what is left. -/
theorem rest_step {s s' : Sys} {b b' : Nat → Bool} {N N' : Nat → Nat} {g g' T t : Nat} (h : FreeOK r L s b N g) (hT : t < T)
    (hm : Moved hash n L s t b N s' b' N') (hidle : s.thr t ≠ .idle []) (hstuck : ∀ op y todo, s.thr t ≠ .busy op (.halt y) todo)
    (hub : s'.ub = false) (hres : s'.hist = s.hist ∨ ∃ op, s'.hist = s.hist ++ [.inv t op]) :
    s'.rest L T b' N' + 1 ≤ s.rest L T b N := by
  have hmem := Finset.mem_range.mpr hT
  have hsplit : ∀ f : Nat → Nat, ∑ u ∈ Finset.range T, f u = f t + ∑ u ∈ (Finset.range T).erase t, f u :=
    fun f => (Finset.add_sum_erase _ f hmem).symm
  have hcongr : ∀ f f' : Nat → Nat, (∀ u, u ≠ t → f u = f' u) → ∑ u ∈ (Finset.range T).erase t, f u = ∑ u ∈ (Finset.range T).erase t, f' u :=
    fun f f' hff => Finset.sum_congr rfl fun u hu => hff u (Finset.ne_of_mem_erase hu)
  unfold Sys.rest
  cases hm with
  | none h1 => 
    rcases h1 with h1 | ⟨op, y, todo, h1⟩ | h1
    · exact absurd h1 hidle
    · exact absurd h1 (hstuck _ _ _)
    · rw [h1] at hub; cases hub
  | ret op x todo h1 h2 h3 =>
    rw [h3] at hres
    rcases hres with e | ⟨op', e⟩
    · simp at e
    · simp at e
  | beg op todo h1 h2 h3 h4 h5 =>
    rw [hsplit, hsplit, hsplit, hsplit]
    rw [hcongr (fun u => (s'.thr u).may (b' u)) (fun u => (s.thr u).may (b u)) (fun u hu => by simp [h2, h4, upd, hu]),
      hcongr (fun u => (s'.thr u).rest L (N' u)) (fun u => (s.thr u).rest L (N u)) (fun u hu => by simp [h2, h5, upd, hu])]
    simp only [h1, h2, h4, h5, upd, if_true, Thread.may, Thread.rest, Bool.toNat_true]
    omega
  | act op p p' todo h1 h2 h3 h4 h5 h6 =>
    rw [hsplit, hsplit, hsplit, hsplit]
    rw [hcongr (fun u => (s'.thr u).may (b' u)) (fun u => (s.thr u).may (b u)) (fun u hu => by simp [h2, h4, upd, hu]),
      hcongr (fun u => (s'.thr u).rest L (N' u)) (fun u => (s.thr u).rest L (N u)) (fun u hu => by simp [h2, h6, upd, hu])]
    simp only [h1, h2, h4, h6, upd, if_true, Thread.may, Thread.rest]
    omega
  | write op p p' todo h1 h2 h3 h4 h5 h6 h7 =>
    rw [hsplit, hsplit, hsplit, hsplit]
    rw [hcongr (fun u => (s'.thr u).may (b' u)) (fun u => (s.thr u).may (b u)) (fun u hu => by simp [h2, h5, upd, hu])]
    have hrest : ∑ u ∈ (Finset.range T).erase t, (s'.thr u).rest L (N' u) ≤ (T - 1) * (freeBound L + 1) := by
      have := Finset.sum_le_card_nsmul ((Finset.range T).erase t) (fun t => (s'.thr t).rest L (N' t)) (freeBound L + 1) (fun u hu => by
        have hu := Finset.ne_of_mem_erase hu
        have ht := h.thr u
        simp only [h2, h7, upd, if_neg hu]
        cases hs : s.thr u with
        | idle l => exact le_refl _
        | busy op p l =>
          rw [hs] at ht
          simp only [Thread.rest]
          split
          · exact le_trans ht.2.1 (Nat.le_succ _)
          · exact Nat.le_succ _)
      rw [Finset.card_erase_of_mem hmem, Finset.card_range] at this
      simpa using this
    simp only [h1, h2, h4, h5, h7, upd, if_true, Thread.may, Thread.rest, Bool.toNat_true, Bool.toNat_false] at hrest ⊢
    have hTT : T * (freeBound L + 1) = (T - 1) * (freeBound L + 1) + (freeBound L + 1) := by
      obtain ⟨T', rfl⟩ : ∃ T', T = T' + 1 := ⟨T - 1, by omega⟩
      rw [Nat.add_sub_cancel, Nat.add_mul, Nat.one_mul]
    rw [Nat.add_mul, Nat.add_mul, Nat.zero_mul, Nat.one_mul]
    omega

/-- Is it a step of a thread (no code of its own)? -/
def Sched.ofThread : Sched → Bool
  | .run _ => true
  | .evict _ _ => false

theorem free_progress {T : Nat} (ys : List Sched) : ∀ {s : Sys} {b : Nat → Bool} {N : Nat → Nat} {g : Nat}, FreeOK r L s b N g →
    (∀ t, .run t ∈ ys → t < T ∧ s.thr t ≠ .idle []) → ((s.exec hash n ys).mem.tab r).newT = none → (s.exec hash n ys).ub = false →
    (∀ t op y todo, (s.exec hash n ys).thr t ≠ .busy op (.halt y) todo) →
    (∀ ev, (s.exec hash n ys).hist = s.hist ++ ev → ∀ t op x, .res t op x ∉ ev) →
    ys.countP Sched.ofThread ≤ s.rest L T b N := by
  induction ys with
  | nil => intros; simp
  | cons x ys ih =>
    intro s b N g h hw hnew hub hstuck hres
    rw [Sys.exec] at hnew hub hstuck hres
    have hst : ∀ t op y todo, s.thr t ≠ .busy op (.halt y) todo := fun t op y todo e => hstuck t op y todo (halt_exec ys (halt_step e x))
    cases x with
    | evict a i =>
      have h' := free_evict (hash := hash) (n := n) h a i
      have := ih h' (fun t ht => hw t (List.mem_cons_of_mem _ ht)) hnew hub hstuck hres
      rw [List.countP_cons]
      exact this
    | run t =>
      obtain ⟨hT, hidle⟩ := hw t List.mem_cons_self
      rcases free_step (hash := hash) (n := n) h t with ⟨h1, h2⟩ | ⟨b', N', g', h', hm⟩
      · exact absurd hnew (grown_exec ys h1 h2)
      · have hub' : (s.step hash n (.run t)).ub = false := by
          cases e : (s.step hash n (.run t)).ub with
          | false => rfl
          | true => rw [ub_exec ys e] at hub; cases hub
        obtain ⟨ev', hev'⟩ := exec_hist hash n ys (s.step hash n (.run t))
        have hhist : (s.step hash n (.run t)).hist = s.hist ∨ ∃ op, (s.step hash n (.run t)).hist = s.hist ++ [.inv t op] := by
          cases hm with
          | none _ _ h3 => exact .inl h3
          | beg op _ _ _ h3 => exact .inr ⟨op, h3⟩
          | ret op x todo _ _ h3 =>
            exfalso
            rw [h3] at hev'
            exact hres ([.res t op x] ++ ev') (by rw [hev', List.append_assoc]) t op x (by simp)
          | act _ _ _ _ _ _ h3 => exact .inl h3
          | write _ _ _ _ _ _ h3 => exact .inl h3
        have hstep := rest_step (g' := g') h hT hm hidle (hst t) hub' hhist
        have := ih h' (fun u hu => ⟨(hw u (List.mem_cons_of_mem _ hu)).1, ?_⟩) hnew hub hstuck ?_
        · rw [List.countP_cons]
          simp only [Sched.ofThread, if_true]
          omega
        · have hu := (hw u (List.mem_cons_of_mem _ hu)).2
          by_cases e : u = t
          · subst e
            cases hm with
            | none _ h3 => rw [h3]; exact hu
            | beg op _ _ h3 => rw [h3]; simp [upd]
            | ret op x todo _ _ h3 => rcases hhist with e | ⟨_, e⟩ <;> rw [h3] at e <;> simp at e
            | act _ _ _ _ _ h3 => rw [h3]; simp [upd]
            | write _ _ _ _ _ h3 => rw [h3]; simp [upd]
          · rw [step_other e]; exact hu
        · intro ev he u op x hx
          rcases hhist with e | ⟨o, e⟩
          · rw [e] at he; exact hres ev he u op x hx
          · rw [e, List.append_assoc] at he
            exact hres _ he u op x (List.mem_append_right _ hx)

theorem free_exec (xs : List Sched) : ∀ {s : Sys} {b : Nat → Bool} {N : Nat → Nat} {g : Nat}, FreeOK r L s b N g →
    ((s.exec hash n xs).mem.tab r).newT = none → ∃ b' N' g', FreeOK r L (s.exec hash n xs) b' N' g' := by
  induction xs with
  | nil => intro s b N g h _; exact ⟨b, N, g, h⟩
  | cons x xs ih =>
    intro s b N g h hnew
    cases x with
    | evict a i => exact ih (free_evict h a i) hnew
    | run t =>
      rcases free_step (hash := hash) (n := n) h t with ⟨h1, h2⟩ | ⟨b', N', g', h', -⟩
      · exact absurd hnew (grown_exec xs h1 h2)
      · exact ih h' hnew

/-! ## Progress of a reader -/

theorem Pace.done {B m c x N k : Nat} {th : Thread} (h : Pace B m c x N th) (hk : k ≤ m) (hc : k * (B + 2) ≤ c) :
    k ≤ x ∧ (k = m → th = .idle []) := by
  cases th with
  | idle todo =>
    cases todo with
    | nil =>
      have := h.1
      simp only [List.length_nil] at this
      exact ⟨by omega, fun _ => rfl⟩
    | cons op todo =>
      have := le_trans hc (h.2 (List.cons_ne_nil _ _))
      have h1 := h.1
      simp only [List.length_cons] at h1
      have := Nat.le_of_mul_le_mul_right this (by omega)
      exact ⟨this, fun e => by omega⟩
  | busy op p todo =>
    obtain ⟨h1, -, h3⟩ := h
    have : k * (B + 2) < (x + 1) * (B + 2) := by rw [Nat.add_mul]; omega
    have := Nat.lt_succ_iff.mp (Nat.lt_of_mul_lt_mul_right this)
    exact ⟨this, fun e => by omega⟩

/-- The thread makes no calls that write (no code of its own). -/
def Thread.reader : Thread → Prop
  | .idle todo => ∀ op ∈ todo, op.reads = true
  | .busy op _ todo => op.reads = true ∧ ∀ op ∈ todo, op.reads = true

theorem reader_exec {t m : Nat} (xs : List Sched) : ∀ {s : Sys} {b : Nat → Bool} {N : Nat → Nat} {g c : Nat}, FreeOK r L s b N g →
    (s.thr t).reader → Pace (freeBound L) m c (returned t s.hist) (N t) (s.thr t) →
    ((s.exec hash n xs).mem.tab r).newT = none → (s.exec hash n xs).ub = false →
    (∀ op todo, (s.exec hash n xs).thr t ≠ .busy op (.halt .fuel) todo) →
    ∃ N', Pace (freeBound L) m (c + xs.count (.run t)) (returned t (s.exec hash n xs).hist) N' ((s.exec hash n xs).thr t) := by
  induction xs with
  | nil => intro s b N g c _ _ hp _ _ _; exact ⟨N t, hp⟩
  | cons x xs ih =>
    intro s b N g c h hrd hp hnew hub hstuck
    rw [Sys.exec] at hnew hub hstuck ⊢
    cases x with
    | evict a i =>
      obtain ⟨N', h'⟩ := ih (c := c) (free_evict h a i) hrd hp hnew hub hstuck
      refine ⟨N', ?_⟩
      rw [List.count_cons_of_ne (by simp)]
      exact h'
    | run u =>
      rcases free_step (hash := hash) (n := n) h u with ⟨h1, h2⟩ | ⟨b', N', g', h', hm⟩
      · exact absurd hnew (grown_exec xs h1 h2)
      · by_cases e : t = u
        · subst e
          have : ((s.step hash n (.run t)).thr t).reader ∧ Pace (freeBound L) m (c + 1) (returned t (s.step hash n (.run t)).hist) (N' t)
              ((s.step hash n (.run t)).thr t) := by
            cases hm with
            | none h1 h2 h3 h4 h5 =>
              rw [h2, h3, h5]
              rcases h1 with h1 | ⟨op, y, todo, h1⟩ | h1
              · rw [h1] at hp hrd ⊢
                exact ⟨hrd, hp.1, fun h => absurd rfl h⟩
              · have hf := h.thr t
                rw [h1] at hf hrd
                obtain ⟨-, -, hf⟩ := hf
                rcases hf with hf | hf
                · rw [hrd.1] at hf; cases hf
                · subst hf
                  exact absurd (halt_exec xs (halt_step h1 (.run t))) (hstuck op todo)
              · rw [ub_exec xs h1] at hub; cases hub
            | beg op todo h1 h2 h3 h4 h5 =>
              rw [h1] at hp hrd
              rw [h2, h3, h5]
              simp only [upd, if_true]
              have hr : returned t (s.hist ++ [.inv t op]) = returned t s.hist := by simp [returned]
              rw [hr]
              have a1 := hp.1
              have a2 := hp.2 (List.cons_ne_nil _ _)
              simp only [List.length_cons] at a1
              exact ⟨⟨hrd op List.mem_cons_self, fun o ho => hrd o (List.mem_cons_of_mem _ ho)⟩, by omega, le_refl _, by omega⟩
            | ret op x todo h1 h2 h3 h4 h5 =>
              rw [h1] at hp hrd
              rw [h2, h3, h5]
              simp only [upd, if_true]
              have hr : returned t (s.hist ++ [.res t op x]) = returned t s.hist + 1 := by simp [returned]
              rw [hr]
              obtain ⟨a1, a2, a3⟩ := hp
              refine ⟨hrd.2, by omega, fun _ => ?_⟩
              rw [Nat.add_mul]; omega
            | act op p p' todo h1 h2 h3 h4 h5 h6 =>
              rw [h1] at hp hrd
              rw [h2, h3, h6]
              simp only [upd, if_true]
              obtain ⟨a1, a2, a3⟩ := hp
              exact ⟨hrd, a1, by omega, by omega⟩
            | write op p p' todo h1 h2 h3 h4 h5 h6 h7 =>
              rw [h1] at hp hrd
              rw [h2, h3, h7]
              simp only [upd, if_true]
              obtain ⟨a1, a2, a3⟩ := hp
              exact ⟨hrd, a1, by omega, by omega⟩
          obtain ⟨N2, h2⟩ := ih h' this.1 this.2 hnew hub hstuck
          refine ⟨N2, ?_⟩
          rw [List.count_cons_self]
          rwa [Nat.add_assoc, Nat.add_comm 1] at h2
        · have hth := step_other (hash := hash) (n := n) (s := s) e
          have hp' : Pace (freeBound L) m c (returned t (s.step hash n (.run u)).hist) (N' t) ((s.step hash n (.run u)).thr t) := by
            rw [hth]
            have hNt : N' t = N t ∨ ∃ l, s.thr t = .idle l := by
              cases hs : s.thr t with
              | idle l => exact .inr ⟨l, rfl⟩
              | busy op p l =>
                rw [hs] at hrd
                left
                cases hm with
                | none h1 h2 h3 h4 h5 => rw [h5]
                | beg op todo h1 h2 h3 h4 h5 => rw [h5]; simp [upd, e]
                | ret op x todo h1 h2 h3 h4 h5 => rw [h5]
                | act op p p' todo h1 h2 h3 h4 h5 h6 => rw [h6]; simp [upd, e]
                | write op p p' todo h1 h2 h3 h4 h5 h6 h7 => rw [h7]; simp [e, hs, Thread.reads, hrd.1]
            have hret : returned t (s.step hash n (.run u)).hist = returned t s.hist := by
              cases hm with
              | none h1 h2 h3 h4 h5 => rw [h3]
              | beg op todo h1 h2 h3 h4 h5 => rw [h3]; simp [returned]
              | ret op x todo h1 h2 h3 h4 h5 => rw [h3]; simp [returned, Ne.symm e]
              | act op p p' todo h1 h2 h3 h4 h5 h6 => rw [h3]
              | write op p p' todo h1 h2 h3 h4 h5 h6 h7 => rw [h3]
            rw [hret]
            rcases hNt with h1 | ⟨l, h1⟩
            · rw [h1]; exact hp
            · rw [h1] at hp ⊢; exact hp
          obtain ⟨N2, h2⟩ := ih h' (by rw [hth]; exact hrd) hp' hnew hub hstuck
          refine ⟨N2, ?_⟩
          rw [List.count_cons_of_ne (by simp [Ne.symm e])]
          exact h2

end PMap
