import Verif.Conc

/-!
# Reasoning about one thread among others (proof machinery)

A rely/guarantee logic.  `wp G Q p m`: started in `m`, with other threads changing the memory between any two actions in
any way allowed by `G.env`, program `p` never meets undefined behaviour, each of its actions keeps `G.inv` and is a
`G.step`, and if it returns `a` then `Q a` holds of the memory right after its last action.  Unless `G.may` holds of the memory, an
assertion of `p` that does not hold is the one before an addition to the counter of migrated slots.
-/

namespace PMap

open Prog

/-- An invariant of the memory, what may happen in any number of steps, and what may happen in one action. -/
structure RG where
  inv : Mem → Prop
  env : Mem → Mem → Prop
  step : Mem → Mem → Prop
  refl : ∀ m, env m m
  trans : ∀ {a b c}, env a b → env b c → env a c
  step_refl : ∀ m, step m m
  step_env : ∀ {a b}, step a b → env a b
  /-- nothing is asked of the assertions -/
  may : Mem → Prop

variable {G : RG} {α β σ : Type}

/-- The action is an assertion that does not hold. -/
def Act.fails : Act → Bool
  | .check b => !b
  | _ => false

/-- The counter of migrated slots of some table that has a successor, with `w` more, is beyond the length of the table, and
`w` is what the program adds next (or `w` is zero). -/
def Counting (p : Prog α) (m : Mem) : Prop := ∃ t w, t < m.next ∧ (m.tab t).newT ≠ none ∧ (m.tab t).len < (m.tab t).copyDone + w ∧
  (w = 0 ∨ ∃ k, p = .act (.addDone t w) k)

theorem Counting.bind {p : Prog α} {m : Mem} (h : Counting p m) (f : α → Prog β) : Counting (p.bind f) m := by
  obtain ⟨t, w, h1, h0, h2, h3⟩ := h
  refine ⟨t, w, h1, h0, h2, h3.imp_right ?_⟩
  rintro ⟨k, rfl⟩
  exact ⟨_, rfl⟩

/-- See the head of this file. -/
def wp (G : RG) (Q : α → Mem → Prop) : Prog α → Mem → Prop
  | .ret a, m => Q a m
  | .halt h, _ => h ≠ .ub
  | .act a k, m => ∀ m1, G.env m m1 → G.inv m1 →
      ∃ r m2, a.exec m1 = some (r, m2) ∧ G.inv m2 ∧ G.step m1 m2 ∧ (a.fails = true → G.may m2 ∨ Counting (k r) m2) ∧
        wp G Q (k r) m2

theorem wp_ret {Q : α → Mem → Prop} {a : α} {m : Mem} (h : Q a m) : wp G Q (.ret a) m := h
theorem wp_pure {Q : α → Mem → Prop} {a : α} {m : Mem} (h : Q a m) : wp G Q (pure a) m := h
theorem wp_fuel {Q : α → Mem → Prop} {m : Mem} : wp G Q (.halt .fuel) m := by rw [wp]; decide
theorem wp_threw {Q : α → Mem → Prop} {m : Mem} : wp G Q (.halt .threw) m := by rw [wp]; decide

theorem wp_mono {Q Q' : α → Mem → Prop} {p : Prog α} {m : Mem} (h : wp G Q p m) (hq : ∀ a m', Q a m' → Q' a m') :
    wp G Q' p m := by
  induction p generalizing m with
  | ret a => exact hq _ _ h
  | halt x => rw [wp] at h ⊢; exact h
  | act a k ih =>
    rw [wp] at h ⊢
    intro m1 h1 h2
    obtain ⟨r, m2, e, h3, h4, hf, h5⟩ := h m1 h1 h2
    exact ⟨r, m2, e, h3, h4, hf, ih r h5⟩

theorem wp_bind {Q : β → Mem → Prop} {p : Prog α} {f : α → Prog β} {m : Mem}
    (h : wp G (fun a m' => wp G Q (f a) m') p m) : wp G Q (p.bind f) m := by
  induction p generalizing m with
  | ret a => exact h
  | halt x => rw [wp] at h; rw [Prog.bind, wp]; exact h
  | act a k ih =>
    rw [Prog.bind, wp]
    rw [wp] at h
    intro m1 h1 h2
    obtain ⟨r, m2, e, h3, h4, hf, h5⟩ := h m1 h1 h2
    exact ⟨r, m2, e, h3, h4, fun e => (hf e).imp_right fun h => h.bind f, ih r h5⟩

theorem wp_bind' {Q : β → Mem → Prop} {p : Prog α} {f : α → Prog β} {m : Mem}
    (h : wp G (fun a m' => wp G Q (f a) m') p m) : wp G Q (p >>= f) m := wp_bind h

/-- What a thread knows is not lost when others act. -/
theorem wp_env {Q : α → Mem → Prop} (hQ : ∀ a m m', G.env m m' → Q a m → Q a m') {p : Prog α} {m m' : Mem}
    (h : wp G Q p m) (he : G.env m m') : wp G Q p m' := by
  cases p with
  | ret a => exact hQ _ _ _ he h
  | halt x => rw [wp] at h ⊢; exact h
  | act a k =>
    rw [wp] at h ⊢
    exact fun m1 h1 h2 => h m1 (G.trans he h1) h2

theorem wp_loop {body : σ → Prog (Ctl σ α)} {Q : α → Mem → Prop} (I : σ → Mem → Prop)
    (hb : ∀ x m, I x m → wp G (fun c m' => match c with | .next x' => I x' m' | .done a => Q a m') (body x) m)
    (n : Nat) : ∀ x m, I x m → wp G Q (loop n body x) m := by
  induction n with
  | zero => intro x m _; exact wp_fuel
  | succ n ih =>
    intro x m hI
    refine wp_bind (wp_mono (hb x m hI) ?_)
    rintro (x' | a) m' h
    · exact ih x' m' h
    · exact h

/-- An action that only looks. -/
theorem wp_read {a : Act} {Q : a.Resp → Mem → Prop} {m : Mem}
    (h : ∀ m1, G.env m m1 → G.inv m1 → ∃ r, a.exec m1 = some (r, m1) ∧ Q r m1) (hf : a.fails = false := by rfl) :
    wp G Q (do1 a) m := by
  rw [do1, wp]
  intro m1 h1 h2
  obtain ⟨r, e, hq⟩ := h m1 h1 h2
  exact ⟨r, m1, e, h2, G.step_refl _, fun e => (by rw [hf] at e; cases e), hq⟩

theorem wp_write {a : Act} {Q : a.Resp → Mem → Prop} {m : Mem}
    (h : ∀ m1, G.env m m1 → G.inv m1 → ∃ r m2, a.exec m1 = some (r, m2) ∧ G.inv m2 ∧ G.step m1 m2 ∧ Q r m2)
    (hf : a.fails = true → ∀ m, G.may m := by exact fun h => by cases h) : wp G Q (do1 a) m := by
  rw [do1, wp]
  intro m1 h1 h2
  obtain ⟨r, m2, e, h3, h4, h5⟩ := h m1 h1 h2
  exact ⟨r, m2, e, h3, h4, fun e => .inl (hf e _), h5⟩

/-! ## The whole system -/

/-- A step of the system only adds to the history, at most one event. -/
theorem step_hist (hash : Word → Word) (n : Nat) (s : Sys) (x : Sched) :
    (s.step hash n x).hist = s.hist ∨ ∃ e, (s.step hash n x).hist = s.hist ++ [e] := by
  cases x with
  | evict t i => exact .inl rfl
  | run tid =>
    rw [Sys.step]
    split
    · exact .inl rfl
    · exact .inr ⟨_, rfl⟩
    · exact .inl rfl
    · exact .inl rfl
    · exact .inr ⟨_, rfl⟩
    · split <;> exact .inl rfl

theorem exec_hist (hash : Word → Word) (n : Nat) (xs : List Sched) : ∀ s : Sys, ∃ h, (s.exec hash n xs).hist = s.hist ++ h := by
  induction xs with
  | nil => intro s; exact ⟨[], by simp [Sys.exec]⟩
  | cons x xs ih =>
    intro s
    obtain ⟨h, e⟩ := ih (s.step hash n x)
    rcases step_hist hash n s x with h1 | ⟨a, h1⟩
    · exact ⟨h, by rw [Sys.exec, e, h1]⟩
    · exact ⟨a :: h, by rw [Sys.exec, e, h1, List.append_assoc]; rfl⟩

theorem exec_append (hash : Word → Word) (n : Nat) (xs ys : List Sched) : ∀ s : Sys,
    s.exec hash n (xs ++ ys) = (s.exec hash n xs).exec hash n ys := by
  induction xs with
  | nil => intro s; rfl
  | cons x xs ih => intro s; exact ih _

/-- Every prefix of the history is the history of a prefix of the schedule. -/
theorem hist_prefix (hash : Word → Word) (n : Nat) (xs : List Sched) : ∀ (s : Sys) (h1 h2 : List Event),
    (s.exec hash n xs).hist = h1 ++ h2 → s.hist.length ≤ h1.length →
    ∃ ys zs, xs = ys ++ zs ∧ (s.exec hash n ys).hist = h1 := by
  induction xs with
  | nil =>
    intro s h1 h2 he hl
    refine ⟨[], [], rfl, ?_⟩
    have he : s.hist = h1 ++ h2 := he
    have : h2 = [] := by
      have := congrArg List.length he
      rw [List.length_append] at this
      exact List.length_eq_zero_iff.mp (by omega)
    rw [Sys.exec, he, this, List.append_nil]
  | cons x xs ih =>
    intro s h1 h2 he hl
    obtain ⟨h, e⟩ := exec_hist hash n (x :: xs) s
    by_cases hlt : s.hist.length = h1.length
    · refine ⟨[], x :: xs, rfl, ?_⟩
      exact (List.append_inj (e.symm.trans he) hlt).1
    · have hs : (s.step hash n x).hist.length ≤ h1.length := by
        rcases step_hist hash n s x with h3 | ⟨a, h3⟩ <;> rw [h3]
        · exact hl
        · rw [List.length_append, List.length_singleton]; omega
      obtain ⟨ys, zs, h3, h4⟩ := ih (s.step hash n x) h1 h2 he hs
      exact ⟨x :: ys, zs, by rw [h3]; rfl, h4⟩

/-- Invariant of the system: every thread is in a state described by `wp`. -/
structure SysOK (G : RG) (Post : Op → Res → Prop) (s : Sys) : Prop where
  inv : G.inv s.mem
  noub : s.ub = false
  thr : ∀ t, match s.thr t with
    | .idle _ => True
    | .busy op p _ => wp G (fun r _ => Post op r) p s.mem
  hist : ∀ t op r, .res t op r ∈ s.hist → Post op r

/-- The scheduler's write-backs are harmless. -/
def EvictOK (G : RG) : Prop := ∀ m t i, G.inv m → G.inv { m with nv := writeBack m t i } ∧
  G.step m { m with nv := writeBack m t i }

variable {hash : Word → Word} {n : Nat} {Ok : Op → Prop} {Post : Op → Res → Prop}

theorem SysOK.env {s : Sys} (h : SysOK G Post s) {m' : Mem} (he : G.env s.mem m') (t : Nat) :
    match s.thr t with
    | .idle _ => True
    | .busy op p _ => wp G (fun r _ => Post op r) p m' := by
  have h1 := h.thr t
  cases hs : s.thr t with
  | idle todo => trivial
  | busy op p todo =>
    rw [hs] at h1
    exact wp_env (fun _ _ _ _ h => h) h1 he

/-- One step of the system keeps the invariant and is a `step` of the logic. -/
theorem SysOK.step {s : Sys} (h : SysOK G Post s) (hev : EvictOK G)
    (hop : ∀ op m, Ok op → G.inv m → wp G (fun r _ => Post op r) (op.prog hash n) m) (x : Sched)
    (hok : ∀ t op, .inv t op ∈ (s.step hash n x).hist → Ok op) :
    SysOK G Post (s.step hash n x) ∧ G.step s.mem (s.step hash n x).mem := by
  cases x with
  | evict t i =>
    obtain ⟨h1, h2⟩ := hev s.mem t i h.inv
    exact ⟨⟨h1, h.noub, fun t => h.env (G.step_env h2) t, h.hist⟩, h2⟩
  | run tid =>
    have ht := h.thr tid
    rw [Sys.step] at hok ⊢
    cases hs : s.thr tid with
    | idle todo =>
      rw [hs] at ht hok
      cases todo with
      | nil => exact ⟨h, G.step_refl _⟩
      | cons op todo =>
        refine ⟨⟨h.inv, h.noub, fun t => ?_, ?_⟩, G.step_refl _⟩
        · by_cases e : t = tid
          · simp only [upd, e, if_true]
            exact hop op _ (hok tid op (by simp)) h.inv
          · simp only [upd, if_neg e]; exact h.thr t
        · intro t op' r hm
          rcases List.mem_append.mp hm with hm | hm
          · exact h.hist t op' r hm
          · simp at hm
    | busy op p todo =>
      rw [hs] at ht
      replace ht : wp G (fun r _ => Post op r) p s.mem := ht
      cases p with
      | halt x =>
        rw [wp] at ht
        cases x with
        | ub => exact absurd rfl ht
        | threw => exact ⟨h, G.step_refl _⟩
        | fuel => exact ⟨h, G.step_refl _⟩
      | ret r =>
        refine ⟨⟨h.inv, h.noub, fun t => ?_, ?_⟩, G.step_refl _⟩
        · by_cases e : t = tid
          · simp only [upd, e, if_true]
          · simp only [upd, if_neg e]; exact h.thr t
        · intro t op' r' hm
          rcases List.mem_append.mp hm with hm | hm
          · exact h.hist t op' r' hm
          · simp only [List.mem_cons, List.not_mem_nil, or_false, Event.res.injEq] at hm
            obtain ⟨-, rfl, rfl⟩ := hm
            exact ht
      | act a k =>
        rw [wp] at ht
        obtain ⟨r, m2, he, h4, h5, _, h6⟩ := ht s.mem (G.refl _) h.inv
        simp only [he]
        refine ⟨⟨h4, h.noub, fun t => ?_, h.hist⟩, h5⟩
        by_cases e : t = tid
        · simp only [upd, e, if_true]; exact h6
        · simp only [upd, if_neg e]; exact h.env (G.step_env h5) t

theorem SysOK.exec {s : Sys} (h : SysOK G Post s) (hev : EvictOK G)
    (hop : ∀ op m, Ok op → G.inv m → wp G (fun r _ => Post op r) (op.prog hash n) m) (xs : List Sched)
    (hok : ∀ t op, .inv t op ∈ (s.exec hash n xs).hist → Ok op) :
    SysOK G Post (s.exec hash n xs) ∧ G.env s.mem (s.exec hash n xs).mem := by
  induction xs generalizing s with
  | nil => exact ⟨h, G.refl _⟩
  | cons x xs ih =>
    have hs : ∀ t op, .inv t op ∈ (s.step hash n x).hist → Ok op := by
      intro t op hm
      obtain ⟨h', e⟩ := exec_hist hash n xs (s.step hash n x)
      exact hok t op (by rw [Sys.exec, e]; exact List.mem_append_left _ hm)
    obtain ⟨h1, h2⟩ := h.step hev hop x hs
    obtain ⟨h3, h4⟩ := ih h1 hok
    exact ⟨h3, G.trans (G.step_env h2) h4⟩

end PMap
