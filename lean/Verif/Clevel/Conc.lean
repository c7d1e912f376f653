import Verif.Clevel.Seq

/-!
# Threads on one clevel table

Threads take turns, one atomic access at a time.
-/

namespace PMap.Clevel

open CP

/-- A memory and the threads that work on it: what each still has to do.  No code of its own. -/
structure Par : Type 1 where
  mem : CSt
  th : Nat → CP Bool

/-- How a run ends: it goes on, or the allocator threw in a thread, or the behaviour of an access of a thread was undefined, or an
assertion of a thread failed.  No code of its own. -/
inductive POut : Type 1 where
  | go (x : Par)
  | oom (i : Nat)
  | ub (i : Nat)
  | abort (i : Nat)

/-- One access of thread `i`.  No code of its own. -/
def Par.step (x : Par) (i : Nat) : POut := match x.th i with
  | .ret _ => .go x
  | .spin => .go x
  | .act f k => match f x.mem with
    | .ok b t => .go ⟨t, fun j => if j = i then k b else x.th j⟩
    | .oom => .oom i
    | .ub => .ub i
    | .abort => .abort i

/-- The threads take turns as the list says.  No code of its own. -/
def Par.run : List Nat → Par → POut
  | [], x => .go x
  | i :: is, x => match x.step i with
    | .go y => Par.run is y
    | .oom j => .oom j
    | .ub j => .ub j
    | .abort j => .abort j

/-! ### A thread that only reads, beside others -/

/-- The program only reads, whatever others do between its accesses, as long as they keep `RI` and each does only what `Rel` allows;
when it returns `a`, then `Q a t` for the memory `t` at its last access; its behaviour is undefined only if `B`.  No code of its own. -/
def rwp {α : Type} (B : Prop) (RI : CSt → Prop) (Rel : CSt → CSt → Prop) : CP α → (α → CSt → Prop) → CSt → Prop
  | .ret a, Q, s => Q a s
  | .spin, _, _ => True
  | .act f k, Q, s => ∀ t, RI t → Rel s t → match f t with
    | .ok b t' => t' = t ∧ rwp B RI Rel (k b) Q t
    | .ub => B
    | .oom => False
    | .abort => False

variable {B : Prop} {RI : CSt → Prop} {Rel : CSt → CSt → Prop} {α β : Type}

theorem rwp_bind' {g : α → CP β} {Q : β → CSt → Prop} : ∀ {q : CP α} {s : CSt},
    rwp B RI Rel q (fun a t => rwp B RI Rel (g a) Q t) s → rwp B RI Rel (q.bind g) Q s
  | .ret a, s, h => h
  | .spin, _, _ => trivial
  | .act f k, s, h => by
    intro t h1 h2
    have := h t h1 h2
    revert this
    cases f t with
    | ok b t' => exact fun h => ⟨h.1, rwp_bind' h.2⟩
    | oom => exact id
    | ub => exact id
    | abort => exact id

theorem rwp_bind {g : α → CP β} {Q : β → CSt → Prop} {q : CP α} {s : CSt}
    (h : rwp B RI Rel q (fun a t => rwp B RI Rel (g a) Q t) s) : rwp B RI Rel (q >>= g) Q s := rwp_bind' h

theorem rwp_mono {Q Q' : α → CSt → Prop} (hQ : ∀ a t, Q a t → Q' a t) : ∀ {q : CP α} {s : CSt},
    rwp B RI Rel q Q s → rwp B RI Rel q Q' s
  | .ret a, s, h => hQ a s h
  | .spin, _, _ => trivial
  | .act f k, s, h => by
    intro t h1 h2
    have := h t h1 h2
    revert this
    cases f t with
    | ok b t' => exact fun h => ⟨h.1, rwp_mono hQ h.2⟩
    | oom => exact id
    | ub => exact id
    | abort => exact id

theorem rwp_if {Q : α → CSt → Prop} {s : CSt} {c : Prop} [Decidable c] {a b : CP α} (h1 : c → rwp B RI Rel a Q s)
    (h2 : ¬ c → rwp B RI Rel b Q s) : rwp B RI Rel (if c then a else b) Q s := by
  split
  · exact h1 ‹_›
  · exact h2 ‹_›

/-- Others may do what they are allowed to. -/
theorem rwp_rel (tr : ∀ a b c, Rel a b → Rel b c → Rel a c) {Q : α → Prop} {s t : CSt} (hst : Rel s t) :
    ∀ {q : CP α}, rwp B RI Rel q (fun a _ => Q a) s → rwp B RI Rel q (fun a _ => Q a) t
  | .ret _, h => h
  | .spin, _ => trivial
  | .act _ _, h => fun u h1 h2 => h u h1 (tr _ _ _ hst h2)

/-! ### The only thread that writes -/

/-- Total correctness of the only program that writes; each of its accesses leaves the memory alone or does what `G` says.  No code
of its own. -/
def gcwp {α : Type} (G : CSt → CSt → Prop) : CP α → (α → CSt → Prop) → CSt → Prop
  | .ret a, Q, s => Q a s
  | .spin, _, _ => False
  | .act f k, Q, s => match f s with
    | .ok b t => (t = s ∨ G s t) ∧ gcwp G (k b) Q t
    | .oom => True
    | .ub => False
    | .abort => False

variable {G : CSt → CSt → Prop}

theorem gcwp_bind' {Q : β → CSt → Prop} {g : α → CP β} :
    ∀ {q : CP α} {s : CSt}, gcwp G (q.bind g) Q s ↔ gcwp G q (fun a t => gcwp G (g a) Q t) s
  | .ret a, s => Iff.rfl
  | .spin, _ => Iff.rfl
  | .act f k, s => by
    rw [CP.bind, gcwp, gcwp]
    cases hf : f s with
    | ok b t => exact and_congr_right fun _ => gcwp_bind'
    | oom => exact Iff.rfl
    | ub => exact Iff.rfl
    | abort => exact Iff.rfl

theorem gcwp_bind {Q : β → CSt → Prop} {g : α → CP β} {q : CP α} {s : CSt} :
    gcwp G (q >>= g) Q s ↔ gcwp G q (fun a t => gcwp G (g a) Q t) s := gcwp_bind'

theorem gcwp_pure {Q : α → CSt → Prop} {a : α} {s : CSt} : gcwp G (pure a) Q s ↔ Q a s := Iff.rfl

theorem gcwp_if {Q : α → CSt → Prop} {s : CSt} {c : Prop} [Decidable c] {a b : CP α} (h1 : c → gcwp G a Q s)
    (h2 : ¬ c → gcwp G b Q s) : gcwp G (if c then a else b) Q s := by
  split
  · exact h1 ‹_›
  · exact h2 ‹_›

/-! ### Together -/

/-- One thread writes, keeping `RI` and doing only what `Rel` allows; the others only read.  Then what holds of each alone holds. -/
theorem par_run (rf : ∀ a, Rel a a) (tr : ∀ a b c, Rel a b → Rel b c → Rel a c) (ans : Nat → Bool) :
    ∀ (sched : List Nat) (x : Par), RI x.mem → gcwp (fun s t => RI t ∧ Rel s t) (x.th 0) (fun _ _ => True) x.mem →
      (∀ i, i ≠ 0 → rwp B RI Rel (x.th i) (fun b _ => b = ans i) x.mem) →
      match x.run sched with
      | .go y => RI y.mem ∧ ∀ i, i ≠ 0 → ∀ b, y.th i = .ret b → b = ans i
      | .oom i => i = 0
      | .ub i => i ≠ 0 ∧ B
      | .abort _ => False
  | [], x, h0, _, h2 => ⟨h0, fun i hi b hb => by have := h2 i hi; rw [hb] at this; exact this⟩
  | i :: is, x, h0, h1, h2 => by
    have hstep : match x.step i with
      | .go y => RI y.mem ∧ gcwp (fun s t => RI t ∧ Rel s t) (y.th 0) (fun _ _ => True) y.mem ∧
          ∀ j, j ≠ 0 → rwp B RI Rel (y.th j) (fun b _ => b = ans j) y.mem
      | .oom i => i = 0
      | .ub i => i ≠ 0 ∧ B
      | .abort _ => False := by
      unfold Par.step
      cases hx : x.th i with
      | ret b => exact ⟨h0, h1, h2⟩
      | spin => exact ⟨h0, h1, h2⟩
      | act f k =>
        by_cases hi : i = 0
        · subst hi
          rw [hx, gcwp] at h1
          dsimp only
          revert h1
          cases f x.mem with
          | ok b t =>
            rintro ⟨hg, h1⟩
            have hR : RI t ∧ Rel x.mem t := by
              rcases hg with rfl | hg
              · exact ⟨h0, rf _⟩
              · exact hg
            refine ⟨hR.1, by simpa using h1, fun j hj => ?_⟩
            simp only [if_neg hj]
            exact rwp_rel tr hR.2 (h2 j hj)
          | oom => exact fun _ => rfl
          | ub => exact fun h => h.elim
          | abort => exact fun h => h.elim
        · have h2i := h2 i hi
          rw [hx] at h2i
          have h3 := h2i x.mem h0 (rf _)
          dsimp only
          revert h3
          cases f x.mem with
          | ok b t =>
            rintro ⟨rfl, h3⟩
            refine ⟨h0, ?_, fun j hj => ?_⟩
            · simp only [if_neg (Ne.symm hi)]
              exact h1
            · by_cases hji : j = i
              · subst hji
                simpa using h3
              · simp only [if_neg hji]
                exact h2 j hj
          | oom => exact fun h => h.elim
          | ub => exact fun h => ⟨hi, h⟩
          | abort => exact fun h => h.elim
    rw [Par.run]
    revert hstep
    cases x.step i with
    | go y => exact fun h => par_run rf tr ans is y h.1 h.2.1 h.2.2
    | oom i => exact id
    | ub i => exact id
    | abort i => exact id

end PMap.Clevel
