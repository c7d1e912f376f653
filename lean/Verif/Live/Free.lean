import Verif.Live.Bound
import Verif.Par.Map

/-!
# Waiting only for writers, while the table does not grow (proof machinery)

`fwp` bounds the steps of a call by a budget that is filled up again whenever another thread writes a value, and allows a call one
write.
-/

namespace PMap

open Prog

variable {α β σ : Type} {r L B : Nat} {m m' : Mem} {rs b : Bool} {N : Nat}

/-- The current table `r` of length `L` has no successor, and none of its values is marked (no code of its own). -/
structure CalmMem (r L : Nat) (m : Mem) : Prop where
  root : m.root = r
  lt : r < m.next
  len : (m.tab r).len = L
  newT : (m.tab r).newT = none
  mig : ∀ i, i < L → isMig (m.word (.val r i)) = false

/-- Memory and the number of values written so far (no code of its own). -/
structure World where
  m : Mem
  g : Nat

/-- What other threads may do: without writing a value they can only remove dirty bits (no code of its own). -/
structure Drift (r L : Nat) (w w' : World) : Prop where
  le : w.g ≤ w'.g
  val : w.g = w'.g → ∀ i, i < L → w'.m.word (.val r i) = w.m.word (.val r i) ∨ w'.m.word (.val r i) = clean (w.m.word (.val r i))

theorem Drift.refl (w : World) : Drift r L w w := ⟨le_refl _, fun _ _ _ => .inl rfl⟩

theorem Drift.trans {w w1 w2 : World} (h : Drift r L w w1) (h' : Drift r L w1 w2) : Drift r L w w2 := by
  have a := h.le
  have c := h'.le
  refine ⟨by omega, fun e i hi => ?_⟩
  rcases h.val (by omega) i hi with h1 | h1 <;> rcases h'.val (by omega) i hi with h2 | h2 <;> rw [h2, h1]
  · exact .inl rfl
  · exact .inr rfl
  · exact .inr rfl
  · exact .inr (clean_clean _)

/-- The action writes a value (no code of its own): a successful CAS that leaves a dirty value. -/
def Act.writes : Act → Mem → Bool
  | .cas (.val t i) e n, m => isDirty n && (m.word (.val t i) == e)
  | _, _ => false

/-- The budget after others have been at work (no code of its own). -/
def refill (rs : Bool) (B N g g' : Nat) : Nat := if rs = true ∧ g ≠ g' then B else N

/-- Unless the table gets a successor: every step is within the budget `N`, which is filled up to `B` when others write a value
(if `rs`); only fuel stops it (unless `rs`); values are not marked; at most one value is written, and only if `b` (no code of its own). -/
def fwp (r L B : Nat) (rs : Bool) (Q : α → Bool → Nat → World → Prop) : Prog α → Bool → Nat → World → Prop
  | .ret a, b, N, w => Q a b N w
  | .halt h, _, _, _ => rs = true ∨ h = .fuel
  | .act a k, b, N, w => ∀ w1, CalmMem r L w1.m → Drift r L w w1 → ∀ x m2, a.exec w1.m = some (x, m2) →
      0 < refill rs B N w.g w1.g ∧ ((m2.tab r).newT ≠ none ∨
        (CalmMem r L m2 ∧ (a.writes w1.m = true → b = true) ∧ Drift r L w1 ⟨m2, w1.g + (a.writes w1.m).toNat⟩ ∧
          fwp r L B rs Q (k x) (b && !a.writes w1.m) (refill rs B N w.g w1.g - 1) ⟨m2, w1.g + (a.writes w1.m).toNat⟩))

theorem refill_self {g : Nat} : refill rs B N g g = N := by simp [refill]

theorem refill_le (h : N ≤ B) {g g' : Nat} : N ≤ refill rs B N g g' := by unfold refill; split <;> omega
theorem refill_le' (h : N ≤ B) {g g' : Nat} : refill rs B N g g' ≤ B := by unfold refill; split <;> omega
theorem refill_mono {N' : Nat} (h : N ≤ N') {g g' : Nat} : refill rs B N g g' ≤ refill rs B N' g g' := by
  unfold refill; split <;> omega

theorem fwp_conseq {Q Q' : α → Bool → Nat → World → Prop} (hQ : ∀ a b N N' w, Q a b N w → N ≤ N' → Q' a b N' w) {p : Prog α}
    {b : Bool} {N N' : Nat} {w : World} (h : fwp r L B rs Q p b N w) (hN : N ≤ N') : fwp r L B rs Q' p b N' w := by
  induction p generalizing b N N' w with
  | ret a => exact hQ _ _ _ _ _ h hN
  | halt y => exact h
  | act a k ih =>
    intro w1 h1 h2 x m2 h3
    obtain ⟨h4, h5⟩ := h w1 h1 h2 x m2 h3
    have := refill_mono (rs := rs) (B := B) hN (g := w.g) (g' := w1.g)
    refine ⟨by omega, ?_⟩
    rcases h5 with h5 | ⟨h5, h6, h7, h8⟩
    · exact .inl h5
    · exact .inr ⟨h5, h6, h7, ih x h8 (by omega)⟩

theorem fwp_post {Q Q' : α → Bool → Nat → World → Prop} (hQ : ∀ a b N w, Q a b N w → Q' a b N w) {p : Prog α}
    {b : Bool} {N : Nat} {w : World} (h : fwp r L B rs Q p b N w) : fwp r L B rs Q' p b N w := by
  induction p generalizing b N w with
  | ret a => exact hQ _ _ _ _ h
  | halt y => exact h
  | act a k ih =>
    intro w1 h1 h2 x m2 h3
    obtain ⟨h4, h5⟩ := h w1 h1 h2 x m2 h3
    refine ⟨h4, ?_⟩
    rcases h5 with h5 | ⟨h5, h6, h7, h8⟩
    · exact .inl h5
    · exact .inr ⟨h5, h6, h7, ih x h8⟩

theorem fwp_bind {Q : β → Bool → Nat → World → Prop} {p : Prog α} {f : α → Prog β} {b : Bool} {N : Nat} {w : World}
    (h : fwp r L B rs (fun a b N w => fwp r L B rs Q (f a) b N w) p b N w) : fwp r L B rs Q (p.bind f) b N w := by
  induction p generalizing b N w with
  | ret a => exact h
  | halt y => exact h
  | act a k ih =>
    intro w1 h1 h2 x m2 h3
    obtain ⟨h4, h5⟩ := h w1 h1 h2 x m2 h3
    refine ⟨h4, ?_⟩
    rcases h5 with h5 | ⟨h5, h6, h7, h8⟩
    · exact .inl h5
    · exact .inr ⟨h5, h6, h7, ih x h8⟩

theorem fwp_bind' {Q : β → Bool → Nat → World → Prop} {p : Prog α} {f : α → Prog β} {b : Bool} {N : Nat} {w : World}
    (h : fwp r L B rs (fun a b N w => fwp r L B rs Q (f a) b N w) p b N w) : fwp r L B rs Q (p >>= f) b N w := fwp_bind h

/-- Others at work. -/
theorem fwp_env {p : Prog α} {b : Bool} {N : Nat} {w w' : World} (h : fwp r L B rs (fun _ _ _ _ => True) p b N w)
    (he : Drift r L w w') : fwp r L B rs (fun _ _ _ _ => True) p b (refill rs B N w.g w'.g) w' := by
  cases p with
  | ret a => trivial
  | halt y => exact h
  | act a k =>
    intro w1 h1 h2 x m2 h3
    have := h w1 h1 (he.trans h2) x m2 h3
    have hr : refill rs B (refill rs B N w.g w'.g) w'.g w1.g = refill rs B N w.g w1.g := by
      have := he.le
      have := h2.le
      unfold refill
      by_cases h : rs = true
      · by_cases e1 : w'.g = w1.g
        · simp [h, e1]
        · have : w.g ≠ w1.g := by omega
          simp [h, e1, this]
      · simp [h]
    rw [hr]; exact this

/-! ## Actions that write no value -/

/-- Actions that write no value and publish nothing (no code of its own). -/
def Act.mild : Act → Prop
  | .cas (.val _ _) e n => n = clean e
  | .casNew _ _ => False
  | .casRoot _ _ => False
  | _ => True

/-- What a calm memory shows (no code of its own). -/
def Act.sees (r L : Nat) : (a : Act) → a.Resp → Prop
  | .load (.val t _), w => t = r → isMig w = false
  | .cas (.val t _) _ _, x => t = r → isMig x.2 = false
  | .len t, l => t = r → l = L
  | .getNew t, x => t = r → x = none
  | .getRoot, x => x = r
  | _, _ => True

theorem clean_not_writes {a : Act} (h : a.mild) : a.writes m = false := by
  cases a with
  | cas a e n =>
    cases a with
    | key t i => rfl
    | val t i =>
      cases h
      simp [Act.writes, isDirty_clean]
  | _ => rfl

theorem calm_tab {f : Tab → Tab} (h : CalmMem r L m) (h1 : ∀ x, (f x).len = x.len) (h2 : ∀ x, (f x).newT = x.newT) (t : Nat) :
    CalmMem r L { m with tab := upd m.tab t (f (m.tab t)) } := by
  refine ⟨h.root, h.lt, ?_, ?_, h.mig⟩
  · simp only [upd]; split
    · next e => rw [h1, ← e]; exact h.len
    · exact h.len
  · simp only [upd]; split
    · next e => rw [h2, ← e]; exact h.newT
    · exact h.newT

theorem mild_exec {a : Act} (h : CalmMem r L m) (ha : a.mild) {x : a.Resp} (he : a.exec m = some (x, m')) :
    CalmMem r L m' ∧ a.sees r L x ∧ ∀ i, i < L → m'.word (.val r i) = m.word (.val r i) ∨ m'.word (.val r i) = clean (m.word (.val r i)) := by
  have hsame : ∀ i, i < L → m.word (.val r i) = m.word (.val r i) ∨ m.word (.val r i) = clean (m.word (.val r i)) := fun _ _ => .inl rfl
  cases a with
  | load a =>
    simp only [Act.exec] at he
    split at he
    · next hx =>
      simp only [Option.some.injEq, Prod.mk.injEq] at he
      obtain ⟨rfl, rfl⟩ := he
      refine ⟨h, ?_, hsame⟩
      cases a with
      | key t i => trivial
      | val t i => rintro rfl; exact h.mig i (by have := hx.2; simp only [Addr.idx, Addr.tab] at this; rwa [h.len] at this)
    · cases he
  | cas a e n =>
    simp only [Act.exec] at he
    split at he
    · next hx =>
      split at he
      · next hw =>
        simp only [Option.some.injEq, Prod.mk.injEq] at he
        obtain ⟨rfl, rfl⟩ := he
        cases a with
        | key t i =>
          exact ⟨⟨h.root, h.lt, h.len, h.newT, fun j hj => by simpa [setWord] using h.mig j hj⟩, trivial, fun j hj => .inl (by simp [setWord])⟩
        | val t i =>
          have ha : n = clean e := ha
          subst ha
          have hi : ∀ j, j < L → setWord m.word (.val t i) (clean e) (.val r j) = m.word (.val r j) ∨
              setWord m.word (.val t i) (clean e) (.val r j) = clean (m.word (.val r j)) := by
            intro j hj
            simp only [setWord]
            split
            · next e' => rw [e', hw]; exact .inr rfl
            · exact .inl rfl
          refine ⟨⟨h.root, h.lt, h.len, h.newT, fun j hj => ?_⟩, ?_, hi⟩
          · change isMig (setWord m.word (.val t i) (clean e) (.val r j)) = false
            rcases hi j hj with e' | e' <;> rw [e']
            · exact h.mig j hj
            · rw [isMig_clean]; exact h.mig j hj
          · rintro rfl
            have := h.mig i (by have := hx.2; simp only [Addr.idx, Addr.tab] at this; rwa [h.len] at this)
            rwa [hw] at this
      · simp only [Option.some.injEq, Prod.mk.injEq] at he
        obtain ⟨rfl, rfl⟩ := he
        refine ⟨h, ?_, hsame⟩
        cases a with
        | key t i => trivial
        | val t i => rintro rfl; exact h.mig i (by have := hx.2; simp only [Addr.idx, Addr.tab] at this; rwa [h.len] at this)
    · cases he
  | flush a =>
    simp only [Act.exec] at he
    split at he
    · simp only [Option.some.injEq, Prod.mk.injEq] at he
      obtain ⟨-, rfl⟩ := he
      exact ⟨⟨h.root, h.lt, h.len, h.newT, h.mig⟩, trivial, hsame⟩
    · cases he
  | fence =>
    simp only [Act.exec, Option.some.injEq, Prod.mk.injEq] at he
    obtain ⟨-, rfl⟩ := he
    exact ⟨h, trivial, hsame⟩
  | len t =>
    simp only [Act.exec] at he
    split at he
    · simp only [Option.some.injEq, Prod.mk.injEq] at he
      obtain ⟨rfl, rfl⟩ := he
      exact ⟨h, fun e => by rw [e]; exact h.len, hsame⟩
    · cases he
  | getNew t =>
    simp only [Act.exec] at he
    split at he
    · simp only [Option.some.injEq, Prod.mk.injEq] at he
      obtain ⟨rfl, rfl⟩ := he
      exact ⟨h, fun e => by rw [e]; exact h.newT, hsame⟩
    · cases he
  | casNew t n => exact ha.elim
  | getRoot =>
    simp only [Act.exec, Option.some.injEq, Prod.mk.injEq] at he
    obtain ⟨rfl, rfl⟩ := he
    exact ⟨h, h.root, hsame⟩
  | casRoot o n => exact ha.elim
  | getSize t =>
    simp only [Act.exec] at he
    split at he
    · simp only [Option.some.injEq, Prod.mk.injEq] at he
      obtain ⟨-, rfl⟩ := he
      exact ⟨h, trivial, hsame⟩
    · cases he
  | addSize t d =>
    simp only [Act.exec] at he
    split at he
    · simp only [Option.some.injEq, Prod.mk.injEq] at he
      obtain ⟨-, rfl⟩ := he
      exact ⟨calm_tab (f := fun x => { x with size := x.size + d }) h (fun _ => rfl) (fun _ => rfl) t, trivial, hsame⟩
    · cases he
  | getSlots t =>
    simp only [Act.exec] at he
    split at he
    · simp only [Option.some.injEq, Prod.mk.injEq] at he
      obtain ⟨-, rfl⟩ := he
      exact ⟨h, trivial, hsame⟩
    · cases he
  | incSlots t =>
    simp only [Act.exec] at he
    split at he
    · simp only [Option.some.injEq, Prod.mk.injEq] at he
      obtain ⟨-, rfl⟩ := he
      exact ⟨calm_tab (f := fun x => { x with slots := x.slots + 1 }) h (fun _ => rfl) (fun _ => rfl) t, trivial, hsame⟩
    · cases he
  | getDone t =>
    simp only [Act.exec] at he
    split at he
    · simp only [Option.some.injEq, Prod.mk.injEq] at he
      obtain ⟨-, rfl⟩ := he
      exact ⟨h, trivial, hsame⟩
    · cases he
  | addDone t n =>
    simp only [Act.exec] at he
    split at he
    · simp only [Option.some.injEq, Prod.mk.injEq] at he
      obtain ⟨-, rfl⟩ := he
      exact ⟨calm_tab (f := fun x => { x with copyDone := x.copyDone + n }) h (fun _ => rfl) (fun _ => rfl) t, trivial, hsame⟩
    · cases he
  | getIdx t =>
    simp only [Act.exec] at he
    split at he
    · simp only [Option.some.injEq, Prod.mk.injEq] at he
      obtain ⟨-, rfl⟩ := he
      exact ⟨h, trivial, hsame⟩
    · cases he
  | casIdx t e n =>
    simp only [Act.exec] at he
    split at he
    · split at he
      · simp only [Option.some.injEq, Prod.mk.injEq] at he
        obtain ⟨-, rfl⟩ := he
        exact ⟨calm_tab (f := fun x => { x with copyIdx := n }) h (fun _ => rfl) (fun _ => rfl) t, trivial, hsame⟩
      · simp only [Option.some.injEq, Prod.mk.injEq] at he
        obtain ⟨-, rfl⟩ := he
        exact ⟨h, trivial, hsame⟩
    · cases he
  | alloc l sz =>
    simp only [Act.exec] at he
    split at he
    · simp only [Option.some.injEq, Prod.mk.injEq] at he
      obtain ⟨-, rfl⟩ := he
      have hlt := h.lt
      have hne : ¬ r = m.next := by omega
      refine ⟨⟨h.root, Nat.lt_succ_of_lt h.lt, ?_, ?_, ?_⟩, trivial, ?_⟩
      · simp only [upd, if_neg hne]; exact h.len
      · simp only [upd, if_neg hne]; exact h.newT
      · intro i hi; simp only [freshWords, if_neg hne]; exact h.mig i hi
      · intro i hi; simp only [freshWords, if_neg hne, true_or]
    · simp only [Option.some.injEq, Prod.mk.injEq] at he
      obtain ⟨-, rfl⟩ := he
      exact ⟨h, trivial, hsame⟩
  | check c =>
    simp only [Act.exec, Option.some.injEq, Prod.mk.injEq] at he
    obtain ⟨-, rfl⟩ := he
    exact ⟨⟨h.root, h.lt, h.len, h.newT, h.mig⟩, trivial, hsame⟩

/-! ## Programs that write no value -/

/-- In a calm memory: `p` makes at most `N` actions, all mild, and its result is in `R` (no code of its own). -/
def qbnd (r L : Nat) (R : α → Prop) : Prog α → Nat → Prop
  | .ret a, _ => R a
  | .halt h, _ => h = .fuel
  | .act a k, N => 0 < N ∧ a.mild ∧ ∀ x, a.sees r L x → qbnd r L R (k x) (N - 1)

theorem qbnd_mono {R : α → Prop} {p : Prog α} {N N' : Nat} (h : qbnd r L R p N) (hN : N ≤ N') : qbnd r L R p N' := by
  induction p generalizing N N' with
  | ret a => exact h
  | halt x => exact h
  | act a k ih => exact ⟨lt_of_lt_of_le h.1 hN, h.2.1, fun x hx => ih x (h.2.2 x hx) (by omega)⟩

theorem qbnd_weaken {R R' : α → Prop} {p : Prog α} {N : Nat} (h : qbnd r L R p N) (hR : ∀ a, R a → R' a) : qbnd r L R' p N := by
  induction p generalizing N with
  | ret a => exact hR a h
  | halt x => exact h
  | act a k ih => exact ⟨h.1, h.2.1, fun x hx => ih x (h.2.2 x hx)⟩

theorem qbnd_bind {R : α → Prop} {S : β → Prop} {p : Prog α} {f : α → Prog β} {N1 N2 N : Nat} (h : qbnd r L R p N1)
    (hf : ∀ a, R a → qbnd r L S (f a) N2) (hN : N1 + N2 ≤ N) : qbnd r L S (p.bind f) N := by
  induction p generalizing N1 N with
  | ret a => exact qbnd_mono (hf a h) (by omega)
  | halt x => exact h
  | act a k ih =>
    have h0 := h.1
    exact ⟨by omega, h.2.1, fun x hx => ih x (h.2.2 x hx) (by omega)⟩

theorem qbnd_bind' {R : α → Prop} {S : β → Prop} {p : Prog α} {f : α → Prog β} {N1 N2 N : Nat} (h : qbnd r L R p N1)
    (hf : ∀ a, R a → qbnd r L S (f a) N2) (hN : N1 + N2 ≤ N) : qbnd r L S (p >>= f) N := qbnd_bind h hf hN

theorem qbnd_do1 {a : Act} (h : a.mild) : qbnd r L (a.sees r L) (do1 a) 1 := ⟨Nat.one_pos, h, fun _ hx => hx⟩

theorem qbnd_loop {R : α → Prop} {body : σ → Prog (Ctl σ α)} {C : Nat} (μ : σ → Nat)
    (hb : ∀ x, qbnd r L (fun c => match c with | .next y => μ y < μ x | .done a => R a) (body x) C) (n : Nat) :
    ∀ x, qbnd r L R (loop n body x) ((μ x + 1) * C) := by
  induction n with
  | zero => intro x; rfl
  | succ n ih =>
    intro x
    refine qbnd_bind (N2 := μ x * C) (hb x) ?_ (by rw [Nat.add_mul, Nat.one_mul, Nat.add_comm])
    rintro (y | a) hy
    · change μ y < μ x at hy
      exact qbnd_mono (ih y) (Nat.mul_le_mul_right _ hy)
    · exact hy

/-- From `w` with budget `N` to `w'` with budget `N'`, taking at most `c` own steps (no code of its own). -/
structure Spent (r L B : Nat) (rs : Bool) (c N : Nat) (w : World) (N' : Nat) (w' : World) : Prop where
  drift : Drift r L w w'
  fill : refill rs B N w.g w'.g ≤ N' + c
  le : N' ≤ B

theorem Spent.zero (hB : N ≤ B) (w : World) : Spent r L B rs 0 N w N w := ⟨Drift.refl w, by rw [refill_self]; omega, hB⟩

theorem Spent.trans {c c' N N' N'' : Nat} {w w' w'' : World} (h : Spent r L B rs c N w N' w') (h' : Spent r L B rs c' N' w' N'' w'') 
    (hB : N ≤ B) : Spent r L B rs (c + c') N w N'' w'' := by
  refine ⟨h.drift.trans h'.drift, ?_, h'.le⟩
  have h1 := h.fill
  have h2 := h'.fill
  have h3 := h.drift.le
  have h4 := h'.drift.le
  unfold refill at *
  by_cases hr : rs = true
  · by_cases e2 : w'.g = w''.g
    · simp only [hr, e2, true_and, ne_eq, not_true_eq_false, if_false] at *; omega
    · simp only [hr, e2, true_and, ne_eq, not_false_eq_true, if_true] at h2
      split <;> omega
  · simp only [hr] at *; simp at *; omega

theorem Spent.atleast {c N N' : Nat} {w w' : World} (h : Spent r L B rs c N w N' w') (hB : N ≤ B) : N ≤ N' + c :=
  le_trans (refill_le hB) h.fill

theorem Spent.more {c c' N N' : Nat} {w w' : World} (h : Spent r L B rs c N w N' w') (hc : c ≤ c') : Spent r L B rs c' N w N' w' :=
  ⟨h.drift, le_trans h.fill (by omega), h.le⟩

/-- One mild action. -/
theorem fwp_act {Q : β → Bool → Nat → World → Prop} {a : Act} {f : a.Resp → Prog β} {w : World} (ha : a.mild)
    (hf : ∀ w1 x m2 N', CalmMem r L w1.m → Drift r L w w1 → a.exec w1.m = some (x, m2) → a.sees r L x → Drift r L w1 ⟨m2, w1.g⟩ →
      Spent r L B rs 1 N w N' ⟨m2, w1.g⟩ → fwp r L B rs Q (f x) b N' ⟨m2, w1.g⟩) (h1 : 0 < N) (hB : N ≤ B) :
    fwp r L B rs Q (do1 a >>= f) b N w := by
  intro w1 hc he x m2 hx
  have hr := refill_le (rs := rs) hB (g := w.g) (g' := w1.g)
  have hr' := refill_le' (rs := rs) hB (g := w.g) (g' := w1.g)
  obtain ⟨h2, h3, h4⟩ := mild_exec hc ha hx
  have hw := clean_not_writes (m := w1.m) ha
  have hd : Drift r L w1 ⟨m2, w1.g⟩ := ⟨le_refl _, fun _ => h4⟩
  refine ⟨by omega, .inr ⟨h2, by simp [hw], ?_, ?_⟩⟩
  · rw [hw]; exact hd
  · rw [hw]
    simp only [Bool.not_false, Bool.and_true, Bool.toNat_false, Nat.add_zero]
    refine hf w1 x m2 _ hc he hx h3 hd ⟨he.trans hd, ?_, by omega⟩
    simp only
    omega

/-- A program that writes no value takes its actions from the budget and lets the others work. -/
theorem fwp_q {R : α → Prop} {Q : β → Bool → Nat → World → Prop} {p : Prog α} {f : α → Prog β} {N1 N : Nat} {w : World}
    (h : qbnd r L R p N1) (hf : ∀ a w' N', R a → Spent r L B rs N1 N w N' w' → fwp r L B rs Q (f a) b N' w')
    (h1 : N1 ≤ N) (hB : N ≤ B) : fwp r L B rs Q (p.bind f) b N w := by
  induction p generalizing N1 N w with
  | ret a => exact hf a w N h ((Spent.zero hB w).more (by omega))
  | halt x => exact .inr h
  | act a k ih =>
    have h0 := h.1
    refine fwp_act h.2.1 (f := fun x => (k x).bind f) (fun w1 x m2 N' hc he hx hs hd hsp => ?_) (by omega) hB
    have := hsp.atleast hB
    refine ih x (h.2.2 x hs) (fun a w' N'' ha h' => hf a w' N'' ha ?_) (by omega) hsp.le
    exact (hsp.trans h' hB).more (by omega)

theorem fwp_q' {R : α → Prop} {Q : β → Bool → Nat → World → Prop} {p : Prog α} {f : α → Prog β} {N1 N : Nat} {w : World}
    (h : qbnd r L R p N1) (hf : ∀ a w' N', R a → Spent r L B rs N1 N w N' w' → fwp r L B rs Q (f a) b N' w')
    (h1 : N1 ≤ N) (hB : N ≤ B) : fwp r L B rs Q (p >>= f) b N w := fwp_q h hf h1 hB

end PMap
