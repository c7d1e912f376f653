import Verif.Par.Path
import Verif.Props.Bits
import Verif.Live.Sys

/-!
# A get that meets its key (proof machinery)

A logic that only knows that every memory in which the thread acts is one of the memories `Z` of the execution.
-/

namespace PMap

open Prog

variable {A : Word → Word → Prop} {hash : Word → Word} {Z : Mem → Prop} {α β σ : Type}

/-- `Q` holds of what `p` returns if every action of `p` is taken in a memory of `Z`. -/
def zwp (Z : Mem → Prop) (Q : α → Prop) : Prog α → Prop
  | .ret a => Q a
  | .halt _ => True
  | .act a k => ∀ m r m', Z m → a.exec m = some (r, m') → zwp Z Q (k r)

theorem z_any {p : Prog α} : zwp Z (fun _ => True) p := by
  induction p with
  | ret a => trivial
  | halt x => trivial
  | act a k ih => exact fun m r m' _ _ => ih r

theorem z_bind {P : α → Prop} {Q : β → Prop} {p : Prog α} {f : α → Prog β} (h : zwp Z P p) (hf : ∀ a, P a → zwp Z Q (f a)) :
    zwp Z Q (p >>= f) := by
  change zwp Z Q (p.bind f)
  induction p with
  | ret a => exact hf a h
  | halt x => trivial
  | act a k ih => exact fun m r m' hz he => ih r (h m r m' hz he)

theorem z_pure {Q : α → Prop} {a : α} (h : Q a) : zwp Z Q (pure a) := h

theorem z_do1 {a : Act} {Q : a.Resp → Prop} (h : ∀ m r m', Z m → a.exec m = some (r, m') → Q r) : zwp Z Q (do1 a) :=
  fun m r m' hz he => h m r m' hz he

theorem z_read (a : Addr) : zwp Z (fun w => ∃ m, Z m ∧ w = clean (m.word a)) (pcasRead a) := by
  refine z_bind (P := fun w => ∃ m, Z m ∧ w = m.word a) (z_do1 fun m r m' hz he => ?_) ?_
  · simp only [Act.exec] at he
    split at he
    · cases he; exact ⟨m, hz, rfl⟩
    · cases he
  · rintro w ⟨m, hz, rfl⟩
    split
    · exact z_bind z_any fun _ _ => z_pure ⟨m, hz, rfl⟩
    · exact z_pure ⟨m, hz, rfl⟩

/-- What the memories of `Z` have in common: `R` is the current table and has no successor, its length is `l`, and the
probe path of `k` holds other keys for `d` steps, then `k`. -/
structure Path (A : Word → Word → Prop) (hash : Word → Word) (Z : Mem → Prop) (R l d : Nat) (k : Word) : Prop where
  inv : ∀ m, Z m → PInv A m
  root : ∀ m, Z m → m.root = R
  none : ∀ m, Z m → (m.tab R).newT = none
  len : ∀ m, Z m → (m.tab R).len = l
  here : ∀ m, Z m → pk m R (probeAt hash k l d) = k
  other : ∀ m, Z m → ∀ e, e < d → pk m R (probeAt hash k l e) ≠ KINITIAL ∧ pk m R (probeAt hash k l e) ≠ k ∧
    pk m R (probeAt hash k l e) ≠ KTOMBSTONE
  limit : d < reprobeLimit l
  pow : ∃ p, p ≤ 32 ∧ l = 2 ^ p
  key : k ≠ KINITIAL

/-- `get` answers with what the slot held at some time. -/
def Sees (Z : Mem → Prop) (R i : Nat) (v : Word) : Prop :=
  ∃ m, Z m ∧ v = if pv m R i = VTOMBSTONE then VINITIAL else pv m R i

variable {R l d : Nat} {k : Word}

theorem z_getProbe (h : Path A hash Z R l d k) (n : Nat) : ∀ c, c ≤ d →
    zwp Z (fun p => ∃ v, p = .returned v ∧ Sees Z R (probeAt hash k l d) v) (loop n (getProbeBody R k l) (probeAt hash k l c, c)) := by
  induction n with
  | zero => intro c _; trivial
  | succ n ih =>
    intro c hc
    have hlt : ∀ m, Z m → Has m R (probeAt hash k l d) := by
      intro m hz
      have hr : R < m.next := by rw [← h.root m hz]; exact (h.inv m hz).root
      refine ⟨hr, ?_⟩
      have := probeAt_lt (hash := hash) (h.inv m hz) hr k d
      rwa [h.len m hz] at this ⊢
    refine z_bind (P := fun x => (c < d ∧ x = .next (probeAt hash k l (c + 1), c + 1)) ∨
      ∃ v, x = .done (.returned v) ∧ Sees Z R (probeAt hash k l d) v) ?_ ?_
    · refine z_bind (z_read _) ?_
      rintro K ⟨m1, z1, hK⟩
      refine z_bind (z_read _) ?_
      rintro V ⟨m2, z2, hV⟩
      have hK' : K = pk m1 R (probeAt hash k l c) := hK
      rcases Nat.lt_or_eq_of_le hc with hlt' | rfl
      · obtain ⟨h1, h2, h3⟩ := h.other m1 z1 c hlt'
        rw [← hK'] at h1 h2 h3
        rw [if_neg h1]
        refine z_bind z_any fun o _ => ?_
        have hl := h.limit
        rw [if_neg h2, if_neg (by rintro (h4 | h4) <;> [(have : c + 1 ≤ d := hlt'; simp only at h4; omega); exact h3 h4])]
        exact z_pure (.inl ⟨hlt', rfl⟩)
      · have hk := h.here m1 z1
        rw [← hK'] at hk
        have hmig : isMig V = false := by
          by_contra hc
          have := (h.inv m2 z2).mig R _ (hlt m2 z2) (by rw [hV, Bool.not_eq_false] at hc; exact hc)
          exact this (h.none m2 z2)
        rw [if_neg (by rw [hk]; exact h.key)]
        refine z_bind z_any fun o _ => ?_
        rw [if_pos hk, hmig]
        exact z_pure (.inr ⟨_, rfl, m2, z2, by rw [hV]; rfl⟩)
    · rintro x (⟨h1, rfl⟩ | ⟨v, rfl, hv⟩)
      · exact ih (c + 1) h1
      · exact z_pure ⟨v, rfl, hv⟩

theorem z_get (h : Path A hash Z R l d k) (n : Nat) :
    zwp Z (Sees Z R (probeAt hash k l d)) (mapGet hash n k) := by
  unfold mapGet
  refine z_bind (P := fun (r : Nat) => r = R) (z_do1 fun m r m' hz he => ?_) ?_
  · simp only [Act.exec, Option.some.injEq, Prod.mk.injEq] at he
    rw [← he.1, h.root m hz]
  · rintro r rfl
    refine z_bind (P := Sees Z r (probeAt hash k l d)) ?_ fun v hv => z_bind z_any fun _ _ => z_pure hv
    cases n with
    | zero => trivial
    | succ n =>
      unfold getImpl
      refine z_bind (P := fun (x : Nat) => x = l) (z_do1 fun m x m' hz he => ?_) ?_
      · simp only [Act.exec] at he
        split at he
        · simp only [Option.some.injEq, Prod.mk.injEq] at he
          rw [← he.1, h.len m hz]
        · cases he
      · rintro x rfl
        have hh : homeGet hash k x = probeAt hash k x 0 := by
          obtain ⟨p, hp, rfl⟩ := h.pow
          rw [(c04_same_home_slot hash k p hp).1, probeAt, (c04_same_home_slot hash k p hp).2]
        rw [hh]
        refine z_bind (z_getProbe h n 0 (Nat.zero_le _)) ?_
        rintro pr ⟨v, rfl, hv⟩
        exact z_pure hv

/-! ## One call of one thread in an execution -/

/-- The thread is at the call `op` (not begun, or under way), or past it. -/
def AtCall (Z : Mem → Prop) (Q : Res → Prop) (op : Op) (todo : List Op) : Thread → Prop
  | .idle l => l = op :: todo ∨ l.length ≤ todo.length
  | .busy o p l => (o = op ∧ l = todo ∧ zwp Z Q p) ∨ l.length < todo.length

theorem atCall_exec {n : Nat} {op : Op} {todo : List Op} {Q : Res → Prop} {t : Nat} (hq : zwp Z Q (op.prog hash n)) :
    ∀ (ys : List Sched) (s : Sys), AtCall Z Q op todo (s.thr t) →
      (∀ zs ws, ys = zs ++ ws → Z (s.exec hash n zs).mem) → AtCall Z Q op todo ((s.exec hash n ys).thr t) := by
  intro ys
  induction ys with
  | nil => intro s h _; exact h
  | cons x ys ih =>
    intro s h hz
    have hz0 : Z s.mem := hz [] _ rfl
    refine ih (s.step hash n x) ?_ fun zs ws e => by
      have := hz (x :: zs) ws (by rw [e]; rfl)
      exact this
    cases x with
    | evict _ _ => exact h
    | run u =>
      by_cases e : t = u
      · subst e
        simp only [Sys.step]
        cases hs : s.thr t with
        | idle l =>
          rw [hs] at h
          cases l with
          | nil => simp only [hs]; exact h
          | cons o l =>
            simp only [upd, if_true]
            rcases h with h | h
            · cases h; exact .inl ⟨rfl, rfl, hq⟩
            · exact .inr h
        | busy o p l =>
          rw [hs] at h
          cases p with
          | halt x => cases x <;> · simp only [hs]; exact h
          | ret r =>
            simp only [upd, if_true]
            rcases h with ⟨_, rfl, _⟩ | h
            · exact .inr (Nat.le_refl _)
            · exact .inr (Nat.le_of_lt h)
          | act a k =>
            simp only
            cases he : a.exec s.mem with
            | none => simp only [hs]; exact h
            | some y =>
              obtain ⟨r, m'⟩ := y
              simp only [upd, if_true]
              rcases h with ⟨h1, h2, h3⟩ | h
              · exact .inl ⟨h1, h2, h3 _ _ _ hz0 he⟩
              · exact .inr h
      · rw [step_other e]; exact h

end PMap
