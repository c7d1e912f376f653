import Verif.Durable.Time
import Verif.Seq.Fuel
import Verif.Seq.Steps

/-!
# What a reader has seen stays in the file (proof machinery)

`twp F Q p xs`: if thread runs `p` from the point `xs` of the execution on, within the whole execution `F`, and returns `a` at the
point `ys`, then `Q a ys`.
-/

namespace PMap

open Prog

variable {hash : Word → Word} {n : Nat} {s : Sys} {F : List Sched} {α β σ : Type}

/-- See the head of this file. -/
def twp (hash : Word → Word) (n : Nat) (s : Sys) (F : List Sched) (Q : α → List Sched → Prop) : Prog α → List Sched → Prop
  | .ret a, xs => Q a xs
  | .halt _, _ => True
  | .act a k, xs => ∀ ys x r m', xs <+: ys → ys ++ [x] <+: F → a.exec (s.exec hash n ys).mem = some (r, m') →
      (s.exec hash n (ys ++ [x])).mem = m' → twp hash n s F Q (k r) (ys ++ [x])

theorem twp_mono {Q Q' : α → List Sched → Prop} {p : Prog α} {xs : List Sched} (h : twp hash n s F Q p xs)
    (hq : ∀ a ys, Q a ys → Q' a ys) : twp hash n s F Q' p xs := by
  induction p generalizing xs with
  | ret a => exact hq _ _ h
  | halt x => trivial
  | act a k ih => exact fun ys x r m' h1 h2 h3 h4 => ih r (h ys x r m' h1 h2 h3 h4)

theorem twp_bind {Q : β → List Sched → Prop} {p : Prog α} {f : α → Prog β} {xs : List Sched}
    (h : twp hash n s F (fun a ys => twp hash n s F Q (f a) ys) p xs) : twp hash n s F Q (p.bind f) xs := by
  induction p generalizing xs with
  | ret a => exact h
  | halt x => trivial
  | act a k ih => exact fun ys x r m' h1 h2 h3 h4 => ih r (h ys x r m' h1 h2 h3 h4)

theorem twp_bind' {Q : β → List Sched → Prop} {p : Prog α} {f : α → Prog β} {xs : List Sched}
    (h : twp hash n s F (fun a ys => twp hash n s F Q (f a) ys) p xs) : twp hash n s F Q (p >>= f) xs := twp_bind h

theorem twp_loop {body : σ → Prog (Ctl σ α)} {Q : α → List Sched → Prop} (I : σ → List Sched → Prop)
    (hb : ∀ x xs, I x xs → twp hash n s F (fun c ys => match c with | .next x' => I x' ys | .done a => Q a ys) (body x) xs)
    (k : Nat) : ∀ x xs, I x xs → twp hash n s F Q (loop k body x) xs := by
  induction k with
  | zero => intro x xs _; trivial
  | succ k ih =>
    intro x xs hI
    refine twp_bind (twp_mono (hb x xs hI) ?_)
    rintro (x' | a) ys h
    · exact ih x' ys h
    · exact h

theorem twp_pure {Q : α → List Sched → Prop} {a : α} {xs : List Sched} (h : Q a xs) : twp hash n s F Q (pure a) xs := h

theorem twp_do1 {a : Act} {Q : a.Resp → List Sched → Prop} {xs : List Sched}
    (h : ∀ ys x r m', xs <+: ys → ys ++ [x] <+: F → a.exec (s.exec hash n ys).mem = some (r, m') →
      (s.exec hash n (ys ++ [x])).mem = m' → Q r (ys ++ [x])) : twp hash n s F Q (do1 a) xs := h

/-- A word read at or after `x0`: it was in memory then, and the file holds what was in memory then or later. -/
def Seen (hash : Word → Word) (n : Nat) (s : Sys) (x0 : List Sched) (a : Addr) (w : Word) (xs : List Sched) : Prop :=
  ∃ ys zs, x0 <+: ys ∧ ys <+: zs ∧ zs <+: xs ∧ a.In (s.exec hash n ys).mem ∧ clean ((s.exec hash n ys).mem.word a) = w ∧
    clean ((s.exec hash n xs).mem.nv a) = clean ((s.exec hash n zs).mem.word a)

theorem Seen.snoc {x0 : List Sched} {a : Addr} {w : Word} {xs : List Sched} (h : Seen hash n s x0 a w xs) (x : Sched) :
    Seen hash n s x0 a w (xs ++ [x]) := by
  obtain ⟨ys, zs, h0, h1, h2, h3, h4, h5⟩ := h
  rcases step_nv (hash := hash) (n := n) (s.exec hash n xs) x a with h6 | h6
  · refine ⟨ys, zs, h0, h1, h2.trans (List.prefix_append ..), h3, h4, ?_⟩
    rw [exec_snoc, h6, h5]
  · exact ⟨ys, xs ++ [x], h0, (h1.trans h2).trans (List.prefix_append ..), List.prefix_refl _, h3, h4, by rw [exec_snoc, h6]⟩

theorem Seen.later {x0 : List Sched} {a : Addr} {w : Word} {xs ys : List Sched} (h : Seen hash n s x0 a w xs) (hp : xs <+: ys) :
    Seen hash n s x0 a w ys := by
  obtain ⟨l, rfl⟩ := hp
  induction l using List.reverseRecOn with
  | nil => rw [List.append_nil]; exact h
  | append_singleton l x ih => rw [← List.append_assoc]; exact ih.snoc x

/-- `pcas_read`: what it returns has been seen. -/
theorem twp_pcasRead {a : Addr} {xs : List Sched} (hd : ∀ ys, ys <+: F → Durable (s.exec hash n ys).mem a) :
    twp hash n s F (fun w ys => xs <+: ys ∧ ys <+: F ∧ Seen hash n s xs a w ys) (pcasRead a) xs := by
  refine twp_bind' (twp_do1 fun ys x r m' h1 h2 h3 h4 => ?_)
  simp only [Act.exec] at h3
  split at h3
  · next hin =>
    cases h3
    have hys : ys <+: F := (List.prefix_append ys [x]).trans h2
    split
    · refine twp_bind' (twp_bind' (twp_do1 fun zs y r m' g1 g2 g3 g4 => ?_))
      have hz : ys <+: zs ++ [y] := ((List.prefix_append ys [x]).trans g1).trans (List.prefix_append ..)
      have hseen : Seen hash n s xs a (clean ((s.exec hash n ys).mem.word a)) (zs ++ [y]) := by
        refine ⟨ys, zs ++ [y], h1, hz, List.prefix_refl _, hin, rfl, ?_⟩
        rw [g4]
        simp only [Act.exec] at g3
        split at g3
        · cases g3; simp [writeBack]
        · cases g3
      refine twp_bind' (twp_do1 fun zs' y' r m' k1 k2 k3 k4 => ?_)
      refine twp_bind' (twp_do1 fun zs'' y'' r m' l1 l2 l3 l4 => ?_)
      refine twp_pure (twp_pure ?_)
      have hz2 : zs ++ [y] <+: zs'' ++ [y''] :=
        ((k1.trans (List.prefix_append ..)).trans l1).trans (List.prefix_append ..)
      exact ⟨(h1.trans hz).trans hz2, l2, hseen.later hz2⟩
    · next hc =>
      refine twp_pure ⟨h1.trans (List.prefix_append ..), h2, Seen.snoc ⟨ys, ys, h1, List.prefix_refl _, List.prefix_refl _, hin, rfl, ?_⟩ x⟩
      rw [Bool.not_eq_true] at hc
      rw [hd ys hys hc, clean_of_not_dirty hc]
  · cases h3

end PMap
