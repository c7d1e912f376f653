import Verif.Own.Ops

/-!
# Programs that end within a number of their own steps (proof machinery)

`limit p N` is `p`, except that it counts as undefined behaviour to take more than `N` steps or to halt.  A logic that excludes
undefined behaviour, applied to `limit p N`, therefore bounds the steps of `p`.
-/

namespace PMap

open Prog

variable {α β σ : Type}

/-- `p`, with more than `N` actions, or a halt, counted as undefined behaviour (no code of its own). -/
def limit : Prog α → Nat → Prog α
  | .ret a, _ => .ret a
  | .halt _, _ => .halt .ub
  | .act _ _, 0 => .halt .ub
  | .act a k, N + 1 => .act a fun r => limit (k r) N

/-- Whatever the actions respond, `p` ends after at most `N` of them, with a result in `R` (no code of its own). -/
def bnd (R : α → Prop) : Prog α → Nat → Prop
  | .ret a, _ => R a
  | .halt _, _ => False
  | .act _ k, N => 0 < N ∧ ∀ r, bnd R (k r) (N - 1)

theorem bnd_mono {R : α → Prop} {p : Prog α} {N N' : Nat} (h : bnd R p N) (hN : N ≤ N') : bnd R p N' := by
  induction p generalizing N N' with
  | ret a => exact h
  | halt x => exact h
  | act a k ih => exact ⟨lt_of_lt_of_le h.1 hN, fun r => ih r (h.2 r) (by omega)⟩

theorem bnd_weaken {R R' : α → Prop} {p : Prog α} {N : Nat} (h : bnd R p N) (hR : ∀ a, R a → R' a) : bnd R' p N := by
  induction p generalizing N with
  | ret a => exact hR a h
  | halt x => exact h
  | act a k ih => exact ⟨h.1, fun r => ih r (h.2 r)⟩

theorem bnd_bind {R : α → Prop} {S : β → Prop} {p : Prog α} {f : α → Prog β} {N1 N2 N : Nat} (h : bnd R p N1)
    (hf : ∀ a, R a → bnd S (f a) N2) (hN : N1 + N2 ≤ N) : bnd S (p.bind f) N := by
  induction p generalizing N1 N with
  | ret a => exact bnd_mono (hf a h) (by omega)
  | halt x => exact h
  | act a k ih =>
    have h0 := h.1
    exact ⟨by omega, fun r => ih r (h.2 r) (by omega)⟩

theorem bnd_bind' {R : α → Prop} {S : β → Prop} {p : Prog α} {f : α → Prog β} {N1 N2 N : Nat} (h : bnd R p N1)
    (hf : ∀ a, R a → bnd S (f a) N2) (hN : N1 + N2 ≤ N) : bnd S (p >>= f) N := bnd_bind h hf hN

theorem bnd_pure {R : α → Prop} {a : α} {N : Nat} (h : R a) : bnd R (pure a) N := h

theorem bnd_do1 (a : Act) : bnd (fun _ => True) (do1 a) 1 := ⟨Nat.one_pos, fun _ => trivial⟩

theorem bnd_loop {R : α → Prop} {body : σ → Prog (Ctl σ α)} {B : Nat} (μ : σ → Nat)
    (hb : ∀ x, bnd (fun r => match r with | .next y => μ y < μ x | .done a => R a) (body x) B) (n : Nat) :
    ∀ x, μ x < n → bnd R (loop n body x) ((μ x + 1) * B) := by
  induction n with
  | zero => intro x h; omega
  | succ n ih =>
    intro x h
    refine bnd_bind (N2 := μ x * B) (hb x) ?_ (by rw [Nat.add_mul, Nat.one_mul, Nat.add_comm])
    rintro (y | a) hy
    · change μ y < μ x at hy
      exact bnd_mono (ih y (by omega)) (Nat.mul_le_mul_right _ hy)
    · exact hy

/-! ## The functions -/

theorem bnd_pcasRead (a : Addr) : bnd (fun _ => True) (pcasRead a) 4 := by
  refine bnd_bind' (N2 := 3) (bnd_do1 _) (fun w _ => ?_) (le_refl _)
  split
  · refine bnd_bind' (N1 := 3) (N2 := 0) (R := fun _ => True) ?_ (fun _ _ => trivial) (le_refl _)
    refine bnd_bind' (N2 := 2) (bnd_do1 _) (fun _ _ => ?_) (le_refl _)
    refine bnd_bind' (N2 := 1) (bnd_do1 _) (fun _ _ => ?_) (le_refl _)
    exact bnd_bind' (N2 := 0) (bnd_do1 _) (fun _ _ => trivial) (le_refl _)
  · exact trivial

theorem bnd_pcas (a : Addr) (o w : Word) : bnd (fun _ => True) (pcas a o w) 6 := by
  refine bnd_bind' (N2 := 2) (bnd_pcasRead a) (fun _ _ => ?_) (le_refl _)
  refine bnd_bind' (N2 := 1) (bnd_do1 _) (fun _ _ => ?_) (le_refl _)
  exact bnd_bind' (N2 := 0) (bnd_do1 _) (fun _ _ => trivial) (le_refl _)

theorem bnd_casKey (t i : Nat) (o w : Word) : bnd (fun _ => True) (casKey t i o w) 6 :=
  bnd_bind' (N2 := 0) (bnd_pcas _ _ _) (fun _ _ => trivial) (le_refl _)

theorem bnd_call (cf : CasFn) (t i : Nat) (o w : Word) : bnd (fun _ => True) (cf.call t i o w) 6 := by
  cases cf <;> exact bnd_bind' (N2 := 0) (bnd_pcas _ _ _) (fun _ _ => trivial) (le_refl _)

theorem bnd_adjust (t : Nat) (V nv ov : Word) : bnd (fun _ => True) (adjustSize t V nv ov) 1 := by
  unfold adjustSize
  split
  · split
    · exact bnd_do1 _
    · split
      · exact bnd_do1 _
      · exact trivial
  · exact trivial

theorem bnd_want (t d len : Nat) (V : Word) : bnd (fun _ => True) (wantNewTable t d len V) 1 := by
  unfold wantNewTable
  split
  · refine bnd_bind' (N1 := 1) (N2 := 0) (R := fun _ => True) ?_ (fun _ _ => trivial) (le_refl _)
    unfold tableFull
    split
    · exact bnd_bind' (N2 := 0) (bnd_do1 _) (fun _ _ => trivial) (le_refl _)
    · exact trivial
  · exact trivial

/-- Slots still to be probed. -/
def left (len : Nat) (x : Nat × Nat) : Nat := reprobeLimit len - x.2 - 1

theorem bnd_probeMatch (k : Word) (len i d : Nat) (K V : Word) (N : Nat) :
    bnd (fun r => match r with | .next y => left len y < left len (i, d) | .done _ => True) (probeMatch k len i d K V) N := by
  unfold probeMatch
  split
  · exact trivial
  · split
    · exact trivial
    · next h =>
      rw [not_or] at h
      change reprobeLimit len - (d + 1) - 1 < reprobeLimit len - d - 1
      omega

theorem bnd_probe (hash : Word → Word) (t : Nat) (k nv : Word) (len : Nat) {n : Nat} (hn : reprobeLimit len ≤ n) :
    bnd (fun _ => True) (loop n (probeBody t k nv len) (homePut hash k len, 0)) (15 * reprobeLimit len) := by
  have h0 : 0 < reprobeLimit len := by unfold reprobeLimit REPROBE_LIMIT; omega
  refine bnd_mono (bnd_loop (B := 15) (left len) ?_ n _ ?_) ?_
  · rintro ⟨i, d⟩
    refine bnd_bind' (N2 := 11) (bnd_pcasRead _) (fun K _ => ?_) (le_refl _)
    refine bnd_bind' (N2 := 7) (bnd_pcasRead _) (fun V _ => ?_) (le_refl _)
    split
    · split
      · exact trivial
      · refine bnd_bind' (N2 := 1) (bnd_casKey _ _ _ _) (fun a _ => ?_) (le_refl _)
        split
        · exact bnd_bind' (N2 := 0) (bnd_do1 _) (fun _ _ => trivial) (le_refl _)
        · exact bnd_weaken (bnd_probeMatch _ _ _ _ _ _ _) (by rintro (_ | _) h <;> exact h)
    · exact bnd_weaken (bnd_probeMatch _ _ _ _ _ _ _) (by rintro (_ | _) h <;> exact h)
  · change reprobeLimit len - 0 - 1 < n
    omega
  · change (reprobeLimit len - 0 - 1 + 1) * 15 ≤ _
    omega

theorem bnd_gprobe (hash : Word → Word) (t : Nat) (k : Word) (len : Nat) {n : Nat} (hn : reprobeLimit len ≤ n) :
    bnd (fun _ => True) (loop n (getProbeBody t k len) (homeGet hash k len, 0)) (9 * reprobeLimit len) := by
  have h0 : 0 < reprobeLimit len := by unfold reprobeLimit REPROBE_LIMIT; omega
  refine bnd_mono (bnd_loop (B := 9) (left len) ?_ n _ ?_) ?_
  · rintro ⟨i, d⟩
    refine bnd_bind' (N2 := 5) (bnd_pcasRead _) (fun K _ => ?_) (le_refl _)
    refine bnd_bind' (N2 := 1) (bnd_pcasRead _) (fun V _ => ?_) (le_refl _)
    split
    · exact trivial
    · refine bnd_bind' (N2 := 0) (bnd_do1 _) (fun nt _ => ?_) (le_refl _)
      split
      · split <;> exact trivial
      · split
        · cases nt <;> exact trivial
        · next h =>
          rw [not_or] at h
          change reprobeLimit len - (d + 1) - 1 < reprobeLimit len - d - 1
          omega
  · change reprobeLimit len - 0 - 1 < n
    omega
  · change (reprobeLimit len - 0 - 1 + 1) * 9 ≤ _
    omega

/-! ## Budgets in the one-writer logic -/

variable {C : Cfg} {t : Nat} {op : Op} {s : OSt} {c : Option Res} {k : Word}

theorem limit_mono {Q : α → OSt → Option Res → Prop} {p : Prog α} {N N' : Nat} (h : owp C t op Q (limit p N) s c) (hN : N ≤ N') :
    owp C t op Q (limit p N') s c := by
  induction p generalizing N N' s c with
  | ret a => exact h
  | halt x => exact h
  | act a k ih =>
    cases N with
    | zero => exact absurd rfl h
    | succ N =>
      obtain ⟨N', rfl⟩ : ∃ M, N' = M + 1 := ⟨N' - 1, by omega⟩
      rw [limit, owp] at h ⊢
      intro s1 h1 h2 h3
      obtain ⟨r, s2, e, hg | ⟨h4, h5, h6⟩⟩ := h s1 h1 h2 h3
      · exact ⟨r, s2, e, .inl hg⟩
      refine ⟨r, s2, e, .inr ⟨h4, h5, ?_⟩⟩
      rcases h6 with ⟨h6, h7⟩ | ⟨h6, h7, x, h8, h9⟩
      · exact .inl ⟨h6, ih r h7 (by omega)⟩
      · exact .inr ⟨h6, h7, x, h8, ih r h9 (by omega)⟩

theorem limit_bind {Q : β → OSt → Option Res → Prop} {R : α → Prop} {p : Prog α} {f : α → Prog β} {N1 N2 N : Nat}
    (hb : bnd R p N1) (h : owp C t op (fun a s' c' => R a → owp C t op Q (limit (f a) N2) s' c') p s c) (hN : N1 + N2 ≤ N) :
    owp C t op Q (limit (p.bind f) N) s c := by
  induction p generalizing N1 N s c with
  | ret a => exact limit_mono (h hb) (by omega)
  | halt x => exact hb.elim
  | act a k ih =>
    have h0 := hb.1
    obtain ⟨N, rfl⟩ : ∃ M, N = M + 1 := ⟨N - 1, by omega⟩
    rw [Prog.bind, limit, owp]
    rw [owp] at h
    intro s1 h1 h2 h3
    obtain ⟨r, s2, e, hg | ⟨h4, h5, h6⟩⟩ := h s1 h1 h2 h3
    · exact ⟨r, s2, e, .inl hg⟩
    refine ⟨r, s2, e, .inr ⟨h4, h5, ?_⟩⟩
    rcases h6 with ⟨h6, h7⟩ | ⟨h6, h7, x, h8, h9⟩
    · exact .inl ⟨h6, ih r (hb.2 r) h7 (by omega)⟩
    · exact .inr ⟨h6, h7, x, h8, ih r (hb.2 r) h9 (by omega)⟩

theorem limit_bind' {Q : β → OSt → Option Res → Prop} {R : α → Prop} {p : Prog α} {f : α → Prog β} {N1 N2 N : Nat}
    (hb : bnd R p N1) (h : owp C t op (fun a s' c' => R a → owp C t op Q (limit (f a) N2) s' c') p s c) (hN : N1 + N2 ≤ N) :
    owp C t op Q (limit (p >>= f) N) s c := limit_bind hb h hN

theorem limit_map {g : α → β} (p : Prog α) (N : Nat) :
    limit (p >>= fun a => pure (g a)) N = (limit p N >>= fun a => pure (g a)) := by
  induction p generalizing N with
  | ret a => rfl
  | halt x => rfl
  | act a k ih =>
    cases N with
    | zero => rfl
    | succ N =>
      change Prog.act a (fun r => limit (k r >>= fun a => pure (g a)) N) = Prog.act a (fun r => limit (k r) N >>= fun a => pure (g a))
      congr 1
      funext r
      exact ih r N

/-- Limited programs put together. -/
theorem limit_seq {Q : β → OSt → Option Res → Prop} {p : Prog α} {f : α → Prog β} {N1 N2 N : Nat}
    (h : owp C t op (fun a s' c' => owp C t op Q (limit (f a) N2) s' c') (limit p N1) s c) (hN : N1 + N2 ≤ N) :
    owp C t op Q (limit (p >>= f) N) s c := by
  change owp C t op Q (limit (p.bind f) N) s c
  induction p generalizing N1 N s c with
  | ret a => exact limit_mono h (by omega)
  | halt x => exact absurd rfl h
  | act a k ih =>
    cases N1 with
    | zero => exact absurd rfl h
    | succ N1 =>
      obtain ⟨N, rfl⟩ : ∃ M, N = M + 1 := ⟨N - 1, by omega⟩
      rw [Prog.bind, limit, owp]
      rw [limit, owp] at h
      intro s1 h1 h2 h3
      obtain ⟨r, s2, e, hg | ⟨h4, h5, h6⟩⟩ := h s1 h1 h2 h3
      · exact ⟨r, s2, e, .inl hg⟩
      refine ⟨r, s2, e, .inr ⟨h4, h5, ?_⟩⟩
      rcases h6 with ⟨h6, h7⟩ | ⟨h6, h7, x, h8, h9⟩
      · exact .inl ⟨h6, ih r h7 (by omega)⟩
      · exact .inr ⟨h6, h7, x, h8, ih r h9 (by omega)⟩

end PMap
