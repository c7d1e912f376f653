import Verif.Pmem.Move

/-!
# libpmemobj's concurrent_hash_map: reasoning about a program that runs beside others

Nothing here is code.
-/

namespace PMap.Pmem

open HP

/-- What a call does to an ordinary map and what it returns: `insert` and `increment` put the key there with itself as the value, `get`
of a missing key gives 0. -/
def spec : Cmd → AM → Ans × AM
  | .insert el, A => if A el = none then (1#64, A.set el (some el)) else (0#64, A)
  | .erase el, A => if A el = none then (0#64, A) else (1#64, A.set el none)
  | .contains el, A => (if A el = none then 0#64 else 1#64, A)
  | .get el, A => ((A el).getD 0#64, A)
  | .increment el, A => if A el = none then (1#64, A.set el (some el)) else (0#64, A)

/-- An access does nothing to the map, or it is the moment at which the call takes effect. -/
def Lin (op : Cmd) (A : AM) (st : Option Ans) (A' : AM) (st' : Option Ans) : Prop :=
  (st' = st ∧ A' = A) ∨ (st = none ∧ st' = some (spec op A).1 ∧ A' = (spec op A).2)

theorem Lin.none {op : Cmd} {A : AM} {st : Option Ans} : Lin op A st A st := Or.inl ⟨rfl, rfl⟩

/-- Thread `t` waits for a bucket that comes before all it holds. -/
def Waits (t : Nat) (s : HSt) : Prop := ∃ c, (∃ v, Holds v s (loc c)) ∧ ∀ d, Holds t s (loc d) → c < d

/-- Thread `t`, which runs a program of call `op`, keeps the invariant whatever the others do, does to the others nothing they do not
allow for, and ends as `Q` says.  With `q` the others do nothing, and then no loop goes on for ever. -/
def W (E : HEnv) (m0 t : Nat) (op : Cmd) (q : Prop) {α : Type} : HP α → (α → HSt → AM → Option Ans → Prop) → HSt → AM → Option Ans → Prop
  | .ret a, Q, s, A, st => Q a s A st
  | .act f k, Q, s, A, st => ∀ s1 A1, Inv E m0 s1 A1 → Rel t s s1 → (q → s1 = s ∧ A1 = A) → match f s1 with
    | .ok b s2 => ∃ A2 st2, Lin op A1 st A2 st2 ∧ Inv E m0 s2 A2 ∧ Guar t s1 s2 ∧ W E m0 t op q (k b) Q s2 A2 st2
    | .wait => Waits t s1
    | .oom => True
    | .ub => False
    | .abort => False
  | .spin, _, _, _, _ => ¬ q

section
variable {E : HEnv} {m0 t : Nat} {op : Cmd} {q : Prop}

theorem W_mono {α : Type} {p : HP α} {Q Q' : α → HSt → AM → Option Ans → Prop} (hQ : ∀ a s A st, Q a s A st → Q' a s A st) :
    ∀ {s : HSt} {A : AM} {st : Option Ans}, W E m0 t op q p Q s A st → W E m0 t op q p Q' s A st := by
  induction p with
  | ret a => exact fun h => hQ _ _ _ _ h
  | act f k ih =>
    intro s A st h s1 A1 hi hr hq
    have := h s1 A1 hi hr hq
    revert this
    cases f s1 with
    | ok b s2 =>
      rintro ⟨A2, st2, h1, h2, h3, h4⟩
      exact ⟨A2, st2, h1, h2, h3, ih b h4⟩
    | wait => exact id
    | oom => exact id
    | ub => exact id
    | abort => exact id
  | spin => exact id

theorem W_bind {α β : Type} {p : HP α} {k : α → HP β} {Q : β → HSt → AM → Option Ans → Prop} : ∀ {s : HSt} {A : AM} {st : Option Ans},
    W E m0 t op q p (fun a s A st => W E m0 t op q (k a) Q s A st) s A st → W E m0 t op q (p >>= k) Q s A st := by
  induction p with
  | ret a => exact id
  | act f k' ih =>
    intro s A st h s1 A1 hi hr hq
    have := h s1 A1 hi hr hq
    revert this
    cases f s1 with
    | ok b s2 =>
      rintro ⟨A2, st2, h1, h2, h3, h4⟩
      exact ⟨A2, st2, h1, h2, h3, ih b h4⟩
    | wait => exact id
    | oom => exact id
    | ub => exact id
    | abort => exact id
  | spin => exact id

/-- One access that does something good, before the rest. -/
theorem W_atom {α β : Type} {f : HSt → Out β} {k : β → HP α} {Q : α → HSt → AM → Option Ans → Prop} {s : HSt} {A : AM} {st : Option Ans}
    (h : ∀ s1 A1, Inv E m0 s1 A1 → Rel t s s1 → (q → s1 = s ∧ A1 = A) → match f s1 with
      | .ok b s2 => ∃ A2 st2, Lin op A1 st A2 st2 ∧ Inv E m0 s2 A2 ∧ Guar t s1 s2 ∧ W E m0 t op q (k b) Q s2 A2 st2
      | .wait => Waits t s1
      | .oom => True
      | .ub => False
      | .abort => False) : W E m0 t op q (atom f >>= k) Q s A st := h

/-- One access that gives a result. -/
theorem W_ok {α β : Type} {f : HSt → Out β} {k : β → HP α} {Q : α → HSt → AM → Option Ans → Prop} {s : HSt} {A : AM} {st : Option Ans}
    (h : ∀ s1 A1, Inv E m0 s1 A1 → Rel t s s1 → (q → s1 = s ∧ A1 = A) → ∃ b s2 A2 st2, f s1 = .ok b s2 ∧ Lin op A1 st A2 st2 ∧
      Inv E m0 s2 A2 ∧ Guar t s1 s2 ∧ W E m0 t op q (k b) Q s2 A2 st2) : W E m0 t op q (atom f >>= k) Q s A st := by
  refine W_atom fun s1 A1 hi hr hq => ?_
  obtain ⟨b, s2, A2, st2, e, h1, h2, h3, h4⟩ := h s1 A1 hi hr hq
  rw [e]
  exact ⟨A2, st2, h1, h2, h3, h4⟩

/-- One access that changes nothing. -/
theorem W_read {α β : Type} {f : HSt → Out β} {k : β → HP α} {Q : α → HSt → AM → Option Ans → Prop} {s : HSt} {A : AM} {st : Option Ans}
    (h : ∀ s1 A1, Inv E m0 s1 A1 → Rel t s s1 → (q → s1 = s ∧ A1 = A) → ∃ b, f s1 = .ok b s1 ∧ W E m0 t op q (k b) Q s1 A1 st) :
    W E m0 t op q (atom f >>= k) Q s A st := by
  refine W_ok fun s1 A1 hi hr hq => ?_
  obtain ⟨b, e, h1⟩ := h s1 A1 hi hr hq
  exact ⟨b, s1, A1, st, e, .none, hi, .refl t s1, h1⟩

theorem W_pure {α : Type} {a : α} {Q : α → HSt → AM → Option Ans → Prop} {s : HSt} {A : AM} {st : Option Ans} (h : Q a s A st) :
    W E m0 t op q (pure a) Q s A st := h

/-- A program that ends with an access. -/
theorem W_last {α : Type} {f : HSt → Out α} {Q : α → HSt → AM → Option Ans → Prop} {s : HSt} {A : AM} {st : Option Ans}
    (h : W E m0 t op q (atom f >>= fun a => pure a) Q s A st) : W E m0 t op q (atom f) Q s A st := h

end

/-- Which locks thread `t` holds: buckets as a writer, one as a reader, a node, the mutex of the segments. -/
structure Own (t : Nat) (s : HSt) (H : Nat → Prop) (R N : Option Nat) (M : Bool) : Prop where
  wr : ∀ b, s.wr b = some t ↔ ∃ g, H g ∧ b = loc g
  rd : ∀ b, (s.rd b).count t = if R.map loc = some b then 1 else 0
  nl : ∀ n, s.nl n = some t ↔ N = some n
  sm : s.sm = some t ↔ M = true

theorem Own.rel {t : Nat} {s s' : HSt} {H : Nat → Prop} {R N : Option Nat} {M : Bool} (h : Own t s H R N M) (hr : Rel t s s') :
    Own t s' H R N M where
  wr := fun b => (hr.wr b).trans (h.wr b)
  rd := fun b => (hr.rd b).trans (h.rd b)
  nl := fun b => (hr.nl b).trans (h.nl b)
  sm := hr.sm.trans h.sm

theorem Own.wr' {t : Nat} {s : HSt} {H : Nat → Prop} {R N : Option Nat} {M : Bool} (h : Own t s H R N M) {c : Nat} :
    s.wr (loc c) = some t ↔ H c := by
  rw [h.wr]
  exact ⟨fun ⟨g, hg, e⟩ => loc_inj e ▸ hg, fun h => ⟨c, h, rfl⟩⟩

theorem Own.holds {t : Nat} {s : HSt} {H : Nat → Prop} {R N : Option Nat} {M : Bool} (h : Own t s H R N M) {c : Nat} :
    Holds t s (loc c) ↔ H c ∨ R = some c := by
  unfold Holds
  rw [h.wr', ← List.count_pos_iff, h.rd]
  refine or_congr Iff.rfl ?_
  cases R with
  | none => simp
  | some d =>
    simp only [Option.map_some, Option.some.injEq]
    constructor
    · intro h
      split at h
      · rename_i e; exact loc_inj e
      · omega
    · rintro rfl
      simp

theorem Own.lockW {t : Nat} {s : HSt} {H : Nat → Prop} {R N : Option Nat} {M : Bool} (h : Own t s H R N M) (c : Nat) :
    Own t (s.lockW t (loc c)) (fun g => g = c ∨ H g) R N M where
  wr := fun b => by
    simp only [HSt.lockW]
    split
    · rename_i e
      simp only [true_iff]
      exact ⟨c, Or.inl rfl, e⟩
    · rename_i e
      rw [h.wr]
      refine exists_congr fun g => ?_
      constructor
      · exact fun ⟨a, b⟩ => ⟨Or.inr a, b⟩
      · rintro ⟨rfl | a, b⟩
        · exact absurd b e
        · exact ⟨a, b⟩
  rd := h.rd
  nl := h.nl
  sm := h.sm

theorem Own.unlockW {t : Nat} {s : HSt} {H : Nat → Prop} {R N : Option Nat} {M : Bool} {c : Nat} (h : Own t s (fun g => g = c ∨ H g) R N M)
    (hc : ¬ H c) : Own t { s with wr := fun d => if d = loc c then none else s.wr d } H R N M where
  wr := fun b => by
    dsimp only
    split
    · rename_i e
      simp only [reduceCtorEq, false_iff]
      rintro ⟨g, hg, e'⟩
      rw [e] at e'
      exact hc (loc_inj e' ▸ hg)
    · rename_i e
      rw [h.wr]
      refine exists_congr fun g => ?_
      constructor
      · rintro ⟨rfl | a, b⟩
        · exact absurd b e
        · exact ⟨a, b⟩
      · exact fun ⟨a, b⟩ => ⟨Or.inr a, b⟩
  rd := h.rd
  nl := h.nl
  sm := h.sm

theorem Own.lockR {t : Nat} {s : HSt} {H : Nat → Prop} {N : Option Nat} {M : Bool} (h : Own t s H none N M) (c : Nat) :
    Own t (s.lockR t (loc c)) H (some c) N M where
  wr := h.wr
  rd := fun b => by
    have := h.rd b
    simp at this
    simp only [HSt.lockR, Option.map_some, Option.some.injEq]
    by_cases e : b = loc c
    · rw [e] at this ⊢
      simp [this]
    · rw [if_neg e, if_neg (Ne.symm e)]
      exact this
  nl := h.nl
  sm := h.sm

theorem Own.unlockR {t : Nat} {s : HSt} {H : Nat → Prop} {N : Option Nat} {M : Bool} {c : Nat} (h : Own t s H (some c) N M) :
    Own t { s with rd := fun d => if d = loc c then (s.rd d).erase t else s.rd d } H none N M where
  wr := h.wr
  rd := fun b => by
    have := h.rd b
    simp only [Option.map_some, Option.some.injEq] at this
    dsimp only
    by_cases e : b = loc c
    · rw [if_pos e.symm] at this
      rw [if_pos e, List.count_erase_self, this]
      rfl
    · rw [if_neg (Ne.symm e)] at this
      rw [if_neg e, this]
      rfl
  nl := h.nl
  sm := h.sm

/-- The mask does not shrink, and if the others do nothing, it and the locks of nodes stay as they are. -/
def Keep (q : Prop) (s s' : HSt) : Prop := s.mask ≤ s'.mask ∧ (q → s'.mask = s.mask ∧ s'.nl = s.nl)

theorem Keep.refl {q : Prop} (s : HSt) : Keep q s s := ⟨Nat.le_refl _, fun _ => ⟨rfl, rfl⟩⟩

theorem Keep.trans {q : Prop} {s s1 s2 : HSt} (h : Keep q s s1) (g : Keep q s1 s2) : Keep q s s2 :=
  ⟨h.1.trans g.1, fun hq => ⟨(g.2 hq).1.trans (h.2 hq).1, (g.2 hq).2.trans (h.2 hq).2⟩⟩

theorem Keep.rel {q : Prop} {t : Nat} {s s1 : HSt} {A A1 : AM} (hr : Rel t s s1) (hq : q → s1 = s ∧ A1 = A) : Keep q s s1 :=
  ⟨hr.mask, fun h => by rw [(hq h).1]; exact ⟨rfl, rfl⟩⟩

theorem Keep.of_eq {q : Prop} {s s1 : HSt} (h : s1.mask = s.mask) (g : s1.nl = s.nl) : Keep q s s1 := ⟨h.ge, fun _ => ⟨h, g⟩⟩

theorem Inv.locate {E : HEnv} {m0 c : Nat} {s : HSt} {A : AM} (hi : Inv E m0 s A) (hc : c ≤ s.mask) : locate s c = .ok (loc c) s := by
  obtain ⟨⟨kk, L, V, hh⟩, _⟩ := hi
  refine hh.tab.locate (by have := hh.kk31; omega) ?_
  obtain ⟨j, _, hj, em⟩ := hh.mask
  have := Nat.pow_le_pow_right (n := 2) (by omega) hj
  have := Nat.two_pow_pos j
  omega

theorem Inv.mask31 {E : HEnv} {m0 : Nat} {s : HSt} {A : AM} (hi : Inv E m0 s A) : s.mask < 2 ^ 31 := by
  obtain ⟨⟨kk, L, V, hh⟩, _⟩ := hi
  obtain ⟨j, _, hj, em⟩ := hh.mask
  have := Nat.pow_le_pow_right (n := 2) (by omega) (hj.trans hh.kk31)
  have := Nat.two_pow_pos j
  omega

/-- Buckets that are locked and still to be filled. -/
def Cold (s : HSt) (H : Nat → Prop) (c : Nat) : Prop := ∀ g, H g → c < g ∧ s.fl (loc g) = false ∧ s.list (loc g) = 0

theorem Cold.rel {t c : Nat} {s s' : HSt} {H : Nat → Prop} {R N : Option Nat} {M : Bool} (h : Cold s H c) (ho : Own t s H R N M)
    (hr : Rel t s s') : Cold s' H c := fun g hg => by
  obtain ⟨h1, h2, h3⟩ := h g hg
  have hw := ho.wr'.2 hg
  exact ⟨h1, (hr.flw _ hw).1.trans h2, (hr.held _ (Or.inl hw)).trans h3⟩

/-- What `acquire` leads to. -/
structure Acq (E : HEnv) (m0 t : Nat) (q : Prop) (s0 : HSt) (st0 : Option Ans) (H : Nat → Prop) (c : Nat) (w : Bool) (r : Loc × Bool) (s : HSt)
    (A : AM) (st : Option Ans) : Prop where
  inv : Inv E m0 s A
  st : st = st0
  loc : r.1 = Pmem.loc c
  own : Own t s (fun g => (r.2 = true ∧ g = c) ∨ H g) (if r.2 then none else some c) none false
  w : w = true → r.2 = true
  dfl : s.dfl (Pmem.loc c) = true
  cold : Cold s H c
  keep : Keep q s0 s

end PMap.Pmem
