import Verif.Clevel.Code

/-!
# Running a clevel program alone

`cwp p Q s`: run alone from `s`, the program `p` ends (or the allocator throws) without undefined behaviour or failed assertion,
and when it returns `a` in memory `t` then `Q a t`.
-/

namespace PMap.Clevel

open CP

/-- Total correctness of a program run alone; an allocator that throws ends it.  No code of its own. -/
def cwp {α : Type} : CP α → (α → CSt → Prop) → CSt → Prop
  | .ret a, Q, s => Q a s
  | .spin, _, _ => False
  | .act f k, Q, s => match f s with
    | .ok b t => cwp (k b) Q t
    | .oom => True
    | .ub => False
    | .abort => False

/-- Running a program alone: its outcome, `none` when it is still in a loop.  No code of its own. -/
def CP.run {α : Type} : CP α → CSt → Option (R CSt α)
  | .ret a, s => some (.ok a s)
  | .spin, _ => none
  | .act f k, s => match f s with
    | .ok b t => (k b).run t
    | .oom => some .oom
    | .ub => some .ub
    | .abort => some .abort

theorem cwp_run {α : Type} {Q : α → CSt → Prop} : ∀ {p : CP α} {s : CSt}, cwp p Q s →
    p.run s = some .oom ∨ ∃ a t, p.run s = some (.ok a t) ∧ Q a t
  | .ret a, s, h => .inr ⟨a, s, rfl, h⟩
  | .spin, _, h => h.elim
  | .act f k, s, h => by
    rw [cwp] at h
    rw [CP.run]
    cases hf : f s with
    | ok b t =>
      rw [hf] at h
      exact cwp_run h
    | oom => exact .inl rfl
    | ub => rw [hf] at h; exact h.elim
    | abort => rw [hf] at h; exact h.elim

theorem cwp_mono {α : Type} {Q Q' : α → CSt → Prop} (hQ : ∀ a t, Q a t → Q' a t) : ∀ {p : CP α} {s : CSt}, cwp p Q s → cwp p Q' s
  | .ret a, s, h => hQ a s h
  | .spin, _, h => h.elim
  | .act f k, s, h => by
    rw [cwp] at h ⊢
    cases hf : f s with
    | ok b t =>
      rw [hf] at h
      exact cwp_mono hQ h
    | oom => trivial
    | ub => rw [hf] at h; exact h.elim
    | abort => rw [hf] at h; exact h.elim

theorem cwp_bind' {α β : Type} {Q : β → CSt → Prop} {g : α → CP β} :
    ∀ {p : CP α} {s : CSt}, cwp (p.bind g) Q s ↔ cwp p (fun a t => cwp (g a) Q t) s
  | .ret a, s => Iff.rfl
  | .spin, _ => Iff.rfl
  | .act f k, s => by
    rw [CP.bind, cwp, cwp]
    cases hf : f s with
    | ok b t => exact cwp_bind'
    | oom => exact Iff.rfl
    | ub => exact Iff.rfl
    | abort => exact Iff.rfl

theorem cwp_bind {α β : Type} {Q : β → CSt → Prop} {g : α → CP β} {p : CP α} {s : CSt} :
    cwp (p >>= g) Q s ↔ cwp p (fun a t => cwp (g a) Q t) s := cwp_bind'

theorem cwp_pure {α : Type} {Q : α → CSt → Prop} {a : α} {s : CSt} : cwp (pure a) Q s ↔ Q a s := Iff.rfl

theorem cwp_if {α : Type} {Q : α → CSt → Prop} {s : CSt} {c : Prop} [Decidable c] {a b : CP α} (h1 : c → cwp a Q s)
    (h2 : ¬ c → cwp b Q s) : cwp (if c then a else b) Q s := by
  split
  · exact h1 ‹_›
  · exact h2 ‹_›

/-- Size and link of a level, if it is live.  No code of its own. -/
def geo (s : CSt) (l : Nat) : Option (Nat × Nat) := (s.lv l).map fun L => (L.cap, L.up)

/-- The word in a slot.  No code of its own. -/
def word (s : CSt) (l b j : Nat) : Word := match s.lv l with
  | none => 0#64
  | some L => L.slot b j

variable {Q : Bool → CSt → Prop} {s : CSt} {l b j c u : Nat}

theorem geo_some (h : geo s l = some (c, u)) : ∃ L, s.lv l = some L ∧ L.cap = c ∧ L.up = u ∧ ∀ b j, word s l b j = L.slot b j := by
  unfold geo at h
  cases hl : s.lv l with
  | none => simp [hl] at h
  | some L =>
    simp [hl] at h
    exact ⟨L, rfl, h.1, h.2, fun b j => by simp [word, hl]⟩

theorem geo_setSlot (l b j : Nat) (w : Word) (l' : Nat) : geo (s.setSlot l b j w) l' = geo s l' := by
  unfold geo CSt.setSlot
  by_cases h : l' = l
  · subst h
    cases s.lv l' <;> simp
  · simp [h]

theorem word_setSlot (h : geo s l = some (c, u)) (w : Word) (l' b' j' : Nat) :
    word (s.setSlot l b j w) l' b' j' = if l' = l ∧ b' = b ∧ j' = j then w else word s l' b' j' := by
  obtain ⟨L, hL, -, -, hw⟩ := geo_some h
  unfold word CSt.setSlot
  by_cases h' : l' = l
  · subst h'
    simp [hL]
  · simp [h']

theorem cwp_rdMeta {Q : Nat → CSt → Prop} : cwp rdMeta Q s ↔ Q s.root s := Iff.rfl
theorem cwp_rdExp {Q : Nat → CSt → Prop} : cwp rdExp Q s ↔ Q s.exp s := Iff.rfl
theorem cwp_wrExp {Q : Unit → CSt → Prop} {n : Nat} : cwp (wrExp n) Q s ↔ Q () { s with exp := n } := Iff.rfl

theorem cwp_deMeta {Q : Meta → CSt → Prop} {m : Nat} {M : Meta} (h : s.mt m = some M) : cwp (deMeta m) Q s ↔ Q M s := by
  simp [deMeta, atom, cwp, h]

theorem cwp_casMeta {m n : Nat} : cwp (casMeta m n) Q s ↔
    if s.root = m then Q true { s with root := n } else Q false s := by
  by_cases h : s.root = m <;> simp [casMeta, atom, cwp, h]

theorem cwp_rdCap {Q : Nat → CSt → Prop} (h : geo s l = some (c, u)) : cwp (rdCap l) Q s ↔ Q c s := by
  obtain ⟨L, hL, rfl, -, -⟩ := geo_some h
  simp [rdCap, atom, cwp, hL]

theorem cwp_rdUp {Q : Nat → CSt → Prop} (h : geo s l = some (c, u)) : cwp (rdUp l) Q s ↔ Q u s := by
  obtain ⟨L, hL, -, rfl, -⟩ := geo_some h
  simp [rdUp, atom, cwp, hL]

theorem cwp_rdSlot {Q : Word → CSt → Prop} (h : geo s l = some (c, u)) (hb : b < c) (hj : j < assocNum) :
    cwp (rdSlot l b j) Q s ↔ Q (word s l b j) s := by
  obtain ⟨L, hL, rfl, -, hw⟩ := geo_some h
  simp [rdSlot, atom, cwp, hL, hb, hj, hw]

theorem cwp_casSlot {old new : Word} (h : geo s l = some (c, u)) (hb : b < c) (hj : j < assocNum) :
    cwp (casSlot l b j old new) Q s ↔ if word s l b j = old then Q true (s.setSlot l b j new) else Q false s := by
  obtain ⟨L, hL, rfl, -, hw⟩ := geo_some h
  by_cases h' : L.slot b j = old <;> simp [casSlot, atom, cwp, hL, hb, hj, hw, h']

theorem cwp_wrSlot {Q : Unit → CSt → Prop} {w : Word} (h : geo s l = some (c, u)) (hb : b < c) (hj : j < assocNum) :
    cwp (wrSlot l b j w) Q s ↔ Q () (s.setSlot l b j w) := by
  obtain ⟨L, hL, rfl, -, hw⟩ := geo_some h
  simp [wrSlot, atom, cwp, hL, hb, hj]

theorem cwp_rdKey {Q : Word → CSt → Prop} {w : Word} {e : Word × Word} (h : s.heap (getOffset w) = some e) :
    cwp (rdKey w) Q s ↔ Q e.1 s := by
  simp [rdKey, atom, cwp, h]

end PMap.Clevel
