import Verif.LevelHash.Model
import Mathlib.Data.Nat.Basic
import Mathlib.Data.List.Basic

/-!
# The invariant of `level_hash` (proof machinery)
-/

set_option linter.unusedSectionVars false

namespace PMap.LevelHash

variable {K V : Type} [DecidableEq K] [DecidableEq V] {f s : K → Nat}

theorem out_bind {α β : Type} {r : Out α} {g : α → Out β} {b : β} (h : (r >>= g) = .done b) : ∃ a, r = .done a ∧ g a = .done b := by
  cases r with
  | done a => exact ⟨a, rfl, h⟩
  | _ => cases h

theorem out_done {α β : Type} (a : α) (g : α → Out β) : ((Out.done a : Out α) >>= g) = g a := rfl

theorem idx_done {k : K} {cap : Nat} {p : Nat × Nat} (h : idx f s k cap = .done p) :
    1 ≤ cap / 2 ∧ p = (f k % (cap / 2), s k % (cap / 2) + cap / 2) := by
  unfold idx at h
  split at h
  · cases h
  · cases h
    exact ⟨by omega, rfl⟩

/-- Bucket `b` is one of the two buckets of key `k`. -/
def Home (f s : K → Nat) (cap : Nat) (k : K) (b : Nat) : Prop := b = f k % (cap / 2) ∨ b = s k % (cap / 2) + cap / 2

theorem Home.lt {cap b : Nat} {k : K} (hc : 2 ≤ cap) (h : Home f s cap k b) : b < cap := by
  have h1 := Nat.mod_lt (f k) (show 0 < cap / 2 by omega)
  have h2 := Nat.mod_lt (s k) (show 0 < cap / 2 by omega)
  rcases h with rfl | rfl <;> omega

/-- Every entry of the level is in one of its two buckets. -/
structure LInv (f s : K → Nat) (l : Level K V) : Prop where
  cap : 2 ≤ l.cap
  home : ∀ i x, l.slot i = some x → Home f s l.cap x.1 (i / 4)

theorem LInv.lt {l : Level K V} (h : LInv f s l) {i : Nat} {x : K × V} (e : l.slot i = some x) : i < 4 * l.cap := by
  have := (h.home i x e).lt h.cap
  omega

theorem LInv.new {cap : Nat} (h : 2 ≤ cap) : LInv f s (Level.new cap : Level K V) := ⟨h, fun i x e => by cases e⟩

theorem LInv.set {l : Level K V} (h : LInv f s l) {i : Nat} {x : Option (K × V)} (hx : ∀ y, x = some y → Home f s l.cap y.1 (i / 4)) :
    LInv f s (l.set i x) := by
  refine ⟨h.cap, fun j y e => ?_⟩
  simp only [Level.set] at e ⊢
  split at e
  · next hj => rw [hj]; exact hx y e
  · exact h.home j y e

/-- The slots before `n` with an entry of `P`. -/
def cnt (l : Level K V) (P : K × V → Bool) : Nat → Nat
  | 0 => 0
  | n + 1 => cnt l P n + if (l.slot n).any P then 1 else 0

theorem cnt_set (l : Level K V) (P : K × V → Bool) (i : Nat) (x : Option (K × V)) (n : Nat) :
    cnt (l.set i x) P n + (if i < n ∧ (l.slot i).any P then 1 else 0) = cnt l P n + if i < n ∧ x.any P then 1 else 0 := by
  induction n with
  | zero => simp [cnt]
  | succ n ih =>
    rw [cnt, cnt]
    by_cases e : n = i
    · subst e
      rw [if_neg (by omega), if_neg (by omega)] at ih
      simp only [Level.set, if_true, Nat.lt_succ_self, true_and] at ih ⊢
      omega
    · have h1 : ∀ P : Prop, (i < n + 1 ∧ P) ↔ (i < n ∧ P) := fun P =>
        ⟨fun h => ⟨by omega, h.2⟩, fun h => ⟨by omega, h.2⟩⟩
      have h2 : (l.set i x).slot n = l.slot n := if_neg e
      simp only [h1, h2]
      omega

theorem cnt_pos {l : Level K V} {P : K × V → Bool} {n : Nat} : 0 < cnt l P n ↔ ∃ i, i < n ∧ (l.slot i).any P = true := by
  induction n with
  | zero => simp [cnt]
  | succ n ih =>
    rw [cnt]
    constructor
    · intro h
      split at h
      · next e => exact ⟨n, by omega, e⟩
      · obtain ⟨i, h1, h2⟩ := ih.mp (by omega)
        exact ⟨i, by omega, h2⟩
    · rintro ⟨i, h1, h2⟩
      rcases Nat.lt_or_eq_of_le (Nat.le_of_lt_succ h1) with h | rfl
      · have := ih.mpr ⟨i, h, h2⟩
        omega
      · rw [if_pos h2]
        omega

/-- The number of entries of `P` in a level. -/
def tot (l : Level K V) (P : K × V → Bool) : Nat := cnt l P (4 * l.cap)

theorem tot_new (cap : Nat) (P : K × V → Bool) : tot (Level.new cap : Level K V) P = 0 := by
  rcases Nat.eq_zero_or_pos (tot (Level.new cap : Level K V) P) with h | h
  · exact h
  · obtain ⟨i, -, e⟩ := cnt_pos.mp h
    cases e

theorem tot_pos {l : Level K V} (h : LInv f s l) {P : K × V → Bool} : 0 < tot l P ↔ ∃ i x, l.slot i = some x ∧ P x = true := by
  unfold tot
  rw [cnt_pos]
  constructor
  · rintro ⟨i, _, e⟩
    rw [Option.any_eq_true] at e
    obtain ⟨x, h1, h2⟩ := e
    exact ⟨i, x, h1, h2⟩
  · rintro ⟨i, x, h1, h2⟩
    exact ⟨i, h.lt h1, by rw [h1]; exact h2⟩

theorem tot_set {l : Level K V} {i : Nat} (hi : i < 4 * l.cap) (P : K × V → Bool) (x : Option (K × V)) :
    tot (l.set i x) P + (if (l.slot i).any P then 1 else 0) = tot l P + if x.any P then 1 else 0 := by
  have := cnt_set l P i x (4 * l.cap)
  simp only [hi, true_and] at this
  exact this

/-- Entries with the same two buckets: at most eight. -/
theorem tot_le {l : Level K V} (h : LInv f s l) {P : K × V → Bool} {a b : Nat} (hP : ∀ x, P x = true → f x.1 = a ∧ s x.1 = b) :
    tot l P ≤ 8 := by
  have key : ∀ n, cnt l P n ≤ (min n (4 * (a % (l.cap / 2)) + 4) - 4 * (a % (l.cap / 2))) +
      (min n (4 * (b % (l.cap / 2) + l.cap / 2) + 4) - 4 * (b % (l.cap / 2) + l.cap / 2)) := by
    intro n
    induction n with
    | zero => simp [cnt]
    | succ n ih =>
      rw [cnt]
      split
      · next e =>
        rw [Option.any_eq_true] at e
        obtain ⟨x, h1, h2⟩ := e
        have := h.home n x h1
        unfold Home at this
        rw [(hP x h2).1, (hP x h2).2] at this
        omega
      · omega
  have := key (4 * l.cap)
  unfold tot
  omega

/-! ## Looking for a slot -/

theorem free_spec {l : Level K V} {a b p : Nat} {n : Nat} (hn : n ≤ 4) (h : l.free a b n = some p) :
    l.slot p = none ∧ (p / 4 = a ∨ p / 4 = b) := by
  induction n with
  | zero => cases h
  | succ n ih =>
    rw [Level.free] at h
    split at h
    · next e => cases h; exact ⟨e, by omega⟩
    · split at h
      · next e => cases h; exact ⟨e, by omega⟩
      · exact ih (by omega) h

theorem free_none {l : Level K V} {a b : Nat} {n : Nat} (h : l.free a b n = none) {j : Nat} (h1 : 4 - n ≤ j) (h2 : j < 4) :
    l.slot (4 * a + j) ≠ none ∧ l.slot (4 * b + j) ≠ none := by
  induction n with
  | zero => omega
  | succ n ih =>
    rw [Level.free] at h
    split at h
    · cases h
    · next e1 =>
      split at h
      · cases h
      · next e2 =>
        by_cases hj : j = 3 - n
        · subst hj
          exact ⟨by rw [e1]; simp, by rw [e2]; simp⟩
        · exact ih h (by omega)

theorem freeIn_spec {l : Level K V} {b p : Nat} {n : Nat} (hn : n ≤ 4) (h : l.freeIn b n = some p) : l.slot p = none ∧ p / 4 = b := by
  induction n with
  | zero => cases h
  | succ n ih =>
    rw [Level.freeIn] at h
    split at h
    · next e => cases h; exact ⟨e, by omega⟩
    · exact ih (by omega) h

/-- `x` comes to the entries of a level. -/
def Adds (f s : K → Nat) (l l' : Level K V) (x : K × V) : Prop :=
  LInv f s l' ∧ l'.cap = l.cap ∧ ∀ P, tot l' P = tot l P + if P x then 1 else 0

theorem adds_set {l : Level K V} (h : LInv f s l) {x : K × V} {p : Nat} (hp : l.slot p = none) (hh : Home f s l.cap x.1 (p / 4)) :
    Adds f s l (l.set p (some x)) x := by
  refine ⟨h.set (fun y e => by cases e; exact hh), rfl, fun q => ?_⟩
  have := hh.lt h.cap
  have := tot_set (l := l) (i := p) (by omega) q (some x)
  rw [hp] at this
  simpa using this

theorem tryMove_spec {l l' : Level K V} (h : LInv f s l) {b : Nat} {x : K × V} (hb : Home f s l.cap x.1 b) {n : Nat} (hn : n ≤ 4)
    (e : l.tryMove f s b x n = .done (some l')) : Adds f s l l' x := by
  induction n with
  | zero => cases e
  | succ n ih =>
    rw [Level.tryMove] at e
    split at e
    · cases e
    · next y hy =>
      obtain ⟨⟨fi, si⟩, e1, e⟩ := out_bind e
      obtain ⟨hc, hfs⟩ := idx_done e1
      simp only [Prod.mk.injEq] at hfs
      obtain ⟨rfl, rfl⟩ := hfs
      simp only at e
      split at e
      · next p hp =>
        cases e
        obtain ⟨h1, h2⟩ := freeIn_spec (Nat.le_refl _) hp
        have hne : p ≠ 4 * b + (3 - n) := fun c => by rw [c, hy] at h1; cases h1
        obtain ⟨a1, a2, a3⟩ := adds_set h h1 (x := y) (by
          rw [h2]
          unfold Home
          split
          · exact .inr rfl
          · exact .inl rfl)
        have hi : (4 * b + (3 - n)) / 4 = b := by omega
        refine ⟨a1.set (fun z e => by cases e; rw [hi]; exact hb), rfl, fun q => ?_⟩
        have hlt := hb.lt h.cap
        have := tot_set (l := l.set p (some y)) (i := 4 * b + (3 - n)) (by rw [a2]; omega) q (some x)
        have hs : (l.set p (some y)).slot (4 * b + (3 - n)) = some y := by
          simp only [Level.set]
          rw [if_neg (Ne.symm hne), hy]
        rw [hs, a3 q] at this
        simp only [Option.any_some] at this
        omega
      · exact ih (by omega) e

/-! ## `expand` -/

theorem moveSlots_spec {bot new bot' new' : Level K V} (hb : LInv f s bot) (hn : LInv f s new) {n : Nat}
    (e : moveSlots f s n bot new = .done (bot', new')) :
    LInv f s bot' ∧ LInv f s new' ∧ bot'.cap = bot.cap ∧ new'.cap = new.cap ∧ (∀ P, tot bot' P + tot new' P = tot bot P + tot new P) ∧
    (∀ i, bot'.slot i = if i < n then none else bot.slot i) := by
  induction n generalizing bot' new' with
  | zero => cases e; exact ⟨hb, hn, rfl, rfl, fun _ => rfl, fun _ => rfl⟩
  | succ n ih =>
    obtain ⟨⟨b1, n1⟩, e1, e⟩ := out_bind e
    obtain ⟨g1, g2, g3, g4, g5, g6⟩ := ih e1
    simp only at e
    split at e
    · next hs =>
      cases e
      refine ⟨g1, g2, g3, g4, g5, fun i => ?_⟩
      rw [g6]
      by_cases hi : i = n
      · subst hi
        rw [g6] at hs
        rw [hs, if_pos (by omega)]
      · by_cases h : i < n
        · rw [if_pos h, if_pos (by omega)]
        · rw [if_neg h, if_neg (by omega)]
    · next x hs =>
      obtain ⟨⟨a, b⟩, e2, e⟩ := out_bind e
      obtain ⟨hc, hab⟩ := idx_done e2
      simp only [Prod.mk.injEq] at hab
      obtain ⟨rfl, rfl⟩ := hab
      simp only at e
      split at e
      · next p hp =>
        cases e
        obtain ⟨f1, f2⟩ := free_spec (Nat.le_refl _) hp
        obtain ⟨a1, a2, a3⟩ := adds_set g2 f1 (x := x) f2
        refine ⟨g1.set (fun y e => by cases e), a1, g3, a2.trans g4, fun q => ?_, fun i => ?_⟩
        · have := tot_set (l := b1) (g1.lt hs) q none
          have h5 := g5 q
          have h3 := a3 q
          rw [hs] at this
          simp only [Option.any_some, Option.any_none, Bool.false_eq_true, if_false] at this
          omega
        · simp only [Level.set]
          rw [g6]
          by_cases hi : i = n
          · rw [if_pos hi, if_pos (by omega)]
          · rw [if_neg hi]
            by_cases h : i < n
            · rw [if_pos h, if_pos (by omega)]
            · rw [if_neg h, if_neg (by omega)]
      · cases e

/-! ## The table -/

/-- The entries of both levels are those of the list. -/
structure Inv (f s : K → Nat) (ps : List (K × V)) (t : Table K V) : Prop where
  top : LInv f s t.top
  bot : LInv f s t.bot
  count : ∀ P, ps.countP P = tot t.top P + tot t.bot P

theorem inv_new {power threads : Nat} (h : 2 ≤ power) : Inv f s [] (Table.new power threads : Table K V) := by
  have h1 : ∀ n, 1 ≤ n → 2 ≤ 2 ^ n := fun n hn => by
    have := Nat.pow_le_pow_right (show 0 < 2 by omega) hn
    simpa using this
  refine ⟨LInv.new (h1 _ (by omega)), LInv.new (h1 _ (by omega)), fun q => ?_⟩
  simp only [Table.new]
  rw [tot_new, tot_new]
  rfl

theorem Inv.expand {ps : List (K × V)} {t t' : Table K V} (h : Inv f s ps t) (e : t.expand f s = .done t') : Inv f s ps t' := by
  unfold Table.expand at e
  obtain ⟨⟨b, n⟩, e1, e⟩ := out_bind e
  cases e
  have := h.top.cap
  obtain ⟨g1, g2, g3, g4, g5, g6⟩ := moveSlots_spec h.bot (LInv.new (by omega)) e1
  refine ⟨g2, h.top, fun q => ?_⟩
  simp only
  have h0 : tot b q = 0 := by
    rcases Nat.eq_zero_or_pos (tot b q) with h0 | h0
    · exact h0
    · obtain ⟨i, h1, h2⟩ := cnt_pos.mp h0
      rw [g6, if_pos (by rw [g3] at h1; exact h1)] at h2
      cases h2
  have h5 := g5 q
  rw [tot_new] at h5
  rw [h.count q]
  omega

theorem Inv.cross {ps : List (K × V)} {t t' : Table K V} (h : Inv f s ps t) (e : t.cross f s = .done t') : Inv f s ps t' := by
  unfold Table.cross at e
  split at e
  · split at e
    · cases e
    · exact h.expand e
  · cases e
    exact h

theorem Inv.addTop {ps : List (K × V)} {t : Table K V} (h : Inv f s ps t) {l : Level K V} {x : K × V} (a : Adds f s t.top l x) :
    Inv f s (x :: ps) { t with top := l } := by
  refine ⟨a.1, h.bot, fun q => ?_⟩
  simp only
  rw [List.countP_cons, a.2.2 q, h.count q]
  omega

theorem Inv.addBot {ps : List (K × V)} {t : Table K V} (h : Inv f s ps t) {l : Level K V} {x : K × V} (a : Adds f s t.bot l x) :
    Inv f s (x :: ps) { t with bot := l } := by
  refine ⟨h.top, a.1, fun q => ?_⟩
  simp only
  rw [List.countP_cons, a.2.2 q, h.count q]
  omega

theorem Inv.pass {ps : List (K × V)} {t t' : Table K V} (h : Inv f s ps t) {x : K × V} (e : t.pass f s x = .done (some t')) :
    Inv f s (x :: ps) t' := by
  unfold Table.pass at e
  obtain ⟨⟨a, b⟩, e1, e⟩ := out_bind e
  obtain ⟨-, hab⟩ := idx_done e1
  simp only [Prod.mk.injEq] at hab
  simp only at e
  split at e
  · next p hp =>
    cases e
    obtain ⟨f1, f2⟩ := free_spec (Nat.le_refl _) hp
    exact h.addTop (adds_set h.top f1 (by rw [hab.1, hab.2] at f2; exact f2))
  obtain ⟨⟨a', b'⟩, e2, e⟩ := out_bind e
  obtain ⟨-, hab'⟩ := idx_done e2
  simp only [Prod.mk.injEq] at hab'
  simp only at e
  split at e
  · next p hp =>
    cases e
    obtain ⟨f1, f2⟩ := free_spec (Nat.le_refl _) hp
    exact h.addBot (adds_set h.bot f1 (by rw [hab'.1, hab'.2] at f2; exact f2))
  obtain ⟨r1, g1, e⟩ := out_bind e
  cases r1 with
  | some l => cases e; exact h.addTop (tryMove_spec h.top (.inl hab.1) (Nat.le_refl _) g1)
  | none =>
  obtain ⟨r2, g2, e⟩ := out_bind e
  cases r2 with
  | some l => cases e; exact h.addTop (tryMove_spec h.top (.inr hab.2) (Nat.le_refl _) g2)
  | none =>
  obtain ⟨r3, g3, e⟩ := out_bind e
  cases r3 with
  | some l => cases e; exact h.addBot (tryMove_spec h.bot (.inl hab'.1) (Nat.le_refl _) g3)
  | none =>
  obtain ⟨r4, g4, e⟩ := out_bind e
  cases r4 with
  | some l => cases e; exact h.addBot (tryMove_spec h.bot (.inr hab'.2) (Nat.le_refl _) g4)
  | none => cases e

theorem Inv.resize {ps : List (K × V)} {t : Table K V} (h : Inv f s ps t) (b : Bool) : Inv f s ps { t with resize := b } :=
  ⟨h.top, h.bot, h.count⟩

theorem Inv.insert {ps : List (K × V)} {t t' : Table K V} (h : Inv f s ps t) {x : K × V} {n : Nat} (e : t.insert f s x n = .done t') :
    Inv f s (x :: ps) t' := by
  induction n generalizing t with
  | zero => cases e
  | succ n ih =>
    rw [Table.insert] at e
    obtain ⟨t1, e1, e⟩ := out_bind e
    obtain ⟨r, e2, e⟩ := out_bind e
    cases r with
    | some t2 => cases e; exact (h.cross e1).pass e2
    | none => exact ih ((h.cross e1).resize true) e

/-! ## `query`, `erase` and `update` -/

theorem find_some {l : Level K V} {k : K} {b i n : Nat} (e : l.find k b n = some i) : ∃ v, l.slot i = some (k, v) := by
  induction n with
  | zero => cases e
  | succ n ih =>
    rw [Level.find] at e
    split at e
    · exact ih e
    · next y hy =>
      split at e
      · next hk =>
        cases e
        exact ⟨y.2, by rw [hy, ← hk]⟩
      · exact ih e

theorem find_none {l : Level K V} {k : K} {b n : Nat} (e : l.find k b n = none) {j : Nat} (h1 : 4 - n ≤ j) (h2 : j < 4) (v : V) :
    l.slot (4 * b + j) ≠ some (k, v) := by
  induction n with
  | zero => omega
  | succ n ih =>
    rw [Level.find] at e
    have h3 : l.find k b n = none → l.slot (4 * b + (3 - n)) ≠ some (k, v) → l.slot (4 * b + j) ≠ some (k, v) := fun h4 h5 => by
      by_cases hj : j = 3 - n
      · rw [hj]; exact h5
      · exact ih h4 (by omega)
    split at e
    · next hy => exact h3 e (by rw [hy]; simp)
    · next y hy =>
      split at e
      · cases e
      · next hk =>
        refine h3 e (fun c => ?_)
        rw [hy] at c
        cases c
        exact hk rfl

theorem locate_spec {l : Level K V} (h : LInv f s l) (k : K) :
    ∃ r, l.locate f s k = .done r ∧ (∀ i, r = some i → ∃ v, l.slot i = some (k, v)) ∧ (r = none → ∀ i v, l.slot i ≠ some (k, v)) := by
  have hc := h.cap
  unfold Level.locate idx
  rw [if_neg (by omega)]
  simp only [out_done]
  split
  · next i hi => exact ⟨_, rfl, fun j e => by cases e; exact find_some hi, fun e => by cases e⟩
  · next hn =>
    refine ⟨_, rfl, fun i e => find_some e, fun e i v hs => ?_⟩
    have hi : 4 * (i / 4) + i % 4 = i := by omega
    rcases h.home i (k, v) hs with hh | hh
    · rw [← hh] at hn
      exact find_none hn (j := i % 4) (by omega) (by omega) v (by rw [hi]; exact hs)
    · rw [← hh] at e
      exact find_none e (j := i % 4) (by omega) (by omega) v (by rw [hi]; exact hs)

theorem Inv.mem {ps : List (K × V)} {t : Table K V} (h : Inv f s ps t) (q : K × V) :
    q ∈ ps ↔ (∃ i, t.top.slot i = some q) ∨ ∃ i, t.bot.slot i = some q := by
  have h1 : 0 < ps.countP (fun x => decide (x = q)) ↔ q ∈ ps := by
    rw [List.countP_pos_iff]
    simp
  have h2 : ∀ l : Level K V, LInv f s l → (0 < tot l (fun x => decide (x = q)) ↔ ∃ i, l.slot i = some q) := fun l hl => by
    rw [tot_pos hl]
    simp
  rw [← h1, h.count, ← h2 _ h.top, ← h2 _ h.bot]
  omega

theorem countP_rest {ps : List (K × V)} {y : K × V} (hm : y ∈ ps) (P : K × V → Bool) :
    ps.countP P = (ps.erase y).countP P + if P y then 1 else 0 := by
  rw [(List.perm_cons_erase hm).countP_eq P, List.countP_cons]

/-- One slot of the top level changes. -/
theorem Inv.setTop {ps : List (K × V)} {t : Table K V} (h : Inv f s ps t) {i : Nat} {y : K × V} (hy : t.top.slot i = some y) :
    Inv f s (ps.erase y) { t with top := t.top.set i none } ∧
    ∀ x, x.1 = y.1 → Inv f s (x :: ps.erase y) { t with top := t.top.set i (some x) } := by
  have hm := (h.mem y).mpr (.inl ⟨i, hy⟩)
  refine ⟨⟨h.top.set (fun z e => by cases e), h.bot, fun P => ?_⟩, fun x hx => ⟨h.top.set (fun z e => ?_), h.bot, fun P => ?_⟩⟩
  · have h1 := tot_set (h.top.lt hy) P none
    have h2 := h.count P
    rw [hy] at h1
    have h3 := countP_rest hm P
    simp only [Option.any_some, Option.any_none, Bool.false_eq_true, if_false] at h1 ⊢
    omega
  · cases e
    rw [hx]
    exact h.top.home i y hy
  · have h1 := tot_set (h.top.lt hy) P (some x)
    have h2 := h.count P
    rw [hy] at h1
    have h3 := countP_rest hm P
    rw [List.countP_cons]
    simp only [Option.any_some] at h1 ⊢
    omega

/-- One slot of the bottom level changes. -/
theorem Inv.setBot {ps : List (K × V)} {t : Table K V} (h : Inv f s ps t) {i : Nat} {y : K × V} (hy : t.bot.slot i = some y) :
    Inv f s (ps.erase y) { t with bot := t.bot.set i none } ∧
    ∀ x, x.1 = y.1 → Inv f s (x :: ps.erase y) { t with bot := t.bot.set i (some x) } := by
  have h' : Inv f s ps { t with top := t.bot, bot := t.top } := ⟨h.bot, h.top, fun P => by rw [h.count P, Nat.add_comm]⟩
  obtain ⟨g1, g2⟩ := h'.setTop (i := i) (y := y) hy
  refine ⟨⟨h.top, g1.top, fun P => ?_⟩, fun x hx => ⟨h.top, (g2 x hx).top, fun P => ?_⟩⟩
  · rw [g1.count P, Nat.add_comm]
  · rw [(g2 x hx).count P, Nat.add_comm]

end PMap.LevelHash
