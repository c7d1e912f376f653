import Verif.Durable.Last
import Verif.Own.Spec

/-!
# What a thread knows when it writes a key that only it changes (proof machinery)

`jwp own t F Q p xs`: the program `p`, run by the thread `t` from the point `xs` on within the execution `F`, while the other
threads leave the keys of `t` alone, makes only compare-and-swaps that meet `OGuard`; if it returns `a` at `ys`, then `Q a ys`.
-/

namespace PMap

open Prog

variable {hash : Word → Word} {n : Nat} {s : Sys} {F : List Sched} {L : Nat} {own : Word → Nat} {t : Nat} {α β σ : Type}

/-- An execution before the first growth in which words whose dirty bit is off are in the file. -/
structure Shared (hash : Word → Word) (n : Nat) (s : Sys) (F : List Sched) (L : Nat) : Prop extends Still hash n s F L where
  empty : ∀ ys, ys <+: F → ∀ i, i < L → clean ((s.exec hash n ys).mem.word (.key 0 i)) = KINITIAL →
    clean ((s.exec hash n ys).mem.word (.val 0 i)) = VINITIAL
  path : ∀ ys, ys <+: F → ∀ i, i < L → clean ((s.exec hash n ys).mem.word (.key 0 i)) ≠ KINITIAL →
    clean ((s.exec hash n ys).mem.word (.key 0 i)) ≠ KTOMBSTONE →
    ∃ d, d < reprobeLimit L ∧ i = probeSlot hash (clean ((s.exec hash n ys).mem.word (.key 0 i))) L d ∧
      ∀ e, e < d → clean ((s.exec hash n ys).mem.word
        (.key 0 (probeSlot hash (clean ((s.exec hash n ys).mem.word (.key 0 i))) L e))) ≠ KINITIAL

/-- Between `xs` and `ys` the keys of `t` are left alone: none is put into a slot, and their values at most lose the dirty bit.
Key words lose their dirty bit or get a key. -/
structure Spared (hash : Word → Word) (n : Nat) (s : Sys) (L : Nat) (own : Word → Nat) (t : Nat) (F xs ys : List Sched) : Prop where
  le : xs <+: ys
  inF : ys <+: F
  key : ∀ i, i < L → clean ((s.exec hash n ys).mem.word (.key 0 i)) ≠ KINITIAL →
    own (clean ((s.exec hash n ys).mem.word (.key 0 i))) = t →
    clean ((s.exec hash n xs).mem.word (.key 0 i)) = clean ((s.exec hash n ys).mem.word (.key 0 i))
  kword : ∀ i, i < L → clean ((s.exec hash n ys).mem.word (.key 0 i)) = clean ((s.exec hash n xs).mem.word (.key 0 i)) →
    (s.exec hash n ys).mem.word (.key 0 i) = (s.exec hash n xs).mem.word (.key 0 i) ∨
      (s.exec hash n ys).mem.word (.key 0 i) = clean ((s.exec hash n xs).mem.word (.key 0 i))
  val : ∀ i, i < L → clean ((s.exec hash n xs).mem.word (.key 0 i)) ≠ KINITIAL →
    own (clean ((s.exec hash n xs).mem.word (.key 0 i))) = t →
    (s.exec hash n ys).mem.word (.val 0 i) = (s.exec hash n xs).mem.word (.val 0 i) ∨
      (s.exec hash n ys).mem.word (.val 0 i) = clean ((s.exec hash n xs).mem.word (.val 0 i))

theorem Spared.trans (hF : Shared hash n s F L) {xs ys zs : List Sched} (h1 : Spared hash n s L own t F xs ys)
    (h2 : Spared hash n s L own t F ys zs) : Spared hash n s L own t F xs zs := by
  refine ⟨h1.le.trans h2.le, h2.inF, fun i hi h3 h4 => ?_, fun i hi h3 => ?_, fun i hi h3 h4 => ?_⟩
  · have e := h2.key i hi h3 h4
    rw [← e] at h3 h4 ⊢
    exact h1.key i hi h3 h4
  · have e : clean ((s.exec hash n ys).mem.word (.key 0 i)) = clean ((s.exec hash n xs).mem.word (.key 0 i)) := by
      by_cases hx : clean ((s.exec hash n xs).mem.word (.key 0 i)) = KINITIAL
      · by_contra hne
        rw [hx] at hne h3
        have := hF.key ys zs h2.le h2.inF i hi hne
        exact hne (this.symm.trans h3)
      · exact hF.key xs ys h1.le h1.inF i hi hx
    rcases h1.kword i hi e with g1 | g1 <;> rcases h2.kword i hi (h3.trans e.symm) with g2 | g2 <;> rw [g1] at g2
    · exact .inl g2
    · exact .inr g2
    · exact .inr g2
    · right; rw [g2, clean_clean]
  · have e := hF.key xs ys h1.le h1.inF i hi h3
    rcases h1.val i hi h3 h4 with g1 | g1 <;> rcases h2.val i hi (by rw [e]; exact h3) (by rw [e]; exact h4) with g2 | g2 <;>
      rw [g1] at g2
    · exact .inl g2
    · exact .inr g2
    · exact .inr g2
    · right; rw [g2, clean_clean]

/-- A step that at most clears dirty bits. -/
theorem spared_of {xs ys : List Sched} (hle : xs <+: ys) (hF : ys <+: F)
    (h : ∀ b, b.tab = 0 → (s.exec hash n ys).mem.word b = (s.exec hash n xs).mem.word b ∨
      (s.exec hash n ys).mem.word b = clean ((s.exec hash n xs).mem.word b)) : Spared hash n s L own t F xs ys := by
  refine ⟨hle, hF, fun i _ _ _ => ?_, fun i _ _ => h _ rfl, fun i _ _ _ => h _ rfl⟩
  rcases h (.key 0 i) rfl with e | e
  · rw [e]
  · rw [e, clean_clean]

theorem Spared.refl {xs : List Sched} (hx : xs <+: F) : Spared hash n s L own t F xs xs :=
  spared_of (List.prefix_refl _) hx fun _ _ => .inl rfl

/-- The slots before number `d` on the way of `k` have other keys. -/
def WayIn (hash : Word → Word) (n : Nat) (s : Sys) (L : Nat) (k : Word) (d : Nat) (xs : List Sched) : Prop :=
  ∀ e, e < d → clean ((s.exec hash n xs).mem.word (.key 0 (probeSlot hash k L e))) ≠ KINITIAL ∧
    clean ((s.exec hash n xs).mem.word (.key 0 (probeSlot hash k L e))) ≠ k

theorem WayIn.later (hF : Shared hash n s F L) {k : Word} {d : Nat} {xs ys : List Sched} (h : WayIn hash n s L k d xs)
    (hp : xs <+: ys) (hy : ys <+: F) : WayIn hash n s L k d ys := fun e he => by
  rw [hF.key xs ys hp hy _ (hF.slot_lt k e) (h e he).1]
  exact h e he

/-- The key `k` of slot `i` and those on the way to it are in the file. -/
def InFile (hash : Word → Word) (n : Nat) (s : Sys) (L : Nat) (k : Word) (i : Nat) (xs : List Sched) : Prop :=
  ∃ d, d < reprobeLimit L ∧ i = probeSlot hash k L d ∧ WayTo hash n s L k d xs ∧ KeySafe hash n s i k xs

theorem InFile.later (hF : Shared hash n s F L) {k : Word} (hk : k ≠ KINITIAL) {i : Nat} {xs ys : List Sched}
    (h : InFile hash n s L k i xs) (hp : xs <+: ys) (hy : ys <+: F) : InFile hash n s L k i ys := by
  obtain ⟨d, h1, rfl, h3, h4⟩ := h
  exact ⟨d, h1, rfl, h3.later hF.toStill hp hy, h4.later hF.toStill (hF.slot_lt k d) hk hp hy⟩

/-- What is known when `t` changes a word of table 0 by a compare-and-swap: it clears the dirty bit; or it puts a key of its own
where the probe path leads; or it replaces a value of its own that is not dirty, and then the key and the way to it are in the
file unless there was no value yet. -/
def OGuard (hash : Word → Word) (n : Nat) (s : Sys) (L : Nat) (own : Word → Nat) (t : Nat) (ys : List Sched) : Act → Prop
  | .cas (.key 0 i) e v => (s.exec hash n ys).mem.word (.key 0 i) = e → v = clean e ∨
      (clean e = KINITIAL ∧ own (clean v) = t ∧ clean v ≠ KINITIAL ∧ clean v ≠ KTOMBSTONE ∧
        ∃ d, d < reprobeLimit L ∧ i = probeSlot hash (clean v) L d ∧ WayIn hash n s L (clean v) d ys)
  | .cas (.val 0 i) e v => (s.exec hash n ys).mem.word (.val 0 i) = e → v = clean e ∨
      (∃ k, clean ((s.exec hash n ys).mem.word (.key 0 i)) = k ∧ k ≠ KINITIAL ∧ own k = t ∧ isDirty e = false ∧
        (clean e = VINITIAL ∨ InFile hash n s L k i ys))
  | _ => True

/-- See the head of this file. -/
def jwp (hash : Word → Word) (n : Nat) (s : Sys) (F : List Sched) (L : Nat) (own : Word → Nat) (t : Nat)
    (Q : α → List Sched → Prop) : Prog α → List Sched → Prop
  | .ret a, xs => Q a xs
  | .halt _, _ => True
  | .act a k, xs => ∀ ys x r m', Spared hash n s L own t F xs ys → ys ++ [x] <+: F → a.exec (s.exec hash n ys).mem = some (r, m') →
      (s.exec hash n (ys ++ [x])).mem = m' → OGuard hash n s L own t ys a ∧ jwp hash n s F L own t Q (k r) (ys ++ [x])

theorem jwp_mono {Q Q' : α → List Sched → Prop} {p : Prog α} {xs : List Sched} (h : jwp hash n s F L own t Q p xs)
    (hq : ∀ a ys, Q a ys → Q' a ys) : jwp hash n s F L own t Q' p xs := by
  induction p generalizing xs with
  | ret a => exact hq _ _ h
  | halt x => trivial
  | act a k ih => exact fun ys x r m' h1 h2 h3 h4 => ⟨(h ys x r m' h1 h2 h3 h4).1, ih r (h ys x r m' h1 h2 h3 h4).2⟩

theorem jwp_bind {Q : β → List Sched → Prop} {p : Prog α} {f : α → Prog β} {xs : List Sched}
    (h : jwp hash n s F L own t (fun a ys => jwp hash n s F L own t Q (f a) ys) p xs) : jwp hash n s F L own t Q (p >>= f) xs := by
  show jwp hash n s F L own t Q (p.bind f) xs
  induction p generalizing xs with
  | ret a => exact h
  | halt x => trivial
  | act a k ih => exact fun ys x r m' h1 h2 h3 h4 => ⟨(h ys x r m' h1 h2 h3 h4).1, ih r (h ys x r m' h1 h2 h3 h4).2⟩

theorem jwp_pure {Q : α → List Sched → Prop} {a : α} {xs : List Sched} (h : Q a xs) : jwp hash n s F L own t Q (pure a) xs := h

theorem jwp_loop {body : σ → Prog (Ctl σ α)} {Q : α → List Sched → Prop} (I : σ → List Sched → Prop)
    (hb : ∀ x xs, I x xs → jwp hash n s F L own t (LoopPost I Q) (body x) xs)
    (k : Nat) : ∀ x xs, I x xs → jwp hash n s F L own t Q (loop k body x) xs := by
  induction k with
  | zero => intro x xs _; trivial
  | succ k ih =>
    intro x xs hI
    refine jwp_bind (jwp_mono (hb x xs hI) ?_)
    rintro (x' | a) ys h
    · exact ih x' ys h
    · exact h

theorem jwp_do1 {a : Act} {Q : a.Resp → List Sched → Prop} {xs : List Sched}
    (h : ∀ ys x r m', Spared hash n s L own t F xs ys → ys ++ [x] <+: F → a.exec (s.exec hash n ys).mem = some (r, m') →
      (s.exec hash n (ys ++ [x])).mem = m' → OGuard hash n s L own t ys a ∧ Q r (ys ++ [x])) :
    jwp hash n s F L own t Q (do1 a) xs := h

theorem plain_oguard {a : Act} (ha : a.plain = true) {ys : List Sched} : OGuard hash n s L own t ys a := by
  cases a <;> trivial

theorem spared_plain {a : Act} (ha : a.plain = true) {ys : List Sched} {x : Sched} {r : a.Resp} {m' : Mem} (h2 : ys ++ [x] <+: F)
    (h3 : a.exec (s.exec hash n ys).mem = some (r, m')) (h4 : (s.exec hash n (ys ++ [x])).mem = m') :
    Spared hash n s L own t F ys (ys ++ [x]) :=
  spared_of (List.prefix_append ..) h2 fun b _ => .inl (by rw [h4, plain_word ha h3])

theorem jwp_plain (hF : Shared hash n s F L) {a : Act} (ha : a.plain = true) {Q : a.Resp → List Sched → Prop} {xs : List Sched}
    (h : ∀ ys r, Spared hash n s L own t F xs ys → (∃ y0 m', y0 <+: F ∧ a.exec (s.exec hash n y0).mem = some (r, m')) → Q r ys) :
    jwp hash n s F L own t Q (do1 a) xs := fun ys _ r m' h1 h2 h3 h4 =>
  ⟨plain_oguard ha, h _ r (h1.trans hF (spared_plain ha h2 h3 h4)) ⟨ys, m', (List.prefix_append ..).trans h2, h3⟩⟩

theorem oguard_clear {ys : List Sched} (a : Addr) (w : Word) : OGuard hash n s L own t ys (.cas a w (clearMark w DirtyFlag)) := by
  cases a with
  | key t i =>
    cases t with
    | zero => exact fun _ => .inl rfl
    | succ t => trivial
  | val t i =>
    cases t with
    | zero => exact fun _ => .inl rfl
    | succ t => trivial

/-- `pcas_read` at `a`.  If the others at most clear the dirty bit, it is off afterwards unless the word has changed. -/
theorem jwp_pcasRead (hF : Shared hash n s F L) {a : Addr} {xs : List Sched}
    (hd : ∀ ys, ys <+: F → Durable (s.exec hash n ys).mem a) :
    jwp hash n s F L own t (fun w ys => Spared hash n s L own t F xs ys ∧ Seen hash n s xs a w ys ∧
        (∃ y0, Spared hash n s L own t F xs y0 ∧ Spared hash n s L own t F y0 ys ∧ clean ((s.exec hash n y0).mem.word a) = w) ∧
        ((∀ y z, Spared hash n s L own t F xs y → Spared hash n s L own t F y z →
          clean ((s.exec hash n z).mem.word a) = clean ((s.exec hash n y).mem.word a) →
          (s.exec hash n z).mem.word a = (s.exec hash n y).mem.word a ∨
            (s.exec hash n z).mem.word a = clean ((s.exec hash n y).mem.word a)) →
          clean ((s.exec hash n ys).mem.word a) = w → (s.exec hash n ys).mem.word a = w))
      (pcasRead a) xs := by
  refine jwp_bind (jwp_do1 fun ys x r m' h1 h2 h3 h4 => ⟨trivial, ?_⟩)
  have c1 := h1.trans hF (spared_plain (a := .load a) rfl h2 h3 h4)
  have hys : ys <+: F := h1.inF
  have hw1 : ∀ b, (s.exec hash n (ys ++ [x])).mem.word b = (s.exec hash n ys).mem.word b := fun b => by
    rw [h4, plain_word (a := .load a) rfl h3]
  have cy := spared_plain (L := L) (own := own) (t := t) (a := .load a) rfl h2 h3 h4
  simp only [Act.exec] at h3
  split at h3
  · next hin =>
    cases h3
    split
    · refine jwp_bind (jwp_bind (jwp_do1 fun zs y r m' g1 g2 g3 g4 => ⟨trivial, ?_⟩))
      have c2 := cy.trans hF (g1.trans hF (spared_plain (a := .flush a) rfl g2 g3 g4))
      have hseen : Seen hash n s xs a (clean ((s.exec hash n ys).mem.word a)) (zs ++ [y]) := by
        refine ⟨ys, zs ++ [y], h1.le, c2.le, List.prefix_refl _, hin, rfl, ?_⟩
        rw [g4]
        simp only [Act.exec] at g3
        split at g3
        · cases g3; simp [writeBack]
        · cases g3
      refine jwp_bind (jwp_do1 fun us u r m' k1 k2 k3 k4 => ⟨trivial, ?_⟩)
      have c3 := c2.trans hF (k1.trans hF (spared_plain (a := .fence) rfl k2 k3 k4))
      refine jwp_bind (jwp_do1 fun vs v r m' l1 l2 l3 l4 => ⟨oguard_clear a _, jwp_pure (jwp_pure ?_)⟩)
      have c4 := c3.trans hF l1
      have hz2 : zs ++ [y] <+: vs ++ [v] := ((k1.le.trans (List.prefix_append ..)).trans l1.le).trans (List.prefix_append ..)
      simp only [Act.exec] at l3
      split at l3
      · split at l3
        · next hw =>
          cases l3
          have hword : ∀ b, (s.exec hash n (vs ++ [v])).mem.word b =
              if b = a then clean ((s.exec hash n vs).mem.word b) else (s.exec hash n vs).mem.word b := by
            intro b
            rw [l4]
            simp only [setWord]
            split
            · next e => subst e; rw [hw]; rfl
            · rfl
          have c5 : Spared hash n s L own t F vs (vs ++ [v]) := spared_of (List.prefix_append ..) l2 fun b _ => by
            rw [hword]
            split
            · exact .inr rfl
            · exact .inl rfl
          refine ⟨(h1.trans hF c4).trans hF c5, hseen.later hz2, ⟨ys, h1, c4.trans hF c5, rfl⟩, fun _ _ => ?_⟩
          rw [hword, if_pos rfl, hw]
        · next hw =>
          cases l3
          have c5 : Spared hash n s L own t F vs (vs ++ [v]) := spared_of (List.prefix_append ..) l2 fun b _ => .inl (by rw [l4])
          refine ⟨(h1.trans hF c4).trans hF c5, hseen.later hz2, ⟨ys, h1, c4.trans hF c5, rfl⟩, fun hst he => ?_⟩
          have hww : (s.exec hash n (vs ++ [v])).mem.word a = (s.exec hash n vs).mem.word a := by rw [l4]
          rw [hww] at he ⊢
          exact (hst ys vs h1 c4 he).resolve_left hw
      · cases l3
    · next hc =>
      rw [Bool.not_eq_true] at hc
      refine jwp_pure ⟨c1, Seen.snoc ⟨ys, ys, h1.le, List.prefix_refl _, List.prefix_refl _, hin, rfl, ?_⟩ x,
        ⟨ys, h1, cy, rfl⟩, fun _ _ => ?_⟩
      · rw [hd ys hys hc, clean_of_not_dirty hc]
      · rw [hw1, clean_of_not_dirty hc]
  · cases h3

/-- `pcas_read` of a key word. -/
theorem jwp_readKey (hF : Shared hash n s F L) {i : Nat} (hi : i < L) {xs : List Sched} :
    jwp hash n s F L own t (fun w ys => Spared hash n s L own t F xs ys ∧ (w ≠ KINITIAL → KeySafe hash n s i w ys) ∧
        (∃ y0, Spared hash n s L own t F xs y0 ∧ Spared hash n s L own t F y0 ys ∧
          clean ((s.exec hash n y0).mem.word (.key 0 i)) = w) ∧
        (clean ((s.exec hash n ys).mem.word (.key 0 i)) = w → (s.exec hash n ys).mem.word (.key 0 i) = w))
      (pcasRead (.key 0 i)) xs := by
  refine jwp_mono (jwp_pcasRead hF fun ys hy => hF.durK ys hy i hi) ?_
  rintro w ys ⟨h1, h2, h3, h4⟩
  exact ⟨h1, fun hw => h2.keySafe hF.toStill hi hw h1.inF, h3, h4 fun y z _ g2 e => g2.kword i hi e⟩

/-- `pcas_read` of the value word of a key of one's own. -/
theorem jwp_readVal (hF : Shared hash n s F L) {i : Nat} (hi : i < L) {xs : List Sched} :
    jwp hash n s F L own t (fun w ys => Spared hash n s L own t F xs ys ∧
        (∃ y0, Spared hash n s L own t F xs y0 ∧ Spared hash n s L own t F y0 ys ∧
          clean ((s.exec hash n y0).mem.word (.val 0 i)) = w) ∧
        (clean ((s.exec hash n xs).mem.word (.key 0 i)) ≠ KINITIAL → own (clean ((s.exec hash n xs).mem.word (.key 0 i))) = t →
          w = clean ((s.exec hash n xs).mem.word (.val 0 i)) ∧ (s.exec hash n ys).mem.word (.val 0 i) = w))
      (pcasRead (.val 0 i)) xs := by
  refine jwp_mono (jwp_pcasRead hF fun ys hy => hF.durV ys hy i hi) ?_
  rintro w ys ⟨h1, h2, ⟨y0, h3, h4, h5⟩, h6⟩
  refine ⟨h1, ⟨y0, h3, h4, h5⟩, fun g1 g2 => ?_⟩
  have hval : ∀ z, Spared hash n s L own t F xs z → clean ((s.exec hash n z).mem.word (.val 0 i)) =
      clean ((s.exec hash n xs).mem.word (.val 0 i)) := fun z hz => by
    rcases hz.val i hi g1 g2 with e | e <;> rw [e]
    exact clean_clean _
  have e := (hval y0 h3).symm.trans h5
  refine ⟨e.symm, h6 (fun y z f1 f2 _ => ?_) ((hval ys h1).trans e)⟩
  have hk := hF.key xs y f1.le f1.inF i hi g1
  exact f2.val i hi (by rw [hk]; exact g1) (by rw [hk]; exact g2)

/-- `k` is in no slot. -/
def Absent (hash : Word → Word) (n : Nat) (s : Sys) (L : Nat) (k : Word) (xs : List Sched) : Prop :=
  ∀ i, i < L → clean ((s.exec hash n xs).mem.word (.key 0 i)) ≠ k

theorem Absent.later {k : Word} (hk : k ≠ KINITIAL) (hown : own k = t) {xs ys : List Sched} (h : Absent hash n s L k xs)
    (hc : Spared hash n s L own t F xs ys) : Absent hash n s L k ys := fun i hi e =>
  h i hi ((hc.key i hi (by rw [e]; exact hk) (by rw [e]; exact hown)).trans e)

/-- `pcas` of a key word that was empty a moment ago. -/
theorem jwp_casKey (hF : Shared hash n s F L) {k : Word} (hk : clean k = k) (hk0 : k ≠ KINITIAL) (hkt : k ≠ KTOMBSTONE)
    (hown : own k = t) {d : Nat} (hd : d < reprobeLimit L) {xs : List Sched} (hw : WayIn hash n s L k d xs) :
    jwp hash n s F L own t (fun r ys => (r = KINITIAL ∧ ys <+: F ∧
          clean ((s.exec hash n ys).mem.word (.key 0 (probeSlot hash k L d))) = k ∧
          clean ((s.exec hash n ys).mem.word (.val 0 (probeSlot hash k L d))) = VINITIAL ∧
          clean ((s.exec hash n xs).mem.word (.key 0 (probeSlot hash k L d))) = KINITIAL) ∨
        (r ≠ KINITIAL ∧ Spared hash n s L own t F xs ys ∧
          clean ((s.exec hash n ys).mem.word (.key 0 (probeSlot hash k L d))) = clean r ∧ clean r ≠ KINITIAL))
      (casKey 0 (probeSlot hash k L d) KINITIAL k) xs := by
  have hi := hF.slot_lt k d
  refine jwp_bind (jwp_bind (jwp_mono (jwp_readKey hF hi) ?_))
  rintro w y1 ⟨hc, -, ⟨y0, f1, f2, f3⟩, f4⟩
  refine jwp_bind (jwp_do1 fun ys x r m' h1 h2 h3 h4 => ?_)
  have hcy := hc.trans hF h1
  refine ⟨fun _ => .inr ⟨by decide, by rw [clean_dirty, hk]; exact hown, by rw [clean_dirty, hk]; exact hk0,
    by rw [clean_dirty, hk]; exact hkt, d, hd, by rw [clean_dirty, hk], ?_⟩, ?_⟩
  · rw [clean_dirty, hk]
    exact hw.later hF hcy.le hcy.inF
  · simp only [Act.exec] at h3
    split at h3
    · split at h3
      · next he =>
        cases h3
        have hKI : clean ((s.exec hash n ys).mem.word (.key 0 (probeSlot hash k L d))) = KINITIAL := by rw [he]; decide
        have hxI : clean ((s.exec hash n xs).mem.word (.key 0 (probeSlot hash k L d))) = KINITIAL := by
          by_contra hne
          exact hne ((hF.key xs ys hcy.le hcy.inF _ hi hne).symm.trans hKI)
        have hk1 : clean ((s.exec hash n (ys ++ [x])).mem.word (.key 0 (probeSlot hash k L d))) = k := by
          rw [h4]; simp only [setWord, if_true, clean_dirty, hk]
        have hv1 : clean ((s.exec hash n (ys ++ [x])).mem.word (.val 0 (probeSlot hash k L d))) = VINITIAL := by
          rw [h4]; simp only [setWord]
          rw [if_neg (by simp)]
          exact hF.empty ys hcy.inF _ hi hKI
        refine jwp_bind (jwp_plain hF rfl fun zs r' g1 _ => jwp_pure (jwp_pure (.inl ⟨rfl, g1.inF, ?_, ?_, hxI⟩)))
        · rw [hF.key _ zs g1.le g1.inF _ hi (by rw [hk1]; exact hk0), hk1]
        · rcases g1.val _ hi (by rw [hk1]; exact hk0) (by rw [hk1]; exact hown) with e | e <;> rw [e]
          · exact hv1
          · rw [clean_clean]; exact hv1
      · next he =>
        cases h3
        have c5 : Spared hash n s L own t F ys (ys ++ [x]) := spared_of (List.prefix_append ..) h2 fun b _ => .inl (by rw [h4])
        have hne : clean ((s.exec hash n ys).mem.word (.key 0 (probeSlot hash k L d))) ≠ KINITIAL := by
          intro e
          have h0 : w = KINITIAL := by
            rw [← f3]
            by_contra hne
            exact hne ((hF.key y0 ys (f2.le.trans h1.le) h1.inF _ hi hne).symm.trans e)
          have h0' : clean ((s.exec hash n y1).mem.word (.key 0 (probeSlot hash k L d))) = KINITIAL := by
            by_contra hne
            exact hne ((hF.key y1 ys h1.le h1.inF _ hi hne).symm.trans e)
          have hy1 := f4 (h0'.trans h0.symm)
          rcases h1.kword _ hi (e.trans h0'.symm) with e' | e'
          · exact he (e'.trans (hy1.trans h0))
          · exact he (e'.trans h0')
        refine jwp_bind (jwp_plain hF rfl fun zs r' g1 _ => jwp_pure (jwp_pure (.inr ⟨?_, (hcy.trans hF c5).trans hF g1, ?_, hne⟩)))
        · intro e
          exact he e
        · exact hF.key ys zs ((List.prefix_append ..).trans g1.le) g1.inF _ hi hne
    · cases h3

/-- `pcas` of a value word of one's own with the value it has succeeds. -/
theorem jwp_casVal (hF : Shared hash n s F L) {j : Nat} (hj : j < L) {V nv : Word} {xs : List Sched} {k : Word}
    (hV : clean ((s.exec hash n xs).mem.word (.val 0 j)) = V) (hk : k ≠ KINITIAL) (hown : own k = t)
    (hkey : clean ((s.exec hash n xs).mem.word (.key 0 j)) = k) (hs : V = VINITIAL ∨ InFile hash n s L k j xs) :
    jwp hash n s F L own t (fun r ys => r.2 = V ∧ ys <+: F) (pcas (.val 0 j) V nv) xs := by
  refine jwp_bind (jwp_mono (jwp_readVal hF hj) ?_)
  rintro w y1 ⟨hc, -, hval⟩
  obtain ⟨e1, e2⟩ := hval (by rw [hkey]; exact hk) (by rw [hkey]; exact hown)
  rw [hV] at e1
  subst e1
  refine jwp_bind (jwp_do1 fun ys x r m' h1 h2 h3 h4 => ?_)
  have hcy := hc.trans hF h1
  have hky : ∀ z, xs <+: z → z <+: F → clean ((s.exec hash n z).mem.word (.key 0 j)) = k := fun z g1 g2 => by
    rw [hF.key xs z g1 g2 j hj (by rw [hkey]; exact hk), hkey]
  have hcV : clean w = w := by rw [← hV, clean_clean]
  have hdV : isDirty w = false := by rw [← hV]; exact isDirty_clean _
  have he : (s.exec hash n ys).mem.word (.val 0 j) = w := by
    rcases h1.val j hj (by rw [hky y1 hc.le hc.inF]; exact hk) (by rw [hky y1 hc.le hc.inF]; exact hown) with e | e <;> rw [e, e2]
    exact hcV
  refine ⟨fun _ => .inr ⟨k, hky ys hcy.le hcy.inF, hk, hown, hdV, hs.imp (fun h => by rw [hcV]; exact h)
    fun h => h.later hF hk hcy.le hcy.inF⟩, ?_⟩
  simp only [Act.exec, he, if_true] at h3
  split at h3
  · cases h3
    exact jwp_bind (jwp_plain hF rfl fun zs r' g1 _ => jwp_pure ⟨rfl, g1.inF⟩)
  · cases h3

theorem jwp_resize (hF : Shared hash n s F L) {Q : Nat → List Sched → Prop} {xs : List Sched} :
    jwp hash n s F L own t Q (resize 0) xs := by
  refine jwp_bind (jwp_plain hF rfl fun ys r _ ⟨y0, m', h2, h3⟩ => ?_)
  obtain rfl := getNew_none hF.toStillTab h2 h3
  refine jwp_bind (jwp_plain hF rfl fun ys r _ _ => ?_)
  refine jwp_bind (jwp_plain hF rfl fun ys r _ _ => ?_)
  refine jwp_bind (jwp_plain hF rfl fun ys r _ ⟨y0, m', h2, h3⟩ => ?_)
  obtain rfl := getNew_none hF.toStillTab h2 h3
  refine jwp_bind (jwp_do1 fun ys x r m' h1 h2 h3 h4 => ⟨trivial, ?_⟩)
  cases r with
  | none => trivial
  | some nt =>
    refine jwp_bind (jwp_do1 fun ys x r m' h1 h2 h3 h4 => ?_)
    exfalso
    have g1 := hF.newT ys ((List.prefix_append ..).trans h2)
    have g2 := hF.newT (ys ++ [x]) h2
    simp only [Act.exec, g1, if_pos] at h3
    split at h3
    · cases h3
      rw [h4] at g2
      simp [upd] at g2
    · cases h3

theorem jwp_wantNewTable (hF : Shared hash n s F L) {d : Nat} {V : Word} {xs : List Sched} (hx : xs <+: F) :
    jwp hash n s F L own t (fun _ ys => Spared hash n s L own t F xs ys) (wantNewTable 0 d L V) xs := by
  unfold wantNewTable tableFull
  split
  · split
    · exact jwp_bind (jwp_bind (jwp_plain hF rfl fun ys r h _ => jwp_pure (jwp_pure h)))
    · exact jwp_bind (jwp_pure (jwp_pure (Spared.refl hx)))
  · exact jwp_pure (Spared.refl hx)

theorem jwp_adjustSize (hF : Shared hash n s F L) {V nv ov : Word} {xs : List Sched} :
    jwp hash n s F L own t (fun _ _ => True) (adjustSize 0 V nv ov) xs := by
  unfold adjustSize
  split
  · split
    · exact jwp_plain hF rfl fun _ _ _ _ => trivial
    · split
      · exact jwp_plain hF rfl fun _ _ _ _ => trivial
      · exact jwp_pure trivial
  · exact jwp_pure trivial

/-- What a thread knows about the slot of its key: its value, and that it is in the file unless there is no value yet. -/
structure MySlot (hash : Word → Word) (n : Nat) (s : Sys) (F : List Sched) (L : Nat) (k : Word) (j : Nat) (V : Word)
    (xs : List Sched) : Prop where
  lt : j < L
  inF : xs <+: F
  key : clean ((s.exec hash n xs).mem.word (.key 0 j)) = k
  val : clean ((s.exec hash n xs).mem.word (.val 0 j)) = V
  safe : V = VINITIAL ∨ InFile hash n s L k j xs

theorem MySlot.later (hF : Shared hash n s F L) {k : Word} (hk : k ≠ KINITIAL) (hown : own k = t) {j : Nat} {V : Word}
    {xs ys : List Sched} (h : MySlot hash n s F L k j V xs) (hc : Spared hash n s L own t F xs ys) :
    MySlot hash n s F L k j V ys := by
  refine ⟨h.lt, hc.inF, ?_, ?_, h.safe.imp_right fun g => g.later hF hk hc.le hc.inF⟩
  · rw [hF.key xs ys hc.le hc.inF j h.lt (by rw [h.key]; exact hk), h.key]
  · rcases hc.val j h.lt (by rw [h.key]; exact hk) (by rw [h.key]; exact hown) with e | e <;> rw [e]
    · exact h.val
    · rw [clean_clean]; exact h.val

/-- The update loop: its first compare-and-swap succeeds. -/
theorem jwp_update (hF : Shared hash n s F L) {cf : CasFn} {j : Nat} {nv ov : Word} (N : Nat) {k : Word}
    (hk : k ≠ KINITIAL) (hown : own k = t) {xs : List Sched} {V : Word} (hs : MySlot hash n s F L k j V xs) :
    jwp hash n s F L own t (fun u _ => ∃ w, u = .returned w) (loop N (updateBody cf 0 j nv ov) V) xs := by
  refine jwp_loop (fun V xs => MySlot hash n s F L k j V xs) ?_ N _ _ hs
  intro V xs hs
  refine jwp_bind (jwp_plain hF rfl fun ys _ h _ => ?_)
  have hs' := hs.later hF hk hown h
  split
  · exact jwp_pure ⟨_, rfl⟩
  · have hcall : jwp hash n s F L own t (fun r _ => r = V) (cf.call 0 j V nv) ys := by
      cases cf with
      | casValue => exact jwp_bind (jwp_mono (jwp_casVal hF hs'.lt hs'.val hk hown hs'.key hs'.safe) fun r zs h => jwp_pure h.1)
      | increment => exact jwp_bind (jwp_mono (jwp_casVal hF hs'.lt hs'.val hk hown hs'.key hs'.safe) fun r zs h => jwp_pure h.1)
    refine jwp_bind (jwp_mono hcall ?_)
    rintro _ zs rfl
    rw [if_pos rfl]
    exact jwp_bind (jwp_mono (jwp_adjustSize hF) fun _ _ _ => jwp_pure ⟨_, rfl⟩)

/-- How the probe loop of `putIfMatch` ends. -/
def AtMySlot (hash : Word → Word) (n : Nat) (s : Sys) (F : List Sched) (L : Nat) (k : Word) : Probe → List Sched → Prop
  | .slot j _ V, ys => MySlot hash n s F L k j V ys
  | _, _ => True

theorem jwp_probe (hF : Shared hash n s F L) {k nv : Word} (hk : clean k = k) (hk0 : k ≠ KINITIAL) (hkt : k ≠ KTOMBSTONE)
    (hown : own k = t) (N : Nat) {xs : List Sched} (hx : xs <+: F) :
    jwp hash n s F L own t (AtMySlot hash n s F L k) (loop N (probeBody 0 k nv L) (homePut hash k L, 0)) xs := by
  have h0 : homePut hash k L = probeSlot hash k L 0 := by
    obtain ⟨p, -, rfl⟩ := hF.pow
    rw [probeSlot, Nat.add_zero, homePut, and_len hF.pow, Nat.mod_mod]
  refine jwp_loop (fun (x : Nat × Nat) xs => xs <+: F ∧ x.1 = probeSlot hash k L x.2 ∧ x.2 < reprobeLimit L ∧
    WayIn hash n s L k x.2 xs ∧ (WayTo hash n s L k x.2 xs ∨ Absent hash n s L k xs)) ?_ N _ _
    ⟨hx, h0, by simp [reprobeLimit, REPROBE_LIMIT], fun e he => by simp at he, .inl fun e he => by simp at he⟩
  rintro ⟨j, d⟩ xs ⟨h1, h2, h3, h4, h5⟩
  simp only at h2 h3 h4 h5
  subst h2
  have hi := hF.slot_lt k d
  refine jwp_bind (jwp_mono (jwp_readKey hF hi) ?_)
  rintro K x1 ⟨c1, hsafe, ⟨y0, a1, a2, hy0⟩, -⟩
  refine jwp_bind (jwp_mono (jwp_readVal hF hi) ?_)
  rintro V x2 ⟨c2, ⟨z0, b1, b2, hz0⟩, hval⟩
  have c12 := c1.trans hF c2
  split
  · next hKI =>
    have hKI : K = KINITIAL := hKI
    split
    · exact jwp_pure trivial
    · refine jwp_bind (jwp_mono (jwp_casKey hF hk hk0 hkt hown h3 (h4.later hF c12.le c12.inF)) ?_)
      rintro r x3 (⟨rfl, g1, g2, g3, g4⟩ | ⟨g1, g2, g3, g4⟩)
      · rw [if_pos rfl]
        have hVI : V = VINITIAL := by
          rw [← hz0]
          refine hF.empty z0 b1.inF _ hi ?_
          by_contra hne
          exact hne ((hF.key z0 x2 b2.le b2.inF _ hi hne).symm.trans g4)
        have hslot : MySlot hash n s F L k (probeSlot hash k L d) V x3 := ⟨hi, g1, g2, by rw [hVI]; exact g3, .inl hVI⟩
        exact jwp_bind (jwp_plain hF rfl fun ys _ h _ => jwp_pure (hslot.later hF hk0 hown h))
      · rw [if_neg g1]
        have hc3 : Spared hash n s L own t F y0 x3 := (a2.trans hF c2).trans hF g2
        have hrk : clean r ≠ k := by
          intro e
          have := hc3.key _ hi (by rw [g3]; exact g4) (by rw [g3, e]; exact hown)
          rw [hy0, g3] at this
          exact g4 (this.symm.trans hKI)
        have hway : WayIn hash n s L k (d + 1) x3 := by
          intro e he
          rcases Nat.lt_succ_iff_lt_or_eq.mp he with he | rfl
          · exact h4.later hF (c12.trans hF g2).le g2.inF e he
          · rw [g3]; exact ⟨g4, hrk⟩
        have habs : Absent hash n s L k x3 := by
          intro i hi' e
          have e0 := hc3.key i hi' (by rw [e]; exact hk0) (by rw [e]; exact hown)
          rw [e] at e0
          obtain ⟨d', -, p2, p3⟩ := hF.path y0 a1.inF i hi' (by rw [e0]; exact hk0) (by rw [e0]; exact hkt)
          rw [e0] at p2 p3
          rcases Nat.lt_trichotomy d' d with hlt | rfl | hlt
          · have := (h4.later hF a1.le a1.inF d' hlt).2
            rw [← p2] at this; exact this e0
          · rw [← p2] at hy0
            rw [e0] at hy0
            exact hk0 (hy0.trans hKI)
          · exact p3 d hlt (hy0.trans hKI)
        unfold probeMatch
        split
        · next e => exact absurd (by rw [e, hk]) hrk
        · split
          · exact jwp_pure trivial
          · next hl =>
            push Not at hl
            exact jwp_pure ⟨g2.inF, probeSlot_succ hF.pow k d, hl.1, hway, .inr habs⟩
  · next hKI =>
    have hKI : K ≠ KINITIAL := hKI
    have hs1 := hsafe hKI
    have hs2 : KeySafe hash n s (probeSlot hash k L d) K x2 := hs1.later hF.toStill hi hKI c2.le c2.inF
    unfold probeMatch
    split
    · next e =>
      subst e
      obtain ⟨v1, v2⟩ := hval (by rw [hs1.1]; exact hKI) (by rw [hs1.1]; exact hown)
      have hto : WayTo hash n s L K d xs := by
        refine h5.resolve_right fun h => ?_
        exact h.later hKI hown c1 _ hi hs1.1
      refine jwp_pure ⟨hi, c2.inF, hs2.1, by rw [v2, v1, clean_clean], .inr ⟨d, h3, rfl, hto.later hF.toStill c12.le c12.inF, hs2⟩⟩
    · next hne =>
      split
      · exact jwp_pure trivial
      · next hl =>
        push Not at hl
        refine jwp_pure ⟨c2.inF, probeSlot_succ hF.pow k d, hl.1, ?_, h5.imp (fun h => ?_) fun h => h.later hk0 hown c12⟩
        · intro e he
          rcases Nat.lt_succ_iff_lt_or_eq.mp he with he | rfl
          · exact h4.later hF c12.le c12.inF e he
          · rw [hs2.1]; exact ⟨hKI, hne⟩
        · intro e he
          rcases Nat.lt_succ_iff_lt_or_eq.mp he with he | rfl
          · exact h.later hF.toStill c12.le c12.inF e he
          · exact ⟨K, hs2, hKI, hl.2, hne⟩

/-- Every compare-and-swap of `putIfMatch` meets the guard. -/
theorem jwp_mapPutIfMatch (hF : Shared hash n s F L) {cf : CasFn} {k nv ov : Word} (hk : clean k = k) (hk0 : k ≠ KINITIAL)
    (hkt : k ≠ KTOMBSTONE) (hown : own k = t) (N : Nat) {xs : List Sched} :
    jwp hash n s F L own t (fun _ _ => True) (mapPutIfMatch hash N cf k nv ov) xs := by
  refine jwp_bind (jwp_plain hF rfl fun ys _ _ _ => ?_)
  refine jwp_bind (jwp_plain hF rfl fun ys _ _ _ => ?_)
  refine jwp_bind (jwp_plain hF rfl fun ys r _ ⟨y0, m', h2, h3⟩ => ?_)
  have hr : r = 0 := by
    cases h3; exact hF.root y0 h2
  subst hr
  refine jwp_bind (jwp_mono (Q := fun _ _ => True) ?_ fun _ _ _ => jwp_bind (jwp_plain hF rfl fun ys _ _ _ => jwp_pure trivial))
  cases N with
  | zero => trivial
  | succ N =>
    refine jwp_bind (jwp_plain hF rfl fun ys _ _ _ => ?_)
    refine jwp_bind (jwp_plain hF rfl fun ys _ _ _ => ?_)
    refine jwp_bind (jwp_plain hF rfl fun ys _ _ _ => ?_)
    refine jwp_bind (jwp_plain hF rfl fun ys r hys ⟨y0, m', h2, h3⟩ => ?_)
    have hr : r = L := by
      simp only [Act.exec] at h3
      split at h3
      · cases h3; exact hF.len y0 h2
      · cases h3
    subst hr
    refine jwp_bind (jwp_mono (jwp_probe hF hk hk0 hkt hown N hys.inF) ?_)
    rintro (w | ⟨j, d, V⟩ | _) x1 hp
    · exact jwp_pure trivial
    · have hp : MySlot hash n s F r k j V x1 := hp
      dsimp only
      split
      · exact jwp_pure trivial
      · refine jwp_bind (jwp_mono (jwp_wantNewTable hF hp.inF) ?_)
        rintro w x2 g
        split
        · exact jwp_bind (jwp_resize hF)
        · refine jwp_bind (jwp_mono (jwp_update hF N hk0 hown (hp.later hF hk0 hown g)) ?_)
          rintro _ x3 ⟨w, rfl⟩
          exact jwp_pure trivial
    · exact jwp_bind (jwp_resize hF)

theorem jwp_mapGet (hF : Shared hash n s F L) (k : Word) (N : Nat) {xs : List Sched} :
    jwp hash n s F L own t (fun _ _ => True) (mapGet hash N k) xs := by
  refine jwp_bind (jwp_plain hF rfl fun ys r _ ⟨y0, m', h2, h3⟩ => ?_)
  have hr : r = 0 := by
    cases h3; exact hF.root y0 h2
  subst hr
  refine jwp_bind (jwp_mono (Q := fun _ _ => True) ?_ fun _ _ _ => jwp_bind (jwp_plain hF rfl fun ys _ _ _ => jwp_pure trivial))
  cases N with
  | zero => trivial
  | succ N =>
    refine jwp_bind (jwp_plain hF rfl fun ys r hys ⟨y0, m', h2, h3⟩ => ?_)
    have hr : r = L := by
      simp only [Act.exec] at h3
      split at h3
      · cases h3; exact hF.len y0 h2
      · cases h3
    subst hr
    refine jwp_bind (jwp_mono (Q := fun p _ => ∃ w, p = .returned w) ?_ ?_)
    · have hlt : ∀ a, a &&& (r - 1) < r := by
        intro a
        rw [and_len hF.pow]; obtain ⟨p, -, e⟩ := hF.pow; exact Nat.mod_lt _ (by rw [e]; positivity)
      refine jwp_loop (fun (x : Nat × Nat) xs => x.1 < r ∧ xs <+: F) ?_ N _ _ ⟨hlt _, hys.inF⟩
      rintro ⟨j, d⟩ xs ⟨hj, hx⟩
      simp only at hj
      refine jwp_bind (jwp_mono (jwp_readKey hF hj) ?_)
      rintro K x1 ⟨c1, -⟩
      refine jwp_bind (jwp_mono (jwp_readVal hF hj) ?_)
      rintro V x2 ⟨c2, ⟨y0, b1, -, rfl⟩, -⟩
      split
      · exact jwp_pure ⟨_, rfl⟩
      · refine jwp_bind (jwp_plain hF rfl fun ys nt hys' ⟨y0', m', g2, g3⟩ => ?_)
        obtain rfl := getNew_none hF.toStillTab g2 g3
        split
        · rw [hF.mig y0 b1.inF j hj]
          exact jwp_pure ⟨_, rfl⟩
        · split
          · exact jwp_pure ⟨_, rfl⟩
          · exact jwp_pure ⟨hlt _, hys'.inF⟩
    · rintro _ x1 ⟨w, rfl⟩
      exact jwp_pure trivial

theorem jwp_op (hF : Shared hash n s F L) {op : Op} (hv : op.Valid) (ho : ∀ k, op.changes = some k → own k = t)
    {xs : List Sched} : jwp hash n s F L own t (fun _ _ => True) (op.prog hash n) xs := by
  have hput : ∀ cf k nv ov, ValidKey k → own k = t → jwp hash n s F L own t (fun _ _ => True) (mapPutIfMatch hash n cf k nv ov) xs :=
    fun cf k nv ov hk he =>
      jwp_mapPutIfMatch hF (userKey_of_valid hk).clean (userKey_of_valid hk).ne_init (userKey_of_valid hk).ne_tomb he n
  cases op with
  | get k => exact jwp_bind (jwp_mono (jwp_mapGet hF k n) fun _ _ _ => jwp_pure trivial)
  | containsKey k => exact jwp_bind (jwp_bind (jwp_mono (jwp_mapGet hF k n) fun _ _ _ => jwp_pure (jwp_pure trivial)))
  | put k w => exact jwp_bind (jwp_mono (hput _ k w NO_MATCH_OLD hv.1 (ho k rfl)) fun _ _ _ => jwp_pure trivial)
  | putIfAbsent k w => exact jwp_bind (jwp_mono (hput _ k w VTOMBSTONE hv.1 (ho k rfl)) fun _ _ _ => jwp_pure trivial)
  | remove k => exact jwp_bind (jwp_bind (jwp_mono (hput _ k VTOMBSTONE NO_MATCH_OLD hv (ho k rfl)) fun _ _ _ => jwp_pure (jwp_pure trivial)))
  | removeIf k w => exact jwp_bind (jwp_bind (jwp_mono (hput _ k VTOMBSTONE w hv.1 (ho k rfl)) fun _ _ _ => jwp_pure (jwp_pure trivial)))
  | replace k o w => exact jwp_bind (jwp_bind (jwp_mono (hput _ k w o hv.1 (ho k rfl)) fun _ _ _ => jwp_pure (jwp_pure trivial)))
  | putIfMatch k w o => exact jwp_bind (jwp_mono (hput _ k w o hv.1 (ho k rfl)) fun _ _ _ => jwp_pure trivial)
  | update k w => exact jwp_bind (jwp_mono (hput _ k w NO_MATCH_OLD hv.1 (ho k rfl)) fun _ _ _ => jwp_pure trivial)
  | size =>
    refine jwp_bind (jwp_bind (jwp_plain hF rfl fun _ _ _ _ => ?_))
    exact jwp_plain hF rfl fun _ _ _ _ => jwp_pure trivial
  | isEmpty =>
    refine jwp_bind (jwp_bind (jwp_bind (jwp_plain hF rfl fun _ _ _ _ => ?_)))
    exact jwp_plain hF rfl fun _ _ _ _ => jwp_pure (jwp_pure trivial)

end PMap
