import Verif.Pmem.Race

/-!
# libpmemobj's concurrent_hash_map: find, insert and erase beside others

Nothing here is code.
-/

namespace PMap.Pmem

open HP

/-- No bucket. -/
def Emp : Nat → Prop := fun _ => False

section
variable {E : HEnv} {m0 t : Nat} {op : Cmd} {q : Prop}

theorem Acq.got {s0 s : HSt} {st0 st : Option Ans} {c : Nat} {w : Bool} {r : Loc × Bool} {A : AM}
    (h : Acq E m0 t q s0 st0 Emp c w r s A st) : Got t c r.2 none s :=
  ⟨h.own.congr (by simp [Emp]), h.dfl⟩

/-- Giving the bucket back. -/
theorem unlock_W {c : Nat} {w : Bool} {N : Option Nat} {s : HSt} {A : AM} {st : Option Ans} {α : Type} {k : Unit → HP α}
    {Q : α → HSt → AM → Option Ans → Prop} (hg : Got t c w N s)
    (hk : ∀ s' A', Inv E m0 s' A' → Own t s' Emp none N false → Keep q s s' →
      (∀ n x, N = some n → s.heap n = some x → ∃ x', s'.heap n = some x' ∧ x'.key = x.key ∧ x'.val = x.val) → W E m0 t op q (k ()) Q s' A' st) :
    W E m0 t op q (unlock t (loc c) w >>= k) Q s A st := by
  refine W_ok fun s1 A1 hi1 hr1 hq1 => ?_
  have hg1 := hg.rel hr1
  have hk1 : Keep q s s1 := Keep.rel hr1 hq1
  have hit : ∀ n x, N = some n → s.heap n = some x → ∃ x', s1.heap n = some x' ∧ x'.key = x.key ∧ x'.val = x.val :=
    fun n x hn hx => hr1.item n x ((hg.own.nl n).2 hn) hx
  cases w with
  | true =>
    obtain ⟨i2, g2⟩ := unlockW_ok (b := loc c) hi1 hg1.wr hg1.dfl (by
      intro d _ hw _
      obtain ⟨_, rfl⟩ := hg1.own.wr'.1 hw
      exact hi1.fl hg1.dfl)
    refine ⟨(), _, A1, st, ?_, .none, i2, g2, ?_⟩
    · rw [if_pos rfl]
      exact if_pos hg1.wr
    · refine hk _ _ i2 ?_ (hk1.trans (Keep.of_eq rfl rfl)) hit
      have : Own t s1 (fun g => g = c ∨ Emp g) none N false := hg1.own.congr (by simp [Emp])
      exact this.unlockW (fun h => h)
  | false =>
    obtain ⟨i2, g2⟩ := unlockR_ok (t := t) (b := loc c) hi1
    have hmem : t ∈ s1.rd (loc c) := by
      rcases hg1.holds with h | h
      · exact absurd (hg1.own.wr'.1 h) (by simp)
      · exact h
    refine ⟨(), _, A1, st, ?_, .none, i2, g2, ?_⟩
    · rw [if_neg (by simp)]
      exact if_pos hmem
    · refine hk _ _ i2 ?_ (hk1.trans (Keep.of_eq rfl rfl)) hit
      have : Own t s1 Emp (some c) N false := hg1.own.congr (by simp [Emp])
      exact this.unlockR

/-- Nobody else holds a node. -/
def Solo (t : Nat) (s : HSt) : Prop := ∀ n u, s.nl n = some u → u = t

theorem Solo.keep {s s' : HSt} (h : Solo t s) (hq : q) (hk : Keep q s s') : Solo t s' := by
  intro n u
  rw [(hk.2 hq).2]
  exact h n u

theorem FoundAt.same {c pred n : Nat} {x : Node} {s s' : HSt} (h : FoundAt s c x pred n) (e1 : s'.heap = s.heap) (e2 : s'.list = s.list) :
    FoundAt s' c x pred n := by
  obtain ⟨l1, l2, c1, c2, c3, c4, c5⟩ := h
  refine ⟨l1, l2, by rw [e1, e2]; exact c1, by rw [e1]; exact c2,
    c3.congr (fun _ => by simp only [HSt.rd', e2]) (fun _ _ => by rw [e1]), ?_, by rw [e1]; exact c5⟩
  rw [← c4]
  unfold ptr
  split <;> simp only [HSt.rd', e1, e2]

/-- What `try_acquire_item` leads to. -/
structure Item (E : HEnv) (m0 t : Nat) (q : Prop) (s0 : HSt) (st0 st1 : Option Ans) (c : Nat) (w : Bool) (x : Node) (pred n : Nat)
    (r : Bool) (s : HSt) (A : AM) (st : Option Ans) : Prop where
  inv : Inv E m0 s A
  found : FoundAt s c x pred n
  got : Got t c w (if r then some n else none) s
  mask : s0.mask ≤ s.mask
  qmask : q → s.mask = s0.mask
  nlo : q → ∀ m, m ≠ n → s.nl m = s0.nl m
  st : st = if r then st1 else st0
  no : r = false → ¬ q

theorem item_W {c pred n : Nat} {w : Bool} {x : Node} {st st' : Option Ans} (hlin : ∀ A : AM, A x.key = some x.val → Lin op A st A st') :
    ∀ (f : Nat) {s : HSt} {A : AM}, Inv E m0 s A → Got t c w none s → FoundAt s c x pred n → (q → Solo t s ∧ 0 < f) →
      W E m0 t op q (tryAcquireItem t n f) (Item E m0 t q s st st' c w x pred n) s A st
  | 0, s, A, hi, hg, hf, hs => W_pure ⟨hi, hf, hg, Nat.le_refl _, fun _ => rfl, fun _ _ _ => rfl, rfl, fun _ hq => by have := (hs hq).2; omega⟩
  | f + 1, s, A, hi, hg, hf, hs => by
    unfold tryAcquireItem
    refine W_ok fun s1 A1 hi1 hr1 hq1 => ?_
    have hg1 := hg.rel hr1
    have hf1 := hf.rel hr1 hg.holds
    obtain ⟨l1, l2, c1, c2, _⟩ := id hf1
    by_cases hn : s1.nl n = none
    · obtain ⟨i2, g2⟩ := lockItem_ok (t := t) (n := n) hi1 hg1.holds c1 (by simp) hn
      refine ⟨true, _, A1, st', ?_, hlin A1 (hf1.present hi1), i2, g2, ?_⟩
      · rw [if_neg (by simp [c2]), if_pos hn]
      · rw [if_pos rfl]
        refine W_pure ⟨i2, hf1.same rfl rfl, ⟨⟨hg1.own.wr, hg1.own.rd, ?_, hg1.own.sm⟩, hg1.dfl⟩, hr1.mask, fun hq => ?_, fun hq m hm => ?_, rfl, fun h => by cases h⟩
        · intro m
          have := hg1.own.nl m
          by_cases e : m = n
          · simp [e]
          · have e' : n ≠ m := Ne.symm e
            simp only [e, if_false, if_true, Option.some.injEq, e', iff_false]
            exact fun h => by have := this.1 h; cases this
        · show s1.mask = s.mask
          rw [(hq1 hq).1]
        · show (if m = n then some t else s1.nl m) = s.nl m
          rw [if_neg hm, (hq1 hq).1]
    · refine ⟨false, s1, A1, st, ?_, .none, hi1, .refl _ _, ?_⟩
      · rw [if_neg (by simp [c2]), if_neg hn]
      · rw [if_neg (by simp)]
        have hnq : ¬ q := by
          intro hq
          obtain ⟨v, hv⟩ := Option.ne_none_iff_exists'.1 hn
          have hv' := hv
          rw [(hq1 hq).1] at hv'
          have := (hs hq).1 n v hv'
          subst this
          have := (hg1.own.nl n).1 hv
          cases this
        refine W_mono ?_ (item_W hlin f hi1 hg1 hf1 (fun hq => absurd hq hnq))
        rintro r s2 A2 st2 h
        exact ⟨h.inv, h.found, h.got, hr1.mask.trans h.mask, fun hq => absurd hq hnq, fun hq => absurd hq hnq, h.st, h.no⟩

/-- What `find` leads to. -/
def Found (E : HEnv) (m0 t : Nat) (st0 : Option Ans) (st1 : Word → Option Ans) (r : Option Nat) (s : HSt) (A : AM) (st : Option Ans) : Prop :=
  Inv E m0 s A ∧ match r with
    | none => Own t s Emp none none false ∧ st = st0
    | some n => ∃ x, s.heap n = some x ∧ Own t s Emp none (some n) false ∧ st = st1 x.val

theorem log2_64 {m0 m h : Nat} {s : HSt} {A : AM} (hi : Inv E m0 s A) (hm : Msk m0 m s) : Nat.log2 (h &&& m) < 64 := by
  have h1 := hi.mask31
  have h2 : h &&& m ≤ s.mask := hm.le
  by_cases h0 : h &&& m = 0
  · rw [h0]; decide
  · exact (Nat.log2_lt h0).2 (by omega)

theorem pre_and {m0 m h : Nat} {s : HSt} (hm : Msk m0 m s) : Pre h (h &&& m) := by
  obtain ⟨_, _, j, _, rfl⟩ := hm
  exact ⟨j, and_mask h j⟩

theorem findLoop_W {key : Word} {st0 : Option Ans} {st1 : Word → Option Ans} (h0 : ∀ A : AM, A key = none → Lin op A none A st0)
    (h1 : ∀ (A : AM) v, A key = some v → Lin op A none A (st1 v)) : ∀ (f m : Nat) {s : HSt} {A : AM}, Inv E m0 s A → Own t s Emp none none false →
      Msk m0 m s → (q → Solo t s ∧ m = s.mask ∧ 0 < f) → W E m0 t op q (findLoop E t key f m) (Found E m0 t st0 st1) s A none
  | 0, m, s, A, hi, ho, hm, hs => fun hq => by have := (hs hq).2.2; omega
  | f + 1, m, s, A, hi, ho, hm, hs => by
    unfold findLoop
    refine W_bind (W_mono ?_ (acquire_W (H := Emp) (w := false) (log2_64 hi hm) ho (fun g hg => hg.elim) hm.le))
    rintro ⟨b, w⟩ s1 A1 st1' ha
    have hg1 : Got t (E.hash key &&& m) w none s1 := ha.got
    have hk1 := ha.keep
    have hi1 := ha.inv
    obtain rfl : b = loc (E.hash key &&& m) := ha.loc
    obtain rfl := ha.st
    have hm1 := hm.mono hk1.1
    clear ha
    dsimp only
    refine W_read fun s2 A2 hi2 hr2 hq2 => ?_
    have hg2 := hg1.rel hr2
    have hk2 : Keep q s s2 := hk1.trans (Keep.rel hr2 hq2)
    have hm2 := hm1.mono hr2.mask
    obtain ⟨r, e, hr⟩ := search_ok (key := key) hi2 hg2
    refine ⟨r, e, ?_⟩
    rcases hr with ⟨rfl, hn⟩ | ⟨pred, n, x, rfl, hf, hx⟩
    · dsimp only
      refine W_bind (W_mono ?_ (race_W hi2 hg2 hn hm2 rfl h0))
      rintro ⟨again, m'⟩ s3 A3 st3 hr3
      refine unlock_W hr3.got fun s4 A4 hi4 ho4 hk4 _ => ?_
      have hk24 := hr3.keep.trans hk4
      cases again with
      | true =>
        obtain ⟨rfl, hnq⟩ := hr3.again rfl
        rw [if_pos rfl]
        refine findLoop_W h0 h1 f m' hi4 ho4 (hr3.msk.mono hk4.1) fun hq => ?_
        exact absurd ((hs hq).2.1.trans (hk2.2 hq).1.symm) (hnq hq)
      | false =>
        obtain ⟨rfl, _⟩ := hr3.done rfl
        rw [if_neg (by simp)]
        exact W_pure ⟨hi4, ho4, rfl⟩
    · dsimp only
      refine W_bind (W_mono ?_ (item_W (st' := st1 x.val) (by rw [hx]; exact fun A => h1 A _) itemTries hi2 hg2 hf
        (fun hq => ⟨(hs hq).1.keep hq hk2, by decide⟩)))
      rintro r s3 A3 st3 hr3
      cases r with
      | true =>
        rw [if_pos rfl]
        have e3 : st3 = st1 x.val := hr3.st
        refine unlock_W hr3.got fun s4 A4 hi4 ho4 hk4 hx4 => W_pure ?_
        obtain ⟨_, _, _, hxn, _⟩ := hr3.found
        obtain ⟨x', a1, a2, a3⟩ := hx4 n x rfl hxn
        exact ⟨hi4, x', a1, ho4, by rw [e3, a3]⟩
      | false =>
        rw [if_neg (by simp)]
        have hnq := hr3.no rfl
        obtain rfl : st3 = none := hr3.st
        refine unlock_W hr3.got fun s4 A4 hi4 ho4 hk4 _ => ?_
        refine W_read fun s5 A5 hi5 hr5 hq5 => ⟨_, rfl, ?_⟩
        exact findLoop_W h0 h1 f _ hi5 (ho4.rel hr5) hi5.msk fun hq => absurd hq hnq

theorem find_W {key : Word} {st0 : Option Ans} {st1 : Word → Option Ans} (h0 : ∀ A : AM, A key = none → Lin op A none A st0)
    (h1 : ∀ (A : AM) v, A key = some v → Lin op A none A (st1 v)) {f : Nat} {s : HSt} {A : AM} (ho : Own t s Emp none none false)
    (hs : q → Solo t s ∧ 0 < f) : W E m0 t op q (find E t key f) (Found E m0 t st0 st1) s A none := by
  unfold find
  refine W_read fun s1 A1 hi1 hr1 hq1 => ⟨_, rfl, ?_⟩
  have hm := hi1.msk
  obtain ⟨_, _, j, _, e⟩ := id hm
  rw [if_neg (by rw [e, mask_and]; simp)]
  exact findLoop_W h0 h1 f _ hi1 (ho.rel hr1) hm fun hq => ⟨by rw [(hq1 hq).1]; exact (hs hq).1, rfl, (hs hq).2⟩

/-- What the loop of `internal_insert` leads to. -/
def Put (E : HEnv) (m0 t : Nat) (r : Bool × Nat × Int) (s : HSt) (A : AM) (st : Option Ans) : Prop :=
  Inv E m0 s A ∧ Own t s Emp none none false ∧ Msk m0 r.2.1 s ∧ st = some (ofBool r.1)

theorem insertLoop_W {key : Word} (h0 : ∀ A : AM, A key = none → Lin op A none (A.set key (some key)) (some 1#64))
    (h1 : ∀ (A : AM) v, A key = some v → Lin op A none A (some 0#64)) : ∀ (f m : Nat) {s : HSt} {A : AM}, Inv E m0 s A → Own t s Emp none none false →
      Msk m0 m s → (q → m = s.mask ∧ 0 < f) → W E m0 t op q (insertLoop E t key key f m) (Put E m0 t) s A none
  | 0, m, s, A, hi, ho, hm, hs => fun hq => by have := (hs hq).2; omega
  | f + 1, m, s, A, hi, ho, hm, hs => by
    unfold insertLoop
    refine W_bind (W_mono ?_ (acquire_W (H := Emp) (w := true) (log2_64 hi hm) ho (fun g hg => hg.elim) hm.le))
    rintro ⟨b, w⟩ s1 A1 st1' ha
    have hg1 : Got t (E.hash key &&& m) w none s1 := ha.got
    have hk1 := ha.keep
    have hi1 := ha.inv
    obtain rfl : b = loc (E.hash key &&& m) := ha.loc
    obtain rfl := ha.st
    obtain rfl : w = true := ha.w rfl
    have hm1 := hm.mono hk1.1
    clear ha
    dsimp only
    refine W_ok fun s2 A2 hi2 hr2 hq2 => ?_
    have hg2 := hg1.rel hr2
    have hk2 : Keep q s s2 := hk1.trans (Keep.rel hr2 hq2)
    have hm2 := hm1.mono hr2.mask
    obtain ⟨r, e, hr⟩ := search_ok (key := key) hi2 hg2
    rcases hr with ⟨rfl, hn⟩ | ⟨pred, n, x, rfl, hf, hx⟩
    · refine ⟨none, s2, A2, none, e, .none, hi2, .refl _ _, ?_⟩
      dsimp only
      refine W_bind (W_mono ?_ (race_W (st' := none) hi2 hg2 hn hm2 rfl (fun _ _ => .none)))
      rintro ⟨again, m'⟩ s3 A3 st3 hr3
      cases again with
      | true =>
        obtain ⟨rfl, hnq⟩ := hr3.again rfl
        rw [if_pos rfl]
        refine unlock_W hr3.got fun s4 A4 hi4 ho4 hk4 _ => ?_
        refine insertLoop_W h0 h1 f m' hi4 ho4 (hr3.msk.mono hk4.1) fun hq => ?_
        exact absurd ((hs hq).1.trans (hk2.2 hq).1.symm) (hnq hq)
      | false =>
        obtain ⟨rfl, hd3⟩ := hr3.done rfl
        rw [if_neg (by simp)]
        have hmsk3 : Msk m0 m' s3 := hr3.msk
        refine W_atom fun s4 A4 hi4 hr4 hq4 => ?_
        have hg4 := hr3.got.rel hr4
        have hn4 := hr3.nokey.rel hr3.inv hr4 hr3.got.holds
        have hpre := pre_and (h := E.hash key) hm
        have hd4 := hd3.stable hpre hr3.inv hi4 hr4 hr3.got.holds
        dsimp only
        rw [if_pos hg4.wr]
        by_cases hp : E.pick s4.allocs ≠ 0 ∧ (s4.heap (E.pick s4.allocs)).isNone = true
        · rw [if_pos hp]
          obtain ⟨i5, g5, habs⟩ := ins_ok (val := key) hi4 hg4.wr (hi4.fl hg4.dfl) hpre hd4 hn4 hp.1 (by simpa using hp.2)
          refine ⟨_, _, h0 A4 habs, i5, g5, ?_⟩
          have hg5 : Got t (E.hash key &&& m) true none (s4.ins (loc (E.hash key &&& m)) (E.pick s4.allocs) key key) :=
            ⟨⟨hg4.own.wr, hg4.own.rd, hg4.own.nl, hg4.own.sm⟩, hg4.dfl⟩
          have hm5 : Msk m0 m' (s4.ins (loc (E.hash key &&& m)) (E.pick s4.allocs) key key) := hmsk3.mono hr4.mask
          change W E m0 t op q _ _ (s4.ins (loc (E.hash key &&& m)) (E.pick s4.allocs) key key) _ _
          generalize s4.ins (loc (E.hash key &&& m)) (E.pick s4.allocs) key key = s5 at *
          refine W_ok fun s6 A6 hi6 hr6 hq6 => ?_
          obtain ⟨i7, g7⟩ := size_ok (t := t) hi6 (s6.size + 1)
          have hg6 := hg5.rel hr6
          refine ⟨_, _, A6, _, rfl, .none, i7, g7, ?_⟩
          refine unlock_W (c := E.hash key &&& m) (N := none) ⟨⟨hg6.own.wr, hg6.own.rd, hg6.own.nl, hg6.own.sm⟩, hg6.dfl⟩ fun s8 A8 hi8 ho8 hk8 _ => ?_
          exact W_pure ⟨hi8, ho8, (hm5.mono hr6.mask).mono hk8.1, rfl⟩
        · rw [if_neg hp]
          trivial
    · refine ⟨some (pred, n), s2, A2, _, e, h1 A2 x.val (by rw [← hx]; exact hf.present hi2), hi2, .refl _ _, ?_⟩
      dsimp only
      refine unlock_W hg2 fun s4 A4 hi4 ho4 hk4 _ => ?_
      exact W_pure ⟨hi4, ho4, hm2.mono hk4.1, rfl⟩

/-- What the loop of `internal_erase` leads to. -/
def Gone (E : HEnv) (m0 t : Nat) (r : Bool) (s : HSt) (A : AM) (st : Option Ans) : Prop :=
  Inv E m0 s A ∧ Own t s Emp none none false ∧ st = some (ofBool r)

theorem eraseLoop_W {key : Word} (h0 : ∀ A : AM, A key = none → Lin op A none A (some 0#64))
    (h1 : ∀ (A : AM) v, A key = some v → Lin op A none (A.set key none) (some 1#64)) : ∀ (f m : Nat) {s : HSt} {A : AM}, Inv E m0 s A →
      Own t s Emp none none false → Msk m0 m s → (q → Solo t s ∧ m = s.mask ∧ 0 < f) →
      W E m0 t op q (eraseLoop E t key f m) (Gone E m0 t) s A none
  | 0, m, s, A, hi, ho, hm, hs => fun hq => by have := (hs hq).2.2; omega
  | f + 1, m, s, A, hi, ho, hm, hs => by
    unfold eraseLoop
    refine W_bind (W_mono ?_ (acquire_W (H := Emp) (w := true) (log2_64 hi hm) ho (fun g hg => hg.elim) hm.le))
    rintro ⟨b, w⟩ s1 A1 st1' ha
    have hg1 : Got t (E.hash key &&& m) w none s1 := ha.got
    have hk1 := ha.keep
    have hi1 := ha.inv
    obtain rfl : b = loc (E.hash key &&& m) := ha.loc
    obtain rfl := ha.st
    obtain rfl : w = true := ha.w rfl
    have hm1 := hm.mono hk1.1
    clear ha
    dsimp only
    refine W_read fun s2 A2 hi2 hr2 hq2 => ?_
    have hg2 := hg1.rel hr2
    have hk2 : Keep q s s2 := hk1.trans (Keep.rel hr2 hq2)
    have hm2 := hm1.mono hr2.mask
    obtain ⟨r, e, hr⟩ := search_ok (key := key) hi2 hg2
    refine ⟨r, e, ?_⟩
    rcases hr with ⟨rfl, hn⟩ | ⟨pred, n, x, rfl, hf, hx⟩
    · dsimp only
      refine W_bind (W_mono ?_ (race_W hi2 hg2 hn hm2 rfl h0))
      rintro ⟨again, m'⟩ s3 A3 st3 hr3
      refine unlock_W hr3.got fun s4 A4 hi4 ho4 hk4 _ => ?_
      cases again with
      | true =>
        obtain ⟨rfl, hnq⟩ := hr3.again rfl
        rw [if_pos rfl]
        refine eraseLoop_W h0 h1 f m' hi4 ho4 (hr3.msk.mono hk4.1) fun hq => ?_
        exact absurd ((hs hq).2.1.trans (hk2.2 hq).1.symm) (hnq hq)
      | false =>
        obtain ⟨rfl, _⟩ := hr3.done rfl
        rw [if_neg (by simp)]
        exact W_pure ⟨hi4, ho4, rfl⟩
    · dsimp only
      refine W_bind (W_mono ?_ (item_W (st' := none) (fun _ _ => .none) itemTries hi2 hg2 hf
        (fun hq => ⟨(hs hq).1.keep hq hk2, by decide⟩)))
      rintro r s3 A3 st3 hr3
      obtain rfl : st3 = none := by rw [hr3.st]; cases r <;> rfl
      cases r with
      | true =>
        rw [if_pos rfl]
        have hg3 : Got t (E.hash key &&& m) true (some n) s3 := hr3.got
        have hf3 := hr3.found
        refine W_ok fun s4 A4 hi4 hr4 hq4 => ?_
        have hg4 := hg3.rel hr4
        have hf4 := hf3.rel hr4 hg3.holds
        have hnl4 : s4.nl n = some t := (hg4.own.nl n).2 rfl
        obtain ⟨i5, g5⟩ := unlockItem_ok hi4 hnl4
        obtain ⟨l1, l2, c1, c2, c3, c4, c5⟩ := id hf4
        refine ⟨(), _, A4, none, if_pos ⟨by simp [c2], hnl4⟩, .none, i5, g5, ?_⟩
        have hg5 : Got t (E.hash key &&& m) true none { s4 with nl := fun m => if m = n then none else s4.nl m } :=
          ⟨⟨hg4.own.wr, hg4.own.rd, fun k => by
            have := hg4.own.nl k
            by_cases e : k = n
            · simp [e]
            · have e' : n ≠ k := Ne.symm e
              simp only [Option.some.injEq, e', iff_false] at this
              simp only [e, if_false]
              exact ⟨fun h => absurd h this, fun h => by cases h⟩, hg4.own.sm⟩, hg4.dfl⟩
        have hf5 : FoundAt { s4 with nl := fun m => if m = n then none else s4.nl m } (E.hash key &&& m) x pred n :=
          hf4.same rfl rfl
        have hn5 : (HSt.nl { s4 with nl := fun m => if m = n then none else s4.nl m }) n = none := by simp
        generalize { s4 with nl := fun m => if m = n then none else s4.nl m } = s5 at *
        refine W_ok fun s6 A6 hi6 hr6 hq6 => ?_
        have hg6 := hg5.rel hr6
        have hf6 := hf5.rel hr6 hg5.holds
        obtain ⟨p1, p2, d1, d2, d3, d4, d5⟩ := id hf5
        have hn6 : s6.nl n = none := hr6.nlw _ _ hg5.wr d1 n (by simp) hn5
        obtain ⟨p1, p2, d1, d2, d3, d4, d5⟩ := id hf6
        obtain ⟨i7, g7, hpres⟩ := del_ok hi6 hg6.wr (hi6.fl hg6.dfl) d1 d3 d4 d2 hn6
        rw [hx] at i7 hpres
        refine ⟨(), s6.del (ptr (loc (E.hash key &&& m)) pred) n x.next, _, _, ?_, h1 A6 _ hpres, i7, g7, ?_⟩
        · rw [if_pos ⟨hg6.wr, hn6⟩]
          simp only [HSt.rd', d2, Option.map_some]
          rw [if_neg (by
            rintro ⟨a, b⟩
            have := d5 a
            rw [Option.isNone_iff_eq_none] at b
            rw [b] at this
            cases this)]
          rfl
        · have hg7 : Got t (E.hash key &&& m) true none (s6.del (ptr (loc (E.hash key &&& m)) pred) n x.next) := by
            unfold HSt.del
            cases ptr (loc (E.hash key &&& m)) pred
            · exact ⟨⟨hg6.own.wr, hg6.own.rd, hg6.own.nl, hg6.own.sm⟩, hg6.dfl⟩
            · exact ⟨⟨hg6.own.wr, hg6.own.rd, hg6.own.nl, hg6.own.sm⟩, hg6.dfl⟩
          generalize s6.del (ptr (loc (E.hash key &&& m)) pred) n x.next = s7 at *
          refine W_ok fun s8 A8 hi8 hr8 hq8 => ?_
          obtain ⟨i9, g9⟩ := size_ok (t := t) hi8 (s8.size - 1)
          have hg8 := hg7.rel hr8
          refine ⟨(), _, A8, _, rfl, .none, i9, g9, ?_⟩
          refine unlock_W (c := E.hash key &&& m) (N := none) ⟨⟨hg8.own.wr, hg8.own.rd, hg8.own.nl, hg8.own.sm⟩, hg8.dfl⟩ fun s10 A10 hi10 ho10 hk10 _ => ?_
          exact W_pure ⟨hi10, ho10, rfl⟩
      | false =>
        rw [if_neg (by simp)]
        have hnq := hr3.no rfl
        refine unlock_W hr3.got fun s4 A4 hi4 ho4 hk4 _ => ?_
        refine W_read fun s5 A5 hi5 hr5 hq5 => ⟨_, rfl, ?_⟩
        exact eraseLoop_W h0 h1 f _ hi5 (ho4.rel hr5) hi5.msk fun hq => absurd hq hnq

end

end PMap.Pmem
