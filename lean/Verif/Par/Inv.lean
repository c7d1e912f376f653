import Verif.Par.Logic
import Verif.Seq.Inv
import Mathlib.Logic.Relation

/-!
# The invariant kept by every interleaving, and what one action may change (proof machinery)

`A k v` reads "some call asked for `v` to be stored under `k`".
-/

namespace PMap

/-- What a value word (dirty bit removed) may be when the key word (dirty bit removed) is `K`. -/
def ValOK (A : Word → Word → Prop) (K V : Word) : Prop :=
  V = VINITIAL ∨ V = VTOMBSTONE ∨ V = TOMBPRIME ∨ A K V ∨ ∃ u, A K u ∧ V = setMark u MigrationFlag

/-- What a pair may be. -/
def PairOK (A : Word → Word → Prop) (K V : Word) : Prop := (K = KINITIAL → V = VINITIAL) ∧ ValOK A K V

/-- Requests are well formed. -/
structure AskedOK (A : Word → Word → Prop) : Prop where
  val : ∀ k v, A k v → clean v = v ∧ isMig v = false
  key : ∀ k v, A k v → clean k = k ∧ k ≠ KINITIAL ∧ k ≠ KTOMBSTONE

/-- Slot `i` of table `t` exists. -/
def Has (m : Mem) (t i : Nat) : Prop := t < m.next ∧ i < (m.tab t).len
/-- Key and value of a slot without their dirty bits. -/
def pk (m : Mem) (t i : Nat) : Word := clean (m.word (.key t i))
def pv (m : Mem) (t i : Nat) : Word := clean (m.word (.val t i))

/-- The invariant. -/
structure PInv (A : Word → Word → Prop) (m : Mem) : Prop where
  root : m.root < m.next
  pow : ∀ t, t < m.next → ∃ p, p ≤ 32 ∧ (m.tab t).len = 2 ^ p
  cap : m.cap ≤ 2 ^ 32
  newT : ∀ t n, t < m.next → (m.tab t).newT = some n → t < n ∧ n < m.next ∧ (m.tab n).len = 2 * (m.tab t).len
  pair : ∀ t i, Has m t i → PairOK A (pk m t i) (pv m t i)
  mig : ∀ t i, Has m t i → isMig (pv m t i) = true → (m.tab t).newT ≠ none
  durable : ∀ t i, Has m t i → PairOK A (clean (m.nv (.key t i))) (clean (m.nv (.val t i)))
  dmig : ∀ t i, Has m t i → isMig (m.nv (.val t i)) = true → (m.tab t).newT ≠ none

/-- The value word is not the initial one with the dirty bit, unless somebody asked for that. -/
def DV (A : Word → Word → Prop) (m : Mem) (t i : Nat) : Prop :=
  m.word (.val t i) ≠ dirty VINITIAL ∨ (pk m t i ≠ KINITIAL ∧ A (pk m t i) VINITIAL)

/-- What may happen in any number of steps. -/
structure Evo (A : Word → Word → Prop) (m m' : Mem) : Prop where
  next : m.next ≤ m'.next
  len : ∀ t, t < m.next → (m'.tab t).len = (m.tab t).len
  newT : ∀ t n, t < m.next → (m.tab t).newT = some n → (m'.tab t).newT = some n
  done : ∀ t, t < m.next → (m.tab t).copyDone ≤ (m'.tab t).copyDone
  key : ∀ t i, Has m t i → pk m t i ≠ KINITIAL → pk m' t i = pk m t i
  mig' : ∀ t i, Has m t i → isMig (pv m t i) = true → pv m' t i = pv m t i ∨ pv m' t i = TOMBPRIME
  prime : ∀ t i, Has m t i → pv m t i = TOMBPRIME → pv m' t i = TOMBPRIME
  dv : ∀ t i, Has m t i → DV A m t i → DV A m' t i
  root : Relation.ReflTransGen (fun a b => (m'.tab a).newT = some b) m.root m'.root
  rootLt : m.root < m.next → m'.root < m'.next

variable {A : Word → Word → Prop} {m m' m'' : Mem} {t i : Nat}

theorem Evo.mig (h : Evo A m m') (t i : Nat) (hx : Has m t i) (hi : isMig (pv m t i) = true) : isMig (pv m' t i) = true := by
  rcases h.mig' t i hx hi with e | e <;> rw [e]
  · exact hi
  · decide

theorem Evo.has (h : Evo A m m') (hx : Has m t i) : Has m' t i :=
  ⟨lt_of_lt_of_le hx.1 h.next, by rw [h.len t hx.1]; exact hx.2⟩

theorem Evo.refl (m : Mem) : Evo A m m :=
  ⟨le_refl _, fun _ _ => rfl, fun _ _ _ h => h, fun _ _ => le_refl _, fun _ _ _ _ => rfl, fun _ _ _ _ => .inl rfl,
    fun _ _ _ h => h, fun _ _ _ h => h, .refl, fun h => h⟩

/-- What one action does to the root. -/
def RootStep (m m' : Mem) : Prop :=
  m'.root = m.root ∨ ((m.tab m.root).newT = some m'.root ∧ (m.tab m.root).len ≤ (m.tab m.root).copyDone)

/-- Everything reachable from the root by `newT` in the earlier memory is so later. -/
theorem rtg_mono (hm : PInv A m) (h : ∀ t n, t < m.next → (m.tab t).newT = some n → (m'.tab t).newT = some n) {a b : Nat}
    (ha : a < m.next) (hr : Relation.ReflTransGen (fun a b => (m.tab a).newT = some b) a b) :
    Relation.ReflTransGen (fun a b => (m'.tab a).newT = some b) a b ∧ b < m.next := by
  induction hr with
  | refl => exact ⟨.refl, ha⟩
  | tail _ hbc ih => exact ⟨ih.1.tail (h _ _ ih.2 hbc), (hm.newT _ _ ih.2 hbc).2.1⟩

/-- Evolution from a memory satisfying the invariant. -/
def Env (A : Word → Word → Prop) (m m' : Mem) : Prop := PInv A m → PInv A m' ∧ Evo A m m'

theorem Evo.trans (hm' : PInv A m') (hr : m.root < m.next) (h1 : Evo A m m') (h2 : Evo A m' m'') : Evo A m m'' where
  next := le_trans h1.next h2.next
  len := fun t ht => by rw [h2.len t (lt_of_lt_of_le ht h1.next), h1.len t ht]
  newT := fun t n ht h => h2.newT t n (lt_of_lt_of_le ht h1.next) (h1.newT t n ht h)
  done := fun t ht => le_trans (h1.done t ht) (h2.done t (lt_of_lt_of_le ht h1.next))
  key := fun t i hx h => by
    have e := h1.key t i hx h
    rw [h2.key t i (h1.has hx) (by rw [e]; exact h), e]
  mig' := fun t i hx h => by
    rcases h1.mig' t i hx h with e | e
    · rw [← e]; exact h2.mig' t i (h1.has hx) (by rw [e]; exact h)
    · exact .inr (h2.prime t i (h1.has hx) e)
  prime := fun t i hx h => h2.prime t i (h1.has hx) (h1.prime t i hx h)
  dv := fun t i hx h => h2.dv t i (h1.has hx) (h1.dv t i hx h)
  root := by
    refine Relation.ReflTransGen.trans (b := m'.root) ?_ h2.root
    have : ∀ a b, a < m'.next → Relation.ReflTransGen (fun a b => (m'.tab a).newT = some b) a b →
        Relation.ReflTransGen (fun a b => (m''.tab a).newT = some b) a b :=
      fun a b ha h => (rtg_mono hm' h2.newT ha h).1
    exact this _ _ (lt_of_lt_of_le hr h1.next) h1.root
  rootLt := fun h => h2.rootLt (h1.rootLt h)

/-- Some table has a successor. -/
def Grown (m : Mem) : Prop := ∃ t, t < m.next ∧ (m.tab t).newT ≠ none

/-- The rely and guarantee of every thread; if `M` holds then nothing is asked of the assertions, nor if a table has a
successor and somebody asked for the absent marker to be stored. -/
def pRG (A : Word → Word → Prop) (M : Prop) : RG where
  may := fun m => M ∨ (Grown m ∧ ∃ k, A k VINITIAL)
  inv := PInv A
  env := Env A
  step := fun m m' => Env A m m' ∧ RootStep m m'
  refl := fun m h => ⟨h, .refl m⟩
  trans := fun h1 h2 h => by
    obtain ⟨a, b⟩ := h1 h
    obtain ⟨c, d⟩ := h2 a
    exact ⟨c, b.trans a h.root d⟩
  step_refl := fun m => ⟨fun h => ⟨h, .refl m⟩, .inl rfl⟩
  step_env := fun h => h.1

/-! ## Bits -/

theorem clean_VI : clean VINITIAL = VINITIAL := by decide
theorem clean_VT : clean VTOMBSTONE = VTOMBSTONE := by decide
theorem clean_TP : clean TOMBPRIME = TOMBPRIME := by decide
theorem clean_KI : clean KINITIAL = KINITIAL := by decide
theorem clean_KT : clean KTOMBSTONE = KTOMBSTONE := by decide

/-- A value that is no migration mark. -/
theorem ValOK.live {K V : Word} (h : ValOK A K V) (hm : isMig V = false) :
    V = VINITIAL ∨ V = VTOMBSTONE ∨ A K V := by
  rcases h with h | h | h | h | ⟨u, _, h⟩
  · exact .inl h
  · exact .inr (.inl h)
  · subst h; exact absurd hm (by decide)
  · exact .inr (.inr h)
  · subst h; rw [isMig_setMig] at hm; cases hm

theorem ValOK.marked (hA : AskedOK A) {K V : Word} (h : ValOK A K V) (hm : isMig V = true) :
    V = TOMBPRIME ∨ ∃ u, A K u ∧ V = setMark u MigrationFlag := by
  rcases h with h | h | h | h | h
  · subst h; exact absurd hm (by decide)
  · subst h; exact absurd hm (by decide)
  · exact .inl h
  · rw [(hA.val _ _ h).2] at hm; cases hm
  · exact .inr h

theorem ValOK.init {K : Word} : ValOK A K VINITIAL := .inl rfl

theorem eq_dirty_of_clean {w c : Word} (h : clean w = c) (hw : w ≠ c) : w = dirty c := by
  cases hd : isDirty w with
  | true => rw [← h, dirty_clean, dirty_of_isDirty hd]
  | false => rw [clean_of_not_dirty hd] at h; exact absurd h hw

theorem and_lt_pow {x p : Nat} : x &&& (2 ^ p - 1) < 2 ^ p := by
  rw [Nat.and_two_pow_sub_one_eq_mod]
  exact Nat.mod_lt _ (Nat.two_pow_pos p)

/-! ## Memory updates -/

theorem pk_setVal (m : Mem) (t i t' i' : Nat) (w : Word) :
    pk { m with word := setWord m.word (.val t i) w } t' i' = pk m t' i' := by simp [pk, setWord]
theorem pv_setKey (m : Mem) (t i t' i' : Nat) (w : Word) :
    pv { m with word := setWord m.word (.key t i) w } t' i' = pv m t' i' := by simp [pv, setWord]
theorem pk_setKey (m : Mem) (t i t' i' : Nat) (w : Word) :
    pk { m with word := setWord m.word (.key t i) w } t' i' = if t' = t ∧ i' = i then clean w else pk m t' i' := by
  simp only [pk, setWord, Addr.key.injEq]; split <;> rfl
theorem pv_setVal (m : Mem) (t i t' i' : Nat) (w : Word) :
    pv { m with word := setWord m.word (.val t i) w } t' i' = if t' = t ∧ i' = i then clean w else pv m t' i' := by
  simp only [pv, setWord, Addr.val.injEq]; split <;> rfl

/-- Storing a key in an empty slot, or rewriting a key with another dirty bit. -/
theorem set_key (hm : PInv A m) {w : Word} (hx : Has m t i)
    (hw : clean w = pk m t i ∨ (pk m t i = KINITIAL ∧ clean w ≠ KINITIAL)) :
    Env A m { m with word := setWord m.word (.key t i) w } := by
  intro _
  refine ⟨⟨hm.root, hm.pow, hm.cap, hm.newT, ?_, ?_, hm.durable, hm.dmig⟩,
    ⟨le_refl _, fun _ _ => rfl, fun _ _ _ h => h, fun _ _ => le_refl _, ?_, ?_, ?_, ?_, .refl, fun h => h⟩⟩
  · intro t' i' h
    have hp := hm.pair t' i' h
    rw [pk_setKey, pv_setKey]
    split
    · next e =>
      obtain ⟨rfl, rfl⟩ := e
      rcases hw with hw | ⟨h1, h2⟩
      · rw [hw]; exact hp
      · rw [hp.1 h1]; exact ⟨fun e => absurd e h2, .init⟩
    · exact hp
  · intro t' i' h h1
    rw [pv_setKey] at h1
    exact hm.mig t' i' h h1
  · intro t' i' h h1
    rw [pk_setKey]
    split
    · next e =>
      obtain ⟨rfl, rfl⟩ := e
      rcases hw with hw | ⟨h2, _⟩
      · exact hw
      · exact absurd h2 h1
    · rfl
  · intro t' i' h h1; rw [pv_setKey]; exact .inl rfl
  · intro t' i' h h1; rw [pv_setKey]; exact h1
  · intro t' i' h h1
    rcases h1 with h1 | ⟨h1, h2⟩
    · left; simpa [setWord] using h1
    · right
      rw [pk_setKey]
      split
      · next e =>
        obtain ⟨rfl, rfl⟩ := e
        rcases hw with hw | ⟨h3, _⟩
        · rw [hw]; exact ⟨h1, h2⟩
        · exact absurd h3 h1
      · exact ⟨h1, h2⟩

/-- Storing a value in a slot that has a key. -/
theorem set_val (hm : PInv A m) {w : Word} (hx : Has m t i)
    (hw : clean w = pv m t i ∧ (w = dirty VINITIAL → m.word (.val t i) = dirty VINITIAL) ∨
      (pk m t i ≠ KINITIAL ∧ ValOK A (pk m t i) (clean w) ∧ (isMig w = true → (m.tab t).newT ≠ none) ∧
        (isMig (pv m t i) = true → clean w = TOMBPRIME) ∧ (clean w = VINITIAL → A (pk m t i) VINITIAL))) :
    Env A m { m with word := setWord m.word (.val t i) w } := by
  intro _
  have hTP : isMig TOMBPRIME = true := by decide
  refine ⟨⟨hm.root, hm.pow, hm.cap, hm.newT, ?_, ?_, hm.durable, hm.dmig⟩,
    ⟨le_refl _, fun _ _ => rfl, fun _ _ _ h => h, fun _ _ => le_refl _, ?_, ?_, ?_, ?_, .refl, fun h => h⟩⟩
  · intro t' i' h
    have hp := hm.pair t' i' h
    rw [pk_setVal, pv_setVal]
    split
    · next e =>
      obtain ⟨rfl, rfl⟩ := e
      rcases hw with ⟨hw, _⟩ | ⟨h1, h2, _⟩
      · rw [hw]; exact hp
      · exact ⟨fun e => absurd e h1, h2⟩
    · exact hp
  · intro t' i' h h1
    rw [pv_setVal] at h1
    split at h1
    · next e =>
      obtain ⟨rfl, rfl⟩ := e
      rcases hw with ⟨hw, _⟩ | ⟨_, _, h2, _⟩
      · rw [hw] at h1; exact hm.mig _ _ h h1
      · rw [isMig_clean] at h1; exact h2 h1
    · exact hm.mig t' i' h h1
  · intro t' i' h h1; rw [pk_setVal]
  · intro t' i' h h1
    rw [pv_setVal]
    split
    · next e =>
      obtain ⟨rfl, rfl⟩ := e
      rcases hw with ⟨hw, _⟩ | ⟨_, _, _, h2, _⟩
      · exact .inl hw
      · exact .inr (h2 h1)
    · exact .inl rfl
  · intro t' i' h h1
    rw [pv_setVal]
    split
    · next e =>
      obtain ⟨rfl, rfl⟩ := e
      rcases hw with ⟨hw, _⟩ | ⟨_, _, _, h2, _⟩
      · rw [hw]; exact h1
      · exact h2 (by rw [h1]; exact hTP)
    · exact h1
  · intro t' i' h h1
    by_cases e : t' = t ∧ i' = i
    · obtain ⟨rfl, rfl⟩ := e
      rw [DV, pk_setVal]
      rcases hw with ⟨_, hw⟩ | ⟨h2, _, _, _, h3⟩
      · rcases h1 with h1 | h1
        · left; simp only [setWord, if_true]; exact fun e => h1 (hw e)
        · exact .inr h1
      · by_cases hc : clean w = VINITIAL
        · exact .inr ⟨h2, h3 hc⟩
        · left; simp only [setWord, if_true]
          intro e; rw [e] at hc; exact hc (by decide)
    · rw [DV, pk_setVal]
      rcases h1 with h1 | h1
      · left; simpa [setWord, e] using h1
      · exact .inr h1

theorem set_nv (hm : PInv A m) (t i : Nat) : Env A m { m with nv := writeBack m t i } := by
  intro _
  refine ⟨⟨hm.root, hm.pow, hm.cap, hm.newT, hm.pair, hm.mig, ?_, ?_⟩,
    ⟨le_refl _, fun _ _ => rfl, fun _ _ _ h => h, fun _ _ => le_refl _, fun _ _ _ _ => rfl, fun _ _ _ _ => .inl rfl,
      fun _ _ _ h => h, fun _ _ _ h => h, .refl, fun h => h⟩⟩
  · intro t' i' h
    by_cases e : t' = t ∧ i' = i
    · simp only [writeBack, Addr.tab, Addr.idx, e, and_self, if_true]; exact e.1 ▸ e.2 ▸ hm.pair t' i' h
    · have hb : ∀ b : Addr, b.tab = t' → b.idx = i' → writeBack m t i b = m.nv b := by
        intro b h1 h2; rw [writeBack, if_neg (by rw [h1, h2]; exact e)]
      simp only [hb (.key t' i') rfl rfl, hb (.val t' i') rfl rfl]; exact hm.durable t' i' h
  · intro t' i' h h1
    simp only [writeBack] at h1
    split at h1
    · exact hm.mig t' i' h (by rw [pv, isMig_clean]; exact h1)
    · exact hm.dmig t' i' h h1

/-- Changing control words of a table in a way that keeps `len`, keeps a chosen `newT` and does not lower `copyDone`. -/
theorem set_tab (hm : PInv A m) {T : Tab} (hl : T.len = (m.tab t).len)
    (hn : T.newT = (m.tab t).newT ∨ ((m.tab t).newT = none ∧ ∃ n, T.newT = some n ∧ t < n ∧ n < m.next ∧
      (m.tab n).len = 2 * (m.tab t).len))
    (hd : (m.tab t).copyDone ≤ T.copyDone) : Env A m { m with tab := upd m.tab t T } := by
  have hlen : ∀ t', (upd m.tab t T t').len = (m.tab t').len := by
    intro t'; simp only [upd]; split
    · next e => subst e; exact hl
    · rfl
  have hhas : ∀ t' i', Has { m with tab := upd m.tab t T } t' i' ↔ Has m t' i' := by
    intro t' i'; simp only [Has, hlen]
  have hmono : ∀ t' n, (m.tab t').newT = some n → (upd m.tab t T t').newT = some n := by
    intro t' n h
    simp only [upd]; split
    · next e =>
      subst e
      rcases hn with hn | ⟨hn, _⟩
      · rw [hn]; exact h
      · rw [hn] at h; cases h
    · exact h
  intro _
  refine ⟨⟨hm.root, ?_, hm.cap, ?_, ?_, ?_, ?_, ?_⟩,
    ⟨le_refl _, fun _ _ => hlen _, fun _ _ _ h => hmono _ _ h, ?_, fun _ _ _ _ => rfl, fun _ _ _ _ => .inl rfl,
      fun _ _ _ h => h, fun _ _ _ h => h, .refl, fun h => h⟩⟩
  · intro t' h; simp only [hlen]; exact hm.pow t' h
  · intro t' n h h1
    simp only [hlen]
    simp only [upd] at h1
    split at h1
    · next e =>
      subst e
      rcases hn with hn | ⟨_, n', hn, h2⟩
      · rw [hn] at h1; exact hm.newT _ _ h h1
      · rw [hn] at h1; cases h1; exact h2
    · exact hm.newT _ _ h h1
  · intro t' i' h; exact hm.pair t' i' ((hhas ..).mp h)
  · intro t' i' h h1
    have := hm.mig t' i' ((hhas ..).mp h) h1
    cases hs : (m.tab t').newT with
    | none => exact absurd hs this
    | some n => simp only [hmono _ _ hs]; simp
  · intro t' i' h; exact hm.durable t' i' ((hhas ..).mp h)
  · intro t' i' h h1
    have := hm.dmig t' i' ((hhas ..).mp h) h1
    cases hs : (m.tab t').newT with
    | none => exact absurd hs this
    | some n => simp only [hmono _ _ hs]; simp
  · intro t' h
    simp only [upd]; split
    · next e => subst e; exact hd
    · exact le_refl _

/-- The memory after creating a table (the `alloc` case of `Act.exec`; hashMap.hpp:351-354). -/
@[reducible] def allocMem (m : Mem) (l : Nat) (sz : Word) : Mem :=
  { m with
    word := freshWords m.word m.next
    nv := freshWords m.nv m.next
    tab := upd m.tab m.next (freshTab l sz)
    next := m.next + 1 }

/-- A new, unlinked table. -/
theorem set_alloc (hm : PInv A m) {l : Nat} {sz : Word} (hl : ∃ p, l = 2 ^ p) (hc : l ≤ m.cap) :
    Env A m (allocMem m l sz) := by
  have hold : ∀ t', t' < m.next → upd m.tab m.next (freshTab l sz) t' = m.tab t' := by
    intro t' h; simp only [upd, if_neg (Nat.ne_of_lt h)]
  have hw : ∀ (f : Addr → Word) a, a.tab < m.next → freshWords f m.next a = f a := by
    intro f a h
    cases a <;> simp only [freshWords] <;> simp only [Addr.tab] at h <;> rw [if_neg (Nat.ne_of_lt h)]
  have hpk : ∀ t' i', t' < m.next → pk (allocMem m l sz) t' i' = pk m t' i' := by
    intro t' i' h; simp only [pk]; rw [hw _ (.key t' i') h]
  have hpv : ∀ t' i', t' < m.next → pv (allocMem m l sz) t' i' = pv m t' i' := by
    intro t' i' h; simp only [pv]; rw [hw _ (.val t' i') h]
  have hhas : ∀ t' i', Has (allocMem m l sz) t' i' → t' ≠ m.next → Has m t' i' := by
    intro t' i' h hne
    have h1 : t' < m.next := by have := h.1; simp only at this; omega
    refine ⟨h1, ?_⟩
    have := h.2
    simp only [hold _ h1] at this
    exact this
  have hfresh : PairOK A (clean (dirty KINITIAL)) (clean (dirty VINITIAL)) := by
    rw [clean_dirty, clean_dirty, clean_VI]; exact ⟨fun _ => rfl, .init⟩
  intro _
  refine ⟨⟨Nat.lt_succ_of_lt hm.root, ?_, hm.cap, ?_, ?_, ?_, ?_, ?_⟩,
    ⟨Nat.le_succ _, fun _ h => by simp only [hold _ h], fun _ _ h h1 => by simp only [hold _ h]; exact h1,
      fun _ h => by simp only [hold _ h]; exact le_refl _, fun _ _ h _ => hpk _ _ h.1,
      fun _ _ h _ => .inl (hpv _ _ h.1), fun _ _ h h1 => by rw [hpv _ _ h.1]; exact h1, ?_, .refl,
      fun h => Nat.lt_succ_of_lt h⟩⟩
  · intro t' h
    rcases Nat.lt_succ_iff_lt_or_eq.mp h with h | h
    · simp only [hold _ h]; exact hm.pow _ h
    · subst h
      obtain ⟨p, rfl⟩ := hl
      refine ⟨p, ?_, by simp [upd, freshTab]⟩
      exact (Nat.pow_le_pow_iff_right (by decide)).mp (le_trans hc hm.cap)
  · intro t' n h h1
    rcases Nat.lt_succ_iff_lt_or_eq.mp h with h | h
    · simp only [hold _ h] at h1 ⊢
      obtain ⟨a, b, c⟩ := hm.newT _ _ h h1
      rw [hold _ b]
      exact ⟨a, Nat.lt_succ_of_lt b, c⟩
    · subst h; simp [upd, freshTab] at h1
  · intro t' i' h
    by_cases e : t' = m.next
    · subst e; simp only [pk, pv, freshWords, if_true]; exact hfresh
    · have h1 := hhas _ _ h e
      rw [hpk _ _ h1.1, hpv _ _ h1.1]; exact hm.pair _ _ h1
  · intro t' i' h h1
    by_cases e : t' = m.next
    · subst e; simp only [pv, freshWords, if_true, clean_dirty, clean_VI] at h1; exact absurd h1 (by decide)
    · have h2 := hhas _ _ h e
      rw [hpv _ _ h2.1] at h1
      simp only [hold _ h2.1]; exact hm.mig _ _ h2 h1
  · intro t' i' h
    by_cases e : t' = m.next
    · subst e; simp only [freshWords, if_true]; exact hfresh
    · have h1 := hhas _ _ h e
      simp only [hw m.nv (.key t' i') h1.1, hw m.nv (.val t' i') h1.1]; exact hm.durable _ _ h1
  · intro t' i' h h1
    by_cases e : t' = m.next
    · subst e; simp only [freshWords, if_true, isMig_dirty] at h1; exact absurd h1 (by decide)
    · have h2 := hhas _ _ h e
      simp only [hw m.nv (.val t' i') h2.1] at h1
      simp only [hold _ h2.1]; exact hm.dmig _ _ h2 h1
  · intro t' i' h h1
    rw [DV, hpk _ _ h.1]
    rcases h1 with h1 | h1
    · left; simp only [hw m.word (.val t' i') h.1]; exact h1
    · exact .inr h1

/-- Swinging the root along the chain. -/
theorem set_root (hm : PInv A m) {n : Nat} (hn : (m.tab m.root).newT = some n) : Env A m { m with root := n } := by
  intro _
  have := hm.newT _ _ hm.root hn
  exact ⟨⟨this.2.1, hm.pow, hm.cap, hm.newT, hm.pair, hm.mig, hm.durable, hm.dmig⟩,
    ⟨le_refl _, fun _ _ => rfl, fun _ _ _ h => h, fun _ _ => le_refl _, fun _ _ _ _ => rfl, fun _ _ _ _ => .inl rfl,
      fun _ _ _ h => h, fun _ _ _ h => h, .single hn, fun _ => this.2.1⟩⟩

theorem set_failed (hm : PInv A m) (b : Bool) : Env A m { m with failed := b } := by
  intro _
  exact ⟨⟨hm.root, hm.pow, hm.cap, hm.newT, hm.pair, hm.mig, hm.durable, hm.dmig⟩,
    ⟨le_refl _, fun _ _ => rfl, fun _ _ _ h => h, fun _ _ => le_refl _, fun _ _ _ _ => rfl, fun _ _ _ _ => .inl rfl,
      fun _ _ _ h => h, fun _ _ _ h => h, .refl, fun h => h⟩⟩

end PMap
