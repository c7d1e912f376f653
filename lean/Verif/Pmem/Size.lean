import Verif.Pmem.Hist
import Mathlib.Algebra.BigOperators.Group.Finset.Basic
import Mathlib.Algebra.BigOperators.Ring.Finset

/-!
# libpmemobj's concurrent_hash_map: `my_size` and the number of nodes

Nothing here is code.
-/

namespace PMap.Pmem

open HP

/-- `my_size` minus the size that is durable. -/
def HSt.gap (s : HSt) : Int := s.size - s.base - s.diff

/-- The program, which has still to add `-d` to `my_size`, ends as `Q` says. -/
def Bal {α : Type} : HP α → Int → (α → Int → Prop) → Prop
  | .ret a, d, Q => Q a d
  | .act f k, d, Q => ∀ s b s', f s = .ok b s' → ∃ d', s'.gap - d' = s.gap - d ∧ Bal (k b) d' Q
  | .spin, _, _ => True

theorem Bal_mono {α : Type} {p : HP α} {Q Q' : α → Int → Prop} (hQ : ∀ a d, Q a d → Q' a d) : ∀ {d : Int}, Bal p d Q → Bal p d Q' := by
  induction p with
  | ret a => exact fun h => hQ _ _ h
  | act f k ih =>
    intro d h s b s' e
    obtain ⟨d', h1, h2⟩ := h s b s' e
    exact ⟨d', h1, ih b h2⟩
  | spin => exact id

theorem Bal_bind {α β : Type} {p : HP α} {k : α → HP β} {Q : β → Int → Prop} : ∀ {d : Int}, Bal p d (fun a d' => Bal (k a) d' Q) →
    Bal (p >>= k) d Q := by
  induction p with
  | ret a => exact id
  | act f k' ih =>
    intro d h s b s' e
    obtain ⟨d', h1, h2⟩ := h s b s' e
    exact ⟨d', h1, ih b h2⟩
  | spin => exact id

/-- The program leaves `my_size` and the durable size as far apart as they are. -/
def Flat {α : Type} (p : HP α) : Prop := ∀ d, Bal p d fun _ d' => d' = d

theorem Flat_bind {α β : Type} {p : HP α} {k : α → HP β} (h : Flat p) (g : ∀ a, Flat (k a)) : Flat (p >>= k) := fun d =>
  Bal_bind (Bal_mono (by rintro a _ rfl; exact g a _) (h d))

theorem Flat_pure {α : Type} {a : α} : Flat (pure a : HP α) := fun _ => rfl

theorem Flat_ret {α : Type} {a : α} : Flat (.ret a : HP α) := fun _ => rfl

theorem Flat_spin {α : Type} : Flat (.spin : HP α) := fun _ => trivial

theorem Flat_atom {α : Type} {f : HSt → Out α} (h : ∀ s b s', f s = .ok b s' → s'.size = s.size ∧ s'.base = s.base ∧ s'.diff = s.diff) :
    Flat (atom f) := by
  intro d s b s' e
  obtain ⟨h1, h2, h3⟩ := h s b s' e
  exact ⟨d, by simp only [HSt.gap, h1, h2, h3], rfl⟩

theorem Flat_getBucket {h : Nat} : Flat (getBucket h) := Flat_atom fun s b s' e => by
  unfold locate at e
  dsimp only at e
  repeat' split at e
  all_goals first | cases e; exact ⟨rfl, rfl, rfl⟩ | cases e

theorem Flat_tryLock {t : Nat} {b : Loc} : Flat (tryLock t b) := Flat_atom fun s b s' e => by
  repeat' split at e
  all_goals first | cases e; exact ⟨rfl, rfl, rfl⟩ | cases e

theorem Flat_lock {t : Nat} {b : Loc} {w : Bool} : Flat (lock t b w) := Flat_atom fun s b s' e => by
  repeat' split at e
  all_goals first | cases e; exact ⟨rfl, rfl, rfl⟩ | cases e

theorem Flat_unlock {t : Nat} {b : Loc} {w : Bool} : Flat (unlock t b w) := Flat_atom fun s b s' e => by
  repeat' split at e
  all_goals first | cases e; exact ⟨rfl, rfl, rfl⟩ | cases e

theorem Flat_isRehashed {b : Loc} : Flat (isRehashed b) := Flat_atom fun s b s' e => by
  cases e; exact ⟨rfl, rfl, rfl⟩

theorem Flat_assertRehashed {b : Loc} {v : Bool} : Flat (assertRehashed b v) := Flat_atom fun s b s' e => by
  repeat' split at e
  all_goals first | cases e; exact ⟨rfl, rfl, rfl⟩ | cases e

theorem Flat_setRehashed {b : Loc} : Flat (setRehashed b) := Flat_atom fun s b s' e => by
  cases e; exact ⟨rfl, rfl, rfl⟩

theorem Flat_persistFlag {b : Loc} : Flat (persistFlag b) := Flat_atom fun s b s' e => by
  cases e; exact ⟨rfl, rfl, rfl⟩

theorem Flat_rdHead {t : Nat} {b : Loc} : Flat (rdHead t b) := Flat_atom fun s b s' e => by
  repeat' split at e
  all_goals first | cases e; exact ⟨rfl, rfl, rfl⟩ | cases e

theorem wr_size (s : HSt) (p : Ptr) (v : Nat) : (s.wr' p v).size = s.size := by
  cases p <;> rfl

theorem wr_base (s : HSt) (p : Ptr) (v : Nat) : (s.wr' p v).base = s.base := by
  cases p <;> rfl

theorem wr_diff (s : HSt) (p : Ptr) (v : Nat) : (s.wr' p v).diff = s.diff := by
  cases p <;> rfl

theorem moveLoop_sizes {E : HEnv} {mask h : Nat} : ∀ (f : Nat) {p p' : Ptr} {s s' : HSt} {b : Unit}, moveLoop E mask h f p p' s = .ok b s' →
    s'.size = s.size ∧ s'.base = s.base ∧ s'.diff = s.diff
  | 0, p, p', s, s', b, e => by cases e
  | f + 1, p, p', s, s', b, e => by
    unfold moveLoop at e
    split at e
    · cases e
    · cases e
      exact ⟨wr_size _ _ _, wr_base _ _ _, wr_diff _ _ _⟩
    · split at e
      · cases e
      · dsimp only at e
        repeat' split at e
        all_goals first
          | cases e
          | have h1 := moveLoop_sizes f e
            simpa only [wr_size, wr_base, wr_diff] using h1

theorem Flat_moveTx {E : HEnv} {t mask h : Nat} {b b' : Loc} : Flat (moveTx E t b b' mask h) := Flat_atom fun s b s' e => by
  split at e
  · exact moveLoop_sizes _ e
  · cases e

theorem Flat_search {t : Nat} {b : Loc} {key : Word} : Flat (search t b key) := Flat_atom fun s b s' e => by
  repeat' split at e
  all_goals first | cases e; exact ⟨rfl, rfl, rfl⟩ | cases e

theorem Flat_tryItem {t n : Nat} : Flat (tryItem t n) := Flat_atom fun s b s' e => by
  repeat' split at e
  all_goals first | cases e; exact ⟨rfl, rfl, rfl⟩ | cases e

theorem Flat_unlockItem {t n : Nat} : Flat (unlockItem t n) := Flat_atom fun s b s' e => by
  repeat' split at e
  all_goals first | cases e; exact ⟨rfl, rfl, rfl⟩ | cases e

theorem Flat_rdItem {t n : Nat} : Flat (rdItem t n) := Flat_atom fun s b s' e => by
  repeat' split at e
  all_goals first | cases e; exact ⟨rfl, rfl, rfl⟩ | cases e

theorem Flat_rdMask : Flat rdMask := Flat_atom fun s b s' e => by
  cases e; exact ⟨rfl, rfl, rfl⟩

theorem Flat_wrMask {m : Nat} : Flat (wrMask m) := Flat_atom fun s b s' e => by
  cases e; exact ⟨rfl, rfl, rfl⟩

theorem Flat_trySeg {t : Nat} : Flat (trySeg t) := Flat_atom fun s b s' e => by
  repeat' split at e
  all_goals first | cases e; exact ⟨rfl, rfl, rfl⟩ | cases e

theorem Flat_unlockSeg {t : Nat} : Flat (unlockSeg t) := Flat_atom fun s b s' e => by
  repeat' split at e
  all_goals first | cases e; exact ⟨rfl, rfl, rfl⟩ | cases e

theorem Flat_isValid {k : Nat} : Flat (isValid k) := Flat_atom fun s b s' e => by
  repeat' split at e
  all_goals first | cases e; exact ⟨rfl, rfl, rfl⟩ | cases e

theorem Flat_enable {E : HEnv} {k : Nat} : Flat (enable E k) := Flat_atom fun s b s' e => by
  dsimp only at e
  repeat' split at e
  all_goals first | cases e; exact ⟨rfl, rfl, rfl⟩ | cases e

theorem Flat_abort {α : Type} : Flat (atom fun _ => .abort : HP α) := Flat_atom fun s b s' e => by cases e

theorem Flat_ub {α : Type} : Flat (atom fun _ => .ub : HP α) := Flat_atom fun s b s' e => by cases e

/-- One step towards showing that a program is flat. -/
macro "flat1" : tactic => `(tactic| first
  | with_reducible exact Flat_pure | with_reducible exact Flat_ret | with_reducible exact Flat_spin | with_reducible exact Flat_getBucket | with_reducible exact Flat_tryLock | with_reducible exact Flat_lock | with_reducible exact Flat_unlock
  | with_reducible exact Flat_isRehashed | with_reducible exact Flat_assertRehashed | with_reducible exact Flat_setRehashed | with_reducible exact Flat_persistFlag | with_reducible exact Flat_rdHead
  | with_reducible exact Flat_moveTx | with_reducible exact Flat_search | with_reducible exact Flat_tryItem | with_reducible exact Flat_unlockItem | with_reducible exact Flat_rdItem | with_reducible exact Flat_rdMask
  | with_reducible exact Flat_wrMask | with_reducible exact Flat_trySeg | with_reducible exact Flat_unlockSeg | with_reducible exact Flat_isValid | with_reducible exact Flat_enable | with_reducible exact Flat_abort | with_reducible exact Flat_ub
  | refine Flat_bind ?_ (fun _ => ?_) | split | dsimp only)

theorem Flat_acquire {E : HEnv} {t : Nat} : ∀ (d : Nat) {h : Nat} {w : Bool}, Flat (acquire E t d h w)
  | 0, _, _ => Flat_spin
  | d + 1, h, w => by
    unfold acquire
    repeat' first | exact Flat_acquire d | flat1

theorem Flat_race {h m : Nat} : Flat (checkMaskRace h m) := by
  unfold checkMaskRace
  repeat' flat1

theorem Flat_item {t n : Nat} : ∀ (f : Nat), Flat (tryAcquireItem t n f)
  | 0 => Flat_pure
  | f + 1 => by
    unfold tryAcquireItem
    repeat' first | exact Flat_item f | flat1

theorem Flat_findLoop {E : HEnv} {t : Nat} {key : Word} : ∀ (f : Nat) {m : Nat}, Flat (findLoop E t key f m)
  | 0, _ => Flat_spin
  | f + 1, m => by
    unfold findLoop
    repeat' first | exact Flat_findLoop f | exact Flat_acquire _ | exact Flat_race | exact Flat_item _ | flat1

theorem Flat_find {E : HEnv} {t : Nat} {key : Word} {f : Nat} : Flat (find E t key f) := by
  unfold find
  repeat' first | exact Flat_findLoop f | flat1

theorem Flat_enableAll {E : HEnv} : ∀ (ks : List Nat), Flat (enableAll E ks)
  | [] => Flat_pure
  | k :: ks => by
    unfold enableAll
    repeat' first | exact Flat_enableAll ks | flat1

theorem Flat_enableSegment {E : HEnv} {k : Nat} : Flat (enableSegment E k) := by
  unfold enableSegment
  repeat' first | exact Flat_enableAll _ | flat1

theorem Flat_checkGrowth {E : HEnv} {t m : Nat} {sz : Int} : Flat (checkGrowth E t m sz) := by
  unfold checkGrowth
  repeat' first | exact Flat_enableSegment | flat1

/-- A change of the table and of `my_size`, one after the other. -/
theorem Flat_two {α β γ : Type} {f : HSt → Out α} {g : HSt → Out β} {k : α → β → HP γ} (z : Int)
    (hf : ∀ s b s', f s = .ok b s' → s'.gap = s.gap - z) (hg : ∀ s b s', g s = .ok b s' → s'.gap = s.gap + z) (hk : ∀ a b, Flat (k a b)) :
    Flat (atom f >>= fun a => atom g >>= fun b => k a b) := by
  intro d s b s' e
  refine ⟨d - z, by rw [hf s b s' e]; omega, fun s1 b1 s1' e1 => ⟨d, by rw [hg s1 b1 s1' e1]; omega, hk b b1 d⟩⟩

theorem Flat_put {E : HEnv} {t : Nat} {b : Loc} {key val : Word} {γ : Type} {k : Unit → Int → HP γ} (hk : ∀ a b, Flat (k a b)) :
    Flat (insertTx E t b key val >>= fun a => incSize >>= fun b => k a b) := by
  refine Flat_two 1 ?_ ?_ hk
  · intro s b s' e
    dsimp only at e
    repeat' split at e
    all_goals first | cases e; simp only [HSt.gap]; omega | cases e
  · intro s b s' e
    cases e
    simp only [HSt.gap]
    omega

theorem Flat_del {t : Nat} {b : Loc} {pred n : Nat} {γ : Type} {k : Unit → Unit → HP γ} (hk : ∀ a b, Flat (k a b)) :
    Flat (eraseTx t b pred n >>= fun a => decSize >>= fun b => k a b) := by
  refine Flat_two (-1) ?_ ?_ hk
  · intro s b s' e
    dsimp only at e
    split at e
    · split at e
      · cases e
      · split at e
        · cases e
        · cases e
          simp only [HSt.gap, wr_size, wr_base]
          omega
    · cases e
  · intro s b s' e
    cases e
    simp only [HSt.gap]
    omega

theorem Flat_insertLoop {E : HEnv} {t : Nat} {key val : Word} : ∀ (f : Nat) {m : Nat}, Flat (insertLoop E t key val f m)
  | 0, _ => Flat_spin
  | f + 1, m => by
    unfold insertLoop
    repeat' first
      | with_reducible exact Flat_insertLoop f
      | with_reducible exact Flat_acquire _
      | with_reducible exact Flat_race
      | with_reducible refine Flat_put (fun _ _ => ?_)
      | flat1

theorem Flat_eraseLoop {E : HEnv} {t : Nat} {key : Word} : ∀ (f : Nat) {m : Nat}, Flat (eraseLoop E t key f m)
  | 0, _ => Flat_spin
  | f + 1, m => by
    unfold eraseLoop
    repeat' first
      | with_reducible exact Flat_eraseLoop f
      | with_reducible exact Flat_acquire _
      | with_reducible exact Flat_race
      | with_reducible exact Flat_item _
      | with_reducible refine Flat_del (fun _ _ => ?_)
      | flat1

theorem Flat_prog {E : HEnv} {t f : Nat} {op : Cmd} : Flat (op.prog E t f) := by
  cases op <;> unfold Cmd.prog <;> try unfold Pmem.insert
  all_goals try unfold Pmem.erase
  all_goals repeat' first
    | exact Flat_insertLoop _
    | exact Flat_eraseLoop _
    | exact Flat_find
    | exact Flat_checkGrowth
    | flat1

/-- `my_size` is as far from the durable size as the threads still have to change it. -/
def SInv (c : Cfg) : Prop := ∃ (N : Nat) (d : Nat → Int), (∀ t, N ≤ t → d t = 0) ∧ c.s.gap = ∑ t ∈ Finset.range N, d t ∧
  ∀ t, match c.th t with
    | .idle => d t = 0
    | .run _ p => Bal p (d t) fun _ d' => d' = 0

theorem sum_set {N t : Nat} {d : Nat → Int} {x : Int} (h : ∀ u, N ≤ u → d u = 0) :
    ∑ u ∈ Finset.range (N + t + 1), (if u = t then x else d u) = ∑ u ∈ Finset.range N, d u - d t + x := by
  have h1 : ∑ u ∈ Finset.range N, d u = ∑ u ∈ Finset.range (N + t + 1), d u := by
    refine Finset.sum_subset (fun u hu => ?_) fun u _ hu => h u ?_
    · rw [Finset.mem_range] at hu ⊢
      omega
    · rw [Finset.mem_range] at hu
      omega
  have ht : t ∈ Finset.range (N + t + 1) := by rw [Finset.mem_range]; omega
  rw [h1, ← Finset.add_sum_erase _ _ ht, ← Finset.add_sum_erase _ d ht, if_pos rfl]
  have : ∑ u ∈ (Finset.range (N + t + 1)).erase t, (if u = t then x else d u) = ∑ u ∈ (Finset.range (N + t + 1)).erase t, d u := by
    refine Finset.sum_congr rfl fun u hu => ?_
    rw [if_neg (Finset.ne_of_mem_erase hu)]
  rw [this]
  omega

theorem SInv.set {c : Cfg} {t : Nat} {x : Th} {s' : HSt} {N : Nat} {d : Nat → Int} {z : Int} (h1 : ∀ u, N ≤ u → d u = 0)
    (h2 : c.s.gap = ∑ u ∈ Finset.range N, d u)
    (h3 : ∀ u, match c.th u with
      | .idle => d u = 0
      | .run _ p => Bal p (d u) fun _ d' => d' = 0)
    (hg : s'.gap - z = c.s.gap - d t)
    (hx : match x with
      | .idle => z = 0
      | .run _ p => Bal p z fun _ d' => d' = 0) : SInv ⟨s', setTh c.th t x⟩ := by
  refine ⟨N + t + 1, fun u => if u = t then z else d u, fun u hu => ?_, ?_, fun u => ?_⟩
  · dsimp only
    rw [if_neg (by omega)]
    exact h1 u (by omega)
  · rw [sum_set h1]
    dsimp only
    omega
  · dsimp only [setTh]
    by_cases e : u = t
    · simp only [e, if_true]
      exact hx
    · simp only [e, if_false]
      exact h3 u

theorem step_SInv {E : HEnv} {c c1 : Cfg} {es : List Ev} (h : SInv c) (hs : Step E c es c1) : SInv c1 := by
  obtain ⟨N, d, h1, h2, h3⟩ := h
  cases hs with
  | @call t op f hid =>
    have h0 := h3 t
    rw [hid] at h0
    exact SInv.set (z := 0) h1 h2 h3 (by dsimp only at h0; rw [h0]) (Bal_mono (fun _ _ h => h) (Flat_prog 0))
  | @act t op β f k b s' hrun hf =>
    have h0 := h3 t
    rw [hrun] at h0
    obtain ⟨d', g1, g2⟩ := h0 c.s b s' hf
    exact SInv.set (z := d') h1 h2 h3 g1 g2
  | @ret t op a hrun =>
    have h0 := h3 t
    rw [hrun] at h0
    have h0' : d t = 0 := h0
    exact SInv.set (z := 0) h1 h2 h3 (by rw [h0']) rfl
  | @crash keep s' hre =>
    refine ⟨0, fun _ => 0, fun _ _ => rfl, ?_, fun _ => rfl⟩
    unfold reopen at hre
    split at hre
    · dsimp only at hre
      split at hre
      · split at hre
        · cases hre
        · split at hre
          · cases hre
            simp [HSt.gap]
          · cases hre
      · cases hre
    all_goals cases hre

theorem runs_SInv {E : HEnv} {c c1 : Cfg} {es : List Ev} (hs : Runs E c es c1) : SInv c → SInv c1 := by
  induction hs with
  | nil => exact id
  | cons h1 _ ih => exact fun h => ih (step_SInv h h1)

theorem new_SInv : SInv Cfg.new := ⟨0, fun _ => 0, fun _ _ => rfl, rfl, fun _ => rfl⟩

/-- When no call is running, `my_size` is the number of nodes. -/
theorem size_eq {c : Cfg} (h : SInv c) (hid : ∀ t, c.th t = .idle) : c.s.size = c.s.base + c.s.diff := by
  obtain ⟨N, d, h1, h2, h3⟩ := h
  have : ∀ t, d t = 0 := fun t => by
    have := h3 t
    rw [hid t] at this
    exact this
  have hz : c.s.gap = 0 := by rw [h2]; exact Finset.sum_eq_zero fun t _ => this t
  simp only [HSt.gap] at hz
  omega

end PMap.Pmem
