import Verif.Seq.Grow
import Verif.Props.Finish
import Verif.Fast

/-!
# C13: growth comes to an end

One thread.  If at some length the keys are spread out far enough, then no call grows the table past that length, and every
call finishes: the resizes, the migration with its recursive calls, and the helping loops included.
-/

namespace PMap

open Prog

variable {hash : Word → Word} {cap : Nat}

/-- **C13, growth.** Let `S` be a set of keys and `2 ^ (p + B)` a length the file system accepts such that there are fewer keys
than slots, and any `m` consecutive slots, `m` at least ten, are the home slots of at most `m` of the keys.  Then, starting
with `2 ^ p` slots, any sequence of valid calls naming only keys of `S` finishes, and no table gets longer than
`2 ^ (p + B)`. -/
theorem c13_growth_partial {p B : Nat} (hp : p ≤ 32) (hB : 2 ^ (p + B) ≤ cap) (hc : cap ≤ 2 ^ 32) (S : Finset Word)
    (hS : ∀ x ∈ S, ValidKey x) (hcard : S.card < 2 ^ (p + B))
    (hspread : ∀ a m, 10 ≤ m → m < 2 ^ (p + B) →
      (S.filter (fun x => ∃ j, j < m ∧ (hash x).toNat % 2 ^ (p + B) = (a + j) % 2 ^ (p + B))).card ≤ m)
    (ops : List Op) (hv : ∀ op ∈ ops, op.Valid) (ho : ∀ op ∈ ops, ∀ x, op.Names x → x ∈ S) {n : Nat}
    (hn : 2 ^ (p + B) + 2 * B + 13 ≤ n) :
    ∃ rs m', runOps hash n ops (freshMem (2 ^ p) cap) = .done rs m' ∧ m'.next ≤ B + 1 ∧
      ∀ t, t < m'.next → (m'.tab t).len = 2 ^ (p + t) ∧ (m'.tab t).len ≤ 2 ^ (p + B) := by
  have e : 2 ^ p * 2 ^ B = 2 ^ (p + B) := (pow_add 2 p B).symm
  obtain ⟨rs, m', M', h1, -, h2⟩ := spread_ops (hash := hash) (S := S) (L := 2 ^ p) (B := B)
    (fun x hx => userKey_of_valid (hS x hx)) (by rw [e]; exact ⟨hcard, hspread⟩)
    (n := n) (by simp only [callFuel, loops]; rw [e]; omega) ops _ _ hv ho (good_fresh ⟨p, hp, rfl⟩ hc).1
    (spread_fresh (by rw [e]; exact hB))
  refine ⟨rs, m', h1, h2.next, fun t ht => ?_⟩
  have hl : (m'.tab t).len = 2 ^ p * 2 ^ t := h2.len t ht
  have hn : m'.next ≤ B + 1 := h2.next
  rw [hl, ← pow_add]
  exact ⟨rfl, Nat.pow_le_pow_right (by norm_num) (by omega)⟩

/-- At most as many keys as slots have their home among given slots, if no two keys have the same home. -/
theorem distinct_homes {S : Finset Word} {len : Nat} (f : Word → Nat) (hf : ∀ x ∈ S, ∀ y ∈ S, f x = f y → x = y) (a m : Nat) :
    (S.filter (fun x => ∃ j, j < m ∧ f x = (a + j) % len)).card ≤ m := by
  have := Finset.card_le_card_of_injOn (s := S.filter (fun x => ∃ j, j < m ∧ f x = (a + j) % len))
    (t := (Finset.range m).image (fun j => (a + j) % len)) f (by
      intro x hx
      obtain ⟨-, j, hj, e⟩ := Finset.mem_filter.mp (Finset.mem_coe.mp hx)
      exact Finset.mem_coe.mpr (Finset.mem_image.mpr ⟨j, Finset.mem_range.mpr hj, e.symm⟩)) (by
      intro x hx y hy e
      exact hf x (Finset.mem_filter.mp (Finset.mem_coe.mp hx)).1 y (Finset.mem_filter.mp (Finset.mem_coe.mp hy)).1 e)
  refine le_trans this (le_trans Finset.card_image_le ?_)
  rw [Finset.card_range]

/-- **C13, growth, different hashes.** If the hashes of the keys differ in their low `p + B` bits, and there are fewer keys
than slots, then every sequence of valid calls on those keys finishes. -/
theorem c13_distinct_partial {p B : Nat} (hp : p ≤ 32) (hB : 2 ^ (p + B) ≤ cap) (hc : cap ≤ 2 ^ 32) (S : Finset Word)
    (hS : ∀ x ∈ S, ValidKey x) (hcard : S.card < 2 ^ (p + B))
    (hdiff : ∀ x ∈ S, ∀ y ∈ S, (hash x).toNat % 2 ^ (p + B) = (hash y).toNat % 2 ^ (p + B) → x = y)
    (ops : List Op) (hv : ∀ op ∈ ops, op.Valid) (ho : ∀ op ∈ ops, ∀ x, op.Names x → x ∈ S) {n : Nat}
    (hn : 2 ^ (p + B) + 2 * B + 13 ≤ n) :
    ∃ rs m', runOps hash n ops (freshMem (2 ^ p) cap) = .done rs m' ∧ m'.next ≤ B + 1 := by
  obtain ⟨rs, m', h1, h2, -⟩ := c13_growth_partial hp hB hc S hS hcard
    (fun a m _ _ => distinct_homes (fun x => (hash x).toNat % 2 ^ (p + B)) hdiff a m) ops hv ho hn
  exact ⟨rs, m', h1, h2⟩

/-! ## A case in which the table does grow -/

/-- Twelve keys that share a home slot in a table of 16 slots. -/
def dozen : List Word := (List.range 12).map fun i => BitVec.ofNat 64 (16 * (i + 1))

/-- Put them all, then remove one and look another up. -/
def dozenOps : List Op := dozen.map (fun k => Op.put k 8#64) ++ [.remove 16#64, .get 32#64, .size]

theorem dozen_names : ∀ op ∈ dozenOps, ∀ x, op.Names x → x ∈ dozen.toFinset := by
  intro op hop x hx
  rw [List.mem_toFinset]
  rcases List.mem_append.mp hop with h | h
  · obtain ⟨y, hy, rfl⟩ := List.mem_map.mp h
    have : y = x := hx
    exact this ▸ hy
  · simp only [List.mem_cons, List.not_mem_nil, or_false] at h
    rcases h with rfl | rfl | rfl
    · have : 16#64 = x := hx
      exact this ▸ (by decide +kernel)
    · have : 32#64 = x := hx
      exact this ▸ (by decide +kernel)
    · exact hx.elim

theorem dozen_spread : ∀ a m, 10 ≤ m → m < 2 ^ (4 + 1) →
    (dozen.toFinset.filter (fun x => ∃ j, j < m ∧ (id x : Word).toNat % 2 ^ (4 + 1) = (a + j) % 2 ^ (4 + 1))).card ≤ m := by
  intro a m h1 h2
  have hle : ∀ (q : Word → Prop) [DecidablePred q], (dozen.toFinset.filter q).card ≤ (dozen.filter (fun x => decide (q x))).length := by
    intro q _
    have e : dozen.toFinset.filter q = (dozen.filter (fun x => decide (q x))).toFinset := by ext x; simp
    rw [e]; exact List.toFinset_card_le _
  by_cases h12 : 12 ≤ m
  · exact le_trans (hle _) (le_trans (List.length_filter_le _ _) h12)
  · have h : ∀ a, a < 32 → ∀ m ∈ [10, 11],
        (dozen.filter (fun x => (List.range m).any (fun j => x.toNat % 32 == (a + j) % 32))).length ≤ m := by decide +kernel
    have := h (a % 32) (Nat.mod_lt _ (by norm_num)) m (by simp; omega)
    refine le_trans (hle _) (le_trans (le_of_eq ?_) this)
    congr 1
    refine List.filter_congr fun x _ => ?_
    rw [Bool.eq_iff_iff, decide_eq_true_iff, List.any_eq_true]
    simp [Nat.mod_add_mod]

theorem dozen_valid : ∀ x ∈ dozen.toFinset, ValidKey x := by
  have : dozen.all (fun x => decide (ValidKey x)) = true := by decide +kernel
  exact fun x hx => of_decide_eq_true (List.all_eq_true.mp this x (List.mem_toFinset.mp hx))

theorem dozenOps_valid : ∀ op ∈ dozenOps, op.Valid := by
  have : dozenOps.all (fun op => decide op.Valid) = true := by decide +kernel
  exact fun op h => of_decide_eq_true (List.all_eq_true.mp this op h)

/-- The hypotheses of `c13_growth_partial` hold for them with one doubling (see `dozen_spread`), those of
`c13_distinct_partial` with four, and those of `c13_ten_keys_partial` do not hold. -/
example : (∀ x ∈ dozen.toFinset, ValidKey x) ∧ dozen.toFinset.card < 2 ^ (4 + 1) ∧ (∀ op ∈ dozenOps, op.Valid) ∧
    (∀ op ∈ dozenOps, ∀ x, op.Names x → x ∈ dozen.toFinset) ∧ ¬ dozen.toFinset.card ≤ 10 ∧
    (∀ x ∈ dozen.toFinset, ∀ y ∈ dozen.toFinset, (id x : Word).toNat % 2 ^ (4 + 4) = (id y : Word).toNat % 2 ^ (4 + 4) → x = y) := by
  refine ⟨dozen_valid, by decide +kernel, dozenOps_valid, dozen_names, by decide +kernel, ?_⟩
  have : dozen.all (fun x => dozen.all fun y => decide (x.toNat % 256 = y.toNat % 256 → x = y)) = true := by decide +kernel
  exact fun x hx y hy => of_decide_eq_true (List.all_eq_true.mp (List.all_eq_true.mp this x (List.mem_toFinset.mp hx)) y
    (List.mem_toFinset.mp hy))

/-- The calls finish, having grown the table exactly once. -/
theorem dozen_grows : ∃ rs m', runOps id 60 dozenOps (freshMem 16 64) = .done rs m' ∧ m'.next = 2 := by
  have h : (frunOps id 60 dozenOps (FM.fresh 16 64)).map (fun x => x.2.next) = some 2 := by decide +kernel
  rw [Option.map_eq_some_iff] at h
  obtain ⟨⟨rs, s⟩, h1, h2⟩ := h
  obtain ⟨m', h3, h4⟩ := frunOps_ok _ (FM.fresh_rel 16 64) h1
  exact ⟨rs, m', h3, h4.next ▸ h2⟩

end PMap
