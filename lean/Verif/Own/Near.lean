import Verif.Own.Spec
import Verif.Fixed.Map

/-!
# Keys that are spread well stay near their home slots (proof machinery)
-/

namespace PMap

/-- Slot at distance `d` from the home of `k`. -/
def pat (hash : Word → Word) (len : Nat) (k : Word) (d : Nat) : Nat := (homePut hash k len + d) % len

/-- The keys in the slots are the ones linear probing of less than `B` steps leaves. -/
structure Placed (hash : Word → Word) (len : Nat) (S : Finset Word) (B : Nat) (key : Nat → Word) : Prop where
  mem : ∀ i, i < len → key i ≠ KINITIAL → key i ∈ S
  path : ∀ i, i < len → key i ≠ KINITIAL → ∃ d, d < B ∧ d < len ∧ i = pat hash len (key i) d ∧
    ∀ e, e < d → key (pat hash len (key i) e) ≠ KINITIAL ∧ key (pat hash len (key i) e) ≠ key i

variable {hash : Word → Word} {len B : Nat} {S : Finset Word} {key : Nat → Word} {k : Word}

theorem pat_lt (hp : 0 < len) (k : Word) (d : Nat) : pat hash len k d < len := Nat.mod_lt _ hp

theorem mod_inj {len x a b : Nat} (ha : a < len) (hb : b < len) (h : (x + a) % len = (x + b) % len) : a = b := by
  have h1 : a ≡ b [MOD len] := Nat.ModEq.add_left_cancel' x h
  exact Nat.ModEq.eq_of_lt_of_lt h1 ha hb

theorem pat_inj {a b : Nat} (ha : a < len) (hb : b < len) (h : pat hash len k a = pat hash len k b) : a = b :=
  mod_inj ha hb h

/-- No key is in two slots. -/
theorem Placed.inj (h : Placed hash len S B key) {i j : Nat} (hi : i < len) (hj : j < len) (h0 : key i ≠ KINITIAL)
    (he : key i = key j) : i = j := by
  obtain ⟨d, -, hd, e1, h1⟩ := h.path i hi h0
  obtain ⟨d', -, hd', e2, h2⟩ := h.path j hj (he ▸ h0)
  rw [← he] at e2 h2
  rcases Nat.lt_trichotomy d d' with hlt | rfl | hlt
  · exact absurd (by rw [← e1]) (h2 d hlt).2
  · rw [e1, e2]
  · exact absurd (by rw [← e2, he]) (h1 d' hlt).2

/-- The first `d` slots a probe for `k` meets hold other keys. -/
def Passed (hash : Word → Word) (len : Nat) (key : Nat → Word) (k : Word) (d : Nat) : Prop :=
  ∀ e, e < d → key (pat hash len k e) ≠ KINITIAL ∧ key (pat hash len k e) ≠ k

/-- A key that has an empty slot on its path, with no `k` before, is nowhere. -/
theorem Placed.nowhere (h : Placed hash len S B key) (hk : k ≠ KINITIAL) {d : Nat}
    (hp : Passed hash len key k d) (he : key (pat hash len k d) = KINITIAL) : ∀ i, i < len → key i ≠ k := by
  rintro i hi rfl
  obtain ⟨d', -, -, e', h'⟩ := h.path i hi hk
  rcases Nat.lt_trichotomy d d' with hlt | rfl | hlt
  · exact (h' d hlt).1 he
  · rw [← e'] at he; exact hk he
  · exact (hp d' hlt).2 (by rw [← e'])

/-- A key that has not been met on the first `B` slots is nowhere. -/
theorem Placed.nowhere_of_passed (h : Placed hash len S B key) (hk : k ≠ KINITIAL) {d : Nat} (hd : B ≤ d)
    (hp : Passed hash len key k d) : ∀ i, i < len → key i ≠ k := by
  rintro i hi rfl
  obtain ⟨d', hd', -, e', -⟩ := h.path i hi hk
  exact (hp d' (by omega)).2 (by rw [← e'])

/-- A probe that ends at an empty slot has not been all the way round. -/
theorem Passed.lt (hp : 0 < len) {d : Nat} (h : Passed hash len key k d) (h0 : key (pat hash len k d) = KINITIAL) : d < len := by
  by_contra hge
  have hlt := Nat.mod_lt d hp
  refine (h (d % len) (by omega)).1 ?_
  rw [pat, Nat.add_mod_mod]; exact h0

/-- A probe that ends at the key has not been all the way round. -/
theorem Placed.found (h : Placed hash len S B key) (hk : k ≠ KINITIAL) {d : Nat} (hp : Passed hash len key k d)
    (hpos : 0 < len) (hd : key (pat hash len k d) = k) : d < B ∧ d < len := by
  obtain ⟨d', h1, h2, e, -⟩ := h.path (pat hash len k d) (pat_lt hpos k d) (by rw [hd]; exact hk)
  rw [hd] at e
  have : d ≤ d' := by
    by_contra hlt
    exact (hp d' (by omega)).2 (by rw [← e]; exact hd)
  omega

theorem pat_surj (hp : 0 < len) (k : Word) {i : Nat} (hi : i < len) : ∃ d, d < len ∧ pat hash len k d = i := by
  have h1 := Nat.mod_lt (homePut hash k len) hp
  refine ⟨(i + (len - homePut hash k len % len)) % len, Nat.mod_lt _ hp, ?_⟩
  rw [pat, Nat.add_mod_mod, ← Nat.mod_add_mod, show homePut hash k len % len + (i + (len - homePut hash k len % len)) = i + len by omega,
    Nat.add_mod_right, Nat.mod_eq_of_lt hi]

/-- If `k` is nowhere, some slot is empty. -/
theorem Placed.empty_slot (hR : Roomy hash len S) (h : Placed hash len S B key) (hk : k ∈ S) (hn : ∀ i, i < len → key i ≠ k) :
    ∃ i, i < len ∧ key i = KINITIAL := by
  by_contra hc
  push Not at hc
  have h1 : (insert k ((Finset.range len).image key)).card ≤ S.card := by
    refine Finset.card_le_card ?_
    intro x hx
    rcases Finset.mem_insert.mp hx with rfl | hx
    · exact hk
    · obtain ⟨i, hi, rfl⟩ := Finset.mem_image.mp hx
      exact h.mem i (Finset.mem_range.mp hi) (hc i (Finset.mem_range.mp hi))
  rw [Finset.card_insert_of_notMem, Finset.card_image_of_injOn, Finset.card_range] at h1
  · have := hR.card; omega
  · intro i hi j hj he
    exact h.inj (Finset.mem_range.mp hi) (Finset.mem_range.mp hj) (hc i (Finset.mem_range.mp hi)) he
  · intro hx
    obtain ⟨i, hi, he⟩ := Finset.mem_image.mp hx
    exact hn i (Finset.mem_range.mp hi) he

/-- A probe for a key of `S` ends within ten steps. -/
theorem Placed.near (hpow : ∃ p, p ≤ 32 ∧ len = 2 ^ p) (hR : Roomy hash len S) (h : Placed hash len S 10 key) (hk : k ∈ S) {d : Nat}
    (hd : d ≤ len) (hp : Passed hash len key k d) : d < 10 ∧ d < len := by
  have hpos : 0 < len := by obtain ⟨p, -, e⟩ := hpow; rw [e]; positivity
  have hk0 : k ≠ KINITIAL := (userKey_of_valid (hR.valid k hk)).ne_init
  by_cases hw : ∃ i, i < len ∧ key i = k
  · obtain ⟨i, hi, rfl⟩ := hw
    obtain ⟨d0, h10, hlen, e, -⟩ := h.path i hi hk0
    have : d ≤ d0 := by
      by_contra hlt
      exact (hp d0 (by omega)).2 (by rw [← e])
    omega
  push Not at hw
  obtain ⟨j, hj, hj0⟩ := h.empty_slot hR hk hw
  -- the last empty slot before the home of `k`: at distance `q` from it, with only full slots behind
  obtain ⟨q0, hq0, e0⟩ := pat_surj (hash := hash) hpos k hj
  have hex : ∃ b, b < len ∧ key (pat hash len k (len - 1 - b)) = KINITIAL := by
    refine ⟨len - 1 - q0, by omega, ?_⟩
    rw [show len - 1 - (len - 1 - q0) = q0 by omega, e0]; exact hj0
  classical
  obtain ⟨hb, hb0⟩ := Nat.find_spec hex
  have hmin : ∀ c, c < Nat.find hex → key (pat hash len k (len - 1 - c)) ≠ KINITIAL := fun c hc e =>
    Nat.find_min hex hc ⟨by omega, e⟩
  generalize Nat.find hex = b at hb hb0 hmin
  have hdb : d ≤ len - 1 - b := by
    by_contra hlt
    exact (hp _ (by omega)).1 hb0
  refine ⟨?_, by omega⟩
  by_contra h10
  -- the slots from `a` on, `b + d` of them, are full of keys at home there
  have hH : homePut hash k len = (hash k).toNat % len := and_len hpow
  generalize hHk : homePut hash k len = H at hH
  have hHlt : H < len := by rw [hH]; exact Nat.mod_lt _ hpos
  obtain ⟨a, ha, haH⟩ : ∃ a, a < len ∧ (a + b) % len = H := by
    refine ⟨(H + (len - b)) % len, Nat.mod_lt _ hpos, ?_⟩
    rw [Nat.mod_add_mod, show H + (len - b) + b = H + len by omega, Nat.add_mod_right, Nat.mod_eq_of_lt hHlt]
  have hslot : ∀ x, pat hash len k x = (a + b + x) % len := by
    intro x; rw [pat, hHk, ← haH, Nat.mod_add_mod]
  have hfull : ∀ x, x < b + d → key ((a + x) % len) ≠ KINITIAL := by
    intro x hx
    by_cases hxb : x < b
    · have := hmin (b - 1 - x) (by omega)
      rw [hslot, show a + b + (len - 1 - (b - 1 - x)) = a + x + len by omega, Nat.add_mod_right] at this
      exact this
    · have := (hp (x - b) (by omega)).1
      rwa [hslot, show a + b + (x - b) = a + x by omega] at this
  have hgap : key ((a + (len - 1)) % len) = KINITIAL := by
    rw [hslot, show a + b + (len - 1 - b) = a + (len - 1) by omega] at hb0
    exact hb0
  have hin : ∀ x, x < b + d → ((hash (key ((a + x) % len))).toNat % len + (len - a)) % len < b + d := by
    intro x hx
    obtain ⟨e, -, he, heq, hpe⟩ := h.path ((a + x) % len) (Nat.mod_lt _ hpos) (hfull x hx)
    generalize key ((a + x) % len) = c at heq hpe
    have hHc : homePut hash c len = (hash c).toNat % len := and_len hpow
    rw [← hHc]
    generalize hp' : (homePut hash c len + (len - a)) % len = p
    have hplt : p < len := by rw [← hp']; exact Nat.mod_lt _ hpos
    have hat : ∀ y, pat hash len c y = (a + (p + y)) % len := by
      intro y
      rw [pat, ← hp', ← Nat.add_assoc, ← Nat.mod_add_mod (a + _), Nat.add_mod_mod, Nat.mod_add_mod,
        show a + (homePut hash c len + (len - a)) + y = homePut hash c len + y + len by omega, Nat.add_mod_right]
    by_contra hge
    have hxp : x < p := by omega
    have hex : (a + x) % len = (a + (p + e)) % len := by rw [heq, hat]
    have hpe' : p + e ≥ len := by
      by_contra hlt
      have := mod_inj (by omega) (by omega) hex
      omega
    refine (hpe (len - 1 - p) (by omega)).1 ?_
    rw [hat, show p + (len - 1 - p) = len - 1 by omega]
    exact hgap
  have hcard := hR.spread a (b + d) ha (by omega) (by omega)
  have hsub : insert k ((Finset.range (b + d)).image fun x => key ((a + x) % len)) ⊆
      S.filter fun k => ((hash k).toNat % len + (len - a)) % len < b + d := by
    intro y hy
    rcases Finset.mem_insert.mp hy with rfl | hy
    · refine Finset.mem_filter.mpr ⟨hk, ?_⟩
      rw [← hH, ← haH, Nat.mod_add_mod, show a + b + (len - a) = b + len by omega, Nat.add_mod_right,
        Nat.mod_eq_of_lt (by omega)]
      omega
    · obtain ⟨x, hx, rfl⟩ := Finset.mem_image.mp hy
      exact Finset.mem_filter.mpr ⟨h.mem _ (Nat.mod_lt _ hpos) (hfull x (Finset.mem_range.mp hx)), hin x (Finset.mem_range.mp hx)⟩
  have hle := Finset.card_le_card hsub
  rw [Finset.card_insert_of_notMem, Finset.card_image_of_injOn, Finset.card_range] at hle
  · omega
  · intro x hx y hy he
    have h1 := Finset.mem_range.mp hx
    have h2 := Finset.mem_range.mp hy
    exact mod_inj (by omega) (by omega) (h.inj (Nat.mod_lt _ hpos) (Nat.mod_lt _ hpos) (hfull x h1) he)
  · intro hx
    obtain ⟨x, hx, he⟩ := Finset.mem_image.mp hx
    exact hw _ (Nat.mod_lt _ hpos) he

end PMap
