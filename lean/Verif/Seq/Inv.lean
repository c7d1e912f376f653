import Verif.Seq.Logic
import Verif.Props.Bits
import Mathlib.Data.Finset.Card
import Mathlib.Tactic.Linarith

/-!
# The sequential invariant (proof machinery)
-/

namespace PMap

/-- A key the map can hold: no dirty bit, not one of the two key markers. -/
structure UserKey (k : Word) : Prop where
  clean : clean k = k
  ne_init : k ≠ KINITIAL
  ne_tomb : k ≠ KTOMBSTONE

/-- A value the map can hold: no mark, not the empty or the tombstone marker. -/
structure Storable (v : Word) : Prop where
  clean : clean v = v
  mig : isMig v = false
  ne_init : v ≠ VINITIAL
  ne_tomb : v ≠ VTOMBSTONE

theorem isMig_TOMBPRIME : isMig TOMBPRIME = true := by decide
theorem isMig_VINITIAL : isMig VINITIAL = false := by decide
theorem isMig_VTOMBSTONE : isMig VTOMBSTONE = false := by decide
theorem clean_TOMBPRIME : clean TOMBPRIME = TOMBPRIME := by decide
theorem clean_VTOMBSTONE : clean VTOMBSTONE = VTOMBSTONE := by decide
theorem clean_KTOMBSTONE : clean KTOMBSTONE = KTOMBSTONE := by decide
theorem KINITIAL_ne_KTOMBSTONE : KINITIAL ≠ KTOMBSTONE := by decide
theorem VINITIAL_ne_VTOMBSTONE : VINITIAL ≠ VTOMBSTONE := by decide
theorem VINITIAL_ne_TOMBPRIME : VINITIAL ≠ TOMBPRIME := by decide
theorem VTOMBSTONE_ne_TOMBPRIME : VTOMBSTONE ≠ TOMBPRIME := by decide
theorem Storable.ne_prime {v : Word} (h : Storable v) : v ≠ TOMBPRIME := by
  rintro rfl; have := h.mig; rw [isMig_TOMBPRIME] at this; cases this

variable (hash : Word → Word)

/-- Slot examined at probe distance `d`. -/
def slotAt (s : A) (t : Nat) (k : Word) (d : Nat) : Nat :=
  (homePut hash k (s.tab t).len + d) % (s.tab t).len

/-- The first `d` probed slots hold other keys. -/
def Upto (s : A) (t : Nat) (k : Word) (d : Nat) : Prop :=
  ∀ e, e < d → s.ck t (slotAt hash s t k e) ≠ KINITIAL ∧ s.ck t (slotAt hash s t k e) ≠ KTOMBSTONE ∧
    s.ck t (slotAt hash s t k e) ≠ k

/-- The probe limit of a table. -/
def A.lim (s : A) (t : Nat) : Nat := reprobeLimit (s.tab t).len

/-- A probe for `k` in table `t` goes on to the next table. -/
def Pass (s : A) (t : Nat) (k : Word) : Prop :=
  ∃ d, d ≤ s.lim t ∧ Upto hash s t k d ∧
    (d = s.lim t ∨ s.ck t (slotAt hash s t k d) = KTOMBSTONE ∨
      (s.ck t (slotAt hash s t k d) = k ∧ isMig (s.cv t (slotAt hash s t k d)) = true))

/-- The invariant; `M` is the abstract content. -/
structure Inv (s : A) (M : Word → Option Word) : Prop where
  ok : s.failed = false
  root_lt : s.root < s.next
  cap_le : s.cap ≤ 2 ^ 32
  len_pow : ∀ t, t < s.next → ∃ p, p ≤ 32 ∧ (s.tab t).len = 2 ^ p
  len_dbl : ∀ t, t + 1 < s.next → (s.tab (t + 1)).len = 2 * (s.tab t).len
  newT : ∀ t, t < s.next → (s.tab t).newT = if t + 1 < s.next then some (t + 1) else none
  slots : s.reopened = false → ∀ t, t < s.next → (s.tab t).len ≤ (s.tab t).slots
  kclean : ∀ t i, t < s.next → i < (s.tab t).len → clean (s.ck t i) = s.ck t i
  kinit : ∀ t i, t < s.next → i < (s.tab t).len → s.ck t i = KINITIAL → s.cv t i = VINITIAL
  ktomb : ∀ t i, t < s.next → i < (s.tab t).len → s.ck t i = KTOMBSTONE →
    t + 1 < s.next ∧ (s.cv t i = VINITIAL ∨ s.cv t i = TOMBPRIME)
  path : ∀ t i, t < s.next → i < (s.tab t).len → UserKey (s.ck t i) →
    ∃ d, d < s.lim t ∧ i = slotAt hash s t (s.ck t i) d ∧ Upto hash s t (s.ck t i) d ∧
      (s.reopened = false → 16 ≤ (s.tab t).len → 10 ≤ d → s.cv t i = VINITIAL ∨ isMig (s.cv t i) = true)
  val : ∀ t i, t < s.next → i < (s.tab t).len →
    s.cv t i = VINITIAL ∨ s.cv t i = VTOMBSTONE ∨ Storable (s.cv t i) ∨ isMig (s.cv t i) = true
  mig : ∀ t i, t < s.next → i < (s.tab t).len → isMig (s.cv t i) = true → t + 1 < s.next
  cross : ∀ t i t0, t < s.next → i < (s.tab t).len → UserKey (s.ck t i) → t0 < t → Pass hash s t0 (s.ck t i)
  dead : ∀ t i, t < s.root → i < (s.tab t).len → s.cv t i = TOMBPRIME
  cont : ∀ k v, M k = some v ↔ UserKey k ∧ Storable v ∧
    ∃ t i, t < s.next ∧ i < (s.tab t).len ∧ s.ck t i = k ∧ s.cv t i = v

/-- No value is in the middle of being migrated, in tables from `T` on. -/
def Rest (s : A) (T : Nat) : Prop :=
  ∀ t i, T ≤ t → t < s.next → i < (s.tab t).len → isMig (s.cv t i) = true → s.cv t i = TOMBPRIME

/-- Number of migrated slots. -/
def cnt (s : A) (t : Nat) : Nat := ((Finset.range (s.tab t).len).filter (fun i => s.cv t i = TOMBPRIME)).card

/-- Migrated slots not yet counted in `copyDone`. -/
def drift (s : A) (t : Nat) : Int := if t < s.next then (cnt s t : Int) - (s.tab t).copyDone else 0

/-- The element counter of the newest table. -/
def A.lastSize (s : A) : Word := (s.tab (s.next - 1)).size

/-- How the state may evolve. -/
structure Ext (s s' : A) : Prop where
  next : s.next ≤ s'.next
  root : s.root ≤ s'.root
  len : ∀ t, t < s.next → (s'.tab t).len = (s.tab t).len
  key : ∀ t i, t < s.next → i < (s.tab t).len → s.ck t i ≠ KINITIAL → s'.ck t i = s.ck t i
  mig : ∀ t i, t < s.next → i < (s.tab t).len → isMig (s.cv t i) = true → isMig (s'.cv t i) = true

theorem Ext.refl (s : A) : Ext s s := ⟨le_refl _, le_refl _, fun _ _ => rfl, fun _ _ _ _ _ => rfl, fun _ _ _ _ h => h⟩

theorem Ext.trans {s1 s2 s3 : A} (h : Ext s1 s2) (h' : Ext s2 s3) : Ext s1 s3 where
  next := le_trans h.next h'.next
  root := le_trans h.root h'.root
  len t ht := (h'.len t (lt_of_lt_of_le ht h.next)).trans (h.len t ht)
  key t i ht hi hk := by
    have e := h.key t i ht hi hk
    rw [h'.key t i (lt_of_lt_of_le ht h.next) (by rw [h.len t ht]; exact hi) (by rw [e]; exact hk), e]
  mig t i ht hi hm := h'.mig t i (lt_of_lt_of_le ht h.next) (by rw [h.len t ht]; exact hi) (h.mig t i ht hi hm)

/-- Tables below `T` and the root are untouched. -/
structure Below (T : Nat) (s s' : A) : Prop where
  root : s'.root = s.root
  ck : ∀ t i, t < T → s'.ck t i = s.ck t i
  cv : ∀ t i, t < T → s'.cv t i = s.cv t i
  tab : ∀ t, t < T → s'.tab t = s.tab t

theorem Below.refl (T : Nat) (s : A) : Below T s s := ⟨rfl, fun _ _ _ => rfl, fun _ _ _ => rfl, fun _ _ => rfl⟩
theorem Below.trans {T : Nat} {s1 s2 s3 : A} (h : Below T s1 s2) (h' : Below T s2 s3) : Below T s1 s3 where
  root := h'.root.trans h.root
  ck t i ht := (h'.ck t i ht).trans (h.ck t i ht)
  cv t i ht := (h'.cv t i ht).trans (h.cv t i ht)
  tab t ht := (h'.tab t ht).trans (h.tab t ht)
theorem Below.weaken {T T' : Nat} {s s' : A} (h : Below T s s') (hT : T' ≤ T) : Below T' s s' where
  root := h.root
  ck t i ht := h.ck t i (by omega)
  cv t i ht := h.cv t i (by omega)
  tab t ht := h.tab t (by omega)

section basic
variable {hash} {s s' : A} {M : Word → Option Word} {t i : Nat} {k : Word}

theorem slotAt_ext (h : Ext s s') (ht : t < s.next) (d : Nat) : slotAt hash s' t k d = slotAt hash s t k d := by
  simp only [slotAt, h.len t ht]

theorem lim_ext (h : Ext s s') (ht : t < s.next) : s'.lim t = s.lim t := by simp only [A.lim, h.len t ht]

theorem Inv.len_pos (h : Inv hash s M) (ht : t < s.next) : 0 < (s.tab t).len := by
  obtain ⟨p, _, e⟩ := h.len_pow t ht
  rw [e]; positivity

theorem Inv.len_le (h : Inv hash s M) (ht : t < s.next) : (s.tab t).len ≤ 2 ^ 32 := by
  obtain ⟨p, hp, e⟩ := h.len_pow t ht
  rw [e]; exact Nat.pow_le_pow_right (by norm_num) hp

theorem Inv.slotAt_lt (h : Inv hash s M) (ht : t < s.next) (d : Nat) : slotAt hash s t k d < (s.tab t).len :=
  Nat.mod_lt _ (h.len_pos ht)

theorem Upto.ext {d : Nat} (hs : ∀ e, e < d → slotAt hash s t k e < (s.tab t).len) (h : Ext s s') (ht : t < s.next)
    (hu : Upto hash s t k d) : Upto hash s' t k d := by
  intro e he
  rw [slotAt_ext h ht, h.key t _ ht (hs e he) (hu e he).1]
  exact hu e he

theorem Inv.upto_ext {d : Nat} (hI : Inv hash s M) (h : Ext s s') (ht : t < s.next)
    (hu : Upto hash s t k d) : Upto hash s' t k d := Upto.ext (fun _ _ => hI.slotAt_lt ht _) h ht hu

theorem Inv.pass_ext (hI : Inv hash s M) (hk : UserKey k) (h : Ext s s') (ht : t < s.next) (hp : Pass hash s t k) :
    Pass hash s' t k := by
  obtain ⟨d, hd, hu, hc⟩ := hp
  refine ⟨d, by rw [lim_ext h ht]; exact hd, hI.upto_ext h ht hu, ?_⟩
  rw [slotAt_ext h ht, lim_ext h ht]
  rcases hc with hc | hc | ⟨hc, hm⟩
  · exact .inl hc
  · right; left
    rw [h.key t _ ht (hI.slotAt_lt ht _) (by rw [hc]; exact KINITIAL_ne_KTOMBSTONE.symm), hc]
  · right; right
    exact ⟨by rw [h.key t _ ht (hI.slotAt_lt ht _) (by rw [hc]; exact hk.ne_init), hc],
      h.mig t _ ht (hI.slotAt_lt ht _) hm⟩

/-- Two probe positions of the same key coincide. -/
theorem Upto.unique {d e : Nat} (hd : Upto hash s t k d) (he : Upto hash s t k e)
    (h1 : s.ck t (slotAt hash s t k d) = KINITIAL ∨ s.ck t (slotAt hash s t k d) = KTOMBSTONE ∨
      s.ck t (slotAt hash s t k d) = k)
    (h2 : s.ck t (slotAt hash s t k e) = KINITIAL ∨ s.ck t (slotAt hash s t k e) = KTOMBSTONE ∨
      s.ck t (slotAt hash s t k e) = k) : d = e := by
  rcases lt_trichotomy d e with h | h | h
  · obtain ⟨a, b, c⟩ := he d h
    rcases h1 with h1 | h1 | h1 <;> contradiction
  · exact h
  · obtain ⟨a, b, c⟩ := hd e h
    rcases h2 with h2 | h2 | h2 <;> contradiction

/-- Where `k` sits in table `t` if a probe reached distance `d` with a decisive slot. -/
theorem Inv.at_unique {d : Nat} (hI : Inv hash s M) (hk : UserKey k) (ht : t < s.next) (hi : i < (s.tab t).len)
    (e : s.ck t i = k) (hu : Upto hash s t k d)
    (h1 : s.ck t (slotAt hash s t k d) = KINITIAL ∨ s.ck t (slotAt hash s t k d) = KTOMBSTONE ∨
      s.ck t (slotAt hash s t k d) = k) : i = slotAt hash s t k d := by
  obtain ⟨d', hd', hi', hu', -⟩ := hI.path t i ht hi (by rw [e]; exact hk)
  rw [e] at hi' hu'
  have : d' = d := hu'.unique hu (by rw [← hi']; exact .inr (.inr e)) h1
  rw [hi', this]

/-- If a probe for `k` passes through table `t`, then `t` holds no live value of `k`. -/
theorem Inv.pass_mig (hI : Inv hash s M) (hk : UserKey k) (ht : t < s.next) (hp : Pass hash s t k)
    (hi : i < (s.tab t).len) (e : s.ck t i = k) : isMig (s.cv t i) = true := by
  obtain ⟨d, hd, hu, hc⟩ := hp
  rcases hc with hc | hc | ⟨hc, hm⟩
  · obtain ⟨d', hd', hi', hu', -⟩ := hI.path t i ht hi (by rw [e]; exact hk)
    rw [e] at hi'
    exact absurd (by rw [← hi']; exact e) (hu d' (by omega)).2.2
  · have h := hI.at_unique hk ht hi e hu (.inr (.inl hc))
    rw [h, hc] at e; exact absurd e.symm hk.ne_tomb
  · rw [hI.at_unique hk ht hi e hu (.inr (.inr hc))]; exact hm

/-- If a probe for `k` in `t` meets an empty slot, `k` is in no table from `t` on. -/
theorem Inv.init_unclaimed {d t' : Nat} (hI : Inv hash s M) (hk : UserKey k) (ht : t < s.next)
    (hd : d < s.lim t) (hu : Upto hash s t k d) (h0 : s.ck t (slotAt hash s t k d) = KINITIAL)
    (htt : t ≤ t') (ht' : t' < s.next) (hi : i < (s.tab t').len) : s.ck t' i ≠ k := by
  intro e
  rcases Nat.eq_or_lt_of_le htt with rfl | hlt
  · have := hI.at_unique hk ht hi e hu (.inl h0)
    rw [this, h0] at e
    exact hk.ne_init e.symm
  · obtain ⟨d', hd', hu', hc⟩ := hI.cross t' i t ht' hi (by rw [e]; exact hk) hlt
    rw [e] at hu' hc
    rcases hc with hc | hc
    · exact (hu' d (by omega)).1 h0
    · have : d = d' := hu.unique hu' (.inl h0) (.inr (by tauto))
      subst this
      rcases hc with hc | ⟨hc, -⟩
      · rw [h0] at hc; exact KINITIAL_ne_KTOMBSTONE hc
      · rw [h0] at hc; exact hk.ne_init hc.symm

/-- A live slot of `k` determines the content of `k`. -/
theorem Inv.content_live (hI : Inv hash s M) (hk : UserKey k) (ht : t < s.next) (hi : i < (s.tab t).len)
    (e : s.ck t i = k) (hm : isMig (s.cv t i) = false) (v : Word) :
    M k = some v ↔ Storable (s.cv t i) ∧ s.cv t i = v := by
  rw [hI.cont]
  constructor
  · rintro ⟨-, hv, t', i', ht', hi', ek, ev⟩
    have hmv : isMig (s.cv t' i') = false := by rw [ev]; exact hv.mig
    rcases lt_trichotomy t t' with h | h | h
    · have := hI.pass_mig hk ht (by rw [← ek]; exact hI.cross t' i' t ht' hi' (by rw [ek]; exact hk) h) hi e
      rw [hm] at this; cases this
    · subst h
      obtain ⟨d', hd', h1, h2, -⟩ := hI.path t i' ht' hi' (by rw [ek]; exact hk)
      rw [ek] at h1 h2
      have : i = i' := by
        rw [h1]; exact hI.at_unique hk ht hi e h2 (.inr (.inr (by rw [← h1]; exact ek)))
      subst this
      rw [ev]; exact ⟨hv, rfl⟩
    · have := hI.pass_mig hk ht' (by rw [← e]; exact hI.cross t i t' ht hi (by rw [e]; exact hk) h) hi' ek
      rw [hmv] at this; cases this
  · rintro ⟨hv, rfl⟩
    exact ⟨hk, hv, t, i, ht, hi, e, rfl⟩

/-- No content if every older table is passed and no table from `t` on holds `k`. -/
theorem Inv.content_none (hI : Inv hash s M) (hk : UserKey k) (hp : ∀ t0, t0 < t → Pass hash s t0 k)
    (hn : ∀ t' i, t ≤ t' → t' < s.next → i < (s.tab t').len → s.ck t' i ≠ k) : M k = none := by
  cases hM : M k with
  | none => rfl
  | some v =>
    obtain ⟨-, hv, t', i', ht', hi', ek, ev⟩ := (hI.cont k v).mp hM
    rcases Nat.lt_or_ge t' t with h | h
    · have := hI.pass_mig hk ht' (hp t' h) hi' ek
      rw [ev, hv.mig] at this; cases this
    · exact absurd ek (hn t' i' h ht' hi')

/-- Tables below the root are passed by every key. -/
theorem Inv.pass_dead (hI : Inv hash s M) (_hk : UserKey k) (ht : t < s.root) : Pass hash s t k := by
  have htn : t < s.next := lt_trans ht hI.root_lt
  by_contra hcon
  have key : ∀ d, d ≤ s.lim t → Upto hash s t k d := by
    intro d
    induction d with
    | zero => intro _ e he; omega
    | succ d ih =>
      intro hd e he
      have hu := ih (by omega)
      rcases Nat.lt_succ_iff_lt_or_eq.mp he with h | h
      · exact hu e h
      · subst h
        have hlt := hI.slotAt_lt (k := k) htn e
        have hv := hI.dead t _ ht hlt
        refine ⟨fun h0 => ?_, fun h0 => hcon ⟨e, by omega, hu, .inr (.inl h0)⟩,
          fun h0 => hcon ⟨e, by omega, hu, .inr (.inr ⟨h0, by rw [hv]; exact isMig_TOMBPRIME⟩)⟩⟩
        have := hI.kinit t _ htn hlt h0
        rw [hv] at this; exact VINITIAL_ne_TOMBPRIME this.symm
  exact hcon ⟨s.lim t, le_refl _, key _ (le_refl _), .inl rfl⟩

end basic

end PMap
