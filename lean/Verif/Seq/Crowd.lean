import Verif.Seq.Total

/-!
# Ten keys with one hash (proof machinery)

If the table holds ten keys of one hash and an eleventh is put, the table grows; migrating the ten keys never makes it grow
again, so the put meets the same situation in the new table, for ever.
-/

namespace PMap

open Prog

variable {hash : Word → Word} {s : A} {M : Word → Option Word} {t : Nat} {k : Word}

/-! ## Runs that return -/

/-- If the run returns, `Q` holds. -/
def PW {α : Type} (p : Prog α) (Q : α → A → Prop) (s : A) : Prop :=
  ∀ m, abs m = s → ∀ a m', run p m = .done a m' → Q a (abs m')

theorem PW_of {α : Type} {p : Prog α} {Q : α → A → Prop} (h : W p Q s) : PW p Q s := fun m hm => (h m hm).2
theorem PW_and {α : Type} {p : Prog α} {Q Q' : α → A → Prop} (h : PW p Q s) (h' : PW p Q' s) :
    PW p (fun a s' => Q a s' ∧ Q' a s') s := fun m hm a m' hr => ⟨h m hm a m' hr, h' m hm a m' hr⟩
theorem PW_mono {α : Type} {p : Prog α} {Q Q' : α → A → Prop} (h : PW p Q s) (hq : ∀ a s', Q a s' → Q' a s') : PW p Q' s :=
  fun m hm a m' hr => hq a _ (h m hm a m' hr)
theorem PW_bind {α β : Type} {p : Prog α} {f : α → Prog β} {Q : β → A → Prop}
    (h : PW p (fun a s' => PW (f a) Q s') s) : PW (p >>= f) Q s := by
  intro m hm b m2 hb
  have hb : run (p.bind f) m = .done b m2 := hb
  rw [run_bind] at hb
  cases hr : run p m with
  | done a m' => rw [hr] at hb; exact h m hm a m' hr m' rfl b m2 hb
  | halted x => rw [hr] at hb; cases hb
theorem PW_pure {α : Type} {a : α} {Q : α → A → Prop} (h : Q a s) : PW (pure a) Q s := by
  intro m hm a' m' hr; cases hr; rw [hm]; exact h
theorem PW_halt {α : Type} {x : Halt} {Q : α → A → Prop} : PW (.halt x) Q s := fun _ _ _ _ hr => by cases hr
theorem PW_loop {σ α : Type} {body : σ → Prog (Ctl σ α)} {Q : α → A → Prop} (I : σ → A → Prop)
    (hb : ∀ x s, I x s → PW (body x) (fun c s' => match c with | .next x' => I x' s' | .done a => Q a s') s)
    (n : Nat) : ∀ x s, I x s → PW (loop n body x) Q s := by
  induction n with
  | zero => intro x s _; exact PW_halt
  | succ n ih =>
    intro x s hI
    refine PW_bind (PW_mono (hb x s hI) ?_)
    rintro (x' | a) s' h
    · exact ih x' s' h
    · exact PW_pure h
theorem PW_check {b : Bool} {Q : Unit → A → Prop} (h : ∀ f, Q () { s with failed := f }) : PW (check b) Q s := by
  intro m hm a m' hr
  subst hm
  cases hr
  exact h _

/-! ## The crowd -/

/-- While table `t` is migrated into table `t + 1`: only keys of `S` have content, and only keys of `S` are in `t + 1`. -/
structure Crowd (hash : Word → Word) (S : Finset Word) (t L : Nat) (s : A) : Prop where
  next : s.next = t + 2
  reop : s.reopened = false
  newT : (s.tab t).newT = some (t + 1)
  newT' : (s.tab (t + 1)).newT = none
  root : s.root = t ∨ s.root = t + 1
  len : (s.tab t).len = L
  pow' : ∃ p, p ≤ 32 ∧ (s.tab (t + 1)).len = 2 ^ p
  big : 16 ≤ (s.tab (t + 1)).len
  old : ∀ i, i < L →
    (s.cv t i = VINITIAL ∨ s.cv t i = VTOMBSTONE ∨ s.cv t i = TOMBPRIME) ∨ s.ck t i ∈ S
  key : ∀ i, i < (s.tab (t + 1)).len → s.ck (t + 1) i = KINITIAL ∨ s.ck (t + 1) i ∈ S
  path : ∀ i, i < (s.tab (t + 1)).len → s.ck (t + 1) i ∈ S → ∃ d, i = slotAt hash s (t + 1) (s.ck (t + 1) i) d ∧
    Upto hash s (t + 1) (s.ck (t + 1) i) d
  mig : ∀ i, i < (s.tab (t + 1)).len → isMig (s.cv (t + 1) i) = false

variable {S : Finset Word} {L : Nat}

/-- Control words other than lengths and successors do not matter. -/
theorem Crowd.congr {s' : A} (h : Crowd hash S t L s) (hck : s'.ck = s.ck) (hcv : s'.cv = s.cv) (hn : s'.next = s.next) (hre : s'.reopened = s.reopened)
    (hr : s'.root = t ∨ s'.root = t + 1) (hl : ∀ t', (s'.tab t').len = (s.tab t').len)
    (hnt : ∀ t', (s'.tab t').newT = (s.tab t').newT) : Crowd hash S t L s' := by
  have hslot : ∀ k d, slotAt hash s' (t + 1) k d = slotAt hash s (t + 1) k d := fun k d => by simp only [slotAt, hl]
  have hup : ∀ k d, Upto hash s (t + 1) k d → Upto hash s' (t + 1) k d := fun k d h e he => by
    rw [hslot, hck]; exact h e he
  refine ⟨by rw [hn]; exact h.next, by rw [hre]; exact h.reop, by rw [hnt]; exact h.newT, by rw [hnt]; exact h.newT', hr, by rw [hl]; exact h.len,
    by rw [hl]; exact h.pow', by rw [hl]; exact h.big, ?_, ?_, ?_, ?_⟩
  · rw [hck, hcv]; exact h.old
  · rw [hck, hl]; exact h.key
  · rw [hck, hl]
    intro i hi hm
    obtain ⟨d, h1, h2⟩ := h.path i hi hm
    exact ⟨d, by rw [hslot]; exact h1, hup _ _ h2⟩
  · rw [hcv, hl]; exact h.mig

theorem Crowd.failed (h : Crowd hash S t L s) (f : Bool) : Crowd hash S t L { s with failed := f } :=
  h.congr rfl rfl rfl rfl h.root (fun _ => rfl) (fun _ => rfl)

theorem Crowd.tab (h : Crowd hash S t L s) {t' : Nat} {x : Tab} (hl : x.len = (s.tab t').len) (hn : x.newT = (s.tab t').newT) :
    Crowd hash S t L { s with tab := upd s.tab t' x } := by
  refine h.congr rfl rfl rfl rfl h.root ?_ ?_ <;> intro t'' <;> simp only [upd] <;> split <;> simp_all

/-- A value of the old table may be overwritten. -/
theorem Crowd.setOld (h : Crowd hash S t L s) {i : Nat} {w : Word}
    (hw : (w = VINITIAL ∨ w = VTOMBSTONE ∨ w = TOMBPRIME) ∨ s.ck t i ∈ S) : Crowd hash S t L { s with cv := upd2 s.cv t i w } := by
  refine ⟨h.next, h.reop, h.newT, h.newT', h.root, h.len, h.pow', h.big, ?_, h.key, h.path, ?_⟩
  · intro j hj
    show (upd2 s.cv t i w t j = VINITIAL ∨ upd2 s.cv t i w t j = VTOMBSTONE ∨ upd2 s.cv t i w t j = TOMBPRIME) ∨ s.ck t j ∈ S
    by_cases e : j = i
    · subst e; rw [show upd2 s.cv t j w t j = w from if_pos ⟨rfl, rfl⟩]; exact hw
    · rw [show upd2 s.cv t i w t j = s.cv t j from if_neg (fun h => e h.2)]; exact h.old j hj
  · intro j hj
    show isMig (upd2 s.cv t i w (t + 1) j) = false
    rw [show upd2 s.cv t i w (t + 1) j = s.cv (t + 1) j from if_neg (fun h => by omega)]; exact h.mig j hj

/-- An empty slot of the old table may be closed. -/
theorem Crowd.closeOld (hS : ∀ k ∈ S, UserKey k) (h : Crowd hash S t L s) {i : Nat} (h0 : s.ck t i = KINITIAL) :
    Crowd hash S t L { s with ck := upd2 s.ck t i KTOMBSTONE } := by
  have e1 : ∀ j, upd2 s.ck t i KTOMBSTONE (t + 1) j = s.ck (t + 1) j := fun j => if_neg (fun h => by omega)
  refine ⟨h.next, h.reop, h.newT, h.newT', h.root, h.len, h.pow', h.big, ?_, ?_, ?_, h.mig⟩
  · intro j hj
    rcases h.old j hj with h' | h'
    · exact .inl h'
    · right
      have hne : j ≠ i := fun e => by subst e; rw [h0] at h'; exact (hS _ h').ne_init rfl
      show upd2 s.ck t i KTOMBSTONE t j ∈ S
      rw [show upd2 s.ck t i KTOMBSTONE t j = s.ck t j from if_neg (fun h => hne h.2)]; exact h'
  · intro j hj
    show upd2 s.ck t i KTOMBSTONE (t + 1) j = KINITIAL ∨ upd2 s.ck t i KTOMBSTONE (t + 1) j ∈ S
    rw [e1]; exact h.key j hj
  · intro j hj
    show upd2 s.ck t i KTOMBSTONE (t + 1) j ∈ S → ∃ d, j = slotAt hash s (t + 1) (upd2 s.ck t i KTOMBSTONE (t + 1) j) d ∧
      Upto hash { s with ck := upd2 s.ck t i KTOMBSTONE } (t + 1) (upd2 s.ck t i KTOMBSTONE (t + 1) j) d
    rw [e1]
    intro hm
    obtain ⟨d, h1, h2⟩ := h.path j hj hm
    refine ⟨d, h1, fun e he => ?_⟩
    show upd2 s.ck t i KTOMBSTONE (t + 1) (slotAt hash s (t + 1) _ e) ≠ _ ∧ upd2 s.ck t i KTOMBSTONE (t + 1) (slotAt hash s (t + 1) _ e) ≠ _ ∧
      upd2 s.ck t i KTOMBSTONE (t + 1) (slotAt hash s (t + 1) _ e) ≠ _
    rw [e1]; exact h2 e he

/-- A value of the new table may be written. -/
theorem Crowd.setNew (h : Crowd hash S t L s) {i : Nat} {w : Word} (hw : isMig w = false) :
    Crowd hash S t L { s with cv := upd2 s.cv (t + 1) i w } := by
  refine ⟨h.next, h.reop, h.newT, h.newT', h.root, h.len, h.pow', h.big, ?_, h.key, h.path, ?_⟩
  · intro j hj
    show (upd2 s.cv (t + 1) i w t j = VINITIAL ∨ upd2 s.cv (t + 1) i w t j = VTOMBSTONE ∨ upd2 s.cv (t + 1) i w t j = TOMBPRIME) ∨ s.ck t j ∈ S
    rw [show upd2 s.cv (t + 1) i w t j = s.cv t j from if_neg (fun h => by omega)]; exact h.old j hj
  · intro j hj
    show isMig (upd2 s.cv (t + 1) i w (t + 1) j) = false
    by_cases e : j = i
    · subst e; rw [show upd2 s.cv (t + 1) j w (t + 1) j = w from if_pos ⟨rfl, rfl⟩]; exact hw
    · rw [show upd2 s.cv (t + 1) i w (t + 1) j = s.cv (t + 1) j from if_neg (fun h => e h.2)]; exact h.mig j hj

theorem slotAt_inj {len t : Nat} (hl : (s.tab t).len = len) (h10 : 16 ≤ len) {d e : Nat} (hd : d < 16) (he : e < 16)
    (h : slotAt hash s t k d = slotAt hash s t k e) : d = e := by
  simp only [slotAt, hl] at h
  have := (Nat.ModEq.add_left_cancel' (homePut hash k len) (show _ ≡ _ [MOD len] from h))
  rw [Nat.ModEq, Nat.mod_eq_of_lt (by omega), Nat.mod_eq_of_lt (by omega)] at this
  exact this

/-- In a table holding only keys of `S`, the slots a probe passes hold distinct keys of `S`. -/
theorem upto_few (hbig : 16 ≤ (s.tab t).len) (hkey : ∀ i, i < (s.tab t).len → s.ck t i = KINITIAL ∨ s.ck t i ∈ S)
    (hpath : ∀ i, i < (s.tab t).len → s.ck t i ∈ S → ∃ d, i = slotAt hash s t (s.ck t i) d ∧ Upto hash s t (s.ck t i) d)
    {d c : Nat} (hc : (S.erase k).card < c) (hc16 : c ≤ 16) (hu : Upto hash s t k d) : d < c := by
  by_contra hcon
  have hlt : ∀ e, slotAt hash s t k e < (s.tab t).len := fun e => Nat.mod_lt _ (by omega)
  have hmem : ∀ e ∈ Finset.range c, s.ck t (slotAt hash s t k e) ∈ S.erase k := by
    intro e he
    rw [Finset.mem_range] at he
    obtain ⟨h1, -, h3⟩ := hu e (by omega)
    exact Finset.mem_erase.mpr ⟨h3, (hkey _ (hlt e)).resolve_left h1⟩
  have hinj : Set.InjOn (fun e => s.ck t (slotAt hash s t k e)) (Finset.range c : Set Nat) := by
    intro e he e' he' heq
    simp only [Finset.coe_range, Set.mem_Iio] at he he'
    have h1 := (Finset.mem_erase.mp (hmem e (Finset.mem_range.mpr he))).2
    have h2 := (Finset.mem_erase.mp (hmem e' (Finset.mem_range.mpr he'))).2
    obtain ⟨d1, g1, u1⟩ := hpath _ (hlt e) h1
    obtain ⟨d2, g2, u2⟩ := hpath _ (hlt e') h2
    have heq : s.ck t (slotAt hash s t k e) = s.ck t (slotAt hash s t k e') := heq
    rw [← heq] at g2 u2
    have hd12 : d1 = d2 := u1.unique u2 (by rw [← g1]; exact .inr (.inr rfl)) (by rw [← g2]; exact .inr (.inr heq.symm))
    subst hd12
    exact slotAt_inj rfl hbig (by omega) (by omega) (g1.trans g2.symm)
  have := Finset.card_le_card_of_injOn _ hmem hinj
  rw [Finset.card_range] at this
  omega

/-- A probe for a key of the crowd stops within ten slots. -/
theorem Crowd.near (hc : S.card ≤ 10) (h : Crowd hash S t L s) (hk : k ∈ S) {d : Nat}
    (hu : Upto hash s (t + 1) k d) : d < 10 := by
  refine upto_few h.big h.key h.path ?_ (by omega) hu
  rw [Finset.card_erase_of_mem hk]
  have := Finset.card_pos.mpr ⟨k, hk⟩
  omega

/-- An empty slot of the new table may be claimed for a key that is probed there. -/
theorem Crowd.claim (h : Crowd hash S t L s) (hk : k ∈ S) {d : Nat}
    (hu : Upto hash s (t + 1) k d) (h0 : s.ck (t + 1) (slotAt hash s (t + 1) k d) = KINITIAL) :
    Crowd hash S t L (claimA s (t + 1) (slotAt hash s (t + 1) k d) k) := by
  refine Crowd.tab (s := { s with ck := upd2 s.ck (t + 1) (slotAt hash s (t + 1) k d) k }) ?_ rfl rfl
  generalize hi : slotAt hash s (t + 1) k d = i at *
  have ei : upd2 s.ck (t + 1) i k (t + 1) i = k := if_pos ⟨rfl, rfl⟩
  have ej : ∀ j, j ≠ i → upd2 s.ck (t + 1) i k (t + 1) j = s.ck (t + 1) j := fun j hj => if_neg (fun h => hj h.2)
  have hup : ∀ k' d', Upto hash s (t + 1) k' d' → Upto hash { s with ck := upd2 s.ck (t + 1) i k } (t + 1) k' d' := by
    intro k' d' hu' e he
    obtain ⟨h1, h2, h3⟩ := hu' e he
    have hne : slotAt hash s (t + 1) k' e ≠ i := fun h' => by rw [h', h0] at h1; exact h1 rfl
    show upd2 s.ck (t + 1) i k (t + 1) (slotAt hash s (t + 1) k' e) ≠ _ ∧ upd2 s.ck (t + 1) i k (t + 1) (slotAt hash s (t + 1) k' e) ≠ _ ∧
      upd2 s.ck (t + 1) i k (t + 1) (slotAt hash s (t + 1) k' e) ≠ _
    rw [ej _ hne]; exact ⟨h1, h2, h3⟩
  refine ⟨h.next, h.reop, h.newT, h.newT', h.root, h.len, h.pow', h.big, ?_, ?_, ?_, h.mig⟩
  · intro j hj
    show _ ∨ upd2 s.ck (t + 1) i k t j ∈ S
    rw [show upd2 s.ck (t + 1) i k t j = s.ck t j from if_neg (fun h => by omega)]; exact h.old j hj
  · intro j hj
    show upd2 s.ck (t + 1) i k (t + 1) j = KINITIAL ∨ upd2 s.ck (t + 1) i k (t + 1) j ∈ S
    by_cases e : j = i
    · subst e; rw [ei]; exact .inr hk
    · rw [ej j e]; exact h.key j hj
  · intro j hj
    show upd2 s.ck (t + 1) i k (t + 1) j ∈ S → ∃ d', j = slotAt hash s (t + 1) (upd2 s.ck (t + 1) i k (t + 1) j) d' ∧
      Upto hash { s with ck := upd2 s.ck (t + 1) i k } (t + 1) (upd2 s.ck (t + 1) i k (t + 1) j) d'
    by_cases e : j = i
    · subst e; rw [ei]; exact fun _ => ⟨d, hi.symm, hup _ _ hu⟩
    · rw [ej j e]
      intro hm
      obtain ⟨d', h1, h2⟩ := h.path j hj hm
      exact ⟨d', h1, hup _ _ h2⟩

/-! ## Migration keeps the crowd -/

/-- Migrating puts keep the crowd. -/
def CrowdPut (hash : Word → Word) (S : Finset Word) (t L : Nat) (put : PutFn) : Prop :=
  ∀ s k v, Crowd hash S t L s → k ∈ S → isMig v = false → PW (put (t + 1) k v VINITIAL) (fun _ s' => Crowd hash S t L s') s

section
variable (hS : ∀ k ∈ S, UserKey k)
include hS

theorem cw_copySlotKey (n : Nat) {idx : Nat} (h : Crowd hash S t L s) (hi : idx < L) :
    PW (copySlotKey n idx t) (fun key s' => Crowd hash S t L s' ∧ s'.ck t idx = key) s := by
  refine PW_loop (I := fun _ s' => Crowd hash S t L s') ?_ n _ _ h
  rintro _ s1 h1
  have ht : t < s1.next := by have := h1.next; omega
  have hlen := h1.len
  refine PW_bind (PW_of (W_tableKey ht (by omega) ?_))
  by_cases h0 : s1.ck t idx = KINITIAL
  · rw [if_pos h0]
    refine PW_bind (PW_of (W_casKey ht (by omega) (fun _ => ?_) (fun _ => ?_)))
    · rw [clean_KTOMBSTONE]; exact PW_pure (h1.closeOld hS h0)
    · exact PW_pure h1
  · rw [if_neg h0]
    exact PW_pure ⟨h1, rfl⟩

omit hS in
theorem cw_copySlotMark (n : Nat) {idx : Nat} {key oldVal : Word} (h : Crowd hash S t L s) (hi : idx < L)
    (hk : s.ck t idx = key)
    (ho : (oldVal = VINITIAL ∨ oldVal = VTOMBSTONE ∨ oldVal = TOMBPRIME) ∨ key ∈ S) :
    PW (copySlotMark n idx t oldVal) (fun r s' => Crowd hash S t L s' ∧ s'.ck t idx = key ∧
      ∀ v, r = .val v → v = TOMBPRIME ∨ key ∈ S) s := by
  refine PW_loop (I := fun (oldVal : Word) s' => Crowd hash S t L s' ∧ s'.ck t idx = key ∧
    ((oldVal = VINITIAL ∨ oldVal = VTOMBSTONE ∨ oldVal = TOMBPRIME) ∨ key ∈ S)) ?_ n _ _ ⟨h, hk, ho⟩
  rintro ov s1 ⟨h1, hk1, ho⟩
  have ht : t < s1.next := by have := h1.next; omega
  have hlen := h1.len
  by_cases hm : isMig ov = true
  · rw [if_pos hm]
    refine PW_pure ⟨h1, hk1, ?_⟩
    intro v e
    cases e
    rcases ho with (e | e | e) | e
    · rw [e] at hm; exact absurd hm (by decide)
    · rw [e] at hm; exact absurd hm (by decide)
    · exact .inl e
    · exact .inr e
  · rw [if_neg hm]
    have hact : (s1.cv t idx = VINITIAL ∨ s1.cv t idx = VTOMBSTONE ∨ s1.cv t idx = TOMBPRIME) ∨ key ∈ S := by
      rw [← hk1]; exact h1.old idx hi
    by_cases hv : ov = VINITIAL ∨ ov = VTOMBSTONE
    · rw [if_pos hv]
      refine PW_bind (PW_of (W_casValue ht (by omega) (fun _ => ?_) (fun hne => ?_)))
      · rw [if_pos rfl, if_pos rfl, clean_TOMBPRIME]
        exact PW_pure ⟨h1.setOld (.inl (.inr (.inr rfl))), hk1, fun v e => by cases e⟩
      · rw [if_neg hne]
        exact PW_pure ⟨h1, hk1, hact⟩
    · rw [if_neg hv]
      have hkS : key ∈ S := by
        rcases ho with (e | e | e) | e
        · exact absurd (.inl e) hv
        · exact absurd (.inr e) hv
        · rw [e] at hm; exact absurd isMig_TOMBPRIME hm
        · exact e
      refine PW_bind (PW_of (W_casValue ht (by omega) (fun _ => ?_) (fun hne => ?_)))
      · rw [if_pos rfl]
        have hc : Crowd hash S t L { s1 with cv := upd2 s1.cv t idx (clean (setMark ov MigrationFlag)) } :=
          h1.setOld (.inr (by rw [hk1]; exact hkS))
        split
        · exact PW_pure ⟨hc, hk1, fun v e => by cases e⟩
        · exact PW_pure ⟨hc, hk1, fun v _ => .inr hkS⟩
      · rw [if_neg hne]
        exact PW_pure ⟨h1, hk1, hact⟩

omit hS in
theorem cw_copySlotFinish (n : Nat) {idx : Nat} {oldVal : Word} (h : Crowd hash S t L s) (hi : idx < L) :
    PW (copySlotFinish n idx t oldVal) (fun _ s' => Crowd hash S t L s') s := by
  refine PW_loop (I := fun _ s' => Crowd hash S t L s') ?_ n _ _ h
  rintro ov s1 h1
  have ht : t < s1.next := by have := h1.next; omega
  have hlen := h1.len
  refine PW_bind (PW_of (W_casValue ht (by omega) (fun _ => ?_) (fun hne => ?_)))
  · rw [if_pos rfl, clean_TOMBPRIME]
    exact PW_pure (h1.setOld (.inl (.inr (.inr rfl))))
  · rw [if_neg hne]; exact PW_pure h1

variable {put : PutFn}

theorem cw_copySlot (hput : CrowdPut hash S t L put) (n : Nat) {idx : Nat} (h : Crowd hash S t L s) (hi : idx < L):
    PW (copySlot put n idx t (t + 1)) (fun _ s' => Crowd hash S t L s' ) s := by
  refine PW_bind (PW_mono (cw_copySlotKey hS n h hi) ?_)
  rintro key s1 ⟨h1, hk1⟩
  have ht : t < s1.next := by have := h1.next; omega
  have hlen := h1.len
  refine PW_bind (PW_of (W_tableValue ht (by omega) ?_))
  have hact : (s1.cv t idx = VINITIAL ∨ s1.cv t idx = VTOMBSTONE ∨ s1.cv t idx = TOMBPRIME) ∨ key ∈ S := by
    rw [← hk1]; exact h1.old idx hi
  refine PW_bind (PW_mono (cw_copySlotMark n h1 hi hk1 hact) ?_)
  rintro (_ | v) s2 ⟨h2, hk2, hv⟩
  · exact PW_pure h2
  · show PW (if v = TOMBPRIME then _ else _) _ s2
    split
    · exact PW_pure h2
    · next hne =>
      have hkS := (hv v rfl).resolve_left hne
      refine PW_bind (PW_check fun f => ?_)
      refine PW_bind (PW_mono (hput _ key _ (h2.failed f) hkS (isMig_clearMig v)) ?_)
      rintro r s3 h3
      refine PW_bind (PW_mono (cw_copySlotFinish n h3 hi) ?_)
      exact fun _ s4 h4 => PW_pure h4

theorem cw_copyChunk (hput : CrowdPut hash S t L put) (hL : ∃ p, p ≤ 32 ∧ L = 2 ^ p) (n c : Nat) :
    ∀ (todo i wd : Nat) (s : A), Crowd hash S t L s →
      PW (copyChunk put n t (t + 1) L c todo i wd) (fun _ s' => Crowd hash S t L s') s := by
  intro todo
  induction todo with
  | zero => intro i wd s h; exact PW_pure h
  | succ todo ih =>
    intro i wd s h
    refine PW_bind (PW_mono (cw_copySlot hS hput n h (and_len_lt hL)) ?_)
    intro b s1 h1
    exact ih _ _ s1 h1

omit hS in
theorem cw_claimChunk (n mw : Nat) (h : Crowd hash S t L s) :
    PW (claimChunk n t L mw) (fun _ s' => Crowd hash S t L s') s := by
  have ht : t < s.next := by have := h.next; omega
  refine PW_bind (PW_of (W_getIdx ht ?_))
  refine PW_loop (I := fun _ s' => Crowd hash S t L s') ?_ n _ _ h
  intro c s1 h1
  have ht : t < s1.next := by have := h1.next; omega
  split
  · refine PW_bind (PW_of (W_casIdx ht ?_ ?_))
    · intro _; exact PW_pure (h1.tab rfl rfl)
    · intro _; exact PW_pure h1
  · exact PW_pure h1

omit hS in
theorem cw_promote (w : Nat) (h : Crowd hash S t L s) :
    PW (copyCheckAndPromote t w) (fun _ s' => Crowd hash S t L s') s := by
  have ht : t < s.next := by have := h.next; omega
  refine PW_bind (PW_of (W_len ht ?_))
  refine PW_bind (PW_of (W_getDone ht ?_))
  refine PW_bind (PW_check fun f => ?_)
  have hrest : ∀ s1 : A, Crowd hash S t L s1 → PW (if (s.tab t).copyDone + w = (s.tab t).len then (do
      let nt ← do1 (.getNew t)
      match nt with
      | none => .halt .ub
      | some n => do
        let _ ← do1 (.casRoot t n)
        return ()) else return ()) (fun _ s' => Crowd hash S t L s') s1 := by
    intro s1 h1
    have ht1 : t < s1.next := by have := h1.next; omega
    split
    · refine PW_bind (PW_of (W_getNew ht1 ?_))
      rw [h1.newT]
      refine PW_bind (PW_of (W_casRoot fun b => ?_))
      split
      · exact PW_pure (h1.congr rfl rfl rfl rfl (.inr rfl) (fun _ => rfl) (fun _ => rfl))
      · exact PW_pure h1
    · exact PW_pure h1
  by_cases hw : 0 < w
  · rw [if_pos hw]
    refine PW_bind (PW_of (W_addDone (s := { s with failed := f }) ht ?_))
    exact hrest _ ((h.failed f).tab rfl rfl)
  · rw [if_neg hw]
    exact hrest _ (h.failed f)

theorem cw_helpCopyImpl (hput : CrowdPut hash S t L put) (hL : ∃ p, p ≤ 32 ∧ L = 2 ^ p) (n : Nat) (h : Crowd hash S t L s) :
    PW (helpCopyImpl put n t) (fun _ s' => Crowd hash S t L s') s := by
  have ht : t < s.next := by have := h.next; omega
  refine PW_bind (PW_of (W_getNew ht ?_))
  refine PW_bind (PW_check fun f => ?_)
  rw [h.newT]
  refine PW_bind (PW_of (W_len (s := { s with failed := f }) ht ?_))
  rw [show ({ s with failed := f } : A).tab t = s.tab t from rfl, h.len]
  generalize (if L < 1024 then L else 1024) = mw
  refine PW_bind (PW_mono (Q := fun _ s' => Crowd hash S t L s') ?_ (fun _ s1 h1 => cw_promote 0 h1))
  refine PW_loop (I := fun _ s' => Crowd hash S t L s') ?_ n _ _ (h.failed f)
  rintro ⟨c0, pan⟩ s1 h1
  have ht1 : t < s1.next := by have := h1.next; omega
  refine PW_bind (PW_of (W_getDone ht1 ?_))
  by_cases hlt : (s1.tab t).copyDone < L
  · rw [if_pos hlt]
    have hrest : ∀ c s2, Crowd hash S t L s2 → PW (do
        let workDone ← copyChunk put n t (t + 1) L c mw 0 0
        if 0 < workDone then do
          copyCheckAndPromote t workDone
        else pure ()
        return (.next (c + mw, pan || decide (L * 2 ≤ c)) : Ctl (Nat × Bool) Unit))
        (fun c s' => match c with | .next _ => Crowd hash S t L s' | .done _ => Crowd hash S t L s') s2 := by
      intro c s2 h2
      refine PW_bind (PW_mono (cw_copyChunk hS hput hL n c mw 0 0 s2 h2) ?_)
      intro wd s3 h3
      by_cases hw : 0 < wd
      · rw [if_pos hw]
        refine PW_bind (PW_mono (cw_promote wd h3) (fun _ s4 h4 => PW_pure h4))
      · rw [if_neg hw]
        exact PW_pure h3
    cases pan
    · refine PW_bind (PW_mono (cw_claimChunk n mw h1) (fun c s2 h2 => PW_mono (hrest c s2 h2) ?_))
      rintro (c | c) s' h <;> exact h
    · refine PW_mono (hrest c0 s1 h1) ?_
      rintro (c | c) s' h <;> exact h
  · rw [if_neg hlt]; exact PW_pure h1

theorem cw_copySlotAndCheck (hput : CrowdPut hash S t L put) (hL : ∃ p, p ≤ 32 ∧ L = 2 ^ p) (n : Nat) {idx : Nat} (b : Bool)
    (h : Crowd hash S t L s) (hi : idx < L) :
    PW (copySlotAndCheck put n t idx b) (fun _ s' => Crowd hash S t L s') s := by
  have ht : t < s.next := by have := h.next; omega
  refine PW_bind (PW_of (W_getNew ht ?_))
  refine PW_bind (PW_check fun f => ?_)
  rw [h.newT]
  refine PW_bind (PW_mono (cw_copySlot hS hput n (h.failed f) hi) ?_)
  intro r s1 h1
  have hrest : ∀ s2, Crowd hash S t L s2 →
      PW (if b then (return t + 1) else helpCopy put n (t + 1)) (fun _ s' => Crowd hash S t L s') s2 := by
    intro s2 h2
    cases b
    · refine PW_bind (PW_of (W_getRoot ?_))
      have hr : s2.root < s2.next := by have := h2.next; have := h2.root; omega
      refine PW_bind (PW_of (W_getNew hr ?_))
      rcases h2.root with e | e
      · rw [e, h2.newT]
        exact PW_bind (PW_mono (cw_helpCopyImpl hS hput hL n h2) (fun _ _ h => PW_pure h))
      · rw [e, h2.newT']
        exact PW_pure h2
    · exact PW_pure h2
  cases r
  · exact hrest _ h1
  · exact PW_bind (PW_mono (cw_promote 1 h1) (fun _ s2 h2 => hrest s2 h2))

theorem cw_body (hc : S.card ≤ 10) (n : Nat) :
    CrowdPut hash S t L (fun t k nv ov => putBody hash put n .casValue t k nv ov) := by
  intro s k v h hk hv
  show PW (putBody hash put n .casValue (t + 1) k v VINITIAL) _ s
  refine PW_bind (PW_check fun f => ?_)
  refine PW_bind (PW_check fun f => ?_)
  refine PW_bind (PW_check fun f => ?_)
  have h : Crowd hash S t L { s with failed := f } := h.failed f
  change PW _ _ { s with failed := f }
  revert h
  generalize ({ s with failed := f } : A) = s
  intro h
  have ht : t + 1 < s.next := by have := h.next; omega
  refine PW_bind (PW_of (W_len ht ?_))
  refine PW_bind (PW_mono (PW_of (probe_pow n h.pow' ht (hS k hk) v)) ?_)
  rintro (v' | ⟨i, d, V⟩ | -) s1 hp
  · obtain ⟨-, -, e, -⟩ := hp
    rw [e]; exact PW_pure h
  · obtain ⟨hd, hi, hu, hV, hs⟩ := hp
    have hd10 := h.near hc hk hu
    have hilt : i < (s.tab (t + 1)).len := by rw [hi]; exact slotAt_lt_pow h.pow' d
    have hVm : isMig V = false := by rw [hV]; exact h.mig i hilt
    have h1 : Crowd hash S t L s1 ∧ s1.cv (t + 1) i = V ∧ i < (s1.tab (t + 1)).len := by
      rcases hs with ⟨e, -⟩ | ⟨h0, e⟩
      · rw [e]; exact ⟨h, hV.symm, hilt⟩
      · subst e hi
        exact ⟨h.claim hk hu h0, hV.symm, by simp only [claimA, upd_same]; exact hilt⟩
    obtain ⟨h1, hcv, hi1⟩ := h1
    have ht1 : t + 1 < s1.next := by have := h1.next; omega
    simp only
    split
    · exact PW_pure h1
    · refine PW_bind (PW_mono (Q := fun b s' => b = false ∧ s' = s1) ?_ ?_)
      · unfold wantNewTable
        split
        · refine PW_bind (PW_mono (Q := fun b s' => b = false ∧ s' = s1) ?_ ?_)
          · unfold tableFull
            rw [if_neg (by simp only [REPROBE_LIMIT]; omega)]
            exact PW_pure ⟨rfl, rfl⟩
          · rintro b s2 ⟨rfl, e⟩
            rw [e, hVm]
            exact PW_pure ⟨rfl, rfl⟩
        · rw [hVm]; exact PW_pure ⟨rfl, rfl⟩
      · rintro b s2 ⟨rfl, e⟩
        rw [e]
        refine PW_bind (PW_mono (Q := fun u s' => (∃ r, u = .returned r) ∧ Crowd hash S t L s') ?_ ?_)
        · refine PW_loop (I := fun V' s' => V' = V ∧ Crowd hash S t L s' ∧ s'.cv (t + 1) i = V ∧ i < (s'.tab (t + 1)).len)
            ?_ n _ _ ⟨rfl, h1, hcv, hi1⟩
          rintro V' s3 ⟨e, h3, hcv3, hi3⟩
          have ht3 : t + 1 < s3.next := by have := h3.next; omega
          rw [e]
          refine PW_bind (PW_check fun f => ?_)
          split
          · exact PW_pure ⟨⟨_, rfl⟩, h3.failed f⟩
          · refine PW_bind (PW_of (W_casValue (s := { s3 with failed := f }) ht3 hi3 (fun _ => ?_)
              (fun hne => absurd hcv3 hne)))
            rw [if_pos rfl]
            refine PW_bind (PW_mono (Q := fun _ s' => Crowd hash S t L s') ?_ ?_)
            · unfold adjustSize
              rw [if_neg (by simp)]
              exact PW_pure ((h3.failed f).setNew (by rw [isMig_clean]; exact hv))
            · exact fun _ s4 h4 => PW_pure ⟨⟨_, rfl⟩, h4⟩
        · rintro u s3 ⟨⟨r, rfl⟩, h3⟩
          exact PW_pure h3
  · obtain ⟨-, d, hd, hu, hend⟩ := hp
    have hd10 := h.near hc hk hu
    have hlt : slotAt hash s (t + 1) k d < (s.tab (t + 1)).len := slotAt_lt_pow h.pow' d
    exfalso
    rcases hend with e | e | ⟨-, e⟩
    · simp only [A.lim, reprobeLimit, REPROBE_LIMIT] at e; omega
    · rcases h.key _ hlt with e' | e'
      · rw [e] at e'; exact KINITIAL_ne_KTOMBSTONE e'.symm
      · rw [e] at e'; exact (hS _ e').ne_tomb rfl
    · rw [h.mig _ hlt] at e; cases e

theorem cw_put (hc : S.card ≤ 10) (n : Nat) : CrowdPut hash S t L (putIfMatch hash n .casValue) := by
  intro s k v h hk hv
  cases n with
  | zero => exact PW_halt
  | succ n => exact cw_body hS hc n s k v h hk hv
end

/-! ## The eleventh key -/

/-- Ten keys with the hash of `k` are in the newest table, which holds nothing else. -/
structure Ten (hash : Word → Word) (S : Finset Word) (k : Word) (s : A) (M : Word → Option Word) : Prop where
  good : Good hash s M
  set : s.root + 1 = s.next
  big : 16 ≤ (s.tab s.root).len
  reop : s.reopened = false
  user : ∀ x ∈ S, UserKey x
  card : S.card = 10
  eq : ∀ x ∈ S, hash x = hash k
  new : k ∉ S
  have_ : ∀ x ∈ S, M x ≠ none
  only : ∀ i, i < (s.tab s.root).len → s.ck s.root i = KINITIAL ∨ s.ck s.root i ∈ S

theorem homePut_eq {k' : Word} (h : hash k' = hash k) (len : Nat) : homePut hash k' len = homePut hash k len := by
  simp only [homePut, h]

/-- Every key of the crowd is in the newest table. -/
theorem Ten.at (h : Ten hash S k s M) {x : Word} (hx : x ∈ S) : ∃ d, s.ck s.root (slotAt hash s s.root x d) = x ∧
    Upto hash s s.root x d := by
  obtain ⟨v, hv⟩ := Option.ne_none_iff_exists'.mp (h.have_ x hx)
  obtain ⟨hu, hst, t, i, ht, hi, hk, hcv⟩ := (h.good.inv.cont x v).mp hv
  have ht' : t = s.root := by
    rcases Nat.lt_or_ge t s.root with h1 | h1
    · have := h.good.inv.dead t i h1 hi
      rw [hcv] at this
      have := hst.mig
      subst hcv
      rename_i e
      rw [e] at this; exact absurd this (by decide)
    · have := h.set; omega
  subst ht'
  obtain ⟨d, -, h1, h2, -⟩ := h.good.inv.path _ i ht hi (by rw [hk]; exact hu)
  rw [hk] at h1 h2
  exact ⟨d, by rw [← h1]; exact hk, h2⟩

/-- A probe for the eleventh key that ends at an empty slot has passed the ten. -/
theorem Ten.far (h : Ten hash S k s M) {d : Nat} (h0 : s.ck s.root (slotAt hash s s.root k d) = KINITIAL) : 10 ≤ d := by
  by_contra hcon
  have hsl : ∀ x ∈ S, ∀ e, slotAt hash s s.root x e = slotAt hash s s.root k e := fun x hx e => by
    simp only [slotAt, homePut_eq (h.eq x hx)]
  have hch : ∀ x : Word, ∃ e, x ∈ S → e < d ∧ s.ck s.root (slotAt hash s s.root k e) = x := by
    intro x
    by_cases hx : x ∈ S
    · obtain ⟨e, h1, h2⟩ := h.at hx
      refine ⟨e, fun _ => ⟨?_, by rw [← hsl x hx]; exact h1⟩⟩
      by_contra hlt
      rcases Nat.lt_or_ge d e with h3 | h3
      · exact (h2 d h3).1 (by rw [hsl x hx]; exact h0)
      · have : e = d := by omega
        subst this
        rw [hsl x hx, h0] at h1
        exact (h.user x hx).ne_init h1.symm
    · exact ⟨0, fun h => absurd h hx⟩
  choose f hf using hch
  have := Finset.card_le_card_of_injOn (s := S) (t := Finset.range d) f (fun x hx => by
    have := (hf x hx).1; simpa using this) (fun x hx y hy he => by
      rw [← (hf x hx).2, ← (hf y hy).2, he])
  rw [h.card, Finset.card_range] at this
  omega

theorem Ten.crowd {i : Nat} (h : Ten hash S k s M) (hi : i < (s.tab s.root).len) (h0 : s.ck s.root i = KINITIAL)
    (hl : ∃ p, p ≤ 32 ∧ 2 * (s.tab s.root).len = 2 ^ p) :
    Crowd hash S s.root (s.tab s.root).len (growA (claimA s s.root i k) s.root) := by
  have hset := h.set
  have hn : (claimA s s.root i k).next = s.root + 1 := by simp only [claimA]; omega
  have hnew : (growA (claimA s s.root i k) s.root).tab (s.root + 1) =
      freshTab (2 * (s.tab s.root).len) ((claimA s s.root i k).tab s.root).size := by
    have := growA_tab_new (s := claimA s s.root i k) (t := s.root) (by omega)
    rw [hn] at this
    rw [this]
    simp only [claimA, upd_same]
  have hckn : ∀ j, (growA (claimA s s.root i k) s.root).ck (s.root + 1) j = KINITIAL := fun j => by
    rw [← hn]; exact growA_ck_new j
  refine ⟨?_, h.reop, ?_, ?_, .inl rfl, ?_, ?_, ?_, ?_, ?_, ?_, ?_⟩
  · rw [growA_next, hn]
  · rw [growA_tab_t, hn]
  · rw [hnew]; rfl
  · rw [growA_tab_t]; simp only [claimA, upd_same]
  · rw [hnew]; exact hl
  · rw [hnew]; show 16 ≤ 2 * (s.tab s.root).len; have := h.big; omega
  · intro j hj
    rw [growA_ck (by omega), growA_cv (by omega)]
    by_cases e : j = i
    · subst e
      exact .inl (.inl (h.good.inv.kinit _ _ (by omega) hj h0))
    · show _ ∨ upd2 s.ck s.root i k s.root j ∈ S
      rw [upd2_ne (by tauto)]
      rcases h.only j hj with h' | h'
      · exact .inl (.inl (h.good.inv.kinit _ _ (by omega) hj h'))
      · exact .inr h'
  · exact fun j _ => .inl (hckn j)
  · intro j _ hm
    rw [hckn j] at hm
    exact absurd rfl (h.user _ hm).ne_init
  · intro j _
    rw [← hn, growA_cv_new]; exact isMig_VINITIAL

/-- Putting an eleventh key with the same hash never returns. -/
theorem ten_never (n : Nat) (cf : CasFn) {nv ov : Word} (hk : UserKey k) (hnv : Storable nv) (hov : ov ≠ VINITIAL)
    (hom : isMig ov = false) :
    ∀ (s : A), Ten hash S k s M → PW (putIfMatch hash n cf s.root k nv ov) (fun _ _ => False) s := by
  induction n generalizing cf with
  | zero => intro s _; exact PW_halt
  | succ n ih =>
    intro s h
    have hI := h.good.inv
    have ht := hI.root_lt
    have hset := h.set
    have hn := hnv
    show PW (putBody hash (putIfMatch hash n .casValue) n cf s.root k nv ov) _ s
    refine PW_bind (PW_of (W_check (by simpa using hnv.ne_init) ?_))
    refine PW_bind (PW_of (W_check (by rw [hnv.mig]; rfl) ?_))
    refine PW_bind (PW_of (W_check (by rw [hom]; rfl) ?_))
    refine PW_bind (PW_of (W_len ht ?_))
    refine PW_bind (PW_mono (PW_of (probe_spec n hI ht hk nv)) ?_)
    rintro (v' | ⟨i, d, V⟩ | -) s1 hp
    · exact absurd hp.2.1 hnv.ne_tomb
    · obtain ⟨hd, hi, hu, hV, hs⟩ := hp
      have hilt : i < (s.tab s.root).len := by rw [hi]; exact hI.slotAt_lt ht d
      have so := slot_out hI ht hk (h.good.pass hk) hd hi hu hs
      have hs' : s.ck s.root i = KINITIAL ∧ s1 = claimA s s.root i k := by
        rcases hs with ⟨-, e⟩ | h'
        · rcases h.only i hilt with e' | e'
          · rw [e] at e'; exact absurd e' hk.ne_init
          · rw [e] at e'; exact absurd e' h.new
        · exact h'
      have hd10 : 10 ≤ d := h.far (by rw [← hi]; exact hs'.1)
      have hV0 : V = VINITIAL := by rw [hV]; exact hI.kinit _ i ht hilt hs'.1
      have ht1 : s.root < s1.next := by rw [so.next]; exact ht
      have hR1 : Rest s1 0 := by
        intro t' j h1 h2 h3; rw [so.cv]; rw [so.next] at h2; rw [so.len] at h3; exact h.good.rest t' j h1 h2 h3
      have hd1 : drift s1 = fun _ => 0 := by rw [so.drift]; exact h.good.drift
      simp only
      rw [if_neg (by rw [hV0]; exact hnv.ne_init), ← so.len s.root]
      refine PW_bind (PW_mono (PW_of (wantNewTable_spec so.inv ht1 d V)) ?_)
      rintro b s2 ⟨he, hb, -⟩
      have he := he.symm
      subst he
      cases b with
      | false =>
        exfalso
        have := (hb rfl).2 hV0 (by rw [hs'.2]; exact h.reop) (by rw [so.len]; exact h.big)
        omega
      | true =>
        refine PW_bind (PW_mono (PW_of (resize_spec so.inv ht1)) ?_)
        rintro nt s2 ⟨rfl, ht2, hI2, hs2⟩
        obtain ⟨hK2, hd2, hR2, hB2, hkv2, -⟩ := grow_cases hs2
        have hi2 : i < (s2.tab s.root).len := by rw [hK2.ext.len _ ht1]; exact so.ilt
        have hs2 : s2 = growA (claimA s s.root i k) s.root := by
          rcases hs2 with e | ⟨-, e⟩
          · exfalso; rw [e, so.next] at ht2; omega
          · rw [e, hs'.2]
        have hpow : ∃ p, p ≤ 32 ∧ 2 * (s.tab s.root).len = 2 ^ p := by
          have := hI2.len_pow (s.root + 1) ht2
          rw [hI2.len_dbl _ ht2, hK2.ext.len _ ht1, so.len] at this
          exact this
        have hC2 : Crowd hash S s.root (s.tab s.root).len s2 := by rw [hs2]; exact h.crowd hilt hs'.1 hpow
        rw [decide_eq_false hov]
        refine PW_bind (PW_mono (PW_and (PW_of (copySlotAndCheck_spec (copyPut hash n) n hI2 (hR2 0 hR1) (by rw [hd2, hd1]) ht2 hi2))
          (cw_copySlotAndCheck h.user (cw_put h.user h.card.le n) (hI.len_pow _ ht) n false hC2 hilt)) ?_)
        rintro nt s3 ⟨⟨rfl, hI3, hR3, hK3, hd3, hm3, hr3⟩, hC3⟩
        have hroot3 : s3.root = s.root + 1 := by
          have h1 := hr3 (by rw [hs2]; rfl)
          have h2 := hC3.root
          omega
        have := ih .casValue s3 ⟨⟨hI3, hR3, hd3⟩, by rw [hroot3, hC3.next], by rw [hroot3]; exact hC3.big, hC3.reop, h.user,
          h.card, h.eq, h.new, h.have_, by rw [hroot3]; exact hC3.key⟩
        rw [hroot3] at this
        exact this
    · exfalso
      obtain ⟨-, d, hd, hu, hend⟩ := hp
      have hlt : slotAt hash s s.root k d < (s.tab s.root).len := hI.slotAt_lt ht d
      have hd11 : d < 11 := upto_few h.big h.only (fun i hi hm => by
        obtain ⟨e, -, h1, h2, -⟩ := hI.path _ i ht hi (h.user _ hm)
        exact ⟨e, h1, h2⟩) (by rw [Finset.erase_eq_of_notMem h.new, h.card]; omega) (by omega) hu
      rcases hend with e | e | ⟨e, -⟩
      · have := h.big
        simp only [A.lim, reprobeLimit, REPROBE_LIMIT] at e; omega
      · rcases h.only _ hlt with e' | e'
        · rw [e] at e'; exact KINITIAL_ne_KTOMBSTONE e'.symm
        · rw [e] at e'; exact (h.user _ e').ne_tomb rfl
      · rcases h.only _ hlt with e' | e'
        · rw [e] at e'; exact hk.ne_init e'
        · rw [e] at e'; exact h.new e'

/-- The same for the public function. -/
theorem ten_never_map (n : Nat) (cf : CasFn) {nv ov : Word} (hk : UserKey k) (hnv : Storable nv) (hov : ov ≠ VINITIAL)
    (hom : isMig ov = false) (h : Ten hash S k s M) : PW (mapPutIfMatch hash n cf k nv ov) (fun _ _ => False) s := by
  refine PW_bind (PW_of (W_check (by simpa using hnv.ne_init) ?_))
  refine PW_bind (PW_of (W_check (by simpa using hov) ?_))
  refine PW_bind (PW_of (W_getRoot ?_))
  exact PW_bind (PW_mono (ten_never n cf hk hnv hov hom s h) (fun _ _ h => h.elim))

/-! ## At most ten keys -/

/-- The only table holds nothing but keys of `S`. -/
structure Few (hash : Word → Word) (S : Finset Word) (L : Nat) (s : A) (M : Word → Option Word) : Prop where
  good : Good hash s M
  root : s.root = 0
  next : s.next = 1
  len : (s.tab 0).len = L
  reop : s.reopened = false
  only : ∀ i, i < L → s.ck 0 i = KINITIAL ∨ s.ck 0 i ∈ S

/-- One of the first ten slots is empty or holds the key. -/
theorem Few.slot (h : Few hash S L s M) (hS : ∀ x ∈ S, UserKey x) (hc : S.card ≤ 10) (hL : 16 ≤ L) (hk : k ∈ S) :
    ∃ d, d < 10 ∧ (s.ck 0 (slotAt hash s 0 k d) = k ∨ s.ck 0 (slotAt hash s 0 k d) = KINITIAL) := by
  by_contra hcon
  push Not at hcon
  have ht : 0 < s.next := by rw [h.next]; omega
  have hu : Upto hash s 0 k 10 := by
    intro e he
    refine ⟨(hcon e he).2, fun e' => ?_, (hcon e he).1⟩
    have := (h.good.inv.ktomb 0 _ ht (h.good.inv.slotAt_lt ht e) e').1
    rw [h.next] at this; omega
  have h1 : (10 : Nat) < 10 := by
    refine upto_few (S := S) (by rw [h.len]; exact hL) (by rw [h.len]; exact h.only) (fun i hi hm => ?_) ?_ (by omega) hu
    · obtain ⟨d, -, h1, h2, -⟩ := h.good.inv.path 0 i ht hi (hS _ hm)
      exact ⟨d, h1, h2⟩
    · rw [Finset.card_erase_of_mem hk]
      have := Finset.card_pos.mpr ⟨k, hk⟩
      omega
  omega

theorem few_put (h : Few hash S L s M) (hS : ∀ x ∈ S, UserKey x) (hc : S.card ≤ 10) (hL : 16 ≤ L) (hk : k ∈ S) (cf : CasFn)
    {nv ov : Word} (hnv : Storable nv ∨ nv = VTOMBSTONE ∧ cf = .casValue) (hov : ov ≠ VINITIAL) (hom : isMig ov = false) {n : Nat}
    (hn : reprobeLimit L + 1 < n) : TW (mapPutIfMatch hash n cf k nv ov) (fun _ s' => ∃ x ∈ S, Calm s x s') s := by
  obtain ⟨d, hd, hsl⟩ := h.slot hS hc hL hk
  refine TW_mono (put_total h.good (by rw [h.root, h.next]) (hS k hk) cf hnv hov hom hd (by rw [h.root]; exact hsl)
    (by rw [h.root, h.len]; exact hn)) (fun _ s' h' => ⟨k, hk, h'⟩)

/-- Does the call name the key? -/
def Op.Names : Op → Word → Prop
  | .get k, x | .containsKey k, x | .put k _, x | .putIfAbsent k _, x | .remove k, x | .removeIf k _, x
  | .replace k _ _, x | .putIfMatch k _ _, x | .update k _, x => k = x
  | .size, _ | .isEmpty, _ => False

theorem few_op (h : Few hash S L s M) (hS : ∀ x ∈ S, UserKey x) (hc : S.card ≤ 10) (hL : 16 ≤ L) (op : Op) (hv : op.Valid)
    (ho : ∀ x, op.Names x → x ∈ S) {n : Nat} (hn : reprobeLimit L + 1 < n) :
    TW (op.prog hash n) (fun _ s' => s' = s ∨ ∃ x ∈ S, Calm s x s') s := by
  have hset : s.root + 1 = s.next := by rw [h.root, h.next]
  have hn' : reprobeLimit (s.tab s.root).len + 1 < n := by rw [h.root, h.len]; exact hn
  obtain ⟨m1, m2, m3⟩ := nm_facts
  have i1 : NO_MATCH_OLD ≠ VINITIAL := by decide
  have i2 : VTOMBSTONE ≠ VINITIAL := by decide
  have i3 : MATCH_ANY ≠ VINITIAL := by decide
  cases op with
  | get k =>
    exact TW_bind (TW_mono (get_total h.good hset (hS k (ho k rfl)) hn') fun _ _ h => TW_pure (.inl h))
  | containsKey k =>
    exact TW_bind (TW_bind (TW_mono (get_total h.good hset (hS k (ho k rfl)) hn') fun _ _ h => TW_pure (TW_pure (.inl h))))
  | put k v =>
    exact TW_bind (TW_mono (few_put h hS hc hL (ho k rfl) _ (.inl (storable_of_valid hv.2)) i1 m1 hn) fun _ _ h => TW_pure (.inr h))
  | putIfAbsent k v =>
    exact TW_bind (TW_mono (few_put h hS hc hL (ho k rfl) _ (.inl (storable_of_valid hv.2)) i2 m2 hn) fun _ _ h => TW_pure (.inr h))
  | remove k =>
    exact TW_bind (TW_bind (TW_mono (few_put h hS hc hL (ho k rfl) _ (.inr ⟨rfl, rfl⟩) i1 m1 hn) fun _ _ h => TW_pure (TW_pure (.inr h))))
  | removeIf k v =>
    exact TW_bind (TW_bind (TW_mono (few_put h hS hc hL (ho k rfl) _ (.inr ⟨rfl, rfl⟩) (validVal_ne hv.2).1 hv.2.2.1 hn)
      fun _ _ h => TW_pure (TW_pure (.inr h))))
  | replace k o v =>
    exact TW_bind (TW_bind (TW_mono (few_put h hS hc hL (ho k rfl) _ (.inl (storable_of_valid hv.2.2)) (validVal_ne hv.2.1).1
      hv.2.1.2.1 hn) fun _ _ h => TW_pure (TW_pure (.inr h))))
  | putIfMatch k v o =>
    have : o ≠ VINITIAL ∧ isMig o = false := by
      rcases hv.2.2 with h | h | h | h
      · exact ⟨(validVal_ne h).1, h.2.1⟩
      · rw [h]; exact ⟨i1, m1⟩
      · rw [h]; exact ⟨i3, m3⟩
      · rw [h]; exact ⟨i2, m2⟩
    exact TW_bind (TW_mono (few_put h hS hc hL (ho k rfl) _ (.inl (storable_of_valid hv.2.1)) this.1 this.2 hn)
      fun _ _ h => TW_pure (.inr h))
  | update k v =>
    exact TW_bind (TW_mono (few_put h hS hc hL (ho k rfl) _
      (.inl (hv.2.elim storable_of_valid (fun e => e ▸ storable_matchAny))) i1 m1 hn) fun _ _ h => TW_pure (.inr h))
  | size =>
    refine TW_bind (TW_bind (TW_of (noHalt_do1 _) (W_getRoot ?_)))
    exact TW_of (noHalt_do1 _) (W_getSize h.good.inv.root_lt (TW_pure (.inl rfl)))
  | isEmpty =>
    refine TW_bind (TW_bind (TW_bind (TW_of (noHalt_do1 _) (W_getRoot ?_))))
    exact TW_of (noHalt_do1 _) (W_getSize h.good.inv.root_lt (TW_pure (TW_pure (.inl rfl))))

/-- After such a call there is still one table, with keys of `S` only. -/
theorem Few.after {s' : A} {M' : Word → Option Word} (h : Few hash S L s M) (hg : Good hash s' M')
    (hs : s' = s ∨ ∃ x ∈ S, Calm s x s') : Few hash S L s' M' := by
  rcases hs with rfl | ⟨x, hx, hc⟩
  · exact ⟨hg, h.root, h.next, h.len, h.reop, h.only⟩
  · refine ⟨hg, hc.root.trans h.root, hc.next.trans h.next, (hc.len 0).trans h.len, hc.reopened.trans h.reop, fun i hi => ?_⟩
    rcases hc.key 0 i with e | e
    · rw [e]; exact h.only i hi
    · rw [e]; exact .inr hx

theorem few_ops (hS : ∀ x ∈ S, UserKey x) (hc : S.card ≤ 10) (hL : 16 ≤ L) {n : Nat} (hn : reprobeLimit L + 1 < n) :
    ∀ (ops : List Op) (m : Mem) (M : AMap), (∀ op ∈ ops, op.Valid) → (∀ op ∈ ops, ∀ x, op.Names x → x ∈ S) →
      Few hash S L (abs m) M → ∃ rs m' M', runOps hash n ops m = .done rs m' ∧ Few hash S L (abs m') M' := by
  intro ops
  induction ops with
  | nil => exact fun m M _ _ h => ⟨[], m, M, rfl, h⟩
  | cons op ops ih =>
    intro m M hv ho h
    obtain ⟨r, m1, h1, h2⟩ := few_op h hS hc hL op (hv op (by simp)) (ho op (by simp)) hn m rfl
    obtain ⟨M1, hM1⟩ := (any_spec n op (hv op (by simp)) h.good m rfl).2 r m1 h1
    obtain ⟨rs, m2, M2, h3, h4⟩ := ih m1 M1 (fun o ho' => hv o (by simp [ho'])) (fun o ho' => ho o (by simp [ho'])) (h.after hM1 h2)
    exact ⟨r :: rs, m2, M2, by simp only [runOps, h1, h3], h4⟩

theorem few_fresh {p cap : Nat} (hp : p ≤ 32) (hcap : cap ≤ 2 ^ 32) : Few hash S (2 ^ p) (abs (freshMem (2 ^ p) cap)) AMap.empty :=
  ⟨(good_fresh ⟨p, hp, rfl⟩ hcap).1, rfl, rfl, rfl, rfl, fun i _ => .inl (by
    simp only [abs, freshMem, freshWords, if_true]
    decide)⟩

end PMap
