import Verif.Seq.Inv

/-!
# Every elementary change of the state keeps the sequential invariant (proof machinery)
-/

namespace PMap

variable {hash : Word → Word} {s s' : A} {M : Word → Option Word} {t i : Nat} {k w : Word}

theorem upd2_same (f : Nat → Nat → Word) (t i : Nat) (w : Word) : upd2 f t i w t i = w := by simp [upd2]
theorem upd2_ne {f : Nat → Nat → Word} {t i t' i' : Nat} {w : Word} (h : ¬ (t' = t ∧ i' = i)) :
    upd2 f t i w t' i' = f t' i' := by simp only [upd2, if_neg h]
theorem upd_same {β : Type} (f : Nat → β) (t : Nat) (b : β) : upd f t b t = b := by simp [upd]
theorem upd_ne {β : Type} {f : Nat → β} {t t' : Nat} {b : β} (h : t' ≠ t) : upd f t b t' = f t' := by
  simp only [upd, if_neg h]

theorem slotAt_congr (h : (s'.tab t).len = (s.tab t).len) (d : Nat) : slotAt hash s' t k d = slotAt hash s t k d := by
  simp only [slotAt, h]

/-! ## Control words -/

/-- The control words that matter to the invariant are unchanged. -/
structure TabEq (s s' : A) : Prop where
  ck : s'.ck = s.ck
  cv : s'.cv = s.cv
  next : s'.next = s.next
  cap : s'.cap = s.cap
  failed : s'.failed = s.failed
  reopened : s'.reopened = s.reopened
  len : ∀ t, t < s.next → (s'.tab t).len = (s.tab t).len
  newT : ∀ t, t < s.next → (s'.tab t).newT = (s.tab t).newT
  slots : ∀ t, t < s.next → (s.tab t).slots ≤ (s'.tab t).slots

theorem TabEq.ext (h : TabEq s s') (hr : s.root ≤ s'.root) : Ext s s' where
  next := h.next.ge
  root := hr
  len := h.len
  key t i _ _ _ := by rw [h.ck]
  mig t i _ _ hm := by rw [h.cv]; exact hm

/-- Counters and the root may change. -/
theorem Inv.tabEq (hI : Inv hash s M) (h : TabEq s s') (hr : s.root ≤ s'.root) (hr' : s'.root < s.next)
    (hdead : ∀ t i, t < s'.root → i < (s.tab t).len → s.cv t i = TOMBPRIME) : Inv hash s' M := by
  have hE := h.ext hr
  obtain ⟨hck, hcv, hn, hcap, hf, hre, hlen, hnew, hslots⟩ := h
  have hsl : ∀ t k d, t < s.next → slotAt hash s' t k d = slotAt hash s t k d := fun t k d ht => slotAt_congr (hlen t ht) d
  constructor
  · rw [hf]; exact hI.ok
  · rw [hn]; exact hr'
  · rw [hcap]; exact hI.cap_le
  · intro t ht; rw [hn] at ht; rw [hlen t ht]; exact hI.len_pow t ht
  · intro t ht; rw [hn] at ht; rw [hlen _ ht, hlen t (by omega)]; exact hI.len_dbl t ht
  · intro t ht; rw [hn] at ht; rw [hnew t ht, hn]; exact hI.newT t ht
  · intro hr t ht; rw [hn] at ht; rw [hlen t ht]; exact le_trans (hI.slots (hre ▸ hr) t ht) (hslots t ht)
  · intro t i ht hi; rw [hn] at ht; rw [hlen t ht] at hi; rw [hck]; exact hI.kclean t i ht hi
  · intro t i ht hi; rw [hn] at ht; rw [hlen t ht] at hi; rw [hck, hcv]; exact hI.kinit t i ht hi
  · intro t i ht hi; rw [hn] at ht; rw [hlen t ht] at hi; rw [hck, hcv, hn]; exact hI.ktomb t i ht hi
  · intro t i ht hi; rw [hn] at ht; rw [hlen t ht] at hi; rw [hck, hcv, hlen t ht]
    intro hk
    obtain ⟨d, h1, h2, h3, h4⟩ := hI.path t i ht hi hk
    exact ⟨d, by rw [lim_ext hE ht]; exact h1, by rw [hsl _ _ _ ht]; exact h2, hI.upto_ext hE ht h3, fun h => h4 (hre ▸ h)⟩
  · intro t i ht hi; rw [hn] at ht; rw [hlen t ht] at hi; rw [hcv]; exact hI.val t i ht hi
  · intro t i ht hi; rw [hn] at ht; rw [hlen t ht] at hi; rw [hcv, hn]; exact hI.mig t i ht hi
  · intro t i t0 ht hi; rw [hn] at ht; rw [hlen t ht] at hi; rw [hck]
    intro hk h0
    exact hI.pass_ext hk hE (by omega) (hI.cross t i t0 ht hi hk h0)
  · intro t i ht hi
    rw [hlen t (by omega)] at hi
    rw [hcv]; exact hdead t i ht hi
  · intro k v; rw [hI.cont, hn, hck, hcv]
    constructor
    · rintro ⟨h1, h2, t, i, h3, h4, h5⟩; exact ⟨h1, h2, t, i, h3, by rw [hlen t h3]; exact h4, h5⟩
    · rintro ⟨h1, h2, t, i, h3, h4, h5⟩; exact ⟨h1, h2, t, i, h3, by rw [← hlen t h3]; exact h4, h5⟩

theorem Inv.tabEq' (hI : Inv hash s M) (h : TabEq s s') (hr : s'.root = s.root) : Inv hash s' M :=
  hI.tabEq h hr.ge (by rw [hr]; exact hI.root_lt)
    (fun t i ht hi => hI.dead t i (by rw [hr] at ht; exact ht) hi)

/-- A change of one table's control words. -/
theorem tabEq_upd {x : Tab} (hl : x.len = (s.tab t).len) (hn : x.newT = (s.tab t).newT)
    (hs : (s.tab t).slots ≤ x.slots) : TabEq s { s with tab := upd s.tab t x } where
  ck := rfl
  cv := rfl
  next := rfl
  cap := rfl
  failed := rfl
  reopened := rfl
  len t' _ := by by_cases h : t' = t <;> simp [upd, h, hl]
  newT t' _ := by by_cases h : t' = t <;> simp [upd, h, hn]
  slots t' _ := by by_cases h : t' = t <;> simp [upd, h, hs]

theorem Rest.tabEq {T : Nat} (hR : Rest s T) (h : TabEq s s') : Rest s' T := by
  intro t i hT ht hi
  rw [h.next] at ht; rw [h.len t ht] at hi; rw [h.cv]
  exact hR t i hT ht hi

theorem drift_tabEq (h : TabEq s s') (hd : ∀ t, t < s.next → (s'.tab t).copyDone = (s.tab t).copyDone) :
    drift s' = drift s := by
  funext t
  simp only [drift, h.next]
  split
  · next ht => simp only [cnt, h.cv, h.len t ht, hd t ht]
  · rfl

/-! ## Writing a key -/

theorem ext_setKey (h0 : s.ck t i = KINITIAL) (w : Word) : Ext s { s with ck := upd2 s.ck t i w } where
  next := le_refl _
  root := le_refl _
  len _ _ := rfl
  key t' i' _ _ hk := by
    refine upd2_ne ?_
    rintro ⟨rfl, rfl⟩; exact hk h0
  mig _ _ _ _ h := h

/-- A key is claimed in an empty slot. -/
theorem Inv.claim (hI : Inv hash s M) (hk : UserKey k) (ht : t < s.next) {d : Nat} (hd : d < s.lim t)
    (hu : Upto hash s t k d) (h0 : s.ck t (slotAt hash s t k d) = KINITIAL)
    (hp : ∀ t0, t0 < t → Pass hash s t0 k) :
    Inv hash { s with ck := upd2 s.ck t (slotAt hash s t k d) k } M := by
  have hE := ext_setKey h0 k
  have hlt := hI.slotAt_lt (k := k) ht d
  have hv0 := hI.kinit t _ ht hlt h0
  generalize hi0 : slotAt hash s t k d = i0 at *
  constructor
  · exact hI.ok
  · exact hI.root_lt
  · exact hI.cap_le
  · exact hI.len_pow
  · exact hI.len_dbl
  · exact hI.newT
  · exact hI.slots
  · intro t' i' ht' hi'
    by_cases h : t' = t ∧ i' = i0
    · obtain ⟨rfl, rfl⟩ := h; simp only [upd2_same]; exact hk.clean
    · simp only [upd2_ne h]; exact hI.kclean t' i' ht' hi'
  · intro t' i' ht' hi'
    by_cases h : t' = t ∧ i' = i0
    · obtain ⟨rfl, rfl⟩ := h; intro _; exact hv0
    · simp only [upd2_ne h]; exact hI.kinit t' i' ht' hi'
  · intro t' i' ht' hi'
    by_cases h : t' = t ∧ i' = i0
    · obtain ⟨rfl, rfl⟩ := h; simp only [upd2_same]; intro e; exact absurd e hk.ne_tomb
    · simp only [upd2_ne h]; exact hI.ktomb t' i' ht' hi'
  · intro t' i' ht' hi'
    by_cases h : t' = t ∧ i' = i0
    · obtain ⟨rfl, rfl⟩ := h; simp only [upd2_same]; intro _
      exact ⟨d, hd, hi0.symm, hI.upto_ext hE ht hu, fun _ _ _ => .inl hv0⟩
    · simp only [upd2_ne h]
      intro hk'
      obtain ⟨d', h1, h2, h3, h4⟩ := hI.path t' i' ht' hi' hk'
      exact ⟨d', h1, h2, hI.upto_ext hE ht' h3, h4⟩
  · exact hI.val
  · exact hI.mig
  · intro t' i' t0 ht' hi'
    by_cases h : t' = t ∧ i' = i0
    · obtain ⟨rfl, rfl⟩ := h; simp only [upd2_same]; intro _ h0
      exact hI.pass_ext hk hE (lt_trans h0 ht) (hp t0 h0)
    · simp only [upd2_ne h]
      intro hk' h0
      exact hI.pass_ext hk' hE (lt_trans h0 ht') (hI.cross t' i' t0 ht' hi' hk' h0)
  · exact hI.dead
  · intro k' v
    rw [hI.cont]
    constructor
    · rintro ⟨h1, h2, t', i', h3, h4, h5, h6⟩
      refine ⟨h1, h2, t', i', h3, h4, ?_, h6⟩
      rw [hE.key t' i' h3 h4 (by rw [h5]; exact h1.ne_init)]; exact h5
    · rintro ⟨h1, h2, t', i', h3, h4, h5, h6⟩
      refine ⟨h1, h2, t', i', h3, h4, ?_, h6⟩
      by_cases h : t' = t ∧ i' = i0
      · obtain ⟨rfl, rfl⟩ := h; exact absurd (h6.symm.trans hv0) h2.ne_init
      · simpa only [upd2_ne h] using h5

/-- An empty slot is closed with the key tombstone. -/
theorem Inv.tombKey (hI : Inv hash s M) (ht : t + 1 < s.next) (hi : i < (s.tab t).len)
    (h0 : s.ck t i = KINITIAL) : Inv hash { s with ck := upd2 s.ck t i KTOMBSTONE } M := by
  have hE := ext_setKey h0 KTOMBSTONE
  have hv0 := hI.kinit t _ (by omega) hi h0
  have hnu : ¬ UserKey KTOMBSTONE := fun h => h.ne_tomb rfl
  constructor
  · exact hI.ok
  · exact hI.root_lt
  · exact hI.cap_le
  · exact hI.len_pow
  · exact hI.len_dbl
  · exact hI.newT
  · exact hI.slots
  · intro t' i' ht' hi'
    by_cases h : t' = t ∧ i' = i
    · obtain ⟨rfl, rfl⟩ := h; simp only [upd2_same]; exact clean_KTOMBSTONE
    · simp only [upd2_ne h]; exact hI.kclean t' i' ht' hi'
  · intro t' i' ht' hi'
    by_cases h : t' = t ∧ i' = i
    · obtain ⟨rfl, rfl⟩ := h; intro _; exact hv0
    · simp only [upd2_ne h]; exact hI.kinit t' i' ht' hi'
  · intro t' i' ht' hi'
    by_cases h : t' = t ∧ i' = i
    · obtain ⟨rfl, rfl⟩ := h; intro _; exact ⟨ht, .inl hv0⟩
    · simp only [upd2_ne h]; exact hI.ktomb t' i' ht' hi'
  · intro t' i' ht' hi'
    by_cases h : t' = t ∧ i' = i
    · obtain ⟨rfl, rfl⟩ := h; simp only [upd2_same]; intro h; exact absurd h hnu
    · simp only [upd2_ne h]
      intro hk'
      obtain ⟨d', h1, h2, h3, h4⟩ := hI.path t' i' ht' hi' hk'
      exact ⟨d', h1, h2, hI.upto_ext hE ht' h3, h4⟩
  · exact hI.val
  · exact hI.mig
  · intro t' i' t0 ht' hi'
    by_cases h : t' = t ∧ i' = i
    · obtain ⟨rfl, rfl⟩ := h; simp only [upd2_same]; intro h; exact absurd h hnu
    · simp only [upd2_ne h]
      intro hk' h0
      exact hI.pass_ext hk' hE (lt_trans h0 ht') (hI.cross t' i' t0 ht' hi' hk' h0)
  · exact hI.dead
  · intro k' v
    rw [hI.cont]
    constructor
    · rintro ⟨h1, h2, t', i', h3, h4, h5, h6⟩
      refine ⟨h1, h2, t', i', h3, h4, ?_, h6⟩
      rw [hE.key t' i' h3 h4 (by rw [h5]; exact h1.ne_init)]; exact h5
    · rintro ⟨h1, h2, t', i', h3, h4, h5, h6⟩
      refine ⟨h1, h2, t', i', h3, h4, ?_, h6⟩
      by_cases h : t' = t ∧ i' = i
      · obtain ⟨rfl, rfl⟩ := h; exact absurd (h6.symm.trans hv0) h2.ne_init
      · simpa only [upd2_ne h] using h5

/-! ## Writing a value -/

theorem ext_setVal (h : isMig (s.cv t i) = true → isMig w = true) : Ext s { s with cv := upd2 s.cv t i w } where
  next := le_refl _
  root := le_refl _
  len _ _ := rfl
  key _ _ _ _ _ := rfl
  mig t' i' _ _ hm := by
    by_cases e : t' = t ∧ i' = i
    · obtain ⟨rfl, rfl⟩ := e; simp only [upd2_same]; exact h hm
    · simp only [upd2_ne e]; exact hm

/-- The parts of the invariant that do not mention the content, for a value write. -/
theorem Inv.setVal_aux (hI : Inv hash s M) {M' : Word → Option Word} (ht : t < s.next) (hi : i < (s.tab t).len)
    (hmono : isMig (s.cv t i) = true → isMig w = true)
    (hinit : s.ck t i ≠ KINITIAL)
    (htomb : s.ck t i = KTOMBSTONE → w = TOMBPRIME)
    (hfar : ∀ d, i = slotAt hash s t (s.ck t i) d → Upto hash s t (s.ck t i) d → UserKey (s.ck t i) →
      s.reopened = false → 16 ≤ (s.tab t).len → 10 ≤ d → w = VINITIAL ∨ isMig w = true)
    (hval : w = VINITIAL ∨ w = VTOMBSTONE ∨ Storable w ∨ isMig w = true)
    (hmig : isMig w = true → t + 1 < s.next)
    (hdead : t < s.root → w = TOMBPRIME)
    (hcont : ∀ k v, M' k = some v ↔ UserKey k ∧ Storable v ∧
      ∃ t' i', t' < s.next ∧ i' < (s.tab t').len ∧ s.ck t' i' = k ∧ upd2 s.cv t i w t' i' = v) :
    Inv hash { s with cv := upd2 s.cv t i w } M' := by
  have hE := ext_setVal hmono
  constructor
  · exact hI.ok
  · exact hI.root_lt
  · exact hI.cap_le
  · exact hI.len_pow
  · exact hI.len_dbl
  · exact hI.newT
  · exact hI.slots
  · exact hI.kclean
  · intro t' i' ht' hi' h0
    by_cases h : t' = t ∧ i' = i
    · obtain ⟨rfl, rfl⟩ := h; exact absurd h0 hinit
    · simp only [upd2_ne h]; exact hI.kinit t' i' ht' hi' h0
  · intro t' i' ht' hi' h0
    by_cases h : t' = t ∧ i' = i
    · obtain ⟨rfl, rfl⟩ := h; simp only [upd2_same]
      exact ⟨(hI.ktomb t' i' ht' hi' h0).1, .inr (htomb h0)⟩
    · simp only [upd2_ne h]; exact hI.ktomb t' i' ht' hi' h0
  · intro t' i' ht' hi' hk'
    obtain ⟨d', h1, h2, h3, h4⟩ := hI.path t' i' ht' hi' hk'
    refine ⟨d', h1, h2, hI.upto_ext hE ht' h3, ?_⟩
    by_cases h : t' = t ∧ i' = i
    · obtain ⟨rfl, rfl⟩ := h; simp only [upd2_same]; exact hfar d' h2 h3 hk'
    · simp only [upd2_ne h]; exact h4
  · intro t' i' ht' hi'
    by_cases h : t' = t ∧ i' = i
    · obtain ⟨rfl, rfl⟩ := h; simp only [upd2_same]; exact hval
    · simp only [upd2_ne h]; exact hI.val t' i' ht' hi'
  · intro t' i' ht' hi'
    by_cases h : t' = t ∧ i' = i
    · obtain ⟨rfl, rfl⟩ := h; simp only [upd2_same]; exact hmig
    · simp only [upd2_ne h]; exact hI.mig t' i' ht' hi'
  · intro t' i' t0 ht' hi' hk' h0
    exact hI.pass_ext hk' hE (lt_trans h0 ht') (hI.cross t' i' t0 ht' hi' hk' h0)
  · intro t' i' ht' hi'
    by_cases h : t' = t ∧ i' = i
    · obtain ⟨rfl, rfl⟩ := h; simp only [upd2_same]; exact hdead ht'
    · simp only [upd2_ne h]; exact hI.dead t' i' ht' hi'
  · exact hcont

open Classical in
/-- The content after writing `w` under `k`. -/
noncomputable def putM (M : Word → Option Word) (k w : Word) : Word → Option Word :=
  fun k' => if k' = k then (if Storable w then some w else none) else M k'

/-- A live slot of a user key is written. -/
theorem Inv.setVal_live (hI : Inv hash s M) (hk : UserKey k) (ht : t < s.next) (hi : i < (s.tab t).len)
    (hck : s.ck t i = k) (hlive : isMig (s.cv t i) = false)
    (hfar : ∀ d, i = slotAt hash s t k d → Upto hash s t k d →
      s.reopened = false → 16 ≤ (s.tab t).len → 10 ≤ d → w = VINITIAL ∨ isMig w = true)
    (hval : w = VINITIAL ∨ w = VTOMBSTONE ∨ Storable w ∨ isMig w = true)
    (hmig : isMig w = true → t + 1 < s.next) :
    Inv hash { s with cv := upd2 s.cv t i w } (putM M k w) := by
  refine hI.setVal_aux ht hi (by rw [hlive]; exact fun h => nomatch h) (by rw [hck]; exact hk.ne_init)
    (by rw [hck]; exact fun h => absurd h hk.ne_tomb) (by rw [hck]; exact fun d a b _ => hfar d a b) hval hmig ?_ ?_
  · intro h
    have := hI.dead t i h hi
    rw [this, isMig_TOMBPRIME] at hlive; cases hlive
  · intro k' v
    by_cases e : k' = k
    · subst e
      simp only [putM, if_true]
      constructor
      · intro h
        split at h
        · next hs => cases h; exact ⟨hk, hs, t, i, ht, hi, hck, by simp only [upd2_same]⟩
        · cases h
      · rintro ⟨-, hv, t', i', ht', hi', ek, ev⟩
        by_cases h : t' = t ∧ i' = i
        · obtain ⟨rfl, rfl⟩ := h
          simp only [upd2_same] at ev; subst ev
          simp [hv]
        · rw [upd2_ne h] at ev
          exfalso
          have hmv : isMig (s.cv t' i') = false := by rw [ev]; exact hv.mig
          have hM : M k' = some v := (hI.cont k' v).mpr ⟨hk, hv, t', i', ht', hi', ek, ev⟩
          rcases lt_trichotomy t t' with h' | h' | h'
          · have := hI.pass_mig hk ht (by rw [← ek]; exact hI.cross t' i' t ht' hi' (by rw [ek]; exact hk) h') hi hck
            rw [hlive] at this; cases this
          · subst h'
            obtain ⟨d', hd', h1, h2, -⟩ := hI.path t i' ht' hi' (by rw [ek]; exact hk)
            rw [ek] at h1 h2
            have : i = i' := by
              rw [h1]; exact hI.at_unique hk ht hi hck h2 (.inr (.inr (by rw [← h1]; exact ek)))
            exact h ⟨rfl, this.symm⟩
          · have := hI.pass_mig hk ht' (by rw [← hck]; exact hI.cross t i t' ht hi (by rw [hck]; exact hk) h') hi' ek
            rw [hmv] at this; cases this
    · simp only [putM, if_neg e]
      rw [hI.cont]
      have : ∀ t' i', s.ck t' i' = k' → ¬ (t' = t ∧ i' = i) := by
        rintro t' i' h ⟨rfl, rfl⟩; exact e (h.symm.trans hck)
      constructor
      · rintro ⟨h1, h2, t', i', h3, h4, h5, h6⟩
        exact ⟨h1, h2, t', i', h3, h4, h5, by rw [upd2_ne (this t' i' h5)]; exact h6⟩
      · rintro ⟨h1, h2, t', i', h3, h4, h5, h6⟩
        rw [upd2_ne (this t' i' h5)] at h6
        exact ⟨h1, h2, t', i', h3, h4, h5, h6⟩

/-- A value that is not a live user value becomes the migrated tombstone. -/
theorem Inv.setVal_prime (hI : Inv hash s M) (ht : t + 1 < s.next) (hi : i < (s.tab t).len)
    (hinit : s.ck t i ≠ KINITIAL) (hns : ¬ Storable (s.cv t i)) :
    Inv hash { s with cv := upd2 s.cv t i TOMBPRIME } M := by
  refine hI.setVal_aux (by omega) hi (fun _ => isMig_TOMBPRIME) hinit (fun _ => rfl)
    (fun _ _ _ _ _ _ _ => .inr isMig_TOMBPRIME) (.inr (.inr (.inr isMig_TOMBPRIME))) (fun _ => ht) (fun _ => rfl) ?_
  intro k' v
  rw [hI.cont]
  constructor
  · rintro ⟨h1, h2, t', i', h3, h4, h5, h6⟩
    refine ⟨h1, h2, t', i', h3, h4, h5, ?_⟩
    rw [upd2_ne]; exact h6
    rintro ⟨rfl, rfl⟩
    rw [h6] at hns; exact hns h2
  · rintro ⟨h1, h2, t', i', h3, h4, h5, h6⟩
    refine ⟨h1, h2, t', i', h3, h4, h5, ?_⟩
    by_cases h : t' = t ∧ i' = i
    · obtain ⟨rfl, rfl⟩ := h; rw [upd2_same] at h6; exact absurd h6.symm h2.ne_prime
    · rwa [upd2_ne h] at h6

/-! ## Counting -/

theorem drift_setVal_other (h0 : s.cv t i ≠ TOMBPRIME) (hw : w ≠ TOMBPRIME) :
    drift { s with cv := upd2 s.cv t i w } = drift s := by
  funext t'
  simp only [drift]
  split
  · congr 2
    simp only [cnt]
    congr 1
    ext j
    simp only [Finset.mem_filter, and_congr_right_iff]
    intro _
    by_cases h : t' = t ∧ j = i
    · obtain ⟨rfl, rfl⟩ := h; simp [upd2_same, h0, hw]
    · rw [upd2_ne h]
  · rfl

theorem drift_setVal_prime (ht : t < s.next) (hi : i < (s.tab t).len) (h0 : s.cv t i ≠ TOMBPRIME) :
    drift { s with cv := upd2 s.cv t i TOMBPRIME } = fun t' => drift s t' + if t' = t then 1 else 0 := by
  funext t'
  simp only [drift]
  by_cases e : t' = t
  · subst e
    simp only [if_pos ht, if_true]
    have : cnt { s with cv := upd2 s.cv t' i TOMBPRIME } t' = cnt s t' + 1 := by
      simp only [cnt]
      rw [← Finset.card_insert_of_notMem (a := i)]
      · congr 1
        ext j
        simp only [Finset.mem_filter, Finset.mem_insert]
        by_cases h : j = i
        · subst h; simp [upd2_same, hi]
        · rw [upd2_ne (by tauto)]; tauto
      · simp [h0]
    rw [this]; push_cast; ring
  · simp only [if_neg e, add_zero]
    split
    · congr 2
      simp only [cnt]
      congr 1
      ext j
      simp only [Finset.mem_filter, and_congr_right_iff]
      intro _
      rw [upd2_ne (by tauto)]
    · rfl

theorem drift_setVal_same (h0 : s.cv t i = TOMBPRIME) :
    drift { s with cv := upd2 s.cv t i TOMBPRIME } = drift s := by
  have : upd2 s.cv t i TOMBPRIME = s.cv := by
    funext t' i'
    by_cases h : t' = t ∧ i' = i
    · obtain ⟨rfl, rfl⟩ := h; rw [upd2_same, h0]
    · rw [upd2_ne h]
  rw [this]

theorem cnt_le (s : A) (t : Nat) : cnt s t ≤ (s.tab t).len := by
  have := Finset.card_filter_le (Finset.range (s.tab t).len) (fun i => s.cv t i = TOMBPRIME)
  simpa [cnt] using this

theorem cnt_eq_len (h : cnt s t = (s.tab t).len) : ∀ i, i < (s.tab t).len → s.cv t i = TOMBPRIME := by
  intro i hi
  have : (Finset.range (s.tab t).len).filter (fun i => s.cv t i = TOMBPRIME) = Finset.range (s.tab t).len :=
    Finset.eq_of_subset_of_card_le (Finset.filter_subset _ _) (by simp only [cnt] at h; rw [h]; simp)
  have hm : i ∈ (Finset.range (s.tab t).len).filter (fun i => s.cv t i = TOMBPRIME) := by rw [this]; simpa using hi
  exact (Finset.mem_filter.mp hm).2

/-! ## Growing -/

/-- The view after `resize` of the newest table. -/
def growA (s : A) (t : Nat) : A :=
  { allocA s (newLen (s.tab t).len (s.tab t).size) (s.tab t).size with
    tab := upd (allocA s (newLen (s.tab t).len (s.tab t).size) (s.tab t).size).tab t
      { s.tab t with newT := some s.next } }

theorem growA_tab_old {t' : Nat} (h : t' < s.next) (h' : t' ≠ t) : (growA s t).tab t' = s.tab t' := by
  simp only [growA, allocA]; rw [upd_ne h', upd_ne (by omega)]
theorem growA_tab_t : (growA s t).tab t = { s.tab t with newT := some s.next } := by
  simp only [growA, upd_same]
theorem growA_tab_new (h : t < s.next) :
    (growA s t).tab s.next = freshTab (2 * (s.tab t).len) (s.tab t).size := by
  simp only [growA, allocA]; rw [upd_ne (by omega), upd_same, newLen_double, Nat.mul_comm]
theorem growA_len {t' : Nat} (h : t' < s.next) : ((growA s t).tab t').len = (s.tab t').len := by
  by_cases e : t' = t
  · subst e; rw [growA_tab_t]
  · rw [growA_tab_old h e]
theorem growA_ck {t' : Nat} (h : t' < s.next) (i : Nat) : (growA s t).ck t' i = s.ck t' i := by
  simp only [growA, allocA]; rw [if_neg (by omega)]
theorem growA_cv {t' : Nat} (h : t' < s.next) (i : Nat) : (growA s t).cv t' i = s.cv t' i := by
  simp only [growA, allocA]; rw [if_neg (by omega)]
theorem growA_ck_new (i : Nat) : (growA s t).ck s.next i = KINITIAL := by simp [growA, allocA]
theorem growA_cv_new (i : Nat) : (growA s t).cv s.next i = VINITIAL := by simp [growA, allocA]
theorem growA_next : (growA s t).next = s.next + 1 := by simp [growA, allocA]
theorem growA_root : (growA s t).root = s.root := rfl

theorem ext_grow : Ext s (growA s t) where
  next := by rw [growA_next]; omega
  root := le_refl _
  len t' h := growA_len h
  key t' i h _ _ := growA_ck h i
  mig t' i h _ hm := by rw [growA_cv h]; exact hm

theorem Inv.grow (hI : Inv hash s M) (ht : t + 1 = s.next) (hcap : 2 * (s.tab t).len ≤ s.cap) :
    Inv hash (growA s t) M := by
  have hE : Ext s (growA s t) := ext_grow
  have hnew := growA_tab_new (s := s) (t := t) (by omega)
  have hnk : ¬ UserKey KINITIAL := fun h => h.ne_init rfl
  have split : ∀ {t'}, t' < (growA s t).next → t' < s.next ∨ t' = s.next := by
    intro t' h; rw [growA_next] at h; omega
  constructor
  · exact hI.ok
  · rw [growA_next, growA_root]; have := hI.root_lt; omega
  · exact hI.cap_le
  · intro t' ht'
    rcases split ht' with h | rfl
    · rw [growA_len h]; exact hI.len_pow t' h
    · rw [hnew]
      obtain ⟨p, hp, e⟩ := hI.len_pow t (by omega)
      simp only [freshTab]
      have h2 : (2 : Nat) ^ (p + 1) ≤ 2 ^ 32 := by
        rw [pow_succ, ← e, Nat.mul_comm]; exact le_trans hcap hI.cap_le
      refine ⟨p + 1, (Nat.pow_le_pow_iff_right (by norm_num)).mp h2, ?_⟩
      rw [pow_succ, ← e, Nat.mul_comm]
  · intro t' ht'
    rcases split ht' with h | h
    · rw [growA_len h, growA_len (by omega)]; exact hI.len_dbl t' h
    · have : t' = t := by omega
      subst this
      rw [h, hnew, growA_len (by omega)]; rfl
  · intro t' ht'
    rcases split ht' with h | rfl
    · by_cases e : t' = t
      · subst e; rw [growA_tab_t, growA_next, if_pos (by omega), ht]
      · rw [growA_tab_old h e, hI.newT t' h, growA_next, if_pos (by omega), if_pos (by omega)]
    · rw [hnew, growA_next, if_neg (by omega)]; rfl
  · intro hre t' ht'
    rcases split ht' with h | rfl
    · by_cases e : t' = t
      · subst e; rw [growA_tab_t]; exact hI.slots hre t' h
      · rw [growA_tab_old h e]; exact hI.slots hre t' h
    · rw [hnew]; simp [freshTab]
  · intro t' i ht' hi
    rcases split ht' with h | rfl
    · rw [growA_len h] at hi; rw [growA_ck h]; exact hI.kclean t' i h hi
    · rw [growA_ck_new]; exact clean_KINITIAL
  · intro t' i ht' hi
    rcases split ht' with h | rfl
    · rw [growA_len h] at hi; rw [growA_ck h, growA_cv h]; exact hI.kinit t' i h hi
    · intro _; exact growA_cv_new i
  · intro t' i ht' hi
    rcases split ht' with h | rfl
    · rw [growA_len h] at hi; rw [growA_ck h, growA_cv h]
      intro e
      obtain ⟨h1, h2⟩ := hI.ktomb t' i h hi e
      exact ⟨by rw [growA_next]; omega, h2⟩
    · rw [growA_ck_new]; intro e; exact absurd e KINITIAL_ne_KTOMBSTONE
  · intro t' i ht' hi
    rcases split ht' with h | rfl
    · rw [growA_len h] at hi; rw [growA_ck h, growA_cv h, growA_len h]
      intro hk
      obtain ⟨d, h1, h2, h3, h4⟩ := hI.path t' i h hi hk
      exact ⟨d, by rw [lim_ext hE h]; exact h1, by rw [slotAt_ext hE h]; exact h2, hI.upto_ext hE h h3, h4⟩
    · rw [growA_ck_new]; intro h; exact absurd h hnk
  · intro t' i ht' hi
    rcases split ht' with h | rfl
    · rw [growA_len h] at hi; rw [growA_cv h]; exact hI.val t' i h hi
    · exact .inl (growA_cv_new i)
  · intro t' i ht' hi
    rcases split ht' with h | rfl
    · rw [growA_len h] at hi; rw [growA_cv h]
      intro hm
      have := hI.mig t' i h hi hm
      rw [growA_next]; omega
    · rw [growA_cv_new, isMig_VINITIAL]; exact fun h => nomatch h
  · intro t' i t0 ht' hi
    rcases split ht' with h | rfl
    · rw [growA_len h] at hi; rw [growA_ck h]
      intro hk h0
      exact hI.pass_ext hk hE (by omega) (hI.cross t' i t0 h hi hk h0)
    · rw [growA_ck_new]; intro h; exact absurd h hnk
  · intro t' i ht' hi
    have h : t' < s.next := lt_trans ht' hI.root_lt
    rw [growA_len h] at hi; rw [growA_cv h]; exact hI.dead t' i ht' hi
  · intro k v
    rw [hI.cont]
    constructor
    · rintro ⟨h1, h2, t', i', h3, h4, h5, h6⟩
      exact ⟨h1, h2, t', i', by rw [growA_next]; omega, by rw [growA_len h3]; exact h4,
        by rw [growA_ck h3]; exact h5, by rw [growA_cv h3]; exact h6⟩
    · rintro ⟨h1, h2, t', i', h3, h4, h5, h6⟩
      rcases split h3 with h | rfl
      · rw [growA_len h] at h4; rw [growA_ck h] at h5; rw [growA_cv h] at h6
        exact ⟨h1, h2, t', i', h, h4, h5, h6⟩
      · rw [growA_ck_new] at h5; exact absurd h5.symm h1.ne_init

theorem drift_grow (ht : t < s.next) : drift (growA s t) = drift s := by
  funext t'
  simp only [drift, growA_next]
  rcases lt_trichotomy t' s.next with h | rfl | h
  · rw [if_pos (by omega), if_pos h]
    congr 2
    · simp only [cnt, growA_len h]
      congr 1; ext j; simp only [growA_cv h]
    · by_cases e : t' = t
      · subst e; rw [growA_tab_t]
      · rw [growA_tab_old h e]
  · rw [if_pos (by omega), if_neg (by omega)]
    have : cnt (growA s t) s.next = 0 := by
      simp only [cnt, growA_cv_new, Finset.card_eq_zero, Finset.filter_eq_empty_iff]
      exact fun _ _ h => VINITIAL_ne_TOMBPRIME h
    rw [this, growA_tab_new ht]; rfl
  · rw [if_neg (by omega), if_neg (by omega)]

theorem Rest.grow {T : Nat} (h : Rest s T) : Rest (growA s t) T := by
  intro t' i hT ht' hi
  rw [growA_next] at ht'
  rcases Nat.lt_succ_iff_lt_or_eq.mp ht' with h' | rfl
  · rw [growA_len h'] at hi; rw [growA_cv h']; exact h t' i hT h' hi
  · rw [growA_cv_new, isMig_VINITIAL]; exact fun h => nomatch h

theorem lastSize_grow (ht : t + 1 = s.next) : (growA s t).lastSize = s.lastSize := by
  simp only [A.lastSize, growA_next, Nat.add_sub_cancel]
  rw [growA_tab_new (by omega), ← ht]; rfl

end PMap
