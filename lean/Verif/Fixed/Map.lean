import Verif.Fixed.Logic

/-!
# Every call on present keys, in a table that does not grow (proof machinery)
-/

namespace PMap

open Prog

variable {hash : Word → Word} {D : Desc} {op : Op} {k : Word}

/-- Slot examined at probe distance `d`. -/
def Desc.at (hash : Word → Word) (D : Desc) (k : Word) (d : Nat) : Nat := (homePut hash k D.len + d) % D.len

theorem Desc.OK.pos (h : D.OK hash) : 0 < D.len := by
  obtain ⟨p, -, e⟩ := h.pow
  rw [e]; positivity

theorem Desc.OK.at_lt (h : D.OK hash) (k : Word) (d : Nat) : D.at hash k d < D.len := Nat.mod_lt _ h.pos

theorem Desc.OK.at_zero (h : D.OK hash) (k : Word) : homePut hash k D.len = D.at hash k 0 := by
  rw [Desc.at, Nat.add_zero, Nat.mod_eq_of_lt]
  exact and_len_lt h.pow

theorem Desc.OK.home (h : D.OK hash) (k : Word) : homeGet hash k D.len = D.at hash k 0 := by
  rw [← h.at_zero]
  obtain ⟨p, hp, e⟩ := h.pow
  obtain ⟨h1, h2⟩ := c04_same_home_slot hash k p hp
  rw [e, h1, h2]

theorem Desc.OK.at_succ (h : D.OK hash) (k : Word) (d : Nat) : (D.at hash k d + 1) &&& (D.len - 1) = D.at hash k (d + 1) := by
  rw [and_len h.pow, Desc.at, Desc.at, Nat.mod_add_mod, Nat.add_assoc]

theorem Desc.slot_key (D : Desc) {i : Nat} (h : i < D.len) : D.Slot (.key D.tab i) := ⟨rfl, h⟩
theorem Desc.slot_val (D : Desc) {i : Nat} (h : i < D.len) : D.Slot (.val D.tab i) := ⟨rfl, h⟩

theorem lwp_tableKey {i : Nat} (hi : i < D.len) {Q : Word → Option Res → Prop} {c : Option Res} (h : Q (D.key i) c) :
    lwp D op Q (tableKey D.tab i) c := by
  refine lwp_pcasRead (D.slot_key hi) (lwp_loadAny (D.slot_key hi) ?_)
  intro m M hR
  rw [hR.keys i hi]; exact h

/-- Reading a value that does not matter. -/
theorem lwp_tableValue {i : Nat} (hi : i < D.len) {Q : Word → Option Res → Prop} {c : Option Res}
    (h : ∀ m M, Rep D m M → Q (clean (m.word (.val D.tab i))) c) : lwp D op Q (tableValue D.tab i) c :=
  lwp_pcasRead (D.slot_val hi) (lwp_loadAny (D.slot_val hi) h)

theorem Desc.OK.slot_lt (h : D.OK hash) (hk : D.has k) : D.slot k < D.len := by
  obtain ⟨d, -, e, -⟩ := h.path k hk
  rw [e]; exact h.at_lt k d

/-! ## `get` -/

/-- How the probe loop of `getImpl` ends for a present key. -/
theorem gprobe_lwp (h : D.OK hash) (hk : D.has k) (n : Nat) {res : Option Word → Res}
    (hnext : ∀ M, specNext op M = M) (hres : ∀ M y, specRes op M = some y → res (M k) = y) :
    lwp D op (fun p c => ∃ o, p = .returned (resWord o) ∧ c = some (res o) ∧ ∀ v, o = some v → ValidVal v)
      (loop n (getProbeBody D.tab k D.len) (homeGet hash k D.len, 0)) none := by
  obtain ⟨d0, hd0, hs, hpre⟩ := h.path k hk
  refine lwp_loop (I := fun x c => c = none ∧ x.1 = D.at hash k x.2 ∧ x.2 ≤ d0) ?_ n _ _ ⟨rfl, h.home k, Nat.zero_le _⟩
  rintro ⟨i, d⟩ c ⟨rfl, hi, hd⟩
  simp only at hi hd
  subst hi
  have hlt := h.at_lt k d
  refine lwp_bind' (lwp_tableKey hlt ?_)
  rcases Nat.lt_or_eq_of_le hd with hd' | rfl
  · obtain ⟨h0, h1, h2⟩ := hpre d hd'
    refine lwp_bind' (lwp_tableValue hlt fun m M _ => ?_)
    change D.key (D.at hash k d) ≠ KINITIAL at h0
    change D.key (D.at hash k d) ≠ KTOMBSTONE at h1
    change D.key (D.at hash k d) ≠ k at h2
    rw [if_neg h0]
    refine lwp_bind' (lwp_getNew ?_)
    have h3 : ¬ (reprobeLimit D.len ≤ d + 1 ∨ D.key (D.at hash k d) = KTOMBSTONE) := by
      rintro (h3 | h3)
      · omega
      · exact h1 h3
    rw [if_neg h2, if_neg h3]
    exact lwp_pure ⟨rfl, h.at_succ k d, hd'⟩
  · change D.slot k = D.at hash k d at hs
    rw [← hs] at hlt ⊢
    rw [h.at_slot k hk]
    have hu := userKey_of_valid (h.valid k hk)
    refine lwp_bind' (lwp_pcasRead (D.slot_val hlt) (lwp_loadEff (D.slot_val hlt) ?_))
    intro m M hR
    refine .inr ⟨hnext M, res (M k), fun y hy => hres M y hy, ?_⟩
    rw [hR.vals k hk]
    have ho := hR.fits.vals k hk
    generalize M k = o at ho
    rw [if_neg hu.ne_init]
    refine lwp_bind' (lwp_getNew ?_)
    rw [if_pos rfl, enc_mig ho, if_neg (by decide)]
    refine lwp_pure ⟨o, ?_, rfl, ho⟩
    cases o with
    | none => rfl
    | some v =>
      congr 1
      exact if_neg (ho v rfl).ne_tomb

/-- How the probe loop of `getImpl` ends for an absent key. -/
theorem gprobe_absent (h : D.OK hash) (hv : ValidKey k) (hk : ¬ D.has k) (n : Nat) (c : Option Res) :
    lwp D op (fun p c' => p = .returned VINITIAL ∧ c' = c)
      (loop n (getProbeBody D.tab k D.len) (homeGet hash k D.len, 0)) c := by
  refine lwp_loop (I := fun x c' => c' = c ∧ x.1 < D.len) ?_ n _ _ ⟨rfl, by rw [h.home]; exact h.at_lt k 0⟩
  rintro ⟨i, d⟩ c' ⟨rfl, hlt⟩
  simp only at hlt
  refine lwp_bind' (lwp_tableKey hlt ?_)
  refine lwp_bind' (lwp_tableValue hlt fun m M hR => ?_)
  by_cases h0 : D.key i = KINITIAL
  · rw [if_pos h0]; exact lwp_pure ⟨rfl, rfl⟩
  · rw [if_neg h0]
    refine lwp_bind' (lwp_getNew ?_)
    by_cases h1 : D.key i = k
    · have hval := hR.rest i hlt (by rw [h1]; exact hk) (by rw [h1]; exact hv)
      rw [if_pos h1]
      rcases hval with hval | hval
      · rw [hval, isMig_VINITIAL, if_neg (by decide), if_neg VINITIAL_ne_VTOMBSTONE]
        exact lwp_pure ⟨rfl, rfl⟩
      · rw [hval, isMig_VTOMBSTONE, if_neg (by decide), if_pos rfl]
        exact lwp_pure ⟨rfl, rfl⟩
    · rw [if_neg h1]
      split
      · exact lwp_pure ⟨rfl, rfl⟩
      · exact lwp_pure ⟨rfl, and_len_lt h.pow⟩

theorem resWord_mig {o : Option Word} (h : ∀ v, o = some v → ValidVal v) : isMig (resWord o) = false := by
  cases o with
  | none => exact isMig_VINITIAL
  | some v => exact (h v rfl).2.1

theorem mapGet_lwp (h : D.OK hash) (hk : D.has k) (n : Nat) {res : Option Word → Res}
    (hnext : ∀ M, specNext op M = M) (hres : ∀ M y, specRes op M = some y → res (M k) = y) :
    lwp D op (fun w c => ∃ o, w = resWord o ∧ c = some (res o) ∧ ∀ v, o = some v → ValidVal v) (mapGet hash n k) none := by
  refine lwp_bind' (lwp_getRoot ?_)
  cases n with
  | zero => exact lwp_bind' lwp_fuel
  | succ n =>
    refine lwp_bind' (lwp_bind' (lwp_len (lwp_bind' (lwp_mono (gprobe_lwp h hk n hnext hres) ?_))))
    rintro p c ⟨o, rfl, rfl, ho⟩
    refine lwp_pure (lwp_bind' (lwp_check ?_ (lwp_pure ⟨o, rfl, rfl, ho⟩)))
    rw [resWord_mig ho]; rfl

theorem mapGet_absent (h : D.OK hash) (hv : ValidKey k) (hk : ¬ D.has k) (n : Nat) {res : Option Word → Res}
    (hnext : ∀ M, specNext op M = M) (hres : ∀ M y, specRes op M = some y → res (M k) = y) :
    lwp D op (fun w c => w = VINITIAL ∧ c = some (res none)) (mapGet hash n k) none := by
  have hrest : lwp D op (fun w c => w = VINITIAL ∧ c = some (res none))
      (do let V ← getImpl hash n D.tab k
          check (!isMig V)
          return V) (some (res none)) := by
    cases n with
    | zero => exact lwp_bind' lwp_fuel
    | succ n =>
      refine lwp_bind' (lwp_bind' (lwp_len (lwp_bind' (lwp_mono (gprobe_absent h hv hk n _) ?_))))
      rintro p c ⟨rfl, rfl⟩
      exact lwp_pure (lwp_bind' (lwp_check rfl (lwp_pure ⟨rfl, rfl⟩)))
  refine lwp_bind' (lwp_act fun m M hR _ => ?_)
  refine ⟨m.root, m, rfl, Desc.keep_same fun _ => rfl, .inr (.inl ⟨rfl, by rw [hnext]; exact hR, res none, fun y hy => ?_, ?_⟩)⟩
  · have := hres M y hy
    rwa [hR.fits.absent k hv hk] at this
  · rw [hR.root]; exact hrest

/-! ## `putIfMatch` -/

/-- The word stored through the `CAS` function pointer. -/
def CasFn.stored : CasFn → Word → Word → Word
  | .casValue, _, n => n
  | .increment, V, _ => incremented V

theorem CasFn.call_eq (cf : CasFn) (t i : Nat) (V n : Word) :
    cf.call t i V n = (do let r ← pcas (.val t i) V (cf.stored V n); return r.2) := by
  cases cf <;> rfl

/-- What a modifying call on a present key needs to be told about itself: `early o` says that it takes effect at the moment
its probe loop reads the content `o`, and then changes nothing; otherwise it takes effect at its CAS: if the CAS succeeds, or if the
word it finds does not match (`miss`). -/
structure PutLike (D : Desc) (op : Op) (k : Word) (cf : CasFn) (nv ov : Word) (fin : Word → Res)
    (early : Option Word → Prop) : Prop where
  has : D.has k
  nv_init : nv ≠ VINITIAL
  nv_mig : isMig nv = false
  ov_mig : isMig ov = false
  ov_init : ov ≠ VINITIAL
  other : ∀ M, Fits D M → ∀ k', k' ≠ k → specNext op M k' = M k'
  early_res : ∀ M, Fits D M → early (M k) → ∀ y, specRes op M = some y → fin (enc (M k)) = y
  early_next : ∀ M, Fits D M → early (M k) → specNext op M = M
  early_stop : ∀ M, Fits D M → early (M k) → nv = enc (M k) ∨ mismatch (enc (M k)) ov = true
  late : ∀ M, Fits D M → ¬ early (M k) → nv ≠ enc (M k) ∧ mismatch (enc (M k)) ov = false
  miss : (¬ ∀ o, early o) → ∀ M V, Fits D M → D.Value k V → clean V = enc (M k) → mismatch V ov = true →
    (isDirty V = true → ∃ j, j ≠ D.me ∧ D.stored j k (clean V)) →
    (specNext op M = M ∧ ∀ y, specRes op M = some y → fin V = y) ∨ (D.spur op ∧ spurRes op M = some (fin V))
  hit_res : (¬ ∀ o, early o) → ∀ M V, Fits D M → D.Value k V → clean V = enc (M k) → mismatch V ov = false →
    ∀ y, specRes op M = some y → fin V = y
  stored : (¬ ∀ o, early o) → ∀ M V, Fits D M → D.Value k V → clean V = enc (M k) → mismatch V ov = false →
    clean (cf.stored V nv) = enc (specNext op M k)
  mine : (¬ ∀ o, early o) → ∀ M V, Fits D M → D.Value k V → clean V = enc (M k) → mismatch V ov = false → Fits D (specNext op M) →
    D.stored D.me k (clean (cf.stored V nv))

variable {cf : CasFn} {nv ov : Word} {fin : Word → Res} {early : Option Word → Prop}

theorem Rep.enc_value {m : Mem} {M : AMap} (h : Rep D m M) (hk : D.has k) : D.Value k (enc (M k)) := by
  have := h.value hk
  rw [Desc.Value, h.vals k hk] at this
  rw [Desc.Value, enc_clean (h.fits.vals k hk)]
  exact this

/-- How the probe loop of `putIfMatch` ends. -/
theorem probe_lwp (h : D.OK hash) (hp : PutLike D op k cf nv ov fin early) (n : Nat) :
    lwp D op (fun p c => ∃ d V, p = .slot (D.slot k) d V ∧ D.Value k V ∧
        ((c = some (fin V) ∧ (nv = V ∨ mismatch V ov = true)) ∨ (c = none ∧ nv ≠ V ∧ mismatch V ov = false ∧ ¬ ∀ o, early o)))
      (loop n (probeBody D.tab k nv D.len) (homePut hash k D.len, 0)) none := by
  obtain ⟨d0, hd0, hs, hpre⟩ := h.path k hp.has
  refine lwp_loop (I := fun x c => c = none ∧ x.1 = D.at hash k x.2 ∧ x.2 ≤ d0) ?_ n _ _ ⟨rfl, h.at_zero k, Nat.zero_le _⟩
  rintro ⟨i, d⟩ c ⟨rfl, hi, hd⟩
  simp only at hi hd
  subst hi
  have hlt := h.at_lt k d
  refine lwp_bind' (lwp_tableKey hlt ?_)
  rcases Nat.lt_or_eq_of_le hd with hd' | rfl
  · obtain ⟨h0, h1, h2⟩ := hpre d hd'
    refine lwp_bind' (lwp_tableValue hlt fun m M _ => ?_)
    change D.key (D.at hash k d) ≠ KINITIAL at h0
    change D.key (D.at hash k d) ≠ KTOMBSTONE at h1
    change D.key (D.at hash k d) ≠ k at h2
    rw [if_neg (show D.key (D.at hash k d) ≠ VINITIAL from h0)]
    have h3 : ¬ (reprobeLimit D.len ≤ d + 1 ∨ D.key (D.at hash k d) = KTOMBSTONE) := by
      rintro (h3 | h3)
      · omega
      · exact h1 h3
    rw [probeMatch, if_neg h2, if_neg h3]
    exact lwp_pure ⟨rfl, h.at_succ k d, hd'⟩
  · change D.slot k = D.at hash k d at hs
    rw [← hs] at hlt ⊢
    rw [h.at_slot k hp.has]
    have hu := userKey_of_valid (h.valid k hp.has)
    refine lwp_bind' (lwp_pcasRead (D.slot_val hlt) (lwp_loadEff (D.slot_val hlt) ?_))
    intro m M hR
    rw [hR.vals k hp.has, if_neg (show k ≠ VINITIAL from hu.ne_init), probeMatch, if_pos rfl]
    have hval := hR.enc_value hp.has
    by_cases he : early (M k)
    · refine .inr ⟨hp.early_next M hR.fits he, fin (enc (M k)), hp.early_res M hR.fits he, ?_⟩
      exact lwp_pure ⟨d, _, rfl, hval, .inl ⟨rfl, hp.early_stop M hR.fits he⟩⟩
    · exact .inl (lwp_pure ⟨d, _, rfl, hval, .inr ⟨rfl, (hp.late M hR.fits he).1, (hp.late M hR.fits he).2, fun hall => he (hall _)⟩⟩)

/-- The CAS of the update loop. -/
theorem call_lwp (h : D.OK hash) (hp : PutLike D op k cf nv ov fin early) (hne : ¬ ∀ o, early o) {V : Word}
    (hV : D.Value k V) (hmis : mismatch V ov = false) : lwp D op (fun a c => (a = V ∧ c = some (fin V)) ∨
        (a ≠ V ∧ D.Value k a ∧ ((c = some (fin a) ∧ mismatch a ov = true) ∨ (c = none ∧ mismatch a ov = false))))
      (cf.call D.tab (D.slot k) V nv) none := by
  have hlt := h.slot_lt hp.has
  rw [CasFn.call_eq]
  refine lwp_bind' (lwp_pcasReadSeen (V := V) hp.has (D.slot_val hlt) fun _ => ?_)
  intro m M hR hK hF
  by_cases hw : m.word (.val D.tab (D.slot k)) = V
  · refine ⟨(true, V), { m with word := setWord m.word (.val D.tab (D.slot k)) (dirty (cf.stored V nv)) }, ?_, ?_, none,
      D.knows_none _, .inr (.inl ?_)⟩
    · rw [Act.exec, if_pos (hR.exec_ok (D.slot_val hlt)), if_pos hw]
    · have hcl : clean V = enc (M k) := by rw [← hw]; exact hR.vals k hp.has
      have hmine := hp.mine hne M V hR.fits hV hcl hmis (hF rfl)
      intro j k' w hj hk' hs
      by_cases e : k' = k
      · subst e
        refine .inr fun _ => ⟨D.me, fun e => hj e.symm, ?_⟩
        dsimp only
        rw [show setWord m.word (.val D.tab (D.slot k')) (dirty (cf.stored V nv)) (.val D.tab (D.slot k')) = _ from if_pos rfl,
          clean_dirty]
        exact hmine
      · have : D.slot k' ≠ D.slot k := by
          intro e'
          apply e
          rw [← h.at_slot k' hk', e', h.at_slot k hp.has]
        rw [Desc.Seen]
        dsimp only
        rw [show setWord m.word (.val D.tab (D.slot k)) (dirty (cf.stored V nv)) (.val D.tab (D.slot k')) = _ from
          if_neg (by simpa using this)]
        exact hs
    have hcl : clean V = enc (M k) := by rw [← hw]; exact hR.vals k hp.has
    refine ⟨rfl, ?_, fin V, hp.hit_res hne M V hR.fits hV hcl hmis, ?_⟩
    · refine ⟨hR.root, hR.lt, hR.len, hR.newT, hR.ok, ?_, ?_, ?_, hF rfl⟩
      · intro i hi
        dsimp only
        rw [show setWord m.word (.val D.tab (D.slot k)) (dirty (cf.stored V nv)) (.key D.tab i) = m.word (.key D.tab i) from
          if_neg (by simp)]
        exact hR.keys i hi
      · intro k' hk'
        by_cases e : k' = k
        · subst e
          dsimp only
          rw [show setWord m.word (.val D.tab (D.slot k')) (dirty (cf.stored V nv)) (.val D.tab (D.slot k')) = _ from if_pos rfl,
            clean_dirty]
          exact hp.stored hne M V hR.fits hV hcl hmis
        · have : D.slot k' ≠ D.slot k := by
            intro e'
            apply e
            rw [← h.at_slot k' hk', e', h.at_slot k hp.has]
          dsimp only
          rw [show setWord m.word (.val D.tab (D.slot k)) (dirty (cf.stored V nv)) (.val D.tab (D.slot k')) = _ from
            if_neg (by simpa using this), hp.other M hR.fits k' e]
          exact hR.vals k' hk'
      · intro i hi h1 h2
        have : i ≠ D.slot k := by
          rintro rfl
          rw [h.at_slot k hp.has] at h1
          exact h1 hp.has
        dsimp only
        rw [show setWord m.word (.val D.tab (D.slot k)) (dirty (cf.stored V nv)) (.val D.tab i) = _ from
            if_neg (by simpa using this)]
        exact hR.rest i hi h1 h2
    · exact lwp_bind' (lwp_check (by simp) (lwp_pure (.inl ⟨rfl, rfl⟩)))
  · refine ⟨(false, m.word (.val D.tab (D.slot k))), m, ?_, Desc.keep_same fun _ => rfl, none, D.knows_none _, ?_⟩
    · rw [Act.exec, if_pos (hR.exec_ok (D.slot_val hlt)), if_neg hw]
    have hval := hR.value hp.has
    have hcl := hR.vals k hp.has
    have hchk := fun e : V = m.word (.val D.tab (D.slot k)) => hw e.symm
    cases hm : mismatch (m.word (.val D.tab (D.slot k))) ov with
    | false =>
      refine .inl ⟨hR, ?_⟩
      exact lwp_bind' (lwp_check (by simpa using hchk) (lwp_pure (.inr ⟨hw, hval, .inr ⟨rfl, hm⟩⟩)))
    | true =>
      rcases hp.miss hne M _ hR.fits hval hcl hm ((hK _ rfl).2.resolve_left hw) with ⟨h1, h2⟩ | ⟨h1, h2⟩
      · refine .inr (.inl ⟨rfl, by rw [h1]; exact hR, _, h2, ?_⟩)
        exact lwp_bind' (lwp_check (by simpa using hchk) (lwp_pure (.inr ⟨hw, hval, .inl ⟨rfl, hm⟩⟩)))
      · refine .inr (.inr ⟨rfl, h1, hR, _, h2, ?_⟩)
        exact lwp_bind' (lwp_check (by simpa using hchk) (lwp_pure (.inr ⟨hw, hval, .inl ⟨rfl, hm⟩⟩)))

theorem adjustSize_lwp {V : Word} {Q : Unit → Option Res → Prop} {c : Option Res} (h : Q () c) :
    lwp D op Q (adjustSize D.tab V nv ov) c := by
  unfold adjustSize
  split
  · split
    · exact lwp_addSize h
    · split
      · exact lwp_addSize h
      · exact lwp_pure h
  · exact lwp_pure h

theorem update_lwp (h : D.OK hash) (hp : PutLike D op k cf nv ov fin early) (n : Nat) {V : Word} {c : Option Res}
    (hV : D.Value k V) (hc : (c = some (fin V) ∧ mismatch V ov = true) ∨ (c = none ∧ mismatch V ov = false ∧ ¬ ∀ o, early o)) :
    lwp D op (fun u c => ∃ V, u = .returned V ∧ D.Value k V ∧ c = some (fin V))
      (loop n (updateBody cf D.tab (D.slot k) nv ov) V) c := by
  refine lwp_loop (I := fun V c => D.Value k V ∧ ((c = some (fin V) ∧ mismatch V ov = true) ∨
    (c = none ∧ mismatch V ov = false ∧ ¬ ∀ o, early o))) ?_ n _ _ ⟨hV, hc⟩
  clear hV hc V c
  rintro V c ⟨hV, hc⟩
  refine lwp_bind' (lwp_check (by rw [hV.mig]; rfl) ?_)
  rcases hc with ⟨rfl, hm⟩ | ⟨rfl, hm, hne⟩
  · rw [hm, if_pos rfl]
    exact lwp_pure ⟨V, rfl, hV, rfl⟩
  · rw [hm, if_neg (by decide)]
    refine lwp_bind' (lwp_mono (call_lwp h hp hne hV hm) ?_)
    rintro a c (⟨rfl, rfl⟩ | ⟨ha, hav, hc⟩)
    · rw [if_pos rfl]
      refine lwp_bind' (adjustSize_lwp (lwp_pure ⟨a, ?_, hV, rfl⟩))
      rw [if_neg fun hh => hV.ne_init hh.1]
    · rw [if_neg ha]
      have hlt := h.slot_lt hp.has
      refine lwp_bind' (lwp_tableValue hlt fun m M hR => ?_)
      have := (hR.value hp.has).mig
      rw [isMig_clean, this, if_neg (by decide)]
      exact lwp_pure ⟨hav, hc.imp_right fun hc => ⟨hc.1, hc.2, hne⟩⟩

/-- The recursive function on the described table. -/
theorem putIfMatch_lwp (h : D.OK hash) (hp : PutLike D op k cf nv ov fin early) (n : Nat) :
    lwp D op (fun V c => D.Value k V ∧ c = some (fin V)) (putIfMatch hash n cf D.tab k nv ov) none := by
  cases n with
  | zero => exact lwp_fuel
  | succ n =>
    refine lwp_bind' (lwp_check (by simpa using hp.nv_init) ?_)
    refine lwp_bind' (lwp_check (by rw [hp.nv_mig]; rfl) ?_)
    refine lwp_bind' (lwp_check (by rw [hp.ov_mig]; rfl) ?_)
    refine lwp_bind' (lwp_len ?_)
    refine lwp_bind' (lwp_mono (probe_lwp h hp n) ?_)
    rintro p c ⟨d, V, rfl, hV, hc⟩
    simp only
    by_cases he : nv = V
    · rw [if_pos he]
      rcases hc with ⟨rfl, -⟩ | ⟨-, hne, -, -⟩
      · exact lwp_pure ⟨hV, rfl⟩
      · exact absurd he hne
    · rw [if_neg he]
      refine lwp_bind' ?_
      rw [wantNewTable, if_neg hV.ne_init, hV.mig]
      refine lwp_pure ?_
      rw [if_neg (by decide)]
      refine lwp_bind' (lwp_mono (update_lwp h hp n hV ?_) ?_)
      · rcases hc with ⟨rfl, hc⟩ | ⟨rfl, -, hm, hc⟩
        · exact .inl ⟨rfl, hc.resolve_left he⟩
        · exact .inr ⟨rfl, hm, hc⟩
      · rintro u c' ⟨V', rfl, hV', rfl⟩
        exact lwp_pure ⟨hV', rfl⟩

/-- 937-944: the value handed to the caller. -/
def backWord (V : Word) : Word := if V = VTOMBSTONE then VINITIAL else V

theorem mapPutIfMatch_lwp (h : D.OK hash) (hp : PutLike D op k cf nv ov fin early) (n : Nat) :
    lwp D op (fun w c => ∃ V, w = backWord V ∧ D.Value k V ∧ c = some (fin V)) (mapPutIfMatch hash n cf k nv ov) none := by
  refine lwp_bind' (lwp_check (by simpa using hp.nv_init) ?_)
  refine lwp_bind' (lwp_check (by simpa using hp.ov_init) ?_)
  refine lwp_bind' (lwp_getRoot ?_)
  refine lwp_bind' (lwp_mono (putIfMatch_lwp h hp n) ?_)
  rintro V c ⟨hV, rfl⟩
  exact lwp_bind' (lwp_check (by rw [hV.mig]; rfl) (lwp_pure ⟨V, rfl, hV, rfl⟩))

end PMap
