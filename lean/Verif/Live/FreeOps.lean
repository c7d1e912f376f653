import Verif.Live.Free

/-!
# The calls of the map while the table does not grow (proof machinery)
-/

namespace PMap

open Prog

variable {α β σ : Type} {r L B : Nat} {m m' : Mem} {rs b : Bool} {N : Nat}

/-! ## Reading and probing -/

theorem q_pcasReadKey (t i : Nat) : qbnd r L (fun _ => True) (pcasRead (.key t i)) 4 := by
  refine qbnd_bind' (N2 := 3) (qbnd_do1 trivial) (fun w _ => ?_) (le_refl _)
  split
  · refine qbnd_bind' (N1 := 3) (N2 := 0) (R := fun _ => True) ?_ (fun _ _ => trivial) (le_refl _)
    refine qbnd_bind' (N2 := 2) (qbnd_do1 trivial) (fun _ _ => ?_) (le_refl _)
    refine qbnd_bind' (N2 := 1) (qbnd_do1 trivial) (fun _ _ => ?_) (le_refl _)
    exact qbnd_bind' (N2 := 0) (qbnd_do1 trivial) (fun _ _ => trivial) (le_refl _)
  · exact trivial

theorem q_pcasReadVal (i : Nat) : qbnd r L (fun w => isMig w = false) (pcasRead (.val r i)) 4 := by
  refine qbnd_bind' (N2 := 3) (qbnd_do1 trivial) (fun w hw => ?_) (le_refl _)
  have hw : isMig (clean w) = false := by rw [isMig_clean]; exact hw rfl
  split
  · refine qbnd_bind' (N1 := 3) (N2 := 0) (R := fun _ => True) ?_ (fun _ _ => hw) (le_refl _)
    refine qbnd_bind' (N2 := 2) (qbnd_do1 trivial) (fun _ _ => ?_) (le_refl _)
    refine qbnd_bind' (N2 := 1) (qbnd_do1 trivial) (fun _ _ => ?_) (le_refl _)
    exact qbnd_bind' (N2 := 0) (qbnd_do1 rfl) (fun _ _ => trivial) (le_refl _)
  · exact hw

theorem q_casKey (t i : Nat) (o w : Word) : qbnd r L (fun _ => True) (casKey t i o w) 6 := by
  refine qbnd_bind' (N1 := 6) (N2 := 0) (R := fun _ => True) ?_ (fun _ _ => trivial) (le_refl _)
  refine qbnd_bind' (N2 := 2) (q_pcasReadKey t i) (fun _ _ => ?_) (le_refl _)
  refine qbnd_bind' (N2 := 1) (qbnd_do1 trivial) (fun _ _ => ?_) (le_refl _)
  exact qbnd_bind' (N2 := 0) (qbnd_do1 trivial) (fun _ _ => trivial) (le_refl _)

theorem q_adjust (t : Nat) (V nv ov : Word) : qbnd r L (fun _ => True) (adjustSize t V nv ov) 1 := by
  unfold adjustSize
  split
  · split
    · exact qbnd_do1 trivial
    · split
      · exact qbnd_do1 trivial
      · exact trivial
  · exact trivial

theorem q_want (t d len : Nat) {V : Word} : qbnd r L (fun _ => True) (wantNewTable t d len V) 1 := by
  unfold wantNewTable
  split
  · refine qbnd_bind' (N1 := 1) (N2 := 0) (R := fun _ => True) ?_ (fun _ _ => trivial) (le_refl _)
    unfold tableFull
    split
    · exact qbnd_bind' (N2 := 0) (qbnd_do1 trivial) (fun _ _ => trivial) (le_refl _)
    · exact trivial
  · exact trivial

/-- The value found by the probe loop is unmarked. -/
def Probe.plain : Probe → Prop
  | .slot _ _ V => isMig V = false
  | _ => True

theorem q_probeMatch (k : Word) (len i d : Nat) (K : Word) {V : Word} (hV : isMig V = false) (N : Nat) :
    qbnd r L (fun c => match c with | .next y => left len y < left len (i, d) | .done p => p.plain) (probeMatch k len i d K V) N := by
  unfold probeMatch
  split
  · exact hV
  · split
    · exact trivial
    · next h =>
      rw [not_or] at h
      change reprobeLimit len - (d + 1) - 1 < reprobeLimit len - d - 1
      omega

theorem q_probe (hash : Word → Word) (k nv : Word) (len n : Nat) :
    qbnd r L Probe.plain (loop n (probeBody r k nv len) (homePut hash k len, 0)) (15 * reprobeLimit len) := by
  have h0 : 0 < reprobeLimit len := by unfold reprobeLimit REPROBE_LIMIT; omega
  refine qbnd_mono (qbnd_loop (C := 15) (left len) ?_ n _) ?_
  · rintro ⟨i, d⟩
    refine qbnd_bind' (N2 := 11) (q_pcasReadKey _ _) (fun K _ => ?_) (le_refl _)
    refine qbnd_bind' (N2 := 7) (q_pcasReadVal _) (fun V hV => ?_) (le_refl _)
    split
    · split
      · exact trivial
      · refine qbnd_bind' (N2 := 1) (q_casKey _ _ _ _) (fun a _ => ?_) (le_refl _)
        split
        · exact qbnd_bind' (N2 := 0) (qbnd_do1 trivial) (fun _ _ => hV) (le_refl _)
        · exact qbnd_weaken (q_probeMatch _ _ _ _ _ hV _) (by rintro (_ | _) h <;> exact h)
    · exact qbnd_weaken (q_probeMatch _ _ _ _ _ hV _) (by rintro (_ | _) h <;> exact h)
  · change (reprobeLimit len - 0 - 1 + 1) * 15 ≤ _
    omega

/-- The probe loop of `get` neither copies nor follows a successor. -/
def GProbe.plain : GProbe → Prop
  | .returned _ => True
  | _ => False

theorem q_gprobe (hash : Word → Word) (k : Word) (len n : Nat) :
    qbnd r L GProbe.plain (loop n (getProbeBody r k len) (homeGet hash k len, 0)) (9 * reprobeLimit len) := by
  have h0 : 0 < reprobeLimit len := by unfold reprobeLimit REPROBE_LIMIT; omega
  refine qbnd_mono (qbnd_loop (C := 9) (left len) ?_ n _) ?_
  · rintro ⟨i, d⟩
    refine qbnd_bind' (N2 := 5) (q_pcasReadKey _ _) (fun K _ => ?_) (le_refl _)
    refine qbnd_bind' (N2 := 1) (q_pcasReadVal _) (fun V hV => ?_) (le_refl _)
    split
    · exact trivial
    · refine qbnd_bind' (N2 := 0) (qbnd_do1 trivial) (fun nt hnt => ?_) (le_refl _)
      have hnt : nt = none := hnt rfl
      subst hnt
      split
      · rw [hV]; exact trivial
      · split
        · exact trivial
        · next h =>
          rw [not_or] at h
          change reprobeLimit len - (d + 1) - 1 < reprobeLimit len - d - 1
          omega
  · change (reprobeLimit len - 0 - 1 + 1) * 9 ≤ _
    omega

theorem q_getImpl (hash : Word → Word) (n : Nat) (k : Word) : qbnd r L (fun _ => True) (getImpl hash n r k) (9 * reprobeLimit L + 1) := by
  cases n with
  | zero => rfl
  | succ n =>
    refine qbnd_bind' (N2 := 9 * reprobeLimit L) (qbnd_do1 trivial) (fun len hl => ?_) (by omega)
    have hl : len = L := hl rfl
    subst hl
    refine qbnd_bind' (N2 := 0) (q_gprobe hash k len n) ?_ (le_refl _)
    rintro (v | i | nt) h
    · exact trivial
    · exact h.elim
    · exact h.elim

theorem q_mapGet (hash : Word → Word) (n : Nat) (k : Word) : qbnd r L (fun _ => True) (mapGet hash n k) (9 * reprobeLimit L + 3) := by
  refine qbnd_bind' (N2 := 9 * reprobeLimit L + 2) (qbnd_do1 trivial) (fun t ht => ?_) (by omega)
  cases ht
  refine qbnd_bind' (N2 := 1) (q_getImpl hash n k) (fun v _ => ?_) (le_refl _)
  exact qbnd_bind' (N2 := 0) (qbnd_do1 trivial) (fun _ _ => trivial) (le_refl _)

/-! ## Growing -/

theorem fwp_resize {Q : Nat → Bool → Nat → World → Prop} {w : World} (h1 : 6 ≤ N) (hB : N ≤ B) :
    fwp r L B true Q (resize r) b N w := by
  refine fwp_act trivial (fun w1 x m2 N1 _ _ _ hs _ h1 => ?_) (by omega) hB
  have hs : x = none := hs rfl
  subst hs
  have a1 := h1.atleast hB
  refine fwp_act trivial (fun w2 len m3 N2 _ _ _ _ _ h2 => ?_) (by omega) h1.le
  have a2 := h2.atleast h1.le
  refine fwp_act trivial (fun w3 sz m4 N3 _ _ _ _ _ h3 => ?_) (by omega) h2.le
  have a3 := h3.atleast h2.le
  refine fwp_act trivial (fun w4 x m5 N4 _ _ _ hs _ h4 => ?_) (by omega) h3.le
  have hs : x = none := hs rfl
  subst hs
  have a4 := h4.atleast h3.le
  refine fwp_act trivial (fun w5 x m6 N5 _ _ _ _ _ h5 => ?_) (by omega) h4.le
  have a5 := h5.atleast h4.le
  cases x with
  | none => exact .inl rfl
  | some nt =>
    intro w6 hc he ok m7 hx
    have hr := refill_le (rs := true) h5.le (g := w5.g) (g' := w6.g)
    refine ⟨?_, .inl ?_⟩
    · change 0 < refill true B N5 w5.g w6.g
      omega
    · simp only [Act.exec, if_pos hc.lt, if_pos hc.newT, Option.some.injEq, Prod.mk.injEq] at hx
      obtain ⟨-, rfl⟩ := hx
      simp [upd]

/-! ## Writing -/

/-- Reading a value: unless somebody writes it meanwhile, it is not dirty afterwards. -/
theorem fwp_read {Q : β → Bool → Nat → World → Prop} {i : Nat} {f : Word → Prog β} {w : World}
    (hf : ∀ x w' N', isMig x = false → Spent r L B rs 4 N w N' w' → (w'.g = w.g → isDirty (w'.m.word (.val r i)) = false) →
      fwp r L B rs Q (f x) b N' w') (h4 : 4 ≤ N) (hB : N ≤ B) : fwp r L B rs Q (pcasRead (.val r i) >>= f) b N w := by
  refine fwp_act (a := .load (.val r i)) trivial (fun w1 W m2 N1 hc1 _ hx hs hd1 h1 => ?_) (by omega) hB
  have a1 := h1.atleast hB
  have hmig : isMig (clean W) = false := by rw [isMig_clean]; exact hs rfl
  simp only [Act.exec] at hx
  split at hx
  case isFalse => cases hx
  next hb =>
  have hi : i < L := by have := hb.2; simp only [Addr.idx, Addr.tab] at this; rwa [hc1.len] at this
  simp only [Option.some.injEq, Prod.mk.injEq] at hx
  obtain ⟨rfl, rfl⟩ := hx
  generalize hW : w1.m.word (.val r i) = W at *
  change fwp r L B rs Q ((if isDirty W = true then _ else _ : Prog Word).bind f) b N1 ⟨w1.m, w1.g⟩
  by_cases hd : isDirty W = true
  · rw [if_pos hd]
    refine fwp_act (a := .flush (.val r i)) trivial (fun w2 _ m3 N2 _ hd2 _ _ hd2' h2 => ?_) (by omega) h1.le
    have a2 := h2.atleast h1.le
    refine fwp_act (a := .fence) trivial (fun w3 _ m4 N3 _ hd3 _ _ hd3' h3 => ?_) (by omega) h2.le
    have a3 := h3.atleast h2.le
    refine fwp_act (a := .cas (.val r i) W (clearMark W DirtyFlag)) rfl (fun w4 x m5 N4 _ hd4 hx _ hd4' h4 => ?_) (by omega) h3.le
    refine hf (clean W) _ N4 hmig ((((h1.trans h2 hB).trans h3 hB).trans h4 hB)) fun hg => ?_
    simp only [Act.exec] at hx
    split at hx
    case isFalse => cases hx
    have hdr : Drift r L ⟨w1.m, w1.g⟩ w4 := hd2.trans (hd2'.trans (hd3.trans (hd3'.trans hd4)))
    have hg1 : w1.g = w4.g := by
      have a := h1.drift.le
      have c := hdr.le
      simp only at hg a c
      omega
    have hv := hdr.val hg1 i hi
    simp only [hW] at hv
    split at hx
    · simp only [Option.some.injEq, Prod.mk.injEq] at hx
      obtain ⟨-, rfl⟩ := hx
      simp only [setWord, if_true]
      exact isDirty_clean W
    · next hne =>
      simp only [Option.some.injEq, Prod.mk.injEq] at hx
      obtain ⟨-, rfl⟩ := hx
      rcases hv with hv | hv
      · exact absurd hv hne
      · simp only [hv]; exact isDirty_clean W
  · rw [if_neg hd]
    refine hf (clean W) _ N1 hmig (h1.more (by omega)) fun _ => ?_
    simp only [hW]
    simpa using hd

/-- The update loop: `V` is the value of the slot if `fresh`, or was at some time. -/
theorem fwp_update {cf : CasFn} {i : Nat} {nv ov : Word} (hnv : isMig nv = false) {E : Nat} (hE : 44 + E ≤ B) (n : Nat) :
    ∀ (V : Word) (N : Nat) (fresh : Bool) (w : World), isMig V = false → N ≤ B →
    (fresh = true → clean (w.m.word (.val r i)) = clean V) →
    (if fresh = true then (if isDirty V then 22 else 11) else 33) + E ≤ N →
    fwp r L B true (fun u _ N _ => match u with | .returned _ => E ≤ N ∧ N ≤ B | .migrated => False)
      (loop n (updateBody cf r i nv ov) V) true N w := by
  induction n with
  | zero => intros; exact .inl rfl
  | succ n ih =>
    intro V N fresh w hV hB hfresh hN
    have hN11 : 11 + E ≤ N := by revert hN; split <;> (try split) <;> omega
    refine fwp_act (a := .check (!isMig V)) trivial (fun w1 _ m2 N1 _ hd1 _ _ hd1' h1 => ?_) (by omega) hB
    have a1 := h1.atleast hB
    refine fwp_bind ?_
    change fwp r L B true _ (if mismatch V ov = true then _ else _ : Prog (Ctl Word Upd)) _ _ _
    by_cases hmm : mismatch V ov = true
    · rw [if_pos hmm]; exact ⟨by omega, h1.le⟩
    · rw [if_neg hmm]
      obtain ⟨nv', hnv', hcall⟩ : ∃ nv', isMig nv' = false ∧ cf.call r i V nv = (do let x ← pcas (.val r i) V nv'; return x.2) := by
        cases cf
        · exact ⟨nv, hnv, rfl⟩
        · exact ⟨incremented V, isMig_incremented V, rfl⟩
      rw [hcall]
      refine fwp_bind' (fwp_bind' ?_)
      refine fwp_read (fun _ w2 N2 _ h2 hclean => ?_) (by omega) h1.le
      have a2 := h2.atleast h1.le
      -- the CAS
      intro w3 hc3 hd3 x m3 hx
      have h12 := h1.trans h2 hB
      have hr := refill_le (rs := true) h2.le (g := w2.g) (g' := w3.g)
      have hr' := refill_le' (rs := true) h2.le (g := w2.g) (g' := w3.g)
      refine ⟨by omega, .inr ?_⟩
      simp only [Act.exec] at hx
      split at hx
      case isFalse => cases hx
      next hb =>
      have hi : i < L := by have := hb.2; simp only [Addr.idx, Addr.tab] at this; rwa [hc3.len] at this
      split at hx
      · -- it succeeds
        next hw =>
        simp only [Option.some.injEq, Prod.mk.injEq] at hx
        obtain ⟨rfl, rfl⟩ := hx
        have hwr : (Act.cas (.val r i) V (dirty nv')).writes w3.m = true := by simp [Act.writes, isDirty_dirty, hw]
        rw [hwr]
        refine ⟨⟨hc3.root, hc3.lt, hc3.len, hc3.newT, fun j hj => ?_⟩, fun _ => rfl, ⟨by simp, fun h => by simp at h⟩, ?_⟩
        · simp only [setWord]
          split
          · rw [isMig_dirty]; exact hnv'
          · exact hc3.mig j hj
        · refine fwp_act (a := .check _) trivial (fun w4 _ m5 N4 _ _ _ _ _ h4 => ?_) (by omega) (by omega)
          have a4 := h4.atleast (by omega)
          change fwp r L B true _ (if V = V then _ else _ : Prog (Ctl Word Upd)) _ _ _
          rw [if_pos rfl]
          refine fwp_q' (q_adjust r V nv ov) (fun _ w5 N5 _ h5 => ?_) (by omega) h4.le
          have a5 := h5.atleast h4.le
          exact ⟨by omega, h5.le⟩
      · -- it fails
        next hw =>
        simp only [Option.some.injEq, Prod.mk.injEq] at hx
        obtain ⟨rfl, rfl⟩ := hx
        have hwr : (Act.cas (.val r i) V (dirty nv')).writes w3.m = false := by simp [Act.writes, hw]
        rw [hwr]
        have h3 : Spent r L B true 1 N2 w2 (refill true B N2 w2.g w3.g - 1) ⟨w3.m, w3.g⟩ :=
          ⟨hd3, by simp only; omega, by omega⟩
        have h13 := h12.trans h3 hB
        refine ⟨hc3, by simp, Drift.refl _, ?_⟩
        refine fwp_act (a := .check _) trivial (fun w4 _ m5 N4 _ hd4 _ _ hd4' h4 => ?_) (by omega) h3.le
        have a3 := h3.atleast h2.le
        have a4 := h4.atleast h3.le
        change fwp r L B true _ (if w3.m.word (.val r i) = V then _ else _ : Prog (Ctl Word Upd)) _ _ _
        rw [if_neg hw]
        refine fwp_q' (q_pcasReadVal i) (fun V' w5 N5 hV' h5 => ?_) (by omega) h4.le
        change fwp r L B true _ (if isMig V' = true then _ else _ : Prog (Ctl Word Upd)) _ _ _
        rw [hV', if_neg (by simp)]
        have hall := (h13.trans h4 hB).trans h5 hB
        have hmig3 := hc3.mig i hi
        have hdr : Drift r L w3 w5 := hd4.trans (hd4'.trans h5.drift)
        refine ih (w3.m.word (.val r i)) N5 (decide (w3.g = w5.g)) w5 hmig3 h5.le (fun e => ?_) ?_
        · rcases hdr.val (by simpa using e) i hi with e' | e' <;> rw [e']
          exact clean_clean _
        · have hf := hall.fill
          have hle0 : w.g ≤ w3.g := h13.drift.le
          have hle1 := hdr.le
          simp only [decide_eq_true_eq]
          by_cases e5 : w3.g = w5.g
          · rw [if_pos e5]
            by_cases e0 : w.g = w5.g
            · -- nobody wrote
              rw [refill, if_neg (by simp [e0])] at hf
              have hle2 := h1.drift.le
              have hle3 := h2.drift.le
              have hle4 := hd3.le
              simp only at hle2 hle3
              have hnd : isDirty (w3.m.word (.val r i)) = false := by
                have hc2 := hclean (by simp only; omega)
                rcases hd3.val (by omega) i hi with e' | e' <;> rw [e']
                · exact hc2
                · exact isDirty_clean _
              rw [hnd, if_neg (by simp)]
              by_cases hgg : fresh = true
              · rw [if_pos hgg] at hN
                by_cases hVd : isDirty V = true
                · rw [if_pos hVd] at hN; omega
                · exfalso
                  apply hw
                  have hsame : clean (w3.m.word (.val r i)) = clean V := by
                    rw [← hfresh hgg]
                    rcases h13.drift.val (by simp only; omega) i hi with e' | e' <;> change w3.m.word (.val r i) = _ at e' <;> rw [e']
                    exact clean_clean _
                  rw [clean_of_not_dirty hnd, clean_of_not_dirty (by simpa using hVd)] at hsame
                  exact hsame
              · rw [if_neg hgg] at hN; omega
            · rw [refill, if_pos ⟨rfl, e0⟩] at hf
              split <;> omega
          · rw [if_neg e5]
            rw [refill, if_pos ⟨rfl, by omega⟩] at hf
            omega

/-- A budget for a call while the table does not grow (no code of its own). -/
def freeBound (L : Nat) : Nat := 15 * reprobeLimit L + 60

theorem fwp_putIfMatch {hash : Word → Word} {n : Nat} {cf : CasFn} {k nv ov : Word} {w : World} {E : Nat} (hnv : isMig nv = false)
    (hE : 44 + E ≤ B) (hN : 15 * reprobeLimit L + 38 + E ≤ N) (hB : N ≤ B) :
    fwp r L B true (fun _ _ N _ => E ≤ N ∧ N ≤ B) (putIfMatch hash n cf r k nv ov) true N w := by
  cases n with
  | zero => exact .inl rfl
  | succ n =>
    refine fwp_act trivial (fun _ _ _ N1 _ _ _ _ _ h1 => ?_) (by omega) hB
    have a1 := h1.atleast hB
    refine fwp_act trivial (fun _ _ _ N2 _ _ _ _ _ h2 => ?_) (by omega) h1.le
    have a2 := h2.atleast h1.le
    refine fwp_act trivial (fun _ _ _ N3 _ _ _ _ _ h3 => ?_) (by omega) h2.le
    have a3 := h3.atleast h2.le
    refine fwp_act trivial (fun _ len _ N4 _ _ _ hl _ h4 => ?_) (by omega) h3.le
    have a4 := h4.atleast h3.le
    have hl : len = L := hl rfl
    subst hl
    refine fwp_q' (q_probe hash k nv len n) (fun p w5 N5 hp h5 => ?_) (by omega) h4.le
    have a5 := h5.atleast h4.le
    cases p with
    | returned v => exact ⟨by omega, h5.le⟩
    | full => exact fwp_bind' (fwp_resize (by omega) h5.le)
    | slot i d V =>
      change fwp r len B true _ (if nv = V then _ else _) _ _ _
      split
      · exact ⟨by omega, h5.le⟩
      · refine fwp_q' (q_want r d len) (fun c w6 N6 _ h6 => ?_) (by omega) h5.le
        have a6 := h6.atleast h5.le
        cases c with
        | true => exact fwp_bind' (fwp_resize (by omega) h6.le)
        | false =>
          refine fwp_bind' (fwp_post ?_ (fwp_update (cf := cf) (i := i) (nv := nv) (ov := ov) hnv hE n V N6 false w6 hp h6.le (by simp)
            (by simp; omega)))
          rintro (v | _) b N w h
          · exact h
          · exact h.elim

theorem fwp_mapPutIfMatch {hash : Word → Word} {n : Nat} {cf : CasFn} {k nv ov : Word} {w : World} (hnv : isMig nv = false)
    (hB : 15 * reprobeLimit L + 45 ≤ B) :
    fwp r L B true (fun _ _ _ _ => True) (mapPutIfMatch hash n cf k nv ov) true B w := by
  refine fwp_act trivial (fun _ _ _ N1 _ _ _ _ _ h1 => ?_) (by omega) (le_refl _)
  have a1 := h1.atleast (le_refl _)
  refine fwp_act trivial (fun _ _ _ N2 _ _ _ _ _ h2 => ?_) (by omega) h1.le
  have a2 := h2.atleast h1.le
  refine fwp_act trivial (fun _ x _ N3 _ _ _ hx _ h3 => ?_) (by omega) h2.le
  have a3 := h3.atleast h2.le
  cases hx
  refine fwp_bind' (fwp_post ?_ (fwp_putIfMatch (E := 1) hnv (by omega) (by omega) h3.le))
  intro v b N w h
  exact fwp_act trivial (fun _ _ _ N4 _ _ _ _ _ h4 => trivial) (by omega) h.2

/-- Calls that do not write (no code of its own). -/
def Op.reads : Op → Bool
  | .get _ => true
  | .containsKey _ => true
  | .size => true
  | .isEmpty => true
  | _ => false

/-- Every call is within its budget, which others can only fill up for a call that writes. -/
theorem fwp_op {hash : Word → Word} {n : Nat} {op : Op} (hv : op.Valid) {w : World} :
    fwp r L (freeBound L) (!op.reads) (fun _ _ _ _ => True) (op.prog hash n) true (freeBound L) w := by
  have hB : 15 * reprobeLimit L + 45 ≤ freeBound L := by unfold freeBound; omega
  have hB' : 9 * reprobeLimit L + 3 ≤ freeBound L := by unfold freeBound; omega
  have ht : isMig VTOMBSTONE = false := by decide
  cases op with
  | get k => exact fwp_q' (q_mapGet hash n k) (fun _ _ _ _ _ => trivial) hB' (le_refl _)
  | containsKey k => exact fwp_bind' (fwp_q' (q_mapGet hash n k) (fun _ _ _ _ _ => trivial) hB' (le_refl _))
  | put k v => exact fwp_bind' (fwp_post (fun _ _ _ _ _ => trivial) (fwp_mapPutIfMatch hv.2.2.1 hB))
  | putIfAbsent k v => exact fwp_bind' (fwp_post (fun _ _ _ _ _ => trivial) (fwp_mapPutIfMatch hv.2.2.1 hB))
  | remove k => exact fwp_bind' (fwp_bind' (fwp_post (fun _ _ _ _ _ => trivial) (fwp_mapPutIfMatch ht hB)))
  | removeIf k v => exact fwp_bind' (fwp_bind' (fwp_post (fun _ _ _ _ _ => trivial) (fwp_mapPutIfMatch ht hB)))
  | replace k o v => exact fwp_bind' (fwp_bind' (fwp_post (fun _ _ _ _ _ => trivial) (fwp_mapPutIfMatch hv.2.2.2.1 hB)))
  | putIfMatch k v o => exact fwp_bind' (fwp_post (fun _ _ _ _ _ => trivial) (fwp_mapPutIfMatch hv.2.1.2.1 hB))
  | update k v =>
    have hm : isMig v = false := by
      rcases hv.2 with h | h
      · exact h.2.1
      · rw [h]; decide
    exact fwp_bind' (fwp_post (fun _ _ _ _ _ => trivial) (fwp_mapPutIfMatch hm hB))
  | size =>
    refine fwp_bind' (fwp_act trivial (fun _ _ _ N1 _ _ _ _ _ h1 => ?_) (by omega) (le_refl _))
    have a1 := h1.atleast (le_refl _)
    exact fwp_act (f := .ret) trivial (fun _ _ _ N1 _ _ _ _ _ h1 => trivial) (by omega) h1.le
  | isEmpty =>
    refine fwp_bind' (fwp_bind' (fwp_act trivial (fun _ _ _ N1 _ _ _ _ _ h1 => ?_) (by omega) (le_refl _)))
    have a1 := h1.atleast (le_refl _)
    exact fwp_act (f := .ret) trivial (fun _ _ _ N1 _ _ _ _ _ h1 => trivial) (by omega) h1.le

end PMap
