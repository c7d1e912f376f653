import Verif.KCAS.Seq

/-! # Operations of `pmwcas.hpp` one after another (helper lemmas) -/

namespace PMap.KCAS

variable {tb : Nat} {Z : Foot}

/-! ## Sorting -/

theorem sort_perm (ws : List Entry) : (sortWords ws).Perm ws := List.perm_insertionSort _ ws

theorem sort_sorted (ws : List Entry) : (sortWords ws).Pairwise (fun a b => a.off ≤ b.off) := by
  have : Std.Total (fun a b : Entry => a.off ≤ b.off) := ⟨fun a b => BitVec.le_total a.off b.off⟩
  have : IsTrans Entry (fun a b : Entry => a.off ≤ b.off) := ⟨fun a b c h1 h2 => BitVec.le_trans h1 h2⟩
  exact List.pairwise_insertionSort _ ws

theorem ascending_of (ws : List Entry) (hs : ws.Pairwise (fun a b => a.off ≤ b.off)) (hn : (ws.map Entry.off).Nodup) :
    ascending ws = true := by
  induction ws with
  | nil => rfl
  | cons a l ih =>
    cases l with
    | nil => rfl
    | cons b l =>
      rw [List.map_cons, List.nodup_cons] at hn
      rw [List.pairwise_cons] at hs
      unfold ascending
      rw [ih hs.2 hn.2, Bool.and_true, decide_eq_true_iff]
      have hle := hs.1 b (by simp)
      have hne : a.off ≠ b.off := by intro h; apply hn.1; rw [h]; simp
      have h1 : a.off.toNat ≤ b.off.toNat := hle
      have h2 : a.off.toNat ≠ b.off.toNat := fun h => hne (BitVec.eq_of_toNat_eq h)
      show a.off.toNat < b.off.toNat
      omega

theorem sort_nodup {ws : List Entry} (hn : (ws.map Entry.off).Nodup) : ((sortWords ws).map Entry.off).Nodup :=
  ((sort_perm ws).map Entry.off).nodup_iff.2 hn

theorem sort_length (ws : List Entry) : (sortWords ws).length = ws.length := (sort_perm ws).length_eq

/-! ## Making the descriptor -/

/-- Fields of the words of a multi-word descriptor. -/
def KWordField (t : Word) (i : Nat) (f : Fld) : Prop :=
  ∃ j, i ≤ j ∧ (f = .koff t j ∨ f = .kold t j ∨ f = .knew t j)

theorem W.writeWords (t : Word) (hoT : Own Z t) (es : List Entry) (i : Nat) (v : V) {Q : Unit → V → Prop}
    (h : ∀ v', v'.mem = v.mem → v'.failed = v.failed → (∀ f, ¬ KWordField t i f → v'.fld f = v.fld f) →
      (∀ j (hj : j < es.length), v'.fld (.koff t (i + j)) = es[j].off ∧ v'.fld (.kold t (i + j)) = es[j].old
        ∧ v'.fld (.knew t (i + j)) = es[j].new) → Q () v') : W Z (writeWords t i es) Q v := by
  induction es generalizing i v with
  | nil =>
    apply W.ret
    exact h v rfl rfl (fun _ _ => rfl) (by intro j hj; exact absurd hj (by simp))
  | cons e es ih =>
    unfold KCAS.writeWords
    apply W.bind; refine W.wr (by foot) ?_
    apply W.bind; refine W.wr (by foot) ?_
    apply W.bind; refine W.wr (by foot) ?_
    apply ih
    intro v' hm hf hfr hen
    have hk : ∀ f, ¬ KWordField t (i + 1) f → v'.fld f = if f = .knew t i then e.new else if f = .kold t i then e.old else
        if f = .koff t i then e.off else v.fld f := hfr
    apply h
    · exact hm
    · exact hf
    · intro f hn
      have hn' : ¬ KWordField t (i + 1) f := by
        rintro ⟨j, hj, hje⟩; exact hn ⟨j, by omega, hje⟩
      rw [hk f hn', if_neg, if_neg, if_neg]
      · intro e; exact hn ⟨i, le_refl _, Or.inl e⟩
      · intro e; exact hn ⟨i, le_refl _, Or.inr (Or.inl e)⟩
      · intro e; exact hn ⟨i, le_refl _, Or.inr (Or.inr e)⟩
    · intro j hj
      cases j with
      | zero =>
        have hnk : ∀ f, (f = .koff t i ∨ f = .kold t i ∨ f = .knew t i) → ¬ KWordField t (i + 1) f := by
          rintro f hf ⟨j, hj, hje⟩
          rcases hf with rfl | rfl | rfl <;> rcases hje with h | h | h <;> cases h <;> omega
        rw [Nat.add_zero, hk _ (hnk _ (Or.inl rfl)), hk _ (hnk _ (Or.inr (Or.inl rfl))), hk _ (hnk _ (Or.inr (Or.inr rfl)))]
        simp
      | succ j =>
        have := hen j (by simpa using hj)
        rw [show i + (j + 1) = i + 1 + j by omega]
        simpa using this

/-- Sequence number in the state of a multi-word descriptor, as the code reads it. -/
def kseqOf (v : V) (t : Word) : Nat := (KMut.unpack (v.mem (.kmut t))).seq.toNat
/-- Sequence number in the state of a single-word descriptor. -/
def wseqOf (v : V) (t : Word) : Nat := (WMut.unpack (v.mem (.wmut t))).seq.toNat

theorem clean_wmut {w : Word} (h : cl w = w) : w = WMut.pack ⟨false, (WMut.unpack w).seq⟩ := by
  have h1 := WMut.pack_unpack w
  have h2 := (WMut.unpack_fields w).2
  have h3 := (cl_eq_iff w).1 h
  have hd : (WMut.unpack w).dirty = false := by rw [h2]; simp [h3]
  conv_lhs => rw [← h1]
  rw [← hd]

theorem W.createKCAS (hb : tb ≤ 61) {t : Word} (ht : t.toNat < 2 ^ tb) (hoT : Own Z t) {ws : List Entry} {v : V}
    (hcl : ∀ l, cl (v.mem l) = v.mem l) (h0 : ws ≠ []) (hn : (ws.map Entry.off).Nodup) (hk : kseqOf v t + 2 < 2 ^ seqSize tb)
    {Q : Ref → V → Prop}
    (h : ∀ v' (d : Ref), d.Fits tb → KRef d → d.tid = t → d.seq.toNat = kseqOf v t + 2 →
      PI t d (sortWords ws) v.mem v.failed (fun o => v.mem (.arr o)) Status.undecided.word (WMut.unpack (v.mem (.wmut t))).seq v' →
      Q d v') :
    W Z (createKCAS tb t ws) Q v := by
  have hs := seqSize_le hb
  unfold kseqOf at hk h
  unfold KCAS.createKCAS
  apply W.bind; refine W.pcasRead (by foot) ?_
  generalize hq : (KMut.unpack (v.mem (.kmut t))).seq = q at hk h
  have e1 := add1_toNat q (by omega)
  have e2 := add1_toNat (q + 1#64) (by omega)
  have l1 : low 61 (q + 1#64) = q + 1#64 := low_id _ (by decide) _ (by omega)
  have l2 : low 61 (q + 1#64 + 1#64) = q + 1#64 + 1#64 := low_id _ (by decide) _ (by omega)
  have l3 : low (seqSize tb) (q + 1#64 + 1#64) = q + 1#64 + 1#64 := low_id _ (by unfold seqSize; omega) _ (by omega)
  have l4 : low tb t = t := low_id _ (by omega) _ ht
  simp only [hq, l1, l2, l3, l4]
  apply W.bind; refine W.st (by foot) ?_
  rw [cl_kmut _ _ _ (by decide) (by omega)]
  apply W.bind; refine W.persist (by foot) ?_
  apply W.bind
  apply W.check
  · rw [ascending_of _ (sort_sorted ws) (sort_nodup hn), Bool.true_and, decide_eq_true_iff]
    exact List.length_pos_iff.2 h0
  apply W.bind; refine W.wr (by foot) ?_
  apply W.bind
  apply W.writeWords t hoT
  intro v1 hm hf hfr hen
  apply W.bind; refine W.st (by foot) ?_
  rw [cl_kmut _ _ _ (by decide) (by omega)]
  apply W.bind; refine W.persist (by foot) ?_
  apply W.ret
  refine h _ _ ⟨ht, by show (q + 1#64 + 1#64).toNat < _; omega⟩ ⟨rfl, rfl, rfl⟩ rfl (by show (q + 1#64 + 1#64).toNat = _; omega) ?_
  refine ⟨?_, ?_, ?_, hf⟩
  · show (fun l' => if l' = .kmut t then _ else v1.mem l') = _
    rw [hm]
    funext l
    cases l with
    | arr o => simp [memOf, V.put, V.set]
    | kmut x =>
      simp only [memOf, V.put, V.set, Loc.kmut.injEq]
      split
      · rfl
      · rfl
    | wmut x =>
      simp only [memOf, V.put, V.set]
      by_cases hx : x = t
      · subst hx; simp only [reduceCtorEq, if_false, if_true]; exact clean_wmut (hcl _)
      · simp [hx]
  · show v1.fld (.count t) = _
    rw [hfr _ (by rintro ⟨j, -, h | h | h⟩ <;> cases h), sort_length]
    simp [V.put, V.set]
  · intro j hj
    have := hen j hj
    rw [Nat.zero_add] at this
    exact this

/-! ## The operations -/

/-- A word whose three low bits are free (pmwcas.hpp:30). -/
def Plain (w : Word) : Prop := w.toNat % 8 = 0

instance (w : Word) : Decidable (Plain w) := by unfold Plain; infer_instance

theorem W.mwcas (hb : tb ≤ 61) {t : Word} (ht : t.toNat < 2 ^ tb) (hoT : Own Z t) {ws : List Entry} {v : V}
    (hZ : ∀ e ∈ ws, Z.L (.arr e.off)) (h0 : ws ≠ []) (hn : (ws.map Entry.off).Nodup) (hlen : ws.length < 2 ^ 64) (hk : kseqOf v t + 2 < 2 ^ seqSize tb)
    (hw : wseqOf v t + 2 * ws.length < 2 ^ seqSize tb) (hpl : ∀ e ∈ ws, Plain (v.mem (.arr e.off)))
    (hpv : ∀ e ∈ ws, Plain e.new) (n : Nat) (hfuel : ws.length < n) {Q : Bool → V → Prop}
    (h : ∀ (v' : V) (B : Word → Word), v'.failed = v.failed → (∀ o, v'.mem (.arr o) = B o) →
      (∀ x, x ≠ t → v'.mem (.kmut x) = v.mem (.kmut x) ∧ v'.mem (.wmut x) = v.mem (.wmut x)) →
      kseqOf v' t = kseqOf v t + 2 → wseqOf v' t ≤ wseqOf v t + 2 * ws.length →
      ((∀ e ∈ ws, v.mem (.arr e.off) = e.old) → (∀ e ∈ ws, B e.off = e.new) ∧ (∀ o, o ∉ ws.map Entry.off → B o = v.mem (.arr o))) →
      (¬ (∀ e ∈ ws, v.mem (.arr e.off) = e.old) → ∀ o, B o = v.mem (.arr o)) →
      Q (decide (∀ e ∈ ws, v.mem (.arr e.off) = e.old)) v') :
    W Z (mwcas tb (n + 1) t ws) Q v := by
  have hs := seqSize_le hb
  apply W.ofClean
  intro hcl
  unfold KCAS.mwcas
  apply W.bind
  apply W.createKCAS hb ht hoT hcl h0 hn hk
  intro v1 d hd hkr hdt hdq hp
  have hp' := hp
  have hperm := sort_perm ws
  have hmem : ∀ e, e ∈ sortWords ws ↔ e ∈ ws := fun e => hperm.mem_iff
  have hmo : ∀ o, o ∈ (sortWords ws).map Entry.off ↔ o ∈ ws.map Entry.off := fun o => (hperm.map Entry.off).mem_iff
  have hall : (∀ e ∈ sortWords ws, v.mem (.arr e.off) = e.old) ↔ (∀ e ∈ ws, v.mem (.arr e.off) = e.old) :=
    ⟨fun h e he => h e ((hmem e).2 he), fun h e he => h e ((hmem e).1 he)⟩
  have hfin : ∀ v' B st wq', PI t d (sortWords ws) v.mem v.failed B st wq' v' → st.toNat < 4 → wq'.toNat ≤ wseqOf v t + 2 * ws.length →
      v'.failed = v.failed ∧ (∀ o, v'.mem (.arr o) = B o) ∧
      (∀ x, x ≠ t → v'.mem (.kmut x) = v.mem (.kmut x) ∧ v'.mem (.wmut x) = v.mem (.wmut x)) ∧
      kseqOf v' t = kseqOf v t + 2 ∧ wseqOf v' t ≤ wseqOf v t + 2 * ws.length := by
    intro v' B st wq' hq hst hwq
    refine ⟨hq.fail, fun o => by rw [hq.mem]; rfl, ?_, ?_, ?_⟩
    · intro x hx
      rw [hq.mem, hdt]
      unfold memOf
      exact ⟨if_neg hx, if_neg hx⟩
    · unfold kseqOf
      rw [hq.mem, hdt, memOf_k, KMut.unpack_pack _ ⟨hst, show d.seq.toNat < 2 ^ 61 by have := hd.2; omega⟩]
      exact hdq
    · unfold wseqOf
      rw [hq.mem, memOf_w, WMut.unpack_pack ⟨false, wq'⟩ (show wq'.toNat < 2 ^ 63 by omega)]
      exact hwq
  refine W.pmwcas hb ht hoT (by rw [hdt]; exact hoT) hd hkr (fun e he => hZ e ((hmem e).1 he)) (by rw [sort_length]; exact hlen) (sort_nodup hn)
    (A := fun o => v.mem (.arr o)) (fun e he => hpl e ((hmem e).1 he)) (fun e he => hpv e ((hmem e).1 he)) (by rw [sort_length]; exact hw) n
    (by rw [sort_length]; exact hfuel) v1 hp ?_ ?_
  · rintro v' wq' ha hwq ⟨B, hq, hB1, hB2⟩
    have ha := hall.1 ha
    rw [sort_length] at hwq
    obtain ⟨f1, f2, f3, f4, f5⟩ := hfin v' B _ wq' hq (by decide) hwq
    have := h v' B f1 f2 f3 f4 f5 (fun _ => ⟨fun e he => hB1 e ((hmem e).2 he), fun o ho => hB2 o (fun hx => ho ((hmo o).1 hx))⟩)
      (fun hx => absurd ha hx)
    rwa [decide_eq_true ha] at this
  · intro v' wq' ha hwq hq
    have ha := fun hx => ha (hall.2 hx)
    rw [sort_length] at hwq
    obtain ⟨f1, f2, f3, f4, f5⟩ := hfin v' _ _ wq' hq (by decide) hwq
    have := h v' _ f1 f2 f3 f4 f5 (fun hx => absurd hx ha) (fun _ _ => rfl)
    rwa [decide_eq_false ha] at this

theorem W.ld {l : Loc} {Q : Word → V → Prop} {v : V} (hF : Z.L l) (h : ∀ w, cl w = v.mem l → Q w v) : W Z (step (.ld l)) Q v := by
  intro s hs
  refine ⟨_, _, .step (a := .ld l) hF, ?_⟩
  have := h (s.mem l) (by rw [← hs]; rfl)
  show Q (s.mem l) (view s)
  rw [hs]; exact this

theorem plain_and {w : Word} (h : Plain (cl w)) : w &&& RDCSSBit = 0#64 ∧ cl w &&& PMwCASBit = 0#64 := by
  unfold Plain at h
  have hc := cl_toNat w
  constructor
  · rw [rdcss_iff]; omega
  · rw [pmwcas_iff]; omega

theorem W.mwRead {me off : Word} {v : V} (hoff : Z.L (.arr off)) (hpl : Plain (v.mem (.arr off))) (n : Nat) {Q : Word → V → Prop}
    (h : Q (v.mem (.arr off)) v) : W Z (mwRead tb (n + 1) me off) Q v := by
  unfold KCAS.mwRead
  apply W.loop
  apply W.bind; refine W.ld (by foot) ?_
  intro w hw
  rw [← hw] at hpl h
  obtain ⟨p1, p2⟩ := plain_and hpl
  rw [if_neg (by simpa using p1)]
  have hrest : ∀ R : Ctl Unit Word → V → Prop, R (.done (cl w)) v →
      W Z (if cl w &&& PMwCASBit ≠ 0#64 then do
        let _ ← KCAS.pmwcas tb me (n + 1) (unpack tb (cl w)) none
        return .next ()
      else return .done (cl w)) R v := by
    intro R hR
    rw [if_neg (by simpa using p2)]
    exact W.ret hR
  apply W.ite
  · intro _
    apply W.bind; refine W.persist (by foot) ?_
    exact hrest _ h
  · intro _
    exact hrest _ h

theorem W.mwCAS1 {me off old new : Word} {v : V} (hoff : Z.L (.arr off)) (hpl : Plain (v.mem (.arr off))) (hpn : Plain new)
    (n : Nat) {Q : Bool × Word → V → Prop}
    (h1 : v.mem (.arr off) = old → Q (true, old) (v.put (.arr off) new))
    (h2 : v.mem (.arr off) ≠ old → Q (false, v.mem (.arr off)) v) : W Z (mwCAS1 tb (n + 1) me off old new) Q v := by
  unfold KCAS.mwCAS1
  apply W.loop
  apply W.bind
  refine W.pcas (by foot) ?_ ?_
  · intro he
    rw [if_pos rfl]
    apply W.ret
    rw [cl_of_plain hpn]
    exact h1 he
  · intro he
    rw [if_neg (by simp)]
    have hp : (v.mem (.arr off)).toNat % 8 = 0 := hpl
    simp only
    rw [if_pos ⟨(rdcss_iff _).2 (by omega), (pmwcas_iff _).2 (by omega), (dirty_iff _).2 (by omega)⟩]
    apply W.ret
    exact h2 he

end PMap.KCAS
