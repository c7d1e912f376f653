import Verif.KCAS.RecoverHalt
import Verif.Props.KCAS

/-! # C49: recovery of the multi-word CAS after a crash -/

namespace PMap.KCAS

theorem statusW_view (s : S) (t : Word) : (statusW ((view s).mem (.kmut t))).toNat = (s.mem (.kmut t)).toNat / 2 % 4 := by
  unfold statusW
  rw [(KMut.unpack_fields _).2.1]
  show (cl (s.mem (.kmut t))).toNat / 2 % 4 = _
  rw [cl_toNat]; omega

theorem seqW_view (s : S) (t : Word) : (seqW ((view s).mem (.kmut t))).toNat = (s.mem (.kmut t)).toNat / 8 := by
  unfold seqW
  rw [(KMut.unpack_fields _).1]
  show (cl (s.mem (.kmut t))).toNat / 8 = _
  rw [cl_toNat]; omega

theorem wseq_view (s : S) (t : Word) : (WMut.unpack ((view s).mem (.wmut t))).seq.toNat = (s.mem (.wmut t)).toNat / 2 := by
  rw [(WMut.unpack_fields _).1]
  show (cl (s.mem (.wmut t))).toNat / 2 = _
  rw [cl_toNat]; omega

/-- No operation is under way: every word holds a value (perhaps dirty), and each of the `P` multi-word descriptors is complete
and decided.  (`few` is what the check at pmwcas.hpp:969-993 needs so as not to run past the descriptors: `c49_beyond`.) -/
structure AtRest (P : Nat) (s : S) : Prop where
  words : ∀ o, (s.mem (.arr o)).toNat % 8 ≤ 1
  decided : ∀ i < P, (s.mem (.kmut (BitVec.ofNat 64 i))).toNat / 2 % 4 ≠ 0
  even : ∀ i < P, (s.mem (.kmut (BitVec.ofNat 64 i))).toNat / 8 % 2 = 0
  few : ∀ x, (s.fld (.count x)).toNat < P

theorem AtRest.plain {P : Nat} {s : S} (h : AtRest P s) (o : Word) : Plain ((view s).mem (.arr o)) := by
  show (cl (s.mem (.arr o))).toNat % 8 = 0
  rw [cl_toNat]
  have := h.words o
  omega

theorem AtRest.settled {P : Nat} {s : S} (h : AtRest P s) (i : Nat) (hi : i < P) : Settled (view s) (BitVec.ofNat 64 i) := by
  refine ⟨?_, ?_⟩
  · intro e
    apply h.decided i hi
    rw [← statusW_view, e]; rfl
  · rw [seqW_view]; exact h.even i hi

theorem atRest_of {P : Nat} {s : S} (h1 : ∀ o, Plain ((view s).mem (.arr o))) (h2 : ∀ i < P, Settled (view s) (BitVec.ofNat 64 i))
    (h3 : CntOk P s.fld) : AtRest P s := by
  refine ⟨?_, ?_, ?_, h3⟩
  · intro o
    have : (cl (s.mem (.arr o))).toNat % 8 = 0 := h1 o
    rw [cl_toNat] at this
    omega
  · intro i hi e
    rw [← statusW_view] at e
    exact (h2 i hi).1 (BitVec.eq_of_toNat_eq e)
  · intro i hi
    rw [← seqW_view]; exact (h2 i hi).2

private theorem tid_ok {P k : Nat} (hk : k ≤ 16) (hP : P = 2 ^ k) : tidSize P ≤ 61 ∧ P ≤ 2 ^ tidSize P ∧ 0 < P ∧ P ≤ 65536 := by
  subst hP
  refine ⟨?_, ?_, Nat.two_pow_pos k, Nat.pow_le_pow_right (n := 2) (by decide) hk⟩
  · rw [tidSize_pow]; split <;> omega
  · rw [tidSize_pow]; exact Nat.pow_le_pow_right (by decide) (by split <;> omega)

/-- Recovery of a memory at rest: it returns, no assertion fails and no word changes. -/
theorem c49_at_rest (P k : Nat) (hk : k ≤ 16) (hP : P = 2 ^ k) (s : S) (hs : AtRest P s) (me : Word) (m : Nat) (hm : P ≤ m) :
    ∃ s', run (recover (tidSize P) P m me) s = .done () s' ∧ s'.failed = s.failed ∧ AtRest P s'
      ∧ ∀ o, s'.mem (.arr o) &&& ~~~1#64 = s.mem (.arr o) &&& ~~~1#64 := by
  obtain ⟨hb, -, hP0, -⟩ := tid_ok hk hP
  obtain ⟨hR, hK⟩ := noR_of_plain hb (v := view s) hs.plain
  obtain ⟨_, s', hr, hq⟩ := W.recover_quiet (n := m) hP0 hm (v := view s) hs.few hR hK hs.settled me (Q := fun _ v' => v' = view s) rfl s rfl
  have harr : ∀ o, cl (s'.mem (.arr o)) = cl (s.mem (.arr o)) := fun o => congrFun (congrArg V.mem hq) (.arr o)
  refine ⟨s', hr.run, congrArg V.failed hq, atRest_of ?_ ?_ ?_, harr⟩
  · rw [hq]; exact hs.plain
  · rw [hq]; exact hs.settled
  · have : s'.fld = s.fld := congrArg V.fld hq
    rw [this]; exact hs.few

/-- Full statement: a multi-word CAS that a crash interrupts at any point is, after recovery, done on all its words or on none,
and every word can be used again.  It is false (`c49_torn`, `c49_word_lost`, `c49_beyond`).  Proved here: when the crash comes before
the outcome is decided (the status bits are still 0), and all else was at rest.  Recovery then returns; either all the words
hold their new values or all hold what they held before; the first only if all matched, and then whenever the descriptor was
complete (its sequence number even); no other word changes; and all is at rest again.  The assertions hold if the interrupted
thread is thread 0 (for others see `c49_false_alarm`).  Missing: crashes after the decision, several interrupted threads, and
stores not yet written back (every store counts as durable). -/
theorem c49_undecided_partial (P k : Nat) (hk : k ≤ 16) (hP : P = 2 ^ k) (s : S) (hs : AtRest P s) (t : Nat) (ht : t < P)
    (ws : List Entry) (h0 : ws ≠ []) (hlen : ws.length < P) (hnd : (ws.map Entry.off).Nodup) (hnew : ∀ e ∈ ws, e.new.toNat % 8 = 0)
    (me : Nat) (hme : me < P)
    (hks : (s.mem (.kmut (BitVec.ofNat 64 t))).toNat / 8 + 2 < 2 ^ (61 - tidSize P))
    (hwt : (s.mem (.wmut (BitVec.ofNat 64 t))).toNat / 2 + 4 * ws.length < 2 ^ (61 - tidSize P))
    (hwm : (s.mem (.wmut (BitVec.ofNat 64 me))).toNat / 2 + 4 * ws.length < 2 ^ (61 - tidSize P))
    (n m : Nat) (hn : ws.length + 2 ≤ n) (hm : P + 1 ≤ m) (c : S)
    (hc : CutAt (mwcas (tidSize P) n (BitVec.ofNat 64 t) ws) s c) (hund : (c.mem (.kmut (BitVec.ofNat 64 t))).toNat / 2 % 4 = 0) :
    ∃ s', run (recover (tidSize P) P m (BitVec.ofNat 64 me)) c = .done () s' ∧ AtRest P s' ∧ (t = 0 → s'.failed = s.failed)
      ∧ (∀ o, o ∉ ws.map Entry.off → s'.mem (.arr o) &&& ~~~1#64 = s.mem (.arr o) &&& ~~~1#64)
      ∧ ((∀ e ∈ ws, s'.mem (.arr e.off) &&& ~~~1#64 = e.new) ∧ (∀ e ∈ ws, s.mem (.arr e.off) &&& ~~~1#64 = e.old)
        ∨ (∀ e ∈ ws, s'.mem (.arr e.off) &&& ~~~1#64 = s.mem (.arr e.off) &&& ~~~1#64))
      ∧ ((∀ e ∈ ws, s.mem (.arr e.off) &&& ~~~1#64 = e.old) → (c.mem (.kmut (BitVec.ofNat 64 t))).toNat / 8 % 2 = 0 →
          ∀ e ∈ ws, s'.mem (.arr e.off) &&& ~~~1#64 = e.new) := by
  obtain ⟨hb, hPt, hP0, hP16⟩ := tid_ok hk hP
  obtain ⟨n, rfl⟩ : ∃ k, n = k + 1 := ⟨n - 1, by omega⟩
  have htn : (BitVec.ofNat 64 t : Word).toNat = t := by rw [BitVec.toNat_ofNat]; exact Nat.mod_eq_of_lt (by omega)
  have hmn : (BitVec.ofNat 64 me : Word).toNat = me := by rw [BitVec.toNat_ofNat]; exact Nat.mod_eq_of_lt (by omega)
  have hcl : ∀ l, cl ((view s).mem l) = (view s).mem l := fun l => cl_cl _
  have hkq : kseqOf (view s) (BitVec.ofNat 64 t) = (s.mem (.kmut (BitVec.ofNat 64 t))).toNat / 8 := seqW_view s _
  have hwq : wseqOf (view s) (BitVec.ofNat 64 t) = (s.mem (.wmut (BitVec.ofNat 64 t))).toNat / 2 := wseq_view s _
  have hcut := Cut.mwcas (Z := full) hb (by omega : (BitVec.ofNat 64 t : Word).toNat < 2 ^ tidSize P) (own_full _) hcl (fun _ _ => trivial) h0
    hnd (by omega) (by rw [hkq]; exact hks) (by rw [hwq]; unfold seqSize; omega) (fun e _ => hs.plain _) n (by omega) (hs.settled t ht).1 s rfl c hc
  have hcc : CntOk P c.fld := (Few.mwcas (P := P) _ _ _ _ hlen (by omega)).cut (J := fun s => CntOk P s.fld) few_exec hs.few hc
  have hseven := (hs.settled t ht).2
  rcases hcut with hd | hmk | ⟨d, i, wq, hf, hkr, hdt, hdq, hT⟩
  · exact absurd (BitVec.eq_of_toNat_eq (by rw [statusW_view, hund]; rfl)) hd
  · -- the descriptor was being made
    have harr : ∀ o, (view c).mem (.arr o) = (view s).mem (.arr o) := fun o => by rw [hmk.mem]; simp
    obtain ⟨hR, hK⟩ := noR_of_plain hb (v := view c) (fun o => by rw [harr]; exact hs.plain o)
    have hodd : (seqW ((view c).mem (.kmut (BitVec.ofNat 64 t)))).toNat % 2 = 1 := by
      rw [hmk.mem]
      simp only [if_true]
      have h1 : ((KMut.unpack ((view s).mem (.kmut (BitVec.ofNat 64 t)))).seq + 1#64).toNat = kseqOf (view s) (BitVec.ofNat 64 t) + 1 := by
        rw [BitVec.toNat_add, Nat.mod_eq_of_lt]
        · rfl
        · have : (2:Nat) ^ (61 - tidSize P) ≤ 2 ^ 61 := Nat.pow_le_pow_right (by decide) (by omega)
          show kseqOf (view s) _ + 1 < _
          omega
      unfold seqW
      rw [KMut.unpack_pack _ ⟨by show Status.undecided.word.toNat < 4; decide, by
        show ((KMut.unpack ((view s).mem (.kmut (BitVec.ofNat 64 t)))).seq + 1#64).toNat < 2 ^ 61
        rw [h1]
        have : (2:Nat) ^ (61 - tidSize P) ≤ 2 ^ 61 := Nat.pow_le_pow_right (by decide) (by omega)
        omega⟩]
      show ((KMut.unpack ((view s).mem (.kmut (BitVec.ofNat 64 t)))).seq + 1#64).toNat % 2 = 1
      rw [h1, hkq]
      have := hs.even t ht
      omega
    have hset : ∀ i < P, i ≠ t → Settled (view c) (BitVec.ofNat 64 i) := by
      intro i hi hit
      unfold Settled
      have : (view c).mem (.kmut (BitVec.ofNat 64 i)) = (view s).mem (.kmut (BitVec.ofNat 64 i)) := by
        rw [hmk.mem]
        simp only
        rw [if_neg]
        intro e
        exact hit (ofNat_inj (by omega) (by omega) (Loc.kmut.inj e))
      rw [this]; exact hs.settled i hi
    obtain ⟨_, s', hr, hq⟩ := W.recover_making (n := m) hP0 (by omega) (by omega) ht (v := view c) hcc hR hK hset hodd (BitVec.ofNat 64 me)
      (Q := fun _ v' => v' = _) rfl c rfl
    have harr' : ∀ o, cl (s'.mem (.arr o)) = cl (s.mem (.arr o)) := by
      intro o
      rw [← show (view s').mem (.arr o) = cl (s'.mem (.arr o)) from rfl, hq]
      exact harr o
    refine ⟨s', hr.run, atRest_of ?_ ?_ ?_, ?_, fun o _ => harr' o, .inr fun e _ => harr' _, ?_⟩
    · intro o
      show Plain (cl (s'.mem (.arr o)))
      rw [harr']; exact hs.plain o
    · intro i hi
      unfold Settled
      by_cases hit : i = t
      · subst hit
        have : (view s').mem (.kmut (BitVec.ofNat 64 i)) = KMut.pack ⟨false, Status.succeeded.word, 0#64⟩ := by
          rw [hq]
          show (if Loc.kmut (BitVec.ofNat 64 i) = Loc.kmut (BitVec.ofNat 64 i) then _ else _) = _
          rw [if_pos rfl]
        rw [this]; decide
      · have : (view s').mem (.kmut (BitVec.ofNat 64 i)) = (view c).mem (.kmut (BitVec.ofNat 64 i)) := by
          rw [hq]
          show (if Loc.kmut (BitVec.ofNat 64 i) = Loc.kmut (BitVec.ofNat 64 t) then _ else _) = _
          rw [if_neg]
          intro e
          exact hit (ofNat_inj (by omega) (by omega) (Loc.kmut.inj e))
        rw [this]; exact hset i hi hit
    · intro x
      have : s'.fld = (view s').fld := rfl
      rw [this, hq]
      show (if Fld.count x = Fld.count (BitVec.ofNat 64 t) then 0#64 else c.fld (.count x)).toNat < P
      split
      · exact hP0
      · exact hcc x
    · intro _
      have : s'.failed = (view s').failed := rfl
      rw [this, hq]
      exact hmk.fail
    · intro _ hev
      rw [seqW_view] at hodd
      omega
  · -- the words were being changed
    have hmem : ∀ e, e ∈ sortWords ws ↔ e ∈ ws := fun e => (sort_perm ws).mem_iff
    have hmo : ∀ o, o ∈ (sortWords ws).map Entry.off ↔ o ∈ ws.map Entry.off := fun o => ((sort_perm ws).map Entry.off).mem_iff
    have hall : (∀ e ∈ sortWords ws, (view s).mem (.arr e.off) = e.old) ↔ (∀ e ∈ ws, cl (s.mem (.arr e.off)) = e.old) :=
      ⟨fun h e he => h e ((hmem e).2 he), fun h e he => h e ((hmem e).1 he)⟩
    have hT' : Torn (tidSize P) (BitVec.ofNat 64 t) d (sortWords ws) (view s).mem (view s).failed (fun o => (view s).mem (.arr o))
        (max (wseqOf (view s) (BitVec.ofNat 64 t)) (wseqOf (view s) (BitVec.ofNat 64 me)) + 2 * ws.length) i wq (view c) :=
      ⟨hT.le, hT.old, by have := hT.wle; omega, hT.at_⟩
    have hwq' : wseqOf (view s) (BitVec.ofNat 64 me) = (s.mem (.wmut (BitVec.ofNat 64 me))).toNat / 2 := wseq_view s _
    obtain ⟨_, s', hr, hq⟩ := W.recover_torn hb hP0 hPt ht hf hkr hdt (A := fun o => (view s).mem (.arr o)) hs.plain (by rw [sort_length]; exact hlen)
      (sort_nodup hnd) (fun e he => hnew e ((hmem e).1 he)) (by omega : (BitVec.ofNat 64 me : Word).toNat < 2 ^ tidSize P)
      (by show wseqOf (view s) (BitVec.ofNat 64 me) ≤ _; omega)
      (by rw [sort_length, hwq, hwq']; unfold seqSize; omega)
      (by rw [hdq]; have : kseqOf (view s) (BitVec.ofNat 64 t) % 2 = 0 := hseven
          omega)
      (fun i hi _ => hs.settled i hi) hT' hcc m hm c rfl
    refine ⟨s', hr.run, atRest_of hq.plain hq.settled hq.cnt, hq.fail, ?_, ?_, ?_⟩
    · intro o ho
      show cl _ = cl _
      by_cases h : ∀ e ∈ sortWords ws, (view s).mem (.arr e.off) = e.old
      · exact (hq.all h).2 o (by rw [hmo]; exact ho)
      · exact hq.none h o
    · by_cases h : ∀ e ∈ sortWords ws, (view s).mem (.arr e.off) = e.old
      · exact .inl ⟨fun e he => (hq.all h).1 e ((hmem e).2 he), hall.1 h⟩
      · exact .inr fun e _ => hq.none h e.off
    · intro h _ e he
      exact (hq.all (hall.2 h)).1 e ((hmem e).2 he)

/-! ## Concrete runs -/

/-- The memory after `k` steps of a program running alone. -/
private def stepN {α : Type} : Nat → Prog α → S → S
  | k + 1, .act a f, s => stepN k (f (a.exec s).1) (a.exec s).2
  | _, _, s => s

private theorem stepN_cut {α : Type} (k : Nat) (p : Prog α) (s : S) : CutAt p s (stepN k p s) := by
  induction k generalizing p s with
  | zero => cases p <;> exact .here _ _
  | succ k ih =>
    cases p with
    | ret a => exact .here _ _
    | halt h => exact .here _ _
    | act a f => exact .later (ih _ _)

/-- The memory a run leaves (the memory it began with if it does not return). -/
private def left {α : Type} (s : S) : Out α → S
  | .done _ s' => s'
  | .halted _ => s

private def result {α : Type} : Out α → Option α
  | .done a _ => some a
  | .halted _ => none

private theorem result_run {α : Type} {p : Prog α} {s : S} {a : α} (h : result (run p s) = some a) : run p s = .done a (left s (run p s)) := by
  cases hr : run p s with
  | done b s' => rw [hr] at h; cases h; rfl
  | halted e => rw [hr] at h; cases h

theorem fresh_rest (P : Nat) (hP : 0 < P) (A : Word → Word) (hA : ∀ o, (A o).toNat % 8 = 0) : AtRest P (fresh A) := by
  refine ⟨fun o => by have := hA o; show (A o).toNat % 8 ≤ 1; omega, ?_, ?_, fun _ => hP⟩
  · intro i _; show (KMut.pack ⟨true, Status.succeeded.word, 0#64⟩).toNat / 2 % 4 ≠ 0; decide
  · intro i _; show (KMut.pack ⟨true, Status.succeeded.word, 0#64⟩).toNat / 8 % 2 = 0; decide

/-- Four threads; thread 1 changes words 5 and 6. -/
private def pair : Prog Bool := mwcas (tidSize 4) 6 1#64 [⟨5, 0, 8⟩, ⟨6, 0, 16⟩]
private def zeros : S := fresh fun _ => 0

private theorem zeros_rest : AtRest 4 zeros := fresh_rest 4 (by decide) _ (by intro o; rfl)

/-- `c49_undecided_partial` at three moments: with the descriptor half made, with the single-word descriptor in word 5, and with
both words holding the multi-word descriptor. -/
example : (stepN 8 pair zeros).mem (.kmut 1#64) = 8 ∧ (stepN 39 pair zeros).mem (.arr 5) &&& 6 = 4
    ∧ (stepN 85 pair zeros).mem (.arr 5) &&& 6 = 2 ∧ (stepN 85 pair zeros).mem (.arr 6) &&& 6 = 2 := by decide +kernel

example (k : Nat) (hund : ((stepN k pair zeros).mem (.kmut 1#64)).toNat / 2 % 4 = 0) :
    ∃ s', run (recover (tidSize 4) 4 5 0#64) (stepN k pair zeros) = .done () s' ∧ AtRest 4 s' := by
  obtain ⟨s', h1, h2, -⟩ := c49_undecided_partial 4 2 (by decide) rfl zeros zeros_rest 1 (by decide) [⟨5, 0, 8⟩, ⟨6, 0, 16⟩] (by decide)
    (by decide) (by decide) (by decide) 0 (by decide) (by decide) (by decide) (by decide) 6 5 (by decide) (by decide) _
    (stepN_cut k pair zeros) hund
  exact ⟨s', h1, h2⟩

example : ∃ s', run (recover (tidSize 4) 4 5 0#64) (stepN 85 pair zeros) = .done () s' ∧ s'.mem (.arr 5) &&& ~~~1#64 = 8
    ∧ s'.mem (.arr 6) &&& ~~~1#64 = 16 := by
  obtain ⟨s', h1, -, -, -, -, h2⟩ := c49_undecided_partial 4 2 (by decide) rfl zeros zeros_rest 1 (by decide) [⟨5, 0, 8⟩, ⟨6, 0, 16⟩] (by decide)
    (by decide) (by decide) (by decide) 0 (by decide) (by decide) (by decide) (by decide) 6 5 (by decide) (by decide) _
    (stepN_cut 85 pair zeros) (by decide +kernel)
  have h2 := h2 (by decide) (by decide +kernel)
  exact ⟨s', h1, h2 ⟨5, 0, 8⟩ (by decide), h2 ⟨6, 0, 16⟩ (by decide)⟩

/-- A memory at rest, with operations behind it: `c49_at_rest` applies. -/
example : ∃ s', run (recover (tidSize 4) 4 5 0#64) zeros = .done () s' ∧ s'.failed = false := by
  obtain ⟨s', h1, h2, -⟩ := c49_at_rest 4 2 (by decide) rfl zeros zeros_rest 0#64 5 (by decide)
  exact ⟨s', h1, h2⟩

/-! ## What recovery gets wrong -/

/-- Once every descriptor is decided, recovery leaves every word as it found it, even one that holds a multi-word descriptor. -/
theorem c49_decided_left (P k : Nat) (hk : k ≤ 16) (hP : P = 2 ^ k) (c : S)
    (hw : ∀ o, (c.mem (.arr o)).toNat / 4 % 2 = 0)
    (hd : ∀ i < P, (c.mem (.kmut (BitVec.ofNat 64 i))).toNat / 2 % 4 ≠ 0)
    (he : ∀ i < P, (c.mem (.kmut (BitVec.ofNat 64 i))).toNat / 8 % 2 = 0)
    (hf : ∀ x, (c.fld (.count x)).toNat < P) (me : Word) (m : Nat) (hm : P ≤ m) :
    ∃ s', run (recover (tidSize P) P m me) c = .done () s' ∧ ∀ o, s'.mem (.arr o) &&& ~~~1#64 = c.mem (.arr o) &&& ~~~1#64 := by
  obtain ⟨hb, -, hP0, -⟩ := tid_ok hk hP
  have hR : NoR (tidSize P) (view c) := by
    intro o
    have : (unpack (tidSize P) (cl (c.mem (.arr o)))).rdcss = decide ((cl (c.mem (.arr o))).toNat / 4 % 2 = 1) :=
      (unpack_fields _ hb _).2.2.1
    show (unpack (tidSize P) (cl (c.mem (.arr o)))).rdcss = false
    rw [this, cl_toNat]
    have := hw o
    exact decide_eq_false (by omega)
  obtain ⟨_, s', hr, b, hq⟩ := W.recover_settled (n := m) hP0 hm (v := view c) hf hR (fun i hi => ⟨fun e => hd i hi (by rw [← statusW_view, e]; rfl),
    by rw [seqW_view]; exact he i hi⟩) me (Q := fun _ v' => ∃ b, v' = { view c with failed := b }) (fun b => ⟨b, rfl⟩) c rfl
  exact ⟨s', hr.run, fun o => congrFun (congrArg V.mem hq) (.arr o)⟩

/-- Half done for good: thread 1 crashes when the outcome is decided and word 5 has its new value.  Recovery returns with no
failed assertion and leaves the descriptor in word 6; the next reader of word 6 undoes it.  Word 5 then reads 8 and word 6 reads
0, so of one multi-word CAS one word was changed and the other not. -/
theorem c49_torn : ∃ c s1 s2 s3, CutAt (mwcas (tidSize 4) 6 1#64 [⟨5, 0, 8⟩, ⟨6, 0, 16⟩]) (fresh fun _ => 0) c
    ∧ run (recover (tidSize 4) 4 6 0#64) c = .done () s1 ∧ s1.failed = false
    ∧ run (mwRead (tidSize 4) 6 0#64 5) s1 = .done 8 s2 ∧ run (mwRead (tidSize 4) 6 0#64 6) s2 = .done 0 s3 := by
  refine ⟨stepN 110 pair zeros, _, _, _, stepN_cut 110 pair zeros, result_run ?_, ?_, result_run ?_, result_run ?_⟩
  · decide +kernel
  · decide +kernel
  · decide +kernel
  · decide +kernel

private theorem cut_outside {α : Type} {F : Foot} {p : Prog α} {s c : S} {a : α} {s' : S} (h : Runs F p s a s') (hc : CutAt p s c) :
    (∀ l, ¬ F.L l → c.mem l = s.mem l) ∧ ∀ f, ¬ F.G f → c.fld f = s.fld f := by
  induction h with
  | ret => cases hc; exact ⟨fun _ _ => rfl, fun _ _ => rfl⟩
  | @act b k s a s' hF h ih =>
    cases hc with
    | here => exact ⟨fun _ _ => rfl, fun _ _ => rfl⟩
    | later hc =>
      obtain ⟨h1, h2⟩ := ih hc
      refine ⟨fun l hl => ?_, fun f hf => ?_⟩
      · rw [h1 l hl]
        cases b with
        | ld l' => rfl
        | rd f => rfl
        | wr f w => rfl
        | check b => rfl
        | st l' w => exact if_neg (show ¬ l = l' from fun e => hl (e ▸ hF))
        | cas l' e n =>
          rw [exec_cas]
          simp only
          split
          · exact if_neg (show ¬ l = l' from fun e => hl (e ▸ hF))
          · rfl
      · rw [h2 f hf]
        cases b with
        | ld l' => rfl
        | rd f => rfl
        | wr f' w => exact if_neg (show ¬ f = f' from fun e => hf (e ▸ hF))
        | check b => rfl
        | st l' w => rfl
        | cas l' e n =>
          rw [exec_cas]
          simp only
          split <;> rfl

/-- Words 5 and 6 and the descriptors of thread 1. -/
private def five6 : Foot where
  L
    | .arr o => o = 5 ∨ o = 6
    | .kmut x => x = 1#64
    | .wmut x => x = 1#64
  G f := f.owner = 1#64

/-- The crash of `c49_torn` meets the hypotheses of `c49_decided_left`: word 6 holds a descriptor before recovery and after. -/
example : ∃ s', run (recover (tidSize 4) 4 6 0#64) (stepN 110 pair zeros) = .done () s'
    ∧ s'.mem (.arr 6) &&& ~~~1#64 = pack (tidSize 4) ⟨false, true, false, 2#64, 1#64⟩ := by
  obtain ⟨_, _, hr, -⟩ := W.mwcas (Z := five6) (tb := tidSize 4) (v := view zeros) (t := 1#64) (ws := [⟨5, 0, 8⟩, ⟨6, 0, 16⟩]) (by decide) (by decide)
    ⟨rfl, rfl, fun _ h => h⟩ (by intro e he; show e.off = 5 ∨ e.off = 6; revert e; decide) (by decide) (by decide) (by decide) (by decide)
    (by decide) (by decide) (by decide) 5 (by decide) (Q := fun _ _ => True) (by intros; trivial) zeros rfl
  obtain ⟨o1, o2⟩ := cut_outside hr (stepN_cut 110 pair zeros)
  have hw : ∀ o, ((stepN 110 pair zeros).mem (.arr o)).toNat / 4 % 2 = 0 := by
    intro o
    by_cases h5 : o = 5
    · subst h5; decide +kernel
    · by_cases h6 : o = 6
      · subst h6; decide +kernel
      · rw [o1 (.arr o) (by rintro (h | h); exacts [h5 h, h6 h])]
        show (0#64).toNat / 4 % 2 = 0
        decide
  have hc : ∀ x, ((stepN 110 pair zeros).fld (.count x)).toNat < 4 := by
    intro x
    by_cases h1 : x = 1#64
    · subst h1; decide +kernel
    · rw [o2 (.count x) h1]; show (0#64).toNat < 4; decide
  obtain ⟨s', h1, h2⟩ := c49_decided_left 4 2 (by decide) rfl (stepN 110 pair zeros) hw (by decide +kernel) (by decide +kernel) hc 0#64 6 (by decide)
  exact ⟨s', h1, by rw [h2]; decide +kernel⟩

/-- Lost for good: thread 1 crashes as in `c49_torn`, and after recovery starts on word 7 and crashes again.  Recovery resets its
descriptor, and word 6 still refers to it.  From then on no read of word 6 returns, however long it runs. -/
theorem c49_word_lost : ∃ c s1 c' s2, CutAt (mwcas (tidSize 4) 6 1#64 [⟨5, 0, 8⟩, ⟨6, 0, 16⟩]) (fresh fun _ => 0) c
    ∧ run (recover (tidSize 4) 4 6 0#64) c = .done () s1 ∧ CutAt (mwcas (tidSize 4) 6 1#64 [⟨7, 0, 8⟩]) s1 c'
    ∧ run (recover (tidSize 4) 4 6 0#64) c' = .done () s2 ∧ s2.failed = false
    ∧ ∀ me n, run (mwRead (tidSize 4) n me 6) s2 = .halted .fuel := by
  refine ⟨stepN 110 pair zeros, _, _, _, stepN_cut 110 pair zeros, result_run ?_, stepN_cut 5 _ _, result_run ?_, ?_, ?_⟩
  · decide +kernel
  · decide +kernel
  · decide +kernel
  · intro me n
    refine Halts.mwRead (tb := tidSize 4) (by decide) (d := ⟨false, true, false, 2#64, 1#64⟩) (by decide) ⟨rfl, rfl, rfl⟩ ?_ ?_ ?_ me n _ rfl
    · decide +kernel
    · decide +kernel
    · decide +kernel

/-- A false alarm: thread 0 has changed word 5; thread 1 crashes in the middle of a multi-word CAS that has put its descriptor
there.  Recovery completes that operation, but an assertion fails on the way: the check behind descriptor 0 comes before
descriptor 1 is looked at. -/
theorem c49_false_alarm : ∃ s0 c s', run (mwcas (tidSize 4) 6 0#64 [⟨5, 0, 8⟩]) (fresh fun _ => 0) = .done true s0
    ∧ CutAt (mwcas (tidSize 4) 6 1#64 [⟨5, 8, 16⟩, ⟨6, 0, 16⟩]) s0 c ∧ (c.mem (.kmut 1#64)).toNat / 2 % 4 = 0
    ∧ run (recover (tidSize 4) 4 6 0#64) c = .done () s' ∧ s0.failed = false ∧ s'.failed = true := by
  refine ⟨_, _, _, result_run ?_, stepN_cut 60 _ _, ?_, result_run ?_, ?_, ?_⟩
  · decide +kernel
  · decide +kernel
  · decide +kernel
  · decide +kernel
  · decide +kernel

/-- Out of bounds: at rest, with no crash during any operation, if the last operation of each thread `i` had more than `i` words
then recovery reads a descriptor past the last one. -/
theorem c49_beyond (P k : Nat) (hk : k ≤ 16) (hP : P = 2 ^ k) (s : S) (hw : ∀ o, (s.mem (.arr o)).toNat % 8 ≤ 1)
    (hd : (s.mem (.kmut 0#64)).toNat / 2 % 4 ≠ 0) (he : (s.mem (.kmut 0#64)).toNat / 8 % 2 = 0)
    (hc : ∀ i < P, i < (s.fld (.count (BitVec.ofNat 64 i))).toNat) (me : Word) (m : Nat) (hm : P + 1 ≤ m) :
    run (recover (tidSize P) P m me) s = .halted .beyond := by
  obtain ⟨hb, -, hP0, -⟩ := tid_ok hk hP
  obtain ⟨hR, hK⟩ := noR_of_plain hb (v := view s) (fun o => by
    show (cl (s.mem (.arr o))).toNat % 8 = 0
    rw [cl_toNat]
    have := hw o
    omega)
  exact Halts.recover hP0 hm hR hK hc ⟨fun e => hd (by rw [← statusW_view, e]; rfl), by rw [seqW_view]; exact he⟩ me s rfl

private def two0 : Prog Bool := mwcas (tidSize 2) 6 0#64 [⟨5, 0, 8⟩, ⟨6, 0, 8⟩]
private def two1 : Prog Bool := mwcas (tidSize 2) 6 1#64 [⟨7, 0, 8⟩, ⟨8, 0, 8⟩]
private def after0 : S := left zeros (run two0 zeros)
private def after1 : S := left after0 (run two1 after0)

private theorem after1_words (o : Word) : (after1.mem (.arr o)).toNat % 8 ≤ 1 := by
  have hr0 : run two0 zeros = .done true after0 := result_run (by decide +kernel)
  have hr1 : run two1 after0 = .done true after1 := result_run (by decide +kernel)
  obtain ⟨b, s', h1, -, -, -, -, h2⟩ := c35_all_or_nothing (tidSize 2) (by decide) zeros 0#64 (by decide) [⟨5, 0, 8⟩, ⟨6, 0, 8⟩] (by decide)
    (by decide) (by decide) (by decide) (by decide) (by decide) (by decide) 6 (by decide)
  rw [show run (mwcas (tidSize 2) 6 0#64 [⟨5, 0, 8⟩, ⟨6, 0, 8⟩]) zeros = .done true after0 from hr0] at h1
  cases h1
  obtain ⟨b, s', h1, -, -, -, -, h3⟩ := c35_all_or_nothing (tidSize 2) (by decide) after0 1#64 (by decide) [⟨7, 0, 8⟩, ⟨8, 0, 8⟩] (by decide)
    (by decide) (by decide) (by decide +kernel) (by decide) (by decide +kernel) (by decide +kernel) 6 (by decide)
  rw [show run (mwcas (tidSize 2) 6 1#64 [⟨7, 0, 8⟩, ⟨8, 0, 8⟩]) after0 = .done true after1 from hr1] at h1
  cases h1
  by_cases h : o ∈ [5#64, 6#64, 7#64, 8#64]
  · simp only [List.mem_cons, List.not_mem_nil, or_false] at h
    rcases h with rfl | rfl | rfl | rfl <;> decide +kernel
  · simp only [List.mem_cons, List.not_mem_nil, or_false, not_or] at h
    have e1 := h3 o (by simpa using ⟨h.2.2.1, h.2.2.2⟩)
    have e2 := h2 o (by simpa using ⟨h.1, h.2.1⟩)
    rw [e2] at e1
    have e3 : cl (after1.mem (.arr o)) = cl (zeros.mem (.arr o)) := e1
    have := congrArg BitVec.toNat e3
    rw [cl_toNat, cl_toNat] at this
    have hz : (zeros.mem (.arr o)).toNat = 0 := rfl
    omega

/-- Two threads, each of which has completed a multi-word CAS of two words. -/
example : ∃ s1 s2, run (mwcas (tidSize 2) 6 0#64 [⟨5, 0, 8⟩, ⟨6, 0, 8⟩]) (fresh fun _ => 0) = .done true s1
    ∧ run (mwcas (tidSize 2) 6 1#64 [⟨7, 0, 8⟩, ⟨8, 0, 8⟩]) s1 = .done true s2 ∧ run (recover (tidSize 2) 2 6 0#64) s2 = .halted .beyond :=
  ⟨after0, after1, result_run (by decide +kernel), result_run (by decide +kernel),
    c49_beyond 2 1 (by decide) rfl after1 after1_words (by decide +kernel) (by decide +kernel) (by decide +kernel) 0#64 6 (by decide)⟩

end PMap.KCAS
