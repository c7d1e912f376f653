import Verif.KCAS.RecoverW

/-! # `recover` from the states a crash leaves (helper lemmas) -/

namespace PMap.KCAS

variable {tb : Nat}

/-- All of memory. -/
def full : Foot := ⟨fun _ => True, fun _ => True⟩

theorem own_full (t : Word) : Own full t := ⟨trivial, trivial, fun _ _ => trivial⟩

/-- An assertion that may fail. -/
theorem W.check_any {F : Foot} {b : Bool} {Q : Word → V → Prop} {v : V} (h : Q 0#64 { v with failed := v.failed || !b }) :
    W F (step (.check b)) Q v := by
  intro s hs
  refine ⟨_, _, .step (a := .check b) trivial, ?_⟩
  subst hs
  exact h

theorem W.upTo {F : Foot} {body : Nat → Prog Unit} (J : Nat → V → Prop) (N : Nat)
    (h : ∀ i v, i < N → J i v → W F (body i) (fun _ v' => J (i + 1) v') v) (k i : Nat) (hk : i + k = N) (v : V) (hv : J i v)
    {Q : Unit → V → Prop} (hQ : ∀ v', J N v' → Q () v') : W F (KCAS.upTo k i body) Q v := by
  induction k generalizing i v with
  | zero =>
    have : i = N := hk
    subst this
    exact W.ret (hQ _ hv)
  | succ k ih =>
    unfold KCAS.upTo
    apply W.bind
    refine W.mono (h i v (by omega) hv) ?_
    intro _ v' hv'
    exact ih (i + 1) (by omega) v' hv'

/-- No word holds a single-word descriptor. -/
def NoR (tb : Nat) (v : V) : Prop := ∀ o, (unpack tb (v.mem (.arr o))).rdcss = false

/-- No word holds a multi-word descriptor. -/
def NoK (tb : Nat) (v : V) : Prop := ∀ o, (unpack tb (v.mem (.arr o))).kcas = false

theorem W.recoverWord_none {v : V} (hR : NoR tb v) (i : Nat) {Q : Unit → V → Prop} (h : Q () v) :
    W full (recoverWord tb i) Q v := by
  unfold recoverWord
  apply W.bind; refine W.rd trivial ?_
  apply W.bind; refine W.pcasRead trivial ?_
  rw [if_neg (by rw [hR]; simp)]
  apply W.bind; refine W.rd trivial ?_
  apply W.bind; refine W.pcasRead trivial ?_
  apply W.bind
  refine W.check (by rw [hR]; rfl) ?_
  exact W.ret h

/-- What the check can leave: the same, with an assertion failed or not; not failed if no word holds a descriptor. -/
theorem W.recoverCheck {P n : Nat} (hP0 : 0 < P) (hn : P ≤ n) {v : V} (hc : CntOk P v.fld)
    (hR : NoR tb v) {Q : Unit → V → Prop}
    (h : ∀ b, (NoK tb v → b = v.failed) → Q () { v with failed := b }) : W full (recoverCheck tb P n) Q v := by
  have hP : P ≤ 2 ^ 64 ∨ 2 ^ 64 < P := by omega
  have main : ∀ m i b, P ≤ m + i → i < P → (NoK tb v → b = v.failed) →
      W full (KCAS.loop m (fun (i : Nat) => do
        if P ≤ i then .halt .beyond
        else do
          let c ← step (.rd (.count (BitVec.ofNat 64 i)))
          if i < c.toNat then do
            let off ← step (.rd (.koff (BitVec.ofNat 64 i) i))
            let v ← KCAS.pcasRead (.arr off)
            let _ ← step (.check ((unpack tb v).kcas == (unpack tb v).rdcss))
            let v ← if (unpack tb v).rdcss ∧ ¬ (unpack tb v).kcas then do
                let _ ← KCAS.completeInstall tb (unpack tb v)
                let off ← step (.rd (.koff (BitVec.ofNat 64 i) i))
                KCAS.pcasRead (.arr off)
              else pure v
            let _ ← step (.check (!(unpack tb v).kcas && !(unpack tb v).rdcss))
            return .next (i + 1)
          else return .done ()) i) Q { v with failed := b } := by
    intro m
    induction m with
    | zero => intro i b h1 h2; omega
    | succ m ih =>
      intro i b h1 h2 hb
      apply W.loop
      rw [if_neg (by omega)]
      apply W.bind; refine W.rd trivial ?_
      apply W.ite
      · intro hi
        have hci := hc (BitVec.ofNat 64 i)
        apply W.bind; refine W.rd trivial ?_
        apply W.bind; refine W.pcasRead trivial ?_
        have hr := hR (v.fld (.koff (BitVec.ofNat 64 i) i))
        apply W.bind; refine W.check_any ?_
        simp only [hr]
        rw [if_neg (by simp)]
        apply W.bind; refine W.ret ?_
        apply W.bind; refine W.check_any ?_
        simp only [hr]
        apply W.ret
        refine ih (i + 1) _ (by omega) ?_ ?_
        · have hi : i < (v.fld (.count (BitVec.ofNat 64 i))).toNat := hi
          omega
        · intro hk
          rw [hk, hb hk]; simp
      · intro _
        apply W.ret
        exact h b hb
  exact main n 0 v.failed (by omega) hP0 (fun _ => rfl)

/-- A descriptor that is even and decided. -/
def Settled (v : V) (x : Word) : Prop := statusW (v.mem (.kmut x)) ≠ 0#64 ∧ (seqW (v.mem (.kmut x))).toNat % 2 = 0

theorem W.recoverDesc_settled {P n : Nat} (hP0 : 0 < P) (hn : P ≤ n) {v : V} (hc : CntOk P v.fld) (hR : NoR tb v) (me : Word) (i : Nat)
    (hs : Settled v (BitVec.ofNat 64 i)) {Q : Unit → V → Prop}
    (h : ∀ b, (NoK tb v → b = v.failed) → Q () { v with failed := b }) : W full (recoverDesc tb P n me i) Q v := by
  unfold recoverDesc
  apply W.bind; refine W.pcasRead trivial ?_
  simp only
  rw [if_neg (by
    have h2 := hs.2
    unfold seqW at h2
    omega)]
  apply W.bind; refine W.pcasRead trivial ?_
  rw [if_neg (show ¬ (KMut.unpack (v.mem (.kmut (BitVec.ofNat 64 i)))).status = Status.undecided.word from hs.1)]
  exact W.recoverCheck hP0 hn hc hR h

theorem W.recoverDesc_odd {P n : Nat} {v : V} (me : Word) (i : Nat)
    (hs : (seqW (v.mem (.kmut (BitVec.ofNat 64 i)))).toNat % 2 = 1) {Q : Unit → V → Prop}
    (h : Q () ((v.put (.kmut (BitVec.ofNat 64 i)) (KMut.pack ⟨false, Status.succeeded.word, 0#64⟩)).set (.count (BitVec.ofNat 64 i)) 0#64)) :
    W full (recoverDesc tb P n me i) Q v := by
  unfold recoverDesc
  apply W.bind; refine W.pcasRead trivial ?_
  simp only
  rw [if_pos (by
    unfold seqW at hs
    omega)]
  apply W.bind; refine W.st trivial ?_
  rw [cl_kmut _ _ _ (by decide) (by decide)]
  apply W.bind; refine W.wr trivial ?_
  exact W.ret h

/-! ## Nothing to do -/

/-- With every multi-word descriptor decided recovery changes no word. -/
theorem W.recover_settled {P n : Nat} (hP0 : 0 < P) (hn : P ≤ n) {v : V} (hc : CntOk P v.fld) (hR : NoR tb v)
    (hs : ∀ i < P, Settled v (BitVec.ofNat 64 i)) (me : Word) {Q : Unit → V → Prop} (h : ∀ b, Q () { v with failed := b }) :
    W full (recover tb P n me) Q v := by
  unfold recover
  apply W.bind
  refine W.upTo (fun _ v' => v' = v) P ?_ P 0 (by omega) v rfl ?_
  · rintro i v' - rfl
    exact W.recoverWord_none hR i rfl
  rintro v' rfl
  refine W.upTo (fun _ v'' => ∃ b, v'' = { v' with failed := b }) P ?_ P 0 (by omega) v' ⟨_, rfl⟩ ?_
  · rintro i v'' hi ⟨b, rfl⟩
    refine W.recoverDesc_settled hP0 hn (v := { v' with failed := b }) hc hR me i (hs i hi) ?_
    intro b _
    exact ⟨b, rfl⟩
  · rintro v'' ⟨b, rfl⟩
    exact h b

theorem W.recover_quiet {P n : Nat} (hP0 : 0 < P) (hn : P ≤ n) {v : V} (hc : CntOk P v.fld) (hR : NoR tb v) (hK : NoK tb v)
    (hs : ∀ i < P, Settled v (BitVec.ofNat 64 i)) (me : Word) {Q : Unit → V → Prop} (h : Q () v) :
    W full (recover tb P n me) Q v := by
  unfold recover
  apply W.bind
  refine W.upTo (fun _ v' => v' = v) P ?_ P 0 (by omega) v rfl ?_
  · rintro i v' - rfl
    exact W.recoverWord_none hR i rfl
  rintro v' rfl
  refine W.upTo (fun _ v'' => v'' = v') P ?_ P 0 (by omega) v' rfl ?_
  · rintro i v'' hi rfl
    refine W.recoverDesc_settled hP0 hn hc hR me i (hs i hi) ?_
    intro b hb
    rw [hb hK]
  · rintro _ rfl; exact h

/-! ## A descriptor that was being made -/

theorem ofNat_inj {i j : Nat} (hi : i < 2 ^ 64) (hj : j < 2 ^ 64) (h : (BitVec.ofNat 64 i : Word) = BitVec.ofNat 64 j) : i = j := by
  have := congrArg BitVec.toNat h
  rw [BitVec.toNat_ofNat, BitVec.toNat_ofNat, Nat.mod_eq_of_lt hi, Nat.mod_eq_of_lt hj] at this
  exact this

theorem W.recover_making {P n : Nat} (hP0 : 0 < P) (hP : P ≤ 2 ^ 64) (hn : P ≤ n) {t : Nat} (ht : t < P) {v : V} (hc : CntOk P v.fld)
    (hR : NoR tb v) (hK : NoK tb v)
    (hs : ∀ i < P, i ≠ t → Settled v (BitVec.ofNat 64 i)) (hodd : (seqW (v.mem (.kmut (BitVec.ofNat 64 t)))).toNat % 2 = 1)
    (me : Word) {Q : Unit → V → Prop}
    (h : Q () ((v.put (.kmut (BitVec.ofNat 64 t)) (KMut.pack ⟨false, Status.succeeded.word, 0#64⟩)).set (.count (BitVec.ofNat 64 t)) 0#64)) :
    W full (recover tb P n me) Q v := by
  unfold recover
  apply W.bind
  refine W.upTo (fun _ v' => v' = v) P ?_ P 0 (by omega) v rfl ?_
  · rintro i v' - rfl
    exact W.recoverWord_none hR i rfl
  rintro v' rfl
  generalize hv2 : (v'.put (.kmut (BitVec.ofNat 64 t)) (KMut.pack ⟨false, Status.succeeded.word, 0#64⟩)).set
    (.count (BitVec.ofNat 64 t)) 0#64 = v2 at h
  have hc2 : CntOk P v2.fld := by
    intro x
    rw [← hv2]
    show (if Fld.count x = .count (BitVec.ofNat 64 t) then 0#64 else v'.fld (.count x)).toNat < P
    split
    · exact hP0
    · exact hc x
  have harr : ∀ o, v2.mem (.arr o) = v'.mem (.arr o) := by
    intro o; rw [← hv2]; rfl
  refine W.upTo (fun i v'' => if i ≤ t then v'' = v' else v'' = v2) P ?_ P 0 (by omega) v' (by rw [if_pos (Nat.zero_le _)]) ?_
  · intro i v'' hi hv''
    by_cases hit : i ≤ t
    · rw [if_pos hit] at hv''
      subst hv''
      by_cases he : i = t
      · subst he
        refine W.recoverDesc_odd me i hodd ?_
        rw [if_neg (by omega), hv2]
      · refine W.recoverDesc_settled hP0 hn hc hR me i (hs i hi he) ?_
        intro b hb
        rw [hb hK, if_pos (by omega)]
    · rw [if_neg hit] at hv''
      subst hv''
      refine W.recoverDesc_settled hP0 hn hc2 (fun o => by rw [harr]; exact hR o) me i ?_ ?_
      · have := hs i hi (by omega)
        have hm : v''.mem (.kmut (BitVec.ofNat 64 i)) = v'.mem (.kmut (BitVec.ofNat 64 i)) := by
          rw [← hv2]
          show (if Loc.kmut (BitVec.ofNat 64 i) = .kmut (BitVec.ofNat 64 t) then _ else _) = _
          rw [if_neg]
          intro e
          have := ofNat_inj (by omega) (by omega) (Loc.kmut.inj e)
          omega
        unfold Settled
        rw [hm]; exact this
      · intro b hb
        rw [hb (fun o => by rw [harr]; exact hK o), if_neg (by omega)]
  · intro v'' hv''
    rw [if_neg (by omega)] at hv''
    rw [hv'']; exact h

/-! ## An undecided multi-word CAS -/

theorem noR_of_plain (hb : tb ≤ 61) {v : V} (h : ∀ o, Plain (v.mem (.arr o))) : NoR tb v ∧ NoK tb v :=
  ⟨fun o => (plain_flags hb (h o)).1, fun o => (plain_flags hb (h o)).2⟩

theorem noR_placed (hb : tb ≤ 61) {d : Ref} (hd : d.Fits tb) (hk : KRef d) {ws : List Entry} {A : Word → Word}
    (hA : ∀ o, Plain (A o)) {i : Nat} {v : V} (hm : ∀ o, v.mem (.arr o) = placed ws A (pack tb d) i o) : NoR tb v := by
  intro o
  rw [hm]
  unfold placed
  split
  · rw [unpack_pack tb hb d hd]; exact hk.2.2
  · exact (plain_flags hb (hA o)).1

theorem PI.to {t me : Word} {d : Ref} {ws : List Entry} {M : Loc → Word} {F : Bool} {A : Word → Word}
    {st wq : Word} {v : V} (hcl : ∀ l, cl (v.mem l) = v.mem l) (h : PI t d ws M F A st wq v) :
    PI me d ws v.mem F A st (WMut.unpack (v.mem (.wmut me))).seq v := by
  refine ⟨?_, h.cnt, h.ents, h.fail⟩
  funext l
  cases l with
  | arr o => rw [h.mem]; rfl
  | kmut x =>
    by_cases hx : x = d.tid
    · subst hx; rw [h.mem, memOf_k, memOf_k]
    · simp [memOf, hx]
  | wmut x =>
    by_cases hx : x = me
    · subst hx; rw [memOf_w]; exact clean_wmut (hcl _)
    · simp [memOf, hx]

section
variable {P : Nat} {t : Nat} {d : Ref} {ws : List Entry} {M : Loc → Word} {A : Word → Word} {wmax : Nat}

/-- Loop 1 finds the single-word descriptor if there is one. -/
theorem W.recover_words (hb : tb ≤ 61) (hP : P ≤ 2 ^ tb) (ht : t < P) (hd : d.Fits tb) (hk : KRef d) (hdt : d.tid = BitVec.ofNat 64 t)
    {F : Bool} (hA : ∀ o, Plain (A o)) (hw : wmax < 2 ^ seqSize tb) {i : Nat} {wq : Word} {v : V}
    (hT : Torn tb (BitVec.ofNat 64 t) d ws M F A wmax i wq v) (hc : CntOk P v.fld) {Q : Unit → V → Prop}
    (h : ∀ v' i' wq', i' ≤ ws.length → (∀ j (hj : j < ws.length), j < i' → A ws[j].off = ws[j].old) → wq'.toNat ≤ wmax →
      PI (BitVec.ofNat 64 t) d ws M F (placed ws A (pack tb d) i') Status.undecided.word wq' v' → CntOk P v'.fld → Q () v') :
    W full (KCAS.upTo P 0 (recoverWord tb)) Q v := by
  obtain ⟨hi, hold, hwq, hat⟩ := hT
  have hP64 : P ≤ 2 ^ 64 := Nat.le_trans hP (Nat.pow_le_pow_right (by decide) (by omega))
  have htn : (BitVec.ofNat 64 t : Word).toNat = t := by rw [BitVec.toNat_ofNat]; exact Nat.mod_eq_of_lt (by omega)
  refine W.upTo (fun x v' => CntOk P v'.fld ∧ ((∃ i' wq', i' ≤ ws.length ∧ (∀ j (hj : j < ws.length), j < i' → A ws[j].off = ws[j].old)
      ∧ wq'.toNat ≤ wmax ∧ PI (BitVec.ofNat 64 t) d ws M F (placed ws A (pack tb d) i') Status.undecided.word wq' v')
    ∨ (x ≤ t ∧ ∃ h : i < ws.length, A ws[i].off = ws[i].old ∧
        Mid1 tb (BitVec.ofNat 64 t) d ws M F (placed ws A (pack tb d) i) wq ws[i].off v'))) P ?_ P 0 (by omega) v ?_ ?_
  · rintro x v' hx ⟨hc', ⟨i', wq', h1, h2, h3, hp⟩ | ⟨hxt, hil, ho, hm⟩⟩
    · refine W.recoverWord_none (noR_placed hb hd hk hA (i := i') (ws := ws) (fun o => by rw [hp.mem]; rfl)) x ?_
      exact ⟨hc', .inl ⟨i', wq', h1, h2, h3, hp⟩⟩
    · have hr : Ref.Fits tb ⟨false, false, true, wq, BitVec.ofNat 64 t⟩ := ⟨by show (BitVec.ofNat 64 t : Word).toNat < _; omega, by show wq.toNat < _; omega⟩
      have hrw : WRef ⟨false, false, true, wq, BitVec.ofNat 64 t⟩ := ⟨rfl, rfl, rfl⟩
      by_cases hoff : v'.fld (.woff (BitVec.ofNat 64 x)) = ws[i].off
      · have hma : v'.mem (.arr ws[i].off) = pack tb ⟨false, false, true, wq, BitVec.ofNat 64 t⟩ := by
          rw [hm.pi.mem, memOf_arr]; unfold upd; rw [if_pos rfl]
        suffices hmain : W full (recoverWord tb x) (fun _ v' => CntOk P v'.fld →
            CntOk P v'.fld ∧ ((∃ i' wq', i' ≤ ws.length ∧ (∀ j (hj : j < ws.length), j < i' → A ws[j].off = ws[j].old)
              ∧ wq'.toNat ≤ wmax ∧ PI (BitVec.ofNat 64 t) d ws M F (placed ws A (pack tb d) i') Status.undecided.word wq' v')
            ∨ (x + 1 ≤ t ∧ ∃ h : i < ws.length, A ws[i].off = ws[i].old ∧
                Mid1 tb (BitVec.ofNat 64 t) d ws M F (placed ws A (pack tb d) i) wq ws[i].off v'))) v' by
          refine W.mono (W.few (P := P) ?_ hc' hmain) ?_
          · unfold recoverWord
            refine Each.bind (Few.rd _) fun _ => Each.bind (Few.pcasRead _) fun _ => ?_
            have hrest : Each (Act.Few P) (do
              let off ← step (.rd (.woff (BitVec.ofNat 64 x)))
              let v ← KCAS.pcasRead (.arr off)
              let _ ← step (.check (!(unpack tb v).rdcss))
              return ()) := Each.bind (Few.rd _) fun _ => Each.bind (Few.pcasRead _) fun _ => Each.bind (Few.check _) fun _ => Each.pure _
            exact Each.ite (Each.bind (Few.completeInstall _ _) fun _ => hrest) hrest
          · intro a v'' hq; exact hq.1 hq.2
        unfold recoverWord
        apply W.bind; refine W.rd trivial ?_
        apply W.bind; refine W.pcasRead trivial ?_
        rw [hoff, hma, unpack_pack tb hb _ hr, if_pos (by simp)]
        apply W.bind
        refine W.completeInstall hb (own_full _) (own_full _) hd hk hr hrw rfl (off := ws[i].off) trivial hm.pi (by simp [upd]) hm.off hm.kseq
          hm.ktid ?_
        intro hp
        have huu : upd (upd (placed ws A (pack tb d) i) ws[i].off (pack tb ⟨false, false, true, wq, BitVec.ofNat 64 t⟩)) ws[i].off (pack tb d)
            = placed ws A (pack tb d) (i + 1) := by
          rw [← placed_succ ws A _ i hil]
          funext o; unfold upd; split <;> rfl
        rw [huu] at hp
        apply W.bind; refine W.rd trivial ?_
        apply W.bind; refine W.pcasRead trivial ?_
        apply W.bind
        refine W.check ?_ ?_
        · have := noR_placed hb hd hk hA (i := i + 1) (ws := ws) (fun o => by rw [hp.mem]; rfl)
          rw [this]; rfl
        apply W.ret
        intro hcc
        refine ⟨hcc, .inl ⟨i + 1, wq, hil, ?_, hwq, hp⟩⟩
        intro j hj hji
        by_cases hje : j = i
        · subst hje; exact ho
        · exact hold j hj (by omega)
      · have hxt' : x ≠ t := by
          rintro rfl; exact hoff hm.off
        have hnr : (unpack tb (v'.mem (.arr (v'.fld (.woff (BitVec.ofNat 64 x)))))).rdcss = false := by
          rw [hm.pi.mem, memOf_arr]
          unfold upd
          rw [if_neg hoff]
          unfold placed
          split
          · rw [unpack_pack tb hb d hd]; exact hk.2.2
          · exact (plain_flags hb (hA _)).1
        unfold recoverWord
        apply W.bind; refine W.rd trivial ?_
        apply W.bind; refine W.pcasRead trivial ?_
        rw [if_neg (by rw [hnr]; simp)]
        apply W.bind; refine W.rd trivial ?_
        apply W.bind; refine W.pcasRead trivial ?_
        apply W.bind
        refine W.check (by rw [hnr]; rfl) ?_
        apply W.ret
        exact ⟨hc', .inr ⟨by omega, hil, ho, hm⟩⟩
  · refine ⟨hc, ?_⟩
    rcases hat with hp | hm
    · exact .inl ⟨i, wq, hi, hold, hwq, hp⟩
    · exact .inr ⟨Nat.zero_le _, hm⟩
  · rintro v' ⟨hc', ⟨i', wq', h1, h2, h3, hp⟩ | ⟨hx, -⟩⟩
    · exact h v' i' wq' h1 h2 h3 hp hc'
    · omega

/-- What recovery leaves of an undecided multi-word CAS. -/
structure Whole (P t : Nat) (ws : List Entry) (A : Word → Word) (F : Bool) (v : V) : Prop where
  settled : ∀ i < P, Settled v (BitVec.ofNat 64 i)
  cnt : CntOk P v.fld
  plain : ∀ o, Plain (v.mem (.arr o))
  all : (∀ e ∈ ws, A e.off = e.old) → (∀ e ∈ ws, v.mem (.arr e.off) = e.new) ∧ ∀ o, o ∉ ws.map Entry.off → v.mem (.arr o) = A o
  none : ¬ (∀ e ∈ ws, A e.off = e.old) → ∀ o, v.mem (.arr o) = A o
  fail : t = 0 → v.failed = F

theorem W.recover_torn (hb : tb ≤ 61) (hP0 : 0 < P) (hP : P ≤ 2 ^ tb) (ht : t < P) (hd : d.Fits tb) (hk : KRef d) (hdt : d.tid = BitVec.ofNat 64 t)
    {F : Bool} (hA : ∀ o, Plain (A o)) (hlen : ws.length < P) (hnd : (ws.map Entry.off).Nodup) (hnew : ∀ e ∈ ws, Plain e.new)
    {me : Word} (hme : me.toNat < 2 ^ tb) (hwm : (WMut.unpack (M (.wmut me))).seq.toNat ≤ wmax)
    (hw : wmax + 2 * ws.length < 2 ^ seqSize tb) (hev : d.seq.toNat % 2 = 0)
    (hM : ∀ i < P, i ≠ t → statusW (M (.kmut (BitVec.ofNat 64 i))) ≠ 0#64 ∧ (seqW (M (.kmut (BitVec.ofNat 64 i)))).toNat % 2 = 0)
    {i : Nat} {wq : Word} {v : V} (hT : Torn tb (BitVec.ofNat 64 t) d ws M F A wmax i wq v) (hc : CntOk P v.fld) (n : Nat) (hn : P + 1 ≤ n) :
    W full (recover tb P n me) (fun _ v' => Whole P t ws A F v') v := by
  have hs := seqSize_le hb
  have hd2 := hd.2
  have hP64 : P ≤ 2 ^ 64 := Nat.le_trans hP (Nat.pow_le_pow_right (by decide) (by omega))
  have htn : (BitVec.ofNat 64 t : Word).toNat = t := by rw [BitVec.toNat_ofNat]; exact Nat.mod_eq_of_lt (by omega)
  obtain ⟨n, rfl⟩ : ∃ k, n = k + 1 := ⟨n - 1, by omega⟩
  have hinj : ∀ x, x < P → x ≠ t → (BitVec.ofNat 64 x : Word) ≠ d.tid := by
    intro x hx hxt e
    rw [hdt] at e
    exact hxt (ofNat_inj (by omega) (by omega) e)
  unfold recover
  apply W.bind
  refine W.recover_words hb hP ht hd hk hdt hA (by omega) hT hc ?_
  clear hT hc i wq v
  intro v i wq hi hold hwq hp hc
  refine W.upTo (fun x v' => if x ≤ t then (∃ b, PI (BitVec.ofNat 64 t) d ws M b (placed ws A (pack tb d) i) Status.undecided.word wq v'
      ∧ (x = 0 → b = F)) ∧ CntOk P v'.fld else Whole P t ws A F v') P ?_ P 0 (by omega) v (by
        rw [if_pos (Nat.zero_le _)]; exact ⟨⟨F, hp, fun _ => rfl⟩, hc⟩) ?_
  · intro x v' hx hv'
    by_cases hxt : x ≤ t
    · rw [if_pos hxt] at hv'
      obtain ⟨⟨b, hp', hb0⟩, hc'⟩ := hv'
      have hR := noR_placed hb hd hk hA (i := i) (ws := ws) (v := v') (fun o => by rw [hp'.mem]; rfl)
      by_cases he : x = t
      · -- the undecided one
        subst he
        have hmk : v'.mem (.kmut (BitVec.ofNat 64 x)) = KMut.pack ⟨false, Status.undecided.word, d.seq⟩ := by
          rw [hp'.mem, ← hdt]; exact memOf_k
        have hunp : KMut.unpack (KMut.pack ⟨false, Status.undecided.word, d.seq⟩) = ⟨false, Status.undecided.word, d.seq⟩ :=
          KMut.unpack_pack _ ⟨by show Status.undecided.word.toNat < 4; decide, by show d.seq.toNat < 2 ^ 61; omega⟩
        have hdr : (⟨false, true, false, low (seqSize tb) d.seq, low tb (BitVec.ofNat 64 x)⟩ : Ref) = d := by
          rw [← hdt, low_id _ (by unfold seqSize; omega) _ hd.2, low_id _ (by omega) _ hd.1]
          obtain ⟨k1, k2, k3⟩ := hk
          cases d; simp only at k1 k2 k3; subst k1; subst k2; subst k3; rfl
        unfold recoverDesc
        apply W.bind; refine W.pcasRead trivial ?_
        rw [hmk, hunp]
        simp only
        rw [if_neg (by omega)]
        apply W.bind; refine W.pcasRead trivial ?_
        rw [hmk, hunp]
        simp only
        rw [if_pos trivial]
        apply W.bind; refine W.pcasRead trivial ?_
        rw [hmk, hunp]
        simp only
        rw [hdr]
        apply W.bind
        apply W.ofClean
        intro hcl
        have hpm := hp'.to (me := me) hcl
        have hwme : (WMut.unpack (v'.mem (.wmut me))).seq.toNat ≤ wmax := by
          rw [hp'.mem]
          show (WMut.unpack (if me = BitVec.ofNat 64 x then WMut.pack ⟨false, wq⟩ else M (.wmut me))).seq.toNat ≤ wmax
          split
          · rw [WMut.unpack_pack ⟨false, wq⟩ (show wq.toNat < 2 ^ 63 by omega)]; exact hwq
          · exact hwm
        -- after the multi-word CAS only the check is left
        have hdone : ∀ (v2 : V) (B : Word → Word) (st : Status) (wq2 : Word), st ≠ .undecided →
            PI me d ws v'.mem b B st.word wq2 v2 → (∀ o, Plain (B o)) → CntOk P v2.fld →
            ((∀ e ∈ ws, A e.off = e.old) → (∀ e ∈ ws, B e.off = e.new) ∧ ∀ o, o ∉ ws.map Entry.off → B o = A o) →
            (¬ (∀ e ∈ ws, A e.off = e.old) → ∀ o, B o = A o) →
            W full (KCAS.recoverCheck tb P (n + 1)) (fun _ v' => if x + 1 ≤ x then (∃ b, PI (BitVec.ofNat 64 x) d ws M b
              (placed ws A (pack tb d) i) Status.undecided.word wq v' ∧ (x + 1 = 0 → b = F)) ∧ CntOk P v'.fld else Whole P x ws A F v') v2 := by
          intro v2 B st wq2 hst hp2 hB hc2 hall hnone
          have harr : ∀ o, v2.mem (.arr o) = B o := fun o => by rw [hp2.mem]; rfl
          obtain ⟨hR2, hK2⟩ := noR_of_plain hb (v := v2) (fun o => by rw [harr]; exact hB o)
          refine W.recoverCheck hP0 (by omega) hc2 hR2 ?_
          intro b' hb'
          rw [if_neg (by omega), hb' hK2]
          have hstw : st.word ≠ 0#64 ∧ st.word.toNat < 4 := by cases st <;> first | exact absurd rfl hst | decide
          refine ⟨?_, hc2, ?_, ?_, ?_, ?_⟩
          · intro j hj
            show statusW (v2.mem _) ≠ _ ∧ (seqW (v2.mem _)).toNat % 2 = 0
            by_cases hjx : j = x
            · subst hjx
              rw [hp2.mem, ← hdt, memOf_k]
              unfold statusW seqW
              rw [KMut.unpack_pack _ ⟨hstw.2, by show d.seq.toNat < 2 ^ 61; omega⟩]
              exact ⟨hstw.1, hev⟩
            · have hjd := hinj j hj hjx
              have : v2.mem (.kmut (BitVec.ofNat 64 j)) = M (.kmut (BitVec.ofNat 64 j)) := by
                rw [hp2.mem]
                show (if BitVec.ofNat 64 j = d.tid then _ else v'.mem (.kmut (BitVec.ofNat 64 j))) = _
                rw [if_neg hjd, hp'.mem]
                show (if BitVec.ofNat 64 j = d.tid then _ else M (.kmut (BitVec.ofNat 64 j))) = _
                rw [if_neg hjd]
              rw [this]; exact hM j hj hjx
          · intro o; show Plain (v2.mem _); rw [harr]; exact hB o
          · intro ha
            refine ⟨fun e he => ?_, fun o ho => ?_⟩
            · show v2.mem _ = _; rw [harr]; exact (hall ha).1 e he
            · show v2.mem _ = _; rw [harr]; exact (hall ha).2 o ho
          · intro ha o
            show v2.mem _ = _; rw [harr]; exact hnone ha o
          · intro hx0
            show v2.failed = F
            rw [hp2.fail]; exact hb0 hx0
        refine W.mono (W.few (P := P) (Few.pmwcas tb _ _ _ _) hc' (W.pmwcas_again hb hme (own_full _) (own_full _) hd hk (fun _ _ => trivial)
          (by omega) hnd (fun e _ => hA _) hnew (by omega) n (by omega) v' i hi hold hpm (Q := fun _ v2 => ∃ B st wq2, st ≠ Status.undecided ∧
            PI me d ws v'.mem b B st.word wq2 v2 ∧ (∀ o, Plain (B o)) ∧
            ((∀ e ∈ ws, A e.off = e.old) → (∀ e ∈ ws, B e.off = e.new) ∧ ∀ o, o ∉ ws.map Entry.off → B o = A o) ∧
            (¬ (∀ e ∈ ws, A e.off = e.old) → ∀ o, B o = A o)) ?_ ?_)) ?_
        · rintro v2 wq2 ha - ⟨B, hp2, hB1, hB2⟩
          refine ⟨B, .succeeded, wq2, by decide, hp2, ?_, fun _ => ⟨hB1, hB2⟩, fun hna => absurd ha hna⟩
          intro o
          by_cases ho : o ∈ ws.map Entry.off
          · obtain ⟨e, he, rfl⟩ := List.mem_map.1 ho
            rw [hB1 e he]; exact hnew e he
          · rw [hB2 o ho]; exact hA o
        · intro v2 wq2 hna _ hp2
          exact ⟨A, .failed, wq2, by decide, hp2, hA, fun ha => absurd ha hna, fun _ _ => rfl⟩
        · rintro _ v2 ⟨⟨B, st, wq2, h1, h2, h3, h4, h5⟩, hc2⟩
          exact hdone v2 B st wq2 h1 h2 h3 hc2 h4 h5
      · have hmx : v'.mem (.kmut (BitVec.ofNat 64 x)) = M (.kmut (BitVec.ofNat 64 x)) := by
          rw [hp'.mem]
          show (if BitVec.ofNat 64 x = d.tid then _ else M (.kmut (BitVec.ofNat 64 x))) = _
          rw [if_neg (hinj x hx he)]
        refine W.recoverDesc_settled hP0 (by omega) hc' hR me x (by unfold Settled; rw [hmx]; exact hM x hx he) ?_
        intro b' _
        rw [if_pos (by omega)]
        exact ⟨⟨b', ⟨hp'.mem, hp'.cnt, hp'.ents, rfl⟩, by omega⟩, hc'⟩
    · rw [if_neg hxt] at hv'
      obtain ⟨hR, hK⟩ := noR_of_plain hb hv'.plain
      refine W.recoverDesc_settled hP0 (by omega) hv'.cnt hR me x (hv'.settled x hx) ?_
      intro b' hb'
      rw [if_neg (by omega), hb' hK]
      exact hv'
  · intro v' hv'
    rw [if_neg (by omega)] at hv'
    exact hv'

end

end PMap.KCAS
