import Verif.KCAS.Logic

/-! # One multi-word CAS running alone (helper lemmas) -/

namespace PMap.KCAS

/-! ## Facts about words -/

theorem cl_of_plain {w : Word} (h : w.toNat % 8 = 0) : cl w = w := (cl_eq_iff w).2 (by omega)

theorem cl_kmut (b : Bool) (st q : Word) (h1 : st.toNat < 4) (h2 : q.toNat < 2 ^ 61) :
    cl (KMut.pack ⟨b, st, q⟩) = KMut.pack ⟨false, st, q⟩ := by
  apply BitVec.eq_of_toNat_eq
  rw [cl_toNat, KMut.pack_toNat _ ⟨h1, h2⟩, KMut.pack_toNat _ ⟨h1, h2⟩]
  cases b
  · simp; omega
  · simp; omega

theorem cl_wmut (b : Bool) (q : Word) (h2 : q.toNat < 2 ^ 63) :
    cl (WMut.pack ⟨b, q⟩) = WMut.pack ⟨false, q⟩ := by
  apply BitVec.eq_of_toNat_eq
  rw [cl_toNat, WMut.pack_toNat ⟨b, q⟩ h2, WMut.pack_toNat ⟨false, q⟩ h2]
  cases b
  · simp
  · simp; omega

variable {tb : Nat} {Z : Foot}

/-- pmwcas.hpp:269-270: the thread whose descriptor a field belongs to. -/
def Fld.owner : Fld → Word
  | .count t | .koff t _ | .kold t _ | .knew t _ | .woff t | .wold t | .wnew t | .wkseq t | .wktid t => t

/-- The part of memory contains the descriptors of a thread. -/
structure Own (Z : Foot) (t : Word) : Prop where
  k : Z.L (.kmut t)
  w : Z.L (.wmut t)
  f : ∀ g : Fld, g.owner = t → Z.G g

/-- Discharge side conditions about the part of memory used. -/
macro "foot" : tactic => `(tactic| first
  | assumption
  | exact Own.k (by assumption)
  | exact Own.w (by assumption)
  | exact Own.f (by assumption) _ rfl)

theorem pack_mod8 (hb : tb ≤ 61) (d : Ref) (h : d.Fits tb) :
    (pack tb d).toNat % 8 = d.rdcss.toNat * 4 + d.kcas.toNat * 2 + d.dirty.toNat := by
  rw [pack_toNat tb hb d h]
  have h0 : ∀ b : Bool, b.toNat < 2 := by intro b; cases b <;> decide
  have := h0 d.rdcss
  have := h0 d.kcas
  have := h0 d.dirty
  have hx : d.tid.toNat * (2 ^ seqSize tb * 8) = (d.tid.toNat * 2 ^ seqSize tb) * 8 := by ring
  omega

/-- A reference to a multi-word descriptor. -/
def KRef (d : Ref) : Prop := d.dirty = false ∧ d.kcas = true ∧ d.rdcss = false
/-- A reference to a single-word descriptor. -/
def WRef (d : Ref) : Prop := d.dirty = false ∧ d.kcas = false ∧ d.rdcss = true

theorem pack_k8 (hb : tb ≤ 61) {d : Ref} (h : d.Fits tb) (hk : KRef d) : (pack tb d).toNat % 8 = 2 := by
  rw [pack_mod8 hb d h, hk.1, hk.2.1, hk.2.2]; rfl

theorem pack_w8 (hb : tb ≤ 61) {d : Ref} (h : d.Fits tb) (hk : WRef d) : (pack tb d).toNat % 8 = 4 := by
  rw [pack_mod8 hb d h, hk.1, hk.2.1, hk.2.2]; rfl

theorem or_bit (w : Word) (i : Nat) (h : w.toNat / 2 ^ i % 2 = 1) : w ||| BitVec.ofNat 64 (2 ^ i) = w := by
  apply BitVec.eq_of_getLsbD_eq
  intro j hj
  rw [BitVec.getLsbD_or, BitVec.getLsbD_ofNat, Nat.testBit_two_pow]
  by_cases hij : i = j
  · subst hij
    rw [BitVec.getLsbD, Nat.testBit_eq_decide_div_mod_eq, h]; rfl
  · simp [hij]

theorem pack_or_pmwcas (hb : tb ≤ 61) {d : Ref} (h : d.Fits tb) (hk : KRef d) : pack tb d ||| PMwCASBit = pack tb d := by
  have := pack_k8 hb h hk
  exact or_bit _ 1 (by omega)

theorem cl_pack_k (hb : tb ≤ 61) {d : Ref} (h : d.Fits tb) (hk : KRef d) : cl (pack tb d) = pack tb d := by
  have := pack_k8 hb h hk
  exact (cl_eq_iff _).2 (by omega)

theorem cl_pack_w (hb : tb ≤ 61) {d : Ref} (h : d.Fits tb) (hk : WRef d) : cl (pack tb d) = pack tb d := by
  have := pack_w8 hb h hk
  exact (cl_eq_iff _).2 (by omega)

theorem cl_ne_dirty (w x : Word) : cl w ≠ x ||| DirtyBit := by
  intro h
  have h1 := cl_toNat w
  have h2 : (x ||| DirtyBit) &&& DirtyBit ≠ 0#64 := by
    unfold DirtyBit
    intro e
    have := congrArg (fun y => y.getLsbD 0) e
    simp at this
  rw [Ne, dirty_iff, ← h] at h2
  omega

theorem plain_flags {w : Word} (hb : tb ≤ 61) (h : w.toNat % 8 = 0) :
    (unpack tb w).rdcss = false ∧ (unpack tb w).kcas = false := by
  obtain ⟨-, -, a3, a4, -⟩ := unpack_fields tb hb w
  rw [a3, a4]
  constructor
  · rw [decide_eq_false_iff_not]; omega
  · rw [decide_eq_false_iff_not]; omega

/-! ## Memory while a multi-word CAS of thread `t` is under way -/

/-- The words in memory (without dirty bits). -/
def memOf (t me : Word) (A : Word → Word) (st kq wq : Word) (M : Loc → Word) : Loc → Word
  | .arr o => A o
  | .kmut x => if x = t then KMut.pack ⟨false, st, kq⟩ else M (.kmut x)
  | .wmut x => if x = me then WMut.pack ⟨false, wq⟩ else M (.wmut x)

/-- Fields and words while the multi-word CAS `d` runs. -/
structure PI (me : Word) (d : Ref) (ws : List Entry) (M : Loc → Word) (F : Bool) (A : Word → Word) (st wq : Word) (v : V) :
    Prop where
  mem : v.mem = memOf d.tid me A st d.seq wq M
  cnt : v.fld (.count d.tid) = BitVec.ofNat 64 ws.length
  ents : ∀ j (h : j < ws.length), v.fld (.koff d.tid j) = ws[j].off ∧ v.fld (.kold d.tid j) = ws[j].old
    ∧ v.fld (.knew d.tid j) = ws[j].new
  fail : v.failed = F

theorem memOf_arr {t me : Word} {A : Word → Word} {st kq wq : Word} {M : Loc → Word} (o : Word) :
    memOf t me A st kq wq M (.arr o) = A o := rfl
theorem memOf_k {t me : Word} {A : Word → Word} {st kq wq : Word} {M : Loc → Word} :
    memOf t me A st kq wq M (.kmut t) = KMut.pack ⟨false, st, kq⟩ := if_pos rfl
theorem memOf_w {t me : Word} {A : Word → Word} {st kq wq : Word} {M : Loc → Word} :
    memOf t me A st kq wq M (.wmut me) = WMut.pack ⟨false, wq⟩ := if_pos rfl

/-- Change one word of the array. -/
def upd (A : Word → Word) (o w : Word) : Word → Word := fun o' => if o' = o then w else A o'

section
variable {me : Word} {d : Ref} {ws : List Entry} {M : Loc → Word} {F : Bool} {A : Word → Word} {st wq : Word} {v : V}

theorem PI.put_arr (h : PI me d ws M F A st wq v) (o w : Word) : PI me d ws M F (upd A o w) st wq (v.put (.arr o) w) := by
  refine ⟨?_, h.cnt, h.ents, h.fail⟩
  show (fun l' => if l' = .arr o then w else v.mem l') = _
  rw [h.mem]
  funext l
  cases l with
  | arr o' => simp only [memOf, upd, Loc.arr.injEq]
  | kmut x => simp [memOf]
  | wmut x => simp [memOf]

theorem PI.put_w (h : PI me d ws M F A st wq v) (q : Word) :
    PI me d ws M F A st q (v.put (.wmut me) (WMut.pack ⟨false, q⟩)) := by
  refine ⟨?_, h.cnt, h.ents, h.fail⟩
  show (fun l' => if l' = .wmut me then _ else v.mem l') = _
  rw [h.mem]
  funext l
  cases l with
  | arr o' => simp [memOf]
  | kmut x => simp [memOf]
  | wmut x =>
    simp only [memOf, Loc.wmut.injEq]
    split <;> rfl

theorem PI.put_k (h : PI me d ws M F A st wq v) (q : Word) :
    PI me d ws M F A q wq (v.put (.kmut d.tid) (KMut.pack ⟨false, q, d.seq⟩)) := by
  refine ⟨?_, h.cnt, h.ents, h.fail⟩
  show (fun l' => if l' = .kmut d.tid then _ else v.mem l') = _
  rw [h.mem]
  funext l
  cases l with
  | arr o' => simp [memOf]
  | wmut x => simp [memOf]
  | kmut x =>
    simp only [memOf, Loc.kmut.injEq]
    split <;> rfl

/-- Fields of single-word descriptors do not matter. -/
def WField : Fld → Prop
  | .woff _ | .wold _ | .wnew _ | .wkseq _ | .wktid _ => True
  | _ => False

theorem PI.set_w (h : PI me d ws M F A st wq v) (f : Fld) (hf : WField f) (w : Word) :
    PI me d ws M F A st wq (v.set f w) := by
  have hne : ∀ g, ¬ WField g → (v.set f w).fld g = v.fld g := by
    intro g hg
    show (if g = f then w else v.fld g) = _
    rw [if_neg]; rintro rfl; exact hg hf
  refine ⟨h.mem, ?_, ?_, h.fail⟩
  · rw [hne _ (by simp [WField])]; exact h.cnt
  · intro j hj
    rw [hne _ (by simp [WField]), hne _ (by simp [WField]), hne _ (by simp [WField])]
    exact h.ents j hj

end

/-! ## The functions -/

theorem W.casField {d : Ref} {e n : Word} {l : Loc} {sc : Bool} {Q : Bool × Word × Bool → V → Prop} {v : V}
    (hl : Z.L l) (hq : W Z (getSeq d) (fun q v' => q = d.seq ∧ v' = v) v)
    (h1 : v.mem l = e → Q (true, e, sc) (v.put l (cl n))) (h2 : v.mem l ≠ e → Q (false, v.mem l, sc) v) :
    W Z (casField d e n l sc) Q v := by
  unfold KCAS.casField
  apply W.bind; refine W.pcasRead (by foot) ?_
  apply W.bind
  refine W.mono hq ?_
  rintro q v' ⟨rfl, rfl⟩
  rw [if_neg (by simp)]
  apply W.ite
  · intro hc; exact W.ret (h2 hc)
  · intro hc
    have hc := not_not.1 hc
    apply W.bind
    refine W.pcas (by foot) ?_ ?_
    · intro h; exact W.ret (h1 h)
    · intro h; exact absurd hc h

theorem W.getSeqK {d : Ref} (ho : Own Z d.tid) (hk : KRef d) {st : Word} {v : V} {Q : Word → V → Prop}
    (hm : v.mem (.kmut d.tid) = KMut.pack ⟨false, st, d.seq⟩) (h1 : st.toNat < 4) (h2 : d.seq.toNat < 2 ^ 61)
    (h : Q d.seq v) : W Z (getSeq d) Q v := by
  unfold getSeq
  rw [if_pos ⟨hk.2.1, by rw [hk.2.2]; simp⟩]
  apply W.bind; refine W.pcasRead (by foot) ?_
  rw [hm, KMut.unpack_pack _ ⟨h1, h2⟩]
  exact W.ret h

theorem W.getSeqW {d : Ref} (ho : Own Z d.tid) (hk : WRef d) {v : V} {Q : Word → V → Prop}
    (hm : v.mem (.wmut d.tid) = WMut.pack ⟨false, d.seq⟩) (h2 : d.seq.toNat < 2 ^ 63)
    (h : Q d.seq v) : W Z (getSeq d) Q v := by
  unfold getSeq
  rw [if_neg (by rw [hk.2.1]; simp), if_pos ⟨by rw [hk.2.1]; simp, hk.2.2⟩]
  apply W.bind; refine W.pcasRead (by foot) ?_
  rw [hm, WMut.unpack_pack ⟨false, d.seq⟩ h2]
  exact W.ret h

theorem add1_toNat (q : Word) (h : q.toNat + 1 < 2 ^ 64) : (q + 1#64).toNat = q.toNat + 1 := by
  rw [BitVec.toNat_add]; exact Nat.mod_eq_of_lt h

theorem seqSize_le (hb : tb ≤ 61) : 2 ^ seqSize tb ≤ 2 ^ 61 := Nat.pow_le_pow_right (by decide) (by unfold seqSize; omega)

/-- `createNew` of a single-word descriptor. -/
theorem W.createRDCSS (hb : tb ≤ 61) {me : Word} (hme : me.toNat < 2 ^ tb) {d : Ref} (hoM : Own Z me) {ws : List Entry}
    {M : Loc → Word} {F : Bool} {A : Word → Word} {st wq : Word} {v : V} (hp : PI me d ws M F A st wq v) (e : Entry)
    (hw : wq.toNat + 2 < 2 ^ seqSize tb) {Q : Ref → V → Prop}
    (h : ∀ v', PI me d ws M F A st (wq + 2#64) v' → v'.fld (.woff me) = e.off → v'.fld (.wold me) = e.old →
      v'.fld (.wkseq me) = d.seq → v'.fld (.wktid me) = d.tid → Q ⟨false, false, true, wq + 2#64, me⟩ v') :
    W Z (createRDCSS tb me d.tid e d) Q v := by
  have hs := seqSize_le hb
  have e1 := add1_toNat wq (by omega)
  have e2 := add1_toNat (wq + 1#64) (by omega)
  have l1 : low 63 (wq + 1#64) = wq + 1#64 := low_id _ (by decide) _ (by omega)
  have l2 : low 63 (wq + 1#64 + 1#64) = wq + 1#64 + 1#64 := low_id _ (by decide) _ (by omega)
  have l3 : low (seqSize tb) (wq + 1#64 + 1#64) = wq + 1#64 + 1#64 := low_id _ (by unfold seqSize; omega) _ (by omega)
  have l4 : low tb me = me := low_id _ (by omega) _ hme
  have e3 : wq + 1#64 + 1#64 = wq + 2#64 := by rw [BitVec.add_assoc]; rfl
  unfold KCAS.createRDCSS
  apply W.bind; refine W.pcasRead (by foot) ?_
  rw [hp.mem, memOf_w, WMut.unpack_pack ⟨false, wq⟩ (show wq.toNat < 2 ^ 63 by omega)]
  simp only [l1, l2, l3, l4]
  apply W.bind; refine W.st (by foot) ?_
  rw [cl_wmut _ _ (by omega)]
  have hp1 := hp.put_w (wq + 1#64)
  apply W.bind; refine W.persist (by foot) ?_
  apply W.bind; refine W.wr (by foot) ?_
  apply W.bind; refine W.wr (by foot) ?_
  apply W.bind; refine W.wr (by foot) ?_
  apply W.bind; refine W.wr (by foot) ?_
  apply W.bind; refine W.wr (by foot) ?_
  have hp2 := ((((hp1.set_w (.woff me) trivial e.off).set_w (.wold me) trivial e.old).set_w (.wnew me) trivial e.new).set_w
    (.wkseq me) trivial d.seq).set_w (.wktid me) trivial d.tid
  apply W.bind; refine W.st (by foot) ?_
  rw [cl_wmut _ _ (by omega)]
  have hp3 := hp2.put_w (wq + 1#64 + 1#64)
  apply W.bind; refine W.persist (by foot) ?_
  apply W.ret
  rw [e3] at hp3 ⊢
  refine h _ hp3 ?_ ?_ ?_ ?_ <;> simp [V.set, V.put]

/-- `CompleteInstall` of our own descriptor while the multi-word CAS is undecided. -/
theorem W.completeInstall (hb : tb ≤ 61) {me : Word} {d : Ref} (hoM : Own Z me) (hoD : Own Z d.tid) (hd : d.Fits tb) (hk : KRef d) {ws : List Entry}
    {M : Loc → Word} {F : Bool} {A : Word → Word} {v : V} {r : Ref} (hr : r.Fits tb) (hrw : WRef r) (hrt : r.tid = me)
    {off : Word} (hoff : Z.L (.arr off)) (hp : PI me d ws M F A Status.undecided.word r.seq v) (hA : A off = pack tb r) (f1 : v.fld (.woff me) = off)
    (f3 : v.fld (.wkseq me) = d.seq) (f4 : v.fld (.wktid me) = d.tid) {Q : Bool → V → Prop}
    (h : PI me d ws M F (upd A off (pack tb d)) Status.undecided.word r.seq (v.put (.arr off) (pack tb d)) →
      Q true (v.put (.arr off) (pack tb d))) :
    W Z (completeInstall tb r) Q v := by
  have hs := seqSize_le hb
  have hd2 := hd.2
  have hdum : (⟨false, true, false, low (seqSize tb) d.seq, low tb d.tid⟩ : Ref) = d := by
    rw [low_id _ (by unfold seqSize; omega) _ hd.2, low_id _ (by omega) _ hd.1]
    obtain ⟨k1, k2, k3⟩ := hk
    cases d; simp only at k1 k2 k3; subst k1; subst k2; subst k3; rfl
  unfold KCAS.completeInstall
  rw [hrt]
  apply W.bind; refine W.rd (by foot) ?_; rw [f3]
  apply W.bind; refine W.rd (by foot) ?_; rw [f4]
  apply W.bind; refine W.rd (by foot) ?_; rw [f4]
  simp only [hdum]
  apply W.bind
  unfold readField
  apply W.bind; refine W.pcasRead (by foot) ?_
  have hmk : v.mem (.kmut d.tid) = KMut.pack ⟨false, Status.undecided.word, d.seq⟩ := by rw [hp.mem]; exact memOf_k
  rw [hmk]
  apply W.bind
  refine W.getSeqK hoD hk hmk (by decide) (by omega) ?_
  rw [if_neg (by simp)]
  apply W.ret
  simp only
  rw [KMut.unpack_pack _ ⟨show Status.undecided.word.toNat < 4 by decide, show d.seq.toNat < 2 ^ 61 by omega⟩]
  rw [show ((Status.undecided.word == Status.undecided.word) && true) = true by decide]
  apply W.bind
  apply W.check
  · have h4 := pack_w8 hb hr hrw
    rw [bne_iff_ne, Ne, rdcss_iff]
    omega
  apply W.bind; refine W.rd (by foot) ?_
  apply W.bind; refine W.rd (by foot) ?_; rw [f1]
  apply W.bind
  rw [if_pos rfl]
  have hmw : v.mem (.wmut r.tid) = WMut.pack ⟨false, r.seq⟩ := by rw [hp.mem, hrt]; exact memOf_w
  have hr2 := hr.2
  refine W.casField (by foot) ?_ ?_ ?_
  · exact W.getSeqW (by rw [hrt]; exact hoM) hrw hmw (by omega) ⟨rfl, rfl⟩
  · intro _
    rw [cl_pack_k hb hd hk]
    exact W.ret (h (hp.put_arr _ _))
  · intro hne
    exfalso; apply hne
    rw [hp.mem]; exact hA

/-- One word: placed if it holds what is expected, otherwise the multi-word CAS fails. -/
theorem W.placeWord (hb : tb ≤ 61) {me : Word} (hme : me.toNat < 2 ^ tb) {d : Ref} (hoM : Own Z me) (hoD : Own Z d.tid) (hd : d.Fits tb) (hk : KRef d)
    {ws : List Entry} (hZ : ∀ e ∈ ws, Z.L (.arr e.off)) {M : Loc → Word} {F : Bool} {A : Word → Word} {wq : Word} {v : V} (help : Ref → Option Word → Prog Bool)
    (n : Nat) (hp : PI me d ws M F A Status.undecided.word wq v) (i : Nat) (hi : i < ws.length)
    (hw : wq.toNat + 2 < 2 ^ seqSize tb) (hpl : (A ws[i].off).toNat % 8 = 0) {Q : Ctl (Nat × Bool) Status → V → Prop}
    (h1 : ∀ v', A ws[i].off = ws[i].old →
      PI me d ws M F (upd A ws[i].off (pack tb d)) Status.undecided.word (wq + 2#64) v' → Q (.next (i + 1, true)) v')
    (h2 : ∀ v', A ws[i].off ≠ ws[i].old → PI me d ws M F A Status.undecided.word (wq + 2#64) v' → Q (.done .failed) v') :
    W Z (placeWord tb help (n + 1) me d i) Q v := by
  have hs := seqSize_le hb
  obtain ⟨g1, g2, g3⟩ := hp.ents i hi
  have hzi : Z.L (.arr ws[i].off) := hZ _ (List.getElem_mem hi)
  unfold KCAS.placeWord
  apply W.bind; refine W.rd (by foot) ?_; rw [g1]
  apply W.bind; refine W.rd (by foot) ?_; rw [g2]
  apply W.bind; refine W.rd (by foot) ?_; rw [g3]
  apply W.bind
  apply W.createRDCSS hb hme hoM hp _ hw
  intro v1 hp1 q1 q2 q3 q4
  simp only at q1 q2
  have hq2 : (wq + 2#64).toNat = wq.toNat + 2 := by
    rw [BitVec.toNat_add]; exact Nat.mod_eq_of_lt (show wq.toNat + 2 < 2 ^ 64 by omega)
  have hr : Ref.Fits tb ⟨false, false, true, wq + 2#64, me⟩ := ⟨hme, by show (wq + 2#64).toNat < _; omega⟩
  have hrw : WRef ⟨false, false, true, wq + 2#64, me⟩ := ⟨rfl, rfl, rfl⟩
  generalize hrd : (⟨false, false, true, wq + 2#64, me⟩ : Ref) = r at hr hrw ⊢
  have hrt : r.tid = me := by rw [← hrd]
  have hrs : r.seq = wq + 2#64 := by rw [← hrd]
  rw [← hrs] at hp1 h1 h2
  apply W.bind
  have hmw : v1.mem (.wmut r.tid) = WMut.pack ⟨false, r.seq⟩ := by rw [hp1.mem, hrt]; exact memOf_w
  have hma : v1.mem (.arr ws[i].off) = A ws[i].off := by rw [hp1.mem]; rfl
  have hr2 := hr.2
  unfold KCAS.install
  apply W.loop
  rw [hrt]
  apply W.bind; refine W.rd (by foot) ?_; rw [q2]
  apply W.bind; refine W.rd (by foot) ?_; rw [q1]
  apply W.bind
  refine W.casField (by foot) ?_ ?_ ?_
  · exact W.getSeqW (by rw [hrt]; exact hoM) hrw hmw (by omega) ⟨rfl, rfl⟩
  · -- the word holds the expected value
    intro hm
    rw [hma] at hm
    rw [hm] at hpl
    rw [cl_pack_w hb hr hrw]
    have hp2 := hp1.put_arr ws[i].off (pack tb r)
    apply W.bind
    apply W.check (by simp)
    rw [if_neg (by simp), if_neg (by simp [(plain_flags hb hpl).1]), if_pos rfl]
    apply W.bind
    refine W.completeInstall hb hoM hoD hd hk hr hrw hrt hzi hp2 (by simp [upd]) q1 q3 q4 ?_
    intro hp3
    apply W.ret
    simp only
    rw [if_neg (by simp)]
    apply W.bind; refine W.rd (by foot) ?_
    rw [if_pos (show ws[i].old = _ by rw [← q2]; rfl)]
    apply W.ret
    refine h1 _ hm ?_
    have : upd (upd A ws[i].off (pack tb r)) ws[i].off (pack tb d) = upd A ws[i].off (pack tb d) := by
      funext o; unfold upd; split <;> rfl
    rw [← this]; exact hp3
  · -- it does not
    intro hm
    rw [hma] at hm ⊢
    apply W.bind
    apply W.check (by simp [hm])
    rw [if_neg (by simp), if_neg (by simp [(plain_flags hb hpl).1]), if_neg hm]
    apply W.ret
    simp only
    rw [if_neg (by simp)]
    apply W.bind; refine W.rd (by foot) ?_
    rw [q2, if_neg hm, if_neg (by simp [(plain_flags hb hpl).2])]
    apply W.ret
    exact h2 _ hm hp1

/-! ## Loops -/

theorem W.ofClean {α : Type} {p : Prog α} {Q : α → V → Prop} {v : V} (h : (∀ l, cl (v.mem l) = v.mem l) → W Z p Q v) :
    W Z p Q v := by
  intro s hs
  refine h ?_ s hs
  intro l; rw [← hs]; exact cl_cl _

/-- The array with `x` in the first `i` words. -/
def placed (ws : List Entry) (A : Word → Word) (x : Word) (i : Nat) : Word → Word :=
  fun o => if o ∈ (ws.take i).map Entry.off then x else A o

theorem placed_zero (ws : List Entry) (A : Word → Word) (x : Word) : placed ws A x 0 = A := by
  funext o; simp [placed]

theorem placed_succ (ws : List Entry) (A : Word → Word) (x : Word) (i : Nat) (hi : i < ws.length) :
    upd (placed ws A x i) ws[i].off x = placed ws A x (i + 1) := by
  funext o
  unfold upd placed
  rw [List.take_add_one, List.getElem?_eq_getElem hi]
  simp only [Option.toList_some, List.map_append, List.map_cons, List.map_nil, List.mem_append, List.mem_singleton]
  by_cases h : o = ws[i].off
  · rw [if_pos h, if_pos (Or.inr h)]
  · simp [h]

theorem placed_fresh (ws : List Entry) (A : Word → Word) (x : Word) (i : Nat) (hi : i < ws.length)
    (hn : (ws.map Entry.off).Nodup) : placed ws A x i ws[i].off = A ws[i].off := by
  unfold placed
  rw [if_neg]
  intro hm
  rw [List.mem_map] at hm
  obtain ⟨e, he, heq⟩ := hm
  obtain ⟨j, hj, hje⟩ := List.mem_iff_getElem.1 he
  rw [List.getElem_take] at hje
  rw [List.length_take] at hj
  have hjl : j < ws.length := by omega
  have := (List.Nodup.getElem_inj_iff (l := ws.map Entry.off) hn (i := j) (j := i) (hi := by simpa using hjl)
    (hj := by simpa using hi)).1 (by rw [List.getElem_map, List.getElem_map, hje, heq])
  omega

theorem cnt_toNat {ws : List Entry} (h : ws.length < 2 ^ 64) : (BitVec.ofNat 64 ws.length : Word).toNat = ws.length := by
  rw [BitVec.toNat_ofNat]; exact Nat.mod_eq_of_lt h

theorem W.place (hb : tb ≤ 61) {me : Word} (hme : me.toNat < 2 ^ tb) {d : Ref} (hoM : Own Z me) (hoD : Own Z d.tid) (hd : d.Fits tb) (hk : KRef d)
    {ws : List Entry} (hZ : ∀ e ∈ ws, Z.L (.arr e.off)) {M : Loc → Word} {F : Bool} {A : Word → Word} {wq0 : Nat} (help : Ref → Option Word → Prog Bool)
    (hlen : ws.length < 2 ^ 64) (hn : (ws.map Entry.off).Nodup) (hpl : ∀ e ∈ ws, (A e.off).toNat % 8 = 0)
    (hw : wq0 + 2 * ws.length < 2 ^ seqSize tb) {Q : Status → V → Prop} (n : Nat)
    (h1 : ∀ v' wq, (∀ e ∈ ws, A e.off = e.old) → wq.toNat = wq0 + 2 * ws.length →
      PI me d ws M F (placed ws A (pack tb d) ws.length) Status.undecided.word wq v' → Q .succeeded v')
    (h2 : ∀ v' wq i, ¬ (∀ e ∈ ws, A e.off = e.old) → i < ws.length → (∀ j (hj : j < ws.length), j < i → A ws[j].off = ws[j].old) →
      wq.toNat ≤ wq0 + 2 * ws.length → PI me d ws M F (placed ws A (pack tb d) i) Status.undecided.word wq v' → Q .failed v')
    (m i : Nat) (v : V) (wq : Word) (hi : i ≤ ws.length) (hm : ws.length < m + i)
    (hold : ∀ j (hj : j < ws.length), j < i → A ws[j].off = ws[j].old)
    (hwq : wq.toNat = wq0 + 2 * i) (hp : PI me d ws M F (placed ws A (pack tb d) i) Status.undecided.word wq v) :
    W Z (KCAS.loop m (fun (x : Nat × Bool) => do
      if x.2 then do
        let c ← step (.rd (.count d.tid))
        if x.1 < c.toNat then KCAS.placeWord tb help (n + 1) me d x.1 else return .done .succeeded
      else KCAS.placeWord tb help (n + 1) me d x.1) (i, true)) Q v := by
  induction m generalizing i v wq with
  | zero => omega
  | succ m ih =>
    apply W.loop
    rw [if_pos rfl]
    apply W.bind; refine W.rd (by foot) ?_
    rw [hp.cnt, cnt_toNat hlen]
    apply W.ite
    · intro hil
      have hil : i < ws.length := hil
      have hfr := placed_fresh ws A (pack tb d) i hil hn
      have hmem : ws[i] ∈ ws := List.getElem_mem hil
      refine W.placeWord hb hme hoM hoD hd hk hZ help n hp i hil (by omega) (by rw [hfr]; exact hpl _ hmem) ?_ ?_
      · intro v' ho hp'
        rw [placed_succ ws A _ i hil] at hp'
        rw [hfr] at ho
        have hwt : (wq + 2#64).toNat = wq.toNat + 2 := by
          have := seqSize_le hb
          rw [BitVec.toNat_add]; exact Nat.mod_eq_of_lt (show wq.toNat + 2 < 2 ^ 64 by omega)
        refine ih (i + 1) v' (wq + 2#64) hil (by omega) ?_ (by omega) hp'
        intro j hj hji
        by_cases hje : j = i
        · subst hje; exact ho
        · exact hold j hj (by omega)
      · intro v' ho hp'
        rw [hfr] at ho
        have hwt : (wq + 2#64).toNat = wq.toNat + 2 := by
          have := seqSize_le hb
          rw [BitVec.toNat_add]; exact Nat.mod_eq_of_lt (show wq.toNat + 2 < 2 ^ 64 by omega)
        exact h2 v' _ i (fun h => ho (h _ hmem)) hil hold (by omega) hp'
    · intro hil
      have hil : ¬ i < ws.length := hil
      have hie : i = ws.length := by omega
      subst hie
      apply W.ret
      refine h1 v wq ?_ hwq hp
      intro e he
      obtain ⟨j, hj, rfl⟩ := List.mem_iff_getElem.1 he
      exact hold j hj hj

theorem W.persistAll {me : Word} {d : Ref} (hoD : Own Z d.tid) {ws : List Entry} (hZ : ∀ e ∈ ws, Z.L (.arr e.off)) {M : Loc → Word} {F : Bool} {A : Word → Word} {st wq : Word}
    {v : V} (hlen : ws.length < 2 ^ 64) (hp : PI me d ws M F A st wq v) {Q : Unit → V → Prop} (h : Q () v) (m i : Nat)
    (hil : i ≤ ws.length) (hm : ws.length < m + i) :
    W Z (KCAS.loop m (fun (i : Nat) => do
      let c ← step (.rd (.count d.tid))
      if i < c.toNat then do
        let off ← step (.rd (.koff d.tid i))
        let _ ← KCAS.pcasRead (.arr off)
        return .next (i + 1)
      else return .done ()) i) Q v := by
  induction m generalizing i with
  | zero => omega
  | succ m ih =>
    apply W.loop
    apply W.bind; refine W.rd (by foot) ?_
    rw [hp.cnt, cnt_toNat hlen]
    apply W.ite
    · intro hi
      apply W.bind; refine W.rd (by foot) ?_
      rw [(hp.ents i hi).1]
      have hzi : Z.L (.arr ws[i].off) := hZ _ (List.getElem_mem hi)
      apply W.bind; refine W.pcasRead (by foot) ?_
      apply W.ret
      exact ih (i + 1) hi (by omega)
    · intro hi
      exact W.ret h

/-- The array after the second phase: `x` replaced by the value of its entry. -/
def fin (x : Word) (f : Entry → Word) : List Entry → (Word → Word) → Word → Word
  | [], A => A
  | e :: es, A => fin x f es (if A e.off = x then upd A e.off (f e) else A)

theorem fin_other (x : Word) (f : Entry → Word) (ws : List Entry) (A : Word → Word) (o : Word)
    (h : o ∉ ws.map Entry.off) : fin x f ws A o = A o := by
  induction ws generalizing A with
  | nil => rfl
  | cons e es ih =>
    rw [List.map_cons, List.mem_cons, not_or] at h
    unfold fin
    rw [ih _ h.2]
    split
    · unfold upd; rw [if_neg h.1]
    · rfl

theorem fin_mem (x : Word) (f : Entry → Word) (ws : List Entry) (A : Word → Word) (hn : (ws.map Entry.off).Nodup) (e : Entry)
    (he : e ∈ ws) : fin x f ws A e.off = if A e.off = x then f e else A e.off := by
  induction ws generalizing A with
  | nil => cases he
  | cons a es ih =>
    rw [List.map_cons, List.nodup_cons] at hn
    unfold fin
    rcases List.mem_cons.1 he with rfl | he
    · rw [fin_other _ _ _ _ _ hn.1]
      split
      · unfold upd; rw [if_pos rfl]
      · rfl
    · have hne : e.off ≠ a.off := by
        intro h; apply hn.1; rw [← h]; exact List.mem_map_of_mem he
      rw [ih _ hn.2 he]
      have : (if A a.off = x then upd A a.off (f a) else A) e.off = A e.off := by
        split
        · unfold upd; rw [if_neg hne]
        · rfl
      rw [this]

theorem W.finish (hb : tb ≤ 61) {me : Word} {d : Ref} (hoD : Own Z d.tid) (hd : d.Fits tb) (hk : KRef d)
    {ws : List Entry} (hZ : ∀ e ∈ ws, Z.L (.arr e.off)) {M : Loc → Word} {F : Bool} {wq : Word}
    (hlen : ws.length < 2 ^ 64) (st : Status) {Q : Unit → V → Prop} (B : Word → Word)
    (h : ∀ v', PI me d ws M F B st.word wq v' → Q () v')
    (m i : Nat) (v : V) (A : Word → Word) (hi : i ≤ ws.length) (hm : ws.length < m + i)
    (hB : fin (pack tb d) (fun e => cl (if st = .succeeded then e.new else e.old)) (ws.drop i) A = B)
    (hp : PI me d ws M F A st.word wq v) :
    W Z (KCAS.loop m (fun (i : Nat) => do
    let c ← step (.rd (.count d.tid))
    if i < c.toNat then do
      let v ← step (.rd (if st = .succeeded then .knew d.tid i else .kold d.tid i))
      let expected := pack tb d ||| PMwCASBit ||| DirtyBit
      let off ← step (.rd (.koff d.tid i))
      let c1 ← KCAS.casField d expected v (.arr off) true
      if !c1.2.2 then return .done ()
      else if c1.2.1 = pack tb d ||| PMwCASBit then do
        let off ← step (.rd (.koff d.tid i))
        let c2 ← KCAS.casField d (expected &&& ~~~DirtyBit) v (.arr off) c1.2.2
        if !c2.2.2 then return .done ()
        else do
          let off ← step (.rd (.koff d.tid i))
          KCAS.persist (.arr off) v
          return .next (i + 1)
      else do
        let off ← step (.rd (.koff d.tid i))
        KCAS.persist (.arr off) v
        return .next (i + 1)
    else return .done ()) i) Q v := by
  induction m generalizing i v A with
  | zero => omega
  | succ m ih =>
    apply W.loop
    apply W.bind; refine W.rd (by foot) ?_
    rw [hp.cnt, cnt_toNat hlen]
    apply W.ite
    · intro hil
      have hdrop : ws.drop i = ws[i] :: ws.drop (i + 1) := (List.getElem_cons_drop hil).symm
      rw [hdrop] at hB
      unfold fin at hB
      obtain ⟨g1, g2, g3⟩ := hp.ents i hil
      have hzi : Z.L (.arr ws[i].off) := hZ _ (List.getElem_mem hil)
      have hval : v.fld (if st = .succeeded then .knew d.tid i else .kold d.tid i)
          = if st = .succeeded then ws[i].new else ws[i].old := by
        split
        · exact g3
        · exact g2
      have hmk : v.mem (.kmut d.tid) = KMut.pack ⟨false, st.word, d.seq⟩ := by rw [hp.mem]; exact memOf_k
      have hma : v.mem (.arr ws[i].off) = A ws[i].off := by rw [hp.mem]; rfl
      have hst : st.word.toNat < 4 := by cases st <;> decide
      have hs := seqSize_le hb
      have hd2 := hd.2
      have hseq : ∀ u : V, u.mem (.kmut d.tid) = KMut.pack ⟨false, st.word, d.seq⟩ →
          W Z (getSeq d) (fun q v' => q = d.seq ∧ v' = u) u := fun u hu => W.getSeqK hoD hk hu hst (by omega) ⟨rfl, rfl⟩
      apply W.bind; refine W.rd (by split <;> foot) ?_; rw [hval]
      apply W.bind; refine W.rd (by foot) ?_; rw [g1]
      apply W.ofClean
      intro hcl
      apply W.bind
      refine W.casField (by foot) (hseq v hmk) ?_ ?_
      · intro he
        rw [← hcl] at he
        exact absurd he (cl_ne_dirty _ _)
      intro _
      rw [hma]
      rw [pack_or_pmwcas hb hd hk] at ih ⊢
      rw [if_neg (by simp)]
      apply W.ite
      · intro hx
        have hx : A ws[i].off = pack tb d := hx
        rw [if_pos hx] at hB
        apply W.bind; refine W.rd (by foot) ?_; rw [g1]
        have hcx : (pack tb d ||| DirtyBit) &&& ~~~DirtyBit = pack tb d := by
          have := cl_or (pack tb d)
          rw [cl_pack_k hb hd hk] at this
          exact this
        rw [hcx]
        apply W.bind
        refine W.casField (by foot) (hseq v hmk) ?_ ?_
        · intro _
          rw [if_neg (by simp)]
          apply W.bind; refine W.rd (by foot) ?_; rw [show (v.put (.arr ws[i].off) _).fld (.koff d.tid i) = _ from g1]
          apply W.bind; refine W.persist (by foot) ?_
          apply W.ret
          exact ih (i + 1) _ _ hil (by omega) hB (hp.put_arr _ _)
        · intro hne; exact absurd (hma.trans hx) hne
      · intro hx
        have hx : ¬ A ws[i].off = pack tb d := hx
        rw [if_neg hx] at hB
        apply W.bind; refine W.rd (by foot) ?_; rw [g1]
        apply W.bind; refine W.persist (by foot) ?_
        apply W.ret
        exact ih (i + 1) _ _ hil (by omega) hB hp
    · intro hil
      have hie : i = ws.length := by omega
      subst hie
      rw [List.drop_length] at hB
      apply W.ret
      exact h v (hB ▸ hp)

/-! ## The whole operation -/

theorem W.pmwcas (hb : tb ≤ 61) {me : Word} (hme : me.toNat < 2 ^ tb) {d : Ref} (hoM : Own Z me) (hoD : Own Z d.tid) (hd : d.Fits tb) (hk : KRef d)
    {ws : List Entry} (hZ : ∀ e ∈ ws, Z.L (.arr e.off)) {M : Loc → Word} {F : Bool} {A : Word → Word} {wq : Word}
    (hlen : ws.length < 2 ^ 64) (hn : (ws.map Entry.off).Nodup) (hpl : ∀ e ∈ ws, (A e.off).toNat % 8 = 0)
    (hpv : ∀ e ∈ ws, e.new.toNat % 8 = 0)
    (hw : wq.toNat + 2 * ws.length < 2 ^ seqSize tb) {Q : Bool → V → Prop} (n : Nat) (hfuel : ws.length < n) (v : V)
    (hp : PI me d ws M F A Status.undecided.word wq v)
    (h1 : ∀ v' wq', (∀ e ∈ ws, A e.off = e.old) → wq'.toNat ≤ wq.toNat + 2 * ws.length →
      (∃ B, PI me d ws M F B Status.succeeded.word wq' v' ∧ (∀ e ∈ ws, B e.off = e.new)
        ∧ ∀ o, o ∉ ws.map Entry.off → B o = A o) → Q true v')
    (h2 : ∀ v' wq', ¬ (∀ e ∈ ws, A e.off = e.old) → wq'.toNat ≤ wq.toNat + 2 * ws.length →
      PI me d ws M F A Status.failed.word wq' v' → Q false v') :
    W Z (pmwcas tb me (n + 1) d none) Q v := by
  obtain ⟨n, rfl⟩ : ∃ k, n = k + 1 := ⟨n - 1, by omega⟩
  have hs := seqSize_le hb
  have hd2 := hd.2
  have hdec : ∀ (st : Status) (R : Bool × Word × Bool → V → Prop) (u : V) (A' : Word → Word) (wq' : Word),
      PI me d ws M F A' Status.undecided.word wq' u →
      (∀ x u', PI me d ws M F A' st.word wq' u' → R (true, x, true) u') →
      W Z (KCAS.casField d (KMut.pack ⟨false, Status.undecided.word, d.seq⟩) (KMut.pack ⟨true, st.word, d.seq⟩) (.kmut d.tid) true)
        R u := by
    intro st R u A' wq' hu hR
    have hmk : u.mem (.kmut d.tid) = KMut.pack ⟨false, Status.undecided.word, d.seq⟩ := by rw [hu.mem]; exact memOf_k
    refine W.casField (by foot) (W.getSeqK hoD hk hmk (by decide) (by omega) ⟨rfl, rfl⟩) ?_ ?_
    · intro _
      rw [cl_kmut _ _ _ (by cases st <;> decide) (by omega)]
      exact hR _ _ (hu.put_k _)
    · intro hne; exact absurd hmk hne
  unfold KCAS.pmwcas
  apply W.bind
  apply W.ret
  apply W.bind
  have hp0 : PI me d ws M F (placed ws A (pack tb d) 0) Status.undecided.word wq v := by rw [placed_zero]; exact hp
  refine W.place hb hme hoM hoD hd hk hZ (KCAS.pmwcas tb me (n + 1)) hlen hn hpl hw n ?_ ?_ (n + 1) 0 v wq (Nat.zero_le _) (by omega)
    (by intro j _ hj; omega) rfl hp0
  · -- all words match
    intro v1 wq1 hall hwq1 hp1
    have hrest : ∀ v2, PI me d ws M F (placed ws A (pack tb d) ws.length) Status.undecided.word wq1 v2 →
        W Z (do
          let c ← KCAS.casField d (KMut.pack ⟨false, Status.undecided.word, d.seq⟩) (KMut.pack ⟨true, Status.succeeded.word, d.seq⟩)
            (.kmut d.tid) true
          KCAS.persist (.kmut d.tid) (KMut.pack ⟨true, Status.succeeded.word, d.seq⟩)
          if !c.2.2 then return false
          else do
            KCAS.finish tb (n + 1) d .succeeded
            return true) Q v2 := by
      intro v2 hp2
      apply W.bind
      refine hdec .succeeded _ v2 _ _ hp2 ?_
      intro x v3 hp3
      apply W.bind; refine W.persist (by foot) ?_
      rw [if_neg (by simp)]
      apply W.bind
      refine W.finish hb hoD hd hk hZ hlen .succeeded _ ?_ (n + 1) 0 v3 _ (Nat.zero_le _) (by omega) rfl hp3
      intro v4 hp4
      apply W.ret
      refine h1 v4 wq1 hall (by omega) ⟨_, hp4, ?_, ?_⟩
      · intro e he
        rw [List.drop_zero, fin_mem _ _ _ _ hn e he]
        have hpe : placed ws A (pack tb d) ws.length e.off = pack tb d := by
          unfold placed
          rw [List.take_length, if_pos (List.mem_map_of_mem he)]
        rw [if_pos hpe, if_pos rfl]
        exact cl_of_plain (hpv e he)
      · intro o ho
        rw [List.drop_zero, fin_other _ _ _ _ _ ho]
        unfold placed
        rw [List.take_length, if_neg ho]
    simp only
    rw [if_pos trivial]
    apply W.bind
    unfold KCAS.persistAll
    refine W.persistAll hoD hZ hlen hp1 ?_ (n + 1) 0 (Nat.zero_le _) (by omega)
    exact hrest v1 hp1
  · -- some word differs
    intro v1 wq1 i hall hi hold hwq1 hp1
    simp only
    rw [if_neg (by decide)]
    apply W.bind
    refine hdec .failed _ v1 _ _ hp1 ?_
    intro x v3 hp3
    apply W.bind; refine W.persist (by foot) ?_
    rw [if_neg (by simp)]
    apply W.bind
    refine W.finish hb hoD hd hk hZ hlen .failed A ?_ (n + 1) 0 v3 _ (Nat.zero_le _) (by omega) ?_ hp3
    · intro v4 hp4
      apply W.ret
      rw [show decide (Status.failed = Status.succeeded) = false by decide]
      exact h2 v4 wq1 hall hwq1 hp4
    · rw [List.drop_zero]
      funext o
      have hpk := pack_k8 hb hd hk
      by_cases ho : o ∈ ws.map Entry.off
      · obtain ⟨e, he, rfl⟩ := List.mem_map.1 ho
        rw [fin_mem _ _ _ _ hn e he]
        obtain ⟨j, hj, rfl⟩ := List.mem_iff_getElem.1 he
        by_cases hmi : ws[j].off ∈ (ws.take i).map Entry.off
        · have hpe : placed ws A (pack tb d) i ws[j].off = pack tb d := by unfold placed; rw [if_pos hmi]
          rw [if_pos hpe, if_neg (by decide)]
          obtain ⟨e', he', heq⟩ := List.mem_map.1 hmi
          obtain ⟨k, hkk, rfl⟩ := List.mem_iff_getElem.1 he'
          rw [List.length_take] at hkk
          rw [List.getElem_take] at heq
          have hkl : k < ws.length := by omega
          have hkj := (List.Nodup.getElem_inj_iff (l := ws.map Entry.off) hn (i := k) (j := j) (hi := by simpa using hkl)
            (hj := by simpa using hj)).1 (by rw [List.getElem_map, List.getElem_map, heq])
          subst hkj
          have ho := hold k hj (by omega)
          rw [← ho]
          exact cl_of_plain (hpl _ he)
        · have hpe : placed ws A (pack tb d) i ws[j].off = A ws[j].off := by unfold placed; rw [if_neg hmi]
          rw [hpe, if_neg]
          intro h
          have := hpl _ he
          rw [h] at this; omega
      · rw [fin_other _ _ _ _ _ ho]
        unfold placed
        rw [if_neg]
        intro hm
        exact ho (List.map_subset _ (List.take_subset i ws) hm)

end PMap.KCAS
