import Verif.KCAS.Decide

/-! # Where a program of `pmwcas.hpp` running alone can be cut off (helper lemmas) -/

namespace PMap.KCAS

/-- The memory at some moment of a run of the program alone from `s`: what a crash at that moment leaves, if every store is
durable once made (the flushes of persistence.hpp:70-104 are left out, see `KCAS/Code.lean`). -/
inductive CutAt {α : Type} : Prog α → S → S → Prop
  | here (p : Prog α) (s : S) : CutAt p s s
  | later {b : Act} {k : Word → Prog α} {s s' : S} (h : CutAt (k (b.exec s).1) (b.exec s).2 s') : CutAt (.act b k) s s'

theorem Runs.cutAt {α β : Type} {F : Foot} {p : Prog α} {f : α → Prog β} {s s' : S} {a : α} (h : Runs F p s a s') {c : S}
    (hc : CutAt (p.bind f) s c) : CutAt p s c ∨ CutAt (f a) s' c := by
  induction h with
  | ret => exact .inr hc
  | act hF h ih =>
    cases hc with
    | here => exact .inl (.here _ _)
    | later hc => exact (ih hc).imp .later id

/-- As `W`; moreover at every moment on the way the view satisfies `I`. -/
def WC {α : Type} (F : Foot) (I : V → Prop) (p : Prog α) (Q : α → V → Prop) (v : V) : Prop :=
  ∀ s, view s = v → (∀ c, CutAt p s c → I (view c)) ∧ ∃ a s', Runs F p s a s' ∧ Q a (view s')

variable {F : Foot} {I : V → Prop}

theorem WC.w {α : Type} {p : Prog α} {Q : α → V → Prop} {v : V} (h : WC F I p Q v) : W F p Q v := fun s hs => (h s hs).2

theorem WC.bind {α β : Type} {p : Prog α} {f : α → Prog β} {Q : β → V → Prop} {v : V}
    (h : WC F I p (fun a v' => WC F I (f a) Q v') v) : WC F I (p >>= f) Q v := by
  intro s hs
  obtain ⟨h1, a, s', e, hq⟩ := h s hs
  obtain ⟨h2, b, s'', e', hq'⟩ := hq s' rfl
  refine ⟨?_, b, s'', e.bind e', hq'⟩
  intro c hc
  rcases e.cutAt hc with hc | hc
  · exact h1 c hc
  · exact h2 c hc

theorem WC.ret {α : Type} {a : α} {Q : α → V → Prop} {v : V} (hI : I v) (h : Q a v) : WC F I (pure a) Q v := by
  intro s hs
  refine ⟨?_, a, s, .ret _ _, hs ▸ h⟩
  intro c hc
  cases hc; exact hs ▸ hI

theorem WC.mono {α : Type} {p : Prog α} {Q R : α → V → Prop} {v : V} (h : WC F I p Q v) (hr : ∀ a v', Q a v' → R a v') :
    WC F I p R v := by
  intro s hs
  obtain ⟨h1, a, s', e, hq⟩ := h s hs
  exact ⟨h1, a, s', e, hr _ _ hq⟩

theorem WC.monoI {α : Type} {J : V → Prop} {p : Prog α} {Q : α → V → Prop} {v : V} (h : WC F I p Q v) (hr : ∀ v', I v' → J v') :
    WC F J p Q v := by
  intro s hs
  obtain ⟨h1, h2⟩ := h s hs
  exact ⟨fun c hc => hr _ (h1 c hc), h2⟩

theorem WC.ite {α : Type} {c : Prop} [Decidable c] {p q : Prog α} {Q : α → V → Prop} {v : V} (h1 : c → WC F I p Q v)
    (h2 : ¬ c → WC F I q Q v) : WC F I (if c then p else q) Q v := by
  split
  · exact h1 ‹_›
  · exact h2 ‹_›

theorem WC.loop {σ α : Type} {n : Nat} {body : σ → Prog (Ctl σ α)} {x : σ} {Q : α → V → Prop} {v : V}
    (h : WC F I (body x) (fun c v' => match c with | .next y => WC F I (loop n body y) Q v' | .done a => I v' ∧ Q a v') v) :
    WC F I (loop (n + 1) body x) Q v := by
  unfold KCAS.loop
  apply WC.bind
  refine WC.mono h ?_
  rintro (y | a) v' hq
  · exact hq
  · exact WC.ret hq.1 hq.2

/-- The program changes nothing but dirty bits. -/
def Still {α : Type} (p : Prog α) : Prop := ∀ s c, CutAt p s c → view c = view s

theorem WC.still {α : Type} {p : Prog α} {Q : α → V → Prop} {v : V} (hp : Still p) (hI : I v) (h : W F p Q v) : WC F I p Q v := by
  intro s hs
  refine ⟨?_, h s hs⟩
  intro c hc
  rw [hp s c hc, hs]; exact hI

theorem CutAt.step {a : Act} {s c : S} (h : CutAt (step a) s c) : c = s ∨ c = (a.exec s).2 := by
  cases h with
  | here => exact .inl rfl
  | later h => cases h; exact .inr rfl

theorem still_rd (f : Fld) : Still (step (.rd f)) := by
  intro s c h
  rcases h.step with rfl | rfl <;> rfl

theorem still_persist (l : Loc) (w : Word) : Still (persist l w) := by
  intro s c h
  unfold persist at h
  cases h with
  | here => rfl
  | later h =>
    cases h
    exact view_persist s l w

theorem still_pcasRead (l : Loc) : Still (pcasRead l) := by
  intro s c h
  unfold pcasRead at h
  cases h with
  | here => rfl
  | later h =>
    change CutAt (if s.mem l &&& DirtyBit ≠ 0#64 then (KCAS.persist l (s.mem l)).bind fun _ => .ret (cl (s.mem l)) else
        .ret (cl (s.mem l))) s c at h
    split at h
    · unfold persist at h
      cases h with
      | here => rfl
      | later h =>
        cases h
        exact view_persist s l _
    · cases h; rfl

theorem WC.rd {f : Fld} {Q : Word → V → Prop} {v : V} (hF : F.G f) (hI : I v) (h : Q (v.fld f) v) : WC F I (step (.rd f)) Q v :=
  .still (still_rd f) hI (W.rd hF h)

theorem WC.persist {l : Loc} {w : Word} {Q : Unit → V → Prop} {v : V} (hF : F.L l) (hI : I v) (h : Q () v) :
    WC F I (persist l w) Q v := .still (still_persist l w) hI (W.persist hF h)

theorem WC.pcasRead {l : Loc} {Q : Word → V → Prop} {v : V} (hF : F.L l) (hI : I v) (h : Q (v.mem l) v) :
    WC F I (pcasRead l) Q v := .still (still_pcasRead l) hI (W.pcasRead hF h)

theorem WC.wr {f : Fld} {w : Word} {Q : Word → V → Prop} {v : V} (hF : F.G f) (hI : I v) (hI' : I (v.set f w))
    (h : Q 0#64 (v.set f w)) : WC F I (step (.wr f w)) Q v := by
  intro s hs
  refine ⟨?_, W.wr hF h s hs⟩
  intro c hc
  rcases hc.step with rfl | rfl
  · exact hs ▸ hI
  · subst hs; exact hI'

theorem WC.st {l : Loc} {w : Word} {Q : Word → V → Prop} {v : V} (hF : F.L l) (hI : I v) (hI' : I (v.put l (cl w)))
    (h : Q 0#64 (v.put l (cl w))) : WC F I (step (.st l w)) Q v := by
  intro s hs
  refine ⟨?_, W.st hF h s hs⟩
  intro c hc
  rcases hc.step with rfl | rfl
  · exact hs ▸ hI
  · show I (view (s.put l w))
    rw [view_put, hs]; exact hI'

theorem WC.check {b : Bool} {Q : Word → V → Prop} {v : V} (hb : b = true) (hI : I v) (h : Q 0#64 v) : WC F I (step (.check b)) Q v := by
  intro s hs
  refine ⟨?_, W.check hb h s hs⟩
  intro c hc
  rcases hc.step with rfl | rfl
  · exact hs ▸ hI
  · subst hb
    show I (view { s with failed := s.failed || !true })
    rw [show (s.failed || !true) = s.failed from Bool.or_false _]
    exact hs ▸ hI

theorem WC.pcas {l : Loc} {e n : Word} {Q : Bool × Word → V → Prop} {v : V} (hF : F.L l) (hI : I v)
    (hI' : v.mem l = e → I (v.put l (cl n)))
    (h1 : v.mem l = e → Q (true, e) (v.put l (cl n))) (h2 : v.mem l ≠ e → Q (false, v.mem l) v) : WC F I (pcas l e n) Q v := by
  intro s hs
  refine ⟨?_, W.pcas hF h1 h2 s hs⟩
  obtain ⟨s', er, hv, hm⟩ := run_pcasRead (F := F) l hF s
  intro c hc
  have hm' : s'.mem l = v.mem l := by rw [hm, ← hs]; rfl
  have hv' : view s' = v := hv.trans hs
  unfold KCAS.pcas at hc
  rcases er.cutAt hc with hc | hc
  · rw [still_pcasRead l s c hc, hs]; exact hI
  · cases hc with
    | here => rw [hv']; exact hI
    | later hc =>
      cases hc
      rw [exec_cas]
      simp only
      split
      · rename_i he
        rw [view_put, hv', cl_or]
        exact hI' (by rw [← hm']; exact he)
      · rw [hv']; exact hI

theorem CutAt.bind_cases {α β : Type} {p : Prog α} {f : α → Prog β} {s c : S} (h : CutAt (p.bind f) s c) :
    CutAt p s c ∨ ∃ a s', run p s = .done a s' ∧ CutAt p s s' ∧ CutAt (f a) s' c := by
  induction p generalizing s with
  | ret a => exact .inr ⟨a, s, rfl, .here _ _, h⟩
  | halt e => cases h; exact .inl (.here _ _)
  | act b k ih =>
    cases h with
    | here => exact .inl (.here _ _)
    | later h =>
      rcases ih _ h with h | ⟨a, s', h1, h2, h3⟩
      · exact .inl (.later h)
      · exact .inr ⟨a, s', h1, .later h2, h3⟩

theorem Still.bind {α β : Type} {p : Prog α} {f : α → Prog β} (h : Still p) (hf : ∀ a, Still (f a)) : Still (p >>= f) := by
  intro s c hc
  rcases CutAt.bind_cases hc with hc | ⟨a, s', -, h1, h2⟩
  · exact h s c hc
  · exact (hf a s' c h2).trans (h s s' h1)

theorem Still.ret {α : Type} (a : α) : Still (pure a : Prog α) := by
  intro s c hc; cases hc; rfl

theorem Still.loop {σ α : Type} (n : Nat) {body : σ → Prog (Ctl σ α)} (h : ∀ x, Still (body x)) (x : σ) : Still (loop n body x) := by
  induction n generalizing x with
  | zero => intro s c hc; cases hc; rfl
  | succ n ih =>
    unfold KCAS.loop
    refine Still.bind (h x) ?_
    rintro (y | a)
    · exact ih y
    · exact Still.ret a

theorem still_persistAll (n : Nat) (d : Ref) : Still (persistAll n d) := by
  refine Still.loop n (fun i => ?_) _
  refine Still.bind (still_rd _) fun c => ?_
  split
  · exact Still.bind (still_rd _) fun _ => Still.bind (still_pcasRead _) fun _ => Still.ret _
  · exact Still.ret _

/-- At every moment of a run the view satisfies `I` (whether or not the run ends). -/
def Cut {α : Type} (I : V → Prop) (p : Prog α) (v : V) : Prop := ∀ s, view s = v → ∀ c, CutAt p s c → I (view c)

theorem WC.cut {α β : Type} {p : Prog α} {f : α → Prog β} {v : V}
    (h : WC F I p (fun a v' => Cut I (f a) v') v) : Cut I (p >>= f) v := by
  intro s hs c hc
  obtain ⟨h1, a, s', e, hq⟩ := h s hs
  rcases e.cutAt hc with hc | hc
  · exact h1 c hc
  · exact hq s' rfl c hc

/-- A multi-word CAS that has been decided stays so. -/
theorem Cut.quiet {α : Type} {p : Prog α} (hp : Quiet p) {t : Word} {v : V} (hv : statusW (v.mem (.kmut t)) ≠ 0#64)
    (h : ∀ v', statusW (v'.mem (.kmut t)) ≠ 0#64 → I v') : Cut I p v := by
  intro s hs c hc
  subst hs
  induction hc with
  | here => exact h _ hv
  | @later b k s c hc ih =>
    refine ih (hp.2 _) ?_
    have hv' : statusW (s.mem (.kmut t)) ≠ 0#64 := by
      rw [← statusW_cl]; exact hv
    show statusW (cl ((b.exec s).2.mem (.kmut t))) ≠ 0#64
    rw [statusW_cl]
    have hq := hp.1
    cases b with
    | ld l => exact hv'
    | rd f => exact hv'
    | wr f w => exact hv'
    | check x => exact hv'
    | st l w =>
      cases l with
      | kmut x => exact absurd hq id
      | arr o => simpa [Act.exec] using hv'
      | wmut o => simpa [Act.exec] using hv'
    | cas l e n =>
      rw [exec_cas]
      simp only
      split
      · rename_i he
        cases l with
        | kmut x =>
          show statusW (if Loc.kmut t = .kmut x then n else s.mem (.kmut t)) ≠ _
          split
          · rename_i hx
            cases hx
            rcases hq.2 with h0 | h0
            · rw [he] at hv'; exact absurd h0 hv'
            · rw [h0, ← he]; exact hv'
          · exact hv'
        | arr o => simpa [S.put] using hv'
        | wmut o => simpa [S.put] using hv'
      · exact hv'

/-! ## The functions -/

variable {tb : Nat} {Z : Foot}

theorem still_getSeq (d : Ref) : Still (getSeq d) := by
  unfold getSeq
  split
  · exact Still.bind (still_pcasRead _) fun _ => Still.ret _
  · split
    · exact Still.bind (still_pcasRead _) fun _ => Still.ret _
    · intro s c hc; cases hc; rfl

theorem WC.casField {d : Ref} {e n : Word} {l : Loc} {sc : Bool} {Q : Bool × Word × Bool → V → Prop} {v : V}
    (hl : Z.L l) (hI : I v) (hI' : v.mem l = e → I (v.put l (cl n))) (hq : W Z (getSeq d) (fun q v' => q = d.seq ∧ v' = v) v)
    (h1 : v.mem l = e → Q (true, e, sc) (v.put l (cl n))) (h2 : v.mem l ≠ e → Q (false, v.mem l, sc) v) :
    WC Z I (casField d e n l sc) Q v := by
  unfold KCAS.casField
  apply WC.bind; refine WC.pcasRead (by foot) hI ?_
  apply WC.bind
  refine WC.mono (WC.still (still_getSeq d) hI hq) ?_
  rintro q v' ⟨rfl, rfl⟩
  rw [if_neg (by simp)]
  apply WC.ite
  · intro hc; exact WC.ret hI (h2 hc)
  · intro hc
    have hc := not_not.1 hc
    apply WC.bind
    refine WC.pcas (by foot) hI hI' ?_ ?_
    · intro h; exact WC.ret (hI' h) (h1 h)
    · intro h; exact absurd hc h

theorem WC.createRDCSS (hb : tb ≤ 61) {me : Word} (hme : me.toNat < 2 ^ tb) {d : Ref} (hoM : Own Z me) {ws : List Entry}
    {M : Loc → Word} {F : Bool} {A : Word → Word} {st wq : Word} {v : V} (hp : PI me d ws M F A st wq v) (e : Entry)
    (hw : wq.toNat + 2 < 2 ^ seqSize tb) {Q : Ref → V → Prop}
    (hI : ∀ v' wq', PI me d ws M F A st wq' v' → wq'.toNat ≤ wq.toNat + 2 → I v')
    (h : ∀ v', PI me d ws M F A st (wq + 2#64) v' → v'.fld (.woff me) = e.off → v'.fld (.wold me) = e.old →
      v'.fld (.wkseq me) = d.seq → v'.fld (.wktid me) = d.tid → Q ⟨false, false, true, wq + 2#64, me⟩ v') :
    WC Z I (createRDCSS tb me d.tid e d) Q v := by
  have hs := seqSize_le hb
  have e1 := add1_toNat wq (by omega)
  have e2 := add1_toNat (wq + 1#64) (by omega)
  have l1 : low 63 (wq + 1#64) = wq + 1#64 := low_id _ (by decide) _ (by omega)
  have l2 : low 63 (wq + 1#64 + 1#64) = wq + 1#64 + 1#64 := low_id _ (by decide) _ (by omega)
  have l3 : low (seqSize tb) (wq + 1#64 + 1#64) = wq + 1#64 + 1#64 := low_id _ (by unfold seqSize; omega) _ (by omega)
  have l4 : low tb me = me := low_id _ (by omega) _ hme
  have e3 : wq + 1#64 + 1#64 = wq + 2#64 := by rw [BitVec.add_assoc]; rfl
  have i0 : ∀ v', PI me d ws M F A st wq v' → I v' := fun v' h' => hI v' _ h' (by omega)
  have i1 : ∀ v', PI me d ws M F A st (wq + 1#64) v' → I v' := fun v' h' => hI v' _ h' (by omega)
  have i2 : ∀ v', PI me d ws M F A st (wq + 1#64 + 1#64) v' → I v' := fun v' h' => hI v' _ h' (by omega)
  unfold KCAS.createRDCSS
  apply WC.bind; refine WC.pcasRead (by foot) (i0 _ hp) ?_
  rw [hp.mem, memOf_w, WMut.unpack_pack ⟨false, wq⟩ (show wq.toNat < 2 ^ 63 by omega)]
  simp only [l1, l2, l3, l4]
  have hp1 := hp.put_w (wq + 1#64)
  have hp2 := hp1.set_w (.woff me) trivial e.off
  have hp3 := hp2.set_w (.wold me) trivial e.old
  have hp4 := hp3.set_w (.wnew me) trivial e.new
  have hp5 := hp4.set_w (.wkseq me) trivial d.seq
  have hp6 := hp5.set_w (.wktid me) trivial d.tid
  have hp7 := hp6.put_w (wq + 1#64 + 1#64)
  apply WC.bind; refine WC.st (by foot) (i0 _ hp) (by rw [cl_wmut _ _ (by omega)]; exact i1 _ hp1) ?_
  rw [cl_wmut _ _ (by omega)]
  apply WC.bind; refine WC.persist (by foot) (i1 _ hp1) ?_
  apply WC.bind; refine WC.wr (by foot) (i1 _ hp1) (i1 _ hp2) ?_
  apply WC.bind; refine WC.wr (by foot) (i1 _ hp2) (i1 _ hp3) ?_
  apply WC.bind; refine WC.wr (by foot) (i1 _ hp3) (i1 _ hp4) ?_
  apply WC.bind; refine WC.wr (by foot) (i1 _ hp4) (i1 _ hp5) ?_
  apply WC.bind; refine WC.wr (by foot) (i1 _ hp5) (i1 _ hp6) ?_
  apply WC.bind; refine WC.st (by foot) (i1 _ hp6) (by rw [cl_wmut _ _ (by omega)]; exact i2 _ hp7) ?_
  rw [cl_wmut _ _ (by omega)]
  apply WC.bind; refine WC.persist (by foot) (i2 _ hp7) ?_
  refine WC.ret (i2 _ hp7) ?_
  rw [e3] at hp7 ⊢
  refine h _ hp7 ?_ ?_ ?_ ?_ <;> simp [V.set, V.put]

theorem WC.completeInstall (hb : tb ≤ 61) {me : Word} {d : Ref} (hoM : Own Z me) (hoD : Own Z d.tid) (hd : d.Fits tb) (hk : KRef d) {ws : List Entry}
    {M : Loc → Word} {F : Bool} {A : Word → Word} {v : V} {r : Ref} (hr : r.Fits tb) (hrw : WRef r) (hrt : r.tid = me)
    {off : Word} (hoff : Z.L (.arr off)) (hp : PI me d ws M F A Status.undecided.word r.seq v) (hA : A off = pack tb r) (f1 : v.fld (.woff me) = off)
    (f3 : v.fld (.wkseq me) = d.seq) (f4 : v.fld (.wktid me) = d.tid) {Q : Bool → V → Prop} (hI : I v)
    (hI' : PI me d ws M F (upd A off (pack tb d)) Status.undecided.word r.seq (v.put (.arr off) (pack tb d)) →
      I (v.put (.arr off) (pack tb d)))
    (h : PI me d ws M F (upd A off (pack tb d)) Status.undecided.word r.seq (v.put (.arr off) (pack tb d)) →
      Q true (v.put (.arr off) (pack tb d))) :
    WC Z I (completeInstall tb r) Q v := by
  have hs := seqSize_le hb
  have hd2 := hd.2
  have hdum : (⟨false, true, false, low (seqSize tb) d.seq, low tb d.tid⟩ : Ref) = d := by
    rw [low_id _ (by unfold seqSize; omega) _ hd.2, low_id _ (by omega) _ hd.1]
    obtain ⟨k1, k2, k3⟩ := hk
    cases d; simp only at k1 k2 k3; subst k1; subst k2; subst k3; rfl
  have hput : PI me d ws M F (upd A off (pack tb d)) Status.undecided.word r.seq (v.put (.arr off) (pack tb d)) := hp.put_arr _ _
  unfold KCAS.completeInstall
  rw [hrt]
  apply WC.bind; refine WC.rd (by foot) hI ?_; rw [f3]
  apply WC.bind; refine WC.rd (by foot) hI ?_; rw [f4]
  apply WC.bind; refine WC.rd (by foot) hI ?_; rw [f4]
  simp only [hdum]
  apply WC.bind
  unfold readField
  apply WC.bind; refine WC.pcasRead (by foot) hI ?_
  have hmk : v.mem (.kmut d.tid) = KMut.pack ⟨false, Status.undecided.word, d.seq⟩ := by rw [hp.mem]; exact memOf_k
  rw [hmk]
  apply WC.bind
  refine WC.still (still_getSeq d) hI (W.getSeqK hoD hk hmk (by decide) (by omega) ?_)
  rw [if_neg (by simp)]
  refine WC.ret hI ?_
  simp only
  rw [KMut.unpack_pack _ ⟨show Status.undecided.word.toNat < 4 by decide, show d.seq.toNat < 2 ^ 61 by omega⟩]
  rw [show ((Status.undecided.word == Status.undecided.word) && true) = true by decide]
  apply WC.bind
  refine WC.check ?_ hI ?_
  · have h4 := pack_w8 hb hr hrw
    rw [bne_iff_ne, Ne, rdcss_iff]
    omega
  apply WC.bind; refine WC.rd (by foot) hI ?_
  apply WC.bind; refine WC.rd (by foot) hI ?_; rw [f1]
  apply WC.bind
  rw [if_pos rfl]
  have hmw : v.mem (.wmut r.tid) = WMut.pack ⟨false, r.seq⟩ := by rw [hp.mem, hrt]; exact memOf_w
  have hr2 := hr.2
  refine WC.casField (by foot) hI (fun _ => ?_) ?_ ?_ ?_
  · rw [cl_pack_k hb hd hk]; exact hI' hput
  · exact W.getSeqW (by rw [hrt]; exact hoM) hrw hmw (by omega) ⟨rfl, rfl⟩
  · intro _
    rw [cl_pack_k hb hd hk]
    exact WC.ret (hI' hput) (h hput)
  · intro hne
    exfalso; apply hne
    rw [hp.mem]; exact hA

/-- While a single-word descriptor is in a word. -/
structure Mid1 (tb : Nat) (me : Word) (d : Ref) (ws : List Entry) (M : Loc → Word) (F : Bool) (A : Word → Word) (wq : Word) (off : Word)
    (v : V) : Prop where
  pi : PI me d ws M F (upd A off (pack tb ⟨false, false, true, wq, me⟩)) Status.undecided.word wq v
  off : v.fld (.woff me) = off
  kseq : v.fld (.wkseq me) = d.seq
  ktid : v.fld (.wktid me) = d.tid

theorem WC.placeWord (hb : tb ≤ 61) {me : Word} (hme : me.toNat < 2 ^ tb) {d : Ref} (hoM : Own Z me) (hoD : Own Z d.tid) (hd : d.Fits tb) (hk : KRef d)
    {ws : List Entry} (hZ : ∀ e ∈ ws, Z.L (.arr e.off)) {M : Loc → Word} {F : Bool} {A : Word → Word} {wq : Word} {v : V} (help : Ref → Option Word → Prog Bool)
    (n : Nat) (hp : PI me d ws M F A Status.undecided.word wq v) (i : Nat) (hi : i < ws.length)
    (hw : wq.toNat + 2 < 2 ^ seqSize tb) (hpl : (A ws[i].off).toNat % 8 = 0) {Q : Ctl (Nat × Bool) Status → V → Prop}
    (hIa : ∀ v' wq', PI me d ws M F A Status.undecided.word wq' v' → wq'.toNat ≤ wq.toNat + 2 → I v')
    (hIb : ∀ v', A ws[i].off = ws[i].old → Mid1 tb me d ws M F A (wq + 2#64) ws[i].off v' → I v')
    (hIc : ∀ v', A ws[i].off = ws[i].old →
      PI me d ws M F (upd A ws[i].off (pack tb d)) Status.undecided.word (wq + 2#64) v' → I v')
    (h1 : ∀ v', A ws[i].off = ws[i].old →
      PI me d ws M F (upd A ws[i].off (pack tb d)) Status.undecided.word (wq + 2#64) v' → Q (.next (i + 1, true)) v')
    (h2 : ∀ v', A ws[i].off ≠ ws[i].old → PI me d ws M F A Status.undecided.word (wq + 2#64) v' → Q (.done .failed) v') :
    WC Z I (placeWord tb help (n + 1) me d i) Q v := by
  have hs := seqSize_le hb
  obtain ⟨g1, g2, g3⟩ := hp.ents i hi
  have hzi : Z.L (.arr ws[i].off) := hZ _ (List.getElem_mem hi)
  have hI0 : I v := hIa v wq hp (by omega)
  unfold KCAS.placeWord
  apply WC.bind; refine WC.rd (by foot) hI0 ?_; rw [g1]
  apply WC.bind; refine WC.rd (by foot) hI0 ?_; rw [g2]
  apply WC.bind; refine WC.rd (by foot) hI0 ?_; rw [g3]
  apply WC.bind
  refine WC.createRDCSS hb hme hoM hp _ hw hIa ?_
  intro v1 hp1 q1 q2 q3 q4
  simp only at q1 q2
  have hq2 : (wq + 2#64).toNat = wq.toNat + 2 := by
    rw [BitVec.toNat_add]; exact Nat.mod_eq_of_lt (show wq.toNat + 2 < 2 ^ 64 by omega)
  have hI1 : I v1 := hIa v1 _ hp1 (by omega)
  have hr : Ref.Fits tb ⟨false, false, true, wq + 2#64, me⟩ := ⟨hme, by show (wq + 2#64).toNat < _; omega⟩
  have hrw : WRef ⟨false, false, true, wq + 2#64, me⟩ := ⟨rfl, rfl, rfl⟩
  have hIb' : ∀ v', A ws[i].off = ws[i].old →
      PI me d ws M F (upd A ws[i].off (pack tb ⟨false, false, true, wq + 2#64, me⟩)) Status.undecided.word (wq + 2#64) v' →
      v'.fld (.woff me) = ws[i].off → v'.fld (.wkseq me) = d.seq → v'.fld (.wktid me) = d.tid → I v' :=
    fun v' a b c e f => hIb v' a ⟨b, c, e, f⟩
  clear hIb
  generalize hrd : (⟨false, false, true, wq + 2#64, me⟩ : Ref) = r at hr hrw hIb' ⊢
  have hrt : r.tid = me := by rw [← hrd]
  have hrs : r.seq = wq + 2#64 := by rw [← hrd]
  rw [← hrs] at hp1 h1 h2 hIc hIb'
  apply WC.bind
  have hmw : v1.mem (.wmut r.tid) = WMut.pack ⟨false, r.seq⟩ := by rw [hp1.mem, hrt]; exact memOf_w
  have hma : v1.mem (.arr ws[i].off) = A ws[i].off := by rw [hp1.mem]; rfl
  have hr2 := hr.2
  have huu : upd (upd A ws[i].off (pack tb r)) ws[i].off (pack tb d) = upd A ws[i].off (pack tb d) := by
    funext o; unfold upd; split <;> rfl
  have hp2 := hp1.put_arr ws[i].off (pack tb r)
  unfold KCAS.install
  apply WC.loop
  rw [hrt]
  apply WC.bind; refine WC.rd (by foot) hI1 ?_; rw [q2]
  apply WC.bind; refine WC.rd (by foot) hI1 ?_; rw [q1]
  apply WC.bind
  refine WC.casField (by foot) hI1 ?_ ?_ ?_ ?_
  · intro hm
    rw [hma] at hm
    rw [cl_pack_w hb hr hrw]
    exact hIb' _ hm hp2 q1 q3 q4
  · exact W.getSeqW (by rw [hrt]; exact hoM) hrw hmw (by omega) ⟨rfl, rfl⟩
  · intro hm
    rw [hma] at hm
    rw [hm] at hpl
    rw [cl_pack_w hb hr hrw]
    have hI2 := hIb' _ hm hp2 q1 q3 q4
    apply WC.bind
    refine WC.check (by simp) hI2 ?_
    rw [if_neg (by simp), if_neg (by simp [(plain_flags hb hpl).1]), if_pos rfl]
    apply WC.bind
    refine WC.completeInstall hb hoM hoD hd hk hr hrw hrt hzi hp2 (by simp [upd]) q1 q3 q4 hI2 ?_ ?_
    · intro hp3
      rw [huu] at hp3
      exact hIc _ hm hp3
    intro hp3
    rw [huu] at hp3
    refine WC.ret (hIc _ hm hp3) ⟨hIc _ hm hp3, ?_⟩
    simp only
    rw [if_neg (by simp)]
    apply WC.bind; refine WC.rd (by foot) (hIc _ hm hp3) ?_
    rw [if_pos (show ws[i].old = _ by rw [← q2]; rfl)]
    exact WC.ret (hIc _ hm hp3) (h1 _ hm hp3)
  · intro hm
    rw [hma] at hm ⊢
    apply WC.bind
    refine WC.check (by simp [hm]) hI1 ?_
    rw [if_neg (by simp), if_neg (by simp [(plain_flags hb hpl).1]), if_neg hm]
    refine WC.ret hI1 ⟨hI1, ?_⟩
    simp only
    rw [if_neg (by simp)]
    apply WC.bind; refine WC.rd (by foot) hI1 ?_
    rw [q2, if_neg hm, if_neg (by simp [(plain_flags hb hpl).2])]
    exact WC.ret hI1 (h2 _ hm hp1)

/-- Undecided: the descriptor is in the first words, or in one more the single-word descriptor. -/
structure Torn (tb : Nat) (t : Word) (d : Ref) (ws : List Entry) (M : Loc → Word) (F : Bool) (A : Word → Word) (wmax : Nat)
    (i : Nat) (wq : Word) (v : V) : Prop where
  le : i ≤ ws.length
  old : ∀ j (hj : j < ws.length), j < i → A ws[j].off = ws[j].old
  wle : wq.toNat ≤ wmax
  at_ : PI t d ws M F (placed ws A (pack tb d) i) Status.undecided.word wq v
    ∨ ∃ h : i < ws.length, A ws[i].off = ws[i].old ∧ Mid1 tb t d ws M F (placed ws A (pack tb d) i) wq ws[i].off v

theorem WC.place (hb : tb ≤ 61) {me : Word} (hme : me.toNat < 2 ^ tb) {d : Ref} (hoM : Own Z me) (hoD : Own Z d.tid) (hd : d.Fits tb) (hk : KRef d)
    {ws : List Entry} (hZ : ∀ e ∈ ws, Z.L (.arr e.off)) {M : Loc → Word} {F : Bool} {A : Word → Word} {wq0 : Nat} (help : Ref → Option Word → Prog Bool)
    (hlen : ws.length < 2 ^ 64) (hn : (ws.map Entry.off).Nodup) (hpl : ∀ e ∈ ws, (A e.off).toNat % 8 = 0)
    (hw : wq0 + 2 * ws.length < 2 ^ seqSize tb) {Q : Status → V → Prop} (n : Nat)
    (hI : ∀ v' i wq, Torn tb me d ws M F A (wq0 + 2 * ws.length) i wq v' → I v')
    (hQ : ∀ v' i wq st, Torn tb me d ws M F A (wq0 + 2 * ws.length) i wq v' →
      PI me d ws M F (placed ws A (pack tb d) i) Status.undecided.word wq v' → st ≠ .undecided → Q st v')
    (m i : Nat) (v : V) (wq : Word) (hi : i ≤ ws.length) (hm : ws.length < m + i)
    (hold : ∀ j (hj : j < ws.length), j < i → A ws[j].off = ws[j].old)
    (hwq : wq.toNat = wq0 + 2 * i) (hp : PI me d ws M F (placed ws A (pack tb d) i) Status.undecided.word wq v) :
    WC Z I (KCAS.loop m (fun (x : Nat × Bool) => do
      if x.2 then do
        let c ← step (.rd (.count d.tid))
        if x.1 < c.toNat then KCAS.placeWord tb help (n + 1) me d x.1 else return .done .succeeded
      else KCAS.placeWord tb help (n + 1) me d x.1) (i, true)) Q v := by
  induction m generalizing i v wq with
  | zero => omega
  | succ m ih =>
    have hT : Torn tb me d ws M F A (wq0 + 2 * ws.length) i wq v := ⟨hi, hold, by omega, .inl hp⟩
    have hI0 := hI _ _ _ hT
    apply WC.loop
    rw [if_pos rfl]
    apply WC.bind; refine WC.rd (by foot) hI0 ?_
    rw [hp.cnt, cnt_toNat hlen]
    apply WC.ite
    · intro hil
      have hil : i < ws.length := hil
      have hfr := placed_fresh ws A (pack tb d) i hil hn
      have hmem : ws[i] ∈ ws := List.getElem_mem hil
      have hwt : (wq + 2#64).toNat = wq.toNat + 2 := by
        have := seqSize_le hb
        rw [BitVec.toNat_add]; exact Nat.mod_eq_of_lt (show wq.toNat + 2 < 2 ^ 64 by omega)
      have hnext : ∀ j (hj : j < ws.length), j < i + 1 → A ws[i].off = ws[i].old → A ws[j].off = ws[j].old := by
        intro j hj hji ho
        by_cases hje : j = i
        · subst hje; exact ho
        · exact hold j hj (by omega)
      refine WC.placeWord hb hme hoM hoD hd hk hZ help n hp i hil (by omega) (by rw [hfr]; exact hpl _ hmem) ?_ ?_ ?_ ?_ ?_
      · intro v' wq' hp' hle
        exact hI _ _ _ ⟨hi, hold, by omega, .inl hp'⟩
      · intro v' ho hm1
        exact hI _ _ _ ⟨hi, hold, by omega, .inr ⟨hil, by rw [← hfr]; exact ho, hm1⟩⟩
      · intro v' ho hp'
        rw [placed_succ ws A _ i hil] at hp'
        rw [hfr] at ho
        exact hI _ _ _ ⟨hil, fun j hj hji => hnext j hj hji ho, by omega, .inl hp'⟩
      · intro v' ho hp'
        rw [placed_succ ws A _ i hil] at hp'
        rw [hfr] at ho
        exact ih (i + 1) v' (wq + 2#64) hil (by omega) (fun j hj hji => hnext j hj hji ho) (by omega) hp'
      · intro v' ho hp'
        have hT' : Torn tb me d ws M F A (wq0 + 2 * ws.length) i (wq + 2#64) v' := ⟨hi, hold, by omega, .inl hp'⟩
        exact ⟨hI _ _ _ hT', hQ _ _ _ _ hT' hp' (by decide)⟩
    · intro hil
      exact WC.ret hI0 ⟨hI0, hQ _ _ _ _ hT hp (by decide)⟩

theorem Cut.pmwcas (hb : tb ≤ 61) {me : Word} (hme : me.toNat < 2 ^ tb) {d : Ref} (hoM : Own Z me) (hoD : Own Z d.tid) (hd : d.Fits tb) (hk : KRef d)
    {ws : List Entry} (hZ : ∀ e ∈ ws, Z.L (.arr e.off)) {M : Loc → Word} {F : Bool} {A : Word → Word} {wq : Word}
    (hlen : ws.length < 2 ^ 64) (hn : (ws.map Entry.off).Nodup) (hpl : ∀ e ∈ ws, (A e.off).toNat % 8 = 0)
    (hw : wq.toNat + 2 * ws.length < 2 ^ seqSize tb) (n : Nat) (hfuel : ws.length < n) (v : V)
    (hp : PI me d ws M F A Status.undecided.word wq v)
    (hI : ∀ v' i wq', Torn tb me d ws M F A (wq.toNat + 2 * ws.length) i wq' v' → I v')
    (hdec : ∀ v', statusW (v'.mem (.kmut d.tid)) ≠ 0#64 → I v') :
    Cut I (pmwcas tb me (n + 1) d none) v := by
  obtain ⟨n, rfl⟩ : ∃ k, n = k + 1 := ⟨n - 1, by omega⟩
  have hs := seqSize_le hb
  have hd2 := hd.2
  have hp0 : PI me d ws M F (placed ws A (pack tb d) 0) Status.undecided.word wq v := by rw [placed_zero]; exact hp
  have hI0 : I v := hI v 0 wq ⟨Nat.zero_le _, by intro j _ hj; omega, by omega, .inl hp0⟩
  unfold KCAS.pmwcas
  refine WC.cut (F := Z) ?_
  refine WC.ret hI0 ?_
  refine WC.cut (F := Z) ?_
  refine WC.place hb hme hoM hoD hd hk hZ (KCAS.pmwcas tb me (n + 1)) hlen hn hpl hw n hI ?_ (n + 1) 0 v wq (Nat.zero_le _) (by omega)
    (by intro j _ hj; omega) rfl hp0
  intro v1 i wq1 st hT hp1 hst
  have hI1 := hI _ _ _ hT
  have hstw : st.word ≠ 0#64 ∧ st.word.toNat < 4 := by cases st <;> first | exact absurd rfl hst | decide
  have hrest : Cut I (do
        let c ← KCAS.casField d (KMut.pack ⟨false, Status.undecided.word, d.seq⟩) (KMut.pack ⟨true, st.word, d.seq⟩)
          (.kmut d.tid) true
        KCAS.persist (.kmut d.tid) (KMut.pack ⟨true, st.word, d.seq⟩)
        if !c.2.2 then return false
        else do
          KCAS.finish tb (n + 1) d st
          return decide (st = .succeeded)) v1 := by
    refine WC.cut (F := Z) ?_
    have hmk : v1.mem (.kmut d.tid) = KMut.pack ⟨false, Status.undecided.word, d.seq⟩ := by rw [hp1.mem]; exact memOf_k
    have hd1 : statusW ((v1.put (.kmut d.tid) (cl (KMut.pack ⟨true, st.word, d.seq⟩))).mem (.kmut d.tid)) ≠ 0#64 := by
      show statusW (if Loc.kmut d.tid = .kmut d.tid then _ else _) ≠ _
      rw [if_pos rfl, statusW_cl, (stored d.seq st.word (by omega) hstw.2).2]
      exact hstw.1
    refine WC.casField (by foot) hI1 (fun _ => hdec _ hd1) (W.getSeqK hoD hk hmk (by decide) (by omega) ⟨rfl, rfl⟩) ?_ ?_
    · intro _
      refine Cut.quiet ?_ hd1 hdec
      refine Quiet.bind (Quiet.persist _ _) fun _ => Quiet.ite (Quiet.pure _) ?_
      exact Quiet.bind (Quiet.finish tb _ _ _) fun _ => Quiet.pure _
    · intro hne; exact absurd hmk hne
  simp only
  split
  · refine WC.cut (F := Z) (WC.still (still_persistAll _ _) hI1 ?_)
    unfold KCAS.persistAll
    exact W.persistAll hoD hZ hlen hp1 hrest (n + 1) 0 (Nat.zero_le _) (by omega)
  · exact hrest

/-- The memory while thread `t` is making its descriptor: nothing else changes. -/
structure Making (t : Word) (v v' : V) : Prop where
  mem : v'.mem = fun l => if l = .kmut t then KMut.pack ⟨false, Status.undecided.word, (KMut.unpack (v.mem (.kmut t))).seq + 1#64⟩
    else v.mem l
  fail : v'.failed = v.failed

theorem WC.writeWords (t : Word) (hoT : Own Z t) (es : List Entry) (i : Nat) (v : V) {Q : Unit → V → Prop}
    (hI : ∀ v', v'.mem = v.mem → v'.failed = v.failed → I v')
    (h : ∀ v', v'.mem = v.mem → v'.failed = v.failed → (∀ f, ¬ KWordField t i f → v'.fld f = v.fld f) →
      (∀ j (hj : j < es.length), v'.fld (.koff t (i + j)) = es[j].off ∧ v'.fld (.kold t (i + j)) = es[j].old
        ∧ v'.fld (.knew t (i + j)) = es[j].new) → Q () v') : WC Z I (writeWords t i es) Q v := by
  have hcut : ∀ (es : List Entry) (i : Nat) (v : V), (∀ v', v'.mem = v.mem → v'.failed = v.failed → I v') →
      WC Z I (KCAS.writeWords t i es) (fun _ _ => True) v := by
    intro es
    induction es with
    | nil => intro i v hI; exact WC.ret (hI v rfl rfl) trivial
    | cons e es ih =>
      intro i v hI
      unfold KCAS.writeWords
      apply WC.bind; refine WC.wr (by foot) (hI _ rfl rfl) (hI _ rfl rfl) ?_
      apply WC.bind; refine WC.wr (by foot) (hI _ rfl rfl) (hI _ rfl rfl) ?_
      apply WC.bind; refine WC.wr (by foot) (hI _ rfl rfl) (hI _ rfl rfl) ?_
      exact ih _ _ hI
  intro s hs
  exact ⟨(hcut es i v hI s hs).1, W.writeWords t hoT es i v h s hs⟩

theorem WC.createKCAS (hb : tb ≤ 61) {t : Word} (ht : t.toNat < 2 ^ tb) (hoT : Own Z t) {ws : List Entry} {v : V}
    (hcl : ∀ l, cl (v.mem l) = v.mem l) (h0 : ws ≠ []) (hn : (ws.map Entry.off).Nodup) (hk : kseqOf v t + 2 < 2 ^ seqSize tb)
    {Q : Ref → V → Prop} (hIv : I v) (hIm : ∀ v', Making t v v' → I v')
    (hIp : ∀ v' (d : Ref), d.Fits tb → KRef d → d.tid = t → d.seq.toNat = kseqOf v t + 2 →
      PI t d (sortWords ws) v.mem v.failed (fun o => v.mem (.arr o)) Status.undecided.word (WMut.unpack (v.mem (.wmut t))).seq v' →
      I v')
    (h : ∀ v' (d : Ref), d.Fits tb → KRef d → d.tid = t → d.seq.toNat = kseqOf v t + 2 →
      PI t d (sortWords ws) v.mem v.failed (fun o => v.mem (.arr o)) Status.undecided.word (WMut.unpack (v.mem (.wmut t))).seq v' →
      Q d v') :
    WC Z I (createKCAS tb t ws) Q v := by
  have hs := seqSize_le hb
  have hk' := hk
  unfold kseqOf at hk h hIp
  have hIm' : ∀ v', v'.mem = (fun l => if l = .kmut t then
      KMut.pack ⟨false, Status.undecided.word, (KMut.unpack (v.mem (.kmut t))).seq + 1#64⟩ else v.mem l) →
      v'.failed = v.failed → I v' := fun v' a b => hIm v' ⟨a, b⟩
  clear hIm
  unfold KCAS.createKCAS
  apply WC.bind; refine WC.pcasRead (by foot) hIv ?_
  generalize hq : (KMut.unpack (v.mem (.kmut t))).seq = q at hk h hIp hIm'
  have e1 := add1_toNat q (by omega)
  have e2 := add1_toNat (q + 1#64) (by omega)
  have l1 : low 61 (q + 1#64) = q + 1#64 := low_id _ (by decide) _ (by omega)
  have l2 : low 61 (q + 1#64 + 1#64) = q + 1#64 + 1#64 := low_id _ (by decide) _ (by omega)
  have l3 : low (seqSize tb) (q + 1#64 + 1#64) = q + 1#64 + 1#64 := low_id _ (by unfold seqSize; omega) _ (by omega)
  have l4 : low tb t = t := low_id _ (by omega) _ ht
  simp only [hq, l1, l2, l3, l4]
  have c1 := cl_kmut true Status.undecided.word (q + 1#64) (by decide) (by omega)
  have c2 := cl_kmut true Status.undecided.word (q + 1#64 + 1#64) (by decide) (by omega)
  have i1 : I (v.put (.kmut t) (KMut.pack ⟨false, Status.undecided.word, q + 1#64⟩)) := hIm' _ rfl rfl
  apply WC.bind; refine WC.st (by foot) hIv (by rw [c1]; exact i1) ?_
  rw [c1]
  apply WC.bind; refine WC.persist (by foot) i1 ?_
  apply WC.bind
  refine WC.check ?_ i1 ?_
  · rw [ascending_of _ (sort_sorted ws) (sort_nodup hn), Bool.true_and, decide_eq_true_iff]
    exact List.length_pos_iff.2 h0
  apply WC.bind; refine WC.wr (by foot) i1 (hIm' _ rfl rfl) ?_
  apply WC.bind
  refine WC.writeWords t hoT _ _ _ (fun v' h1 h2 => hIm' _ h1 h2) ?_
  intro v1 hm hf hfr hen
  have hPI : PI t ⟨false, true, false, q + 1#64 + 1#64, t⟩ (sortWords ws) v.mem v.failed (fun o => v.mem (.arr o))
      Status.undecided.word (WMut.unpack (v.mem (.wmut t))).seq
      (v1.put (.kmut t) (KMut.pack ⟨false, Status.undecided.word, q + 1#64 + 1#64⟩)) := by
    refine ⟨?_, ?_, ?_, hf⟩
    · show (fun l' => if l' = .kmut t then _ else v1.mem l') = _
      rw [hm]
      funext l
      cases l with
      | arr o => simp [memOf, V.put, V.set]
      | kmut x =>
        simp only [memOf, V.put, V.set, Loc.kmut.injEq]
        split
        · rfl
        · rfl
      | wmut x =>
        simp only [memOf, V.put, V.set]
        by_cases hx : x = t
        · subst hx; simp only [reduceCtorEq, if_false, if_true]; exact clean_wmut (hcl _)
        · simp [hx]
    · show v1.fld (.count t) = _
      rw [hfr _ (by rintro ⟨j, -, h | h | h⟩ <;> cases h), sort_length]
      simp [V.put, V.set]
    · intro j hj
      have := hen j hj
      rw [Nat.zero_add] at this
      exact this
  have hfit : Ref.Fits tb ⟨false, true, false, q + 1#64 + 1#64, t⟩ := ⟨ht, by show (q + 1#64 + 1#64).toNat < _; omega⟩
  have i3 := hIp _ _ hfit ⟨rfl, rfl, rfl⟩ rfl (by show (q + 1#64 + 1#64).toNat = _; omega) hPI
  apply WC.bind; refine WC.st (by foot) (hIm' _ hm hf) (by rw [c2]; exact i3) ?_
  rw [c2]
  apply WC.bind; refine WC.persist (by foot) i3 ?_
  exact WC.ret i3 (h _ _ hfit ⟨rfl, rfl, rfl⟩ rfl (by show (q + 1#64 + 1#64).toNat = _; omega) hPI)

/-- Where a multi-word CAS can be cut off: not begun or decided; while its descriptor is made; or undecided. -/
theorem Cut.mwcas (hb : tb ≤ 61) {t : Word} (ht : t.toNat < 2 ^ tb) (hoT : Own Z t) {ws : List Entry} {v : V}
    (hcl : ∀ l, cl (v.mem l) = v.mem l)
    (hZ : ∀ e ∈ ws, Z.L (.arr e.off)) (h0 : ws ≠ []) (hn : (ws.map Entry.off).Nodup) (hlen : ws.length < 2 ^ 64) (hk : kseqOf v t + 2 < 2 ^ seqSize tb)
    (hw : wseqOf v t + 2 * ws.length < 2 ^ seqSize tb) (hpl : ∀ e ∈ ws, Plain (v.mem (.arr e.off)))
    (n : Nat) (hfuel : ws.length < n) (hdec : statusW (v.mem (.kmut t)) ≠ 0#64) :
    Cut (fun v' => statusW (v'.mem (.kmut t)) ≠ 0#64 ∨ Making t v v' ∨
      ∃ d i wq, d.Fits tb ∧ KRef d ∧ d.tid = t ∧ d.seq.toNat = kseqOf v t + 2 ∧
        Torn tb t d (sortWords ws) v.mem v.failed (fun o => v.mem (.arr o)) (wseqOf v t + 2 * ws.length) i wq v')
      (mwcas tb (n + 1) t ws) v := by
  have hmem : ∀ e, e ∈ sortWords ws ↔ e ∈ ws := fun e => (sort_perm ws).mem_iff
  have hT0 : ∀ v' (d : Ref), PI t d (sortWords ws) v.mem v.failed (fun o => v.mem (.arr o)) Status.undecided.word
      (WMut.unpack (v.mem (.wmut t))).seq v' → Torn tb t d (sortWords ws) v.mem v.failed (fun o => v.mem (.arr o))
        (wseqOf v t + 2 * ws.length) 0 (WMut.unpack (v.mem (.wmut t))).seq v' := by
    intro v' d hp
    refine ⟨Nat.zero_le _, by intro j _ hj; omega, by unfold wseqOf; omega, .inl ?_⟩
    rw [placed_zero]; exact hp
  unfold KCAS.mwcas
  refine WC.cut (F := Z) ?_
  refine WC.createKCAS hb ht hoT hcl h0 hn hk (.inl hdec) (fun v' h => .inr (.inl h)) ?_ ?_
  · intro v' d h1 h2 h3 h4 hp
    exact .inr (.inr ⟨d, 0, _, h1, h2, h3, h4, hT0 v' d hp⟩)
  · intro v' d h1 h2 h3 h4 hp
    refine Cut.pmwcas hb ht hoT (by rw [h3]; exact hoT) h1 h2 (fun e he => hZ e ((hmem e).1 he)) (by rw [sort_length]; exact hlen) (sort_nodup hn)
      (A := fun o => v.mem (.arr o)) (fun e he => hpl e ((hmem e).1 he)) (by rw [sort_length]; exact hw) n (by rw [sort_length]; exact hfuel) v' hp ?_ ?_
    · intro v'' i wq' hT
      rw [sort_length] at hT
      exact .inr (.inr ⟨d, i, wq', h1, h2, h3, h4, hT⟩)
    · intro v'' hs
      rw [h3] at hs
      exact .inl hs

end PMap.KCAS
