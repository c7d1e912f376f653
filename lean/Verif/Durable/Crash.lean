import Verif.Durable.Last
import Verif.Par.Ops
import Verif.Props.Reopen

/-!
# Sessions that end in a crash (proof machinery)
-/

namespace PMap

open Prog

variable {hash : Word → Word} {n : Nat} {s : Sys} {F : List Sched} {L : Nat} {α β : Type}

/-! ## Opening a file leaves all words in the file -/

/-- Run alone, `p` ends only as `Q` says. -/
def rw1 (p : Prog α) (Q : α → Mem → Prop) (m : Mem) : Prop := ∀ a m', run p m = .done a m' → Q a m'

theorem rw1_bind {p : Prog α} {f : α → Prog β} {Q : β → Mem → Prop} {m : Mem} (h : rw1 p (fun a m' => rw1 (f a) Q m') m) :
    rw1 (p >>= f) Q m := by
  intro b m' hr
  change run (p.bind f) m = _ at hr
  rw [run_bind] at hr
  cases hp : run p m with
  | done a m1 => rw [hp] at hr; exact h a m1 hp b m' hr
  | halted e => rw [hp] at hr; cases hr

theorem rw1_mono {p : Prog α} {Q Q' : α → Mem → Prop} {m : Mem} (h : rw1 p Q m) (hq : ∀ a m', Q a m' → Q' a m') : rw1 p Q' m :=
  fun a m' hr => hq _ _ (h a m' hr)

theorem rw1_pure {a : α} {Q : α → Mem → Prop} {m : Mem} (h : Q a m) : rw1 (pure a) Q m := by
  intro b m' hr; cases hr; exact h

theorem rw1_do1 {a : Act} {Q : a.Resp → Mem → Prop} {m : Mem} (h : ∀ r m', a.exec m = some (r, m') → Q r m') :
    rw1 (do1 a) Q m := by
  intro r m' hr
  simp only [do1, run] at hr
  split at hr
  · cases hr
  · next h' => cases hr; exact h _ _ h'

/-- All words but that at `a` are in the file. -/
def SyncBut (a : Addr) (m : Mem) : Prop := ∀ b, b ≠ a → clean (m.nv b) = clean (m.word b)
/-- All words are in the file. -/
def Sync (m : Mem) : Prop := ∀ b, clean (m.nv b) = clean (m.word b)

theorem Sync.durable {m : Mem} (h : Sync m) (a : Addr) : Durable m a := fun hd => by rw [h a, clean_of_not_dirty hd]

theorem rw1_pcasRead {a : Addr} {m : Mem} (h : SyncBut a m) (hd : Durable m a) : rw1 (pcasRead a) (fun _ m' => Sync m') m := by
  refine rw1_bind (rw1_do1 fun r m1 h1 => ?_)
  simp only [Act.exec] at h1
  split at h1
  · cases h1
    split
    · refine rw1_bind (rw1_bind (rw1_do1 fun r m2 h2 => ?_))
      simp only [Act.exec] at h2
      split at h2
      · cases h2
        refine rw1_bind (rw1_do1 fun r m3 h3 => ?_)
        cases h3
        refine rw1_bind (rw1_do1 fun r m4 h4 => rw1_pure (rw1_pure ?_))
        simp only [Act.exec] at h4
        have hs : ∀ b, clean (writeBack m a.tab a.idx b) = clean (m.word b) := by
          intro b
          by_cases e : b.tab = a.tab ∧ b.idx = a.idx
          · simp only [writeBack, if_pos e]
          · rw [writeBack, if_neg e]
            exact h b fun e' => e ⟨by rw [e'], by rw [e']⟩
        split at h4
        · rw [if_pos trivial] at h4
          cases h4
          intro b
          simp only [setWord]
          split
          · next e => subst e; rw [hs]; exact (clean_clean _).symm
          · exact hs b
        · next hn => exact absurd ‹_› hn
      · next hn => exact absurd ‹_› hn
    · next hc =>
      rw [Bool.not_eq_true] at hc
      refine rw1_pure fun b => ?_
      by_cases e : b = a
      · subst e; rw [hd hc, clean_of_not_dirty hc]
      · exact h b e
  · cases h1

theorem rw1_read {a : Addr} {m : Mem} (h : Sync m) : rw1 (pcasRead a) (fun _ m' => Sync m') m :=
  rw1_pcasRead (fun b _ => h b) (h.durable a)

theorem sync_scanSlot {m : Mem} (h : Sync m) (i : Nat) : rw1 (scanSlot i) (fun _ m' => Sync m') m := by
  refine rw1_bind (rw1_mono (rw1_read h) fun V m1 h1 => ?_)
  refine rw1_bind (rw1_mono (rw1_read h1) fun K m2 h2 => ?_)
  refine rw1_bind (rw1_mono (Q := fun _ m' => Sync m') ?_ fun V m3 h3 => ?_)
  · unfold scanFix
    split
    · refine rw1_bind (rw1_mono (Q := fun _ m' => SyncBut (.val 0 i) m' ∧ Durable m' (.val 0 i)) ?_ ?_)
      · refine rw1_bind (rw1_bind (rw1_mono (rw1_read h2) fun _ m3 h3 => ?_))
        refine rw1_bind (rw1_do1 fun r m4 h4 => ?_)
        refine rw1_bind (rw1_do1 fun r' m5 h5 => rw1_pure (rw1_pure ?_))
        have h5 : m5.word = m4.word ∧ m5.nv = m4.nv := by
          simp only [Act.exec] at h5
          cases h5; exact ⟨rfl, rfl⟩
        rw [SyncBut, Durable, h5.1, h5.2]
        simp only [Act.exec] at h4
        split at h4
        · split at h4
          · cases h4
            refine ⟨fun b hb => ?_, fun hd => ?_⟩
            · simp only [setWord, if_neg hb]; exact h3 b
            · simp only [setWord, if_true, isDirty_dirty] at hd; cases hd
          · cases h4
            exact ⟨fun b _ => h3 b, h3.durable _⟩
        · cases h4
      · rintro _ m4 ⟨h4, h5⟩
        refine rw1_bind (rw1_mono (rw1_pcasRead h4 h5) fun V m5 h5 => ?_)
        refine rw1_bind (rw1_do1 fun r' m6 h6 => rw1_pure ?_)
        have h6 : m6.word = m5.word ∧ m6.nv = m5.nv := by
          simp only [Act.exec] at h6
          cases h6; exact ⟨rfl, rfl⟩
        rw [Sync, h6.1, h6.2]; exact h5
    · exact rw1_pure h2
  · split
    · refine rw1_do1 fun r m' h' => ?_
      simp only [Act.exec] at h'
      split at h' <;> cases h'
      exact h3
    · split
      · refine rw1_do1 fun r m' h' => ?_
        simp only [Act.exec] at h'
        split at h' <;> cases h'
        exact h3
      · exact rw1_pure h3

theorem sync_scan (todo : Nat) : ∀ {i : Nat} {m : Mem}, Sync m → rw1 (scan todo i) (fun _ m' => Sync m') m := by
  induction todo with
  | zero => intro i m h; exact rw1_pure h
  | succ k ih => intro i m h; exact rw1_bind (rw1_mono (sync_scanSlot h i) fun _ m1 h1 => ih h1)

theorem sync_open {f : File} {cap : Nat} {m : Mem} (h : openFile f cap = .done () m) : Sync m := by
  refine sync_scan f.len (m := reopenMem f cap) (fun b => ?_) () m h
  rfl

/-! ## The table while one thread runs, whatever memory it starts with -/

/-- What some valid call may store. -/
def Askable (k v : Word) : Prop := ∃ op : Op, op.Valid ∧ op.Asks k v

theorem askable_ok : AskedOK Askable :=
  ⟨fun _ _ ⟨_, h1, h2⟩ => (asks_valid h1 h2).1, fun _ _ ⟨_, h1, h2⟩ => (asks_valid h1 h2).2⟩

/-- The memory of a map at the start of a session: one table, not being migrated, whose keys are where their probe paths lead;
all words are in the file. -/
structure Opened (hash : Word → Word) (L : Nat) (m : Mem) : Prop where
  inv : PInv Askable m
  root : m.root = 0
  next : m.next = 1
  len : (m.tab 0).len = L
  sync : Sync m
  path : ∀ i, i < L → clean (m.word (.key 0 i)) ≠ KINITIAL → clean (m.word (.key 0 i)) ≠ KTOMBSTONE ∧
    ∃ d, d < reprobeLimit L ∧ i = probeSlot hash (clean (m.word (.key 0 i))) L d ∧
      ∀ e, e < d → clean (m.word (.key 0 (probeSlot hash (clean (m.word (.key 0 i))) L e))) ≠ KINITIAL ∧
        clean (m.word (.key 0 (probeSlot hash (clean (m.word (.key 0 i))) L e))) ≠ KTOMBSTONE ∧
        clean (m.word (.key 0 (probeSlot hash (clean (m.word (.key 0 i))) L e))) ≠ clean (m.word (.key 0 i))

variable {m : Mem} {calls : Nat → List Op}

theorem Opened.ok (h : Opened hash L m) (hv : ∀ t, ∀ op ∈ calls t, op.Valid) (xs ys : List Sched) :
    SysOK (pRG Askable True) (OpRes Askable) ((Sys.start m calls).exec hash n xs) ∧
      Env Askable ((Sys.start m calls).exec hash n xs).mem ((Sys.start m calls).exec hash n (xs ++ ys)).mem := by
  have hA : ∀ zs t op, .inv t op ∈ ((Sys.start m calls).exec hash n zs).hist → op.Valid ∧ ∀ k v, op.Asks k v → Askable k v :=
    fun zs t op he => ⟨hv t op (inv_calls hash n _ calls zs he), fun k v ha => ⟨op, hv t op (inv_calls hash n _ calls zs he), ha⟩⟩
  have h1 := (sys_ok askable_ok hash n (start_ok h.inv calls) xs (hA xs)).1
  refine ⟨h1, ?_⟩
  have := (sys_ok askable_ok hash n h1 ys (by rw [← exec_append]; exact hA _)).2
  rw [← exec_append] at this
  exact this

theorem Opened.still (h : Opened hash L m) (hv : ∀ t, ∀ op ∈ calls t, op.Valid)
    (h1 : (((Sys.start m calls).exec hash n F).mem.tab 0).newT = none) : StillTab hash n (Sys.start m calls) F L := by
  have h0 : 0 < m.next := by have := h.inv.root; rw [h.root] at this; exact this
  have hevo := fun xs ys => ((h.ok (n := n) hv xs ys).2 (h.ok (n := n) hv xs ys).1.inv).2
  have hfix : ∀ ys, 0 < ((Sys.start m calls).exec hash n ys).mem.next ∧
      (((Sys.start m calls).exec hash n ys).mem.tab 0).len = L := by
    intro ys
    have := hevo [] ys
    exact ⟨lt_of_lt_of_le h0 this.next, (this.len 0 h0).trans h.len⟩
  have hnew : ∀ ys, ys <+: F → (((Sys.start m calls).exec hash n ys).mem.tab 0).newT = none := by
    rintro ys ⟨zs, rfl⟩
    cases e : (((Sys.start m calls).exec hash n ys).mem.tab 0).newT with
    | none => rfl
    | some t =>
      rw [(hevo ys zs).newT 0 t (hfix ys).1 e] at h1
      cases h1
  refine ⟨?_, ?_, fun ys _ => (hfix ys).1, fun ys _ => (hfix ys).2, hnew, ?_, ?_⟩
  · obtain ⟨p, hp, e⟩ := h.inv.pow 0 h0
    exact ⟨p, hp, h.len.symm.trans e⟩
  · intro ys hy
    have hr := (hevo [] ys).root
    rw [List.nil_append] at hr
    rcases Relation.ReflTransGen.cases_head hr with e | ⟨c, e, -⟩
    · exact e.symm.trans h.root
    · rw [show ((Sys.start m calls).exec hash n []).mem.root = 0 from h.root, hnew ys hy] at e; cases e
  · rintro ys zs ⟨l, rfl⟩ hz i hi hk
    exact (hevo ys l).key 0 i ⟨(hfix ys).1, by rw [(hfix ys).2]; exact hi⟩ hk
  · intro ys hy i hi
    cases e : isMig (clean (((Sys.start m calls).exec hash n ys).mem.word (.val 0 i))) with
    | false => rfl
    | true => exact absurd (hnew ys hy) ((h.ok (n := n) hv ys []).1.inv.mig 0 i ⟨(hfix ys).1, by rw [(hfix ys).2]; exact hi⟩ e)

theorem Opened.empty (h : Opened hash L m) (hv : ∀ t, ∀ op ∈ calls t, op.Valid)
    (h1 : (((Sys.start m calls).exec hash n F).mem.tab 0).newT = none) {ys : List Sched} (hy : ys <+: F) {i : Nat} (hi : i < L) :
    clean (((Sys.start m calls).exec hash n ys).mem.word (.key 0 i)) = KINITIAL →
      clean (((Sys.start m calls).exec hash n ys).mem.word (.val 0 i)) = VINITIAL :=
  have hF := h.still hv h1
  ((h.ok (n := n) hv ys []).1.inv.pair 0 i ⟨hF.next ys hy, by rw [hF.len ys hy]; exact hi⟩).1

theorem Opened.alone (h : Opened hash L m) (hv : ∀ t, ∀ op ∈ calls t, op.Valid) {t : Nat} (hx : ∀ x ∈ F, x.Only t)
    (h1 : (((Sys.start m calls).exec hash n F).mem.tab 0).newT = none) : Alone hash n (Sys.start m calls) F L := by
  have hdur : ∀ ys, ys <+: F → ∀ a, Durable ((Sys.start m calls).exec hash n ys).mem a := fun ys hy =>
    (durable_solo time_start h.sync.durable (fun op p todo h => by cases h) ys fun x hx' => hx x (hy.subset hx')).1
  exact ⟨⟨h.still hv h1, fun ys hy i _ => hdur ys hy _, fun ys hy i _ => hdur ys hy _⟩, fun ys hy i hi => h.empty hv h1 hy hi⟩

theorem Opened.begun (h : Opened hash L m) : Begun hash n (Sys.start m calls) L where
  path := fun i hi hK => by
    obtain ⟨h1, d, h2, h3, h4⟩ := h.path i hi hK
    exact ⟨h1, d, h2, h3, fun e he => ⟨_, ⟨rfl, h.sync _⟩, (h4 e he).1, (h4 e he).2.1, (h4 e he).2.2⟩⟩
  nvK := fun i _ => h.sync _
  nvV := fun i _ => h.sync _

theorem probeSlot_mod (hp : ∃ p, p ≤ 32 ∧ L = 2 ^ p) (k : Word) (d : Nat) :
    probeSlot hash k L d = ((hash k).toNat + d) % L := by
  rw [probeSlot, homePut, and_len hp, Nat.mod_add_mod]

/-- The file at the moment of the crash is in order. -/
theorem Opened.file (h : Opened hash L m) (hv : ∀ t, ∀ op ∈ calls t, op.Valid) {t : Nat} (hx : ∀ x ∈ F, x.Only t)
    (h1 : (((Sys.start m calls).exec hash n F).mem.tab 0).newT = none) :
    FileOK hash (fileOf ((Sys.start m calls).exec hash n F).mem.nv 0 L) := by
  have hF := h.alone hv hx h1
  have hFF := List.prefix_refl F
  have hP := (h.ok (n := n) hv F []).1.inv
  have hhas : ∀ i, i < L → Has ((Sys.start m calls).exec hash n F).mem 0 i := fun i hi =>
    ⟨hF.next F hFF, by rw [hF.len F hFF]; exact hi⟩
  have hnvK := fun i hi => alone_nvK hF (h.begun (n := n)) hFF (i := i) hi
  have hpath := alone_path hF (t := t) (hv t) hx (h.begun (n := n)) hFF
  refine ⟨hF.pow, fun i hi => (hP.durable 0 i (hhas i hi)).1, fun i hi e => ?_, fun i hi => ?_, fun i hi hK => ?_⟩
  · have e : clean (((Sys.start m calls).exec hash n F).mem.nv (.key 0 i)) = KTOMBSTONE := e
    rcases hnvK i hi with g | g
    · rw [g] at e; revert e; decide
    · rw [g] at e
      exact (hpath i hi (by rw [e]; decide)).1 e
  · cases e : isMig (((Sys.start m calls).exec hash n F).mem.nv (.val 0 i)) with
    | false => exact e
    | true => exact absurd h1 (hP.dmig 0 i (hhas i hi) e)
  · have hK : clean (((Sys.start m calls).exec hash n F).mem.nv (.key 0 i)) ≠ KINITIAL := hK
    have g := (hnvK i hi).resolve_left hK
    obtain ⟨-, d, f1, f2, f3⟩ := hpath i hi (by rw [← g]; exact hK)
    rw [← g] at f2 f3
    show ∃ d, d < reprobeLimit L ∧ i = ((hash (clean (((Sys.start m calls).exec hash n F).mem.nv (.key 0 i)))).toNat + d) % L ∧ _
    refine ⟨d, f1, by rw [← probeSlot_mod hF.pow]; exact f2, fun e he => ?_⟩
    obtain ⟨K, ⟨-, k2⟩, k3, -, k5⟩ := f3 e he
    rw [probeSlot_mod hF.pow] at k2
    exact ⟨fun c => k3 (k2.symm.trans c), fun c => k5 (k2.symm.trans c)⟩

/-- Opening a file in order gives a memory in order. -/
theorem opened_open {f : File} {cap : Nat} (hf : FileOK hash f) (hc : cap ≤ 2 ^ 32)
    (hpair : ∀ i, i < f.len → PairOK Askable (clean (f.pair i).1) (clean (f.pair i).2)) {m : Mem}
    (h : openFile f cap = .done () m) : Opened hash f.len m := by
  obtain ⟨m', h', hs⟩ := openFile_spec f cap
  rw [h] at h'
  cases h'
  have hck : ∀ i, clean (m.word (.key 0 i)) = clean (f.pair i).1 := hs.ck
  refine ⟨openFile_PInv hf.pow hc hpair hf.no_mig h, hs.root, hs.next, hs.len, sync_open h, fun i hi hK => ?_⟩
  rw [hck] at hK
  obtain ⟨d, h1, h2, h3⟩ := hf.path i hi hK
  simp only [hck, probeSlot_mod hf.pow]
  have hpos : 0 < f.len := by obtain ⟨p, -, e⟩ := hf.pow; rw [e]; positivity
  exact ⟨hf.no_tomb i hi, d, h1, h2, fun e he => ⟨(h3 e he).1, hf.no_tomb _ (Nat.mod_lt _ hpos), (h3 e he).2⟩⟩

theorem opened_fresh {len cap : Nat} (hs : Sized len cap) : Opened hash len (freshMem len cap) where
  inv := PInv_fresh hs
  root := rfl
  next := rfl
  len := rfl
  sync := fun _ => rfl
  path := fun i _ h => absurd (by simp only [freshMem, freshWords, if_true]; decide) h

/-- Stopping while the file is being opened leaves pairs that some calls may have stored. -/
theorem left_pair {f g : File} (h : f.Left g)
    (hp : ∀ i, i < f.len → PairOK Askable (clean (f.pair i).1) (clean (f.pair i).2)) (i : Nat) (hi : i < g.len) :
    PairOK Askable (clean (g.pair i).1) (clean (g.pair i).2) := by
  have h1 := hp i (by rw [← h.len]; exact hi)
  rw [show clean (g.pair i).1 = clean (f.pair i).1 from h.key i]
  rcases h.val i with e | ⟨e1, -, e⟩
  · rw [show clean (g.pair i).2 = clean (f.pair i).2 from e]; exact h1
  · rw [show clean (g.pair i).2 = VTOMBSTONE from e]
    exact ⟨fun c => absurd c e1, .inr (.inl rfl)⟩

theorem Opened.reopen (h : Opened hash L m) (hv : ∀ t, ∀ op ∈ calls t, op.Valid) {t : Nat} (hx : ∀ x ∈ F, x.Only t)
    (h1 : (((Sys.start m calls).exec hash n F).mem.tab 0).newT = none) {f : File}
    (hf : (fileOf ((Sys.start m calls).exec hash n F).mem.nv 0 L).Left f) {m' : Mem}
    (hr : openFile f ((Sys.start m calls).exec hash n F).mem.cap = .done () m') : Opened hash L m' := by
  have hF := h.alone hv hx h1
  have hP := (h.ok (n := n) hv F []).1.inv
  have hL : f.len = L := hf.len
  have := opened_open (hf.ok (h.file hv hx h1)) hP.cap (left_pair hf fun i hi =>
    hP.durable 0 i ⟨hF.next F (List.prefix_refl _), by rw [hF.len F (List.prefix_refl _)]; exact hi⟩) hr
  rw [hL] at this
  exact this

end PMap
