import Verif.KCAS.Crash
import Verif.KCAS.Recover

/-! # What `recover` does after a crash (helper lemmas) -/

namespace PMap.KCAS

variable {tb : Nat} {Z : Foot}

/-- As `W.pmwcas`, for any way of placing the descriptor that ends in one of the two ways. -/
theorem W.pmwcas_of_place (hb : tb ≤ 61) {me : Word} {d : Ref} (hoD : Own Z d.tid) (hd : d.Fits tb) (hk : KRef d)
    {ws : List Entry} (hZ : ∀ e ∈ ws, Z.L (.arr e.off)) {M : Loc → Word} {F : Bool} {A : Word → Word} {wq : Word}
    (hlen : ws.length < 2 ^ 64) (hn : (ws.map Entry.off).Nodup) (hpl : ∀ e ∈ ws, (A e.off).toNat % 8 = 0)
    (hpv : ∀ e ∈ ws, e.new.toNat % 8 = 0)
    {Q : Bool → V → Prop} (n : Nat) (hfuel : ws.length < n) (v : V)
    (hplace : ∀ Q : Status → V → Prop,
      (∀ v' wq', (∀ e ∈ ws, A e.off = e.old) → wq'.toNat = wq.toNat + 2 * ws.length →
        PI me d ws M F (placed ws A (pack tb d) ws.length) Status.undecided.word wq' v' → Q .succeeded v') →
      (∀ v' wq' i, ¬ (∀ e ∈ ws, A e.off = e.old) → i < ws.length → (∀ j (hj : j < ws.length), j < i → A ws[j].off = ws[j].old) →
        wq'.toNat ≤ wq.toNat + 2 * ws.length → PI me d ws M F (placed ws A (pack tb d) i) Status.undecided.word wq' v' → Q .failed v') →
      W Z (KCAS.place tb (KCAS.pmwcas tb me n) n me d 0) Q v)
    (h1 : ∀ v' wq', (∀ e ∈ ws, A e.off = e.old) → wq'.toNat ≤ wq.toNat + 2 * ws.length →
      (∃ B, PI me d ws M F B Status.succeeded.word wq' v' ∧ (∀ e ∈ ws, B e.off = e.new)
        ∧ ∀ o, o ∉ ws.map Entry.off → B o = A o) → Q true v')
    (h2 : ∀ v' wq', ¬ (∀ e ∈ ws, A e.off = e.old) → wq'.toNat ≤ wq.toNat + 2 * ws.length →
      PI me d ws M F A Status.failed.word wq' v' → Q false v') :
    W Z (KCAS.pmwcas tb me (n + 1) d none) Q v := by
  obtain ⟨n, rfl⟩ : ∃ k, n = k + 1 := ⟨n - 1, by omega⟩
  have hs := seqSize_le hb
  have hd2 := hd.2
  have hdec : ∀ (st : Status) (R : Bool × Word × Bool → V → Prop) (u : V) (A' : Word → Word) (wq' : Word),
      PI me d ws M F A' Status.undecided.word wq' u →
      (∀ x u', PI me d ws M F A' st.word wq' u' → R (true, x, true) u') →
      W Z (KCAS.casField d (KMut.pack ⟨false, Status.undecided.word, d.seq⟩) (KMut.pack ⟨true, st.word, d.seq⟩) (.kmut d.tid) true)
        R u := by
    intro st R u A' wq' hu hR
    have hmk : u.mem (.kmut d.tid) = KMut.pack ⟨false, Status.undecided.word, d.seq⟩ := by rw [hu.mem]; exact memOf_k
    refine W.casField (by foot) (W.getSeqK hoD hk hmk (by decide) (by omega) ⟨rfl, rfl⟩) ?_ ?_
    · intro _
      rw [cl_kmut _ _ _ (by cases st <;> decide) (by omega)]
      exact hR _ _ (hu.put_k _)
    · intro hne; exact absurd hmk hne
  unfold KCAS.pmwcas
  apply W.bind
  apply W.ret
  apply W.bind
  refine hplace _ ?_ ?_
  · -- all words match
    intro v1 wq1 hall hwq1 hp1
    have hrest : ∀ v2, PI me d ws M F (placed ws A (pack tb d) ws.length) Status.undecided.word wq1 v2 →
        W Z (do
          let c ← KCAS.casField d (KMut.pack ⟨false, Status.undecided.word, d.seq⟩) (KMut.pack ⟨true, Status.succeeded.word, d.seq⟩)
            (.kmut d.tid) true
          KCAS.persist (.kmut d.tid) (KMut.pack ⟨true, Status.succeeded.word, d.seq⟩)
          if !c.2.2 then return false
          else do
            KCAS.finish tb (n + 1) d .succeeded
            return true) Q v2 := by
      intro v2 hp2
      apply W.bind
      refine hdec .succeeded _ v2 _ _ hp2 ?_
      intro x v3 hp3
      apply W.bind; refine W.persist (by foot) ?_
      rw [if_neg (by simp)]
      apply W.bind
      refine W.finish hb hoD hd hk hZ hlen .succeeded _ ?_ (n + 1) 0 v3 _ (Nat.zero_le _) (by omega) rfl hp3
      intro v4 hp4
      apply W.ret
      refine h1 v4 wq1 hall (by omega) ⟨_, hp4, ?_, ?_⟩
      · intro e he
        rw [List.drop_zero, fin_mem _ _ _ _ hn e he]
        have hpe : placed ws A (pack tb d) ws.length e.off = pack tb d := by
          unfold placed
          rw [List.take_length, if_pos (List.mem_map_of_mem he)]
        rw [if_pos hpe, if_pos rfl]
        exact cl_of_plain (hpv e he)
      · intro o ho
        rw [List.drop_zero, fin_other _ _ _ _ _ ho]
        unfold placed
        rw [List.take_length, if_neg ho]
    simp only
    rw [if_pos trivial]
    apply W.bind
    unfold KCAS.persistAll
    refine W.persistAll hoD hZ hlen hp1 ?_ (n + 1) 0 (Nat.zero_le _) (by omega)
    exact hrest v1 hp1
  · -- some word differs
    intro v1 wq1 i hall hi hold hwq1 hp1
    simp only
    rw [if_neg (by decide)]
    apply W.bind
    refine hdec .failed _ v1 _ _ hp1 ?_
    intro x v3 hp3
    apply W.bind; refine W.persist (by foot) ?_
    rw [if_neg (by simp)]
    apply W.bind
    refine W.finish hb hoD hd hk hZ hlen .failed A ?_ (n + 1) 0 v3 _ (Nat.zero_le _) (by omega) ?_ hp3
    · intro v4 hp4
      apply W.ret
      rw [show decide (Status.failed = Status.succeeded) = false by decide]
      exact h2 v4 wq1 hall hwq1 hp4
    · rw [List.drop_zero]
      funext o
      have hpk := pack_k8 hb hd hk
      by_cases ho : o ∈ ws.map Entry.off
      · obtain ⟨e, he, rfl⟩ := List.mem_map.1 ho
        rw [fin_mem _ _ _ _ hn e he]
        obtain ⟨j, hj, rfl⟩ := List.mem_iff_getElem.1 he
        by_cases hmi : ws[j].off ∈ (ws.take i).map Entry.off
        · have hpe : placed ws A (pack tb d) i ws[j].off = pack tb d := by unfold placed; rw [if_pos hmi]
          rw [if_pos hpe, if_neg (by decide)]
          obtain ⟨e', he', heq⟩ := List.mem_map.1 hmi
          obtain ⟨k, hkk, rfl⟩ := List.mem_iff_getElem.1 he'
          rw [List.length_take] at hkk
          rw [List.getElem_take] at heq
          have hkl : k < ws.length := by omega
          have hkj := (List.Nodup.getElem_inj_iff (l := ws.map Entry.off) hn (i := k) (j := j) (hi := by simpa using hkl)
            (hj := by simpa using hj)).1 (by rw [List.getElem_map, List.getElem_map, heq])
          subst hkj
          have ho := hold k hj (by omega)
          rw [← ho]
          exact cl_of_plain (hpl _ he)
        · have hpe : placed ws A (pack tb d) i ws[j].off = A ws[j].off := by unfold placed; rw [if_neg hmi]
          rw [hpe, if_neg]
          intro h
          have := hpl _ he
          rw [h] at this; omega
      · rw [fin_other _ _ _ _ _ ho]
        unfold placed
        rw [if_neg]
        intro hm
        exact ho (List.map_subset _ (List.take_subset i ws) hm)

/-- A word that holds the descriptor already is passed over. -/
theorem W.placeWord_own (hb : tb ≤ 61) {me : Word} (hme : me.toNat < 2 ^ tb) {d : Ref} (hoM : Own Z me) (hoD : Own Z d.tid) (hd : d.Fits tb) (hk : KRef d)
    {ws : List Entry} (hZ : ∀ e ∈ ws, Z.L (.arr e.off)) {M : Loc → Word} {F : Bool} {A : Word → Word} {wq : Word} {v : V} (help : Ref → Option Word → Prog Bool)
    (n : Nat) (hp : PI me d ws M F A Status.undecided.word wq v) (i : Nat) (hi : i < ws.length)
    (hw : wq.toNat + 2 < 2 ^ seqSize tb) (hA : A ws[i].off = pack tb d) (hold : ws[i].old.toNat % 8 = 0)
    {Q : Ctl (Nat × Bool) Status → V → Prop}
    (h : ∀ v', PI me d ws M F A Status.undecided.word (wq + 2#64) v' → Q (.next (i + 1, true)) v') :
    W Z (KCAS.placeWord tb help (n + 1) me d i) Q v := by
  have hs := seqSize_le hb
  obtain ⟨g1, g2, g3⟩ := hp.ents i hi
  have hzi : Z.L (.arr ws[i].off) := hZ _ (List.getElem_mem hi)
  have h8 := pack_k8 hb hd hk
  have hne : pack tb d ≠ ws[i].old := by intro e; rw [e] at h8; omega
  have hun : unpack tb (pack tb d) = d := unpack_pack tb hb d hd
  unfold KCAS.placeWord
  apply W.bind; refine W.rd (by foot) ?_; rw [g1]
  apply W.bind; refine W.rd (by foot) ?_; rw [g2]
  apply W.bind; refine W.rd (by foot) ?_; rw [g3]
  apply W.bind
  apply W.createRDCSS hb hme hoM hp _ hw
  intro v1 hp1 q1 q2 q3 q4
  simp only at q1 q2
  have hq2 : (wq + 2#64).toNat = wq.toNat + 2 := by
    rw [BitVec.toNat_add]; exact Nat.mod_eq_of_lt (show wq.toNat + 2 < 2 ^ 64 by omega)
  have hr : Ref.Fits tb ⟨false, false, true, wq + 2#64, me⟩ := ⟨hme, by show (wq + 2#64).toNat < _; omega⟩
  have hrw : WRef ⟨false, false, true, wq + 2#64, me⟩ := ⟨rfl, rfl, rfl⟩
  generalize hrd : (⟨false, false, true, wq + 2#64, me⟩ : Ref) = r at hr hrw ⊢
  have hrt : r.tid = me := by rw [← hrd]
  have hrs : r.seq = wq + 2#64 := by rw [← hrd]
  rw [← hrs] at hp1 h
  apply W.bind
  have hmw : v1.mem (.wmut r.tid) = WMut.pack ⟨false, r.seq⟩ := by rw [hp1.mem, hrt]; exact memOf_w
  have hma : v1.mem (.arr ws[i].off) = pack tb d := by rw [hp1.mem, ← hA]; rfl
  have hr2 := hr.2
  unfold KCAS.install
  apply W.loop
  rw [hrt]
  apply W.bind; refine W.rd (by foot) ?_; rw [q2]
  apply W.bind; refine W.rd (by foot) ?_; rw [q1]
  apply W.bind
  refine W.casField (by foot) ?_ ?_ ?_
  · exact W.getSeqW (by rw [hrt]; exact hoM) hrw hmw (by omega) ⟨rfl, rfl⟩
  · intro hm
    rw [hma] at hm
    exact absurd hm hne
  · intro _
    rw [hma]
    apply W.bind
    apply W.check (by simp [hne])
    rw [if_neg (by simp), if_neg (by simp [hun, hk.2.2]), if_neg hne]
    apply W.ret
    simp only
    rw [if_neg (by simp)]
    apply W.bind; refine W.rd (by foot) ?_
    rw [q2, if_neg hne, hun, if_pos hk.2.1, if_neg (by simp [hk.1])]
    rw [if_pos ⟨rfl, rfl⟩]
    apply W.ret
    exact h _ hp1

theorem placed_mem (ws : List Entry) (A : Word → Word) (x : Word) (i j : Nat) (hj : j < ws.length) (hji : j < i) :
    placed ws A x i ws[j].off = x := by
  unfold placed
  rw [if_pos]
  refine List.mem_map_of_mem ?_
  rw [List.mem_take_iff_getElem]
  exact ⟨j, by omega, rfl⟩

/-- Placing the descriptor when the first `i₀` words hold it already. -/
theorem W.place_again (hb : tb ≤ 61) {me : Word} (hme : me.toNat < 2 ^ tb) {d : Ref} (hoM : Own Z me) (hoD : Own Z d.tid) (hd : d.Fits tb) (hk : KRef d)
    {ws : List Entry} (hZ : ∀ e ∈ ws, Z.L (.arr e.off)) {M : Loc → Word} {F : Bool} {A : Word → Word} {wq0 : Nat} (help : Ref → Option Word → Prog Bool)
    (hlen : ws.length < 2 ^ 64) (hn : (ws.map Entry.off).Nodup) (hpl : ∀ e ∈ ws, (A e.off).toNat % 8 = 0)
    (hw : wq0 + 2 * ws.length < 2 ^ seqSize tb) {Q : Status → V → Prop} (n : Nat)
    (h1 : ∀ v' wq, (∀ e ∈ ws, A e.off = e.old) → wq.toNat = wq0 + 2 * ws.length →
      PI me d ws M F (placed ws A (pack tb d) ws.length) Status.undecided.word wq v' → Q .succeeded v')
    (h2 : ∀ v' wq i, ¬ (∀ e ∈ ws, A e.off = e.old) → i < ws.length → (∀ j (hj : j < ws.length), j < i → A ws[j].off = ws[j].old) →
      wq.toNat ≤ wq0 + 2 * ws.length → PI me d ws M F (placed ws A (pack tb d) i) Status.undecided.word wq v' → Q .failed v')
    (i0 : Nat) (hi0 : i0 ≤ ws.length) (hold : ∀ j (hj : j < ws.length), j < i0 → A ws[j].off = ws[j].old)
    (k m i : Nat) (v : V) (wq : Word) (hki : i + k = i0) (hm : ws.length < m + i)
    (hwq : wq.toNat = wq0 + 2 * i) (hp : PI me d ws M F (placed ws A (pack tb d) i0) Status.undecided.word wq v) :
    W Z (KCAS.loop m (fun (x : Nat × Bool) => do
      if x.2 then do
        let c ← step (.rd (.count d.tid))
        if x.1 < c.toNat then KCAS.placeWord tb help (n + 1) me d x.1 else return .done .succeeded
      else KCAS.placeWord tb help (n + 1) me d x.1) (i, true)) Q v := by
  induction k generalizing m i v wq with
  | zero =>
    have hki : i = i0 := hki
    subst hki
    exact W.place hb hme hoM hoD hd hk hZ help hlen hn hpl hw n h1 h2 m i v wq hi0 hm hold hwq hp
  | succ k ih =>
    obtain ⟨m, rfl⟩ : ∃ m', m = m' + 1 := ⟨m - 1, by omega⟩
    have hil : i < ws.length := by omega
    apply W.loop
    rw [if_pos rfl]
    apply W.bind; refine W.rd (by foot) ?_
    rw [hp.cnt, cnt_toNat hlen, if_pos hil]
    refine W.placeWord_own hb hme hoM hoD hd hk hZ help n hp i hil (by omega) (placed_mem ws A _ i0 i hil (by omega)) ?_ ?_
    · rw [← hold i hil (by omega)]; exact hpl _ (List.getElem_mem hil)
    · intro v' hp'
      have hwt : (wq + 2#64).toNat = wq.toNat + 2 := by
        have := seqSize_le hb
        rw [BitVec.toNat_add]; exact Nat.mod_eq_of_lt (show wq.toNat + 2 < 2 ^ 64 by omega)
      exact ih m (i + 1) v' (wq + 2#64) (by omega) (by omega) (by omega) hp'

/-- A multi-word CAS taken up again when its descriptor is in the first words. -/
theorem W.pmwcas_again (hb : tb ≤ 61) {me : Word} (hme : me.toNat < 2 ^ tb) {d : Ref} (hoM : Own Z me) (hoD : Own Z d.tid) (hd : d.Fits tb) (hk : KRef d)
    {ws : List Entry} (hZ : ∀ e ∈ ws, Z.L (.arr e.off)) {M : Loc → Word} {F : Bool} {A : Word → Word} {wq : Word}
    (hlen : ws.length < 2 ^ 64) (hn : (ws.map Entry.off).Nodup) (hpl : ∀ e ∈ ws, (A e.off).toNat % 8 = 0)
    (hpv : ∀ e ∈ ws, e.new.toNat % 8 = 0)
    (hw : wq.toNat + 2 * ws.length < 2 ^ seqSize tb) {Q : Bool → V → Prop} (n : Nat) (hfuel : ws.length < n) (v : V)
    (i0 : Nat) (hi0 : i0 ≤ ws.length) (hold : ∀ j (hj : j < ws.length), j < i0 → A ws[j].off = ws[j].old)
    (hp : PI me d ws M F (placed ws A (pack tb d) i0) Status.undecided.word wq v)
    (h1 : ∀ v' wq', (∀ e ∈ ws, A e.off = e.old) → wq'.toNat ≤ wq.toNat + 2 * ws.length →
      (∃ B, PI me d ws M F B Status.succeeded.word wq' v' ∧ (∀ e ∈ ws, B e.off = e.new)
        ∧ ∀ o, o ∉ ws.map Entry.off → B o = A o) → Q true v')
    (h2 : ∀ v' wq', ¬ (∀ e ∈ ws, A e.off = e.old) → wq'.toNat ≤ wq.toNat + 2 * ws.length →
      PI me d ws M F A Status.failed.word wq' v' → Q false v') :
    W Z (KCAS.pmwcas tb me (n + 1) d none) Q v := by
  obtain ⟨n, rfl⟩ : ∃ k, n = k + 1 := ⟨n - 1, by omega⟩
  refine W.pmwcas_of_place hb hoD hd hk hZ hlen hn hpl hpv (n + 1) hfuel v ?_ h1 h2
  intro Q h1 h2
  exact W.place_again hb hme hoM hoD hd hk hZ (KCAS.pmwcas tb me (n + 1)) hlen hn hpl hw n h1 h2 i0 hi0 hold i0 (n + 1) 0 v wq
    (by omega) (by omega) rfl hp

/-! ## Counts -/

/-- Every step of the program is as described, whatever it reads. -/
def Each {α : Type} (R : Act → Prop) : Prog α → Prop
  | .ret _ => True
  | .halt _ => True
  | .act a k => R a ∧ ∀ r, Each R (k r)

variable {R : Act → Prop}

theorem Each.bind {α β : Type} {p : Prog α} {f : α → Prog β} (h : Each R p) (hf : ∀ a, Each R (f a)) : Each R (p >>= f) := by
  show Each R (p.bind f)
  induction p with
  | ret a => exact hf a
  | halt h' => trivial
  | act a k ih => exact ⟨h.1, fun r => ih r (h.2 r)⟩

theorem Each.pure {α : Type} (a : α) : Each R (pure a : Prog α) := trivial

theorem Each.step {a : Act} (h : R a) : Each R (step a) := ⟨h, fun _ => trivial⟩

theorem Each.ite {α : Type} {c : Prop} [Decidable c] {p q : Prog α} (h1 : Each R p) (h2 : Each R q) :
    Each R (if c then p else q) := by split <;> assumption

theorem Each.loop {σ α : Type} (n : Nat) {body : σ → Prog (Ctl σ α)} (h : ∀ x, Each R (body x)) (x : σ) :
    Each R (loop n body x) := by
  induction n generalizing x with
  | zero => trivial
  | succ n ih =>
    unfold KCAS.loop
    refine Each.bind (h x) ?_
    rintro (y | a)
    · exact ih y
    · trivial

theorem Each.cut {α : Type} {p : Prog α} (h : Each R p) {J : S → Prop} (hJ : ∀ a s, R a → J s → J (a.exec s).2) {s c : S}
    (hs : J s) (hc : CutAt p s c) : J c := by
  induction hc with
  | here => exact hs
  | later _ ih => exact ih (h.2 _) (hJ _ _ h.1 hs)

theorem Runs.cut {α : Type} {F : Foot} {p : Prog α} {s : S} {a : α} {s' : S} (h : Runs F p s a s') : CutAt p s s' := by
  induction h with
  | ret => exact .here _ _
  | act _ _ ih => exact .later ih

/-- A step does not write a count of `P` words or more. -/
def Act.Few (P : Nat) : Act → Prop
  | .wr (.count _) w => w.toNat < P
  | _ => True

/-- All counts are below `P`. -/
def CntOk (P : Nat) (f : Fld → Word) : Prop := ∀ x, (f (.count x)).toNat < P

theorem few_exec {P : Nat} (a : Act) (s : S) (h : a.Few P) (hs : CntOk P s.fld) : CntOk P (a.exec s).2.fld := by
  cases a with
  | ld l => exact hs
  | st l w => exact hs
  | cas l e n => rw [exec_cas]; simp only; split <;> exact hs
  | rd f => exact hs
  | check b => exact hs
  | wr f w =>
    intro x
    show (if Fld.count x = f then w else s.fld (.count x)).toNat < P
    split
    · rename_i he
      subst he
      exact h
    · exact hs x

theorem W.few {α : Type} {P : Nat} {p : Prog α} {Q : α → V → Prop} {v : V} (hp : Each (Act.Few P) p) (hv : CntOk P v.fld)
    (h : W Z p Q v) : W Z p (fun a v' => Q a v' ∧ CntOk P v'.fld) v := by
  intro s hs
  obtain ⟨a, s', hr, hq⟩ := h s hs
  refine ⟨a, s', hr, hq, ?_⟩
  exact hp.cut (J := fun s => CntOk P s.fld) few_exec (by rw [← hs] at hv; exact hv) hr.cut

section
variable {P : Nat}

theorem Few.ld (l : Loc) : Each (Act.Few P) (KCAS.step (.ld l)) := Each.step trivial
theorem Few.rd (f : Fld) : Each (Act.Few P) (KCAS.step (.rd f)) := Each.step trivial
theorem Few.check (b : Bool) : Each (Act.Few P) (KCAS.step (.check b)) := Each.step trivial
theorem Few.st (l : Loc) (w : Word) : Each (Act.Few P) (KCAS.step (.st l w)) := Each.step trivial
theorem Few.cas (l : Loc) (a b : Word) : Each (Act.Few P) (KCAS.step (.cas l a b)) := Each.step trivial

theorem Few.persist (l : Loc) (v : Word) : Each (Act.Few P) (persist l v) := Each.bind (Few.cas _ _ _) fun _ => Each.pure _

theorem Few.pcasRead (l : Loc) : Each (Act.Few P) (pcasRead l) :=
  Each.bind (Few.ld _) fun _ => Each.ite (Each.bind (Few.persist _ _) fun _ => Each.pure _) (Each.pure _)

theorem Few.pcas (l : Loc) (e n : Word) : Each (Act.Few P) (pcas l e n) :=
  Each.bind (Few.pcasRead l) fun _ => Each.bind (Few.cas _ _ _) fun _ => Each.pure _

theorem Few.getSeq (d : Ref) : Each (Act.Few P) (getSeq d) := by
  unfold KCAS.getSeq
  refine Each.ite ?_ (Each.ite ?_ trivial)
  · exact Each.bind (Few.pcasRead _) fun _ => Each.pure _
  · exact Each.bind (Few.pcasRead _) fun _ => Each.pure _

theorem Few.casField (d : Ref) (e n : Word) (l : Loc) (b : Bool) : Each (Act.Few P) (casField d e n l b) := by
  refine Each.bind (Few.pcasRead l) fun _ => Each.bind (Few.getSeq d) fun _ => Each.ite (Each.pure _) (Each.ite (Each.pure _) ?_)
  exact Each.bind (Few.pcas _ _ _) fun _ => Each.pure _

theorem Few.createRDCSS (tb : Nat) (me t : Word) (e : Entry) (d : Ref) : Each (Act.Few P) (createRDCSS tb me t e d) := by
  unfold KCAS.createRDCSS
  refine Each.bind (Few.pcasRead _) fun _ => ?_
  refine Each.bind (Few.st _ _) fun _ => Each.bind (Few.persist _ _) fun _ => Each.bind (Each.step trivial) fun _ =>
    Each.bind (Each.step trivial) fun _ => Each.bind (Each.step trivial) fun _ => Each.bind (Each.step trivial) fun _ =>
    Each.bind (Each.step trivial) fun _ => ?_
  exact Each.bind (Few.st _ _) fun _ => Each.bind (Few.persist _ _) fun _ => Each.pure _

theorem Few.completeInstall (tb : Nat) (r : Ref) : Each (Act.Few P) (completeInstall tb r) := by
  unfold KCAS.completeInstall
  refine Each.bind (Few.rd _) fun _ => Each.bind (Few.rd _) fun _ => ?_
  refine Each.bind (Few.rd _) fun _ => Each.bind ?_ fun _ => ?_
  · exact Each.bind (Few.pcasRead _) fun _ => Each.bind (Few.getSeq _) fun _ => Each.pure _
  · refine Each.bind (Few.check _) fun _ => Each.bind (Few.rd _) fun _ => Each.bind (Few.rd _) fun _ => ?_
    exact Each.bind (Few.casField _ _ _ _ _) fun _ => Each.pure _

theorem Few.install (tb : Nat) (n : Nat) (d : Ref) : Each (Act.Few P) (install tb n d) := by
  refine Each.loop n (fun _ => ?_) _
  refine Each.bind (Few.rd _) fun _ => Each.bind (Few.rd _) fun _ => Each.bind (Few.casField _ _ _ _ _) fun _ =>
    Each.bind (Few.check _) fun _ => ?_
  refine Each.ite (Each.pure _) (Each.ite ?_ (Each.ite ?_ (Each.pure _)))
  · exact Each.bind (Few.completeInstall tb _) fun _ => Each.pure _
  · exact Each.bind (Few.completeInstall tb _) fun _ => Each.pure _

theorem Few.startAt (n : Nat) (t : Word) (a : Option Word) : Each (Act.Few P) (startAt n t a) := by
  cases a with
  | none => trivial
  | some a =>
    refine Each.loop n (fun _ => ?_) _
    refine Each.bind (Few.rd _) fun _ => Each.ite ?_ (Each.pure _)
    exact Each.bind (Few.rd _) fun _ => Each.ite (Each.pure _) (Each.pure _)

theorem Few.placeWord (tb : Nat) {help : Ref → Option Word → Prog Bool} (hh : ∀ d a, Each (Act.Few P) (help d a)) (n : Nat) (me : Word) (d : Ref)
    (i : Nat) : Each (Act.Few P) (placeWord tb help n me d i) := by
  unfold KCAS.placeWord
  refine Each.bind (Few.rd _) fun _ => Each.bind (Few.rd _) fun _ => Each.bind (Few.rd _) fun _ =>
    Each.bind (Few.createRDCSS tb _ _ _ _) fun _ => Each.bind (Few.install tb _ _) fun r => Each.ite (Each.pure _) ?_
  refine Each.bind (Few.rd _) fun _ => Each.ite (Each.pure _) (Each.ite ?_ (Each.pure _))
  have hrest : Each (Act.Few P) (if (unpack tb r.1).tid = d.tid ∧ (unpack tb r.1).seq = d.seq then
      (return .next (i + 1, true) : Prog (Ctl (Nat × Bool) Status)) else do
        let off ← KCAS.step (.rd (.koff d.tid i))
        let _ ← help (unpack tb r.1) (some off)
        return .next (i, false)) :=
    Each.ite (Each.pure _) (Each.bind (Few.rd _) fun _ => Each.bind (hh _ _) fun _ => Each.pure _)
  exact Each.ite (Each.bind (Few.rd _) fun _ => Each.bind (Few.persist _ _) fun _ => hrest) hrest

theorem Few.place (tb : Nat) {help : Ref → Option Word → Prog Bool} (hh : ∀ d a, Each (Act.Few P) (help d a)) (n : Nat) (me : Word) (d : Ref)
    (i : Nat) : Each (Act.Few P) (place tb help n me d i) := by
  refine Each.loop n (fun _ => ?_) _
  refine Each.ite (Each.bind (Few.rd _) fun _ => Each.ite (Few.placeWord tb hh _ _ _ _) (Each.pure _)) ?_
  exact Few.placeWord tb hh _ _ _ _

theorem Few.persistAll (n : Nat) (d : Ref) : Each (Act.Few P) (persistAll n d) := by
  refine Each.loop n (fun _ => ?_) _
  exact Each.bind (Few.rd _) fun _ => Each.ite (Each.bind (Few.rd _) fun _ => Each.bind (Few.pcasRead _) fun _ =>
    Each.pure _) (Each.pure _)

theorem Few.finish (tb : Nat) (n : Nat) (d : Ref) (st : Status) : Each (Act.Few P) (finish tb n d st) := by
  refine Each.loop n (fun _ => ?_) _
  refine Each.bind (Few.rd _) fun _ => Each.ite (Each.bind (Few.rd _) fun _ => ?_) (Each.pure _)
  refine Each.bind (Few.rd _) fun _ => Each.bind (Few.casField _ _ _ _ _) fun _ =>
    Each.ite (Each.pure _) (Each.ite ?_ ?_)
  · refine Each.bind (Few.rd _) fun _ => Each.bind (Few.casField _ _ _ _ _) fun _ => Each.ite (Each.pure _) ?_
    exact Each.bind (Few.rd _) fun _ => Each.bind (Few.persist _ _) fun _ => Each.pure _
  · exact Each.bind (Few.rd _) fun _ => Each.bind (Few.persist _ _) fun _ => Each.pure _

theorem Few.pmwcas (tb : Nat) (me : Word) (n : Nat) (d : Ref) (a : Option Word) : Each (Act.Few P) (pmwcas tb me n d a) := by
  induction n generalizing d a with
  | zero => trivial
  | succ n ih =>
    unfold KCAS.pmwcas
    refine Each.bind (Few.startAt _ _ _) fun _ => Each.bind (Few.place tb ih _ _ _ _) fun st => ?_
    have hrest : Each (Act.Few P) (do
        let c ← KCAS.casField d (KMut.pack ⟨false, Status.undecided.word, d.seq⟩) (KMut.pack ⟨true, st.word, d.seq⟩) (.kmut d.tid) true
        KCAS.persist (.kmut d.tid) (KMut.pack ⟨true, st.word, d.seq⟩)
        if !c.2.2 then return false
        else do
          KCAS.finish tb n d st
          return decide (st = .succeeded)) := by
      refine Each.bind (Few.casField _ _ _ _ _) fun _ => Each.bind (Few.persist _ _) fun _ =>
        Each.ite (Each.pure _) ?_
      exact Each.bind (Few.finish tb _ _ _) fun _ => Each.pure _
    exact Each.ite (Each.bind (Few.persistAll _ _) fun _ => hrest) hrest

theorem Few.writeWords (t : Word) (es : List Entry) (i : Nat) : Each (Act.Few P) (writeWords t i es) := by
  induction es generalizing i with
  | nil => trivial
  | cons e es ih =>
    exact Each.bind (Each.step trivial) fun _ => Each.bind (Each.step trivial) fun _ => Each.bind (Each.step trivial) fun _ => ih _

theorem Few.mwcas (tb : Nat) (n : Nat) (t : Word) (ws : List Entry) (hP : ws.length < P) (hP' : P ≤ 2 ^ 64) :
    Each (Act.Few P) (mwcas tb n t ws) := by
  refine Each.bind ?_ fun d => Few.pmwcas tb _ _ _ _
  unfold createKCAS
  refine Each.bind (Few.pcasRead _) fun _ => Each.bind (Few.st _ _) fun _ => Each.bind (Few.persist _ _) fun _ =>
    Each.bind (Few.check _) fun _ => Each.bind (Each.step ?_) fun _ => Each.bind (Few.writeWords _ _ _) fun _ =>
    Each.bind (Few.st _ _) fun _ => Each.bind (Few.persist _ _) fun _ => Each.pure _
  show (BitVec.ofNat 64 ws.length : Word).toNat < P
  rw [cnt_toNat (by omega)]; exact hP

end

end PMap.KCAS
