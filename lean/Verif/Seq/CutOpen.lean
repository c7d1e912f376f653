import Verif.Seq.Scan

/-!
# Stopping while a file is being opened keeps the file (proof machinery)
-/

namespace PMap

open Prog

variable {hash : Word → Word} {f g : File}

/-- What the scan may make of pair `i` of the file: the key is the same up to the dirty bit; so is the value, or a key without a
value has become a removed key. -/
def File.Near (f : File) (i : Nat) (V : Word) : Prop :=
  clean V = f.V i ∨ (f.K i ≠ KINITIAL ∧ f.V i = VINITIAL ∧ clean V = VTOMBSTONE)

/-- The memory while the file is being opened. -/
structure Keeps (f : File) (m : Mem) : Prop where
  next : m.next = 1
  len : (m.tab 0).len = f.len
  wk : ∀ i, clean (m.word (.key 0 i)) = f.K i
  nk : ∀ i, clean (m.nv (.key 0 i)) = f.K i
  wv : ∀ i, f.Near i (m.word (.val 0 i))
  nv : ∀ i, f.Near i (m.nv (.val 0 i))

/-- What is left of the scan keeps the file. -/
def Kept {α : Type} (f : File) (Q : α → Prop) : Prog α → Prop
  | .ret a => Q a
  | .halt _ => False
  | .act a k => ∀ m, Keeps f m → ∃ r m', a.exec m = some (r, m') ∧ Keeps f m' ∧ Kept f Q (k r)

theorem kept_bind {α β : Type} {Q : β → Prop} {p : Prog α} {h : α → Prog β} (hp : Kept f (fun a => Kept f Q (h a)) p) :
    Kept f Q (p.bind h) := by
  induction p with
  | ret a => exact hp
  | halt e => exact hp
  | act a k ih =>
    intro m hm
    obtain ⟨r, m', h1, h2, h3⟩ := hp m hm
    exact ⟨r, m', h1, h2, ih r h3⟩

theorem kept_mono {α : Type} {Q Q' : α → Prop} {p : Prog α} (hp : Kept f Q p) (h : ∀ a, Q a → Q' a) : Kept f Q' p := by
  induction p with
  | ret a => exact h a hp
  | halt e => exact hp
  | act a k ih =>
    intro m hm
    obtain ⟨r, m', h1, h2, h3⟩ := hp m hm
    exact ⟨r, m', h1, h2, ih r h3⟩

theorem keeps_writeBack {m : Mem} (h : Keeps f m) (i : Nat) : Keeps f { m with nv := writeBack m 0 i } := by
  refine ⟨h.next, h.len, h.wk, fun j => ?_, h.wv, fun j => ?_⟩
  · simp only [writeBack]
    split
    · exact h.wk j
    · exact h.nk j
  · simp only [writeBack]
    split
    · exact h.wv j
    · exact h.nv j

/-- The words a read of this address may find. -/
def File.May (f : File) : Addr → Word → Prop
  | .key _ i, w => clean w = f.K i
  | .val _ i, w => f.Near i w

theorem may_clean {a : Addr} {w : Word} : f.May a (clean w) ↔ f.May a w := by
  cases a <;> simp only [File.May, File.Near, clean_clean]

theorem keeps_may {m : Mem} (h : Keeps f m) {a : Addr} (ha : a.tab = 0) : f.May a (m.word a) := by
  cases a with
  | key t i => cases ha; exact h.wk i
  | val t i => cases ha; exact h.wv i

theorem keeps_set {m : Mem} (h : Keeps f m) {a : Addr} {w : Word} (hw : f.May a w) :
    Keeps f { m with word := setWord m.word a w } := by
  refine ⟨h.next, h.len, fun j => ?_, h.nk, fun j => ?_, h.nv⟩
  · simp only [setWord]
    split
    · next e => subst e; exact hw
    · exact h.wk j
  · simp only [setWord]
    split
    · next e => subst e; exact hw
    · exact h.wv j

theorem kept_pcasRead {a : Addr} {Q : Word → Prop} (ht : a.tab = 0) (ha : a.idx < f.len)
    (hQ : ∀ w, clean w = w → f.May a w → Q w) : Kept f Q (pcasRead a) := by
  have hin : ∀ {m : Mem}, Keeps f m → a.tab < m.next ∧ a.idx < (m.tab a.tab).len := fun h => by
    rw [ht, h.next, h.len]; exact ⟨Nat.one_pos, ha⟩
  intro m hm
  refine ⟨_, _, by rw [Act.exec, if_pos (hin hm)], hm, ?_⟩
  have hw := keeps_may hm ht
  generalize m.word a = w at hw
  show Kept f Q (if isDirty w then _ else _)
  split
  · intro m1 h1
    refine ⟨(), _, by rw [Act.exec, if_pos (hin h1)], by rw [ht]; exact keeps_writeBack h1 _, ?_⟩
    intro m2 h2
    refine ⟨(), m2, rfl, h2, ?_⟩
    intro m3 h3
    rw [Act.exec, if_pos (hin h3)]
    split
    · exact ⟨_, _, rfl, keeps_set h3 (may_clean.mpr hw), hQ _ (clean_clean _) (may_clean.mpr hw)⟩
    · exact ⟨_, _, rfl, h3, hQ _ (clean_clean _) (may_clean.mpr hw)⟩
  · exact hQ _ (clean_clean _) (may_clean.mpr hw)

theorem keeps_tab {m : Mem} (h : Keeps f m) (T : Tab) (e : T.len = f.len) : Keeps f { m with tab := upd m.tab 0 T } :=
  ⟨h.next, by simp only [upd, if_true]; exact e, h.wk, h.nk, h.wv, h.nv⟩

theorem kept_check {Q : Unit → Prop} (b : Bool) (hQ : Q ()) : Kept f Q (check b) := fun _ hm =>
  ⟨(), _, rfl, ⟨hm.next, hm.len, hm.wk, hm.nk, hm.wv, hm.nv⟩, hQ⟩

theorem kept_scanFix {i : Nat} (hi : i < f.len) {V : Word} (hV : f.Near i V) (hc : clean V = V) :
    Kept f (fun _ => True) (scanFix i (f.K i) V) := by
  unfold scanFix
  split
  · next h =>
    have hv : f.V i = VINITIAL := by
      rcases hV with e | ⟨-, e, -⟩
      · rw [← e, hc]; exact h.2
      · exact e
    refine kept_bind (kept_mono (Q := fun _ => True) ?_ fun _ _ => ?_)
    · refine kept_bind (kept_bind (kept_pcasRead rfl hi fun _ _ _ => ?_))
      intro m hm
      have hin : Addr.tab (.val 0 i) < m.next ∧ Addr.idx (.val 0 i) < (m.tab (Addr.tab (.val 0 i))).len := by
        show 0 < m.next ∧ i < (m.tab 0).len
        rw [hm.next, hm.len]; exact ⟨Nat.one_pos, hi⟩
      rw [Act.exec, if_pos hin]
      split
      · refine ⟨_, _, rfl, keeps_set hm ?_, ?_⟩
        · exact .inr ⟨h.1, hv, by rw [clean_dirty]; exact clean_VTOMBSTONE⟩
        · exact kept_bind (kept_check _ trivial)
      · exact ⟨_, _, rfl, hm, kept_bind (kept_check _ trivial)⟩
    · exact kept_bind (kept_pcasRead rfl hi fun _ _ _ => kept_bind (kept_check _ trivial))
  · trivial

theorem kept_scanSlot {i : Nat} (hi : i < f.len) : Kept f (fun _ => True) (scanSlot i) := by
  refine kept_bind (kept_pcasRead rfl hi fun V hV hV' => ?_)
  refine kept_bind (kept_pcasRead rfl hi fun K hK hK' => ?_)
  have e : K = f.K i := hK.symm.trans hK'
  subst e
  refine kept_bind (kept_mono (kept_scanFix hi hV' hV) fun V _ => ?_)
  split
  · intro m hm
    refine ⟨(), _, by rw [Act.exec, if_pos (by rw [hm.next]; exact Nat.one_pos)],
      keeps_tab hm { m.tab 0 with size := (m.tab 0).size + 1#64 } hm.len, trivial⟩
  · split
    · intro m hm
      refine ⟨(), _, by rw [Act.exec, if_pos (by rw [hm.next]; exact Nat.one_pos)],
        keeps_tab hm { m.tab 0 with slots := (m.tab 0).slots + 1 } hm.len, trivial⟩
    · trivial

theorem kept_scan (todo : Nat) : ∀ {i : Nat}, i + todo = f.len → Kept f (fun _ => True) (scan todo i) := by
  induction todo with
  | zero => intro i _; trivial
  | succ n ih =>
    intro i hi
    exact kept_bind (kept_mono (kept_scanSlot (by omega)) fun _ _ => ih (by omega))

theorem keeps_start (cap : Nat) : Keeps f (reopenMem f cap) :=
  ⟨rfl, rfl, fun _ => rfl, fun _ => rfl, fun _ => .inl rfl, fun _ => .inl rfl⟩

theorem scanSteps_keeps (xs : List OpenStep) {p : Prog Unit} {m : Mem} (hp : Kept f (fun _ => True) p) (hm : Keeps f m) :
    ∃ m', scanSteps xs p m = some m' ∧ Keeps f m' := by
  induction xs generalizing p m with
  | nil => exact ⟨m, rfl, hm⟩
  | cons x xs ih =>
    cases x with
    | writeBack i => exact ih (p := p) hp (keeps_writeBack hm i)
    | step =>
      cases p with
      | ret a => exact ih (p := .ret a) hp hm
      | halt e => exact hp.elim
      | act a k =>
        obtain ⟨r, m', h1, h2, h3⟩ := hp m hm
        obtain ⟨m2, h4, h5⟩ := ih (p := k r) h3 h2
        exact ⟨m2, by rw [scanSteps, h1]; exact h4, h5⟩

/-- The file left behind: the same keys; the same values, or a removed key for a key without a value. -/
structure File.Left (f g : File) : Prop where
  len : g.len = f.len
  key : ∀ i, g.K i = f.K i
  val : ∀ i, g.V i = f.V i ∨ (f.K i ≠ KINITIAL ∧ f.V i = VINITIAL ∧ g.V i = VTOMBSTONE)

theorem cutOpen_left (cap : Nat) (xs : List OpenStep) (f : File) : ∃ g, cutOpen cap xs f = some g ∧ f.Left g := by
  obtain ⟨m, h1, h2⟩ := scanSteps_keeps xs (kept_scan f.len (Nat.zero_add _)) (keeps_start cap)
  exact ⟨fileOf m.nv 0 f.len, by rw [cutOpen, h1]; rfl, rfl, h2.nk, h2.nv⟩

theorem File.Left.ok (h : f.Left g) (hf : FileOK hash f) : FileOK hash g := by
  have hK : ∀ i, clean (g.pair i).1 = clean (f.pair i).1 := h.key
  refine ⟨by rw [h.len]; exact hf.pow, fun i hi e => ?_, fun i hi => ?_, fun i hi => ?_, fun i hi => ?_⟩
  · rw [h.len] at hi
    rw [hK] at e
    rcases h.val i with e' | ⟨e', -⟩
    · exact e'.trans (hf.empty i hi e)
    · exact absurd e e'
  · rw [h.len] at hi; rw [hK]; exact hf.no_tomb i hi
  · rw [h.len] at hi
    rw [← isMig_clean]
    show isMig (g.V i) = false
    rcases h.val i with e | ⟨-, -, e⟩
    · rw [e]
      show isMig (clean (f.pair i).2) = false
      rw [isMig_clean]; exact hf.no_mig i hi
    · rw [e]; exact isMig_VTOMBSTONE
  · rw [h.len] at hi ⊢
    simp only [hK]
    exact hf.path i hi

theorem File.Left.holds (h : f.Left g) (k v : Word) : g.Holds k v ↔ f.Holds k v := by
  constructor
  · rintro ⟨i, hi, e1, e2, h3, h4⟩
    rw [h.len] at hi
    rcases h.val i with e | ⟨-, -, e⟩
    · exact ⟨i, hi, (h.key i).symm.trans e1, e.symm.trans e2, h3, h4⟩
    · exact absurd (e2.symm.trans e) h4
  · rintro ⟨i, hi, e1, e2, h3, h4⟩
    rcases h.val i with e | ⟨-, e, -⟩
    · exact ⟨i, by rw [h.len]; exact hi, (h.key i).trans e1, e.trans e2, h3, h4⟩
    · exact absurd (e2.symm.trans e) h3

theorem File.Left.refl (f : File) : f.Left f := ⟨rfl, fun _ => rfl, fun _ => .inl rfl⟩

theorem File.Left.trans {e : File} (h1 : e.Left f) (h2 : f.Left g) : e.Left g := by
  refine ⟨h2.len.trans h1.len, fun i => (h2.key i).trans (h1.key i), fun i => ?_⟩
  rcases h1.val i with a | ⟨a1, a2, a3⟩
  · rcases h2.val i with b | ⟨b1, b2, b3⟩
    · exact .inl (b.trans a)
    · exact .inr ⟨by rw [← h1.key]; exact b1, a.symm.trans b2, b3⟩
  · rcases h2.val i with b | ⟨b1, b2, b3⟩
    · exact .inr ⟨a1, a2, b.trans a3⟩
    · exact .inr ⟨a1, a2, b3⟩

theorem cutOpens_left (cap : Nat) (xss : List (List OpenStep)) (f : File) : ∃ g, cutOpens cap xss f = some g ∧ f.Left g := by
  induction xss generalizing f with
  | nil => exact ⟨f, rfl, .refl f⟩
  | cons xs xss ih =>
    obtain ⟨g, h1, h2⟩ := cutOpen_left cap xs f
    obtain ⟨e, h3, h4⟩ := ih g
    exact ⟨e, by rw [cutOpens, h1]; exact h3, h2.trans h4⟩

end PMap
