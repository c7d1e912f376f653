import Verif.Own.Near
import Verif.Fixed.Sys

/-!
# One writer per key, in a table that does not grow, or until it grows (proof machinery)

`owp C t op Q p s c`: whatever the other threads do between two actions, as long as they keep to their own keys, the next
action of `p` keeps the table in order, does not disturb the other threads, and either leaves the represented map as it is
or (once, while `c = none`) changes it to what the call `op` makes of it and fixes the result.  If `C.grow` is set, nothing is
said once a second table has been allocated.
-/

namespace PMap

open Prog

/-- The set-up: hash function, length of the table, the keys that can be added, the owner of each, whether these keys may
be too many for the table, and whether the table comes from an existing file. -/
structure Cfg where
  hash : Word → Word
  len : Nat
  S : Finset Word
  own : Word → Nat
  grow : Bool
  re : Bool

/-- How far from its home a key can be put. -/
def Cfg.bound (C : Cfg) : Nat := if C.grow then reprobeLimit C.len else 10

theorem Cfg.bound_le (C : Cfg) : C.bound ≤ reprobeLimit C.len := by
  unfold bound reprobeLimit REPROBE_LIMIT
  split <;> omega

theorem Cfg.le_bound (C : Cfg) : 10 ≤ C.bound := by
  unfold bound reprobeLimit REPROBE_LIMIT
  split <;> omega

/-- A second table has been allocated. -/
def Cfg.Grown (C : Cfg) (m : Mem) : Prop := C.grow = true ∧ 2 ≤ m.next

/-- The memory, the map it represents, and the keys the size counter has counted. -/
structure OSt where
  m : Mem
  M : AMap
  sz : Word → Bool

/-- Key word of slot `i`. -/
def OSt.key (s : OSt) (i : Nat) : Word := s.m.word (.key 0 i)
/-- Value word of slot `i`. -/
def OSt.val (s : OSt) (i : Nat) : Word := s.m.word (.val 0 i)

/-- What a value word without its dirty bit stands for. -/
def dec (w : Word) : Option Word := if w = VINITIAL ∨ w = VTOMBSTONE then none else some w

/-- A word that can be in a value slot, dirty bit apart. -/
def Stored (w : Word) : Prop := w = VINITIAL ∨ w = VTOMBSTONE ∨ ValidVal w

theorem dec_init : dec VINITIAL = none := by simp [dec]
theorem dec_tomb : dec VTOMBSTONE = none := by simp [dec]
theorem dec_valid {v : Word} (h : ValidVal v) : dec v = some v := by simp [dec, h.ne_init, h.ne_tomb]

theorem Stored.clean {w : Word} (h : Stored w) : clean w = w := by
  rcases h with rfl | rfl | h
  · exact clean_VINITIAL
  · exact clean_VTOMBSTONE
  · exact h.clean_eq

theorem Stored.mig {w : Word} (h : Stored w) : isMig w = false := by
  rcases h with rfl | rfl | h
  · exact isMig_VINITIAL
  · exact isMig_VTOMBSTONE
  · exact h.2.1

theorem Stored.dec_some {w v : Word} (h : Stored w) (e : dec w = some v) : w = v ∧ ValidVal v := by
  rcases h with rfl | rfl | h
  · rw [dec_init] at e; cases e
  · rw [dec_tomb] at e; cases e
  · rw [dec_valid h] at e; cases e; exact ⟨rfl, h⟩

/-- No second table has come into being, and nothing has been copied. -/
structure Lone (re : Bool) (m : Mem) : Prop where
  next : m.next = 1
  done : (m.tab 0).copyDone = 0
  slots : re = false → (m.tab 0).len ≤ (m.tab 0).slots
  cap : m.cap ≤ 2 ^ 32
  reopened : m.reopened = re

/-- The table is in order and represents the map. -/
structure OInv (C : Cfg) (s : OSt) : Prop where
  root : s.m.root = 0
  lt : 0 < s.m.next
  len : (s.m.tab 0).len = C.len
  newT : (s.m.tab 0).newT = none
  ok : s.m.failed = false
  placed : Placed C.hash C.len C.S C.bound fun i => clean (s.key i)
  empty : ∀ i, i < C.len → clean (s.key i) = KINITIAL → clean (s.val i) = VINITIAL
  vals : ∀ i, i < C.len → clean (s.key i) ≠ KINITIAL → s.M (clean (s.key i)) = dec (clean (s.val i)) ∧ Stored (clean (s.val i))
  near : C.re = false → ∀ i, i < C.len → clean (s.key i) ≠ KINITIAL → clean (s.val i) ≠ VINITIAL → ∃ d, d < 10 ∧ i = pat C.hash C.len (clean (s.key i)) d
  absent : ∀ k, ValidKey k → (∀ i, i < C.len → clean (s.key i) ≠ k) → s.M k = none
  size : (s.m.tab 0).size = BitVec.ofNat 64 (C.S.filter fun k => s.sz k = true).card
  lone : Lone C.re s.m

/-- What the thread `t` can rely on. -/
structure Rely (C : Cfg) (t : Nat) (s s' : OSt) : Prop where
  key : ∀ i, i < C.len → clean (s.key i) ≠ KINITIAL → clean (s'.key i) = clean (s.key i)
  keyC : ∀ i, i < C.len → s.key i = KINITIAL → s'.key i = KINITIAL ∨ clean (s'.key i) ≠ KINITIAL
  valC : ∀ i, i < C.len → s.val i = VINITIAL → s'.val i = VINITIAL ∨ clean (s'.key i) ≠ KINITIAL
  mine : ∀ i, i < C.len → clean (s'.key i) ≠ KINITIAL → C.own (clean (s'.key i)) = t → clean (s.key i) = clean (s'.key i)
  val : ∀ i, i < C.len → clean (s.key i) ≠ KINITIAL → C.own (clean (s.key i)) = t →
    s'.val i = s.val i ∨ s'.val i = clean (s.val i)
  map : ∀ k, C.own k = t → s'.M k = s.M k
  sz : ∀ k, C.own k = t → s'.sz k = s.sz k

variable {C : Cfg} {t : Nat} {op : Op} {α β σ : Type}

theorem Rely.refl (s : OSt) : Rely C t s s :=
  ⟨fun _ _ _ => rfl, fun _ _ h => .inl h, fun _ _ h => .inl h, fun _ _ _ _ => rfl, fun _ _ _ _ => .inl rfl, fun _ _ => rfl,
    fun _ _ => rfl⟩

theorem Rely.trans {s1 s2 s3 : OSt} (h : Rely C t s1 s2) (h' : Rely C t s2 s3) : Rely C t s1 s3 where
  key i hi h0 := by
    have e := h.key i hi h0
    rw [h'.key i hi (by rw [e]; exact h0), e]
  keyC i hi h0 := by
    rcases h.keyC i hi h0 with e | e
    · exact h'.keyC i hi e
    · right; rw [h'.key i hi e]; exact e
  valC i hi h0 := by
    rcases h.valC i hi h0 with e | e
    · exact h'.valC i hi e
    · right; rw [h'.key i hi e]; exact e
  mine i hi h0 ho := by
    have e := h'.mine i hi h0 ho
    rw [← e] at h0 ho ⊢
    exact h.mine i hi h0 ho
  val i hi h0 ho := by
    have e := h.key i hi h0
    rcases h'.val i hi (by rw [e]; exact h0) (by rw [e]; exact ho) with e2 | e2 <;> rw [e2] <;>
      rcases h.val i hi h0 ho with e1 | e1 <;> rw [e1]
    · exact .inl rfl
    · exact .inr rfl
    · exact .inr rfl
    · exact .inr (clean_clean _)
  map k hk := by rw [h'.map k hk, h.map k hk]
  sz k hk := by rw [h'.sz k hk, h.sz k hk]

theorem Rely.passed {s s' : OSt} (hpos : 0 < C.len) (h : Rely C t s s') {k : Word} {d : Nat}
    (hp : Passed C.hash C.len (fun i => clean (s.key i)) k d) : Passed C.hash C.len (fun i => clean (s'.key i)) k d := by
  intro e he
  have h0 := hp e he
  have := h.key _ (pat_lt (hash := C.hash) hpos k e) h0.1
  simp only [this]
  exact h0

/-- See the head of this file. -/
def owp (C : Cfg) (t : Nat) (op : Op) (Q : α → OSt → Option Res → Prop) : Prog α → OSt → Option Res → Prop
  | .ret a, s, c => Q a s c
  | .halt h, _, _ => h ≠ .ub
  | .act a k, s, c => ∀ s1, Rely C t s s1 → OInv C s1 → (c = none → ∀ k v, specNext op s1.M k = some v → ValidVal v) →
      ∃ r, ∃ s2 : OSt, a.exec s1.m = some (r, s2.m) ∧ (C.Grown s2.m ∨ (OInv C s2 ∧ (∀ t', t' ≠ t → Rely C t' s1 s2) ∧
        ((s2.M = s1.M ∧ owp C t op Q (k r) s2 c) ∨
         (c = none ∧ s2.M = specNext op s1.M ∧
           ∃ x, (∀ y, specRes op s1.M = some y → x = y) ∧ owp C t op Q (k r) s2 (some x)))))

variable {Q : α → OSt → Option Res → Prop} {s : OSt} {c : Option Res}

theorem owp_ret {a : α} (h : Q a s c) : owp C t op Q (.ret a) s c := h
theorem owp_pure {a : α} (h : Q a s c) : owp C t op Q (pure a) s c := h
theorem owp_fuel : owp C t op Q (.halt .fuel) s c := by rw [owp]; decide

theorem owp_mono {Q' : α → OSt → Option Res → Prop} {p : Prog α} (h : owp C t op Q p s c)
    (hq : ∀ a s' c', Q a s' c' → Q' a s' c') : owp C t op Q' p s c := by
  induction p generalizing s c with
  | ret a => exact hq _ _ _ h
  | halt x => rw [owp] at h ⊢; exact h
  | act a k ih =>
    rw [owp] at h ⊢
    intro s1 h1 h2 h3
    obtain ⟨r, s2, e, hg | ⟨h4, h5, h6⟩⟩ := h s1 h1 h2 h3
    · exact ⟨r, s2, e, .inl hg⟩
    refine ⟨r, s2, e, .inr ⟨h4, h5, ?_⟩⟩
    rcases h6 with ⟨h6, h7⟩ | ⟨h6, h7, x, h8, h9⟩
    · exact .inl ⟨h6, ih r h7⟩
    · exact .inr ⟨h6, h7, x, h8, ih r h9⟩

theorem owp_bind {Q : β → OSt → Option Res → Prop} {p : Prog α} {f : α → Prog β}
    (h : owp C t op (fun a s' c' => owp C t op Q (f a) s' c') p s c) : owp C t op Q (p.bind f) s c := by
  induction p generalizing s c with
  | ret a => exact h
  | halt x => rw [owp] at h; rw [Prog.bind, owp]; exact h
  | act a k ih =>
    rw [Prog.bind, owp]
    rw [owp] at h
    intro s1 h1 h2 h3
    obtain ⟨r, s2, e, hg | ⟨h4, h5, h6⟩⟩ := h s1 h1 h2 h3
    · exact ⟨r, s2, e, .inl hg⟩
    refine ⟨r, s2, e, .inr ⟨h4, h5, ?_⟩⟩
    rcases h6 with ⟨h6, h7⟩ | ⟨h6, h7, x, h8, h9⟩
    · exact .inl ⟨h6, ih r h7⟩
    · exact .inr ⟨h6, h7, x, h8, ih r h9⟩

theorem owp_bind' {Q : β → OSt → Option Res → Prop} {p : Prog α} {f : α → Prog β}
    (h : owp C t op (fun a s' c' => owp C t op Q (f a) s' c') p s c) : owp C t op Q (p >>= f) s c := owp_bind h

theorem owp_loop {body : σ → Prog (Ctl σ α)} (I : σ → OSt → Option Res → Prop)
    (hb : ∀ x s c, I x s c →
      owp C t op (fun r s' c' => match r with | .next x' => I x' s' c' | .done a => Q a s' c') (body x) s c)
    (n : Nat) : ∀ x s c, I x s c → owp C t op Q (loop n body x) s c := by
  induction n with
  | zero => intro x s c _; exact owp_fuel
  | succ n ih =>
    intro x s c hI
    refine owp_bind (owp_mono (hb x s c hI) ?_)
    rintro (x' | a) s' c' h
    · exact ih x' s' c' h
    · exact h

/-! ## Single actions -/

/-- States that differ in nothing that matters. -/
theorem Rely.same {s s' : OSt} (hk : ∀ a, s'.m.word a = s.m.word a) (hM : s'.M = s.M) (hz : s'.sz = s.sz) : Rely C t s s' := by
  have h1 : ∀ i, s'.key i = s.key i := fun i => hk _
  have h2 : ∀ i, s'.val i = s.val i := fun i => hk _
  refine ⟨fun i _ _ => by rw [h1], fun i _ h => .inl (by rw [h1, h]), fun i _ h => .inl (by rw [h2, h]),
    fun i _ _ _ => by rw [h1], fun i _ _ _ => .inl (h2 i), fun k _ => by rw [hM], fun k _ => by rw [hz]⟩

theorem OInv.same {s s' : OSt} (h : OInv C s) (hk : ∀ a, s'.m.word a = s.m.word a) (hM : s'.M = s.M) (hz : s'.sz = s.sz)
    (h1 : s'.m.root = s.m.root) (h2 : s'.m.next = s.m.next) (h3 : s'.m.tab = s.m.tab) (h4 : s'.m.failed = s.m.failed)
    (h5 : s'.m.cap = s.m.cap) (h6 : s'.m.reopened = s.m.reopened) : OInv C s' := by
  have e1 : ∀ i, s'.key i = s.key i := fun i => hk _
  have e2 : ∀ i, s'.val i = s.val i := fun i => hk _
  refine ⟨by rw [h1]; exact h.root, by rw [h2]; exact h.lt, by rw [h3]; exact h.len, by rw [h3]; exact h.newT,
    by rw [h4]; exact h.ok, ?_, ?_, ?_, ?_, ?_, by rw [h3, hz]; exact h.size,
    ⟨by rw [h2]; exact h.lone.next, by rw [h3]; exact h.lone.done, by rw [h3]; exact h.lone.slots, by rw [h5]; exact h.lone.cap,
      by rw [h6]; exact h.lone.reopened⟩⟩
  · simp only [e1]; exact h.placed
  · simp only [e1, e2]; exact h.empty
  · simp only [e1, e2, hM]; exact h.vals
  · simp only [e1, e2]; exact h.near
  · simp only [e1, hM]; exact h.absent

/-- An action that changes nothing that matters. -/
theorem owp_noop {a : Act} {Q : a.Resp → OSt → Option Res → Prop}
    (h : ∀ s1, Rely C t s s1 → OInv C s1 → ∃ r m2, a.exec s1.m = some (r, m2) ∧ (∀ b, m2.word b = s1.m.word b) ∧
      m2.root = s1.m.root ∧ m2.next = s1.m.next ∧ m2.tab = s1.m.tab ∧ m2.failed = s1.m.failed ∧ m2.cap = s1.m.cap ∧ m2.reopened = s1.m.reopened ∧
      ∀ s', s'.m = m2 → Rely C t s s' → OInv C s' → Q r s' c) : owp C t op Q (do1 a) s c := by
  rw [do1, owp]
  intro s1 h1 h2 _
  obtain ⟨r, m2, e, k1, k2, k3, k4, k5, k6, k7, hq⟩ := h s1 h1 h2
  have hr : ∀ t', Rely C t' s1 ⟨m2, s1.M, s1.sz⟩ := fun t' => Rely.same k1 rfl rfl
  have hI : OInv C ⟨m2, s1.M, s1.sz⟩ := h2.same k1 rfl rfl k2 k3 k4 k5 k6 k7
  exact ⟨r, ⟨m2, s1.M, s1.sz⟩, e, .inr ⟨hI, fun t' _ => hr t', .inl ⟨rfl, hq _ rfl (h1.trans (hr t)) hI⟩⟩⟩

/-- What holds in every later state the other threads may bring about. -/
def After (C : Cfg) (t : Nat) (s : OSt) (P : OSt → Prop) : Prop := ∀ s', Rely C t s s' → OInv C s' → P s'

theorem owp_check {b : Bool} (hb : b = true) {Q : Unit → OSt → Option Res → Prop} (h : After C t s fun s' => Q () s' c) :
    owp C t op Q (check b) s c :=
  owp_noop fun s1 _ _ => ⟨(), _, rfl, fun _ => rfl, rfl, rfl, rfl, by simp [hb], rfl, rfl, fun s' _ h1 h2 => h s' h1 h2⟩

theorem owp_getRoot {Q : Nat → OSt → Option Res → Prop} (h : After C t s fun s' => Q 0 s' c) :
    owp C t op Q (do1 .getRoot) s c :=
  owp_noop fun s1 _ hI => ⟨s1.m.root, s1.m, rfl, fun _ => rfl, rfl, rfl, rfl, rfl, rfl, rfl, fun s' _ h1 h2 => by
    rw [hI.root]; exact h s' h1 h2⟩

theorem owp_len {Q : Nat → OSt → Option Res → Prop} (h : After C t s fun s' => Q C.len s' c) :
    owp C t op Q (do1 (.len 0)) s c :=
  owp_noop fun s1 _ hI => ⟨C.len, s1.m, by simp [Act.exec, hI.lt, hI.len], fun _ => rfl, rfl, rfl, rfl, rfl, rfl, rfl,
    fun s' _ h1 h2 => h s' h1 h2⟩

theorem owp_getNew {Q : Option Nat → OSt → Option Res → Prop} (h : After C t s fun s' => Q none s' c) :
    owp C t op Q (do1 (.getNew 0)) s c :=
  owp_noop fun s1 _ hI => ⟨none, s1.m, by simp [Act.exec, hI.lt, hI.newT], fun _ => rfl, rfl, rfl, rfl, rfl, rfl, rfl,
    fun s' _ h1 h2 => h s' h1 h2⟩

theorem owp_fence {Q : Unit → OSt → Option Res → Prop} (h : After C t s fun s' => Q () s' c) :
    owp C t op Q (do1 .fence) s c :=
  owp_noop fun s1 _ _ => ⟨(), s1.m, rfl, fun _ => rfl, rfl, rfl, rfl, rfl, rfl, rfl, fun s' _ h1 h2 => h s' h1 h2⟩

/-- A slot of the table. -/
def Cfg.Slot (C : Cfg) (a : Addr) : Prop := a.tab = 0 ∧ a.idx < C.len

theorem OInv.exec_ok {s : OSt} (h : OInv C s) {a : Addr} (ha : C.Slot a) :
    a.tab < s.m.next ∧ a.idx < (s.m.tab a.tab).len := by
  rw [ha.1]; exact ⟨h.lt, by rw [h.len]; exact ha.2⟩

theorem owp_flush {a : Addr} (ha : C.Slot a) {Q : Unit → OSt → Option Res → Prop} (h : After C t s fun s' => Q () s' c) :
    owp C t op Q (do1 (.flush a)) s c :=
  owp_noop fun s1 _ hI => ⟨(), { s1.m with nv := writeBack s1.m a.tab a.idx }, by rw [Act.exec, if_pos (hI.exec_ok ha)],
    fun _ => rfl, rfl, rfl, rfl, rfl, rfl, rfl, fun s' _ h1 h2 => h s' h1 h2⟩

theorem owp_load {a : Addr} (ha : C.Slot a) {Q : Word → OSt → Option Res → Prop}
    (h : After C t s fun s' => Q (s'.m.word a) s' c) : owp C t op Q (do1 (.load a)) s c :=
  owp_noop fun s1 _ hI => ⟨s1.m.word a, s1.m, by rw [Act.exec, if_pos (hI.exec_ok ha)], fun _ => rfl, rfl, rfl, rfl, rfl, rfl, rfl,
    fun s' e h1 h2 => by rw [← e]; exact h s' h1 h2⟩

/-- A load at which the call may take effect without changing the map. -/
theorem owp_loadEff {a : Addr} (ha : C.Slot a) {Q : Word → OSt → Option Res → Prop}
    (h : After C t s fun s' => Q (s'.m.word a) s' none ∨
      (specNext op s'.M = s'.M ∧ ∃ x, (∀ y, specRes op s'.M = some y → x = y) ∧ Q (s'.m.word a) s' (some x))) :
    owp C t op Q (do1 (.load a)) s none := by
  rw [do1, owp]
  intro s1 h1 h2 _
  refine ⟨s1.m.word a, s1, by rw [Act.exec, if_pos (h2.exec_ok ha)], .inr ⟨h2, fun t' _ => Rely.refl _, ?_⟩⟩
  rcases h s1 h1 h2 with hq | ⟨e, x, hx, hq⟩
  · exact .inl ⟨rfl, hq⟩
  · exact .inr ⟨rfl, e.symm, x, hx, hq⟩

theorem clean_cases (w : Word) : w = clean w ∨ w = dirty (clean w) := by
  cases h : isDirty w with
  | false => exact .inl (clean_of_not_dirty h).symm
  | true => right; rw [dirty_clean, dirty_of_isDirty h]

/-- Clearing a dirty bit disturbs nobody. -/
theorem cleanStep (hI : OInv C s) (a : Addr) (t : Nat) :
    Rely C t s { s with m := { s.m with word := setWord s.m.word a (clean (s.m.word a)) } } ∧
    OInv C { s with m := { s.m with word := setWord s.m.word a (clean (s.m.word a)) } } := by
  generalize hs' : ({ s with m := { s.m with word := setWord s.m.word a (clean (s.m.word a)) } } : OSt) = s'
  have hw : ∀ b, s'.m.word b = s.m.word b ∨ s'.m.word b = clean (s.m.word b) := by
    intro b
    rw [← hs']
    simp only [setWord]
    split
    · next e => rw [e]; exact .inr rfl
    · exact .inl rfl
  have hc : ∀ b, clean (s'.m.word b) = clean (s.m.word b) := by
    intro b; rcases hw b with e | e <;> rw [e]
    exact clean_clean _
  have k : ∀ i, clean (s'.key i) = clean (s.key i) := fun i => hc _
  have v : ∀ i, clean (s'.val i) = clean (s.val i) := fun i => hc _
  have hM : s'.M = s.M := by rw [← hs']
  have hz : s'.sz = s.sz := by rw [← hs']
  constructor
  · refine ⟨fun i _ _ => k i, fun i _ h => .inl ?_, fun i _ h => .inl ?_, fun i _ _ _ => (k i).symm, fun i _ _ _ => hw _,
      fun k _ => by rw [hM], fun k _ => by rw [hz]⟩
    · have : s.m.word (.key 0 i) = KINITIAL := h
      change s'.m.word (.key 0 i) = KINITIAL
      rcases hw (.key 0 i) with e | e <;> rw [e, this]
      exact clean_KINITIAL
    · have : s.m.word (.val 0 i) = VINITIAL := h
      change s'.m.word (.val 0 i) = VINITIAL
      rcases hw (.val 0 i) with e | e <;> rw [e, this]
      exact clean_VINITIAL
  · refine ⟨by rw [← hs']; exact hI.root, by rw [← hs']; exact hI.lt, by rw [← hs']; exact hI.len, by rw [← hs']; exact hI.newT,
      by rw [← hs']; exact hI.ok, ?_, ?_, ?_, ?_, ?_, by rw [hz, ← hs']; exact hI.size, by rw [← hs']; exact ⟨hI.lone.1, hI.lone.2, hI.lone.3, hI.lone.4, hI.lone.5⟩⟩
    · simp only [k]; exact hI.placed
    · simp only [k, v]; exact hI.empty
    · simp only [k, v, hM]; exact hI.vals
    · simp only [k, v]; exact hI.near
    · simp only [k, hM]; exact hI.absent

/-- The CAS of `persist`. -/
theorem owp_casClean {a : Addr} (ha : C.Slot a) {v : Word} {Q : Bool × Word → OSt → Option Res → Prop}
    (h : ∀ r, After C t s fun s' => (s'.m.word a = clean v ∨ s'.m.word a ≠ v) → Q r s' c) :
    owp C t op Q (do1 (.cas a v (clearMark v DirtyFlag))) s c := by
  rw [do1, owp]
  intro s1 h1 h2 _
  by_cases hw : s1.m.word a = v
  · obtain ⟨g1, g2⟩ := cleanStep h2 a t
    refine ⟨(true, v), { s1 with m := { s1.m with word := setWord s1.m.word a (clean (s1.m.word a)) } }, ?_, .inr ⟨g2,
      fun t' _ => (cleanStep h2 a t').1, .inl ⟨rfl, h (true, v) _ (h1.trans g1) g2 (.inl ?_)⟩⟩⟩
    · rw [Act.exec, if_pos (h2.exec_ok ha), if_pos hw, hw]; rfl
    · simp only [setWord, if_true, hw]
  · exact ⟨(false, s1.m.word a), s1, by rw [Act.exec, if_pos (h2.exec_ok ha), if_neg hw], .inr ⟨h2, fun _ _ => Rely.refl _,
      .inl ⟨rfl, h _ _ h1 h2 (.inr hw)⟩⟩⟩

theorem owp_persist {a : Addr} (ha : C.Slot a) {v : Word} {Q : Word → OSt → Option Res → Prop}
    (h : ∀ r, After C t s fun s' => (s'.m.word a = clean v ∨ s'.m.word a ≠ v) → Q r s' c) :
    owp C t op Q (persist a v) s c := by
  refine owp_bind' (owp_flush ha fun s1 h1 _ => ?_)
  refine owp_bind' (owp_fence fun s2 h2 _ => ?_)
  refine owp_bind' (owp_casClean ha fun r s3 h3 i3 hw => ?_)
  exact owp_pure (h r.2 s3 (h1.trans (h2.trans h3)) i3 hw)

/-- `pcas_read`, given what the load does. -/
theorem owp_pcasRead {a : Addr} (ha : C.Slot a) {Q : Word → OSt → Option Res → Prop}
    (h : owp C t op (fun w s' c' => OInv C s' ∧ s'.m.word a = w ∧
      After C t s' fun s'' => (s''.m.word a = clean w ∨ s''.m.word a ≠ w) → Q (clean w) s'' c') (do1 (.load a)) s c) :
    owp C t op Q (pcasRead a) s c := by
  refine owp_bind' (owp_mono h ?_)
  rintro w s' c' ⟨hI, hw, hq⟩
  cases hd : isDirty w with
  | true =>
    rw [if_pos rfl]
    exact owp_bind' (owp_persist ha fun r s2 h2 i2 h3 => owp_pure (hq s2 h2 i2 h3))
  | false =>
    rw [if_neg (by decide)]
    exact owp_pure (hq s' (Rely.refl _) hI (.inl (by rw [hw, clean_of_not_dirty hd])))

theorem slot_key {i : Nat} (hi : i < C.len) : C.Slot (.key 0 i) := ⟨rfl, hi⟩
theorem slot_val {i : Nat} (hi : i < C.len) : C.Slot (.val 0 i) := ⟨rfl, hi⟩

/-- After `pcas_read` of a key word that was empty, it is clean or taken. -/
theorem key_settled {s' : OSt} {i : Nat} (hi : i < C.len) (h : Rely C t s s') (h0 : clean (s.key i) = KINITIAL)
    (hw : s'.key i = clean (s.key i) ∨ s'.key i ≠ s.key i) : s'.key i = KINITIAL ∨ clean (s'.key i) ≠ KINITIAL := by
  rcases hw with hw | hw
  · left; rw [hw, h0]
  · by_cases hc : clean (s'.key i) = KINITIAL
    · left
      rcases clean_cases (s.key i) with e | e
      · rw [h0] at e
        rcases h.keyC i hi e with e' | e'
        · exact e'
        · exact absurd hc e'
      · rcases clean_cases (s'.key i) with e' | e'
        · rw [e', hc]
        · rw [h0] at e; rw [hc] at e'; exact absurd (e'.trans e.symm) hw
    · exact .inr hc

/-- After `pcas_read` of the value word of an empty slot, it is clean or the slot is taken. -/
theorem val_settled {s' : OSt} {i : Nat} (hi : i < C.len) (hI : OInv C s) (hI' : OInv C s') (h : Rely C t s s')
    (hw : s'.val i = clean (s.val i) ∨ s'.val i ≠ s.val i) :
    (clean (s.val i) = VINITIAL ∧ s'.val i = VINITIAL) ∨ clean (s'.key i) ≠ KINITIAL := by
  by_cases hk' : clean (s'.key i) = KINITIAL
  · left
    have hk : clean (s.key i) = KINITIAL := by
      by_contra hne
      exact hne (by rw [← h.key i hi hne]; exact hk')
    have hv := hI.empty i hi hk
    have hv' := hI'.empty i hi hk'
    refine ⟨hv, ?_⟩
    rcases hw with hw | hw
    · rw [hw, hv]
    · rcases clean_cases (s'.val i) with e | e
      · rw [e, hv']
      · rcases clean_cases (s.val i) with e' | e'
        · rw [hv] at e'
          rcases h.valC i hi e' with e2 | e2
          · exact e2
          · exact absurd hk' e2
        · rw [hv'] at e; rw [hv] at e'; exact absurd (e.trans e'.symm) hw
  · exact .inr hk'

/-- After its owner's `pcas_read`, a value word is clean. -/
theorem own_settled {s' : OSt} {i : Nat} (hi : i < C.len) (h : Rely C t s s') (h0 : clean (s.key i) ≠ KINITIAL)
    (ho : C.own (clean (s.key i)) = t) (hw : s'.val i = clean (s.val i) ∨ s'.val i ≠ s.val i) :
    s'.val i = clean (s.val i) := by
  rcases hw with hw | hw
  · exact hw
  · exact (h.val i hi h0 ho).resolve_left hw

end PMap
