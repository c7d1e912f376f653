import Verif.Code

/-!
# Reasoning about one thread running alone

`wps p Q m`: running `p` from `m` ends without undefined behaviour, and if it returns then `Q` holds.  `W p Q s` is the
same on the view `abs m` of the memory that forgets the dirty bits and the durable copy.  All of this is proof
machinery, not model.
-/

namespace PMap

open Prog

/-- Partial correctness of a sequential run; undefined behaviour and failing asserts are excluded, exceptions and lack of
fuel are not. -/
def wps {α : Type} (p : Prog α) (Q : α → Mem → Prop) (m : Mem) : Prop :=
  Safe p m ∧ ∀ a m', run p m = .done a m' → Q a m'

theorem run_bind {α β : Type} (p : Prog α) (f : α → Prog β) (m : Mem) :
    run (p.bind f) m = match run p m with
      | .done a m' => run (f a) m'
      | .halted h => .halted h := by
  induction p generalizing m with
  | ret a => rfl
  | halt h => rfl
  | act a k ih =>
    simp only [Prog.bind, run]
    split
    · rfl
    · exact ih _ _

/-- No action changes the ghost `reopened`. -/
theorem exec_reopened {a : Act} {m m' : Mem} {r : a.Resp} (h : a.exec m = some (r, m')) :
    m'.reopened = m.reopened := by
  cases a <;> simp only [Act.exec] at h <;> (repeat' split at h) <;>
    first
      | (simp only [Option.some.injEq, Prod.mk.injEq] at h; obtain ⟨-, rfl⟩ := h; rfl)
      | cases h

theorem run_reopened {α : Type} {p : Prog α} {m m' : Mem} {a : α} (h : run p m = .done a m') :
    m'.reopened = m.reopened := by
  induction p generalizing m with
  | ret x => cases h; rfl
  | halt x => cases h
  | act x k ih =>
    rw [run] at h
    split at h
    · cases h
    · next r m1 he => rw [ih r h, exec_reopened he]

theorem safe_bind {α β : Type} {p : Prog α} {f : α → Prog β} {m : Mem} (h : Safe p m)
    (hf : ∀ a m', run p m = .done a m' → Safe (f a) m') : Safe (p.bind f) m := by
  induction p generalizing m with
  | ret a => exact hf a m rfl
  | halt x => rw [Safe] at h; rw [Prog.bind, Safe]; exact h
  | act a k ih =>
    rw [Safe] at h
    obtain ⟨h1, h2⟩ := h
    rw [Prog.bind, Safe]
    refine ⟨h1, ?_⟩
    simp only [run] at hf
    cases he : a.exec m with
    | none => rw [he] at h2; exact h2
    | some rm =>
      obtain ⟨r, m'⟩ := rm
      rw [he] at h2
      simp only [he] at hf
      exact ih r h2 hf

theorem wps_bind {α β : Type} {p : Prog α} {f : α → Prog β} {Q : β → Mem → Prop} {m : Mem}
    (h : wps p (fun a m' => wps (f a) Q m') m) : wps (p.bind f) Q m := by
  refine ⟨safe_bind h.1 (fun a m' hr => (h.2 a m' hr).1), ?_⟩
  intro b m2 hb
  rw [run_bind] at hb
  cases hr : run p m with
  | done a m' => rw [hr] at hb; exact (h.2 a m' hr).2 b m2 hb
  | halted x => rw [hr] at hb; cases hb

theorem wps_mono {α : Type} {p : Prog α} {Q Q' : α → Mem → Prop} {m : Mem}
    (h : wps p Q m) (hq : ∀ a m', Q a m' → Q' a m') : wps p Q' m :=
  ⟨h.1, fun a m' hr => hq a m' (h.2 a m' hr)⟩

theorem wps_ret {α : Type} {a : α} {Q : α → Mem → Prop} {m : Mem} (h : Q a m) : wps (.ret a) Q m :=
  ⟨by rw [Safe]; trivial, fun a' m' hr => by cases hr; exact h⟩

theorem wps_act {α : Type} {a : Act} {k : a.Resp → Prog α} {Q : α → Mem → Prop} {m : Mem} {r m'}
    (he : a.exec m = some (r, m')) (h : wps (k r) Q m')
    (hb : ∀ b, a = .check b → b = true := by exact fun _ h => nomatch h) : wps (.act a k) Q m := by
  refine ⟨by rw [Safe, he]; exact ⟨hb, h.1⟩, fun b m2 hr => ?_⟩
  · simp only [run, he] at hr; exact h.2 b m2 hr

/-! ## The view without dirty bits -/

/-- Memory without dirty bits and durable copies. -/
structure A where
  ck : Nat → Nat → Word
  cv : Nat → Nat → Word
  tab : Nat → Tab
  next : Nat
  root : Nat
  cap : Nat
  failed : Bool
  reopened : Bool

/-- The view of a memory. -/
def abs (m : Mem) : A :=
  { ck := fun t i => clean (m.word (.key t i))
    cv := fun t i => clean (m.word (.val t i))
    tab := m.tab, next := m.next, root := m.root, cap := m.cap, failed := m.failed, reopened := m.reopened }

/-- `wps` on views. -/
def W {α : Type} (p : Prog α) (Q : α → A → Prop) (s : A) : Prop :=
  ∀ m, abs m = s → wps p (fun a m' => Q a (abs m')) m

theorem W_bind {α β : Type} {p : Prog α} {f : α → Prog β} {Q : β → A → Prop} {s : A}
    (h : W p (fun a s' => W (f a) Q s') s) : W (p.bind f) Q s := by
  intro m hm
  exact wps_bind (wps_mono (h m hm) (fun a m' hw => hw m' rfl))

theorem W_bind' {α β : Type} {p : Prog α} {f : α → Prog β} {Q : β → A → Prop} {s : A}
    (h : W p (fun a s' => W (f a) Q s') s) : W (p >>= f) Q s := W_bind h

theorem W_mono {α : Type} {p : Prog α} {Q Q' : α → A → Prop} {s : A}
    (h : W p Q s) (hq : ∀ a s', Q a s' → Q' a s') : W p Q' s :=
  fun m hm => wps_mono (h m hm) (fun a m' => hq a (abs m'))

theorem W_ret {α : Type} {a : α} {Q : α → A → Prop} {s : A} (h : Q a s) : W (.ret a) Q s := by
  intro m hm; subst hm; exact wps_ret h
theorem W_pure {α : Type} {a : α} {Q : α → A → Prop} {s : A} (h : Q a s) : W (pure a) Q s := W_ret h

theorem W_fuel {α : Type} {Q : α → A → Prop} {s : A} : W (.halt .fuel) Q s :=
  fun _ _ => ⟨by simp [Safe], fun _ _ h => by cases h⟩
theorem W_threw {α : Type} {Q : α → A → Prop} {s : A} : W (.halt .threw) Q s :=
  fun _ _ => ⟨by simp [Safe], fun _ _ h => by cases h⟩

/-- Loops: an invariant suffices, whatever the fuel. -/
theorem W_loop {σ α : Type} {body : σ → Prog (Ctl σ α)} {Q : α → A → Prop} (I : σ → A → Prop)
    (hb : ∀ x s, I x s → W (body x) (fun c s' => match c with | .next x' => I x' s' | .done a => Q a s') s)
    (n : Nat) : ∀ x s, I x s → W (loop n body x) Q s := by
  induction n with
  | zero => intro x s _; exact W_fuel
  | succ n ih =>
    intro x s hI
    refine W_bind (W_mono (hb x s hI) ?_)
    rintro (x' | a) s' h
    · exact ih x' s' h
    · exact W_ret h

/-! ## Actions -/

section acts
variable {s : A}

theorem W_check {b : Bool} {Q : Unit → A → Prop} (hb : b = true) (h : Q () s) : W (check b) Q s := by
  intro m hm; subst hm
  refine wps_act (a := .check b) (r := ()) rfl (wps_ret ?_) (fun b' h => by cases h; exact hb)
  subst hb
  simpa [abs] using h

theorem W_len {t : Nat} {Q : Nat → A → Prop} (ht : t < s.next) (h : Q (s.tab t).len s) : W (do1 (.len t)) Q s := by
  intro m hm; subst hm
  exact wps_act (a := .len t) (r := (m.tab t).len) (by simp only [Act.exec]; exact if_pos ht) (wps_ret h)

theorem W_getNew {t : Nat} {Q : Option Nat → A → Prop} (ht : t < s.next) (h : Q (s.tab t).newT s) :
    W (do1 (.getNew t)) Q s := by
  intro m hm; subst hm
  exact wps_act (a := .getNew t) (r := (m.tab t).newT) (by simp only [Act.exec]; exact if_pos ht) (wps_ret h)

theorem W_casNew {t n : Nat} {Q : Bool → A → Prop} (ht : t < s.next) (hn : (s.tab t).newT = none)
    (h : Q true { s with tab := upd s.tab t { s.tab t with newT := some n } }) : W (do1 (.casNew t n)) Q s := by
  intro m hm; subst hm
  refine wps_act (a := .casNew t n) (r := true) (m' := { m with tab := upd m.tab t { m.tab t with newT := some n } })
    ?_ (wps_ret h)
  have ht' : t < m.next := ht
  have hn' : (m.tab t).newT = none := hn
  simp [Act.exec, ht', hn']

theorem W_getRoot {Q : Nat → A → Prop} (h : Q s.root s) : W (do1 .getRoot) Q s := by
  intro m hm; subst hm
  exact wps_act (a := .getRoot) (r := m.root) rfl (wps_ret h)

theorem W_casRoot {o n : Nat} {Q : Bool → A → Prop}
    (h : ∀ b, Q b (if s.root = o then { s with root := n } else s)) : W (do1 (.casRoot o n)) Q s := by
  intro m hm; subst hm
  by_cases hr : m.root = o
  · refine wps_act (a := .casRoot o n) (r := true) (m' := { m with root := n }) ?_ (wps_ret ?_)
    · simp [Act.exec, hr]
    · have := h true
      rw [if_pos (show (abs m).root = o from hr)] at this
      exact this
  · refine wps_act (a := .casRoot o n) (r := false) (m' := m) ?_ (wps_ret ?_)
    · simp [Act.exec, hr]
    · have := h false
      rw [if_neg (show ¬ (abs m).root = o from hr)] at this
      exact this

theorem W_getSize {t : Nat} {Q : Word → A → Prop} (ht : t < s.next) (h : Q (s.tab t).size s) :
    W (do1 (.getSize t)) Q s := by
  intro m hm; subst hm
  exact wps_act (a := .getSize t) (r := (m.tab t).size) (by simp only [Act.exec]; exact if_pos ht) (wps_ret h)

theorem W_addSize {t : Nat} {d : Word} {Q : Unit → A → Prop} (ht : t < s.next)
    (h : Q () { s with tab := upd s.tab t { s.tab t with size := (s.tab t).size + d } }) :
    W (do1 (.addSize t d)) Q s := by
  intro m hm; subst hm
  refine wps_act (a := .addSize t d) (r := ()) (m' := { m with tab := upd m.tab t { m.tab t with
    size := (m.tab t).size + d } }) (by simp only [Act.exec]; exact if_pos ht) (wps_ret h)

theorem W_getSlots {t : Nat} {Q : Nat → A → Prop} (ht : t < s.next) (h : Q (s.tab t).slots s) :
    W (do1 (.getSlots t)) Q s := by
  intro m hm; subst hm
  exact wps_act (a := .getSlots t) (r := (m.tab t).slots) (by simp only [Act.exec]; exact if_pos ht) (wps_ret h)

theorem W_incSlots {t : Nat} {Q : Unit → A → Prop} (ht : t < s.next)
    (h : Q () { s with tab := upd s.tab t { s.tab t with slots := (s.tab t).slots + 1 } }) :
    W (do1 (.incSlots t)) Q s := by
  intro m hm; subst hm
  exact wps_act (a := .incSlots t) (r := ()) (m' := { m with tab := upd m.tab t { m.tab t with
    slots := (m.tab t).slots + 1 } }) (by simp only [Act.exec]; exact if_pos ht) (wps_ret h)

theorem W_getDone {t : Nat} {Q : Nat → A → Prop} (ht : t < s.next) (h : Q (s.tab t).copyDone s) :
    W (do1 (.getDone t)) Q s := by
  intro m hm; subst hm
  exact wps_act (a := .getDone t) (r := (m.tab t).copyDone) (by simp only [Act.exec]; exact if_pos ht) (wps_ret h)

theorem W_addDone {t n : Nat} {Q : Unit → A → Prop} (ht : t < s.next)
    (h : Q () { s with tab := upd s.tab t { s.tab t with copyDone := (s.tab t).copyDone + n } }) :
    W (do1 (.addDone t n)) Q s := by
  intro m hm; subst hm
  exact wps_act (a := .addDone t n) (r := ()) (m' := { m with tab := upd m.tab t { m.tab t with
    copyDone := (m.tab t).copyDone + n } }) (by simp only [Act.exec]; exact if_pos ht) (wps_ret h)

theorem W_getIdx {t : Nat} {Q : Nat → A → Prop} (ht : t < s.next) (h : Q (s.tab t).copyIdx s) :
    W (do1 (.getIdx t)) Q s := by
  intro m hm; subst hm
  exact wps_act (a := .getIdx t) (r := (m.tab t).copyIdx) (by simp only [Act.exec]; exact if_pos ht) (wps_ret h)

theorem W_casIdx {t e n : Nat} {Q : Bool × Nat → A → Prop} (ht : t < s.next)
    (h1 : (s.tab t).copyIdx = e → Q (true, e) { s with tab := upd s.tab t { s.tab t with copyIdx := n } })
    (h2 : (s.tab t).copyIdx ≠ e → Q (false, (s.tab t).copyIdx) s) :
    W (do1 (.casIdx t e n)) Q s := by
  intro m hm; subst hm
  by_cases he : (m.tab t).copyIdx = e
  · refine wps_act (a := .casIdx t e n) (r := (true, e)) (m' := { m with tab := upd m.tab t { m.tab t with
      copyIdx := n } }) ?_ (wps_ret (h1 he))
    have ht' : t < m.next := ht
    simp [Act.exec, ht', he]
  · refine wps_act (a := .casIdx t e n) (r := (false, (m.tab t).copyIdx)) (m' := m) ?_ (wps_ret (h2 he))
    have ht' : t < m.next := ht
    simp [Act.exec, ht', he]

/-- The view after a fresh table has been created. -/
def allocA (s : A) (l : Nat) (sz : Word) : A :=
  { s with
    ck := fun t i => if t = s.next then KINITIAL else s.ck t i
    cv := fun t i => if t = s.next then VINITIAL else s.cv t i
    tab := upd s.tab s.next (freshTab l sz)
    next := s.next + 1 }

theorem clean_KINITIAL : clean KINITIAL = KINITIAL := by decide
theorem clean_VINITIAL : clean VINITIAL = VINITIAL := by decide

theorem abs_alloc (m : Mem) (l : Nat) (sz : Word) :
    abs { m with
        word := freshWords m.word m.next
        nv := freshWords m.nv m.next
        tab := upd m.tab m.next (freshTab l sz)
        next := m.next + 1 } = allocA (abs m) l sz := by
  simp only [abs, allocA, A.mk.injEq, and_true]
  refine ⟨?_, ?_⟩ <;> funext t i <;> by_cases h : t = m.next <;>
    simp [h, freshWords, clean_dirty, clean_KINITIAL, clean_VINITIAL]

theorem W_alloc {l : Nat} {sz : Word} {Q : Option Nat → A → Prop}
    (h1 : l ≤ s.cap → Q (some s.next) (allocA s l sz)) (h2 : ¬ l ≤ s.cap → Q none s) : W (do1 (.alloc l sz)) Q s := by
  intro m hm; subst hm
  by_cases hl : l ≤ m.cap
  · refine wps_act (a := .alloc l sz) (r := some m.next) (m' := { m with
        word := freshWords m.word m.next
        nv := freshWords m.nv m.next
        tab := upd m.tab m.next (freshTab l sz)
        next := m.next + 1 }) ?_ (wps_ret ?_)
    · simp [Act.exec, hl]
    · rw [abs_alloc]; exact h1 hl
  · refine wps_act (a := .alloc l sz) (r := none) (m' := m) ?_ (wps_ret (h2 hl))
    simp [Act.exec, hl]

/-- A two-argument function changed at one point. -/
def upd2 (f : Nat → Nat → Word) (t i : Nat) (w : Word) : Nat → Nat → Word :=
  fun t' i' => if t' = t ∧ i' = i then w else f t' i'

/-- Clean content of a word. -/
def A.get (s : A) : Addr → Word
  | .key t i => s.ck t i
  | .val t i => s.cv t i
/-- Store to a word. -/
def A.set (s : A) (a : Addr) (w : Word) : A :=
  match a with
  | .key t i => { s with ck := upd2 s.ck t i w }
  | .val t i => { s with cv := upd2 s.cv t i w }

theorem abs_get (m : Mem) (a : Addr) : (abs m).get a = clean (m.word a) := by cases a <;> rfl

theorem abs_setWord (m : Mem) (a : Addr) (w : Word) :
    abs { m with word := setWord m.word a w } = (abs m).set a (clean w) := by
  cases a <;> simp only [abs, A.set, setWord, A.mk.injEq, and_true] <;>
    refine ⟨?_, ?_⟩ <;> funext t' i' <;> simp [upd2] <;> split <;> simp_all

theorem A.set_get (s : A) (a : Addr) : s.set a (s.get a) = s := by
  cases a <;> cases s <;> simp only [A.set, A.get, A.mk.injEq, and_true, true_and] <;>
    funext t' i' <;> simp only [upd2] <;> split <;> simp_all

theorem abs_writeBack (m : Mem) (t i : Nat) : abs { m with nv := writeBack m t i } = abs m := rfl

theorem pcasRead_spec (m : Mem) (a : Addr) (ha : a.tab < m.next ∧ a.idx < (m.tab a.tab).len)
    {Q : Word → Mem → Prop} (h : ∀ m', abs m' = abs m → m'.word a = clean (m.word a) → Q (clean (m.word a)) m') :
    wps (pcasRead a) Q m := by
  refine wps_act (a := .load a) (r := m.word a) (m' := m) ?_ ?_
  · simp only [Act.exec]; exact if_pos ha
  simp only [Prog.bind]
  by_cases hd : isDirty (m.word a) = true
  · rw [if_pos hd]
    refine wps_bind ?_
    refine wps_act (a := .flush a) (r := ()) (m' := { m with nv := writeBack m a.tab a.idx }) ?_ ?_
    · simp only [Act.exec]; exact if_pos ha
    refine wps_act (a := .fence) (r := ()) rfl ?_
    refine wps_act (a := .cas a (m.word a) (clearMark (m.word a) DirtyFlag)) (r := (true, m.word a))
      (m' := { m with nv := writeBack m a.tab a.idx, word := setWord m.word a (clean (m.word a)) }) ?_ ?_
    · simp only [Act.exec]; rw [if_pos ha]; simp [clean]
    refine wps_ret (wps_ret (h _ ?_ ?_))
    · have := abs_setWord { m with nv := writeBack m a.tab a.idx } a (clean (m.word a))
      rw [this, clean_clean, abs_writeBack, ← abs_get, A.set_get]
    · simp [setWord]
  · rw [if_neg hd]
    refine wps_ret (h m rfl ?_)
    rw [clean_of_not_dirty (by simpa using hd)]

theorem W_pcasRead {a : Addr} {Q : Word → A → Prop} (ht : a.tab < s.next) (hi : a.idx < (s.tab a.tab).len)
    (h : Q (s.get a) s) : W (pcasRead a) Q s := by
  intro m hm; subst hm
  refine pcasRead_spec m a ⟨ht, hi⟩ ?_
  intro m' e _
  rw [e, ← abs_get]; exact h

theorem W_pcas {a : Addr} {o n : Word} {Q : Bool × Word → A → Prop} (ht : a.tab < s.next)
    (hi : a.idx < (s.tab a.tab).len)
    (h1 : s.get a = o → Q (true, o) (s.set a (clean n))) (h2 : s.get a ≠ o → Q (false, s.get a) s) :
    W (pcas a o n) Q s := by
  intro m hm; subst hm
  refine wps_bind (pcasRead_spec m a ⟨ht, hi⟩ ?_)
  intro m' e hw
  have hb : a.tab < m'.next ∧ a.idx < (m'.tab a.tab).len := by
    have e1 : m'.next = m.next := congrArg A.next e
    have e2 : m'.tab = m.tab := congrArg A.tab e
    rw [e1, e2]; exact ⟨ht, hi⟩
  rw [← abs_get] at hw
  by_cases he : (abs m).get a = o
  · refine wps_act (a := .cas a o (dirty n)) (r := (true, o)) (m' := { m' with word := setWord m'.word a (dirty n) })
      ?_ ?_
    · simp only [Act.exec]; rw [if_pos hb, if_pos (hw.trans he)]
    refine wps_act (a := .check _) (r := ()) rfl (wps_ret ?_) ?hchk
    case hchk =>
      intro b h; cases h; simp
    have := h1 he
    convert this using 1
    simp only [Bool.true_and, beq_self_eq_true, Bool.not_true, Bool.false_and, Bool.or_false]
    rw [← e]
    have h := abs_setWord m' a (dirty n)
    rw [clean_dirty] at h
    rw [← h]
  · refine wps_act (a := .cas a o (dirty n)) (r := (false, (abs m).get a)) (m' := m') ?_ ?_
    · simp only [Act.exec]; rw [if_pos hb, if_neg (by rw [hw]; exact he), hw]
    refine wps_act (a := .check _) (r := ()) rfl (wps_ret ?_) ?hchk
    have hne : (o != (abs m).get a) = true := by simpa using fun h => he h.symm
    case hchk =>
      intro b h; cases h
      have hne : (o != (abs m).get a) = true := by simpa using fun h => he h.symm
      simp only [hne]; rfl
    have := h2 he
    convert this using 1
    simp only [Bool.false_and, Bool.not_false, Bool.true_and, Bool.false_or, hne, Bool.not_true, Bool.or_false]
    exact e

theorem W_tableKey {t i : Nat} {Q : Word → A → Prop} (ht : t < s.next) (hi : i < (s.tab t).len) (h : Q (s.ck t i) s) :
    W (tableKey t i) Q s := W_pcasRead (a := .key t i) ht hi h
theorem W_tableValue {t i : Nat} {Q : Word → A → Prop} (ht : t < s.next) (hi : i < (s.tab t).len)
    (h : Q (s.cv t i) s) : W (tableValue t i) Q s := W_pcasRead (a := .val t i) ht hi h

theorem W_casKey {t i : Nat} {o n : Word} {Q : Word → A → Prop} (ht : t < s.next) (hi : i < (s.tab t).len)
    (h1 : s.ck t i = o → Q o { s with ck := upd2 s.ck t i (clean n) }) (h2 : s.ck t i ≠ o → Q (s.ck t i) s) :
    W (casKey t i o n) Q s :=
  W_bind (W_pcas (a := .key t i) ht hi (fun e => W_ret (h1 e)) (fun e => W_ret (h2 e)))
theorem W_casValue {t i : Nat} {o n : Word} {Q : Word → A → Prop} (ht : t < s.next) (hi : i < (s.tab t).len)
    (h1 : s.cv t i = o → Q o { s with cv := upd2 s.cv t i (clean n) }) (h2 : s.cv t i ≠ o → Q (s.cv t i) s) :
    W (casValue t i o n) Q s :=
  W_bind (W_pcas (a := .val t i) ht hi (fun e => W_ret (h1 e)) (fun e => W_ret (h2 e)))
theorem W_increment {t i : Nat} {o n : Word} {Q : Word → A → Prop} (ht : t < s.next) (hi : i < (s.tab t).len)
    (h1 : s.cv t i = o → Q o { s with cv := upd2 s.cv t i (clean (incremented o)) })
    (h2 : s.cv t i ≠ o → Q (s.cv t i) s) : W (increment t i o n) Q s :=
  W_bind (W_pcas (a := .val t i) ht hi (fun e => W_ret (h1 e)) (fun e => W_ret (h2 e)))

end acts

end PMap
