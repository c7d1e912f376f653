import Verif.Own.Phases

/-!
# The tables before the current one do not matter (proof machinery)

A call begins at the current table and comes to later ones only.  So a map whose current table is the table number `r` behaves like
one whose current table is the first: `Shift r m m0` says that `m0` is `m` without its first `r` tables, `Up r R p p0` that `p` does
with the tables from `r` on what `p0` does with the tables from 0 on.
-/

namespace PMap

open Prog

variable {r : Nat}

/-- An address in the memory with `r` more tables. -/
def Addr.up (r : Nat) : Addr → Addr
  | .key t i => .key (r + t) i
  | .val t i => .val (r + t) i

/-- The control words in the memory with `r` more tables. -/
def Tab.up (r : Nat) (x : Tab) : Tab := { x with newT := x.newT.map (r + ·) }

/-- The action in the memory with `r` more tables. -/
def Act.up (r : Nat) : Act → Act
  | .load a => .load (a.up r)
  | .cas a e n => .cas (a.up r) e n
  | .flush a => .flush (a.up r)
  | .fence => .fence
  | .len t => .len (r + t)
  | .getNew t => .getNew (r + t)
  | .casNew t n => .casNew (r + t) (r + n)
  | .getRoot => .getRoot
  | .casRoot o n => .casRoot (r + o) (r + n)
  | .getSize t => .getSize (r + t)
  | .addSize t d => .addSize (r + t) d
  | .getSlots t => .getSlots (r + t)
  | .incSlots t => .incSlots (r + t)
  | .getDone t => .getDone (r + t)
  | .addDone t n => .addDone (r + t) n
  | .getIdx t => .getIdx (r + t)
  | .casIdx t e n => .casIdx (r + t) e n
  | .alloc l s => .alloc l s
  | .check b => .check b

/-- The result of the action in the memory with `r` more tables. -/
def Act.upR (r : Nat) : (a : Act) → a.Resp → (a.up r).Resp
  | .load _, x => x
  | .cas _ _ _, x => x
  | .flush _, x => x
  | .fence, x => x
  | .len _, x => x
  | .getNew _, x => Option.map (r + ·) x
  | .casNew _ _, x => x
  | .getRoot, x => r + (show Nat from x)
  | .casRoot _ _, x => x
  | .getSize _, x => x
  | .addSize _ _, x => x
  | .getSlots _, x => x
  | .incSlots _, x => x
  | .getDone _, x => x
  | .addDone _ _, x => x
  | .getIdx _, x => x
  | .casIdx _ _ _, x => x
  | .alloc _ _, x => Option.map (r + ·) x
  | .check _, x => x

/-- `m0` is `m` without its first `r` tables, what is durable apart. -/
structure Shift (r : Nat) (m m0 : Mem) : Prop where
  word : ∀ a, m.word (a.up r) = m0.word a
  tab : ∀ t, t < m0.next → m.tab (r + t) = (m0.tab t).up r
  next : m.next = r + m0.next
  root : m.root = r + m0.root
  cap : m.cap = m0.cap
  failed : m.failed = m0.failed
  reopened : m.reopened = m0.reopened

theorem Addr.up_tab (a : Addr) : (a.up r).tab = r + a.tab := by cases a <;> rfl
theorem Addr.up_idx (a : Addr) : (a.up r).idx = a.idx := by cases a <;> rfl
theorem Addr.up_inj {a b : Addr} : a.up r = b.up r ↔ a = b := by
  cases a <;> cases b <;> simp [Addr.up]

theorem Shift.mono {m m0 m' m0' : Mem} (h : Shift r m m0) (h1 : m'.word = m.word) (h2 : m0'.word = m0.word) (h3 : m'.tab = m.tab)
    (h4 : m0'.tab = m0.tab) (h5 : m'.next = m.next) (h6 : m0'.next = m0.next) (h7 : m'.root = m.root) (h8 : m0'.root = m0.root)
    (h9 : m'.cap = m.cap) (h10 : m0'.cap = m0.cap) (h11 : m'.failed = m0'.failed) (h12 : m'.reopened = m.reopened)
    (h13 : m0'.reopened = m0.reopened) : Shift r m' m0' :=
  ⟨by rw [h1, h2]; exact h.word, by rw [h3, h4, h6]; exact h.tab, by rw [h5, h6]; exact h.next, by rw [h7, h8]; exact h.root,
    by rw [h9, h10]; exact h.cap, h11, by rw [h12, h13]; exact h.reopened⟩

theorem Shift.setTab {m m0 : Mem} (h : Shift r m m0) {t : Nat} {x x0 : Tab} (hx : x = x0.up r) :
    Shift r { m with tab := upd m.tab (r + t) x } { m0 with tab := upd m0.tab t x0 } := by
  refine ⟨h.word, fun t' ht' => ?_, h.next, h.root, h.cap, h.failed, h.reopened⟩
  show upd m.tab (r + t) x (r + t') = (upd m0.tab t x0 t').up r
  unfold upd
  by_cases e : t' = t
  · subst e; rw [if_pos rfl, if_pos rfl, hx]
  · rw [if_neg (by omega), if_neg e]; exact h.tab t' ht'

theorem Shift.setWord {m m0 : Mem} (h : Shift r m m0) (a : Addr) (w : Word) :
    Shift r { m with word := setWord m.word (a.up r) w } { m0 with word := PMap.setWord m0.word a w } := by
  refine ⟨fun b => ?_, h.tab, h.next, h.root, h.cap, h.failed, h.reopened⟩
  show PMap.setWord m.word (a.up r) w (b.up r) = PMap.setWord m0.word a w b
  unfold PMap.setWord
  by_cases e : b = a
  · subst e; rw [if_pos rfl, if_pos rfl]
  · rw [if_neg (fun h => e (Addr.up_inj.mp h)), if_neg e, h.word]

/-- Both memories do the same. -/
theorem Shift.exec {m m0 : Mem} (h : Shift r m m0) (a : Act) :
    (a.exec m0 = none ∧ (a.up r).exec m = none) ∨
      ∃ x m' m0', a.exec m0 = some (x, m0') ∧ (a.up r).exec m = some (a.upR r x, m') ∧ Shift r m' m0' := by
  have hn := h.next
  have lt : ∀ {t}, r + t < m.next ↔ t < m0.next := by intro t; omega
  have inb : ∀ b : Addr, ((b.up r).tab < m.next ∧ (b.up r).idx < (m.tab (b.up r).tab).len) ↔
      (b.tab < m0.next ∧ b.idx < (m0.tab b.tab).len) := by
    intro b
    rw [b.up_tab, b.up_idx, lt]
    exact and_congr_right fun hb => by rw [h.tab _ hb]; rfl
  cases a with
  | load a =>
    by_cases c : a.tab < m0.next ∧ a.idx < (m0.tab a.tab).len
    · right
      refine ⟨_, m, m0, if_pos c, ?_, h⟩
      exact (if_pos ((inb a).mpr c)).trans (by rw [h.word]; rfl)
    · exact .inl ⟨if_neg c, if_neg fun c' => c ((inb a).mp c')⟩
  | cas a e n =>
    by_cases c : a.tab < m0.next ∧ a.idx < (m0.tab a.tab).len
    · right
      by_cases c2 : m0.word a = e
      · refine ⟨_, _, _, (if_pos c).trans (if_pos c2), (if_pos ((inb a).mpr c)).trans (if_pos (by rw [h.word]; exact c2)), ?_⟩
        exact h.setWord a n
      · refine ⟨_, m, m0, (if_pos c).trans (if_neg c2), ?_, h⟩
        exact (if_pos ((inb a).mpr c)).trans ((if_neg (by rw [h.word]; exact c2)).trans (by rw [h.word]; rfl))
    · exact .inl ⟨if_neg c, if_neg fun c' => c ((inb a).mp c')⟩
  | flush a =>
    by_cases c : a.tab < m0.next ∧ a.idx < (m0.tab a.tab).len
    · right
      refine ⟨(), _, _, if_pos c, if_pos ((inb a).mpr c), ?_⟩
      exact h.mono rfl rfl rfl rfl rfl rfl rfl rfl rfl rfl h.failed rfl rfl
    · exact .inl ⟨if_neg c, if_neg fun c' => c ((inb a).mp c')⟩
  | fence => exact .inr ⟨(), m, m0, rfl, rfl, h⟩
  | len t =>
    by_cases c : t < m0.next
    · exact .inr ⟨_, m, m0, if_pos c, (if_pos (lt.mpr c)).trans (by rw [h.tab t c]; rfl), h⟩
    · exact .inl ⟨if_neg c, if_neg fun c' => c (lt.mp c')⟩
  | getNew t =>
    by_cases c : t < m0.next
    · exact .inr ⟨_, m, m0, if_pos c, (if_pos (lt.mpr c)).trans (by rw [h.tab t c]; rfl), h⟩
    · exact .inl ⟨if_neg c, if_neg fun c' => c (lt.mp c')⟩
  | casNew t n =>
    by_cases c : t < m0.next
    · have e : (m.tab (r + t)).newT = (m0.tab t).newT.map (r + ·) := by rw [h.tab t c]; rfl
      by_cases c2 : (m0.tab t).newT = none
      · refine .inr ⟨true, _, _, (if_pos c).trans (if_pos c2), (if_pos (lt.mpr c)).trans (if_pos (by rw [e, c2]; rfl)), h.setTab ?_⟩
        rw [h.tab t c]; rfl
      · exact .inr ⟨false, m, m0, (if_pos c).trans (if_neg c2), (if_pos (lt.mpr c)).trans (if_neg (by simpa [e] using c2)), h⟩
    · exact .inl ⟨if_neg c, if_neg fun c' => c (lt.mp c')⟩
  | getRoot => exact .inr ⟨_, m, m0, rfl, congrArg (fun x => some (x, m)) h.root, h⟩
  | casRoot o n =>
    have hr := h.root
    by_cases c : m0.root = o
    · exact .inr ⟨true, { m with root := r + n }, { m0 with root := n }, if_pos c, if_pos (by omega),
        ⟨h.word, h.tab, h.next, rfl, h.cap, h.failed, h.reopened⟩⟩
    · exact .inr ⟨false, m, m0, if_neg c, if_neg (by omega), h⟩
  | getSize t =>
    by_cases c : t < m0.next
    · exact .inr ⟨_, m, m0, if_pos c, (if_pos (lt.mpr c)).trans (by rw [h.tab t c]; rfl), h⟩
    · exact .inl ⟨if_neg c, if_neg fun c' => c (lt.mp c')⟩
  | addSize t d =>
    by_cases c : t < m0.next
    · exact .inr ⟨(), _, _, if_pos c, if_pos (lt.mpr c), h.setTab (by rw [h.tab t c]; rfl)⟩
    · exact .inl ⟨if_neg c, if_neg fun c' => c (lt.mp c')⟩
  | getSlots t =>
    by_cases c : t < m0.next
    · exact .inr ⟨_, m, m0, if_pos c, (if_pos (lt.mpr c)).trans (by rw [h.tab t c]; rfl), h⟩
    · exact .inl ⟨if_neg c, if_neg fun c' => c (lt.mp c')⟩
  | incSlots t =>
    by_cases c : t < m0.next
    · exact .inr ⟨(), _, _, if_pos c, if_pos (lt.mpr c), h.setTab (by rw [h.tab t c]; rfl)⟩
    · exact .inl ⟨if_neg c, if_neg fun c' => c (lt.mp c')⟩
  | getDone t =>
    by_cases c : t < m0.next
    · exact .inr ⟨_, m, m0, if_pos c, (if_pos (lt.mpr c)).trans (by rw [h.tab t c]; rfl), h⟩
    · exact .inl ⟨if_neg c, if_neg fun c' => c (lt.mp c')⟩
  | addDone t n =>
    by_cases c : t < m0.next
    · exact .inr ⟨(), _, _, if_pos c, if_pos (lt.mpr c), h.setTab (by rw [h.tab t c]; rfl)⟩
    · exact .inl ⟨if_neg c, if_neg fun c' => c (lt.mp c')⟩
  | getIdx t =>
    by_cases c : t < m0.next
    · exact .inr ⟨_, m, m0, if_pos c, (if_pos (lt.mpr c)).trans (by rw [h.tab t c]; rfl), h⟩
    · exact .inl ⟨if_neg c, if_neg fun c' => c (lt.mp c')⟩
  | casIdx t e n =>
    by_cases c : t < m0.next
    · have ei : (m.tab (r + t)).copyIdx = (m0.tab t).copyIdx := by rw [h.tab t c]; rfl
      by_cases c2 : (m0.tab t).copyIdx = e
      · exact .inr ⟨(true, e), _, _, (if_pos c).trans (if_pos c2), (if_pos (lt.mpr c)).trans (if_pos (ei.trans c2)),
          h.setTab (by rw [h.tab t c]; rfl)⟩
      · exact .inr ⟨(false, (m0.tab t).copyIdx), m, m0, (if_pos c).trans (if_neg c2),
          (if_pos (lt.mpr c)).trans ((if_neg (by rw [ei]; exact c2)).trans (by rw [ei]; rfl)), h⟩
    · exact .inl ⟨if_neg c, if_neg fun c' => c (lt.mp c')⟩
  | alloc l s =>
    by_cases c : l ≤ m0.cap
    · refine .inr ⟨_, _, _, if_pos c, (if_pos (by rw [h.cap]; exact c)).trans (by rw [hn]; rfl), ?_⟩
      refine ⟨fun b => ?_, fun t ht => ?_, by show r + m0.next + 1 = r + (m0.next + 1); omega, h.root, h.cap, h.failed, h.reopened⟩
      · have hb := h.word b
        cases b with
        | key t i =>
          show (if r + t = r + m0.next then _ else _) = (if t = m0.next then _ else _)
          by_cases e : t = m0.next
          · rw [if_pos (by omega), if_pos e]
          · rw [if_neg (by omega), if_neg e]; exact hb
        | val t i =>
          show (if r + t = r + m0.next then _ else _) = (if t = m0.next then _ else _)
          by_cases e : t = m0.next
          · rw [if_pos (by omega), if_pos e]
          · rw [if_neg (by omega), if_neg e]; exact hb
      · show upd m.tab (r + m0.next) (freshTab l s) (r + t) = (upd m0.tab m0.next (freshTab l s) t).up r
        unfold upd
        replace ht : t < m0.next + 1 := ht
        by_cases e : t = m0.next
        · rw [if_pos (by omega), if_pos e]; rfl
        · rw [if_neg (by omega), if_neg e]; exact h.tab t (by omega)
    · exact .inr ⟨none, m, m0, if_neg c, if_neg (by rw [h.cap]; exact c), h⟩
  | check b =>
    refine .inr ⟨(), _, _, rfl, rfl, ?_⟩
    exact h.mono rfl rfl rfl rfl rfl rfl rfl rfl rfl rfl (by show (m.failed || !b) = (m0.failed || !b); rw [h.failed]) rfl rfl

/-! ## Programs -/

/-- See the head of this file. -/
inductive Up (r : Nat) {α β : Type} (R : α → β → Prop) : Prog α → Prog β → Prop
  | ret {a : α} {b : β} : R a b → Up r R (.ret a) (.ret b)
  | halt (h : Halt) : Up r R (.halt h) (.halt h)
  | act (a : Act) {k : (a.up r).Resp → Prog α} {k0 : a.Resp → Prog β} : (∀ x, Up r R (k (a.upR r x)) (k0 x)) →
      Up r R (.act (a.up r) k) (.act a k0)

variable {α β γ δ σ τ : Type} {R : α → β → Prop}

theorem Up.bind {S : γ → δ → Prop} {p : Prog α} {p0 : Prog β} {f : α → Prog γ} {f0 : β → Prog δ} (h : Up r R p p0)
    (hf : ∀ a b, R a b → Up r S (f a) (f0 b)) : Up r S (p >>= f) (p0 >>= f0) := by
  induction h with
  | ret h => exact hf _ _ h
  | halt h => exact .halt h
  | act a _ ih => exact .act a ih

/-- The same when the results are equal. -/
theorem Up.eq {S : γ → δ → Prop} {p p0 : Prog α} {f : α → Prog γ} {f0 : α → Prog δ} (h : Up r Eq p p0)
    (hf : ∀ a, Up r S (f a) (f0 a)) : Up r S (p >>= f) (p0 >>= f0) := h.bind fun a b e => by subst e; exact hf a

theorem Up.mono {S : α → β → Prop} {p : Prog α} {p0 : Prog β} (h : Up r R p p0) (hs : ∀ a b, R a b → S a b) : Up r S p p0 := by
  induction h with
  | ret h => exact .ret (hs _ _ h)
  | halt h => exact .halt h
  | act a _ ih => exact .act a ih

theorem up_do (a : Act) : Up r (fun x y => x = a.upR r y) (do1 (a.up r)) (do1 a) := .act a fun _ => .ret rfl

/-- Loops whose bodies do the same. -/
theorem up_loop {S : σ → τ → Prop} {f : σ → Prog (Ctl σ α)} {f0 : τ → Prog (Ctl τ β)}
    (hf : ∀ s s0, S s s0 → Up r (fun c c0 => match c, c0 with
      | .next s, .next s0 => S s s0
      | .done a, .done b => R a b
      | _, _ => False) (f s) (f0 s0)) : ∀ (n : Nat) (s : σ) (s0 : τ), S s s0 → Up r R (loop n f s) (loop n f0 s0)
  | 0, _, _, _ => .halt _
  | n + 1, s, s0, h => by
    refine Up.bind (hf s s0 h) ?_
    intro c c0 hc
    cases c with
    | next s1 =>
      cases c0 with
      | next s2 => exact up_loop hf n s1 s2 hc
      | done b => exact hc.elim
    | done a =>
      cases c0 with
      | next s2 => exact hc.elim
      | done b => exact .ret hc

/-- The same for equal states and results. -/
theorem up_loopE {f f0 : σ → Prog (Ctl σ α)} (hf : ∀ s, Up r Eq (f s) (f0 s)) (n : Nat) (s : σ) : Up r Eq (loop n f s) (loop n f0 s) := by
  refine up_loop (S := Eq) (R := Eq) (fun s s0 e => ?_) n s s rfl
  subst e
  exact (hf s).mono fun a b e => by subst e; cases a <;> rfl

theorem up_if {c : Prop} [Decidable c] {p q : Prog α} {p0 q0 : Prog β} (h1 : Up r R p p0) (h2 : Up r R q q0) :
    Up r R (if c then p else q) (if c then p0 else q0) := by
  split
  · exact h1
  · exact h2

theorem up_pure (a : α) : Up r Eq (pure a : Prog α) (pure a) := .ret rfl
theorem up_check (b : Bool) : Up r Eq (check b) (check b) := (up_do (.check b)).mono fun _ _ h => h
theorem up_len (t : Nat) : Up r Eq (do1 (.len (r + t))) (do1 (.len t)) := (up_do (.len t)).mono fun _ _ h => h
theorem up_getNew (t : Nat) : Up r (fun x y => x = Option.map (r + ·) y) (do1 (.getNew (r + t))) (do1 (.getNew t)) :=
  up_do (.getNew t)
theorem up_getRoot : Up r (fun x y => x = r + y) (do1 .getRoot) (do1 .getRoot) := up_do .getRoot

variable {hash : Word → Word} {n t t' idx i k : Nat}

theorem up_persist (a : Addr) (v : Word) : Up r Eq (persist (a.up r) v) (persist a v) :=
  Up.eq (up_do (.flush a)) fun _ => Up.eq (up_do .fence) fun _ => Up.eq (up_do (.cas a v (clearMark v DirtyFlag))) fun _ => .ret rfl

theorem up_read (a : Addr) : Up r Eq (pcasRead (a.up r)) (pcasRead a) :=
  Up.eq (up_do (.load a)) fun w => up_if (Up.eq (up_persist a w) fun _ => .ret rfl) (.ret rfl)

theorem up_pcas (a : Addr) (o v : Word) : Up r Eq (pcas (a.up r) o v) (pcas a o v) :=
  Up.eq (up_read a) fun _ => Up.eq (up_do (.cas a o (dirty v))) fun _ => Up.eq (up_check _) fun _ => .ret rfl

theorem up_tableKey : Up r Eq (tableKey (r + t) idx) (tableKey t idx) := up_read (.key t idx)
theorem up_tableValue : Up r Eq (tableValue (r + t) idx) (tableValue t idx) := up_read (.val t idx)
theorem up_casKey {o v : Word} : Up r Eq (casKey (r + t) idx o v) (casKey t idx o v) :=
  Up.eq (up_pcas (.key t idx) o v) fun _ => .ret rfl
theorem up_casValue {o v : Word} : Up r Eq (casValue (r + t) idx o v) (casValue t idx o v) :=
  Up.eq (up_pcas (.val t idx) o v) fun _ => .ret rfl
theorem up_call (cf : CasFn) {o v : Word} : Up r Eq (cf.call (r + t) idx o v) (cf.call t idx o v) := by
  cases cf with
  | casValue => exact up_casValue
  | increment => exact Up.eq (up_pcas (.val t idx) o (incremented o)) fun _ => .ret rfl

theorem up_tableFull {c len : Nat} : Up r Eq (tableFull (r + t) c len) (tableFull t c len) :=
  up_if (Up.eq (up_do (.getSlots t)) fun _ => .ret rfl) (.ret rfl)

theorem up_resize : Up r (fun x y => x = r + y) (resize (r + t)) (resize t) := by
  refine Up.bind (up_getNew t) ?_
  rintro _ nt rfl
  cases nt with
  | some n => exact Up.eq (up_len n) fun l => Up.eq (up_len t) fun lo => Up.eq (up_check _) fun _ => .ret rfl
  | none =>
    refine Up.eq (up_len t) fun oldLen => Up.eq (up_do (.getSize t)) fun size => Up.bind (up_getNew t) ?_
    rintro _ nt rfl
    cases nt with
    | some n => exact Up.eq (up_len n) fun l => Up.eq (up_check _) fun _ => .ret rfl
    | none =>
      refine Up.bind (up_do (.alloc (newLen oldLen size) size)) ?_
      rintro _ a rfl
      cases a with
      | none => exact .halt _
      | some n =>
        refine Up.eq (up_do (.casNew t n)) fun ok => up_if ?_ ?_
        · exact Up.eq (up_len n) fun l => Up.eq (up_check _) fun _ => .ret rfl
        · refine Up.bind (up_getNew t) ?_
          rintro _ nt rfl
          cases nt with
          | none => exact Up.eq (up_check _) fun _ => .halt _
          | some n => exact Up.eq (up_len n) fun l => Up.eq (up_check _) fun _ => .ret rfl

theorem up_promote {w : Nat} : Up r Eq (copyCheckAndPromote (r + t) w) (copyCheckAndPromote t w) := by
  refine Up.eq (up_len t) fun l => Up.eq (up_do (.getDone t)) fun d => Up.eq (up_check _) fun _ => ?_
  by_cases c : 0 < w
  · rw [if_pos c, if_pos c]
    refine Up.eq (up_do (.addDone t w)) fun _ => up_if (Up.bind (up_getNew t) ?_) (.ret rfl)
    rintro _ nt rfl
    cases nt with
    | none => exact .halt _
    | some n => exact Up.eq (up_do (.casRoot t n)) fun _ => .ret rfl
  · rw [if_neg c, if_neg c]
    refine Up.eq (.ret rfl) fun _ => up_if (Up.bind (up_getNew t) ?_) (.ret rfl)
    rintro _ nt rfl
    cases nt with
    | none => exact .halt _
    | some n => exact Up.eq (up_do (.casRoot t n)) fun _ => .ret rfl

/-- A `put` that does the same. -/
def UpPut (r : Nat) (put put0 : PutFn) : Prop := ∀ t k v o, Up r Eq (put (r + t) k v o) (put0 t k v o)

variable {put put0 : PutFn}

theorem up_copySlotKey : Up r Eq (copySlotKey n idx (r + t)) (copySlotKey n idx t) :=
  up_loopE (fun _ => Up.eq up_tableKey fun _ => up_if (Up.eq up_casKey fun _ => .ret rfl) (.ret rfl)) n ()

theorem up_copySlotMark {v : Word} : Up r Eq (copySlotMark n idx (r + t) v) (copySlotMark n idx t v) :=
  up_loopE (fun v => up_if (.ret rfl) (Up.eq up_casValue fun _ => up_if (up_if (.ret rfl) (.ret rfl)) (.ret rfl))) n v

theorem up_copySlotFinish {v : Word} : Up r Eq (copySlotFinish n idx (r + t) v) (copySlotFinish n idx t v) :=
  up_loopE (fun v => Up.eq up_casValue fun _ => up_if (.ret rfl) (.ret rfl)) n v

theorem up_copySlot (hp : UpPut r put put0) : Up r Eq (copySlot put n idx (r + t) (r + t')) (copySlot put0 n idx t t') := by
  refine Up.eq up_copySlotKey fun key => Up.eq up_tableValue fun v => Up.eq up_copySlotMark fun m => ?_
  cases m with
  | finished => exact .ret rfl
  | val v =>
    refine up_if (.ret rfl) (Up.eq (up_check _) fun _ => Up.eq (hp t' _ _ _) fun x => Up.eq up_copySlotFinish fun _ => .ret rfl)

theorem up_claimChunk {l w : Nat} : Up r Eq (claimChunk n (r + t) l w) (claimChunk n t l w) :=
  Up.eq (up_do (.getIdx t)) fun c =>
    up_loopE (fun c => up_if (Up.eq (up_do (.casIdx t c (c + w))) fun _ => up_if (.ret rfl) (.ret rfl)) (.ret rfl)) n c

theorem up_copyChunk (hp : UpPut r put put0) {l c : Nat} : ∀ (todo i w : Nat),
    Up r Eq (copyChunk put n (r + t) (r + t') l c todo i w) (copyChunk put0 n t t' l c todo i w)
  | 0, _, _ => .ret rfl
  | todo + 1, _, _ => Up.eq (up_copySlot hp) fun _ => up_copyChunk hp todo _ _

theorem up_helpCopyImpl (hp : UpPut r put put0) : Up r Eq (helpCopyImpl put n (r + t)) (helpCopyImpl put0 n t) := by
  refine Up.bind (up_getNew t) ?_
  rintro _ nt rfl
  have hs : (Option.map (r + ·) nt).isSome = nt.isSome := by cases nt <;> rfl
  rw [hs]
  refine Up.eq (up_check _) fun _ => ?_
  cases nt with
  | none => exact .halt _
  | some n' =>
    refine Up.eq (up_len t) fun l => Up.eq (up_loopE (fun s => ?_) n _) fun _ => up_promote
    refine Up.eq (up_do (.getDone t)) fun d => up_if ?_ (.ret rfl)
    have tail : ∀ c : Nat, Up r Eq (do
        let workDone ← copyChunk put n (r + t) (r + n') l c (if l < 1024 then l else 1024) 0 0
        if 0 < workDone then do
          copyCheckAndPromote (r + t) workDone
        else pure ()
        return (Ctl.next (c + (if l < 1024 then l else 1024), s.2 || decide (l * 2 ≤ c)) : Ctl (Nat × Bool) Unit)) (do
        let workDone ← copyChunk put0 n t n' l c (if l < 1024 then l else 1024) 0 0
        if 0 < workDone then do
          copyCheckAndPromote t workDone
        else pure ()
        return (Ctl.next (c + (if l < 1024 then l else 1024), s.2 || decide (l * 2 ≤ c)) : Ctl (Nat × Bool) Unit)) := by
      intro c
      refine Up.eq (up_copyChunk hp _ 0 0) fun w => ?_
      exact up_if (Up.eq up_promote fun _ => .ret rfl) (Up.eq (.ret rfl) fun _ => .ret rfl)
    exact up_if (Up.eq (up_pure _) tail) (Up.eq up_claimChunk tail)

theorem up_helpCopy (hp : UpPut r put put0) : Up r (fun x y => x = r + y) (helpCopy put n (r + t)) (helpCopy put0 n t) := by
  refine Up.bind up_getRoot ?_
  rintro _ top rfl
  refine Up.bind (up_getNew top) ?_
  rintro _ nt rfl
  cases nt with
  | none => exact .ret rfl
  | some _ => exact Up.eq (up_helpCopyImpl hp) fun _ => .ret rfl

theorem up_copySlotAndCheck (hp : UpPut r put put0) (b : Bool) :
    Up r (fun x y => x = r + y) (copySlotAndCheck put n (r + t) idx b) (copySlotAndCheck put0 n t idx b) := by
  refine Up.bind (up_getNew t) ?_
  rintro _ nt rfl
  have hs : (Option.map (r + ·) nt).isSome = nt.isSome := by cases nt <;> rfl
  rw [hs]
  refine Up.eq (up_check _) fun _ => ?_
  cases nt with
  | none => exact .halt _
  | some n' =>
    refine Up.eq (up_copySlot hp) fun x => up_if (Up.eq up_promote fun _ => ?_) (Up.eq (.ret rfl) fun _ => ?_)
    all_goals exact up_if (.ret rfl) (up_helpCopy hp)

theorem up_probe {key nv : Word} {l : Nat} (s : Nat × Nat) : Up r Eq (probeBody (r + t) key nv l s) (probeBody t key nv l s) := by
  have pm : ∀ i c (K V : Word), Up r Eq (probeMatch key l i c K V) (probeMatch key l i c K V) := fun i c K V =>
    up_if (.ret rfl) (up_if (.ret rfl) (.ret rfl))
  refine Up.eq up_tableKey fun K => Up.eq up_tableValue fun V => up_if (up_if (.ret rfl) ?_) (pm _ _ _ _)
  exact Up.eq up_casKey fun a => up_if (Up.eq (up_do (.incSlots t)) fun _ => .ret rfl) (pm _ _ _ _)

theorem up_adjust {V nv ov : Word} : Up r Eq (adjustSize (r + t) V nv ov) (adjustSize t V nv ov) :=
  up_if (up_if ((up_do (.addSize t 1#64)).mono fun _ _ h => h)
    (up_if ((up_do (.addSize t (-1#64))).mono fun _ _ h => h) (.ret rfl))) (.ret rfl)

theorem up_update (cf : CasFn) {nv ov : Word} (V : Word) :
    Up r Eq (updateBody cf (r + t) idx nv ov V) (updateBody cf t idx nv ov V) := by
  refine Up.eq (up_check _) fun _ => up_if (.ret rfl) (Up.eq (up_call cf) fun a => up_if (Up.eq up_adjust fun _ => .ret rfl) ?_)
  exact Up.eq up_tableValue fun V' => up_if (.ret rfl) (.ret rfl)

theorem up_wantNew {c l : Nat} {V : Word} : Up r Eq (wantNewTable (r + t) c l V) (wantNewTable t c l V) :=
  up_if (Up.eq up_tableFull fun _ => .ret rfl) (.ret rfl)

theorem up_putBody (hp : UpPut r put put0) (cf : CasFn) {key nv ov : Word} :
    Up r Eq (putBody hash put n cf (r + t) key nv ov) (putBody hash put0 n cf t key nv ov) := by
  refine Up.eq (up_check _) fun _ => Up.eq (up_check _) fun _ => Up.eq (up_check _) fun _ => Up.eq (up_len t) fun l =>
    Up.eq (up_loopE up_probe n _) fun p => ?_
  cases p with
  | returned v => exact .ret rfl
  | full =>
    refine Up.bind up_resize ?_
    rintro _ nt rfl
    exact up_if (Up.bind (up_helpCopy hp) fun _ _ _ => hp _ _ _ _) (hp _ _ _ _)
  | slot i c V =>
    have fin : Up r Eq (copySlotAndCheck put n (r + t) i (decide (ov = VINITIAL)) >>= fun nt => put nt key nv ov)
        (copySlotAndCheck put0 n t i (decide (ov = VINITIAL)) >>= fun nt => put0 nt key nv ov) := by
      refine Up.bind (up_copySlotAndCheck hp _) ?_
      rintro _ nt rfl
      exact hp _ _ _ _
    refine up_if (.ret rfl) (Up.eq up_wantNew fun w => up_if (Up.bind up_resize fun _ _ _ => fin) ?_)
    refine Up.eq (up_loopE (up_update cf) n V) fun u => ?_
    cases u with
    | returned v => exact .ret rfl
    | migrated => exact fin

theorem up_putIfMatch : ∀ (n : Nat) (cf : CasFn) (t : Nat) (key nv ov : Word),
    Up r Eq (putIfMatch hash n cf (r + t) key nv ov) (putIfMatch hash n cf t key nv ov)
  | 0, _, _, _, _, _ => .halt _
  | n + 1, cf, _, _, _, _ => up_putBody (fun t k v o => up_putIfMatch n .casValue t k v o) cf

theorem up_getProbe {key : Word} {l : Nat} (s : Nat × Nat) :
    Up r (fun c c0 => match c, c0 with
      | .next s, .next s0 => s = s0
      | .done (.returned v), .done (.returned v0) => v = v0
      | .done (.copy i), .done (.copy i0) => i = i0
      | .done (.chase x), .done (.chase y) => x = r + y
      | _, _ => False) (getProbeBody (r + t) key l s) (getProbeBody t key l s) := by
  refine Up.eq up_tableKey fun K => Up.eq up_tableValue fun V => up_if (.ret rfl) (Up.bind (up_getNew t) ?_)
  rintro _ nt rfl
  refine up_if (up_if (.ret rfl) (.ret rfl)) (up_if ?_ (.ret rfl))
  cases nt with
  | none => exact .ret rfl
  | some nt => exact .ret rfl

theorem up_getImpl : ∀ (n t : Nat) (key : Word), Up r Eq (getImpl hash n (r + t) key) (getImpl hash n t key)
  | 0, _, _ => .halt _
  | n + 1, t, key => by
    have hp : UpPut r (putIfMatch hash n .casValue) (putIfMatch hash n .casValue) := fun t k v o => up_putIfMatch n .casValue t k v o
    refine Up.eq (up_len t) fun l => Up.bind (up_loop (S := Eq) (R := fun c c0 => match c, c0 with
      | .returned v, .returned v0 => v = v0
      | .copy i, .copy i0 => i = i0
      | .chase x, .chase y => x = r + y
      | _, _ => False) (fun s s0 e => ?_) n _ _ rfl) ?_
    · subst e
      refine (up_getProbe s).mono fun c c0 h => ?_
      cases c with
      | next s1 => cases c0 <;> first | exact h | exact h.elim
      | done a =>
        cases c0 with
        | next s2 => cases a <;> exact h.elim
        | done b => cases a <;> cases b <;> first | exact h | exact h.elim
    · intro p p0 h
      cases p with
      | returned v =>
        cases p0 with
        | returned v0 => exact .ret h
        | copy _ => exact h.elim
        | chase _ => exact h.elim
      | copy i =>
        cases p0 with
        | returned _ => exact h.elim
        | copy i0 =>
          have h : i = i0 := h
          subst h
          refine Up.bind (up_copySlotAndCheck hp _) ?_
          rintro _ nt rfl
          exact up_getImpl n nt key
        | chase _ => exact h.elim
      | chase x =>
        cases p0 with
        | returned _ => exact h.elim
        | copy _ => exact h.elim
        | chase y =>
          have h : x = r + y := h
          subst h
          refine Up.bind (up_helpCopy hp) ?_
          rintro _ nt rfl
          exact up_getImpl n nt key

theorem up_mapGet (key : Word) : Up r Eq (mapGet hash n key) (mapGet hash n key) := by
  refine Up.bind up_getRoot ?_
  rintro _ root rfl
  exact Up.eq (up_getImpl n root key) fun _ => Up.eq (up_check _) fun _ => .ret rfl

theorem up_mapPutIfMatch (cf : CasFn) (key nv ov : Word) : Up r Eq (mapPutIfMatch hash n cf key nv ov) (mapPutIfMatch hash n cf key nv ov) := by
  refine Up.eq (up_check _) fun _ => Up.eq (up_check _) fun _ => Up.bind up_getRoot ?_
  rintro _ root rfl
  exact Up.eq (up_putIfMatch n cf root key nv ov) fun _ => Up.eq (up_check _) fun _ => .ret rfl

theorem up_mapSize : Up r Eq mapSize mapSize := by
  refine Up.bind up_getRoot ?_
  rintro _ root rfl
  exact (up_do (.getSize root)).mono fun _ _ h => h

/-- Every call does the same with the tables from `r` on as with those from 0 on. -/
theorem up_op (op : Op) : Up r Eq (op.prog hash n) (op.prog hash n) := by
  cases op with
  | get k => exact Up.eq (up_mapGet k) fun _ => .ret rfl
  | containsKey k => exact Up.eq (Up.eq (up_mapGet k) fun _ => .ret rfl) fun _ => .ret rfl
  | put k v => exact Up.eq (up_mapPutIfMatch _ _ _ _) fun _ => .ret rfl
  | putIfAbsent k v => exact Up.eq (up_mapPutIfMatch _ _ _ _) fun _ => .ret rfl
  | remove k => exact Up.eq (Up.eq (up_mapPutIfMatch _ _ _ _) fun _ => .ret rfl) fun _ => .ret rfl
  | removeIf k v => exact Up.eq (Up.eq (up_mapPutIfMatch _ _ _ _) fun _ => .ret rfl) fun _ => .ret rfl
  | replace k o v => exact Up.eq (Up.eq (up_mapPutIfMatch _ _ _ _) fun _ => .ret rfl) fun _ => .ret rfl
  | putIfMatch k v o => exact Up.eq (up_mapPutIfMatch _ _ _ _) fun _ => .ret rfl
  | update k v => exact Up.eq (up_mapPutIfMatch _ _ _ _) fun _ => .ret rfl
  | size => exact Up.eq up_mapSize fun _ => .ret rfl
  | isEmpty => exact Up.eq (Up.eq up_mapSize fun _ => .ret rfl) fun _ => .ret rfl

/-! ## Runs -/

theorem Up.run {p : Prog α} {p0 : Prog β} (h : Up r R p p0) : ∀ {m m0 : Mem}, Shift r m m0 →
    (∀ a m', PMap.run p m = .done a m' → ∃ b m0', PMap.run p0 m0 = .done b m0' ∧ R a b ∧ Shift r m' m0') ∧
    (∀ b m0', PMap.run p0 m0 = .done b m0' → ∃ a m', PMap.run p m = .done a m' ∧ R a b ∧ Shift r m' m0') := by
  induction h with
  | ret h =>
    intro m m0 hm
    constructor
    · intro a m' e; cases e; exact ⟨_, _, rfl, h, hm⟩
    · intro a m' e; cases e; exact ⟨_, _, rfl, h, hm⟩
  | halt h => intro m m0 hm; exact ⟨fun a m' e => (nomatch e), fun a m' e => (nomatch e)⟩
  | act a hk ih =>
    intro m m0 hm
    rcases hm.exec a with ⟨e0, e⟩ | ⟨x, m', m0', e0, e, hm'⟩
    · constructor
      · intro a m' er; rw [PMap.run, e] at er; cases er
      · intro a m' er; rw [PMap.run, e0] at er; cases er
    · simp only [PMap.run, e0, e]
      exact ih x hm'

/-- A thread in both memories. -/
def ThrUp (r : Nat) : Thread → Thread → Prop
  | .idle c, .idle c0 => c = c0
  | .busy op p c, .busy op0 p0 c0 => op = op0 ∧ Up r Eq p p0 ∧ c = c0
  | _, _ => False

/-- The system in both memories. -/
structure SysUp (r : Nat) (s s0 : Sys) : Prop where
  mem : Shift r s.mem s0.mem
  thr : ∀ t, ThrUp r (s.thr t) (s0.thr t)
  hist : s.hist = s0.hist
  ub : s.ub = s0.ub

theorem thrUp_upd {f f0 : Nat → Thread} (h : ∀ t, ThrUp r (f t) (f0 t)) {i : Nat} {x x0 : Thread} (hx : ThrUp r x x0) :
    ∀ t, ThrUp r (upd f i x t) (upd f0 i x0 t) := by
  intro t
  unfold upd
  split
  · exact hx
  · exact h t

theorem SysUp.run {s s0 : Sys} (h : SysUp r s s0) (i : Nat) : SysUp r (s.step hash n (.run i)) (s0.step hash n (.run i)) := by
  have hi := h.thr i
  unfold Sys.step
  cases e : s.thr i with
  | idle c =>
    cases e0 : s0.thr i with
    | busy op0 p0 c0 => rw [e, e0] at hi; exact hi.elim
    | idle c0 =>
      rw [e, e0] at hi
      have hi : c = c0 := hi
      subst hi
      cases c with
      | nil => simpa only [e, e0] using h
      | cons op todo =>
        simp only [e, e0]
        exact ⟨h.mem, thrUp_upd h.thr ⟨rfl, up_op op, rfl⟩, by rw [h.hist], h.ub⟩
  | busy op p c =>
    cases e0 : s0.thr i with
    | idle c0 => rw [e, e0] at hi; exact hi.elim
    | busy op0 p0 c0 =>
      rw [e, e0] at hi
      obtain ⟨rfl, hp, rfl⟩ := hi
      cases hp with
      | ret hr =>
        subst hr
        simp only [e, e0]
        exact ⟨h.mem, thrUp_upd h.thr rfl, by rw [h.hist], h.ub⟩
      | halt x =>
        cases x <;> simp only [e, e0]
        all_goals first | exact h | exact ⟨h.mem, h.thr, h.hist, rfl⟩
      | act a hk =>
        rcases h.mem.exec a with ⟨e0', e'⟩ | ⟨x, m', m0', e0', e', hm'⟩
        · simp only [e, e0, e', e0']; exact ⟨h.mem, h.thr, h.hist, rfl⟩
        · simp only [e, e0, e', e0']; exact ⟨hm', thrUp_upd h.thr ⟨rfl, hk x, rfl⟩, h.hist, h.ub⟩

theorem SysUp.evict {s s0 : Sys} (h : SysUp r s s0) (t i : Nat) : SysUp r (s.step hash n (.evict t i)) s0 :=
  ⟨h.mem.mono rfl rfl rfl rfl rfl rfl rfl rfl rfl rfl h.mem.failed rfl rfl, h.thr, h.hist, h.ub⟩

/-- A schedule without the write-backs. -/
def runsOnly (xs : List Sched) : List Sched := xs.filter fun x => match x with | .run _ => true | .evict _ _ => false

theorem SysUp.exec : ∀ (xs : List Sched) {s s0 : Sys}, SysUp r s s0 → SysUp r (s.exec hash n xs) (s0.exec hash n (runsOnly xs))
  | [], _, _, h => h
  | .run i :: xs, _, _, h => SysUp.exec xs (h.run i)
  | .evict t i :: xs, _, _, h => SysUp.exec xs (h.evict t i)

theorem Shift.start {m m0 : Mem} (h : Shift r m m0) (calls : Nat → List Op) : SysUp r (Sys.start m calls) (Sys.start m0 calls) :=
  ⟨h, fun _ => rfl, rfl, rfl⟩

theorem Shift.refl (m : Mem) : Shift 0 m m := by
  refine ⟨fun a => ?_, fun t _ => ?_, by omega, by omega, rfl, rfl, rfl⟩
  · cases a <;> simp [Addr.up]
  · have : (fun x : Nat => 0 + x) = id := by funext x; exact Nat.zero_add x
    simp [Tab.up, this]

theorem Shift.trans {r' : Nat} {m m0 m1 : Mem} (h : Shift r m m0) (h' : Shift r' m0 m1) : Shift (r + r') m m1 := by
  refine ⟨fun a => ?_, fun t ht => ?_, ?_, ?_, h.cap.trans h'.cap, h.failed.trans h'.failed, h.reopened.trans h'.reopened⟩
  · rw [← h'.word, ← h.word]
    cases a <;> simp [Addr.up, Nat.add_assoc]
  · have := h'.next
    rw [Nat.add_assoc, h.tab (r' + t) (by omega), h'.tab t ht]
    cases e : (m1.tab t).newT <;> simp [Tab.up, e, Nat.add_assoc]
  · rw [h.next, h'.next, Nat.add_assoc]
  · rw [h.root, h'.root, Nat.add_assoc]

end PMap
