import Verif.Par.Inv

/-!
# What the functions of the map guarantee when other threads interfere (proof machinery)
-/

namespace PMap

open Prog

variable {A : Word → Word → Prop} {m m' m'' : Mem} {t i : Nat} {α β σ : Type} {M : Prop}

/-- From a memory with the invariant to another one. -/
structure Go (A : Word → Word → Prop) (m m' : Mem) : Prop where
  src : PInv A m
  inv : PInv A m'
  evo : Evo A m m'

theorem Go.refl (h : PInv A m) : Go A m m := ⟨h, h, .refl m⟩
theorem Go.trans (h1 : Go A m m') (h2 : Go A m' m'') : Go A m m'' :=
  ⟨h1.src, h2.inv, h1.evo.trans h1.inv h1.src.root h2.evo⟩
theorem Go.has (h : Go A m m') (hx : Has m t i) : Has m' t i := h.evo.has hx
theorem Go.lt (h : Go A m m') (hx : t < m.next) : t < m'.next := lt_of_lt_of_le hx h.evo.next
theorem Go.newT (h : Go A m m') {n : Nat} (hx : t < m.next) (hn : (m.tab t).newT = some n) :
    (m'.tab t).newT = some n := h.evo.newT t n hx hn
theorem Env.go (h : Env A m m') (hm : PInv A m) : Go A m m' := ⟨hm, (h hm).1, (h hm).2⟩

/-- The slot holds key `k`. -/
def KeyAt (m : Mem) (t i : Nat) (k : Word) : Prop := Has m t i ∧ pk m t i = k ∧ k ≠ KINITIAL
theorem Go.keyAt (h : Go A m m') {k : Word} (hk : KeyAt m t i k) : KeyAt m' t i k :=
  ⟨h.has hk.1, by rw [h.evo.key t i hk.1 (by rw [hk.2.1]; exact hk.2.2)]; exact hk.2.1, hk.2.2⟩

/-- A table that has a successor. -/
def Linked (m : Mem) (t n : Nat) : Prop := t < m.next ∧ (m.tab t).newT = some n
theorem Go.linked (h : Go A m m') {n : Nat} (hl : Linked m t n) : Linked m' t n :=
  ⟨h.lt hl.1, h.newT hl.1 hl.2⟩
theorem Linked.lt (h : PInv A m) {n : Nat} (hl : Linked m t n) : n < m.next := (h.newT _ _ hl.1 hl.2).2.1

theorem Linked.double (h : PInv A m) {n : Nat} (hl : Linked m t n) :
    0 < (m.tab t).len ∧ (m.tab n).len = 2 * (m.tab t).len :=
  ⟨by obtain ⟨p, _, hp⟩ := h.pow t hl.1; rw [hp]; exact Nat.two_pow_pos p, (h.newT _ _ hl.1 hl.2).2.2⟩

theorem p_read {a : Act} {Q : a.Resp → Mem → Prop} (hm : PInv A m)
    (h : ∀ m1, Go A m m1 → ∃ r, a.exec m1 = some (r, m1) ∧ Q r m1) (hf : a.fails = false := by rfl) :
    wp (pRG A M) Q (do1 a) m :=
  wp_read (fun m1 h1 _ => h m1 (Env.go h1 hm)) hf

theorem p_write {a : Act} {Q : a.Resp → Mem → Prop} (hm : PInv A m)
    (h : ∀ m1, Go A m m1 → ∃ r m2, a.exec m1 = some (r, m2) ∧ Env A m1 m2 ∧ RootStep m1 m2 ∧ (Go A m m2 → Q r m2))
    (hf : a.fails = true → M := by exact fun h => by cases h) : wp (pRG A M) Q (do1 a) m := by
  refine wp_write (fun m1 h1 _ => ?_) fun e _ => .inl (hf e)
  have g := Env.go h1 hm
  obtain ⟨r, m2, e, h2, h3, h4⟩ := h m1 g
  have g2 := Env.go h2 g.inv
  exact ⟨r, m2, e, g2.inv, ⟨h2, h3⟩, h4 (g.trans g2)⟩

/-- Binding, with the knowledge gathered so far. -/
theorem p_bind {P : α → Mem → Prop} {Q : β → Mem → Prop} {p : Prog α} {f : α → Prog β}
    (h : wp (pRG A M) (fun a m' => Go A m m' ∧ P a m') p m)
    (hf : ∀ a m', Go A m m' → P a m' → wp (pRG A M) Q (f a) m') : wp (pRG A M) Q (p >>= f) m :=
  wp_bind' (wp_mono h fun a m' h => hf a m' h.1 h.2)

/-! ## Plain actions -/

theorem p_check (hm : PInv A m) {b : Bool} (hb : b = true ∨ M) :
    wp (pRG A M) (fun _ m' => Go A m m' ∧ True) (check b) m :=
  p_write hm (fun _ g => ⟨(), _, rfl, set_failed g.inv _, .inl rfl, fun g => ⟨g, trivial⟩⟩)
    fun h => hb.resolve_left fun e => by rw [e] at h; cases h

theorem Go.grown (g : Go A m m') (h : Grown m) : Grown m' := by
  obtain ⟨t, ht, hn⟩ := h
  obtain ⟨x, hx⟩ := Option.ne_none_iff_exists'.mp hn
  exact ⟨t, g.lt ht, by rw [g.evo.newT t x ht hx]; simp⟩

theorem Linked.grown {n : Nat} (hl : Linked m t n) : Grown m := ⟨t, hl.1, by rw [hl.2]; simp⟩

/-- An assertion that may fail once a table has a successor, if somebody asked for the absent marker to be stored. -/
theorem p_checkNew (hm : PInv A m) {b : Bool} (hb : b = true ∨ (Grown m ∧ ∃ k, A k VINITIAL)) :
    wp (pRG A M) (fun _ m' => Go A m m' ∧ True) (check b) m := by
  intro m1 h1 hm1
  have g := Env.go h1 hm
  have h2 : Env A m1 { m1 with failed := m1.failed || !b } := set_failed g.inv _
  have g2 := Env.go h2 g.inv
  refine ⟨(), _, rfl, g2.inv, ⟨h2, .inl rfl⟩, fun e => .inl (.inr ?_), g.trans g2, trivial⟩
  obtain ⟨h3, h4⟩ := hb.resolve_left fun e' => by rw [e'] at e; cases e
  exact ⟨g2.grown (g.grown h3), h4⟩

/-- The assertion before the counter of migrated slots is changed. -/
theorem p_checkCount (hm : PInv A m) {n : Nat} (hl : Linked m t n) {b : Bool} {w : Nat} {Q : α → Mem → Prop} {f : Unit → Prog α}
    (hb : b = false → (m.tab t).len < (m.tab t).copyDone + w)
    (hf : w = 0 ∨ ∃ k, f () = .act (.addDone t w) k)
    (h : ∀ m', Go A m m' → wp (pRG A M) Q (f ()) m') : wp (pRG A M) Q (check b >>= f) m := by
  intro m1 h1 hm1
  have ht := hl.1
  have g := Env.go h1 hm
  have h2 : Env A m1 { m1 with failed := m1.failed || !b } := set_failed g.inv _
  have g2 := Env.go h2 g.inv
  refine ⟨(), _, rfl, g2.inv, ⟨h2, .inl rfl⟩, fun e => .inr ⟨t, w, g.lt ht, ?_, ?_, ?_⟩, h _ (g.trans g2)⟩
  · rw [show (_ : Tab).newT = (m1.tab t).newT from rfl, (g.linked hl).2]; simp
  · have hb' : b = false := by simpa [Act.fails] using e
    have := hb hb'
    have h3 := g.evo.len t ht
    have h4 := g.evo.done t ht
    show (m1.tab t).len < (m1.tab t).copyDone + w
    omega
  · exact hf

theorem p_len (hm : PInv A m) (ht : t < m.next) :
    wp (pRG A M) (fun l m' => Go A m m' ∧ l = (m.tab t).len) (do1 (.len t)) m :=
  p_read hm fun m1 g => ⟨(m1.tab t).len, by simp only [Act.exec, if_pos (g.lt ht)], g, g.evo.len t ht⟩

theorem p_getNew (hm : PInv A m) (ht : t < m.next) :
    wp (pRG A M) (fun o m' => Go A m m' ∧ o = (m'.tab t).newT) (do1 (.getNew t)) m :=
  p_read hm fun m1 g => ⟨(m1.tab t).newT, by simp only [Act.exec, if_pos (g.lt ht)], g, rfl⟩

theorem p_getRoot (hm : PInv A m) : wp (pRG A M) (fun r m' => Go A m m' ∧ r < m'.next) (do1 .getRoot) m :=
  p_read hm fun m1 g => ⟨m1.root, rfl, g, g.inv.root⟩

theorem p_getSize (hm : PInv A m) (ht : t < m.next) :
    wp (pRG A M) (fun _ m' => Go A m m' ∧ True) (do1 (.getSize t)) m :=
  p_read hm fun m1 g => ⟨(m1.tab t).size, by simp only [Act.exec, if_pos (g.lt ht)], g, trivial⟩

theorem p_getSlots (hm : PInv A m) (ht : t < m.next) :
    wp (pRG A M) (fun _ m' => Go A m m' ∧ True) (do1 (.getSlots t)) m :=
  p_read hm fun m1 g => ⟨(m1.tab t).slots, by simp only [Act.exec, if_pos (g.lt ht)], g, trivial⟩

theorem p_getDone (hm : PInv A m) (ht : t < m.next) :
    wp (pRG A M) (fun d m' => Go A m m' ∧ d ≤ (m'.tab t).copyDone) (do1 (.getDone t)) m :=
  p_read hm fun m1 g => ⟨(m1.tab t).copyDone, by simp only [Act.exec, if_pos (g.lt ht)], g, le_refl _⟩

theorem p_getIdx (hm : PInv A m) (ht : t < m.next) :
    wp (pRG A M) (fun _ m' => Go A m m' ∧ True) (do1 (.getIdx t)) m :=
  p_read hm fun m1 g => ⟨(m1.tab t).copyIdx, by simp only [Act.exec, if_pos (g.lt ht)], g, trivial⟩

theorem p_addSize (hm : PInv A m) (ht : t < m.next) (d : Word) :
    wp (pRG A M) (fun _ m' => Go A m m' ∧ True) (do1 (.addSize t d)) m :=
  p_write hm fun m1 g => ⟨(), { m1 with tab := upd m1.tab t { m1.tab t with size := (m1.tab t).size + d } },
    by simp only [Act.exec, if_pos (g.lt ht)],
    set_tab g.inv rfl (.inl rfl) (le_refl _), .inl rfl, fun g => ⟨g, trivial⟩⟩

theorem p_incSlots (hm : PInv A m) (ht : t < m.next) :
    wp (pRG A M) (fun _ m' => Go A m m' ∧ True) (do1 (.incSlots t)) m :=
  p_write hm fun m1 g => ⟨(), { m1 with tab := upd m1.tab t { m1.tab t with slots := (m1.tab t).slots + 1 } },
    by simp only [Act.exec, if_pos (g.lt ht)],
    set_tab g.inv rfl (.inl rfl) (le_refl _), .inl rfl, fun g => ⟨g, trivial⟩⟩

theorem p_addDone (hm : PInv A m) (ht : t < m.next) (d : Nat) :
    wp (pRG A M) (fun _ m' => Go A m m' ∧ (m.tab t).copyDone + d ≤ (m'.tab t).copyDone) (do1 (.addDone t d)) m :=
  p_write hm fun m1 g => ⟨(), { m1 with tab := upd m1.tab t { m1.tab t with copyDone := (m1.tab t).copyDone + d } },
    by simp only [Act.exec, if_pos (g.lt ht)],
    set_tab g.inv rfl (.inl rfl) (Nat.le_add_right _ _), .inl rfl,
    fun g2 => ⟨g2, by simp only [upd, if_true]; have := g.evo.done t ht; omega⟩⟩

theorem p_casIdx (hm : PInv A m) (ht : t < m.next) (e n : Nat) :
    wp (pRG A M) (fun _ m' => Go A m m' ∧ True) (do1 (.casIdx t e n)) m := by
  refine p_write hm fun m1 g => ?_
  by_cases h : (m1.tab t).copyIdx = e
  · exact ⟨(true, e), { m1 with tab := upd m1.tab t { m1.tab t with copyIdx := n } },
      by simp only [Act.exec, if_pos (g.lt ht), if_pos h],
      set_tab g.inv rfl (.inl rfl) (le_refl _), .inl rfl, fun g => ⟨g, trivial⟩⟩
  · exact ⟨(false, (m1.tab t).copyIdx), m1, by simp only [Act.exec, if_pos (g.lt ht), if_neg h],
      fun hm => ⟨hm, .refl _⟩, .inl rfl, fun g => ⟨g, trivial⟩⟩

theorem p_casRoot (hm : PInv A m) {n : Nat} (hl : Linked m t n) (hd : (m.tab t).len ≤ (m.tab t).copyDone) :
    wp (pRG A M) (fun _ m' => Go A m m' ∧ True) (do1 (.casRoot t n)) m := by
  refine p_write hm fun m1 g => ?_
  by_cases h : m1.root = t
  · have hl1 := g.linked hl
    have hd1 := g.evo.done t hl.1
    have hlen := g.evo.len t hl.1
    exact ⟨true, { m1 with root := n }, by simp only [Act.exec, if_pos h], set_root g.inv (by rw [h]; exact hl1.2),
      .inr ⟨by rw [h]; exact hl1.2, by rw [h]; omega⟩, fun g => ⟨g, trivial⟩⟩
  · exact ⟨false, m1, by simp only [Act.exec, if_neg h], fun hm => ⟨hm, .refl _⟩, .inl rfl, fun g => ⟨g, trivial⟩⟩

/-! ## Persistence protocol -/

/-- The slot an address lies in exists. -/
@[reducible] def HasA (m : Mem) (a : Addr) : Prop := Has m a.tab a.idx

theorem exec_load {a : Addr} (hx : HasA m a) : (Act.load a).exec m = some (m.word a, m) := if_pos hx
theorem exec_flush {a : Addr} (hx : HasA m a) :
    (Act.flush a).exec m = some ((), { m with nv := writeBack m a.tab a.idx }) := if_pos hx
theorem exec_cas_ok {a : Addr} {e n : Word} (hx : HasA m a) (h : m.word a = e) :
    (Act.cas a e n).exec m = some ((true, e), { m with word := setWord m.word a n }) :=
  (if_pos hx).trans (if_pos h)
theorem exec_cas_no {a : Addr} {e n : Word} (hx : HasA m a) (h : m.word a ≠ e) :
    (Act.cas a e n).exec m = some ((false, m.word a), m) :=
  (if_pos hx).trans (if_neg h)

theorem p_load (hm : PInv A m) {a : Addr} (hx : HasA m a) :
    wp (pRG A M) (fun w m' => Go A m m' ∧ w = m'.word a) (do1 (.load a)) m :=
  p_read hm fun m1 g => ⟨m1.word a, exec_load (g.has hx), g, rfl⟩

theorem p_flush (hm : PInv A m) {a : Addr} (hx : HasA m a) :
    wp (pRG A M) (fun _ m' => Go A m m' ∧ True) (do1 (.flush a)) m :=
  p_write hm fun _ g => ⟨(), _, exec_flush (g.has hx), set_nv g.inv _ _, .inl rfl,
    fun g => ⟨g, trivial⟩⟩

theorem p_fence (hm : PInv A m) : wp (pRG A M) (fun _ m' => Go A m m' ∧ True) (do1 .fence) m :=
  p_read hm fun _ g => ⟨(), rfl, g, trivial⟩

/-- The value word is settled. -/
def Quiet (A : Word → Word → Prop) (m : Mem) : Addr → Prop
  | .key _ _ => True
  | .val t i => DV A m t i

theorem clean_ne_dirtyVI {w : Word} : clean w ≠ dirty VINITIAL := by
  intro e
  have := isDirty_clean w
  rw [e] at this
  exact absurd this (by decide)

theorem p_persist (hm : PInv A m) {a : Addr} (hx : HasA m a) {w : Word} :
    wp (pRG A M) (fun _ m' => Go A m m' ∧ (w = dirty VINITIAL → Quiet A m' a)) (persist a w) m := by
  refine p_bind (p_flush hm hx) fun _ m1 g1 _ => ?_
  refine p_bind (p_fence g1.inv) fun _ m2 g2 _ => ?_
  have g12 := g1.trans g2
  refine p_bind (P := fun _ m' => w = dirty VINITIAL → Quiet A m' a) ?_
    fun _ m3 g3 hs => wp_pure ⟨g12.trans g3, hs⟩
  refine p_write g2.inv fun m3 g3 => ?_
  have hx3 : Has m3 a.tab a.idx := (g12.trans g3).has hx
  by_cases h : m3.word a = w
  · refine ⟨(true, w), _, exec_cas_ok hx3 h, ?_, .inl rfl, fun g => ⟨g, ?_⟩⟩
    · cases a with
      | key t i => exact set_key g3.inv hx3 (.inl (by rw [← h, show clearMark _ _ = clean _ from rfl, clean_clean]; rfl))
      | val t i =>
        exact set_val g3.inv hx3 (.inl ⟨by rw [← h, show clearMark _ _ = clean _ from rfl, clean_clean]; rfl,
          fun e => absurd e clean_ne_dirtyVI⟩)
    · intro _
      cases a with
      | key t i => trivial
      | val t i => left; simp only [setWord, if_true]; exact clean_ne_dirtyVI
  · refine ⟨(false, m3.word a), m3, exec_cas_no hx3 h, fun h => ⟨h, .refl _⟩, .inl rfl,
      fun g => ⟨g, ?_⟩⟩
    intro e
    cases a with
    | key t i => trivial
    | val t i => left; rw [← e]; exact h

/-- A read returns what the word was, without the dirty bit, at some point during the read. -/
theorem p_pcasRead (hm : PInv A m) {a : Addr} (hx : HasA m a) :
    wp (pRG A M) (fun w m' => Go A m m' ∧ ((∃ m0, Go A m m0 ∧ Go A m0 m' ∧ w = clean (m0.word a)) ∧ Quiet A m' a))
      (pcasRead a) m := by
  refine p_bind (p_load hm hx) fun w m1 g1 hw => ?_
  have hx1 : HasA m1 a := g1.has hx
  by_cases hd : isDirty w = true
  · simp only [hd, if_true]
    refine p_bind (p_persist g1.inv hx1 (w := w)) fun _ m2 g2 hs => wp_pure ⟨g1.trans g2, ⟨m1, g1, g2, by rw [hw]⟩, ?_⟩
    by_cases e : w = dirty VINITIAL
    · exact hs e
    · cases a with
      | key t i => trivial
      | val t i => exact g2.evo.dv t i hx1 (.inl (by rw [← hw]; exact e))
  · simp only [hd]
    refine wp_pure ⟨g1, ⟨m1, g1, .refl g1.inv, by rw [hw]⟩, ?_⟩
    cases a with
    | key t i => trivial
    | val t i =>
      left; rw [← hw]; intro e; rw [e] at hd; exact hd (by decide)

/-- What a CAS reports: success with the expected word, or failure with the word it met. -/
theorem p_pcas (hm : PInv A m) {a : Addr} (hx : HasA m a) {o n : Word} {S : Mem → Prop}
    (hS : ∀ m1 m2, Go A m1 m2 → HasA m1 a → S m1 → S m2)
    (hw : ∀ m1, Go A m m1 → m1.word a = o → Env A m1 { m1 with word := setWord m1.word a (dirty n) } ∧
      S { m1 with word := setWord m1.word a (dirty n) }) :
    wp (pRG A M) (fun r m' => Go A m m' ∧
      ((r.2 = o ∧ S m') ∨ (r.2 ≠ o ∧ ∃ m0, Go A m m0 ∧ Go A m0 m' ∧ Quiet A m0 a ∧ r.2 = m0.word a))) (pcas a o n) m := by
  refine p_bind (p_pcasRead hm hx) fun _ m1 g1 hs => ?_
  have hx1 : HasA m1 a := g1.has hx
  refine p_bind (P := fun r m' => (r.1 = true ∧ r.2 = o ∧ S m') ∨ (r.1 = false ∧ r.2 ≠ o ∧ ∃ m0, Go A m m0 ∧ Go A m0 m' ∧ Quiet A m0 a ∧ r.2 = m0.word a))
    ?_ fun r m2 g2 h => ?_
  · refine p_write g1.inv fun m2 g2 => ?_
    have hx2 : HasA m2 a := g2.has hx1
    by_cases h : m2.word a = o
    · obtain ⟨h1, h2⟩ := hw m2 (g1.trans g2) h
      exact ⟨(true, o), _, exec_cas_ok hx2 h, h1, .inl rfl, fun g => ⟨g, .inl ⟨rfl, rfl, h2⟩⟩⟩
    · refine ⟨(false, m2.word a), m2, exec_cas_no hx2 h, fun h => ⟨h, .refl _⟩, .inl rfl,
        fun g => ⟨g, .inr ⟨rfl, h, m2, g1.trans g2, .refl g2.inv, ?_, rfl⟩⟩⟩
      cases a with
      | key t i => trivial
      | val t i => exact g2.evo.dv t i hx1 hs.2
  · refine p_bind (p_check g2.inv (.inl ?_)) fun _ m3 g3 _ => wp_pure ⟨(g1.trans g2).trans g3, ?_⟩
    · rcases h with ⟨e1, e2, _⟩ | ⟨e1, e2, _⟩
      · simp [e1, e2]
      · simp [e1, Ne.symm e2]
    rcases h with ⟨-, h, hs⟩ | ⟨-, h, m0, h1, h2, h3⟩
    · exact .inl ⟨h, hS m2 m3 g3 (g2.has hx1) hs⟩
    · exact .inr ⟨h, m0, h1, h2.trans g3, h3⟩

/-! ## Keys and values -/

/-- A read key. -/
theorem p_tableKey (hm : PInv A m) (hx : Has m t i) :
    wp (pRG A M) (fun K m' => Go A m m' ∧ (K ≠ KINITIAL → KeyAt m' t i K)) (tableKey t i) m := by
  refine wp_mono (p_pcasRead (a := .key t i) hm hx) ?_
  rintro K m' ⟨g, ⟨m0, g0, g1, hK⟩, _⟩
  refine ⟨g, fun hne => g1.keyAt ⟨g0.has hx, ?_, hne⟩⟩
  rw [hK]; rfl

/-- What is known of a word `V` met in slot `i`: it fits the key, and a migration mark stays. -/
structure ValAt (A : Word → Word → Prop) (m : Mem) (t i : Nat) (V : Word) : Prop where
  ok : clean V = VINITIAL ∨ (pk m t i ≠ KINITIAL ∧ ValOK A (pk m t i) (clean V))
  mig : isMig V = true → isMig (pv m t i) = true
  has : Has m t i

theorem Go.valAt (h : Go A m m') {V : Word} (hv : ValAt A m t i V) : ValAt A m' t i V := by
  refine ⟨?_, fun e => h.evo.mig t i hv.has (hv.mig e), h.has hv.has⟩
  rcases hv.ok with h1 | ⟨h1, h2⟩
  · exact .inl h1
  · right; rw [h.evo.key t i hv.has h1]; exact ⟨h1, h2⟩

theorem valAt_word (hm : PInv A m) (hx : Has m t i) : ValAt A m t i (m.word (.val t i)) := by
  refine ⟨?_, fun h => by rw [pv, isMig_clean]; exact h, hx⟩
  have hp := hm.pair t i hx
  by_cases e : pk m t i = KINITIAL
  · exact .inl (hp.1 e)
  · exact .inr ⟨e, hp.2⟩

theorem ValAt.clean {V : Word} (h : ValAt A m t i V) : ValAt A m t i (clean V) :=
  ⟨by rw [clean_clean]; exact h.ok, fun e => h.mig (by rw [isMig_clean] at e; exact e), h.has⟩

theorem ValAt.valOK {V K : Word} (h : ValAt A m t i V) (hk : KeyAt m t i K) : ValOK A K (PMap.clean V) := by
  rcases h.ok with h1 | ⟨_, h2⟩
  · rw [h1]; exact .init
  · rw [← hk.2.1]; exact h2

theorem p_tableValue (hm : PInv A m) (hx : Has m t i) :
    wp (pRG A M) (fun V m' => Go A m m' ∧ (ValAt A m' t i V ∧ PMap.clean V = V ∧ DV A m' t i ∧
      ∃ m0, Go A m m0 ∧ Go A m0 m' ∧ V = pv m0 t i)) (tableValue t i) m := by
  refine wp_mono (p_pcasRead (a := .val t i) hm hx) ?_
  rintro V m' ⟨g, ⟨m0, g0, g1, hV⟩, hs⟩
  refine ⟨g, ?_, by rw [hV, clean_clean], hs, m0, g0, g1, hV⟩
  rw [hV]
  exact (g1.valAt (valAt_word g0.inv (g0.has hx))).clean

/-- Claiming an empty slot. -/
theorem p_casKey (hm : PInv A m) (hx : Has m t i) {key : Word} (hk : clean key = key) (hne : key ≠ KINITIAL) :
    wp (pRG A M) (fun r m' => Go A m m' ∧ ((r = KINITIAL ∨ r = key) → KeyAt m' t i key)) (casKey t i KINITIAL key) m := by
  refine p_bind (p_pcas (a := .key t i) (S := fun m' => KeyAt m' t i key) hm hx (fun m1 m2 g _ h => g.keyAt h) ?_)
    fun r m1 g h => wp_pure ⟨g, ?_⟩
  · intro m1 g h
    have hx1 := g.has hx
    have he : pk m1 t i = KINITIAL := by rw [pk, h, clean_KI]
    exact ⟨set_key g.inv hx1 (.inr ⟨he, by rw [clean_dirty, hk]; exact hne⟩), hx1, by
      rw [pk_setKey]; simp [clean_dirty, hk], hne⟩
  · rcases h with ⟨_, h⟩ | ⟨h, m0, g0, g1, _, hr⟩
    · exact fun _ => h
    · rintro (e | e)
      · exact absurd e h
      · refine g1.keyAt ⟨g0.has hx, ?_, hne⟩
        rw [pk, ← hr, e, hk]

/-- What a value CAS leaves behind. -/
theorem p_casVal (hm : PInv A m) {K : Word} (hk : KeyAt m t i K) {o n : Word} (hn : ValOK A K (clean n))
    (hmig : isMig n = true → (m.tab t).newT ≠ none) (hom : isMig o = true → clean n = TOMBPRIME)
    (hvi : clean n = VINITIAL → A K VINITIAL) :
    wp (pRG A M) (fun r m' => Go A m m' ∧ ((r.2 = o ∧ ValAt A m' t i n) ∨ (r.2 ≠ o ∧ ValAt A m' t i r.2 ∧
        (r.2 = dirty VINITIAL → A K VINITIAL)))) (pcas (.val t i) o n) m := by
  refine wp_mono (p_pcas (a := .val t i) (S := fun m' => ValAt A m' t i n) hm hk.1 (fun m1 m2 g _ h => g.valAt h) ?_) ?_
  · intro m1 g h
    have hk1 := g.keyAt hk
    have hnt : isMig n = true → (m1.tab t).newT ≠ none := by
      intro e
      cases hs : (m.tab t).newT with
      | none => exact absurd hs (hmig e)
      | some n => rw [g.newT hk.1.1 hs]; simp
    refine ⟨set_val g.inv hk1.1 (.inr ⟨by rw [hk1.2.1]; exact hk1.2.2, by rw [hk1.2.1, clean_dirty]; exact hn, ?_, ?_, ?_⟩), ?_⟩
    · rw [isMig_dirty]; exact hnt
    · intro e; rw [clean_dirty]; rw [pv, h, isMig_clean] at e; exact hom e
    · rw [clean_dirty, hk1.2.1]; exact hvi
    · refine ⟨.inr ?_, ?_, hk1.1⟩
      · rw [pk_setVal, hk1.2.1]; exact ⟨hk1.2.2, hn⟩
      · rw [pv_setVal]; simp [clean_dirty, isMig_clean]
  · rintro r m' ⟨g, h | ⟨h, m0, g0, g1, hs, hr⟩⟩
    · exact ⟨g, .inl h⟩
    · refine ⟨g, .inr ⟨h, ?_, ?_⟩⟩
      · rw [hr]; exact g1.valAt (valAt_word g0.inv (g0.has hk.1))
      · intro e
        have hk0 := g0.keyAt hk
        rcases hs with hs | ⟨_, hs⟩
        · exact absurd (hr ▸ e) hs
        · rw [hk0.2.1] at hs; exact hs

/-! ## Growth -/

theorem p_alloc (hm : PInv A m) {l : Nat} (hl : ∃ p, l = 2 ^ p) (sz : Word) :
    wp (pRG A M) (fun o m' => Go A m m' ∧ ∀ n, o = some n → m.next ≤ n ∧ n < m'.next ∧ (m'.tab n).len = l)
      (do1 (.alloc l sz)) m := by
  refine p_write hm fun m1 g => ?_
  by_cases h : l ≤ m1.cap
  · refine ⟨some m1.next, allocMem m1 l sz, by simp only [Act.exec]; rw [if_pos h], set_alloc g.inv hl h, .inl rfl,
      fun g2 => ⟨g2, ?_⟩⟩
    rintro n ⟨⟩
    exact ⟨g.evo.next, Nat.lt_succ_self _, by simp [upd, freshTab]⟩
  · exact ⟨none, m1, by simp only [Act.exec]; rw [if_neg h], fun h => ⟨h, .refl _⟩, .inl rfl, fun g2 => ⟨g2, by simp⟩⟩

theorem p_casNew (hm : PInv A m) {n : Nat} (ht : t < m.next) (hn : t < n) (hn' : n < m.next)
    (hl : (m.tab n).len = 2 * (m.tab t).len) :
    wp (pRG A M) (fun ok m' => Go A m m' ∧ if ok then Linked m' t n else ∃ n', Linked m' t n') (do1 (.casNew t n)) m := by
  refine p_write hm fun m1 g => ?_
  have ht1 := g.lt ht
  have hl1 : (m1.tab n).len = 2 * (m1.tab t).len := by rw [g.evo.len n hn', g.evo.len t ht]; exact hl
  cases h : (m1.tab t).newT with
  | none =>
    refine ⟨true, { m1 with tab := upd m1.tab t { m1.tab t with newT := some n } },
      by simp only [Act.exec]; rw [if_pos ht1, if_pos h],
      set_tab g.inv rfl (.inr ⟨h, n, rfl, hn, g.lt hn', hl1⟩) (le_refl _), .inl rfl, fun g2 => ⟨g2, ?_⟩⟩
    simp only [if_true]
    exact ⟨g2.lt ht, by simp [upd]⟩
  | some n' =>
    refine ⟨false, m1, by simp only [Act.exec]; rw [if_pos ht1, if_neg (by rw [h]; simp)], fun h => ⟨h, .refl _⟩, .inl rfl,
      fun g2 => ⟨g2, ?_⟩⟩
    simp only [Bool.false_eq_true, if_false]
    exact ⟨n', ht1, h⟩

theorem p_resize (hm : PInv A m) (ht : t < m.next) :
    wp (pRG A M) (fun n m' => Go A m m' ∧ Linked m' t n) (resize t) m := by
  unfold resize
  refine p_bind (p_getNew hm ht) fun o m1 g1 ho => ?_
  have ht1 := g1.lt ht
  cases o with
  | some n =>
    have hl : Linked m1 t n := ⟨ht1, ho.symm⟩
    have hlen := hl.double g1.inv
    refine p_bind (p_len g1.inv (hl.lt g1.inv)) fun (ln : Nat) m2 g2 (hln : ln = (m1.tab n).len) => ?_
    refine p_bind (p_len g2.inv (g2.lt ht1)) fun (lo : Nat) m3 g3 (hlo : lo = (m2.tab t).len) => ?_
    rw [g2.evo.len t ht1] at hlo
    have hlt : lo < ln := by omega
    refine p_bind (p_check g3.inv (.inl (decide_eq_true hlt))) fun _ m4 g4 _ => ?_
    have g := (g2.trans g3).trans g4
    exact wp_pure ⟨g1.trans g, g.linked hl⟩
  | none =>
    refine p_bind (p_len g1.inv ht1) fun (l : Nat) m2 g2 (hl0 : l = (m1.tab t).len) => ?_
    have ht2 := g2.lt ht1
    refine p_bind (p_getSize g2.inv ht2) fun sz m3 g3 _ => ?_
    have ht3 := g3.lt ht2
    refine p_bind (p_getNew g3.inv ht3) fun o m4 g4 ho => ?_
    have ht4 := g4.lt ht3
    have g14 := (g2.trans g3).trans g4
    cases o with
    | some n =>
      have hl : Linked m4 t n := ⟨ht4, ho.symm⟩
      have hlen := hl.double g4.inv
      have hl4 : (m4.tab t).len = l := by rw [g14.evo.len t ht1, hl0]
      refine p_bind (p_len g4.inv (hl.lt g4.inv)) fun (ln : Nat) m5 g5 (hln : ln = (m4.tab n).len) => ?_
      have hlt : l < ln := by omega
      refine p_bind (p_check g5.inv (.inl (decide_eq_true hlt))) fun _ m6 g6 _ => ?_
      have g := g5.trans g6
      exact wp_pure ⟨(g1.trans g14).trans g, g.linked hl⟩
    | none =>
      have hl4 : (m4.tab t).len = l := by rw [g14.evo.len t ht1, hl0]
      have hpow : ∃ p, newLen l sz = 2 ^ p := by
        obtain ⟨p, _, hp⟩ := g1.inv.pow t ht1
        exact ⟨p + 1, by rw [newLen_double, hl0, hp]; ring⟩
      refine p_bind (p_alloc g4.inv hpow sz) fun a m5 g5 ha => ?_
      have ht5 := g5.lt ht4
      have g15 := g14.trans g5
      cases a with
      | none => exact wp_threw
      | some n =>
        obtain ⟨h1, h2, h3⟩ := ha n rfl
        refine p_bind (p_casNew g5.inv ht5 (lt_of_lt_of_le ht4 h1) h2
          (by rw [h3, newLen_double, g5.evo.len t ht4, hl4, Nat.mul_comm])) fun ok m6 g6 hok => ?_
        have ht6 := g6.lt ht5
        have g16 := g15.trans g6
        cases ok with
        | true =>
          simp only [if_true] at hok ⊢
          have hlen := hok.double g6.inv
          have hl6 := (g5.trans g6).evo.len t ht4
          refine p_bind (p_len g6.inv (hok.lt g6.inv)) fun (ln : Nat) m7 g7 (hln : ln = (m6.tab n).len) => ?_
          have hlt : l < ln := by omega
          refine p_bind (p_check g7.inv (.inl (decide_eq_true hlt))) fun _ m8 g8 _ => ?_
          have g := g7.trans g8
          exact wp_pure ⟨(g1.trans g16).trans g, g.linked hok⟩
        | false =>
          simp only [Bool.false_eq_true, if_false] at hok ⊢
          obtain ⟨n', hn'⟩ := hok
          refine p_bind (p_getNew g6.inv ht6) fun o m7 g7 ho => ?_
          have hl7 := g7.linked hn'
          rw [hl7.2] at ho
          subst ho
          have hlen := hl7.double g7.inv
          have hl6 := ((g5.trans g6).trans g7).evo.len t ht4
          refine p_bind (p_len g7.inv (hl7.lt g7.inv)) fun (ln : Nat) m8 g8 (hln : ln = (m7.tab n').len) => ?_
          have hlt : l < ln := by omega
          refine p_bind (p_check g8.inv (.inl (decide_eq_true hlt))) fun _ m9 g9 _ => ?_
          have g := g8.trans g9
          exact wp_pure ⟨((g1.trans g16).trans g7).trans g, g.linked hl7⟩

theorem p_promote (hm : PInv A m) {n : Nat} (hl : Linked m t n) (wd : Nat) :
    wp (pRG A M) (fun _ m' => Go A m m' ∧ True) (copyCheckAndPromote t wd) m := by
  unfold copyCheckAndPromote
  refine p_bind (p_len hm hl.1) fun (l : Nat) m1 g1 (hlen : l = (m.tab t).len) => ?_
  refine p_bind (p_getDone g1.inv (g1.lt hl.1)) fun (d : Nat) m2 g2 (hd : d ≤ (m2.tab t).copyDone) => ?_
  have hcf : decide (d + wd ≤ l) = false → (m2.tab t).len < (m2.tab t).copyDone + wd := by
    intro e
    have := (g1.trans g2).evo.len t hl.1
    simp only [decide_eq_false_iff_not] at e
    omega
  refine p_checkCount g2.inv ((g1.trans g2).linked hl) hcf ?_ fun m3 g3 => ?_
  · rcases Nat.eq_zero_or_pos wd with e | e
    · exact .inl e
    · right; dsimp only; rw [if_pos e]; exact ⟨_, rfl⟩
  have g13 := (g1.trans g2).trans g3
  have ht3 := g13.lt hl.1
  have hd3 : (d : Nat) ≤ (m3.tab t).copyDone := le_trans hd (g3.evo.done t (g2.lt (g1.lt hl.1)))
  have hc : ∀ m4, Go A m3 m4 → d + wd ≤ (m4.tab t).copyDone →
      wp (pRG A M) (fun _ m' => Go A m m' ∧ True) (if d + wd = l then do
        let nt ← do1 (Act.getNew t)
        match nt with
          | none => halt Halt.ub
          | some n => do
            let _ ← do1 (Act.casRoot t n)
            pure ()
      else pure ()) m4 := by
    intro m4 g4 hd4
    have g := g13.trans g4
    split
    · next he =>
      refine p_bind (p_getNew g4.inv (g4.lt ht3)) fun o m5 g5 ho => ?_
      have hl5 := (g.trans g5).linked hl
      rw [hl5.2] at ho
      subst ho
      refine p_bind (p_casRoot g5.inv hl5 ?_) fun _ m6 g6 _ => wp_pure ⟨(g.trans g5).trans g6, trivial⟩
      have h1 := g5.evo.done t (g4.lt ht3)
      have h2 := (g.trans g5).evo.len t hl.1
      omega
    · exact wp_pure ⟨g, trivial⟩
  dsimp only
  split
  · refine p_bind (p_addDone g3.inv ht3 wd) fun _ m4 g4 h4 => hc m4 g4 (by omega)
  · exact hc m3 (.refl g3.inv) (by omega)

end PMap
