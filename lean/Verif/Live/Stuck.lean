import Verif.Lin
import Verif.Seq.Fuel

/-!
# Calls that wait for a thread that has stopped (proof machinery)

`swp J Q p`: from every memory with `J`, each action of `p` is defined and keeps `J`, and `p` ends (if it does) with a result
that has `Q`.  Nothing is assumed about what other threads do between two actions except that `J` holds.
-/

namespace PMap

open Prog

variable {α β σ : Type} {J : Mem → Prop}

/-- See the head of this file. -/
def swp (J : Mem → Prop) (Q : α → Prop) : Prog α → Prop
  | .ret a => Q a
  | .halt h => h = .fuel
  | .act a k => ∀ m, J m → ∃ r m2, a.exec m = some (r, m2) ∧ J m2 ∧ swp J Q (k r)

theorem swp_ret {Q : α → Prop} {a : α} (h : Q a) : swp J Q (.ret a) := h
theorem swp_pure {Q : α → Prop} {a : α} (h : Q a) : swp J Q (pure a) := h

theorem swp_mono {Q Q' : α → Prop} {p : Prog α} (h : swp J Q p) (hq : ∀ a, Q a → Q' a) : swp J Q' p := by
  induction p with
  | ret a => exact hq _ h
  | halt x => exact h
  | act a k ih =>
    intro m hm
    obtain ⟨r, m2, e, h2, h3⟩ := h m hm
    exact ⟨r, m2, e, h2, ih r h3⟩

theorem swp_bind {Q : β → Prop} {p : Prog α} {f : α → Prog β} (h : swp J (fun a => swp J Q (f a)) p) : swp J Q (p.bind f) := by
  induction p with
  | ret a => exact h
  | halt x => exact h
  | act a k ih =>
    intro m hm
    obtain ⟨r, m2, e, h2, h3⟩ := h m hm
    exact ⟨r, m2, e, h2, ih r h3⟩

theorem swp_bind' {Q : β → Prop} {p : Prog α} {f : α → Prog β} (h : swp J (fun a => swp J Q (f a)) p) : swp J Q (p >>= f) :=
  swp_bind h

theorem swp_loop {body : σ → Prog (Ctl σ α)} {Q : α → Prop} (I : σ → Prop)
    (hb : ∀ x, I x → swp J (fun c => match c with | .next x' => I x' | .done a => Q a) (body x)) (n : Nat) :
    ∀ x, I x → swp J Q (loop n body x) := by
  induction n with
  | zero => intro x _; exact rfl
  | succ n ih =>
    intro x hI
    refine swp_bind (swp_mono (hb x hI) ?_)
    rintro (x' | a) h
    · exact ih x' h
    · exact h

theorem swp_ite_bind {b : Prop} [Decidable b] {Q : β → Prop} {Q' : α → Prop} {p q : Prog α} {f : α → Prog β}
    (hf : ∀ a, Q' a → swp J Q (f a)) (hp : swp J Q' p) (hq : swp J Q' q) : swp J Q (if b then p >>= f else q >>= f) := by
  split
  · exact swp_bind' (swp_mono hp hf)
  · exact swp_bind' (swp_mono hq hf)

theorem swp_do {a : Act} {Q : a.Resp → Prop} (h : ∀ m, J m → ∃ r m2, a.exec m = some (r, m2) ∧ J m2 ∧ Q r) : swp J Q (do1 a) := h

/-! ## The memory in which nobody can go on -/

/-- Every slot of the table `r` has been migrated to the table `nt`, but not all of them have been counted, so that `r` is
still the current table (hashMap.hpp:121-148). -/
structure Stuck (r nt L : Nat) (m : Mem) : Prop where
  root : m.root = r
  lt : r < m.next
  ltn : nt < m.next
  len : (m.tab r).len = L
  newT : (m.tab r).newT = some nt
  done : (m.tab r).copyDone < L
  keys : ∀ i, i < L → clean (m.word (.key r i)) ≠ KINITIAL
  vals : ∀ i, i < L → clean (m.word (.val r i)) = TOMBPRIME

variable {r nt L : Nat}

theorem Stuck.congr {m m' : Mem} (h : Stuck r nt L m) (hw : ∀ a, clean (m'.word a) = clean (m.word a)) (h1 : m'.root = m.root)
    (h2 : m'.next = m.next) (h3 : (m'.tab r).len = (m.tab r).len) (h4 : (m'.tab r).newT = (m.tab r).newT)
    (h5 : (m'.tab r).copyDone = (m.tab r).copyDone) : Stuck r nt L m' where
  root := by rw [h1]; exact h.root
  lt := by rw [h2]; exact h.lt
  ltn := by rw [h2]; exact h.ltn
  len := by rw [h3]; exact h.len
  newT := by rw [h4]; exact h.newT
  done := by rw [h5]; exact h.done
  keys i hi := by rw [hw]; exact h.keys i hi
  vals i hi := by rw [hw]; exact h.vals i hi

theorem s_check {b : Bool} {Q : Unit → Prop} (h : Q ()) : swp (Stuck r nt L) Q (check b) :=
  swp_do fun _ hm => ⟨(), _, rfl, hm.congr (fun _ => rfl) rfl rfl rfl rfl rfl, h⟩

theorem s_getRoot {Q : Nat → Prop} (h : Q r) : swp (Stuck r nt L) Q (do1 .getRoot) :=
  swp_do fun m hm => ⟨m.root, m, rfl, hm, by rw [hm.root]; exact h⟩

theorem s_len {Q : Nat → Prop} (h : Q L) : swp (Stuck r nt L) Q (do1 (.len r)) :=
  swp_do fun m hm => ⟨L, m, by simp [Act.exec, hm.lt, hm.len], hm, h⟩

theorem s_lenNew {Q : Nat → Prop} (h : ∀ l, Q l) : swp (Stuck r nt L) Q (do1 (.len nt)) :=
  swp_do fun m hm => ⟨(m.tab nt).len, m, by simp [Act.exec, hm.ltn], hm, h _⟩

theorem s_getNew {Q : Option Nat → Prop} (h : Q (some nt)) : swp (Stuck r nt L) Q (do1 (.getNew r)) :=
  swp_do fun m hm => ⟨some nt, m, by simp [Act.exec, hm.lt, hm.newT], hm, h⟩

theorem s_getDone {Q : Nat → Prop} (h : ∀ d, d < L → Q d) : swp (Stuck r nt L) Q (do1 (.getDone r)) :=
  swp_do fun m hm => ⟨(m.tab r).copyDone, m, by simp [Act.exec, hm.lt], hm, h _ hm.done⟩

theorem s_getIdx {Q : Nat → Prop} (h : ∀ d, Q d) : swp (Stuck r nt L) Q (do1 (.getIdx r)) :=
  swp_do fun m hm => ⟨(m.tab r).copyIdx, m, by simp [Act.exec, hm.lt], hm, h _⟩

theorem s_casIdx {e c : Nat} {Q : Bool × Nat → Prop} (h : ∀ x, Q x) : swp (Stuck r nt L) Q (do1 (.casIdx r e c)) := by
  refine swp_do fun m hm => ?_
  by_cases he : (m.tab r).copyIdx = e
  · refine ⟨(true, e), { m with tab := upd m.tab r { m.tab r with copyIdx := c } }, by simp [Act.exec, hm.lt, he],
      hm.congr (fun _ => rfl) rfl rfl ?_ ?_ ?_, h _⟩ <;> simp [upd]
  · exact ⟨(false, (m.tab r).copyIdx), m, by simp only [Act.exec, hm.lt, he, if_true, if_false], hm, h _⟩

/-- A slot of the stuck table. -/
def SlotOf (r L : Nat) (a : Addr) : Prop := a.tab = r ∧ a.idx < L

theorem Stuck.exec_ok {m : Mem} (h : Stuck r nt L m) {a : Addr} (ha : SlotOf r L a) :
    a.tab < m.next ∧ a.idx < (m.tab a.tab).len := by
  rw [ha.1]; exact ⟨h.lt, by rw [h.len]; exact ha.2⟩

theorem s_pcasRead {a : Addr} (ha : SlotOf r L a) {Q : Word → Prop} (h : ∀ m, Stuck r nt L m → Q (clean (m.word a))) :
    swp (Stuck r nt L) Q (pcasRead a) := by
  refine swp_bind' (swp_do fun m hm => ⟨m.word a, m, by rw [Act.exec, if_pos (hm.exec_ok ha)], hm, ?_⟩)
  have hq := h m hm
  generalize m.word a = w at hq
  split
  · refine swp_bind' (swp_bind' (swp_do fun m1 h1 => ⟨(), { m1 with nv := writeBack m1 a.tab a.idx }, by rw [Act.exec, if_pos (h1.exec_ok ha)],
      h1.congr (fun _ => rfl) rfl rfl rfl rfl rfl, ?_⟩))
    refine swp_bind' (swp_do fun m2 h2 => ⟨(), m2, rfl, h2, ?_⟩)
    refine swp_bind' (swp_do fun m3 h3 => ?_)
    by_cases he : m3.word a = w
    · refine ⟨(true, w), { m3 with word := setWord m3.word a (clearMark w DirtyFlag) }, by
        rw [Act.exec, if_pos (h3.exec_ok ha), if_pos he], h3.congr ?_ rfl rfl rfl rfl rfl, swp_pure (swp_pure hq)⟩
      intro b
      simp only [setWord]
      split
      · next e => subst e; rw [← he]; exact clean_clean _
      · rfl
    · exact ⟨(false, m3.word a), m3, by rw [Act.exec, if_pos (h3.exec_ok ha), if_neg he], h3, swp_pure (swp_pure hq)⟩
  · exact swp_pure hq

theorem s_key {i : Nat} (hi : i < L) {Q : Word → Prop} (h : ∀ K, K ≠ KINITIAL → Q K) : swp (Stuck r nt L) Q (tableKey r i) :=
  s_pcasRead (a := .key r i) ⟨rfl, hi⟩ fun _ hm => h _ (hm.keys i hi)

theorem s_val {i : Nat} (hi : i < L) {Q : Word → Prop} (h : Q TOMBPRIME) : swp (Stuck r nt L) Q (tableValue r i) :=
  s_pcasRead (a := .val r i) ⟨rfl, hi⟩ fun m hm => (show clean (m.word (.val r i)) = TOMBPRIME from hm.vals i hi) ▸ h

theorem mig_TP : isMig TOMBPRIME = true := by decide

/-! ## The functions of the map -/

variable {put : PutFn} {n : Nat} {hash : Word → Word}

theorem s_copySlot {i : Nat} (hi : i < L) {Q : Bool → Prop} (h : Q false) :
    swp (Stuck r nt L) Q (copySlot put n i r nt) := by
  refine swp_bind' (swp_mono (Q := fun _ => True) (swp_loop (fun _ => True) ?_ n () trivial) fun K _ => ?_)
  · intro _ _
    refine swp_bind' (s_key hi fun K hK => ?_)
    rw [if_neg hK]
    exact swp_pure trivial
  · refine swp_bind' (s_val hi ?_)
    refine swp_bind' (swp_mono (Q := fun x => x = .val TOMBPRIME) (swp_loop (fun v => v = TOMBPRIME) ?_ n _ rfl) ?_)
    · rintro v rfl
      rw [if_pos mig_TP]
      exact swp_pure rfl
    · rintro x rfl
      simp only [if_true]
      exact swp_pure h

theorem s_copyChunk (hL : ∃ p, L = 2 ^ p) {c : Nat} {Q : Nat → Prop} : ∀ todo i, Q 0 →
    swp (Stuck r nt L) Q (copyChunk put n r nt L c todo i 0) := by
  intro todo
  induction todo with
  | zero => intro i h; exact swp_pure h
  | succ todo ih =>
    intro i h
    obtain ⟨p, rfl⟩ := hL
    have hlt : (c + i) &&& (2 ^ p - 1) < 2 ^ p := by
      rw [Nat.and_two_pow_sub_one_eq_mod]; exact Nat.mod_lt _ (Nat.two_pow_pos p)
    exact swp_bind' (s_copySlot hlt (ih (i + 1) h))

theorem s_helpCopyImpl (hL : ∃ p, L = 2 ^ p) {Q : Unit → Prop} : swp (Stuck r nt L) Q (helpCopyImpl put n r) := by
  refine swp_bind' (s_getNew ?_)
  refine swp_bind' (s_check ?_)
  refine swp_bind' (s_len ?_)
  refine swp_bind' (swp_mono (Q := fun _ => False) (swp_loop (fun _ => True) ?_ n _ trivial) fun _ h => h.elim)
  rintro ⟨c, b⟩ _
  refine swp_bind' (s_getDone fun d hd => ?_)
  rw [if_pos hd]
  refine swp_mono (Q := fun x => ∃ y, x = .next y) ?_ (by rintro _ ⟨y, rfl⟩; trivial)
  refine swp_ite_bind (Q' := fun _ => True) (fun c _ => ?_) (swp_pure trivial) (swp_bind' (s_getIdx fun c0 => ?_))
  · refine swp_bind' (s_copyChunk hL _ 0 ?_)
    rw [if_neg (by decide)]
    exact swp_pure ⟨_, rfl⟩
  · refine swp_loop (fun _ => True) ?_ n _ trivial
    intro c1 _
    refine swp_mono (Q := fun _ => True) ?_ (by rintro (_ | _) _ <;> trivial)
    split
    · refine swp_bind' (s_casIdx fun x => ?_)
      split
      · exact swp_pure trivial
      · exact swp_pure trivial
    · exact swp_pure trivial

theorem s_helpCopy (hL : ∃ p, L = 2 ^ p) {h : Nat} {Q : Nat → Prop} : swp (Stuck r nt L) Q (helpCopy put n h) := by
  refine swp_bind' (s_getRoot ?_)
  refine swp_bind' (s_getNew ?_)
  exact swp_bind' (s_helpCopyImpl hL)

theorem s_copySlotAndCheck (hL : ∃ p, L = 2 ^ p) {i : Nat} (hi : i < L) {Q : Nat → Prop} :
    swp (Stuck r nt L) Q (copySlotAndCheck put n r i false) := by
  refine swp_bind' (s_getNew ?_)
  refine swp_bind' (s_check ?_)
  refine swp_bind' (s_copySlot hi ?_)
  rw [if_neg (by decide), if_neg (by decide)]
  exact s_helpCopy hL

theorem s_resize {Q : Nat → Prop} (h : Q nt) : swp (Stuck r nt L) Q (resize r) := by
  refine swp_bind' (s_getNew ?_)
  refine swp_bind' (s_lenNew fun l => ?_)
  refine swp_bind' (s_len ?_)
  exact swp_bind' (s_check (swp_pure h))

theorem and_lt_of_pow (hL : ∃ p, L = 2 ^ p) (c : Nat) : c &&& (L - 1) < L := by
  obtain ⟨p, rfl⟩ := hL
  rw [Nat.and_two_pow_sub_one_eq_mod]; exact Nat.mod_lt _ (Nat.two_pow_pos p)

/-- `putIfMatch` on the stuck table does not return. -/
theorem s_putIfMatch (hL : ∃ p, L = 2 ^ p) {cf : CasFn} {k nv ov : Word} (h1 : nv ≠ TOMBPRIME) (h2 : ov ≠ VINITIAL)
    {Q : Word → Prop} : swp (Stuck r nt L) Q (putIfMatch hash n cf r k nv ov) := by
  cases n with
  | zero => exact rfl
  | succ n =>
    refine swp_bind' (s_check (swp_bind' (s_check (swp_bind' (s_check (swp_bind' (s_len ?_)))))))
    refine swp_bind' (swp_mono (Q := fun p => p = .full ∨ ∃ i d, i < L ∧ p = .slot i d TOMBPRIME)
      (swp_loop (fun x : Nat × Nat => x.1 < L) ?_ n _ (and_lt_of_pow hL _)) ?_)
    · rintro ⟨i, d⟩ hi
      refine swp_bind' (s_key hi fun K hK => swp_bind' (s_val hi ?_))
      rw [if_neg (show K ≠ VINITIAL from hK)]
      unfold probeMatch
      split
      · exact swp_pure (.inr ⟨i, d, hi, rfl⟩)
      · split
        · exact swp_pure (.inl rfl)
        · exact swp_pure (and_lt_of_pow hL _)
    · rintro p (rfl | ⟨i, d, hi, rfl⟩)
      · refine swp_bind' (s_resize ?_)
        rw [if_pos h2]
        exact swp_bind' (s_helpCopy hL)
      · simp only [if_neg h1]
        refine swp_bind' (swp_mono (Q := fun b => b = true) ?_ ?_)
        · rw [wantNewTable, if_neg (by decide)]
          exact swp_pure (by decide)
        · rintro b rfl
          rw [if_pos rfl]
          refine swp_bind' (s_resize ?_)
          rw [show decide (ov = VINITIAL) = false from decide_eq_false h2]
          exact swp_bind' (s_copySlotAndCheck hL hi)

/-- `getImpl` on the stuck table does not return. -/
theorem s_getImpl (hL : ∃ p, L = 2 ^ p) {k : Word} (hk : k ≠ KINITIAL) {Q : Word → Prop} :
    swp (Stuck r nt L) Q (getImpl hash n r k) := by
  cases n with
  | zero => exact rfl
  | succ n =>
    refine swp_bind' (s_len ?_)
    refine swp_bind' (swp_mono (Q := fun p => p = .chase nt ∨ ∃ i, i < L ∧ p = .copy i)
      (swp_loop (fun x : Nat × Nat => x.1 < L) ?_ n _ (and_lt_of_pow hL _)) ?_)
    · rintro ⟨i, d⟩ hi
      refine swp_bind' (s_key hi fun K hK => swp_bind' (s_val hi ?_))
      rw [if_neg hK]
      refine swp_bind' (s_getNew ?_)
      split
      · rw [if_pos mig_TP]
        exact swp_pure (.inr ⟨i, hi, rfl⟩)
      · split
        · exact swp_pure (.inl rfl)
        · exact swp_pure (and_lt_of_pow hL _)
    · rintro p (rfl | ⟨i, hi, rfl⟩)
      · exact swp_bind' (s_helpCopy hL)
      · simp only
        rw [show decide (k = KINITIAL) = false from decide_eq_false hk]
        exact swp_bind' (s_copySlotAndCheck hL hi)

theorem s_mapGet (hL : ∃ p, L = 2 ^ p) {k : Word} (hk : k ≠ KINITIAL) {Q : Word → Prop} :
    swp (Stuck r nt L) Q (mapGet hash n k) :=
  swp_bind' (s_getRoot (swp_bind' (s_getImpl hL hk)))

theorem s_mapPut (hL : ∃ p, L = 2 ^ p) {cf : CasFn} {k nv ov : Word} (h1 : nv ≠ TOMBPRIME) (h2 : ov ≠ VINITIAL)
    {Q : Word → Prop} : swp (Stuck r nt L) Q (mapPutIfMatch hash n cf k nv ov) :=
  swp_bind' (s_check (swp_bind' (s_check (swp_bind' (s_getRoot (swp_bind' (s_putIfMatch hL h1 h2)))))))

end PMap
