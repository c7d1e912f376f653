import Verif.Pmem.Vec

/-!
# The cells of a `vector` and a list (proof machinery)
-/

namespace PMap.Pmem.Seg

variable {α : Type} {max : Nat}

theorem ok_bind {β γ : Type} (a : β) (f : β → R γ) : (Except.ok a >>= f) = f a := rfl
theorem ensure_true {b : Bool} (h : b = true) : ensure b = .ok () := by rw [ensure, if_pos h]

/-- The vector holds the list. -/
structure Rep (v : Vec α) (l : List α) : Prop where
  size : v.size = l.length
  le : v.size ≤ v.cap
  cell : ∀ i, i < l.length → v.cell i = l[i]?
  out : ∀ i, v.cap ≤ i → v.cell i = none

/-- There are no objects behind the last element. -/
def Tidy (v : Vec α) : Prop := ∀ i, v.size ≤ i → v.cell i = none

/-- The call succeeds, the vector then holds `l` and has capacity `c`; if `T`, no object is left behind. -/
def Does (T : Prop) (r : R (Vec α)) (v : Vec α) (l : List α) (c : Nat) : Prop :=
  ∃ v', r = .ok v' ∧ Rep v' l ∧ v'.cap = c ∧ (T → Tidy v → Tidy v' ∧ v'.lost = v.lost)

theorem rep_empty : Rep (Vec.empty : Vec α) [] := ⟨rfl, Nat.le_refl _, fun _ h => (by cases h), fun _ _ => rfl⟩

theorem Does.bind {T : Prop} {r : R (Vec α)} {v : Vec α} {l l' : List α} {c c' : Nat} {f : Vec α → R (Vec α)}
    (h : Does T r v l c) (hf : ∀ w, Rep w l → w.cap = c → Does T (f w) w l' c') : Does T (r >>= f) v l' c' := by
  obtain ⟨w, rfl, h1, h2, h3⟩ := h
  obtain ⟨w', e, g1, g2, g3⟩ := hf w h1 h2
  refine ⟨w', e, g1, g2, fun hT ht => ?_⟩
  obtain ⟨a1, a2⟩ := h3 hT ht
  obtain ⟨b1, b2⟩ := g3 hT a1
  exact ⟨b1, b2.trans a2⟩

theorem Does.weaken {T T' : Prop} {r : R (Vec α)} {v : Vec α} {l : List α} {c : Nat} (h : Does T r v l c) (ht : T' → T) :
    Does T' r v l c := by
  obtain ⟨w, h1, h2, h3, h4⟩ := h
  exact ⟨w, h1, h2, h3, fun a => h4 (ht a)⟩

theorem does_ok {T : Prop} {v : Vec α} {l : List α} (h : Rep v l) : Does T (.ok v) v l v.cap := ⟨v, rfl, h, rfl, fun _ h => ⟨h, rfl⟩⟩

/-- Creating an object behind the last one. -/
theorem create_end {v : Vec α} {l : List α} (h : Rep v l) (hc : l.length < v.cap) (x : α) :
    ∃ w, v.create v.size x = .ok w ∧ Rep { w with size := w.size + 1 } (l ++ [x]) ∧ w.cap = v.cap ∧
      (Tidy v → Tidy { w with size := w.size + 1 } ∧ w.lost = v.lost) := by
  refine ⟨_, if_pos (by rw [h.size]; exact hc), ⟨?_, ?_, fun i hi => ?_, fun i hi => ?_⟩, rfl, fun ht => ⟨fun i hi => ?_, ?_⟩⟩
  · simp [h.size]
  · simp only [h.size]; omega
  · simp only [h.size]
    simp only [List.length_append, List.length_singleton] at hi
    by_cases e : i = l.length
    · subst e; simp
    · rw [if_neg e, h.cell i (by omega), List.getElem?_append_left (by omega)]
  · simp only [h.size] at hi ⊢
    rw [if_neg (by omega)]; exact h.out i hi
  · simp only at hi ⊢
    rw [if_neg (by omega)]; exact ht i (by omega)
  · simp [ht v.size (Nat.le_refl _)]

theorem does_appendN {v : Vec α} {l : List α} (h : Rep v l) (n : Nat) (hc : l.length + n ≤ v.cap) (x : α) :
    Does True (v.appendN x n) v (l ++ List.replicate n x) v.cap := by
  induction n generalizing v l with
  | zero => simpa [Vec.appendN] using does_ok (T := True) h
  | succ n ih =>
    obtain ⟨w, e, h1, h2, h3⟩ := create_end h (by omega) x
    obtain ⟨w', e', g1, g2, g3⟩ := ih h1 (by simp only [List.length_append, List.length_singleton, h2]; omega)
    refine ⟨w', ?_, ?_, g2.trans h2, fun _ ht => ?_⟩
    · rw [Vec.appendN, e]; exact e'
    · rw [List.replicate_succ]
      simpa using g1
    · obtain ⟨a, b⟩ := h3 ht
      obtain ⟨a', b'⟩ := g3 trivial a
      exact ⟨a', b'.trans b⟩

theorem does_constructAtEnd {v : Vec α} {l : List α} (h : Rep v l) {n : Nat} (hc : l.length + n ≤ v.cap) (x : α) :
    Does True (v.constructAtEnd n x) v (l ++ List.replicate n x) v.cap := by
  rw [Vec.constructAtEnd, ensure_true (by simp only [h.size, decide_eq_true_eq]; omega), ok_bind]
  exact does_appendN h n hc x

theorem does_appendFrom {v old : Vec α} {l m : List α} (h : Rep v l) (ho : Rep old m) (n i : Nat) (hi : i + n ≤ m.length)
    (hc : l.length + n ≤ v.cap) : Does True (v.appendFrom old.cell n i) v (l ++ (m.drop i).take n) v.cap := by
  induction n generalizing v l i with
  | zero => simpa [Vec.appendFrom] using does_ok (T := True) h
  | succ n ih =>
    have hm : i < m.length := by omega
    have hl : load old.cell i = .ok m[i] := by
      rw [load, ho.cell i hm, List.getElem?_eq_getElem hm]
    obtain ⟨w, e, h1, h2, h3⟩ := create_end h (by omega) m[i]
    obtain ⟨w', e', g1, g2, g3⟩ := ih h1 (i + 1) (by omega) (by simp only [List.length_append, List.length_singleton, h2]; omega)
    refine ⟨w', ?_, ?_, g2.trans h2, fun _ ht => ?_⟩
    · rw [Vec.appendFrom, hl, ok_bind, e]; exact e'
    · rw [List.drop_eq_getElem_cons hm, List.take_succ_cons]
      simpa using g1
    · obtain ⟨a, b⟩ := h3 ht
      obtain ⟨a', b'⟩ := g3 trivial a
      exact ⟨a', b'.trans b⟩

/-- Destroying a range of objects. -/
theorem destroyFrom_spec (n i : Nat) : ∀ v : Vec α, (∀ j, i ≤ j → j < i + n → (v.cell j).isSome) →
    v.destroyFrom n i = .ok { v with cell := fun j => if i ≤ j ∧ j < i + n then none else v.cell j } := by
  induction n generalizing i with
  | zero =>
    intro v _
    simp only [Vec.destroyFrom]
    congr 1
    cases v; congr 1; funext j
    rw [if_neg (by omega)]
  | succ n ih =>
    intro v h
    obtain ⟨x, hx⟩ := Option.isSome_iff_exists.mp (h i (Nat.le_refl _) (by omega))
    rw [Vec.destroyFrom, Vec.destroy, hx]
    simp only [ok_bind]
    rw [ih (i + 1) _ fun j h1 h2 => ?_]
    · congr 2
      funext j
      simp only
      by_cases e : j = i
      · subst e; simp
      · rw [if_neg e]
        split <;> split <;> first | rfl | omega
    · simp only
      rw [if_neg (by omega)]
      exact h j (by omega) (by omega)

theorem Rep.some {v : Vec α} {l : List α} (h : Rep v l) {i : Nat} (hi : i < l.length) : (v.cell i).isSome := by
  rw [h.cell i hi, List.getElem?_eq_getElem hi]; rfl

theorem does_shrink {v : Vec α} {l : List α} (h : Rep v l) {n : Nat} (hn : n ≤ l.length) : Does True (v.shrink n) v (l.take n) v.cap := by
  rw [Vec.shrink, ensure_true (by simp only [h.size, decide_eq_true_eq]; exact hn), ok_bind,
    destroyFrom_spec _ _ v fun j _ h2 => h.some (by rw [h.size] at h2; omega), ok_bind]
  refine ⟨_, rfl, ⟨?_, ?_, fun i hi => ?_, fun i hi => ?_⟩, rfl, fun _ ht => ⟨fun i hi => ?_, rfl⟩⟩
  · simp [hn]
  · have := h.le; rw [h.size] at this; simp only; omega
  · have hi' : i < n ∧ i < l.length := by rw [List.length_take] at hi; omega
    simp only
    rw [if_neg (by omega), h.cell i hi'.2, List.getElem?_take_of_lt hi'.1]
  · simp only
    split
    · rfl
    · exact h.out i hi
  · simp only at hi ⊢
    split
    · rfl
    · exact ht i (by omega)

theorem behind_tidy {v : Vec α} (h : Tidy v) : v.behind = 0 := by
  rw [Vec.behind, List.countP_eq_zero]
  intro i _
  by_cases e : v.size ≤ i
  · simp [h i e]
  · simp [e]

theorem does_dealloc {v : Vec α} {l : List α} (h : Rep v l) : Does True v.dealloc v [] 0 := by
  obtain ⟨w, e, h1, -, h3⟩ := does_shrink h (Nat.zero_le _)
  rw [Vec.dealloc, e, ok_bind]
  refine ⟨_, rfl, ⟨rfl, Nat.le_refl _, fun i hi => (by cases hi), fun _ _ => rfl⟩, rfl, fun _ ht => ⟨fun _ _ => rfl, ?_⟩⟩
  obtain ⟨a, b⟩ := h3 trivial ht
  simp only [behind_tidy a, b, Nat.add_zero]

theorem does_alloc {v : Vec α} (h : Rep v []) {n : Nat} (hn : n ≤ max) : Does True (v.alloc max n) v [] n := by
  rw [Vec.alloc, ensure_true (by simp [h.size]), ok_bind, if_neg (by omega)]
  exact ⟨_, rfl, ⟨h.size, by rw [h.size]; exact Nat.zero_le _, fun i hi => (by cases hi), fun _ _ => rfl⟩, rfl, fun _ _ =>
    ⟨fun _ _ => rfl, rfl⟩⟩

theorem does_freeOld {v w : Vec α} {l m : List α} (h : Rep v m) (hw : Rep w l) :
    ∃ w', v.freeOld w = .ok w' ∧ Rep w' l ∧ w'.cap = w.cap ∧ (Tidy v → Tidy w → Tidy w' ∧ w'.lost = w.lost) := by
  rw [Vec.freeOld, destroyFrom_spec _ _ v fun j _ h2 => h.some (by rw [h.size] at h2; omega), ok_bind]
  refine ⟨_, rfl, ⟨hw.size, hw.le, hw.cell, hw.out⟩, rfl, fun ht hw' => ⟨hw', ?_⟩⟩
  simp only
  rw [behind_tidy, Nat.add_zero]
  intro i hi
  simp only at hi ⊢
  split
  · rfl
  · exact ht i hi

/-- A new array, with no object. -/
theorem rep_new (n : Nat) : Rep (⟨fun _ => none, 0, 0, n⟩ : Vec α) [] := ⟨rfl, Nat.le_refl _, fun _ h => (by cases h), fun _ _ => rfl⟩

theorem does_realloc {v : Vec α} {l : List α} (h : Rep v l) {n : Nat} (hl : l.length ≤ n) (hn : n ≤ max) :
    Does True (v.realloc max n) v l n := by
  obtain ⟨w, e, h1, h2, h3⟩ := does_alloc (rep_new v.lost) hn
  obtain ⟨w', e', g1, g2, g3⟩ := does_appendFrom (n := l.length) (i := 0) h1 h (by omega) (by simp only [List.length_nil, h2]; omega)
  obtain ⟨w2, e2, f1, f2, f3⟩ := does_freeOld h g1
  rw [Vec.realloc, e, ok_bind, if_neg (by rw [h.size]; omega), h.size, e', ok_bind, e2]
  simp only [List.drop_zero, List.take_length, List.nil_append] at f1
  refine ⟨w2, rfl, f1, (f2.trans g2).trans h2, fun _ ht => ?_⟩
  obtain ⟨a, b⟩ := h3 trivial (fun _ _ => rfl)
  obtain ⟨a', b'⟩ := g3 trivial a
  obtain ⟨a2, b2⟩ := f3 ht a'
  exact ⟨a2, b2.trans (b'.trans b)⟩

theorem threw_realloc {v : Vec α} {n : Nat} (hn : max < n) : v.realloc max n = .error .threw := by
  rw [Vec.realloc, Vec.alloc]
  simp only [ensure, decide_true, if_true, ok_bind, if_pos hn]
  rfl

/-! ## Assignments -/

theorem assignAt_spec {v : Vec α} {l : List α} (h : Rep v l) {i : Nat} (hi : i < l.length) (x : α) :
    Does True (v.assignAt i x) v (l.set i x) v.cap := by
  obtain ⟨y, hy⟩ := Option.isSome_iff_exists.mp (h.some hi)
  rw [Vec.assignAt, hy]
  refine ⟨_, rfl, ⟨by simp [h.size], h.le, fun j hj => ?_, fun j hj => ?_⟩, rfl, fun _ ht => ⟨fun j hj => ?_, rfl⟩⟩
  · simp only [List.length_set] at hj
    simp only [List.getElem?_set]
    by_cases e : i = j
    · subst e; simp [hj]
    · rw [if_neg (Ne.symm e), if_neg e, h.cell j hj]
  · simp only at hj ⊢
    rw [if_neg (by have := h.le; rw [h.size] at this; omega)]; exact h.out j hj
  · simp only at hj ⊢
    rw [if_neg (by rw [h.size] at hj; omega)]; exact ht j hj

theorem does_fill (x : α) (n i : Nat) : ∀ {v : Vec α} {l : List α}, Rep v l → i + n ≤ l.length →
    Does True (v.fill x n i) v (l.take i ++ List.replicate n x ++ l.drop (i + n)) v.cap := by
  induction n generalizing i with
  | zero => intro v l h _; simpa [Vec.fill] using does_ok (T := True) h
  | succ n ih =>
    intro v l h hi
    rw [Vec.fill]
    refine (assignAt_spec h (by omega : i < l.length) x).bind fun w h1 h2 => ?_
    have := ih (i + 1) h1 (by rw [List.length_set]; omega)
    rw [h2] at this
    convert this using 1
    rw [List.take_succ_eq_append_getElem (by rw [List.length_set]; omega), List.take_set_of_le (Nat.le_refl _), List.getElem_set_self,
      List.drop_set_of_lt (by omega), List.replicate_succ, show i + (n + 1) = i + 1 + n by omega]
    simp

/-! ## The calls -/

theorem le_nextPow2 (n : Nat) : n ≤ nextPow2 n := Nat.le_pow_clog (by decide) n

/-- A call that succeeds, or throws because `b` cells are too many. -/
def Tries (T : Prop) (max b : Nat) (r : R (Vec α)) (v : Vec α) (l : List α) : Prop :=
  (max < b ∧ r = .error .threw) ∨ ∃ c, Does T r v l c

theorem tries_realloc {v : Vec α} {l : List α} (h : Rep v l) {n : Nat} (hl : l.length ≤ n) :
    (max < n ∧ v.realloc max n = .error .threw) ∨ Does True (v.realloc max n) v l n := by
  by_cases hn : n ≤ max
  · exact .inr (does_realloc h hl hn)
  · exact .inl ⟨by omega, threw_realloc (by omega)⟩

theorem tries_emplaceBack {v : Vec α} {l : List α} (h : Rep v l) (x : α) : Tries True max (nextPow2 (l.length + 1)) (v.emplaceBack max x) v (l ++ [x]) := by
  rw [Vec.emplaceBack]
  split
  · rcases tries_realloc (max := max) h (n := nextPow2 (v.size + 1)) (by have := le_nextPow2 (v.size + 1); rw [h.size] at this ⊢; omega) with ⟨hm, e⟩ | hd
    · rw [e]; exact .inl ⟨by rw [← h.size]; exact hm, rfl⟩
    · refine .inr ⟨nextPow2 (v.size + 1), hd.bind fun w h1 h2 => ?_⟩
      have := does_constructAtEnd h1 (n := 1) (by rw [h2]; have := le_nextPow2 (v.size + 1); rw [h.size] at this ⊢; omega) x
      rwa [h2] at this
  · next hne =>
    rw [ok_bind]
    exact .inr ⟨_, does_constructAtEnd h (by have := h.le; rw [h.size] at this hne; omega) x⟩

/-- Where there is room, nothing is moved. -/
theorem does_emplaceBack {v : Vec α} {l : List α} (h : Rep v l) (hc : l.length < v.cap) (x : α) :
    Does True (v.emplaceBack max x) v (l ++ [x]) v.cap := by
  rw [Vec.emplaceBack, if_neg (by rw [h.size]; omega), ok_bind]
  exact does_constructAtEnd h (by omega) x

theorem does_popBack {v : Vec α} {l : List α} (h : Rep v l) : Does True v.popBack v l.dropLast v.cap := by
  rw [Vec.popBack]
  split
  · next e =>
    rw [h.size, List.length_eq_zero_iff] at e
    subst e
    exact does_ok h
  · rw [h.size, List.dropLast_eq_take]
    exact does_shrink h (by omega)

/-- The list after a resize. -/
def resized (l : List α) (n : Nat) (x : α) : List α := l.take n ++ List.replicate (n - l.length) x

theorem resized_le {l : List α} {n : Nat} (h : n ≤ l.length) (x : α) : resized l n x = l.take n := by
  rw [resized, Nat.sub_eq_zero_of_le h]; simp

theorem resized_ge {l : List α} {n : Nat} (h : l.length ≤ n) (x : α) : resized l n x = l ++ List.replicate (n - l.length) x := by
  rw [resized, List.take_of_length_le h]

theorem tries_resize {v : Vec α} {l : List α} (h : Rep v l) (n : Nat) (x : α) : Tries True max n (v.resize max n x) v (resized l n x) := by
  rw [Vec.resize]
  split
  · next e =>
    rw [h.size] at e
    rw [resized_le e]
    exact .inr ⟨_, does_shrink h e⟩
  · next e =>
    rw [h.size] at e
    rw [resized_ge (by omega)]
    split
    · rcases tries_realloc (max := max) h (n := n) (by omega) with ⟨hm, e'⟩ | hd
      · rw [e']; exact .inl ⟨hm, rfl⟩
      · refine .inr ⟨n, hd.bind fun w h1 h2 => ?_⟩
        simp only [h1.size]
        have := does_constructAtEnd h1 (n := n - l.length) (by omega) x
        rwa [h2] at this
    · simp only [ok_bind, h.size]
      exact .inr ⟨_, does_constructAtEnd h (by omega) x⟩

theorem does_resize {v : Vec α} {l : List α} (h : Rep v l) {n : Nat} (hc : n ≤ v.cap) (x : α) :
    Does True (v.resize max n x) v (resized l n x) v.cap := by
  rw [Vec.resize]
  split
  · next e =>
    rw [h.size] at e
    rw [resized_le e]
    exact does_shrink h e
  · next e =>
    rw [h.size] at e
    rw [resized_ge (by omega), if_neg (by omega)]
    simp only [ok_bind, h.size]
    exact does_constructAtEnd h (by omega) x

theorem tries_reserve {v : Vec α} {l : List α} (h : Rep v l) (n : Nat) : Tries True max n (v.reserve max n) v l := by
  rw [Vec.reserve]
  split
  · exact .inr ⟨_, does_ok h⟩
  · next e =>
    rcases tries_realloc (max := max) h (n := n) (by have := h.le; rw [h.size] at this; omega) with e' | hd
    · exact .inl e'
    · exact .inr ⟨_, hd⟩

theorem does_reserve {v : Vec α} {l : List α} (h : Rep v l) {n : Nat} (hc : v.cap ≤ n) (hn : n ≤ max) :
    Does True (v.reserve max n) v l n := by
  rw [Vec.reserve]
  split
  · next e =>
    have := does_ok (T := True) h
    rwa [show v.cap = n by omega] at this
  · exact does_realloc h (by have := h.le; rw [h.size] at this; omega) hn

theorem tries_shrinkToFit {v : Vec α} {l : List α} (h : Rep v l) : Tries True max v.size (v.shrinkToFit max) v l := by
  rw [Vec.shrinkToFit]
  split
  · exact .inr ⟨_, does_ok h⟩
  · rcases tries_realloc (max := max) h (n := v.size) (by rw [h.size]) with e' | hd
    · exact .inl e'
    · exact .inr ⟨_, hd⟩

theorem does_clear {v : Vec α} {l : List α} (h : Rep v l) : Does True v.clear v [] v.cap := by
  have := does_shrink h (Nat.zero_le _)
  rwa [List.take_zero] at this

theorem does_freeData {v : Vec α} {l : List α} (h : Rep v l) : Does True v.freeData v [] 0 := by
  rw [Vec.freeData]
  split
  · next e =>
    have h1 := h.le
    have h2 := h.size
    have : l = [] := List.length_eq_zero_iff.mp (by omega)
    subst this
    have := does_ok (T := True) h
    rwa [e] at this
  · exact does_dealloc h

theorem does_assign {v : Vec α} {l : List α} (h : Rep v l) {n : Nat} (hc : n ≤ v.cap) (x : α) :
    Does True (v.assign max n x) v (List.replicate n x) v.cap := by
  rw [Vec.assign, if_pos hc]
  have hf := does_fill x (min n v.size) 0 h (by rw [h.size]; omega)
  refine hf.bind fun w h1 h2 => ?_
  simp only [List.take_zero, List.nil_append, Nat.zero_add] at h1
  split
  · next hlt =>
    rw [h.size] at hlt
    rw [h.size, Nat.min_eq_right (by omega), List.drop_length, List.append_nil] at h1
    have := does_constructAtEnd h1 (n := n - l.length) (by rw [List.length_replicate, h2]; omega) x
    rw [h2, List.replicate_append_replicate, show l.length + (n - l.length) = n by omega] at this
    rwa [h.size]
  · next hlt =>
    rw [h.size] at hlt
    rw [h.size, Nat.min_eq_left (by omega)] at h1
    have := does_shrink h1 (n := n) (by simp)
    rw [h2, List.take_append_of_le_length (by simp), List.take_of_length_le (by simp)] at this
    exact this

theorem tries_assign {v : Vec α} {l : List α} (h : Rep v l) (n : Nat) (x : α) : Tries True max n (v.assign max n x) v (List.replicate n x) := by
  by_cases hc : n ≤ v.cap
  · exact .inr ⟨_, does_assign h hc x⟩
  · rw [Vec.assign, if_neg hc]
    by_cases hn : n ≤ max
    · refine .inr ⟨n, (does_dealloc h).bind fun w h1 _ => (does_alloc h1 hn).bind fun w h2 h3 => ?_⟩
      have := does_constructAtEnd h2 (n := n) (by rw [h3]; simp) x
      rwa [List.nil_append, h3] at this
    · obtain ⟨w, e, h1, -⟩ := does_dealloc h
      refine .inl ⟨by omega, ?_⟩
      rw [e, ok_bind, Vec.alloc, ensure_true (by simp [h1.size]), ok_bind, if_pos (by omega)]
      rfl

theorem get_spec {v : Vec α} {l : List α} (h : Rep v l) (i : Nat) :
    v.get i = match l[i]? with | none => .error .ub | some x => .ok x := by
  rw [Vec.get]
  split
  · next e => rw [load, h.cell i (by rw [← h.size]; exact e)]; cases l[i]? <;> rfl
  · next e => rw [List.getElem?_eq_none (by rw [← h.size]; omega)]

theorem does_set {v : Vec α} {l : List α} (h : Rep v l) {i : Nat} (hi : i < l.length) (x : α) :
    Does True (v.set i x) v (l.set i x) v.cap := by
  rw [Vec.set, if_pos (by rw [h.size]; exact hi)]
  exact assignAt_spec h hi x

/-! ## Moving elements -/

/-- Moving `n` elements from position `j` on down to position `i` on, one after the other. -/
def listDown : (n i j : Nat) → List α → List α
  | 0, _, _, l => l
  | n + 1, i, j, l => if h : j < l.length then listDown n (i + 1) (j + 1) (l.set i l[j]) else l

theorem length_listDown (n : Nat) : ∀ i j (l : List α), (listDown n i j l).length = l.length := by
  induction n with
  | zero => exact fun _ _ _ => rfl
  | succ n ih =>
    intro i j l
    rw [listDown]
    split
    · rw [ih, List.length_set]
    · rfl

theorem get_listDown (n : Nat) : ∀ i j (l : List α), i ≤ j → j + n ≤ l.length → ∀ p,
    (listDown n i j l)[p]? = if i ≤ p ∧ p < i + n then l[p + (j - i)]? else l[p]? := by
  induction n with
  | zero =>
    intro i j l _ _ p
    rw [if_neg (by omega)]; rfl
  | succ n ih =>
    intro i j l hij hj p
    rw [listDown, dif_pos (by omega), ih (i + 1) (j + 1) _ (by omega) (by rw [List.length_set]; omega)]
    rw [show j + 1 - (i + 1) = j - i by omega, List.getElem?_set, List.getElem?_set]
    by_cases e : p = i
    · subst e
      rw [if_neg (by omega), if_pos rfl, if_pos (by omega), if_pos (by omega), show p + (j - p) = j by omega,
        List.getElem?_eq_getElem (by omega)]
    · rw [if_neg (by omega : ¬i = p)]
      by_cases c : i ≤ p ∧ p < i + (n + 1)
      · rw [if_pos c, if_pos (by omega), if_neg (by omega)]
      · rw [if_neg c, if_neg (by omega)]

theorem erase_list {l : List α} {i j : Nat} (hij : i ≤ j) (hj : j ≤ l.length) :
    (listDown (l.length - j) i j l).take (l.length - (j - i)) = l.take i ++ l.drop j := by
  apply List.ext_getElem?
  intro p
  by_cases hp : p < l.length - (j - i)
  · rw [List.getElem?_take_of_lt hp, get_listDown _ _ _ _ hij (by omega)]
    by_cases hi : i ≤ p
    · rw [if_pos (by omega), List.getElem?_append_right (by rw [List.length_take]; omega), List.getElem?_drop, List.length_take]
      congr 1; omega
    · rw [if_neg (by omega), List.getElem?_append_left (by rw [List.length_take]; omega), List.getElem?_take_of_lt (by omega)]
  · rw [List.getElem?_eq_none (by rw [List.length_take]; omega),
      List.getElem?_eq_none (by rw [List.length_append, List.length_take, List.length_drop]; omega)]

theorem does_moveDown (n : Nat) : ∀ i j {v : Vec α} {l : List α}, Rep v l → i ≤ j → j + n ≤ l.length →
    Does True (v.moveDown n i j) v (listDown n i j l) v.cap := by
  induction n with
  | zero => exact fun i j v l h _ _ => does_ok h
  | succ n ih =>
    intro i j v l h hij hj
    have hm : j < l.length := by omega
    rw [Vec.moveDown, load, h.cell j hm, List.getElem?_eq_getElem hm, listDown, dif_pos hm]
    simp only [ok_bind]
    refine (assignAt_spec h (by omega) _).bind fun w h1 h2 => ?_
    rw [← h2]
    exact ih (i + 1) (j + 1) h1 (by omega) (by rw [List.length_set]; omega)

theorem does_erase {v : Vec α} {l : List α} (h : Rep v l) {i j : Nat} (hij : i ≤ j) (hj : j ≤ l.length) :
    Does False (v.erase i j) v (l.take i ++ l.drop j) v.cap := by
  rw [Vec.erase]
  split
  · next e =>
    have : i = j := by omega
    subst this
    rw [List.take_append_drop]
    exact does_ok h
  · obtain ⟨w, e, h1, h2, -⟩ := does_moveDown (v.size - j) i j h hij (by rw [h.size]; omega)
    rw [e, ok_bind, ← erase_list hij hj]
    rw [h.size] at h1
    have hs : w.size = l.length := by rw [h1.size, length_listDown]
    refine ⟨_, rfl, ⟨?_, ?_, fun p hp => ?_, h1.out⟩, h2, fun h => h.elim⟩
    · simp only [hs, List.length_take, length_listDown]; omega
    · have := h1.le; simp only; omega
    · simp only [List.length_take, length_listDown] at hp
      simp only
      rw [h1.cell p (by rw [length_listDown]; omega), List.getElem?_take_of_lt (by omega)]

/-- Moving elements up, cell by cell. -/
theorem moveUp_spec (idx count k : Nat) : ∀ v : Vec α, (∀ p, p < v.size → (v.cell p).isSome) → idx + k ≤ v.size →
    idx + k + count ≤ v.cap → ∃ w, v.moveUp idx count k = .ok w ∧ w.size = v.size ∧ w.cap = v.cap ∧
      ∀ p, w.cell p = if idx + count ≤ p ∧ p < idx + count + k then v.cell (p - count) else v.cell p := by
  induction k with
  | zero =>
    intro v _ _ _
    exact ⟨v, rfl, rfl, rfl, fun p => by rw [if_neg (by omega)]⟩
  | succ k ih =>
    intro v hs hk hc
    obtain ⟨x, hx⟩ := Option.isSome_iff_exists.mp (hs (idx + k) (by omega))
    have hstep : ∃ u, (if v.size ≤ idx + k + 1 + count then v.create (idx + k + count) x else v.assignAt (idx + k + count) x) = .ok u ∧
        u.size = v.size ∧ u.cap = v.cap ∧ u.cell = fun p => if p = idx + k + count then some x else v.cell p := by
      split
      · exact ⟨_, if_pos (by omega), rfl, rfl, rfl⟩
      · obtain ⟨y, hy⟩ := Option.isSome_iff_exists.mp (hs (idx + k + count) (by omega))
        rw [Vec.assignAt, hy]
        exact ⟨_, rfl, rfl, rfl, rfl⟩
    obtain ⟨u, eu, u1, u2, u3⟩ := hstep
    obtain ⟨w, ew, w1, w2, w3⟩ := ih u (fun p hp => by
      rw [u3]; simp only
      split
      · rfl
      · exact hs p (by omega)) (by omega) (by omega)
    refine ⟨w, ?_, w1.trans u1, w2.trans u2, fun p => ?_⟩
    · rw [Vec.moveUp, load, hx]
      simp only [ok_bind]
      by_cases c : v.size ≤ idx + k + 1 + count
      · rw [if_pos c] at eu ⊢; rw [eu]; exact ew
      · rw [if_neg c] at eu ⊢; rw [eu]; exact ew
    · rw [w3, u3]
      simp only
      by_cases e : p = idx + k + count
      · subst e
        rw [if_neg (by omega), if_pos rfl, if_pos (by omega), show idx + k + count - count = idx + k by omega, hx]
      · rw [if_neg e]
        by_cases c : idx + count ≤ p ∧ p < idx + count + (k + 1)
        · rw [if_pos c, if_pos (by omega), if_neg (by omega)]
        · rw [if_neg c, if_neg (by omega)]

theorem fillGap_spec (x : α) (n : Nat) : ∀ i (v : Vec α), (∀ p, p < v.size → (v.cell p).isSome) → i + n ≤ v.cap →
    ∃ w, v.fillGap (fun _ => .ok x) n i = .ok w ∧ w.size = v.size ∧ w.cap = v.cap ∧
      ∀ p, w.cell p = if i ≤ p ∧ p < i + n then some x else v.cell p := by
  induction n with
  | zero =>
    intro i v _ _
    exact ⟨v, rfl, rfl, rfl, fun p => by rw [if_neg (by omega)]⟩
  | succ n ih =>
    intro i v hs hc
    have hstep : ∃ u, (if i < v.size then v.assignAt i x else v.create i x) = .ok u ∧
        u.size = v.size ∧ u.cap = v.cap ∧ u.cell = fun p => if p = i then some x else v.cell p := by
      split
      · obtain ⟨y, hy⟩ := Option.isSome_iff_exists.mp (hs i ‹_›)
        rw [Vec.assignAt, hy]
        exact ⟨_, rfl, rfl, rfl, rfl⟩
      · exact ⟨_, if_pos (by omega), rfl, rfl, rfl⟩
    obtain ⟨u, eu, u1, u2, u3⟩ := hstep
    obtain ⟨w, ew, w1, w2, w3⟩ := ih (i + 1) u (fun p hp => by
      rw [u3]; simp only
      split
      · rfl
      · exact hs p (by omega)) (by omega)
    refine ⟨w, ?_, w1.trans u1, w2.trans u2, fun p => ?_⟩
    · rw [Vec.fillGap]
      simp only [ok_bind]
      by_cases c : i < v.size
      · rw [if_pos c] at eu ⊢; rw [eu]; exact ew
      · rw [if_neg c] at eu ⊢; rw [eu]; exact ew
    · rw [w3, u3]
      simp only
      by_cases e : p = i
      · subst e
        rw [if_neg (by omega), if_pos rfl, if_pos (by omega)]
      · rw [if_neg e]
        by_cases c : i ≤ p ∧ p < i + (n + 1)
        · rw [if_pos c, if_pos (by omega)]
        · rw [if_neg c, if_neg (by omega)]

theorem tries_insert {v : Vec α} {l : List α} (h : Rep v l) {idx : Nat} (hi : idx ≤ l.length) (n : Nat) (x : α) :
    Tries False max (nextPow2 (l.length + n)) (v.insert max idx n x) v (l.take idx ++ List.replicate n x ++ l.drop idx) := by
  rw [Vec.insert, Vec.insertFrom]
  split
  · next hc =>
    rw [h.size] at hc
    obtain ⟨u, eu, u1, u2, u3⟩ := moveUp_spec idx n (v.size - idx) v (fun p hp => h.some (by rw [← h.size]; exact hp))
      (by rw [h.size]; omega) (by rw [h.size]; omega)
    have hsu : ∀ p, p < u.size → (u.cell p).isSome := fun p hp => by
      rw [u1, h.size] at hp
      rw [u3]
      split
      · exact h.some (by omega)
      · exact h.some hp
    obtain ⟨w, ew, w1, w2, w3⟩ := fillGap_spec x n idx u hsu (by omega)
    rw [eu, ok_bind, ew, ok_bind]
    refine .inr ⟨_, _, rfl, ⟨?_, ?_, fun p hp => ?_, fun p hp => ?_⟩, rfl, fun h => h.elim⟩
    · simp only [w1, u1, h.size, List.length_append, List.length_take, List.length_replicate, List.length_drop]; omega
    · simp only [w1, u1, h.size, w2, u2]; omega
    · have hp' : p < l.length + n := by
        simp only [List.length_append, List.length_take, List.length_replicate, List.length_drop] at hp; omega
      simp only [w3, u3, h.size]
      by_cases c1 : p < idx
      · rw [if_neg (by omega), if_neg (by omega), h.cell p (by omega), List.append_assoc,
          List.getElem?_append_left (by rw [List.length_take]; omega), List.getElem?_take_of_lt c1]
      · by_cases c2 : p < idx + n
        · rw [if_pos (by omega), List.getElem?_append_left (by simp; omega), List.getElem?_append_right (by simp; omega),
            List.getElem?_replicate, if_pos (by simp; omega)]
        · rw [if_neg (by omega), if_pos (by omega), h.cell _ (by omega), List.getElem?_append_right (by simp; omega),
            List.getElem?_drop]
          congr 1
          simp; omega
    · simp only [w2, u2] at hp
      simp only [w3, u3, h.size]
      rw [if_neg (by omega), if_neg (by omega)]
      exact h.out p hp
  · by_cases hn : nextPow2 (v.size + n) ≤ max
    · obtain ⟨u, eu, u1, u2, -⟩ := does_alloc (rep_new v.lost) hn
      have hbig := le_nextPow2 (v.size + n)
      have hs := h.size
      obtain ⟨w, ew, w1, w2, -⟩ := does_appendFrom (n := idx) (i := 0) u1 h (by omega) (by simp only [List.length_nil]; omega)
      obtain ⟨y, ey, y1, y2, -⟩ := does_constructAtEnd w1 (n := n) (by simp; omega) x
      obtain ⟨z, ez, z1, z2, -⟩ := does_appendFrom (n := v.size - idx) (i := idx) y1 h (by omega) (by simp; omega)
      obtain ⟨r, er, r1, r2, -⟩ := does_freeOld h z1
      rw [ok_bind, eu, ok_bind, ew, ok_bind, ey, ok_bind, ez, ok_bind, er]
      refine .inr ⟨_, r, rfl, ?_, rfl, fun h => h.elim⟩
      convert r1 using 1
      simp only [List.nil_append, List.drop_zero]
      rw [List.take_of_length_le (i := v.size - idx) (by rw [List.length_drop]; omega)]
    · refine .inl ⟨by rw [← h.size]; omega, ?_⟩
      rw [ok_bind, Vec.alloc, ensure_true (by simp), ok_bind, if_pos (by omega)]
      rfl

end PMap.Pmem.Seg
