import Verif.Pmem.VecRep

/-!
# C69: `pmem::obj::vector` as a list
-/

namespace PMap.Pmem.Seg

variable {α : Type} {max : Nat} {d : α}

/-- What a call makes of the list of elements (the C++ standard's `vector`). -/
def VOp.list (d : α) (l : List α) : VOp α → List α
  | .pushBack x => l ++ [x]
  | .popBack => l.dropLast
  | .resize n => l.take n ++ List.replicate (n - l.length) d
  | .resizeVal n x => l.take n ++ List.replicate (n - l.length) x
  | .reserve _ => l
  | .shrinkToFit => l
  | .clear => []
  | .freeData => []
  | .assign n x => List.replicate n x
  | .insert i n x => l.take i ++ List.replicate n x ++ l.drop i
  | .erase i j => l.take i ++ l.drop j
  | .set i x => l.set i x

/-- The call is allowed: its positions exist. -/
def VOp.Fits (l : List α) : VOp α → Prop
  | .insert i _ _ => i ≤ l.length
  | .erase i j => i ≤ j ∧ j ≤ l.length
  | .set i _ => i < l.length
  | _ => True

/-- `resize(count, value)` where it is right (vector.hpp:1997). -/
def VOp.Right (v : Vec α) : VOp α → Prop
  | .resizeVal n _ => v.cap = n → v.size = n
  | _ => True

/-- The cells a call may ask the allocator for. -/
def VOp.need (l : List α) : VOp α → Nat
  | .pushBack _ => nextPow2 (l.length + 1)
  | .resize n | .resizeVal n _ | .reserve n | .assign n _ => n
  | .shrinkToFit => l.length
  | .insert _ n _ => nextPow2 (l.length + n)
  | _ => 0

/-- The vectors that calls in `P` can lead to, with the list of elements they should have; a call that throws has no effect. -/
inductive VReach (max : Nat) (d : α) (P : VOp α → Prop) : Vec α → List α → Prop
  | new : VReach max d P .empty []
  | call {v v' l op} : VReach max d P v l → P op → op.Fits l → op.Right v → op.run max d v = .ok v' → VReach max d P v' (op.list d l)

/-- The calls that do not move elements inside the array. -/
def VOp.plain : VOp α → Bool
  | .insert .. | .erase .. => false
  | _ => true

theorem vop_tries {v : Vec α} {l : List α} (h : Rep v l) (op : VOp α) (hf : op.Fits l) (hr : op.Right v) :
    Tries (op.plain = true) max (op.need l) (op.run max d v) v (op.list d l) := by
  have hw : ∀ {b r m}, Tries True max b r v m → Tries (op.plain = true) max b r v m := fun h =>
    h.imp id fun ⟨c, h⟩ => ⟨c, h.weaken fun _ => trivial⟩
  cases op with
  | pushBack x => exact hw (tries_emplaceBack h x)
  | popBack => exact hw (.inr ⟨_, does_popBack h⟩)
  | resize n => exact hw (tries_resize h n d)
  | resizeVal n x =>
    refine hw ?_
    by_cases e : v.cap = n
    · have hn : l.length = n := by rw [← h.size]; exact hr e
      simp only [VOp.run, Vec.resizeVal, if_pos e, VOp.list]
      rw [← hn, List.take_length, Nat.sub_self, List.replicate_zero, List.append_nil]
      exact .inr ⟨_, does_ok h⟩
    · simp only [VOp.run, Vec.resizeVal, if_neg e]
      exact tries_resize h n x
  | reserve n => exact hw (tries_reserve h n)
  | shrinkToFit =>
    have := tries_shrinkToFit (max := max) h
    rw [h.size] at this
    exact hw this
  | clear => exact hw (.inr ⟨_, does_clear h⟩)
  | freeData => exact hw (.inr ⟨_, does_freeData h⟩)
  | assign n x => exact hw (tries_assign h n x)
  | insert i n x => exact (tries_insert h hf n x).imp id fun ⟨c, h⟩ => ⟨c, h.weaken fun e => by cases e⟩
  | erase i j => exact .inr ⟨_, (does_erase h hf.1 hf.2).weaken fun e => by cases e⟩
  | set i x => exact hw (.inr ⟨_, does_set h hf x⟩)

theorem vreach_rep {P : VOp α → Prop} {v : Vec α} {l : List α} (h : VReach max d P v l) : Rep v l := by
  induction h with
  | new => exact rep_empty
  | call h _ hf hr e ih =>
    rcases vop_tries (max := max) (d := d) ih _ hf hr with ⟨-, e'⟩ | ⟨c, w, e', h', -⟩
    · rw [e] at e'; cases e'
    · rw [e] at e'; cases e'; exact h'

/-- **C69, partial.** Whatever calls have been made on a `vector` (each with positions that exist, and none a
`resize(count, value)` whose `count` is the capacity but not the size): its elements are those of the list that the same calls
make, it has room for them, and the next such call succeeds and does the same to both, or throws because it needs more cells than
there can be; no call reads, assigns to or destroys memory without an object, writes outside the array or fails an assertion.
Missing for the full claim: that `resize` (refuted by `c69_resize_ignored`), values that are elements of the vector itself
(`c69_insert_own`), and destroying every element (`c69_not_destroyed`, `c69_overwritten`). -/
theorem c69_vector_partial {v : Vec α} {l : List α} (h : VReach max d (fun _ => True) v l) :
    v.size = l.length ∧ v.size ≤ v.cap ∧ (∀ i x, v.get i = .ok x ↔ l[i]? = some x) ∧
    ∀ op : VOp α, op.Fits l → op.Right v →
      (∃ v', op.run max d v = .ok v' ∧ VReach max d (fun _ => True) v' (op.list d l)) ∨
      (op.run max d v = .error .threw ∧ max < op.need l) := by
  have hr := vreach_rep h
  refine ⟨hr.size, hr.le, fun i x => ?_, fun op hf ho => ?_⟩
  · rw [get_spec hr]
    cases l[i]? <;> simp
  · rcases vop_tries (max := max) (d := d) hr op hf ho with ⟨hm, e⟩ | ⟨c, v', e, -⟩
    · exact .inr ⟨e, hm⟩
    · exact .inl ⟨v', e, .call h trivial hf ho e⟩

/-- **C69, partial: objects.** Without `insert`, `emplace` and `erase` every object that was created is an element or has been
destroyed. -/
theorem c69_destroyed_partial {v : Vec α} {l : List α} (h : VReach max d (fun op => op.plain = true) v l) :
    v.lost = 0 ∧ ∀ i, v.size ≤ i → v.cell i = none := by
  induction h with
  | new => exact ⟨rfl, fun _ _ => rfl⟩
  | call h hp hf hr e ih =>
    rcases vop_tries (max := max) (d := d) (vreach_rep h) _ hf hr with ⟨-, e'⟩ | ⟨c, w, e', -, -, h'⟩
    · rw [e] at e'; cases e'
    · rw [e] at e'; cases e'
      obtain ⟨a, b⟩ := h' hp ih.2
      exact ⟨b.trans ih.1, a⟩

/-! ## Where it is not a list -/

/-- Some calls one after the other; for the witnesses. -/
def vcalls (max : Nat) (d : α) : List (VOp α) → Vec α → R (Vec α)
  | [], v => .ok v
  | op :: ops, v => do
    let v ← op.run max d v
    vcalls max d ops v

/-- What can be seen of a vector: its elements and the objects lost. -/
def Vec.seen (v : Vec α) : List α × Nat := ((List.range v.size).filterMap v.cell, v.lost)

/-- **C69 is false of the code.** `resize(count, value)` of a vector whose capacity is `count` does nothing (vector.hpp:1997): here
the vector has been emptied, and stays empty.  The other `resize` is right. -/
theorem c69_resize_ignored :
    (vcalls 100 0 [.resize 2, .clear, .resizeVal 2 7] .empty).map Vec.seen = .ok ([], 0) ∧
    (vcalls 100 0 [.resize 2, .clear, .resizeVal 3 7] .empty).map Vec.seen = .ok ([7, 7, 7], 0) ∧
    VOp.list 0 [] (.resizeVal 2 7) = [7, 7] := by decide +kernel

/-- **C69 is false of the code.** `insert` of a vector's own element inserts another value when there is room (vector.hpp:2325-2338):
inserting element 2, which is 3, at the front of 1, 2, 3 gives 2, 1, 2, 3.  (Where the array is replaced, the value is right.) -/
theorem c69_insert_own :
    ((vcalls 100 0 [.reserve 8, .pushBack 1, .pushBack 2, .pushBack 3] .empty).bind fun v => v.insertOwn 100 0 1 2).map Vec.seen =
      .ok ([2, 1, 2, 3], 1) ∧
    ((vcalls 100 0 [.reserve 3, .pushBack 1, .pushBack 2, .pushBack 3] .empty).bind fun v => v.insertOwn 100 0 1 2).map Vec.seen =
      .ok ([3, 1, 2, 3], 0) := by decide +kernel

/-- **C69 is false of the code.** `erase` does not destroy the elements that the vector loses (vector.hpp:1868-1870): the object in the
last cell is still there when the array is freed. -/
theorem c69_not_destroyed :
    (vcalls 100 0 [.pushBack 1, .pushBack 2, .erase 0 1] .empty).map Vec.seen = .ok ([2], 0) ∧
    (vcalls 100 0 [.pushBack 1, .pushBack 2, .erase 0 1, .freeData] .empty).map Vec.seen = .ok ([], 1) := by decide +kernel

/-- **C69 is false of the code.** `insert` creates an object on top of the last element instead of assigning to it (vector.hpp:2259
compares with `>=`). -/
theorem c69_overwritten :
    (vcalls 100 0 [.reserve 8, .pushBack 1, .pushBack 2, .pushBack 3, .insert 0 1 9] .empty).map Vec.seen = .ok ([9, 1, 2, 3], 1) := by
  decide +kernel

/-- A call that needs no more cells than there can be succeeds. -/
theorem vreach_next {P : VOp α → Prop} {v : Vec α} {l : List α} (h : VReach max d P v l) (op : VOp α) (hp : P op) (hf : op.Fits l)
    (hr : op.Right v) (hm : op.need l ≤ max) : ∃ v', VReach max d P v' (op.list d l) := by
  rcases vop_tries (max := max) (d := d) (vreach_rep h) op hf hr with ⟨hm', -⟩ | ⟨c, v', e, -⟩
  · omega
  · exact ⟨v', .call h hp hf hr e⟩

/-- The hypotheses of `c69_vector_partial` are met: calls of every kind lead to a vector. -/
example : ∃ v, VReach 100 0 (fun _ => True) v [5, 9, 9, 7, 3] := by
  obtain ⟨v, h⟩ := vreach_next (VReach.new (max := 100) (d := 0) (P := fun _ => True)) (.resizeVal 3 5) trivial trivial
    (by simp [VOp.Right, Vec.empty]) (by decide)
  obtain ⟨v, h⟩ := vreach_next h (.insert 1 2 9) trivial (by simp [VOp.Fits, VOp.list]) trivial (by decide +kernel)
  obtain ⟨v, h⟩ := vreach_next h (.erase 3 4) trivial (by simp [VOp.Fits, VOp.list]) trivial (by decide)
  obtain ⟨v, h⟩ := vreach_next h .shrinkToFit trivial trivial trivial (by decide)
  obtain ⟨v, h⟩ := vreach_next h (.set 3 7) trivial (by simp [VOp.Fits, VOp.list]) trivial (by decide)
  obtain ⟨v, h⟩ := vreach_next h (.pushBack 3) trivial trivial trivial (by decide +kernel)
  exact ⟨v, h⟩

/-- A call that needs 200 cells of 100 throws, and the vector that has been moved to another array keeps its elements. -/
example : (vcalls 100 0 [.pushBack 5, .reserve 200] .empty).map Vec.seen = .error .threw ∧
    (vcalls 100 0 [.pushBack 5, .reserve 50, .pushBack 6] .empty).map Vec.seen = .ok ([5, 6], 0) := by decide +kernel

/-- The hypotheses of `c69_destroyed_partial` are met. -/
example : ∃ v, VReach 100 0 (fun op => op.plain = true) v [7] := by
  obtain ⟨v, h⟩ := vreach_next (VReach.new (max := 100) (d := 0) (P := fun op => op.plain = true)) (.pushBack 5) rfl trivial trivial
    (by decide +kernel)
  obtain ⟨v, h⟩ := vreach_next h (.assign 2 7) rfl trivial trivial (by decide)
  obtain ⟨v, h⟩ := vreach_next h (.resize 1) rfl trivial trivial (by decide)
  exact ⟨v, h⟩

end PMap.Pmem.Seg
