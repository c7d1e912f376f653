import Verif.Pmem.SegRep
import Verif.Props.Vector

/-!
# C70: `pmem::obj::segment_vector` as a list
-/

namespace PMap.Pmem.Seg

variable {α : Type} {P : Policy} {d : α}

/-- The number of elements a call makes room for, if it does. -/
def VOp.room (l : List α) : VOp α → Option Nat
  | .pushBack _ => some (l.length + 1)
  | .resize n | .resizeVal n _ | .reserve n | .assign n _ => some n
  | .insert _ n _ => some (l.length + n)
  | _ => none

/-- `emplace_back` is allowed below `max_size()` only (segment_vector.hpp:2157 asserts it). -/
def VOp.Below (P : Policy) (l : List α) : VOp α → Prop
  | .pushBack _ => l.length < P.max
  | _ => True

/-- The segment vectors that calls can lead to, with the list of elements they should have; a call that throws has no effect. -/
inductive SReach (P : Policy) (d : α) : SV α → List α → Prop
  | new : SReach P d (.empty P) []
  | call {s s' l op} : SReach P d s l → VOp.Fits l op → op.Below P l → op.runSeg P d s = .ok s' → SReach P d s' (op.list d l)

theorem vop_stries (hP : P.Ok) {s : SV α} {l : List α} (h : RepS P s l) (op : VOp α) (hf : op.Fits l) (hb : op.Below P l) :
    (∃ b, op.room l = some b ∧ P.TooMany b ∧ op.runSeg P d s = .error .threw) ∨
    ∃ s', op.runSeg P d s = .ok s' ∧ RepS P s' (op.list d l) := by
  have hw : ∀ {b m}, op.room l = some b → STries P b (op.runSeg P d s) m →
      (∃ b, op.room l = some b ∧ P.TooMany b ∧ op.runSeg P d s = .error .threw) ∨ ∃ s', op.runSeg P d s = .ok s' ∧ RepS P s' m :=
    fun {b m} e h => h.imp (fun h => ⟨b, e, h⟩) id
  cases op with
  | pushBack x => exact hw rfl (stries_emplaceBack hP h hb x)
  | popBack => exact .inr (popBack_seg hP h)
  | resize n => exact hw rfl (stries_resize hP h n d)
  | resizeVal n x => exact hw rfl (stries_resize hP h n x)
  | reserve n => exact hw rfl (stries_reserve hP h n)
  | shrinkToFit => exact .inr (shrinkToFit_seg hP h)
  | clear => exact .inr (clear_seg hP h)
  | freeData => exact .inr (freeData_seg hP h)
  | assign n x => exact hw rfl (stries_assign hP h n x)
  | insert i n x => exact hw rfl (stries_insert hP d h hf n x)
  | erase i j => exact .inr (erase_seg hP d h hf.1 hf.2)
  | set i x =>
    obtain ⟨s', e, h1, -⟩ := set_seg hP h hf x
    exact .inr ⟨s', e, h1⟩

theorem sreach_rep (hP : P.Ok) {s : SV α} {l : List α} (h : SReach P d s l) : RepS P s l := by
  induction h with
  | new => exact rep_new_seg
  | call h hf hb e ih =>
    rcases vop_stries (d := d) hP ih _ hf hb with ⟨-, -, -, e'⟩ | ⟨w, e', h'⟩
    · rw [e] at e'; cases e'
    · rw [e] at e'; cases e'; exact h'

/-- What holds of a `segment_vector` after any calls. -/
def SegList (P : Policy) (d : α) : Prop :=
  ∀ (s : SV α) (l : List α), SReach P d s l →
    s.size = .ok l.length ∧ l.length ≤ s.capacity P ∧ (∀ i x, l[i]? = some x → s.get P i = .ok x) ∧
    ∀ op : VOp α, op.Fits l → op.Below P l →
      (∃ s', op.runSeg P d s = .ok s' ∧ SReach P d s' (op.list d l)) ∨
      (op.runSeg P d s = .error .threw ∧ ∃ b, op.room l = some b ∧ P.TooMany b)

theorem segList_of_ok (hP : P.Ok) : SegList P d := by
  intro s l h
  have hr := sreach_rep hP h
  refine ⟨size_spec hP hr, by rw [capacity_spec hP]; exact hr.le, fun i x hx => ?_, fun op hf hb => ?_⟩
  · obtain ⟨hi, rfl⟩ := List.getElem?_eq_some_iff.mp hx
    exact get_seg hP hr hi
  · rcases vop_stries (d := d) hP hr op hf hb with ⟨b, hb', ht, e⟩ | ⟨s', e, -⟩
    · exact .inr ⟨e, b, hb', ht⟩
    · exact .inl ⟨s', e, .call h hf hb e⟩

/-- **C70, partial: the exponential policy.** Whatever calls have been made on a `segment_vector` whose segments have 2, 2, 4, 8, ...
elements, in an array of `k` segments (`max_size()` no more than fits) or in a vector of segments: its elements are those of the list
that the same calls make, and the next call succeeds and does the same to both, or throws because there cannot be that many elements
or a segment that large.  No call leaves its segments or their elements, no assertion fails, `segment_capacity_validation` included.
Missing for the full claim: values that are elements of the vector (refuted by `c70_insert_own`), destroying every element
(`c70_not_destroyed`) and freeing all memory (`c70_memory_kept`). -/
theorem c70_exponential_partial {max smax : Nat} {limit : Option Nat} (hl : ∀ k, limit = some k → 0 < k ∧ max ≤ 2 ^ k) :
    SegList (.exponential max smax limit) d :=
  segList_of_ok (exponential_ok (fun k hk => (hl k hk).2) fun e => Nat.lt_irrefl 0 (hl 0 e).1)

/-- **C70, partial: the fixed policy.** The same for segments of `k` elements each. -/
theorem c70_fixed_partial {k max smax : Nat} {limit : Option Nat} (hk : 0 < k) (hl : ∀ m, limit = some m → max ≤ m * k) :
    SegList (.fixed k max smax limit) d := segList_of_ok (fixed_ok hk hl)

/-! ## Where it is not a list -/

/-- Some calls one after the other; for the witnesses. -/
def scalls (P : Policy) (d : α) : List (VOp α) → SV α → R (SV α)
  | [], s => .ok s
  | op :: ops, s => do
    let s ← op.runSeg P d s
    scalls P d ops s

/-- What can be seen of a segment vector: its elements, the capacities of its segments, the objects lost. -/
def SV.seen (P : Policy) (s : SV α) : List α × List Nat × Nat :=
  ((List.range (s.size.toOption.getD 0)).filterMap fun i => (s.get P i).toOption, s.data.map Vec.cap, (s.data.map Vec.lost).sum)

/-- **C70 is false of the code.** `insert` of a vector's own element inserts another value (segment_vector.hpp:1985-1987: the elements
are moved first): inserting element 2, which is 3, at the front of 1, 2, 3 gives 2, 1, 2, 3. -/
theorem c70_insert_own :
    ((scalls (.exponential 100 100 (some 4)) 0 [.pushBack 1, .pushBack 2, .pushBack 3] (.empty (.exponential 100 100 (some 4)))).bind
      fun s => s.insertOwn (.exponential 100 100 (some 4)) 0 0 1 2).map (SV.seen (.exponential 100 100 (some 4))) =
      .ok ([2, 1, 2, 3], [2, 2, 0, 0], 0) := by decide +kernel

/-- **C70 is false of the code.** `shrink`, which is behind `clear`, `pop_back` and `resize`, cuts the last segment with the `erase` of
`vector` (segment_vector.hpp:2649), so the elements there are not destroyed: an object is lost when the next is made in its place, or
when the memory is freed. -/
theorem c70_not_destroyed :
    (scalls (.exponential 100 100 (some 4)) 0 [.pushBack 1, .pushBack 2, .popBack, .pushBack 3]
      (.empty (.exponential 100 100 (some 4)))).map (SV.seen (.exponential 100 100 (some 4))) = .ok ([1, 3], [2, 0, 0, 0], 1) ∧
    (scalls (.exponential 100 100 (some 4)) 0 [.pushBack 1, .pushBack 2, .clear, .freeData]
      (.empty (.exponential 100 100 (some 4)))).map (SV.seen (.exponential 100 100 (some 4))) = .ok ([], [0, 0, 0, 0], 2) := by
  decide +kernel

/-- **C70 is false of the code.** `free_data` frees the segments in use only; `erase` and `assign` lower their number and keep the
memory of the others (segment_vector.hpp:2255, 1113), so memory is left although the capacity is then 0. -/
theorem c70_memory_kept :
    (scalls (.exponential 100 100 (some 4)) 0 [.resize 4, .erase 1 4, .freeData] (.empty (.exponential 100 100 (some 4)))).map
      (SV.seen (.exponential 100 100 (some 4))) = .ok ([], [0, 2, 0, 0], 0) ∧
    (scalls (.exponential 100 100 (some 4)) 0 [.resize 4, .freeData] (.empty (.exponential 100 100 (some 4)))).map
      (SV.seen (.exponential 100 100 (some 4))) = .ok ([], [0, 0, 0, 0], 0) := by decide +kernel

/-- The policy of the thread counters (C68): 64 segments. -/
example : SegList (.exponential (2 ^ 33) (2 ^ 34) (some 64)) (0 : Nat) :=
  c70_exponential_partial fun k hk => by cases hk; decide

/-- Calls of every kind on two policies; the sizes 2, 2, 4 show in the first, the array of segments that grows and shrinks in the
second. -/
example :
    (scalls (.exponential 100 100 (some 4)) 0 [.pushBack 1, .resizeVal 3 5, .insert 1 2 9, .erase 0 1, .set 3 7]
      (.empty (.exponential 100 100 (some 4)))).map (SV.seen (.exponential 100 100 (some 4))) = .ok ([9, 9, 5, 7], [2, 2, 4, 0], 0) ∧
    (scalls (.fixed 3 100 100 none) 0 [.assign 7 1, .resize 8, .popBack, .clear, .pushBack 4, .shrinkToFit, .reserve 5]
      (.empty (.fixed 3 100 100 none))).map (SV.seen (.fixed 3 100 100 none)) = .ok ([4], [3, 3], 1) ∧
    (scalls (.exponential 100 100 (some 4)) 0 [.resize 101] (.empty (.exponential 100 100 (some 4)))).map
      (SV.seen (.exponential 100 100 (some 4))) = .error .threw := by decide +kernel

/-- A state in which `SegList` says something: five elements in three segments, and one more call. -/
example : ∃ s s', SReach (.fixed 2 100 100 none) 0 s [7, 7, 7, 7, 7] ∧ SReach (.fixed 2 100 100 none) 0 s' [7, 7, 7, 7, 7, 8] := by
  have hS : SegList (.fixed 2 100 100 none) (0 : Nat) := c70_fixed_partial (by decide) fun _ e => by cases e
  have hno : ∀ b, b ≤ 100 → ¬(Policy.fixed 2 100 100 none).TooMany b := by
    rintro b hb (h | ⟨i, -, h⟩)
    · exact absurd h (Nat.not_lt.mpr hb)
    · exact absurd h (by show ¬100 < 2; decide)
  rcases (hS _ _ .new).2.2.2 (.assign 5 7) trivial trivial with ⟨s, -, h⟩ | ⟨-, b, e, h⟩
  · rcases (hS _ _ h).2.2.2 (.pushBack 8) trivial (by show List.length _ < 100; simp [VOp.list]) with ⟨s', -, h'⟩ | ⟨-, b, e, h'⟩
    · exact ⟨s, s', h, h'⟩
    · cases e; exact absurd h' (hno _ (by simp [VOp.list]))
  · cases e; exact absurd h (hno _ (by decide))

end PMap.Pmem.Seg
