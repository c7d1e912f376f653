import Mathlib.Data.Nat.Log

/-!
# `pmem::obj::vector` (include/libpmemobj++/container/vector.hpp)

The array is modelled cell by cell: a cell holds an object or is raw memory.  Each function runs in a transaction, so an exception
leaves the vector as it was; a crash does the same.  The allocator is a parameter: it gives any number of cells up to `max`
(`max_size`, 1385-1388, at most); running out of memory is an exception too.  A moved-from object keeps its value (as the counters
of C68 do).  Snapshots (`add_data_to_tx`) have no effect of their own here.
-/

namespace PMap.Pmem.Seg

variable {α : Type}

/-- How a call can end badly: an exception (the transaction is undone), undefined behaviour, a failing `assert`.  No code of its
own. -/
inductive Err
  | threw
  | ub
  | assertion
  deriving DecidableEq

/-- Outcomes of calls; no code of its own. -/
abbrev R := Except Err

/-- vector.hpp:274-280: the members `_data`, `_size`, `_capacity`.  `lost` is a ghost: the number of objects that were created in
the array and whose memory was reused or freed without destroying them. -/
structure Vec (α : Type) where
  cell : Nat → Option α
  size : Nat
  cap : Nat
  lost : Nat

/-- vector.hpp:347-356: the default constructor. -/
def Vec.empty : Vec α := ⟨fun _ => none, 0, 0, 0⟩

/-- `assert`; no code of its own. -/
def ensure (b : Bool) : R Unit := if b then .ok () else .error .assertion

/-- Reading the object in a cell; raw memory is undefined behaviour.  No code of its own. -/
def load (c : Nat → Option α) (i : Nat) : R α :=
  match c i with
  | none => .error .ub
  | some x => .ok x

/-- detail/life.hpp `create`: an object is made in a cell; one that was there is not destroyed. -/
def Vec.create (v : Vec α) (i : Nat) (x : α) : R (Vec α) :=
  if i < v.cap then
    .ok { v with cell := fun j => if j = i then some x else v.cell j, lost := v.lost + if (v.cell i).isSome then 1 else 0 }
  else .error .ub

/-- Assignment to the object in a cell.  No code of its own. -/
def Vec.assignAt (v : Vec α) (i : Nat) (x : α) : R (Vec α) :=
  match v.cell i with
  | none => .error .ub
  | some _ => .ok { v with cell := fun j => if j = i then some x else v.cell j }

/-- detail/life.hpp `destroy`. -/
def Vec.destroy (v : Vec α) (i : Nat) : R (Vec α) :=
  match v.cell i with
  | none => .error .ub
  | some _ => .ok { v with cell := fun j => if j = i then none else v.cell j }

/-- vector.hpp:2147-2158 `construct_at_end(count, value)`; `_size` is counted up with each object, not once at the end. -/
def Vec.appendN (v : Vec α) (x : α) : Nat → R (Vec α)
  | 0 => .ok v
  | n + 1 => do
    let v ← v.create v.size x
    Vec.appendN { v with size := v.size + 1 } x n

/-- vector.hpp:2147-2158 with its `assert`. -/
def Vec.constructAtEnd (v : Vec α) (n : Nat) (x : α) : R (Vec α) := do
  ensure (decide (n + v.size ≤ v.cap))
  v.appendN x n

/-- vector.hpp:2187-2203 `construct_at_end(first, last)`: `n` objects moved from the cells `i`, `i + 1`, ... of `src`. -/
def Vec.appendFrom (src : Nat → Option α) (v : Vec α) : (n i : Nat) → R (Vec α)
  | 0, _ => .ok v
  | n + 1, i => do
    let x ← load src i
    let v ← v.create v.size x
    Vec.appendFrom src { v with size := v.size + 1 } n (i + 1)

/-- vector.hpp:2470-2472: `n` objects are destroyed, from cell `i` on. -/
def Vec.destroyFrom (v : Vec α) : (n i : Nat) → R (Vec α)
  | 0, _ => .ok v
  | n + 1, i => do
    let v ← v.destroy i
    Vec.destroyFrom v n (i + 1)

/-- vector.hpp:2463-2474 `shrink`. -/
def Vec.shrink (v : Vec α) (n : Nat) : R (Vec α) := do
  ensure (decide (n ≤ v.size))
  let w ← v.destroyFrom (v.size - n) n
  .ok { w with size := n }

/-- The objects behind the last element: nobody will destroy them when the array is freed.  Ghost, no code of its own. -/
def Vec.behind (v : Vec α) : Nat := (List.range v.cap).countP fun i => decide (v.size ≤ i) && (v.cell i).isSome

/-- vector.hpp:2217-2230 `dealloc`. -/
def Vec.dealloc (v : Vec α) : R (Vec α) := do
  let w ← v.shrink 0
  .ok ⟨fun _ => none, 0, 0, w.lost + w.behind⟩

/-- vector.hpp:2059-2096 `alloc`; `max` is `max_size()`. -/
def Vec.alloc (max : Nat) (v : Vec α) (n : Nat) : R (Vec α) := do
  ensure (decide (v.size = 0))
  if max < n then .error .threw else .ok { v with cell := fun _ => none, cap := n }

/-- vector.hpp:2418-2425, 2377-2384: the old array is destroyed and freed. -/
def Vec.freeOld (old v : Vec α) : R (Vec α) := do
  let w ← old.destroyFrom old.size 0
  .ok { v with lost := v.lost + w.behind }

/-- vector.hpp:2397-2426 `realloc`. -/
def Vec.realloc (max : Nat) (v : Vec α) (n : Nat) : R (Vec α) := do
  let w ← Vec.alloc max ⟨fun _ => none, 0, 0, v.lost⟩ n
  let w ← w.appendFrom v.cell (if n < v.size then n else v.size) 0
  v.freeOld w

/-- detail/common.hpp:212-223 `next_pow_2` (the least power of two not below; the bits are not modelled). -/
def nextPow2 (n : Nat) : Nat := 2 ^ Nat.clog 2 n

/-- vector.hpp:1775-1796 `emplace_back` (also 1895-1900 `push_back`); the value is not an element of the vector. -/
def Vec.emplaceBack (max : Nat) (v : Vec α) (x : α) : R (Vec α) := do
  let v ← if v.size = v.cap then v.realloc max (nextPow2 (v.size + 1)) else .ok v
  v.constructAtEnd 1 x

/-- vector.hpp:1935-1942 `pop_back`. -/
def Vec.popBack (v : Vec α) : R (Vec α) := if v.size = 0 then .ok v else v.shrink (v.size - 1)

/-- vector.hpp:1962-1974 `resize(count)`; `x` is the default value. -/
def Vec.resize (max : Nat) (v : Vec α) (n : Nat) (x : α) : R (Vec α) :=
  if n ≤ v.size then v.shrink n
  else do
    let v ← if v.cap < n then v.realloc max n else .ok v
    v.constructAtEnd (n - v.size) x

/-- vector.hpp:1995-2010 `resize(count, value)`. -/
def Vec.resizeVal (max : Nat) (v : Vec α) (n : Nat) (x : α) : R (Vec α) :=
  if v.cap = n then .ok v else v.resize max n x

/-- vector.hpp:1410-1417 `reserve`. -/
def Vec.reserve (max : Nat) (v : Vec α) (n : Nat) : R (Vec α) := if n ≤ v.cap then .ok v else v.realloc max n

/-- vector.hpp:1445-1453 `shrink_to_fit`. -/
def Vec.shrinkToFit (max : Nat) (v : Vec α) : R (Vec α) := if v.cap = v.size then .ok v else v.realloc max v.size

/-- vector.hpp:1465-1469 `clear`. -/
def Vec.clear (v : Vec α) : R (Vec α) := v.shrink 0

/-- vector.hpp:1485-1492 `free_data`. -/
def Vec.freeData (v : Vec α) : R (Vec α) := if v.cap = 0 then .ok v else v.dealloc

/-- vector.hpp:672-676: `std::fill_n`. -/
def Vec.fill (v : Vec α) (x : α) : (n i : Nat) → R (Vec α)
  | 0, _ => .ok v
  | n + 1, i => do
    let v ← v.assignAt i x
    Vec.fill v x n (i + 1)

/-- vector.hpp:659-692 `assign(count, value)`. -/
def Vec.assign (max : Nat) (v : Vec α) (n : Nat) (x : α) : R (Vec α) :=
  if n ≤ v.cap then do
    let w ← v.fill x (min n v.size) 0
    if v.size < n then w.constructAtEnd (n - v.size) x else w.shrink n
  else do
    let w ← v.dealloc
    let w ← w.alloc max n
    w.constructAtEnd n x

/-- vector.hpp:2257-2266 `move_elements_backward` by `count` places; `k` elements from `idx` on are left to move. -/
def Vec.moveUp (v : Vec α) (idx count : Nat) : Nat → R (Vec α)
  | 0 => .ok v
  | k + 1 => do
    let x ← load v.cell (idx + k)
    let v ← if v.size ≤ idx + k + 1 + count then v.create (idx + k + count) x else v.assignAt (idx + k + count) x
    Vec.moveUp v idx count k

/-- vector.hpp:2276-2295 `construct_or_assign`, `n` values left, from cell `i` on; `src` gives the value (`*first`). -/
def Vec.fillGap (src : Vec α → R α) (v : Vec α) : (n i : Nat) → R (Vec α)
  | 0, _ => .ok v
  | n + 1, i => do
    let x ← src v
    let v ← if i < v.size then v.assignAt i x else v.create i x
    Vec.fillGap src v n (i + 1)

/-- vector.hpp:2319-2386 `internal_insert`, with a source that may be in the vector. -/
def Vec.insertFrom (max : Nat) (src : Vec α → R α) (v : Vec α) (idx n : Nat) : R (Vec α) :=
  if v.size + n ≤ v.cap then do
    let w ← v.moveUp idx n (v.size - idx)
    let w ← w.fillGap src n idx
    .ok { w with size := w.size + n }
  else do
    let x ← src v
    let w ← Vec.alloc max ⟨fun _ => none, 0, 0, v.lost⟩ (nextPow2 (v.size + n))
    let w ← w.appendFrom v.cell idx 0
    let w ← w.constructAtEnd n x
    let w ← w.appendFrom v.cell (v.size - idx) idx
    v.freeOld w

/-- vector.hpp:1595-1609 `insert(pos, count, value)` (also 1520-1523, and 1725-1748 `emplace`, whose value is a copy): the value is
not in the vector. -/
def Vec.insert (max : Nat) (v : Vec α) (idx n : Nat) (x : α) : R (Vec α) := v.insertFrom max (fun _ => .ok x) idx n

/-- vector.hpp:1595-1609 `insert(pos, count, v[j])`: the value is element `j` of the vector itself. -/
def Vec.insertOwn (max : Nat) (v : Vec α) (idx n j : Nat) : R (Vec α) := v.insertFrom max (fun w => load w.cell j) idx n

/-- vector.hpp:1868: `std::move` of `n` elements from cell `j` on to cell `i` on. -/
def Vec.moveDown (v : Vec α) : (n i j : Nat) → R (Vec α)
  | 0, _, _ => .ok v
  | n + 1, i, j => do
    let x ← load v.cell j
    let v ← v.assignAt i x
    Vec.moveDown v n (i + 1) (j + 1)

/-- vector.hpp:1847-1876 `erase(first, last)`, the elements from `i` up to but not including `j`. -/
def Vec.erase (v : Vec α) (i j : Nat) : R (Vec α) :=
  if j - i = 0 then .ok v
  else do
    let w ← v.moveDown (v.size - j) i j
    .ok { w with size := w.size - (j - i) }

/-- vector.hpp `operator[]` (945-963): element `i`; there is no check. -/
def Vec.get (v : Vec α) (i : Nat) : R α := if i < v.size then load v.cell i else .error .ub

/-- vector.hpp `operator[]` (945-950) and an assignment. -/
def Vec.set (v : Vec α) (i : Nat) (x : α) : R (Vec α) := if i < v.size then v.assignAt i x else .error .ub

/-! ## The calls -/

/-- The calls of `vector` that are modelled, with the lines given at their definitions. -/
inductive VOp (α : Type)
  | pushBack (x : α)
  | popBack
  | resize (n : Nat)
  | resizeVal (n : Nat) (x : α)
  | reserve (n : Nat)
  | shrinkToFit
  | clear
  | freeData
  | assign (n : Nat) (x : α)
  | insert (i n : Nat) (x : α)
  | erase (i j : Nat)
  | set (i : Nat) (x : α)

/-- What a call does; `d` is the default value.  No code of its own. -/
def VOp.run (max : Nat) (d : α) (v : Vec α) : VOp α → R (Vec α)
  | .pushBack x => v.emplaceBack max x
  | .popBack => v.popBack
  | .resize n => v.resize max n d
  | .resizeVal n x => v.resizeVal max n x
  | .reserve n => v.reserve max n
  | .shrinkToFit => v.shrinkToFit max
  | .clear => v.clear
  | .freeData => v.freeData
  | .assign n x => v.assign max n x
  | .insert i n x => v.insert max i n x
  | .erase i j => v.erase i j
  | .set i x => v.set i x

end PMap.Pmem.Seg
