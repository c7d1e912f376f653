import Verif.Pmem.Vec

/-!
# `pmem::obj::segment_vector` (include/libpmemobj++/container/segment_vector.hpp)

The segments are the vectors of `Verif.Pmem.Vec`.  The array of segments is a list: with `limit = some k` it is an `array` of `k`
segments, with `limit = none` a `vector` of segments, whose own growth moves the segments and is modelled as a longer list.  As
there, calls run in transactions and snapshots have no effect of their own.
-/

namespace PMap.Pmem.Seg

variable {α : Type}

/-- detail/segment_vector_policies.hpp:85-175, 177-264: the functions of a policy (`get_segment`, `segment_top`, `segment_size`,
`index_in_segment`, `capacity`, `max_size`).  `limit` is the number of segments if they are in an `array` (48-49, 66-75), `smax` the
`max_size()` of a segment. -/
structure Policy where
  seg : Nat → Nat
  top : Nat → Nat
  size : Nat → Nat
  idx : Nat → Nat
  cap : Nat → Nat
  max : Nat
  smax : Nat
  limit : Option Nat

/-- detail/segment_vector_policies.hpp:85-175 `fixed_size_policy`. -/
def Policy.fixed (k max smax : Nat) (limit : Option Nat) : Policy where
  seg n := n / k
  top i := i * k
  size _ := k
  idx n := n % k
  cap i := (i + 1) * k
  max := max
  smax := smax
  limit := limit

/-- detail/segment_vector_policies.hpp:222-226 `segment_top` of `exponential_size_policy`; `& ~1` clears the last bit. -/
def expTop (i : Nat) : Nat := (1 <<< i) - (1 <<< i) % 2

/-- detail/segment_vector_policies.hpp:232-236 `segment_size` of `exponential_size_policy`. -/
def expSize (i : Nat) : Nat := if i = 0 then 2 else expTop i

/-- detail/segment_vector_policies.hpp:177-264 `exponential_size_policy`, with unbounded numbers. -/
def Policy.exponential (max smax : Nat) (limit : Option Nat) : Policy where
  seg n := Nat.log2 (n ||| 1)
  top := expTop
  size := expSize
  idx n := n - expTop (Nat.log2 (n ||| 1))
  cap i := if i = 0 then 2 else expSize i * 2
  max := max
  smax := smax
  limit := limit

/-- segment_vector.hpp:674-677: the members `_data`, `_segments_used`. -/
structure SV (α : Type) where
  data : List (Vec α)
  used : Nat

/-- segment_vector.hpp:759-763: the default constructor; an `array` has all its segments from the start. -/
def SV.empty (P : Policy) : SV α := ⟨List.replicate (P.limit.getD 0) .empty, 0⟩

/-- `_data[i]` and a call on that segment; there is no check of `i`.  No code of its own. -/
def onSeg (data : List (Vec α)) (i : Nat) (f : Vec α → R (Vec α)) : R (List (Vec α)) :=
  match data[i]? with
  | none => .error .ub
  | some v => do
    let w ← f v
    .ok (data.set i w)

/-- segment_vector.hpp:1741-1755 `size`. -/
def SV.size (s : SV α) : R Nat :=
  if s.used ≤ s.data.length then .ok ((s.data.take s.used).map Vec.size).sum else .error .assertion

/-- segment_vector.hpp:1800-1806 `capacity`. -/
def SV.capacity (P : Policy) (s : SV α) : Nat := if s.used = 0 then 0 else P.cap (s.used - 1)

/-- segment_vector.hpp:2754-2761 `segment_capacity_validation`, inside `assert`. -/
def SV.validate (P : Policy) (s : SV α) : R (SV α) := do
  ensure ((List.range s.used).all fun i =>
    match s.data[i]? with
    | none => false
    | some v => v.cap == P.size i)
  .ok s

/-- detail/segment_vector_policies.hpp:51-75 `segment_vector_resize`: nothing for an `array`. -/
def resizeData (P : Policy) (data : List (Vec α)) (n : Nat) : List (Vec α) :=
  match P.limit with
  | some _ => data
  | none => data.take n ++ List.replicate (n - data.length) .empty

/-- segment_vector.hpp:2464-2468: the `n` segments from `i` on are given their memory. -/
def reserveSegs (P : Policy) (data : List (Vec α)) : (n i : Nat) → R (List (Vec α))
  | 0, _ => .ok data
  | n + 1, i => do
    let data ← onSeg data i fun v => v.reserve P.smax (P.size i)
    reserveSegs P data n (i + 1)

/-- segment_vector.hpp:2451-2472 `internal_reserve`. -/
def SV.internalReserve (P : Policy) (s : SV α) (n : Nat) : R (SV α) :=
  if P.max < n then .error .threw
  else if n = 0 then .ok s
  else do
    let data ← reserveSegs P (resizeData P s.data (P.seg (n - 1) + 1)) (P.seg (n - 1) + 1 - P.seg (s.capacity P)) (P.seg (s.capacity P))
    SV.validate P ⟨data, P.seg (n - 1) + 1⟩

/-- segment_vector.hpp:1786-1793 `reserve`. -/
def SV.reserve (P : Policy) (s : SV α) (n : Nat) : R (SV α) := if n ≤ s.capacity P then .ok s else s.internalReserve P n

/-- segment_vector.hpp:2508-2511: the loop of `construct`, `n` elements from index `i` on. -/
def constructSegs (P : Policy) (x : α) (data : List (Vec α)) : (n i : Nat) → R (List (Vec α))
  | 0, _ => .ok data
  | n + 1, i => do
    let data ← onSeg data (P.seg i) fun v => v.emplaceBack P.smax x
    constructSegs P x data n (i + 1)

/-- segment_vector.hpp:2502-2514 `construct`. -/
def SV.construct (P : Policy) (s : SV α) (i n : Nat) (x : α) : R (SV α) := do
  let k ← s.size
  ensure (decide (k + n ≤ s.capacity P))
  let data ← constructSegs P x s.data n i
  SV.validate P { s with data := data }

/-- segment_vector.hpp:2645-2647, 2251-2252: the `n` segments above segment `e` are cleared, the last one first. -/
def clearSegs (data : List (Vec α)) (e : Nat) : Nat → R (List (Vec α))
  | 0 => .ok data
  | n + 1 => do
    let data ← onSeg data (e + n + 1) Vec.clear
    clearSegs data e n

/-- segment_vector.hpp:2633-2652 `shrink`. -/
def SV.shrink (P : Policy) (s : SV α) (n : Nat) : R (SV α) := do
  let k ← s.size
  ensure (decide (n ≤ k))
  if k = 0 then .ok s
  else do
    let data ← clearSegs s.data (P.seg n) (P.seg (k - 1) - P.seg n)
    let data ← onSeg data (P.seg n) fun v => v.erase (P.idx n) v.size
    SV.validate P { s with data := data }

/-- segment_vector.hpp:2362-2376, 2404-2419 `resize(count)` and `resize(count, value)`. -/
def SV.resize (P : Policy) (s : SV α) (n : Nat) (x : α) : R (SV α) := do
  let k ← s.size
  let s ← if n < k then s.shrink P n
    else do
      let s ← if s.capacity P < n then s.internalReserve P n else .ok s
      s.construct P k (n - k) x
  s.validate P

/-- segment_vector.hpp:2153-2168 `emplace_back` (also `push_back`, 2281-2285, 2306-2310). -/
def SV.emplaceBack (P : Policy) (s : SV α) (x : α) : R (SV α) := do
  let k ← s.size
  ensure (decide (k < P.max))
  let s ← if k = s.capacity P then s.internalReserve P (s.capacity P + 1) else .ok s
  let k ← s.size
  let data ← onSeg s.data (P.seg k) fun v => v.emplaceBack P.smax x
  .ok { s with data := data }

/-- segment_vector.hpp:2325-2334 `pop_back`. -/
def SV.popBack (P : Policy) (s : SV α) : R (SV α) := do
  let k ← s.size
  if k = 0 then .ok s
  else do
    let s ← s.shrink P (k - 1)
    s.validate P

/-- segment_vector.hpp:1850-1856 `clear`. -/
def SV.clear (P : Policy) (s : SV α) : R (SV α) := do
  let s ← s.shrink P 0
  s.validate P

/-- segment_vector.hpp:1831-1832, 1876-1877: `n` segments from `i` on are freed. -/
def freeSegs (data : List (Vec α)) : (n i : Nat) → R (List (Vec α))
  | 0, _ => .ok data
  | n + 1, i => do
    let data ← onSeg data i Vec.freeData
    freeSegs data n (i + 1)

/-- segment_vector.hpp:1871-1880 `free_data`. -/
def SV.freeData (s : SV α) : R (SV α) := do
  let data ← freeSegs s.data s.used 0
  .ok ⟨data, 0⟩

/-- segment_vector.hpp:1820-1836 `shrink_to_fit`. -/
def SV.shrinkToFit (P : Policy) (s : SV α) : R (SV α) := do
  let k ← s.size
  if k = 0 then .ok s
  else if s.used - 1 = P.seg (k - 1) then .ok s
  else do
    let data ← freeSegs s.data (s.used - (P.seg (k - 1) + 1)) (P.seg (k - 1) + 1)
    .ok ⟨resizeData P data (P.seg (k - 1) + 1), P.seg (k - 1) + 1⟩

/-- segment_vector.hpp:1108-1109: the `n` segments from `i` on are filled. -/
def assignSegs (P : Policy) (x : α) (data : List (Vec α)) : (n i : Nat) → R (List (Vec α))
  | 0, _ => .ok data
  | n + 1, i => do
    let data ← onSeg data i fun v => v.assign P.smax (P.size i) x
    assignSegs P x data n (i + 1)

/-- segment_vector.hpp:1089-1117 `assign(count, value)`. -/
def SV.assign (P : Policy) (s : SV α) (n : Nat) (x : α) : R (SV α) :=
  if P.max < n then .error .threw
  else do
    let k ← s.size
    let s ← if s.capacity P < n then s.internalReserve P n else if n < k then s.shrink P n else .ok s
    if n = 0 then s.validate P
    else do
      let data ← assignSegs P x s.data (P.seg (n - 1)) 0
      let data ← onSeg data (P.seg (n - 1)) fun v => v.assign P.smax (n - P.top (P.seg (n - 1))) x
      SV.validate P ⟨data, P.seg (n - 1) + 1⟩

/-- segment_vector.hpp:2707-2714 `get`; there is no check. -/
def SV.get (P : Policy) (s : SV α) (n : Nat) : R α :=
  match s.data[P.seg n]? with
  | none => .error .ub
  | some v => v.get (P.idx n)

/-- segment_vector.hpp:2707-2714 `get` and an assignment to the element. -/
def SV.set (P : Policy) (s : SV α) (n : Nat) (x : α) : R (SV α) := do
  let data ← onSeg s.data (P.seg n) fun v => v.set (P.idx n) x
  .ok { s with data := data }

/-- segment_vector.hpp:2243: `std::move` of `n` elements from index `j` on to index `i` on. -/
def SV.moveDown (P : Policy) (s : SV α) : (n i j : Nat) → R (SV α)
  | 0, _, _ => .ok s
  | n + 1, i, j => do
    let x ← s.get P j
    let s ← s.set P i x
    SV.moveDown P s n (i + 1) (j + 1)

/-- segment_vector.hpp:2224-2261 `erase(first, last)`, the elements from `i` up to but not including `j`. -/
def SV.erase (P : Policy) (d : α) (s : SV α) (i j : Nat) : R (SV α) :=
  if j - i = 0 then .ok s
  else do
    let k ← s.size
    let s ← s.moveDown P (k - j) i j
    let data ← clearSegs s.data (P.seg (k - (j - i))) (P.seg (k - 1) - P.seg (k - (j - i)))
    let data ← onSeg data (P.seg (k - (j - i))) fun v => v.resize P.smax (P.idx (k - (j - i))) d
    SV.validate P ⟨data, P.seg (k - (j - i)) + 1⟩

/-- segment_vector.hpp:2607: `std::move_backward` by `c` places of the `k` elements from index `i` on. -/
def SV.moveUp (P : Policy) (s : SV α) (i c : Nat) : Nat → R (SV α)
  | 0 => .ok s
  | k + 1 => do
    let x ← s.get P (i + k)
    let s ← s.set P (i + k + c) x
    SV.moveUp P s i c k

/-- segment_vector.hpp:2588-2610 `insert_gap`. -/
def SV.insertGap (P : Policy) (d : α) (s : SV α) (i n : Nat) : R (SV α) :=
  if n = 0 then .ok s
  else do
    let k ← s.size
    let s ← if s.capacity P < k + n then s.internalReserve P (k + n) else .ok s
    let s ← s.resize P (k + n) d
    let s ← s.moveUp P i n (k - i)
    s.validate P

/-- segment_vector.hpp:1986-1987: `n` elements from index `i` on are assigned the value that `src` gives. -/
def SV.fillFrom (P : Policy) (src : SV α → R α) (s : SV α) : (n i : Nat) → R (SV α)
  | 0, _ => .ok s
  | n + 1, i => do
    let x ← src s
    let s ← s.set P i x
    SV.fillFrom P src s n (i + 1)

/-- segment_vector.hpp:1977-1991 `insert(pos, count, value)` (also 1906-1910, 1936-1948, and 2111-2126 `emplace`, whose value is a
copy): the value is not in the vector. -/
def SV.insert (P : Policy) (d : α) (s : SV α) (i n : Nat) (x : α) : R (SV α) := do
  let s ← s.insertGap P d i n
  s.fillFrom P (fun _ => .ok x) n i

/-- segment_vector.hpp:1977-1991 `insert(pos, count, v[j])`: the value is element `j` of the vector itself. -/
def SV.insertOwn (P : Policy) (d : α) (s : SV α) (i n j : Nat) : R (SV α) := do
  let s ← s.insertGap P d i n
  s.fillFrom P (fun s => s.get P j) n i

/-- What a call of `VOp` does to a `segment_vector`; `d` is the default value.  No code of its own. -/
def VOp.runSeg (P : Policy) (d : α) (s : SV α) : VOp α → R (SV α)
  | .pushBack x => s.emplaceBack P x
  | .popBack => s.popBack P
  | .resize n => s.resize P n d
  | .resizeVal n x => s.resize P n x
  | .reserve n => s.reserve P n
  | .shrinkToFit => s.shrinkToFit P
  | .clear => s.clear P
  | .freeData => s.freeData
  | .assign n x => s.assign P n x
  | .insert i n x => s.insert P d i n x
  | .erase i j => s.erase P d i j
  | .set i x => s.set P i x

end PMap.Pmem.Seg
