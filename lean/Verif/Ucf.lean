import Verif.AMap

/-!
# The containers the tests use: `containers/ucfMap.hpp` and `containers/stlMap.hpp`
-/

namespace PMap

open Prog

/-! ## ucf::container_type -/

/-- The calls of a container (containers/container.hpp:11-21). -/
inductive UOp
  | insert (el : Word)
  | erase (el : Word)
  | contains (el : Word)
  | get (el : Word)
  | count
  | increment (el : Word)
  deriving DecidableEq

/-- ucfMap.hpp:13-21 `insert`. -/
def ucfInsert (hash : Word → Word) (n : Nat) (el : Word) : Prog Bool := do
  let shiftedEl := el <<< BITS_MARKED
  let x ← mapPut hash n shiftedEl shiftedEl
  return x == shiftedEl
/-- ucfMap.hpp:23-26 `erase`. -/
def ucfErase (hash : Word → Word) (n : Nat) (el : Word) : Prog Bool :=
  mapRemove hash n (el <<< BITS_MARKED)
/-- ucfMap.hpp:28-31 `contains`. -/
def ucfContains (hash : Word → Word) (n : Nat) (el : Word) : Prog Bool :=
  mapContainsKey hash n (el <<< BITS_MARKED)
/-- ucfMap.hpp:33-36 `get`. -/
def ucfGet (hash : Word → Word) (n : Nat) (el : Word) : Prog Word := do
  let x ← mapGet hash n (el <<< BITS_MARKED)
  return x >>> BITS_MARKED
/-- ucfMap.hpp:38-41 `count`. -/
def ucfCount : Prog Word := mapSize
/-- ucfMap.hpp:43-46 `increment`. -/
def ucfIncrement (hash : Word → Word) (n : Nat) (el : Word) : Prog Word :=
  mapUpdate hash n (el <<< BITS_MARKED) (((1#64 <<< 61) - 3#64) <<< BITS_MARKED)

/-- The program of a container call (ucfMap.hpp:13-46). -/
def UOp.prog (hash : Word → Word) (n : Nat) : UOp → Prog Res
  | .insert el => do return .bool (← ucfInsert hash n el)
  | .erase el => do return .bool (← ucfErase hash n el)
  | .contains el => do return .bool (← ucfContains hash n el)
  | .get el => do return .word (← ucfGet hash n el)
  | .count => do return .word (← ucfCount)
  | .increment el => do return .word (← ucfIncrement hash n el)

/-- Elements the container can hold: ucfMap.hpp shifts them by three and hashMap.hpp:1350-1363 reserves the four words
whose upper bits are all ones but two. -/
def Element (el : Word) : Prop := el.toNat < 2 ^ 61 - 4

/-- A container call on elements it can hold (ucfMap.hpp:13-46). -/
def UOp.Valid : UOp → Prop
  | .insert el | .erase el | .contains el | .get el | .increment el => Element el
  | .count => True

/-- Is the call `increment` (container.hpp:21)? -/
def UOp.isInc : UOp → Bool
  | .increment _ => true
  | _ => false

/-- A single thread brings the container from its construction to memory `m` by valid calls other than `increment`;
`S` is the set of elements after the same calls on an ordinary set (no code of its own). -/
inductive UReach (hash : Word → Word) (len cap : Nat) : Mem → (Word → Bool) → Prop
  | init : UReach hash len cap (freshMem len cap) (fun _ => false)
  | insert {m m' : Mem} {S : Word → Bool} {el : Word} {r : Bool} (n : Nat) : UReach hash len cap m S → Element el →
      run (ucfInsert hash n el) m = .done r m' → UReach hash len cap m' (fun x => x == el || S x)
  | erase {m m' : Mem} {S : Word → Bool} {el : Word} {r : Bool} (n : Nat) : UReach hash len cap m S → Element el →
      run (ucfErase hash n el) m = .done r m' → UReach hash len cap m' (fun x => x != el && S x)
  | contains {m m' : Mem} {S : Word → Bool} {el : Word} {r : Bool} (n : Nat) : UReach hash len cap m S → Element el →
      run (ucfContains hash n el) m = .done r m' → UReach hash len cap m' S
  | get {m m' : Mem} {S : Word → Bool} {el r : Word} (n : Nat) : UReach hash len cap m S → Element el →
      run (ucfGet hash n el) m = .done r m' → UReach hash len cap m' S
  | count {m m' : Mem} {S : Word → Bool} {r : Word} : UReach hash len cap m S →
      run ucfCount m = .done r m' → UReach hash len cap m' S

/-- A single thread brings the container from its construction to memory `m` by any valid calls (no code of its own). -/
inductive UReachAny (hash : Word → Word) (len cap : Nat) : Mem → Prop
  | init : UReachAny hash len cap (freshMem len cap)
  | step {m m' : Mem} {op : UOp} {r : Res} (n : Nat) : UReachAny hash len cap m → op.Valid →
      run (op.prog hash n) m = .done r m' → UReachAny hash len cap m'

/-! ## stl::container_type -/

/-- `std::map<KeyT, ValT>` (stlMap.hpp:17) as its list of elements in iteration order (increasing keys). -/
abbrev StdMap := List (Word × Word)

namespace StdMap

/-- The value stored under a key (`at`, stlMap.hpp:38-48). -/
def find (k : Word) : StdMap → Option Word
  | [] => none
  | (k', v') :: l => if k = k' then some v' else find k l

/-- `std::map::insert` (stlMap.hpp:19-24): an existing entry is kept; `.second` says whether the entry is new.  New entries go to their
place in the order. -/
def insert (k v : Word) : StdMap → StdMap × Bool
  | [] => ([(k, v)], true)
  | (k', v') :: l =>
    if k = k' then ((k', v') :: l, false)
    else if k < k' then ((k, v) :: (k', v') :: l, true)
    else ((k', v') :: (insert k v l).1, (insert k v l).2)

/-- `std::map::erase(key)` (stlMap.hpp:26-30): the number of entries removed. -/
def erase (k : Word) : StdMap → StdMap × Nat
  | [] => ([], 0)
  | (k', v') :: l => if k = k' then (l, 1) else ((k', v') :: (erase k l).1, (erase k l).2)

/-- `std::map::count(key)` (stlMap.hpp:32-36). -/
def count (k : Word) (m : StdMap) : Nat := if (find k m).isSome then 1 else 0

/-- Assignment `m[k] = v` (stlMap.hpp:55-65), after `m[k]` has made sure there is an entry. -/
def assign (k v : Word) : StdMap → StdMap
  | [] => [(k, v)]
  | (k', v') :: l =>
    if k = k' then (k', v) :: l
    else if k < k' then (k, v) :: (k', v') :: l
    else (k', v') :: assign k v l

/-- `operator[]` (stlMap.hpp:55-65): inserts a zero if there is no entry (the result is the entry's value and the map). -/
def index (k : Word) (m : StdMap) : Word × StdMap :=
  match find k m with
  | some v => (v, m)
  | none => (0#64, (insert k 0#64 m).1)

end StdMap

/-- stlMap.hpp:19-24 `insert`. -/
def stlInsert (el : Word) (c : StdMap) : Bool × StdMap := ((c.insert el el).2, (c.insert el el).1)
/-- stlMap.hpp:26-30 `erase`. -/
def stlErase (el : Word) (c : StdMap) : Bool × StdMap := ((c.erase el).2 == 1, (c.erase el).1)
/-- stlMap.hpp:32-36 `contains`. -/
def stlContains (el : Word) (c : StdMap) : Bool := decide (0 < c.count el)
/-- stlMap.hpp:38-48 `get`: `at` throws for an absent key, and the handler returns 0. -/
def stlGet (el : Word) (c : StdMap) : Word := (c.find el).getD 0#64
/-- stlMap.hpp:50-53 `count`. -/
def stlCount (c : StdMap) : Nat := c.length
/-- stlMap.hpp:55-65 `increment`: `operator[]`, add one, `operator[]` again and assign. -/
def stlIncrement (el : Word) (c : StdMap) : Word × StdMap :=
  let (t, c) := c.index el
  let t := t + 1#64
  let c := (c.index el).2
  (t, c.assign el t)

/-- The states of the reference container reachable by calls (stlMap.hpp:19-65), with the map from elements to counters they should
stand for. -/
inductive StlReach : StdMap → AMap → Prop
  | init : StlReach [] AMap.empty
  | insert {c : StdMap} {M : AMap} (el : Word) : StlReach c M →
      StlReach (stlInsert el c).2 (if M el = none then M.set el el else M)
  | erase {c : StdMap} {M : AMap} (el : Word) : StlReach c M → StlReach (stlErase el c).2 (M.erase el)
  | increment {c : StdMap} {M : AMap} (el : Word) : StlReach c M →
      StlReach (stlIncrement el c).2 (M.set el ((M el).getD 0#64 + 1#64))

end PMap
