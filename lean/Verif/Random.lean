import Verif.Conc
import Verif.Harness
import Verif.Ucf

/-!
# The random test: `tests/random.hpp`

The results of `rand()` that one thread gets are a list.  A function gives `none` if the list is used up.
-/

namespace PMap

/-- The call of the map that a container call makes (ucfMap.hpp:13-46). -/
def UOp.call : UOp → Op
  | .insert el => .put (el <<< BITS_MARKED) (el <<< BITS_MARKED)
  | .erase el => .remove (el <<< BITS_MARKED)
  | .contains el => .containsKey (el <<< BITS_MARKED)
  | .get el => .get (el <<< BITS_MARKED)
  | .count => .size
  | .increment el => .update (el <<< BITS_MARKED) (((1#64 <<< 61) - 3#64) <<< BITS_MARKED)

/-- What a container call makes of the result of the map (ucfMap.hpp:20, 35; the others hand it on). -/
def UOp.answer : UOp → Res → Res
  | .insert el, .word x => .bool (x == el <<< BITS_MARKED)
  | .get _, .word x => .word (x >>> BITS_MARKED)
  | _, r => r

namespace Random

/-- tests/random.hpp:26-30 (`shift` is 3) and 47-51 (`shift` is 0): draw again while the word is reserved. -/
def redraw (shift : Nat) (val : Word) : List Nat → Option (Word × List Nat)
  | [] => if isValueReserved (val <<< shift) || isKeyReserved (val <<< shift) then none else some (val, [])
  | r :: rs =>
    if isValueReserved (val <<< shift) || isKeyReserved (val <<< shift) then redraw shift (BitVec.ofNat 64 r) rs
    else some (val, r :: rs)

/-- tests/random.hpp:14-35 `container_test_prefix`: the calls made in `numops` rounds, and the draws left. -/
def prefixOps : Nat → List Nat → Option (List UOp × List Nat)
  | 0, rs => some ([], rs)
  | _ + 1, [] => none
  | n + 1, r :: rs =>
    if r % 2 = 0 then prefixOps n rs
    else match rs with
      | [] => none
      | v :: rs =>
        match redraw 3 (BitVec.ofNat 64 v) rs with
        | none => none
        | some (val, rs) => (prefixOps n rs).map fun p => (.insert val :: p.1, p.2)

/-- tests/random.hpp:53-79: the call chosen by `rand() % 8`; nothing for 6 and 7. -/
def pick (r : Nat) (val : Word) : Option UOp :=
  match r % 8 with
  | 0 => some (.insert val)
  | 1 => some (.erase val)
  | 2 => some (.contains val)
  | 3 => some (.get val)
  | 4 => some .count
  | 5 => some (.increment val)
  | _ => none

/-- tests/random.hpp:41-80: the calls made in `numops` rounds, and the draws left. -/
def testOps : Nat → List Nat → Option (List UOp × List Nat)
  | 0, rs => some ([], rs)
  | _ + 1, [] => none
  | n + 1, v :: rs =>
    match redraw 0 (BitVec.ofNat 64 v) rs with
    | none | some (_, []) => none
    | some (val, r :: rs) => (testOps n rs).map fun p => ((pick r val).toList ++ p.1, p.2)

/-- tests/random.hpp:36-81 `container_test` of thread `t` of `numThreads`; `none` also if there is no thread. -/
def threadOps (numThreads pnoiter t : Nat) (rs : List Nat) : Option (List UOp × List Nat) :=
  match Harness.opsPerThread numThreads pnoiter t with
  | none => none
  | some n => testOps n rs

end Random

end PMap
