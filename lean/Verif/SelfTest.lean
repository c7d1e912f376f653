import Verif.Harness
import Verif.Ucf
import Mathlib.Data.Finset.Union

/-!
# The alternating self-test on the concurrent map (`runTest.hpp:144-189`, `tests/alternating.hpp`)

The calls the test makes on the map, and its check as a program on the map.
-/

namespace PMap.Harness

open Prog

/-- tests/alternating.hpp:14-15, 45-46, 128-129: the operations of thread `t`, of `N` in all on `T` threads. -/
def share (T N t : Nat) : Nat := (opsPerThread T N t).getD 0

/-- The word under which the map holds the `num`-th element of a thread (ucfMap.hpp:15, 25 shift the element passed). -/
def insertedWord (num thrid maxops : Nat) : Word := passedElem num thrid maxops <<< BITS_MARKED

/-- tests/alternating.hpp:22-33: the calls of the prefix; ucfMap.hpp:13-21 makes each a `put` of the element under itself. -/
def prefixCalls (thrid maxops : Nat) : (todo wrid : Nat) → List Op
  | 0, _ => []
  | n + 1, wrid => .put (insertedWord wrid thrid maxops) (insertedWord wrid thrid maxops) :: prefixCalls thrid maxops n (wrid + 1)

/-- tests/alternating.hpp:53-79: the calls of the main loop; ucfMap.hpp:23-26 makes `erase` a `remove`. -/
def mainCalls (thrid maxops : Nat) : (nummain wrid rdid : Nat) → List Op
  | 0, _, _ => []
  | n + 1, wrid, rdid =>
    if (n + 1) % 2 = 1 then
      .put (insertedWord wrid thrid maxops) (insertedWord wrid thrid maxops) :: mainCalls thrid maxops n (wrid + 1) rdid
    else .remove (insertedWord rdid thrid maxops) :: mainCalls thrid maxops n wrid (rdid + 1)

/-- runTest.hpp:153-154: the main thread runs the prefix, for thread number 0 only. -/
def testPrefix (T N : Nat) : Nat → List Op := fun t =>
  if t = 0 then prefixCalls 0 (share T N 0) (share T N 0 - opsMainLoop (share T N 0)) 0 else []

/-- runTest.hpp:162-172 with tests/test.hpp:35-41 and tests/alternating.hpp:41-52: the main loop on `T` threads. -/
def testMain (T N : Nat) : Nat → List Op := fun t =>
  if t < T then
    mainCalls t (share T N 0) (opsMainLoop (share T N t)) (share T N t - opsMainLoop (share T N t))
      ((share T N t - opsMainLoop (share T N t)) / 2)
  else []

/-- The keys the test changes (no code of its own). -/
def testKeys (T N : Nat) : Finset Word := (Finset.range T).biUnion fun t =>
  (Finset.range (share T N t / 10 + (opsMainLoop (share T N t) + 1) / 2)).image fun i => insertedWord i t (share T N 0)

/-- runTest.hpp:151-172: on a new map of length `len` the main thread runs the prefix; then all threads run their main loops,
under some schedule, until every call has returned.  `m` is the memory at line 172. -/
def TestRun (hash : Word → Word) (len cap T N : Nat) (m : Mem) : Prop :=
  ∃ (n1 n2 : Nat) (xs1 xs2 : List Sched) (s1 s2 : Sys),
    s1 = (Sys.start (freshMem len cap) (testPrefix T N)).exec hash n1 xs1 ∧ (∀ t, s1.thr t = .idle []) ∧
    s2 = (Sys.start s1.mem (testMain T N)).exec hash n2 xs2 ∧ (∀ t, s2.thr t = .idle []) ∧ s2.mem = m

/-! ## The check -/

/-- tests/alternating.hpp:144, 162, 176, 215: `contains(val.first)` for the `num`-th element, a `size_t` that is not narrowed
(ucfMap.hpp:28-31). -/
def hasElem (hash : Word → Word) (n num thrid maxops : Nat) : Prog Bool :=
  ucfContains hash n (BitVec.ofNat 64 (genElem num thrid maxops))

/-- tests/alternating.hpp:137-156: the first elements must be there. -/
def checkFirst (hash : Word → Word) (n thrid maxops : Nat) : (todo opid numvalid : Nat) → (success : Bool) → Prog (Nat × Bool)
  | 0, _, numvalid, success => return (numvalid, success)
  | k + 1, opid, numvalid, success => do
    do1 (.check (decide (opid < maxops)))
    let b ← hasElem hash n opid thrid maxops
    if b then checkFirst hash n thrid maxops k (opid + 1) (numvalid + 1) success
    else checkFirst hash n thrid maxops k (opid + 1) numvalid false

/-- tests/alternating.hpp:159-168 (`want = false`) and 173-182 (`want = true`): goes on while the element is there or not.
The loops end by themselves at `maxops`, so that many rounds are enough. -/
def skipWhile (hash : Word → Word) (n thrid maxops : Nat) (want : Bool) : (fuel rdid : Nat) → Prog Nat
  | 0, rdid => return rdid
  | k + 1, rdid =>
    if rdid < maxops then do
      let b ← hasElem hash n rdid thrid maxops
      if b == want then skipWhile hash n thrid maxops want k (rdid + 1) else return rdid
    else return rdid

/-- tests/alternating.hpp:210-220: no further element may be there. -/
def checkLast (hash : Word → Word) (n thrid maxops : Nat) : (todo opid : Nat) → (success : Bool) → Prog Bool
  | 0, _, success => return success
  | k + 1, opid, success => do
    do1 (.check (decide (opid < maxops)))
    let b ← hasElem hash n opid thrid maxops
    checkLast hash n thrid maxops k (opid + 1) (if b then false else success)

/-- tests/alternating.hpp:124-223 `check_elements`, of thread `t`. -/
def checkElementsProg (hash : Word → Word) (n T N t : Nat) : Prog (Nat × Bool) := do
  let maxops := share T N 0
  let numops := share T N t
  let nummain := opsMainLoop numops
  let initwr := numops - nummain
  let rdid := initwr / 2
  let (n1, ok1) ← checkFirst hash n t maxops rdid 0 0 true
  let rdid1 ← skipWhile hash n t maxops false maxops rdid
  let expsequ := initwr - initwr / 2
  let rdid2 ← skipWhile hash n t maxops true maxops rdid1
  let cntsequ := rdid2 - rdid1
  let ok2 := !(decide (0 < initwr) && decide (cntsequ < expsequ - 1))
  let ok3 := !(decide (expsequ + 1 < cntsequ))
  let limit := initwr + (if 0 < nummain / 2 then nummain / 2 - 1 else 0)
  do1 (.check (decide (limit ≤ maxops)))
  let ok4 ← checkLast hash n t maxops (limit - rdid2) rdid2 true
  return (n1 + cntsequ, ok1 && ok2 && ok3 && ok4)

/-- tests/alternating.hpp:124, 222, 233-234: the number of elements found is narrowed to `int` and widened again. -/
def throughInt (n : Nat) : Word := ((BitVec.ofNat 64 n).setWidth 32).signExtend 64

/-- tests/alternating.hpp:229-240: all threads' elements; `contsz` and `success`. -/
def checkThreads (hash : Word → Word) (n T N : Nat) : (todo i : Nat) → (contsz : Word) → (success : Bool) → Prog (Word × Bool)
  | 0, _, contsz, success => return (contsz, success)
  | k + 1, i, contsz, success => do
    let res ← checkElementsProg hash n T N i
    checkThreads hash n T N k (i + 1) (contsz + throughInt res.1) (if res.2 then success else false)

/-- tests/alternating.hpp:94-105 from line 98 on, and 227-254 `check_all_elements`: counts the elements and checks them;
`fail()` (256-259) throws.  Line 96, which opens the container with recovery, is the matter of C26; here the check runs on the
container as it is. -/
def liveCheck (hash : Word → Word) (n T N : Nat) : Prog Unit := do
  let actsize ← ucfCount
  let r ← checkThreads hash n T N T 0 0#64 true
  if r.1 ≠ actsize then .halt .threw
  else if r.2 = false then .halt .threw
  else return ()

end PMap.Harness
