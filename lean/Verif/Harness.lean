import Verif.Word

/-!
# Work splitting in the test harness (`tests/test.hpp`, `tests/alternating.hpp`)

`size_t` quantities that are never near 2^64 are natural numbers; the narrowing to `int` is explicit.
-/

namespace PMap.Harness

/-- tests/test.hpp:49-60 `opsPerThread`; `none` if `numThreads = 0` (division by zero). -/
def opsPerThread (numThreads totalOps threadID : Nat) : Option Nat :=
  if numThreads = 0 then none else
  let numOps := totalOps / numThreads
  let remOps := totalOps % numThreads
  some (if 0 < remOps ∧ threadID = 0 then numOps + remOps else numOps)

/-- tests/test.hpp:63-66 `opsMainLoop`. -/
def opsMainLoop (numops : Nat) : Nat := numops - numops / 10

/-- tests/alternating.hpp:107-112 `genElem`. -/
def genElem (num thrid maxOpsPerThread : Nat) : Nat := thrid * maxOpsPerThread + num

/-- tests/alternating.hpp:24-25, 57-58, 67-68: `int elem = genElem(…)`, then `insert(elem)`/`erase(elem)` convert the
`int` to the 64-bit element type. -/
def passedElem (num thrid maxOpsPerThread : Nat) : Word :=
  ((BitVec.ofNat 64 (genElem num thrid maxOpsPerThread)).setWidth 32).signExtend 64

/-- tests/alternating.hpp:115-121 `genElemChecked`. -/
def genElemChecked (num thrid maxOpsPerThread : Nat) : Option Nat :=
  if maxOpsPerThread ≤ num then none else some (genElem num thrid maxOpsPerThread)

/-- A container holding elements (container.hpp:7-24), seen as a set. -/
abbrev Cont := Nat → Bool

/-- tests/alternating.hpp:22-33: the prefix of thread `thrid`: inserts `wrid, wrid+1, …` while `numops > nummain`. -/
def prefixLoop (ins : Nat → Nat) : (todo wrid : Nat) → Cont → Cont
  | 0, _, c => c
  | n + 1, wrid, c => prefixLoop ins n (wrid + 1) (fun x => x == ins wrid || c x)

/-- tests/alternating.hpp:53-79: the main loop; odd `nummain` inserts, even erases. -/
def mainLoop (ins : Nat → Nat) : (nummain wrid rdid : Nat) → Cont → Cont
  | 0, _, _, c => c
  | n + 1, wrid, rdid, c =>
    if (n + 1) % 2 = 1 then mainLoop ins n (wrid + 1) rdid (fun x => x == ins wrid || c x)
    else mainLoop ins n wrid (rdid + 1) (fun x => x != ins rdid && c x)

/-- tests/alternating.hpp:41-88 with the prefix (10-40): everything one thread does, on a perfect container, alone.
`numops` is the thread's share. -/
def alternatingRun (ins : Nat → Nat) (numops : Nat) (c : Cont) : Cont :=
  let nummain := opsMainLoop numops
  let initwr := numops - nummain
  mainLoop ins nummain initwr (initwr / 2) (prefixLoop ins initwr 0 c)

/-- Advances `rdid` while `p` holds and the element is below `maxops` (162-166, 176-182). -/
def advance (p : Nat → Bool) (maxops : Nat) : (fuel rdid : Nat) → Nat
  | 0, rdid => rdid
  | n + 1, rdid => if rdid < maxops ∧ p rdid = true then advance p maxops n (rdid + 1) else rdid

/-- tests/alternating.hpp:124-223 `check_elements` for one thread: `has i` says that the container contains the thread's
`i`-th element.  Result: `numvalid` and `success`.  `expsequ - 1` wraps on `size_t` when `expsequ = 0`, but is then
guarded by `initwr > 0`. -/
def checkElements (maxops numops : Nat) (has : Nat → Bool) : Nat × Bool :=
  let nummain := opsMainLoop numops
  let initwr := numops - nummain
  let rdid := initwr / 2
  let ok1 := (List.range rdid).all has
  let n1 := (List.range rdid).countP has
  let rdid1 := advance (fun i => !has i) maxops maxops rdid
  let expsequ := initwr - initwr / 2
  let rdid2 := advance has maxops maxops rdid1
  let cntsequ := rdid2 - rdid1
  let ok2 := !(decide (0 < initwr) && decide (cntsequ < expsequ - 1))
  let ok3 := !(decide (expsequ + 1 < cntsequ))
  let limit := initwr + (if 0 < nummain / 2 then nummain / 2 - 1 else 0)
  let ok4 := (List.range' rdid2 (limit - rdid2)).all (fun i => !has i)
  (n1 + cntsequ, ok1 && ok2 && ok3 && ok4)

end PMap.Harness
