import Verif.Names
import Verif.Ucf

/-!
# The workloads and the test driver: `tests/ycsb.hpp`, `tests/degree.hpp`, `tests/reddit.hpp`, `tests/test.hpp`,
`runTest.hpp`, `runTest.cpp`, and the other container adapters

Text is a list of characters.  `none` is undefined behaviour unless said otherwise.
-/

namespace PMap.Work

open Names

/-! ## Reading numbers -/

/-- White space of the C locale (for ycsb.hpp:85, degree.hpp:46, reddit.hpp:43, runTest.hpp:96). -/
def isSpace (c : Char) : Bool := c = ' ' || (9 ≤ c.toNat && c.toNat ≤ 13)
/-- A decimal digit (ycsb.hpp:85, degree.hpp:46, reddit.hpp:43, runTest.hpp:96). -/
def isDigit (c : Char) : Bool := (charDigit c).isSome

/-- One digit of a number (ycsb.hpp:85, degree.hpp:46, reddit.hpp:43, runTest.hpp:96). -/
def addDigit (n : Nat) (c : Char) : Nat := 10 * n + (charDigit c).getD 0

/-- The sign a number may have in front (ycsb.hpp:85, degree.hpp:46, reddit.hpp:43, runTest.hpp:96). -/
def readSign : List Char → Bool × List Char
  | '-' :: s => (true, s)
  | '+' :: s => (false, s)
  | s => (false, s)

/-- What `sscanf("%zu")` (tests/ycsb.hpp:85, 92, 99, 106) and `>>` into a `size_t` (degree.hpp:46, reddit.hpp:43,
runTest.hpp:96) read: white space, a sign, digits; the rest of the text is left.  A number of 2^64 or more gives 2^64-1 (as the
C library does; the standard leaves `sscanf` open there) and a minus sign negates modulo 2^64.  `none` if there is no number. -/
def readNum (s : List Char) : Option (Nat × List Char) :=
  let t := (readSign (s.dropWhile isSpace)).2
  let ds := t.takeWhile isDigit
  if ds = [] then none
  else
    let n := ds.foldl addDigit 0
    some (if 2 ^ 64 ≤ n then 2 ^ 64 - 1 else if (readSign (s.dropWhile isSpace)).1 then (2 ^ 64 - n) % 2 ^ 64 else n,
      t.drop ds.length)

/-! ## YCSB -/

/-- tests/ycsb.hpp:13-19: the kinds of operations. -/
inductive Kind
  | insert
  | read
  | delete
  | update
  deriving DecidableEq

/-- tests/ycsb.hpp:11-22 `op`. -/
structure QOp where
  kind : Kind
  val : Nat
  deriving DecidableEq

/-- The word a kind of operation has in the file (tests/ycsb.hpp:83, 90, 97, 104). -/
def Kind.word : Kind → List Char
  | .insert => ['I', 'N', 'S', 'E', 'R', 'T']
  | .read => ['R', 'E', 'A', 'D']
  | .delete => ['D', 'E', 'L', 'E', 'T', 'E']
  | .update => ['U', 'P', 'D', 'A', 'T', 'E']

/-- tests/ycsb.hpp:83, 90, 97, 104: `strncmp` with the four words, and the place behind the word where the number is read. -/
def kindOf (line : List Char) : Option (Kind × Nat) :=
  if Kind.insert.word.isPrefixOf line then some (.insert, 7)
  else if Kind.read.word.isPrefixOf line then some (.read, 5)
  else if Kind.delete.word.isPrefixOf line then some (.delete, 7)
  else if Kind.update.word.isPrefixOf line then some (.update, 7)
  else none

/-- The queues (`runQueue`, `move`), `scanVal` (none: not yet written) and `operation_num` (tests/ycsb.hpp:24-25, 60-80). -/
structure YState where
  queue : Nat → List QOp
  scan : Option Nat
  num : Nat

/-- tests/ycsb.hpp:59-80: before the loop. -/
def YState.start : YState := ⟨fun _ => [], none, 0⟩

/-- tests/ycsb.hpp:82-112: one line, dealt to thread `num % T`; each queue has room for `C` operations (63).  Undefined: a line
that does not fit the buffer of 1024 bytes on the stack (`getline` would reallocate it, 32-34, 81), no thread (`% 0`), a line that
ends before the place of the number (stale bytes are read), a number never read, a full queue. -/
def ycsbLine (T C : Nat) (st : YState) (line : List Char) : Option YState :=
  if 1024 ≤ line.length ∨ T = 0 then none
  else
    match kindOf line with
    | none => some { st with num := st.num + 1 }
    | some (k, off) =>
      if line.length < off then none
      else
        let scan := match readNum (line.drop off) with
          | some (v, _) => some v
          | none => st.scan
        match scan with
        | none => none
        | some v =>
          let t := st.num % T
          if C ≤ (st.queue t).length then none
          else some ⟨fun t' => if t' = t then st.queue t ++ [⟨k, v⟩] else st.queue t', some v, st.num + 1⟩

/-- tests/ycsb.hpp:81-118: the loop; it stops when `operation_num > operationCount` (114-117). -/
def ycsbLoop (T C : Nat) : List (List Char) → YState → Option YState
  | [], st => some st
  | l :: ls, st =>
    match ycsbLine T C st l with
    | none => none
    | some st' => if C < st'.num then some st' else ycsbLoop T C ls st'

/-- tests/ycsb.hpp:10 `operationCount`. -/
def operationCount : Nat := 16000000

/-- tests/ycsb.hpp:57-119: the preparation of the run phase. -/
def ycsbPrepare (T : Nat) (lines : List (List Char)) : Option YState := ycsbLoop T operationCount lines .start

/-- tests/ycsb.hpp:132-155: what a thread does with an entry of its queue, on the reference container (the result is not used). -/
def QOp.apply (o : QOp) (c : StdMap) : StdMap :=
  match o.kind with
  | .insert | .update => (stlInsert (BitVec.ofNat 64 o.val) c).2
  | .read => c
  | .delete => (stlErase (BitVec.ofNat 64 o.val) c).2

/-- tests/ycsb.hpp:43-54: one line of the load phase: `INSERT` lines insert their number, others are skipped.  Undefined: a line that
does not fit the buffer, one that ends before the place of the number, no number (`scanVal` is a new variable each time, 47). -/
def ycsbLoadLine (line : List Char) (c : StdMap) : Option StdMap :=
  if 1024 ≤ line.length then none
  else if Kind.insert.word.isPrefixOf line then
    if line.length < 7 then none
    else match readNum (line.drop 7) with
      | some (v, _) => some (stlInsert (BitVec.ofNat 64 v) c).2
      | none => none
  else some c

/-- tests/ycsb.hpp:43-54: the load phase. -/
def ycsbLoad : List (List Char) → StdMap → Option StdMap
  | [], c => some c
  | l :: ls, c =>
    match ycsbLoadLine l c with
    | none => none
    | some c' => ycsbLoad ls c'

/-- tests/ycsb.hpp:132-155: queue entries carried out one after the other (each holds the lock of the container, stlMap.hpp:21). -/
def applyAll (os : List QOp) (c : StdMap) : StdMap := os.foldl (fun c o => o.apply c) c

/-! ## Degree counting -/

/-- tests/degree.hpp:46-63: the numbers of a line (`while (ss >> val)`; the `peek`/`ignore` only skips a space `>>` would skip). -/
def columns : (fuel : Nat) → List Char → List Nat
  | 0, _ => []
  | fuel + 1, s =>
    match readNum s with
    | none => []
    | some (v, rest) => v :: columns fuel rest

/-- What a file reader does (degree.hpp:26-66): undefined behaviour, an exception (which no `catch (int)` catches), or a list of increments. -/
inductive Ran (α : Type)
  | ub
  | threw
  | ok (a : α)
  deriving DecidableEq

/-- tests/degree.hpp:43-65, one line: column 0 goes to `outgoing`, column 1 to `incoming`, a third one throws; then
`increment(incoming)`, undefined if `incoming` has never been written.  Gives the new `incoming`. -/
def degreeLine (incoming : Option Nat) (line : List Char) : Ran Nat :=
  match columns line.length line with
  | [] | [_] => match incoming with
    | none => .ub
    | some v => .ok v
  | [_, b] => .ok b
  | _ => .threw

/-- tests/degree.hpp:26-66 `parseFile`: the increments made for the lines of a file. -/
def degreeFile : Option Nat → List (List Char) → Ran (List Nat)
  | _, [] => .ok []
  | inc, l :: ls =>
    match degreeLine inc l with
    | .ub => .ub
    | .threw => .threw
    | .ok v =>
      match degreeFile (some v) ls with
      | .ub => .ub
      | .threw => .threw
      | .ok vs => .ok (v :: vs)

/-- tests/degree.hpp:29-32, 84-87: thread `t` reads file `t` if it is below four, and nothing otherwise. -/
def degreeThread (file : Nat → List (List Char)) (t : Nat) : Ran (List Nat) :=
  if 4 ≤ t then .ok [] else degreeFile none (file t)

/-- Increments made one after the other on the reference container (each holds its lock, stlMap.hpp:57). -/
def increments (vs : List Nat) (c : StdMap) : StdMap :=
  vs.foldl (fun c v => (stlIncrement (BitVec.ofNat 64 v) c).2) c

/-! ## Reddit -/

/-- tests/reddit.hpp:41-45, one line: `ss >> val`: a number; `val` is left alone if there is only white space, and becomes 0 if
there is something else (C++11).  Then `increment(val)`. -/
def redditLine (val : Option Nat) (line : List Char) : Option Nat :=
  match readNum line with
  | some (v, _) => some v
  | none => if line.dropWhile isSpace = [] then val else some 0

/-- tests/reddit.hpp:26-46 `parseFile`: the increments made for the lines of the file. -/
def redditFile : Option Nat → List (List Char) → Option (List Nat)
  | _, [] => some []
  | val, l :: ls =>
    match redditLine val l with
    | none => none
    | some v =>
      match redditFile (some v) ls with
      | none => none
      | some vs => some (v :: vs)

/-- tests/reddit.hpp:29-32, 64-66: only thread 0 reads. -/
def redditThread (file : List (List Char)) (t : Nat) : Option (List Nat) :=
  if 1 ≤ t then some [] else redditFile none file

/-! ## Command line -/

/-- include/define.hpp:40-57 `TestOptions`. -/
structure Options where
  numthreads : Nat
  numops : Nat
  numruns : Nat
  capacity : Nat
  filename : List Char
  recover : Bool
  wipeFile : Bool
  deriving DecidableEq

/-- runTest.hpp:71-80: the defaults. -/
def Options.default : Options :=
  ⟨8, 40, 1, 16, "/mnt/pmem/pm1/persist.bin".toList, true, false⟩

/-- runTest.hpp:89-98 `conv<size_t>`: 0 if there is text but no number; the variable is never written if there is only white
space. -/
def convNat (s : List Char) : Option Nat :=
  match readNum s with
  | some (v, _) => some v
  | none => if s.dropWhile isSpace = [] then none else some 0

/-- runTest.hpp:89-98 `conv<bool>`: without `boolalpha` a number is read; any but 0 gives true, no number gives false. -/
def convBool (s : List Char) : Option Bool :=
  match readNum s with
  | some (v, _) => some (v ≠ 0)
  | none => if s.dropWhile isSpace = [] then none else some false

/-- runTest.hpp:89-98 `conv<std::string>`: the first word. -/
def convString (s : List Char) : List Char := (s.dropWhile isSpace).takeWhile (fun c => !isSpace c)

/-- How the reading of the command line ends (runTest.cpp:17-33). -/
inductive Parsed
  | ub
  /-- `args.at(pos)` behind the end: `std::out_of_range`, outside the `try` of `main` -/
  | threw
  /-- `-h` -/
  | help
  /-- runTest.cpp:29-33 -/
  | unknown (arg : List Char)
  | ok (o : Options)
  deriving DecidableEq

/-- `arg.find(opt) == 0` (runTest.hpp:104, 116). -/
def isOpt (c : Char) (arg : List Char) : Bool := ['-', c].isPrefixOf arg

/-- runTest.cpp:17-33 with runTest.hpp:100-121 (`matchOpt1`, `matchOpt0`); the arguments behind the program name. -/
def parseArgs : List (List Char) → Options → Parsed
  | [], o => .ok o
  | [a], _ =>
    if isOpt 't' a || isOpt 'n' a || isOpt 'p' a || isOpt 'c' a || isOpt 'f' a || isOpt 'r' a || isOpt 'w' a then .threw
    else if isOpt 'h' a then .help
    else .unknown a
  | a :: v :: rest, o =>
    if isOpt 't' a then match convNat v with
      | none => .ub
      | some n => parseArgs rest { o with numthreads := n }
    else if isOpt 'n' a then match convNat v with
      | none => .ub
      | some n => parseArgs rest { o with numops := n }
    else if isOpt 'p' a then match convNat v with
      | none => .ub
      | some n => parseArgs rest { o with numruns := n }
    else if isOpt 'c' a then match convNat v with
      | none => .ub
      | some n => parseArgs rest { o with capacity := n }
    else if isOpt 'f' a then parseArgs rest { o with filename := convString v }
    else if isOpt 'r' a then match convBool v with
      | none => .ub
      | some b => parseArgs rest { o with recover := b }
    else if isOpt 'w' a then match convBool v with
      | none => .ub
      | some b => parseArgs rest { o with wipeFile := b }
    else if isOpt 'h' a then .help
    else .unknown a

/-- `1 << opt.capacity` converted to `size_t` (ucfMap.hpp:50, pmemMap.hpp:91, levelMap.hpp:100, onefileMap.hpp:79): an `int` shift,
undefined from 32 on; a shift of 31 gives the most negative `int` (C++20, makefile:33), sign-extended. -/
def realCapacity (n : Nat) : Option Word :=
  if n < 31 then some (BitVec.ofNat 64 (2 ^ n)) else if n = 31 then some (BitVec.ofInt 64 (-2 ^ 31)) else none

/-! ## The start barrier -/

/-- Where a thread is in `sync_start` (tests/test.hpp:14-22). -/
inductive BPc
  /-- before the assert (16) -/
  | before
  /-- before `fetch_add(-1)` (17) -/
  | checked
  /-- in the loop (19-21) -/
  | spinning
  /-- behind it -/
  | through
  deriving DecidableEq

/-- `waiting_threads`, where each thread is, and whether the assert has failed (tests/test.hpp:11-22). -/
structure Barrier where
  waiting : Word
  pc : Nat → BPc
  failed : Bool

/-- runTest.hpp:159: `waiting_threads = numthreads`, before the threads start. -/
def Barrier.start (N : Nat) : Barrier := ⟨BitVec.ofNat 64 N, fun _ => .before, false⟩

/-- tests/test.hpp:14-22: one atomic step of thread `i`. -/
def Barrier.step (s : Barrier) (i : Nat) : Barrier :=
  match s.pc i with
  | .before => { s with pc := fun j => if j = i then .checked else s.pc j, failed := s.failed || s.waiting == 0#64 }
  | .checked => { s with pc := fun j => if j = i then .spinning else s.pc j, waiting := s.waiting + (-1#64) }
  | .spinning => if s.waiting = 0#64 then { s with pc := fun j => if j = i then .through else s.pc j } else s
  | .through => s

/-- The threads take steps in the given order (no code of its own). -/
def Barrier.run (s : Barrier) (xs : List Nat) : Barrier := xs.foldl Barrier.step s

/-! ## The other adapters

The library maps behind them are taken to be perfect: a `std::map` (this is an assumption, their code is not modelled). -/

/-- The results of a container call (container.hpp:11-21). -/
inductive CRes
  | bool (b : Bool)
  | word (w : Word)
  deriving DecidableEq

/-- A container call of the reference container (stlMap.hpp:19-65). -/
def stlCall : UOp → StdMap → CRes × StdMap
  | .insert el, c => (.bool (stlInsert el c).1, (stlInsert el c).2)
  | .erase el, c => (.bool (stlErase el c).1, (stlErase el c).2)
  | .contains el, c => (.bool (stlContains el c), c)
  | .get el, c => (.word (stlGet el c), c)
  | .count, c => (.word (BitVec.ofNat 64 (stlCount c)), c)
  | .increment el, c => (.word (stlIncrement el c).1, (stlIncrement el c).2)

/-- A `bool` returned as a `ValT` (pmemMap.hpp:66-86, levelMap.hpp:92-96). -/
def boolWord (b : Bool) : Word := if b then 1#64 else 0#64

/-- containers/pmemMap.hpp:34-86 on a perfect `concurrent_hash_map`; `increment` (66-86) returns `insert(el)`. -/
def pmCall : UOp → StdMap → CRes × StdMap
  | .insert el, c => (.bool (c.insert el el).2, (c.insert el el).1)
  | .erase el, c => (.bool ((c.erase el).2 == 1), (c.erase el).1)
  | .contains el, c => (.bool (c.find el).isSome, c)
  | .get el, c => (.word (match c.find el with | some v => v | none => 0#64), c)
  | .count, c => (.word (BitVec.ofNat 64 c.length), c)
  | .increment el, c => (.word (boolWord (c.insert el el).2), (c.insert el el).1)

/-- containers/levelMap.hpp:42-96 on a perfect `clevel_hash` of capacity `cap`; `get` (70-80) returns the key if it is there,
`count` (82-90) the capacity, `increment` (92-96) `insert(el)`. -/
def clevelCall (cap : Nat) : UOp → StdMap → CRes × StdMap
  | .insert el, c => (.bool (c.insert el el).2, (c.insert el el).1)
  | .erase el, c => (.bool ((c.erase el).2 == 1), (c.erase el).1)
  | .contains el, c => (.bool (c.find el).isSome, c)
  | .get el, c => (.word (if (c.find el).isSome then el else 0#64), c)
  | .count, c => (.word (BitVec.ofNat 64 cap), c)
  | .increment el, c => (.word (boolWord (c.insert el el).2), (c.insert el el).1)

/-- containers/onefileMap.hpp:27-56 on a perfect `TMHashMap`, whose `add` (29) stores an element under itself and whose `innerGet` (45)
leaves its result argument alone if the key is absent; then `get` (42-47) returns `junk`, the uninitialised variable.
`increment` (54-56) returns `insert(el)`. -/
def oneCall (junk : Word) : UOp → StdMap → CRes × StdMap
  | .insert el, c => (.bool (c.insert el el).2, (c.insert el el).1)
  | .erase el, c => (.bool ((c.erase el).2 == 1), (c.erase el).1)
  | .contains el, c => (.bool (c.find el).isSome, c)
  | .get el, c => (.word (match c.find el with | some v => v | none => junk), c)
  | .count, c => (.word (BitVec.ofNat 64 c.length), c)
  | .increment el, c => (.word (boolWord (c.insert el el).2), (c.insert el el).1)

/-- The results of a list of calls and the container they leave (no code of its own). -/
def callAll (f : UOp → StdMap → CRes × StdMap) : List UOp → StdMap → List CRes × StdMap
  | [], c => ([], c)
  | op :: ops, c => ((f op c).1 :: (callAll f ops (f op c).2).1, (callAll f ops (f op c).2).2)

end PMap.Work
