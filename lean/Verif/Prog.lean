import Verif.Word

/-!
# Programs of atomic actions, memory, sequential execution

The C++ functions are transcribed (in `Verif.Code`) as programs over the atomic actions below.  The same programs are
run sequentially (`run`), interleaved (`Verif.Conc`) and crashed (`Verif.Crash`).
-/

namespace PMap

/-- Address of one atomic word of a table: hashMap.hpp:95-99 `KVpair::key`, `KVpair::value` of `pairs[i]` in the
table number `t`.  Tables are numbered in the order they are created. -/
inductive Addr
  | key (t i : Nat)
  | val (t i : Nat)
  deriving DecidableEq

/-- The table an address belongs to (`Table::pairs`, hashMap.hpp:483-494; no code of its own). -/
def Addr.tab : Addr → Nat
  | .key t _ => t
  | .val t _ => t
/-- The slot an address belongs to (no code of its own). -/
def Addr.idx : Addr → Nat
  | .key _ i => i
  | .val _ i => i

/-- Control words of one table: hashMap.hpp:106-116, 231-246 (`CHM`) and :483 `len`.
`size` is kept as a 64-bit word because it is decremented by `fetch_add(-1)` and may wrap; the other counters only
grow and are natural numbers (they stay far below 2^64 for any table that fits in memory). -/
structure Tab where
  len : Nat
  newT : Option Nat
  size : Word
  slots : Nat
  copyIdx : Nat
  copyDone : Nat

/-- The shared memory.  `word` is the volatile (cache-coherent) content, `nv` what a crash would leave in the file.
`root` is `ConcurrentHashMap::table` (hashMap.hpp:1324).  `next` is the number of tables created so far
(`fileNameCounter`).  `cap` is the largest table length the file system accepts.  `failed` is a ghost: an `assert` has
evaluated to false.  `reopened` is a ghost: table 0 was opened from an existing file (hashMap.hpp:658-700) instead of
being created. -/
structure Mem where
  word : Addr → Word
  nv : Addr → Word
  tab : Nat → Tab
  next : Nat
  root : Nat
  cap : Nat
  failed : Bool
  reopened : Bool

/-- The atomic actions used by the code (persistence.hpp:16-92, hashMap.hpp:106-1324; each constructor names its own). -/
inductive Act
  /-- `atomic::load` of a key or value word. -/
  | load (a : Addr)
  /-- `atomic::compare_exchange_strong` of a key or value word. -/
  | cas (a : Addr) (e n : Word)
  /-- persistence.hpp:16 `FLUSH`. -/
  | flush (a : Addr)
  /-- persistence.hpp:22 `FENCE`. -/
  | fence
  /-- Read of the constant `Table::len`. -/
  | len (t : Nat)
  /-- `chm.newTable.load()`. -/
  | getNew (t : Nat)
  /-- hashMap.hpp:249-265 `CASNewTable`: the loop ends after one strong CAS, which expects null. -/
  | casNew (t n : Nat)
  /-- `hashMap->table.load()`. -/
  | getRoot
  /-- `hashMap->table.compare_exchange_strong(o, n)`. -/
  | casRoot (o n : Nat)
  /-- `chm.size.load()`. -/
  | getSize (t : Nat)
  /-- `chm.size.fetch_add(d)`. -/
  | addSize (t : Nat) (d : Word)
  /-- `chm.slots.load()`. -/
  | getSlots (t : Nat)
  /-- `chm.slots.fetch_add(1)`. -/
  | incSlots (t : Nat)
  /-- `chm.copyDone.load()`. -/
  | getDone (t : Nat)
  /-- `chm.copyDone.fetch_add(n)`. -/
  | addDone (t n : Nat)
  /-- `chm.copyIdx.load()`. -/
  | getIdx (t : Nat)
  /-- `chm.copyIdx.compare_exchange_strong(e, n)`. -/
  | casIdx (t e n : Nat)
  /-- hashMap.hpp:351-354: take a file number and create the table file.  Creation is private to the thread until the
  table is published by `casNew`, so it is one action here; the initialisation loop itself is modelled in
  `Verif.Create`.  The file is assumed not to exist yet. -/
  | alloc (len : Nat) (size : Word)
  /-- `assert(b)`. -/
  | check (b : Bool)

/-- Result type of an action (no code of its own). -/
@[reducible] def Act.Resp : Act → Type
  | .load _ => Word
  | .cas _ _ _ => Bool × Word
  | .flush _ => Unit
  | .fence => Unit
  | .len _ => Nat
  | .getNew _ => Option Nat
  | .casNew _ _ => Bool
  | .getRoot => Nat
  | .casRoot _ _ => Bool
  | .getSize _ => Word
  | .addSize _ _ => Unit
  | .getSlots _ => Nat
  | .incSlots _ => Unit
  | .getDone _ => Nat
  | .addDone _ _ => Unit
  | .getIdx _ => Nat
  | .casIdx _ _ _ => Bool × Nat
  | .alloc _ _ => Option Nat
  | .check _ => Unit

/-- Why a program stops without a result (no code of its own). -/
inductive Halt
  /-- undefined behaviour (null table, index out of range) -/
  | ub
  /-- a C++ exception left the call -/
  | threw
  /-- the fuel given to a loop or recursion is used up -/
  | fuel
  deriving DecidableEq

/-- Programs: sequences of atomic actions (no code of its own). -/
inductive Prog (α : Type) : Type
  | ret (a : α) : Prog α
  | act (a : Act) (k : a.Resp → Prog α) : Prog α
  | halt (h : Halt) : Prog α

namespace Prog

/-- Sequencing (no code of its own). -/
def bind {α β : Type} : Prog α → (α → Prog β) → Prog β
  | .ret a, f => f a
  | .act a k, f => .act a (fun r => bind (k r) f)
  | .halt h, _ => .halt h

instance : Monad Prog where
  pure := .ret
  bind := bind

/-- A single action (no code of its own). -/
def do1 (a : Act) : Prog a.Resp := .act a .ret

end Prog

/-- Control flow of a loop body: go round again with a new state, or leave with a result (no code of its own). -/
inductive Ctl (σ α : Type)
  | next (s : σ)
  | done (a : α)

/-- `while (true)` with fuel (e.g. hashMap.hpp:163-185, 1066-1131). -/
def loop {σ α : Type} : Nat → (σ → Prog (Ctl σ α)) → σ → Prog α
  | 0, _, _ => .halt .fuel
  | n + 1, f, s => (f s).bind fun c =>
    match c with
    | .next s' => loop n f s'
    | .done a => .ret a

/-! ## Memory update -/

/-- A function with one argument changed (no code of its own). -/
def upd {β : Type} (f : Nat → β) (i : Nat) (b : β) : Nat → β := fun j => if j = i then b else f j

/-- A word store (no code of its own). -/
def setWord (f : Addr → Word) (a : Addr) (w : Word) : Addr → Word := fun b => if b = a then w else f b

/-- A fresh table: hashMap.hpp:269-279 (`CHM` constructor), :485-494 (`Table` constructor).
Note `slots.store(tableCapacity)`. -/
def freshTab (len : Nat) (size : Word) : Tab :=
  { len := len, newT := none, size := size, slots := len, copyIdx := 0, copyDone := 0 }

/-- Contents of a freshly created file: hashMap.hpp:731-740 stores `KINITIAL|Dirty` and `VINITIAL|Dirty` everywhere. -/
def freshWords (f : Addr → Word) (t : Nat) : Addr → Word := fun b =>
  match b with
  | .key t' _ => if t' = t then dirty KINITIAL else f b
  | .val t' _ => if t' = t then dirty VINITIAL else f b

/-- The durable copy after the line holding pair `i` of table `t` has been written back (flush or eviction):
both words of the pair (persistence.hpp:16 on one line), because a 16-byte pair of the page-aligned map lies in one 64-byte line. -/
def writeBack (m : Mem) (t i : Nat) : Addr → Word := fun b =>
  if b.tab = t ∧ b.idx = i then m.word b else m.nv b

/-- Executes one action (what `std::atomic`, persistence.hpp:16-22 and `mmapTable` do); `none` is undefined behaviour. -/
def Act.exec : (a : Act) → Mem → Option (a.Resp × Mem)
  | .load a, m => if a.tab < m.next ∧ a.idx < (m.tab a.tab).len then some (m.word a, m) else none
  | .cas a e n, m =>
    if a.tab < m.next ∧ a.idx < (m.tab a.tab).len then
      if m.word a = e then some ((true, e), { m with word := setWord m.word a n })
      else some ((false, m.word a), m)
    else none
  | .flush a, m =>
    if a.tab < m.next ∧ a.idx < (m.tab a.tab).len then some ((), { m with nv := writeBack m a.tab a.idx }) else none
  | .fence, m => some ((), m)
  | .len t, m => if t < m.next then some ((m.tab t).len, m) else none
  | .getNew t, m => if t < m.next then some ((m.tab t).newT, m) else none
  | .casNew t n, m =>
    if t < m.next then
      if (m.tab t).newT = none then some (true, { m with tab := upd m.tab t { m.tab t with newT := some n } })
      else some (false, m)
    else none
  | .getRoot, m => some (m.root, m)
  | .casRoot o n, m => if m.root = o then some (true, { m with root := n }) else some (false, m)
  | .getSize t, m => if t < m.next then some ((m.tab t).size, m) else none
  | .addSize t d, m =>
    if t < m.next then some ((), { m with tab := upd m.tab t { m.tab t with size := (m.tab t).size + d } }) else none
  | .getSlots t, m => if t < m.next then some ((m.tab t).slots, m) else none
  | .incSlots t, m =>
    if t < m.next then some ((), { m with tab := upd m.tab t { m.tab t with slots := (m.tab t).slots + 1 } }) else none
  | .getDone t, m => if t < m.next then some ((m.tab t).copyDone, m) else none
  | .addDone t n, m =>
    if t < m.next then some ((), { m with tab := upd m.tab t { m.tab t with copyDone := (m.tab t).copyDone + n } })
    else none
  | .getIdx t, m => if t < m.next then some ((m.tab t).copyIdx, m) else none
  | .casIdx t e n, m =>
    if t < m.next then
      if (m.tab t).copyIdx = e then some ((true, e), { m with tab := upd m.tab t { m.tab t with copyIdx := n } })
      else some ((false, (m.tab t).copyIdx), m)
    else none
  | .alloc l sz, m =>
    if l ≤ m.cap then
      some (some m.next, { m with
        word := freshWords m.word m.next
        nv := freshWords m.nv m.next
        tab := upd m.tab m.next (freshTab l sz)
        next := m.next + 1 })
    else some (none, m)
  | .check b, m => some ((), { m with failed := m.failed || !b })

/-- Outcome of a sequential run (no code of its own). -/
inductive Outcome (α : Type)
  | done (a : α) (m : Mem)
  | halted (h : Halt)

/-- Runs a program alone, to the end (no code of its own). -/
def run {α : Type} : Prog α → Mem → Outcome α
  | .ret a, m => .done a m
  | .halt h, _ => .halted h
  | .act a k, m =>
    match a.exec m with
    | none => .halted .ub
    | some (r, m') => run (k r) m'

/-- Running a program alone meets no undefined behaviour and every `assert` it evaluates holds, up to the point where
it returns, throws or runs out of fuel (no code of its own). -/
def Safe {α : Type} : Prog α → Mem → Prop
  | .ret _, _ => True
  | .halt h, _ => h ≠ .ub
  | .act a k, m => (∀ b, a = .check b → b = true) ∧
    match a.exec m with
    | none => False
    | some (r, m') => Safe (k r) m'

end PMap
