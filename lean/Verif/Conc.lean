import Verif.Code

/-!
# Operations, threads and interleavings
-/

namespace PMap

open Prog

/-- The public operations of the map (hashMap.hpp:896-944, 1028). -/
inductive Op
  | get (k : Word)
  | containsKey (k : Word)
  | put (k v : Word)
  | putIfAbsent (k v : Word)
  | remove (k : Word)
  | removeIf (k v : Word)
  | replace (k o v : Word)
  | putIfMatch (k v o : Word)
  | update (k v : Word)
  | size
  | isEmpty
  deriving DecidableEq

/-- Result of an operation (the return types of hashMap.hpp:896-944). -/
inductive Res
  | word (w : Word)
  | bool (b : Bool)
  deriving DecidableEq

/-- The program of an operation (hashMap.hpp:896-944, 1028). -/
def Op.prog (hash : Word → Word) (n : Nat) : Op → Prog Res
  | .get k => do return .word (← mapGet hash n k)
  | .containsKey k => do return .bool (← mapContainsKey hash n k)
  | .put k v => do return .word (← mapPut hash n k v)
  | .putIfAbsent k v => do return .word (← mapPutIfAbsent hash n k v)
  | .remove k => do return .bool (← mapRemove hash n k)
  | .removeIf k v => do return .bool (← mapRemoveIf hash n k v)
  | .replace k o v => do return .bool (← mapReplace hash n k o v)
  | .putIfMatch k v o => do return .word (← mapPutIfMatch hash n .casValue k v o)
  | .update k v => do return .word (← mapUpdate hash n k v)
  | .size => do return .word (← mapSize)
  | .isEmpty => do return .bool (← mapIsEmpty)

/-- What a thread is doing (no code of its own). -/
inductive Thread
  /-- between calls, with the calls still to be made -/
  | idle (todo : List Op)
  /-- inside a call -/
  | busy (op : Op) (p : Prog Res) (todo : List Op)

/-- Observable events of a history (no code of its own). -/
inductive Event
  | inv (tid : Nat) (op : Op)
  | res (tid : Nat) (op : Op) (r : Res)
  deriving DecidableEq

/-- The whole system (no code of its own).  `hist` lists the events, oldest first.  `ub` records that some thread ran into undefined
behaviour. -/
structure Sys where
  mem : Mem
  thr : Nat → Thread
  hist : List Event
  ub : Bool

/-- What the scheduler may do next: let a thread take its next step, or let the hardware write back the line of a
key/value pair (no code of its own). -/
inductive Sched
  | run (tid : Nat)
  | evict (t i : Nat)
  deriving DecidableEq

/-- One step of the system (no code of its own).  A thread that is stuck (fuel, exception, no calls left) does nothing. -/
def Sys.step (hash : Word → Word) (n : Nat) (s : Sys) : Sched → Sys
  | .evict t i => { s with mem := { s.mem with nv := writeBack s.mem t i } }
  | .run tid =>
    match s.thr tid with
    | .idle [] => s
    | .idle (op :: todo) =>
      { s with thr := upd s.thr tid (.busy op (op.prog hash n) todo), hist := s.hist ++ [.inv tid op] }
    | .busy _ (.halt .ub) _ => { s with ub := true }
    | .busy _ (.halt _) _ => s
    | .busy op (.ret r) todo =>
      { s with thr := upd s.thr tid (.idle todo), hist := s.hist ++ [.res tid op r] }
    | .busy op (.act a k) todo =>
      match a.exec s.mem with
      | none => { s with ub := true }
      | some (r, m') => { s with mem := m', thr := upd s.thr tid (.busy op (k r) todo) }

/-- Executes a schedule (no code of its own). -/
def Sys.exec (hash : Word → Word) (n : Nat) : List Sched → Sys → Sys
  | [], s => s
  | x :: xs, s => Sys.exec hash n xs (s.step hash n x)

/-- Initial system: a fresh map of length `len` (hashMap.hpp:763-880), and a list of calls for each thread. -/
def Sys.init (len cap : Nat) (calls : Nat → List Op) : Sys :=
  { mem := freshMem len cap, thr := fun i => .idle (calls i), hist := [], ub := false }

/-- The threads start their calls on the memory `m` instead of a fresh map (no code of its own). -/
def Sys.start (m : Mem) (calls : Nat → List Op) : Sys :=
  { mem := m, thr := fun i => .idle (calls i), hist := [], ub := false }

end PMap
