import Verif.Pmem.Code

/-!
# libpmemobj's concurrent_hash_map: several threads and power failures
-/

namespace PMap.Pmem

/-- A thread: between two calls, or in a call with the rest of its program.  No code of its own. -/
inductive Th : Type 1 where
  | idle
  | run (op : Cmd) (p : HP Ans)

/-- The memory and the threads.  No code of its own. -/
structure Cfg : Type 1 where
  s : HSt
  th : Nat → Th

/-- What is seen from outside: a call, its return, a power failure.  No code of its own. -/
inductive Ev where
  | inv (t : Nat) (op : Cmd)
  | res (t : Nat) (op : Cmd) (a : Ans)
  | crash
  deriving DecidableEq

/-- One thread changed.  No code of its own. -/
def setTh (th : Nat → Th) (t : Nat) (x : Th) : Nat → Th := fun u => if u = t then x else th u

/-- One step: a call by any thread, with any number of rounds its loops may go on for; one access; a return; or a power failure, after
which the pool is opened again (pmemMap.hpp:86-127).  A thread that has to wait, and one whose access threw an exception, make no step.
No code of its own. -/
inductive Step (E : HEnv) : Cfg → List Ev → Cfg → Prop
  | call {c : Cfg} {t : Nat} (op : Cmd) (f : Nat) : c.th t = .idle → Step E c [.inv t op] ⟨c.s, setTh c.th t (.run op (op.prog E t f))⟩
  | act {c : Cfg} {t : Nat} {op : Cmd} {β : Type} {f : HSt → Out β} {k : β → HP Ans} {b : β} {s' : HSt} : c.th t = .run op (.act f k) →
      f c.s = .ok b s' → Step E c [] ⟨s', setTh c.th t (.run op (k b))⟩
  | ret {c : Cfg} {t : Nat} {op : Cmd} {a : Ans} : c.th t = .run op (.ret a) → Step E c [.res t op a] ⟨c.s, setTh c.th t .idle⟩
  | crash {c : Cfg} (keep : Loc → Bool) {s' : HSt} : reopen (c.s.crash keep) = .ok () s' → Step E c [.crash] ⟨s', fun _ => .idle⟩

/-- Several steps and what is seen of them.  No code of its own. -/
inductive Runs (E : HEnv) : Cfg → List Ev → Cfg → Prop
  | nil {c : Cfg} : Runs E c [] c
  | cons {c c1 c2 : Cfg} {es fs : List Ev} : Step E c es c1 → Runs E c1 fs c2 → Runs E c (es ++ fs) c2

/-- A new pool and no call.  No code of its own. -/
def Cfg.new : Cfg := ⟨HSt.new, fun _ => .idle⟩

/-- A thread that runs alone.  `wait` also stands for a loop that goes on for longer than its number of rounds.  No code of its own. -/
def HP.exec {α : Type} : HP α → HSt → Out α
  | .ret a, s => .ok a s
  | .act f k, s => match f s with
    | .ok b s' => (k b).exec s'
    | .wait => .wait
    | .oom => .oom
    | .ub => .ub
    | .abort => .abort
  | .spin, _ => .wait

end PMap.Pmem
