import Mathlib.Algebra.BigOperators.Group.List.Basic

/-!
# The counters of libpmemobj's concurrent_hash_map, one for each thread

`enumerable_thread_specific.hpp` ("ets"), which the table uses to count how many nodes each thread has added (chm:883-888, 983-987), and the
numbers it gives to threads.  In `Pmem/Mem.lean` the sum of these counters is one number, `diff`; here is why that is right.
-/

namespace PMap.Pmem.Tls

/-- The state: `queue` and `cap` are those of `id_manager` (ets:65-81, volatile), `store` is `_storage`, the counters (165), `cached` is
`_storage_size` (167), `lock` is `_mutex` (164), `base` is `on_init_size` of the table (chm:939-944). `isOpen` says whether the pool has been
opened since the last power failure.  Simplified: a `segment_vector` is a list, and its `resize`, a transaction, is one action. -/
structure TSt where
  cap : Nat
  queue : List Nat
  store : List Int
  cached : Nat
  lock : Option Nat
  base : Int
  isOpen : Bool

/-- Where a thread is: it has no number (it has not called `local` yet, or has ended); it has one, and is outside the code here; or it is in
`local` (ets:334-365) or behind it, about to add `d` to its counter in a transaction (chm:1280-1287, 3264-3269). -/
inductive PC where
  | out
  | idle (id : Nat)
  | start (id : Nat) (d : Int)
  | lock (id : Nat) (d : Int) (c : Nat)
  | size (id : Nat) (d : Int) (c : Nat)
  | resize (id : Nat) (d : Int)
  | setc (id : Nat) (d : Int) (v : Nat)
  | unlock (id : Nat) (d : Int)
  | use (id : Nat) (d : Int)

/-- What an access leads to.  No code of its own. -/
inductive Res where
  | ok (s : TSt) (p : PC) (ds : List Int)
  | wait
  | ub

/-- `id_manager::get` (ets:182-194). -/
def getId (s : TSt) : Nat × TSt := match s.queue with
  | [] => (s.cap, { s with cap := s.cap + 1 })
  | i :: q => (i, { s with queue := q })

/-- `id_manager::release` (ets:201-207). -/
def release (s : TSt) (i : Nat) : TSt := { s with queue := i :: s.queue }

/-- `resize` of the storage (ets:352; segment_vector.hpp:2363-2375), with new counters 0. -/
def resized (l : List Int) (n : Nat) : List Int := if n < l.length then l.take n else l ++ List.replicate (n - l.length) 0

/-- Adding to one counter.  No code of its own. -/
def bump (l : List Int) (i : Nat) (d : Int) : List Int := l.modify i (· + d)

/-- The next access of thread `t` in `local` (ets:334-365) and of the transaction that follows it. -/
def next (t : Nat) (s : TSt) : PC → Res
  | .start i d => if s.cached ≤ i then .ok s (.lock i d s.cached) [] else .ok s (.use i d) []
  | .lock i d c => if s.lock = none then .ok { s with lock := some t } (.size i d c) [] else .wait
  | .size i d c =>
    let n := s.store.length
    if n ≤ i then .ok s (.resize i d) []
    else if n ≠ c then .ok s (.setc i d n) []
    else .ok s (.unlock i d) []
  | .resize i d => .ok { s with store := resized s.store (i + 1) } (.setc i d (i + 1)) []
  | .setc i d v => .ok { s with cached := v } (.unlock i d) []
  | .unlock i d => if s.lock = some t then .ok { s with lock := none } (.use i d) [] else .ub
  | .use i d => if i < s.store.length then .ok { s with store := bump s.store i d } (.idle i) [d] else .ub
  | .out => .ub
  | .idle _ => .ub

/-- The number a thread has.  No code of its own. -/
def PC.id : PC → Option Nat
  | .out => none
  | .idle i | .start i _ | .lock i _ _ | .size i _ _ | .resize i _ | .setc i _ _ | .unlock i _ | .use i _ => some i

/-- The thread is in `local` or the transaction.  No code of its own. -/
def PC.busy : PC → Bool
  | .out | .idle _ => false
  | _ => true

/-- `id_manager()` (ets:170-175). -/
def freshQueue : List Nat := List.range 1024

/-- A table that has just been created, and no thread that used it. -/
def TSt.new : TSt := ⟨1024, freshQueue, [], 0, none, 0, true⟩

/-- `tls_restore` (chm:990-1012), when the pool is opened: the counters are added to `on_init_size` and cleared (ets:374-383), in one
transaction.  The second component says whether the assertion at chm:1002-1004 holds. -/
def restore (s : TSt) : TSt × Bool :=
  ({ s with base := s.base + s.store.sum, store := [], cached := 0, isOpen := true }, decide (0 ≤ s.store.sum ∨ 0 ≤ s.store.sum + s.base))

/-- The state and the threads.  No code of its own. -/
structure Cfg where
  s : TSt
  th : Nat → PC

/-- One thread changed.  No code of its own. -/
def setPC (th : Nat → PC) (t : Nat) (p : PC) : Nat → PC := fun u => if u = t then p else th u

/-- One step: a thread calls for the first time and gets a number (`static thread_local`, ets:339); it calls again; it makes an access; it
ends, which releases its number (ets:246-249); the power fails, at any moment, also while the pool is being opened, and `_storage_size` holds
whatever (it is not part of a transaction); the pool is opened.  The list is what was added to counters.  No code of its own. -/
inductive Step : Cfg → List Int → Cfg → Prop
  | first {c : Cfg} {t : Nat} (d : Int) : c.s.isOpen = true → c.th t = .out → Step c [] ⟨(getId c.s).2, setPC c.th t (.start (getId c.s).1 d)⟩
  | call {c : Cfg} {t i : Nat} (d : Int) : c.th t = .idle i → Step c [] ⟨c.s, setPC c.th t (.start i d)⟩
  | act {c : Cfg} {t : Nat} {s' : TSt} {p : PC} {ds : List Int} : (c.th t).busy = true → next t c.s (c.th t) = .ok s' p ds →
      Step c ds ⟨s', setPC c.th t p⟩
  | done {c : Cfg} {t i : Nat} : c.th t = .idle i → Step c [] ⟨release c.s i, setPC c.th t .out⟩
  | crash {c : Cfg} (v : Nat) : Step c [] ⟨{ c.s with cap := 1024, queue := freshQueue, cached := v, lock := none, isOpen := false }, fun _ => .out⟩
  | restart {c : Cfg} : c.s.isOpen = false → Step c [] ⟨(restore c.s).1, c.th⟩

/-- Several steps and all that was added.  No code of its own. -/
inductive Runs : Cfg → List Int → Cfg → Prop
  | nil {c : Cfg} : Runs c [] c
  | snoc {c c1 c2 : Cfg} {ds es : List Int} : Runs c ds c1 → Step c1 es c2 → Runs c (ds ++ es) c2

/-- The beginning.  No code of its own. -/
def Cfg.new : Cfg := ⟨TSt.new, fun _ => .out⟩

end PMap.Pmem.Tls
