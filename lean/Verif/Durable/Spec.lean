import Verif.Reopen
import Verif.AMap

/-!
# Vocabulary of the durability statements (C22, C23)
-/

namespace PMap

/-- The word is in the file unless its dirty bit says otherwise: what persistence.hpp:81-90 (`pcas_read`) relies on. -/
def Durable (m : Mem) (a : Addr) : Prop := isDirty (m.word a) = false → clean (m.nv a) = m.word a

/-- In the execution `xs` from `s`, the word at `a` (apart from its dirty bit) never returns to what it was once it has
changed: there is no A-B-A. -/
def NoReturn (hash : Word → Word) (n : Nat) (s : Sys) (xs : List Sched) (a : Addr) : Prop :=
  ∀ x y z, x <+: y → y <+: z → z <+: xs → a.tab < (s.exec hash n x).mem.next → a.idx < ((s.exec hash n x).mem.tab a.tab).len →
    clean ((s.exec hash n x).mem.word a) = clean ((s.exec hash n z).mem.word a) →
    clean ((s.exec hash n y).mem.word a) = clean ((s.exec hash n x).mem.word a)

/-- The steps of a schedule are those of thread `t`, and write-backs. -/
def Sched.Only (t : Nat) : Sched → Prop
  | .run t' => t' = t
  | .evict _ _ => True

/-- The thread an event belongs to. -/
def Event.tid : Event → Nat
  | .inv t _ => t
  | .res t _ _ => t

/-- The value a call may store under its key (`VTOMBSTONE` for a removal), for calls other than `update`. -/
def Op.stores : Op → Option (Word × Word)
  | .put k v | .putIfAbsent k v | .replace k _ v | .putIfMatch k v _ => some (k, v)
  | .remove k | .removeIf k _ => some (k, VTOMBSTONE)
  | _ => none

/-- No counters are incremented, and at most one call of all threads stores a given value under a given key. -/
structure DistinctStores (calls : Nat → List Op) : Prop where
  noUpdate : ∀ t, ∀ op ∈ calls t, op.isUpdate = false
  once : ∀ t k v, (calls t).countP (fun op => op.stores = some (k, v)) ≤ 1
  one : ∀ t t' k v, ∀ op ∈ calls t, ∀ op' ∈ calls t', op.stores = some (k, v) → op'.stores = some (k, v) → t = t'

end PMap
