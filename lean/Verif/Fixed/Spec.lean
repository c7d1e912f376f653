import Verif.Lin

/-!
# What is said about calls on present keys: vocabulary of C18 and C21

The calls that do not add a key (hashMap.hpp:896-944) made by any number of threads on a map that a single thread has
filled beforehand.
-/

namespace PMap

/-- A returned word without the dirty bit (persistence.hpp:89); the "removed" marker (hashMap.hpp:1352), which a caller
can receive with its dirty bit set, counts as "absent". -/
def unmark (w : Word) : Word := if clean w = VTOMBSTONE then VINITIAL else clean w

/-- A result without marks. -/
def Res.unmark : Res → Res
  | .word w => .word (PMap.unmark w)
  | .bool b => .bool b

/-- An event with the marks of its result removed. -/
def Event.unmark : Event → Event
  | .inv t op => .inv t op
  | .res t op r => .res t op r.unmark

/-- Calls on the keys `has`, of which those in `rem` may be removed.  `update` takes the placeholder that ucfMap.hpp:45 passes. -/
def Op.On (has : Word → Prop) (rem : Word → Bool) : Op → Prop
  | .get k | .containsKey k => ValidKey k
  | .put k v => has k ∧ ValidVal v
  | .putIfMatch k v o => has k ∧ ValidVal v ∧ (o = NO_MATCH_OLD ∨ (rem k = false ∧ (o = MATCH_ANY ∨ o = VTOMBSTONE)))
  | .putIfAbsent k v => has k ∧ ValidVal v ∧ rem k = false
  | .remove k => has k ∧ rem k = true
  | .update k v => has k ∧ v = MATCH_ANY ∧ rem k = false
  | .size | .isEmpty => True
  | .removeIf _ _ | .replace _ _ _ => False

/-- The calls that `Op.On` admits and the conditional calls. -/
def Op.OnW (has : Word → Prop) (rem : Word → Bool) : Op → Prop
  | .get k | .containsKey k => ValidKey k
  | .put k v | .putIfAbsent k v => has k ∧ ValidVal v
  | .putIfMatch k v o => has k ∧ ValidVal v ∧ (ValidVal o ∨ o = NO_MATCH_OLD ∨ o = VTOMBSTONE ∨ (rem k = false ∧ o = MATCH_ANY))
  | .remove k => has k ∧ rem k = true
  | .removeIf k v => has k ∧ ValidVal v ∧ rem k = true
  | .replace k o v => has k ∧ ValidVal o ∧ ValidVal v
  | .update k v => has k ∧ v = MATCH_ANY ∧ rem k = false
  | .size | .isEmpty => True

/-- What a conditional call returns when it changes nothing although its condition holds, where it may do so: `replace` and
`remove(key, value)` return false, the others the content of the key. -/
def spurRes : Op → AMap → Option Res
  | .replace k o _, M => if M k = some o then some (.bool false) else none
  | .removeIf k v, M => if M k = some v then some (.bool false) else none
  | .putIfAbsent k _, M => if M k = none then some (.word VINITIAL) else none
  | .putIfMatch k _ o, M =>
    if o ≠ NO_MATCH_OLD ∧ o ≠ MATCH_ANY ∧ admits o (M k) then some (.word (resWord (M k))) else none
  | _, _ => none

/-- The key a conditional call looks at and the content it waits for (the "removed" marker stands for "absent"). -/
def Op.expects : Op → Option (Word × Word)
  | .replace k o _ => some (k, o)
  | .putIfMatch k _ o => if o = NO_MATCH_OLD ∨ o = MATCH_ANY then none else some (k, o)
  | .removeIf k v => some (k, v)
  | .putIfAbsent k _ => some (k, VTOMBSTONE)
  | _ => none

/-- The call may leave the content `v` under the key `k` (an increment may leave any number). -/
def Op.leaves (k v : Word) : Op → Prop
  | .put k' v' | .putIfAbsent k' v' | .putIfMatch k' v' _ | .replace k' _ v' => k' = k ∧ v' = v
  | .remove k' | .removeIf k' _ => k' = k ∧ v = VTOMBSTONE
  | .update k' _ => k' = k ∧ v ≠ VTOMBSTONE
  | .get _ | .containsKey _ | .size | .isEmpty => False

/-- Another thread than `t` makes a call that may store what `op`, a call of `t`, waits for. -/
def Rivalled (calls : Nat → List Op) (t : Nat) (op : Op) : Prop :=
  ∃ k o, op.expects = some (k, o) ∧ ∃ t', t' ≠ t ∧ ∃ op' ∈ calls t', op'.leaves k o

/-- `LinRun`, except that a conditional call may also give up although its condition holds, if `sp` lets it. -/
inductive WeakRun (sp : Nat → Op → Prop) : AMap → (Nat → CallState) → List Event → Prop
  | nil {M : AMap} {P : Nat → CallState} : WeakRun sp M P []
  | inv {M : AMap} {P : Nat → CallState} {es : List Event} {tid : Nat} {op : Op} : P tid = .idle →
      WeakRun sp M (upd P tid (.called op)) es → WeakRun sp M P (.inv tid op :: es)
  | effect {M : AMap} {P : Nat → CallState} {es : List Event} {tid : Nat} {op : Op} {r : Res} : P tid = .called op →
      (∀ x, specRes op M = some x → r = x) → WeakRun sp (specNext op M) (upd P tid (.effected op r)) es → WeakRun sp M P es
  | giveUp {M : AMap} {P : Nat → CallState} {es : List Event} {tid : Nat} {op : Op} {r : Res} : P tid = .called op →
      sp tid op → spurRes op M = some r → WeakRun sp M (upd P tid (.effected op r)) es → WeakRun sp M P es
  | res {M : AMap} {P : Nat → CallState} {es : List Event} {tid : Nat} {op : Op} {r : Res} : P tid = .effected op r →
      WeakRun sp M (upd P tid .idle) es → WeakRun sp M P (.res tid op r :: es)

/-- Words below this one are not markers (hashMap.hpp:1350-1358). -/
def LIM : Nat := 2 ^ 64 - 32

/-- Only counters are incremented, and the values a call writes to counters leave room for `U` increments
by 8 (hashMap.hpp:91). -/
def Op.Room (ctr : Word → Prop) (U : Nat) : Op → Prop
  | .put k v | .putIfAbsent k v | .putIfMatch k v _ | .replace k _ v => ctr k → v.toNat + 8 * U < LIM
  | .update k _ => ctr k
  | _ => True

/-- The key whose content a call may replace, other than by incrementing it. -/
def Op.writes : Op → Option Word
  | .put k _ | .putIfAbsent k _ | .putIfMatch k _ _ | .remove k | .removeIf k _ | .replace k _ _ => some k
  | .get _ | .containsKey _ | .update _ _ | .size | .isEmpty => none

/-- An increment of `k` begins. -/
def Event.incBegins (k : Word) : Event → Bool
  | .inv _ (.update k' _) => k' == k
  | _ => false
/-- An increment of `k` ends. -/
def Event.incEnds (k : Word) : Event → Bool
  | .res _ (.update k' _) _ => k' == k
  | _ => false
/-- Some increment begins. -/
def Event.updBegins : Event → Bool
  | .inv _ (.update _ _) => true
  | _ => false

end PMap
