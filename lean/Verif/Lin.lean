import Verif.AMap

/-!
# Linearizability of histories

The usual definition in its "linearization point" form: each call takes effect on an ordinary map at one moment between
its invocation and its response, and its result is the one the ordinary map gives at that moment.  Nothing here refers to
the implementation, only to the events of `Verif.Conc` (hashMap.hpp:896-944 lists the calls).
-/

namespace PMap

/-- What a thread's call looks like from outside. -/
inductive CallState
  | idle
  | called (op : Op)
  | effected (op : Op) (r : Res)

/-- `LinRun M P es`: the events `es` can be explained starting from map `M` and call states `P`. -/
inductive LinRun : AMap → (Nat → CallState) → List Event → Prop
  | nil {M : AMap} {P : Nat → CallState} : LinRun M P []
  | inv {M : AMap} {P : Nat → CallState} {es : List Event} {tid : Nat} {op : Op} : P tid = .idle →
      LinRun M (upd P tid (.called op)) es → LinRun M P (.inv tid op :: es)
  | effect {M : AMap} {P : Nat → CallState} {es : List Event} {tid : Nat} {op : Op} {r : Res} : P tid = .called op →
      (∀ x, specRes op M = some x → r = x) → LinRun (specNext op M) (upd P tid (.effected op r)) es → LinRun M P es
  | res {M : AMap} {P : Nat → CallState} {es : List Event} {tid : Nat} {op : Op} {r : Res} : P tid = .effected op r →
      LinRun M (upd P tid .idle) es → LinRun M P (.res tid op r :: es)

/-- A history of calls on an initially empty map is linearizable. -/
def Linearizable (h : List Event) : Prop := LinRun AMap.empty (fun _ => .idle) h

end PMap
