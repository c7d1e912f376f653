import Verif.Fixed.Spec
import Mathlib.Data.Finset.Card
import Mathlib.Data.Nat.ModEq

/-!
# What is said about maps in which each key has one writer: vocabulary of C10, C18, C19 and C21

Any number of threads work on a map that starts empty.  A key may be read by everybody but is changed by one thread only
(every thread may own many keys).  The keys are few enough, or spread well enough, that the table never grows.
-/

namespace PMap

/-- The key a call names (hashMap.hpp:896-944). -/
def Op.key : Op → Option Word
  | .get k | .containsKey k | .put k _ | .putIfAbsent k _ | .remove k | .removeIf k _ | .replace k _ _
  | .putIfMatch k _ _ | .update k _ => some k
  | .size | .isEmpty => none

/-- The key a call may change (hashMap.hpp:909-944); `get`, `containsKey`, `size` and `isEmpty` change none. -/
def Op.changes : Op → Option Word
  | .put k _ | .putIfAbsent k _ | .remove k | .removeIf k _ | .replace k _ _ | .putIfMatch k _ _ | .update k _ => some k
  | .get _ | .containsKey _ | .size | .isEmpty => none

/-- The calls the thread `t` may make: on keys in `S`, changing only keys that `t` owns; reading is free.  `update` takes the
placeholder that ucfMap.hpp:45 passes. -/
structure Op.By (S : Finset Word) (own : Word → Nat) (t : Nat) (op : Op) : Prop where
  valid : op.Valid
  keys : ∀ k, op.changes = some k → k ∈ S ∧ own k = t
  upd : ∀ k v, op = .update k v → v = MATCH_ANY

/-- The same without naming the keys: any call, changing only a key that `t` owns (no code of its own). -/
structure Op.Mine (own : Word → Nat) (t : Nat) (op : Op) : Prop where
  valid : op.Valid
  keys : ∀ k, op.changes = some k → own k = t
  upd : ∀ k v, op = .update k v → v = MATCH_ANY

/-- The keys fit into a table of `len` slots without any of them being pushed ten slots away (`REPROBE_LIMIT`,
hashMap.hpp:61): there are at most `len`, and no `L ≥ 10` consecutive slots (cyclically, from slot `a` on) are home
(`hash % len`, hashMap.hpp:1055) to more than `L` of them. -/
structure Roomy (hash : Word → Word) (len : Nat) (S : Finset Word) : Prop where
  valid : ∀ k ∈ S, ValidKey k
  card : S.card ≤ len
  spread : ∀ a L, a < len → 10 ≤ L → L < len →
    (S.filter fun k => ((hash k).toNat % len + (len - a)) % len < L).card ≤ L

/-- Ten keys always fit. -/
theorem roomy_of_ten {hash : Word → Word} {len : Nat} {S : Finset Word} (hv : ∀ k ∈ S, ValidKey k) (h : S.card ≤ len)
    (h10 : S.card ≤ 10) : Roomy hash len S where
  valid := hv
  card := h
  spread _ _ _ hL _ := le_trans (Finset.card_filter_le _ _) (le_trans h10 hL)

/-- Keys with different home slots always fit. -/
theorem roomy_of_inj {hash : Word → Word} {len : Nat} {S : Finset Word} (hv : ∀ k ∈ S, ValidKey k) (hpos : 0 < len)
    (h : ∀ k ∈ S, ∀ k' ∈ S, (hash k).toNat % len = (hash k').toNat % len → k = k') : Roomy hash len S where
  valid := hv
  card := by
    have := Finset.card_le_card_of_injOn (s := S) (t := Finset.range len) (fun k => (hash k).toNat % len)
      (fun k _ => by simpa using Nat.mod_lt _ hpos) (fun k hk k' hk' e => h k hk k' hk' e)
    simpa using this
  spread a L ha _ hL := by
    have := Finset.card_le_card_of_injOn (s := S.filter fun k => ((hash k).toNat % len + (len - a)) % len < L)
      (t := Finset.range L) (fun k => ((hash k).toNat % len + (len - a)) % len)
      (fun k hk => by simpa using (Finset.mem_filter.mp (Finset.mem_coe.mp hk)).2)
      (fun k hk k' hk' e => by
        refine h k (Finset.mem_filter.mp (Finset.mem_coe.mp hk)).1 k' (Finset.mem_filter.mp (Finset.mem_coe.mp hk')).1 ?_
        have e' : (hash k).toNat % len ≡ (hash k').toNat % len [MOD len] := Nat.ModEq.add_right_cancel' (len - a) e
        exact Nat.ModEq.eq_of_lt_of_lt e' (Nat.mod_lt _ hpos) (Nat.mod_lt _ hpos))
    simpa using this

/-- The calls of the thread `t` that have returned, oldest first (no code of its own). -/
def returnedOf (t : Nat) (es : List Event) : List Op :=
  es.filterMap fun e => match e with | .res t' op _ => if t' = t then some op else none | .inv _ _ => none

/-- The calls of the thread `t` in an order of calls of all threads (no code of its own). -/
def orderOf (t : Nat) (fx : List (Nat × Op)) : List Op := fx.filterMap fun x => if x.1 = t then some x.2 else none

/-- What the calls `es` of a phase make of the map `M` when the key `k` is written by the thread `own k` only: under each key
what its writer's calls, in the writer's order, leave there (no code of its own). -/
def phaseMap (own : Word → Nat) (es : List Event) (M : AMap) : AMap := fun k => specRun (returnedOf (own k) es) M k

/-- A map of length `len` has been used in phases: in each phase any number of threads make calls under any schedule, each key
of `S` having one writer; between phases no call is in progress and the keys get other writers.  `M` is the ordinary map after
the same calls (no code of its own). -/
inductive Phases (hash : Word → Word) (len cap : Nat) (S : Finset Word) : Mem → AMap → Prop
  | fresh : Phases hash len cap S (freshMem len cap) AMap.empty
  | phase {m : Mem} {M : AMap} {s : Sys} (n : Nat) (own : Word → Nat) (calls : Nat → List Op) (xs : List Sched) :
      Phases hash len cap S m M → (∀ t, ∀ op ∈ calls t, op.By S own t ∧ op.isUpdate = false) →
      s = (Sys.start m calls).exec hash n xs → (∀ t, ∃ todo, s.thr t = .idle todo) →
      Phases hash len cap S s.mem (phaseMap own s.hist M)

/-- A map has been used in eras: in a `phase` any number of threads make calls under any schedule, each key having one writer, and
no table is allocated until the phase has ended with no call in progress; then the keys get other writers.  Between phases one
thread alone can make calls, and these may allocate tables and migrate to them, each call ending with no migration pending
(`newT`, hashMap.hpp:100, is null in the current table).  `M` is the ordinary map after the same calls (no code of its own). -/
inductive Eras (hash : Word → Word) (len cap : Nat) : Mem → AMap → Prop
  | fresh : Eras hash len cap (freshMem len cap) AMap.empty
  | phase {m : Mem} {M : AMap} {s : Sys} (n : Nat) (own : Word → Nat) (calls : Nat → List Op) (xs : List Sched) :
      Eras hash len cap m M → (∀ t, ∀ op ∈ calls t, op.Mine own t ∧ op.isUpdate = false) →
      s = (Sys.start m calls).exec hash n xs → (∀ t, ∃ todo, s.thr t = .idle todo) → s.mem.next = m.next →
      Eras hash len cap s.mem (phaseMap own s.hist M)
  | call {m : Mem} {M : AMap} {op : Op} {r : Res} {m' : Mem} (n : Nat) :
      Eras hash len cap m M → op.Valid → op.isUpdate = false → run (op.prog hash n) m = .done r m' →
      (m'.tab m'.root).newT = none → Eras hash len cap m' (specNext op M)

end PMap
