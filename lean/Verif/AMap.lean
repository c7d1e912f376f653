import Verif.Conc
import Mathlib.Data.Set.Card

/-!
# The ordinary finite map the properties compare the code with, and single-threaded runs

Nothing here is taken from the implementation: `AMap` is the textbook map, `specNext` and `specRes` say what each public
call should do to it and return.
-/

namespace PMap

/-- An ordinary map from keys to values. -/
abbrev AMap := Word → Option Word

namespace AMap

/-- The map without entries. -/
def empty : AMap := fun _ => none
/-- Write `v` under `k`. -/
def set (M : AMap) (k v : Word) : AMap := fun k' => if k' = k then some v else M k'
/-- Remove `k`. -/
def erase (M : AMap) (k : Word) : AMap := fun k' => if k' = k then none else M k'
/-- Number of keys present. -/
noncomputable def card (M : AMap) : Nat := Set.ncard {k | M k ≠ none}

end AMap

/-- A key a user may pass (hashMap.hpp:68, 78 reserve two words; the low bit is the dirty bit, marking.hpp). -/
def ValidKey (k : Word) : Prop := isDirty k = false ∧ isKeyReserved k = false
/-- A value a user may pass (hashMap.hpp:69-80 reserves five words; the two low bits are marks). -/
def ValidVal (v : Word) : Prop := isDirty v = false ∧ isMig v = false ∧ isValueReserved v = false

/-- The word that stands for "absent" in results (hashMap.hpp:69). -/
def resWord (o : Option Word) : Word := o.getD VINITIAL

/-- Does an expected value given to `putIfMatch` admit the current content?  Markers: hashMap.hpp:69-80. -/
def admits (o : Word) (c : Option Word) : Prop :=
  if o = NO_MATCH_OLD then True
  else if o = MATCH_ANY then c ≠ none
  else if o = VTOMBSTONE then c = none
  else c = some o

instance (o : Word) (c : Option Word) : Decidable (admits o c) := by unfold admits; infer_instance

/-- One more than the counter stored in an entry; counters are stored shifted left by three (hashMap.hpp:91). -/
def addOne (c : Option Word) : Word := (((c.getD 0#64) >>> 3) + 1#64) <<< 3

/-- Arguments a user may pass to each call (hashMap.hpp:896-944). -/
def Op.Valid : Op → Prop
  | .get k | .containsKey k | .remove k => ValidKey k
  | .put k v | .putIfAbsent k v | .removeIf k v => ValidKey k ∧ ValidVal v
  | .replace k o v => ValidKey k ∧ ValidVal o ∧ ValidVal v
  | .putIfMatch k v o => ValidKey k ∧ ValidVal v ∧ (ValidVal o ∨ o = NO_MATCH_OLD ∨ o = MATCH_ANY ∨ o = VTOMBSTONE)
  | .update k v => ValidKey k ∧ (ValidVal v ∨ v = MATCH_ANY)
  | .size | .isEmpty => True

/-- Is the call `update`? -/
def Op.isUpdate : Op → Bool
  | .update _ _ => true
  | _ => false

/-- The map after a call. -/
def specNext : Op → AMap → AMap
  | .put k v, M => M.set k v
  | .putIfAbsent k v, M => if M k = none then M.set k v else M
  | .remove k, M => M.erase k
  | .removeIf k v, M => if M k = some v then M.erase k else M
  | .replace k o v, M => if M k = some o then M.set k v else M
  | .putIfMatch k v o, M => if admits o (M k) then M.set k v else M
  | .update k _, M => M.set k (addOne (M k))
  | .get _, M | .containsKey _, M | .size, M | .isEmpty, M => M

/-- The result of a call, where C01 fixes one (`remove(key)` is C08, `size` and `isEmpty` are C10). -/
def specRes : Op → AMap → Option Res
  | .get k, M => some (.word (resWord (M k)))
  | .containsKey k, M => some (.bool (M k).isSome)
  | .put k _, M | .putIfAbsent k _, M | .putIfMatch k _ _, M | .update k _, M => some (.word (resWord (M k)))
  | .removeIf k v, M => some (.bool (decide (M k = some v)))
  | .replace k o _, M => some (.bool (decide (M k = some o)))
  | .remove _, _ | .size, _ | .isEmpty, _ => none

/-- The map after a list of calls. -/
def specRun : List Op → AMap → AMap
  | [], M => M
  | op :: ops, M => specRun ops (specNext op M)

/-- A list of results is the one the ordinary map gives. -/
def specAgrees : List Op → AMap → List Res → Prop
  | [], _, rs => rs = []
  | _ :: _, _, [] => False
  | op :: ops, M, r :: rs => (∀ x, specRes op M = some x → r = x) ∧ specAgrees ops (specNext op M) rs

/-- One thread makes the calls one after the other, each running alone to its end. -/
def runOps (hash : Word → Word) (n : Nat) : List Op → Mem → Outcome (List Res)
  | [], m => .done [] m
  | op :: ops, m =>
    match run (op.prog hash n) m with
    | .halted h => .halted h
    | .done r m' =>
      match runOps hash n ops m' with
      | .halted h => .halted h
      | .done rs m'' => .done (r :: rs) m''

/-- A single thread brings the map from its creation (length `len`) to the memory `m` by valid calls other than `update`,
after each of which `P` holds; `M` is the ordinary map after the same calls. -/
inductive Reach (hash : Word → Word) (len cap : Nat) (P : Mem → Prop) : Mem → AMap → Prop
  | init : Reach hash len cap P (freshMem len cap) AMap.empty
  | step {m m' : Mem} {M : AMap} {op : Op} {r : Res} (n : Nat) : Reach hash len cap P m M → op.Valid →
      op.isUpdate = false → run (op.prog hash n) m = .done r m' → P m' → Reach hash len cap P m' (specNext op M)

/-- A single thread brings the map from its creation to the memory `m` by any valid calls. -/
inductive ReachAny (hash : Word → Word) (len cap : Nat) : Mem → Prop
  | init : ReachAny hash len cap (freshMem len cap)
  | step {m m' : Mem} {op : Op} {r : Res} (n : Nat) : ReachAny hash len cap m → op.Valid →
      run (op.prog hash n) m = .done r m' → ReachAny hash len cap m'

/-- A capacity the constructor can be given (ucfMap.hpp:50 `1 << opt.capacity`) up to 2^32 slots, on a file system that
holds tables of at most `cap ≤ 2^32` slots. -/
structure Sized (len cap : Nat) : Prop where
  pow : ∃ p, p ≤ 32 ∧ len = 2 ^ p
  cap : cap ≤ 2 ^ 32

/-! ## Concrete runs, for the examples -/

/-- Makes the calls one after the other, checking `p` after each. -/
def runChk (hash : Word → Word) (n : Nat) (p : Mem → Bool) : List Op → Mem → Option Mem
  | [], m => some m
  | op :: ops, m =>
    match run (op.prog hash n) m with
    | .halted _ => none
    | .done _ m' => if p m' then runChk hash n p ops m' else none

theorem runChk_reach {hash : Word → Word} {len cap n : Nat} {p : Mem → Bool} {P : Mem → Prop}
    (hp : ∀ m, p m = true → P m) (ops : List Op) {m m' : Mem} {M : AMap} (h : Reach hash len cap P m M)
    (hv : ∀ op ∈ ops, op.Valid ∧ op.isUpdate = false) (hr : runChk hash n p ops m = some m') :
    Reach hash len cap P m' (specRun ops M) := by
  induction ops generalizing m M with
  | nil => cases hr; exact h
  | cons op ops ih =>
    rw [runChk] at hr
    have ho := hv op (List.mem_cons_self ..)
    cases he : run (op.prog hash n) m with
    | halted x => rw [he] at hr; cases hr
    | done r m1 =>
      rw [he] at hr
      simp only at hr
      split at hr
      · next hc => exact ih (h.step n ho.1 ho.2 he (hp _ hc)) (fun o h => hv o (List.mem_cons_of_mem _ h)) hr
      · cases hr

theorem runChk_reachAny {hash : Word → Word} {len cap n : Nat} {p : Mem → Bool} (ops : List Op) {m m' : Mem}
    (h : ReachAny hash len cap m) (hv : ∀ op ∈ ops, op.Valid) (hr : runChk hash n p ops m = some m') :
    ReachAny hash len cap m' := by
  induction ops generalizing m with
  | nil => cases hr; exact h
  | cons op ops ih =>
    rw [runChk] at hr
    have ho := hv op (List.mem_cons_self ..)
    cases he : run (op.prog hash n) m with
    | halted x => rw [he] at hr; cases hr
    | done r m1 =>
      rw [he] at hr
      simp only at hr
      split at hr
      · exact ih (h.step n ho he) (fun o h => hv o (List.mem_cons_of_mem _ h)) hr
      · cases hr

instance (k : Word) : Decidable (ValidKey k) := by unfold ValidKey; infer_instance
instance (v : Word) : Decidable (ValidVal v) := by unfold ValidVal; infer_instance
instance (op : Op) : Decidable op.Valid := by cases op <;> unfold Op.Valid <;> infer_instance

/-- The results, if the run ended. -/
def Outcome.val? {α : Type} : Outcome α → Option α
  | .done a _ => some a
  | .halted _ => none
/-- The final memory, if the run ended. -/
def Outcome.mem? {α : Type} : Outcome α → Option Mem
  | .done _ m => some m
  | .halted _ => none

theorem Outcome.eq_done {α : Type} {o : Outcome α} {a : α} (h : o.val? = some a) : ∃ m, o = .done a m := by
  cases o with
  | done b m => cases h; exact ⟨m, rfl⟩
  | halted x => cases h

end PMap
