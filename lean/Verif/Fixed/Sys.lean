import Verif.Fixed.Ops
import Verif.Par.Map
import Mathlib.Data.List.Perm.Subperm

/-!
# Any number of threads on present keys (proof machinery)
-/

namespace PMap

open Prog

/-! ## Explanations of a history, built from the front -/

/-- The events `es` are explained by the effects `fx`, which bring the map from `M0` to `M` and the calls to `P`. -/
inductive LinTo (M0 : AMap) : AMap → (Nat → CallState) → List Event → List (Nat × Op) → Prop
  | nil : LinTo M0 M0 (fun _ => .idle) [] []
  | inv {M : AMap} {P : Nat → CallState} {es : List Event} {fx : List (Nat × Op)} (t : Nat) (op : Op) :
      LinTo M0 M P es fx → P t = .idle → LinTo M0 M (upd P t (.called op)) (es ++ [.inv t op]) fx
  | effect {M : AMap} {P : Nat → CallState} {es : List Event} {fx : List (Nat × Op)} (t : Nat) (op : Op) (r : Res) :
      LinTo M0 M P es fx → P t = .called op → (∀ x, specRes op M = some x → r = x) →
      LinTo M0 (specNext op M) (upd P t (.effected op r)) es (fx ++ [(t, op)])
  | res {M : AMap} {P : Nat → CallState} {es : List Event} {fx : List (Nat × Op)} (t : Nat) (op : Op) (r : Res) :
      LinTo M0 M P es fx → P t = .effected op r → LinTo M0 M (upd P t .idle) (es ++ [.res t op r]) fx

/-- The same, where conditional calls may also give up if `sp` lets them; these are listed in `fx` too. -/
inductive WeakTo (sp : Nat → Op → Prop) (M0 : AMap) : AMap → (Nat → CallState) → List Event → List (Nat × Op) → Prop
  | nil : WeakTo sp M0 M0 (fun _ => .idle) [] []
  | inv {M : AMap} {P : Nat → CallState} {es : List Event} {fx : List (Nat × Op)} (t : Nat) (op : Op) :
      WeakTo sp M0 M P es fx → P t = .idle → WeakTo sp M0 M (upd P t (.called op)) (es ++ [.inv t op]) fx
  | effect {M : AMap} {P : Nat → CallState} {es : List Event} {fx : List (Nat × Op)} (t : Nat) (op : Op) (r : Res) :
      WeakTo sp M0 M P es fx → P t = .called op → (∀ x, specRes op M = some x → r = x) →
      WeakTo sp M0 (specNext op M) (upd P t (.effected op r)) es (fx ++ [(t, op)])
  | giveUp {M : AMap} {P : Nat → CallState} {es : List Event} {fx : List (Nat × Op)} (t : Nat) (op : Op) (r : Res) :
      sp t op → WeakTo sp M0 M P es fx → P t = .called op → spurRes op M = some r →
      WeakTo sp M0 M (upd P t (.effected op r)) es (fx ++ [(t, op)])
  | res {M : AMap} {P : Nat → CallState} {es : List Event} {fx : List (Nat × Op)} (t : Nat) (op : Op) (r : Res) :
      WeakTo sp M0 M P es fx → P t = .effected op r → WeakTo sp M0 M (upd P t .idle) (es ++ [.res t op r]) fx

variable {M0 M : AMap} {P : Nat → CallState} {es : List Event} {fx : List (Nat × Op)} {sp : Nat → Op → Prop}

theorem LinTo.weak (h : LinTo M0 M P es fx) : WeakTo sp M0 M P es fx := by
  induction h with
  | nil => exact .nil
  | inv t op _ hp ih => exact .inv t op ih hp
  | effect t op r _ hp hr ih => exact .effect t op r ih hp hr
  | res t op r _ hp ih => exact .res t op r ih hp

theorem WeakTo.lin (h : WeakTo sp M0 M P es fx) (hb : ∀ t op, ¬ sp t op) : LinTo M0 M P es fx := by
  induction h with
  | nil => exact .nil
  | inv t op _ hp ih => exact .inv t op ih hp
  | effect t op r _ hp hr ih => exact .effect t op r ih hp hr
  | giveUp t op r hb' => exact absurd hb' (hb t op)
  | res t op r _ hp ih => exact .res t op r ih hp

theorem WeakTo.mono {sp' : Nat → Op → Prop} (h : WeakTo sp M0 M P es fx) (hb : ∀ t op, sp t op → sp' t op) :
    WeakTo sp' M0 M P es fx := by
  induction h with
  | nil => exact .nil
  | inv t op _ hp ih => exact .inv t op ih hp
  | effect t op r _ hp hr ih => exact .effect t op r ih hp hr
  | giveUp t op r hs _ hp hr ih => exact .giveUp t op r (hb t op hs) ih hp hr
  | res t op r _ hp ih => exact .res t op r ih hp

theorem WeakTo.run (h : WeakTo sp M0 M P es fx) : ∀ es', WeakRun sp M P es' → WeakRun sp M0 (fun _ => .idle) (es ++ es') := by
  induction h with
  | nil => exact fun _ h => h
  | inv t op _ hp ih =>
    intro es' h
    rw [List.append_assoc]
    exact ih _ (.inv hp h)
  | effect t op r _ hp hr ih => exact fun es' h => ih _ (.effect hp hr h)
  | giveUp t op r hs _ hp hr ih => exact fun es' h => ih _ (.giveUp hp hs hr h)
  | res t op r _ hp ih =>
    intro es' h
    rw [List.append_assoc]
    exact ih _ (.res hp h)

theorem LinTo.run (h : LinTo M0 M P es fx) : ∀ es', LinRun M P es' → LinRun M0 (fun _ => .idle) (es ++ es') := by
  induction h with
  | nil => exact fun _ h => h
  | inv t op _ hp ih =>
    intro es' h
    rw [List.append_assoc]
    exact ih _ (.inv hp h)
  | effect t op r _ hp hr ih => exact fun es' h => ih _ (.effect hp hr h)
  | res t op r _ hp ih =>
    intro es' h
    rw [List.append_assoc]
    exact ih _ (.res hp h)

/-- Threads of the calls selected by `q` that begin in a history. -/
def begTids (q : Op → Bool) (es : List Event) : List Nat :=
  es.filterMap fun e => match e with | .inv t op => if q op then some t else none | .res _ _ _ => none
/-- Threads of the calls selected by `q` that end in a history. -/
def endTids (q : Op → Bool) (es : List Event) : List Nat :=
  es.filterMap fun e => match e with | .inv _ _ => none | .res t op _ => if q op then some t else none
/-- Threads of the selected calls that take effect. -/
def effTids (q : Op → Bool) (fx : List (Nat × Op)) : List Nat :=
  fx.filterMap fun x => if q x.2 then some x.1 else none

/-- One selected call is waiting to take effect. -/
def waitC (q : Op → Bool) : CallState → Nat
  | .called op => if q op then 1 else 0
  | _ => 0
/-- One selected call has taken effect but not returned. -/
def waitE (q : Op → Bool) : CallState → Nat
  | .effected op _ => if q op then 1 else 0
  | _ => 0

theorem WeakTo.counts (q : Op → Bool) (h : WeakTo sp M0 M P es fx) : ∀ t,
    (begTids q es).count t = (effTids q fx).count t + waitC q (P t) ∧
    (effTids q fx).count t = (endTids q es).count t + waitE q (P t) := by
  induction h with
  | nil => intro t; exact ⟨rfl, rfl⟩
  | inv t op _ hp ih =>
    intro t'
    obtain ⟨h1, h2⟩ := ih t'
    simp only [begTids, endTids, List.filterMap_append, List.count_append] at h1 h2 ⊢
    by_cases e : t' = t
    · subst e
      rw [hp] at h1 h2
      simp only [upd, if_true]
      cases hq : q op <;> simp [waitC, waitE, hq] at h1 h2 ⊢ <;> omega
    · have e' : t ≠ t' := fun h => e h.symm
      simp only [upd, if_neg e]
      cases hq : q op <;> simp [hq, e'] at h1 h2 ⊢ <;> omega
  | effect t op r _ hp hr ih =>
    intro t'
    obtain ⟨h1, h2⟩ := ih t'
    simp only [effTids, List.filterMap_append, List.count_append] at h1 h2 ⊢
    by_cases e : t' = t
    · subst e
      rw [hp] at h1 h2
      simp only [upd, if_true]
      cases hq : q op <;> simp [waitC, waitE, hq] at h1 h2 ⊢ <;> omega
    · have e' : t ≠ t' := fun h => e h.symm
      simp only [upd, if_neg e]
      cases hq : q op <;> simp [hq, e'] at h1 h2 ⊢ <;> omega
  | giveUp t op r _ _ hp hr ih =>
    intro t'
    obtain ⟨h1, h2⟩ := ih t'
    simp only [effTids, List.filterMap_append, List.count_append] at h1 h2 ⊢
    by_cases e : t' = t
    · subst e
      rw [hp] at h1 h2
      simp only [upd, if_true]
      cases hq : q op <;> simp [waitC, waitE, hq] at h1 h2 ⊢ <;> omega
    · have e' : t ≠ t' := fun h => e h.symm
      simp only [upd, if_neg e]
      cases hq : q op <;> simp [hq, e'] at h1 h2 ⊢ <;> omega
  | res t op r _ hp ih =>
    intro t'
    obtain ⟨h1, h2⟩ := ih t'
    simp only [begTids, endTids, List.filterMap_append, List.count_append] at h1 h2 ⊢
    by_cases e : t' = t
    · subst e
      rw [hp] at h1 h2
      simp only [upd, if_true]
      cases hq : q op <;> simp [waitC, waitE, hq] at h1 h2 ⊢ <;> omega
    · have e' : t ≠ t' := fun h => e h.symm
      simp only [upd, if_neg e]
      cases hq : q op <;> simp [hq, e'] at h1 h2 ⊢ <;> omega

theorem length_le_of_count {l1 l2 : List Nat} (h : ∀ t, l1.count t ≤ l2.count t) : l1.length ≤ l2.length :=
  (List.subperm_ext_iff.mpr fun t _ => h t).length_le

theorem WeakTo.eff_le (q : Op → Bool) (h : WeakTo sp M0 M P es fx) : (effTids q fx).length ≤ (begTids q es).length :=
  length_le_of_count fun t => by have := (h.counts q t).1; omega
theorem WeakTo.end_le (q : Op → Bool) (h : WeakTo sp M0 M P es fx) : (endTids q es).length ≤ (effTids q fx).length :=
  length_le_of_count fun t => by have := (h.counts q t).2; omega
theorem WeakTo.all_idle (q : Op → Bool) (h : WeakTo sp M0 M P es fx) (hi : ∀ t, P t = .idle) :
    (begTids q es).length = (endTids q es).length := by
  have key : ∀ t, (begTids q es).count t = (endTids q es).count t := by
    intro t
    obtain ⟨h1, h2⟩ := h.counts q t
    rw [hi] at h1 h2
    simp [waitC, waitE] at h1 h2
    omega
  exact le_antisymm (length_le_of_count fun t => le_of_eq (key t)) (length_le_of_count fun t => le_of_eq (key t).symm)

theorem LinTo.counts (q : Op → Bool) (h : LinTo M0 M P es fx) : ∀ t,
    (begTids q es).count t = (effTids q fx).count t + waitC q (P t) ∧
      (effTids q fx).count t = (endTids q es).count t + waitE q (P t) := (h.weak (sp := fun _ _ => False)).counts q
theorem LinTo.eff_le (q : Op → Bool) (h : LinTo M0 M P es fx) : (effTids q fx).length ≤ (begTids q es).length :=
  (h.weak (sp := fun _ _ => False)).eff_le q
theorem LinTo.end_le (q : Op → Bool) (h : LinTo M0 M P es fx) : (endTids q es).length ≤ (effTids q fx).length :=
  (h.weak (sp := fun _ _ => False)).end_le q
theorem LinTo.all_idle (q : Op → Bool) (h : LinTo M0 M P es fx) (hi : ∀ t, P t = .idle) :
    (begTids q es).length = (endTids q es).length := (h.weak (sp := fun _ _ => False)).all_idle q hi

/-! ## What one effect does -/

variable {D : Desc} {hash : Word → Word}

/-- With `e` of at most `U` increments done, no counter (a key in `ctr`) can reach the markers. -/
def Bound (ctr : Word → Prop) (U e : Nat) (M : AMap) : Prop :=
  ∀ k v, ctr k → M k = some v → v.toNat + 8 * U < LIM + 8 * e

theorem addOne_toNat {w : Word} (h : w.toNat < LIM) : (addOne (some w)).toNat = (w.toNat / 8 + 1) * 8 := by
  simp only [addOne, Option.getD, LIM] at h ⊢
  rw [BitVec.toNat_shiftLeft, BitVec.toNat_add, BitVec.toNat_ushiftRight, Nat.shiftRight_eq_div_pow, Nat.shiftLeft_eq]
  simp
  omega

theorem validVal_of_lt {w : Word} (h : w.toNat < LIM) (h8 : w.toNat % 8 = 0) : ValidVal w := by
  have e : w = (w >>> 3) <<< 3 := by
    apply BitVec.eq_of_toNat_eq
    rw [BitVec.toNat_shiftLeft, BitVec.toNat_ushiftRight, Nat.shiftRight_eq_div_pow, Nat.shiftLeft_eq]
    have := w.isLt
    omega
  refine ⟨?_, ?_, ?_⟩
  · rw [not_dirty_iff, e]; exact clean_shl _
  · rw [e]; exact isMig_shl _
  · have ne : ∀ v : Word, LIM ≤ v.toNat → w ≠ v := by rintro v hv rfl; omega
    simp only [isValueReserved, Bool.or_eq_false_iff, beq_eq_false_iff_ne]
    exact ⟨⟨⟨⟨ne _ (by decide), ne _ (by decide)⟩, ne _ (by decide)⟩, ne _ (by decide)⟩, ne _ (by decide)⟩

theorem Fits.set {k v : Word} (hF : Fits D M) (hk : D.has k) (hv : ValidVal v) : Fits D (M.set k v) where
  vals k' hk' v' h := by
    simp only [AMap.set] at h
    split at h
    · cases h; exact hv
    · exact hF.vals k' hk' v' h
  there k' hr hk' := by
    simp only [AMap.set]
    split
    · simp
    · exact hF.there k' hr hk'
  absent k' hv' hk' := by
    simp only [AMap.set]
    rw [if_neg (by rintro rfl; exact hk' hk)]
    exact hF.absent k' hv' hk'

theorem Bound.set {ctr : Word → Prop} {U e e' : Nat} {k v : Word} (hB : Bound ctr U e M) (hee : e ≤ e')
    (hv : ctr k → v.toNat + 8 * U < LIM + 8 * e') : Bound ctr U e' (M.set k v) := by
  intro k' v' hk' h
  simp only [AMap.set] at h
  split at h
  · next e => cases h; subst e; exact hv hk'
  · have := hB k' v' hk' h
    omega

theorem Fits.erase {k : Word} (hF : Fits D M) (hr : D.rem k = true) : Fits D (M.erase k) where
  vals k' hk' v' h := by
    simp only [AMap.erase] at h
    split at h
    · cases h
    · exact hF.vals k' hk' v' h
  there k' hr' hk' := by
    simp only [AMap.erase]
    rw [if_neg (by rintro rfl; rw [hr] at hr'; cases hr')]
    exact hF.there k' hr' hk'
  absent k' hv' hk' := by
    simp only [AMap.erase]
    rw [hF.absent k' hv' hk', ite_self]

theorem Bound.erase {ctr : Word → Prop} {U e : Nat} {k : Word} (hB : Bound ctr U e M) : Bound ctr U e (M.erase k) := by
  intro k' v' hk' h
  simp only [AMap.erase] at h
  split at h
  · cases h
  · exact hB k' v' hk' h

/-- Admitted calls lead from representable contents to representable contents. -/
theorem next_ok {ctr : Word → Prop} {U e : Nat} {op : Op} (hF : Fits D M) (hB : Bound ctr U e M)
    (ho : op.OnW D.has D.rem) (hr : op.Room ctr U)
    (hU : e + (if op.isUpdate then 1 else 0) ≤ U) :
    Fits D (specNext op M) ∧ Bound ctr U (e + (if op.isUpdate then 1 else 0)) (specNext op M) := by
  have room : ∀ {k v : Word}, (ctr k → v.toNat + 8 * U < LIM) → ctr k → v.toNat + 8 * U < LIM + 8 * (e + 0) := by
    intro k v h hk
    have := h hk
    omega
  cases op with
  | get k => exact ⟨hF, hB⟩
  | containsKey k => exact ⟨hF, hB⟩
  | size => exact ⟨hF, hB⟩
  | isEmpty => exact ⟨hF, hB⟩
  | put k v => exact ⟨hF.set ho.1 ho.2, hB.set (le_refl _) (room hr)⟩
  | putIfAbsent k v =>
    simp only [specNext]
    split
    · exact ⟨hF.set ho.1 ho.2, hB.set (le_refl _) (room hr)⟩
    · exact ⟨hF, hB⟩
  | putIfMatch k v o =>
    simp only [specNext]
    split
    · exact ⟨hF.set ho.1 ho.2.1, hB.set (le_refl _) (room hr)⟩
    · exact ⟨hF, hB⟩
  | replace k o v =>
    simp only [specNext]
    split
    · exact ⟨hF.set ho.1 ho.2.2, hB.set (le_refl _) (room hr)⟩
    · exact ⟨hF, hB⟩
  | removeIf k v =>
    simp only [specNext]
    split
    · exact ⟨hF.erase ho.2.2, hB.erase⟩
    · exact ⟨hF, hB⟩
  | remove k => exact ⟨hF.erase ho.2, hB.erase⟩
  | update k v =>
    obtain ⟨hk, -, hrem⟩ := ho
    simp only [Op.isUpdate, if_true] at hU ⊢
    simp only [specNext]
    cases hM : M k with
    | none => exact absurd hM (hF.there k hrem hk)
    | some w =>
      have hb := hB k w hr hM
      have hw : w.toNat < LIM := by omega
      have ha := addOne_toNat hw
      have hlt : (addOne (some w)).toNat + 8 * U < LIM + 8 * (e + 1) := by omega
      exact ⟨hF.set hk (validVal_of_lt (by omega) (by omega)), hB.set (by omega) (fun _ => hlt)⟩

/-! ## The system -/

/-- The description as the thread `t` sees it. -/
def Desc.as (D : Desc) (t : Nat) : Desc := { D with me := t }

theorem Desc.OK.as (h : D.OK hash) (t : Nat) : (D.as t).OK hash := ⟨h.pow, h.path, h.at_slot, h.valid⟩
theorem Fits.as (h : Fits D M) (t : Nat) : Fits (D.as t) M := ⟨h.vals, h.there, h.absent⟩
theorem Rep.as {m : Mem} (h : Rep D m M) (t : Nat) : Rep (D.as t) m M :=
  ⟨h.root, h.lt, h.len, h.newT, h.ok, h.keys, h.vals, h.rest, h.fits.as t⟩
theorem Rep.of_as {m : Mem} {t : Nat} (h : Rep (D.as t) m M) : Rep D m M :=
  ⟨h.root, h.lt, h.len, h.newT, h.ok, h.keys, h.vals, h.rest, h.fits.vals, h.fits.there, h.fits.absent⟩

/-- A thread's state agrees with how its call looks from outside; `A` says which calls are made. -/
def ThreadOK (D : Desc) (A : Nat → Op → Prop) (m : Mem) (t : Nat) : Thread → CallState → Prop
  | .idle todo, .idle => ∀ op ∈ todo, A t op
  | .busy op p todo, .called op' => op' = op ∧ A t op ∧ (∀ op ∈ todo, A t op) ∧
      ∃ K, (D.as t).Knows K m ∧ lwpK (D.as t) op (fun r c => c = some (Res.unmark r)) p none K
  | .busy op p todo, .effected op' x => op' = op ∧ (∀ op ∈ todo, A t op) ∧
      ∃ K, (D.as t).Knows K m ∧ lwpK (D.as t) op (fun r c => c = some (Res.unmark r)) p (some x) K
  | _, _ => False

theorem ThreadOK.keep {A : Nat → Op → Prop} {m m2 : Mem} {t : Nat} {th : Thread} {c : CallState} (h : ThreadOK D A m t th c)
    (hk : ∀ k w, D.has k → D.Seen t k w m → D.Seen t k w m2) : ThreadOK D A m2 t th c := by
  have know : ∀ {K}, (D.as t).Knows K m → (D.as t).Knows K m2 := fun h p hp => ⟨(h p hp).1, hk _ _ (h p hp).1 (h p hp).2⟩
  cases th with
  | idle todo => cases c <;> exact h
  | busy op p todo =>
    cases c with
    | idle => exact h
    | called op' =>
      obtain ⟨h1, h2, h3, K, h4, h5⟩ := h
      exact ⟨h1, h2, h3, K, know h4, h5⟩
    | effected op' x =>
      obtain ⟨h1, h3, K, h4, h5⟩ := h
      exact ⟨h1, h3, K, know h4, h5⟩

/-- The system is explained by calls on an ordinary map. -/
structure FixOK (D : Desc) (ctr : Word → Prop) (U : Nat) (A : Nat → Op → Prop) (M0 : AMap) (s : Sys) (M : AMap)
    (P : Nat → CallState) (fx : List (Nat × Op)) : Prop where
  lin : WeakTo (fun t op => A t op ∧ (D.as t).spur op) M0 M P (s.hist.map Event.unmark) fx
  rep : Rep D s.mem M
  bound : Bound ctr U (effTids Op.isUpdate fx).length M
  noub : s.ub = false
  thr : ∀ t, ThreadOK D A s.mem t (s.thr t) (P t)
  fx : ∀ x ∈ fx, A x.1 x.2

theorem begTids_unmark (q : Op → Bool) (es : List Event) : begTids q (es.map Event.unmark) = begTids q es := by
  rw [begTids, begTids, List.filterMap_map]
  congr 1
  funext e
  cases e <;> rfl

theorem endTids_unmark (q : Op → Bool) (es : List Event) : endTids q (es.map Event.unmark) = endTids q es := by
  rw [endTids, endTids, List.filterMap_map]
  congr 1
  funext e
  cases e <;> rfl

theorem WeakTo.effect_le {t : Nat} {op : Op} (h : WeakTo sp M0 M P es fx) (hp : P t = .called op) :
    (effTids Op.isUpdate fx).length + (if op.isUpdate then 1 else 0) ≤ (begTids Op.isUpdate es).length := by
  have h' : ∃ r, ∀ x, specRes op M = some x → r = x := by
    cases specRes op M with
    | none => exact ⟨.bool true, fun x hx => by cases hx⟩
    | some y => exact ⟨y, fun x hx => by cases hx; rfl⟩
  obtain ⟨r, hr⟩ := h'
  have := (WeakTo.effect t op r h hp hr).eff_le Op.isUpdate
  simp only [effTids, List.filterMap_append, List.length_append] at this ⊢
  cases hq : op.isUpdate <;> simp [hq] at this ⊢ <;> omega

theorem LinTo.effect_le {t : Nat} {op : Op} (h : LinTo M0 M P es fx) (hp : P t = .called op) :
    (effTids Op.isUpdate fx).length + (if op.isUpdate then 1 else 0) ≤ (begTids Op.isUpdate es).length :=
  (h.weak (sp := fun _ _ => False)).effect_le hp

/-- The thread `t` may make the call. -/
def Desc.Admits (D : Desc) (t : Nat) (op : Op) : Prop := op.OnW D.has D.rem ∧ ∀ k v, op.leaves k v → D.stored t k v

theorem spurRes_update {op : Op} {x : Res} (h : spurRes op M = some x) : op.isUpdate = false := by
  cases op <;> first | rfl | cases h

variable {U n : Nat} {ctr : Word → Prop} {A : Nat → Op → Prop}

theorem FixOK.step {s : Sys} (hD : D.OK hash) (hA : ∀ t op, A t op → D.Admits t op ∧ op.Room ctr U)
    (h : FixOK D ctr U A M0 s M P fx) (x : Sched)
    (hU : (begTids Op.isUpdate s.hist).length ≤ U) : ∃ M P fx, FixOK D ctr U A M0 (s.step hash n x) M P fx := by
  cases x with
  | evict t i =>
    exact ⟨M, P, fx, h.lin, h.rep.congr (fun _ => rfl) rfl rfl rfl rfl, h.bound, h.noub, fun t => (h.thr t).keep fun _ _ _ h => h, h.fx⟩
  | run tid =>
    have ht := h.thr tid
    rw [Sys.step]
    cases hs : s.thr tid with
    | idle todo =>
      rw [hs] at ht
      cases hp : P tid with
      | called op => rw [hp] at ht; exact ht.elim
      | effected op r => rw [hp] at ht; exact ht.elim
      | idle =>
        rw [hp] at ht
        cases todo with
        | nil => exact ⟨M, P, fx, h⟩
        | cons op todo =>
          have ha := ht op (List.mem_cons_self ..)
          refine ⟨M, upd P tid (.called op), fx, ?_, h.rep, h.bound, h.noub, fun t => ?_, h.fx⟩
          · simp only [List.map_append, List.map_cons, List.map_nil, Event.unmark]
            exact h.lin.inv tid op hp
          · by_cases e : t = tid
            · simp only [upd, e, if_true]
              exact ⟨rfl, ha, fun o h => ht o (List.mem_cons_of_mem _ h), none, Desc.knows_none _ _,
                op_lwp (hD.as tid) n (hA _ _ ha).1.1 (hA _ _ ha).1.2⟩
            · simp only [upd, if_neg e]; exact h.thr t
    | busy op p todo =>
      rw [hs] at ht
      cases hp : P tid with
      | idle => rw [hp] at ht; exact ht.elim
      | called op' =>
        rw [hp] at ht
        obtain ⟨rfl, ha, htodo, K, hK, hw⟩ := ht
        cases p with
        | halt x =>
          rw [lwpK] at hw
          cases x with
          | ub => exact absurd rfl hw
          | threw => exact ⟨M, P, fx, h⟩
          | fuel => exact ⟨M, P, fx, h⟩
        | ret r => rw [lwpK] at hw; cases hw
        | act a k =>
          rw [lwpK] at hw
          have hle := h.lin.effect_le hp
          rw [begTids_unmark] at hle
          obtain ⟨hF, hB⟩ := next_ok h.rep.fits h.bound (hA _ _ ha).1.1 (hA _ _ ha).2 (le_trans hle hU)
          obtain ⟨r, m2, he, hkeep, K', hK', hw⟩ := hw s.mem M (h.rep.as tid) hK (fun _ => hF.as tid)
          have other : ∀ t, t ≠ tid → ThreadOK D A m2 t (s.thr t) (P t) := fun t e => (h.thr t).keep fun k w hk hs => hkeep t k w e hk hs
          simp only [he]
          rcases hw with ⟨h1, h2⟩ | ⟨-, h1, x, hx, h2⟩ | ⟨-, hsp, h1, x, hx, h2⟩
          · refine ⟨M, P, fx, h.lin, h1.of_as, h.bound, h.noub, fun t => ?_, h.fx⟩
            by_cases e : t = tid
            · subst e
              simp only [upd, if_true, hp]
              exact ⟨rfl, ha, htodo, K', hK', h2⟩
            · simp only [upd, if_neg e]; exact other t e
          · refine ⟨_, upd P tid (.effected op' x), fx ++ [(tid, op')], h.lin.effect tid op' x hp hx, h1.of_as, ?_, h.noub, fun t => ?_,
              fun y hy => ?_⟩
            · have : (effTids Op.isUpdate (fx ++ [(tid, op')])).length =
                  (effTids Op.isUpdate fx).length + (if op'.isUpdate then 1 else 0) := by
                simp only [effTids, List.filterMap_append, List.length_append]
                cases hq : op'.isUpdate <;> simp [hq]
              rw [this]; exact hB
            · by_cases e : t = tid
              · simp only [upd, e, if_true]
                exact ⟨rfl, htodo, K', hK', h2⟩
              · simp only [upd, if_neg e]; exact other t e
            · rcases List.mem_append.mp hy with hy | hy
              · exact h.fx y hy
              · rw [List.mem_singleton.mp hy]; exact ha
          · refine ⟨M, upd P tid (.effected op' x), fx ++ [(tid, op')], h.lin.giveUp tid op' x ⟨ha, hsp⟩ hp hx, h1.of_as, ?_, h.noub, fun t => ?_,
              fun y hy => ?_⟩
            · have : effTids Op.isUpdate (fx ++ [(tid, op')]) = effTids Op.isUpdate fx := by
                simp [effTids, List.filterMap_append, spurRes_update hx]
              rw [this]; exact h.bound
            · by_cases e : t = tid
              · simp only [upd, e, if_true]
                exact ⟨rfl, htodo, K', hK', h2⟩
              · simp only [upd, if_neg e]; exact other t e
            · rcases List.mem_append.mp hy with hy | hy
              · exact h.fx y hy
              · rw [List.mem_singleton.mp hy]; exact ha
      | effected op' x =>
        rw [hp] at ht
        obtain ⟨rfl, htodo, K, hK, hw⟩ := ht
        cases p with
        | halt y =>
          rw [lwpK] at hw
          cases y with
          | ub => exact absurd rfl hw
          | threw => exact ⟨M, P, fx, h⟩
          | fuel => exact ⟨M, P, fx, h⟩
        | ret r =>
          rw [lwpK] at hw
          cases hw
          refine ⟨M, upd P tid .idle, fx, ?_, h.rep, h.bound, h.noub, fun t => ?_, h.fx⟩
          · simp only [List.map_append, List.map_cons, List.map_nil, Event.unmark]
            exact h.lin.res tid op' _ hp
          · by_cases e : t = tid
            · simp only [upd, e, if_true]; exact htodo
            · simp only [upd, if_neg e]; exact h.thr t
        | act a k =>
          rw [lwpK] at hw
          obtain ⟨r, m2, he, hkeep, K', hK', hw⟩ := hw s.mem M (h.rep.as tid) hK (fun e => by cases e)
          have other : ∀ t, t ≠ tid → ThreadOK D A m2 t (s.thr t) (P t) := fun t e => (h.thr t).keep fun k w hk hs => hkeep t k w e hk hs
          simp only [he]
          rcases hw with ⟨h1, h2⟩ | ⟨h1, -⟩ | ⟨h1, -⟩
          · refine ⟨M, P, fx, h.lin, h1.of_as, h.bound, h.noub, fun t => ?_, h.fx⟩
            by_cases e : t = tid
            · subst e
              simp only [upd, if_true, hp]
              exact ⟨rfl, htodo, K', hK', h2⟩
            · simp only [upd, if_neg e]; exact other t e
          · cases h1
          · cases h1

theorem FixOK.exec (hD : D.OK hash) (hA : ∀ t op, A t op → D.Admits t op ∧ op.Room ctr U) (xs : List Sched) : ∀ {s : Sys} {M : AMap} {P : Nat → CallState} {fx : List (Nat × Op)},
    FixOK D ctr U A M0 s M P fx → (begTids Op.isUpdate (s.exec hash n xs).hist).length ≤ U →
    ∃ M P fx, FixOK D ctr U A M0 (s.exec hash n xs) M P fx := by
  induction xs with
  | nil => intro s M P fx h _; exact ⟨M, P, fx, h⟩
  | cons x xs ih =>
    intro s M P fx h hU
    have hle : (begTids Op.isUpdate s.hist).length ≤ U := by
      obtain ⟨h', e⟩ := exec_hist hash n (x :: xs) s
      rw [e, begTids, List.filterMap_append, List.length_append] at hU
      exact le_trans (Nat.le_add_right _ _) hU
    obtain ⟨M', P', fx', h'⟩ := h.step (n := n) hD hA x hle
    exact ih h' hU

/-! ## Starting from what a single thread has built -/

/-- The description of a memory between two calls, when no migration is going on. -/
noncomputable def descOf (m : Mem) (M : AMap) (rem : Word → Bool) (stored : Nat → Word → Word → Prop) : Desc where
  tab := m.root
  len := (m.tab m.root).len
  key i := clean (m.word (.key m.root i))
  has k := ValidKey k ∧ M k ≠ none
  slot k := by
    classical
    exact if h : ∃ i, i < (m.tab m.root).len ∧ clean (m.word (.key m.root i)) = k then h.choose else 0
  rem := rem
  me := 0
  stored := stored

theorem Good.last {m : Mem} (h : Good hash (abs m) M) (hn : (m.tab m.root).newT = none) : m.root + 1 = m.next := by
  have h1 := h.inv.root_lt
  have h2 := h.inv.newT m.root h1
  change (m.tab m.root).newT = _ at h2
  change m.root < m.next at h1
  rw [hn] at h2
  by_contra hne
  rw [if_pos (show m.root + 1 < (abs m).next from by change m.root + 1 < m.next; omega)] at h2
  cases h2

theorem Good.find {m : Mem} (h : Good hash (abs m) M) (hn : (m.tab m.root).newT = none) {k v : Word} (hk : M k = some v) :
    ∃ i, i < (m.tab m.root).len ∧ clean (m.word (.key m.root i)) = k ∧ clean (m.word (.val m.root i)) = v := by
  obtain ⟨-, hv, t, i, ht, hi, e1, e2⟩ := (h.inv.cont k v).mp hk
  have hl := h.last hn
  change t < m.next at ht
  have : t = m.root := by
    by_contra hne
    have := h.inv.dead t i (show t < m.root by omega) hi
    rw [e2] at this
    exact hv.ne_prime this
  subst this
  exact ⟨i, hi, e1, e2⟩

theorem descOf_slot {m : Mem} (h : Good hash (abs m) M) (hn : (m.tab m.root).newT = none) (rem : Word → Bool) (stored : Nat → Word → Word → Prop) {k v : Word}
    (hk : M k = some v) : (descOf m M rem stored).slot k < (m.tab m.root).len ∧
      clean (m.word (.key m.root ((descOf m M rem stored).slot k))) = k ∧
      clean (m.word (.val m.root ((descOf m M rem stored).slot k))) = v := by
  obtain ⟨i, hi, e1, e2⟩ := h.find hn hk
  have hex : ∃ i, i < (m.tab m.root).len ∧ clean (m.word (.key m.root i)) = k := ⟨i, hi, e1⟩
  have hs : (descOf m M rem stored).slot k = hex.choose := by
    simp only [descOf]; rw [dif_pos hex]
  obtain ⟨h1, h2⟩ := hex.choose_spec
  rw [← hs] at h1 h2
  refine ⟨h1, h2, ?_⟩
  have hu : UserKey k := ((h.inv.cont k v).mp hk).1
  have hrt : m.root < (abs m).next := h.inv.root_lt
  have hm : isMig (clean (m.word (.val m.root ((descOf m M rem stored).slot k)))) = false := by
    by_contra hmig
    have := h.inv.mig m.root _ hrt h1 (by rw [Bool.not_eq_false] at hmig; exact hmig)
    have hl := h.last hn
    change m.root + 1 < m.next at this
    omega
  exact ((h.inv.content_live hu hrt h1 h2 hm v).mp hk).2

theorem descOf_ok {m : Mem} (h : Good hash (abs m) M) (hn : (m.tab m.root).newT = none) (rem : Word → Bool) (stored : Nat → Word → Word → Prop) :
    (descOf m M rem stored).OK hash where
  pow := h.inv.len_pow m.root h.inv.root_lt
  path k hk := by
    obtain ⟨v, hv⟩ := Option.ne_none_iff_exists'.mp hk.2
    obtain ⟨h1, h2, -⟩ := descOf_slot h hn rem stored hv
    have hu : UserKey k := ((h.inv.cont k v).mp hv).1
    obtain ⟨d, hd, e, hup, -⟩ := h.inv.path m.root _ h.inv.root_lt h1 (by change UserKey (clean _); rw [h2]; exact hu)
    have e' : (abs m).ck m.root ((descOf m M rem stored).slot k) = k := h2
    rw [e'] at e hup
    exact ⟨d, hd, e, fun j hj => hup j hj⟩
  at_slot k hk := by
    obtain ⟨v, hv⟩ := Option.ne_none_iff_exists'.mp hk.2
    exact (descOf_slot h hn rem stored hv).2.1
  valid k hk := hk.1

theorem descOf_rep {m : Mem} (h : Good hash (abs m) M) (hn : (m.tab m.root).newT = none) (rem : Word → Bool) (stored : Nat → Word → Word → Prop)
    (hv : ∀ k v, M k = some v → ValidVal v) : Rep (descOf m M rem stored) m M where
  root := rfl
  lt := h.inv.root_lt
  len := rfl
  newT := hn
  ok := h.inv.ok
  keys _ _ := rfl
  vals k hk := by
    obtain ⟨v, hM⟩ := Option.ne_none_iff_exists'.mp hk.2
    rw [hM]
    exact (descOf_slot h hn rem stored hM).2.2
  rest i hi hh hk := by
    have hrt : m.root < (abs m).next := h.inv.root_lt
    have hM : M (clean (m.word (.key m.root i))) = none := by
      by_contra hne
      exact hh ⟨hk, hne⟩
    have hl := h.last hn
    rcases h.inv.val m.root i hrt hi with h1 | h1 | h1 | h1
    · exact .inl h1
    · exact .inr h1
    · have := (h.inv.cont (clean (m.word (.key m.root i))) _).mpr
        ⟨userKey_of_valid hk, h1, m.root, i, hrt, hi, rfl, rfl⟩
      rw [hM] at this; cases this
    · have := h.inv.mig m.root i hrt hi h1
      change m.root + 1 < m.next at this
      omega
  fits := ⟨fun k _ v h => hv k v h, fun k _ hk => hk.2, fun k hk hn => by
    by_contra hne
    exact hn ⟨hk, hne⟩⟩

end PMap
