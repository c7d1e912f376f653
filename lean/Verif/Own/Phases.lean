import Verif.Own.Good

/-!
# Phases: the writers of keys change while no call is in progress (proof machinery)
-/

namespace PMap

open Prog

variable {C : Cfg} {M M' : AMap} {ctr : Word → Prop} {U : Nat} {hash : Word → Word} {len cap n : Nat} {S : Finset Word} {own : Word → Nat} {m : Mem}

/-- The keys a user can use (hashMap.hpp:880-892, what `ValidKey` says). -/
noncomputable def validKeys : Finset Word := (Set.toFinite {k : Word | ValidKey k}).toFinset

theorem mem_validKeys {k : Word} : k ∈ validKeys ↔ ValidKey k := by simp [validKeys]

theorem Op.Valid.key {op : Op} (h : op.Valid) {k : Word} (hk : op.changes = some k) : ValidKey k := by
  cases op <;> simp only [Op.changes, reduceCtorEq, Option.some.injEq] at hk <;> subst hk <;> first | exact h.1 | exact h

theorem Op.By.filt {op : Op} {t : Nat} (h : op.By S own t) : op.By (S.filter ValidKey) own t :=
  ⟨h.valid, fun k e => ⟨Finset.mem_filter.mpr ⟨(h.keys k e).1, h.valid.key e⟩, (h.keys k e).2⟩, h.upd⟩

theorem Op.Mine.by {op : Op} {t : Nat} (h : op.Mine own t) : op.By (validKeys.filter ValidKey) own t :=
  Op.By.filt ⟨h.valid, fun k e => ⟨mem_validKeys.mpr (h.valid.key e), h.keys k e⟩, h.upd⟩

theorem Op.By.mine {op : Op} {t : Nat} (h : op.By S own t) : op.Mine own t := ⟨h.valid, fun k e => (h.keys k e).2, h.upd⟩

/-- Any keys: if they do not fit, the table grows (no code of its own). -/
def anyCfg (hash : Word → Word) (len : Nat) (S : Finset Word) (own : Word → Nat) : Cfg := ⟨hash, len, S.filter ValidKey, own, true, false⟩

theorem anyCfg_ok (hp : ∃ p, p ≤ 32 ∧ len = 2 ^ p) : (anyCfg hash len S own).OK :=
  ⟨hp, fun _ h => (Finset.mem_filter.mp h).2, fun e => (by cases e)⟩

theorem anyCfg_calm (h : m.next ≤ 1) : ¬ (anyCfg hash len S own).Grown m := fun hg => by
  have := hg.2
  omega

/-- An execution from a new map in which no second table has been allocated. -/
theorem calm_start {A : Nat → Op → Prop} (hs : Sized len cap) (hlim : ∀ t op, A t op → op.isUpdate = true → 8 * U < LIM)
    (hA : ∀ t op, A t op → op.Mine own t ∧ op.Room ctr U) {calls : Nat → List Op}
    (hc : ∀ t, ∀ op ∈ calls t, A t op) (xs : List Sched)
    (hU : (begTids Op.isUpdate ((Sys.init len cap calls).exec hash n xs).hist).length ≤ U)
    (h1 : ((Sys.init len cap calls).exec hash n xs).mem.next ≤ 1) :
    ∃ M sz P fx, OwnOK (anyCfg hash len validKeys own) AMap.empty ctr U A ((Sys.init len cap calls).exec hash n xs) M sz P fx :=
  own_start (C := anyCfg hash len validKeys own) rfl (anyCfg_ok hs.pow) hlim (fun t op h => ⟨(hA t op h).1.by, (hA t op h).2⟩) hs.cap hc xs hU
    (anyCfg_calm h1)

/-- Keys that fit never make the table grow. -/
theorem roomy_next {A : Nat → Op → Prop} (hs : Sized len cap) (hR : Roomy hash len S)
    (hlim : ∀ t op, A t op → op.isUpdate = true → 8 * U < LIM)
    (hA : ∀ t op, A t op → op.By S own t ∧ op.Room ctr U) {calls : Nat → List Op} (hc : ∀ t, ∀ op ∈ calls t, A t op) (xs : List Sched)
    (hU : (begTids Op.isUpdate ((Sys.init len cap calls).exec hash n xs).hist).length ≤ U) :
    ((Sys.init len cap calls).exec hash n xs).mem.next ≤ 1 := by
  obtain ⟨M, sz, P, fx, h⟩ := own_start (C := ⟨hash, len, S, own, false, false⟩) (n := n) rfl (roomy_ok hs hR) hlim hA hs.cap hc xs hU (Cfg.fits rfl _)
  exact le_of_eq h.inv.lone.next

theorem room_of_plain {op : Op} (h : op.isUpdate = false) : op.Room (fun _ => False) U := by
  cases op <;> first | trivial | exact fun h => h.elim | cases h

theorem specNext_other {op : Op} {k : Word} (h : op.changes ≠ some k) : specNext op M k = M k := by
  cases op <;> simp only [specNext, Op.changes, ne_eq, Option.some.injEq] at h ⊢
  all_goals
    have h' := Ne.symm h
    first
      | simp [AMap.set, AMap.erase, h']
      | (split <;> simp [AMap.set, AMap.erase, h'])

theorem specNext_at {op : Op} {k : Word} (h : M k = M' k) : specNext op M k = specNext op M' k := by
  by_cases hc : op.changes = some k
  · cases op <;> simp only [Op.changes, reduceCtorEq, Option.some.injEq] at hc <;> subst hc <;> simp only [specNext, h] <;>
      first
        | simp [AMap.set, AMap.erase]
        | (split <;> simp [AMap.set, AMap.erase, h])
  · rw [specNext_other hc, specNext_other hc, h]

theorem specRun_order {k : Word} {t : Nat} : ∀ (fx : List (Nat × Op)) (M M' : AMap),
    (∀ x ∈ fx, x.2.changes = some k → x.1 = t) → M k = M' k → specRun (fx.map Prod.snd) M k = specRun (orderOf t fx) M' k := by
  intro fx
  induction fx with
  | nil => intro M M' _ h; exact h
  | cons x fx ih =>
    intro M M' hx h
    have hx' := fun y hy => hx y (List.mem_cons_of_mem _ hy)
    simp only [List.map_cons, specRun]
    by_cases e : x.1 = t
    · have : orderOf t (x :: fx) = x.2 :: orderOf t fx := by simp [orderOf, e]
      rw [this, specRun]
      exact ih _ _ hx' (specNext_at h)
    · have : orderOf t (x :: fx) = orderOf t fx := by simp [orderOf, e]
      rw [this]
      refine ih _ _ hx' ?_
      rw [specNext_other fun h => e (hx x (List.mem_cons_self ..) h), h]

/-- What holds between phases. -/
structure Between (C : Cfg) (m : Mem) (M : AMap) : Prop where
  inv : OInv C ⟨m, M, fun k => (M k).isSome⟩
  valid : ∀ k v, M k = some v → ValidVal v
  keys : ∀ k, M k ≠ none → k ∈ C.S

theorem OInv.anyOwn {own' : Word → Nat} {s : OSt} (h : OInv C s) : OInv { C with own := own' } s :=
  ⟨h.root, h.lt, h.len, h.newT, h.ok, h.placed, h.empty, h.vals, h.near, h.absent, h.size, h.lone⟩

theorem Between.anyOwn {own' : Word → Nat} (h : Between C m M) : Between { C with own := own' } m M := ⟨h.inv.anyOwn, h.valid, h.keys⟩

theorem between_fresh (hre : C.re = false) (hcap : cap ≤ 2 ^ 32) : Between C (freshMem C.len cap) AMap.empty :=
  ⟨own_fresh hre hcap, fun k v h => (by cases h), fun k h => absurd rfl h⟩

/-- The system at every moment of a phase. -/
theorem Between.start (hC : C.OK) (h : Between C m M) {calls : Nat → List Op}
    (hc : ∀ t, ∀ op ∈ calls t, op.By C.S C.own t ∧ op.isUpdate = false) (xs : List Sched)
    (hG : ¬ C.Grown ((Sys.start m calls).exec C.hash n xs).mem) :
    ∃ M' sz P fx, OwnOK C M (fun _ => False) (begTids Op.isUpdate ((Sys.start m calls).exec C.hash n xs).hist).length
      (fun t op => op.By C.S C.own t ∧ op.isUpdate = false) ((Sys.start m calls).exec C.hash n xs) M' sz P fx :=
  own_restart hC (fun t op h e => by rw [h.2] at e; cases e) (fun t op h => ⟨h.1, by
    have := h.2
    cases op <;> first | trivial | exact fun h => h.elim⟩) h.inv h.valid (fun k v hk => hk.elim) (fun _ => rfl) hc xs (le_refl _) hG

/-- The system at the end of a phase. -/
theorem Between.phase (hC : C.OK) (h : Between C m M) {calls : Nat → List Op}
    (hc : ∀ t, ∀ op ∈ calls t, op.By C.S C.own t ∧ op.isUpdate = false) (xs : List Sched)
    {s : Sys} (he : s = (Sys.start m calls).exec C.hash n xs) (hG : ¬ C.Grown s.mem) (hi : ∀ t, ∃ todo, s.thr t = .idle todo) :
    Between C s.mem (phaseMap C.own s.hist M) := by
  subst he
  obtain ⟨M', sz, P, fx, hO⟩ := h.start (n := n) hC hc xs hG
  have hidle : ∀ t, P t = .idle ∧ Counted C t ⟨((Sys.start m calls).exec C.hash n xs).mem, M', sz⟩ := by
    intro t
    obtain ⟨todo, ht⟩ := hi t
    have := hO.thr t
    rw [ht] at this
    cases hp : P t <;> rw [hp] at this <;> first | exact ⟨rfl, this.2⟩ | exact this.elim
  have hM : phaseMap C.own ((Sys.start m calls).exec C.hash n xs).hist M = M' := by
    funext k
    have ho := hO.lin.order (C.own k)
    rw [(hidle (C.own k)).1] at ho
    have ho : orderOf (C.own k) fx = _ := ho.trans (List.append_nil _)
    rw [hO.lin.map_eq, specRun_order fx M M (fun x hx e => (((hO.fx x hx).1.keys k e).2).symm) rfl, ho]
    rfl
  have hsz : sz = fun k => (M' k).isSome := funext fun k => (hidle (C.own k)).2 k rfl
  rw [hM]
  refine ⟨hsz ▸ hO.inv, hO.valid, fun k hk => hO.lin.inside (own := C.own) h.keys (fun x hx => (hO.fx x hx).1) hk⟩

theorem phases_any (hs : Sized len cap) (h : Phases hash len cap S m M) (h1 : m.next ≤ 1) :
    ∀ own, Between (anyCfg hash len S own) m M := by
  induction h with
  | fresh => intro own; exact between_fresh (C := anyCfg hash len S own) rfl hs.cap
  | @phase m M s n own calls xs _ hc he hi ih =>
    intro own'
    have hB : ∀ own, Between (anyCfg hash len S own) m M := ih ((by
      rw [he] at h1
      exact (next_le_exec hash n xs (Sys.start m calls)).trans h1))
    exact (Between.phase (C := anyCfg hash len S own) (anyCfg_ok hs.pow) (hB own)
      (fun t op ho => ⟨(hc t op ho).1.filt, (hc t op ho).2⟩) xs he (anyCfg_calm h1) hi).anyOwn

theorem phases_between (hs : Sized len cap) (hR : Roomy hash len S) (h : Phases hash len cap S m M) :
    ∀ own, Between ⟨hash, len, S, own, false, false⟩ m M := by
  induction h with
  | fresh => intro own; exact between_fresh (C := ⟨hash, len, S, own, false, false⟩) rfl hs.cap
  | @phase m M s n own calls xs _ hc he hi ih =>
    intro own'
    exact (Between.phase (C := ⟨hash, len, S, own, false, false⟩) (roomy_ok hs hR) (ih own) hc xs he (Cfg.fits rfl _) hi).anyOwn

theorem Between.good (hC : C.OK) (h : Between C m M) : Good C.hash (abs m) M := good_own hC h.inv h.valid h.keys

/-- Keys that fit do not make the table grow in any phase. -/
theorem roomy_phases_next (hs : Sized len cap) (hR : Roomy hash len S) (h : Phases hash len cap S m M) : m.next ≤ 1 :=
  le_of_eq (phases_between hs hR h fun _ => 0).inv.lone.next

end PMap
