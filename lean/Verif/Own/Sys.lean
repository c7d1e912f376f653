import Verif.Own.Ops
import Verif.Props.Fixed

/-!
# Any number of threads, one writer per key (proof machinery)
-/

namespace PMap

open Prog

variable {C : Cfg} {M0 M : AMap} {P : Nat → CallState} {fx : List (Nat × Op)} {n U : Nat} {ctr : Word → Prop}

/-- A thread's state agrees with how its call looks from outside; `A` says which calls are made. -/
def OThreadOK (C : Cfg) (A : Nat → Op → Prop) (t : Nat) (s : OSt) : Thread → CallState → Prop
  | .idle todo, .idle => (∀ op ∈ todo, A t op) ∧ Counted C t s
  | .busy op p todo, .called op' => op' = op ∧ A t op ∧ (∀ op ∈ todo, A t op) ∧
      ∃ s0, Rely C t s0 s ∧ owp C t op (fun r s' c => c = some r ∧ Counted C t s') p s0 none
  | .busy op p todo, .effected op' x => op' = op ∧ (∀ op ∈ todo, A t op) ∧
      ∃ s0, Rely C t s0 s ∧ owp C t op (fun r s' c => c = some r ∧ Counted C t s') p s0 (some x)
  | _, _ => False

theorem OThreadOK.rely {A : Nat → Op → Prop} {t : Nat} {s s' : OSt} {th : Thread} {p : CallState}
    (h : OThreadOK C A t s th p) (hr : Rely C t s s') : OThreadOK C A t s' th p := by
  cases th with
  | idle todo =>
    cases p with
    | idle => exact ⟨h.1, h.2.rely hr⟩
    | called op => exact h.elim
    | effected op r => exact h.elim
  | busy op q todo =>
    cases p with
    | idle => exact h.elim
    | called op' =>
      obtain ⟨h1, h2, h3, s0, h4, h5⟩ := h
      exact ⟨h1, h2, h3, s0, h4.trans hr, h5⟩
    | effected op' r =>
      obtain ⟨h1, h2, s0, h3, h4⟩ := h
      exact ⟨h1, h2, s0, h3.trans hr, h4⟩

/-- The system is explained by calls on an ordinary map, which is `M0` at first. -/
structure OwnOK (C : Cfg) (M0 : AMap) (ctr : Word → Prop) (U : Nat) (A : Nat → Op → Prop) (s : Sys) (M : AMap) (sz : Word → Bool)
    (P : Nat → CallState) (fx : List (Nat × Op)) : Prop where
  lin : LinTo M0 M P s.hist fx
  inv : OInv C ⟨s.mem, M, sz⟩
  bound : Bound ctr U (effTids Op.isUpdate fx).length M
  valid : ∀ k v, M k = some v → ValidVal v
  noub : s.ub = false
  thr : ∀ t, OThreadOK C A t ⟨s.mem, M, sz⟩ (s.thr t) (P t)
  fx : ∀ x ∈ fx, A x.1 x.2

/-- Calls lead from representable contents to representable contents. -/
theorem own_next_ok {e : Nat} {op : Op} (hV : ∀ k v, M k = some v → ValidVal v) (hB : Bound ctr U e M)
    (hv : op.Valid) (hr : op.Room ctr U) (hU : e + (if op.isUpdate then 1 else 0) ≤ U) (hlim : op.isUpdate = true → 8 * U < LIM) :
    (∀ k v, specNext op M k = some v → ValidVal v) ∧ Bound ctr U (e + (if op.isUpdate then 1 else 0)) (specNext op M) := by
  have room : ∀ {k v : Word}, (ctr k → v.toNat + 8 * U < LIM) → ctr k → v.toNat + 8 * U < LIM + 8 * (e + 0) := by
    intro k v h hk
    have := h hk
    omega
  have erase : ∀ {k : Word}, Bound ctr U (e + 0) (M.erase k) := by
    intro k k' v' hk' h
    simp only [AMap.erase] at h
    split at h
    · cases h
    · exact hB k' v' hk' h
  cases hu : op.isUpdate with
  | false =>
    refine ⟨specNext_valid hv hu hV, ?_⟩
    change Bound ctr U (e + 0) _
    cases op with
    | get k => exact hB
    | containsKey k => exact hB
    | size => exact hB
    | isEmpty => exact hB
    | put k v => exact hB.set (le_refl _) (room hr)
    | putIfAbsent k v =>
      simp only [specNext]
      split
      · exact hB.set (le_refl _) (room hr)
      · exact hB
    | putIfMatch k v o =>
      simp only [specNext]
      split
      · exact hB.set (le_refl _) (room hr)
      · exact hB
    | replace k o v =>
      simp only [specNext]
      split
      · exact hB.set (le_refl _) (room hr)
      · exact hB
    | remove k => exact erase
    | removeIf k v =>
      simp only [specNext]
      split
      · exact erase
      · exact hB
    | update k v => cases hu
  | true =>
    cases op <;> try cases hu
    next k v =>
    simp only [Op.isUpdate, if_true] at hU
    have hlim := hlim rfl
    have hb : (addOne (M k)).toNat + 8 * U < LIM + 8 * (e + 1) ∧ (addOne (M k)).toNat % 8 = 0 := by
      cases hM : M k with
      | none =>
        have : (addOne none).toNat = 8 := by decide
        rw [this]
        exact ⟨by omega, rfl⟩
      | some w =>
        have hb := hB k w hr hM
        have ha := addOne_toNat (w := w) (by omega)
        omega
    refine ⟨fun k' v' h => ?_, hB.set (by omega) fun _ => hb.1⟩
    simp only [specNext, AMap.set] at h
    split at h
    · cases h; exact validVal_of_lt (by omega) hb.2
    · exact hV k' v' h

/-- `Sys.step` with the program `g op` run for the call `op` (no code of its own). -/
def Sys.stepW (g : Op → Prog Res) (s : Sys) : Sched → Sys
  | .evict t i => { s with mem := { s.mem with nv := writeBack s.mem t i } }
  | .run tid =>
    match s.thr tid with
    | .idle [] => s
    | .idle (op :: todo) => { s with thr := upd s.thr tid (.busy op (g op) todo), hist := s.hist ++ [.inv tid op] }
    | .busy _ (.halt .ub) _ => { s with ub := true }
    | .busy _ (.halt _) _ => s
    | .busy op (.ret r) todo =>
      { s with thr := upd s.thr tid (.idle todo), hist := s.hist ++ [.res tid op r] }
    | .busy op (.act a k) todo =>
      match a.exec s.mem with
      | none => { s with ub := true }
      | some (r, m') => { s with mem := m', thr := upd s.thr tid (.busy op (k r) todo) }

theorem Sys.step_eq (hash : Word → Word) (s : Sys) (x : Sched) : s.step hash n x = s.stepW (fun op => op.prog hash n) x := by
  cases x <;> rfl

theorem OwnOK.stepW {A : Nat → Op → Prop} {s : Sys} {sz : Word → Bool} (hlim : ∀ t op, A t op → op.isUpdate = true → 8 * U < LIM)
    (hA : ∀ t op, A t op → op.By C.S C.own t ∧ op.Room ctr U) {g : Op → Prog Res}
    (hg : ∀ t op s, A t op → Counted C t s → owp C t op (fun r s' c => c = some r ∧ Counted C t s') (g op) s none)
    (h : OwnOK C M0 ctr U A s M sz P fx) (x : Sched) (hU : (begTids Op.isUpdate s.hist).length ≤ U) :
    (∃ M sz P fx, OwnOK C M0 ctr U A (s.stepW g x) M sz P fx) ∨ C.Grown (s.stepW g x).mem := by
  cases x with
  | evict t i =>
    refine .inl ⟨M, sz, P, fx, h.lin, h.inv.same (fun _ => rfl) rfl rfl rfl rfl rfl rfl rfl rfl, h.bound, h.valid, h.noub, fun t => ?_, h.fx⟩
    exact (h.thr t).rely (Rely.same (fun _ => rfl) rfl rfl)
  | run tid =>
    have ht := h.thr tid
    rw [Sys.stepW]
    cases hs : s.thr tid with
    | idle todo =>
      rw [hs] at ht
      cases hp : P tid with
      | called op => rw [hp] at ht; exact ht.elim
      | effected op r => rw [hp] at ht; exact ht.elim
      | idle =>
        rw [hp] at ht
        cases todo with
        | nil => exact .inl ⟨M, sz, P, fx, h⟩
        | cons op todo =>
          obtain ⟨ht, hcount⟩ := ht
          have ha := ht op (List.mem_cons_self ..)
          refine .inl ⟨M, sz, upd P tid (.called op), fx, h.lin.inv tid op hp, h.inv, h.bound, h.valid, h.noub, fun t => ?_, h.fx⟩
          by_cases e : t = tid
          · subst e
            simp only [upd, if_true]
            exact ⟨rfl, ha, fun o h => ht o (List.mem_cons_of_mem _ h), _, Rely.refl _, hg _ _ _ ha hcount⟩
          · simp only [upd, if_neg e]; exact h.thr t
    | busy op p todo =>
      rw [hs] at ht
      cases hp : P tid with
      | idle => rw [hp] at ht; exact ht.elim
      | called op' =>
        rw [hp] at ht
        obtain ⟨rfl, ha, htodo, s0, hr0, hw⟩ := ht
        cases p with
        | halt x =>
          rw [owp] at hw
          cases x with
          | ub => exact absurd rfl hw
          | threw => exact .inl ⟨M, sz, P, fx, h⟩
          | fuel => exact .inl ⟨M, sz, P, fx, h⟩
        | ret r => rw [owp] at hw; cases hw.1
        | act a k =>
          rw [owp] at hw
          have hle := h.lin.effect_le hp
          obtain ⟨hF, hB⟩ := own_next_ok h.valid h.bound (hA _ _ ha).1.valid (hA _ _ ha).2 (le_trans hle hU) (hlim _ _ ha)
          obtain ⟨r, s2, he, hw⟩ := hw _ hr0 h.inv (fun _ => hF)
          change a.exec s.mem = _ at he
          simp only [he]
          obtain hgrown | ⟨hI, hR, hw⟩ := hw
          · exact .inr hgrown
          left
          rcases hw with ⟨h1, h2⟩ | ⟨-, h1, x, hx, h2⟩
          · change s2.M = M at h1
            have e2 : (⟨s2.m, M, s2.sz⟩ : OSt) = s2 := by rw [← h1]
            refine ⟨M, s2.sz, P, fx, h.lin, by rw [e2]; exact hI, h.bound, h.valid, h.noub, fun t => ?_, h.fx⟩
            rw [e2]
            by_cases e : t = tid
            · subst e
              simp only [upd, if_true, hp]
              exact ⟨rfl, ha, htodo, s2, Rely.refl _, h2⟩
            · simp only [upd, if_neg e]; exact (h.thr t).rely (hR t e)
          · change s2.M = specNext op' M at h1
            have e2 : (⟨s2.m, specNext op' M, s2.sz⟩ : OSt) = s2 := by rw [← h1]
            refine ⟨specNext op' M, s2.sz, upd P tid (.effected op' x), fx ++ [(tid, op')], h.lin.effect tid op' x hp hx,
              by rw [e2]; exact hI, ?_, hF, h.noub, fun t => ?_, fun y hy => ?_⟩
            · have : (effTids Op.isUpdate (fx ++ [(tid, op')])).length =
                  (effTids Op.isUpdate fx).length + (if op'.isUpdate then 1 else 0) := by
                simp only [effTids, List.filterMap_append, List.length_append]
                cases hq : op'.isUpdate <;> simp [hq]
              rw [this]; exact hB
            · rw [e2]
              by_cases e : t = tid
              · subst e
                simp only [upd, if_true]
                exact ⟨rfl, htodo, s2, Rely.refl _, h2⟩
              · simp only [upd, if_neg e]; exact (h.thr t).rely (hR t e)
            · rcases List.mem_append.mp hy with hy | hy
              · exact h.fx y hy
              · rw [List.mem_singleton.mp hy]; exact ha
      | effected op' x =>
        rw [hp] at ht
        obtain ⟨rfl, htodo, s0, hr0, hw⟩ := ht
        cases p with
        | halt y =>
          rw [owp] at hw
          cases y with
          | ub => exact absurd rfl hw
          | threw => exact .inl ⟨M, sz, P, fx, h⟩
          | fuel => exact .inl ⟨M, sz, P, fx, h⟩
        | ret r =>
          rw [owp] at hw
          obtain ⟨hx, hcount⟩ := hw
          cases hx
          refine .inl ⟨M, sz, upd P tid .idle, fx, h.lin.res tid op' _ hp, h.inv, h.bound, h.valid, h.noub, fun t => ?_, h.fx⟩
          by_cases e : t = tid
          · subst e
            simp only [upd, if_true]; exact ⟨htodo, hcount.rely hr0⟩
          · simp only [upd, if_neg e]; exact h.thr t
        | act a k =>
          rw [owp] at hw
          obtain ⟨r, s2, he, hw⟩ := hw _ hr0 h.inv (fun e => by cases e)
          change a.exec s.mem = _ at he
          simp only [he]
          obtain hgrown | ⟨hI, hR, hw⟩ := hw
          · exact .inr hgrown
          left
          rcases hw with ⟨h1, h2⟩ | ⟨h1, -⟩
          · change s2.M = M at h1
            have e2 : (⟨s2.m, M, s2.sz⟩ : OSt) = s2 := by rw [← h1]
            refine ⟨M, s2.sz, P, fx, h.lin, by rw [e2]; exact hI, h.bound, h.valid, h.noub, fun t => ?_, h.fx⟩
            rw [e2]
            by_cases e : t = tid
            · subst e
              simp only [upd, if_true, hp]
              exact ⟨rfl, htodo, s2, Rely.refl _, h2⟩
            · simp only [upd, if_neg e]; exact (h.thr t).rely (hR t e)
          · cases h1

theorem OwnOK.step {A : Nat → Op → Prop} {s : Sys} {sz : Word → Bool} (hC : C.OK) (hlim : ∀ t op, A t op → op.isUpdate = true → 8 * U < LIM)
    (hA : ∀ t op, A t op → op.By C.S C.own t ∧ op.Room ctr U) (h : OwnOK C M0 ctr U A s M sz P fx) (x : Sched)
    (hU : (begTids Op.isUpdate s.hist).length ≤ U) :
    (∃ M sz P fx, OwnOK C M0 ctr U A (s.step C.hash n x) M sz P fx) ∨ C.Grown (s.step C.hash n x).mem := by
  rw [Sys.step_eq]
  exact h.stepW hlim hA (fun t op s ha hc => op_owp hC n (hA t op ha).1 hc) x hU

theorem next_mono {a : Act} {m m' : Mem} {x : a.Resp} (he : a.exec m = some (x, m')) : m.next ≤ m'.next := by
  cases a <;> simp only [Act.exec] at he <;> (repeat' split at he) <;>
    simp only [Option.some.injEq, Prod.mk.injEq, reduceCtorEq] at he <;> obtain ⟨-, rfl⟩ := he <;> simp

theorem next_le_step (hash : Word → Word) (n : Nat) (s : Sys) (x : Sched) : s.mem.next ≤ (s.step hash n x).mem.next := by
  cases x with
  | evict => exact le_refl _
  | run tid =>
    rw [Sys.step]
    split <;> try exact le_refl _
    split
    · exact le_refl _
    · next he => exact next_mono he

theorem next_le_exec (hash : Word → Word) (n : Nat) (xs : List Sched) : ∀ s : Sys, s.mem.next ≤ (s.exec hash n xs).mem.next := by
  induction xs with
  | nil => intro s; exact le_refl _
  | cons x xs ih => intro s; exact le_trans (next_le_step hash n s x) (ih _)

theorem roomy_ok {hash : Word → Word} {len cap : Nat} {S : Finset Word} {own : Word → Nat} {re : Bool} (hs : Sized len cap) (hR : Roomy hash len S) :
    Cfg.OK ⟨hash, len, S, own, false, re⟩ := ⟨hs.pow, hR.valid, fun _ => hR⟩

theorem Cfg.fits (h : C.grow = false) (m : Mem) : ¬ C.Grown m := fun hg => by rw [hg.1] at h; cases h

theorem OwnOK.exec {A : Nat → Op → Prop} (hC : C.OK) (hlim : ∀ t op, A t op → op.isUpdate = true → 8 * U < LIM)
    (hA : ∀ t op, A t op → op.By C.S C.own t ∧ op.Room ctr U) (xs : List Sched) :
    ∀ {s : Sys} {M : AMap} {sz : Word → Bool} {P : Nat → CallState} {fx : List (Nat × Op)},
    OwnOK C M0 ctr U A s M sz P fx → (begTids Op.isUpdate (s.exec C.hash n xs).hist).length ≤ U →
    ¬ C.Grown (s.exec C.hash n xs).mem → ∃ M sz P fx, OwnOK C M0 ctr U A (s.exec C.hash n xs) M sz P fx := by
  induction xs with
  | nil => intro s M sz P fx h _ _; exact ⟨M, sz, P, fx, h⟩
  | cons x xs ih =>
    intro s M sz P fx h hU hG
    have hle : (begTids Op.isUpdate s.hist).length ≤ U := by
      obtain ⟨h', e⟩ := exec_hist C.hash n (x :: xs) s
      rw [e, begTids, List.filterMap_append, List.length_append] at hU
      exact le_trans (Nat.le_add_right _ _) hU
    rcases h.step (n := n) hC hlim hA x hle with ⟨M', sz', P', fx', h'⟩ | hg
    · exact ih h' hU hG
    · exact absurd ⟨hg.1, le_trans hg.2 (next_le_exec C.hash n xs _)⟩ hG

/-- A fresh map. -/
theorem own_fresh {cap : Nat} (hre : C.re = false) (hcap : cap ≤ 2 ^ 32) : OInv C ⟨freshMem C.len cap, AMap.empty, fun _ => false⟩ := by
  have hk : ∀ i, clean ((⟨freshMem C.len cap, AMap.empty, fun _ => false⟩ : OSt).key i) = KINITIAL := by
    intro i
    change clean (freshWords (fun _ => 0#64) 0 (.key 0 i)) = KINITIAL
    simp [freshWords]; decide
  have hv : ∀ i, clean ((⟨freshMem C.len cap, AMap.empty, fun _ => false⟩ : OSt).val i) = VINITIAL := by
    intro i
    change clean (freshWords (fun _ => 0#64) 0 (.val 0 i)) = VINITIAL
    simp [freshWords]; decide
  refine ⟨rfl, Nat.zero_lt_one, rfl, rfl, rfl, ⟨?_, ?_⟩, fun i _ _ => hv i, ?_, fun _ i _ _ h => absurd (hv i) h, fun _ _ _ => rfl, ?_, ⟨rfl, rfl, fun _ => le_refl _, hcap, hre.symm⟩⟩
  · intro i _ h; exact absurd (hk i) h
  · intro i _ h; exact absurd (hk i) h
  · intro i _ h; exact absurd (hk i) h
  · simp [freshMem, freshTab]

/-- The system at every moment. -/
theorem own_start {A : Nat → Op → Prop} (hre : C.re = false) (hC : C.OK) (hlim : ∀ t op, A t op → op.isUpdate = true → 8 * U < LIM)
    (hA : ∀ t op, A t op → op.By C.S C.own t ∧ op.Room ctr U) {cap : Nat} (hcap : cap ≤ 2 ^ 32) {calls : Nat → List Op}
    (hc : ∀ t, ∀ op ∈ calls t, A t op) (xs : List Sched)
    (hU : (begTids Op.isUpdate ((Sys.init C.len cap calls).exec C.hash n xs).hist).length ≤ U)
    (hG : ¬ C.Grown ((Sys.init C.len cap calls).exec C.hash n xs).mem) :
    ∃ M sz P fx, OwnOK C AMap.empty ctr U A ((Sys.init C.len cap calls).exec C.hash n xs) M sz P fx := by
  refine OwnOK.exec hC hlim hA xs (M := AMap.empty) (sz := fun _ => false) (P := fun _ => .idle) (fx := []) ?_ hU hG
  exact ⟨.nil, own_fresh hre hcap, fun k v _ h => (by cases h), fun k v h => (by cases h), rfl,
    fun t => ⟨fun op ho => hc t op ho, fun _ _ => rfl⟩, fun x hx => by cases hx⟩

/-- The same from a map that is in use already. -/
theorem own_restart {A : Nat → Op → Prop} (hC : C.OK) (hlim : ∀ t op, A t op → op.isUpdate = true → 8 * U < LIM)
    (hA : ∀ t op, A t op → op.By C.S C.own t ∧ op.Room ctr U) {m : Mem} {sz : Word → Bool} (hI : OInv C ⟨m, M0, sz⟩)
    (hV : ∀ k v, M0 k = some v → ValidVal v) (hB : Bound ctr U 0 M0) (hsz : ∀ k, sz k = (M0 k).isSome)
    {calls : Nat → List Op} (hc : ∀ t, ∀ op ∈ calls t, A t op) (xs : List Sched)
    (hU : (begTids Op.isUpdate ((Sys.start m calls).exec C.hash n xs).hist).length ≤ U)
    (hG : ¬ C.Grown ((Sys.start m calls).exec C.hash n xs).mem) :
    ∃ M sz P fx, OwnOK C M0 ctr U A ((Sys.start m calls).exec C.hash n xs) M sz P fx := by
  refine OwnOK.exec hC hlim hA xs (M := M0) (sz := sz) (P := fun _ => .idle) (fx := []) ?_ hU hG
  exact ⟨.nil, hI, hB, hV, rfl, fun t => ⟨fun op ho => hc t op ho, fun k _ => hsz k⟩, fun x hx => by cases hx⟩

end PMap
