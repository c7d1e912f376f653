import Verif.Fixed.Sys
import Verif.Props.Seq
import Verif.Props.Witness

/-!
# C18 and C21 for keys that are already in the map

Any number of threads work on a map that a single thread has filled, on keys that are in it, while the table does not grow.
The calls are `get`, `containsKey` (of any key), `put`, and for each key either `remove`, or `putIfAbsent`, `putIfMatch` with one of
the markers, and increments.  For `replace` and `remove(key, value)`, which may fail although the value matches, when they read a word
with its dirty bit set, see `Props/Spurious`.
-/

namespace PMap

open Prog

variable {hash : Word → Word} {len cap n : Nat}

theorem specNext_valid {op : Op} {M : AMap} (hv : op.Valid) (hu : op.isUpdate = false)
    (h : ∀ k v, M k = some v → ValidVal v) : ∀ k v, specNext op M k = some v → ValidVal v := by
  have set : ∀ {k v : Word}, ValidVal v → ∀ k' v', M.set k v k' = some v' → ValidVal v' := by
    intro k v hv k' v' e
    simp only [AMap.set] at e
    split at e
    · cases e; exact hv
    · exact h k' v' e
  have erase : ∀ {k : Word}, ∀ k' v', M.erase k k' = some v' → ValidVal v' := by
    intro k k' v' e
    simp only [AMap.erase] at e
    split at e
    · cases e
    · exact h k' v' e
  cases op with
  | get k => exact h
  | containsKey k => exact h
  | size => exact h
  | isEmpty => exact h
  | put k v => exact set hv.2
  | putIfAbsent k v => simp only [specNext]; split; exacts [set hv.2, h]
  | remove k => exact erase
  | removeIf k v => simp only [specNext]; split; exacts [erase, h]
  | replace k o v => simp only [specNext]; split; exacts [set hv.2.2, h]
  | putIfMatch k v o => simp only [specNext]; split; exacts [set hv.2.1, h]
  | update k v => cases hu

theorem reach_valid {Pr : Mem → Prop} {m : Mem} {M : AMap} (h : Reach hash len cap Pr m M) :
    ∀ k v, M k = some v → ValidVal v := by
  induction h with
  | init => intro k v h; cases h
  | step n _ hv hu _ _ ih => exact specNext_valid hv hu ih

theorem validKey_of_user {k : Word} (h : UserKey k) : ValidKey k := by
  refine ⟨not_dirty_iff.mpr h.clean, ?_⟩
  simp only [isKeyReserved, Bool.or_eq_false_iff, beq_eq_false_iff_ne]
  exact ⟨h.ne_init, h.ne_tomb⟩

theorem Op.On.mono {has has' : Word → Prop} {rem : Word → Bool} (hh : ∀ k, has k → has' k) {op : Op} (h : op.On has rem) :
    op.On has' rem := by
  cases op <;> simp only [Op.On] at h ⊢ <;> first
    | exact h
    | exact ⟨hh _ h.1, h.2⟩

theorem Op.OnW.mono {has has' : Word → Prop} {rem : Word → Bool} (hh : ∀ k, has k → has' k) {op : Op} (h : op.OnW has rem) :
    op.OnW has' rem := by
  cases op <;> simp only [Op.OnW] at h ⊢ <;> first
    | exact h
    | exact ⟨hh _ h.1, h.2⟩

theorem Op.On.weak {has : Word → Prop} {rem : Word → Bool} {op : Op} (h : op.On has rem) : op.OnW has rem := by
  cases op with
  | putIfAbsent k v => exact ⟨h.1, h.2.1⟩
  | putIfMatch k v o =>
    obtain ⟨h1, h2, h3⟩ := h
    exact ⟨h1, h2, by rcases h3 with h3 | ⟨h3, h4 | h4⟩; exacts [.inr (.inl h3), .inr (.inr (.inr ⟨h3, h4⟩)), .inr (.inr (.inl h4))]⟩
  | removeIf k v => exact h.elim
  | replace k o v => exact h.elim
  | _ => exact h

/-! ## Counting -/

/-- Is the call an increment of `k`? -/
def Op.isInc (k : Word) : Op → Bool
  | .update k' _ => k' == k
  | _ => false

theorem length_filterMap_eq {α β : Type} (f : α → Option β) (p : α → Bool) (h : ∀ a, (f a).isSome = p a) (l : List α) :
    (l.filterMap f).length = l.countP p := by
  induction l with
  | nil => rfl
  | cons a l ih =>
    have := h a
    rw [List.filterMap_cons, List.countP_cons]
    cases hf : f a with
    | none => rw [hf] at this; simp [← this, ih]
    | some b => rw [hf] at this; simp [← this, ih]

theorem begTids_upd (es : List Event) : (begTids Op.isUpdate es).length = es.countP Event.updBegins := by
  refine length_filterMap_eq _ _ (fun e => ?_) es
  cases e with
  | inv t op => cases op <;> rfl
  | res t op r => rfl

theorem begTids_inc (k : Word) (es : List Event) : (begTids (Op.isInc k) es).length = es.countP (Event.incBegins k) := by
  refine length_filterMap_eq _ _ (fun e => ?_) es
  cases e with
  | inv t op =>
    cases op <;> try rfl
    simp only [Op.isInc, Event.incBegins]
    next k' v => by_cases h : k' = k <;> simp [h]
  | res t op r => rfl

theorem endTids_inc (k : Word) (es : List Event) : (endTids (Op.isInc k) es).length = es.countP (Event.incEnds k) := by
  refine length_filterMap_eq _ _ (fun e => ?_) es
  cases e with
  | inv t op => rfl
  | res t op r =>
    cases op <;> try rfl
    simp only [Op.isInc, Event.incEnds]
    next k' v => by_cases h : k' = k <;> simp [h]

theorem effTids_inc_le (k : Word) (fx : List (Nat × Op)) :
    (effTids (Op.isInc k) fx).length ≤ (effTids Op.isUpdate fx).length := by
  rw [effTids, effTids, length_filterMap_eq _ (fun x => Op.isInc k x.2), length_filterMap_eq _ (fun x => Op.isUpdate x.2)]
  · refine List.countP_mono_left fun x _ h => ?_
    cases hx : x.2 <;> rw [hx] at h <;> first | rfl | cases h
  · intro x; cases hx : Op.isUpdate x.2 <;> simp
  · intro x; cases hx : Op.isInc k x.2 <;> simp

theorem specNext_of_writes {op : Op} {k : Word} (h1 : op.writes ≠ some k) (h2 : op.isInc k = false) (M : AMap) :
    specNext op M k = M k := by
  have set : ∀ {k' v : Word}, some k' ≠ some k → M.set k' v k = M k := by
    intro k' v h
    simp only [AMap.set]
    rw [if_neg (by rintro rfl; exact h rfl)]
  have erase : ∀ {k' : Word}, some k' ≠ some k → M.erase k' k = M k := by
    intro k' h
    simp only [AMap.erase]
    rw [if_neg (by rintro rfl; exact h rfl)]
  cases op with
  | get k => rfl
  | containsKey k => rfl
  | size => rfl
  | isEmpty => rfl
  | put k v => exact set h1
  | putIfAbsent k v => simp only [specNext]; split; exacts [set h1, rfl]
  | remove k => exact erase h1
  | removeIf k v => simp only [specNext]; split; exacts [erase h1, rfl]
  | replace k o v => simp only [specNext]; split; exacts [set h1, rfl]
  | putIfMatch k v o => simp only [specNext]; split; exacts [set h1, rfl]
  | update k' v =>
    simp only [Op.isInc, beq_eq_false_iff_ne] at h2
    exact set (by simpa using h2)

theorem WeakTo.counter {sp : Nat → Op → Prop} {M0 M : AMap} {P : Nat → CallState} {es : List Event} {fx : List (Nat × Op)} {k v : Word}
    (h : WeakTo sp M0 M P es fx) (hv : M0 k = some v) (h8 : v.toNat % 8 = 0) (hw : ∀ x ∈ fx, x.2.writes ≠ some k)
    (hlim : v.toNat + 8 * (effTids (Op.isInc k) fx).length < LIM + 8) :
    ∃ w, M k = some w ∧ w.toNat = v.toNat + 8 * (effTids (Op.isInc k) fx).length := by
  induction h with
  | nil => exact ⟨v, hv, rfl⟩
  | inv t op _ hp ih => exact ih hw hlim
  | res t op r _ hp ih => exact ih hw hlim
  | @giveUp M P es fx t op r _ _ hp hr ih =>
    have hq : op.isInc k = false := by cases op <;> first | rfl | cases hr
    have e : effTids (Op.isInc k) (fx ++ [(t, op)]) = effTids (Op.isInc k) fx := by
      simp [effTids, List.filterMap_append, hq]
    rw [e] at hlim ⊢
    exact ih (fun x hx => hw x (List.mem_append_left _ hx)) hlim
  | @effect M P es fx t op r _ hp hr ih =>
    have e : (effTids (Op.isInc k) (fx ++ [(t, op)])).length =
        (effTids (Op.isInc k) fx).length + (if op.isInc k then 1 else 0) := by
      simp only [effTids, List.filterMap_append, List.length_append]
      cases hq : op.isInc k <;> simp [hq]
    rw [e] at hlim ⊢
    obtain ⟨w, h1, h2⟩ := ih (fun x hx => hw x (List.mem_append_left _ hx)) (by omega)
    have hwo := hw (t, op) (List.mem_append_right _ (List.mem_singleton.mpr rfl))
    cases hq : op.isInc k with
    | false => exact ⟨w, by rw [specNext_of_writes hwo hq]; exact h1, by simpa [hq] using h2⟩
    | true =>
      rw [hq, if_pos rfl] at hlim
      cases op <;> simp only [Op.isInc, beq_iff_eq, Bool.false_eq_true] at hq
      subst hq
      refine ⟨_, by simp only [specNext, AMap.set, if_true]; rfl, ?_⟩
      rw [h1, addOne_toNat (by omega), if_pos rfl]
      omega

theorem lwp_run {D : Desc} {op : Op} {α : Type} {Q : α → Option Res → Prop} {M : AMap} (hnext : specNext op M = M)
    (hsp : spurRes op M = none)
    {p : Prog α} : ∀ {m : Mem} {c : Option Res} {K : Option (Word × Word)}, Rep D m M → D.Knows K m → lwpK D op Q p c K →
    (∀ x, c = some x → ∀ y, specRes op M = some y → x = y) → ∀ {a : α} {m' : Mem}, run p m = .done a m' →
    Rep D m' M ∧ ∃ c', Q a c' ∧ ∀ x, c' = some x → ∀ y, specRes op M = some y → x = y := by
  induction p with
  | ret a =>
    intro m c K hR _ h hc a' m' hr
    cases hr
    exact ⟨hR, c, h, hc⟩
  | halt x => intro m c K hR _ h hc a' m' hr; cases hr
  | act a k ih =>
    intro m c K hR hK h hc a' m' hr
    obtain ⟨r, m2, he, -, K', hK', h2⟩ := h m M hR hK (fun _ => by rw [hnext]; exact hR.fits)
    rw [run, he] at hr
    rcases h2 with ⟨h3, h4⟩ | ⟨-, h3, x, hx, h4⟩ | ⟨-, -, -, x, hx, -⟩
    · exact ih r h3 hK' h4 hc hr
    · rw [hnext] at h3
      exact ih r h3 hK' h4 (fun x' e y hy => by cases e; exact hx y hy) hr
    · rw [hsp] at hx; cases hx

/-- A `get` that runs alone returns the content. -/
theorem get_fix {D : Desc} (hD : D.OK hash) {m : Mem} {M : AMap} (hR : Rep D m M) {k : Word} (hk : D.has k) {n : Nat}
    {w : Word} {m' : Mem} (hg : run (mapGet hash n k) m = .done w m') : w = resWord (M k) := by
  obtain ⟨-, c, ⟨o, h1, h2, -⟩, h3⟩ := lwp_run (op := .get k) (M := M) rfl rfl hR (D.knows_none m)
    (mapGet_lwp (res := fun o => .word (resWord o)) hD hk n (fun _ => rfl) (fun M y e => by cases e; rfl))
    (fun x e => by cases e) hg
  rw [h1]
  exact Res.word.inj (h3 _ h2 _ rfl)

/-- What each thread may store. -/
def storedBy (calls : Nat → List Op) (t : Nat) (k v : Word) : Prop := ∃ op ∈ calls t, op.leaves k v

/-- The system at the start. -/
theorem weak_start (hs : Sized len cap) {m : Mem} {M : AMap} (h : Reach hash len cap (fun _ => True) m M)
    (hn : (m.tab m.root).newT = none) (rem : Word → Bool) {ctr : Word → Prop} {U : Nat}
    (hroom : ∀ k v, ctr k → M k = some v → v.toNat + 8 * U < LIM) {calls : Nat → List Op}
    (hc : ∀ t, ∀ op ∈ calls t, op.OnW (fun k => M k ≠ none) rem ∧ op.Room ctr U) (xs : List Sched)
    (hU : (begTids Op.isUpdate ((Sys.start m calls).exec hash n xs).hist).length ≤ U) :
    ∃ M' P fx, FixOK (descOf m M rem (storedBy calls)) ctr U (fun t op => op ∈ calls t) M
        ((Sys.start m calls).exec hash n xs) M' P fx ∧
      WeakTo (Rivalled calls) M M' P (((Sys.start m calls).exec hash n xs).hist.map Event.unmark) fx := by
  have hg := reach_good hs h
  have hm : ∀ k, M k ≠ none → (descOf m M rem (storedBy calls)).has k := by
    intro k hk
    obtain ⟨v, hv⟩ := Option.ne_none_iff_exists'.mp hk
    exact ⟨validKey_of_user ((hg.inv.cont k v).mp hv).1, hk⟩
  obtain ⟨M', P, fx, hf⟩ := FixOK.exec (n := n) (descOf_ok hg hn rem (storedBy calls)) (ctr := ctr) (U := U) (M0 := M)
    (A := fun t op => op ∈ calls t)
    (fun t op h => ⟨⟨(hc t op h).1.mono hm, fun k v hl => ⟨op, h, hl⟩⟩, (hc t op h).2⟩) xs (s := Sys.start m calls) (M := M)
    (P := fun _ => .idle) (fx := [])
    ⟨.nil, descOf_rep hg hn rem _ (reach_valid h), by
      intro k v hk hM
      have := hroom k v hk hM
      simp only [effTids, List.filterMap_nil, List.length_nil]; omega, rfl, fun t op ho => ho, fun x hx => by cases hx⟩ hU
  refine ⟨M', P, fx, hf, hf.lin.mono ?_⟩
  rintro t op ⟨-, k, o, he, j, hj, op', ho, hl⟩
  exact ⟨k, o, he, j, hj, op', ho, hl⟩

theorem leaves_tomb {has : Word → Prop} {rem : Word → Bool} {k : Word} {op : Op} (h : op.OnW has rem)
    (hr : rem k = false) : ¬ op.leaves k VTOMBSTONE := by
  cases op with
  | put k v => rintro ⟨-, rfl⟩; exact h.2.ne_tomb rfl
  | putIfAbsent k v => rintro ⟨-, rfl⟩; exact h.2.ne_tomb rfl
  | putIfMatch k v o => rintro ⟨-, rfl⟩; exact h.2.1.ne_tomb rfl
  | replace k o v => rintro ⟨-, rfl⟩; exact h.2.2.ne_tomb rfl
  | remove k => rintro ⟨rfl, -⟩; exact absurd h.2 (by rw [hr]; decide)
  | removeIf k v => rintro ⟨rfl, -⟩; exact absurd h.2.2 (by rw [hr]; decide)
  | update k v => exact fun hl => hl.2 rfl
  | _ => exact id

/-- The calls that `Op.On` admits have no rivals. -/
theorem on_unrivalled {has : Word → Prop} {rem : Word → Bool} {calls : Nat → List Op}
    (hc : ∀ t, ∀ op ∈ calls t, op.OnW has rem) {t : Nat} {op : Op} (h : op.On has rem) : ¬ Rivalled calls t op := by
  rintro ⟨k, o, he, t', -, op', ho, hl⟩
  have key : rem k = false → o = VTOMBSTONE → False := by
    rintro hr rfl
    exact leaves_tomb (hc t' op' ho) hr hl
  cases op <;> simp only [Op.expects, Option.some.injEq, Prod.mk.injEq, reduceCtorEq] at he
  · exact key (he.1 ▸ h.2.2) he.2.symm
  · exact h
  · exact h
  · split at he
    · cases he
    · next hne =>
      rw [Option.some.injEq, Prod.mk.injEq] at he
      obtain ⟨rfl, rfl⟩ := he
      rcases h.2.2 with h1 | ⟨h1, h2 | h2⟩
      · exact hne (.inl h1)
      · exact hne (.inr h2)
      · exact key h1 h2

/-- Without rivals nobody gives up. -/
theorem WeakTo.lin_of {sp : Nat → Op → Prop} {M0 M : AMap} {P : Nat → CallState} {es : List Event} {fx : List (Nat × Op)}
    (h : WeakTo sp M0 M P es fx) (hb : ∀ x ∈ fx, ¬ sp x.1 x.2) : LinTo M0 M P es fx := by
  induction h with
  | nil => exact .nil
  | inv t op _ hp ih => exact .inv t op (ih hb) hp
  | effect t op r _ hp hr ih => exact .effect t op r (ih fun x hx => hb x (List.mem_append_left _ hx)) hp hr
  | giveUp t op r hs => exact absurd hs (hb (t, op) (List.mem_append_right _ (List.mem_singleton.mpr rfl)))
  | res t op r _ hp ih => exact .res t op r (ih hb) hp

theorem fix_start (hs : Sized len cap) {m : Mem} {M : AMap} (h : Reach hash len cap (fun _ => True) m M)
    (hn : (m.tab m.root).newT = none) (rem : Word → Bool) {ctr : Word → Prop} {U : Nat}
    (hroom : ∀ k v, ctr k → M k = some v → v.toNat + 8 * U < LIM) {calls : Nat → List Op}
    (hc : ∀ t, ∀ op ∈ calls t, op.OnW (fun k => M k ≠ none) rem ∧ op.Room ctr U)
    (hrv : ∀ t, ∀ op ∈ calls t, ¬ Rivalled calls t op) (xs : List Sched)
    (hU : (begTids Op.isUpdate ((Sys.start m calls).exec hash n xs).hist).length ≤ U) :
    LinRun M (fun _ => .idle) (((Sys.start m calls).exec hash n xs).hist.map Event.unmark) ∧
      ((Sys.start m calls).exec hash n xs).ub = false ∧ ((Sys.start m calls).exec hash n xs).mem.failed = false := by
  obtain ⟨M', P, fx, hf, hw⟩ := weak_start (n := n) hs h hn rem hroom hc xs hU
  refine ⟨?_, hf.noub, hf.rep.ok⟩
  have := (hw.lin_of fun x hx => hrv x.1 x.2 (hf.fx x hx)).run [] .nil
  rwa [List.append_nil] at this

/-! ## C18 -/

/-- **C18, partial.** On keys present in a table that is not being replaced, every history of `get`, `containsKey`, `put`
and for each key either `remove`, or `putIfAbsent` and `putIfMatch` with a marker, by any number of threads under any schedule, is
linearizable once the dirty bits of the results are dropped; and no thread meets undefined behaviour or fails an assertion.
Missing for the full claim: calls that add keys (refuted by `c18_not_linearizable`), growth (refuted by `c20_lost_key`),
and `replace`, `remove(key, value)` and `putIfMatch` with a value (refuted in `Props/Spurious`). -/
theorem c18_present_keys_partial (hs : Sized len cap) {m : Mem} {M : AMap} (h : Reach hash len cap (fun _ => True) m M)
    (hn : (m.tab m.root).newT = none) (rem : Word → Bool) {calls : Nat → List Op}
    (hc : ∀ t, ∀ op ∈ calls t, op.On (fun k => M k ≠ none) rem ∧ op.isUpdate = false) (xs : List Sched) :
    LinRun M (fun _ => .idle) (((Sys.start m calls).exec hash n xs).hist.map Event.unmark) ∧
      ((Sys.start m calls).exec hash n xs).ub = false ∧ ((Sys.start m calls).exec hash n xs).mem.failed = false := by
  refine fix_start (n := n) hs h hn rem (ctr := fun _ => False) (U := _) (fun k v hk => hk.elim) (calls := calls)
    (fun t op ho => ⟨(hc t op ho).1.weak, ?_⟩) (fun t op ho => on_unrivalled (fun t op ho => (hc t op ho).1.weak) (hc t op ho).1) xs
    (le_refl _)
  have := (hc t op ho).2
  cases op <;> first | trivial | exact fun h => h.elim | cases this

/-- **C18, partial**, with increments: the same when threads also increment keys (those in `ctr`), as long as no
counter can reach the reserved words within the increments made. -/
theorem c18_with_increments_partial (hs : Sized len cap) {m : Mem} {M : AMap}
    (h : Reach hash len cap (fun _ => True) m M) (hn : (m.tab m.root).newT = none) (rem : Word → Bool) {ctr : Word → Prop} {U : Nat}
    (hroom : ∀ k v, ctr k → M k = some v → v.toNat + 8 * U < LIM) {calls : Nat → List Op}
    (hc : ∀ t, ∀ op ∈ calls t, op.On (fun k => M k ≠ none) rem ∧ op.Room ctr U) (xs : List Sched)
    (hU : ((Sys.start m calls).exec hash n xs).hist.countP Event.updBegins ≤ U) :
    LinRun M (fun _ => .idle) (((Sys.start m calls).exec hash n xs).hist.map Event.unmark) ∧
      ((Sys.start m calls).exec hash n xs).ub = false ∧ ((Sys.start m calls).exec hash n xs).mem.failed = false := by
  rw [← begTids_upd] at hU
  exact fix_start (n := n) hs h hn rem hroom (fun t op ho => ⟨(hc t op ho).1.weak, (hc t op ho).2⟩)
    (fun t op ho => on_unrivalled (fun t op ho => (hc t op ho).1.weak) (hc t op ho).1) xs hU

theorem callsOf_all {c0 c1 c2 c3 : List Op} {P : Op → Prop} (h0 : ∀ op ∈ c0, P op) (h1 : ∀ op ∈ c1, P op)
    (h2 : ∀ op ∈ c2, P op) (h3 : ∀ op ∈ c3, P op) (t : Nat) : ∀ op ∈ callsOf c0 c1 c2 c3 t, P op := by
  unfold callsOf
  split
  · exact h0
  split
  · exact h1
  split
  · exact h2
  split
  · exact h3
  · intro op h; cases h

/-- The example of this file: a map with the keys 8, 16 and (removed again) 24. -/
def fixOps : List Op := [.put 8#64 80#64, .put 16#64 160#64, .put 24#64 240#64, .remove 24#64]

theorem fix_reach : ∃ m, Reach (fun x => x >>> 3) 8 64 (fun _ => True) m (specRun fixOps AMap.empty) ∧
    (m.tab m.root).newT = none := by
  have h : ((runChk (fun x => x >>> 3) 30 (fun _ => true) fixOps (freshMem 8 64)).map
      (fun m => decide ((m.tab m.root).newT = none))) = some true := by decide +kernel
  rw [Option.map_eq_some_iff] at h
  obtain ⟨m, h1, h2⟩ := h
  exact ⟨m, runChk_reach (fun _ _ => trivial) fixOps .init (by decide) h1, of_decide_eq_true h2⟩

/-- `c18_present_keys_partial` is not vacuous: three threads that put, read and remove, and one that asks for a key that is
not there. -/
example : Sized 8 64 ∧ (∃ m, Reach (fun x => x >>> 3) 8 64 (fun _ => True) m (specRun fixOps AMap.empty) ∧
      (m.tab m.root).newT = none) ∧
    ∀ t, ∀ op ∈ callsOf [.put 8#64 88#64, .get 16#64] [.remove 8#64, .put 16#64 168#64]
        [.get 8#64, .putIfMatch 8#64 96#64 NO_MATCH_OLD] [.containsKey 24#64] t,
      op.On (fun k => specRun fixOps AMap.empty k ≠ none) (fun _ => true) ∧ op.isUpdate = false := by
  refine ⟨⟨⟨3, by decide, rfl⟩, by decide⟩, fix_reach, ?_⟩
  have h8 : specRun fixOps AMap.empty 8#64 ≠ none := by decide
  have h16 : specRun fixOps AMap.empty 16#64 ≠ none := by decide
  refine callsOf_all ?_ ?_ ?_ ?_ <;> intro op h <;> simp only [List.mem_cons, List.not_mem_nil, or_false] at h
  · rcases h with rfl | rfl
    exacts [⟨⟨h8, by decide⟩, rfl⟩, ⟨(by decide : ValidKey _), rfl⟩]
  · rcases h with rfl | rfl
    exacts [⟨⟨h8, rfl⟩, rfl⟩, ⟨⟨h16, by decide⟩, rfl⟩]
  · rcases h with rfl | rfl
    exacts [⟨(by decide : ValidKey _), rfl⟩, ⟨⟨h8, by decide, .inl rfl⟩, rfl⟩]
  · rcases h with rfl
    exact ⟨(by decide : ValidKey _), rfl⟩

/-! ## C21 -/

/-- **C21, partial.** Threads increment the key `k`, which was in the map with a value `v` divisible by 8, and do anything else
that does not write `k` or add keys.  At any moment, `get` shows at least `v` plus 8 (one increment, hashMap.hpp:91) for each
increment of `k` that has returned, at most `v` plus 8 for each one that has begun, and when no call is in progress
exactly `v` plus 8 for each one made.  Missing for the full claim: increments of a key that is not yet in the map (refuted by
`c21_lost_increment`). -/
theorem c21_present_key_partial (hs : Sized len cap) {m : Mem} {M : AMap} (h : Reach hash len cap (fun _ => True) m M)
    (hn : (m.tab m.root).newT = none) (rem : Word → Bool) {ctr : Word → Prop} {U : Nat}
    (hroom : ∀ k v, ctr k → M k = some v → v.toNat + 8 * U < LIM) {k v : Word} (hk : ctr k) (hv : M k = some v)
    (h8 : v.toNat % 8 = 0) {calls : Nat → List Op}
    (hc : ∀ t, ∀ op ∈ calls t, op.OnW (fun k => M k ≠ none) rem ∧ op.Room ctr U ∧ op.writes ≠ some k) (xs : List Sched)
    {s : Sys} (he : s = (Sys.start m calls).exec hash n xs) (hU : s.hist.countP Event.updBegins ≤ U)
    {n' : Nat} {w : Word} {m' : Mem} (hg : run (mapGet hash n' k) s.mem = .done w m') :
    v.toNat + 8 * s.hist.countP (Event.incEnds k) ≤ w.toNat ∧ w.toNat ≤ v.toNat + 8 * s.hist.countP (Event.incBegins k) ∧
      ((∀ t, ∃ todo, s.thr t = .idle todo) → w.toNat = v.toNat + 8 * s.hist.countP (Event.incEnds k)) := by
  subst he
  rw [← begTids_upd] at hU
  obtain ⟨M', P, fx, hf, hlin⟩ := weak_start (n := n) hs h hn rem hroom (fun t op ho => ⟨(hc t op ho).1, (hc t op ho).2.1⟩) xs hU
  have hkk : (descOf m M rem (storedBy calls)).has k :=
    ⟨validKey_of_user ((( reach_good hs h).inv.cont k v).mp hv).1, by rw [hv]; simp⟩
  have hb := get_fix (descOf_ok (reach_good hs h) hn rem (storedBy calls)) hf.rep hkk hg
  have hle := hlin.eff_le Op.isUpdate
  rw [begTids_unmark] at hle
  have hinc := effTids_inc_le k fx
  have hr := hroom k v hk hv
  obtain ⟨w', hw', hval⟩ := hlin.counter hv h8 (fun x hx => (hc x.1 x.2 (hf.fx x hx)).2.2) (by omega)
  rw [hw'] at hb
  rw [hb, show (resWord (some w')) = w' from rfl, hval]
  have h1 := hlin.end_le (Op.isInc k)
  have h2 := hlin.eff_le (Op.isInc k)
  rw [endTids_unmark, endTids_inc] at h1
  rw [begTids_unmark, begTids_inc] at h2
  refine ⟨by omega, by omega, fun hi => ?_⟩
  have h3 := hlin.all_idle (Op.isInc k) fun t => by
    obtain ⟨todo, ht⟩ := hi t
    have := hf.thr t
    rw [ht] at this
    cases hp : P t <;> rw [hp] at this <;> first | rfl | exact this.elim
  rw [endTids_unmark, endTids_inc, begTids_unmark, begTids_inc] at h3
  omega

/-- `c18_with_increments_partial` is not vacuous: two threads increment the key 8, two overwrite and remove the key 16. -/
example : Sized 8 64 ∧ (∃ m, Reach (fun x => x >>> 3) 8 64 (fun _ => True) m (specRun fixOps AMap.empty) ∧
      (m.tab m.root).newT = none) ∧
    (∀ k v, k = 8#64 → specRun fixOps AMap.empty k = some v → v.toNat + 8 * 3 < LIM) ∧
    ∀ t, ∀ op ∈ callsOf [.update 8#64 MATCH_ANY, .update 8#64 MATCH_ANY] [.update 8#64 MATCH_ANY] [.put 16#64 168#64]
        [.remove 16#64] t,
      op.On (fun k => specRun fixOps AMap.empty k ≠ none) (fun k => k == 16#64) ∧ op.Room (fun k => k = 8#64) 3 := by
  have h8 : specRun fixOps AMap.empty 8#64 ≠ none := by decide
  have h16 : specRun fixOps AMap.empty 16#64 ≠ none := by decide
  refine ⟨⟨⟨3, by decide, rfl⟩, by decide⟩, fix_reach, ?_, ?_⟩
  · rintro k v rfl h
    have : some v = some 80#64 := h.symm.trans (by decide)
    cases this
    decide
  · refine callsOf_all ?_ ?_ ?_ ?_ <;> intro op h <;> simp only [List.mem_cons, List.not_mem_nil, or_false] at h
    · rcases h with rfl | rfl
      all_goals exact ⟨⟨h8, rfl, rfl⟩, rfl⟩
    · rcases h with rfl
      exact ⟨⟨h8, rfl, rfl⟩, rfl⟩
    · rcases h with rfl
      exact ⟨⟨h16, by decide⟩, fun h => absurd h (by decide)⟩
    · rcases h with rfl
      exact ⟨⟨h16, rfl⟩, trivial⟩

/-- `c21_present_key_partial` is not vacuous: two threads increment key 8 three times in all, while one removes
key 16 and one reads. -/
example : Sized 8 64 ∧ (∃ m, Reach (fun x => x >>> 3) 8 64 (fun _ => True) m (specRun fixOps AMap.empty) ∧
      (m.tab m.root).newT = none ∧
      ((Sys.start m (callsOf [.update 8#64 MATCH_ANY, .update 8#64 MATCH_ANY] [.update 8#64 MATCH_ANY] [.removeIf 16#64 160#64]
        [.get 8#64])).exec (fun x => x >>> 3) 30 (steps 0 9 ++ steps 1 12 ++ steps 3 40 ++ steps 0 60 ++ steps 1 40)).hist =
        [.inv 0 (.update 8#64 MATCH_ANY), .inv 1 (.update 8#64 MATCH_ANY), .inv 3 (.get 8#64),
          .res 3 (.get 8#64) (.word 80#64), .res 0 (.update 8#64 MATCH_ANY) (.word 80#64),
          .inv 0 (.update 8#64 MATCH_ANY), .res 0 (.update 8#64 MATCH_ANY) (.word 88#64),
          .res 1 (.update 8#64 MATCH_ANY) (.word 96#64)]) ∧
    (∀ k v, k = 8#64 → specRun fixOps AMap.empty k = some v → v.toNat + 8 * 3 < LIM) ∧
    specRun fixOps AMap.empty 8#64 = some 80#64 ∧ (80#64).toNat % 8 = 0 ∧
    ∀ t, ∀ op ∈ callsOf [.update 8#64 MATCH_ANY, .update 8#64 MATCH_ANY] [.update 8#64 MATCH_ANY] [.removeIf 16#64 160#64]
        [.get 8#64] t,
      op.OnW (fun k => specRun fixOps AMap.empty k ≠ none) (fun k => k == 16#64) ∧ op.Room (fun k => k = 8#64) 3 ∧
        op.writes ≠ some 8#64 := by
  have h8 : specRun fixOps AMap.empty 8#64 ≠ none := by decide
  have h16 : specRun fixOps AMap.empty 16#64 ≠ none := by decide
  refine ⟨⟨⟨3, by decide, rfl⟩, by decide⟩, ?_, ?_, by decide, by decide, ?_⟩
  · have h : ((runChk (fun x => x >>> 3) 30 (fun _ => true) fixOps (freshMem 8 64)).map
      (fun m => decide ((m.tab m.root).newT = none) && decide (((Sys.start m (callsOf
        [.update 8#64 MATCH_ANY, .update 8#64 MATCH_ANY] [.update 8#64 MATCH_ANY] [.removeIf 16#64 160#64]
        [.get 8#64])).exec (fun x => x >>> 3) 30 (steps 0 9 ++ steps 1 12 ++ steps 3 40 ++ steps 0 60 ++ steps 1 40)).hist =
        [.inv 0 (.update 8#64 MATCH_ANY), .inv 1 (.update 8#64 MATCH_ANY), .inv 3 (.get 8#64),
          .res 3 (.get 8#64) (.word 80#64), .res 0 (.update 8#64 MATCH_ANY) (.word 80#64),
          .inv 0 (.update 8#64 MATCH_ANY), .res 0 (.update 8#64 MATCH_ANY) (.word 88#64),
          .res 1 (.update 8#64 MATCH_ANY) (.word 96#64)]))) = some true := by decide +kernel
    rw [Option.map_eq_some_iff] at h
    obtain ⟨m, h1, h2⟩ := h
    rw [Bool.and_eq_true, decide_eq_true_eq, decide_eq_true_eq] at h2
    exact ⟨m, runChk_reach (fun _ _ => trivial) fixOps .init (by decide) h1, h2⟩
  · rintro k v rfl h
    have : some v = some 80#64 := h.symm.trans (by decide)
    cases this
    decide
  · refine callsOf_all ?_ ?_ ?_ ?_ <;> intro op h <;> simp only [List.mem_cons, List.not_mem_nil, or_false] at h
    · rcases h with rfl | rfl
      all_goals exact ⟨⟨h8, rfl, rfl⟩, rfl, by decide⟩
    · rcases h with rfl
      exact ⟨⟨h8, rfl, rfl⟩, rfl, by decide⟩
    · rcases h with rfl
      exact ⟨⟨h16, by decide, by decide⟩, trivial, by decide⟩
    · rcases h with rfl
      exact ⟨(by decide : ValidKey _), trivial, by decide⟩

end PMap
