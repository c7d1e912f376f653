import Verif.Props.Winner

/-!
# C58: a key as a lock

A key holds a value that says "free"; each thread has a value of its own.  `replace(k, free, own)` takes the lock,
`replace(k, own, free)` gives it back (hashMap.hpp:926-929).  Taking the lock may fail although it is free, because the other threads
store the value "free" (`c18_replace_not_linearizable`); everything else works.
-/

namespace PMap

/-- What a thread does with the lock, as it appears in a history. -/
inductive Phase where
  /-- It does not have the lock. -/
  | out
  /-- It has got the lock. -/
  | holds
  /-- It is giving the lock back. -/
  | leaving
  /-- It could not give the lock back. -/
  | stuck
  deriving DecidableEq

/-- The call takes the lock `k`, whose value "free" is `f`, for the thread whose own value is `w`. -/
def takes (k f w : Word) : Op := .replace k f w
/-- The call gives the lock back. -/
def gives (k f w : Word) : Op := .replace k w f

/-- How an event changes the phase of the thread `t` whose own value is `w`. -/
def Phase.next (k f w : Word) (t : Nat) (p : Phase) : Event → Phase
  | .inv t' op => if t' = t ∧ p = .holds ∧ op = gives k f w then .leaving else p
  | .res t' op r =>
    if t' = t then
      if op = takes k f w ∧ r = .bool true then .holds
      else if op = gives k f w ∧ p = .leaving then (if r = .bool true then .out else .stuck)
      else p
    else p

/-- The phase of the thread `t` after a history. -/
def phase (k f : Word) (own : Nat → Word) (t : Nat) (es : List Event) : Phase := es.foldl (Phase.next k f (own t) t) .out

/-- The calls of the thread `t` that change the lock take it for this thread or give it back. -/
def Op.Locks (k f w : Word) (op : Op) : Prop :=
  op = takes k f w ∨ op = gives k f w ∨ (op.writes ≠ some k ∧ op.isInc k = false)

variable {k f : Word} {own : Nat → Word}

/-- The thread has the lock in the ordinary map. -/
def Owns (k f w : Word) (p : Phase) (c : CallState) : Prop :=
  (p = .out ∧ c = .effected (takes k f w) (.bool true)) ∨ p = .holds ∨ (p = .leaving ∧ c = .called (gives k f w))

/-- What is always true of a thread. -/
structure Turn (k f w : Word) (M : AMap) (p : Phase) (c : CallState) : Prop where
  mine : Owns k f w p c ↔ M k = some w
  holds : p = .holds → c ≠ .called (gives k f w) ∧ (∀ r, c ≠ .effected (gives k f w) r) ∧ c ≠ .effected (takes k f w) (.bool true)
  leaving : p = .leaving → c = .called (gives k f w) ∨ c = .effected (gives k f w) (.bool true)
  stuck : p ≠ .stuck

theorem takes_ne_gives {w : Word} (h : w ≠ f) : takes k f w ≠ gives k f w := by
  intro e
  injection e with _ h1
  exact h h1.symm

variable {w : Word} {M : AMap} {p : Phase} {t : Nat} {op : Op} {r : Res}

theorem Turn.inv (h : Turn k f w M p .idle) : Turn k f w M (p.next k f w t (.inv t op)) (.called op) := by
  have hm := h.mine
  have hl := h.leaving
  cases p with
  | out =>
    simp only [Phase.next, reduceCtorEq, false_and, and_false, if_false]
    exact ⟨by simpa [Owns] using hm, by simp, by simp, by simp⟩
  | stuck => exact absurd rfl h.stuck
  | leaving => simp at hl
  | holds =>
    by_cases e : op = gives k f w
    · simp only [Phase.next, e, and_self, if_true]
      exact ⟨by simpa [Owns] using hm, by simp, by simp, by simp⟩
    · simp only [Phase.next, e, and_false, if_false]
      exact ⟨by simpa [Owns] using hm, by simpa using e, by simp, by simp⟩

theorem Turn.res (hf : w ≠ f) (h : Turn k f w M p (.effected op r)) : Turn k f w M (p.next k f w t (.res t op r)) .idle := by
  have hm := h.mine
  have hl := h.leaving
  have hh := h.holds
  have hne := takes_ne_gives (k := k) hf
  cases p with
  | stuck => exact absurd rfl h.stuck
  | leaving =>
    have : op = gives k f w ∧ r = .bool true := by simpa using hl
    obtain ⟨rfl, rfl⟩ := this
    simp only [Phase.next, if_true, hne.symm, false_and, if_false, and_self]
    exact ⟨by simpa [Owns] using hm, by simp, by simp, by simp⟩
  | holds =>
    have h1 : ¬ (op = takes k f w ∧ r = .bool true) := fun e => (hh rfl).2.2 (by rw [e.1, e.2])
    simp only [Phase.next, if_true, h1, reduceCtorEq, and_false, if_false]
    exact ⟨by simpa [Owns] using hm, by simp, by simp, by simp⟩
  | out =>
    by_cases e : op = takes k f w ∧ r = .bool true
    · obtain ⟨rfl, rfl⟩ := e
      simp only [Phase.next, if_true, and_self]
      exact ⟨by simpa [Owns] using hm, by simp, by simp, by simp⟩
    · simp only [Phase.next, if_true, e, reduceCtorEq, and_false, if_false]
      refine ⟨?_, by simp, by simp, by simp⟩
      rw [← hm]
      simp [Owns, e]

theorem Turn.effect (hf : w ≠ f) (h : Turn k f w M p (.called op)) (ho : op.Locks k f w)
    (hr : ∀ x, specRes op M = some x → r = x) : Turn k f w (specNext op M) p (.effected op r) := by
  have hm := h.mine
  have hl := h.leaving
  have hh := h.holds
  have hne := takes_ne_gives (k := k) hf
  rcases ho with rfl | rfl | ⟨h1, h2⟩
  · have hr' : r = .bool (decide (M k = some f)) := hr _ rfl
    cases p with
    | stuck => exact absurd rfl h.stuck
    | leaving => simp [hne] at hl
    | holds =>
      have hM : M k = some w := hm.mp (.inr (.inl rfl))
      have hMf : M k ≠ some f := by rw [hM]; simpa using hf
      rw [show specNext (takes k f w) M = M from if_neg hMf]
      refine ⟨by simpa [Owns] using hM, ?_, by simp, by simp⟩
      rw [hr', decide_eq_false hMf]
      simp [hne]
    | out =>
      have hM : M k ≠ some w := fun e => by have := hm.mpr e; simp [Owns] at this
      by_cases e : M k = some f
      · rw [show specNext (takes k f w) M = M.set k w from if_pos e, hr', decide_eq_true e]
        exact ⟨by simp [Owns, AMap.set], by simp, by simp, by simp⟩
      · rw [show specNext (takes k f w) M = M from if_neg e, hr', decide_eq_false e]
        exact ⟨by simpa [Owns] using hM, by simp, by simp, by simp⟩
  · have hr' : r = .bool (decide (M k = some w)) := hr _ rfl
    cases p with
    | stuck => exact absurd rfl h.stuck
    | holds => exact absurd rfl (hh rfl).1
    | leaving =>
      have hM : M k = some w := hm.mp (.inr (.inr ⟨rfl, rfl⟩))
      rw [show specNext (gives k f w) M = M.set k f from if_pos hM, hr', decide_eq_true hM]
      refine ⟨?_, by simp, by simp, by simp⟩
      simpa [Owns, AMap.set] using hf.symm
    | out =>
      have hM : M k ≠ some w := fun e => by have := hm.mpr e; simp [Owns] at this
      rw [show specNext (gives k f w) M = M from if_neg hM]
      exact ⟨by simpa [Owns, hne.symm] using hM, by simp, by simp, by simp⟩
  · have e1 : op ≠ takes k f w := by rintro rfl; exact h1 rfl
    have e2 : op ≠ gives k f w := by rintro rfl; exact h1 rfl
    have hk : specNext op M k = M k := specNext_of_writes h1 h2 M
    refine ⟨?_, fun e => by simp [e1, e2], fun e => ?_, h.stuck⟩
    · rw [hk, ← hm]; simp [Owns, e1, e2]
    · have := hl e; simp [e2] at this

theorem Turn.giveUp (hf : w ≠ f) (h : Turn k f w M p (.called op)) (ho : op.Locks k f w) (hng : op ≠ gives k f w)
    (hr : spurRes op M = some r) : Turn k f w M p (.effected op r) := by
  have hm := h.mine
  have hl := h.leaving
  rcases ho with rfl | rfl | ⟨h1, h2⟩
  · have hM : M k = some f ∧ r = .bool false := by
      simp only [takes, spurRes] at hr
      split at hr
      · next e => exact ⟨e, by simpa using hr.symm⟩
      · cases hr
    obtain ⟨hM, rfl⟩ := hM
    have hMw : M k ≠ some w := by rw [hM]; simpa using hf.symm
    have hno : ¬ Owns k f w p (.called (takes k f w)) := fun e => hMw (hm.mp e)
    refine ⟨⟨fun e => ?_, fun e => absurd e hMw⟩, fun e => by simp [hng], fun e => ?_, h.stuck⟩
    · rcases e with ⟨-, e⟩ | e | ⟨-, e⟩
      · simp at e
      · exact absurd (.inr (.inl e)) hno
      · cases e
    · have := hl e; simp [hng] at this
  · exact absurd rfl hng
  · have e1 : op ≠ takes k f w := by rintro rfl; exact h1 rfl
    refine ⟨?_, fun e => by simp [e1, hng], fun e => ?_, h.stuck⟩
    · rw [← hm]; simp [Owns, e1, hng]
    · have := hl e; simp [hng] at this

/-- What a lock call does to the lock, as the other threads see it. -/
theorem locks_other {w' : Word} (ho : op.Locks k f w) (hw : w' ≠ w) (hf : w' ≠ f) :
    specNext op M k = some w' ↔ M k = some w' := by
  rcases ho with rfl | rfl | ⟨h1, h2⟩
  · simp only [takes, specNext]
    split
    · next e =>
      rw [e]; simp only [AMap.set, if_true, Option.some.injEq]
      exact ⟨fun e => absurd e.symm hw, fun e => absurd e.symm hf⟩
    · rfl
  · simp only [gives, specNext]
    split
    · next e =>
      rw [e]; simp only [AMap.set, if_true, Option.some.injEq]
      exact ⟨fun e => absurd e.symm hf, fun e => absurd e.symm hw⟩
    · rfl
  · rw [specNext_of_writes h1 h2]

theorem locks_value (ho : op.Locks k f w) (h : specNext op M k ≠ M k) : specNext op M k = some f ∨ specNext op M k = some w := by
  rcases ho with rfl | rfl | ⟨h1, h2⟩
  · simp only [takes, specNext] at h ⊢
    split
    · right; simp [AMap.set]
    · next e => rw [if_neg e] at h; exact absurd rfl h
  · simp only [gives, specNext] at h ⊢
    split
    · left; simp [AMap.set]
    · next e => rw [if_neg e] at h; exact absurd rfl h
  · exact absurd (specNext_of_writes h1 h2 M) h

theorem phase_append (es : List Event) (e : Event) : phase k f own t (es ++ [e]) = (phase k f own t es).next k f (own t) t e := by
  rw [phase, List.foldl_append]; rfl

theorem next_other {t' : Nat} (h : t' ≠ t) : p.next k f w t (.inv t' op) = p ∧ p.next k f w t (.res t' op r) = p := by
  simp [Phase.next, h]

theorem WeakTo.lock {S : Nat → Prop} (hinj : ∀ t t', S t → S t' → own t = own t' → t = t') (hown : ∀ t, own t ≠ f)
    {sp : Nat → Op → Prop} {M0 : AMap} {P : Nat → CallState} {es : List Event} {fx : List (Nat × Op)}
    (h : WeakTo sp M0 M P es fx) (h0 : M0 k = some f) (hes : ∀ t op, .inv t op ∈ es → S t)
    (hfx : ∀ x ∈ fx, S x.1 ∧ x.2.Locks k f (own x.1)) (hsp : ∀ t, S t → ¬ sp t (gives k f (own t))) :
    (∀ t, S t → Turn k f (own t) M (phase k f own t es) (P t)) ∧ (∀ t, ¬ S t → P t = .idle ∧ phase k f own t es = .out) ∧
      (M k = some f ∨ ∃ t, S t ∧ M k = some (own t)) := by
  induction h with
  | nil =>
    refine ⟨fun t _ => ⟨?_, by simp [phase], by simp [phase], by simp [phase]⟩, fun t _ => ⟨rfl, rfl⟩, .inl h0⟩
    rw [h0]
    simpa [phase, Owns] using (hown t).symm
  | @inv M P es fx t op _ hp ih =>
    obtain ⟨h1, h2, h3⟩ := ih (fun t op h => hes t op (List.mem_append_left _ h)) hfx
    have hS : S t := hes t op (List.mem_append_right _ (List.mem_singleton.mpr rfl))
    refine ⟨fun t' ht' => ?_, fun t' ht' => ?_, h3⟩
    · rw [phase_append]
      by_cases e : t' = t
      · subst e
        simp only [upd, if_true]
        have := h1 t' ht'
        rw [hp] at this
        exact this.inv
      · rw [(next_other (Ne.symm e) (r := .bool true)).1]
        simp only [upd, if_neg e]
        exact h1 t' ht'
    · have e : t' ≠ t := by rintro rfl; exact ht' hS
      rw [phase_append, (next_other e.symm (r := .bool true)).1]
      simp only [upd, if_neg e]
      exact h2 t' ht'
  | @res M P es fx t op r _ hp ih =>
    obtain ⟨h1, h2, h3⟩ := ih (fun t op h => hes t op (List.mem_append_left _ h)) hfx
    have hS : S t := by
      by_contra hS
      rw [(h2 t hS).1] at hp; cases hp
    refine ⟨fun t' ht' => ?_, fun t' ht' => ?_, h3⟩
    · rw [phase_append]
      by_cases e : t' = t
      · subst e
        simp only [upd, if_true]
        have := h1 t' ht'
        rw [hp] at this
        exact this.res (hown t')
      · rw [(next_other (Ne.symm e)).2]
        simp only [upd, if_neg e]
        exact h1 t' ht'
    · have e : t' ≠ t := by rintro rfl; exact ht' hS
      rw [phase_append, (next_other e.symm).2]
      simp only [upd, if_neg e]
      exact h2 t' ht'
  | @effect M P es fx t op r _ hp hr ih =>
    obtain ⟨h1, h2, h3⟩ := ih hes (fun x hx => hfx x (List.mem_append_left _ hx))
    obtain ⟨hS, hl⟩ := hfx (t, op) (List.mem_append_right _ (List.mem_singleton.mpr rfl))
    refine ⟨fun t' ht' => ?_, fun t' ht' => ?_, ?_⟩
    · by_cases e : t' = t
      · subst e
        simp only [upd, if_true]
        have := h1 t' ht'
        rw [hp] at this
        exact this.effect (hown t') hl hr
      · simp only [upd, if_neg e]
        obtain ⟨a, b, c, d⟩ := h1 t' ht'
        refine ⟨?_, b, c, d⟩
        rw [a, locks_other hl (fun h => e (hinj t' t ht' hS h)) (hown t')]
    · have e : t' ≠ t := by rintro rfl; exact ht' hS
      simp only [upd, if_neg e]
      exact h2 t' ht'
    · by_cases e : specNext op M k = M k
      · rw [e]; exact h3
      · exact (locks_value hl e).imp_right fun h => ⟨t, hS, h⟩
  | @giveUp M P es fx t op r hs _ hp hr ih =>
    obtain ⟨h1, h2, h3⟩ := ih hes (fun x hx => hfx x (List.mem_append_left _ hx))
    obtain ⟨hS, hl⟩ := hfx (t, op) (List.mem_append_right _ (List.mem_singleton.mpr rfl))
    refine ⟨fun t' ht' => ?_, fun t' ht' => ?_, h3⟩
    · by_cases e : t' = t
      · subst e
        simp only [upd, if_true]
        have := h1 t' ht'
        rw [hp] at this
        exact this.giveUp (hown t') hl (by rintro rfl; exact hsp t' ht' hs) hr
      · simp only [upd, if_neg e]
        exact h1 t' ht'
    · have e : t' ≠ t := by rintro rfl; exact ht' hS
      simp only [upd, if_neg e]
      exact h2 t' ht'

theorem phase_unmark (es : List Event) : phase k f own t (es.map Event.unmark) = phase k f own t es := by
  rw [phase, phase, List.foldl_map]
  congr 1
  funext p e
  cases e with
  | inv t' op => rfl
  | res t' op r =>
    cases r with
    | bool b => rfl
    | word w => simp [Phase.next, Event.unmark, Res.unmark]


/-- Nobody but the thread stores its own value. -/
theorem gives_unrivalled {calls : Nat → List Op} (hinj : ∀ t t', calls t ≠ [] → calls t' ≠ [] → own t = own t' → t = t')
    (hown : ∀ t, own t ≠ f) (hl : ∀ t, ∀ op ∈ calls t, op.Locks k f (own t)) {t : Nat} (ht : calls t ≠ []) :
    ¬ Rivalled calls t (gives k f (own t)) := by
  rintro ⟨k', o, he, t', hne, op', ho, hlv⟩
  obtain ⟨rfl, rfl⟩ : k = k' ∧ own t = o := by
    have := Option.some.inj he
    exact ⟨congrArg Prod.fst this, congrArg Prod.snd this⟩
  rcases hl t' op' ho with rfl | rfl | ⟨h1, h2⟩
  · exact hne (hinj t' t (List.ne_nil_of_mem ho) ht hlv.2)
  · exact hown t hlv.2.symm
  · cases op' <;> simp only [Op.leaves] at hlv <;> try exact h1 (congrArg some hlv.1)
    rw [hlv.1] at h2
    simp [Op.isInc] at h2

/-- What holds at every moment. -/
theorem lock_start {hash : Word → Word} {len cap n : Nat} (hs : Sized len cap) {m : Mem} {M : AMap}
    (h : Reach hash len cap (fun _ => True) m M) (hn : (m.tab m.root).newT = none) (rem : Word → Bool) {ctr : Word → Prop} {U : Nat}
    (hroom : ∀ k v, ctr k → M k = some v → v.toNat + 8 * U < LIM) {calls : Nat → List Op}
    (hc : ∀ t, ∀ op ∈ calls t, op.OnW (fun k => M k ≠ none) rem ∧ op.Room ctr U) (hk : M k = some f)
    (hinj : ∀ t t', calls t ≠ [] → calls t' ≠ [] → own t = own t' → t = t') (hown : ∀ t, own t ≠ f)
    (hl : ∀ t, ∀ op ∈ calls t, op.Locks k f (own t)) (xs : List Sched)
    (hU : ((Sys.start m calls).exec hash n xs).hist.countP Event.updBegins ≤ U) :
    ∃ M' P fx, FixOK (descOf m M rem (storedBy calls)) ctr U (fun t op => op ∈ calls t) M
        ((Sys.start m calls).exec hash n xs) M' P fx ∧
      (∀ t, calls t ≠ [] → Turn k f (own t) M' (phase k f own t ((Sys.start m calls).exec hash n xs).hist) (P t)) ∧
      (∀ t, ¬ calls t ≠ [] → P t = .idle ∧ phase k f own t ((Sys.start m calls).exec hash n xs).hist = .out) ∧
      (M' k = some f ∨ ∃ t, calls t ≠ [] ∧ M' k = some (own t)) := by
  rw [← begTids_upd] at hU
  obtain ⟨M', P, fx, hf, hw⟩ := weak_start (n := n) hs h hn rem hroom hc xs hU
  have := hw.lock (S := fun t => calls t ≠ []) (k := k) (own := own) hinj hown hk (fun t op h => ?_)
    (fun x hx => ⟨List.ne_nil_of_mem (hf.fx x hx), hl _ _ (hf.fx x hx)⟩) (fun t ht => gives_unrivalled hinj hown hl ht)
  · simp only [phase_unmark] at this
    exact ⟨M', P, fx, hf, this⟩
  · rw [List.mem_map] at h
    obtain ⟨e, he, h⟩ := h
    cases e with
    | inv t' op' =>
      cases h
      exact List.ne_nil_of_mem (inv_calls hash n m calls xs he)
    | res => cases h

/-- **C58**, mutual exclusion: after every interleaving at most one thread has the lock, and no thread has failed to give back a lock
it had. -/
theorem c58_mutual_exclusion {hash : Word → Word} {len cap n : Nat} (hs : Sized len cap) {m : Mem} {M : AMap}
    (h : Reach hash len cap (fun _ => True) m M) (hn : (m.tab m.root).newT = none) (rem : Word → Bool) {ctr : Word → Prop} {U : Nat}
    (hroom : ∀ k v, ctr k → M k = some v → v.toNat + 8 * U < LIM) {calls : Nat → List Op}
    (hc : ∀ t, ∀ op ∈ calls t, op.OnW (fun k => M k ≠ none) rem ∧ op.Room ctr U) {k f : Word} (hk : M k = some f) {own : Nat → Word}
    (hinj : ∀ t t', calls t ≠ [] → calls t' ≠ [] → own t = own t' → t = t') (hown : ∀ t, own t ≠ f)
    (hl : ∀ t, ∀ op ∈ calls t, op.Locks k f (own t)) (xs : List Sched) {s : Sys} (he : s = (Sys.start m calls).exec hash n xs)
    (hU : s.hist.countP Event.updBegins ≤ U) :
    (∀ t t', phase k f own t s.hist = .holds → phase k f own t' s.hist = .holds → t = t') ∧
      ∀ t, phase k f own t s.hist ≠ .stuck := by
  subst he
  obtain ⟨M', P, fx, hf, h1, h2, -⟩ := lock_start (n := n) hs h hn rem hroom hc hk hinj hown hl xs hU
  have key : ∀ t, phase k f own t ((Sys.start m calls).exec hash n xs).hist = .holds → calls t ≠ [] ∧ M' k = some (own t) := by
    intro t ht
    by_cases hne : calls t ≠ []
    · exact ⟨hne, (h1 t hne).mine.mp (.inr (.inl ht))⟩
    · rw [(h2 t hne).2] at ht; cases ht
  refine ⟨fun t t' ht ht' => ?_, fun t ht => ?_⟩
  · obtain ⟨a, b⟩ := key t ht
    obtain ⟨a', b'⟩ := key t' ht'
    exact hinj t t' a a' (Option.some.inj (b.symm.trans b'))
  · by_cases hne : calls t ≠ []
    · exact (h1 t hne).stuck ht
    · rw [(h2 t hne).2] at ht; cases ht

/-- **C58**, the content of the lock: at every moment a look at the key shows "free" or the value of a thread; it shows the value of
the thread that has the lock; and if nobody has the lock and every call has ended, it shows "free". -/
theorem c58_never_lost {hash : Word → Word} {len cap n : Nat} (hs : Sized len cap) {m : Mem} {M : AMap}
    (h : Reach hash len cap (fun _ => True) m M) (hn : (m.tab m.root).newT = none) (rem : Word → Bool) {ctr : Word → Prop} {U : Nat}
    (hroom : ∀ k v, ctr k → M k = some v → v.toNat + 8 * U < LIM) {calls : Nat → List Op}
    (hc : ∀ t, ∀ op ∈ calls t, op.OnW (fun k => M k ≠ none) rem ∧ op.Room ctr U) {k f : Word} (hk : M k = some f) {own : Nat → Word}
    (hinj : ∀ t t', calls t ≠ [] → calls t' ≠ [] → own t = own t' → t = t') (hown : ∀ t, own t ≠ f)
    (hl : ∀ t, ∀ op ∈ calls t, op.Locks k f (own t)) (xs : List Sched) {s : Sys} (he : s = (Sys.start m calls).exec hash n xs)
    (hU : s.hist.countP Event.updBegins ≤ U) {n' : Nat} {w : Word} {m' : Mem} (hg : run (mapGet hash n' k) s.mem = .done w m') :
    (w = f ∨ ∃ t, calls t ≠ [] ∧ w = own t) ∧ (∀ t, phase k f own t s.hist = .holds → w = own t) ∧
      ((∀ t, ∃ todo, s.thr t = .idle todo) → (∀ t, phase k f own t s.hist ≠ .holds) → w = f) := by
  subst he
  obtain ⟨M', P, fx, hf, h1, h2, h3⟩ := lock_start (n := n) hs h hn rem hroom hc hk hinj hown hl xs hU
  have hkk : (descOf m M rem (storedBy calls)).has k :=
    ⟨validKey_of_user (((reach_good hs h).inv.cont k f).mp hk).1, by rw [hk]; simp⟩
  have hb := get_fix (descOf_ok (reach_good hs h) hn rem (storedBy calls)) hf.rep hkk hg
  have hsome : ∀ v, M' k = some v → w = v := fun v hv => by rw [hb, hv]; rfl
  refine ⟨h3.imp (hsome f) fun ⟨t, a, b⟩ => ⟨t, a, hsome _ b⟩, fun t ht => ?_, fun hi hno => ?_⟩
  · by_cases hne : calls t ≠ []
    · exact hsome _ ((h1 t hne).mine.mp (.inr (.inl ht)))
    · rw [(h2 t hne).2] at ht; cases ht
  · rcases h3 with h3 | ⟨t, hne, h3⟩
    · exact hsome f h3
    · exfalso
      obtain ⟨todo, hth⟩ := hi t
      have hPt : P t = .idle := by
        have := hf.thr t
        rw [hth] at this
        cases hp : P t <;> rw [hp] at this <;> first | rfl | exact this.elim
      rcases (h1 t hne).mine.mpr h3 with ⟨-, e⟩ | e | ⟨-, e⟩
      · rw [hPt] at e; cases e
      · exact hno t e
      · rw [hPt] at e; cases e

/-- Three threads that take the lock 8, write the key 16 and give the lock back. -/
def lockCalls : Nat → List Op :=
  callsOf [takes 8#64 80#64 88#64, .put 16#64 168#64, gives 8#64 80#64 88#64]
    [takes 8#64 80#64 96#64, takes 8#64 80#64 96#64, .put 16#64 176#64, gives 8#64 80#64 96#64] [.get 8#64, takes 8#64 80#64 104#64] []
/-- Each thread's own value. -/
def lockOwn (t : Nat) : Word := if t = 0 then 88#64 else if t = 1 then 96#64 else if t = 2 then 104#64 else 0#64

/-- `c58_mutual_exclusion` and `c58_never_lost` are not vacuous: the hypotheses hold for these calls, and there is an interleaving in
which first one thread has the lock, then the next, whose first attempt has failed. -/
example : Sized 8 64 ∧ (∃ m, Reach (fun x => x >>> 3) 8 64 (fun _ => True) m (specRun fixOps AMap.empty) ∧
      (m.tab m.root).newT = none ∧
      phase 8#64 80#64 lockOwn 0 ((Sys.start m lockCalls).exec (fun x => x >>> 3) 30 (steps 1 9 ++ steps 0 30)).hist = .holds ∧
      phase 8#64 80#64 lockOwn 1 ((Sys.start m lockCalls).exec (fun x => x >>> 3) 30
        (steps 1 9 ++ steps 0 30 ++ steps 1 10 ++ steps 0 60 ++ steps 1 30)).hist = .holds ∧
      phase 8#64 80#64 lockOwn 0 ((Sys.start m lockCalls).exec (fun x => x >>> 3) 30
        (steps 1 9 ++ steps 0 30 ++ steps 1 10 ++ steps 0 60 ++ steps 1 30)).hist = .out) ∧
    specRun fixOps AMap.empty 8#64 = some 80#64 ∧
    (∀ k v, False → specRun fixOps AMap.empty k = some v → v.toNat + 8 * 0 < LIM) ∧
    (∀ t t', lockCalls t ≠ [] → lockCalls t' ≠ [] → lockOwn t = lockOwn t' → t = t') ∧ (∀ t, lockOwn t ≠ 80#64) ∧
    ∀ t, ∀ op ∈ lockCalls t, (op.OnW (fun k => specRun fixOps AMap.empty k ≠ none) (fun _ => false) ∧ op.Room (fun _ => False) 0) ∧
      op.Locks 8#64 80#64 (lockOwn t) := by
  have h8 : specRun fixOps AMap.empty 8#64 ≠ none := by decide
  have h16 : specRun fixOps AMap.empty 16#64 ≠ none := by decide
  have lt : ∀ t, lockCalls t ≠ [] → t < 3 := by
    intro t ht
    by_contra hge
    refine ht ?_
    rw [lockCalls, callsOf, if_neg (by omega), if_neg (by omega), if_neg (by omega)]
    split <;> rfl
  refine ⟨⟨⟨3, by decide, rfl⟩, by decide⟩, ?_, by decide, fun _ _ h => h.elim, ?_, ?_, ?_⟩
  · have h : ((runChk (fun x => x >>> 3) 30 (fun _ => true) fixOps (freshMem 8 64)).map
      (fun m => decide ((m.tab m.root).newT = none) &&
        (decide (phase 8#64 80#64 lockOwn 0 ((Sys.start m lockCalls).exec (fun x => x >>> 3) 30 (steps 1 9 ++ steps 0 30)).hist = .holds) &&
        (decide (phase 8#64 80#64 lockOwn 1 ((Sys.start m lockCalls).exec (fun x => x >>> 3) 30
          (steps 1 9 ++ steps 0 30 ++ steps 1 10 ++ steps 0 60 ++ steps 1 30)).hist = .holds) &&
        decide (phase 8#64 80#64 lockOwn 0 ((Sys.start m lockCalls).exec (fun x => x >>> 3) 30
          (steps 1 9 ++ steps 0 30 ++ steps 1 10 ++ steps 0 60 ++ steps 1 30)).hist = .out))))) =
        some true := by decide +kernel
    rw [Option.map_eq_some_iff] at h
    obtain ⟨m, h1, h2⟩ := h
    simp only [Bool.and_eq_true, decide_eq_true_eq] at h2
    exact ⟨m, runChk_reach (fun _ _ => trivial) fixOps .init (by decide) h1, h2⟩
  · intro t t' ht ht' e
    have h1 := lt t ht
    have h2 := lt t' ht'
    have : ∀ t < 3, ∀ t' < 3, lockOwn t = lockOwn t' → t = t' := by decide
    exact this t h1 t' h2 e
  · intro t
    unfold lockOwn
    split_ifs <;> decide
  · intro t op ho
    have ht := lt t (List.ne_nil_of_mem ho)
    have hcases : t = 0 ∨ t = 1 ∨ t = 2 := by omega
    rcases hcases with rfl | rfl | rfl <;>
      simp only [lockCalls, callsOf, if_true, if_false, OfNat.ofNat_ne_zero, one_ne_zero, OfNat.ofNat_ne_one, List.mem_cons,
        List.not_mem_nil, or_false] at ho
    · rcases ho with rfl | rfl | rfl
      exacts [⟨⟨⟨h8, by decide, by decide⟩, fun h => h.elim⟩, .inl rfl⟩, ⟨⟨⟨h16, by decide⟩, fun h => h.elim⟩, .inr (.inr ⟨by decide, by decide⟩)⟩,
        ⟨⟨⟨h8, by decide, by decide⟩, fun h => h.elim⟩, .inr (.inl rfl)⟩]
    · rcases ho with rfl | rfl | rfl | rfl
      exacts [⟨⟨⟨h8, by decide, by decide⟩, fun h => h.elim⟩, .inl rfl⟩, ⟨⟨⟨h8, by decide, by decide⟩, fun h => h.elim⟩, .inl rfl⟩,
        ⟨⟨⟨h16, by decide⟩, fun h => h.elim⟩, .inr (.inr ⟨by decide, by decide⟩)⟩,
        ⟨⟨⟨h8, by decide, by decide⟩, fun h => h.elim⟩, .inr (.inl rfl)⟩]
    · rcases ho with rfl | rfl
      exacts [⟨⟨(by decide : ValidKey _), trivial⟩, .inr (.inr ⟨by decide, by decide⟩)⟩,
        ⟨⟨⟨h8, by decide, by decide⟩, fun h => h.elim⟩, .inl rfl⟩]

end PMap
