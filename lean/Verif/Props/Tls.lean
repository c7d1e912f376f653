import Verif.Pmem.Tls

/-!
# C68: the counters of the threads
-/

namespace PMap.Pmem.Tls

/-- What a thread's position says about the state.  No code of its own. -/
def PCOk (s : TSt) (t : Nat) : PC → Prop
  | .out | .idle _ | .start _ _ | .lock _ _ _ => s.lock ≠ some t
  | .size _ _ _ => s.lock = some t
  | .resize i _ => s.lock = some t ∧ s.store.length ≤ i
  | .setc i _ v => s.lock = some t ∧ v = s.store.length ∧ i < s.store.length
  | .unlock i _ => s.lock = some t ∧ i < s.store.length
  | .use i _ => s.lock ≠ some t ∧ i < s.store.length

/-- The invariant.  No code of its own. -/
structure Inv (c : Cfg) : Prop where
  nodup : c.s.queue.Nodup
  below : ∀ i ∈ c.s.queue, i < c.s.cap
  mine : ∀ t i, (c.th t).id = some i → i < c.s.cap ∧ i ∉ c.s.queue
  inj : ∀ t u i, (c.th t).id = some i → (c.th u).id = some i → t = u
  cached : c.s.isOpen = true → c.s.cached ≤ c.s.store.length
  shut : c.s.isOpen = false → ∀ t, c.th t = .out
  pcs : ∀ t, PCOk c.s t (c.th t)

theorem setPC_self {th : Nat → PC} {t : Nat} {p : PC} : setPC th t p t = p := by simp [setPC]

theorem setPC_ne {th : Nat → PC} {t u : Nat} {p : PC} (h : u ≠ t) : setPC th t p u = th u := by simp [setPC, h]

theorem bump_length (l : List Int) (i : Nat) (d : Int) : (bump l i d).length = l.length := by simp [bump]

theorem bump_sum : ∀ (l : List Int) (i : Nat) (d : Int), i < l.length → (bump l i d).sum = l.sum + d
  | [], i, d, h => by simp at h
  | x :: l, 0, d, _ => by simp [bump]; omega
  | x :: l, i + 1, d, h => by
    have := bump_sum l i d (by simpa using h)
    simp only [bump, List.modify_succ_cons, List.sum_cons] at *
    omega

theorem resized_sum {l : List Int} {n : Nat} (h : l.length ≤ n) : (resized l n).sum = l.sum := by
  unfold resized
  rw [if_neg (by omega)]
  simp

theorem resized_length {l : List Int} {n : Nat} : (resized l n).length = n := by
  unfold resized
  split
  · simp; omega
  · simp; omega

theorem fresh_nodup : freshQueue.Nodup := List.nodup_range

theorem fresh_below {i : Nat} (h : i ∈ freshQueue) : i < 1024 := by
  unfold freshQueue at h
  exact List.mem_range.1 h

attribute [local irreducible] freshQueue

theorem new_inv : Inv .new where
  nodup := fresh_nodup
  below := fun i h => fresh_below h
  mine := fun t i h => by cases h
  inj := fun t u i h => by cases h
  cached := fun _ => Nat.le_refl _
  shut := fun h => by cases h
  pcs := fun t h => by cases h

/-- A position is kept by what other threads do.  No code of its own. -/
theorem PCOk.keep {s s' : TSt} {t : Nat} {p : PC} (h : PCOk s t p) (hl : s'.lock = some t ↔ s.lock = some t)
    (hs : s.lock = some t → s'.store.length = s.store.length) (hn : s.store.length ≤ s'.store.length) : PCOk s' t p := by
  cases p <;> simp only [PCOk, ne_eq, hl] at h ⊢
  case resize => exact ⟨h.1, by rw [hs h.1]; exact h.2⟩
  case setc => exact ⟨h.1, by rw [hs h.1]; exact h.2⟩
  case unlock => exact ⟨h.1, by omega⟩
  case use => exact ⟨h.1, by omega⟩
  all_goals exact h

/-- A thread keeps its number and the others do not notice.  No code of its own. -/
theorem Inv.act {c : Cfg} (h : Inv c) {t : Nat} {s' : TSt} {p : PC} (hq : s'.queue = c.s.queue) (hcap : s'.cap = c.s.cap) (ho : s'.isOpen = c.s.isOpen)
    (hid : p.id = (c.th t).id) (hbusy : c.th t ≠ .out) (hc : c.s.isOpen = true → s'.cached ≤ s'.store.length) (hp : PCOk s' t p)
    (hl : ∀ u, u ≠ t → (s'.lock = some u ↔ c.s.lock = some u)) (hs : ∀ u, u ≠ t → c.s.lock = some u → s'.store.length = c.s.store.length)
    (hn : c.s.store.length ≤ s'.store.length) : Inv ⟨s', setPC c.th t p⟩ where
  nodup := by rw [hq]; exact h.nodup
  below := by rw [hq, hcap]; exact h.below
  mine := fun u i hi => by
    have : (c.th u).id = some i := by
      by_cases e : u = t
      · subst e
        rw [← hid]
        simpa [setPC] using hi
      · simpa [setPC, e] using hi
    rw [hq, hcap]
    exact h.mine u i this
  inj := fun u v i hu hv => by
    have key : ∀ w, (setPC c.th t p w).id = some i → (c.th w).id = some i := fun w hw => by
      by_cases e : w = t
      · subst e
        rw [← hid]
        simpa [setPC] using hw
      · simpa [setPC, e] using hw
    exact h.inj u v i (key u hu) (key v hv)
  cached := fun e => hc (by rw [← ho]; exact e)
  shut := fun e => absurd (h.shut (by rw [← ho]; exact e) t) hbusy
  pcs := fun u => by
    by_cases e : u = t
    · subst e
      simpa [setPC] using hp
    · simp only [setPC, e, if_false]
      exact (h.pcs u).keep (hl u e) (hs u e) hn

theorem step_inv {c c' : Cfg} {ds : List Int} (h : Inv c) (hs : Step c ds c') :
    Inv c' ∧ c'.s.base + c'.s.store.sum = c.s.base + c.s.store.sum + ds.sum := by
  cases hs with
  | @first t d ho ht =>
    have hlk : c.s.lock ≠ some t := by
      have := h.pcs t
      rw [ht] at this
      exact this
    refine ⟨?_, ?_⟩
    · have hq : ∀ i q, c.s.queue = i :: q → Inv ⟨{ c.s with queue := q }, setPC c.th t (.start i d)⟩ := fun i q e => by
        have hn := h.nodup
        rw [e, List.nodup_cons] at hn
        refine ⟨hn.2, fun j hj => h.below j (by rw [e]; exact List.mem_cons_of_mem _ hj), fun u j hj => ?_, fun u v j hu hv => ?_, h.cached,
          fun e' => absurd ho (by rw [e']; decide), fun u => ?_⟩
        · by_cases eu : u = t
          · subst eu
            simp only [setPC_self, PC.id, Option.some.injEq] at hj
            subst hj
            exact ⟨h.below i (by rw [e]; exact List.mem_cons_self), hn.1⟩
          · simp only [setPC_ne eu] at hj
            have := h.mine u j hj
            rw [e] at this
            exact ⟨this.1, fun hm => this.2 (List.mem_cons_of_mem _ hm)⟩
        · have key : ∀ w, w ≠ t → (setPC c.th t (.start i d) w).id = some j → j ≠ i := fun w hw hj e' => by
            simp only [setPC_ne hw] at hj
            subst e'
            exact (h.mine w j hj).2 (by rw [e]; exact List.mem_cons_self)
          by_cases eu : u = t <;> by_cases ev : v = t
          · rw [eu, ev]
          · subst eu
            simp only [setPC_self, PC.id, Option.some.injEq] at hu
            exact absurd hu.symm (key v ev hv)
          · subst ev
            simp only [setPC_self, PC.id, Option.some.injEq] at hv
            exact absurd hv.symm (key u eu hu)
          · simp only [setPC_ne eu] at hu
            simp only [setPC_ne ev] at hv
            exact h.inj u v j hu hv
        · by_cases eu : u = t
          · subst eu
            simp only [setPC_self]
            exact hlk
          · simp only [setPC_ne eu]
            exact (h.pcs u).keep Iff.rfl (fun _ => rfl) (Nat.le_refl _)
      cases e : c.s.queue with
      | cons i q =>
        rw [show getId c.s = (i, { c.s with queue := q }) by unfold getId; rw [e]]
        exact hq i q e
      | nil =>
        rw [show getId c.s = (c.s.cap, { c.s with cap := c.s.cap + 1 }) by
          unfold getId
          split
          · rfl
          · rename_i e'; rw [e] at e'; cases e']
        refine ⟨h.nodup, fun j hj => ?_, fun u j hj => ?_, fun u v j hu hv => ?_, h.cached, fun e' => absurd ho (by rw [e']; decide), fun u => ?_⟩
        · dsimp only at hj
          rw [e] at hj
          cases hj
        · dsimp only
          refine ⟨?_, by rw [e]; simp⟩
          by_cases eu : u = t
          · subst eu
            simp only [setPC_self, PC.id, Option.some.injEq] at hj
            omega
          · simp only [setPC_ne eu] at hj
            have := (h.mine u j hj).1
            omega
        · have key : ∀ w, w ≠ t → (setPC c.th t (.start c.s.cap d) w).id = some j → j ≠ c.s.cap := fun w hw hj e' => by
            simp only [setPC_ne hw] at hj
            have := (h.mine w j hj).1
            omega
          by_cases eu : u = t <;> by_cases ev : v = t
          · rw [eu, ev]
          · subst eu
            simp only [setPC_self, PC.id, Option.some.injEq] at hu
            exact absurd hu.symm (key v ev hv)
          · subst ev
            simp only [setPC_self, PC.id, Option.some.injEq] at hv
            exact absurd hv.symm (key u eu hu)
          · simp only [setPC_ne eu] at hu
            simp only [setPC_ne ev] at hv
            exact h.inj u v j hu hv
        · by_cases eu : u = t
          · subst eu
            simp only [setPC_self]
            exact hlk
          · simp only [setPC_ne eu]
            exact (h.pcs u).keep Iff.rfl (fun _ => rfl) (Nat.le_refl _)
    · unfold getId
      cases c.s.queue <;> simp
  | @call t i d ht =>
    refine ⟨h.act rfl rfl rfl (by rw [ht]; rfl) (by rw [ht]; exact fun e => by cases e) h.cached ?_ (fun _ _ => Iff.rfl) (fun _ _ _ => rfl) (Nat.le_refl _),
      by simp⟩
    have := h.pcs t
    rw [ht] at this
    exact this
  | @done t i ht =>
    have hm := h.mine t i (by rw [ht]; rfl)
    have hlk : c.s.lock ≠ some t := by
      have := h.pcs t
      rw [ht] at this
      exact this
    refine ⟨⟨List.nodup_cons.2 ⟨hm.2, h.nodup⟩, fun j hj => ?_, fun u j hj => ?_, fun u v j hu hv => ?_, h.cached, fun e => ?_, fun u => ?_⟩, by simp [release]⟩
    · rcases List.mem_cons.1 hj with rfl | hj
      · exact hm.1
      · exact h.below j hj
    · by_cases eu : u = t
      · subst eu
        simp [setPC_self, PC.id] at hj
      · simp only [setPC_ne eu] at hj
        refine ⟨(h.mine u j hj).1, fun hq => ?_⟩
        rcases List.mem_cons.1 hq with e | hq
        · subst e
          exact eu (h.inj u t j hj (by rw [ht]; rfl))
        · exact (h.mine u j hj).2 hq
    · by_cases eu : u = t
      · subst eu
        simp [setPC_self, PC.id] at hu
      · by_cases ev : v = t
        · subst ev
          simp [setPC_self, PC.id] at hv
        · dsimp only at hu hv
          simp only [setPC_ne eu] at hu
          simp only [setPC_ne ev] at hv
          exact h.inj u v j hu hv
    · have := h.shut e t
      rw [ht] at this
      cases this
    · by_cases eu : u = t
      · subst eu
        simp only [setPC_self]
        exact hlk
      · dsimp only
        simp only [setPC_ne eu]
        exact (h.pcs u).keep Iff.rfl (fun _ => rfl) (Nat.le_refl _)
  | crash v =>
    exact ⟨⟨fresh_nodup, fun i hi => fresh_below hi, fun t i hi => (by cases hi), fun t u i hi => (by cases hi), fun e => (by cases e),
      fun _ _ => rfl, fun t e => (by cases e)⟩, by simp⟩
  | restart ho =>
    refine ⟨⟨h.nodup, h.below, h.mine, h.inj, fun _ => Nat.le_refl _, fun e => (by cases e), fun t => ?_⟩, by simp [restore]⟩
    have := h.pcs t
    dsimp only
    rw [h.shut ho t] at this ⊢
    exact this
  | @act t s' p _ hb hx =>
    have ht := h.pcs t
    have hne : c.th t ≠ .out := fun e => by rw [e] at hb; cases hb
    have hop : c.s.isOpen = true := by
      by_contra e
      exact hne (h.shut (by simpa using e) t)
    cases e : c.th t with
    | out => rw [e] at hb; cases hb
    | idle => rw [e] at hb; cases hb
    | start i d =>
      rw [e] at hx ht
      unfold next at hx
      dsimp only at hx
      split at hx
      · cases hx
        exact ⟨h.act rfl rfl rfl (by rw [e]; rfl) hne h.cached ht (fun _ _ => Iff.rfl) (fun _ _ _ => rfl) (Nat.le_refl _), by simp⟩
      · cases hx
        have := h.cached hop
        exact ⟨h.act rfl rfl rfl (by rw [e]; rfl) hne h.cached ⟨ht, by omega⟩ (fun _ _ => Iff.rfl) (fun _ _ _ => rfl) (Nat.le_refl _), by simp⟩
    | lock i d k =>
      rw [e] at hx ht
      unfold next at hx
      dsimp only at hx
      split at hx
      · rename_i hfree
        cases hx
        refine ⟨h.act rfl rfl rfl (by rw [e]; rfl) hne h.cached rfl (fun u hu => ?_) (fun _ _ _ => rfl) (Nat.le_refl _), by simp⟩
        rw [hfree]
        simp [Ne.symm hu]
      · cases hx
    | size i d k =>
      rw [e] at hx ht
      unfold next at hx
      dsimp only at hx
      split at hx
      · cases hx
        exact ⟨h.act rfl rfl rfl (by rw [e]; rfl) hne h.cached ⟨ht, by assumption⟩ (fun _ _ => Iff.rfl) (fun _ _ _ => rfl) (Nat.le_refl _), by simp⟩
      · split at hx
        · cases hx
          exact ⟨h.act rfl rfl rfl (by rw [e]; rfl) hne h.cached ⟨ht, rfl, by omega⟩ (fun _ _ => Iff.rfl) (fun _ _ _ => rfl) (Nat.le_refl _), by simp⟩
        · cases hx
          exact ⟨h.act rfl rfl rfl (by rw [e]; rfl) hne h.cached ⟨ht, by omega⟩ (fun _ _ => Iff.rfl) (fun _ _ _ => rfl) (Nat.le_refl _), by simp⟩
    | resize i d =>
      rw [e] at hx ht
      unfold next at hx
      cases hx
      have hle : c.s.store.length ≤ i + 1 := by have := ht.2; omega
      have hlen : (resized c.s.store (i + 1)).length = i + 1 := resized_length
      refine ⟨h.act rfl rfl rfl (by rw [e]; rfl) hne (fun ho => ?_) ⟨ht.1, hlen.symm, by dsimp only; omega⟩ (fun _ _ => Iff.rfl) (fun u hu hl => ?_)
        (by dsimp only; omega), by simp [resized_sum hle]⟩
      · have := h.cached ho
        dsimp only
        omega
      · rw [ht.1] at hl
        exact absurd (Option.some.inj hl).symm hu
    | setc i d v =>
      rw [e] at hx ht
      unfold next at hx
      cases hx
      exact ⟨h.act rfl rfl rfl (by rw [e]; rfl) hne (fun _ => Nat.le_of_eq ht.2.1) ⟨ht.1, ht.2.2⟩ (fun _ _ => Iff.rfl) (fun _ _ _ => rfl) (Nat.le_refl _), by simp⟩
    | unlock i d =>
      rw [e] at hx ht
      unfold next at hx
      dsimp only at hx
      rw [if_pos ht.1] at hx
      cases hx
      refine ⟨h.act rfl rfl rfl (by rw [e]; rfl) hne h.cached ⟨by simp, ht.2⟩ (fun u hu => ?_) (fun _ _ _ => rfl) (Nat.le_refl _), by simp⟩
      rw [ht.1]
      simp [Ne.symm hu]
    | use i d =>
      rw [e] at hx ht
      unfold next at hx
      dsimp only at hx
      rw [if_pos ht.2] at hx
      cases hx
      refine ⟨h.act rfl rfl rfl (by rw [e]; rfl) hne (fun ho => ?_) ht.1 (fun _ _ => Iff.rfl) (fun _ _ _ => ?_) ?_, ?_⟩
      · dsimp only
        rw [bump_length]
        exact h.cached ho
      · exact bump_length _ _ _
      · exact Nat.le_of_eq (bump_length _ _ _).symm
      · dsimp only
        rw [bump_sum _ _ _ ht.2]
        simp
        omega

theorem runs_inv {c c' : Cfg} {ds : List Int} (hr : Runs c ds c') (h : Inv c) :
    Inv c' ∧ c'.s.base + c'.s.store.sum = c.s.base + c.s.store.sum + ds.sum := by
  induction hr with
  | nil => exact ⟨h, by simp⟩
  | snoc _ hs ih =>
    obtain ⟨h1, h2⟩ := step_inv ih.1 hs
    refine ⟨h1, ?_⟩
    rw [h2, ih.2, List.sum_append]
    omega

/-- The counters and the number the pool was opened with add up to all that was ever added: nothing is lost or counted twice, whichever
threads come and go and whenever the power fails. -/
theorem c68_counters {c : Cfg} {ds : List Int} (h : Runs .new ds c) : c.s.base + c.s.store.sum = ds.sum := by
  have := (runs_inv h new_inv).2
  simpa [Cfg.new, TSt.new] using this

/-- When the pool is opened again the sum is in `on_init_size`; the assertion holds if no more was taken away than added, and the counters
are empty. -/
theorem c68_restore {c : Cfg} {ds : List Int} (h : Runs .new ds c) (hd : 0 ≤ ds.sum) :
    (restore c.s).1.base = ds.sum ∧ (restore c.s).1.store = [] ∧ (restore c.s).2 = true := by
  have := c68_counters h
  refine ⟨this, rfl, ?_⟩
  simp only [restore, decide_eq_true_eq]
  omega

/-- No two threads use the same counter. -/
theorem c68_own_counter {c : Cfg} {ds : List Int} (h : Runs .new ds c) {t u i : Nat} (ht : (c.th t).id = some i) (hu : (c.th u).id = some i) : t = u :=
  (runs_inv h new_inv).1.inj t u i ht hu

/-- No access is outside the counters, and no lock is given back by a thread that does not hold it. -/
theorem c68_in_bounds {c : Cfg} {ds : List Int} (h : Runs .new ds c) {t : Nat} (hb : (c.th t).busy = true) : next t c.s (c.th t) ≠ .ub := by
  have ht := (runs_inv h new_inv).1.pcs t
  intro hx
  cases e : c.th t with
  | out => rw [e] at hb; cases hb
  | idle => rw [e] at hb; cases hb
  | unlock =>
    rw [e] at hx ht
    simp [next, ht.1] at hx
  | use =>
    rw [e] at hx ht
    simp [next, ht.2] at hx
  | start =>
    rw [e] at hx
    unfold next at hx
    dsimp only at hx
    split at hx <;> cases hx
  | lock =>
    rw [e] at hx
    unfold next at hx
    dsimp only at hx
    split at hx <;> cases hx
  | size =>
    rw [e] at hx
    unfold next at hx
    dsimp only at hx
    split at hx
    · cases hx
    · split at hx <;> cases hx
  | resize => rw [e] at hx; cases hx
  | setc => rw [e] at hx; cases hx

/-- A thread waits only for one that can go on. -/
theorem c68_no_deadlock {c : Cfg} {ds : List Int} (h : Runs .new ds c) {t : Nat} (hx : next t c.s (c.th t) = .wait) :
    ∃ u s' p es, u ≠ t ∧ (c.th u).busy = true ∧ next u c.s (c.th u) = .ok s' p es := by
  have hi := (runs_inv h new_inv).1
  have ht := hi.pcs t
  have hlock : c.s.lock ≠ none ∧ c.s.lock ≠ some t := by
    cases e : c.th t with
    | lock =>
      rw [e] at hx ht
      refine ⟨fun e' => ?_, ht⟩
      simp [next, e'] at hx
    | out => rw [e] at hx; cases hx
    | idle => rw [e] at hx; cases hx
    | resize => rw [e] at hx; cases hx
    | setc => rw [e] at hx; cases hx
    | start =>
      rw [e] at hx
      unfold next at hx
      dsimp only at hx
      split at hx <;> cases hx
    | size =>
      rw [e] at hx
      unfold next at hx
      dsimp only at hx
      split at hx
      · cases hx
      · split at hx <;> cases hx
    | unlock =>
      rw [e] at hx
      unfold next at hx
      dsimp only at hx
      split at hx <;> cases hx
    | use =>
      rw [e] at hx
      unfold next at hx
      dsimp only at hx
      split at hx <;> cases hx
  obtain ⟨u, hu⟩ := Option.ne_none_iff_exists'.1 hlock.1
  have hp := hi.pcs u
  refine ⟨u, ?_⟩
  have hne : u ≠ t := fun e => hlock.2 (by rw [hu, e])
  cases e : c.th u with
  | out => rw [e] at hp; exact absurd hu hp
  | idle => rw [e] at hp; exact absurd hu hp
  | start => rw [e] at hp; exact absurd hu hp
  | lock => rw [e] at hp; exact absurd hu hp
  | use => rw [e] at hp; exact absurd hu hp.1
  | size i d k =>
    by_cases h1 : c.s.store.length ≤ i
    · exact ⟨_, _, _, hne, rfl, by simp only [next, if_pos h1]; exact rfl⟩
    · by_cases h2 : c.s.store.length = k
      · exact ⟨_, _, _, hne, rfl, by simp only [next]; rw [if_neg h1, if_neg (not_not.2 h2)]⟩
      · exact ⟨_, _, _, hne, rfl, by simp only [next]; rw [if_neg h1, if_pos h2]⟩
  | resize => exact ⟨_, _, _, hne, rfl, rfl⟩
  | setc => exact ⟨_, _, _, hne, rfl, rfl⟩
  | unlock => exact ⟨_, _, _, hne, rfl, by simp only [next, if_pos hu]; exact rfl⟩

/-! ### How many counters there are -/

/-- At most `n` threads have a number.  No code of its own. -/
def AtMost (n : Nat) (c : Cfg) : Prop := ∀ l : List Nat, l.Nodup → (∀ t ∈ l, (c.th t).id ≠ none) → l.length ≤ n

/-- A run in which at no time more than `n` threads have a number.  No code of its own. -/
inductive RunsB (n : Nat) : Cfg → List Int → Cfg → Prop
  | nil {c : Cfg} : RunsB n c [] c
  | snoc {c c1 c2 : Cfg} {ds es : List Int} : RunsB n c ds c1 → Step c1 es c2 → AtMost n c2 → RunsB n c (ds ++ es) c2

theorem RunsB.runs {n : Nat} {c c' : Cfg} {ds : List Int} (h : RunsB n c ds c') : Runs c ds c' := by
  induction h with
  | nil => exact .nil
  | snoc _ hs _ ih => exact .snoc ih hs

/-- The numbers given out so far are those below `k`; `R` are those that were given back and `l` the threads that have one.  No code of its
own. -/
structure Few (n : Nat) (c : Cfg) (R : List Nat) (k : Nat) (l : List Nat) : Prop where
  queue : c.s.queue = R ++ List.range' k (1024 - k)
  cap : c.s.cap = max 1024 k
  nodup : l.Nodup
  has : ∀ t, t ∈ l ↔ (c.th t).id ≠ none
  count : l.length + R.length = k
  back : ∀ i ∈ R, i < k
  given : ∀ t i, (c.th t).id = some i → i < k
  most : k ≤ n
  size : c.s.store.length ≤ n

theorem fresh_eq : freshQueue = [] ++ List.range' 0 (1024 - 0) := by
  unfold freshQueue
  rw [List.range_eq_range']
  rfl

theorem new_few (n : Nat) : Few n .new [] 0 [] :=
  ⟨fresh_eq, rfl, List.nodup_nil, fun t => by simp [Cfg.new, PC.id], rfl, fun i h => (by cases h), fun t i h => (by cases h), Nat.zero_le _, Nat.zero_le _⟩

/-- A step in which a thread keeps its number.  No code of its own. -/
theorem Few.act {n : Nat} {c : Cfg} {R l : List Nat} {k : Nat} (h : Few n c R k l) {t : Nat} {s' : TSt} {p : PC} (hq : s'.queue = c.s.queue)
    (hcap : s'.cap = c.s.cap) (hid : p.id = (c.th t).id) (hs : s'.store.length ≤ n) : Few n ⟨s', setPC c.th t p⟩ R k l := by
  have key : ∀ u, (setPC c.th t p u).id = (c.th u).id := fun u => by
    by_cases e : u = t
    · subst e
      rw [setPC_self, hid]
    · rw [setPC_ne e]
  exact ⟨by rw [← h.queue]; exact hq, by rw [← h.cap]; exact hcap, h.nodup, fun u => by rw [h.has]; simp only [key], h.count, h.back,
    fun u i hi => h.given u i (by rw [← key]; exact hi), h.most, hs⟩

theorem step_few {n : Nat} {c c' : Cfg} {ds : List Int} {R l : List Nat} {k : Nat} (h : Few n c R k l) (hs : Step c ds c')
    (hn : AtMost n c') : ∃ R' k' l', Few n c' R' k' l' := by
  cases hs with
  | @first t d ho ht =>
    have htl : t ∉ l := fun hm => (h.has t).1 hm (by rw [ht]; rfl)
    have hnd : (t :: l).Nodup := List.nodup_cons.2 ⟨htl, h.nodup⟩
    have hhas : ∀ (i : Nat) (u : Nat), u ∈ t :: l ↔ (setPC c.th t (.start i d) u).id ≠ none := fun i u => by
      by_cases e : u = t
      · subst e
        simp [setPC_self, PC.id]
      · rw [setPC_ne e, ← h.has, List.mem_cons]
        simp [e]
    have hgiven : ∀ i k', i < k' → k ≤ k' → ∀ u j, (setPC c.th t (.start i d) u).id = some j → j < k' := fun i k' h1 h2 u j hj => by
      by_cases e : u = t
      · subst e
        simp only [setPC_self, PC.id, Option.some.injEq] at hj
        omega
      · rw [setPC_ne e] at hj
        have := h.given u j hj
        omega
    have hlen : (t :: l).length ≤ n := hn _ hnd fun u hu => (hhas _ u).1 hu
    have hc := h.count
    simp only [List.length_cons] at hlen
    cases hR : R with
    | cons i R' =>
      have hq : c.s.queue = i :: (R' ++ List.range' k (1024 - k)) := by rw [h.queue, hR]; rfl
      rw [show getId c.s = (i, { c.s with queue := R' ++ List.range' k (1024 - k) }) by unfold getId; rw [hq]]
      rw [hR, List.length_cons] at hc
      exact ⟨R', k, t :: l, rfl, h.cap, hnd, hhas i, by simp only [List.length_cons]; omega, fun j hj => h.back j (by rw [hR]; exact List.mem_cons_of_mem _ hj),
        hgiven i k (h.back i (by rw [hR]; exact List.mem_cons_self)) (Nat.le_refl _), h.most, h.size⟩
    | nil =>
      rw [hR] at hc
      simp only [List.length_nil] at hc
      by_cases hk : k < 1024
      · have hq : c.s.queue = k :: List.range' (k + 1) (1024 - (k + 1)) := by
          rw [h.queue, hR, show 1024 - k = (1024 - (k + 1)) + 1 by omega]
          rfl
        rw [show getId c.s = (k, { c.s with queue := List.range' (k + 1) (1024 - (k + 1)) }) by unfold getId; rw [hq]]
        exact ⟨[], k + 1, t :: l, rfl, by have := h.cap; dsimp only; omega, hnd, hhas k, by simp only [List.length_cons, List.length_nil]; omega,
          fun j hj => (by cases hj), hgiven k (k + 1) (by omega) (by omega), by omega, h.size⟩
      · have hq : c.s.queue = [] := by
          rw [h.queue, hR, show 1024 - k = 0 by omega]
          rfl
        have hcap := h.cap
        rw [show getId c.s = (c.s.cap, { c.s with cap := c.s.cap + 1 }) by
          unfold getId
          split
          · rfl
          · rename_i e'; rw [hq] at e'; cases e']
        refine ⟨[], k + 1, t :: l, ?_, by dsimp only; omega, hnd, hhas _, by simp only [List.length_cons, List.length_nil]; omega,
          fun j hj => (by cases hj), hgiven _ (k + 1) (by omega) (by omega), by omega, h.size⟩
        dsimp only
        rw [hq, show 1024 - (k + 1) = 0 by omega]
        rfl
  | @call t i d ht => exact ⟨R, k, l, h.act rfl rfl (by rw [ht]; rfl) h.size⟩
  | @done t i ht =>
    have htl : t ∈ l := (h.has t).2 (by rw [ht]; exact fun e => by cases e)
    have hc := h.count
    have hl : (l.erase t).length + 1 = l.length := by
      rw [List.length_erase_of_mem htl]
      have := List.length_pos_of_mem htl
      omega
    refine ⟨i :: R, k, l.erase t, ?_, h.cap, h.nodup.erase t, fun u => ?_, by simp only [List.length_cons]; omega, fun j hj => ?_, fun u j hj => ?_, h.most, h.size⟩
    · simp only [release, h.queue, List.cons_append]
    · rw [h.nodup.mem_erase_iff, h.has]
      by_cases e : u = t
      · subst e
        simp [setPC_self, PC.id]
      · simp only [setPC_ne e]
        simp [e]
    · rcases List.mem_cons.1 hj with rfl | hj
      · exact h.given t j (by rw [ht]; rfl)
      · exact h.back j hj
    · by_cases e : u = t
      · subst e
        simp [setPC_self, PC.id] at hj
      · simp only [setPC_ne e] at hj
        exact h.given u j hj
  | crash v =>
    exact ⟨[], 0, [], fresh_eq, rfl, List.nodup_nil, fun t => by simp [PC.id], rfl, fun i h => (by cases h), fun t i h => (by cases h), Nat.zero_le _, h.size⟩
  | restart ho =>
    exact ⟨R, k, l, h.queue, h.cap, h.nodup, h.has, h.count, h.back, h.given, h.most, Nat.zero_le _⟩
  | @act t s' p _ hb hx =>
    refine ⟨R, k, l, ?_⟩
    cases e : c.th t with
    | out => rw [e] at hb; cases hb
    | idle => rw [e] at hb; cases hb
    | start i d =>
      rw [e] at hx
      unfold next at hx
      dsimp only at hx
      split at hx <;> (cases hx; exact h.act rfl rfl (by rw [e]; rfl) h.size)
    | lock i d c =>
      rw [e] at hx
      unfold next at hx
      dsimp only at hx
      split at hx
      · cases hx
        exact h.act rfl rfl (by rw [e]; rfl) h.size
      · cases hx
    | size i d c =>
      rw [e] at hx
      unfold next at hx
      dsimp only at hx
      split at hx
      · cases hx
        exact h.act rfl rfl (by rw [e]; rfl) h.size
      · split at hx <;> (cases hx; exact h.act rfl rfl (by rw [e]; rfl) h.size)
    | resize i d =>
      rw [e] at hx
      unfold next at hx
      cases hx
      refine h.act rfl rfl (by rw [e]; rfl) ?_
      have h1 := h.given t i (by rw [e]; rfl)
      have h2 := h.most
      dsimp only
      rw [resized_length]
      omega
    | setc i d v =>
      rw [e] at hx
      unfold next at hx
      cases hx
      exact h.act rfl rfl (by rw [e]; rfl) h.size
    | unlock i d =>
      rw [e] at hx
      unfold next at hx
      dsimp only at hx
      split at hx
      · cases hx
        exact h.act rfl rfl (by rw [e]; rfl) h.size
      · cases hx
    | use i d =>
      rw [e] at hx
      unfold next at hx
      dsimp only at hx
      split at hx
      · cases hx
        refine h.act rfl rfl (by rw [e]; rfl) ?_
        dsimp only
        rw [bump_length]
        exact h.size
      · cases hx

/-- There are no more counters than there were ever threads at a time, and the numbers of threads are below that too (the comment at
ets:59-64). -/
theorem c68_few_counters {n : Nat} {c : Cfg} {ds : List Int} (h : RunsB n .new ds c) :
    c.s.store.length ≤ n ∧ ∀ t i, (c.th t).id = some i → i < n := by
  have key : ∀ {c0 c : Cfg} {ds : List Int}, RunsB n c0 ds c → c0 = .new → Inv c ∧ ∃ R k l, Few n c R k l := by
    intro c0 c ds h
    induction h with
    | nil =>
      rintro rfl
      exact ⟨new_inv, _, _, _, new_few n⟩
    | snoc _ hs hm ih =>
      intro e
      obtain ⟨h1, R, k, l, h2⟩ := ih e
      exact ⟨(step_inv h1 hs).1, step_few h2 hs hm⟩
  obtain ⟨_, R, k, l, hf⟩ := key h rfl
  exact ⟨hf.size, fun t i hi => Nat.lt_of_lt_of_le (hf.given t i hi) hf.most⟩

/-! ### A run -/

/-- What a schedule says.  No code of its own. -/
inductive Do where
  | first (t : Nat) (d : Int)
  | call (t : Nat) (d : Int)
  | act (t : Nat)
  | done (t : Nat)
  | crash (v : Nat)
  | restart

/-- One line of a schedule.  No code of its own. -/
def Do.go (c : Cfg) : Do → Option (List Int × Cfg)
  | .first t d => match c.s.isOpen, c.th t with
    | true, .out => some ([], ⟨(getId c.s).2, setPC c.th t (.start (getId c.s).1 d)⟩)
    | _, _ => none
  | .call t d => match c.th t with
    | .idle i => some ([], ⟨c.s, setPC c.th t (.start i d)⟩)
    | _ => none
  | .act t => match (c.th t).busy, next t c.s (c.th t) with
    | true, .ok s' p ds => some (ds, ⟨s', setPC c.th t p⟩)
    | _, _ => none
  | .done t => match c.th t with
    | .idle i => some ([], ⟨release c.s i, setPC c.th t .out⟩)
    | _ => none
  | .crash v => some ([], ⟨{ c.s with cap := 1024, queue := freshQueue, cached := v, lock := none, isOpen := false }, fun _ => .out⟩)
  | .restart => match c.s.isOpen with
    | false => some ([], ⟨(restore c.s).1, c.th⟩)
    | true => none

/-- A schedule, from some moment on.  No code of its own. -/
def sched : List Do → Cfg → List Int → Option (List Int × Cfg)
  | [], c, ds => some (ds, c)
  | x :: xs, c, ds => match x.go c with
    | none => none
    | some (es, c') => sched xs c' (ds ++ es)

theorem go_step {x : Do} {c c' : Cfg} {es : List Int} (h : x.go c = some (es, c')) : Step c es c' := by
  cases x with
  | first t d =>
    simp only [Do.go] at h
    split at h
    · cases h
      exact .first d (by assumption) (by assumption)
    · cases h
  | call t d =>
    simp only [Do.go] at h
    split at h
    · cases h
      exact .call d (by assumption)
    · cases h
  | act t =>
    simp only [Do.go] at h
    split at h
    · cases h
      exact .act (by assumption) (by assumption)
    · cases h
  | done t =>
    simp only [Do.go] at h
    split at h
    · cases h
      exact .done (by assumption)
    · cases h
  | crash v =>
    cases h
    exact .crash v
  | restart =>
    simp only [Do.go] at h
    split at h
    · cases h
      exact .restart (by assumption)
    · cases h

theorem sched_runs : ∀ {xs : List Do} {c0 c c' : Cfg} {ds ds' : List Int}, Runs c0 ds c → sched xs c ds = some (ds', c') → Runs c0 ds' c'
  | [], _, _, _, _, _, hr, h => by
    cases h
    exact hr
  | x :: xs, _, _, _, _, _, hr, h => by
    unfold sched at h
    split at h
    · cases h
    · rename_i es c1 e
      exact sched_runs (hr.snoc (go_step e)) h

/-- Two threads make their counters at the same time; the first ends and a third gets its number; the power fails, and again while the pool is
being opened. -/
def demo : List Do :=
  [.first 7 1, .first 9 1, .act 7, .act 9, .act 9, .act 9, .act 9, .act 9, .act 9, .act 9, .act 7, .act 7, .act 7, .act 7, .act 7, .done 7, .first 8 1, .act 8, .act 8,
    .call 9 (-1), .act 9, .act 9]

theorem demo_runs : ∃ c, Runs .new [1, 1, 1, -1] c ∧ c.s.store = [2, 0] ∧ c.s.cached = 2 ∧ (c.th 8).id = some 0 := by
  have h : (sched demo .new []).map (fun r => (r.1, r.2.s.store, r.2.s.cached, (r.2.th 8).id)) = some ([1, 1, 1, -1], [2, 0], 2, some 0) := by decide +kernel
  rw [Option.map_eq_some_iff] at h
  obtain ⟨⟨ds, c⟩, h1, h2⟩ := h
  simp only [Prod.mk.injEq] at h2
  obtain ⟨rfl, h2, h3, h4⟩ := h2
  exact ⟨c, sched_runs .nil h1, h2, h3, h4⟩

/-- After it and two failures the table starts with two nodes. -/
example : ∃ c, Runs .new [1, 1, 1, -1] c ∧ c.s.base = 2 ∧ c.s.store = [] := by
  have h : (sched (demo ++ [.crash 77, .crash 5, .restart]) .new []).map (fun r => (r.1, r.2.s.base, r.2.s.store)) = some ([1, 1, 1, -1], 2, []) := by
    decide +kernel
  rw [Option.map_eq_some_iff] at h
  obtain ⟨⟨ds, c⟩, h1, h2⟩ := h
  simp only [Prod.mk.injEq] at h2
  obtain ⟨rfl, h2, h3⟩ := h2
  exact ⟨c, sched_runs .nil h1, h2, h3⟩

/-- A thread that waits. -/
example : ∃ c ds, Runs .new ds c ∧ next 7 c.s (c.th 7) = .wait := by
  have h : (sched (demo.take 5) .new []).map (fun r => match next 7 r.2.s (r.2.th 7) with
    | .wait => true
    | _ => false) = some true := by decide +kernel
  rw [Option.map_eq_some_iff] at h
  obtain ⟨⟨ds, c⟩, h1, h2⟩ := h
  refine ⟨c, ds, sched_runs .nil h1, ?_⟩
  dsimp only at h2
  split at h2
  · assumption
  · cases h2

/-- A run with at most one thread at a time. -/
example : ∃ c, RunsB 1 .new ([] ++ []) c ∧ (c.th 3).id = some 0 := by
  refine ⟨_, .snoc .nil (.first (t := 3) 1 rfl rfl) fun l hl hm => ?_, ?_⟩
  · match l, hl, hm with
    | [], _, _ => simp
    | [_], _, _ => simp
    | a :: b :: l, hl, hm =>
      have key : ∀ x ∈ a :: b :: l, x = 3 := fun x hx => by
        by_contra hne
        have := hm x hx
        simp [setPC_ne hne, Cfg.new, PC.id] at this
      have h1 := key a (by simp)
      have h2 := key b (by simp)
      rw [h1, h2] at hl
      simp at hl
  · decide +kernel

end PMap.Pmem.Tls
