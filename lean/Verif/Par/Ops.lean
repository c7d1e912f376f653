import Verif.Par.Map
import Verif.Seq.Ops
import Verif.Reopen

/-!
# The public calls under interference, and whole systems (proof machinery)
-/

namespace PMap

open Prog

variable {A : Word → Word → Prop} {m : Mem} {hash : Word → Word} {M : Prop}

/-- The call asks for `v` to be stored under `k`.  A counter update asks for its argument, or for one more than some
counter (hashMap.hpp:532-546, 932-944). -/
def Op.Asks (op : Op) (k v : Word) : Prop :=
  match op with
  | .put k' v' | .putIfAbsent k' v' | .replace k' _ v' | .putIfMatch k' v' _ => k = k' ∧ v = v'
  | .update k' v' => k = k' ∧ (v = v' ∨ ∃ c : Word, v = (c + 1#64) <<< 3)
  | _ => False

/-- What a call may report, given what has been asked for. -/
def OpRes (A : Word → Word → Prop) : Op → Res → Prop
  | .get k, r => ∃ w, r = .word w ∧ GetOK A k w
  | .containsKey k, r => r = .bool true → ∃ v, A k v
  | .put k _, r | .putIfAbsent k _, r | .putIfMatch k _ _, r | .update k _, r => ∃ w, r = .word w ∧ PutRes A k w
  | _, _ => True

theorem asks_valid {op : Op} (h : op.Valid) {k v : Word} (ha : op.Asks k v) :
    (clean v = v ∧ isMig v = false) ∧ (clean k = k ∧ k ≠ KINITIAL ∧ k ≠ KTOMBSTONE) := by
  have hk : ∀ {k}, ValidKey k → clean k = k ∧ k ≠ KINITIAL ∧ k ≠ KTOMBSTONE := fun h => by
    have := userKey_of_valid h; exact ⟨this.clean, this.ne_init, this.ne_tomb⟩
  have hv : ∀ {v}, ValidVal v → clean v = v ∧ isMig v = false := fun h => ⟨clean_of_not_dirty h.1, h.2.1⟩
  cases op with
  | put k' v' => obtain ⟨rfl, rfl⟩ := ha; exact ⟨hv h.2, hk h.1⟩
  | putIfAbsent k' v' => obtain ⟨rfl, rfl⟩ := ha; exact ⟨hv h.2, hk h.1⟩
  | replace k' o v' => obtain ⟨rfl, rfl⟩ := ha; exact ⟨hv h.2.2, hk h.1⟩
  | putIfMatch k' v' o => obtain ⟨rfl, rfl⟩ := ha; exact ⟨hv h.2.1, hk h.1⟩
  | update k' v' =>
    obtain ⟨rfl, rfl | ⟨c, rfl⟩⟩ := ha
    · refine ⟨?_, hk h.1⟩
      rcases h.2 with h | rfl
      · exact hv h
      · decide
    · exact ⟨⟨clean_shl _, isMig_shl _⟩, hk h.1⟩
  | get _ => exact ha.elim
  | containsKey _ => exact ha.elim
  | remove _ => exact ha.elim
  | removeIf _ _ => exact ha.elim
  | size => exact ha.elim
  | isEmpty => exact ha.elim

/-- Every call keeps to the protocol. -/
theorem p_opM (hA : AskedOK A) (n : Nat) {op : Op} (hv : op.Valid) (ha : ∀ k v, op.Asks k v → A k v) (hm : PInv A m) :
    wp (pRG A M) (fun r _ => OpRes A op r) (op.prog hash n) m := by
  have hk : ∀ {k}, ValidKey k → clean k = k ∧ k ≠ KINITIAL := fun h => by
    have := userKey_of_valid h; exact ⟨this.clean, this.ne_init⟩
  have hn : ∀ {k v}, ValidVal v → A k v → NewOK A k v := fun h h' =>
    ⟨h.2.1, .inr (by rw [clean_of_not_dirty h.1]; exact h')⟩
  have ht : ∀ {k}, NewOK A k VTOMBSTONE := ⟨by decide, .inl clean_VT⟩
  have hno : CasFn.casValue = .increment → ∀ (k V : Word), A k (incremented V) := fun h => by cases h
  have ho : ∀ {o}, ValidVal o → isMig o = false ∧ o ≠ VINITIAL := fun h =>
    ⟨h.2.1, fun e => by have := h; rw [e] at this; exact absurd this (by decide)⟩
  have hnv : ∀ {v}, ValidVal v → v ≠ VINITIAL := fun h => (ho h).2
  have hno2 : isMig NO_MATCH_OLD = false ∧ NO_MATCH_OLD ≠ VINITIAL := by decide
  cases op with
  | get k =>
    exact wp_bind' (wp_mono (p_mapGet hA hash n hm k) fun w _ h => wp_pure ⟨w, rfl, h.2⟩)
  | containsKey k =>
    refine wp_bind' (wp_bind' (wp_mono (p_mapGet hA hash n hm k) fun w _ h => wp_pure (wp_pure ?_)))
    intro e
    rcases h.2 with h | h
    · rw [h] at e; exact absurd e (by decide)
    · exact ⟨w, h⟩
  | put k v =>
    exact wp_bind' (wp_mono (p_mapPutIfMatch hA hash n _ hm hno2 (hk hv.1).1 (hk hv.1).2 (hn hv.2 (ha k v ⟨rfl, rfl⟩))
      (fun h => hno h k) (hnv hv.2)) fun w _ h => wp_pure ⟨w, rfl, h.2⟩)
  | putIfAbsent k v =>
    exact wp_bind' (wp_mono (p_mapPutIfMatch hA hash n _ hm (by decide) (hk hv.1).1 (hk hv.1).2 (hn hv.2 (ha k v ⟨rfl, rfl⟩))
      (fun h => hno h k) (hnv hv.2)) fun w _ h => wp_pure ⟨w, rfl, h.2⟩)
  | putIfMatch k v o =>
    have hov : isMig o = false ∧ o ≠ VINITIAL := by
      rcases hv.2.2 with h | rfl | rfl | rfl
      · exact ho h
      all_goals decide
    exact wp_bind' (wp_mono (p_mapPutIfMatch hA hash n _ hm hov (hk hv.1).1 (hk hv.1).2 (hn hv.2.1 (ha k v ⟨rfl, rfl⟩))
      (fun h => hno h k) (hnv hv.2.1)) fun w _ h => wp_pure ⟨w, rfl, h.2⟩)
  | replace k o v =>
    exact wp_bind' (wp_bind' (wp_mono (p_mapPutIfMatch hA hash n _ hm (ho hv.2.1) (hk hv.1).1 (hk hv.1).2
      (hn hv.2.2 (ha k v ⟨rfl, rfl⟩)) (fun h => hno h k) (hnv hv.2.2)) fun w _ h => wp_pure (wp_pure trivial)))
  | remove k =>
    exact wp_bind' (wp_bind' (wp_mono (p_mapPutIfMatch hA hash n _ hm hno2 (hk hv).1 (hk hv).2 ht
      (fun h => hno h k) (by decide)) fun w _ h => wp_pure (wp_pure trivial)))
  | removeIf k v =>
    exact wp_bind' (wp_bind' (wp_mono (p_mapPutIfMatch hA hash n _ hm (ho hv.2) (hk hv.1).1 (hk hv.1).2 ht
      (fun h => hno h k) (by decide)) fun w _ h => wp_pure (wp_pure trivial)))
  | update k v =>
    have hinc : ∀ V, A k (incremented V) := fun V => ha k _ ⟨rfl, .inr ⟨_, rfl⟩⟩
    have hnew : NewOK A k v := by
      have := asks_valid (op := .update k v) hv (k := k) (v := v) ⟨rfl, .inl rfl⟩
      exact ⟨this.1.2, .inr (by rw [this.1.1]; exact ha k v ⟨rfl, .inl rfl⟩)⟩
    exact wp_bind' (wp_mono (p_mapPutIfMatch hA hash n _ hm hno2 (hk hv.1).1 (hk hv.1).2 hnew (fun _ => hinc) (by
        rcases hv.2 with h | h
        · exact hnv h
        · rw [h]; decide))
      fun w _ h => wp_pure ⟨w, rfl, h.2⟩)
  | size =>
    refine wp_bind' (p_bind (p_getRoot hm) fun r m1 g1 hr => ?_)
    exact wp_mono (p_getSize g1.inv hr) fun _ _ _ => wp_pure trivial
  | isEmpty =>
    refine wp_bind' (wp_bind' (p_bind (p_getRoot hm) fun r m1 g1 hr => ?_))
    exact wp_mono (p_getSize g1.inv hr) fun _ _ _ => wp_pure (wp_pure trivial)

theorem p_op (hA : AskedOK A) (n : Nat) {op : Op} (hv : op.Valid) (ha : ∀ k v, op.Asks k v → A k v) (hm : PInv A m) :
    wp (pRG A True) (fun r _ => OpRes A op r) (op.prog hash n) m := p_opM hA n hv ha hm

theorem p_evict : EvictOK (pRG A M) := fun _ t i h =>
  ⟨(set_nv h t i h).1, set_nv h t i, .inl rfl⟩

/-- What the calls made so far have asked for. -/
def askedIn (H : List Event) (k v : Word) : Prop := ∃ t op, .inv t op ∈ H ∧ op.Asks k v

/-- All calls made are valid ones. -/
def AllValid (H : List Event) : Prop := ∀ t op, .inv t op ∈ H → op.Valid

theorem asked_ok {H : List Event} (h : AllValid H) : AskedOK (askedIn H) :=
  ⟨fun _ _ ⟨t, op, h1, h2⟩ => (asks_valid (h t op h1) h2).1, fun _ _ ⟨t, op, h1, h2⟩ => (asks_valid (h t op h1) h2).2⟩

/-- The calls a thread has still to make. -/
def Thread.todo : Thread → List Op
  | .idle todo => todo
  | .busy _ _ todo => todo

/-- Every event of a call made comes from the thread's list. -/
theorem inv_calls (hash : Word → Word) (n : Nat) (m : Mem) (calls : Nat → List Op) (xs : List Sched) {t : Nat} {op : Op}
    (h : .inv t op ∈ ((Sys.start m calls).exec hash n xs).hist) : op ∈ calls t := by
  have key : ∀ (xs : List Sched) (s : Sys), (∀ t op, .inv t op ∈ s.hist → op ∈ calls t) →
      (∀ t, (s.thr t).todo ⊆ calls t) →
      ∀ t op, .inv t op ∈ (s.exec hash n xs).hist → op ∈ calls t := by
    intro xs
    induction xs with
    | nil => intro s h1 _; exact h1
    | cons x xs ih =>
      intro s h1 h2
      refine ih (s.step hash n x) ?_ ?_
      · cases x with
        | evict t i => exact h1
        | run tid =>
          have h2t := h2 tid
          intro t op h
          rw [Sys.step] at h
          split at h
          · exact h1 t op h
          · next hs =>
            rw [hs] at h2t
            rcases List.mem_append.mp h with h | h
            · exact h1 t op h
            · simp only [List.mem_cons, Event.inv.injEq, List.not_mem_nil, or_false] at h
              obtain ⟨rfl, rfl⟩ := h
              exact h2t (List.mem_cons_self ..)
          · exact h1 t op h
          · exact h1 t op h
          · rcases List.mem_append.mp h with h | h
            · exact h1 t op h
            · simp at h
          · split at h <;> exact h1 t op h
      · cases x with
        | evict t i => exact h2
        | run tid =>
          have h2t := h2 tid
          intro t
          by_cases e : t = tid
          · subst e
            rw [Sys.step]
            split
            · exact h2 t
            · next hs =>
              rw [hs] at h2t
              simp only [upd, if_true]
              exact fun o ho => h2t (List.mem_cons_of_mem _ ho)
            · exact h2 t
            · exact h2 t
            · next hs =>
              rw [hs] at h2t
              simp only [upd, if_true]; exact h2t
            · next hs =>
              rw [hs] at h2t
              split
              · exact h2 t
              · simp only [upd, if_true]; exact h2t
          · have : (s.step hash n (.run tid)).thr t = s.thr t := by
              rw [Sys.step]
              split
              · rfl
              · simp only [upd, if_neg e]
              · rfl
              · rfl
              · simp only [upd, if_neg e]
              · split
                · rfl
                · simp only [upd, if_neg e]
            rw [this]; exact h2 t
  exact key xs (Sys.start m calls) (fun t op h => by simp [Sys.start] at h) (fun t => fun o ho => ho) t op h

/-- The whole system keeps to the protocol, whatever the requests `A` are, as long as they cover the calls made. -/
theorem sys_okM (hA : AskedOK A) (hash : Word → Word) (n : Nat) {s : Sys}
    (h : SysOK (pRG A M) (OpRes A) s)
    (xs : List Sched) (hv : ∀ t op, .inv t op ∈ (s.exec hash n xs).hist → op.Valid ∧ ∀ k v, op.Asks k v → A k v) :
    SysOK (pRG A M) (OpRes A) (s.exec hash n xs) ∧ Env A s.mem (s.exec hash n xs).mem :=
  SysOK.exec (Ok := fun op => op.Valid ∧ ∀ k v, op.Asks k v → A k v) h p_evict
    (fun _ _ ho hm => p_opM hA n ho.1 ho.2 hm) xs hv

theorem sys_ok (hA : AskedOK A) (hash : Word → Word) (n : Nat) {s : Sys} (h : SysOK (pRG A True) (OpRes A) s)
    (xs : List Sched) (hv : ∀ t op, .inv t op ∈ (s.exec hash n xs).hist → op.Valid ∧ ∀ k v, op.Asks k v → A k v) :
    SysOK (pRG A True) (OpRes A) (s.exec hash n xs) ∧ Env A s.mem (s.exec hash n xs).mem :=
  sys_okM hA hash n h xs hv

theorem start_ok (hm : PInv A m) (calls : Nat → List Op) : SysOK (pRG A M) (OpRes A) (Sys.start m calls) :=
  ⟨hm, rfl, fun _ => trivial, fun t op r h => by simp [Sys.start] at h⟩

theorem PInv_fresh {len cap : Nat} (hs : Sized len cap) : PInv A (freshMem len cap) where
  root := Nat.one_pos
  pow := fun _ _ => hs.pow
  cap := hs.cap
  newT := fun t n _ h => by simp [freshMem, freshTab] at h
  pair := fun t i h => by
    have : t = 0 := by have := h.1; simp only [freshMem] at this; omega
    subst this
    simp only [pk, pv, freshMem, freshWords, if_true, clean_dirty, clean_VI]
    exact ⟨fun _ => rfl, .init⟩
  mig := fun t i h h1 => by
    have : t = 0 := by have := h.1; simp only [freshMem] at this; omega
    subst this
    simp only [pv, freshMem, freshWords, if_true, clean_dirty, clean_VI] at h1
    exact absurd h1 (by decide)
  durable := fun t i h => by
    have : t = 0 := by have := h.1; simp only [freshMem] at this; omega
    subst this
    simp only [freshMem, freshWords, if_true, clean_dirty, clean_VI]
    exact ⟨fun _ => rfl, .init⟩
  dmig := fun t i h h1 => by
    have : t = 0 := by have := h.1; simp only [freshMem] at this; omega
    subst this
    simp only [freshMem, freshWords, if_true, isMig_dirty] at h1
    exact absurd h1 (by decide)

/-- From the creation of the map to any point of any execution. -/
theorem init_ok {len cap : Nat} (hs : Sized len cap) (hash : Word → Word) (n : Nat) (calls : Nat → List Op)
    (hv : ∀ t, ∀ op ∈ calls t, op.Valid) (xs : List Sched) (hA : ∀ k v, askedIn ((Sys.init len cap calls).exec hash n xs).hist k v → A k v)
    (hAok : AskedOK A) : SysOK (pRG A True) (OpRes A) ((Sys.init len cap calls).exec hash n xs) :=
  (sys_ok hAok hash n (start_ok (PInv_fresh hs) calls) xs fun t op h =>
    ⟨hv t op (inv_calls hash n _ calls xs h), fun k v ha => hA k v ⟨t, op, h, ha⟩⟩).1

theorem init_valid {len cap : Nat} (hash : Word → Word) (n : Nat) (calls : Nat → List Op)
    (hv : ∀ t, ∀ op ∈ calls t, op.Valid) (xs : List Sched) : AllValid ((Sys.init len cap calls).exec hash n xs).hist :=
  fun t op h => hv t op (inv_calls hash n _ calls xs h)

/-! ## Running alone -/

theorem wp_run {G : RG} {α : Type} {Q : α → Mem → Prop} {p : Prog α} {m m' : Mem} {a : α} (h : wp G Q p m)
    (hm : G.inv m) (hr : run p m = .done a m') : Q a m' ∧ G.inv m' := by
  induction p generalizing m with
  | ret b => cases hr; exact ⟨h, hm⟩
  | halt x => cases hr
  | act b k ih =>
    rw [wp] at h
    obtain ⟨r, m2, e, h1, _, _, h2⟩ := h m (G.refl m) hm
    rw [run, e] at hr
    exact ih r h2 h1 hr

/-! ## Opening a file -/

theorem p_scanFix (hm : PInv A m) {i : Nat} (hx : Has m 0 i) {K V : Word} (hK : K ≠ KINITIAL → KeyAt m 0 i K) :
    wp (pRG A True) (fun _ m' => Go A m m' ∧ True) (scanFix i K V) m := by
  unfold scanFix
  split
  · next h =>
    refine wp_bind' (wp_bind' (wp_mono (p_casVal (n := VTOMBSTONE) (o := VINITIAL) hm (hK h.1) (.inr (.inl clean_VT))
      (fun e => absurd e (by decide)) (fun e => absurd e (by decide)) (fun e => absurd e (by decide))) ?_))
    rintro r m1 ⟨g1, _⟩
    refine wp_pure (p_bind (p_tableValue g1.inv (g1.has hx)) fun V m2 g2 _ => ?_)
    exact p_bind (p_check g2.inv (.inr trivial)) fun _ m3 g3 _ => wp_pure ⟨(g1.trans g2).trans g3, trivial⟩
  · exact wp_pure ⟨.refl hm, trivial⟩

theorem p_scanSlot (hm : PInv A m) {i : Nat} (hx : Has m 0 i) :
    wp (pRG A True) (fun _ m' => Go A m m' ∧ True) (scanSlot i) m := by
  unfold scanSlot
  refine p_bind (p_tableValue hm hx) fun V m1 g1 _ => ?_
  refine p_bind (p_tableKey g1.inv (g1.has hx)) fun K m2 g2 hK => ?_
  have g12 := g1.trans g2
  refine p_bind (p_scanFix g2.inv (g12.has hx) hK) fun V' m3 g3 _ => ?_
  have g13 := g12.trans g3
  split
  · exact wp_mono (p_addSize g3.inv (g13.lt hx.1) _) fun _ _ h => ⟨g13.trans h.1, trivial⟩
  · split
    · exact wp_mono (p_incSlots g3.inv (g13.lt hx.1)) fun _ _ h => ⟨g13.trans h.1, trivial⟩
    · exact wp_pure ⟨g13, trivial⟩

theorem p_scan (todo : Nat) : ∀ i m, PInv A m → 0 < m.next → i + todo ≤ (m.tab 0).len →
    wp (pRG A True) (fun _ m' => Go A m m' ∧ True) (scan todo i) m := by
  induction todo with
  | zero => intro i m hm _ _; exact wp_pure ⟨.refl hm, trivial⟩
  | succ k ih =>
    intro i m hm h0 hl
    refine p_bind (p_scanSlot hm ⟨h0, by omega⟩) fun _ m1 g1 _ => ?_
    exact wp_mono (ih (i + 1) m1 g1.inv (g1.lt h0) (by rw [g1.evo.len 0 h0]; omega)) fun _ _ h => ⟨g1.trans h.1, trivial⟩

theorem PInv_reopen {f : File} {cap : Nat} (hp : ∃ p, p ≤ 32 ∧ f.len = 2 ^ p) (hc : cap ≤ 2 ^ 32)
    (hpair : ∀ i, i < f.len → PairOK A (clean (f.pair i).1) (clean (f.pair i).2))
    (hmig : ∀ i, i < f.len → isMig (f.pair i).2 = false) : PInv A (reopenMem f cap) := by
  have h0 : ∀ {t i}, Has (reopenMem f cap) t i → t = 0 := fun h => by
    have := h.1; simp only [reopenMem] at this; omega
  refine ⟨Nat.one_pos, fun _ _ => hp, hc, fun t n _ h => by simp [reopenMem, freshTab] at h, ?_, ?_, ?_, ?_⟩
  · intro t i h; cases h0 h; exact hpair i h.2
  · intro t i h h1; cases h0 h; rw [pv, isMig_clean] at h1
    have := hmig i h.2; rw [show (reopenMem f cap).word (.val 0 i) = (f.pair i).2 from rfl, this] at h1; cases h1
  · intro t i h; cases h0 h; exact hpair i h.2
  · intro t i h h1; cases h0 h
    have := hmig i h.2; rw [show (reopenMem f cap).nv (.val 0 i) = (f.pair i).2 from rfl, this] at h1; cases h1

theorem openFile_PInv {f : File} {cap : Nat} (hp : ∃ p, p ≤ 32 ∧ f.len = 2 ^ p) (hc : cap ≤ 2 ^ 32)
    (hpair : ∀ i, i < f.len → PairOK A (clean (f.pair i).1) (clean (f.pair i).2))
    (hmig : ∀ i, i < f.len → isMig (f.pair i).2 = false) {m : Mem} (h : openFile f cap = .done () m) : PInv A m :=
  (wp_run (p_scan f.len 0 _ (PInv_reopen hp hc hpair hmig) Nat.one_pos (by simp [reopenMem, freshTab])) (PInv_reopen hp hc hpair hmig) h).2

end PMap
