import Verif.Durable.Crash
import Verif.Props.Conc

/-!
# What remains of C22 and C23

Both are false of the code (`c22_put_lost`, `c23_read_lost`).  The only thing that breaks C23 before the first growth is the
A-B-A of `c23_read_lost`: where no word returns to an earlier value, or only one thread runs, what has been read survives.
-/

namespace PMap

open Prog

variable {hash : Word → Word} {n len cap : Nat}

theorem durable_fresh (a : Addr) : Durable (freshMem len cap) a := by
  intro h
  cases a with
  | key t i =>
    simp only [freshMem, freshWords] at h ⊢
    split at h
    · exact absurd h (by decide)
    · next e => rw [if_neg e]; decide
  | val t i =>
    simp only [freshMem, freshWords] at h ⊢
    split at h
    · exact absurd h (by decide)
    · next e => rw [if_neg e]; decide

/-- **C23, word by word.** For any calls, in every interleaving and with any write-backs: if the word at `a` never returns to
an earlier value, then whenever its dirty bit is off the file holds it.  (`c23_read_lost` shows the hypothesis is needed.)
Partial: the whole claim is about what `get` returns after the restart; see `c23_read_survives_partial`. -/
theorem c23_words_partial (calls : Nat → List Op) (xs : List Sched) {a : Addr}
    (hr : NoReturn hash n (Sys.init len cap calls) xs a) : Durable ((Sys.init len cap calls).exec hash n xs).mem a :=
  durable_time time_start (durable_fresh a) xs hr

/-- Key words never return to an earlier value. -/
theorem keys_noReturn (hs : Sized len cap) (calls : Nat → List Op) (hv : ∀ t, ∀ op ∈ calls t, op.Valid) (xs : List Sched)
    (t i : Nat) : NoReturn hash n (Sys.init len cap calls) xs (.key t i) := by
  rintro x y z ⟨l1, rfl⟩ ⟨l2, rfl⟩ - ht hi e
  by_cases hx : clean (((Sys.init len cap calls).exec hash n x).mem.word (.key t i)) = KINITIAL
  · by_contra hne
    rw [hx] at hne
    obtain ⟨g1, g2, -⟩ := c17_fixed (hash := hash) (n := n) hs calls hv x l1 ht
    have := (c15_stable (hash := hash) (n := n) hs calls hv (x ++ l1) l2 g1 (by rw [g2]; exact hi)).1 hne
    exact hne (this.symm.trans (e.symm.trans hx))
  · exact (c15_stable hs calls hv x l1 ht hi).1 hx

/-- **C23, keys.** For all valid calls, in every interleaving, with any write-backs and any number of growing steps: a key word
whose dirty bit is off is in its file. -/
theorem c23_keys (hs : Sized len cap) (calls : Nat → List Op) (hv : ∀ t, ∀ op ∈ calls t, op.Valid) (xs : List Sched)
    (t i : Nat) : Durable ((Sys.init len cap calls).exec hash n xs).mem (.key t i) :=
  c23_words_partial calls xs (keys_noReturn hs calls hv xs t i)

/-- In the demonstration run (three threads, two growing steps) several key words have their dirty bit off. -/
example : isDirty ((demoSys 40).mem.word (.key 0 0)) = false ∧ (demoSys 40).mem.word (.key 0 0) ≠ KINITIAL ∧
    (demoSys 40).mem.nv (.key 0 0) ≠ dirty KINITIAL := by decide +kernel

/-- **C23, one thread.** If only one thread runs (write-backs may happen at any time), every word whose dirty bit is off is in
its file, whatever the calls and whether the map grows or not. -/
theorem c23_one_thread_words (calls : Nat → List Op) (t : Nat) (xs : List Sched) (hx : ∀ x ∈ xs, x.Only t) (a : Addr) :
    Durable ((Sys.init len cap calls).exec hash n xs).mem a :=
  (durable_solo time_start durable_fresh (fun op p todo h => by cases h) xs hx).1 a

/-! ## What `get` has returned -/

/-- Before the first growth the table stays as the proofs need it. -/
theorem still_init (hs : Sized len cap) (calls : Nat → List Op) (hv : ∀ t, ∀ op ∈ calls t, op.Valid) (F : List Sched)
    (h1 : (((Sys.init len cap calls).exec hash n F).mem.tab 0).newT = none) :
    StillTab hash n (Sys.init len cap calls) F len := by
  have hfix : ∀ ys, ys <+: F → 0 < ((Sys.init len cap calls).exec hash n ys).mem.next ∧
      (((Sys.init len cap calls).exec hash n ys).mem.tab 0).len = len := by
    intro ys _
    obtain ⟨g1, g2, -⟩ := c17_fixed (hash := hash) (n := n) hs calls hv [] ys (t := 0) Nat.zero_lt_one
    exact ⟨g1, g2⟩
  have hnew : ∀ ys, ys <+: F → (((Sys.init len cap calls).exec hash n ys).mem.tab 0).newT = none := by
    rintro ys ⟨zs, rfl⟩
    cases e : (((Sys.init len cap calls).exec hash n ys).mem.tab 0).newT with
    | none => rfl
    | some t =>
      rw [(c17_fixed (hash := hash) (n := n) hs calls hv ys zs (hfix ys (List.prefix_append ..)).1).2.2 t e] at h1
      cases h1
  have hinv := fun ys => (init_ok (A := askedIn ((Sys.init len cap calls).exec hash n ys).hist) hs hash n calls hv ys
    (fun _ _ h => h) (asked_ok (init_valid hash n calls hv ys (len := len) (cap := cap)))).inv
  refine ⟨?_, ?_, fun ys hy => (hfix ys hy).1, fun ys hy => (hfix ys hy).2, hnew, ?_, ?_⟩
  · obtain ⟨p, hp, e⟩ := (hinv []).pow 0 (hfix [] (List.nil_prefix)).1
    exact ⟨p, hp, (hfix [] (List.nil_prefix)).2.symm.trans e⟩
  · intro ys hy
    induction ys using List.reverseRecOn with
    | nil => rfl
    | append_singleton ys y ih =>
      have hy' : ys <+: F := (List.prefix_append ..).trans hy
      have h0 := ih hy'
      rcases c17_root_step (hash := hash) (n := n) hs calls hv ys y with e | e
      · rw [e, h0]
      · rw [h0, hnew ys hy'] at e; cases e
  · rintro ys zs ⟨l, rfl⟩ hz i hi hk
    have hy := hfix ys ((List.prefix_append ..).trans hz)
    exact (c15_stable hs calls hv ys l hy.1 (by rw [hy.2]; exact hi)).1 hk
  · intro ys hy i hi
    have hi' : Has ((Sys.init len cap calls).exec hash n ys).mem 0 i := ⟨(hfix ys hy).1, by rw [(hfix ys hy).2]; exact hi⟩
    cases e : isMig (clean (((Sys.init len cap calls).exec hash n ys).mem.word (.val 0 i))) with
    | false => rfl
    | true => exact absurd (hnew ys hy) ((hinv ys).mig 0 i hi' e)

theorem read_survives (hs : Sized len cap) (calls : Nat → List Op) (hv : ∀ t, ∀ op ∈ calls t, op.Valid) (xs : List Sched)
    (h1 : (((Sys.init len cap calls).exec hash n xs).mem.tab 0).newT = none)
    (hd : ∀ ys, ys <+: xs → ∀ i, i < len → Durable ((Sys.init len cap calls).exec hash n ys).mem (.val 0 i))
    {t : Nat} {k w : Word} (hw : w ≠ VINITIAL) {l1 l2 : List Event}
    (he : ((Sys.init len cap calls).exec hash n xs).hist = l1 ++ .res t (.get k) (.word w) :: l2) :
    ∃ l0 l', l1 = l0 ++ .inv t (.get k) :: l' ∧ (∀ e ∈ l', e.tid ≠ t) ∧
    ∃ m w', restart ((Sys.init len cap calls).exec hash n xs).mem ((Sys.init len cap calls).exec hash n xs).mem.nv = .done () m ∧
      (∀ N, reprobeLimit len + 1 < N → ∃ m', run (mapGet hash N k) m = .done w' m') ∧
      ∃ ys zs, ys <+: zs ∧ zs <+: xs ∧ l0 ++ [.inv t (.get k)] <+: ((Sys.init len cap calls).exec hash n ys).hist ∧
        ((Sys.init len cap calls).exec hash n ys).hist <+: l1 ∧ ∀ N, reprobeLimit len + 1 < N →
          (∃ m', run (mapGet hash N k) ((Sys.init len cap calls).exec hash n ys).mem = .done w m') ∧
          ∃ m', run (mapGet hash N k) ((Sys.init len cap calls).exec hash n zs).mem = .done w' m' := by
  have hF : Still hash n (Sys.init len cap calls) xs len :=
    ⟨still_init hs calls hv xs h1, fun ys _ i _ => c23_keys hs calls hv ys 0 i, hd⟩
  obtain ⟨x0, xr, g0, g5, ⟨l0, l', g1, g2, g3⟩, g4⟩ := (getsOK hF getsOK_start (List.prefix_refl _)).res t k w l1 l2 he hw
  obtain ⟨y0, zs, w', m, f1, f2, f3, f4, f5, f6, f7, f8⟩ := g4.restart hF g0
  have hpre : ∀ {x y : List Sched}, x <+: y → ((Sys.init len cap calls).exec hash n x).hist <+:
      ((Sys.init len cap calls).exec hash n y).hist := by
    rintro x _ ⟨l, rfl⟩
    obtain ⟨h', e⟩ := exec_hist hash n l ((Sys.init len cap calls).exec hash n x)
    rw [exec_append, e]
    exact List.prefix_append ..
  exact ⟨l0, l', g1, g2, m, w', f5, f6, y0, zs, f3, f4, by rw [← g3]; exact hpre f1, by rw [← g5]; exact hpre f2,
    fun N hN => ⟨f8 N hN, f7 N hN⟩⟩

/-- **C23.** For all valid calls of any number of threads, every interleaving, every crash point before the first growth, and any
write-backs: suppose no value word ever returns to an earlier value.  If a `get` of `k` has returned a value, then after the
crash and the restart `get` of `k` finds `w'`, and there are two moments `ys`, `zs` in this order, `ys` between the call and the
return of that `get`, such that a `get` made at `ys` alone finds `w` and one made at `zs` alone finds `w'`: what was read, or
what was there later.  Partial: without "no value word returns" it is false (`c23_read_lost`); after a growth the restart opens the old table
(`c41_restart_after_growth`). -/
theorem c23_read_survives_partial (hs : Sized len cap) (calls : Nat → List Op) (hv : ∀ t, ∀ op ∈ calls t, op.Valid)
    (xs : List Sched) (h1 : (((Sys.init len cap calls).exec hash n xs).mem.tab 0).newT = none)
    (hr : ∀ i, i < len → NoReturn hash n (Sys.init len cap calls) xs (.val 0 i))
    {t : Nat} {k w : Word} (hw : w ≠ VINITIAL) {l1 l2 : List Event}
    (he : ((Sys.init len cap calls).exec hash n xs).hist = l1 ++ .res t (.get k) (.word w) :: l2) :
    ∃ l0 l', l1 = l0 ++ .inv t (.get k) :: l' ∧ (∀ e ∈ l', e.tid ≠ t) ∧
    ∃ m w', restart ((Sys.init len cap calls).exec hash n xs).mem ((Sys.init len cap calls).exec hash n xs).mem.nv = .done () m ∧
      (∀ N, reprobeLimit len + 1 < N → ∃ m', run (mapGet hash N k) m = .done w' m') ∧
      ∃ ys zs, ys <+: zs ∧ zs <+: xs ∧ l0 ++ [.inv t (.get k)] <+: ((Sys.init len cap calls).exec hash n ys).hist ∧
        ((Sys.init len cap calls).exec hash n ys).hist <+: l1 ∧ ∀ N, reprobeLimit len + 1 < N →
          (∃ m', run (mapGet hash N k) ((Sys.init len cap calls).exec hash n ys).mem = .done w m') ∧
          ∃ m', run (mapGet hash N k) ((Sys.init len cap calls).exec hash n zs).mem = .done w' m' :=
  read_survives hs calls hv xs h1 (fun ys hy i hi => c23_words_partial calls ys
    fun x y z g1 g2 g3 => hr i hi x y z g1 g2 (g3.trans hy)) hw he

/-- **C23, one thread.** The same without any hypothesis on the values, if only one thread runs. -/
theorem c23_one_thread_partial (hs : Sized len cap) (calls : Nat → List Op) (hv : ∀ t, ∀ op ∈ calls t, op.Valid)
    (t : Nat) (xs : List Sched) (hx : ∀ x ∈ xs, x.Only t)
    (h1 : (((Sys.init len cap calls).exec hash n xs).mem.tab 0).newT = none)
    {k w : Word} (hw : w ≠ VINITIAL) {l1 l2 : List Event}
    (he : ((Sys.init len cap calls).exec hash n xs).hist = l1 ++ .res t (.get k) (.word w) :: l2) :
    ∃ l0 l', l1 = l0 ++ .inv t (.get k) :: l' ∧ (∀ e ∈ l', e.tid ≠ t) ∧
    ∃ m w', restart ((Sys.init len cap calls).exec hash n xs).mem ((Sys.init len cap calls).exec hash n xs).mem.nv = .done () m ∧
      (∀ N, reprobeLimit len + 1 < N → ∃ m', run (mapGet hash N k) m = .done w' m') ∧
      ∃ ys zs, ys <+: zs ∧ zs <+: xs ∧ l0 ++ [.inv t (.get k)] <+: ((Sys.init len cap calls).exec hash n ys).hist ∧
        ((Sys.init len cap calls).exec hash n ys).hist <+: l1 ∧ ∀ N, reprobeLimit len + 1 < N →
          (∃ m', run (mapGet hash N k) ((Sys.init len cap calls).exec hash n ys).mem = .done w m') ∧
          ∃ m', run (mapGet hash N k) ((Sys.init len cap calls).exec hash n zs).mem = .done w' m' :=
  read_survives hs calls hv xs h1 (fun ys hy _ _ => c23_one_thread_words calls t ys (fun x hx' => hx x (hy.subset hx')) _) hw he

/-! ## How much one thread can lose -/

/-- **C22, one thread.** For all valid calls of one thread, any write-backs, and every crash point before the first growth (in
the middle of a call or not): for each key `k`, the restart succeeds, and `get` of `k` then finds either what a `get` made at the
moment of the crash would have found, or what one made just before the last change of `k` would have found: from the step after
`ys` to the crash, every `get` made alone finds the same `w`.  So of each key at most the last change is lost, and what was there
before it comes back.  Partial: C22 claims that nothing is lost, which is false (`c22_put_lost`); with several threads more can
be lost (`c23_read_lost`); after a growth the restart opens the old table (`c41_restart_after_growth`). -/
theorem c22_one_thread_partial (hs : Sized len cap) (calls : Nat → List Op) (hv : ∀ t, ∀ op ∈ calls t, op.Valid)
    (t : Nat) (xs : List Sched) (hx : ∀ x ∈ xs, x.Only t)
    (h1 : (((Sys.init len cap calls).exec hash n xs).mem.tab 0).newT = none) {k : Word} (hk : k ≠ KINITIAL) :
    ∃ m w' w, restart ((Sys.init len cap calls).exec hash n xs).mem ((Sys.init len cap calls).exec hash n xs).mem.nv = .done () m ∧
      (∀ N, reprobeLimit len + 1 < N → ∃ m', run (mapGet hash N k) m = .done w' m') ∧
      (∀ N, reprobeLimit len + 1 < N → ∃ m', run (mapGet hash N k) ((Sys.init len cap calls).exec hash n xs).mem = .done w m') ∧
      (w' = w ∨ ∃ ys x, ys ++ [x] <+: xs ∧
        (∀ N, reprobeLimit len + 1 < N → ∃ m', run (mapGet hash N k) ((Sys.init len cap calls).exec hash n ys).mem = .done w' m') ∧
        ∀ zs, ys ++ [x] <+: zs → zs <+: xs → ∀ N, reprobeLimit len + 1 < N →
          ∃ m', run (mapGet hash N k) ((Sys.init len cap calls).exec hash n zs).mem = .done w m') := by
  have ho := opened_fresh (hash := hash) hs
  exact alone_restart (ho.alone hv hx h1) (t := t) (hv t) hx ho.begun hk

/-! ## Stores that are all different -/

/-- **C23.** For all valid calls of any number of threads without `update`, such that no two calls store the same value under the
same key (a removal stores the deletion mark), every interleaving, every crash point before the first growth and any write-backs:
what a `get` has returned, or what was there later, is what `get` finds after the restart.  The hypotheses are on the calls only.
Partial: repeated values make it false (`c23_read_lost`), and so does growth (`c41_restart_after_growth`). -/
theorem c23_distinct_values_partial (hs : Sized len cap) (calls : Nat → List Op) (hv : ∀ t, ∀ op ∈ calls t, op.Valid)
    (hc : DistinctStores calls) (xs : List Sched)
    (h1 : (((Sys.init len cap calls).exec hash n xs).mem.tab 0).newT = none)
    {t : Nat} {k w : Word} (hw : w ≠ VINITIAL) {l1 l2 : List Event}
    (he : ((Sys.init len cap calls).exec hash n xs).hist = l1 ++ .res t (.get k) (.word w) :: l2) :
    ∃ l0 l', l1 = l0 ++ .inv t (.get k) :: l' ∧ (∀ e ∈ l', e.tid ≠ t) ∧
    ∃ m w', restart ((Sys.init len cap calls).exec hash n xs).mem ((Sys.init len cap calls).exec hash n xs).mem.nv = .done () m ∧
      (∀ N, reprobeLimit len + 1 < N → ∃ m', run (mapGet hash N k) m = .done w' m') ∧
      ∃ ys zs, ys <+: zs ∧ zs <+: xs ∧ l0 ++ [.inv t (.get k)] <+: ((Sys.init len cap calls).exec hash n ys).hist ∧
        ((Sys.init len cap calls).exec hash n ys).hist <+: l1 ∧ ∀ N, reprobeLimit len + 1 < N →
          (∃ m', run (mapGet hash N k) ((Sys.init len cap calls).exec hash n ys).mem = .done w m') ∧
          ∃ m', run (mapGet hash N k) ((Sys.init len cap calls).exec hash n zs).mem = .done w' m' :=
  c23_read_survives_partial hs calls hv xs h1 (fun _ hi => noReturn_of_distinct (fun t => ⟨_, rfl, hv t⟩) (fun _ => rfl) hc
    (.inl (by simp [Sys.init, freshMem, freshWords]; decide)) (still_init hs calls hv xs h1) hi) hw he

/-! ## Cases that meet the hypotheses -/

/-- A way to see that given calls store different things. -/
theorem distinct_callsOf {c0 c1 c2 c3 : List Op} (h1 : ((c0 ++ c1 ++ c2 ++ c3).filterMap Op.stores).Nodup)
    (h2 : (c0 ++ c1 ++ c2 ++ c3).all (fun op => !op.isUpdate) = true) : DistinctStores (callsOf c0 c1 c2 c3) := by
  simp only [List.filterMap_append, List.nodup_append, List.mem_append, List.mem_filterMap] at h1
  obtain ⟨⟨⟨n0, n1, d1⟩, n2, d2⟩, n3, d3⟩ := h1
  rw [List.all_eq_true] at h2
  have hmem : ∀ t op, op ∈ callsOf c0 c1 c2 c3 t → (t = 0 ∧ op ∈ c0) ∨ (t = 1 ∧ op ∈ c1) ∨ (t = 2 ∧ op ∈ c2) ∨ (t = 3 ∧ op ∈ c3) := by
    intro t op h
    unfold callsOf at h
    split at h
    · exact .inl ⟨‹_›, h⟩
    · split at h
      · exact .inr (.inl ⟨‹_›, h⟩)
      · split at h
        · exact .inr (.inr (.inl ⟨‹_›, h⟩))
        · split at h
          · exact .inr (.inr (.inr ⟨‹_›, h⟩))
          · cases h
  refine ⟨fun t op h => ?_, fun t k v => ?_, fun t t' k v op h op' h' e e' => ?_⟩
  · have := h2 op (by rcases hmem t op h with ⟨-, h⟩ | ⟨-, h⟩ | ⟨-, h⟩ | ⟨-, h⟩ <;> simp [h])
    simpa using this
  · have hn : ((callsOf c0 c1 c2 c3 t).filterMap Op.stores).Nodup := by
      unfold callsOf
      split
      · exact n0
      · split
        · exact n1
        · split
          · exact n2
          · split
            · exact n3
            · exact List.nodup_nil
    have := List.nodup_iff_count_le_one.mp hn (k, v)
    rw [List.count_filterMap] at this
    refine le_trans (le_of_eq ?_) this
    congr 1
    funext op
    rw [Bool.eq_iff_iff]
    simp
  · rcases hmem t op h with ⟨rfl, g⟩ | ⟨rfl, g⟩ | ⟨rfl, g⟩ | ⟨rfl, g⟩ <;>
      rcases hmem t' op' h' with ⟨rfl, g'⟩ | ⟨rfl, g'⟩ | ⟨rfl, g'⟩ | ⟨rfl, g'⟩ <;> first
        | rfl
        | (exfalso; first
            | exact d1 _ ⟨op, g, e⟩ _ ⟨op', g', e'⟩ rfl
            | exact d1 _ ⟨op', g', e'⟩ _ ⟨op, g, e⟩ rfl
            | exact d2 _ (.inl ⟨op, g, e⟩) _ ⟨op', g', e'⟩ rfl
            | exact d2 _ (.inr ⟨op, g, e⟩) _ ⟨op', g', e'⟩ rfl
            | exact d2 _ (.inl ⟨op', g', e'⟩) _ ⟨op, g, e⟩ rfl
            | exact d2 _ (.inr ⟨op', g', e'⟩) _ ⟨op, g, e⟩ rfl
            | exact d3 _ (.inl (.inl ⟨op, g, e⟩)) _ ⟨op', g', e'⟩ rfl
            | exact d3 _ (.inl (.inr ⟨op, g, e⟩)) _ ⟨op', g', e'⟩ rfl
            | exact d3 _ (.inr ⟨op, g, e⟩) _ ⟨op', g', e'⟩ rfl
            | exact d3 _ (.inl (.inl ⟨op', g', e'⟩)) _ ⟨op, g, e⟩ rfl
            | exact d3 _ (.inl (.inr ⟨op', g', e'⟩)) _ ⟨op, g, e⟩ rfl
            | exact d3 _ (.inr ⟨op', g', e'⟩) _ ⟨op, g, e⟩ rfl)

/-- Three threads work on two keys; a thread reads what another has put, and the value is replaced and removed afterwards. -/
def keepCalls : Nat → List Op :=
  callsOf [.put 8#64 16#64, .put 8#64 24#64, .get 16#64] [.get 8#64, .putIfAbsent 16#64 32#64, .remove 8#64]
    [.get 8#64, .replace 16#64 32#64 40#64, .get 16#64] []
def keepSched : List Sched := (List.replicate 12 (steps 0 9 ++ [.evict 0 1] ++ steps 1 7 ++ steps 2 5)).flatten
def keepSys : Sys := (Sys.init 8 64 keepCalls).exec (fun x => x >>> 3) 30 keepSched

theorem keep_valid : ∀ t, ∀ op ∈ keepCalls t, op.Valid := by
  intro t op h
  unfold keepCalls callsOf at h
  split at h
  · revert op; decide
  · split at h
    · revert op; decide
    · split at h
      · revert op; decide
      · split at h <;> cases h

theorem keep_distinct : DistinctStores keepCalls := distinct_callsOf (by decide) (by decide)

/-- The hypotheses of `c23_distinct_values_partial` are met: thread 0 has read 32 under key 16, which thread 2 then replaced by 40
and read; the map has not grown. -/
example : (keepSys.mem.tab 0).newT = none ∧ .res 0 (.get 16#64) (.word 32#64) ∈ keepSys.hist ∧
    .res 2 (.get 16#64) (.word 40#64) ∈ keepSys.hist ∧ 32#64 ≠ VINITIAL := by decide +kernel

theorem keep_newT : (((Sys.init 8 64 keepCalls).exec (fun x => x >>> 3) 30 keepSched).mem.tab 0).newT = none := by
  decide +kernel

theorem keep_still : StillTab (fun x => x >>> 3) 30 (Sys.init 8 64 keepCalls) keepSched 8 :=
  still_init ⟨⟨3, by decide, by decide⟩, by decide⟩ keepCalls keep_valid keepSched keep_newT

/-- So are those of `c23_words_partial` and `c23_read_survives_partial`: in the same run no value word returns. -/
example : ∀ i, i < 8 → NoReturn (fun x => x >>> 3) 30 (Sys.init 8 64 keepCalls) keepSched (.val 0 i) := fun _ hi =>
  noReturn_of_distinct (fun t => ⟨_, rfl, keep_valid t⟩) (fun _ => rfl) keep_distinct
    (.inl (by simp [Sys.init, freshMem, freshWords]; decide)) keep_still hi

/-- One thread writes 16, 24, 16, reads it, and is stopped during the next put. -/
def soloCalls : Nat → List Op :=
  callsOf [.put 8#64 16#64, .get 8#64, .put 8#64 24#64, .put 8#64 16#64, .get 8#64, .put 8#64 32#64] [] [] []
def soloSched : List Sched := steps 0 30 ++ [.evict 0 1] ++ steps 0 60 ++ [.evict 0 9] ++ steps 0 24
def soloSys : Sys := (Sys.init 8 64 soloCalls).exec (fun x => x >>> 3) 30 soloSched

/-- The hypotheses of the one-thread theorems are met, with a value that returns. -/
example : (∀ x ∈ soloSched, x.Only 0) ∧ (soloSys.mem.tab 0).newT = none ∧
    (soloSys.hist.filter (fun e => e = .res 0 (.get 8#64) (.word 16#64))).length = 2 ∧
    .res 0 (.put 8#64 16#64) (.word 24#64) ∈ soloSys.hist := by
  refine ⟨?_, by decide +kernel, by decide +kernel, by decide +kernel⟩
  intro x hx
  simp only [soloSched, steps, List.mem_append, List.mem_replicate, List.mem_singleton] at hx
  rcases hx with (((⟨-, rfl⟩ | rfl) | ⟨-, rfl⟩) | rfl) | ⟨-, rfl⟩ <;> trivial

/-- Both cases of `c22_one_thread_partial` occur.  One thread puts 16 and then 24 under key 8 and 40 under key 16; the machine
stops after the three calls have returned, with only the line of key 16 written back: key 8 has 16 again, its last change being
lost, and key 16 has 40. -/
def loseCalls : Nat → List Op := callsOf [.put 8#64 16#64, .put 8#64 24#64, .put 16#64 40#64] [] [] []
def loseSched : List Sched := steps 0 80 ++ [.evict 0 2]
def loseSys : Sys := (Sys.init 8 64 loseCalls).exec (fun x => x >>> 3) 30 loseSched

example : (loseSys.mem.tab 0).newT = none ∧ loseSys.hist.length = 6 ∧
    (run (mapGet (fun x => x >>> 3) 30 8#64) loseSys.mem).val? = some 24#64 ∧
    (match restart loseSys.mem loseSys.mem.nv with
      | .done _ m => ((run (mapGet (fun x => x >>> 3) 30 8#64) m).val?, (run (mapGet (fun x => x >>> 3) 30 16#64) m).val?)
      | .halted _ => (none, none)) = (some 16#64, some 40#64) := by decide +kernel

end PMap
