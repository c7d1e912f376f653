import Verif.Props.Restarts
import Verif.Props.Progress
import Verif.Props.Durable

/-!
# C23, C55 and C13 in reopened maps

A map opened again after any number of crashed sessions (`Restarted`: in each any threads, any valid calls, any interleaving; keys may
collide and several threads may change the same key).
-/

namespace PMap

open Prog

variable {hash : Word → Word} {n len cap : Nat} {H : List Event} {m : Mem} {calls : Nat → List Op}

theorem Restarted.len0 (hs : Sized len cap) (h : Restarted hash len cap H m) : (m.tab 0).len = len := by
  induction h with
  | fresh => rfl
  | @crash H m m' f n calls xs xss h hv h1 hc ho ih =>
    have hnext : 0 < m.next := by rw [(restarted_calm h).2.2.1]; exact Nat.one_pos
    have hevo := h.evo (n := n) hs hv [] xs
    obtain ⟨g, hg, hl⟩ := cutOpens_left ((Sys.start m calls).exec hash n xs).mem.cap xss
      (fileOf ((Sys.start m calls).exec hash n xs).mem.nv 0 (((Sys.start m calls).exec hash n xs).mem.tab 0).len)
    rw [hc] at hg
    cases hg
    obtain ⟨m2, h2, hsc⟩ := openFile_spec f ((Sys.start m calls).exec hash n xs).mem.cap
    rw [ho] at h2
    cases h2
    have e1 : (m'.tab 0).len = f.len := hsc.len
    have e2 : f.len = (((Sys.start m calls).exec hash n xs).mem.tab 0).len := hl.len
    have e3 : (((Sys.start m calls).exec hash n xs).mem.tab 0).len = (m.tab 0).len := hevo.len 0 hnext
    rw [e1, e2, e3, ih]

theorem Restarted.sync (h : Restarted hash len cap H m) (a : Addr) : Durable m a := by
  cases h with
  | fresh => exact durable_fresh a
  | crash n calls xs xss _ _ _ _ ho => exact (sync_open ho).durable a

/-- Before the first growth of the session the table stays as the proofs need it. -/
theorem Restarted.still {F : List Sched} (h : Restarted hash len cap H m) (hs : Sized len cap) (hv : ∀ t, ∀ op ∈ calls t, op.Valid)
    (h1 : (((Sys.start m calls).exec hash n F).mem.tab 0).newT = none) : StillTab hash n (Sys.start m calls) F len := by
  obtain ⟨-, hroot, hn1, -⟩ := restarted_calm h
  have h0 : 0 < m.next := by rw [hn1]; exact Nat.one_pos
  have hevo := fun xs ys => h.evo (n := n) hs hv xs ys
  have hfix : ∀ ys, 0 < ((Sys.start m calls).exec hash n ys).mem.next ∧
      (((Sys.start m calls).exec hash n ys).mem.tab 0).len = len := by
    intro ys
    have := hevo [] ys
    exact ⟨lt_of_lt_of_le h0 this.next, (this.len 0 h0).trans (h.len0 hs)⟩
  have hnew : ∀ ys, ys <+: F → (((Sys.start m calls).exec hash n ys).mem.tab 0).newT = none := by
    rintro ys ⟨zs, rfl⟩
    cases e : (((Sys.start m calls).exec hash n ys).mem.tab 0).newT with
    | none => rfl
    | some t =>
      rw [(hevo ys zs).newT 0 t (hfix ys).1 e] at h1
      cases h1
  refine ⟨?_, ?_, fun ys _ => (hfix ys).1, fun ys _ => (hfix ys).2, hnew, ?_, ?_⟩
  · obtain ⟨p, hp, e⟩ := (h.ok (M := True) (n := n) hs hv [] []).1.inv.pow 0 h0
    exact ⟨p, hp, (h.len0 hs).symm.trans e⟩
  · intro ys hy
    have hr := (hevo [] ys).root
    rw [List.nil_append] at hr
    rcases Relation.ReflTransGen.cases_head hr with e | ⟨c, e, -⟩
    · exact e.symm.trans hroot
    · rw [show ((Sys.start m calls).exec hash n []).mem.root = 0 from hroot, hnew ys hy] at e; cases e
  · rintro ys zs ⟨l, rfl⟩ hz i hi hk
    exact (hevo ys l).key 0 i ⟨(hfix ys).1, by rw [(hfix ys).2]; exact hi⟩ hk
  · intro ys hy i hi
    cases e : isMig (clean (((Sys.start m calls).exec hash n ys).mem.word (.val 0 i))) with
    | false => rfl
    | true =>
      exact absurd (hnew ys hy) ((h.ok (M := True) (n := n) hs hv ys []).1.inv.mig 0 i ⟨(hfix ys).1, by rw [(hfix ys).2]; exact hi⟩ e)

/-! ## C23 -/

/-- **C23 in a reopened map, word by word.** For any calls, in every interleaving and with any write-backs: if the word at `a` never
returns to an earlier value of the session, then whenever its dirty bit is off the file holds it.
Partial: the whole claim is about what `get` returns after the restart; see `c23_read_survives_reopened_partial`. -/
theorem c23_words_reopened_partial (h : Restarted hash len cap H m) (calls : Nat → List Op) (xs : List Sched) {a : Addr}
    (hr : NoReturn hash n (Sys.start m calls) xs a) : Durable ((Sys.start m calls).exec hash n xs).mem a :=
  durable_time time_start (h.sync a) xs hr

/-- **C23 in a reopened map, keys.** For all valid calls, in every interleaving, with any write-backs and any number of growing steps:
a key word whose dirty bit is off is in its file. -/
theorem c23_keys_reopened (hs : Sized len cap) (h : Restarted hash len cap H m) (calls : Nat → List Op)
    (hv : ∀ t, ∀ op ∈ calls t, op.Valid) (xs : List Sched) (t i : Nat) :
    Durable ((Sys.start m calls).exec hash n xs).mem (.key t i) := by
  refine c23_words_reopened_partial h calls xs ?_
  rintro x y z ⟨l1, rfl⟩ ⟨l2, rfl⟩ - ht hi e
  by_cases hx : clean (((Sys.start m calls).exec hash n x).mem.word (.key t i)) = KINITIAL
  · by_contra hne
    rw [hx] at hne
    have e1 := h.evo (n := n) hs hv x l1
    have := (h.evo (n := n) hs hv (x ++ l1) l2).key t i
      ⟨lt_of_lt_of_le ht e1.next, by rw [e1.len t ht]; exact hi⟩ hne
    exact hne (this.symm.trans (e.symm.trans hx))
  · exact (h.evo (n := n) hs hv x l1).key t i ⟨ht, hi⟩ hx

/-- **C23 in a reopened map, one thread.** If only one thread runs in this session (there may have been more in those before), every
word whose dirty bit is off is in its file, whatever the calls and whether the map grows or not. -/
theorem c23_one_thread_words_reopened (h : Restarted hash len cap H m) (calls : Nat → List Op) (t : Nat) (xs : List Sched)
    (hx : ∀ x ∈ xs, x.Only t) (a : Addr) : Durable ((Sys.start m calls).exec hash n xs).mem a :=
  (durable_solo time_start h.sync (fun op p todo h => by cases h) xs hx).1 a

theorem read_survives_reopened (hs : Sized len cap) (h : Restarted hash len cap H m) (calls : Nat → List Op)
    (hv : ∀ t, ∀ op ∈ calls t, op.Valid) (xs : List Sched)
    (h1 : (((Sys.start m calls).exec hash n xs).mem.tab 0).newT = none)
    (hd : ∀ ys, ys <+: xs → ∀ i, i < len → Durable ((Sys.start m calls).exec hash n ys).mem (.val 0 i))
    {t : Nat} {k w : Word} (hw : w ≠ VINITIAL) {l1 l2 : List Event}
    (he : ((Sys.start m calls).exec hash n xs).hist = l1 ++ .res t (.get k) (.word w) :: l2) :
    ∃ l0 l', l1 = l0 ++ .inv t (.get k) :: l' ∧ (∀ e ∈ l', e.tid ≠ t) ∧
    ∃ m2 w', restart ((Sys.start m calls).exec hash n xs).mem ((Sys.start m calls).exec hash n xs).mem.nv = .done () m2 ∧
      (∀ N, reprobeLimit len + 1 < N → ∃ m', run (mapGet hash N k) m2 = .done w' m') ∧
      ∃ ys zs, ys <+: zs ∧ zs <+: xs ∧ l0 ++ [.inv t (.get k)] <+: ((Sys.start m calls).exec hash n ys).hist ∧
        ((Sys.start m calls).exec hash n ys).hist <+: l1 ∧ ∀ N, reprobeLimit len + 1 < N →
          (∃ m', run (mapGet hash N k) ((Sys.start m calls).exec hash n ys).mem = .done w m') ∧
          ∃ m', run (mapGet hash N k) ((Sys.start m calls).exec hash n zs).mem = .done w' m' := by
  have hF : Still hash n (Sys.start m calls) xs len :=
    ⟨h.still hs hv h1, fun ys _ i _ => c23_keys_reopened hs h calls hv ys 0 i, hd⟩
  obtain ⟨x0, xr, g0, g5, ⟨l0, l', g1, g2, g3⟩, g4⟩ := (getsOK hF getsOK_start (List.prefix_refl _)).res t k w l1 l2 he hw
  obtain ⟨y0, zs, w', m2, f1, f2, f3, f4, f5, f6, f7, f8⟩ := g4.restart hF g0
  have hpre : ∀ {x y : List Sched}, x <+: y → ((Sys.start m calls).exec hash n x).hist <+:
      ((Sys.start m calls).exec hash n y).hist := by
    rintro x _ ⟨l, rfl⟩
    obtain ⟨h', e⟩ := exec_hist hash n l ((Sys.start m calls).exec hash n x)
    rw [exec_append, e]
    exact List.prefix_append ..
  exact ⟨l0, l', g1, g2, m2, w', f5, f6, y0, zs, f3, f4, by rw [← g3]; exact hpre f1, by rw [← g5]; exact hpre f2,
    fun N hN => ⟨f8 N hN, f7 N hN⟩⟩

/-- **C23 in a reopened map.** In a session on a file left by any number of crashed sessions, of any threads making any valid calls in
any interleaving, crashing before the first growth: suppose no value word returns to an earlier value during the session.  If a `get`
of `k` has returned a value `w` - stored in this session or in one before -, then after the crash and the next restart `get` of `k`
finds `w'`, and there are two moments `ys`, `zs` in this order, `ys` between the call and the return of that `get`, such that a `get`
made at `ys` alone finds `w` and one made at `zs` alone finds `w'`: what was read, or what was there later.
Partial: without "no value word returns" it is false (`c23_read_lost`), and after a growth too (`c41_restart_after_growth`). -/
theorem c23_read_survives_reopened_partial (hs : Sized len cap) (h : Restarted hash len cap H m) (calls : Nat → List Op)
    (hv : ∀ t, ∀ op ∈ calls t, op.Valid)
    (xs : List Sched) (h1 : (((Sys.start m calls).exec hash n xs).mem.tab 0).newT = none)
    (hr : ∀ i, i < len → NoReturn hash n (Sys.start m calls) xs (.val 0 i))
    {t : Nat} {k w : Word} (hw : w ≠ VINITIAL) {l1 l2 : List Event}
    (he : ((Sys.start m calls).exec hash n xs).hist = l1 ++ .res t (.get k) (.word w) :: l2) :
    ∃ l0 l', l1 = l0 ++ .inv t (.get k) :: l' ∧ (∀ e ∈ l', e.tid ≠ t) ∧
    ∃ m2 w', restart ((Sys.start m calls).exec hash n xs).mem ((Sys.start m calls).exec hash n xs).mem.nv = .done () m2 ∧
      (∀ N, reprobeLimit len + 1 < N → ∃ m', run (mapGet hash N k) m2 = .done w' m') ∧
      ∃ ys zs, ys <+: zs ∧ zs <+: xs ∧ l0 ++ [.inv t (.get k)] <+: ((Sys.start m calls).exec hash n ys).hist ∧
        ((Sys.start m calls).exec hash n ys).hist <+: l1 ∧ ∀ N, reprobeLimit len + 1 < N →
          (∃ m', run (mapGet hash N k) ((Sys.start m calls).exec hash n ys).mem = .done w m') ∧
          ∃ m', run (mapGet hash N k) ((Sys.start m calls).exec hash n zs).mem = .done w' m' :=
  read_survives_reopened hs h calls hv xs h1 (fun ys hy i hi => c23_words_reopened_partial h calls ys
    fun x y z g1 g2 g3 => hr i hi x y z g1 g2 (g3.trans hy)) hw he

/-- **C23 in a reopened map, one thread.** The same without any hypothesis on the values, if only one thread runs in this session.
Partial: crash points after a growth (`c41_restart_after_growth`). -/
theorem c23_one_thread_reopened_partial (hs : Sized len cap) (h : Restarted hash len cap H m) (calls : Nat → List Op)
    (hv : ∀ t, ∀ op ∈ calls t, op.Valid)
    (t : Nat) (xs : List Sched) (hx : ∀ x ∈ xs, x.Only t)
    (h1 : (((Sys.start m calls).exec hash n xs).mem.tab 0).newT = none)
    {k w : Word} (hw : w ≠ VINITIAL) {l1 l2 : List Event}
    (he : ((Sys.start m calls).exec hash n xs).hist = l1 ++ .res t (.get k) (.word w) :: l2) :
    ∃ l0 l', l1 = l0 ++ .inv t (.get k) :: l' ∧ (∀ e ∈ l', e.tid ≠ t) ∧
    ∃ m2 w', restart ((Sys.start m calls).exec hash n xs).mem ((Sys.start m calls).exec hash n xs).mem.nv = .done () m2 ∧
      (∀ N, reprobeLimit len + 1 < N → ∃ m', run (mapGet hash N k) m2 = .done w' m') ∧
      ∃ ys zs, ys <+: zs ∧ zs <+: xs ∧ l0 ++ [.inv t (.get k)] <+: ((Sys.start m calls).exec hash n ys).hist ∧
        ((Sys.start m calls).exec hash n ys).hist <+: l1 ∧ ∀ N, reprobeLimit len + 1 < N →
          (∃ m', run (mapGet hash N k) ((Sys.start m calls).exec hash n ys).mem = .done w m') ∧
          ∃ m', run (mapGet hash N k) ((Sys.start m calls).exec hash n zs).mem = .done w' m' :=
  read_survives_reopened hs h calls hv xs h1
    (fun ys hy _ _ => c23_one_thread_words_reopened h calls t ys (fun x hx' => hx x (hy.subset hx')) _) hw he

/-- **C23 in a reopened map.** For all valid calls of any number of threads without `update`, such that no two calls of the session
store the same value under the same key and none stores what the file has under that key already (a removal stores the deletion
mark), every interleaving, every crash point before the first growth and any write-backs: what a `get` has returned, or what was there
later, is what `get` finds after the next restart.  The hypotheses are on the calls and the file only.
Partial: repeated values make it false (`c23_read_lost`), and so does growth (`c41_restart_after_growth`). -/
theorem c23_distinct_values_reopened_partial (hs : Sized len cap) (h : Restarted hash len cap H m) (calls : Nat → List Op)
    (hv : ∀ t, ∀ op ∈ calls t, op.Valid) (hc : DistinctStores calls)
    (hf : ∀ i, i < len → ∀ t, ∀ op ∈ calls t, op.stores ≠ some (clean (m.word (.key 0 i)), clean (m.word (.val 0 i)))) (xs : List Sched)
    (h1 : (((Sys.start m calls).exec hash n xs).mem.tab 0).newT = none)
    {t : Nat} {k w : Word} (hw : w ≠ VINITIAL) {l1 l2 : List Event}
    (he : ((Sys.start m calls).exec hash n xs).hist = l1 ++ .res t (.get k) (.word w) :: l2) :
    ∃ l0 l', l1 = l0 ++ .inv t (.get k) :: l' ∧ (∀ e ∈ l', e.tid ≠ t) ∧
    ∃ m2 w', restart ((Sys.start m calls).exec hash n xs).mem ((Sys.start m calls).exec hash n xs).mem.nv = .done () m2 ∧
      (∀ N, reprobeLimit len + 1 < N → ∃ m', run (mapGet hash N k) m2 = .done w' m') ∧
      ∃ ys zs, ys <+: zs ∧ zs <+: xs ∧ l0 ++ [.inv t (.get k)] <+: ((Sys.start m calls).exec hash n ys).hist ∧
        ((Sys.start m calls).exec hash n ys).hist <+: l1 ∧ ∀ N, reprobeLimit len + 1 < N →
          (∃ m', run (mapGet hash N k) ((Sys.start m calls).exec hash n ys).mem = .done w m') ∧
          ∃ m', run (mapGet hash N k) ((Sys.start m calls).exec hash n zs).mem = .done w' m' := by
  refine c23_read_survives_reopened_partial hs h calls hv xs h1 (fun i hi => noReturn_of_distinct (fun t => ⟨_, rfl, hv t⟩)
    (fun _ => rfl) hc ?_ (h.still hs hv h1) hi) hw he
  have hp := ((h.ok (M := True) (n := n) hs hv [] []).1.inv.pair 0 i
    ⟨by rw [show ((Sys.start m calls).exec hash n []).mem.next = 1 from (restarted_calm h).2.2.1]; exact Nat.one_pos,
      by rw [show (((Sys.start m calls).exec hash n []).mem.tab 0).len = len from h.len0 hs]; exact hi⟩).1
  by_cases hk : clean (m.word (.key 0 i)) = KINITIAL
  · exact .inl (hp hk)
  · exact .inr ⟨hk, hf i hi⟩

/-! ## C55 -/

theorem Restarted.calm (hs : Sized len cap) (h : Restarted hash len cap H m) : CalmMem 0 len m := by
  obtain ⟨-, hroot, hn1, hnew⟩ := restarted_calm h
  refine ⟨hroot, by rw [hn1]; exact Nat.one_pos, h.len0 hs, hnew, fun i hi => ?_⟩
  have hst := (h.still (n := 0) (calls := fun _ => []) (F := []) hs (fun _ _ hm => by cases hm) hnew).mig [] (List.prefix_refl _) i hi
  rw [isMig_clean] at hst
  exact hst

theorem never_stuck_reopened (hs : Sized len cap) (h : Restarted hash len cap H m) (calls : Nat → List Op)
    (hv : ∀ t, ∀ op ∈ calls t, op.Valid) {xs : List Sched} (hn : xs.length ≤ n) {t : Nat}
    (hthrow : ∀ op todo, ((Sys.start m calls).exec hash n xs).thr t ≠ .busy op (.halt .threw) todo)
    (op : Op) (y : Halt) (todo : List Op) : ((Sys.start m calls).exec hash n xs).thr t ≠ .busy op (.halt y) todo := by
  intro e
  cases y with
  | threw => exact hthrow op todo e
  | fuel => exact c13_fuel_lasts (Sys.start m calls) (fun t => ⟨calls t, rfl⟩) xs hn t op todo e
  | ub =>
    have := c16_no_ub_reopened (hash := hash) (n := n) hs h calls hv (xs ++ [.run t])
    rw [exec_append] at this
    simp only [Sys.exec, Sys.step, e] at this
    cases this

theorem no_growth_before_reopened (hs : Sized len cap) (h : Restarted hash len cap H m) (calls : Nat → List Op)
    (hv : ∀ t, ∀ op ∈ calls t, op.Valid) (xs ys : List Sched)
    (hgrow : (((Sys.start m calls).exec hash n (xs ++ ys)).mem.tab 0).newT = none) :
    (((Sys.start m calls).exec hash n xs).mem.tab 0).newT = none :=
  (h.still hs hv hgrow).newT xs (List.prefix_append ..)

/-- **C55 in a reopened map, partial: lock-freedom while the table does not grow.** As `c55_no_growth_partial`, for a session on a
file left by any number of crashed sessions: in a continuation `ys` of any execution `xs` in which threads numbered below `T` make
more than `T * (T + 1) * (15 * (10 + len / 4) + 61)` steps, none of them having finished all its calls before, some call returns.
Missing for the full claim: growth (refuted by `c55_not_lock_free`). -/
theorem c55_no_growth_reopened_partial (hs : Sized len cap) (h : Restarted hash len cap H m) (calls : Nat → List Op)
    (hv : ∀ t, ∀ op ∈ calls t, op.Valid) (T : Nat)
    (xs ys : List Sched) (hn : (xs ++ ys).length ≤ n)
    (hgrow : (((Sys.start m calls).exec hash n (xs ++ ys)).mem.tab 0).newT = none)
    (hthrow : ∀ t op todo, ((Sys.start m calls).exec hash n (xs ++ ys)).thr t ≠ .busy op (.halt .threw) todo)
    (hwork : ∀ t, .run t ∈ ys → t < T ∧ ((Sys.start m calls).exec hash n xs).thr t ≠ .idle [])
    (hlong : T * (T + 1) * (15 * (10 + len / 4) + 61) < ys.countP fun x => match x with | .run _ => true | .evict _ _ => false) :
    ∃ ev t op w, ((Sys.start m calls).exec hash n (xs ++ ys)).hist = ((Sys.start m calls).exec hash n xs).hist ++ ev ∧
      .res t op w ∈ ev := by
  have hstuck := fun t => never_stuck_reopened (hash := hash) hs h calls hv hn (hthrow t)
  have hub := c16_no_ub_reopened (hash := hash) (n := n) hs h calls hv (xs ++ ys)
  have hgrow1 := no_growth_before_reopened hs h calls hv xs ys hgrow
  rw [exec_append] at hgrow hub ⊢
  simp only [exec_append] at hstuck
  obtain ⟨b, N, g, hok⟩ := free_exec (hash := hash) (n := n) xs (free_start (h.calm hs) hv) hgrow1
  by_contra hno
  have := free_progress (T := T) ys hok hwork hgrow hub hstuck (fun ev he t op w hw => hno ⟨ev, t, op, w, he, hw⟩)
  have h2 := rest_le (T := T) hok
  have h3 : freeBound len + 1 = 15 * (10 + len / 4) + 61 := rfl
  rw [h3] at h2
  have h4 : ys.countP Sched.ofThread = ys.countP fun x => match x with | .run _ => true | .evict _ _ => false := by
    congr 1
  rw [h4] at this
  omega

/-- **C55 in a reopened map, partial: readers are wait-free while the table does not grow.** A thread that only reads has returned
from `k` of its calls, or from all, after `k * (15 * (10 + len / 4) + 62)` of its own steps, whatever the other threads do.
Missing for the full claim: growth (refuted by `c55_not_lock_free`). -/
theorem c55_readers_reopened_partial (hs : Sized len cap) (h : Restarted hash len cap H m) (calls : Nat → List Op)
    (hv : ∀ t, ∀ op ∈ calls t, op.Valid)
    (xs : List Sched) (hn : xs.length ≤ n) (hgrow : (((Sys.start m calls).exec hash n xs).mem.tab 0).newT = none) (t : Nat)
    (hread : ∀ op ∈ calls t, (∃ k, op = .get k) ∨ (∃ k, op = .containsKey k) ∨ op = .size ∨ op = .isEmpty)
    (k : Nat) (hk : k ≤ (calls t).length) (hx : k * (15 * (10 + len / 4) + 62) ≤ xs.count (.run t)) :
    k ≤ ((Sys.start m calls).exec hash n xs).hist.countP
        (fun e => match e with | .res t' _ _ => t' == t | .inv _ _ => false) ∧
      (k = (calls t).length → ((Sys.start m calls).exec hash n xs).thr t = .idle []) := by
  obtain ⟨N', h⟩ := reader_exec (t := t) (m := (calls t).length) (c := 0) (hash := hash) (n := n) xs
    (free_start (h.calm hs) hv) (s := Sys.start m calls)
    (by
      intro op ho
      rcases hread op ho with ⟨k, rfl⟩ | ⟨k, rfl⟩ | rfl | rfl <;> rfl)
    ⟨by simp [returned, Sys.start], fun _ => Nat.zero_le _⟩ hgrow (c16_no_ub_reopened hs h calls hv xs)
    (c13_fuel_lasts (Sys.start m calls) (fun t => ⟨calls t, rfl⟩) xs hn t)
  rw [Nat.zero_add] at h
  exact h.done hk hx

/-! ## C13 -/

/-- **C13 in a reopened map, partial, with several threads: while the table does not grow all calls end.** As
`c13_interleaved_partial`, for a session on a file left by any number of crashed sessions.  Missing: growth (`c55_not_lock_free`). -/
theorem c13_interleaved_reopened_partial (hs : Sized len cap) (h : Restarted hash len cap H m) (calls : Nat → List Op)
    (hv : ∀ t, ∀ op ∈ calls t, op.Valid) (T : Nat)
    (xs : List Sched) (hn : xs.length ≤ n) (hgrow : (((Sys.start m calls).exec hash n xs).mem.tab 0).newT = none)
    (hthrow : ∀ t op todo, ((Sys.start m calls).exec hash n xs).thr t ≠ .busy op (.halt .threw) todo)
    (hwork : ∀ xs1 t xs2, xs = xs1 ++ .run t :: xs2 → t < T ∧ ((Sys.start m calls).exec hash n xs1).thr t ≠ .idle []) :
    (xs.countP fun x => match x with | .run _ => true | .evict _ _ => false) <
      ((∑ t ∈ Finset.range T, (calls t).length) + 1) * (T * (T + 1) * (15 * (10 + len / 4) + 61) + 1) := by
  set p : Sched → Bool := fun x => match x with | .run _ => true | .evict _ _ => false with hp
  set C := T * (T + 1) * (15 * (10 + len / 4) + 61) with hC
  -- after `k` portions at least `k` calls have returned
  have key : ∀ k, k * (C + 1) ≤ xs.countP p → ∃ a b, xs = a ++ b ∧ a.countP p = k * (C + 1) ∧
      k ≤ ∑ t ∈ Finset.range T, (returnedOf t ((Sys.start m calls).exec hash n a).hist).length := by
    intro k
    induction k with
    | zero => intro _; exact ⟨[], xs, rfl, by simp, Nat.zero_le _⟩
    | succ k ih =>
      intro hk
      rw [Nat.succ_mul] at hk
      obtain ⟨a, b, rfl, ha, hr⟩ := ih (by omega)
      rw [List.countP_append, ha] at hk
      obtain ⟨c, d, rfl, hc⟩ := split_count (p := p) b (C + 1) (by omega)
      refine ⟨a ++ c, d, by rw [List.append_assoc], by rw [List.countP_append, ha, hc, Nat.succ_mul], ?_⟩
      rw [← List.append_assoc] at hgrow hn hthrow
      obtain ⟨ev, t, op, w, h1, h2⟩ := c55_no_growth_reopened_partial (hash := hash) (n := n) hs h calls hv T a c
        (by rw [List.length_append] at hn; omega) (no_growth_before_reopened hs h calls hv _ _ hgrow)
        (fun t op todo e => hthrow t op todo (by rw [exec_append]; exact halt_exec d e))
        (fun t ht => by
          obtain ⟨c1, c2, rfl⟩ := List.append_of_mem ht
          obtain ⟨h1, h2⟩ := hwork (a ++ c1) t (c2 ++ d) (by simp)
          exact ⟨h1, fun e => h2 (by rw [exec_append]; exact idle_exec c1 e)⟩)
        (by rw [← hp, hc]; omega)
      have ht : t < T := by
        have hx := h1
        rw [exec_append] at hx
        obtain ⟨c1, c2, rfl⟩ := List.append_of_mem (res_ran c hx h2)
        exact (hwork (a ++ c1) t (c2 ++ d) (by simp)).1
      refine Nat.lt_of_le_of_lt hr (Finset.sum_lt_sum (fun u _ => ?_) ⟨t, Finset.mem_range.mpr ht, ?_⟩)
      · rw [h1, Harness.returnedOf_append, List.length_append]; omega
      · rw [h1, Harness.returnedOf_append, List.length_append]
        have h3 : op ∈ returnedOf t ev := List.mem_filterMap.mpr ⟨_, h2, by simp⟩
        have := List.length_pos_of_mem h3
        omega
  by_contra hlt
  obtain ⟨a, b, rfl, -, h⟩ := key _ (Nat.le_of_not_lt hlt)
  have : ∑ t ∈ Finset.range T, (returnedOf t ((Sys.start m calls).exec hash n a).hist).length ≤
      ∑ t ∈ Finset.range T, (calls t).length := by
    refine Finset.sum_le_sum fun t _ => ?_
    have := congrArg List.length (Harness.returned_exec (hash := hash) (n := n) a (Sys.start m calls) t)
    simp only [List.length_append, Sys.start, Harness.pendingOps, returnedOf, List.filterMap_nil, List.length_nil] at this ⊢
    omega
  omega

/-! ## Cases that meet the hypotheses -/

/-- In the map reopened after `orphanSys` (which holds key 72 where no probe reaches it), thread 0 stores 72, thread 1 stores 8 and
16, and thread 2 reads.  No two calls store the same. -/
def readCalls : Nat → List Op :=
  callsOf [.put 72#64 32#64, .put 72#64 40#64] [.put 8#64 48#64, .put 16#64 56#64] [.get 72#64, .get 8#64] []
def readSched : List Sched := steps 0 40 ++ steps 1 20 ++ steps 2 40 ++ steps 1 60 ++ steps 0 10 ++ [.evict 0 3]
def readSys : Sys := (Sys.start orphanMem readCalls).exec (fun x => x >>> 3) 30 readSched

theorem read_valid : ∀ t, ∀ op ∈ readCalls t, op.Valid := fun t op h => by
  rcases mem_callsOf h with ⟨-, g⟩ | ⟨-, g⟩ | ⟨-, g⟩ | ⟨-, g⟩ <;> clear h <;> revert op <;> decide

theorem read_new : ∀ i, i < 8 → ∀ t, ∀ op ∈ readCalls t,
    op.stores ≠ some (clean (orphanMem.word (.key 0 i)), clean (orphanMem.word (.val 0 i))) := by
  have hw : ∀ i, i < 8 →
      ∀ op ∈ ([.put 72#64 32#64, .put 72#64 40#64] ++ [.put 8#64 48#64, .put 16#64 56#64] ++ [.get 72#64, .get 8#64] : List Op),
        op.stores ≠ some (clean (orphanMem.word (.key 0 i)), clean (orphanMem.word (.val 0 i))) := by decide +kernel
  intro i hi t op hop
  refine hw i hi op ?_
  rcases mem_callsOf hop with ⟨-, h⟩ | ⟨-, h⟩ | ⟨-, h⟩ | ⟨-, h⟩
  · exact List.mem_append_left _ (List.mem_append_left _ h)
  · exact List.mem_append_left _ (List.mem_append_right _ h)
  · exact List.mem_append_right _ h
  · cases h

theorem read_noReturn : ∀ i, i < 8 → NoReturn (fun x => x >>> 3) 30 (Sys.start orphanMem readCalls) readSched (.val 0 i) := by
  have h1 : (((Sys.start orphanMem readCalls).exec (fun x => x >>> 3) 30 readSched).mem.tab 0).newT = none := by decide +kernel
  have hw : ∀ i, i < 8 → clean (orphanMem.word (.val 0 i)) = VINITIAL ∨ clean (orphanMem.word (.key 0 i)) ≠ KINITIAL := by
    decide +kernel
  intro i hi
  refine noReturn_of_distinct (fun t => ⟨_, rfl, read_valid t⟩) (fun _ => rfl) (distinct_callsOf (by decide) (by decide)) ?_
    (orphan_restarted.still sized8 read_valid h1) hi
  rw [start_mem]
  exact (hw i hi).imp id fun h => ⟨h, read_new i hi⟩

/-- So `c23_read_survives_reopened_partial` says something of this session, in which thread 2 has read 40 under key 72. -/
example {l1 l2 : List Event} (he : readSys.hist = l1 ++ .res 2 (.get 72#64) (.word 40#64) :: l2) :=
  c23_read_survives_reopened_partial (n := 30) sized8 orphan_restarted readCalls read_valid readSched
    (by decide +kernel : (readSys.mem.tab 0).newT = none) read_noReturn (by decide) he

example {l1 l2 : List Event} (he : readSys.hist = l1 ++ .res 2 (.get 72#64) (.word 40#64) :: l2) :=
  c23_distinct_values_reopened_partial (n := 30) sized8 orphan_restarted readCalls read_valid
    (distinct_callsOf (by decide) (by decide)) read_new readSched
    (by decide +kernel : (readSys.mem.tab 0).newT = none) (by decide) he

example : .res 2 (.get 72#64) (.word 40#64) ∈ readSys.hist ∧
    (match restart readSys.mem readSys.mem.nv with
      | .done _ m => (runOps (fun x => x >>> 3) 30 [.get 72#64, .get 8#64, .get 16#64] m).val?
      | .halted _ => none) = some [.word 40#64, .word 48#64, .word VINITIAL] := by decide +kernel

/-- One thread alone on the same file, stopped in its third call. -/
def onceCalls : Nat → List Op := callsOf [.put 72#64 32#64, .get 72#64, .put 72#64 40#64] [] [] []
def onceSched : List Sched := steps 0 45 ++ [.evict 0 1]
def onceSys : Sys := (Sys.start orphanMem onceCalls).exec (fun x => x >>> 3) 30 onceSched

theorem once_valid : ∀ t, ∀ op ∈ onceCalls t, op.Valid := fun t op h => by
  rcases mem_callsOf h with ⟨-, g⟩ | ⟨-, g⟩ | ⟨-, g⟩ | ⟨-, g⟩ <;> clear h <;> revert op <;> decide

theorem once_only : ∀ x ∈ onceSched, x.Only 0 := by
  intro x hx
  rcases List.mem_append.mp hx with h | h
  · rw [List.eq_of_mem_replicate h]; exact rfl
  · rw [List.mem_singleton.mp h]; trivial

example {l1 l2 : List Event} (he : onceSys.hist = l1 ++ .res 0 (.get 72#64) (.word 32#64) :: l2) :=
  c23_one_thread_reopened_partial (n := 30) sized8 orphan_restarted onceCalls once_valid 0 onceSched once_only
    (by decide +kernel : (onceSys.mem.tab 0).newT = none) (by decide) he

example : .res 0 (.get 72#64) (.word 32#64) ∈ onceSys.hist ∧ onceSys.hist.length = 5 ∧
    isDirty (onceSys.mem.word (.key 0 1)) = false ∧ onceSys.mem.word (.key 0 1) = 72#64 ∧
    (match restart onceSys.mem onceSys.mem.nv with
      | .done _ m => (run (mapGet (fun x => x >>> 3) 30 72#64) m).val?
      | .halted _ => none) = some 32#64 := by decide +kernel

/-- In the reopened map thread 0 is stopped in the middle of a put, and thread 1 reads for ever. -/
def haltCalls : Nat → List Op := callsOf [.put 16#64 8#64] (List.replicate 300 (.get 72#64)) [] []
def haltA : List Sched := steps 0 18
def haltB : List Sched := steps 1 1447
def haltSys : Sys := (Sys.start orphanMem haltCalls).exec (fun x => x >>> 3) 1465 (haltA ++ haltB)

theorem mem_haltA {x : Sched} (h : x ∈ haltA) : x = .run 0 := List.eq_of_mem_replicate h
theorem mem_haltB {x : Sched} (h : x ∈ haltB) : x = .run 1 := List.eq_of_mem_replicate h

/-- What is checked of it. -/
def haltCheck (s : Sys) : Bool :=
  (match s.thr 0 with | .busy _ (.act (.cas _ _ _) _) _ => true | _ => false) &&
  (match s.thr 1 with | .busy _ (.halt _) _ => false | .idle [] => false | _ => true) && (s.mem.tab 0).newT == none

theorem halt_ok : haltCheck haltSys = true := by decide +kernel

theorem halt_len : (haltA ++ haltB).length ≤ 1465 := by
  rw [haltA, haltB, steps, steps, List.length_append, List.length_replicate, List.length_replicate]

theorem halt_countP : haltB.countP (fun x => match x with | .run _ => true | .evict _ _ => false) = 1447 := by
  rw [haltB, steps, List.countP_replicate]; rfl

theorem halt_count : 1447 ≤ (haltA ++ haltB).count (.run 1) := by
  rw [List.count_append, haltA, haltB, steps, steps, List.count_replicate_self]; exact Nat.le_add_left _ _

attribute [local irreducible] haltA haltB

theorem halt_valid : ∀ t, ∀ op ∈ haltCalls t, op.Valid := fun t op h => by
  rcases mem_callsOf h with ⟨-, g⟩ | ⟨-, g⟩ | ⟨-, g⟩ | ⟨-, g⟩
  · clear h; revert op; decide
  · rw [List.eq_of_mem_replicate g]; decide
  · cases g
  · cases g

theorem halt_state : (∃ op ad e v f todo, haltSys.thr 0 = .busy op (.act (.cas ad e v) f) todo) ∧ (haltSys.mem.tab 0).newT = none ∧
    (∀ t op y todo, haltSys.thr t ≠ .busy op (.halt y) todo) ∧ haltSys.thr 1 ≠ .idle [] := by
  have h := halt_ok
  rw [haltCheck] at h
  simp only [Bool.and_eq_true, beq_iff_eq] at h
  obtain ⟨⟨c0, c1⟩, c2⟩ := h
  have h0 : ∃ op ad e v f todo, haltSys.thr 0 = .busy op (.act (.cas ad e v) f) todo := by
    cases hx : haltSys.thr 0 with
    | idle l => rw [hx] at c0; cases c0
    | busy op p l =>
      rw [hx] at c0
      cases p with
      | ret a => cases c0
      | halt y => cases c0
      | act a f => cases a <;> first | exact ⟨_, _, _, _, _, _, rfl⟩ | cases c0
  refine ⟨h0, c2, fun t op y todo e => ?_, fun e => by rw [e] at c1; cases c1⟩
  by_cases t0 : t = 0
  · subst t0
    obtain ⟨_, _, _, _, _, _, e'⟩ := h0
    rw [e'] at e; cases e
  by_cases t1 : t = 1
  · subst t1; rw [e] at c1; cases c1
  have : haltSys.thr t = (Sys.start orphanMem haltCalls).thr t := exec_other _ _ (by
    intro hm
    rcases List.mem_append.mp hm with hm | hm
    · exact t0 (Sched.run.inj (mem_haltA hm))
    · exact t1 (Sched.run.inj (mem_haltB hm)))
  rw [this] at e
  cases e

/-- Every step of it is one of a thread that has something to do. -/
theorem halt_work (xs1 : List Sched) (t : Nat) (xs2 : List Sched) (hx : haltA ++ haltB = xs1 ++ .run t :: xs2) :
    t < 2 ∧ ((Sys.start orphanMem haltCalls).exec (fun x => x >>> 3) 1465 xs1).thr t ≠ .idle [] := by
  obtain ⟨⟨op, ad, e, v, f, todo, h2⟩, -, -, h5⟩ := halt_state
  rw [haltSys, hx, exec_append] at h2 h5
  have ht : t = 0 ∨ t = 1 := by
    have : .run t ∈ haltA ++ haltB := by rw [hx]; simp
    rcases List.mem_append.mp this with h | h
    · exact .inl (Sched.run.inj (mem_haltA h))
    · exact .inr (Sched.run.inj (mem_haltB h))
  rcases ht with rfl | rfl
  · exact ⟨by decide, fun e => by rw [idle_exec _ e] at h2; cases h2⟩
  · exact ⟨by decide, fun e => h5 (idle_exec _ e)⟩

/-- So the theorems on progress say something of this session: some call returns in the 1447 steps, the reader returns from five of
its calls, and the number of steps is below the bound. -/
example := c55_no_growth_reopened_partial (n := 1465) sized8 orphan_restarted haltCalls halt_valid 2 haltA haltB halt_len
  halt_state.2.1 (fun t op todo => halt_state.2.2.1 t op .threw todo)
  (fun t ht => by
    obtain rfl : t = 1 := Sched.run.inj (mem_haltB ht)
    refine ⟨by decide, fun e => ?_⟩
    have := halt_state.2.2.2
    rw [haltSys, exec_append] at this
    exact this (idle_exec _ e))
  (by rw [halt_countP]; decide)

example := c55_readers_reopened_partial (n := 1465) sized8 orphan_restarted haltCalls halt_valid (haltA ++ haltB) halt_len halt_state.2.1 1
  (fun op ho => .inl ⟨72#64, List.eq_of_mem_replicate ho⟩) 5
  (by rw [show haltCalls 1 = List.replicate 300 (.get 72#64) from rfl, List.length_replicate]; decide)
  (Nat.le_trans (by decide) halt_count)

example := c13_interleaved_reopened_partial (n := 1465) sized8 orphan_restarted haltCalls halt_valid 2 (haltA ++ haltB) halt_len
  halt_state.2.1
  (fun t op todo => halt_state.2.2.1 t op .threw todo) halt_work

end PMap
