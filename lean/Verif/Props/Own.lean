import Verif.Own.Phases
import Verif.Props.Witness

/-!
# C18, C19, C21 and C50 when each key has one writer

Any number of threads work on a map that starts empty.  Everybody may read every key, but each key is changed by one thread
only.  Either the table has not grown yet (the theorems named `no_growth`), or the keys are few enough, or spread well enough,
that it never grows (the others).  All calls are allowed.
-/

namespace PMap

open Prog

variable {hash : Word → Word} {len cap n : Nat} {S : Finset Word} {own : Word → Nat}

/-! ## C18 -/

/-- **C18, partial.** When each key has one writer and no second table has been allocated yet, every history of calls other than
`update`, by any number of threads on any keys under any schedule, is linearizable as it stands; no thread has met undefined
behaviour or failed an assertion.  Missing for the full claim: two writers of the same key (refuted by `c18_not_linearizable`)
and growth (refuted by `c18_growth_not_linearizable`, with a single writer). -/
theorem c18_one_writer_no_growth_partial (hs : Sized len cap) {calls : Nat → List Op}
    (hc : ∀ t, ∀ op ∈ calls t, op.Mine own t ∧ op.isUpdate = false) (xs : List Sched)
    (h1 : ((Sys.init len cap calls).exec hash n xs).mem.next ≤ 1) :
    Linearizable ((Sys.init len cap calls).exec hash n xs).hist ∧
      ((Sys.init len cap calls).exec hash n xs).ub = false ∧ ((Sys.init len cap calls).exec hash n xs).mem.failed = false := by
  obtain ⟨M, sz, P, fx, h⟩ := calm_start (A := fun t op => op.Mine own t ∧ op.isUpdate = false) (ctr := fun _ => False) hs
    (fun t op h e => by rw [h.2] at e; cases e) (fun t op h => ⟨h.1, room_of_plain h.2⟩) hc xs (le_refl _) h1
  refine ⟨?_, h.noub, h.inv.ok⟩
  have := h.lin.run [] .nil
  rwa [List.append_nil] at this

/-- **C18, partial.** When each key has one writer and the table has room, every history of calls other than `update`, by any
number of threads under any schedule, is linearizable as it stands; no thread meets undefined behaviour or fails an assertion.
Missing for the full claim: two writers of the same key (refuted by `c18_not_linearizable`) and growth (refuted by
`c18_growth_not_linearizable`, with a single writer). -/
theorem c18_one_writer_partial (hs : Sized len cap) (hR : Roomy hash len S) {calls : Nat → List Op}
    (hc : ∀ t, ∀ op ∈ calls t, op.By S own t ∧ op.isUpdate = false) (xs : List Sched) :
    Linearizable ((Sys.init len cap calls).exec hash n xs).hist ∧
      ((Sys.init len cap calls).exec hash n xs).ub = false ∧ ((Sys.init len cap calls).exec hash n xs).mem.failed = false := by
  exact c18_one_writer_no_growth_partial hs (fun t op h => ⟨(hc t op h).1.mine, (hc t op h).2⟩) xs
    (roomy_next (A := fun t op => op.By S own t ∧ op.isUpdate = false) (ctr := fun _ => False) hs hR
      (fun t op h e => by rw [h.2] at e; cases e) (fun t op h => ⟨h.1, room_of_plain h.2⟩) hc xs (le_refl _))

/-- **C18, partial**, with increments: the same until the table grows when threads also increment their keys (those in `ctr`), as
long as no counter can reach the reserved words within the increments made. -/
theorem c18_one_writer_increments_no_growth_partial (hs : Sized len cap) {ctr : Word → Prop} {U : Nat}
    (hU : 8 * U < LIM) {calls : Nat → List Op} (hc : ∀ t, ∀ op ∈ calls t, op.Mine own t ∧ op.Room ctr U) (xs : List Sched)
    (hn : ((Sys.init len cap calls).exec hash n xs).hist.countP Event.updBegins ≤ U)
    (h1 : ((Sys.init len cap calls).exec hash n xs).mem.next ≤ 1) :
    Linearizable ((Sys.init len cap calls).exec hash n xs).hist ∧
      ((Sys.init len cap calls).exec hash n xs).ub = false ∧ ((Sys.init len cap calls).exec hash n xs).mem.failed = false := by
  rw [← begTids_upd] at hn
  obtain ⟨M, sz, P, fx, h⟩ := calm_start (A := fun t op => op.Mine own t ∧ op.Room ctr U) hs (fun _ _ _ _ => hU) (fun t op h => h) hc xs
    hn h1
  refine ⟨?_, h.noub, h.inv.ok⟩
  have := h.lin.run [] .nil
  rwa [List.append_nil] at this

/-- **C18, partial**, with increments: the same when threads also increment their keys (those in `ctr`), as long as no
counter can reach the reserved words within the increments made. -/
theorem c18_one_writer_increments_partial (hs : Sized len cap) (hR : Roomy hash len S) {ctr : Word → Prop} {U : Nat}
    (hU : 8 * U < LIM) {calls : Nat → List Op} (hc : ∀ t, ∀ op ∈ calls t, op.By S own t ∧ op.Room ctr U) (xs : List Sched)
    (hn : ((Sys.init len cap calls).exec hash n xs).hist.countP Event.updBegins ≤ U) :
    Linearizable ((Sys.init len cap calls).exec hash n xs).hist ∧
      ((Sys.init len cap calls).exec hash n xs).ub = false ∧ ((Sys.init len cap calls).exec hash n xs).mem.failed = false :=
  c18_one_writer_increments_no_growth_partial hs hU (fun t op h => ⟨(hc t op h).1.mine, (hc t op h).2⟩) xs hn
    (roomy_next hs hR (fun _ _ _ _ => hU) (fun t op h => h) hc xs (by rwa [begTids_upd]))

/-- The example of this file: thread 0 owns the keys 8 and 72 (which have the same home slot), thread 1 the key 16. -/
def ownCalls : Nat → List Op :=
  callsOf [.put 8#64 80#64, .replace 8#64 80#64 88#64, .removeIf 8#64 88#64] [.putIfAbsent 16#64 160#64, .get 72#64, .remove 16#64]
    [.get 8#64, .containsKey 16#64, .get 96#64] [.size]

/-- The keys of the example. -/
def ownKeys : Finset Word := {8#64, 16#64, 72#64}

/-- The owners of the example. -/
def ownOwner (k : Word) : Nat := if k = 16#64 then 1 else 0

theorem own_calls : ∀ t, ∀ op ∈ ownCalls t, op.By ownKeys ownOwner t ∧ op.isUpdate = false := by
  have key : ∀ t op, (op ∈ ownCalls t) → t < 4 := by
    intro t op h
    unfold ownCalls callsOf at h
    by_contra hge
    rw [if_neg (by omega), if_neg (by omega), if_neg (by omega), if_neg (by omega)] at h
    cases h
  intro t op h
  have ht := key t op h
  have : t = 0 ∨ t = 1 ∨ t = 2 ∨ t = 3 := by omega
  rcases this with rfl | rfl | rfl | rfl <;>
    simp only [ownCalls, callsOf, if_true, Nat.one_ne_zero, if_false, OfNat.ofNat_ne_zero, OfNat.ofNat_ne_one, Nat.reduceEqDiff,
      List.mem_cons, List.not_mem_nil, or_false] at h
  · rcases h with rfl | rfl | rfl
    · exact ⟨⟨by decide, fun k e => by cases e; decide, fun k v e => by cases e⟩, rfl⟩
    · exact ⟨⟨by decide, fun k e => by cases e; decide, fun k v e => by cases e⟩, rfl⟩
    · exact ⟨⟨by decide, fun k e => by cases e; decide, fun k v e => by cases e⟩, rfl⟩
  · rcases h with rfl | rfl | rfl
    · exact ⟨⟨by decide, fun k e => by cases e; decide, fun k v e => by cases e⟩, rfl⟩
    · exact ⟨⟨(by decide : ValidKey _), fun k e => (by cases e), fun k v e => by cases e⟩, rfl⟩
    · exact ⟨⟨(by decide : ValidKey _), fun k e => by cases e; decide, fun k v e => by cases e⟩, rfl⟩
  · rcases h with rfl | rfl | rfl
    · exact ⟨⟨(by decide : ValidKey _), fun k e => (by cases e), fun k v e => by cases e⟩, rfl⟩
    · exact ⟨⟨(by decide : ValidKey _), fun k e => (by cases e), fun k v e => by cases e⟩, rfl⟩
    · exact ⟨⟨(by decide : ValidKey _), fun k e => (by cases e), fun k v e => by cases e⟩, rfl⟩
  · rcases h with rfl
    exact ⟨⟨trivial, fun k e => (by cases e), fun k v e => by cases e⟩, rfl⟩

theorem own_roomy : Roomy (fun x => x >>> 3) 8 ownKeys :=
  roomy_of_ten (fun k hk => by
    simp only [ownKeys, Finset.mem_insert, Finset.mem_singleton] at hk
    rcases hk with rfl | rfl | rfl <;> decide) (by decide) (by decide)

/-- The schedule of the example. -/
def ownSched : List Sched := steps 0 24 ++ steps 1 9 ++ steps 2 12 ++ steps 0 16 ++ steps 1 40 ++ steps 2 20 ++ steps 0 22 ++
  steps 3 4 ++ steps 2 20

theorem own_hist : ((Sys.init 8 64 ownCalls).exec (fun x => x >>> 3) 30 ownSched).hist =
    [.inv 0 (.put 8#64 80#64), .inv 1 (.putIfAbsent 16#64 160#64), .inv 2 (.get 8#64),
      .res 0 (.put 8#64 80#64) (.word VINITIAL), .inv 0 (.replace 8#64 80#64 88#64),
      .res 1 (.putIfAbsent 16#64 160#64) (.word VINITIAL), .inv 1 (.get 72#64), .res 2 (.get 8#64) (.word 80#64),
      .inv 2 (.containsKey 16#64), .res 2 (.containsKey 16#64) (.bool true), .inv 2 (.get 96#64),
      .res 0 (.replace 8#64 80#64 88#64) (.bool true), .inv 0 (.removeIf 8#64 88#64), .res 0 (.removeIf 8#64 88#64) (.bool true),
      .inv 3 .size, .res 3 .size (.word 1#64), .res 2 (.get 96#64) (.word VINITIAL)] := by decide +kernel

/-- `c18_one_writer_partial` is not vacuous: the hypotheses hold, and the history has overlapping calls. -/
example : Sized 8 64 ∧ Roomy (fun x => x >>> 3) 8 ownKeys ∧
    (∀ t, ∀ op ∈ ownCalls t, op.By ownKeys ownOwner t ∧ op.isUpdate = false) ∧
    ((Sys.init 8 64 ownCalls).exec (fun x => x >>> 3) 30 ownSched).hist.length = 17 :=
  ⟨⟨⟨3, by decide, rfl⟩, by decide⟩, own_roomy, own_calls, by rw [own_hist]; rfl⟩

/-- A table can be filled completely: 4 keys with 4 different home slots in a table of 4. -/
example : Roomy (fun x => x >>> 3) 4 {8#64, 16#64, 24#64, 32#64} :=
  roomy_of_inj (fun k hk => by
    simp only [Finset.mem_insert, Finset.mem_singleton] at hk
    rcases hk with rfl | rfl | rfl | rfl <;> decide) (by decide) (fun k hk k' hk' => by
    simp only [Finset.mem_insert, Finset.mem_singleton] at hk hk'
    rcases hk with rfl | rfl | rfl | rfl <;> rcases hk' with rfl | rfl | rfl | rfl <;> decide)

/-! ## Growth -/

/-- In a linearizable history of puts and gets, once a put of `k` has returned, no get of `k` that begins later finds it
absent. -/
theorem lin_put_then_get {M : AMap} {P : Nat → CallState} {es : List Event} (h : LinRun M P es) (t : Nat) (k w : Word)
    (r : Res) (pre rest : List Event) (hes : es = pre ++ .res t (.put k w) r :: rest)
    (hall : ∀ t op, .inv t op ∈ es → PG op) (hpre : ∀ t, .inv t (.get k) ∉ pre)
    (hM : ∀ k, M k ≠ some VINITIAL)
    (hc : ∀ t op, P t = .called op → PG op ∧ op ≠ .get k)
    (he : ∀ t op r, P t = .effected op r → op ≠ .get k ∧ ∀ a b, op = .put a b → M a ≠ none) :
    ∀ t', .res t' (.get k) (.word VINITIAL) ∉ rest := by
  induction h generalizing pre with
  | nil => cases pre <;> cases hes
  | @inv M P es tid op hi _ ih =>
    cases pre with
    | nil => cases hes
    | cons e pre =>
      rw [List.cons_append] at hes
      injection hes with h1 h2
      refine ih pre h2 (fun t op h => hall t op (List.mem_cons_of_mem _ h)) (fun t h => hpre t (List.mem_cons_of_mem _ h)) hM ?_ ?_
      · intro t'' op'' h'
        unfold upd at h'
        split at h'
        · cases h'
          refine ⟨hall tid op (List.mem_cons_self ..), ?_⟩
          rintro rfl
          exact hpre tid (by rw [← h1]; exact List.mem_cons_self ..)
        · exact hc _ _ h'
      · intro t'' op'' r'' h'
        unfold upd at h'
        split at h'
        · cases h'
        · exact he _ _ _ h'
  | @effect M P es tid op r' hi hr _ ih =>
    obtain ⟨hpg, hng⟩ := hc tid op hi
    refine ih pre hes hall hpre ?_ ?_ ?_
    · intro k2
      rcases hpg with ⟨k', v', rfl, hv'⟩ | ⟨k', rfl⟩
      · show (M.set k' v') k2 ≠ _
        unfold AMap.set
        split
        · intro e; cases e; exact hv' rfl
        · exact hM k2
      · exact hM k2
    · intro t'' op'' h'
      unfold upd at h'
      split at h'
      · cases h'
      · exact hc _ _ h'
    · have hkeep : ∀ a, M a ≠ none → specNext op M a ≠ none := by
        intro a ha
        rcases hpg with ⟨k', v', rfl, hv'⟩ | ⟨k', rfl⟩
        · show (M.set k' v') a ≠ none
          unfold AMap.set
          split
          · simp
          · exact ha
        · exact ha
      intro t'' op'' r'' h'
      unfold upd at h'
      split at h'
      · cases h'
        refine ⟨hng, ?_⟩
        rintro a b rfl
        show (M.set a b) a ≠ none
        simp [AMap.set]
      · obtain ⟨h1, h2⟩ := he _ _ _ h'
        exact ⟨h1, fun a b e => hkeep a (h2 a b e)⟩
  | @res M P es tid op r' hi h ih =>
    cases pre with
    | cons e pre =>
      rw [List.cons_append] at hes
      injection hes with h1 h2
      refine ih pre h2 (fun t op h => hall t op (List.mem_cons_of_mem _ h)) (fun t h => hpre t (List.mem_cons_of_mem _ h)) hM ?_ ?_
      · intro t'' op'' h'
        unfold upd at h'
        split at h'
        · cases h'
        · exact hc _ _ h'
      · intro t'' op'' r'' h'
        unfold upd at h'
        split at h'
        · cases h'
        · exact he _ _ _ h'
    | nil =>
      rw [List.nil_append] at hes
      injection hes with h1 h2
      cases h1
      subst h2
      have hk := (he _ _ _ hi).2 k w rfl
      obtain ⟨v, hv⟩ := Option.ne_none_iff_exists'.mp hk
      refine lin_present h k ?_ (fun t op h => hall t op (List.mem_cons_of_mem _ h)) ⟨v, hv, fun e => hM k (by rw [hv, e])⟩ ?_
      · intro t' op' h'
        unfold upd at h'
        split at h'
        · cases h'
        · exact (hc _ _ h').1
      · intro t' h'
        unfold upd at h'
        split at h'
        · cases h'
        · exact (he _ _ _ h').1 rfl

/-- One thread puts three keys into a table of two slots, three others only read. -/
def readersSys : Sys := (Sys.init 2 64 (callsOf [.put 16#64 8#64, .put 8#64 8#64, .put 24#64 8#64] [.get 16#64] [.get 16#64]
  [.get 8#64])).exec (fun x => x >>> 3) 30
  (steps 0 114 ++ steps 1 27 ++ steps 2 31 ++ steps 1 1 ++ steps 2 1 ++ steps 1 60 ++ steps 2 60 ++ steps 3 40)

theorem readers_hist : readersSys.hist = [.inv 0 (.put 16#64 8#64), .res 0 (.put 16#64 8#64) (.word VINITIAL), .inv 0 (.put 8#64 8#64)] ++
    .res 0 (.put 8#64 8#64) (.word VINITIAL) :: [.inv 0 (.put 24#64 8#64), .inv 1 (.get 16#64), .inv 2 (.get 16#64),
      .res 1 (.get 16#64) (.word 8#64), .res 2 (.get 16#64) (.word 8#64), .inv 3 (.get 8#64),
      .res 3 (.get 8#64) (.word VINITIAL)] := by decide +kernel

/-- **C18 is false of the code with a single writer when the table grows.** One thread puts three keys; while its third put
grows the table, two readers of another key help with the migration, both place that key in the new table and both count its
slot as migrated, so the table is retired too early; a reader that starts later does not find the key 8, whose put had
returned and which nobody removes. -/
theorem c18_growth_not_linearizable : ¬ Linearizable readersSys.hist := by
  rw [readers_hist]
  intro h
  refine lin_put_then_get h 0 8#64 8#64 (.word VINITIAL) _ _ rfl ?_ ?_ (fun k h => by cases h) (fun t op h => by cases h)
    (fun t op r h => by cases h) 3 (by simp)
  · intro t op hop
    simp only [List.cons_append, List.nil_append, List.mem_cons, List.not_mem_nil, or_false, Event.inv.injEq, reduceCtorEq, false_or] at hop
    rcases hop with ⟨-, rfl⟩ | ⟨-, rfl⟩ | ⟨-, rfl⟩ | ⟨-, rfl⟩ | ⟨-, rfl⟩ | ⟨-, rfl⟩
    · exact .inl ⟨_, _, rfl, by decide⟩
    · exact .inl ⟨_, _, rfl, by decide⟩
    · exact .inl ⟨_, _, rfl, by decide⟩
    · exact .inr ⟨_, rfl⟩
    · exact .inr ⟨_, rfl⟩
    · exact .inr ⟨_, rfl⟩
  · intro t h
    simp at h

/-- **C20 is false of the code**, with one writer: the helpers that retire the table too early need only be readers. -/
theorem c20_readers_retire_early : readersSys.mem.root = 1 ∧ (readersSys.mem.tab 0).copyDone = 2 ∧
    (readersSys.mem.tab 0).len = 2 ∧ readersSys.mem.word (.key 0 1) = 8#64 ∧ readersSys.mem.word (.val 0 1) = 8#64 := by
  decide +kernel

/-! ## C19 -/

/-- **C19, partial.** When each key has one writer, no call that returns before the table grows returns a word with a mark: what
`get`, `put`, `putIfAbsent`, `putIfMatch` and `update` return is the "absent" word or a value a user can store.  Missing for the
full claim: two writers of a key (refuted by `c19_dirty_result`) and growth. -/
theorem c19_one_writer_no_growth_partial (hs : Sized len cap) {ctr : Word → Prop} {U : Nat}
    (hU : 8 * U < LIM) {calls : Nat → List Op} (hc : ∀ t, ∀ op ∈ calls t, op.Mine own t ∧ op.Room ctr U) (xs : List Sched)
    (hn : ((Sys.init len cap calls).exec hash n xs).hist.countP Event.updBegins ≤ U)
    (h1 : ((Sys.init len cap calls).exec hash n xs).mem.next ≤ 1) {t : Nat} {op : Op} {w : Word}
    (ht : op.tells = true) (hw : .res t op (.word w) ∈ ((Sys.init len cap calls).exec hash n xs).hist) :
    w = VINITIAL ∨ ValidVal w := by
  rw [← begTids_upd] at hn
  obtain ⟨M, sz, P, fx, h⟩ := calm_start (A := fun t op => op.Mine own t ∧ op.Room ctr U) hs (fun _ _ _ _ => hU) (fun t op h => h) hc xs
    hn h1
  exact (h.lin.words (ctr := ctr) (U := U) (fun k v e => by cases e) (fun k v _ e => by cases e)
    (fun x hx => ⟨(h.fx x hx).1.valid, (h.fx x hx).2, fun _ => hU⟩) (le_trans (h.lin.eff_le _) hn)).2.2 t op w hw ht

/-- **C19, partial.** When each key has one writer and the table has room, no call returns a word with a mark: what `get`,
`put`, `putIfAbsent`, `putIfMatch` and `update` return is the "absent" word or a value a user can store.  Missing for the full
claim: two writers of a key (refuted by `c19_dirty_result`). -/
theorem c19_one_writer_partial (hs : Sized len cap) (hR : Roomy hash len S) {ctr : Word → Prop} {U : Nat}
    (hU : 8 * U < LIM) {calls : Nat → List Op} (hc : ∀ t, ∀ op ∈ calls t, op.By S own t ∧ op.Room ctr U) (xs : List Sched)
    (hn : ((Sys.init len cap calls).exec hash n xs).hist.countP Event.updBegins ≤ U) {t : Nat} {op : Op} {w : Word}
    (ht : op.tells = true) (hw : .res t op (.word w) ∈ ((Sys.init len cap calls).exec hash n xs).hist) :
    w = VINITIAL ∨ ValidVal w :=
  c19_one_writer_no_growth_partial hs hU (fun t op h => ⟨(hc t op h).1.mine, (hc t op h).2⟩) xs hn
    (roomy_next hs hR (fun _ _ _ _ => hU) (fun t op h => h) hc xs (by rwa [begTids_upd])) ht hw

/-- `c19_one_writer_partial` is not vacuous: a get returns the value of a put that is still in progress. -/
example : (Op.get 8#64).tells = true ∧ (.res 2 (.get 8#64) (.word 80#64)) ∈ ((Sys.init 8 64 ownCalls).exec (fun x => x >>> 3) 30 ownSched).hist := by
  rw [own_hist]; decide

/-! ## C21 -/

/-- **C21, partial.** One thread increments the key `k`, which is not in the map at first, and everybody may read it.  At any
moment before the table grows `get` shows at least 8 (one increment, hashMap.hpp:91) for each increment of `k` that has returned and at most 8 for each
one that has begun, and when no call is in progress exactly 8 for each one made (the key is absent if there is none).  Missing
for the full claim: a key first incremented by several threads (refuted by `c21_lost_increment`). -/
theorem c21_one_writer_no_growth_partial (hs : Sized len cap) {ctr : Word → Prop} {U : Nat}
    (hU : 8 * U < LIM) {k : Word} (hk : ValidKey k) {calls : Nat → List Op}
    (hc : ∀ t, ∀ op ∈ calls t, (op.Mine own t ∧ op.Room ctr U) ∧ op.writes ≠ some k) (xs : List Sched)
    {s : Sys} (he : s = (Sys.init len cap calls).exec hash n xs) (hn : s.hist.countP Event.updBegins ≤ U) (h1 : s.mem.next ≤ 1)
    {n' : Nat} {w : Word} {m' : Mem} (hg : run (mapGet hash n' k) s.mem = .done w m') :
    (w = VINITIAL ∧ s.hist.countP (Event.incEnds k) = 0 ∨
      8 * s.hist.countP (Event.incEnds k) ≤ w.toNat ∧ w.toNat ≤ 8 * s.hist.countP (Event.incBegins k)) ∧
      ((∀ t, ∃ todo, s.thr t = .idle todo) →
        if s.hist.countP (Event.incEnds k) = 0 then w = VINITIAL else w.toNat = 8 * s.hist.countP (Event.incEnds k)) := by
  subst he
  rw [← begTids_upd] at hn
  obtain ⟨M, sz, P, fx, h⟩ := calm_start (A := fun t op => (op.Mine own t ∧ op.Room ctr U) ∧ op.writes ≠ some k) hs (fun _ _ _ _ => hU)
    (fun t op h => h.1) hc xs hn h1
  have hb := get_own (C := anyCfg hash len validKeys own) (s := ⟨_, M, sz⟩) (anyCfg_ok hs.pow) h.inv h.valid
    (fun k hk => h.lin.inside (own := own) (fun k h => absurd rfl h) (fun x hx => (h.fx x hx).1.1.by) hk) hk hg
  have hlin : LinTo AMap.empty M P ((Sys.init len cap calls).exec hash n xs).hist fx := h.lin
  have hle := hlin.eff_le Op.isUpdate
  have hinc := effTids_inc_le k fx
  have hcnt := hlin.counter0 (k := k) rfl (fun x hx => (h.fx x hx).2) (by omega)
  have h1 := hlin.end_le (Op.isInc k)
  have h2 := hlin.eff_le (Op.isInc k)
  rw [endTids_inc] at h1
  rw [begTids_inc] at h2
  change w = resWord (M k) at hb
  have h3 : (∀ t, ∃ todo, ((Sys.init len cap calls).exec hash n xs).thr t = .idle todo) →
      ((Sys.init len cap calls).exec hash n xs).hist.countP (Event.incEnds k) = (effTids (Op.isInc k) fx).length := by
    intro hi
    have h3 := hlin.all_idle (Op.isInc k) fun t => by
      obtain ⟨todo, ht⟩ := hi t
      have := h.thr t
      rw [ht] at this
      cases hp : P t <;> rw [hp] at this <;> first | rfl | exact this.elim
    rw [endTids_inc, begTids_inc] at h3
    omega
  rcases hcnt with ⟨hM, h0⟩ | ⟨w', hM, hval⟩
  · rw [hM] at hb
    refine ⟨.inl ⟨hb, by omega⟩, fun hi => ?_⟩
    rw [h3 hi, if_pos h0]
    exact hb
  · rw [hM] at hb
    change w = w' at hb
    subst hb
    refine ⟨.inr ⟨by omega, by omega⟩, fun hi => ?_⟩
    rw [h3 hi]
    split
    · next e =>
      -- a counter is created by its first increment
      exfalso
      have := hlin.counter0_pos (k := k) rfl (fun x hx => (h.fx x hx).2) (by rw [hM]; simp)
      omega
    · exact hval

/-- **C21, partial**, for keys that fit into the table: the same at any moment. -/
theorem c21_one_writer_partial (hs : Sized len cap) (hR : Roomy hash len S) {ctr : Word → Prop} {U : Nat}
    (hU : 8 * U < LIM) {k : Word} (hk : ValidKey k) {calls : Nat → List Op}
    (hc : ∀ t, ∀ op ∈ calls t, (op.By S own t ∧ op.Room ctr U) ∧ op.writes ≠ some k) (xs : List Sched)
    {s : Sys} (he : s = (Sys.init len cap calls).exec hash n xs) (hn : s.hist.countP Event.updBegins ≤ U)
    {n' : Nat} {w : Word} {m' : Mem} (hg : run (mapGet hash n' k) s.mem = .done w m') :
    (w = VINITIAL ∧ s.hist.countP (Event.incEnds k) = 0 ∨
      8 * s.hist.countP (Event.incEnds k) ≤ w.toNat ∧ w.toNat ≤ 8 * s.hist.countP (Event.incBegins k)) ∧
      ((∀ t, ∃ todo, s.thr t = .idle todo) →
        if s.hist.countP (Event.incEnds k) = 0 then w = VINITIAL else w.toNat = 8 * s.hist.countP (Event.incEnds k)) := by
  refine c21_one_writer_no_growth_partial hs hU hk (fun t op h => ⟨⟨(hc t op h).1.1.mine, (hc t op h).1.2⟩, (hc t op h).2⟩) xs he hn ?_ hg
  subst he
  exact roomy_next hs hR (fun _ _ _ _ => hU) (fun t op h => h) (fun t op h => (hc t op h).1) xs (by rwa [begTids_upd])

/-! ## C50 -/

/-- **C50, partial.** When each key has one writer and the table has not grown: as soon as no call is in progress, there is an order
of all calls made, in which each thread's calls come in the order the thread made them, such that `size()` is the number of
keys present after that order, `isEmpty()` says whether there are none, and `get` returns what that order leaves under each
key.  Missing for the full claim: two writers of the same key (refuted by `c50_size_drift`), growth (refuted by
`c10_size_wrong`). -/
theorem c50_one_writer_no_growth_partial (hs : Sized len cap) {ctr : Word → Prop} {U : Nat}
    (hU : 8 * U < LIM) {calls : Nat → List Op} (hc : ∀ t, ∀ op ∈ calls t, op.Mine own t ∧ op.Room ctr U) (xs : List Sched)
    {s : Sys} (he : s = (Sys.init len cap calls).exec hash n xs) (hn : s.hist.countP Event.updBegins ≤ U) (h1 : s.mem.next ≤ 1)
    (hi : ∀ t, ∃ todo, s.thr t = .idle todo) :
    ∃ fx : List (Nat × Op), (∀ t, orderOf t fx = returnedOf t s.hist) ∧
      (∃ w, run mapSize s.mem = .done w s.mem ∧ w.toNat = (specRun (fx.map Prod.snd) AMap.empty).card) ∧
      run mapIsEmpty s.mem = .done (decide ((specRun (fx.map Prod.snd) AMap.empty).card = 0)) s.mem ∧
      ∀ k n' v m', ValidKey k → run (mapGet hash n' k) s.mem = .done v m' →
        v = resWord (specRun (fx.map Prod.snd) AMap.empty k) := by
  subst he
  rw [← begTids_upd] at hn
  obtain ⟨M, sz, P, fx, h⟩ := calm_start (A := fun t op => op.Mine own t ∧ op.Room ctr U) hs (fun _ _ _ _ => hU) (fun t op h => h) hc xs
    hn h1
  have hin : ∀ k, M k ≠ none → k ∈ (anyCfg hash len validKeys own).S := fun k hk =>
    h.lin.inside (own := own) (fun k h => absurd rfl h) (fun x hx => (h.fx x hx).1.by) hk
  have hidle : ∀ t, P t = .idle ∧ Counted (anyCfg hash len validKeys own) t ⟨((Sys.init len cap calls).exec hash n xs).mem, M, sz⟩ := by
    intro t
    obtain ⟨todo, ht⟩ := hi t
    have := h.thr t
    rw [ht] at this
    cases hp : P t <;> rw [hp] at this <;> first | exact ⟨rfl, this.2⟩ | exact this.elim
  obtain ⟨w, h1, h2, h3⟩ := size_own (C := anyCfg hash len validKeys own) (anyCfg_ok hs.pow) h.inv (fun t => (hidle t).2) hin
  refine ⟨fx, fun t => ?_, ?_⟩
  · rw [h.lin.order t, (hidle t).1]
    exact List.append_nil _
  · rw [← h.lin.map_eq]
    exact ⟨⟨w, h1, h2⟩, h3, fun k n' v m' hk hg =>
      get_own (C := anyCfg hash len validKeys own) (s := ⟨_, M, sz⟩) (anyCfg_ok hs.pow) h.inv h.valid hin hk hg⟩

/-- **C50, partial**, for keys that fit into the table: the same at any moment when no call is in progress. -/
theorem c50_one_writer_partial (hs : Sized len cap) (hR : Roomy hash len S) {ctr : Word → Prop} {U : Nat}
    (hU : 8 * U < LIM) {calls : Nat → List Op} (hc : ∀ t, ∀ op ∈ calls t, op.By S own t ∧ op.Room ctr U) (xs : List Sched)
    {s : Sys} (he : s = (Sys.init len cap calls).exec hash n xs) (hn : s.hist.countP Event.updBegins ≤ U)
    (hi : ∀ t, ∃ todo, s.thr t = .idle todo) :
    ∃ fx : List (Nat × Op), (∀ t, orderOf t fx = returnedOf t s.hist) ∧
      (∃ w, run mapSize s.mem = .done w s.mem ∧ w.toNat = (specRun (fx.map Prod.snd) AMap.empty).card) ∧
      run mapIsEmpty s.mem = .done (decide ((specRun (fx.map Prod.snd) AMap.empty).card = 0)) s.mem ∧
      ∀ k n' v m', ValidKey k → run (mapGet hash n' k) s.mem = .done v m' →
        v = resWord (specRun (fx.map Prod.snd) AMap.empty k) := by
  refine c50_one_writer_no_growth_partial hs hU (fun t op h => ⟨(hc t op h).1.mine, (hc t op h).2⟩) xs he hn ?_ hi
  subst he
  exact roomy_next hs hR (fun _ _ _ _ => hU) (fun t op h => h) hc xs (by rwa [begTids_upd])

/-- The calls of the example with increments: thread 0 owns the counter 8, thread 1 the key 16, thread 2 the key 24. -/
def ownIncs : Nat → List Op := callsOf [.update 8#64 MATCH_ANY, .update 8#64 MATCH_ANY] [.put 16#64 160#64, .remove 16#64]
  [.get 8#64, .put 24#64 240#64] []

/-- Its schedule. -/
def ownIncSched : List Sched := steps 0 24 ++ steps 1 9 ++ steps 2 12 ++ steps 0 46 ++ steps 1 60 ++ steps 2 60 ++ steps 0 32

theorem ownIncs_by : ∀ t, ∀ op ∈ ownIncs t, (op.By {8#64, 16#64, 24#64} (fun k => (k >>> 3).toNat - 1) t ∧
    op.Room (fun k => k = 8#64) 2) ∧ op.writes ≠ some 8#64 := by
  have key : ∀ t op, (op ∈ ownIncs t) → t < 3 := by
    intro t op h
    unfold ownIncs callsOf at h
    by_contra hge
    rw [if_neg (by omega), if_neg (by omega), if_neg (by omega)] at h
    split at h <;> cases h
  intro t op h
  have ht := key t op h
  have : t = 0 ∨ t = 1 ∨ t = 2 := by omega
  rcases this with rfl | rfl | rfl <;>
    simp only [ownIncs, callsOf, if_true, Nat.one_ne_zero, if_false, OfNat.ofNat_ne_zero, OfNat.ofNat_ne_one,
      List.mem_cons, List.not_mem_nil, or_false] at h
  · rcases h with rfl | rfl
    all_goals exact ⟨⟨⟨by decide, fun k e => by cases e; decide, fun k v e => by cases e; rfl⟩, rfl⟩, by decide⟩
  · rcases h with rfl | rfl
    · exact ⟨⟨⟨by decide, fun k e => by cases e; decide, fun k v e => by cases e⟩, fun e => absurd e (by decide)⟩, by decide⟩
    · exact ⟨⟨⟨(by decide : ValidKey _), fun k e => by cases e; decide, fun k v e => by cases e⟩, trivial⟩, by decide⟩
  · rcases h with rfl | rfl
    · exact ⟨⟨⟨(by decide : ValidKey _), fun k e => (by cases e), fun k v e => by cases e⟩, trivial⟩, by decide⟩
    · exact ⟨⟨⟨by decide, fun k e => by cases e; decide, fun k v e => by cases e⟩, fun e => absurd e (by decide)⟩, by decide⟩

/-- A thread that is not scheduled stays as it is. -/
theorem exec_thr_other (hash : Word → Word) (n t : Nat) : ∀ (xs : List Sched) (s : Sys), (∀ x ∈ xs, x ≠ .run t) →
    (s.exec hash n xs).thr t = s.thr t := by
  intro xs
  induction xs with
  | nil => intro s _; rfl
  | cons x xs ih =>
    intro s h
    rw [Sys.exec, ih _ fun y hy => h y (List.mem_cons_of_mem _ hy)]
    have hx := h x (List.mem_cons_self ..)
    cases x with
    | evict => rfl
    | run tid =>
      have hne : t ≠ tid := fun e => hx (by rw [e])
      rw [Sys.step]
      split <;> try rfl
      all_goals first
        | (simp only [upd, if_neg hne])
        | (split <;> simp only [upd, if_neg hne])

/-- Is the thread between calls? -/
def Thread.isIdle : Thread → Bool
  | .idle _ => true
  | .busy _ _ _ => false

theorem ownIncs_idle : ∀ t, ∃ todo, ((Sys.init 8 64 ownIncs).exec (fun x => x >>> 3) 30 ownIncSched).thr t = .idle todo := by
  intro t
  have h3 : (List.range 3).all (fun t => (((Sys.init 8 64 ownIncs).exec (fun x => x >>> 3) 30 ownIncSched).thr t).isIdle) = true := by
    decide +kernel
  by_cases ht : t < 3
  · have := List.all_eq_true.mp h3 t (List.mem_range.mpr ht)
    cases h : ((Sys.init 8 64 ownIncs).exec (fun x => x >>> 3) 30 ownIncSched).thr t with
    | idle todo => exact ⟨todo, rfl⟩
    | busy op p todo => rw [h] at this; cases this
  · rw [exec_thr_other]
    · exact ⟨_, rfl⟩
    · intro x hx e
      subst e
      simp only [ownIncSched, steps, List.mem_append, List.mem_replicate, Sched.run.injEq] at hx
      omega

/-- `c18_one_writer_increments_partial`, `c19_one_writer_partial`, `c21_one_writer_partial` and `c50_one_writer_partial` are not
vacuous: overlapping calls, the counter 8 is incremented twice, key 16 comes and goes, key 24 stays; in the end `size()` is 2. -/
example : Sized 8 64 ∧ Roomy (fun x => x >>> 3) 8 {8#64, 16#64, 24#64} ∧ 8 * 2 < LIM ∧
    ((Sys.init 8 64 ownIncs).exec (fun x => x >>> 3) 30 ownIncSched).hist =
      [.inv 0 (.update 8#64 MATCH_ANY), .inv 1 (.put 16#64 160#64), .inv 2 (.get 8#64),
        .res 0 (.update 8#64 MATCH_ANY) (.word VINITIAL), .inv 0 (.update 8#64 MATCH_ANY),
        .res 0 (.update 8#64 MATCH_ANY) (.word 8#64), .res 1 (.put 16#64 160#64) (.word VINITIAL), .inv 1 (.remove 16#64),
        .res 1 (.remove 16#64) (.bool true), .res 2 (.get 8#64) (.word 8#64), .inv 2 (.put 24#64 240#64),
        .res 2 (.put 24#64 240#64) (.word VINITIAL)] ∧
    (∃ m, run (mapGet (fun x => x >>> 3) 30 8#64) ((Sys.init 8 64 ownIncs).exec (fun x => x >>> 3) 30 ownIncSched).mem = .done 16#64 m) ∧
    ∃ m, run mapSize ((Sys.init 8 64 ownIncs).exec (fun x => x >>> 3) 30 ownIncSched).mem = .done 2#64 m := by
  refine ⟨⟨⟨3, by decide, rfl⟩, by decide⟩, roomy_of_ten (fun k hk => ?_) (by decide) (by decide), by decide, by decide +kernel,
    Outcome.eq_done (by decide +kernel), Outcome.eq_done (by decide +kernel)⟩
  simp only [Finset.mem_insert, Finset.mem_singleton] at hk
  rcases hk with rfl | rfl | rfl <;> decide

/-- The calls of the example in which the keys do not fit: three keys for a table of two slots. -/
def tightCalls : Nat → List Op :=
  callsOf [.put 16#64 8#64, .update 8#64 MATCH_ANY, .put 24#64 8#64] [.get 16#64, .get 8#64, .get 8#64] [] []

/-- Its schedule, up to the point where thread 0 is about to make the put for which the table will grow. -/
def tightSched : List Sched := steps 0 10 ++ steps 1 5 ++ steps 0 30 ++ steps 1 20 ++ steps 0 14 ++ steps 1 60

/-- The theorems named `no_growth` are not vacuous: thread 0 owns three keys, which do not fit into the table of two slots, and
has two of them in the map; calls overlap, nobody is inside a call, and the table has not grown. -/
example : Sized 2 64 ∧ 8 * 1 < LIM ∧
    (∀ t, ∀ op ∈ tightCalls t, (op.Mine (fun _ => 0) t ∧ op.Room (fun k => k = 8#64) 1) ∧ op.writes ≠ some 8#64) ∧
    ((Sys.init 2 64 tightCalls).exec (fun x => x >>> 3) 30 tightSched).mem.next = 1 ∧
    ((Sys.init 2 64 tightCalls).exec (fun x => x >>> 3) 30 tightSched).hist =
      [.inv 0 (.put 16#64 8#64), .inv 1 (.get 16#64), .res 0 (.put 16#64 8#64) (.word VINITIAL), .inv 0 (.update 8#64 MATCH_ANY),
        .res 1 (.get 16#64) (.word VINITIAL), .inv 1 (.get 8#64), .res 1 (.get 8#64) (.word VINITIAL), .inv 1 (.get 8#64),
        .res 0 (.update 8#64 MATCH_ANY) (.word VINITIAL), .res 1 (.get 8#64) (.word 8#64)] ∧
    (∀ t, t < 2 → ∃ todo, ((Sys.init 2 64 tightCalls).exec (fun x => x >>> 3) 30 tightSched).thr t = .idle todo) ∧
    (∃ m, run (mapGet (fun x => x >>> 3) 30 8#64) ((Sys.init 2 64 tightCalls).exec (fun x => x >>> 3) 30 tightSched).mem = .done 8#64 m) ∧
    ∃ m, run mapSize ((Sys.init 2 64 tightCalls).exec (fun x => x >>> 3) 30 tightSched).mem = .done 2#64 m := by
  refine ⟨⟨⟨1, by decide, rfl⟩, by decide⟩, by decide, ?_, by decide +kernel, by decide +kernel, ?_,
    Outcome.eq_done (by decide +kernel), Outcome.eq_done (by decide +kernel)⟩
  · intro t op h
    unfold tightCalls callsOf at h
    split at h
    · next e =>
      subst e
      simp only [List.mem_cons, List.not_mem_nil, or_false] at h
      rcases h with rfl | rfl | rfl
      · exact ⟨⟨⟨by decide, fun k e => rfl, fun k v e => by cases e⟩, fun e => absurd e (by decide)⟩, by decide⟩
      · exact ⟨⟨⟨by decide, fun k e => rfl, fun k v e => by cases e; rfl⟩, rfl⟩, by decide⟩
      · exact ⟨⟨⟨by decide, fun k e => rfl, fun k v e => by cases e⟩, fun e => absurd e (by decide)⟩, by decide⟩
    split at h
    · next e =>
      subst e
      simp only [List.mem_cons, List.not_mem_nil, or_false] at h
      rcases h with rfl | rfl | rfl
      all_goals exact ⟨⟨⟨(by decide : ValidKey _), fun k e => (by cases e), fun k v e => by cases e⟩, trivial⟩, by decide⟩
    split at h
    · cases h
    split at h <;> cases h
  · have h2 : (List.range 2).all (fun t => (((Sys.init 2 64 tightCalls).exec (fun x => x >>> 3) 30 tightSched).thr t).isIdle) = true := by
      decide +kernel
    intro t ht
    have := List.all_eq_true.mp h2 t (List.mem_range.mpr ht)
    cases h : ((Sys.init 2 64 tightCalls).exec (fun x => x >>> 3) 30 tightSched).thr t with
    | idle todo => exact ⟨todo, rfl⟩
    | busy op p todo => rw [h] at this; cases this

/-- Two threads, the second of which writes a key the first removes. -/
def driftSys : Sys := (Sys.init 8 64 (callsOf [.put 8#64 16#64, .remove 8#64, .put 8#64 16#64, .remove 8#64] [.put 8#64 24#64]
  [] [])).exec (fun x => x >>> 3) 30
  (steps 0 28 ++ steps 1 18 ++ steps 0 12 ++ steps 1 8 ++ steps 0 40 ++ steps 1 60 ++ steps 0 60)

/-- **C50 is false of the code.** Two threads put and remove the same key in a table with room; when all calls have returned,
`get` finds the key, but `size()` is 0 and `isEmpty()` is true.  A put that finds the "removed" marker with its dirty bit set
does not count the key it brings back (hashMap.hpp:1199-1211 compares with the unmarked word). -/
theorem c50_size_drift : driftSys.mem.failed = false ∧ driftSys.hist.length = 10 ∧
    (returnedOf 0 driftSys.hist).length = 4 ∧ (returnedOf 1 driftSys.hist).length = 1 ∧
    (∃ m, run (mapGet (fun x => x >>> 3) 30 8#64) driftSys.mem = .done 24#64 m) ∧
    (∃ m, run mapSize driftSys.mem = .done 0#64 m) ∧ ∃ m, run mapIsEmpty driftSys.mem = .done true m := by
  refine ⟨by decide +kernel, by decide +kernel, by decide +kernel, by decide +kernel, Outcome.eq_done (by decide +kernel),
    Outcome.eq_done (by decide +kernel), Outcome.eq_done (by decide +kernel)⟩

end PMap
