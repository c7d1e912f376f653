import Verif.Props.Sessions
import Verif.Props.Asserts

/-!
# The properties of every interleaving, in reopened maps: C14, C15, C16, C17, C24, C54, and what remains of C19 and C20

Any number of sessions, each with any threads, any valid calls and any interleaving; keys may collide and may be changed by several
threads. What such sessions leave in the file need not be a map (`c51_not_a_map`); what is proved here holds nevertheless.
-/

namespace PMap

open Prog

variable {hash : Word → Word} {n len cap : Nat} {H : List Event} {m : Mem}

/-- Histories of, and memories after, any number of sessions each of which ended in a crash: in each, any threads made any valid
calls in any interleaving, with any write-backs, and the machine stopped at any step before the first growth; then the file was
opened again, the machine stopping any number of times (`xss`) while it was being opened. -/
inductive Restarted (hash : Word → Word) (len cap : Nat) : List Event → Mem → Prop
  | fresh : Restarted hash len cap [] (freshMem len cap)
  | crash {H : List Event} {m m' : Mem} {f : File} (n : Nat) (calls : Nat → List Op) (xs : List Sched) (xss : List (List OpenStep)) :
      Restarted hash len cap H m → (∀ t, ∀ op ∈ calls t, op.Valid) →
      (((Sys.start m calls).exec hash n xs).mem.tab 0).newT = none →
      cutOpens ((Sys.start m calls).exec hash n xs).mem.cap xss (fileOf ((Sys.start m calls).exec hash n xs).mem.nv 0
        (((Sys.start m calls).exec hash n xs).mem.tab 0).len) = some f →
      openFile f ((Sys.start m calls).exec hash n xs).mem.cap = .done () m' →
      Restarted hash len cap (H ++ ((Sys.start m calls).exec hash n xs).hist) m'

theorem restarted_valid (h : Restarted hash len cap H m) : AllValid H := by
  induction h with
  | fresh => intro t op h; cases h
  | @crash H m m' f n calls xs xss _ hv _ _ _ ih =>
    intro t op h
    rcases List.mem_append.mp h with h | h
    · exact ih t op h
    · exact hv t op (inv_calls hash n m calls xs h)

theorem restarted_calm (h : Restarted hash len cap H m) : m.failed = false ∧ m.root = 0 ∧ m.next = 1 ∧ (m.tab 0).newT = none := by
  cases h with
  | fresh => exact ⟨rfl, rfl, rfl, rfl⟩
  | @crash H m0 _ f n calls xs xss _ hv _ _ ho =>
    obtain ⟨m', h', hs⟩ := openFile_spec f ((Sys.start m0 calls).exec hash n xs).mem.cap
    rw [ho] at h'
    cases h'
    exact ⟨hs.failed, hs.root, hs.next, hs.newT⟩

/-- What has been asked for in the sessions before and in this one. -/
theorem restarted_inv (hs : Sized len cap) (h : Restarted hash len cap H m) {A : Word → Word → Prop} (hA : AskedOK A)
    (hH : ∀ k v, askedIn H k v → A k v) : PInv A m ∧ 0 < m.next := by
  induction h with
  | fresh => exact ⟨PInv_fresh hs, Nat.one_pos⟩
  | @crash H m m' f n calls xs xss _ hv h1 hc ho ih =>
    obtain ⟨hm, h0⟩ := ih fun k v ⟨t, op, g1, g2⟩ => hH k v ⟨t, op, List.mem_append_left _ g1, g2⟩
    obtain ⟨hok, henv⟩ := sys_ok hA hash n (start_ok hm calls) xs fun t op g =>
      ⟨hv t op (inv_calls hash n _ calls xs g), fun k v ha => hH k v ⟨t, op, List.mem_append_right _ g, ha⟩⟩
    have hinv : PInv A ((Sys.start m calls).exec hash n xs).mem := hok.inv
    have h0' : 0 < ((Sys.start m calls).exec hash n xs).mem.next := lt_of_lt_of_le h0 (henv hm).2.next
    obtain ⟨g, hg, hl⟩ := cutOpens_left ((Sys.start m calls).exec hash n xs).mem.cap xss
      (fileOf ((Sys.start m calls).exec hash n xs).mem.nv 0 (((Sys.start m calls).exec hash n xs).mem.tab 0).len)
    rw [hc] at hg
    cases hg
    have hlen : f.len = (((Sys.start m calls).exec hash n xs).mem.tab 0).len := hl.len
    have hmig : ∀ i, i < f.len → isMig (f.pair i).2 = false := by
      intro i hi
      rw [← isMig_clean]
      rcases hl.val i with e | ⟨-, -, e⟩
      · rw [show clean (f.pair i).2 = _ from e]
        show isMig (clean (((Sys.start m calls).exec hash n xs).mem.nv (.val 0 i))) = false
        rw [isMig_clean]
        cases c : isMig (((Sys.start m calls).exec hash n xs).mem.nv (.val 0 i)) with
        | false => rfl
        | true => exact absurd h1 (hinv.dmig 0 i ⟨h0', by rw [← hlen]; exact hi⟩ c)
      · rw [show clean (f.pair i).2 = VTOMBSTONE from e]; decide
    have hpair : ∀ i, i < f.len → PairOK A (clean (f.pair i).1) (clean (f.pair i).2) := by
      intro i hi
      have hd := hinv.durable 0 i ⟨h0', by rw [← hlen]; exact hi⟩
      rw [show clean (f.pair i).1 = clean (((Sys.start m calls).exec hash n xs).mem.nv (.key 0 i)) from hl.key i]
      rcases hl.val i with e | ⟨e1, -, e⟩
      · rw [show clean (f.pair i).2 = clean (((Sys.start m calls).exec hash n xs).mem.nv (.val 0 i)) from e]; exact hd
      · rw [show clean (f.pair i).2 = VTOMBSTONE from e]
        exact ⟨fun c => absurd c e1, .inr (.inl rfl)⟩
    obtain ⟨m2, h2, hsc⟩ := openFile_spec f ((Sys.start m calls).exec hash n xs).mem.cap
    rw [ho] at h2
    cases h2
    have hp := hinv.pow 0 h0'
    rw [← hlen] at hp
    refine ⟨openFile_PInv hp hinv.cap hpair hmig ho, ?_⟩
    rw [show m'.next = 1 from hsc.next]; exact Nat.one_pos

variable {calls : Nat → List Op}

theorem askedIn_append {H1 H2 : List Event} {k v : Word} : askedIn (H1 ++ H2) k v ↔ askedIn H1 k v ∨ askedIn H2 k v := by
  constructor
  · rintro ⟨t, op, h1, h2⟩
    rcases List.mem_append.mp h1 with h1 | h1
    · exact .inl ⟨t, op, h1, h2⟩
    · exact .inr ⟨t, op, h1, h2⟩
  · rintro (⟨t, op, h1, h2⟩ | ⟨t, op, h1, h2⟩)
    · exact ⟨t, op, List.mem_append_left _ h1, h2⟩
    · exact ⟨t, op, List.mem_append_right _ h1, h2⟩

theorem allValid_append {H1 H2 : List Event} (h1 : AllValid H1) (h2 : AllValid H2) : AllValid (H1 ++ H2) := fun t op h =>
  (List.mem_append.mp h).elim (h1 t op) (h2 t op)

/-- The session that is running, up to `xs` and from there on `ys`. -/
theorem Restarted.ok {M : Prop} (h : Restarted hash len cap H m) (hs : Sized len cap) (hv : ∀ t, ∀ op ∈ calls t, op.Valid)
    (xs ys : List Sched) :
    SysOK (pRG (askedIn (H ++ ((Sys.start m calls).exec hash n (xs ++ ys)).hist)) M)
      (OpRes (askedIn (H ++ ((Sys.start m calls).exec hash n (xs ++ ys)).hist))) ((Sys.start m calls).exec hash n xs) ∧
    AskedOK (askedIn (H ++ ((Sys.start m calls).exec hash n (xs ++ ys)).hist)) ∧
    (∀ t op, .inv t op ∈ ((Sys.start m calls).exec hash n (xs ++ ys)).hist → op.Valid ∧
      ∀ k v, op.Asks k v → askedIn (H ++ ((Sys.start m calls).exec hash n (xs ++ ys)).hist) k v) := by
  have hval : ∀ t op, .inv t op ∈ ((Sys.start m calls).exec hash n (xs ++ ys)).hist → op.Valid := fun t op g =>
    hv t op (inv_calls hash n m calls _ g)
  have hA := asked_ok (allValid_append (restarted_valid h) hval)
  obtain ⟨hm, -⟩ := restarted_inv hs h hA fun k v g => askedIn_append.mpr (.inl g)
  obtain ⟨h', e⟩ := exec_hist hash n ys ((Sys.start m calls).exec hash n xs)
  rw [← exec_append] at e
  have hasks : ∀ t op, .inv t op ∈ ((Sys.start m calls).exec hash n (xs ++ ys)).hist → op.Valid ∧
      ∀ k v, op.Asks k v → askedIn (H ++ ((Sys.start m calls).exec hash n (xs ++ ys)).hist) k v := fun t op g =>
    ⟨hval t op g, fun k v ha => ⟨t, op, List.mem_append_right _ g, ha⟩⟩
  exact ⟨(sys_okM hA hash n (start_ok hm calls) xs fun t op g => hasks t op (by rw [e]; exact List.mem_append_left _ g)).1, hA, hasks⟩

theorem Restarted.evo (h : Restarted hash len cap H m) (hs : Sized len cap) (hv : ∀ t, ∀ op ∈ calls t, op.Valid)
    (xs ys : List Sched) :
    Evo (askedIn (H ++ ((Sys.start m calls).exec hash n (xs ++ ys)).hist)) ((Sys.start m calls).exec hash n xs).mem
      ((Sys.start m calls).exec hash n (xs ++ ys)).mem := by
  obtain ⟨hok, hA, hasks⟩ := h.ok (M := True) (n := n) hs hv xs ys
  have := (sys_ok hA hash n hok ys fun t op g => by rw [← exec_append] at g; exact hasks t op g).2
  rw [← exec_append] at this
  exact (this hok.inv).2

/-! ## C14 -/

/-- **C14 in a reopened map.** After any number of sessions that ended in a crash (`H` is all that happened in them), in every
interleaving of the session that follows: if a `get(k)` has returned `w`, then `w` is the absent marker, or some call of an earlier
session, or one made before that return, asked for `w` to be stored under that same `k`. -/
theorem c14_get_asked_reopened (hs : Sized len cap) (h : Restarted hash len cap H m) (calls : Nat → List Op)
    (hv : ∀ t, ∀ op ∈ calls t, op.Valid) (xs : List Sched) {h1 h2 : List Event} {t : Nat} {k w : Word}
    (hh : ((Sys.start m calls).exec hash n xs).hist = h1 ++ .res t (.get k) (.word w) :: h2) :
    w = VINITIAL ∨ ∃ t' op, (.inv t' op ∈ H ∨ .inv t' op ∈ h1) ∧ op.Asks k w := by
  obtain ⟨ys, zs, -, hy⟩ := hist_prefix hash n xs (Sys.start m calls) (h1 ++ [.res t (.get k) (.word w)]) h2
    (by rw [hh, List.append_assoc]; rfl) (by simp [Sys.start])
  have hok := (h.ok (M := True) (n := n) hs hv ys []).1
  rw [List.append_nil] at hok
  obtain ⟨w', e, hw⟩ := hok.hist t (.get k) (.word w) (by rw [hy]; simp)
  cases e
  rcases hw with hw | ⟨t', op, hm, ha⟩
  · exact .inl hw
  · refine .inr ⟨t', op, ?_, ha⟩
    rcases List.mem_append.mp hm with hm | hm
    · exact .inl hm
    rw [hy] at hm
    rcases List.mem_append.mp hm with hm | hm
    · exact .inr hm
    · simp at hm

/-- **C14 in a reopened map**, second half: a returned value never carries the dirty or the migration bit. -/
theorem c14_no_marks_reopened (hs : Sized len cap) (h : Restarted hash len cap H m) (calls : Nat → List Op)
    (hv : ∀ t, ∀ op ∈ calls t, op.Valid) (xs : List Sched) {t : Nat} {k w : Word}
    (hh : .res t (.get k) (.word w) ∈ ((Sys.start m calls).exec hash n xs).hist) : isDirty w = false ∧ isMig w = false := by
  obtain ⟨h1, h2, e⟩ := List.append_of_mem hh
  rcases c14_get_asked_reopened hs h calls hv xs e with h | ⟨t', op, hm, ha⟩
  · subst h; exact ⟨by decide, by decide⟩
  · have hval : op.Valid := by
      rcases hm with hm | hm
      · exact restarted_valid h t' op hm
      · exact hv t' op (inv_calls hash n m calls xs (by rw [e]; exact List.mem_append_left _ hm))
    have h3 := (asks_valid hval ha).1
    exact ⟨not_dirty_iff.mpr h3.1, h3.2⟩

/-- **C14 in a reopened map** for `containsKey`. -/
theorem c14_contains_asked_reopened (hs : Sized len cap) (h : Restarted hash len cap H m) (calls : Nat → List Op)
    (hv : ∀ t, ∀ op ∈ calls t, op.Valid) (xs : List Sched) {t : Nat} {k : Word}
    (hh : .res t (.containsKey k) (.bool true) ∈ ((Sys.start m calls).exec hash n xs).hist) :
    ∃ v t' op, (.inv t' op ∈ H ∨ .inv t' op ∈ ((Sys.start m calls).exec hash n xs).hist) ∧ op.Asks k v := by
  have hok := (h.ok (M := True) (n := n) hs hv xs []).1
  rw [List.append_nil] at hok
  obtain ⟨v, t', op, h1, h2⟩ := hok.hist t (.containsKey k) (.bool true) hh rfl
  exact ⟨v, t', op, List.mem_append.mp h1, h2⟩

/-! ## C15, C16, C17 -/

/-- **C15 in a reopened map.** -/
theorem c15_stable_reopened (hs : Sized len cap) (h : Restarted hash len cap H m) (calls : Nat → List Op)
    (hv : ∀ t, ∀ op ∈ calls t, op.Valid) (xs ys : List Sched) {t i : Nat} (ht : t < ((Sys.start m calls).exec hash n xs).mem.next)
    (hi : i < (((Sys.start m calls).exec hash n xs).mem.tab t).len) :
    let m1 := ((Sys.start m calls).exec hash n xs).mem
    let m2 := ((Sys.start m calls).exec hash n (xs ++ ys)).mem
    (clean (m1.word (.key t i)) ≠ KINITIAL → clean (m2.word (.key t i)) = clean (m1.word (.key t i))) ∧
    (isMig (m1.word (.val t i)) = true →
      clean (m2.word (.val t i)) = clean (m1.word (.val t i)) ∨ clean (m2.word (.val t i)) = TOMBPRIME) ∧
    (clean (m1.word (.val t i)) = TOMBPRIME → clean (m2.word (.val t i)) = TOMBPRIME) := by
  have hevo := h.evo (n := n) hs hv xs ys
  exact ⟨fun h => hevo.key t i ⟨ht, hi⟩ h, fun h => hevo.mig' t i ⟨ht, hi⟩ (by rw [pv, isMig_clean]; exact h),
    fun h => hevo.prime t i ⟨ht, hi⟩ h⟩

/-- **C16 in a reopened map.** In no execution does any thread dereference a null table or index outside a table. -/
theorem c16_no_ub_reopened (hs : Sized len cap) (h : Restarted hash len cap H m) (calls : Nat → List Op)
    (hv : ∀ t, ∀ op ∈ calls t, op.Valid) (xs : List Sched) : ((Sys.start m calls).exec hash n xs).ub = false :=
  (h.ok (M := True) (n := n) hs hv xs []).1.noub

theorem Restarted.step (h : Restarted hash len cap H m) (hs : Sized len cap) (hv : ∀ t, ∀ op ∈ calls t, op.Valid)
    (xs : List Sched) (x : Sched) :
    let m1 := ((Sys.start m calls).exec hash n xs).mem
    let m2 := ((Sys.start m calls).exec hash n (xs ++ [x])).mem
    m2.root = m1.root ∨ (m1.tab m1.root).newT = some m2.root ∧ (m1.tab m1.root).len ≤ (m1.tab m1.root).copyDone := by
  obtain ⟨hok, hA, hasks⟩ := h.ok (M := True) (n := n) hs hv xs [x]
  have hst := (SysOK.step (Ok := fun op => op.Valid ∧ ∀ k v, op.Asks k v →
      askedIn (H ++ ((Sys.start m calls).exec hash n (xs ++ [x])).hist) k v) hok p_evict
    (fun _ _ ho hm => p_op hA n ho.1 ho.2 hm) x (fun t op g => hasks t op (by rw [exec_append]; exact g))).2
  intro m1 m2
  have e' : m2 = (((Sys.start m calls).exec hash n xs).step hash n x).mem := by
    show ((Sys.start m calls).exec hash n (xs ++ [x])).mem = _
    rw [exec_append]; rfl
  rw [e']
  exact hst.2

/-- **C17 in a reopened map**, the pointer: each step leaves the current table or replaces it by its successor. -/
theorem c17_root_step_reopened (hs : Sized len cap) (h : Restarted hash len cap H m) (calls : Nat → List Op)
    (hv : ∀ t, ∀ op ∈ calls t, op.Valid) (xs : List Sched) (x : Sched) :
    let m1 := ((Sys.start m calls).exec hash n xs).mem
    let m2 := ((Sys.start m calls).exec hash n (xs ++ [x])).mem
    m2.root = m1.root ∨ (m1.tab m1.root).newT = some m2.root :=
  (h.step hs hv xs x).imp id And.left

/-- **C17 in a reopened map**, the successors: a table's successor is a later, existing table of exactly twice the length. -/
theorem c17_double_reopened (hs : Sized len cap) (h : Restarted hash len cap H m) (calls : Nat → List Op)
    (hv : ∀ t, ∀ op ∈ calls t, op.Valid) (xs : List Sched) {t s : Nat} (ht : t < ((Sys.start m calls).exec hash n xs).mem.next)
    (hn : (((Sys.start m calls).exec hash n xs).mem.tab t).newT = some s) :
    t < s ∧ s < ((Sys.start m calls).exec hash n xs).mem.next ∧
    (((Sys.start m calls).exec hash n xs).mem.tab s).len = 2 * (((Sys.start m calls).exec hash n xs).mem.tab t).len :=
  (h.ok (M := True) (n := n) hs hv xs []).1.inv.newT t s ht hn

/-- **C17 in a reopened map**, the choice: a successor once chosen stays, and no table changes its length. -/
theorem c17_fixed_reopened (hs : Sized len cap) (h : Restarted hash len cap H m) (calls : Nat → List Op)
    (hv : ∀ t, ∀ op ∈ calls t, op.Valid) (xs ys : List Sched) {t : Nat} (ht : t < ((Sys.start m calls).exec hash n xs).mem.next) :
    let m1 := ((Sys.start m calls).exec hash n xs).mem
    let m2 := ((Sys.start m calls).exec hash n (xs ++ ys)).mem
    t < m2.next ∧ (m2.tab t).len = (m1.tab t).len ∧ ∀ s, (m1.tab t).newT = some s → (m2.tab t).newT = some s := by
  have hevo := h.evo (n := n) hs hv xs ys
  exact ⟨lt_of_lt_of_le ht hevo.next, hevo.len t ht, fun s h => hevo.newT t s ht h⟩

/-! ## C19, C20 -/

/-- **C19 in a reopened map**, partial as `c19_results_partial`. -/
theorem c19_results_reopened_partial (hs : Sized len cap) (h : Restarted hash len cap H m) (calls : Nat → List Op)
    (hv : ∀ t, ∀ op ∈ calls t, op.Valid) (xs : List Sched) {t : Nat} {k w : Word} {op : Op}
    (hop : (∃ v, op = .put k v) ∨ (∃ v, op = .putIfAbsent k v) ∨ (∃ v o, op = .putIfMatch k v o) ∨ ∃ v, op = .update k v)
    (hh : .res t op (.word w) ∈ ((Sys.start m calls).exec hash n xs).hist) :
    isMig w = false ∧ w ≠ VTOMBSTONE ∧ (clean w = VINITIAL ∨ w = dirty VTOMBSTONE ∨
      ∃ t' op', (.inv t' op' ∈ H ∨ .inv t' op' ∈ ((Sys.start m calls).exec hash n xs).hist) ∧ op'.Asks k (clean w)) := by
  have hok := (h.ok (M := True) (n := n) hs hv xs []).1
  rw [List.append_nil] at hok
  have hr := hok.hist t op (.word w) hh
  have key : PutRes (askedIn (H ++ ((Sys.start m calls).exec hash n xs).hist)) k w := by
    rcases hop with ⟨v, rfl⟩ | ⟨v, rfl⟩ | ⟨v, o, rfl⟩ | ⟨v, rfl⟩ <;> (obtain ⟨w', e, h⟩ := hr; cases e; exact h)
  refine ⟨key.1, key.2.1, key.2.2.imp id (Or.imp id ?_)⟩
  rintro ⟨t', op', h1, h2⟩
  exact ⟨t', op', List.mem_append.mp h1, h2⟩

/-- **C20 in a reopened map**, partial as `c20_counted_partial`. -/
theorem c20_counted_reopened_partial (hs : Sized len cap) (h : Restarted hash len cap H m) (calls : Nat → List Op)
    (hv : ∀ t, ∀ op ∈ calls t, op.Valid) (xs : List Sched) (x : Sched) :
    let m1 := ((Sys.start m calls).exec hash n xs).mem
    ((Sys.start m calls).exec hash n (xs ++ [x])).mem.root ≠ m1.root → (m1.tab m1.root).len ≤ (m1.tab m1.root).copyDone :=
  fun hne => ((h.step hs hv xs x).resolve_left hne).2

/-! ## C24 -/

/-- **C24 after any number of crashes.** At any point of any execution, every pair in a file: an empty key slot has an empty
value; otherwise the value is empty, a tombstone, the "migrated" marker, or a value some call of this session or of an earlier one
asked to store under exactly that key, possibly marked for migration. -/
theorem c24_pairs_reopened (hs : Sized len cap) (h : Restarted hash len cap H m) (calls : Nat → List Op)
    (hv : ∀ t, ∀ op ∈ calls t, op.Valid) (xs : List Sched) {t i : Nat} (ht : t < ((Sys.start m calls).exec hash n xs).mem.next)
    (hi : i < (((Sys.start m calls).exec hash n xs).mem.tab t).len) :
    let s := (Sys.start m calls).exec hash n xs
    let K := clean (s.mem.nv (.key t i))
    let V := clean (s.mem.nv (.val t i))
    (K = KINITIAL → V = VINITIAL) ∧ (V = VINITIAL ∨ V = VTOMBSTONE ∨ V = TOMBPRIME ∨
      ∃ t' op v, (.inv t' op ∈ H ∨ .inv t' op ∈ s.hist) ∧ op.Asks K v ∧ (V = v ∨ V = v ||| MigrationFlag)) := by
  have hok := (h.ok (M := True) (n := n) hs hv xs []).1
  rw [List.append_nil] at hok
  have hd := hok.inv.durable t i ⟨ht, hi⟩
  intro s K V
  refine ⟨hd.1, ?_⟩
  rcases hd.2 with h | h | h | ⟨t', op, h1, h2⟩ | ⟨u, ⟨t', op, h1, h2⟩, h3⟩
  · exact .inl h
  · exact .inr (.inl h)
  · exact .inr (.inr (.inl h))
  · exact .inr (.inr (.inr ⟨t', op, _, List.mem_append.mp h1, h2, .inl rfl⟩))
  · exact .inr (.inr (.inr ⟨t', op, u, List.mem_append.mp h1, h2, .inr h3⟩))

/-- **C24**: after any number of sessions that ended in a crash before the first growth the file can be opened again, however
often the machine stops while it is being opened; and then the theorems of this file speak of the reopened map. -/
theorem c24_restart_reopened (h : Restarted hash len cap H m) (calls : Nat → List Op)
    (hv : ∀ t, ∀ op ∈ calls t, op.Valid) (xs : List Sched)
    (h1 : (((Sys.start m calls).exec hash n xs).mem.tab 0).newT = none) (xss : List (List OpenStep)) :
    ∃ f m', cutOpens ((Sys.start m calls).exec hash n xs).mem.cap xss (fileOf ((Sys.start m calls).exec hash n xs).mem.nv 0
        (((Sys.start m calls).exec hash n xs).mem.tab 0).len) = some f ∧
      openFile f ((Sys.start m calls).exec hash n xs).mem.cap = .done () m' ∧
      Restarted hash len cap (H ++ ((Sys.start m calls).exec hash n xs).hist) m' := by
  obtain ⟨g, hg, -⟩ := cutOpens_left ((Sys.start m calls).exec hash n xs).mem.cap xss
    (fileOf ((Sys.start m calls).exec hash n xs).mem.nv 0 (((Sys.start m calls).exec hash n xs).mem.tab 0).len)
  obtain ⟨m', hm, -⟩ := openFile_spec g ((Sys.start m calls).exec hash n xs).mem.cap
  exact ⟨g, m', hg, hm, .crash n calls xs xss h hv h1 hg hm⟩

/-! ## C54 -/

/-- **C54 in a reopened map**: an assertion that does not hold is the one on the number of migrated slots (hashMap.hpp:131), or
else some table has a successor and `update` has been called, in this session or an earlier one.  Partial as
`c54_count_or_update_partial`. -/
theorem c54_count_or_update_reopened_partial (hs : Sized len cap) (h : Restarted hash len cap H m) (calls : Nat → List Op)
    (hv : ∀ t, ∀ op ∈ calls t, op.Valid) (xs : List Sched) {tid : Nat} {k : Unit → Prog Res}
    (hr : ((Sys.start m calls).exec hash n xs).Refuted tid k) :
    let m1 := ((Sys.start m calls).exec hash n xs).mem
    (∃ t w, t < m1.next ∧ (m1.tab t).newT ≠ none ∧ (m1.tab t).len < (m1.tab t).copyDone + w ∧
      (w = 0 ∨ ∃ k', k () = .act (.addDone t w) k')) ∨
    ((∃ t, t < m1.next ∧ (m1.tab t).newT ≠ none) ∧
      ∃ t key v, .inv t (.update key v) ∈ H ∨ .inv t (.update key v) ∈ ((Sys.start m calls).exec hash n xs).hist) := by
  intro m1
  have hok := (h.ok (M := False) (n := n) hs hv xs []).1
  rw [List.append_nil] at hok
  have hM : ∀ k, askedIn (H ++ ((Sys.start m calls).exec hash n xs).hist) k VINITIAL →
      ∃ t key v, .inv t (.update key v) ∈ H ∨ .inv t (.update key v) ∈ ((Sys.start m calls).exec hash n xs).hist := by
    rintro k ⟨t, op, h1, h2⟩
    have hv' : op.Valid := (List.mem_append.mp h1).elim (restarted_valid h t op) fun g => hv t op (inv_calls hash n _ calls xs g)
    have hno : ¬ ValidVal VINITIAL := by decide
    cases op with
    | put k' v' => obtain ⟨rfl, rfl⟩ := h2; exact absurd hv'.2 hno
    | putIfAbsent k' v' => obtain ⟨rfl, rfl⟩ := h2; exact absurd hv'.2 hno
    | replace k' o v' => obtain ⟨rfl, rfl⟩ := h2; exact absurd hv'.2.2 hno
    | putIfMatch k' v' o => obtain ⟨rfl, rfl⟩ := h2; exact absurd hv'.2.1 hno
    | update k' v' => exact ⟨t, k', v', List.mem_append.mp h1⟩
    | get _ => exact h2.elim
    | containsKey _ => exact h2.elim
    | remove _ => exact h2.elim
    | removeIf _ _ => exact h2.elim
    | size => exact h2.elim
    | isEmpty => exact h2.elim
  obtain ⟨op, todo, e⟩ := hr
  have ht := hok.thr tid
  rw [e] at ht
  obtain ⟨r, m2, e2, -, -, hf, -⟩ := ht m1 (fun hm => ⟨hm, .refl _⟩) hok.inv
  cases e2
  rcases hf rfl with (h1 | ⟨h1, key, h2⟩) | h1
  · exact h1.elim
  · exact .inr ⟨h1, hM _ h2⟩
  · exact .inl h1

/-- An assertion has failed only if some thread was about to evaluate one that does not hold. -/
theorem failed_refuted_start (hf : m.failed = false) (calls : Nat → List Op) (xs : List Sched)
    (h : ((Sys.start m calls).exec hash n xs).mem.failed = true) :
    ∃ ys tid zs k, xs = ys ++ .run tid :: zs ∧ ((Sys.start m calls).exec hash n ys).Refuted tid k := by
  induction xs using List.reverseRecOn with
  | nil => rw [show ((Sys.start m calls).exec hash n []).mem.failed = m.failed from rfl, hf] at h; cases h
  | append_singleton xs x ih =>
    by_cases h0 : ((Sys.start m calls).exec hash n xs).mem.failed = true
    · obtain ⟨ys, tid, zs, k, e, h1⟩ := ih h0
      exact ⟨ys, tid, zs ++ [x], k, by rw [e]; simp, h1⟩
    · rw [exec_append] at h
      generalize hsx : (Sys.start m calls).exec hash n xs = s at h h0
      replace h : (s.step hash n x).mem.failed = true := h
      have key : ∃ tid k, x = .run tid ∧ s.Refuted tid k := by
        cases x with
        | evict t i => exact absurd h h0
        | run tid =>
          rw [Sys.step] at h
          split at h
          · exact absurd h h0
          · exact absurd h h0
          · exact absurd h h0
          · exact absurd h h0
          · exact absurd h h0
          · next op a k todo hs' =>
            split at h
            · exact absurd h h0
            · next r m2 he =>
              by_cases ha : a.fails = true
              · cases a with
                | check b =>
                  have hb : b = false := by simpa [Act.fails] using ha
                  subst hb
                  exact ⟨tid, k, rfl, op, todo, hs'⟩
                | _ => cases ha
              · exact absurd ((exec_failed he (by simpa using ha)).symm.trans h) h0
      obtain ⟨tid, k, rfl, hr⟩ := key
      exact ⟨xs, tid, [], k, rfl, by rw [hsx]; exact hr⟩

/-- **C54 in a reopened map**: opening the file fails no assertion (hashMap.hpp:686), and whatever the calls, as long
as no table has been given a successor, none has failed since. -/
theorem c54_no_growth_reopened (hs : Sized len cap) (h : Restarted hash len cap H m) (calls : Nat → List Op)
    (hv : ∀ t, ∀ op ∈ calls t, op.Valid) (xs : List Sched)
    (hg : ∀ t, t < ((Sys.start m calls).exec hash n xs).mem.next → (((Sys.start m calls).exec hash n xs).mem.tab t).newT = none) :
    m.failed = false ∧ ((Sys.start m calls).exec hash n xs).mem.failed = false := by
  refine ⟨(restarted_calm h).1, ?_⟩
  by_contra hc
  obtain ⟨ys, tid, zs, k, e, hr⟩ := failed_refuted_start (restarted_calm h).1 calls xs (by simpa using hc)
  have key : ∃ t, t < ((Sys.start m calls).exec hash n ys).mem.next ∧
      (((Sys.start m calls).exec hash n ys).mem.tab t).newT ≠ none := by
    rcases c54_count_or_update_reopened_partial hs h calls hv ys hr with ⟨t, w, h1, h2, -⟩ | ⟨h1, -⟩
    · exact ⟨t, h1, h2⟩
    · exact h1
  obtain ⟨t, h1, h2⟩ := key
  have := c17_fixed_reopened hs h calls hv ys (.run tid :: zs) h1 (n := n)
  rw [← e] at this
  obtain ⟨h3, -, h4⟩ := this
  obtain ⟨n', hn'⟩ := Option.ne_none_iff_exists'.mp h2
  rw [hg t h3] at h4
  exact absurd (h4 n' hn') (by simp)

/-! ## A case that meets the hypotheses -/

/-- The memory after the crash of `orphanSys`, which holds key 72 where no probe reaches it. -/
def orphanMem : Mem :=
  match restart orphanSys.mem orphanSys.mem.nv with
  | .done _ m => m
  | _ => freshMem 8 64

theorem orphan_restarted : Restarted (fun x => x >>> 3) 8 64 orphanSys.hist orphanMem := by
  have e : (Sys.start (freshMem 8 64) orphanCalls).exec (fun x => x >>> 3) 30 orphanSched = orphanSys := rfl
  obtain ⟨m', hm, -⟩ := openFile_spec (fileOf orphanSys.mem.nv 0 (orphanSys.mem.tab 0).len) orphanSys.mem.cap
  have hm' : orphanMem = m' := by
    unfold orphanMem restart
    rw [hm]
  have h1 : (((Sys.start (freshMem 8 64) orphanCalls).exec (fun x => x >>> 3) 30 orphanSched).mem.tab 0).newT = none := by
    decide +kernel
  rw [← hm'] at hm
  rw [← e] at hm
  have h := Restarted.crash 30 orphanCalls orphanSched [] .fresh orphan_valid h1 (by rw [cutOpens]) hm
  rw [List.nil_append, e] at h
  exact h

/-- Three threads on the reopened map, whose table grows: 72 is put and removed, eight more keys are put, 72 is looked up. -/
def afterCalls : Nat → List Op :=
  callsOf [.put 72#64 32#64, .remove 72#64, .put 16#64 8#64, .put 24#64 8#64, .put 32#64 8#64, .put 40#64 8#64]
    [.put 48#64 8#64, .put 56#64 8#64, .put 80#64 8#64, .put 88#64 8#64, .put 96#64 8#64, .get 72#64] [.get 72#64, .get 72#64] []
def afterSched : List Sched := steps 0 300 ++ steps 1 600 ++ steps 2 80
def afterSys : Sys := (Sys.start orphanMem afterCalls).exec (fun x => x >>> 3) 60 afterSched

theorem after_valid : ∀ t, ∀ op ∈ afterCalls t, op.Valid := fun t op h => by
  rcases mem_callsOf h with ⟨-, g⟩ | ⟨-, g⟩ | ⟨-, g⟩ | ⟨-, g⟩ <;> clear h <;> revert op <;> decide

/-- So the theorems of this file say something of that session, in which the map grows and a `get` returns the value that was
asked for in the session before. -/
example : Restarted (fun x => x >>> 3) 8 64 orphanSys.hist orphanMem ∧ (∀ t, ∀ op ∈ afterCalls t, op.Valid) ∧
    .res 2 (.get 72#64) (.word 16#64) ∈ afterSys.hist ∧ .inv 0 (.put 72#64 16#64) ∈ orphanSys.hist ∧ afterSys.mem.root ≠ 0 :=
  ⟨orphan_restarted, after_valid, by decide +kernel, by decide +kernel, by decide +kernel⟩

/-- Before the map grows nothing has failed, as `c54_no_growth_reopened` says. -/
example : let s := (Sys.start orphanMem afterCalls).exec (fun x => x >>> 3) 60 (steps 0 150 ++ steps 2 20)
    s.mem.next = 1 ∧ (s.mem.tab 0).newT = none ∧ s.mem.reopened = true ∧ 5 < s.hist.length := by decide +kernel

end PMap
