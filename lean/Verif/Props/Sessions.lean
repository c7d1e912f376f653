import Verif.Durable.Sessions
import Verif.Props.Crashes
import Verif.Props.OneWriter

/-!
# Sessions of several threads that end in a crash: C51, and C22 for a reopened map
-/

namespace PMap

open Prog

variable {hash : Word → Word} {n len cap : Nat}

/-- Memories at the start of a session, after any number of earlier sessions each of which ended in a crash: in each, any number of
threads made calls, each key being changed by one thread of that session, all changed keys belonging to `K`, no value word
returning to an earlier value, in any interleaving, with any write-backs, before the first growth; then the file was opened again,
the machine stopping any number of times (`xss`) while it was being opened. -/
inductive Crashes (hash : Word → Word) (len cap : Nat) (K : Word → Prop) : Mem → Prop
  | fresh : Crashes hash len cap K (freshMem len cap)
  | crash {m m' : Mem} {f : File} (n : Nat) (calls : Nat → List Op) (own : Word → Nat) (xs : List Sched)
      (xss : List (List OpenStep)) :
      Crashes hash len cap K m → (∀ t, ∀ op ∈ calls t, op.Valid) →
      (∀ t, ∀ op ∈ calls t, ∀ k, op.changes = some k → own k = t ∧ K k) →
      (((Sys.start m calls).exec hash n xs).mem.tab 0).newT = none →
      (∀ i, i < len → NoReturn hash n (Sys.start m calls) xs (.val 0 i)) →
      cutOpens ((Sys.start m calls).exec hash n xs).mem.cap xss (fileOf ((Sys.start m calls).exec hash n xs).mem.nv 0
        (((Sys.start m calls).exec hash n xs).mem.tab 0).len) = some f →
      openFile f ((Sys.start m calls).exec hash n xs).mem.cap = .done () m' →
      Crashes hash len cap K m'

theorem crashes_opened (hs : Sized len cap) {K : Word → Prop} (hK : HomesApart hash len K) {m : Mem} (h : Crashes hash len cap K m) :
    Opened hash len m ∧ AtHome hash len K m := by
  induction h with
  | fresh => exact ⟨opened_fresh hs, fun i _ h => absurd (by simp only [freshMem, freshWords, if_true]; decide) h⟩
  | @crash m m' f n calls own xs xss _ hv ho h1 hr hc hf ih =>
    have hF := ih.1.shared hv h1 hr
    obtain ⟨g, hg, hl⟩ := cutOpens_left ((Sys.start m calls).exec hash n xs).mem.cap xss
      (fileOf ((Sys.start m calls).exec hash n xs).mem.nv 0 (((Sys.start m calls).exec hash n xs).mem.tab 0).len)
    rw [hc] at hg
    cases hg
    rw [hF.len xs (List.prefix_refl _)] at hl
    exact ih.1.reopen_home hv h1 hF (fun t op h k hk => (ho t op h k hk).1)
      (home_exec hF hK (fun _ => rfl) hv ho ih.2 (List.prefix_refl _)) hl hf

/-- **C51, several threads without collisions.** Let `K` be a set of keys with different home slots (hash values that differ modulo
the table length).  After any number of sessions that ended in a crash, take one more: any number of threads, any valid calls that
change only keys of `K`, each key being changed by one thread (which one may differ from session to session) and read by all,
every interleaving, any write-backs, a crash at any step before the first growth, no value word having returned to an earlier value.
Then there is an ordinary map `M` such that the following holds however often the machine then stops while the file is being opened:
the file can be opened, `size()` is the number of keys of `M`, and every later sequence of calls gets the results of an ordinary
map that starts as `M`.  `M` has each key's value at the crash (what a `get` made alone at that moment would find), or its value just
before the key's last change in this session.  Partial: with collisions the reopened map need not behave as a map at all, even
when each key has one writer (`c51_not_a_map`); after a growth the restart opens the old table (`c41_restart_after_growth`). -/
theorem c51_no_collisions_partial (hs : Sized len cap) {K : Word → Prop}
    (hK : ∀ k k', K k → K k' → (hash k).toNat % len = (hash k').toNat % len → k = k')
    {m : Mem} (h : Crashes hash len cap K m) (calls : Nat → List Op) (hv : ∀ t, ∀ op ∈ calls t, op.Valid) {own : Word → Nat}
    (ho : ∀ t, ∀ op ∈ calls t, ∀ k, op.changes = some k → own k = t ∧ K k) (xs : List Sched)
    (h1 : (((Sys.start m calls).exec hash n xs).mem.tab 0).newT = none)
    (hr : ∀ i, i < len → NoReturn hash n (Sys.start m calls) xs (.val 0 i)) :
    ∃ M : AMap,
      (∀ xss, ∃ f m',
        cutOpens ((Sys.start m calls).exec hash n xs).mem.cap xss (fileOf ((Sys.start m calls).exec hash n xs).mem.nv 0
          (((Sys.start m calls).exec hash n xs).mem.tab 0).len) = some f ∧
        openFile f ((Sys.start m calls).exec hash n xs).mem.cap = .done () m' ∧
        run mapSize m' = .done (BitVec.ofNat 64 M.card) m' ∧
        ∀ N ops rs m'', (∀ op ∈ ops, op.Valid ∧ op.isUpdate = false) → runOps hash N ops m' = .done rs m'' →
          specAgrees ops M rs) ∧
      ∀ k, ValidKey k → ∃ w,
        (∀ N, reprobeLimit len + 1 < N → ∃ m', run (mapGet hash N k) ((Sys.start m calls).exec hash n xs).mem = .done w m') ∧
        ((M k).getD VINITIAL = w ∨ ∃ ys x, ys ++ [x] <+: xs ∧
          (∀ N, reprobeLimit len + 1 < N →
            ∃ m', run (mapGet hash N k) ((Sys.start m calls).exec hash n ys).mem = .done ((M k).getD VINITIAL) m') ∧
          ∀ zs, ys ++ [x] <+: zs → zs <+: xs → ∀ N, reprobeLimit len + 1 < N →
            ∃ m', run (mapGet hash N k) ((Sys.start m calls).exec hash n zs).mem = .done w m') := by
  obtain ⟨hop, hh⟩ := crashes_opened hs hK h
  have hF := hop.shared (n := n) hv h1 hr
  have ho' : ∀ t, ∀ op ∈ calls t, ∀ k, op.changes = some k → own k = t := fun t op h k hk => (ho t op h k hk).1
  have hP := (hop.ok (n := n) hv xs []).1.inv
  have hlen := hF.len xs (List.prefix_refl _)
  have hok := hop.file_home hv h1 hF ho' (home_exec hF hK (fun _ => rfl) hv ho hh (List.prefix_refl _))
  obtain ⟨M, m', hM, g1, g2, g3⟩ := c25_reopen hok hP.cap
  have hre : restart ((Sys.start m calls).exec hash n xs).mem ((Sys.start m calls).exec hash n xs).mem.nv = .done () m' := by
    rw [restart, hlen]; exact g1
  refine ⟨M, fun xss => ?_, fun k hk => ?_⟩
  · obtain ⟨g, hg, hl⟩ := cutOpens_left ((Sys.start m calls).exec hash n xs).mem.cap xss
      (fileOf ((Sys.start m calls).exec hash n xs).mem.nv 0 len)
    obtain ⟨M', m1, hM', f1, f2, f3⟩ := c25_reopen (hl.ok hok) hP.cap
    have e : M' = M := by
      funext k
      refine Option.ext fun v => ?_
      rw [hM', hl.holds, hM]
    subst e
    exact ⟨g, m1, by rw [hlen]; exact hg, f1, f2, f3⟩
  · obtain ⟨m1, w', w, f1, f2, f3, f4⟩ := owned_restart hF (own := own) (fun t op h => ⟨hv t op h, ho' t op h⟩) hop.begun
      (userKey_of_valid hk).ne_init
    rw [hre] at f1
    cases f1
    have hw : (M k).getD VINITIAL = w' := by
      obtain ⟨m2, e⟩ := f2 (reprobeLimit len + 2) (by omega)
      have h := g3 (reprobeLimit len + 2) [.get k] [.word w'] m2 (fun op ho => by
        rw [List.mem_singleton.mp ho]; exact ⟨hk, rfl⟩) (by
          have e' : run ((Op.get k).prog hash (reprobeLimit len + 2)) m' = .done (.word w') m2 := by
            show run ((mapGet hash (reprobeLimit len + 2) k).bind _) m' = _
            rw [run_bind, e]; rfl
          rw [runOps, e']; rfl)
      exact (Res.word.inj (h.1 _ rfl)).symm
    rw [hw]
    exact ⟨w, f3, f4⟩

/-- **C22, one writer per key, in a reopened map.** `c22_one_writer_partial` for a session that starts with the memory after any
number of sessions of one thread that ended in a crash: now any number of threads, any valid calls, each key changed by one of
them, keys may collide. -/
theorem c22_one_writer_reopened_partial (hs : Sized len cap) {m0 : Mem} (h : Crashed hash len cap m0) (calls : Nat → List Op)
    (hv : ∀ t, ∀ op ∈ calls t, op.Valid) {own : Word → Nat}
    (ho : ∀ t, ∀ op ∈ calls t, ∀ k, op.changes = some k → own k = t) (xs : List Sched)
    (h1 : (((Sys.start m0 calls).exec hash n xs).mem.tab 0).newT = none)
    (hr : ∀ i, i < len → NoReturn hash n (Sys.start m0 calls) xs (.val 0 i)) {k : Word} (hk : k ≠ KINITIAL) :
    ∃ m w' w, restart ((Sys.start m0 calls).exec hash n xs).mem ((Sys.start m0 calls).exec hash n xs).mem.nv = .done () m ∧
      (∀ N, reprobeLimit len + 1 < N → ∃ m', run (mapGet hash N k) m = .done w' m') ∧
      (∀ N, reprobeLimit len + 1 < N → ∃ m', run (mapGet hash N k) ((Sys.start m0 calls).exec hash n xs).mem = .done w m') ∧
      (w' = w ∨ ∃ ys x, ys ++ [x] <+: xs ∧
        (∀ N, reprobeLimit len + 1 < N → ∃ m', run (mapGet hash N k) ((Sys.start m0 calls).exec hash n ys).mem = .done w' m') ∧
        ∀ zs, ys ++ [x] <+: zs → zs <+: xs → ∀ N, reprobeLimit len + 1 < N →
          ∃ m', run (mapGet hash N k) ((Sys.start m0 calls).exec hash n zs).mem = .done w m') :=
  have hop := crashed_opened hs h
  owned_restart (hop.shared hv h1 hr) (own := own) (fun t op h => ⟨hv t op h, ho t op h⟩) hop.begun hk

/-! ## Cases that meet the hypotheses -/

/-- The home slots of 8, 16 and 24 are 1, 2 and 3. -/
def smallKeys (k : Word) : Prop := k = 8#64 ∨ k = 16#64 ∨ k = 24#64

/-- First session: thread 0 puts 16 and 24 under key 8, thread 1 puts 40 and 48 under key 16. -/
def firstCalls : Nat → List Op := callsOf [.put 8#64 16#64, .put 8#64 24#64] [.put 16#64 40#64, .put 16#64 48#64] [] []
def firstSched : List Sched := steps 0 9 ++ steps 1 40 ++ steps 0 90 ++ steps 1 60 ++ [.evict 0 1]
def firstSys : Sys := (Sys.init 8 64 firstCalls).exec (fun x => x >>> 3) 30 firstSched
/-- The memory when the file has been opened again. -/
def firstMem : Mem :=
  match openFile (fileOf firstSys.mem.nv 0 (firstSys.mem.tab 0).len) firstSys.mem.cap with
  | .done _ m => m
  | _ => freshMem 8 64
/-- Second session: now thread 1 changes key 8 and thread 0 the keys 16 and 24; thread 2 reads. -/
def nextCalls : Nat → List Op := callsOf [.put 16#64 56#64, .remove 16#64, .put 24#64 64#64] [.put 8#64 72#64]
  [.get 16#64, .size] []
def nextSched : List Sched := steps 0 9 ++ steps 1 22 ++ steps 0 40 ++ steps 2 40 ++ steps 1 20 ++ steps 0 5 ++ [.evict 0 3]
def nextSys : Sys := (Sys.start firstMem nextCalls).exec (fun x => x >>> 3) 30 nextSched

theorem mem_callsOf {c0 c1 c2 c3 : List Op} {t : Nat} {op : Op} (h : op ∈ callsOf c0 c1 c2 c3 t) :
    (t = 0 ∧ op ∈ c0) ∨ (t = 1 ∧ op ∈ c1) ∨ (t = 2 ∧ op ∈ c2) ∨ (t = 3 ∧ op ∈ c3) := by
  unfold callsOf at h
  split at h
  · exact .inl ⟨‹_›, h⟩
  · split at h
    · exact .inr (.inl ⟨‹_›, h⟩)
    · split at h
      · exact .inr (.inr (.inl ⟨‹_›, h⟩))
      · split at h
        · exact .inr (.inr (.inr ⟨‹_›, h⟩))
        · cases h

theorem start_mem (m : Mem) (calls : Nat → List Op) : (Sys.start m calls).mem = m := rfl

theorem first_restart : openFile (fileOf firstSys.mem.nv 0 (firstSys.mem.tab 0).len) firstSys.mem.cap = .done () firstMem := by
  obtain ⟨m, hm, -⟩ := openFile_spec (fileOf firstSys.mem.nv 0 (firstSys.mem.tab 0).len) firstSys.mem.cap
  unfold firstMem
  rw [hm]

theorem small_spread : HomesApart (fun x => x >>> 3) 8 smallKeys := by
  rintro k k' (rfl | rfl | rfl) (rfl | rfl | rfl) <;> decide

theorem sized8 : Sized 8 64 := ⟨⟨3, by decide, by decide⟩, by decide⟩

theorem first_valid : ∀ t, ∀ op ∈ firstCalls t, op.Valid := fun t op h => by
  rcases mem_callsOf h with ⟨-, g⟩ | ⟨-, g⟩ | ⟨-, g⟩ | ⟨-, g⟩ <;> clear h <;> revert op <;> decide
theorem next_valid : ∀ t, ∀ op ∈ nextCalls t, op.Valid := fun t op h => by
  rcases mem_callsOf h with ⟨-, g⟩ | ⟨-, g⟩ | ⟨-, g⟩ | ⟨-, g⟩ <;> clear h <;> revert op <;> decide

theorem first_own : ∀ t, ∀ op ∈ firstCalls t, ∀ k, op.changes = some k → (if k = 8#64 then 0 else 1) = t ∧ smallKeys k := by
  intro t op h k hk
  rcases mem_callsOf h with ⟨rfl, g⟩ | ⟨rfl, g⟩ | ⟨rfl, g⟩ | ⟨rfl, g⟩ <;>
    simp only [List.mem_cons, List.not_mem_nil, or_false] at g <;>
    rcases g with rfl | rfl | rfl <;> cases hk <;> simp [smallKeys]

theorem next_own : ∀ t, ∀ op ∈ nextCalls t, ∀ k, op.changes = some k → (if k = 8#64 then 1 else 0) = t ∧ smallKeys k := by
  intro t op h k hk
  rcases mem_callsOf h with ⟨rfl, g⟩ | ⟨rfl, g⟩ | ⟨rfl, g⟩ | ⟨rfl, g⟩ <;>
    simp only [List.mem_cons, List.not_mem_nil, or_false] at g <;>
    rcases g with rfl | rfl | rfl <;> cases hk <;> simp [smallKeys]

/-- The memory of the second session is one the theorems speak of. -/
theorem first_crashes : Crashes (fun x => x >>> 3) 8 64 smallKeys firstMem := by
  have e : (Sys.start (freshMem 8 64) firstCalls).exec (fun x => x >>> 3) 30 firstSched = firstSys := rfl
  have h1 : (((Sys.start (freshMem 8 64) firstCalls).exec (fun x => x >>> 3) 30 firstSched).mem.tab 0).newT = none := by
    decide +kernel
  have h2 := first_restart
  rw [← e] at h2
  refine Crashes.crash 30 firstCalls (fun k => if k = 8#64 then 0 else 1) firstSched [] .fresh first_valid first_own h1 ?_ ?_ h2
  rotate_left
  · rw [cutOpens]
  · exact fun i hi => noReturn_of_distinct (fun t => ⟨_, rfl, first_valid t⟩) (fun _ => rfl) (distinct_callsOf (by decide) (by decide))
      (.inl (by simp [Sys.start, freshMem, freshWords]; decide)) ((opened_fresh sized8).still first_valid h1) hi

theorem next_noReturn : ∀ i, i < 8 → NoReturn (fun x => x >>> 3) 30 (Sys.start firstMem nextCalls) nextSched (.val 0 i) := by
  have h1 : (((Sys.start firstMem nextCalls).exec (fun x => x >>> 3) 30 nextSched).mem.tab 0).newT = none := by decide +kernel
  intro i hi
  refine noReturn_of_distinct (fun t => ⟨_, rfl, next_valid t⟩) (fun _ => rfl) (distinct_callsOf (by decide) (by decide)) ?_
    ((crashes_opened sized8 small_spread first_crashes).1.still next_valid h1) hi
  have hw : ∀ i, i < 8 → clean (firstMem.word (.val 0 i)) = VINITIAL ∨ clean (firstMem.word (.key 0 i)) ≠ KINITIAL ∧
      ∀ op ∈ ([.put 16#64 56#64, .remove 16#64, .put 24#64 64#64] ++ [.put 8#64 72#64] ++ [.get 16#64, .size] : List Op),
        op.stores ≠ some (clean (firstMem.word (.key 0 i)), clean (firstMem.word (.val 0 i))) := by decide +kernel
  rw [start_mem]
  refine (hw i hi).imp id (And.imp id fun h t op hop => h op ?_)
  rcases mem_callsOf hop with ⟨-, h⟩ | ⟨-, h⟩ | ⟨-, h⟩ | ⟨-, h⟩
  · exact List.mem_append_left _ (List.mem_append_left _ h)
  · exact List.mem_append_left _ (List.mem_append_right _ h)
  · exact List.mem_append_right _ h
  · cases h

/-- So `c51_no_collisions_partial` says something of the second session, which starts with the memory after the crash of the
first.  In that crash key 16 lost its change from 40 to 48; in the second crash key 8 loses its change from 24 to 72, key 16 is
absent, and key 24, whose put has not returned, has its value. -/
example := c51_no_collisions_partial (n := 30) sized8 small_spread first_crashes nextCalls next_valid next_own nextSched
  (by decide +kernel : (nextSys.mem.tab 0).newT = none) next_noReturn

example : (run (mapGet (fun x => x >>> 3) 30 16#64) firstSys.mem).val? = some 48#64 ∧
    (run (mapGet (fun x => x >>> 3) 30 16#64) firstMem).val? = some 40#64 ∧
    (runOps (fun x => x >>> 3) 30 [.get 8#64, .get 16#64, .get 24#64] nextSys.mem).val? =
      some [.word 72#64, .word VINITIAL, .word 64#64] ∧ nextSys.hist.length = 11 ∧
    (match restart nextSys.mem nextSys.mem.nv with
      | .done _ m => (runOps (fun x => x >>> 3) 30 [.size, .get 8#64, .get 16#64, .get 24#64] m).val?
      | .halted _ => none) = some [.word 2#64, .word 24#64, .word VINITIAL, .word 64#64] := by decide +kernel

/-- In the map reopened after `loseSys` (keys 8 and 16 in slots 1 and 2), thread 0 changes key 8, thread 1 removes key 16 and puts
key 80, whose home slot is 2 as well, and thread 2 reads. -/
def joinCalls : Nat → List Op := callsOf [.put 8#64 48#64] [.remove 16#64, .put 80#64 56#64] [.get 80#64] []
def joinSched : List Sched := steps 1 9 ++ steps 0 40 ++ steps 1 80 ++ [.evict 0 3]
def joinSys : Sys := (Sys.start lostMem joinCalls).exec (fun x => x >>> 3) 30 joinSched

theorem join_valid : ∀ t, ∀ op ∈ joinCalls t, op.Valid := fun t op h => by
  rcases mem_callsOf h with ⟨-, g⟩ | ⟨-, g⟩ | ⟨-, g⟩ | ⟨-, g⟩ <;> clear h <;> revert op <;> decide

theorem join_own : ∀ t, ∀ op ∈ joinCalls t, ∀ k, op.changes = some k → (if k = 8#64 then 0 else 1) = t := by
  intro t op h k hk
  rcases mem_callsOf h with ⟨rfl, g⟩ | ⟨rfl, g⟩ | ⟨rfl, g⟩ | ⟨rfl, g⟩ <;>
    simp only [List.mem_cons, List.not_mem_nil, or_false] at g <;>
    rcases g with rfl | rfl | rfl <;> cases hk <;> rfl

theorem join_noReturn : ∀ i, i < 8 → NoReturn (fun x => x >>> 3) 30 (Sys.start lostMem joinCalls) joinSched (.val 0 i) := by
  have h1 : (((Sys.start lostMem joinCalls).exec (fun x => x >>> 3) 30 joinSched).mem.tab 0).newT = none := by decide +kernel
  intro i hi
  refine noReturn_of_distinct (fun t => ⟨_, rfl, join_valid t⟩) (fun _ => rfl) (distinct_callsOf (by decide) (by decide)) ?_
    ((crashed_opened sized8 lost_crashed).still join_valid h1) hi
  have hw : ∀ i, i < 8 → clean (lostMem.word (.val 0 i)) = VINITIAL ∨ clean (lostMem.word (.key 0 i)) ≠ KINITIAL ∧
      ∀ op ∈ ([.put 8#64 48#64] ++ [.remove 16#64, .put 80#64 56#64] ++ [.get 80#64] : List Op),
        op.stores ≠ some (clean (lostMem.word (.key 0 i)), clean (lostMem.word (.val 0 i))) := by decide +kernel
  rw [start_mem]
  refine (hw i hi).imp id (And.imp id fun h t op hop => h op ?_)
  rcases mem_callsOf hop with ⟨-, h⟩ | ⟨-, h⟩ | ⟨-, h⟩ | ⟨-, h⟩
  · exact List.mem_append_left _ (List.mem_append_left _ h)
  · exact List.mem_append_left _ (List.mem_append_right _ h)
  · exact List.mem_append_right _ h
  · cases h

/-- So `c22_one_writer_reopened_partial` says something of this run: keys 16 and 80 are as at the crash, and key 8 has lost its
change from 16 to 48. -/
example (k : Word) (hk : k ≠ KINITIAL) := c22_one_writer_reopened_partial (n := 30) sized8 lost_crashed joinCalls join_valid
  join_own joinSched (by decide +kernel : (joinSys.mem.tab 0).newT = none) join_noReturn hk

example : joinSys.hist.length = 6 ∧
    (runOps (fun x => x >>> 3) 30 [.get 8#64, .get 16#64, .get 80#64] joinSys.mem).val? =
      some [.word 48#64, .word VINITIAL, .word 56#64] ∧
    (match restart joinSys.mem joinSys.mem.nv with
      | .done _ m => (runOps (fun x => x >>> 3) 30 [.get 8#64, .get 16#64, .get 80#64] m).val?
      | .halted _ => none) = some [.word 16#64, .word VINITIAL, .word 56#64] := by decide +kernel

end PMap
