import Verif.Clevel.Seq
import Verif.Props.Workload

/-!
# C62, C63 (and parts of C48 and C64): the clevel table, called by one thread

`containers/levelMap.hpp` keeps its set in `include/libpmemobj++/experimental/clevel_hash.hpp`.  Called by one thread, with rounds
of the background thread between the calls, the table behaves as a map.
-/

namespace PMap.Clevel

open CP

/-- What a call does to a map, and what it reports.  No code of its own: this is the specification. -/
def specCall : Call → (Word → Option Word) → Bool × (Word → Option Word)
  | .contains k, M => ((M k).isSome, M)
  | .insert _ k v, M => match M k with
    | some _ => (false, M)
    | none => (true, fun x => if x = k then some v else M x)
  | .erase k, M => ((M k).isSome, fun x => if x = k then none else M x)
  | .update _ k v, M => match M k with
    | some _ => (true, fun x => if x = k then some v else M x)
    | none => (false, M)
  | .background, M => (false, M)

/-- What calls one after the other report, and the map they leave.  No code of its own: this is the specification. -/
def specCalls : List Call → (Word → Option Word) → List Bool × (Word → Option Word)
  | [], M => ([], M)
  | c :: cs, M => ((specCall c M).1 :: (specCalls cs (specCall c M).2).1, (specCalls cs (specCall c M).2).2)

/-- The number of updates that found their key.  No code of its own: this is the specification. -/
def updatesIn : List Call → (Word → Option Word) → Nat
  | [], _ => 0
  | c :: cs, M => (match c with
    | .update _ k _ => if (M k).isSome then 1 else 0
    | _ => 0) + updatesIn cs (specCall c M).2

/-- The thread number of a call has a place in the arrays `tmp_entry`, `tmp_level` and `tmp_meta`.  No code of its own. -/
def Call.fits (tn : Nat) : Call → Prop
  | .insert t _ _ => t < tn
  | .update t _ _ => t < tn
  | _ => True

/-- The entries of `s` outside `W` are one for each pair of `M`.  No code of its own: this is the specification. -/
structure Entries (s : CSt) (W : List Word) (M : Word → Option Word) : Prop where
  sound : ∀ o k v, s.heap o = some (k, v) → o ∉ W → M k = some v
  complete : ∀ k v, M k = some v → ∃ o, o ∉ W ∧ s.heap o = some (k, v)
  unique : ∀ o o' k v v', s.heap o = some (k, v) → s.heap o' = some (k, v') → o ∉ W → o' ∉ W → o = o'
  waste : ∀ o ∈ W, s.heap o ≠ none

variable {E : CEnv} {B : Prop} {p0 p : Nat} {s : CSt} {ls : List Nat} {M : Word → Option Word}

theorem cwp_call {c : Call} {tn lf f : Nat} {W : List Word} (h : Inv E B p0 s p ls M (· ∈ W)) (hW : W.Nodup) (htn : s.tn = tn)
    (hc : c.fits tn) (hB : c = .background → B) (hlf : maxLevel ≤ lf) {Q : Bool → CSt → Prop}
    (hQ : ∀ s' p' ls' (W' : List Word), Inv E B p0 s' p' ls' (specCall c M).2 (· ∈ W') → W'.Nodup → s'.tn = tn →
      W'.length = W.length + updatesIn [c] M → Q (specCall c M).1 s') : cwp (c.prog E lf (f + 2)) Q s := by
  cases c with
  | contains k =>
    exact cwp_search h (h.levels.le.trans hlf) (hQ s p ls W h hW htn rfl)
  | insert t k v =>
    refine cwp_insert h (by rw [htn]; exact hc) hlf fun s' ls' h' htn' => ?_
    have := hQ s' p ls' W
    cases hm : M k with
    | none =>
      simp only [specCall, hm, updatesIn] at this
      rw [hm, if_neg (by simp)] at h'
      exact this h' hW (htn'.trans htn) rfl
    | some v' =>
      simp only [specCall, hm, updatesIn] at this
      rw [hm, if_pos (by rfl)] at h'
      exact this h' hW (htn'.trans htn) rfl
  | erase k =>
    exact cwp_erase h (h.levels.le.trans hlf) fun s' h' htn' => hQ s' p ls W h' hW (htn'.trans htn) rfl
  | update t k v =>
    refine cwp_update h (by rw [htn]; exact hc) hlf (fun s' hm h' htn' => ?_) (fun s' o hm ho hoW h' htn' => ?_)
    · have := hQ s' p ls W
      simp only [specCall, hm, updatesIn] at this
      exact this h' hW (htn'.trans htn) rfl
    · have := hQ s' p ls (o :: W)
      obtain ⟨v', hm'⟩ := Option.isSome_iff_exists.1 hm
      simp only [specCall, hm', updatesIn] at this
      refine this (h'.congrJ fun x => ?_) (List.nodup_cons.2 ⟨hoW, hW⟩) (htn'.trans htn) rfl
      rw [List.mem_cons, or_comm]
  | background =>
    show cwp (do round E lf (f + 2); pure false) Q s
    rw [cwp_bind]
    exact cwp_round (hB rfl) h hlf fun s' p' ls' h' htn' => hQ s' p' ls' W h' hW (htn'.trans htn) rfl

theorem cwp_calls {tn lf f : Nat} (hlf : maxLevel ≤ lf) : ∀ {cs : List Call} {s : CSt} {p : Nat} {ls : List Nat} {M : Word → Option Word}
    {W : List Word}, Inv E B p0 s p ls M (· ∈ W) → W.Nodup → s.tn = tn → (∀ c ∈ cs, c.fits tn) → (.background ∈ cs → B) →
      ∀ {Q : List Bool → CSt → Prop}, (∀ s' p' ls' (W' : List Word), Inv E B p0 s' p' ls' (specCalls cs M).2 (· ∈ W') → W'.Nodup → s'.tn = tn →
        W'.length = W.length + updatesIn cs M → Q (specCalls cs M).1 s') → cwp (Call.progs E lf (f + 2) cs) Q s
  | [], s, p, ls, M, W, h, hW, htn, _, _, Q, hQ => hQ s p ls W h hW htn rfl
  | c :: cs, s, p, ls, M, W, h, hW, htn, hc, hb, Q, hQ => by
    unfold Call.progs
    rw [cwp_bind]
    refine cwp_call h hW htn (hc c (by simp)) (fun e => hb (by simp [e])) hlf fun s' p' ls' W' h' hW' htn' hl' => ?_
    rw [cwp_bind]
    refine cwp_calls hlf h' hW' htn' (fun c' hc' => hc c' (by simp [hc'])) (fun e => hb (by simp [e])) fun s2 p2 ls2 W2 h2 hW2 htn2 hl2 => ?_
    rw [cwp_pure]
    refine hQ s2 p2 ls2 W2 h2 hW2 htn2 ?_
    rw [hl2, hl']
    simp only [updatesIn]
    omega

/-- **C62**: whatever the hash function, the allocator and the size of the pool, any calls one after the other to a new table, with
any rounds of the background thread between them, end, and neither touch memory that is not theirs nor fail an assertion; unless
the pool is full they report what a map reports, and there is one live entry for each pair of the map, and one more for each update
that found its key. -/
theorem c62_map (E : CEnv) {hp tn lf f : Nat} (hhp : 2 ≤ hp) (htn : 0 < tn) (hpool : 2 ^ hp ≤ E.pool ∧ E.pool < 2 ^ (hp + 14))
    (hlf : maxLevel ≤ lf) (cs : List Call) (hcs : ∀ c ∈ cs, c.fits tn) :
    (Call.progs E lf (f + 2) cs).run (CSt.new hp tn) = some .oom ∨
    ∃ s W, (Call.progs E lf (f + 2) cs).run (CSt.new hp tn) = some (.ok (specCalls cs fun _ => none).1 s) ∧
      Entries s W (specCalls cs fun _ => none).2 ∧ W.Nodup ∧ W.length = updatesIn cs (fun _ => none) := by
  have h0 := (Inv.init (E := E) (B := True) hhp htn hpool.1 hpool.2).congrJ (J' := (· ∈ ([] : List Word))) (by simp)
  have := cwp_run (cwp_calls (f := f) hlf h0 List.nodup_nil rfl hcs (fun _ => trivial)
    (Q := fun bs s => bs = (specCalls cs fun _ => none).1 ∧ ∃ W, Entries s W (specCalls cs fun _ => none).2 ∧ W.Nodup ∧
      W.length = updatesIn cs (fun _ => none)) fun s' p' ls' W' h' hW' _ hl' => by
      obtain ⟨h1, h2, h3⟩ := h'.entries
      refine ⟨rfl, W', ⟨fun o k v ho hW => h1 o k v ho hW, fun k v hm => ?_, h3, fun o ho => (h'.junk o ho).1⟩, hW', by simpa using hl'⟩
      obtain ⟨o, h4, h5⟩ := h2 k v hm
      exact ⟨o, h5, h4⟩)
  rcases this with h | ⟨bs, s, h, rfl, W, h1, h2, h3⟩
  · exact .inl h
  · exact .inr ⟨s, W, h, h1, h2, h3⟩

/-- **C62**, a full pool does not matter to calls that allocate nothing: after any calls a search and an erase, run alone, end, and
report whether the map has the key. -/
theorem c62_search_erase (E : CEnv) {hp tn lf f : Nat} (hhp : 2 ≤ hp) (htn : 0 < tn) (hpool : 2 ^ hp ≤ E.pool ∧ E.pool < 2 ^ (hp + 14))
    (hlf : maxLevel ≤ lf) (cs : List Call) (hcs : ∀ c ∈ cs, c.fits tn) {bs : List Bool} {s : CSt}
    (h : (Call.progs E lf (f + 2) cs).run (CSt.new hp tn) = some (.ok bs s)) (k : Word) :
    (Clevel.search E k lf (f + 2)).run s = some (.ok ((specCalls cs fun _ => none).2 k).isSome s) ∧
    ∃ s', (Clevel.erase E k lf (f + 2) false).run s = some (.ok ((specCalls cs fun _ => none).2 k).isSome s') := by
  have h0 := (Inv.init (E := E) (B := True) hhp htn hpool.1 hpool.2).congrJ (J' := (· ∈ ([] : List Word))) (by simp)
  have := cwp_run (cwp_calls (f := f) hlf h0 List.nodup_nil rfl hcs (fun _ => trivial)
    (Q := fun _ s => cwp (Clevel.search E k lf (f + 2)) (fun b s' => b = ((specCalls cs fun _ => none).2 k).isSome ∧ s' = s) s ∧
      cwp (Clevel.erase E k lf (f + 2) false) (fun b _ => b = ((specCalls cs fun _ => none).2 k).isSome) s)
    fun s' p' ls' W' h' _ _ _ => ⟨cwp_search h' (h'.levels.le.trans hlf) ⟨rfl, rfl⟩,
      cwp_erase h' (h'.levels.le.trans hlf) fun _ _ _ => rfl⟩)
  rw [h] at this
  rcases this with h | ⟨_, _, h, h1, h2⟩
  · cases h
  · cases h
    refine ⟨?_, ?_⟩
    · rcases cwp_run h1 with h3 | ⟨_, _, h3, rfl, rfl⟩
      · exact absurd h3 (noAlloc_run (noAlloc_search k lf _))
      · exact h3
    · rcases cwp_run h2 with h3 | ⟨_, s', h3, rfl⟩
      · exact absurd h3 (noAlloc_run (noAlloc_erase k lf _ false))
      · exact ⟨s', h3⟩

/-- A hash function, an allocator that never fails and the pool of levelMap.hpp:106-108 (no code of its own). -/
def E0 : CEnv := ⟨id, fun n => BitVec.ofNat 64 (64 * (n + 1)), 2621440⟩

/-- The same with a pool for small tables (no code of its own). -/
def E1 : CEnv := ⟨id, fun n => BitVec.ofNat 64 (64 * (n + 1)), 64⟩

/-- The table of levelMap.hpp: `HashPower` 14 (clevel:130), a pool of `PMEMOBJ_MIN_POOL * 20` bytes. -/
example : 2 ≤ 14 ∧ 2 ^ 14 ≤ E0.pool ∧ E0.pool < 2 ^ (14 + 14) := by decide

/-- What a program run alone returns (no code of its own). -/
def resultOf {α : Type} : Option (R CSt α) → Option α
  | some (.ok a _) => some a
  | _ => none

/-- Keys that share both buckets in the two small levels (no code of its own). -/
def clash (i : Nat) : Word := BitVec.ofNat 64 (256 * i)

/-- A run with all kinds of calls, in which the table grows and the background thread empties and drops the bottom level. -/
example : resultOf ((Call.progs E1 16 2 ((List.range 34).map (fun i => .insert 0 (clash (i + 1)) 7#64) ++
      [.background, .background, .contains (clash 3), .update 0 (clash 3) 8#64, .erase (clash 4), .contains (clash 4),
       .insert 0 (clash 3) 9#64, .update 0 (clash 4) 5#64])).run (CSt.new 2 1)) =
    some (List.replicate 34 true ++ [false, false, true, true, true, false, false, false]) := by decide +kernel

/-- The same run drops a level: there are three levels after the inserts, and after the rounds the bottom one is number 1 and the top
one number 4, for there was no room in number 3 for everything that was in the bottom one. -/
example : ((Call.progs E1 16 2 ((List.range 34).map fun i => .insert 0 (clash (i + 1)) 7#64)).run (CSt.new 2 1)).bind (fun
      | .ok _ s => (s.mt s.root).map fun m => (m.last, m.first, m.resizing)
      | _ => none) = some (2, 3, true) ∧
    ((Call.progs E1 16 2 ((List.range 34).map (fun i => .insert 0 (clash (i + 1)) 7#64) ++ [.background, .background])).run
      (CSt.new 2 1)).bind (fun
      | .ok _ s => (s.mt s.root).map fun m => (m.last, m.first, m.resizing)
      | _ => none) = some (1, 4, true) := by decide +kernel

/-- The condition on the thread number is met by what levelMap.hpp does from thread 0, with `set_thread_num(1)`. -/
example : ∀ c ∈ [Call.insert 0 5#64 5#64, .update 0 5#64 6#64, .erase 5#64, .background], c.fits 1 := by
  intro c hc
  simp only [List.mem_cons, List.not_mem_nil, or_false] at hc
  rcases hc with rfl | rfl | rfl | rfl <;> simp [Call.fits]

/-- **C64 is false of threads other than the first**: levelMap.hpp:114 calls `set_thread_num(1)`, so an insert or an update by a thread whose number
is 1 or more writes behind the end of `tmp_entry`, whatever the table holds. -/
theorem c64_thread_number (E : CEnv) (s : CSt) {t lf f : Nat} (ht : s.tn ≤ t) (k v : Word) :
    (Clevel.insert E t k v lf f).run s = some .ub ∧ (Clevel.update E t k v lf f).run s = some .ub := by
  have h : ¬ t < s.tn := by omega
  have key : ∀ g : Word → CP Bool, (newEntry E t k v >>= g).run s = some .ub := by
    intro g
    show (CP.bind (newEntry E t k v) g).run s = _
    simp [newEntry, atom, CP.bind, CP.run, h]
  exact ⟨key _, key _⟩

example : (CSt.new 14 1).tn ≤ 1 := by decide

/-- **C63 is false of updates**: an update leaves the entry it replaces allocated, and nothing refers to it any more. -/
theorem c63_update_leaks : ((Call.progs E1 16 2 [.insert 0 5#64 7#64, .update 0 5#64 8#64, .erase 5#64]).run (CSt.new 2 1)).bind (fun
      | .ok bs s => some (bs, s.heap 64#64, s.heap 128#64)
      | _ => none) = some ([true, true, true], some (5#64, 7#64), none) := by decide +kernel

/-- **C63 is false of levels**: the bottom level is not freed when it is dropped, nor is the metadata that is replaced. -/
theorem c63_level_leaks :
    ((Call.progs E1 16 2 ((List.range 34).map (fun i => .insert 0 (clash (i + 1)) 7#64) ++ [.background, .background])).run
      (CSt.new 2 1)).bind (fun
      | .ok _ s => some ((s.mt s.root).map (·.last), (s.lv 2).isSome, (s.mt 1).isSome, s.root)
      | _ => none) = some (some 1, true, true, 4) := by decide +kernel

/-- **C63**, the rest: as long as no update finds its key, calls one after the other leave no live entry but one for each pair of
the map.  Partial: no updates that find their key, entries only. -/
theorem c63_entries_partial (E : CEnv) {hp tn lf f : Nat} (hhp : 2 ≤ hp) (htn : 0 < tn)
    (hpool : 2 ^ hp ≤ E.pool ∧ E.pool < 2 ^ (hp + 14)) (hlf : maxLevel ≤ lf) (cs : List Call) (hcs : ∀ c ∈ cs, c.fits tn)
    (hup : updatesIn cs (fun _ => none) = 0) {bs : List Bool} {s : CSt}
    (h : (Call.progs E lf (f + 2) cs).run (CSt.new hp tn) = some (.ok bs s)) :
    (∀ o k v, s.heap o = some (k, v) → (specCalls cs fun _ => none).2 k = some v) ∧
    ∀ o o' k v v', s.heap o = some (k, v) → s.heap o' = some (k, v') → o = o' := by
  rcases c62_map E hhp htn hpool hlf cs hcs (f := f) with h1 | ⟨s', W, h1, h2, -, h3⟩
  · rw [h1] at h
    cases h
  · rw [h1] at h
    cases h
    rw [hup, List.length_eq_zero_iff] at h3
    subst h3
    exact ⟨fun o k v ho => h2.sound o k v ho (by simp), fun o o' k v v' ho ho' => h2.unique o o' k v v' ho ho' (by simp) (by simp)⟩

/-- Inserts, erases and an update that does not find its key. -/
example : updatesIn [.insert 0 5#64 7#64, .update 0 6#64 8#64, .erase 5#64, .insert 0 5#64 9#64] (fun _ => none) = 0 ∧
    resultOf ((Call.progs E0 16 2 [.insert 0 5#64 7#64, .update 0 6#64 8#64, .erase 5#64, .insert 0 5#64 9#64]).run (CSt.new 14 1)) =
      some [true, false, true, true] := by decide +kernel

/-! ## The adapter -/

theorem cwp_rounds {lf f : Nat} (hlf : maxLevel ≤ lf) {J : Word → Prop} : ∀ {n : Nat} {s : CSt} {p : Nat} {ls : List Nat},
    Inv E True p0 s p ls M J → ∀ {Q : Unit → CSt → Prop}, (∀ s' p' ls', Inv E True p0 s' p' ls' M J → Q () s') → cwp (rounds E lf (f + 2) n) Q s
  | 0, s, p, ls, h, Q, hQ => hQ s p ls h
  | n + 1, s, p, ls, h, Q, hQ => by
    unfold rounds
    rw [cwp_bind]
    exact cwp_round trivial h hlf fun s' p' ls' h' _ => cwp_rounds hlf h' hQ

theorem cwp_levelCall {op : UOp} {lf f cap : Nat} {J : Word → Prop} (h : Inv E True p0 s p ls M J) (hlf : maxLevel ≤ lf) {c : StdMap}
    (hs : StdMap.Sorted c) (hM : ∀ k, c.find k = M k) (hop : op ≠ .count) {Q : Work.CRes → CSt → Prop}
    (hQ : ∀ s' p' ls' M', Inv E True p0 s' p' ls' M' J → StdMap.Sorted (Work.clevelCall cap op c).2 →
      (∀ k, (Work.clevelCall cap op c).2.find k = M' k) → Q (Work.clevelCall cap op c).1 s') :
    cwp (levelCall E lf (f + 2) op) Q s := by
  have hins : ∀ (el : Word) (Q' : Bool → CSt → Prop), (∀ s' p' ls' M', Inv E True p0 s' p' ls' M' J →
      StdMap.Sorted (c.insert el el).1 → (∀ k, (c.insert el el).1.find k = M' k) → Q' (c.insert el el).2 s') →
      cwp (Clevel.insert E 0 el el lf (f + 2)) Q' s := by
    intro el Q' hQ'
    refine cwp_insert h h.tn hlf fun s' ls' h' _ => ?_
    have h2 : (c.insert el el).2 = !(M el).isSome := by
      rw [StdMap.insert_snd el el hs, hM]
      cases M el <;> rfl
    have := hQ' s' p ls' _ h' (StdMap.sorted_insert hs) (fun k => ?_)
    · rw [h2] at this
      exact this
    · rw [StdMap.find_insert k hs, hM, hM]
      cases hm : M el with
      | none => simp [setKey]
      | some v => simp
  cases op with
  | insert el =>
    unfold levelCall
    rw [cwp_bind]
    exact hins el _ fun s' p' ls' M' h' h1 h2 => hQ s' p' ls' M' h' h1 h2
  | erase el =>
    unfold levelCall
    rw [cwp_bind]
    refine cwp_erase h (h.levels.le.trans hlf) fun s' h' _ => ?_
    have := hQ s' p ls _ h' (StdMap.sorted_erase hs) fun k => ?_
    · rw [cwp_pure]
      simp only [Work.clevelCall] at this
      rw [StdMap.erase_snd, hM] at this
      exact this
    · simp only [Work.clevelCall]
      rw [StdMap.find_erase k hs, hM]
      rfl
  | contains el =>
    unfold levelCall
    rw [cwp_bind]
    refine cwp_search h (h.levels.le.trans hlf) ?_
    have := hQ s p ls M h hs hM
    rw [cwp_pure, ← hM]
    exact this
  | get el =>
    unfold levelCall
    rw [cwp_bind]
    refine cwp_search h (h.levels.le.trans hlf) ?_
    have := hQ s p ls M h hs hM
    rw [cwp_pure, ← hM]
    exact this
  | count => exact absurd rfl hop
  | increment el =>
    unfold levelCall
    rw [cwp_bind]
    exact hins el _ fun s' p' ls' M' h' h1 h2 => hQ s' p' ls' M' h' h1 h2

theorem cwp_levelCalls {lf f cap : Nat} {J : Word → Prop} (hlf : maxLevel ≤ lf) : ∀ {cs : List (Nat × UOp)} {s : CSt} {p : Nat} {ls : List Nat}
    {M : Word → Option Word} {c : StdMap}, Inv E True p0 s p ls M J → StdMap.Sorted c → (∀ k, c.find k = M k) → (∀ x ∈ cs, x.2 ≠ .count) →
      ∀ {Q : List Work.CRes → CSt → Prop}, (∀ s' p' ls' M', Inv E True p0 s' p' ls' M' J →
        Q (Work.callAll (Work.clevelCall cap) (cs.map (·.2)) c).1 s') → cwp (levelCalls E lf (f + 2) cs) Q s
  | [], s, p, ls, M, c, h, _, _, _, Q, hQ => hQ s p ls M h
  | (n, op) :: cs, s, p, ls, M, c, h, hs, hM, hc, Q, hQ => by
    unfold levelCalls
    rw [cwp_bind]
    refine cwp_rounds hlf h fun s1 p1 ls1 h1 => ?_
    rw [cwp_bind]
    refine cwp_levelCall (cap := cap) h1 hlf hs hM (hc (n, op) (by simp)) fun s2 p2 ls2 M2 h2 hs2 hM2 => ?_
    rw [cwp_bind]
    refine cwp_levelCalls (cap := cap) hlf h2 hs2 hM2 (fun x hx => hc x (by simp [hx])) fun s3 p3 ls3 M3 h3 => ?_
    exact hQ s3 p3 ls3 M3 h3

/-- **C48**, the clevel adapter over its table: calls of levelMap.hpp other than `increment` and `count`, made by thread 0 of a table of its own with any
number of rounds of the background thread before each, end, and unless the pool is full they answer what the reference container
answers.  This is without the assumption that the clevel table is perfect.  Partial: one caller, no `increment`, no `count`. -/
theorem c48_clevel_partial (E : CEnv) {hp tn lf f : Nat} (hhp : 2 ≤ hp) (htn : 0 < tn)
    (hpool : 2 ^ hp ≤ E.pool ∧ E.pool < 2 ^ (hp + 14)) (hlf : maxLevel ≤ lf) (cs : List (Nat × UOp))
    (hcs : ∀ x ∈ cs, x.2.isInc = false ∧ x.2 ≠ .count) :
    (levelCalls E lf (f + 2) cs).run (CSt.new hp tn) = some .oom ∨
    ∃ s, (levelCalls E lf (f + 2) cs).run (CSt.new hp tn) = some (.ok (Work.callAll Work.stlCall (cs.map (·.2)) []).1 s) := by
  have h0 := Inv.init (E := E) (B := True) hhp htn hpool.1 hpool.2
  have := cwp_run (cwp_levelCalls (f := f) (cap := 0) (c := []) hlf h0 List.Pairwise.nil (fun _ => rfl) (fun x hx => (hcs x hx).2)
    (Q := fun rs _ => rs = (Work.callAll (Work.clevelCall 0) (cs.map (·.2)) []).1) fun _ _ _ _ _ => rfl)
  rw [(Work.c48_adapters_partial (cs.map (·.2)) (fun op hop => by
    obtain ⟨x, hx, rfl⟩ := List.mem_map.1 hop
    exact (hcs x hx).1) 0).2 (fun op hop => by
    obtain ⟨x, hx, rfl⟩ := List.mem_map.1 hop
    exact (hcs x hx).2)] at this
  rcases this with h | ⟨_, s, h, rfl⟩
  · exact .inl h
  · exact .inr ⟨s, h⟩

example : resultOf ((levelCalls E0 16 2 [(0, .insert 5#64), (1, .insert 5#64), (0, .get 5#64), (2, .get 6#64), (0, .erase 5#64),
    (0, .contains 5#64)]).run (CSt.new 14 1)) =
    some [.bool true, .bool false, .word 5#64, .word 0#64, .bool true, .bool false] := by decide +kernel

/-- **C48**, `count` of the clevel adapter: in every state that calls can lead to `count` returns eight times the number of buckets, at least 12 times
`2 ^ hp`, however few keys there are: 196608 for the empty table of levelMap.hpp. -/
theorem c48_clevel_count (E : CEnv) {hp tn lf f : Nat} (hhp : 2 ≤ hp) (htn : 0 < tn) (hpool : 2 ^ hp ≤ E.pool ∧ E.pool < 2 ^ (hp + 14))
    (hlf : maxLevel ≤ lf) (cs : List Call) (hcs : ∀ c ∈ cs, c.fits tn) :
    ((Call.progs E lf (f + 2) cs).run (CSt.new hp tn) = some .oom) ∨ ∃ bs s n,
      (Call.progs E lf (f + 2) cs).run (CSt.new hp tn) = some (.ok bs s) ∧ (capacity lf).run s = some (.ok n s) ∧
      12 * 2 ^ hp ≤ n ∧ n ≤ 16 * E.pool := by
  have h0 := (Inv.init (E := E) (B := True) hhp htn hpool.1 hpool.2).congrJ (J' := (· ∈ ([] : List Word))) (by simp)
  have := cwp_run (cwp_calls (f := f) hlf h0 List.nodup_nil rfl hcs (fun _ => trivial)
    (Q := fun _ s => ∃ n, cwp (capacity lf) (fun m s' => m = n ∧ s' = s) s ∧ 12 * 2 ^ hp ≤ n ∧ n ≤ 16 * E.pool)
    fun s' p' ls' W' h' _ _ _ => by
      refine ⟨assocNum * (2 ^ (p' + ls'.length) - 2 ^ p'), cwp_capacity h' hlf ⟨rfl, rfl⟩, ?_, ?_⟩
      · have h1 : 2 ^ (hp - 1) ≤ 2 ^ p' := Nat.pow_le_pow_right (by decide) h'.grown
        have h2 : 2 ^ (p' + 2) ≤ 2 ^ (p' + ls'.length) := Nat.pow_le_pow_right (by decide) (by have := h'.len; omega)
        have h3 : 2 ^ hp = 2 * 2 ^ (hp - 1) := by
          rw [← pow_succ']
          congr 1
          omega
        have h4 : 2 ^ (p' + 2) = 4 * 2 ^ p' := by rw [pow_add]; omega
        unfold assocNum
        omega
      · have h1 := h'.fit
        have h3 : 0 < 2 ^ p' := Nat.pos_of_ne_zero (pow_ne_zero _ (by decide))
        have h2 : 2 ^ (p' + ls'.length) = 2 * 2 ^ (p' + ls'.length - 1) := by
          rw [← pow_succ']
          congr 1
          have := h'.len
          omega
        unfold assocNum
        omega)
  rcases this with h | ⟨bs, s, h, n, h1, h2⟩
  · exact .inl h
  · have h3 := cwp_run h1
    rcases h3 with h3 | ⟨m, s', h3, rfl, rfl⟩
    · exact absurd h3 (noAlloc_run (noAlloc_capacity lf))
    · exact .inr ⟨bs, _, m, h, h3, h2⟩

example : resultOf ((capacity 16).run (CSt.new 14 1)) = some 196608 := by decide +kernel

end PMap.Clevel
