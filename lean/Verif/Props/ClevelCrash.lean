import Verif.Clevel.RoundCut
import Verif.Props.ClevelConc

/-!
# C65: the clevel table after a power failure

One caller at a time, and the background thread between calls.  Every store is flushed before the next, so a power failure leaves the
memory as it was after some access.  Searches on the reopened table are right wherever it was cut; other calls are not.
-/

namespace PMap.Clevel

open CP

/-- The behaviour of a run was undefined (no code of its own). -/
def endsUb {α : Type} : Option (R CSt α) → Bool
  | some .ub => true
  | _ => false

/-- What a run returned (no code of its own). -/
def returned {α : Type} : Option (R CSt α) → Option α
  | some (.ok a _) => some a
  | _ => none

/-! ## What goes wrong -/

/-- A small pool (no code of its own). -/
def Es : CEnv := ⟨id, fun n => BitVec.ofNat 64 (64 * (n + 1)), 1024⟩

/-- **C65 is false of a move that is cut short**: the background thread has stored the pointer in the higher level and not yet cleared
the slot it came from (between clevel:1493 and 1499).  After a restart an erase of the key frees the entry when it meets the first of the two
pointers, and reads the key of the freed entry when it meets the second. -/
theorem c65_moved_freed : endsUb ((erase E0 (far 17) 16 3 false).run ((round E0 16 3).cut 13 (filled 33 1))) = true := by decide +kernel

/-- An update of that key does no harm: `find` for an update notices that two slots hold one pointer and clears one of them (`del_dup`,
clevel:621-624), and then an erase takes the entry out. -/
theorem c65_update_repairs : returned ((do
      let a ← update E0 0 (far 17) 8#64 16 3
      let b ← erase E0 (far 17) 16 3 false
      let c ← search E0 (far 17) 16 3
      pure (a, b, c) : CP (Bool × Bool × Bool)).run ((round E0 16 3).cut 13 (filled 33 1))) = some (true, true, false) := by
  decide +kernel

/-- **C65 is false of a growth that is cut short**: a new level is linked and the metadata not yet replaced (between clevel:1319 and 1350).
After a restart the insert does not end; `c65_stuck` says so for any number of rounds. -/
theorem c65_cut_growth : returned ((insert E0 0 (far 49) 7#64 16 9).run ((insert E0 0 (far 49) 7#64 16 3).cut 164 (filled 48 1))) = none ∧
    returned ((insert E0 0 (far 49) 7#64 16 9).run ((insert E0 0 (far 49) 7#64 16 3).cut 163 (filled 48 1))) = some true := by decide +kernel

/-- A table of 2, 4 and 8 buckets (no code of its own): 33 keys that share buckets were inserted and the background thread has moved the
first bucket of the bottom level. -/
def small : CSt :=
  match (Call.progs Es 16 3 (((List.range 33).map fun i => .insert 0 (far (i + 1)) 7#64) ++ [.background])).run (CSt.new 2 1) with
  | some (.ok _ s) => s
  | _ => CSt.new 2 1

/-- **C65 is false of the end of a level**: the background thread has counted the last bucket of the bottom level as done and not yet
dropped the level (between clevel:1533 and 1550).  If it runs again after a restart, it reads a bucket behind the last one. -/
theorem c65_past_the_end : endsUb ((round Es 16 3).run ((round Es 16 3).cut 181 small)) = true ∧
    endsUb ((round Es 16 3).run ((round Es 16 3).cut 189 small)) = true := by decide +kernel

/-- **C65 is false of the position**: the background thread has dropped the bottom level and not yet set its position to 0 (between
clevel:1550 and 1558).  If it runs again after a restart, it goes on in the middle of the next level, and drops that with the keys in the
buckets it has left out. -/
theorem c65_lost_keys : returned ((search Es (far 1) 16 1).run small) = some true ∧ returned ((do
      round Es 16 3
      round Es 16 3
      search Es (far 1) 16 1 : CP Bool).run ((round Es 16 3).cut 190 small)) = some false ∧ returned ((do
      round Es 16 3
      round Es 16 3
      search Es (far 1) 16 1 : CP Bool).run ((round Es 16 3).cut 191 small)) = some true := by decide +kernel

/-! ## What is right -/

instance (s : CSt) : Decidable (Linked s) :=
  match h1 : s.mt s.root with
  | none => isFalse fun ⟨_, _, h, _⟩ => by rw [h1] at h; cases h
  | some X => match h2 : s.lv X.first with
    | none => isFalse fun ⟨_, _, h, h', _⟩ => by rw [h1] at h; cases h; rw [h2] at h'; cases h'
    | some L => if h3 : L.up = 0 then isFalse fun ⟨_, _, h, h', h''⟩ => by
        rw [h1] at h; cases h; rw [h2] at h'; cases h'; exact h'' h3
      else isTrue ⟨X, L, h1, h2, h3⟩

instance (s : CSt) : Decidable (Moving s) :=
  decidable_of_iff ((s.mt s.root).any (fun X => (s.lv X.last).any fun L => (s.lv X.first).any fun T =>
    decide (∃ b < L.cap, ∃ i < assocNum, ∃ b' < T.cap, ∃ j < assocNum, getOffset (L.slot b i) ≠ 0#64 ∧ T.slot b' j = L.slot b i)) = true) (by
    unfold Moving
    simp only [Option.any_eq_true, decide_eq_true_eq]
    exact ⟨fun ⟨X, h1, L, h2, T, h3, h4⟩ => ⟨X, L, T, h1, h2, h3, h4⟩, fun ⟨X, L, T, h1, h2, h3, h4⟩ => ⟨X, h1, L, h2, T, h3, h4⟩⟩)

instance (s : CSt) : Decidable (Settled s) :=
  decidable_of_iff ((s.mt s.root).any (fun X => (s.lv X.last).any fun L =>
    decide (s.exp < L.cap ∧ (X.resizing = false → s.exp = 0) ∧ ∀ b < s.exp, ∀ j < assocNum, L.slot b j = 0#64)) = true) (by
    unfold Settled
    simp only [Option.any_eq_true, decide_eq_true_eq]
    exact ⟨fun ⟨X, h1, L, h2, h3⟩ => ⟨X, L, h1, h2, h3⟩, fun ⟨X, L, h1, h2, h3⟩ => ⟨X, h1, L, h2, h3⟩⟩)

instance (E : CEnv) (key : Word) (s : CSt) : Decidable (Full E key s) :=
  decidable_of_iff (∀ l ∈ levelsOf s, ∀ L ∈ s.lv l, ∀ j < assocNum,
    getOffset (L.slot (firstIndex (E.hash key) L.cap) j) ≠ 0#64 ∧
    getOffset (L.slot (secondIndex (getPartial (E.hash key)) (firstIndex (E.hash key) L.cap) L.cap) j) ≠ 0#64) (by
    unfold Full
    simp only [Option.mem_def])

/-- The table between two power failures: calls one after the other, and one that is cut after so many accesses.  No code of its own. -/
structure Life where
  calls : List Call
  last : Call
  cutAt : Nat

/-- The memory at the end of a life, if its calls returned.  No code of its own. -/
def Life.mem (E : CEnv) (lf f : Nat) (L : Life) (s : CSt) : Option CSt :=
  match (Call.progs E lf f L.calls).run s with
  | some (.ok _ t) => some ((L.last.prog E lf f).cut L.cutAt t)
  | _ => none

/-- The thread numbers of the calls have a place.  No code of its own. -/
def Life.fits (tn : Nat) (L : Life) : Prop := (∀ c ∈ L.calls, c.fits tn) ∧ L.last.fits tn

/-- The background thread runs in a life only if it may.  No code of its own. -/
def Life.okFor (b : Bool) (L : Life) : Prop := b = false → .background ∉ L.calls ∧ L.last ≠ .background

/-- Lives one after the other take memory `s` to `t`.  A power failure may strike anywhere but between the two steps that link a new level
in and between the two steps that move an entry.  The first flag says whether the background thread may run in the first life, the last one
whether it may run after all of them: it may run again after a failure if it may run before and was not cut short itself, or if the
failure has left its position right.  No code of its own. -/
def Lives (E : CEnv) (tn lf f : Nat) : Bool → List Life → CSt → CSt → Bool → Prop
  | b, [], s, t, b' => t = s ∧ b' = b
  | b, L :: r, s, t, b' => L.fits tn ∧ L.okFor b ∧ ∃ u b1, L.mem E lf f s = some u ∧ ¬ Linked u ∧ (L.last = .background → ¬ Moving u) ∧
    (b1 = true → Settled u ∨ (b = true ∧ L.last ≠ .background)) ∧ Lives E tn lf f b1 r u t b'

/-- The maps there may be after lives one after the other, from map `M`: of each the calls are done, and the last one is done or not;
and the number of entries that may be lost: one for each update that found its key and one for each life.  No code of its own: this is
the specification. -/
def Maps : List Life → (Word → Option Word) → (Word → Option Word) → Nat → Prop
  | [], M, M', n => M' = M ∧ n = 0
  | L :: r, M, M', n => ∃ m, n = updatesIn L.calls M + 1 + m ∧
    (Maps r (specCalls L.calls M).2 M' m ∨ Maps r (specCall L.last (specCalls L.calls M).2).2 M' m)

variable {E : CEnv} {B : Prop} {b b' : Bool} {p0 p hp tn lf f : Nat} {s t : CSt} {ls : List Nat} {M : Word → Option Word} {J : Word → Prop}

/-- What a call leaves behind wherever it is cut: it is done or not, or the table was about to grow.  No code of its own. -/
def CutOK (E : CEnv) (B : Prop) (p0 n : Nat) (M M' : Word → Option Word) (J : Word → Prop) (t : CSt) : Prop :=
  t.tn = n ∧ ((∃ p ls J', Inv E B p0 t p ls M J' ∧ OneMore J J') ∨ (∃ p ls J', Inv E B p0 t p ls M' J' ∧ OneMore J J') ∨
    (RInv E M t ∧ Linked t))

theorem cut_call {c : Call} {n : Nat} (h : Inv E B p0 s p ls M J) (htn : s.tn = tn) (hc : c.fits tn) (hb : c ≠ .background)
    (hlf : maxLevel ≤ lf) : CutOK E B p0 tn M (specCall c M).2 J ((c.prog E lf (f + 2)).cut n s) := by
  have h0 : CutOK E B p0 tn M (specCall c M).2 J s := ⟨htn, .inl ⟨p, ls, J, h, .refl⟩⟩
  refine gcwp_cut (Q := fun _ _ => True) h0 ?_
  cases c with
  | background => exact absurd rfl hb
  | contains k => exact gcwp_search h (h.levels.le.trans hlf) trivial
  | insert th k v =>
    refine gcwp_insert h (by rw [htn]; exact hc) hlf (fun s' ls' M' J' hi hm hj ht => ⟨ht.trans htn, ?_⟩)
      (fun s' hr hl ht => ⟨ht.trans htn, .inr (.inr ⟨hr, hl⟩)⟩) fun _ _ _ _ => trivial
    rcases hm with rfl | ⟨hm, rfl⟩
    · exact .inl ⟨p, ls', J', hi, hj⟩
    · refine .inr (.inl ⟨p, ls', J', ?_, hj⟩)
      simp only [specCall, hm]
      exact hi
  | erase k =>
    refine gcwp_erase h (fun s' J' o hj hi ht => ⟨ht.trans htn, .inr (.inl ⟨p, ls, J', hi, o, fun x hx => (hj x).1 hx⟩)⟩)
      (fun s' hi ht => ⟨ht.trans htn, .inr (.inl ⟨p, ls, J, hi, .refl⟩)⟩) (h.levels.le.trans hlf) fun _ _ _ => trivial
  | update th k v =>
    refine gcwp_update h (by rw [htn]; exact hc) hlf (fun s' M' J' hi hm hj ht => ⟨ht.trans htn, ?_⟩) (fun _ _ _ _ => trivial)
      fun _ _ _ _ _ _ _ => trivial
    rcases hm with rfl | ⟨hm, rfl⟩
    · exact .inl ⟨p, ls, J', hi, hj⟩
    · refine .inr (.inl ⟨p, ls, J', ?_, hj⟩)
      obtain ⟨v', hm'⟩ := Option.isSome_iff_exists.1 hm
      simp only [specCall, hm']
      exact hi

theorem cut_round {n : Nat} (hB : B) (h : Inv E B p0 s p ls M J) (htn : s.tn = tn) (hlf : maxLevel ≤ lf) :
    RoundCut E p0 tn M J (((Call.background).prog E lf (f + 2)).cut n s) := by
  refine gcwp_cut (Q := fun _ _ => True) ⟨htn, .inl ⟨p, ls, h.weaken False.elim⟩⟩ ?_
  show gcwp _ (do round E lf (f + 2); pure false) _ _
  rw [gcwp_bind]
  exact gcwp_round hB h htn hlf fun _ _ _ _ _ => trivial

/-- Entries that are lost: a list of them.  Helper. -/
theorem OneMore.list {W : List Word} {J' : Word → Prop} (hW : W.Nodup) (h : OneMore (· ∈ W) J') :
    ∃ W' : List Word, W'.Nodup ∧ (∀ x, J' x ↔ x ∈ W') ∧ W'.length ≤ W.length + 1 := by
  classical
  obtain ⟨o, ho⟩ := h
  by_cases hm : o ∈ W
  · refine ⟨W.filter (fun x => decide (J' x)), hW.filter _, fun x => ?_, (List.length_filter_le _ _).trans (Nat.le_succ _)⟩
    rw [List.mem_filter, decide_eq_true_eq]
    refine ⟨fun hx => ⟨?_, hx⟩, fun hx => hx.2⟩
    rcases ho x hx with hx | rfl
    · exact hx
    · exact hm
  · refine ⟨(o :: W).filter (fun x => decide (J' x)), (List.nodup_cons.2 ⟨hm, hW⟩).filter _, fun x => ?_, List.length_filter_le _ _⟩
    rw [List.mem_filter, decide_eq_true_eq, List.mem_cons, or_comm]
    exact ⟨fun hx => ⟨ho x hx, hx⟩, fun hx => hx.2⟩

theorem entries_of {W : List Word} (h : Inv E B p0 s p ls M (· ∈ W)) : Entries s W M := by
  obtain ⟨e1, e2, e3⟩ := h.entries
  exact ⟨e1, fun k v hk => by obtain ⟨o, ho, hn⟩ := e2 k v hk; exact ⟨o, hn, ho⟩, e3, fun o ho => (h.junk o ho).1⟩

theorem life_inv {L : Life} {W : List Word} (hlf : maxLevel ≤ lf) (h : Inv E B p0 s p ls M (· ∈ W)) (hW : W.Nodup) (htn : s.tn = tn)
    (hL : L.fits tn) (hB : .background ∈ L.calls → B) {u : CSt} (hu : L.mem E lf (f + 2) s = some u) :
    ∃ t p' ls', ∃ W' : List Word, Inv E B p0 t p' ls' (specCalls L.calls M).2 (· ∈ W') ∧ W'.Nodup ∧ t.tn = tn ∧
      W'.length = W.length + updatesIn L.calls M ∧ u = (L.last.prog E lf (f + 2)).cut L.cutAt t := by
  have := cwp_run (cwp_calls (f := f) hlf h hW htn hL.1 hB
    (Q := fun _ t => ∃ p' ls', ∃ W' : List Word, Inv E B p0 t p' ls' (specCalls L.calls M).2 (· ∈ W') ∧ W'.Nodup ∧ t.tn = tn ∧
      W'.length = W.length + updatesIn L.calls M) fun t p' ls' W' h1 h2 h3 h4 => ⟨p', ls', W', h1, h2, h3, h4⟩)
  unfold Life.mem at hu
  rcases this with e | ⟨bs, t, e, p', ls', W', h1, h2, h3, h4⟩
  · rw [e] at hu
    cases hu
  · rw [e] at hu
    cases hu
    exact ⟨t, p', ls', W', h1, h2, h3, h4, rfl⟩

theorem okFor_bg {L : Life} (h : L.okFor b) (hm : .background ∈ L.calls) : b = true := by
  cases b with
  | true => rfl
  | false => exact absurd hm (h rfl).1

theorem okFor_last {L : Life} (h : L.okFor b) (hm : L.last = .background) : b = true := by
  cases b with
  | true => rfl
  | false => exact absurd hm (h rfl).2

theorem lives_inv (hlf : maxLevel ≤ lf) : ∀ {r : List Life} {b b' : Bool} {s t : CSt} {p : Nat} {ls : List Nat} {M : Word → Option Word}
    {W : List Word}, Inv E (b = true) p0 s p ls M (· ∈ W) → W.Nodup → s.tn = tn → Lives E tn lf (f + 2) b r s t b' →
    ∃ p' ls' M' n, ∃ W' : List Word, Maps r M M' n ∧ Inv E (b' = true) p0 t p' ls' M' (· ∈ W') ∧ W'.Nodup ∧ t.tn = tn ∧
      W'.length ≤ W.length + n
  | [], b, b', s, t, p, ls, M, W, h, hW, htn, he => by
    obtain ⟨rfl, rfl⟩ := he
    exact ⟨p, ls, M, 0, W, ⟨rfl, rfl⟩, h, hW, htn, le_refl _⟩
  | L :: r, b, b', s, t, p, ls, M, W, h, hW, htn, ⟨hL, hok, u, b1, hu, hnl, hnm, hb1, hr⟩ => by
    obtain ⟨t1, p1, ls1, W1, h1, hW1, htn1, hl1, rfl⟩ := life_inv hlf h hW htn hL (okFor_bg hok) hu
    by_cases hb : L.last = .background
    · have hc := cut_round (n := L.cutAt) (f := f) (okFor_last hok hb) h1 htn1 hlf
      rw [← hb] at hc
      obtain ⟨hut, ⟨p2, ls2, h2⟩ | hm | hl⟩ := hc
      · have h2' : Inv E (b1 = true) p0 ((L.last.prog E lf (f + 2)).cut L.cutAt t1) p2 ls2 (specCalls L.calls M).2 (· ∈ W1) := by
          by_cases e : b1 = true
          · rcases hb1 e with hs | ⟨-, hx⟩
            · exact h2.settle hs
            · exact absurd hb hx
          · exact h2.weaken e
        obtain ⟨p3, ls3, M3, n, W3, hM, h3, hW3, ht3, hl3⟩ := lives_inv hlf h2' hW1 hut hr
        exact ⟨p3, ls3, M3, _, W3, ⟨n, rfl, .inl hM⟩, h3, hW3, ht3, by omega⟩
      · exact absurd hm (hnm hb)
      · exact absurd hl hnl
    · have hw : ∀ {p2 ls2 M2 J2}, Inv E (b = true) p0 ((L.last.prog E lf (f + 2)).cut L.cutAt t1) p2 ls2 M2 J2 →
          Inv E (b1 = true) p0 ((L.last.prog E lf (f + 2)).cut L.cutAt t1) p2 ls2 M2 J2 := fun h2 => by
        by_cases e : b1 = true
        · rcases hb1 e with hs | ⟨hx, -⟩
          · exact (h2.weaken False.elim).settle hs
          · exact h2.weaken fun _ => hx
        · exact h2.weaken fun e' => absurd e' e
      obtain ⟨hut, hc⟩ := cut_call (n := L.cutAt) (f := f) h1 htn1 hL.2 hb hlf
      rcases hc with ⟨p2, ls2, J2, h2, hj⟩ | ⟨p2, ls2, J2, h2, hj⟩ | ⟨-, hl⟩
      · obtain ⟨W2, hW2, hJ2, hl2⟩ := hj.list hW1
        obtain ⟨p3, ls3, M3, n, W3, hM, h3, hW3, ht3, hl3⟩ := lives_inv hlf ((hw h2).congrJ hJ2) hW2 hut hr
        exact ⟨p3, ls3, M3, _, W3, ⟨n, rfl, .inl hM⟩, h3, hW3, ht3, by omega⟩
      · obtain ⟨W2, hW2, hJ2, hl2⟩ := hj.list hW1
        obtain ⟨p3, ls3, M3, n, W3, hM, h3, hW3, ht3, hl3⟩ := lives_inv hlf ((hw h2).congrJ hJ2) hW2 hut hr
        exact ⟨p3, ls3, M3, _, W3, ⟨n, rfl, .inr hM⟩, h3, hW3, ht3, by omega⟩
      · exact absurd hl hnl

/-- **C65**, as far as it holds: the power failed any number of times, during calls of the caller and rounds of the background thread,
but not between the two steps that link a new level in, nor between the two steps that move an entry.  Then the table holds the map of all
the calls that returned, with each of the interrupted ones done or not; further calls end, and neither touch memory that is not theirs nor
fail an assertion; unless the pool is full they report what that map reports, and at most one entry is lost for each power failure.  The
background thread may be among them if its position is right (`Lives`); the code does not start it again.  Missing: the windows of
`c65_moved_freed` and `c65_cut_growth`, and running the background thread again after `c65_past_the_end` and `c65_lost_keys`. -/
theorem c65_goes_on_partial (hhp : 2 ≤ hp) (htn : 0 < tn) (hpool : 2 ^ hp ≤ E.pool ∧ E.pool < 2 ^ (hp + 14)) (hlf : maxLevel ≤ lf)
    (r : List Life) (hr : Lives E tn lf (f + 2) true r (CSt.new hp tn) t b) :
    ∃ M n, Maps r (fun _ => none) M n ∧ ∀ cs : List Call, (∀ c ∈ cs, c.fits tn) → (b = false → .background ∉ cs) →
      (Call.progs E lf (f + 2) cs).run t = some .oom ∨
      ∃ s W, (Call.progs E lf (f + 2) cs).run t = some (.ok (specCalls cs M).1 s) ∧ Entries s W (specCalls cs M).2 ∧ W.Nodup ∧
        W.length ≤ n + updatesIn cs M := by
  have h0 := (Inv.init (E := E) (B := true = true) hhp htn hpool.1 hpool.2).congrJ (J' := (· ∈ ([] : List Word))) (by simp)
  obtain ⟨p, ls, M, n, W, hM, h, hW, ht, hl⟩ := lives_inv (f := f) hlf h0 List.nodup_nil rfl hr
  refine ⟨M, n, hM, fun cs hcs hb => ?_⟩
  have := cwp_run (cwp_calls (f := f) hlf h hW ht hcs (fun hm => by by_contra e; exact hb (by simpa using e) hm)
    (Q := fun bs s => bs = (specCalls cs M).1 ∧ ∃ W, Entries s W (specCalls cs M).2 ∧ W.Nodup ∧ W.length ≤ n + updatesIn cs M)
    fun s' p' ls' W' h' hW' _ hl' => ⟨rfl, W', entries_of h', hW', by simp at hl; omega⟩)
  rcases this with e | ⟨bs, s, e, rfl, W', h1, h2, h3⟩
  · exact .inl e
  · exact .inr ⟨s, W', e, h1, h2, h3⟩

theorem maps_append {L : Life} : ∀ {r : List Life} {M M1 M2 : Word → Option Word} {n m : Nat}, Maps r M M1 n → Maps [L] M1 M2 m →
    Maps (r ++ [L]) M M2 (n + m)
  | [], _, _, _, _, _, ⟨e1, e2⟩, h => by
    subst e1 e2
    rw [Nat.zero_add]
    exact h
  | _ :: _, _, _, _, _, m, ⟨k, e, h1⟩, h => ⟨k + m, by rw [e, Nat.add_assoc],
    h1.imp (fun h1 => maps_append h1 h) fun h1 => maps_append h1 h⟩

/-- Wherever the last call is cut, searches find their way.  Helper. -/
theorem life_rinv {L : Life} {W : List Word} (hlf : maxLevel ≤ lf) (h : Inv E (b = true) p0 s p ls M (· ∈ W)) (hW : W.Nodup) (htn : s.tn = tn)
    (hL : L.fits tn) (hok : L.okFor b) (hu : L.mem E lf (f + 2) s = some t) :
    ∃ M', (M' = (specCalls L.calls M).2 ∨ M' = (specCall L.last (specCalls L.calls M).2).2) ∧ RInv E M' t := by
  obtain ⟨t1, p1, ls1, W1, h1, -, htn1, -, rfl⟩ := life_inv hlf h hW htn hL (okFor_bg hok) hu
  by_cases hb : L.last = .background
  · refine ⟨_, .inl rfl, gcwp_cut (Q := fun _ _ => True) h1.rinv ?_⟩
    rw [hb]
    show gcwp _ (do round E lf (f + 2); pure false) _ _
    rw [gcwp_bind]
    exact gcwp_weaken (fun _ _ hx => hx.1) (mwp_round (okFor_last hok hb) h1 hlf fun _ _ _ _ _ => trivial)
  · obtain ⟨-, hc⟩ := cut_call (n := L.cutAt) (f := f) h1 htn1 hL.2 hb hlf
    rcases hc with ⟨p2, ls2, J2, h2, -⟩ | ⟨p2, ls2, J2, h2, -⟩ | ⟨hI, -⟩
    · exact ⟨_, .inl rfl, h2.rinv⟩
    · exact ⟨_, .inr rfl, h2.rinv⟩
    · exact ⟨_, .inl rfl, hI⟩

/-- **C65 for searches**: after power failures as above, and then one that strikes anywhere, also while the table grows or the background
thread moves entries, searches of the reopened table end and find exactly the keys of the map of the calls that returned, with the
interrupted ones done or not. -/
theorem c65_searches (hhp : 2 ≤ hp) (htn : 0 < tn) (hpool : 2 ^ hp ≤ E.pool ∧ E.pool < 2 ^ (hp + 14)) (hlf : maxLevel ≤ lf)
    (r : List Life) (hr : Lives E tn lf (f + 2) true r (CSt.new hp tn) s b) (L : Life) (hL : L.fits tn) (hok : L.okFor b)
    (hu : L.mem E lf (f + 2) s = some t) :
    ∃ M n, Maps (r ++ [L]) (fun _ => none) M n ∧ ∀ k f', (search E k lf (f' + 1)).run t = some (.ok (M k).isSome t) := by
  have h0 := (Inv.init (E := E) (B := true = true) hhp htn hpool.1 hpool.2).congrJ (J' := (· ∈ ([] : List Word))) (by simp)
  obtain ⟨p, ls, M, n, W, hM, h, hW, ht, -⟩ := lives_inv (f := f) hlf h0 List.nodup_nil rfl hr
  obtain ⟨M', hM', hI⟩ := life_rinv hlf h hW ht hL hok hu
  refine ⟨M', n + (updatesIn L.calls M + 1 + 0), maps_append hM ⟨0, rfl, ?_⟩, fun k f' => ?_⟩
  · exact hM'.imp (fun e => ⟨e, rfl⟩) fun e => ⟨e, rfl⟩
  · rcases cwp_run (cwp_search_cut (f := f') hI hlf (Q := fun b x => b = (M' k).isSome ∧ x = t) ⟨rfl, rfl⟩) with e | ⟨b, x, e, rfl, rfl⟩
    · exact absurd e (noAlloc_run (noAlloc_search k lf _))
    · exact e

/-- **C65 is false of growth, in general**: if the power failed between the two steps that link a new level in, then an insert of a new
key into full buckets never ends (or the allocator throws for want of room for the entry). -/
theorem c65_stuck (hhp : 2 ≤ hp) (htn : 0 < tn) (hpool : 2 ^ hp ≤ E.pool ∧ E.pool < 2 ^ (hp + 14)) (hlf : maxLevel ≤ lf)
    (r : List Life) (hr : Lives E tn lf (f + 2) true r (CSt.new hp tn) s b) (L : Life) (hL : L.fits tn) (hok : L.okFor b)
    (hu : L.mem E lf (f + 2) s = some t)
    (hlink : Linked t) {k v : Word} (hk : returned ((search E k lf 1).run t) = some false) (hfull : Full E k t) (th : Nat) (hth : th < t.tn)
    (f' : Nat) : (insert E th k v lf f').run t = none ∨ (insert E th k v lf f').run t = some .oom := by
  have h0 := (Inv.init (E := E) (B := true = true) hhp htn hpool.1 hpool.2).congrJ (J' := (· ∈ ([] : List Word))) (by simp)
  obtain ⟨p, ls, M, n, W, -, h, hW, ht, -⟩ := lives_inv (f := f) hlf h0 List.nodup_nil rfl hr
  obtain ⟨M', -, hI⟩ := life_rinv hlf h hW ht hL hok hu
  have hM : (M' k).isSome = false := by
    rcases cwp_run (cwp_search_cut (f := 0) (key := k) hI hlf (Q := fun b _ => b = (M' k).isSome) rfl) with e | ⟨b, x, e, hb⟩
    · exact absurd e (noAlloc_run (noAlloc_search k lf _))
    · rw [e] at hk
      cases hk
      exact hb.symm
  exact insert_stuck hlf hth hI hlink hM hfull

/-! ## Concrete cases -/

/-- A life that meets the hypotheses of `c65_goes_on_partial`. -/
theorem lives_one {L : Life} (h1 : L.fits tn) (h2 : L.okFor b)
    (h3 : (L.mem E lf f s).any (fun u => !decide (Linked u) && !decide (Moving u) && (!b' || decide (Settled u))) = true) :
    ∃ u, Lives E tn lf f b [L] s u b' := by
  cases hu : L.mem E lf f s with
  | none => rw [hu] at h3; cases h3
  | some u =>
    rw [hu, Option.any_some, Bool.and_eq_true, Bool.and_eq_true, Bool.not_eq_true', Bool.not_eq_true', decide_eq_false_iff_not,
      decide_eq_false_iff_not] at h3
    refine ⟨u, h1, h2, u, b', hu, h3.1.1, fun _ => h3.1.2, fun e => .inl ?_, rfl, rfl⟩
    have := h3.2
    rw [e] at this
    simpa using this

/-- The power fails while the background thread is at work: it may run again. -/
example : ∃ u, Lives Es 1 16 3 true [⟨((List.range 33).map fun i => .insert 0 (far (i + 1)) 7#64) ++ [.background], .background, 100⟩]
    (CSt.new 2 1) u true :=
  lives_one ⟨by simp [Call.fits, or_imp, forall_and], by simp [Call.fits]⟩ (by simp [Life.okFor]) (by decide +kernel)

/-- The power fails before it sets its position to 0, as in `c65_lost_keys`: other calls may follow. -/
example : ∃ u, Lives Es 1 16 3 true [⟨((List.range 33).map fun i => .insert 0 (far (i + 1)) 7#64) ++ [.background], .background, 190⟩]
    (CSt.new 2 1) u false :=
  lives_one ⟨by simp [Call.fits, or_imp, forall_and], by simp [Call.fits]⟩ (by simp [Life.okFor]) (by decide +kernel)

/-- The power fails during the second insert: there is such a life, and depending on where it strikes the insert is done or not. -/
example : ∃ u, Lives E0 1 16 3 true [⟨[.insert 0 (far 1) 7#64], .insert 0 (far 2) 8#64, 45⟩] (CSt.new 14 1) u true := by
  have hu : ∃ u, (Life.mk [.insert 0 (far 1) 7#64] (.insert 0 (far 2) 8#64) 45).mem E0 16 3 (CSt.new 14 1) = some u ∧ ¬ Linked u := by
    cases hu : (Life.mk [.insert 0 (far 1) 7#64] (.insert 0 (far 2) 8#64) 45).mem E0 16 3 (CSt.new 14 1) with
    | none =>
      have : ((Life.mk [.insert 0 (far 1) 7#64] (.insert 0 (far 2) 8#64) 45).mem E0 16 3 (CSt.new 14 1)).isSome = true := by decide +kernel
      rw [hu] at this
      cases this
    | some u =>
      have : ((Life.mk [.insert 0 (far 1) 7#64] (.insert 0 (far 2) 8#64) 45).mem E0 16 3 (CSt.new 14 1)).any (fun u => !decide (Linked u)) = true := by
        decide +kernel
      rw [hu] at this
      exact ⟨u, rfl, by simpa using this⟩
  obtain ⟨u, hu, hl⟩ := hu
  exact ⟨u, ⟨by simp [Call.fits], by simp [Call.fits]⟩, by simp [Life.okFor], u, true, hu, hl, by simp, fun _ => .inr ⟨rfl, by simp⟩, rfl, rfl⟩

example : returned ((search E0 (far 2) 16 1).run ((insert E0 0 (far 2) 8#64 16 3).cut 45 (filled 1 1))) = some false ∧
    returned ((search E0 (far 2) 16 1).run ((insert E0 0 (far 2) 8#64 16 3).cut 46 (filled 1 1))) = some true := by decide +kernel

/-- The power fails between the two steps that link a new level in, as `c65_stuck` has it. -/
example : Linked ((insert E0 0 (far 49) 7#64 16 3).cut 164 (filled 48 1)) ∧ Full E0 (far 50) ((insert E0 0 (far 49) 7#64 16 3).cut 164 (filled 48 1)) ∧
    returned ((search E0 (far 50) 16 1).run ((insert E0 0 (far 49) 7#64 16 3).cut 164 (filled 48 1))) = some false := by decide +kernel

/-- The power fails while the background thread moves an entry, as `c65_searches` has it: two slots hold the entry, and searches find it. -/
example : returned ((search E0 (far 17) 16 1).run ((round E0 16 3).cut 13 (filled 33 1))) = some true := by decide +kernel

end PMap.Clevel
