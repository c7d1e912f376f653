import Verif.LevelHash.Inv

/-!
# C72: `level_hash` as a map
-/

set_option linter.unusedSectionVars false

namespace PMap.LevelHash

variable {K V : Type} [DecidableEq K] [DecidableEq V] {f s : K → Nat}

/-- No code of its own: the calls. -/
inductive Call (K V : Type)
  | insert (x : K × V)
  | query (k : K)
  | erase (k : K)
  | update (x : K × V)
deriving DecidableEq

/-- No code of its own: what calls return; for `query`, the entry of the slot it returns. -/
inductive Ans (K V : Type)
  | inserted
  | found (x : Option (K × V))
  | did (b : Bool)
deriving DecidableEq

/-- No code of its own: one call; `n` bounds the loop of `insert`. -/
def Call.run (f s : K → Nat) (n : Nat) : Call K V → Table K V → Out (Ans K V × Table K V)
  | .insert x, t => do return (.inserted, ← t.insert f s x n)
  | .query k, t => do
    let (r, t) ← t.query f s k
    return (.found r, t)
  | .erase k, t => do
    let (r, t) ← t.erase f s k
    return (.did r, t)
  | .update x, t => do
    let (r, t) ← t.update f s x
    return (.did r, t)

/-- No code of its own: one call after the other. -/
def runs (f s : K → Nat) (n : Nat) : List (Call K V) → Table K V → Out (List (Ans K V) × Table K V)
  | [], t => .done ([], t)
  | c :: l, t => do
    let (a, t) ← c.run f s n t
    let (as, t) ← runs f s n l t
    return (a :: as, t)

/-- What a call does to a bag of entries: `erase` and `update` take one entry with the key, whichever. -/
inductive Bag : List (K × V) → Call K V → Ans K V → List (K × V) → Prop
  | insert {ps x} : Bag ps (.insert x) .inserted (x :: ps)
  | found {ps k v} : (k, v) ∈ ps → Bag ps (.query k) (.found (some (k, v))) ps
  | missed {ps k} : (∀ v, (k, v) ∉ ps) → Bag ps (.query k) (.found none) ps
  | erased {ps k v} : (k, v) ∈ ps → Bag ps (.erase k) (.did true) (ps.erase (k, v))
  | notErased {ps k} : (∀ v, (k, v) ∉ ps) → Bag ps (.erase k) (.did false) ps
  | updated {ps k v w} : (k, v) ∈ ps → Bag ps (.update (k, w)) (.did true) ((k, w) :: ps.erase (k, v))
  | notUpdated {ps k w} : (∀ v, (k, v) ∉ ps) → Bag ps (.update (k, w)) (.did false) ps

/-- The same for a sequence of calls. -/
inductive Bags : List (K × V) → List (Call K V) → List (Ans K V) → List (K × V) → Prop
  | nil {ps} : Bags ps [] [] ps
  | cons {ps qs rs c a cs as} : Bag ps c a qs → Bags qs cs as rs → Bags ps (c :: cs) (a :: as) rs

/-- Both levels. -/
theorem Inv.locate {ps : List (K × V)} {t : Table K V} (h : Inv f s ps t) (k : K) :
    (∃ i v, t.top.locate f s k = .done (some i) ∧ t.top.slot i = some (k, v) ∧ (k, v) ∈ ps) ∨
    (t.top.locate f s k = .done none ∧ ∃ i v, t.bot.locate f s k = .done (some i) ∧ t.bot.slot i = some (k, v) ∧ (k, v) ∈ ps) ∨
    (t.top.locate f s k = .done none ∧ t.bot.locate f s k = .done none ∧ ∀ v, (k, v) ∉ ps) := by
  obtain ⟨r, e, h1, h2⟩ := locate_spec h.top k
  obtain ⟨r', e', h1', h2'⟩ := locate_spec h.bot k
  cases r with
  | some i =>
    obtain ⟨v, hv⟩ := h1 i rfl
    exact .inl ⟨i, v, e, hv, (h.mem _).mpr (.inl ⟨i, hv⟩)⟩
  | none =>
    cases r' with
    | some i =>
      obtain ⟨v, hv⟩ := h1' i rfl
      exact .inr (.inl ⟨e, i, v, e', hv, (h.mem _).mpr (.inr ⟨i, hv⟩)⟩)
    | none =>
      refine .inr (.inr ⟨e, e', fun v hm => ?_⟩)
      rcases (h.mem _).mp hm with ⟨i, hi⟩ | ⟨i, hi⟩
      · exact h2 rfl i v hi
      · exact h2' rfl i v hi

theorem call_bag {ps : List (K × V)} {t t' : Table K V} (h : Inv f s ps t) {n : Nat} {c : Call K V} {a : Ans K V}
    (e : c.run f s n t = .done (a, t')) : ∃ qs, Bag ps c a qs ∧ Inv f s qs t' := by
  cases c with
  | insert x =>
    obtain ⟨t1, e1, e⟩ := out_bind e
    cases e
    exact ⟨_, .insert, h.insert e1⟩
  | query k =>
    obtain ⟨⟨r, t1⟩, e1, e⟩ := out_bind e
    cases e
    obtain ⟨t2, e2, e1⟩ := out_bind e1
    have h := h.cross e2
    rcases h.locate k with ⟨i, v, g1, g2, g3⟩ | ⟨g0, i, v, g1, g2, g3⟩ | ⟨g0, g1, g3⟩
    · rw [g1, out_done] at e1
      cases e1
      rw [g2]
      exact ⟨_, .found g3, h⟩
    · rw [g0, out_done] at e1
      simp only [g1, out_done] at e1
      cases e1
      rw [g2]
      exact ⟨_, .found g3, h⟩
    · rw [g0, out_done] at e1
      simp only [g1, out_done] at e1
      cases e1
      exact ⟨_, .missed g3, h⟩
  | erase k =>
    obtain ⟨⟨r, t1⟩, e1, e⟩ := out_bind e
    cases e
    obtain ⟨t2, e2, e1⟩ := out_bind e1
    have h := h.cross e2
    rcases h.locate k with ⟨i, v, g1, g2, g3⟩ | ⟨g0, i, v, g1, g2, g3⟩ | ⟨g0, g1, g3⟩
    · rw [g1, out_done] at e1
      cases e1
      exact ⟨_, .erased g3, (h.setTop g2).1⟩
    · rw [g0, out_done] at e1
      simp only [g1, out_done] at e1
      cases e1
      exact ⟨_, .erased g3, (h.setBot g2).1⟩
    · rw [g0, out_done] at e1
      simp only [g1, out_done] at e1
      cases e1
      exact ⟨_, .notErased g3, h⟩
  | update x =>
    obtain ⟨k, w⟩ := x
    obtain ⟨⟨r, t1⟩, e1, e⟩ := out_bind e
    cases e
    unfold Table.update at e1
    rcases h.locate k with ⟨i, v, g1, g2, g3⟩ | ⟨g0, i, v, g1, g2, g3⟩ | ⟨g0, g1, g3⟩
    · rw [g1, out_done] at e1
      cases e1
      exact ⟨_, .updated g3, (h.setTop g2).2 (k, w) rfl⟩
    · rw [g0, out_done] at e1
      simp only [g1, out_done] at e1
      cases e1
      exact ⟨_, .updated g3, (h.setBot g2).2 (k, w) rfl⟩
    · rw [g0, out_done] at e1
      simp only [g1, out_done] at e1
      cases e1
      exact ⟨_, .notUpdated g3, h⟩

theorem runs_bag {ps : List (K × V)} {t t' : Table K V} (h : Inv f s ps t) {n : Nat} {cs : List (Call K V)} {as : List (Ans K V)}
    (e : runs f s n cs t = .done (as, t')) : ∃ qs, Bags ps cs as qs ∧ Inv f s qs t' := by
  induction cs generalizing ps t as with
  | nil => cases e; exact ⟨ps, .nil, h⟩
  | cons c cs ih =>
    obtain ⟨⟨a, t1⟩, e1, e⟩ := out_bind e
    obtain ⟨⟨as', t2⟩, e2, e⟩ := out_bind e
    cases e
    obtain ⟨qs, b1, h1⟩ := call_bag h e1
    obtain ⟨rs, b2, h2⟩ := ih h1 e2
    exact ⟨rs, .cons b1 b2, h2⟩

/-- **C72, partial: the table is a bag of entries.** For every two hash functions, every first size (power at least 2), and every
sequence of calls that return, whatever entries were displaced and however often the table was expanded: the results are those of a bag
to which each `insert` adds an entry.

Missing for the full claim, and refuted: that a key has one entry (`c72_two_entries`), that calls return (`c72_at_most_sixteen`,
`c72_exit`, `c72_waits`, `c72_power_one`), and crashes (`c72_cut_expand`, `c72_cut_move`). -/
theorem c72_bag_partial {power threads n : Nat} (hp : 2 ≤ power) {cs : List (Call K V)} {as : List (Ans K V)} {t : Table K V}
    (e : runs f s n cs (Table.new power threads) = .done (as, t)) : ∃ ps, Bags [] cs as ps := by
  obtain ⟨qs, h, -⟩ := runs_bag (inv_new hp) e
  exact ⟨qs, h⟩

/-- What a call returns from a map, and the map after it. -/
def Call.map : Call K V → (K → Option V) → Ans K V × (K → Option V)
  | .insert x, m => (.inserted, fun k => if k = x.1 then some x.2 else m k)
  | .query k, m => (.found ((m k).map fun v => (k, v)), m)
  | .erase k, m => (.did (m k).isSome, fun k' => if k' = k then none else m k')
  | .update x, m => (.did (m x.1).isSome, fun k => if k = x.1 ∧ (m k).isSome then some x.2 else m k)

/-- The results of a sequence of calls on a map. -/
def mapRuns : List (Call K V) → (K → Option V) → List (Ans K V)
  | [], _ => []
  | c :: l, m => (c.map m).1 :: mapRuns l (c.map m).2

/-- Every key that is inserted is absent at that time. -/
def Fresh : List (Call K V) → (K → Option V) → Prop
  | [], _ => True
  | c :: l, m => (∀ x, c = .insert x → m x.1 = none) ∧ Fresh l (c.map m).2

/-- A list of entries with different keys, and a map. -/
def Same (ps : List (K × V)) (m : K → Option V) : Prop := (ps.map (·.1)).Nodup ∧ ∀ k v, (k, v) ∈ ps ↔ m k = some v

theorem Same.absent {ps : List (K × V)} {m : K → Option V} (h : Same ps m) {k : K} (hn : ∀ v, (k, v) ∉ ps) : m k = none := by
  cases e : m k with
  | none => rfl
  | some v => exact absurd ((h.2 k v).mpr e) (hn v)

theorem Same.erase {ps : List (K × V)} {m : K → Option V} (h : Same ps m) {k : K} {v : V} (hm : (k, v) ∈ ps) :
    Same (ps.erase (k, v)) (fun k' => if k' = k then none else m k') := by
  have hnd : ps.Nodup := (List.pairwise_map.mp h.1).imp fun hne e => hne (by rw [e])
  refine ⟨List.Nodup.sublist (List.erase_sublist.map _) h.1, fun k' v' => ?_⟩
  rw [List.Nodup.mem_erase_iff hnd, h.2]
  by_cases hk : k' = k
  · subst hk
    have := (h.2 k' v).mp hm
    simp only [if_true, this, Option.some.injEq, reduceCtorEq, iff_false]
    rintro ⟨h1, rfl⟩
    exact h1 rfl
  · simp only [hk, if_false]
    constructor
    · exact fun h => h.2
    · exact fun h => ⟨fun c => hk (by cases c; rfl), h⟩

theorem Same.cons {ps : List (K × V)} {m : K → Option V} (h : Same ps m) {x : K × V} (hx : m x.1 = none) :
    Same (x :: ps) (fun k => if k = x.1 then some x.2 else m k) := by
  obtain ⟨k, v⟩ := x
  refine ⟨?_, fun k' v' => ?_⟩
  · rw [List.map_cons, List.nodup_cons]
    refine ⟨fun c => ?_, h.1⟩
    obtain ⟨⟨k', v'⟩, h1, rfl⟩ := List.mem_map.mp c
    rw [(h.2 _ _).mp h1] at hx
    cases hx
  · rw [List.mem_cons, h.2]
    by_cases hk : k' = k
    · subst hk
      have hx : m k' = none := hx
      simp only [hx, if_true, Prod.mk.injEq, true_and, Option.some.injEq, reduceCtorEq, or_false]
      exact eq_comm
    · simp [hk]

theorem bag_map {ps qs : List (K × V)} {m : K → Option V} (h : Same ps m) {c : Call K V} {a : Ans K V} (b : Bag ps c a qs)
    (hf : ∀ x, c = .insert x → m x.1 = none) : a = (c.map m).1 ∧ Same qs (c.map m).2 := by
  cases b with
  | insert => exact ⟨rfl, h.cons (hf _ rfl)⟩
  | found hm => exact ⟨by rw [Call.map, (h.2 _ _).mp hm]; rfl, h⟩
  | missed hm => exact ⟨by rw [Call.map, h.absent hm]; rfl, h⟩
  | erased hm => exact ⟨by rw [Call.map, (h.2 _ _).mp hm]; rfl, h.erase hm⟩
  | @notErased k hm =>
    refine ⟨by rw [Call.map, h.absent hm]; rfl, ?_⟩
    have : (fun k' => if k' = k then none else m k') = m := by
      funext k'
      split
      · next e => rw [e, h.absent hm]
      · rfl
    rw [Call.map, this]
    exact h
  | @updated k v w hm =>
    refine ⟨by rw [Call.map, (h.2 _ _).mp hm]; rfl, ?_⟩
    have := (h.erase hm).cons (x := (k, w)) (if_pos rfl)
    have e : (fun k' => if k' = (k, w).1 then some (k, w).2 else if k' = k then none else m k') =
        (fun k' => if k' = (k, w).1 ∧ (m k').isSome then some (k, w).2 else m k') := by
      funext k'
      by_cases hk : k' = k
      · simp [hk, (h.2 _ _).mp hm]
      · simp [hk]
    rw [e] at this
    exact this
  | @notUpdated k w hm =>
    refine ⟨by rw [Call.map, h.absent hm]; rfl, ?_⟩
    have : (fun k' => if k' = k ∧ (m k').isSome then some w else m k') = m := by
      funext k'
      split
      · next e => have e2 := e.2; rw [e.1, h.absent hm] at e2; cases e2
      · rfl
    simp only [Call.map, this]
    exact h

/-- **C72, partial: the table is a map, for a caller that inserts absent keys only.** Under the conditions of `c72_bag_partial`, if no
key is inserted that is in the table at that time, all results are those of a map.  Missing as there. -/
theorem c72_map_partial {power threads n : Nat} (hp : 2 ≤ power) {cs : List (Call K V)} {as : List (Ans K V)} {t : Table K V}
    (hf : Fresh cs (fun _ => none)) (e : runs f s n cs (Table.new power threads) = .done (as, t)) :
    as = mapRuns cs (fun _ => none) := by
  obtain ⟨ps, b⟩ := c72_bag_partial hp e
  have key : ∀ (qs : List (K × V)) (m : K → Option V), Same qs m → Fresh cs m → Bags qs cs as ps → as = mapRuns cs m := by
    clear hf e b
    induction cs generalizing as with
    | nil => intro qs m _ _ b; cases b; rfl
    | cons c cs ih =>
      intro qs m h hf b
      cases b with
      | cons b1 b2 =>
        obtain ⟨g1, g2⟩ := bag_map h b1 hf.1
        rw [mapRuns, ← g1, ← ih _ _ g2 hf.2 b2]
  exact key [] _ ⟨List.nodup_nil, fun k v => by simp⟩ hf b

/-! ## What is false of the code -/

/-- **C72 is false of the code.** `insert` does not look for the key: it has two entries then, and one `erase` leaves the other. -/
theorem c72_two_entries {power threads n : Nat} (hp : 2 ≤ power) {k : K} {v w : V} {as : List (Ans K V)} {t : Table K V}
    (e : runs f s n [.insert (k, v), .insert (k, w), .erase k, .query k] (Table.new power threads) = .done (as, t)) :
    ∃ u, as = [.inserted, .inserted, .did true, .found (some (k, u))] := by
  obtain ⟨ps, b⟩ := c72_bag_partial hp e
  cases b with
  | cons b1 b =>
  cases b with
  | cons b2 b =>
  cases b with
  | cons b3 b =>
  cases b with
  | cons b4 b =>
  cases b
  cases b1
  cases b2
  have key : ∀ u, ∃ u', (k, u') ∈ [(k, w), (k, v)].erase (k, u) := fun u => by
    by_cases hu : w = u
    · exact ⟨v, by rw [hu, List.erase_cons_head]; simp⟩
    · exact ⟨w, by rw [List.erase_cons_tail (by simpa using hu)]; simp⟩
  cases b3 with
  | @erased _ u h1 =>
    cases b4 with
    | found h2 => exact ⟨_, rfl⟩
    | missed h2 =>
      obtain ⟨u', hu⟩ := key u
      exact absurd hu (h2 u')
  | notErased h1 => exact absurd List.mem_cons_self (h1 w)

/-- **C72 is false of the code.** The insertions of more than sixteen entries with the same two hashes do not all return, however long one
waits. -/
theorem c72_at_most_sixteen {power threads : Nat} (hp : 2 ≤ power) {xs : List (K × V)} {a b : Nat}
    (hx : 16 < xs.countP fun x => f x.1 = a ∧ s x.1 = b) (n : Nat) (r : List (Ans K V) × Table K V) :
    runs f s n (xs.map .insert) (Table.new power threads) ≠ .done r := by
  intro e
  obtain ⟨as, t⟩ := r
  obtain ⟨ps, hb, h⟩ := runs_bag (inv_new hp) e
  have key : ∀ (xs : List (K × V)) as qs, Bags qs (xs.map .insert) as ps →
      ps.countP (fun x => f x.1 = a ∧ s x.1 = b) = qs.countP (fun x => f x.1 = a ∧ s x.1 = b) + xs.countP (fun x => f x.1 = a ∧ s x.1 = b) := by
    intro xs
    induction xs with
    | nil => intro as qs b; cases b; rfl
    | cons x xs ih =>
      intro as qs b
      cases b with
      | cons b1 b2 =>
        cases b1
        rw [ih _ _ b2, List.countP_cons, List.countP_cons]
        omega
  have h1 := key xs as [] hb
  have h2 := h.count (fun x => f x.1 = a ∧ s x.1 = b)
  have h3 := tot_le h.top (P := fun x => f x.1 = a ∧ s x.1 = b) (fun x e => of_decide_eq_true e)
  have h4 := tot_le h.bot (P := fun x => f x.1 = a ∧ s x.1 = b) (fun x e => of_decide_eq_true e)
  simp only [List.countP_nil] at h1
  omega

/-- **C72 is false of the code.** With `level_power` 1, which the constructor accepts, the bottom level has one bucket, and the first
`query` divides by zero. -/
theorem c72_power_one (k : K) (threads : Nat) : (Table.new 1 threads : Table K V).query f s k = .ub := by
  have h0 : ∀ n b, (Level.new 2 : Level K V).find k b n = none := fun n b => by
    induction n with
    | zero => rfl
    | succ n ih => exact ih
  have h1 : (Level.new 2 : Level K V).locate f s k = .done none := by
    unfold Level.locate idx
    rw [if_neg (show ¬ (Level.new 2 : Level K V).cap / 2 = 0 by simp [Level.new])]
    simp only [out_done, h0]
    rfl
  unfold Table.query Table.cross Table.new
  have h2 : (Level.new (2 ^ (1 - 1)) : Level K V).locate f s k = .ub := by
    unfold Level.locate idx
    rw [if_pos (show (Level.new (2 ^ (1 - 1)) : Level K V).cap / 2 = 0 by simp [Level.new])]
    rfl
  simp only [Bool.false_eq_true, if_false, out_done, Nat.pow_one, h1, h2]
  rfl

/-- **C72 is false of the code after a crash.** `expand` moves the entries of the bottom level one by one to a level that nobody looks at
before the end, and a restart forgets it: after a crash when `n` slots have been moved, no key is found that was in one of those slots
only. -/
theorem c72_cut_expand {power threads m n : Nat} (hp : 2 ≤ power) {cs : List (Call K V)} {as : List (Ans K V)} {t : Table K V}
    (e : runs f s m cs (Table.new power threads) = .done (as, t)) {bot new : Level K V}
    (hc : moveSlots f s n t.bot (Level.new (2 * t.top.cap)) = .done (bot, new)) {k : K}
    (h1 : ∀ i v, t.top.slot i ≠ some (k, v)) (h2 : ∀ i v, n ≤ i → t.bot.slot i ≠ some (k, v)) :
    ({ t with bot := bot, resize := false } : Table K V).query f s k = .done (none, { t with bot := bot, resize := false }) := by
  obtain ⟨ps, -, h⟩ := runs_bag (inv_new hp) e
  have hcap := h.top.cap
  obtain ⟨g1, g2, g3, g4, g5, g6⟩ := moveSlots_spec h.bot (LInv.new (by omega)) hc
  obtain ⟨r, e1, a1, a2⟩ := locate_spec h.top k
  obtain ⟨r', e1', a1', a2'⟩ := locate_spec g1 k
  have hr : r = none := by
    cases r with
    | none => rfl
    | some i => obtain ⟨v, hv⟩ := a1 i rfl; exact absurd hv (h1 i v)
  have hr' : r' = none := by
    cases r' with
    | none => rfl
    | some i =>
      obtain ⟨v, hv⟩ := a1' i rfl
      rw [g6] at hv
      split at hv
      · cases hv
      · exact absurd hv (h2 i v (by omega))
  subst hr hr'
  unfold Table.query Table.cross
  simp only [Bool.false_eq_true, if_false, out_done, e1, e1']
  rfl

/-- **C72 is false of the code after a crash.** `try_movement` copies an entry to its other bucket before it clears the token of the
first (737-741): after a crash in between the entry is there twice, and the key is still found when it has been erased. -/
theorem c72_cut_move {power threads m n : Nat} (hp : 2 ≤ power) {cs : List (Call K V)} {as : List (Ans K V)} {t : Table K V}
    (e : runs f s m cs (Table.new power threads) = .done (as, t)) {i p : Nat} {x : K × V} (hx : t.top.slot i = some x)
    (hp : t.top.slot p = none) (hh : p / 4 = f x.1 % (t.top.cap / 2) ∨ p / 4 = s x.1 % (t.top.cap / 2) + t.top.cap / 2)
    {as' : List (Ans K V)} {t' : Table K V}
    (e' : runs f s n [.erase x.1, .query x.1] { t with top := t.top.set p (some x) } = .done (as', t')) :
    ∃ v, as' = [.did true, .found (some (x.1, v))] := by
  obtain ⟨ps, -, h⟩ := runs_bag (inv_new (by assumption)) e
  have hm := (h.mem x).mpr (.inl ⟨i, hx⟩)
  obtain ⟨qs, b, -⟩ := runs_bag (h.addTop (adds_set h.top hp hh)) e'
  cases b with
  | cons b1 b2 =>
  cases b2 with
  | cons b2 b3 =>
  cases b3
  have key : ∀ v, x ∈ (x :: ps).erase (x.1, v) := fun v => by
    by_cases hv : (x.1, v) = x
    · rw [hv, List.erase_cons_head]
      exact hm
    · rw [List.erase_cons_tail (by simpa using Ne.symm hv)]
      exact List.mem_cons_self
  cases b1 with
  | erased h1 =>
    cases b2 with
    | found h2 => exact ⟨_, rfl⟩
    | missed h2 => exact absurd (key _) (h2 x.2)
  | notErased h1 => exact absurd List.mem_cons_self (h1 x.2)

theorem exited_of {α β : Type} {r : Out (α × β)} (h : (do return (← r).1) = Out.exited) : r = .exited := by
  cases r with
  | exited => rfl
  | _ => cases h

theorem waits_of {α β : Type} {r : Out (α × β)} (h : (do return (← r).1) = Out.waits) : r = .waits := by
  cases r with
  | waits => rfl
  | _ => cases h

/-- Hashes for the examples: the last two digits. -/
def digits (k : Nat) : Nat := k / 10 % 10

/-- The other one. -/
def digit (k : Nat) : Nat := k % 10

/-- **C72 is false of the code.** Twenty keys, of which at most twelve have the same two hashes, make the program exit in the middle of
`expand`: two full buckets of the new level are all it tries for an entry. -/
theorem c72_exit : runs digits digit 9 ([115, 215, 315, 415, 515, 615, 715, 816, 916, 1015, 1111, 1215, 1311, 1415, 1511, 1615, 1715, 1816,
    1911, 2011].map fun k => Call.insert (k, ())) (Table.new 2 1) = .exited := by
  have h : (do return (← runs digits digit 9 ([115, 215, 315, 415, 515, 615, 715, 816, 916, 1015, 1111, 1215, 1311, 1415, 1511, 1615, 1715,
    1816, 1911, 2011].map fun k => Call.insert (k, ())) (Table.new 2 1)).1) = .exited := by decide +kernel
  exact exited_of h

/-- **C72 is false of the code.** In a table made for two threads, an `insert` that finds no slot waits for the other one to come. -/
theorem c72_waits : runs digits digit 9 ((List.range 17).map fun k => Call.insert (k * 100, ())) (Table.new 2 2) = .waits := by
  have h : (do return (← runs digits digit 9 ((List.range 17).map fun k => Call.insert (k * 100, ())) (Table.new 2 2)).1) = .waits := by
    decide +kernel
  exact waits_of h

/-! ## Concrete cases -/

/-- Twenty-seven entries, with displacements and an expansion, then the other calls. -/
def calls : List (Call Nat Nat) :=
  ((List.range 27).map fun k => Call.insert (k * 100 + 10 * (k % 4) + k % 3, k)) ++
    [.query 330, .erase 330, .query 330, .update (401, 77), .query 401, .update (999, 1)]

/-- The keys inserted by the first `n` calls are different. -/
theorem fresh_of (l : List (Call K V)) (m : K → Option V) (xs : List (K × V)) (hd : (xs.map (·.1)).Nodup) (hm : ∀ x ∈ xs, m x.1 = none)
    (hl : ∀ x, Call.insert x ∉ l) : Fresh (xs.map .insert ++ l) m := by
  induction xs generalizing m with
  | nil =>
    clear hd hm
    induction l generalizing m with
    | nil => exact trivial
    | cons c l ih =>
      exact ⟨fun x e => absurd (List.mem_cons.2 (.inl e.symm)) (hl x), ih (fun x h => hl x (List.mem_cons_of_mem _ h)) _⟩
  | cons x xs ih =>
    rw [List.map_cons, List.nodup_cons] at hd
    refine ⟨fun y e => ?_, ih _ hd.2 fun y hy => ?_⟩
    · injection e with e
      exact e ▸ hm x List.mem_cons_self
    · have hne : y.1 ≠ x.1 := fun e => hd.1 (List.mem_map.2 ⟨y, hy, e⟩)
      simp only [Call.map]
      rw [if_neg hne]
      exact hm y (List.mem_cons_of_mem _ hy)

/-- Meets the hypotheses of `c72_map_partial`: the calls return, the table has been expanded, and the results are those of a map. -/
example : ∃ as t, runs digits digit 9 calls (Table.new 2 1) = .done (as, t) ∧ t.top.cap = 8 ∧ as = mapRuns calls (fun _ => none) := by
  have h : (do
      let r ← runs digits digit 9 calls (Table.new 2 1)
      return r.2.top.cap) = .done 8 := by decide +kernel
  obtain ⟨⟨as, t⟩, h1, h2⟩ := out_bind h
  have h2 : t.top.cap = 8 := by injection h2
  refine ⟨as, t, h1, h2, c72_map_partial (by decide) ?_ h1⟩
  have := fresh_of [.query 330, .erase 330, .query 330, .update (401, 77), .query 401, .update (999, 1)] (fun _ => none)
    ((List.range 27).map fun k => (k * 100 + 10 * (k % 4) + k % 3, k)) (by decide +kernel) (fun _ _ => rfl) (by simp)
  rw [List.map_map] at this
  exact this

/-- The last results. -/
example : (mapRuns calls (fun _ => none)).drop 27 =
    [.found (some (330, 3)), .did true, .found none, .did true, .found (some (401, 77)), .did false] := by decide +kernel

/-- `c72_two_entries` is about calls that return. -/
example : (do return (← runs digits digit 9 [.insert (7, 1), .insert (7, 2), .erase 7, .query 7] (Table.new 2 1)).1) =
    .done [.inserted, .inserted, .did true, .found (some (7, 2))] := by decide +kernel

/-- Seventeen entries with the same hashes. -/
example (n : Nat) (r : List (Ans Nat Unit) × Table Nat Unit) :
    runs digits digit n (((List.range 17).map fun k => (k * 100, ())).map .insert) (Table.new 2 1) ≠ .done r :=
  c72_at_most_sixteen (a := 0) (b := 0) (by decide) (by decide +kernel) n r

/-- A crash in `expand`: 16 entries with the same hashes, and the bottom level half moved; the key in its first slot is gone. -/
example : ∃ as t bot new, runs digits digit 9 ((List.range 16).map fun k => Call.insert (k * 100, ())) (Table.new 2 1) = .done (as, t) ∧
    moveSlots digits digit 4 t.bot (Level.new (2 * t.top.cap)) = .done (bot, new) ∧ t.bot.slot 0 = some (800, ()) ∧
    ({ t with bot := bot, resize := false } : Table Nat Unit).query digits digit 800 = .done (none, { t with bot := bot, resize := false }) := by
  have h : (do
      let r ← runs digits digit 9 ((List.range 16).map fun k => Call.insert (k * 100, ())) (Table.new 2 1)
      let m ← moveSlots digits digit 4 r.2.bot (Level.new (2 * r.2.top.cap))
      return (r.2.bot.slot 0, r.2.top.cap, r.2.bot.cap, m.2.cap,
        (List.range 16).all (fun i => (r.2.top.slot i).all (fun x : Nat × Unit => decide (x.1 ≠ 800))),
        (List.range 8).all (fun i => decide (i < 4) || (r.2.bot.slot i).all (fun x : Nat × Unit => decide (x.1 ≠ 800))))) =
      .done (some (800, ()), 4, 2, 8, true, true) := by decide +kernel
  obtain ⟨⟨as, t⟩, h1, h2⟩ := out_bind h
  obtain ⟨⟨bot, new⟩, h3, h4⟩ := out_bind h2
  have h4 : (t.bot.slot 0, t.top.cap, t.bot.cap, new.cap, (List.range 16).all (fun i => (t.top.slot i).all (fun x : Nat × Unit => decide (x.1 ≠ 800))),
    (List.range 8).all (fun i => decide (i < 4) || (t.bot.slot i).all (fun x : Nat × Unit => decide (x.1 ≠ 800)))) = (some (800, ()), 4, 2, 8, true, true) := by
    injection h4
  simp only [Prod.mk.injEq, List.all_eq_true, List.mem_range] at h4
  obtain ⟨g1, g2, g3, -, g4, g5⟩ := h4
  obtain ⟨ps, -, hi⟩ := runs_bag (inv_new (by decide)) h1
  refine ⟨as, t, bot, new, h1, h3, g1, c72_cut_expand (by decide) h1 h3 (fun i v e => ?_) (fun i v hi' e => ?_)⟩
  · have := hi.top.lt e
    have := g4 i (by omega)
    rw [e] at this
    simp at this
  · have := hi.bot.lt e
    have := g5 i (by omega)
    rw [e] at this
    simp at this
    omega

/-- A crash in `try_movement`. -/
example : ∃ as t as' t', runs digits digit 9 [.insert (11, 5)] (Table.new 2 1) = .done (as, t) ∧
    runs digits digit 9 [.erase 11, .query 11] { t with top := t.top.set 12 (some (11, 5)) } = .done (as', t') ∧
    as' = [.did true, .found (some (11, 5))] := by
  have h : (do
      let r ← runs digits digit 9 [.insert (11, 5)] (Table.new 2 1)
      let r' ← runs digits digit 9 [.erase 11, .query 11] { r.2 with top := r.2.top.set 12 (some (11, 5)) }
      return (r'.1, r.2.top.slot 4, r.2.top.slot 12, r.2.top.cap)) =
      .done ([.did true, .found (some (11, 5))], some (11, 5), none, 4) := by decide +kernel
  obtain ⟨⟨as, t⟩, h1, h2⟩ := out_bind h
  obtain ⟨⟨as', t'⟩, h3, h4⟩ := out_bind h2
  have h4 : (as', t.top.slot 4, t.top.slot 12, t.top.cap) = ([.did true, .found (some (11, 5))], some (11, 5), none, 4) := by injection h4
  simp only [Prod.mk.injEq] at h4
  obtain ⟨g1, g2, g3, g4⟩ := h4
  have := c72_cut_move (by decide) h1 g2 g3 (by rw [g4]; decide) h3
  exact ⟨as, t, as', t', h1, h3, g1⟩

end PMap.LevelHash
