import Verif.CCEH.Inv

/-!
# C71: `CCEH` as a set of keys
-/

namespace PMap.CCEH

variable {hash : Key → BitVec 64}

/-- No code of its own: `insert` of one key after the other; `n` bounds the loop of each call. -/
def insertAll (hash : Key → BitVec 64) (n : Nat) : List Key → Table → Res Table
  | [], c => .done c
  | k :: l, c => do insertAll hash n l (← insert hash k n c)

/-- What `c71_no_wrap_partial` asks of a key: `L` bytes, no byte zero, and a home among the first 253 of the 256 cache lines of a
segment. -/
def Fits (hash : Key → BitVec 64) (L : Nat) (k : Key) : Prop := k.length = L ∧ 0 ∉ k ∧ (hash k).toNat % 256 ≤ 252

theorem Fits.inside {L : Nat} {k : Key} (h : Fits hash L k) : Inside hash k := h.2.2

theorem plain_of {L : Nat} {k : Key} (h1 : k.length = L) (h2 : 0 ∉ k) : Plain L k := ⟨h1, fun _ hb e => h2 (e ▸ hb)⟩

theorem insertAll_inv {L : Nat} (hL : 8 ≤ L) {n : Nat} {ks : List Key} (hk : ∀ k ∈ ks, Fits hash L k) {c c' : Table} {S : Key → Prop}
    {m : BitVec 64 → Nat} (h : Inv hash S m c) (hS : ∀ k, S k → Inside hash k ∧ Plain L k) (e : insertAll hash n ks c = .done c') :
    Inv hash (fun k => S k ∨ k ∈ ks) (fun x => m x + ks.countP (hash · = x)) c' ∧ ∀ k, S k ∨ k ∈ ks → Inside hash k ∧ Plain L k := by
  induction ks generalizing c S m with
  | nil =>
    cases e
    simpa using ⟨h, hS⟩
  | cons k l ih =>
    obtain ⟨c1, e1, e2⟩ := bind_done e
    have hk0 := hk k (by simp)
    have h1 := insert_inv h hS hk0.inside (plain_of hk0.1 hk0.2.1) hL e1
    have hS' : ∀ k', (S k' ∨ k' = k) → Inside hash k' ∧ Plain L k' := by
      rintro k' (h | rfl)
      · exact hS k' h
      · exact ⟨hk0.inside, plain_of hk0.1 hk0.2.1⟩
    obtain ⟨g1, g2⟩ := ih (fun k' hk' => hk k' (List.mem_cons_of_mem _ hk')) h1 hS' e2
    have eS : (fun k' => (S k' ∨ k' = k) ∨ k' ∈ l) = (fun k' => S k' ∨ k' ∈ k :: l) := by
      funext k'
      rw [List.mem_cons, or_assoc]
    have em : (fun x => m x + (if hash k = x then 1 else 0) + l.countP (hash · = x)) = (fun x => m x + (k :: l).countP (hash · = x)) := by
      funext x
      rw [List.countP_cons]
      simp only [decide_eq_true_eq]
      omega
    rw [eS, em] at g1
    refine ⟨g1, fun k' hk' => g2 k' ?_⟩
    rw [List.mem_cons, ← or_assoc] at hk'
    exact hk'

theorem insertAll_total {L : Nat} (hL : 8 ≤ L) {ks : List Key} (hk : ∀ k ∈ ks, Fits hash L k) {c : Table} {S : Key → Prop}
    {m : BitVec 64 → Nat} (h : Inv hash S m c) (hS : ∀ k, S k → Inside hash k ∧ Plain L k) :
    (∃ c', insertAll hash 64 ks c = .done c') ∨ (insertAll hash 64 ks c = .ub ∧ ∃ x, 16 < m x + ks.countP (hash · = x)) := by
  induction ks generalizing c S m with
  | nil => exact .inl ⟨c, rfl⟩
  | cons k l ih =>
    have hk0 := hk k (by simp)
    have hld := h.ld _ (top_lt (hash k) h.d2)
    rcases insert_total h hS hk0.inside (plain_of hk0.1 hk0.2.1) hL (n := 64) (by omega) with ⟨c1, e1⟩ | ⟨e1, e2⟩
    · have h1 := insert_inv h hS hk0.inside (plain_of hk0.1 hk0.2.1) hL e1
      have hS' : ∀ k', (S k' ∨ k' = k) → Inside hash k' ∧ Plain L k' := by
        rintro k' (h | rfl)
        · exact hS k' h
        · exact ⟨hk0.inside, plain_of hk0.1 hk0.2.1⟩
      rw [insertAll, e1, done_bind]
      refine (ih (fun k' hk' => hk k' (List.mem_cons_of_mem _ hk')) h1 hS').imp id (And.imp_right ?_)
      rintro ⟨x, hx⟩
      refine ⟨x, ?_⟩
      rw [List.countP_cons]
      simp only [decide_eq_true_eq]
      omega
    · rw [insertAll, e1]
      refine .inr ⟨rfl, hash k, ?_⟩
      rw [List.countP_cons]
      simp only [decide_true, if_true]
      omega

/-- **C71, partial: keys of one length that stay inside their segment.** For every hash function, every depth of the first directory,
and every sequence of insertions of keys of the same length (at least 8 bytes, none of them zero) whose homes are among the first 253
of the 256 cache lines of a segment, with at most 16 insertions for any one hash value: every `insert` returns, after at most 63
splits, and then `get` of any key of that length without a zero byte finds it if and only if it was inserted.

Missing for the full claim, and refuted: keys with a home in the last three cache lines (`c71_lost_in_split`), keys of several
lengths (`c71_other_length`, `c71_read_past_end`, `c71_prefix_found`), bytes that are zero (`c71_nul_found`), and more than 16 insertions
for one hash (`c71_at_most_sixteen`). -/
theorem c71_no_wrap_partial {d L : Nat} (hd : 1 ≤ d ∧ d ≤ 64) (hL : 8 ≤ L) {ks : List Key} (hk : ∀ k ∈ ks, Fits hash L k)
    (hm : ∀ x, ks.countP (hash · = x) ≤ 16) :
    ∃ c, insertAll hash 64 ks (Table.new d) = .done c ∧
      ∀ k : Key, k.length = L → 0 ∉ k → get hash k c = .done (decide (k ∈ ks)) := by
  have h0 := inv_new (hash := hash) hd.1 hd.2
  rcases insertAll_total hL hk h0 (fun _ h => h.elim) with ⟨c, e⟩ | ⟨-, x, hx⟩
  · refine ⟨c, e, fun k h1 h2 => ?_⟩
    obtain ⟨g1, g2⟩ := insertAll_inv hL hk h0 (fun _ h => h.elim) e
    have := get_spec g1 g2 (plain_of h1 h2)
    by_cases hin : k ∈ ks
    · rw [decide_eq_true hin]
      exact this.1 (.inr hin)
    · rw [decide_eq_false hin]
      exact this.2 (by simpa using hin)
  · have := hm x
    omega

/-- **C71 is false of the code.** With a 17th insertion for the same hash, be it of the same key, the code goes on splitting, and
doubling the directory, until it shifts by a negative number (or memory ends, which the model leaves out); however long one waits,
the insertions do not all return. -/
theorem c71_at_most_sixteen {d L : Nat} (hd : 1 ≤ d ∧ d ≤ 64) (hL : 8 ≤ L) {ks : List Key} (hk : ∀ k ∈ ks, Fits hash L k)
    {x : BitVec 64} (hm : 16 < ks.countP (hash · = x)) :
    insertAll hash 64 ks (Table.new d) = .ub ∧ ∀ n c, insertAll hash n ks (Table.new d) ≠ .done c := by
  have h0 := inv_new (hash := hash) hd.1 hd.2
  have hno : ∀ n c, insertAll hash n ks (Table.new d) ≠ .done c := by
    intro n c e
    obtain ⟨g1, -⟩ := insertAll_inv hL hk h0 (fun _ h => h.elim) e
    have h1 := g1.cnt x
    have h2 := (cnt_le (g1.slot (c.dir (x.toNat / 2 ^ (64 - c.depth)))) x 1024).2
    omega
  refine ⟨?_, hno⟩
  rcases insertAll_total hL hk h0 (fun _ h => h.elim) with ⟨c, e⟩ | ⟨e, -⟩
  · exact absurd e (hno 64 c)
  · exact e

/-- **C71 is false of the code after a crash.** `Split` persists the segment it has split before `insert` enters the new one in the
directory (cceh.hpp:281-283, 376-438).  If the program stops in between, no later `insert` of a key of the other half returns: its
pattern does not match, and the code starts over for ever (446). -/
theorem c71_cut_split {d L n : Nat} (hd : 1 ≤ d ∧ d ≤ 64) (hL : 8 ≤ L) {ks : List Key} (hk : ∀ k ∈ ks, Fits hash L k) {c c1 : Table}
    (e : insertAll hash n ks (Table.new d) = .done c) {h : BitVec 64} {x : Nat} (hx : top h c.depth = .done x)
    (hs : split hash c (c.dir x) h = .done c1) {k : Key} (hlen : 8 ≤ k.length)
    (hother : (hash k).toNat / 2 ^ (63 - (c.segs (c.dir x)).depth) = 2 * (c.segs (c.dir x)).pattern + 1) (n' : Nat) :
    insert hash k n' c1 = .fuel := by
  obtain ⟨g, -⟩ := insertAll_inv hL hk (inv_new (hash := hash) hd.1 hd.2) (fun _ h => h.elim) e
  obtain ⟨-, -, hxe⟩ := top_done hx
  have hxl : x < 2 ^ c.depth := hxe ▸ top_lt h g.d2
  have hld := g.ld x hxl
  have hpat := g.pat x hxl
  have hd2 := g.d2
  have hpat' := hpat
  rw [hxe, Nat.div_div_eq_div_mul, ← Nat.pow_add, ← hxe,
    show 64 - c.depth + (c.depth - (c.segs (c.dir x)).depth) = 64 - (c.segs (c.dir x)).depth by omega] at hpat'
  unfold split at hs
  simp only at hs
  split at hs
  · cases hs
  next hnd =>
  cases hs
  have hhome : c.dir ((hash k).toNat / 2 ^ (64 - c.depth)) = c.dir x := by
    refine g.same x _ hxl (top_lt (hash k) g.d2) ?_
    rw [← hpat, Nat.div_div_eq_div_mul, ← Nat.pow_add,
      show 64 - c.depth + (c.depth - (c.segs (c.dir x)).depth) = 63 - (c.segs (c.dir x)).depth + 1 by omega, Nat.pow_succ,
      ← Nat.div_div_eq_div_mul, hother]
    omega
  induction n' with
  | zero => rfl
  | succ n' ih =>
    rw [insert, if_neg (by omega)]
    simp only [top_eq g.d1 g.d2, done_bind, hhome, if_true, segInsert, top_eq (show 1 ≤ (c.segs (c.dir x)).depth + 1 by omega) (by omega)]
    rw [if_pos]
    · exact ih
    · rw [Nat.shiftLeft_eq, Nat.shiftRight_eq_div_pow,
        show 64 - ((c.segs (c.dir x)).depth + 1) + 1 = 64 - (c.segs (c.dir x)).depth by omega, ← hpat',
        show 64 - ((c.segs (c.dir x)).depth + 1) = 63 - (c.segs (c.dir x)).depth by omega, hother]
      omega

theorem getSlot_congr {s s' : Seg} (h : s.slots = s'.slots) (k : Key) (start n : Nat) : getSlot s k start n = getSlot s' k start n := by
  induction n with
  | zero => rfl
  | succ n ih => rw [getSlot, getSlot, h, ih]

/-- **C71, partial: `get` after a crash in a split.** Between `Split` and the change of the directory no key is lost: `get` of any key
has the same result as before the split. -/
theorem c71_cut_split_get_partial {d L n : Nat} (hd : 1 ≤ d ∧ d ≤ 64) (hL : 8 ≤ L) {ks : List Key} (hk : ∀ k ∈ ks, Fits hash L k)
    {c c1 : Table} (e : insertAll hash n ks (Table.new d) = .done c) {h : BitVec 64} {t : Nat} (hs : split hash c t h = .done c1) (k : Key) :
    get hash k c1 = get hash k c := by
  obtain ⟨g, -⟩ := insertAll_inv hL hk (inv_new (hash := hash) hd.1 hd.2) (fun _ h => h.elim) e
  unfold split at hs
  simp only at hs
  split at hs
  · cases hs
  cases hs
  unfold get
  simp only [top_eq g.d1 g.d2, done_bind]
  have := g.lt _ (top_lt (hash k) g.d2)
  refine getSlot_congr ?_ _ _ _
  split
  · next e => rw [e]
  · rw [if_neg (by omega)]

/-! ## Concrete cases -/

/-- A hash for the examples: the first byte is the highest, the second the lowest. -/
def testHash : Key → BitVec 64
  | a :: b :: _ => BitVec.ofNat 64 (a.toNat * 2 ^ 56 + b.toNat)
  | _ => 0

/-- Keys for the examples. -/
def key (a b c : BitVec 8) : Key := [a, b, c, 1, 1, 1, 1, 1]

/-- Sixteen keys with the same home; the next one finds no slot. -/
def sixteen (b : BitVec 8) : List Key := [1, 2, 3, 4, 5, 6, 7, 8, 9, 10, 11, 12, 13, 14, 15, 16].map (key 64 b)

instance {L : Nat} {k : Key} : Decidable (Fits hash L k) := by unfold Fits; infer_instance

/-- **C71 is false of the code.** Sixteen keys with home in line 252 fill the slots to the end of the segment; a key of line 255 goes
round to slot 0.  A split copies slot 0 first, so the key of line 255 takes slot 1020 of the new segment, and one of the sixteen finds
no free slot: `Insert4split` drops it without a word, and `get` does not find it any more. -/
theorem c71_lost_in_split : ∃ (hash : Key → BitVec 64) (ks : List Key) (k : Key) (c : Table),
    (∀ k ∈ ks, k.length = 8 ∧ 0 ∉ k) ∧ ks.Nodup ∧ k ∈ ks ∧ insertAll hash 64 ks (Table.new 1) = .done c ∧ get hash k c = .done false := by
  have h : (do get testHash (key 64 252 16) (← insertAll testHash 64 (sixteen 252 ++ [key 64 255 1, key 1 252 1]) (Table.new 1))) =
      .done false := by decide +kernel
  obtain ⟨c, h1, h2⟩ := bind_done h
  exact ⟨testHash, sixteen 252 ++ [key 64 255 1, key 1 252 1], key 64 252 16, c, by decide +kernel, by decide +kernel, by decide +kernel, h1, h2⟩

/-- A hash for the examples: the last byte is the highest, the second the lowest. -/
def lastHash (k : Key) : BitVec 64 := BitVec.ofNat 64 ((k.getLastD 0).toNat * 2 ^ 56 + (k.getD 1 0).toNat)

/-- **C71 is false of the code.** `segment_insert` hashes the key it finds in a slot with the length of the new key (190), takes the
longer key for one that has moved away, and overwrites it. -/
theorem c71_other_length : ∃ (hash : Key → BitVec 64) (k k' : Key) (c : Table), 8 ≤ k.length ∧ 8 ≤ k'.length ∧ 0 ∉ k ∧ 0 ∉ k' ∧ k ≠ k' ∧
    insertAll hash 64 [k, k'] (Table.new 1) = .done c ∧ get hash k c = .done false := by
  have h : (do get lastHash [1, 1, 1, 1, 1, 1, 1, 200, 1] (← insertAll lastHash 64 [[1, 1, 1, 1, 1, 1, 1, 200, 1], [1, 1, 1, 1, 1, 1, 1, 2]] (Table.new 1))) =
      .done false := by decide +kernel
  obtain ⟨c, h1, h2⟩ := bind_done h
  exact ⟨lastHash, [1, 1, 1, 1, 1, 1, 1, 200, 1], [1, 1, 1, 1, 1, 1, 1, 2], c, by decide, by decide, by decide, by decide, by decide, h1, h2⟩

theorem ub_of_depth {r : Res Table} (h : (do return (← r).depth) = Res.ub) : r = .ub := by
  cases r with
  | done c => cases h
  | ub => rfl
  | fuel => cases h

/-- **C71 is false of the code.** The same line reads past the end of a shorter key. -/
theorem c71_read_past_end : ∃ (hash : Key → BitVec 64) (k k' : Key), 8 ≤ k.length ∧ 8 ≤ k'.length ∧
    insertAll hash 64 [k, k'] (Table.new 1) = .ub :=
  ⟨testHash, key 1 1 1, key 1 1 2 ++ [1], by decide, by decide, ub_of_depth (by decide +kernel)⟩

/-- **C71 is false of the code.** `get` compares as many bytes as the key looked for has (`strncmp`, 107-116), so it finds a key that
is the beginning of one in the table. -/
theorem c71_prefix_found : ∃ (hash : Key → BitVec 64) (k k' : Key) (c : Table), 0 ∉ k ∧ 0 ∉ k' ∧ k' ≠ k ∧
    insertAll hash 64 [k] (Table.new 1) = .done c ∧ get hash k' c = .done true := by
  have h : (do get testHash (key 1 1 1) (← insertAll testHash 64 [key 1 1 1 ++ [1]] (Table.new 1))) = .done true := by decide +kernel
  obtain ⟨c, h1, h2⟩ := bind_done h
  exact ⟨testHash, key 1 1 1 ++ [1], key 1 1 1, c, by decide, by decide, by decide, h1, h2⟩

/-- **C71 is false of the code.** `strncmp` stops at a zero byte, so keys of the same length that differ after it only are one. -/
theorem c71_nul_found : ∃ (hash : Key → BitVec 64) (k k' : Key) (c : Table), k.length = k'.length ∧ k' ≠ k ∧
    insertAll hash 64 [k] (Table.new 1) = .done c ∧ get hash k' c = .done true := by
  have h : (do get testHash [1, 1, 0, 2, 1, 1, 1, 1] (← insertAll testHash 64 [[1, 1, 0, 3, 1, 1, 1, 1]] (Table.new 1))) = .done true := by
    decide +kernel
  obtain ⟨c, h1, h2⟩ := bind_done h
  exact ⟨testHash, [1, 1, 0, 3, 1, 1, 1, 1], [1, 1, 0, 2, 1, 1, 1, 1], c, by decide, by decide, h1, h2⟩

/-- The hypotheses of `c71_no_wrap_partial` are met by seventeen keys that cause a split and a doubling of the directory. -/
example : ∃ c, insertAll testHash 64 (sixteen 252 ++ [key 1 252 1, key 200 7 1]) (Table.new 1) = .done c ∧
    get testHash (key 64 252 16) c = .done true ∧ get testHash (key 1 252 1) c = .done true ∧ get testHash (key 1 252 2) c = .done false := by
  obtain ⟨c, h1, h2⟩ := c71_no_wrap_partial (hash := testHash) (d := 1) (L := 8) (by decide) (by decide)
    (ks := sixteen 252 ++ [key 1 252 1, key 200 7 1]) (by decide +kernel) (fun x => by
      rw [List.countP_append]
      by_cases h : x = testHash (key 64 252 1)
      · subst h; decide +kernel
      · have h0 : (sixteen 252).countP (testHash · = x) = 0 := by
          rw [List.countP_eq_zero]
          intro k hk
          have : testHash k = testHash (key 64 252 1) := by
            revert k; decide +kernel
          simpa [this] using Ne.symm h
        rw [h0]
        have := List.countP_le_length (p := (testHash · = x)) (l := [key 1 252 1, key 200 7 1])
        simp only [List.length_cons, List.length_nil] at this
        omega)
  refine ⟨c, h1, ?_, ?_, ?_⟩
  · rw [h2 _ (by decide) (by decide), decide_eq_true (by decide +kernel)]
  · rw [h2 _ (by decide) (by decide), decide_eq_true (by decide +kernel)]
  · rw [h2 _ (by decide) (by decide), decide_eq_false (by decide +kernel)]

/-- The directory was doubled indeed. -/
example : (do return (← insertAll testHash 64 (sixteen 252 ++ [key 1 252 1]) (Table.new 1)).depth) = Res.done 2 := by decide +kernel

/-- Seventeen insertions of one key. -/
example : insertAll testHash 64 (List.replicate 17 (key 1 1 1)) (Table.new 10) = .ub :=
  (c71_at_most_sixteen (L := 8) (by decide) (by decide) (by decide +kernel) (x := testHash (key 1 1 1)) (by decide +kernel)).1

/-- A split cut short: sixteen keys, the seventeenth has caused the split, and the insertion of an eighteenth hangs. -/
example : ∃ c c1, insertAll testHash 64 (sixteen 7) (Table.new 1) = .done c ∧ split testHash c 0 (testHash (key 1 7 1)) = .done c1 ∧
    (∀ n, insert testHash (key 64 9 1) n c1 = .fuel) ∧ get testHash (key 64 7 3) c1 = get testHash (key 64 7 3) c := by
  have h : (do
      let c ← insertAll testHash 64 (sixteen 7) (Table.new 1)
      let c1 ← split testHash c 0 (testHash (key 1 7 1))
      return (c.depth, c.dir 0, (c.segs 0).depth, (c.segs 0).pattern, c1.next)) = Res.done (1, 0, 1, 0, 3) := by decide +kernel
  obtain ⟨c, h1, h⟩ := bind_done h
  obtain ⟨c1, h2, h⟩ := bind_done h
  have h : (c.depth, c.dir 0, (c.segs 0).depth, (c.segs 0).pattern, c1.next) = (1, 0, 1, 0, 3) := by
    injection h
  simp only [Prod.mk.injEq] at h
  obtain ⟨e1, e2, e3, e4, -⟩ := h
  refine ⟨c, c1, h1, h2, fun n => ?_,
    c71_cut_split_get_partial (L := 8) (d := 1) (by decide) (by decide) (ks := sixteen 7) (by decide +kernel) h1 h2 _⟩
  refine c71_cut_split (L := 8) (d := 1) (by decide) (by decide) (ks := sixteen 7) (by decide +kernel) h1 (h := testHash (key 1 7 1)) (x := 0)
    (by rw [e1]; decide +kernel) (by rw [e2]; exact h2) (by decide) ?_ n
  rw [e2, e3, e4]
  decide +kernel

end PMap.CCEH
