import Verif.Names

/-!
# C26, C27, C28, C29: file names and recovery
-/

namespace PMap.Names

/-! ## C27 -/

theorem digitChar_toNat {d : Nat} (h : d < 10) : (digitChar d).toNat = 48 + d := by
  interval_cases d <;> rfl

theorem charDigit_digitChar {d : Nat} (h : d < 10) : charDigit (digitChar d) = some d := by
  simp [charDigit, digitChar_toNat h]; omega

theorem mem_toString {n : Nat} {c : Char} (h : c ∈ toString n) : ∃ d, d < 10 ∧ c = digitChar d := by
  unfold toString at h
  split at h
  · simp at h; exact ⟨0, by norm_num, h⟩
  · simp at h
    obtain ⟨d, hd, rfl⟩ := h
    exact ⟨d, Nat.digits_lt_base (by norm_num) hd, rfl⟩

theorem digitChar_ne {d : Nat} (h : d < 10) : digitChar d ≠ '.' ∧ digitChar d ≠ '/' := by
  interval_cases d <;> decide

theorem lastIdx_append {c : Char} (s t : List Char) (ht : c ∉ t) : lastIdx c (s ++ c :: t) = some s.length := by
  unfold lastIdx
  have : (s ++ c :: t).reverse = t.reverse ++ c :: s.reverse := by simp
  rw [this]
  have hf : (t.reverse ++ c :: s.reverse).findIdx? (· = c) = some t.length := by
    rw [List.findIdx?_append]
    have : t.reverse.findIdx? (· = c) = none := by
      rw [List.findIdx?_eq_none_iff]
      intro x hx
      simp at hx
      simp; rintro rfl; exact ht hx
    rw [this]
    simp [List.findIdx?_cons]
  rw [hf]
  simp

/-- Value of a digit list, most significant first. -/
theorem foldl_digits (l : List Nat) (hl : ∀ d ∈ l, d < 10) (a : Nat) :
    (l.map digitChar).foldl atoiStep (some a) = some (l.foldl (fun n d => 10 * n + d) a) := by
  induction l generalizing a with
  | nil => rfl
  | cons d l ih =>
    simp only [List.map_cons, List.foldl_cons, atoiStep, charDigit_digitChar (hl d (by simp))]
    exact ih (fun x hx => hl x (by simp [hx])) _

theorem foldl_reverse_digits (n : Nat) : (Nat.digits 10 n).reverse.foldl (fun n d => 10 * n + d) 0 = n := by
  rw [List.foldl_reverse]
  have : ∀ l : List Nat, l.foldr (fun d n => 10 * n + d) 0 = Nat.ofDigits 10 l := by
    intro l
    induction l with
    | nil => rfl
    | cons d l ih => simp [Nat.ofDigits_cons, ih]; ring
  rw [this, Nat.ofDigits_digits]

theorem atoi_toString (n : Nat) (h : n < 2 ^ 31) : atoi (toString n) = some n := by
  unfold atoi
  have : (toString n).foldl atoiStep (some 0) = some n := by
    unfold toString
    split
    · subst_vars; rfl
    · rw [← List.map_reverse, foldl_digits _ (by
        intro d hd; simp at hd; exact Nat.digits_lt_base (by norm_num) hd), foldl_reverse_digits]
  rw [this]; simp; omega

theorem toString_length (n : Nat) (h : n < 2 ^ 64) : (toString n).length < 240 := by
  unfold toString
  split
  · simp
  · rename_i hn
    simp
    have : (Nat.digits 10 n).length ≤ 20 := by
      rw [← Nat.lt_succ_iff, Nat.lt_succ_iff, Nat.digits_length_le_iff (by norm_num)]
      omega
    omega

theorem numFromName_generated (n : Nat) (h : n < 2 ^ 64) :
    numFromName (getOrderedFileName n) = atoi (toString n) := by
  unfold numFromName
  have hd : lastIdx '.' (getOrderedFileName n) = some (tableDir ++ toString n).length := by
    have : getOrderedFileName n = (tableDir ++ toString n) ++ '.' :: ['d', 'a', 't'] := rfl
    rw [this, lastIdx_append _ _ (by decide)]
  have hs : lastIdx '/' (getOrderedFileName n) = some 20 := by
    have :  getOrderedFileName n = tableDir.dropLast ++ '/' :: (toString n ++ suffix) := by
      simp [getOrderedFileName, tableDir]
    rw [this, lastIdx_append]
    · rfl
    · simp only [List.mem_append, not_or]
      refine ⟨fun hc => ?_, by decide⟩
      obtain ⟨d, hd, e⟩ := mem_toString hc
      exact (digitChar_ne hd).2 e.symm
  rw [hd, hs]
  have hm : ((getOrderedFileName n).take (tableDir ++ toString n).length).drop (20 + 1) = toString n := by
    unfold getOrderedFileName
    rw [List.take_left' rfl]
    have : (20 + 1) = tableDir.length := by decide
    rw [this, List.drop_left]
  simp only [hm, toString_length n h, if_true]

/-- **C27.** The number read back from a generated table file name is the number it was generated from. -/
theorem c27_name_roundtrip (n : Nat) (h : n < 2 ^ 31) : numFromName (getOrderedFileName n) = some n := by
  rw [numFromName_generated n (by omega), atoi_toString n h]

/-- Consequently generated names are pairwise different. -/
theorem c27_names_distinct (n m : Nat) (hn : n < 2 ^ 31) (hm : m < 2 ^ 31)
    (e : getOrderedFileName n = getOrderedFileName m) : n = m := by
  have := c27_name_roundtrip n hn
  rw [e, c27_name_roundtrip m hm] at this
  exact (Option.some.inj this).symm

/-- The bound is needed: from 2^31 on the conversion does not fit in an `int`. -/
theorem c27_name_roundtrip_fails_from_2_31 : numFromName (getOrderedFileName (2 ^ 31)) = none := by
  rw [numFromName_generated _ (by norm_num)]
  have : toString (2 ^ 31) = ['2','1','4','7','4','8','3','6','4','8'] := by
    simp [toString, digitChar]
  rw [this]; decide

example : getOrderedFileName 1207 = tableDir ++ ['1', '2', '0', '7', '.', 'd', 'a', 't'] := by
  simp [getOrderedFileName, toString, digitChar, suffix]

/-! ## C26 -/

theorem recoverOne_none (num : List Char → Option Nat) (cap : Nat) (x : List Char) : recoverOne num cap x = none := by
  unfold recoverOne mmapForRecovery
  cases num x <;> simp [munmapObj]

/-- **C26, refuted.** Whatever the directory contains, and even if extracting the number from a bare file name is
assumed to work in any way at all (`num` arbitrary), the recovery constructor never yields a map: it is undefined
behaviour (or an exception if the directory is missing). -/
theorem c26_recovery_never_recovers (num : List Char → Option Nat) (capacity : Nat) (dir : Option (List (List Char))) :
    recoverCtor num capacity dir = .ub ∨ recoverCtor num capacity dir = .threw := by
  unfold recoverCtor
  cases dir with
  | none => right; rfl
  | some files =>
    left
    simp only
    cases h : sortNames files with
    | nil => rfl
    | cons x xs => simp [recoverAll, recoverOne_none]

/-- The number cannot even be extracted: the constructor passes names without a directory, and a name without '/' makes
`numFromName` read before the beginning of the string. -/
theorem c26_bare_name_is_ub (name : List Char) (h : '/' ∉ name) : numFromName name = none := by
  unfold numFromName
  have : lastIdx '/' name = none := by
    unfold lastIdx
    have : name.reverse.findIdx? (· = '/') = none := by
      rw [List.findIdx?_eq_none_iff]
      intro x hx; simp at hx; simp; rintro rfl; exact h hx
    rw [this]
  rw [this]
  cases lastIdx '.' name <;> rfl

example : '/' ∉ ['3','.','d','a','t'] := by decide

/-! ## C28 -/

/-- The name of a table file without its directory, as the constructor compares it (776-788). -/
def bareName (n : Nat) : List Char := toString n ++ suffix

/-- **C28, refuted.** Table 10 is newer than table 2 but sorts before it. -/
theorem c28_sort_order_wrong : ∃ older newer, older < newer ∧
    sortNames [bareName older, bareName newer] = [bareName newer, bareName older]
    ∧ bareName older ≠ bareName newer := by
  refine ⟨2, 10, by norm_num, ?_⟩
  have h2 : bareName 2 = ['2','.','d','a','t'] := by simp [bareName, toString, digitChar, suffix]
  have h10 : bareName 10 = ['1','0','.','d','a','t'] := by simp [bareName, toString, digitChar, suffix]
  rw [h2, h10]; decide

theorem nameLt_common (p s t : List Char) : nameLt (p ++ s) (p ++ t) = nameLt s t := by
  induction p with
  | nil => rfl
  | cons a p ih => simp [nameLt, ih]

/-- Comparison of equally long digit strings with equal tails is comparison of numbers. -/
theorem nameLt_digits (a b : List Nat) (ha : ∀ d ∈ a, d < 10) (hb : ∀ d ∈ b, d < 10) (hl : a.length = b.length)
    (t : List Char) : nameLt (a.map digitChar ++ t) (b.map digitChar ++ t)
      = decide (Nat.ofDigits 10 a.reverse < Nat.ofDigits 10 b.reverse) := by
  induction a generalizing b with
  | nil =>
    cases b with
    | nil =>
      simp
      have : ∀ t : List Char, nameLt t t = false := by
        intro t; induction t with
        | nil => rfl
        | cons c t ih => simp [nameLt, ih]
      exact this t
    | cons _ _ => simp at hl
  | cons x a ih =>
    cases b with
    | nil => simp at hl
    | cons y b =>
      have hx := ha x (by simp)
      have hy := hb y (by simp)
      have hl' : a.length = b.length := by simpa using hl
      have iha := ih b (fun d hd => ha d (by simp [hd])) (fun d hd => hb d (by simp [hd])) hl'
      simp only [List.map_cons, List.cons_append, nameLt, digitChar_toNat hx, digitChar_toNat hy, iha,
        List.reverse_cons, Nat.ofDigits_append, List.length_reverse, Nat.ofDigits_singleton, hl']
      have ba : Nat.ofDigits 10 a.reverse < 10 ^ b.length := by
        have := Nat.ofDigits_lt_base_pow_length (b := 10) (l := a.reverse) (by norm_num)
          (by intro d hd; exact ha d (by simp at hd; simp [hd]))
        simpa [hl'] using this
      have bb : Nat.ofDigits 10 b.reverse < 10 ^ b.length := by
        have := Nat.ofDigits_lt_base_pow_length (b := 10) (l := b.reverse) (by norm_num)
          (by intro d hd; exact hb d (by simp at hd; simp [hd]))
        simpa using this
      generalize 10 ^ b.length = P at *
      rcases Nat.lt_trichotomy x y with h | h | h
      · have : P * x + P ≤ P * y := by nlinarith
        simp [h]; omega
      · subst h; simp
      · have : P * y + P ≤ P * x := by nlinarith
        have h1 : ¬ (x < y) := by omega
        simp [h, h1]; omega

/-- **C28, partial.** For numbers with the same number of digits, name order is creation order.
Missing: numbers with different digit counts, where the claim is false (`c28_sort_order_wrong`). -/
theorem c28_sort_order_partial (n m : Nat) (h0 : 0 < n) (h1 : 0 < m)
    (hl : (Nat.digits 10 n).length = (Nat.digits 10 m).length) :
    nameLt (bareName n) (bareName m) = decide (n < m) := by
  have hn : ¬ n = 0 := by omega
  have hm : ¬ m = 0 := by omega
  have := nameLt_digits (Nat.digits 10 n).reverse (Nat.digits 10 m).reverse
    (by intro d hd; simp at hd; exact Nat.digits_lt_base (by norm_num) hd)
    (by intro d hd; simp at hd; exact Nat.digits_lt_base (by norm_num) hd) (by simpa using hl) suffix
  simp only [List.map_reverse, List.reverse_reverse, Nat.ofDigits_digits] at this
  unfold bareName toString
  simp only [hn, hm, if_false]
  exact this

example : nameLt (bareName 14) (bareName 27) = true := by
  rw [c28_sort_order_partial 14 27 (by norm_num) (by norm_num) (by norm_num)]; decide

/-! ## C29 -/

/-- hashMap.hpp:864 and 351-353: after recovery the counter holds the number of the last table, and the next table is
created under the number obtained by `fetch_add(1)`, which is that same number. -/
def nextFileAfterRecovery (names : List Nat) : List Char := getOrderedFileName (names.getLastD 0)

/-- **C29, refuted.** For every non-empty list of existing table numbers, the first table created after recovery gets
the name of an existing table. -/
theorem c29_next_file_already_used (names : List Nat) (h : names ≠ []) :
    nextFileAfterRecovery names ∈ names.map getOrderedFileName := by
  unfold nextFileAfterRecovery
  refine List.mem_map.2 ⟨_, ?_, rfl⟩
  rw [List.getLastD_eq_getLast?, List.getLast?_eq_some_getLast h]
  exact List.getLast_mem h

example : nextFileAfterRecovery [3, 4] = getOrderedFileName 4 := rfl

end PMap.Names
