import Verif.Workload
import Verif.Props.Names
import Verif.Props.Containers

/-!
# C42–C48: workloads, command line, start barrier, adapters
-/

namespace PMap.Work

open Names

/-! ## Reading what was printed -/

theorem isDigit_digitChar {d : Nat} (h : d < 10) : isDigit (digitChar d) = true := by
  simp [isDigit, charDigit_digitChar h]

theorem toString_digits (n : Nat) : ∀ c ∈ Names.toString n, isDigit c = true := by
  intro c hc
  obtain ⟨d, hd, rfl⟩ := mem_toString hc
  exact isDigit_digitChar hd

theorem toString_ne_nil (n : Nat) : Names.toString n ≠ [] := by
  unfold Names.toString
  split
  · simp
  · next h => simp [Nat.digits_ne_nil_iff_ne_zero, h]

theorem addDigit_toString (n : Nat) : (Names.toString n).foldl addDigit 0 = n := by
  have hgo : ∀ (l : List Nat), (∀ d ∈ l, d < 10) → ∀ a, (l.map digitChar).foldl addDigit a =
      l.foldl (fun n d => 10 * n + d) a := by
    intro l
    induction l with
    | nil => intro _ a; rfl
    | cons d l ih =>
      intro hl a
      simp only [List.map_cons, List.foldl_cons, addDigit, charDigit_digitChar (hl d (by simp)), Option.getD_some]
      exact ih (fun x hx => hl x (by simp [hx])) _
  unfold Names.toString
  split
  · subst_vars; rfl
  · rw [← List.map_reverse, hgo _ (by
      intro d hd; simp at hd; exact Nat.digits_lt_base (by norm_num) hd), foldl_reverse_digits]

theorem digit_not_space {c : Char} (h : isDigit c = true) : isSpace c = false ∧ c ≠ '-' ∧ c ≠ '+' := by
  unfold isDigit charDigit at h
  split at h
  · next hc =>
    refine ⟨?_, ?_, ?_⟩
    · simp only [isSpace, Bool.or_eq_false_iff, decide_eq_false_iff_not, Bool.and_eq_false_iff]
      refine ⟨fun e => ?_, .inr (by omega)⟩
      subst e; exact absurd hc.1 (by decide)
    · rintro rfl; exact absurd hc.1 (by decide)
    · rintro rfl; exact absurd hc.1 (by decide)
  · cases h

/-- A printed number, with white space before it and no digit behind it, is read as it was. -/
theorem readNum_toString {n : Nat} (hn : n < 2 ^ 64) {sp rest : List Char} (hs : ∀ c ∈ sp, isSpace c = true)
    (hr : ∀ c, rest.head? = some c → isDigit c = false) :
    readNum (sp ++ Names.toString n ++ rest) = some (n, rest) := by
  have hne := toString_ne_nil n
  obtain ⟨d, ds, e⟩ := List.exists_cons_of_ne_nil hne
  have hd := toString_digits n d (by rw [e]; simp)
  obtain ⟨h1, h2, h3⟩ := digit_not_space hd
  have hdrop : (sp ++ Names.toString n ++ rest).dropWhile isSpace = Names.toString n ++ rest := by
    rw [List.append_assoc, List.dropWhile_append_of_pos hs, e, List.cons_append, List.dropWhile_cons_of_neg (by simp [h1])]
  have hsign : readSign (Names.toString n ++ rest) = (false, Names.toString n ++ rest) := by
    rw [e, List.cons_append]
    unfold readSign
    split
    · next e' => cases e'; exact absurd rfl h2
    · next e' => cases e'; exact absurd rfl h3
    · rfl
  have htake : (Names.toString n ++ rest).takeWhile isDigit = Names.toString n := by
    rw [List.takeWhile_append_of_pos (toString_digits n)]
    cases rest with
    | nil => simp
    | cons c rest => rw [List.takeWhile_cons_of_neg (by simp [hr c rfl])]; simp
  unfold readNum
  simp only [hdrop, hsign, htake, if_neg hne, addDigit_toString]
  rw [if_neg (by omega)]
  simp

/-! ## C42 -/

/-- The line of an operation, without the line end. -/
def QOp.text (o : QOp) : List Char := o.kind.word ++ ' ' :: Names.toString o.val

/-- `l` is the line of `o`, with or without line end. -/
def Renders (o : QOp) (l : List Char) : Prop := o.val < 2 ^ 64 ∧ (l = o.text ∨ l = o.text ++ ['\n'])

theorem kindOf_text (o : QOp) (rest : List Char) : kindOf (o.text ++ rest) = some (o.kind, o.kind.word.length + 1) := by
  obtain ⟨k, v⟩ := o
  cases k <;> simp [QOp.text, Kind.word, kindOf, List.isPrefixOf]

theorem Renders.read {o : QOp} {l : List Char} (h : Renders o l) : kindOf l = some (o.kind, o.kind.word.length + 1) ∧
    o.kind.word.length + 1 ≤ l.length ∧ l.length < 1024 ∧ readNum (l.drop (o.kind.word.length + 1)) = some (o.val, l.drop o.text.length) := by
  have hlen : o.kind.word.length ≤ 6 := by cases o.kind <;> decide
  have hl := toString_length o.val h.1
  have key : ∀ rest : List Char, (rest = [] ∨ rest = ['\n']) → l = o.text ++ rest → kindOf l = some (o.kind, o.kind.word.length + 1) ∧
    o.kind.word.length + 1 ≤ l.length ∧ l.length < 1024 ∧
      readNum (l.drop (o.kind.word.length + 1)) = some (o.val, l.drop o.text.length) := by
    intro rest hrest e
    subst e
    refine ⟨kindOf_text o rest, ?_, ?_, ?_⟩
    · simp [QOp.text]
    · simp only [QOp.text, List.length_append, List.length_cons]
      rcases hrest with rfl | rfl <;> simp <;> omega
    · have e1 : (o.text ++ rest).drop (o.kind.word.length + 1) = [] ++ Names.toString o.val ++ rest := by
        simp only [QOp.text, List.append_assoc, List.cons_append, List.nil_append]
        rw [List.drop_append, List.drop_eq_nil_of_le (by omega)]
        simp
      have e2 : (o.text ++ rest).drop o.text.length = rest := List.drop_left
      rw [e1, e2]
      refine readNum_toString h.1 (by simp) ?_
      intro c hc
      rcases hrest with rfl | rfl
      · cases hc
      · cases hc; decide
  rcases h.2 with e | e
  · exact key [] (.inl rfl) (by simpa using e)
  · exact key ['\n'] (.inr rfl) e

/-- The first operations of the file have been dealt out. -/
def Dealt (T : Nat) (ops : List QOp) (st : YState) : Prop :=
  st.num = ops.length ∧ ∀ t, t < T → ∀ j, (st.queue t)[j]? = ops[j * T + t]?

theorem Dealt.length {T : Nat} (hT : 0 < T) {ops : List QOp} {st : YState} (h : Dealt T ops st) :
    (st.queue (st.num % T)).length = st.num / T := by
  have ht : st.num % T < T := Nat.mod_lt _ hT
  have e := Nat.div_add_mod' st.num T
  have h1 : (st.queue (st.num % T)).length ≤ st.num / T := by
    rw [← List.getElem?_eq_none_iff, h.2 _ ht, List.getElem?_eq_none_iff, ← h.1]
    omega
  refine Nat.le_antisymm h1 ?_
  cases hd : st.num / T with
  | zero => omega
  | succ d =>
    by_contra hlt
    have h2 : (st.queue (st.num % T))[d]? = none := by rw [List.getElem?_eq_none_iff]; omega
    rw [h.2 _ ht, List.getElem?_eq_none_iff, ← h.1] at h2
    rw [hd, Nat.succ_mul] at e
    omega

theorem ycsbLine_deal {T C : Nat} (hT : 0 < T) {ops : List QOp} {st : YState} (h : Dealt T ops st) {o : QOp} {l : List Char}
    (hl : Renders o l) : if C ≤ ops.length / T then ycsbLine T C st l = none
      else ∃ st', ycsbLine T C st l = some st' ∧ Dealt T (ops ++ [o]) st' := by
  obtain ⟨g1, g2, g3, g4⟩ := hl.read
  have hlen := h.length hT
  have hstep : ycsbLine T C st l = if C ≤ st.num / T then none else
      some ⟨fun t' => if t' = st.num % T then st.queue (st.num % T) ++ [⟨o.kind, o.val⟩] else st.queue t', some o.val, st.num + 1⟩ := by
    unfold ycsbLine
    rw [if_neg (by omega), g1]
    simp only [if_neg (Nat.not_lt.mpr g2), g4, hlen]
  rw [hstep, ← h.1]
  split
  · rfl
  · refine ⟨_, rfl, by simp [h.1], fun t ht j => ?_⟩
    have e := Nat.div_add_mod' st.num T
    have hdiv : ∀ q r, r < T → q * T + r = st.num → q = st.num / T ∧ r = st.num % T := by
      intro q r hr he
      constructor
      · rw [← he, Nat.add_comm, Nat.add_mul_div_right _ _ hT, Nat.div_eq_of_lt hr]; omega
      · rw [← he, Nat.add_comm, Nat.add_mul_mod_self_right, Nat.mod_eq_of_lt hr]
    dsimp only
    by_cases hj : j * T + t < ops.length
    · rw [List.getElem?_append_left hj, ← h.2 t ht]
      split
      · next e' =>
        subst e'
        rw [List.getElem?_append_left]
        by_contra hge
        have := h.2 _ ht j
        rw [List.getElem?_eq_none_iff.mpr (by omega), eq_comm, List.getElem?_eq_none_iff] at this
        omega
      · rfl
    · rw [List.getElem?_append_right (by omega)]
      by_cases hj' : j * T + t = ops.length
      · obtain ⟨e1, e2⟩ := hdiv j t ht (by rw [h.1]; exact hj')
        rw [if_pos e2, hj', Nat.sub_self, List.getElem?_append_right (by rw [hlen, ← e1]), hlen, e1, Nat.sub_self]
      · have hnone : (st.queue t)[j]? = none := by rw [h.2 t ht, List.getElem?_eq_none_iff]; omega
        have hr : ([o] : List QOp)[j * T + t - ops.length]? = none := by
          rw [List.getElem?_eq_none_iff]; simp; omega
        rw [hr]
        split
        · next e' =>
          rw [List.getElem?_eq_none_iff] at hnone ⊢
          have hne : j ≠ st.num / T := by
            rintro rfl
            apply hj'
            rw [e', e, h.1]
          rw [e', hlen] at hnone
          simp [hlen]; omega
        · exact hnone

theorem ycsbLoop_deal {T C : Nat} (hT : 0 < T) {ops : List QOp} {lines : List (List Char)} (h : List.Forall₂ Renders ops lines)
    {done : List QOp} {st : YState} (hd : Dealt T done st) (hC : done.length ≤ C)
    (hroom : ∀ m, m < (done ++ ops).length → m ≤ C → m / T < C) :
    ∃ st', ycsbLoop T C lines st = some st' ∧ Dealt T ((done ++ ops).take (C + 1)) st' := by
  induction h generalizing done st with
  | nil => exact ⟨st, rfl, by rwa [List.append_nil, List.take_of_length_le (by omega)]⟩
  | @cons o l ops lines hol _ ih =>
    have hs := ycsbLine_deal (C := C) hT hd hol
    rw [if_neg (by have := hroom done.length (by simp) hC; omega)] at hs
    obtain ⟨st', e, hd'⟩ := hs
    rw [ycsbLoop, e]
    dsimp only
    have hnum : st'.num = done.length + 1 := by rw [hd'.1]; simp
    split
    · next hlt =>
      refine ⟨st', rfl, ?_⟩
      have hl : done.length + 1 = C + 1 := by omega
      rw [← hl, show done ++ o :: ops = (done ++ [o]) ++ ops by simp, List.take_left' (by simp)]
      exact hd'
    · obtain ⟨st'', e2, h2⟩ := ih hd' (by simp; omega) (by intro m hm; exact hroom m (by simpa using hm))
      refine ⟨st'', e2, ?_⟩
      rwa [List.append_assoc] at h2

/-- **C42.** For every number of threads from two on (and every file) or one thread and at most 16000000 operations: the run phase
of a YCSB file is dealt out without loss: operation `j * T + t` of the file is entry `j` of thread `t`'s queue, up to the first
16000001 operations, and the queues hold nothing else.  The capacity `C` stands for `operationCount`. -/
theorem c42_dealt_partial {T C : Nat} (hT : 0 < T) (hC : 0 < C) {ops : List QOp} {lines : List (List Char)}
    (h : List.Forall₂ Renders ops lines) (hroom : 2 ≤ T ∨ ops.length ≤ C) :
    ∃ st, ycsbLoop T C lines .start = some st ∧ ∀ t, t < T → ∀ j, (st.queue t)[j]? = (ops.take (C + 1))[j * T + t]? := by
  obtain ⟨st, e, hd⟩ := ycsbLoop_deal (C := C) hT h (done := []) (st := .start) ⟨rfl, by simp [YState.start]⟩ (Nat.zero_le _) (by
    intro m hm hm'
    rcases hroom with h2 | h2
    · have : m / T ≤ m / 2 := Nat.div_le_div_left h2 (by omega)
      omega
    · have : m / T ≤ m := Nat.div_le_self ..
      have : m < C := by simp at hm; omega
      omega)
  exact ⟨st, e, fun t ht j => hd.2 t ht j⟩

/-- **C42 is false of the code** with one thread: for every file with more than 16000000 operations the loop writes behind the
end of the queue (the test `operation_num > operationCount` comes one operation late). -/
theorem c42_one_thread_overflow {C : Nat} {ops : List QOp} {lines : List (List Char)}
    (h : List.Forall₂ Renders ops lines) (hl : C < ops.length) : ycsbLoop 1 C lines .start = none := by
  have key : ∀ {ops : List QOp} {lines : List (List Char)}, List.Forall₂ Renders ops lines → ∀ {done : List QOp} {st : YState},
      Dealt 1 done st → done.length ≤ C → C < (done ++ ops).length → ycsbLoop 1 C lines st = none := by
    intro ops lines h
    induction h with
    | nil => intro done st _ h1 h2; simp at h2; omega
    | @cons o l ops lines hol _ ih =>
      intro done st hd h1 h2
      have hs := ycsbLine_deal (C := C) Nat.one_pos hd hol
      rw [Nat.div_one] at hs
      split at hs
      · rw [ycsbLoop, hs]
      · obtain ⟨st', e, hd'⟩ := hs
        rw [ycsbLoop, e]
        dsimp only
        rw [if_neg (by rw [hd'.1]; simp; omega)]
        exact ih hd' (by simp; omega) (by simpa using h2)
  exact key h (done := []) (st := .start) ⟨rfl, by simp [YState.start]⟩ (Nat.zero_le _) (by simpa using hl)

/-- What a queue entry leaves in the container. -/
theorem apply_present {c : StdMap} (h : StdMap.Sorted c) (o : QOp) (w : Word) :
    StdMap.Sorted (o.apply c) ∧ ((o.apply c).find w).isSome =
      (if BitVec.ofNat 64 o.val = w then
        match o.kind with
        | .insert | .update => true
        | .read => (c.find w).isSome
        | .delete => false
      else (c.find w).isSome) := by
  obtain ⟨k, v⟩ := o
  cases k with
  | read => exact ⟨h, by simp [QOp.apply]⟩
  | delete =>
    refine ⟨StdMap.sorted_erase h, ?_⟩
    show (StdMap.find w (StdMap.erase (BitVec.ofNat 64 v) c).1).isSome = _
    rw [StdMap.find_erase w h]
    by_cases e : BitVec.ofNat 64 v = w
    · simp [e]
    · rw [if_neg e, if_neg (fun x => e x.symm)]
  | insert | update =>
    refine ⟨StdMap.sorted_insert h, ?_⟩
    show (StdMap.find w (StdMap.insert (BitVec.ofNat 64 v) (BitVec.ofNat 64 v) c).1).isSome = _
    rw [StdMap.find_insert w h]
    by_cases e : BitVec.ofNat 64 v = w
    · subst e
      by_cases hn : c.find (BitVec.ofNat 64 v) = none
      · simp [hn]
      · rw [if_neg (fun x => hn x.2), if_pos rfl]
        exact Option.isSome_iff_ne_none.mpr hn
    · rw [if_neg e, if_neg (fun x => e x.1.symm)]

/-- The entry puts `w` into the container. -/
def QOp.adds (w : Word) (o : QOp) : Bool := decide ((o.kind = .insert ∨ o.kind = .update) ∧ BitVec.ofNat 64 o.val = w)
/-- The entry takes `w` out of it. -/
def QOp.drops (w : Word) (o : QOp) : Bool := decide (o.kind = .delete ∧ BitVec.ofNat 64 o.val = w)

theorem applyAll_present {c : StdMap} (h : StdMap.Sorted c) (os : List QOp) (w : Word) :
    (os.any (QOp.drops w) = false → ((applyAll os c).find w).isSome = ((c.find w).isSome || os.any (QOp.adds w))) ∧
    (os.any (QOp.adds w) = false → ((applyAll os c).find w).isSome = ((c.find w).isSome && !os.any (QOp.drops w))) := by
  induction os generalizing c with
  | nil => simp [applyAll]
  | cons o os ih =>
    obtain ⟨g1, g2⟩ := apply_present h o w
    have ih := ih g1
    rw [g2] at ih
    have e : applyAll (o :: os) c = applyAll os (o.apply c) := rfl
    rw [e]
    obtain ⟨k, v⟩ := o
    by_cases hv : BitVec.ofNat 64 v = w
    · cases k <;> simp_all [QOp.adds, QOp.drops]
    · cases k <;> simp_all [QOp.adds, QOp.drops]

theorem contains_eq (w : Word) (c : StdMap) : stlContains w c = (c.find w).isSome := by
  unfold stlContains StdMap.count
  by_cases h : (c.find w).isSome <;> simp [h]

/-- **C42**, the run: in whatever order the threads get at the (reference) container, an element the file never deletes is there at
the end exactly if it was there before or one of the (first 16000001) operations inserts or updates it, and one the file never
inserts or updates exactly if it was there before and no operation deletes it.  Missing: as above. -/
theorem c42_run_partial {T C : Nat} (hT : 0 < T) (hC : 0 < C) {ops : List QOp} {lines : List (List Char)}
    (h : List.Forall₂ Renders ops lines) (hroom : 2 ≤ T ∨ ops.length ≤ C) :
    ∃ st, ycsbLoop T C lines .start = some st ∧ ∀ os, os.Perm ((List.range T).flatMap st.queue) →
      ∀ c, StdMap.Sorted c → ∀ w,
        ((∀ o ∈ ops.take (C + 1), o.kind = .delete → BitVec.ofNat 64 o.val ≠ w) →
          (stlContains w (applyAll os c) = true ↔ stlContains w c = true ∨
            ∃ o ∈ ops.take (C + 1), (o.kind = .insert ∨ o.kind = .update) ∧ BitVec.ofNat 64 o.val = w)) ∧
        ((∀ o ∈ ops.take (C + 1), o.kind = .insert ∨ o.kind = .update → BitVec.ofNat 64 o.val ≠ w) →
          (stlContains w (applyAll os c) = true ↔ stlContains w c = true ∧
            ∀ o ∈ ops.take (C + 1), o.kind = .delete → BitVec.ofNat 64 o.val ≠ w)) := by
  obtain ⟨st, e, hd⟩ := c42_dealt_partial hT hC h hroom
  refine ⟨st, e, fun os hp c hc w => ?_⟩
  have hmem : ∀ o, o ∈ os ↔ o ∈ ops.take (C + 1) := by
    intro o
    rw [hp.mem_iff, List.mem_flatMap]
    constructor
    · rintro ⟨t, ht, ho⟩
      obtain ⟨j, hj⟩ := List.mem_iff_getElem?.mp ho
      rw [hd t (List.mem_range.mp ht)] at hj
      exact List.mem_of_getElem? hj
    · intro ho
      obtain ⟨i, hi⟩ := List.mem_iff_getElem?.mp ho
      refine ⟨i % T, List.mem_range.mpr (Nat.mod_lt _ hT), ?_⟩
      apply List.mem_of_getElem? (i := i / T)
      rw [hd _ (Nat.mod_lt _ hT), Nat.div_add_mod', hi]
  obtain ⟨g1, g2⟩ := applyAll_present hc os w
  have adds : os.any (QOp.adds w) = true ↔
      ∃ o ∈ ops.take (C + 1), (o.kind = .insert ∨ o.kind = .update) ∧ BitVec.ofNat 64 o.val = w := by
    simp [List.any_eq_true, QOp.adds, hmem]
  have drops : os.any (QOp.drops w) = true ↔ ∃ o ∈ ops.take (C + 1), o.kind = .delete ∧ BitVec.ofNat 64 o.val = w := by
    simp [List.any_eq_true, QOp.drops, hmem]
  rw [contains_eq, contains_eq]
  constructor
  · intro hno
    rw [g1 (by
      rw [Bool.eq_false_iff, Ne, drops]
      rintro ⟨o, ho, hk, hv⟩
      exact hno o ho hk hv), Bool.or_eq_true, adds]
  · intro hno
    rw [g2 (by
      rw [Bool.eq_false_iff, Ne, adds]
      rintro ⟨o, ho, hk, hv⟩
      exact hno o ho hk hv), Bool.and_eq_true, Bool.not_eq_true', Bool.eq_false_iff, Ne, drops]
    constructor
    · rintro ⟨a, b⟩
      exact ⟨a, fun o ho hk hv => b ⟨o, ho, hk, hv⟩⟩
    · rintro ⟨a, b⟩
      exact ⟨a, fun ⟨o, ho, hk, hv⟩ => b o ho hk hv⟩

/-- **C42**, the load phase: every file of operations loads exactly the elements of its `INSERT` lines. -/
theorem c42_load {ops : List QOp} {lines : List (List Char)} (h : List.Forall₂ Renders ops lines) :
    ∃ c, ycsbLoad lines [] = some c ∧ StdMap.Sorted c ∧
      ∀ w, stlContains w c = true ↔ ∃ o ∈ ops, o.kind = .insert ∧ BitVec.ofNat 64 o.val = w := by
  have key : ∀ c : StdMap, StdMap.Sorted c → ∃ c', ycsbLoad lines c = some c' ∧ StdMap.Sorted c' ∧
      ∀ w, stlContains w c' = true ↔ stlContains w c = true ∨ ∃ o ∈ ops, o.kind = .insert ∧ BitVec.ofNat 64 o.val = w := by
    induction h with
    | nil => exact fun c hc => ⟨c, rfl, hc, by simp⟩
    | @cons o l ops lines hol _ ih =>
      intro c hc
      obtain ⟨k1, k2, k3, k4⟩ := hol.read
      obtain ⟨k, v⟩ := o
      have hline : ycsbLoadLine l c = some (if k = .insert then (⟨k, v⟩ : QOp).apply c else c) := by
        unfold ycsbLoadLine
        rw [if_neg (by omega)]
        cases k with
        | insert =>
          have hp : Kind.insert.word.isPrefixOf l = true := by
            by_contra hn
            rw [kindOf, if_neg hn] at k1
            revert k1
            repeat' split
            all_goals simp
          rw [if_pos hp, if_neg (by simpa [Kind.word] using k2)]
          have k4' : readNum (l.drop 7) = some (v, l.drop (⟨.insert, v⟩ : QOp).text.length) := k4
          rw [k4', if_pos rfl]
          rfl
        | read | delete | update =>
          have hp : ¬ Kind.insert.word.isPrefixOf l = true := by
            intro hn
            rw [kindOf, if_pos hn] at k1
            simp at k1
          rw [if_neg hp, if_neg (by simp)]
      have hs : StdMap.Sorted (if k = .insert then (⟨k, v⟩ : QOp).apply c else c) := by
        split
        · exact (apply_present hc _ 0#64).1
        · exact hc
      obtain ⟨c', e, hc', hw⟩ := ih _ hs
      refine ⟨c', by rw [ycsbLoad, hline]; exact e, hc', fun w => ?_⟩
      rw [hw w]
      have hone : stlContains w (if k = .insert then (⟨k, v⟩ : QOp).apply c else c) = true ↔
          stlContains w c = true ∨ (k = .insert ∧ BitVec.ofNat 64 v = w) := by
        rw [contains_eq, contains_eq]
        by_cases hk : k = .insert
        · subst hk
          rw [if_pos rfl, (apply_present hc _ w).2]
          by_cases hv : BitVec.ofNat 64 v = w <;> simp [hv]
        · simp [hk]
      rw [hone]
      simp only [List.mem_cons, exists_eq_or_imp, or_assoc]
  obtain ⟨c, e, hc, hw⟩ := key [] List.Pairwise.nil
  refine ⟨c, e, hc, fun w => ?_⟩
  rw [hw w]
  have : stlContains w [] = false := rfl
  simp [this]

/-- Three operations for two threads, and a queue that is too small for one. -/
example : ∃ ops lines, List.Forall₂ Renders ops lines ∧ ops.length = 3 ∧
    lines = ["INSERT 17\n".toList, "READ 4\n".toList, "UPDATE 17".toList] ∧
    ((ycsbLoop 2 2 lines .start).map fun st => (st.queue 0, st.queue 1)) =
      some ([⟨.insert, 17⟩, ⟨.update, 17⟩], [⟨.read, 4⟩]) ∧ ycsbLoop 1 2 lines .start = none := by
  refine ⟨[⟨.insert, 17⟩, ⟨.read, 4⟩, ⟨.update, 17⟩], _, ?_, rfl, rfl, by decide +kernel, ?_⟩
  · exact .cons ⟨by decide, .inr (by decide +kernel)⟩ (.cons ⟨by decide, .inr (by decide +kernel)⟩
      (.cons ⟨by decide, .inl (by decide +kernel)⟩ .nil))
  · exact c42_one_thread_overflow (ops := [⟨.insert, 17⟩, ⟨.read, 4⟩, ⟨.update, 17⟩])
      (.cons ⟨by decide, .inr (by decide +kernel)⟩ (.cons ⟨by decide, .inr (by decide +kernel)⟩
      (.cons ⟨by decide, .inl (by decide +kernel)⟩ .nil))) (by decide)

/-! ## C43 -/

/-- An option with its value. -/
inductive Assign
  | threads (n : Nat)
  | ops (n : Nat)
  | runs (n : Nat)
  | capacity (n : Nat)
  | file (f : List Char)
  | recover (b : Bool)
  | wipe (b : Bool)

/-- As it is typed: the letter of the help text (runTest.hpp:133-139), then the value; a truth value is 0 or 1. -/
def Assign.args : Assign → List (List Char)
  | .threads n => [['-', 't'], Names.toString n]
  | .ops n => [['-', 'n'], Names.toString n]
  | .runs n => [['-', 'p'], Names.toString n]
  | .capacity n => [['-', 'c'], Names.toString n]
  | .file f => [['-', 'f'], f]
  | .recover b => [['-', 'r'], [if b then '1' else '0']]
  | .wipe b => [['-', 'w'], [if b then '1' else '0']]

/-- Numbers of 64 bits, and a file name without white space. -/
def Assign.Valid : Assign → Prop
  | .threads n | .ops n | .runs n | .capacity n => n < 2 ^ 64
  | .file f => ∀ c ∈ f, isSpace c = false
  | .recover _ | .wipe _ => True

/-- What the option should do. -/
def Assign.set (o : Options) : Assign → Options
  | .threads n => { o with numthreads := n }
  | .ops n => { o with numops := n }
  | .runs n => { o with numruns := n }
  | .capacity n => { o with capacity := n }
  | .file f => { o with filename := f }
  | .recover b => { o with recover := b }
  | .wipe b => { o with wipeFile := b }

theorem convNat_toString {n : Nat} (h : n < 2 ^ 64) : convNat (Names.toString n) = some n := by
  have := readNum_toString h (sp := []) (rest := []) (by simp) (by simp)
  simp only [List.nil_append, List.append_nil] at this
  simp [convNat, this]

theorem convString_plain {f : List Char} (h : ∀ c ∈ f, isSpace c = false) : convString f = f := by
  unfold convString
  have : f.dropWhile isSpace = f := by
    cases f with
    | nil => rfl
    | cons c f => rw [List.dropWhile_cons_of_neg (by simp [h c])]
  rw [this]
  clear this
  induction f with
  | nil => rfl
  | cons c f ih => rw [List.takeWhile_cons_of_pos (by simp [h c]), ih (fun d hd => h d (by simp [hd]))]

theorem parse_assign (a : Assign) (h : a.Valid) (rest : List (List Char)) (o : Options) :
    parseArgs (a.args ++ rest) o = parseArgs rest (a.set o) := by
  cases a with
  | threads n | ops n | runs n | capacity n =>
    have := convNat_toString h
    simp [Assign.args, parseArgs, isOpt, List.isPrefixOf, this, Assign.set]
  | file f => simp [Assign.args, parseArgs, isOpt, List.isPrefixOf, convString_plain h, Assign.set]
  | recover b | wipe b =>
    have : convBool [if b then '1' else '0'] = some b := by cases b <;> decide +kernel
    simp [Assign.args, parseArgs, isOpt, List.isPrefixOf, this, Assign.set]

/-- **C43.** Every list of options, each with its value, is read as it is meant: each option sets its field and no other, the last
one of a kind counts, and fields without option keep their defaults. -/
theorem c43_options (l : List Assign) (h : ∀ a ∈ l, a.Valid) (o : Options) :
    parseArgs (l.flatMap Assign.args) o = .ok (l.foldl Assign.set o) := by
  induction l generalizing o with
  | nil => rfl
  | cons a l ih =>
    rw [List.flatMap_cons, parse_assign a (h a (by simp)), ih (fun b hb => h b (by simp [hb])), List.foldl_cons]

/-- **C43**, what is refused: after any such options, an option without its value ends the program by an exception, `-h` prints the
help, and a word that begins like no option is reported. -/
theorem c43_rejects (l : List Assign) (h : ∀ a ∈ l, a.Valid) (o : Options) :
    (∀ c ∈ ['t', 'n', 'p', 'c', 'f', 'r', 'w'], parseArgs (l.flatMap Assign.args ++ [['-', c]]) o = .threw) ∧
    parseArgs (l.flatMap Assign.args ++ [['-', 'h']]) o = .help ∧
    ∀ w rest, (∀ c ∈ ['t', 'n', 'p', 'c', 'f', 'r', 'w', 'h'], ¬ ['-', c] <+: w) →
      parseArgs (l.flatMap Assign.args ++ w :: rest) o = .unknown w := by
  have hgo : ∀ tail, ∃ o', parseArgs (l.flatMap Assign.args ++ tail) o = parseArgs tail o' := by
    intro tail
    induction l generalizing o with
    | nil => exact ⟨o, rfl⟩
    | cons a l ih =>
      rw [List.flatMap_cons, List.append_assoc, parse_assign a (h a (by simp))]
      exact ih (fun b hb => h b (by simp [hb])) _
  refine ⟨fun c hc => ?_, ?_, fun w rest hw => ?_⟩
  · obtain ⟨o', e⟩ := hgo [['-', c]]
    rw [e]
    simp only [List.mem_cons, List.not_mem_nil, or_false] at hc
    rcases hc with rfl | rfl | rfl | rfl | rfl | rfl | rfl <;> rfl
  · obtain ⟨o', e⟩ := hgo [['-', 'h']]
    rw [e]; rfl
  · obtain ⟨o', e⟩ := hgo (w :: rest)
    rw [e]
    have hno : ∀ c ∈ ['t', 'n', 'p', 'c', 'f', 'r', 'w', 'h'], isOpt c w = false := by
      intro c hc
      rw [isOpt, Bool.eq_false_iff, Ne, List.isPrefixOf_iff_prefix]
      exact hw c hc
    simp only [List.mem_cons, List.not_mem_nil, or_false, forall_eq_or_imp, forall_eq] at hno
    obtain ⟨a1, a2, a3, a4, a5, a6, a7, a8⟩ := hno
    cases rest <;> simp [parseArgs, a1, a2, a3, a4, a5, a6, a7, a8]

/-- **C43**, truth values: `-r` and `-w` with any number that fits mean false for 0 and true for everything else. -/
theorem c43_truth (n : Nat) (h : n < 2 ^ 63) (o : Options) (rest : List (List Char)) :
    parseArgs (['-', 'r'] :: Names.toString n :: rest) o = parseArgs rest { o with recover := decide (n ≠ 0) } ∧
    parseArgs (['-', 'w'] :: Names.toString n :: rest) o = parseArgs rest { o with wipeFile := decide (n ≠ 0) } := by
  have h1 := readNum_toString (show n < 2 ^ 64 by omega) (sp := []) (rest := []) (by simp) (by simp)
  simp only [List.nil_append, List.append_nil] at h1
  have : convBool (Names.toString n) = some (decide (n ≠ 0)) := by
    simp [convBool, h1]
  constructor <;> simp [parseArgs, isOpt, List.isPrefixOf, this]

example : parseArgs [['-', 'r'], Names.toString 12, ['-', 'w'], Names.toString 0] .default =
    .ok { Options.default with recover := true, wipeFile := false } := by
  rw [(c43_truth 12 (by decide) _ _).1, (c43_truth 0 (by decide) _ _).2]; rfl

/-- **C43**, a trap: a truth value is read as a number, so `-r true`, like any word that does not start with a digit, a sign or
white space, switches the recovery *off*. -/
theorem c43_true_is_false (c : Char) (w : List Char) (h1 : isDigit c = false) (h2 : isSpace c = false) (h3 : c ≠ '-')
    (h4 : c ≠ '+') (o : Options) : parseArgs [['-', 'r'], c :: w] o = .ok { o with recover := false } := by
  have hd : (c :: w).dropWhile isSpace = c :: w := List.dropWhile_cons_of_neg (by simp [h2])
  have hs : readSign (c :: w) = (false, c :: w) := by
    unfold readSign
    split
    · next e => cases e; exact absurd rfl h3
    · next e => cases e; exact absurd rfl h4
    · rfl
  have : convBool (c :: w) = some false := by
    unfold convBool readNum
    simp only [hd, hs, List.takeWhile_cons_of_neg (p := isDigit) (by simp [h1] : ¬ isDigit c = true), if_true]
    simp
  simp [parseArgs, isOpt, List.isPrefixOf, this]

/-- A command line, and the trap. -/
example : parseArgs ["-t".toList, "4".toList, "-f".toList, "/tmp/x".toList, "-t".toList, "16".toList] .default =
      .ok { Options.default with numthreads := 16, filename := "/tmp/x".toList } ∧
    parseArgs ["-r".toList, "true".toList] .default = .ok { Options.default with recover := false } ∧
    parseArgs ["-n".toList] .default = .threw ∧ parseArgs ["--help".toList] .default = .unknown "--help".toList := by
  decide +kernel

/-! ## C44 -/

/-- The thread has counted itself. -/
def BPc.arrived : BPc → Bool
  | .spinning | .through => true
  | _ => false

/-- How many of the first `N` threads have not. -/
def Barrier.missing (s : Barrier) (N : Nat) : Nat := (List.range N).countP (fun i => !(s.pc i).arrived)

theorem countP_upd {N i : Nat} (hi : i < N) {p q : Nat → Bool} (h : ∀ j, j ≠ i → p j = q j) (hp : p i = true) (hq : q i = false) :
    (List.range N).countP p = (List.range N).countP q + 1 := by
  induction N with
  | zero => omega
  | succ N ih =>
    rw [List.range_succ, List.countP_append, List.countP_append, List.countP_singleton, List.countP_singleton]
    by_cases e : i = N
    · subst e
      have : (List.range i).countP p = (List.range i).countP q := by
        refine List.countP_congr fun j hj => ?_
        rw [List.mem_range] at hj
        rw [h j (by omega)]
      rw [this, hp, hq]; simp
    · rw [ih (by omega), h N (by omega)]; omega

structure BarrierOK (N : Nat) (s : Barrier) : Prop where
  count : s.waiting = BitVec.ofNat 64 (s.missing N)
  good : s.failed = false
  through : ∀ i, i < N → s.pc i = .through → s.missing N = 0

theorem missing_le (s : Barrier) (N : Nat) : s.missing N ≤ N := by
  have := List.countP_le_length (p := fun i => !(s.pc i).arrived) (l := List.range N)
  simpa [Barrier.missing] using this

theorem missing_congr {s s' : Barrier} {N : Nat} (h : ∀ i, (s'.pc i).arrived = (s.pc i).arrived) : s'.missing N = s.missing N := by
  unfold Barrier.missing
  exact List.countP_congr fun i _ => by rw [h i]

theorem ofNat_zero {n N : Nat} (hn : n ≤ N) (hN : N < 2 ^ 64) : BitVec.ofNat 64 n = 0#64 ↔ n = 0 := by
  constructor
  · intro h
    have := congrArg BitVec.toNat h
    simp at this
    omega
  · rintro rfl; rfl

theorem barrier_step {N : Nat} (hN : N < 2 ^ 64) {s : Barrier} (h : BarrierOK N s) {i : Nat} (hi : i < N) :
    BarrierOK N (s.step i) := by
  have hpos : (s.pc i).arrived = false → s.missing N ≠ 0 := by
    intro ha h0
    rw [Barrier.missing, List.countP_eq_zero] at h0
    exact h0 i (List.mem_range.mpr hi) (by simp [ha])
  unfold Barrier.step
  split
  · next hpc =>
    have hm : Barrier.missing { s with pc := fun j => if j = i then .checked else s.pc j, failed := s.failed || s.waiting == 0#64 } N =
        s.missing N := by
      apply missing_congr
      intro j
      dsimp only
      split
      · next e => subst e; rw [hpc]; rfl
      · rfl
    refine ⟨hm ▸ h.count, ?_, ?_⟩
    · have : s.waiting ≠ 0#64 := by
        rw [h.count, Ne, ofNat_zero (missing_le s N) hN]
        exact hpos (by rw [hpc]; rfl)
      simp [h.good, this]
    · intro j hj hjt
      dsimp only at hjt
      rw [hm]
      split at hjt
      · cases hjt
      · exact h.through j hj hjt
  · next hpc =>
    have hm : s.missing N = Barrier.missing { s with pc := fun j => if j = i then .spinning else s.pc j, waiting := s.waiting + (-1#64) } N + 1 := by
      unfold Barrier.missing
      refine countP_upd hi (fun j hj => by simp [hj]) (by rw [hpc]; rfl) (by simp [BPc.arrived])
    refine ⟨?_, h.good, ?_⟩
    · generalize hM : Barrier.missing { s with pc := fun j => if j = i then .spinning else s.pc j, waiting := s.waiting + (-1#64) } N = M at hm
      show s.waiting + (-1#64) = _
      rw [h.count, hm, BitVec.ofNat_add, BitVec.add_assoc]
      have : (BitVec.ofNat 64 1 + -1#64 : Word) = 0#64 := by decide
      rw [this, BitVec.add_zero]
    · intro j hj hjt
      dsimp only at hjt
      split at hjt
      · cases hjt
      · have := h.through j hj hjt
        omega
  · next hpc =>
    split
    · next hw =>
      have hm : Barrier.missing { s with pc := fun j => if j = i then .through else s.pc j } N = s.missing N := by
        apply missing_congr
        intro j
        dsimp only
        split
        · next e => subst e; rw [hpc]; rfl
        · rfl
      refine ⟨hm ▸ h.count, h.good, fun j _ _ => ?_⟩
      rw [hm]
      rw [h.count, ofNat_zero (missing_le s N) hN] at hw
      exact hw
    · exact h
  · exact h

theorem barrier_start (N : Nat) : BarrierOK N (.start N) := by
  have : Barrier.missing (.start N) N = N := by
    unfold Barrier.missing
    rw [List.countP_eq_length.mpr]
    · simp
    · intro i _; rfl
  refine ⟨by rw [this]; rfl, rfl, fun i _ h => by cases h⟩

theorem barrier_run {N : Nat} (hN : N < 2 ^ 64) {s : Barrier} (h : BarrierOK N s) (xs : List Nat) (hx : ∀ i ∈ xs, i < N) :
    BarrierOK N (s.run xs) := by
  induction xs generalizing s with
  | nil => exact h
  | cons i xs ih => exact ih (barrier_step hN h (hx i (by simp))) (fun j hj => hx j (by simp [hj]))

/-- **C44.** In every order of the steps of the `N` threads: the assert of the barrier holds, and as soon as one thread is through,
every thread has arrived. -/
theorem c44_none_early {N : Nat} (hN : N < 2 ^ 64) (xs : List Nat) (hx : ∀ i ∈ xs, i < N) :
    ((Barrier.start N).run xs).failed = false ∧ ∀ i, i < N → ((Barrier.start N).run xs).pc i = .through →
      ∀ j, j < N → ((Barrier.start N).run xs).pc j = .spinning ∨ ((Barrier.start N).run xs).pc j = .through := by
  have h := barrier_run hN (barrier_start N) xs hx
  refine ⟨h.good, fun i hi hit j hj => ?_⟩
  have h0 := h.through i hi hit
  rw [Barrier.missing, List.countP_eq_zero] at h0
  have := h0 j (List.mem_range.mpr hj)
  revert this
  cases ((Barrier.start N).run xs).pc j <;> simp [BPc.arrived]

theorem steps_progress (s : Barrier) (xs : List Nat) (i : Nat) :
    (s.pc i = .before → 2 ≤ xs.count i → ((s.run xs).pc i).arrived = true) ∧
    (s.pc i = .checked → 1 ≤ xs.count i → ((s.run xs).pc i).arrived = true) ∧
    ((s.pc i).arrived = true → ((s.run xs).pc i).arrived = true) := by
  induction xs generalizing s with
  | nil => refine ⟨fun _ h => by simp at h, fun _ h => by simp at h, fun h => h⟩
  | cons x xs ih =>
    have hrun : s.run (x :: xs) = (s.step x).run xs := rfl
    obtain ⟨i1, i2, i3⟩ := ih (s.step x)
    rw [hrun]
    by_cases e : x = i
    · subst e
      have hstep : (s.pc x = .before → (s.step x).pc x = .checked) ∧ (s.pc x = .checked → (s.step x).pc x = .spinning) ∧
          ((s.pc x).arrived = true → ((s.step x).pc x).arrived = true) := by
        refine ⟨fun h => by simp [Barrier.step, h], fun h => by simp [Barrier.step, h], fun h => ?_⟩
        unfold Barrier.step
        split
        · next hp => rw [hp] at h; cases h
        · next hp => rw [hp] at h; cases h
        · split
          · simp [BPc.arrived]
          · exact h
        · exact h
      simp only [List.count_cons_self]
      refine ⟨fun h hc => i2 (hstep.1 h) (by omega), fun h _ => i3 (by rw [hstep.2.1 h]; rfl), fun h => i3 (hstep.2.2 h)⟩
    · have hstep : (s.step x).pc i = s.pc i := by
        have e' : ¬ i = x := fun h => e h.symm
        unfold Barrier.step
        split
        · simp [e']
        · simp [e']
        · split
          · simp [e']
          · rfl
        · rfl
      rw [List.count_cons_of_ne e]
      rw [hstep] at i1 i2 i3
      exact ⟨i1, i2, i3⟩

/-- **C44**, nobody is held back: once every thread has taken two steps, each thread's next step takes it through (in any order, with
anything in between). -/
theorem c44_released {N : Nat} (hN : N < 2 ^ 64) (xs : List Nat) (hx : ∀ i ∈ xs, i < N) (h2 : ∀ i, i < N → 2 ≤ xs.count i)
    {i : Nat} (hi : i < N) : ((Barrier.start N).run (xs ++ [i])).pc i = .through := by
  have h := barrier_run hN (barrier_start N) xs hx
  have harr : ∀ j, j < N → (((Barrier.start N).run xs).pc j).arrived = true := fun j hj =>
    (steps_progress (.start N) xs j).1 rfl (h2 j hj)
  have h0 : ((Barrier.start N).run xs).missing N = 0 := by
    rw [Barrier.missing, List.countP_eq_zero]
    intro j hj
    rw [List.mem_range] at hj
    simp [harr j hj]
  have hw : ((Barrier.start N).run xs).waiting = 0#64 := by rw [h.count, h0]
  have hrun : (Barrier.start N).run (xs ++ [i]) = ((Barrier.start N).run xs).step i := by
    simp [Barrier.run, List.foldl_append]
  rw [hrun]
  have hi' := harr i hi
  unfold Barrier.step
  split
  · next hp => rw [hp] at hi'; cases hi'
  · next hp => rw [hp] at hi'; cases hi'
  · rw [if_pos hw]; simp
  · assumption

/-- Three threads: after four steps one waits; in the end all are through. -/
example : ((Barrier.start 3).run [0, 1, 0, 0]).pc 0 = .spinning ∧
    ((Barrier.start 3).run [0, 1, 0, 0, 2, 1, 2, 0]).pc 0 = .through ∧
    (∀ i, i < 3 → 2 ≤ [0, 1, 0, 0, 2, 1, 2].count i) := by decide +kernel

/-! ## C47 -/

/-- **C47**, the exact value of `1 << capacity`: two to that power below 31; at 31 a number that is no power of two; undefined from
32 on. -/
theorem c47_capacity (n : Nat) : (n < 31 → realCapacity n = some (BitVec.ofNat 64 (2 ^ n)) ∧ (BitVec.ofNat 64 (2 ^ n)).toNat = 2 ^ n) ∧
    (n = 31 → ∃ w, realCapacity n = some w ∧ ∀ p, w.toNat ≠ 2 ^ p) ∧ (32 ≤ n → realCapacity n = none) := by
  refine ⟨fun h => ⟨if_pos h, ?_⟩, ?_, fun h => ?_⟩
  · rw [BitVec.toNat_ofNat, Nat.mod_eq_of_lt]
    calc 2 ^ n < 2 ^ 31 := Nat.pow_lt_pow_right (by omega) h
      _ ≤ 2 ^ 64 := by norm_num
  · rintro rfl
    refine ⟨_, rfl, fun p hp => ?_⟩
    have e : (BitVec.ofInt 64 (-2 ^ 31)).toNat = 2 ^ 31 * (2 ^ 33 - 1) := by decide
    rw [e] at hp
    have h1 : p < 64 := by
      by_contra hge
      have : 2 ^ 64 ≤ 2 ^ p := Nat.pow_le_pow_right (by omega) (by omega)
      omega
    interval_cases p <;> omega
  · unfold realCapacity
    rw [if_neg (by omega), if_neg (by omega)]

/-- **C47.** The capacities the option can give (below 31) meet what the map asks for: a power of two, not beyond 2^32. -/
theorem c47_capacity_partial {n : Nat} (h : n < 31) : ∃ w, realCapacity n = some w ∧ w.toNat = 2 ^ n ∧ w.toNat ≤ 2 ^ 32 := by
  obtain ⟨h1, h2⟩ := (c47_capacity n).1 h
  refine ⟨_, h1, h2, ?_⟩
  rw [h2]
  exact Nat.pow_le_pow_right (by omega) (by omega)

example : realCapacity 16 = some 65536#64 ∧ realCapacity 31 = some 0xffffffff80000000#64 ∧ realCapacity 32 = none := by decide

/-! ## C45, C46 -/

/-- `increment` in terms of what is found. -/
theorem find_stlIncrement {c : StdMap} (h : StdMap.Sorted c) (el k : Word) :
    StdMap.Sorted (stlIncrement el c).2 ∧
    (stlIncrement el c).2.find k = if k = el then some ((c.find el).getD 0#64 + 1#64) else c.find k := by
  have h1 := fun j => StdMap.index_find el j h
  have h2 := fun j => StdMap.index_find el j (h1 el).2.1
  refine ⟨StdMap.sorted_assign (h2 el).2.1, ?_⟩
  show StdMap.find k (StdMap.assign el ((StdMap.index el c).1 + 1#64) (StdMap.index el (StdMap.index el c).2).2) = _
  rw [StdMap.find_assign, (h1 el).1]
  by_cases hk : k = el
  · rw [if_pos hk, if_pos hk]
  · rw [if_neg hk, if_neg hk, (h2 k).2.2, if_neg hk, (h1 k).2.2, if_neg hk]

/-- What is found after a list of increments. -/
theorem get_increments {c : StdMap} (h : StdMap.Sorted c) (vs : List Nat) (k : Word) :
    stlGet k (increments vs c) = stlGet k c + BitVec.ofNat 64 (vs.countP (fun v => BitVec.ofNat 64 v = k)) := by
  induction vs generalizing c with
  | nil => exact (BitVec.add_zero _).symm
  | cons v vs ih =>
    obtain ⟨g1, g2⟩ := find_stlIncrement h (BitVec.ofNat 64 v) k
    have : increments (v :: vs) c = increments vs (stlIncrement (BitVec.ofNat 64 v) c).2 := rfl
    rw [this, ih g1, List.countP_cons]
    unfold stlGet
    rw [g2]
    by_cases hk : BitVec.ofNat 64 v = k
    · subst hk
      simp only [if_true, Option.getD_some, decide_true, BitVec.ofNat_add]
      rw [BitVec.add_assoc, BitVec.add_comm 1#64]
    · rw [if_neg (fun e => hk e.symm)]
      simp [hk]

theorem dropWhile_blank {s : List Char} (h : ∀ c ∈ s, isSpace c = true) : s.dropWhile isSpace = [] := by
  induction s with
  | nil => rfl
  | cons c s ih => rw [List.dropWhile_cons, if_pos (h c (by simp)), ih (fun d hd => h d (by simp [hd]))]

theorem readNum_blank {s : List Char} (h : ∀ c ∈ s, isSpace c = true) : readNum s = none := by
  have := dropWhile_blank h
  unfold readNum
  simp [this, readSign]

/-- The text of an edge: two numbers with white space between them and perhaps behind. -/
def RendersEdge (e : Nat × Nat) (l : List Char) : Prop :=
  e.1 < 2 ^ 64 ∧ e.2 < 2 ^ 64 ∧ ∃ sp tail, sp ≠ [] ∧ (∀ c ∈ sp, isSpace c = true) ∧ (∀ c ∈ tail, isSpace c = true) ∧
    l = Names.toString e.1 ++ (sp ++ Names.toString e.2 ++ tail)

theorem space_not_digit {c : Char} (h : isSpace c = true) : isDigit c = false := by
  cases hd : isDigit c with
  | false => rfl
  | true => rw [(digit_not_space hd).1] at h; cases h

theorem columns_edge {e : Nat × Nat} {l : List Char} (h : RendersEdge e l) : columns l.length l = [e.1, e.2] := by
  obtain ⟨h1, h2, sp, tail, hne, hsp, htail, rfl⟩ := h
  have r1 := readNum_toString (sp := []) (rest := sp ++ Names.toString e.2 ++ tail) h1 (by simp) (by
    intro c hc
    obtain ⟨d, ds, rfl⟩ := List.exists_cons_of_ne_nil hne
    cases hc
    exact space_not_digit (hsp _ (by simp)))
  have r2 := readNum_toString (rest := tail) h2 hsp (by
    intro c hc
    exact space_not_digit (htail c (List.mem_of_mem_head? hc)))
  rw [List.nil_append] at r1
  have hlen : ∃ k, (Names.toString e.1 ++ (sp ++ Names.toString e.2 ++ tail)).length = k + 2 := by
    have a := List.length_pos_iff.mpr (toString_ne_nil e.1)
    have b := List.length_pos_iff.mpr (toString_ne_nil e.2)
    simp only [List.length_append]
    exact ⟨_, (Nat.sub_add_cancel (by omega)).symm⟩
  obtain ⟨k, hk⟩ := hlen
  rw [hk]
  simp only [columns, r1, r2]
  cases k with
  | zero => rfl
  | succ k => simp only [columns, readNum_blank htail]

theorem degreeFile_edges {es : List (Nat × Nat)} {lines : List (List Char)} (h : List.Forall₂ RendersEdge es lines)
    (inc : Option Nat) : degreeFile inc lines = .ok (es.map Prod.snd) := by
  induction h generalizing inc with
  | nil => rfl
  | cons hel _ ih => simp only [degreeFile, degreeLine, columns_edge hel, ih, List.map_cons]

/-- **C45 is false of the code**, what it does instead: the test says it counts outbound connections, but for every number of threads,
every contents of the four edge files and every order in which the threads' increments reach the (reference) container, the counter
of a node ends up as the number of edges *into* it, in the files of the first `min T 4` threads only (modulo 2^64). -/
theorem c45_counts_inbound (T : Nat) {file : Nat → List (List Char)} {edges : Nat → List (Nat × Nat)}
    (h : ∀ t, t < 4 → List.Forall₂ RendersEdge (edges t) (file t)) :
    ∃ ws : Nat → List Nat, (∀ t, t < T → degreeThread file t = .ok (ws t)) ∧
      ∀ vs, vs.Perm ((List.range T).flatMap ws) → ∀ v, stlGet v (increments vs []) =
        BitVec.ofNat 64 (((List.range (min T 4)).flatMap edges).countP (fun e => BitVec.ofNat 64 e.2 = v)) := by
  refine ⟨fun t => if t < 4 then (edges t).map Prod.snd else [], fun t _ => ?_, fun vs hp v => ?_⟩
  · unfold degreeThread
    by_cases ht : t < 4
    · rw [if_neg (by omega), degreeFile_edges (h t ht)]
      exact congrArg Ran.ok (if_pos ht).symm
    · rw [if_pos (by omega)]
      exact congrArg Ran.ok (if_neg ht).symm
  · rw [get_increments List.Pairwise.nil, hp.countP_eq]
    have e0 : stlGet v [] = 0#64 := rfl
    rw [e0, BitVec.zero_add]
    congr 1
    clear hp
    induction T with
    | zero => rfl
    | succ T ih =>
      rw [List.range_succ, List.flatMap_append, List.countP_append, ih]
      by_cases hT : T < 4
      · have e1 : min T 4 = T := by omega
        have e2 : min (T + 1) 4 = T + 1 := by omega
        rw [e1, e2, List.range_succ, List.flatMap_append, List.countP_append]
        simp only [List.flatMap_cons, List.flatMap_nil, List.append_nil, if_pos hT, List.countP_map]
        rfl
      · have e1 : min T 4 = 4 := by omega
        have e2 : min (T + 1) 4 = 4 := by omega
        rw [e1, e2]
        simp [hT]

/-- **C45 is false of the code**, an example: with the single edge from node 1 to node 2 the counter of node 1 is 0, that of node 2
is 1. -/
theorem c45_outbound_wrong : ∃ file vs, List.Forall₂ RendersEdge [(1, 2)] (file 0) ∧ degreeThread file 0 = .ok vs ∧
    stlGet 1#64 (increments vs []) = 0#64 ∧ stlGet 2#64 (increments vs []) = 1#64 := by
  refine ⟨fun _ => [['1', ' ', '2']], [2], .cons ⟨by decide, by decide, [' '], [], by decide, by decide, by decide, by decide +kernel⟩ .nil,
    by decide +kernel, by decide +kernel, by decide +kernel⟩

/-- **C45**, the cases that are not edges: a line with three numbers ends the program by an exception, and a first line with fewer
than two counts a variable never written. -/
theorem c45_bad_lines (inc : Option Nat) {line : List Char} {rest : List (List Char)} :
    (3 ≤ (columns line.length line).length → degreeFile inc (line :: rest) = .threw) ∧
    ((columns line.length line).length < 2 → degreeFile none (line :: rest) = .ub) := by
  constructor
  · intro h
    have : degreeLine inc line = .threw := by
      unfold degreeLine
      split
      · next e => rw [e] at h; simp at h
      · next e => rw [e] at h; simp at h
      · next e => rw [e] at h; simp at h
      · rfl
    simp [degreeFile, this]
  · intro h
    have : degreeLine none line = .ub := by
      unfold degreeLine
      split
      · rfl
      · rfl
      · next e => rw [e] at h; simp at h
      · next h1 h2 h3 =>
        match hc : columns line.length line with
        | [] => exact absurd hc h1
        | [a] => exact absurd hc (h2 a)
        | _ :: _ :: _ => rw [hc] at h; simp at h
    simp [degreeFile, this]

/-- Two files of edges meet the hypotheses, and so do bad lines. -/
example : List.Forall₂ RendersEdge [(0, 4), (4, 0)] [['0', ' ', '4'], ['4', ' ', '0']] ∧
    (columns 5 ['1', ' ', '2', ' ', '3']).length = 3 ∧ (columns 1 ['1']).length = 1 :=
  ⟨.cons ⟨by decide, by decide, [' '], [], by decide, by decide, by decide, by decide +kernel⟩
    (.cons ⟨by decide, by decide, [' '], [], by decide, by decide, by decide, by decide +kernel⟩ .nil), by decide +kernel, by decide +kernel⟩

/-- The text of a number: perhaps with white space around it. -/
def RendersNum (n : Nat) (l : List Char) : Prop :=
  n < 2 ^ 64 ∧ ∃ sp tail, (∀ c ∈ sp, isSpace c = true) ∧ (∀ c ∈ tail, isSpace c = true) ∧ l = sp ++ Names.toString n ++ tail

theorem redditLine_num {n : Nat} {l : List Char} (h : RendersNum n l) (val : Option Nat) : redditLine val l = some n := by
  obtain ⟨h1, sp, tail, hsp, htail, rfl⟩ := h
  unfold redditLine
  rw [readNum_toString h1 hsp (fun c hc => space_not_digit (htail c (List.mem_of_mem_head? hc)))]

theorem redditFile_append {ns : List Nat} {lines : List (List Char)} (h : List.Forall₂ RendersNum ns lines) (val : Option Nat)
    (rest : List (List Char)) : redditFile val (lines ++ rest) =
      (redditFile (if ns = [] then val else ns.getLast?) rest).map (ns ++ ·) := by
  induction h generalizing val with
  | nil => simp
  | @cons n l ns lines hnl _ ih =>
    rw [List.cons_append]
    simp only [redditFile, redditLine_num hnl, ih, reduceCtorEq, if_false]
    have : (if ns = [] then some n else ns.getLast?) = (n :: ns).getLast? := by
      cases ns with
      | nil => rfl
      | cons m ns => rw [if_neg (by simp), List.getLast?_cons_cons]
    rw [this]
    cases redditFile _ rest <;> rfl

/-- **C46.** For every file with one number on each line: thread 0 counts each number as often as it occurs (on the reference
container, modulo 2^64), and the other threads count nothing. -/
theorem c46_counts {ns : List Nat} {file : List (List Char)} (h : List.Forall₂ RendersNum ns file) :
    ∃ vs, redditThread file 0 = some vs ∧ (∀ t, 0 < t → redditThread file t = some []) ∧
      ∀ v, stlGet v (increments vs []) = BitVec.ofNat 64 (ns.countP (fun n => BitVec.ofNat 64 n = v)) := by
  refine ⟨ns, ?_, fun t ht => if_pos ht, fun v => ?_⟩
  · have := redditFile_append h none []
    rw [List.append_nil] at this
    unfold redditThread
    rw [if_neg (by omega), this]
    simp [redditFile]
  · rw [get_increments List.Pairwise.nil]
    exact BitVec.zero_add _

/-- **C46**, blank lines: a blank line counts the number before it once more; a blank first line counts a variable never written. -/
theorem c46_blank_line {ns : List Nat} {lines : List (List Char)} (h : List.Forall₂ RendersNum ns lines) {b : List Char}
    (hb : ∀ c ∈ b, isSpace c = true) :
    redditFile none (lines ++ [b]) = ns.getLast?.map (fun v => ns ++ [v]) := by
  rw [redditFile_append h]
  have e : redditFile (if ns = [] then none else ns.getLast?) [b] = ns.getLast?.map (fun v => [v]) := by
    have hl : redditLine (if ns = [] then none else ns.getLast?) b = ns.getLast? := by
      unfold redditLine
      rw [readNum_blank hb, if_pos (dropWhile_blank hb)]
      cases ns <;> simp
    simp only [redditFile, hl]
    cases ns.getLast? <;> rfl
  rw [e]
  cases ns.getLast? <;> rfl

/-- A file with a repeated number, and one with a blank line. -/
example : List.Forall₂ RendersNum [7, 12, 7] [['7'], ['1', '2'], ['7', ' ']] ∧
    redditFile none [['7'], ['1', '2'], [' '], ['7']] = some [7, 12, 12, 7] :=
  ⟨.cons ⟨by decide, [], [], by decide, by decide, by decide +kernel⟩ (.cons ⟨by decide, [], [], by decide, by decide, by decide +kernel⟩
    (.cons ⟨by decide, [], [' '], by decide, by decide, by decide +kernel⟩ .nil)), by decide +kernel⟩

/-! ## C48 -/

/-- **C48 is false of the code**: in both adapters, in every state, `increment` of a present element changes nothing anyone can find
and returns 0. -/
theorem c48_increment_does_nothing {c : StdMap} (h : StdMap.Sorted c) {el : Word} (hel : c.find el ≠ none) (cap : Nat) :
    (pmCall (.increment el) c).1 = .word 0#64 ∧ (clevelCall cap (.increment el) c).1 = .word 0#64 ∧
    ∀ k, (pmCall (.increment el) c).2.find k = c.find k ∧ (clevelCall cap (.increment el) c).2.find k = c.find k := by
  have h1 : (StdMap.insert el el c).2 = false := by
    rw [StdMap.insert_snd el el h]
    cases hf : c.find el with
    | none => exact absurd hf hel
    | some v => rfl
  have h2 : ∀ k, (StdMap.insert el el c).1.find k = c.find k := by
    intro k
    rw [StdMap.find_insert k h, if_neg (fun e => hel e.2)]
  refine ⟨by simp [pmCall, h1, boolWord], by simp [clevelCall, h1, boolWord], fun k => ⟨h2 k, h2 k⟩⟩

/-- A state with a present element. -/
example : StdMap.Sorted (stlCall (.insert 5#64) []).2 ∧ StdMap.find 5#64 (stlCall (.insert 5#64) []).2 ≠ none :=
  ⟨StdMap.sorted_insert List.Pairwise.nil, by decide +kernel⟩

/-- Every element is stored under itself. -/
def SelfValued (c : StdMap) : Prop := ∀ k v, c.find k = some v → v = k

theorem pm_step (op : UOp) (hop : op.isInc = false) (c : StdMap) : pmCall op c = stlCall op c := by
  cases op with
  | contains el =>
    simp only [pmCall, stlCall, stlContains, StdMap.count]
    by_cases hf : (c.find el).isSome <;> simp [hf]
  | get el =>
    simp only [pmCall, stlCall, stlGet]
    cases c.find el <;> rfl
  | increment el => cases hop
  | _ => rfl

theorem clevel_step {op : UOp} (hop : op.isInc = false) (hc : op ≠ .count) {c : StdMap} (h : StdMap.Sorted c) (hs : SelfValued c)
    (cap : Nat) : clevelCall cap op c = stlCall op c ∧ StdMap.Sorted (stlCall op c).2 ∧ SelfValued (stlCall op c).2 := by
  cases op with
  | insert el =>
    refine ⟨rfl, StdMap.sorted_insert h, fun k v hv => ?_⟩
    have hv : (StdMap.insert el el c).1.find k = some v := hv
    rw [StdMap.find_insert k h] at hv
    split at hv
    · next e => cases hv; exact e.1.symm
    · exact hs k v hv
  | erase el =>
    refine ⟨rfl, StdMap.sorted_erase h, fun k v hv => ?_⟩
    have hv : (StdMap.erase el c).1.find k = some v := hv
    rw [StdMap.find_erase k h] at hv
    split at hv
    · cases hv
    · exact hs k v hv
  | contains el =>
    refine ⟨?_, h, hs⟩
    simp only [clevelCall, stlCall, stlContains, StdMap.count]
    by_cases hf : (c.find el).isSome <;> simp [hf]
  | get el =>
    refine ⟨?_, h, hs⟩
    simp only [clevelCall, stlCall, stlGet]
    cases hf : c.find el with
    | none => rfl
    | some v => rw [hs el v hf]; rfl
  | count => exact absurd rfl hc
  | increment el => cases hop

/-- **C48**, the rest: on calls other than `increment` the libpmemobj adapter answers as the reference container, and on calls other
than `increment` and `count` so does the clevel adapter (the library maps being perfect).  Partial: `increment` and `count`. -/
theorem c48_adapters_partial (ops : List UOp) (h : ∀ op ∈ ops, op.isInc = false) (cap : Nat) :
    callAll pmCall ops [] = callAll stlCall ops [] ∧
    ((∀ op ∈ ops, op ≠ .count) → callAll (clevelCall cap) ops [] = callAll stlCall ops []) := by
  constructor
  · generalize ([] : StdMap) = c
    induction ops generalizing c with
    | nil => rfl
    | cons op ops ih =>
      simp only [callAll, pm_step op (h op (by simp))]
      rw [ih (fun o ho => h o (by simp [ho]))]
  · intro hc
    have key : ∀ c, StdMap.Sorted c → SelfValued c → callAll (clevelCall cap) ops c = callAll stlCall ops c := by
      induction ops with
      | nil => intro c _ _; rfl
      | cons op ops ih =>
        intro c h1 h2
        obtain ⟨g1, g2, g3⟩ := clevel_step (h op (by simp)) (hc op (by simp)) h1 h2 cap
        simp only [callAll, g1]
        rw [ih (fun o ho => h o (by simp [ho])) (fun o ho => hc o (by simp [ho])) _ g2 g3]
    exact key [] List.Pairwise.nil (fun k v hv => by cases hv)

theorem one_step (junk : Word) (op : UOp) (hop : op.isInc = false) (c : StdMap)
    (hg : ∀ el, op = .get el → (c.find el).isSome) : oneCall junk op c = stlCall op c := by
  rw [← pm_step op hop c]
  cases op with
  | get el =>
    obtain ⟨v, hv⟩ := Option.isSome_iff_exists.mp (hg el rfl)
    simp only [oneCall, pmCall, hv]
  | _ => rfl

/-- `get` is only called for elements that are there (no code of its own). -/
def GetsPresent : List UOp → StdMap → Prop
  | [], _ => True
  | op :: ops, c => (∀ el, op = .get el → (c.find el).isSome) ∧ GetsPresent ops (stlCall op c).2

/-- **C48**, the OneFile adapter: on calls other than `increment` it answers as the reference container, whatever the stack holds, as
long as `get` is only called for elements that are there.  Partial: `increment`, and `get` of absent elements. -/
theorem c48_onefile_partial (junk : Word) (ops : List UOp) (h : ∀ op ∈ ops, op.isInc = false) (hg : GetsPresent ops []) :
    callAll (oneCall junk) ops [] = callAll stlCall ops [] := by
  revert hg
  generalize ([] : StdMap) = c
  induction ops generalizing c with
  | nil => intro _; rfl
  | cons op ops ih =>
    intro hg
    simp only [callAll, one_step junk op (h op (by simp)) c hg.1]
    rw [ih (fun o ho => h o (by simp [ho])) _ hg.2]

example : GetsPresent [.insert 5#64, .get 5#64, .erase 5#64, .contains 5#64, .count] [] := by
  simp only [GetsPresent, reduceCtorEq, false_implies, implies_true, true_and, and_true, UOp.get.injEq]
  rintro el rfl
  decide +kernel

/-- **C48 is false of the OneFile adapter** too: in every state `get` of an absent element returns whatever the stack holds, and
`increment` of a present one changes nothing anyone can find and returns 0. -/
theorem c48_onefile_junk {c : StdMap} (h : StdMap.Sorted c) (junk el : Word) :
    (c.find el = none → (oneCall junk (.get el) c).1 = .word junk) ∧
    (c.find el ≠ none → (oneCall junk (.increment el) c).1 = .word 0#64 ∧
      ∀ k, (oneCall junk (.increment el) c).2.find k = c.find k) := by
  refine ⟨fun hn => by simp only [oneCall, hn], fun hn => ?_⟩
  obtain ⟨h1, -, h2⟩ := c48_increment_does_nothing h hn 0
  exact ⟨h1, fun k => (h2 k).1⟩

/-- The answers of both, where they agree and where they do not: the last two calls are `increment` and `count`. -/
example : (callAll pmCall [.insert 5#64, .insert 5#64, .get 5#64, .erase 7#64, .increment 5#64, .count] []).1 =
      [.bool true, .bool false, .word 5#64, .bool false, .word 0#64, .word 1#64] ∧
    (callAll stlCall [.insert 5#64, .insert 5#64, .get 5#64, .erase 7#64, .increment 5#64, .count] []).1 =
      [.bool true, .bool false, .word 5#64, .bool false, .word 6#64, .word 1#64] ∧
    (callAll (clevelCall 64) [.insert 5#64, .count] []).1 = [.bool true, .word 64#64] := by decide +kernel

end PMap.Work
