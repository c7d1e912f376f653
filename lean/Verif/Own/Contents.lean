import Verif.Own.Check

/-!
# What the alternating self-test leaves in the map (proof machinery)
-/

namespace PMap.Harness

open Prog

variable {hash : Word → Word} {n T N t maxops : Nat}

/-! ## All calls have returned -/

/-- What a thread has still to return. -/
def pendingOps : Thread → List Op
  | .idle todo => todo
  | .busy op _ todo => op :: todo

theorem returnedOf_append (t : Nat) (es es' : List Event) : returnedOf t (es ++ es') = returnedOf t es ++ returnedOf t es' :=
  List.filterMap_append ..

theorem returned_step (s : Sys) (x : Sched) (t : Nat) :
    returnedOf t (s.step hash n x).hist ++ pendingOps ((s.step hash n x).thr t) = returnedOf t s.hist ++ pendingOps (s.thr t) := by
  cases x with
  | evict a i => rfl
  | run tid =>
    cases hs : s.thr tid with
    | idle todo =>
      cases todo with
      | nil => simp only [Sys.step, hs]
      | cons op todo =>
        simp only [Sys.step, hs, returnedOf_append]
        by_cases e : t = tid
        · subst e; simp [upd, hs, pendingOps, returnedOf]
        · simp [upd, e, returnedOf]
    | busy op p todo =>
      cases p with
      | ret r =>
        simp only [Sys.step, hs, returnedOf_append]
        by_cases e : t = tid
        · subst e; simp [upd, hs, pendingOps, returnedOf]
        · simp [upd, e, Ne.symm e, returnedOf]
      | halt h => cases h <;> simp only [Sys.step, hs]
      | act a k =>
        simp only [Sys.step, hs]
        cases a.exec s.mem with
        | none => rfl
        | some r =>
          by_cases e : t = tid
          · subst e; simp [upd, hs, pendingOps]
          · simp [upd, e]

theorem returned_exec (xs : List Sched) (s : Sys) (t : Nat) :
    returnedOf t (s.exec hash n xs).hist ++ pendingOps ((s.exec hash n xs).thr t) = returnedOf t s.hist ++ pendingOps (s.thr t) := by
  induction xs generalizing s with
  | nil => rfl
  | cons x xs ih => exact (ih _).trans (returned_step s x t)

theorem returned_all {m : Mem} {calls : Nat → List Op} {xs : List Sched} {t : Nat}
    (h : ((Sys.start m calls).exec hash n xs).thr t = .idle []) :
    returnedOf t ((Sys.start m calls).exec hash n xs).hist = calls t := by
  have := returned_exec (hash := hash) (n := n) xs (Sys.start m calls) t
  rw [h] at this
  simpa [pendingOps, Sys.start, returnedOf] using this

/-! ## The words of the elements -/

/-- The keys the test uses. -/
def kw (t maxops i : Nat) : Word := BitVec.ofNat 64 (genElem i t maxops) <<< 3

theorem gen_lt {i : Nat} (ht : t < T) (hi : i < maxops) (hb : T * maxops ≤ 2 ^ 31) : genElem i t maxops < 2 ^ 31 := by
  have : (t + 1) * maxops ≤ T * maxops := Nat.mul_le_mul_right _ ht
  rw [Nat.succ_mul] at this
  unfold genElem; omega

theorem elem_ok {g : Nat} (h : g < 2 ^ 31) : Element (BitVec.ofNat 64 g) := by
  unfold Element; rw [BitVec.toNat_ofNat]; omega

theorem inserted_eq {i : Nat} (h : genElem i t maxops < 2 ^ 31) : insertedWord i t maxops = kw t maxops i := by
  rw [insertedWord, passed_low _ _ _ h]; rfl

theorem kw_valid {i : Nat} (h : genElem i t maxops < 2 ^ 31) : ValidKey (kw t maxops i) := (c06_element_word (elem_ok h)).1

theorem kw_val {i : Nat} (h : genElem i t maxops < 2 ^ 31) : ValidVal (kw t maxops i) := (c06_element_word (elem_ok h)).2.1

theorem kw_inj {i j t' : Nat} (h : genElem i t maxops < 2 ^ 31) (h' : genElem j t' maxops < 2 ^ 31) (hi : i < maxops)
    (hj : j < maxops) (e : kw t maxops i = kw t' maxops j) : i = j ∧ t = t' := by
  have := (c06_element_word (elem_ok h)).2.2.2 _ (elem_ok h') e
  have := congrArg BitVec.toNat this
  rw [BitVec.toNat_ofNat, BitVec.toNat_ofNat, Nat.mod_eq_of_lt (by omega), Nat.mod_eq_of_lt (by omega)] at this
  exact c32_elements_distinct maxops i t j t' hi hj this

/-! ## What the calls leave -/

theorem specRun_other {k : Word} : ∀ (ops : List Op) (M : AMap), (∀ op ∈ ops, op.changes ≠ some k) → specRun ops M k = M k := by
  intro ops
  induction ops with
  | nil => intro M _; rfl
  | cons op ops ih =>
    intro M h
    rw [specRun, ih _ fun o ho => h o (List.mem_cons_of_mem _ ho), specNext_other (h op (List.mem_cons_self ..))]

theorem prefix_content (hg : ∀ i, i < maxops → genElem i t maxops < 2 ^ 31) : ∀ (k w : Nat) (M : AMap) (c : Cont),
    w + k ≤ maxops → (∀ i, i < maxops → (M (kw t maxops i)).isSome = c (genElem i t maxops)) →
    ∀ i, i < maxops → (specRun (prefixCalls t maxops k w) M (kw t maxops i)).isSome =
      prefixLoop (fun i => genElem i t maxops) k w c (genElem i t maxops) := by
  intro k
  induction k with
  | zero => intro w M c _ h; exact h
  | succ k ih =>
    intro w M c hw h
    rw [prefixCalls, prefixLoop, specRun]
    refine ih (w + 1) _ _ (by omega) fun i hi => ?_
    rw [inserted_eq (hg w (by omega))]
    by_cases e : i = w
    · subst e; simp [specNext, AMap.set]
    · have h1 : kw t maxops i ≠ kw t maxops w := fun h => e (kw_inj (hg i hi) (hg w (by omega)) hi (by omega) h).1
      have h2 : genElem i t maxops ≠ genElem w t maxops := fun h => e (by unfold genElem at h; omega)
      simp [specNext, AMap.set, h1, h2, h i hi]

theorem main_content (hg : ∀ i, i < maxops → genElem i t maxops < 2 ^ 31) : ∀ (k w r : Nat) (M : AMap) (c : Cont),
    w + (k + 1) / 2 ≤ maxops → r + k / 2 ≤ maxops →
    (∀ i, i < maxops → (M (kw t maxops i)).isSome = c (genElem i t maxops)) →
    ∀ i, i < maxops → (specRun (mainCalls t maxops k w r) M (kw t maxops i)).isSome =
      mainLoop (fun i => genElem i t maxops) k w r c (genElem i t maxops) := by
  intro k
  induction k with
  | zero => intro w r M c _ _ h; exact h
  | succ k ih =>
    intro w r M c hw hr h
    rw [mainCalls, mainLoop]
    split
    · rw [specRun]
      refine ih (w + 1) r _ _ (by omega) (by omega) fun i hi => ?_
      rw [inserted_eq (hg w (by omega))]
      by_cases e : i = w
      · subst e; simp [specNext, AMap.set]
      · have h1 : kw t maxops i ≠ kw t maxops w := fun h => e (kw_inj (hg i hi) (hg w (by omega)) hi (by omega) h).1
        have h2 : genElem i t maxops ≠ genElem w t maxops := fun h => e (by unfold genElem at h; omega)
        simp [specNext, AMap.set, h1, h2, h i hi]
    · rw [specRun]
      refine ih w (r + 1) _ _ (by omega) (by omega) fun i hi => ?_
      rw [inserted_eq (hg r (by omega))]
      by_cases e : i = r
      · subst e; simp [specNext, AMap.erase]
      · have h1 : kw t maxops i ≠ kw t maxops r := fun h => e (kw_inj (hg i hi) (hg r (by omega)) hi (by omega) h).1
        have h2 : genElem i t maxops ≠ genElem r t maxops := fun h => e (by unfold genElem at h; omega)
        simp [specNext, AMap.erase, h1, h2, h i hi]

/-- The calls of the prefix put elements `w ≤ i < w + k`. -/
theorem prefix_mem : ∀ (k w : Nat) (op : Op), op ∈ prefixCalls t maxops k w → ∃ i, w ≤ i ∧ i < w + k ∧
    op = .put (insertedWord i t maxops) (insertedWord i t maxops) := by
  intro k
  induction k with
  | zero => intro w op h; cases h
  | succ k ih =>
    intro w op h
    rw [prefixCalls, List.mem_cons] at h
    rcases h with rfl | h
    · exact ⟨w, by omega, by omega, rfl⟩
    · obtain ⟨i, h1, h2, h3⟩ := ih _ _ h
      exact ⟨i, by omega, by omega, h3⟩

/-- The calls of the main loop put elements `w ≤ i < w + (k + 1) / 2` and remove elements `r ≤ i < r + k / 2`. -/
theorem main_mem : ∀ (k w r : Nat) (op : Op), op ∈ mainCalls t maxops k w r →
    (∃ i, w ≤ i ∧ i < w + (k + 1) / 2 ∧ op = .put (insertedWord i t maxops) (insertedWord i t maxops)) ∨
      ∃ i, r ≤ i ∧ i < r + k / 2 ∧ op = .remove (insertedWord i t maxops) := by
  intro k
  induction k with
  | zero => intro w r op h; cases h
  | succ k ih =>
    intro w r op h
    rw [mainCalls] at h
    split at h
    · next ho =>
      rcases List.mem_cons.mp h with rfl | h
      · exact .inl ⟨w, by omega, by omega, rfl⟩
      · rcases ih _ _ _ h with ⟨i, h1, h2, h3⟩ | ⟨i, h1, h2, h3⟩
        · exact .inl ⟨i, by omega, by omega, h3⟩
        · exact .inr ⟨i, by omega, by omega, h3⟩
    · next ho =>
      rcases List.mem_cons.mp h with rfl | h
      · exact .inr ⟨r, by omega, by omega, rfl⟩
      · rcases ih _ _ _ h with ⟨i, h1, h2, h3⟩ | ⟨i, h1, h2, h3⟩
        · exact .inl ⟨i, by omega, by omega, h3⟩
        · exact .inr ⟨i, by omega, by omega, h3⟩

/-! ## The same without the prefix -/

theorem mainLoop_agree (ins : Nat → Nat) (x : Nat) : ∀ (k w r : Nat) (c c' : Cont), c x = c' x →
    mainLoop ins k w r c x = mainLoop ins k w r c' x := by
  intro k
  induction k with
  | zero => intro w r c c' h; exact h
  | succ k ih =>
    intro w r c c' h
    rw [mainLoop, mainLoop]
    split <;> exact ih _ _ _ _ (by simp [h])

theorem mainLoop_never (ins : Nat → Nat) (hi : Function.Injective ins) (i : Nat) : ∀ (k w r : Nat) (c : Cont), i < w →
    c (ins i) = false → mainLoop ins k w r c (ins i) = false := by
  intro k
  induction k with
  | zero => intro w r c _ h; exact h
  | succ k ih =>
    intro w r c hw h
    rw [mainLoop]
    split
    · refine ih _ _ _ (by omega) ?_
      have : (ins i == ins w) = false := by simp; exact fun e => by have := hi e; omega
      simp [this, h]
    · exact ih _ _ _ hw (by simp [h])

/-- A thread whose prefix nobody ran. -/
theorem unprefixed_contents (ins : Nat → Nat) (hi : Function.Injective ins) (numops : Nat) (c : Cont)
    (hc : ∀ i, c (ins i) = false) (hn : 10 ≤ numops ∨ numops % 2 = 1) (i : Nat) :
    mainLoop ins (opsMainLoop numops) (numops / 10) (numops / 10 / 2) c (ins i) = decide (numops / 10 ≤ i ∧
      numops / 10 / 2 + opsMainLoop numops / 2 ≤ i ∧ i < numops / 10 + (opsMainLoop numops + 1) / 2) := by
  by_cases h : i < numops / 10
  · rw [mainLoop_never ins hi i _ _ _ _ h (hc i)]
    symm; simp; omega
  · have hw : numops - opsMainLoop numops = numops / 10 := by unfold opsMainLoop; omega
    have e := c38_final_contents ins hi numops c hc hn i
    unfold alternatingRun at e
    simp only [hw] at e
    rw [mainLoop_agree ins (ins i) _ _ _ c (prefixLoop ins (numops / 10) 0 c), e]
    · apply decide_eq_decide.2
      constructor
      · rintro (h1 | ⟨h1, h2⟩) <;> omega
      · rintro ⟨h1, h2, h3⟩; omega
    · rw [prefixLoop_mem ins hi, hc]
      simp; omega

/-- How many elements of a thread are left. -/
def leftOver (numops : Nat) : Nat :=
  numops / 10 / 2 + (numops / 10 + (opsMainLoop numops + 1) / 2 - (numops / 10 / 2 + opsMainLoop numops / 2))

/-- Which elements of a thread are left. -/
def leftHas (numops i : Nat) : Bool := decide (i < numops / 10 / 2 ∨
  (numops / 10 / 2 + opsMainLoop numops / 2 ≤ i ∧ i < numops / 10 + (opsMainLoop numops + 1) / 2))

theorem left_check {numops : Nat} (hm : numops ≤ maxops) (hn : 10 ≤ numops ∨ numops % 2 = 1) :
    checkElements maxops numops (leftHas numops) = (leftOver numops, true) := by
  have hw : numops - opsMainLoop numops = numops / 10 := by unfold opsMainLoop; omega
  have hN : opsMainLoop numops = numops - numops / 10 := rfl
  have h2 := c38_oracle_accepts_partial id Function.injective_id maxops numops hm (fun _ => false) (fun _ => rfl) hn
  simp only [c38_final_contents id Function.injective_id numops (fun _ => false) (fun _ => rfl) hn] at h2
  refine Prod.ext ?_ h2
  unfold checkElements leftOver leftHas
  simp only [hw]
  generalize hW : numops / 10 = W at *
  generalize hNN : opsMainLoop numops = N at *
  have h1 : advance (fun i => !decide (i < W / 2 ∨ (W / 2 + N / 2 ≤ i ∧ i < W + (N + 1) / 2))) maxops maxops (W / 2)
      = W / 2 + N / 2 := by
    apply advance_eq
    · omega
    · omega
    · omega
    · intro i h1 h2; simp; omega
    · intro _; simp; omega
  have h2 : advance (fun i => decide (i < W / 2 ∨ (W / 2 + N / 2 ≤ i ∧ i < W + (N + 1) / 2))) maxops maxops
      (W / 2 + N / 2) = W + (N + 1) / 2 := by
    apply advance_eq
    · omega
    · omega
    · omega
    · intro i h1 h2; simp; omega
    · intro _; simp; omega
  rw [h1, h2]
  congr 1
  rw [List.countP_eq_length.mpr]
  · simp
  · intro i hi
    have := List.mem_range.mp hi
    simp; omega

end PMap.Harness
