import Verif.Own.Contents
import Verif.Props.Reopen

/-!
# What the alternating self-test says about the map (proof machinery)
-/

namespace PMap.Harness

open Prog

variable {hash : Word → Word} {n T N t maxops len cap : Nat} {m : Mem} {M : AMap}

theorem sees (hG : Good hash (abs m) M) (hset : m.root + 1 = m.next) (hb : T * maxops ≤ 2 ^ 31)
    (hn : reprobeLimit (m.tab m.root).len + 1 < n) (ht : t < T) :
    Sees hash n t maxops (fun i => (M (kw t maxops i)).isSome) (abs m) := fun _ hi =>
  contains_total hG hset (elem_ok (gen_lt ht hi hb)) hn

/-- What the check answers on a map in order. -/
theorem liveCheck_run (hT : 0 < T) (hG : Good hash (abs m) M) (hset : m.root + 1 = m.next)
    (hb : T * share T N 0 ≤ 2 ^ 31) (hn : reprobeLimit (m.tab m.root).len + 1 < n) {w : Word} (hw : run mapSize m = .done w m) :
    ∃ m', abs m' = abs m ∧
      run (liveCheck hash n T N) m =
        if ((List.range T).map fun t => throughInt (checkElements (share T N 0) (share T N t)
              fun i => (M (kw t (share T N 0) i)).isSome).1).sum = w ∧
            ((List.range T).all fun t => (checkElements (share T N 0) (share T N t)
              fun i => (M (kw t (share T N 0) i)).isSome).2) = true
        then .done () m' else .halted .threw := by
  obtain ⟨r, m', hr, rfl, hm'⟩ := checkThreads_spec hT (fun t ht => sees (maxops := share T N 0) hG hset hb hn ht) T 0 0#64 true (by omega) m rfl
  refine ⟨m', hm', ?_⟩
  change run (ucfCount.bind _) m = _
  rw [run_bind, show run ucfCount m = .done w m from hw]
  change run ((checkThreads hash n T N T 0 0#64 true).bind _) m = _
  rw [run_bind, hr]
  simp only [BitVec.zero_add, Bool.true_and, ← List.range_eq_range']
  by_cases h1 : ((List.range T).map fun t => throughInt (checkElements (share T N 0) (share T N t)
              fun i => (M (kw t (share T N 0) i)).isSome).1).sum = w
  · cases h2 : (List.range T).all fun t => (checkElements (share T N 0) (share T N t)
              fun i => (M (kw t (share T N 0) i)).isSome).2
    · simp [h1, run]
    · simp only [h1]
      rw [if_neg fun h => h rfl, if_neg (by decide), if_pos ⟨trivial, trivial⟩]
      rfl
  · simp [h1, run]

/-! ## What the runs leave -/

theorem share_other (hT : 0 < T) (ht : t ≠ 0) : share T N t = N / T := by
  simp [share, opsPerThread, Nat.ne_of_gt hT, ht]

/-- What thread `t` has of its elements in the end. -/
def finalHas (T N t i : Nat) : Bool :=
  mainLoop (fun i => genElem i t (share T N 0)) (opsMainLoop (share T N t)) (share T N t / 10) (share T N t / 10 / 2)
    (if t = 0 then prefixLoop (fun i => genElem i 0 (share T N 0)) (share T N 0 / 10) 0 (fun _ => false) else fun _ => false)
    (genElem i t (share T N 0))

theorem bounds (hT : 0 < T) (t : Nat) : share T N t - opsMainLoop (share T N t) = share T N t / 10 ∧
    share T N t / 10 + (opsMainLoop (share T N t) + 1) / 2 ≤ share T N 0 ∧
    share T N t / 10 / 2 + opsMainLoop (share T N t) / 2 ≤ share T N t / 10 + (opsMainLoop (share T N t) + 1) / 2 ∧
    share T N t / 10 ≤ share T N t / 10 + (opsMainLoop (share T N t) + 1) / 2 := by
  have := share_le (N := N) hT t
  unfold opsMainLoop; omega

theorem testKeys_mem (hT : 0 < T) (hb : T * share T N 0 ≤ 2 ^ 31) {k : Word} : k ∈ testKeys T N ↔
    ∃ t i, t < T ∧ i < share T N t / 10 + (opsMainLoop (share T N t) + 1) / 2 ∧ k = kw t (share T N 0) i := by
  simp only [testKeys, Finset.mem_biUnion, Finset.mem_range, Finset.mem_image]
  constructor
  · rintro ⟨t, ht, i, hi, rfl⟩
    exact ⟨t, i, ht, hi, inserted_eq (gen_lt ht (lt_of_lt_of_le hi (bounds hT t).2.1) hb)⟩
  · rintro ⟨t, i, ht, hi, rfl⟩
    exact ⟨t, ht, i, hi, inserted_eq (gen_lt ht (lt_of_lt_of_le hi (bounds hT t).2.1) hb)⟩

/-- The thread whose element a key is. -/
def ownerOf (maxops : Nat) (k : Word) : Nat := (k >>> 3).toNat / maxops

theorem owner_kw {i : Nat} (h : genElem i t maxops < 2 ^ 31) (hi : i < maxops) : ownerOf maxops (kw t maxops i) = t := by
  have : (kw t maxops i >>> 3).toNat = genElem i t maxops := by
    simp only [kw, BitVec.toNat_ushiftRight, BitVec.toNat_shiftLeft, BitVec.toNat_ofNat, Nat.shiftLeft_eq, Nat.shiftRight_eq_div_pow]
    omega
  rw [ownerOf, this, genElem, Nat.mul_comm, Nat.mul_add_div (by omega), Nat.div_eq_of_lt hi]; simp

theorem by_put {S : Finset Word} {own : Word → Nat} {k : Word} (hk : ValidKey k) (hv : ValidVal k) (hS : k ∈ S) (ho : own k = t) :
    (Op.put k k).By S own t ∧ (Op.put k k).isUpdate = false :=
  ⟨⟨⟨hk, hv⟩, fun k' e => by cases e; exact ⟨hS, ho⟩, fun _ _ e => by cases e⟩, rfl⟩

theorem by_remove {S : Finset Word} {own : Word → Nat} {k : Word} (hk : ValidKey k) (hS : k ∈ S) (ho : own k = t) :
    (Op.remove k).By S own t ∧ (Op.remove k).isUpdate = false :=
  ⟨⟨hk, fun k' e => by cases e; exact ⟨hS, ho⟩, fun _ _ e => by cases e⟩, rfl⟩

theorem run_phases (hT : 0 < T) (hb : T * share T N 0 ≤ 2 ^ 31) (h : TestRun hash len cap T N m) :
    ∃ M, Phases hash len cap (testKeys T N) m M ∧
      ∀ t i, t < T → i < share T N 0 → (M (kw t (share T N 0) i)).isSome = finalHas T N t i := by
  obtain ⟨n1, n2, xs1, xs2, s1, s2, e1, i1, e2, i2, rfl⟩ := h
  have hg : ∀ t, t < T → ∀ i, i < share T N 0 → genElem i t (share T N 0) < 2 ^ 31 := fun t ht i hi => gen_lt ht hi hb
  have hp1 : Phases hash len cap (testKeys T N) s1.mem (phaseMap (fun _ => 0) s1.hist AMap.empty) := by
    refine .phase n1 _ _ xs1 .fresh ?_ e1 fun t => ⟨[], i1 t⟩
    intro t op hop
    unfold testPrefix at hop
    split at hop
    · next h0 =>
      subst h0
      have b := bounds (N := N) hT 0
      rw [b.1] at hop
      obtain ⟨i, h1, h2, rfl⟩ := prefix_mem _ _ _ hop
      have hi : i < share T N 0 := by omega
      rw [inserted_eq (hg 0 hT i hi)]
      exact by_put (kw_valid (hg 0 hT i hi)) (kw_val (hg 0 hT i hi)) ((testKeys_mem hT hb).mpr ⟨0, i, hT, by omega, rfl⟩) rfl
    · cases hop
  refine ⟨_, .phase n2 (ownerOf (share T N 0)) _ xs2 hp1 ?_ e2 fun t => ⟨[], i2 t⟩, ?_⟩
  · intro t op hop
    unfold testMain at hop
    split at hop
    · next ht =>
      have b := bounds (N := N) hT t
      rw [b.1] at hop
      rcases main_mem _ _ _ _ hop with ⟨i, h1, h2, rfl⟩ | ⟨i, h1, h2, rfl⟩
      · have hi : i < share T N 0 := by omega
        rw [inserted_eq (hg t ht i hi)]
        exact by_put (kw_valid (hg t ht i hi)) (kw_val (hg t ht i hi)) ((testKeys_mem hT hb).mpr ⟨t, i, ht, by omega, rfl⟩)
          (owner_kw (hg t ht i hi) hi)
      · have hi : i < share T N 0 := by omega
        rw [inserted_eq (hg t ht i hi)]
        exact by_remove (kw_valid (hg t ht i hi)) ((testKeys_mem hT hb).mpr ⟨t, i, ht, by omega, rfl⟩)
          (owner_kw (hg t ht i hi) hi)
    · cases hop
  · intro t i ht hi
    have r1 : returnedOf 0 s1.hist = testPrefix T N 0 := by
      have := i1 0
      rw [e1] at this
      rw [e1, returned_all this]
    have r2 : returnedOf t s2.hist = testMain T N t := by
      have := i2 t
      rw [e2] at this
      rw [e2, returned_all this]
    have b := bounds (N := N) hT t
    rw [phaseMap, owner_kw (hg t ht i hi) hi, r2, testMain, if_pos ht, b.1]
    refine main_content (hg t ht) _ _ _ _ _ b.2.1 (by omega) (fun j hj => ?_) i hi
    rw [phaseMap, r1, testPrefix, if_pos rfl, (bounds hT 0).1]
    split
    · next h0 =>
      subst h0
      exact prefix_content (hg 0 hT) _ _ _ _ (by have := (bounds (N := N) hT 0).2; omega) (fun _ _ => rfl) j hj
    · next h0 =>
      rw [specRun_other]
      · rfl
      · intro op hop
        obtain ⟨l, h1, h2, rfl⟩ := prefix_mem _ _ _ hop
        have hl : l < share T N 0 := by have := (bounds (N := N) hT 0).2; omega
        rw [inserted_eq (hg 0 hT l hl)]
        intro e
        exact h0 (kw_inj (hg 0 hT l hl) (hg t ht j hj) hl hj (Option.some.inj e)).2.symm

/-- Where the prefix matters little, what is left is as if it had been run. -/
theorem final_left (hT : 0 < T) (h0 : 10 ≤ share T N t ∨ share T N t % 2 = 1) (h1 : t ≠ 0 → share T N t < 20) (i : Nat) :
    finalHas T N t i = leftHas (share T N t) i := by
  have hinj : Function.Injective fun i => genElem i t (share T N 0) := fun a b e => by
    have e : t * _ + a = t * _ + b := e
    omega
  unfold finalHas
  split
  · next ht =>
    subst ht
    have := c38_final_contents (fun i => genElem i 0 (share T N 0)) hinj (share T N 0) (fun _ => false) (fun _ => rfl) h0 i
    unfold alternatingRun at this
    simp only [(bounds hT 0).1] at this
    exact this
  · next ht =>
    rw [unprefixed_contents (fun i => genElem i t (share T N 0)) hinj (share T N t) (fun _ => false) (fun _ => rfl) h0 i]
    have := h1 ht
    apply decide_eq_decide.2
    unfold opsMainLoop
    constructor
    · rintro ⟨h1, h2, h3⟩; exact .inr ⟨h2, h3⟩
    · rintro (h1 | ⟨h2, h3⟩) <;> omega

/-- Where the prefix matters, its elements are missing. -/
theorem final_first (h : t ≠ 0) (h20 : 20 ≤ share T N t) : finalHas T N t 0 = false := by
  have hinj : Function.Injective fun i => genElem i t (share T N 0) := fun a b e => by
    have e : t * _ + a = t * _ + b := e
    omega
  unfold finalHas
  rw [if_neg h]
  exact mainLoop_never (fun i => genElem i t (share T N 0)) hinj 0 _ _ _ _ (by omega) rfl

theorem advance_congr {p q : Nat → Bool} (h : ∀ i, i < maxops → p i = q i) : ∀ fuel r,
    advance p maxops fuel r = advance q maxops fuel r := by
  intro fuel
  induction fuel with
  | zero => intro r; rfl
  | succ k ih =>
    intro r
    rw [advance, advance]
    by_cases hr : r < maxops
    · rw [h r hr, ih]
    · simp [hr]

/-- The check looks only at elements below `maxops`. -/
theorem checkElements_congr {numops : Nat} (hm : numops ≤ maxops) {p q : Nat → Bool} (h : ∀ i, i < maxops → p i = q i) :
    checkElements maxops numops p = checkElements maxops numops q := by
  have hw : numops - opsMainLoop numops = numops / 10 := by unfold opsMainLoop; omega
  unfold checkElements
  simp only [advance_congr h, advance_congr (p := fun i => !p i) (q := fun i => !q i) fun i hi => by rw [h i hi]]
  have e1 : (List.range ((numops - opsMainLoop numops) / 2)).all p = (List.range ((numops - opsMainLoop numops) / 2)).all q := by
    rw [Bool.eq_iff_iff]
    simp only [List.all_eq_true, List.mem_range]
    exact forall₂_congr fun i hi => by rw [h i (by omega)]
  have e2 : (List.range ((numops - opsMainLoop numops) / 2)).countP p = (List.range ((numops - opsMainLoop numops) / 2)).countP q := by
    refine List.countP_congr fun i hi => ?_
    rw [List.mem_range] at hi
    rw [h i (by omega)]
  rw [e1, e2]
  congr 2
  rw [Bool.eq_iff_iff]
  simp only [List.all_eq_true, List.mem_range'_1]
  refine forall₂_congr fun i hi => ?_
  rw [h i]
  have h1 := hi.1
  have h2 := hi.2
  have hl : numops - opsMainLoop numops + (if 0 < opsMainLoop numops / 2 then opsMainLoop numops / 2 - 1 else 0) ≤ numops := by
    have := c32_main_loop_le numops
    split <;> omega
  omega

theorem left_card {numops : Nat} (hm : numops ≤ maxops) :
    ((Finset.range maxops).filter fun i => leftHas numops i = true).card = leftOver numops := by
  have hN : opsMainLoop numops = numops - numops / 10 := rfl
  unfold leftHas leftOver
  generalize opsMainLoop numops = N at *
  generalize hW : numops / 10 = W at *
  have : ((Finset.range maxops).filter fun i => decide (i < W / 2 ∨ (W / 2 + N / 2 ≤ i ∧ i < W + (N + 1) / 2)) = true) =
      Finset.range (W / 2) ∪ Finset.Ico (W / 2 + N / 2) (W + (N + 1) / 2) := by
    ext i
    simp only [Finset.mem_filter, Finset.mem_range, decide_eq_true_eq, Finset.mem_union, Finset.mem_Ico]
    omega
  rw [this, Finset.card_union_of_disjoint, Finset.card_range, Nat.card_Ico]
  rw [Finset.disjoint_left]
  intro i h1 h2
  simp only [Finset.mem_range, Finset.mem_Ico] at h1 h2
  omega

/-- The number of keys. -/
theorem final_card (hT : 0 < T) (hb : T * share T N 0 ≤ 2 ^ 31) (hS : ∀ k, M k ≠ none → k ∈ testKeys T N)
    (hM : ∀ t i, t < T → i < share T N 0 → (M (kw t (share T N 0) i)).isSome = leftHas (share T N t) i) :
    M.card = ((List.range T).map fun t => leftOver (share T N t)).sum := by
  have e : {k | M k ≠ none} = ↑((Finset.range T).biUnion fun t =>
      ((Finset.range (share T N 0)).filter fun i => leftHas (share T N t) i = true).image (kw t (share T N 0))) := by
    ext k
    simp only [Set.mem_ofPred_eq, Finset.coe_biUnion, Finset.coe_range, Set.mem_iUnion, Finset.coe_image, Finset.coe_filter,
      Set.mem_image, Finset.mem_range, Set.mem_Iio]
    constructor
    · intro hk
      obtain ⟨t, i, ht, hi, rfl⟩ := (testKeys_mem hT hb).mp (hS k hk)
      have hi' := lt_of_lt_of_le hi (bounds (N := N) hT t).2.1
      exact ⟨t, ht, i, ⟨hi', by rw [← hM t i ht hi']; exact Option.isSome_iff_ne_none.mpr hk⟩, rfl⟩
    · rintro ⟨t, ht, i, ⟨hi, hl⟩, rfl⟩
      exact Option.isSome_iff_ne_none.mp (by rw [hM t i ht hi]; exact hl)
  rw [AMap.card, e, Set.ncard_coe_finset, Finset.card_biUnion]
  · rw [Finset.sum_congr rfl (g := fun t => leftOver (share T N t)) fun t ht => ?_]
    · rfl
    · rw [Finset.mem_range] at ht
      rw [Finset.card_image_of_injOn, left_card (share_le hT t)]
      intro i hi j hj e
      simp only [Finset.coe_filter, Finset.mem_range, Set.mem_ofPred_eq] at hi hj
      exact (kw_inj (gen_lt ht hi.1 hb) (gen_lt ht hj.1 hb) hi.1 hj.1 e).1
  · intro t ht t' ht' hne
    rw [Finset.coe_range, Set.mem_Iio] at ht ht'
    rw [Function.onFun, Finset.disjoint_left]
    intro k hk hk'
    simp only [Finset.mem_image, Finset.mem_filter, Finset.mem_range] at hk hk'
    obtain ⟨i, ⟨hi, -⟩, rfl⟩ := hk
    obtain ⟨j, ⟨hj, -⟩, e⟩ := hk'
    exact hne (kw_inj (gen_lt ht' hj hb) (gen_lt ht hi hb) hj hi e).2.symm

theorem throughInt_eq {k : Nat} (h : k < 2 ^ 31) : throughInt k = BitVec.ofNat 64 k := by
  have := passed_low k 0 0 (by simpa [genElem] using h)
  simpa [passedElem, genElem, throughInt] using this

theorem sum_word (f : Nat → Nat) (l : List Nat) (hf : ∀ t ∈ l, f t < 2 ^ 31) :
    (l.map fun t => throughInt (f t)).sum = BitVec.ofNat 64 (l.map f).sum := by
  induction l with
  | nil => rfl
  | cons t l ih =>
    simp only [List.map_cons, List.sum_cons, List.mem_cons, forall_eq_or_imp] at hf ⊢
    rw [ih hf.2, throughInt_eq hf.1, BitVec.ofNat_add]

/-- The verdict on a map that holds what the test leaves. -/
theorem verdict (hT : 0 < T) (hb : T * share T N 0 ≤ 2 ^ 31) (hG : Good hash (abs m) M) (hset : m.root + 1 = m.next)
    (hn : reprobeLimit (m.tab m.root).len + 1 < n) (hw : run mapSize m = .done (BitVec.ofNat 64 M.card) m)
    (hS : ∀ k, M k ≠ none → k ∈ testKeys T N)
    (hM : ∀ t i, t < T → i < share T N 0 → (M (kw t (share T N 0) i)).isSome = leftHas (share T N t) i)
    (hodd : ∀ t, t < T → 10 ≤ share T N t ∨ share T N t % 2 = 1) :
    ∃ m', run (liveCheck hash n T N) m = .done () m' ∧ abs m' = abs m := by
  obtain ⟨m', h1, h2⟩ := liveCheck_run hT hG hset hb hn hw
  refine ⟨m', ?_, h1⟩
  have hc : ∀ t, t < T → (checkElements (share T N 0) (share T N t) fun i => (M (kw t (share T N 0) i)).isSome) =
      (leftOver (share T N t), true) := fun t ht =>
    (checkElements_congr (share_le hT t) fun i hi => hM t i ht hi).trans (left_check (share_le hT t) (hodd t ht))
  rw [h2, if_pos]
  constructor
  · rw [final_card hT hb hS hM, ← sum_word]
    · congr 1
      refine List.map_congr_left fun t ht => ?_
      rw [hc t (List.mem_range.mp ht)]
    · intro t ht
      have h3 : leftOver (share T N t) ≤ share T N t := by unfold leftOver opsMainLoop; omega
      have h4 := share_le (N := N) hT t
      have h5 : share T N 0 ≤ T * share T N 0 := Nat.le_mul_of_pos_left _ hT
      have h6 : leftOver (share T N t) < share T N t ∨ share T N t = leftOver (share T N t) := by omega
      have h7 : share T N t < 2 ^ 31 ∨ leftOver (share T N t) < share T N t := by
        unfold leftOver opsMainLoop; omega
      omega
  · rw [List.all_eq_true]
    intro t ht
    rw [hc t (List.mem_range.mp ht)]

/-- The verdict on a map in which a thread's first element is missing. -/
theorem verdict_missing (hT : 0 < T) (hb : T * share T N 0 ≤ 2 ^ 31) (hG : Good hash (abs m) M) (hset : m.root + 1 = m.next)
    (hn : reprobeLimit (m.tab m.root).len + 1 < n) {w : Word} (hw : run mapSize m = .done w m) (ht : t < T)
    (h20 : 20 ≤ share T N t) (h0 : (M (kw t (share T N 0) 0)).isSome = false) :
    run (liveCheck hash n T N) m = .halted .threw := by
  obtain ⟨m', -, h2⟩ := liveCheck_run hT hG hset hb hn hw
  rw [h2, if_neg]
  rintro ⟨-, h3⟩
  have := List.all_eq_true.mp h3 t (List.mem_range.mpr ht)
  unfold checkElements at this
  simp only [Bool.and_eq_true] at this
  have := List.all_eq_true.mp this.1.1.1 0 (List.mem_range.mpr (by rw [(bounds hT t).1]; omega))
  rw [h0] at this
  cases this

end PMap.Harness
