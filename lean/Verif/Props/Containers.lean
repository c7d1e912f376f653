import Verif.Ucf
import Verif.Props.Seq

/-!
# Properties of the containers: C06, C07, C08 (container), C33, C40
-/

namespace PMap

open Prog

variable {hash : Word → Word} {len cap : Nat}

/-! ## C06 -/

/-- **C06**, the words: different elements are different keys, an element's word has no mark and is neither a reserved key
nor a reserved value, and shifting back gives the element. -/
theorem c06_element_word {a : Word} (ha : Element a) :
    ValidKey (a <<< 3) ∧ ValidVal (a <<< 3) ∧ (a <<< 3) >>> 3 = a ∧
    ∀ b, Element b → a <<< 3 = b <<< 3 → a = b := by
  have key : ∀ b : Word, Element b → (b <<< 3).toNat = 8 * b.toNat := by
    intro b hb
    have hb : b.toNat < 2 ^ 61 - 4 := hb
    rw [BitVec.toNat_shiftLeft, Nat.shiftLeft_eq, Nat.mod_eq_of_lt (by omega)]; omega
  have hn := key a ha
  have ha' : a.toNat < 2 ^ 61 - 4 := ha
  have bit : ∀ i, i < 3 → (a <<< 3).getLsbD i = false := by
    intro i hi
    rw [BitVec.getLsbD_shiftLeft]; simp [hi]
  have hd : isDirty (a <<< 3) = false := by
    rw [isDirty, isMarked_eq_false]
    apply BitVec.eq_of_getLsbD_eq
    intro i hi
    have one : ∀ i : Fin 64, DirtyFlag.getLsbD i = decide (i.val = 0) := by decide
    rw [BitVec.getLsbD_and, one ⟨i, hi⟩]
    by_cases h : i = 0
    · subst h; rw [bit 0 (by omega)]; rfl
    · simp [h]
  have hm : isMig (a <<< 3) = false := by
    rw [isMig, isMarked_eq_false]
    apply BitVec.eq_of_getLsbD_eq
    intro i hi
    have one : ∀ i : Fin 64, MigrationFlag.getLsbD i = decide (i.val = 1) := by decide
    rw [BitVec.getLsbD_and, one ⟨i, hi⟩]
    by_cases h : i = 1
    · subst h; rw [bit 1 (by omega)]; rfl
    · simp [h]
  have hne : ∀ w : Word, 8 * (2 ^ 61 - 4) ≤ w.toNat → a <<< 3 ≠ w := by
    rintro w hw rfl
    omega
  refine ⟨⟨hd, ?_⟩, ⟨hd, hm, ?_⟩, ?_, ?_⟩
  · simp only [isKeyReserved, Bool.or_eq_false_iff, beq_eq_false_iff_ne]
    exact ⟨hne _ (by decide +kernel), hne _ (by decide +kernel)⟩
  · simp only [isValueReserved, Bool.or_eq_false_iff, beq_eq_false_iff_ne]
    exact ⟨⟨⟨⟨hne _ (by decide +kernel), hne _ (by decide +kernel)⟩, hne _ (by decide +kernel)⟩, hne _ (by decide +kernel)⟩, hne _ (by decide +kernel)⟩
  · apply BitVec.eq_of_toNat_eq
    rw [BitVec.toNat_ushiftRight, hn, Nat.shiftRight_eq_div_pow]; omega
  · intro b hb h
    apply BitVec.eq_of_toNat_eq
    have := key b hb
    rw [← h, hn] at this
    omega

/-- C06 beyond its bound: two different elements that are the same key, and the four elements that are reserved. -/
theorem c06_beyond : (∀ a : Word, a <<< 3 = (a + (1#64 <<< 61)) <<< 3) ∧
    isKeyReserved ((0x1FFFFFFFFFFFFFFF#64) <<< 3) = true ∧ isKeyReserved ((0x1FFFFFFFFFFFFFFE#64) <<< 3) = true ∧
    isValueReserved ((0x1FFFFFFFFFFFFFFD#64) <<< 3) = true ∧ isValueReserved ((0x1FFFFFFFFFFFFFFC#64) <<< 3) = true := by
  refine ⟨?_, by decide, by decide, by decide, by decide⟩
  intro a
  have h0 : (1#64 <<< 61) <<< 3 = 0#64 := by decide
  rw [BitVec.shiftLeft_eq_mul_twoPow, BitVec.shiftLeft_eq_mul_twoPow (a + _), BitVec.add_mul,
    ← BitVec.shiftLeft_eq_mul_twoPow (1#64 <<< 61), h0, BitVec.add_zero]

/-- C06 is not vacuous. -/
example : Element 0#64 ∧ Element 12345#64 ∧ Element 0x1FFFFFFFFFFFFFFB#64 := by
  refine ⟨?_, ?_, ?_⟩ <;> (unfold Element; decide +kernel)

/-- The map a set of elements is stored as. -/
def amapOf (S : Word → Bool) : AMap := fun k => if S (k >>> 3) && (k >>> 3) <<< 3 == k then some k else none

theorem amapOf_element {S : Word → Bool} {el : Word} (h : Element el) :
    amapOf S (el <<< 3) = if S el then some (el <<< 3) else none := by
  simp [amapOf, (c06_element_word h).2.2.1]

theorem shift_iff {k el : Word} (h : Element el) : k = el <<< 3 ↔ (k >>> 3 = el ∧ (k >>> 3) <<< 3 = k) := by
  constructor
  · rintro rfl; rw [(c06_element_word h).2.2.1]; exact ⟨rfl, rfl⟩
  · rintro ⟨h1, h2⟩; rw [← h2, h1]

theorem amapOf_insert {S : Word → Bool} {el : Word} (h : Element el) :
    amapOf (fun x => x == el || S x) = (amapOf S).set (el <<< 3) (el <<< 3) := by
  funext k
  unfold AMap.set
  by_cases hk : k = el <<< 3
  · rw [if_pos hk, hk, amapOf_element h]; simp
  · rw [if_neg hk]
    unfold amapOf
    by_cases h2 : (k >>> 3) <<< 3 = k
    · have : k >>> 3 ≠ el := fun h3 => hk ((shift_iff h).mpr ⟨h3, h2⟩)
      simp [this, h2]
    · simp [h2]

theorem amapOf_erase {S : Word → Bool} {el : Word} (h : Element el) :
    amapOf (fun x => x != el && S x) = (amapOf S).erase (el <<< 3) := by
  funext k
  unfold AMap.erase
  by_cases hk : k = el <<< 3
  · rw [if_pos hk, hk, amapOf_element h]; simp
  · rw [if_neg hk]
    unfold amapOf
    by_cases h2 : (k >>> 3) <<< 3 = k
    · have : k >>> 3 ≠ el := fun h3 => hk ((shift_iff h).mpr ⟨h3, h2⟩)
      simp [this, h2]
    · simp [h2]

theorem run_bind_ret {α β : Type} {p : Prog α} {f : α → β} {m m' : Mem} {b : β}
    (h : run (p.bind fun a => .ret (f a)) m = .done b m') : ∃ a, run p m = .done a m' ∧ b = f a := by
  rw [run_bind] at h
  cases hp : run p m with
  | halted e => rw [hp] at h; cases h
  | done a m1 =>
    rw [hp] at h
    change Outcome.done (f a) m1 = _ at h
    cases h
    exact ⟨a, rfl, rfl⟩

theorem run_bind_ret' {α β : Type} {p : Prog α} {f : α → β} {m m' : Mem} {a : α}
    (h : run p m = .done a m') : run (p.bind fun a => .ret (f a)) m = .done (f a) m' := by
  rw [run_bind, h]; rfl

theorem ureach_reach {m : Mem} {S : Word → Bool} (h : UReach hash len cap m S) :
    Reach hash len cap (fun _ => True) m (amapOf S) := by
  induction h with
  | init =>
    have : amapOf (fun _ => false) = AMap.empty := by funext k; simp [amapOf, AMap.empty]
    rw [this]; exact .init
  | insert n _ he hr ih =>
    obtain ⟨a, ha, -⟩ := run_bind_ret hr
    rw [amapOf_insert he]
    exact Reach.step (op := .put _ _) n ih ⟨(c06_element_word he).1, (c06_element_word he).2.1⟩ rfl
      (run_bind_ret' (f := Res.word) ha) trivial
  | erase n _ he hr ih =>
    rw [amapOf_erase he]
    exact Reach.step (op := .remove _) n ih (c06_element_word he).1 rfl (run_bind_ret' (f := Res.bool) hr) trivial
  | contains n _ he hr ih =>
    exact Reach.step (op := .containsKey _) n ih (c06_element_word he).1 rfl (run_bind_ret' (f := Res.bool) hr) trivial
  | get n _ he hr ih =>
    obtain ⟨a, ha, -⟩ := run_bind_ret hr
    exact Reach.step (op := .get _) n ih (c06_element_word he).1 rfl (run_bind_ret' (f := Res.word) ha) trivial
  | count _ hr ih =>
    exact Reach.step (op := .size) 0 ih trivial rfl (run_bind_ret' (f := Res.word) hr) trivial

/-- **C06**, the container: in every reachable state `contains` says whether the element is in the set, and `get`
returns the element itself, or `2^61 - 1` if it is not in the set. -/
theorem c06_container_reads (hs : Sized len cap) {m : Mem} {S : Word → Bool} (h : UReach hash len cap m S) (n : Nat)
    {el : Word} (he : Element el) :
    (∀ b m', run (ucfContains hash n el) m = .done b m' → b = S el) ∧
    (∀ r m', run (ucfGet hash n el) m = .done r m' → r = if S el then el else 0x1FFFFFFFFFFFFFFF#64) := by
  have hR := ureach_reach h
  have hk := (c06_element_word he).1
  constructor
  · intro b m' hb
    have := c01_call_result hs hR n (op := .containsKey (el <<< 3)) hk rfl (run_bind_ret' (f := Res.bool) hb) rfl
    injection this with this
    rw [this, amapOf_element he]
    cases S el <;> rfl
  · intro r m' hr
    obtain ⟨a, ha, rfl⟩ := run_bind_ret hr
    have := c01_get hs hR n hk ha
    rw [this, amapOf_element he]
    cases S el with
    | false => exact (by decide : VINITIAL >>> BITS_MARKED = 0x1FFFFFFFFFFFFFFF#64)
    | true => exact (c06_element_word he).2.2.1

/-! ## C07 -/

/-- **C07 is false of the code**: `insert` on the UCF container returns true exactly when the element was **already**
in the container, the opposite of the reference container. -/
theorem c07_insert_result (hs : Sized len cap) {m : Mem} {S : Word → Bool} (h : UReach hash len cap m S) (n : Nat)
    {el : Word} (he : Element el) {b : Bool} {m' : Mem} (hr : run (ucfInsert hash n el) m = .done b m') : b = S el := by
  obtain ⟨a, ha, rfl⟩ := run_bind_ret hr
  have hk := c06_element_word he
  have := c01_call_result hs (ureach_reach h) n (op := .put (el <<< 3) (el <<< 3)) ⟨hk.1, hk.2.1⟩ rfl
    (run_bind_ret' (f := Res.word) ha) rfl
  injection this with this
  rw [this, amapOf_element he]
  have hne : VINITIAL ≠ el <<< 3 := fun h => (validVal_ne hk.2.1).1 h.symm
  cases S el with
  | false => simpa [resWord, BITS_MARKED] using hne
  | true => simp [resWord, BITS_MARKED]

/-- **C07, witness**: inserting 5 into an empty UCF container reports false, inserting it again reports true; the
reference container reports true, then false. -/
theorem c07_insert_witness :
    (∃ m1 m2, run (ucfInsert (fun x => x >>> 3) 20 5#64) (freshMem 8 64) = .done false m1 ∧
      run (ucfInsert (fun x => x >>> 3) 20 5#64) m1 = .done true m2) ∧
    (stlInsert 5#64 []).1 = true ∧ (stlInsert 5#64 (stlInsert 5#64 []).2).1 = false := by
  refine ⟨?_, by decide, by decide⟩
  have h1 : (run (ucfInsert (fun x => x >>> 3) 20 5#64) (freshMem 8 64)).val? = some false := by decide +kernel
  have h2 : (run ((ucfInsert (fun x => x >>> 3) 20 5#64).bind fun _ => ucfInsert (fun x => x >>> 3) 20 5#64)
      (freshMem 8 64)).val? = some true := by decide +kernel
  obtain ⟨m1, h1⟩ := Outcome.eq_done h1
  obtain ⟨m2, h2⟩ := Outcome.eq_done h2
  rw [run_bind, h1] at h2
  exact ⟨m1, m2, h1, h2⟩

/-! ## C08 for the container -/

/-- **C08**, container: `erase` reports true for every element but a present 0, whether or not it was in the set. -/
theorem c08_container_erase (hs : Sized len cap) {m : Mem} {S : Word → Bool} (h : UReach hash len cap m S) (n : Nat)
    {el : Word} (he : Element el) {b : Bool} {m' : Mem} (hr : run (ucfErase hash n el) m = .done b m') :
    b = !(S el && el == 0#64) := by
  have := c08_remove_result hs (ureach_reach h) n (c06_element_word he).1 hr
  rw [amapOf_element he] at this
  have h0 : (el <<< 3 = 0#64) ↔ el = 0#64 := by
    constructor
    · intro h
      have h1 := (c06_element_word he).2.2.1
      rw [h] at h1
      rw [← h1]; rfl
    · rintro rfl; rfl
  rw [Bool.eq_iff_iff, this]
  cases S el with
  | false => simp
  | true => simp [h0]

/-! ## C40 -/

theorem ureachAny_reachAny {m : Mem} (h : UReachAny hash len cap m) : ReachAny hash len cap m := by
  induction h with
  | init => exact .init
  | step n _ hv hr ih =>
    rename_i op r _
    cases op with
    | insert el =>
      obtain ⟨b, hb, -⟩ := run_bind_ret hr
      obtain ⟨a, ha, -⟩ := run_bind_ret hb
      exact ReachAny.step (op := .put _ _) n ih ⟨(c06_element_word hv).1, (c06_element_word hv).2.1⟩
        (run_bind_ret' (f := Res.word) ha)
    | erase el => exact ReachAny.step (op := .remove _) n ih (c06_element_word hv).1 hr
    | contains el => exact ReachAny.step (op := .containsKey _) n ih (c06_element_word hv).1 hr
    | get el =>
      obtain ⟨b, hb, -⟩ := run_bind_ret hr
      obtain ⟨a, ha, -⟩ := run_bind_ret hb
      exact ReachAny.step (op := .get _) n ih (c06_element_word hv).1 (run_bind_ret' (f := Res.word) ha)
    | count => exact ReachAny.step (op := .size) n ih trivial hr
    | increment el =>
      exact ReachAny.step (op := .update _ _) n ih ⟨(c06_element_word hv).1, .inr (by decide)⟩ hr

/-- **C40 is false of the code**: `increment` on the UCF container returns the previous word, still shifted, so in no
reachable state does it return the new counter (the value a `get` shows, plus one) as the reference container does. -/
theorem c40_increment_never_new (hs : Sized len cap) {m : Mem} (h : UReachAny hash len cap m) (n1 n2 : Nat) {el : Word}
    (he : Element el) {g r : Word} {m1 m2 : Mem} (hg : run (ucfGet hash n1 el) m = .done g m1)
    (hr : run (ucfIncrement hash n2 el) m = .done r m2) : r >>> 3 = g ∧ r ≠ g + 1#64 := by
  obtain ⟨M, hM⟩ := reachAny_good hs (ureachAny_reachAny h)
  have hk := (c06_element_word he).1
  obtain ⟨a, ha, rfl⟩ := run_bind_ret hg
  have e1 := ((mapGet_spec n1 hM (userKey_of_valid hk) m rfl).2 a m1 ha).1
  obtain ⟨e2, -, -⟩ := (update_spec n2 hk storable_matchAny hM m rfl).2 r m2 hr
  have hra : r = a := by rw [e2, e1]; rfl
  subst hra
  refine ⟨rfl, ?_⟩
  intro hc
  have hc := congrArg BitVec.toNat hc
  rw [BitVec.toNat_add, BitVec.toNat_ushiftRight, Nat.shiftRight_eq_div_pow] at hc
  have h1 : (1#64).toNat = 1 := rfl
  have h3 : (2 : Nat) ^ BITS_MARKED = 8 := rfl
  rw [h1, h3] at hc
  have := r.isLt
  have hr1 : r.toNat = 1 := by omega
  have hr1 : r = 1#64 := BitVec.eq_of_toNat_eq hr1
  have hcl : clean r = r := by
    rw [e2]
    cases hMk : M (el <<< 3) with
    | none => decide
    | some v => exact (getD_storable hM.inv hMk).clean
  rw [hr1] at hcl
  revert hcl
  decide

/-- **C40, witness**: the first increment of a counter returns the absent marker and the second returns 8, where the
reference container returns 1 and 2. -/
theorem c40_increment_witness :
    (∃ m1 m2, run (ucfIncrement (fun x => x >>> 3) 20 5#64) (freshMem 8 64) = .done VINITIAL m1 ∧
      run (ucfIncrement (fun x => x >>> 3) 20 5#64) m1 = .done 8#64 m2) ∧
    (stlIncrement 5#64 []).1 = 1#64 ∧ (stlIncrement 5#64 (stlIncrement 5#64 []).2).1 = 2#64 := by
  refine ⟨?_, by decide, by decide⟩
  have h1 : (run (ucfIncrement (fun x => x >>> 3) 20 5#64) (freshMem 8 64)).val? = some VINITIAL := by decide +kernel
  have h2 : (run ((ucfIncrement (fun x => x >>> 3) 20 5#64).bind fun _ => ucfIncrement (fun x => x >>> 3) 20 5#64)
      (freshMem 8 64)).val? = some 8#64 := by decide +kernel
  obtain ⟨m1, h1⟩ := Outcome.eq_done h1
  obtain ⟨m2, h2⟩ := Outcome.eq_done h2
  rw [run_bind, h1] at h2
  exact ⟨m1, m2, h1, h2⟩

/-- The container theorems are not vacuous: after inserting 5 and 6 and erasing 5, the set is {6}. -/
example : ∃ m S, UReach (fun x => x >>> 3) 8 64 m S ∧ S 5#64 = false ∧ S 6#64 = true := by
  have h1 : (run (ucfInsert (fun x => x >>> 3) 20 5#64) (freshMem 8 64)).val? = some false := by decide +kernel
  have h2 : (run ((ucfInsert (fun x => x >>> 3) 20 5#64).bind fun _ => ucfInsert (fun x => x >>> 3) 20 6#64)
      (freshMem 8 64)).val? = some false := by decide +kernel
  have h3 : (run (((ucfInsert (fun x => x >>> 3) 20 5#64).bind fun _ => ucfInsert (fun x => x >>> 3) 20 6#64).bind
      fun _ => ucfErase (fun x => x >>> 3) 20 5#64) (freshMem 8 64)).val? = some true := by decide +kernel
  obtain ⟨m1, h1⟩ := Outcome.eq_done h1
  obtain ⟨m2, h2⟩ := Outcome.eq_done h2
  obtain ⟨m3, h3⟩ := Outcome.eq_done h3
  rw [run_bind, h2] at h3
  rw [run_bind, h1] at h2
  have e5 : Element 5#64 := by unfold Element; decide +kernel
  have e6 : Element 6#64 := by unfold Element; decide +kernel
  exact ⟨m3, _, ((UReach.init.insert 20 e5 h1).insert 20 e6 h2).erase 20 e5 h3, by decide, by decide⟩

/-! ## C33 -/

namespace StdMap

/-- Keys strictly increase along the list. -/
def Sorted (c : StdMap) : Prop := c.Pairwise (fun a b => a.1 < b.1)

theorem find_none_of_lt {k : Word} {c : StdMap} (h : ∀ x ∈ c, k < x.1) : find k c = none := by
  induction c with
  | nil => rfl
  | cons x l ih =>
    have hx := h x (List.mem_cons_self ..)
    have : k ≠ x.1 := fun e => by rw [e] at hx; exact BitVec.lt_irrefl _ hx
    show (if k = x.1 then some x.2 else find k l) = none
    rw [if_neg this]
    exact ih (fun y hy => h y (List.mem_cons_of_mem _ hy))

theorem mem_insert {k v : Word} {c : StdMap} {x : Word × Word} (h : x ∈ (insert k v c).1) : x = (k, v) ∨ x ∈ c := by
  induction c with
  | nil => simpa [insert] using h
  | cons y l ih =>
    obtain ⟨k', v'⟩ := y
    rw [insert] at h
    split at h
    · exact .inr h
    · split at h
      · rcases List.mem_cons.mp h with h | h
        · exact .inl h
        · exact .inr h
      · rcases List.mem_cons.mp h with h | h
        · exact .inr (h ▸ List.mem_cons_self ..)
        · rcases ih h with h | h
          · exact .inl h
          · exact .inr (List.mem_cons_of_mem _ h)

theorem mem_erase {k : Word} {c : StdMap} {x : Word × Word} (h : x ∈ (erase k c).1) : x ∈ c := by
  induction c with
  | nil => exact h
  | cons y l ih =>
    obtain ⟨k', v'⟩ := y
    rw [erase] at h
    split at h
    · exact List.mem_cons_of_mem _ h
    · rcases List.mem_cons.mp h with h | h
      · exact h ▸ List.mem_cons_self ..
      · exact List.mem_cons_of_mem _ (ih h)

theorem lt_of_not {k k' : Word} (h1 : ¬ k = k') (h2 : ¬ k < k') : k' < k := by
  rw [BitVec.lt_def] at *
  have : k.toNat ≠ k'.toNat := fun h => h1 (BitVec.eq_of_toNat_eq h)
  omega

theorem sorted_insert {k v : Word} {c : StdMap} (h : Sorted c) : Sorted (insert k v c).1 := by
  induction c with
  | nil => simp [insert, Sorted]
  | cons y l ih =>
    obtain ⟨k', v'⟩ := y
    rw [insert]
    have hh := List.pairwise_cons.mp h
    split
    · exact h
    · next h1 =>
      split
      · next h2 =>
        refine List.pairwise_cons.mpr ⟨?_, h⟩
        intro x hx
        rcases List.mem_cons.mp hx with rfl | hx
        · exact h2
        · exact BitVec.lt_trans h2 (hh.1 x hx)
      · next h2 =>
        refine List.pairwise_cons.mpr ⟨?_, ih hh.2⟩
        intro x hx
        rcases mem_insert hx with rfl | hx
        · exact lt_of_not h1 h2
        · exact hh.1 x hx

theorem sorted_erase {k : Word} {c : StdMap} (h : Sorted c) : Sorted (erase k c).1 := by
  induction c with
  | nil => exact h
  | cons y l ih =>
    obtain ⟨k', v'⟩ := y
    have hh := List.pairwise_cons.mp h
    rw [erase]
    split
    · exact hh.2
    · exact List.pairwise_cons.mpr ⟨fun x hx => hh.1 x (mem_erase hx), ih hh.2⟩

theorem find_cons (k k' v' : Word) (l : StdMap) : find k ((k', v') :: l) = if k = k' then some v' else find k l := rfl

theorem find_insert {k v : Word} (j : Word) {c : StdMap} (h : Sorted c) :
    find j (insert k v c).1 = if j = k ∧ find k c = none then some v else find j c := by
  induction c with
  | nil => simp [insert, find]
  | cons y l ih =>
    obtain ⟨k', v'⟩ := y
    have hh := List.pairwise_cons.mp h
    rw [insert]
    by_cases h1 : k = k'
    · subst h1; simp [find_cons]
    · rw [if_neg h1]
      by_cases h2 : k < k'
      · rw [if_pos h2]
        have : find k ((k', v') :: l) = none := by
          apply find_none_of_lt
          intro x hx
          rcases List.mem_cons.mp hx with rfl | hx
          · exact h2
          · exact BitVec.lt_trans h2 (hh.1 x hx)
        rw [this]
        show find j ((k, v) :: (k', v') :: l) = _
        rw [find_cons]; simp
      · rw [if_neg h2]
        show find j ((k', v') :: (insert k v l).1) = _
        rw [find_cons, ih hh.2, find_cons, find_cons, if_neg h1]
        by_cases h3 : j = k'
        · have : j ≠ k := fun h => h1 (h ▸ h3)
          simp [h3, Ne.symm h1]
        · simp [h3]

theorem insert_snd (k v : Word) {c : StdMap} (h : Sorted c) : (insert k v c).2 = (find k c).isNone := by
  induction c with
  | nil => rfl
  | cons y l ih =>
    obtain ⟨k', v'⟩ := y
    have hh := List.pairwise_cons.mp h
    rw [insert, find_cons]
    by_cases h1 : k = k'
    · simp [h1]
    · rw [if_neg h1, if_neg h1]
      by_cases h2 : k < k'
      · rw [if_pos h2, find_none_of_lt (fun x hx => BitVec.lt_trans h2 (hh.1 x hx))]; rfl
      · rw [if_neg h2]; exact ih hh.2

theorem find_erase {k : Word} (j : Word) {c : StdMap} (h : Sorted c) :
    find j (erase k c).1 = if j = k then none else find j c := by
  induction c with
  | nil => simp [erase, find]
  | cons y l ih =>
    obtain ⟨k', v'⟩ := y
    have hh := List.pairwise_cons.mp h
    rw [erase]
    by_cases h1 : k = k'
    · subst h1
      rw [if_pos rfl, find_cons]
      by_cases h3 : j = k
      · subst h3; rw [if_pos rfl]; exact find_none_of_lt hh.1
      · rw [if_neg h3, if_neg h3]
    · rw [if_neg h1]
      show find j ((k', v') :: (erase k l).1) = _
      rw [find_cons, ih hh.2, find_cons]
      by_cases h3 : j = k
      · subst h3; simp [h1]
      · simp [h3]

theorem erase_snd (k : Word) {c : StdMap} : ((erase k c).2 == 1) = (find k c).isSome := by
  induction c with
  | nil => rfl
  | cons y l ih =>
    obtain ⟨k', v'⟩ := y
    rw [erase, find_cons]
    by_cases h1 : k = k'
    · simp [h1]
    · rw [if_neg h1, if_neg h1]; exact ih

theorem find_assign (k v j : Word) (c : StdMap) : find j (assign k v c) = if j = k then some v else find j c := by
  induction c with
  | nil => simp [assign, find]
  | cons y l ih =>
    obtain ⟨k', v'⟩ := y
    rw [assign]
    by_cases h1 : k = k'
    · subst h1
      rw [if_pos rfl, find_cons, find_cons]
      by_cases h3 : j = k <;> simp [h3]
    · rw [if_neg h1]
      by_cases h2 : k < k'
      · rw [if_pos h2, find_cons]
      · rw [if_neg h2, find_cons, ih, find_cons]
        by_cases h3 : j = k
        · subst h3; simp [h1]
        · simp [h3]

theorem mem_assign {k v : Word} {c : StdMap} {x : Word × Word} (h : x ∈ assign k v c) : x.1 = k ∨ x ∈ c := by
  induction c with
  | nil => left; simp [assign] at h; rw [h]
  | cons y l ih =>
    obtain ⟨k', v'⟩ := y
    rw [assign] at h
    split at h
    · next e =>
      rcases List.mem_cons.mp h with h | h
      · left; rw [h, e]
      · exact .inr (List.mem_cons_of_mem _ h)
    · split at h
      · rcases List.mem_cons.mp h with h | h
        · left; rw [h]
        · exact .inr h
      · rcases List.mem_cons.mp h with h | h
        · exact .inr (h ▸ List.mem_cons_self ..)
        · exact (ih h).imp_right (List.mem_cons_of_mem _)

theorem sorted_assign {k v : Word} {c : StdMap} (h : Sorted c) : Sorted (assign k v c) := by
  induction c with
  | nil => simp [assign, Sorted]
  | cons y l ih =>
    obtain ⟨k', v'⟩ := y
    have hh := List.pairwise_cons.mp h
    rw [assign]
    split
    · exact List.pairwise_cons.mpr ⟨hh.1, hh.2⟩
    · next h1 =>
      split
      · next h2 =>
        refine List.pairwise_cons.mpr ⟨?_, h⟩
        intro x hx
        rcases List.mem_cons.mp hx with rfl | hx
        · exact h2
        · exact BitVec.lt_trans h2 (hh.1 x hx)
      · next h2 =>
        refine List.pairwise_cons.mpr ⟨?_, ih hh.2⟩
        intro x hx
        rcases mem_assign hx with hx | hx
        · show k' < x.1
          rw [hx]; exact lt_of_not h1 h2
        · exact hh.1 x hx

theorem index_find (k j : Word) {c : StdMap} (h : Sorted c) :
    (index k c).1 = (find k c).getD 0#64 ∧ Sorted (index k c).2 ∧
    find j (index k c).2 = if j = k then some ((find k c).getD 0#64) else find j c := by
  unfold index
  cases hf : find k c with
  | some v =>
    refine ⟨rfl, h, ?_⟩
    by_cases hj : j = k
    · rw [if_pos hj, hj, hf]; rfl
    · rw [if_neg hj]
  | none =>
    refine ⟨rfl, sorted_insert h, ?_⟩
    rw [find_insert j h, hf]
    simp

theorem card_find {c : StdMap} (h : Sorted c) : AMap.card (fun k => find k c) = c.length := by
  induction c with
  | nil => simp [AMap.card, find]
  | cons y l ih =>
    obtain ⟨k', v'⟩ := y
    have hh := List.pairwise_cons.mp h
    have hset : {k | find k ((k', v') :: l) ≠ none} = Insert.insert k' {k | find k l ≠ none} := by
      ext k
      rw [Set.mem_insert_iff, Set.mem_ofPred_eq, Set.mem_ofPred_eq, find_cons]
      by_cases hk : k = k' <;> simp [hk]
    have hni : k' ∉ {k | find k l ≠ none} := by
      rw [Set.mem_ofPred_eq, find_none_of_lt hh.1]; simp
    have := ih hh.2
    unfold AMap.card at this ⊢
    rw [hset, Set.ncard_insert_of_notMem hni (Set.toFinite _), this]
    rfl

end StdMap

theorem stl_inv {c : StdMap} {M : AMap} (h : StlReach c M) : StdMap.Sorted c ∧ ∀ k, c.find k = M k := by
  induction h with
  | init => exact ⟨List.Pairwise.nil, fun _ => rfl⟩
  | insert el _ ih =>
    refine ⟨StdMap.sorted_insert ih.1, fun k => ?_⟩
    show StdMap.find k (StdMap.insert el el _).1 = _
    rw [StdMap.find_insert k ih.1, ih.2, ih.2]
    split
    · next h => rw [if_pos h.2, h.1]; simp [AMap.set]
    · next h =>
      split
      · next h2 =>
        have : k ≠ el := fun e => h ⟨e, h2⟩
        simp [AMap.set, this]
      · rfl
  | erase el _ ih =>
    refine ⟨StdMap.sorted_erase ih.1, fun k => ?_⟩
    show StdMap.find k (StdMap.erase el _).1 = _
    rw [StdMap.find_erase k ih.1, ih.2]; rfl
  | increment el _ ih =>
    rename_i c M _
    have h1 := fun j => StdMap.index_find el j ih.1
    have h2 := fun j => StdMap.index_find el j (h1 el).2.1
    refine ⟨StdMap.sorted_assign (h2 el).2.1, fun k => ?_⟩
    show StdMap.find k (StdMap.assign el ((StdMap.index el c).1 + 1#64) (StdMap.index el (StdMap.index el c).2).2) = _
    rw [StdMap.find_assign, (h1 el).1, ih.2]
    unfold AMap.set
    by_cases hk : k = el
    · rw [if_pos hk, if_pos hk]
    · rw [if_neg hk, if_neg hk, (h2 k).2.2, if_neg hk, (h1 k).2.2, if_neg hk, ih.2]

/-- **C33.** In every reachable state the reference container answers as an ordinary map from elements to counters:
`insert` is true exactly for new elements, `erase` exactly for present ones, `contains`, `get` (0 for absent elements)
and `count` report the map, and `increment` returns the new counter. -/
theorem c33_reference_container {c : StdMap} {M : AMap} (h : StlReach c M) (el : Word) :
    ((stlInsert el c).1 = true ↔ M el = none) ∧ ((stlErase el c).1 = true ↔ M el ≠ none) ∧
    (stlContains el c = true ↔ M el ≠ none) ∧ stlGet el c = (M el).getD 0#64 ∧ stlCount c = M.card ∧
    (stlIncrement el c).1 = (M el).getD 0#64 + 1#64 := by
  obtain ⟨hs, hf⟩ := stl_inv h
  refine ⟨?_, ?_, ?_, ?_, ?_, ?_⟩
  · show (StdMap.insert el el c).2 = true ↔ _
    rw [StdMap.insert_snd el el hs, hf, Option.isNone_iff_eq_none]
  · show ((StdMap.erase el c).2 == 1) = true ↔ _
    rw [StdMap.erase_snd, hf, Option.isSome_iff_ne_none]
  · unfold stlContains StdMap.count
    rw [hf]
    cases M el <;> simp
  · unfold stlGet; rw [hf]
  · rw [stlCount, ← StdMap.card_find hs]
    congr 1
    funext k; exact hf k
  · show (StdMap.index el c).1 + 1#64 = _
    rw [(StdMap.index_find el el hs).1, hf]

/-- C33 is not vacuous: 5 and 7 inserted, 7 erased, 5 incremented. -/
example : ∃ c M, StlReach c M ∧ M 5#64 = some 6#64 ∧ M 7#64 = none ∧ c = [(5#64, 6#64)] :=
  ⟨_, _, (((StlReach.init.insert 7#64).insert 5#64).erase 7#64).increment 5#64, by decide, by decide, by decide⟩

end PMap
