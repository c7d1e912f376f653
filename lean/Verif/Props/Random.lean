import Verif.Random
import Verif.Props.Conc
import Verif.Props.Containers
import Verif.Props.Harness
import Mathlib.Algebra.Order.BigOperators.Group.Finset

/-!
# C57: the random test passes only elements the map can hold
-/

namespace PMap.Random

open Harness

theorem bind_assoc_prog {α β γ : Type} (p : Prog α) (f : α → Prog β) (g : β → Prog γ) :
    (p >>= f) >>= g = p >>= fun a => f a >>= g := by
  induction p with
  | ret a => rfl
  | act a k ih => exact congrArg (Prog.act a) (funext ih)
  | _ => rfl

/-- A container call is the map's call, and then arithmetic on its result. -/
theorem call_prog (hash : Word → Word) (n : Nat) (op : UOp) :
    op.prog hash n = do return op.answer (← op.call.prog hash n) := by
  cases op <;> simp only [UOp.prog, UOp.call, Op.prog, ucfInsert, ucfErase, ucfContains, ucfGet, ucfCount, ucfIncrement,
    bind_assoc_prog] <;> rfl

theorem element_of_draw {r : Nat} (h : r < 2 ^ 31) : Element (BitVec.ofNat 64 r) := by
  unfold Element
  rw [BitVec.toNat_ofNat, Nat.mod_eq_of_lt (by omega)]
  omega

theorem not_reserved_small {w : Word} (h : w.toNat < 2 ^ 64 - 32) : (isValueReserved w || isKeyReserved w) = false := by
  cases e : isValueReserved w || isKeyReserved w with
  | false => rfl
  | true =>
    rcases Bool.or_eq_true_iff.mp e with e | e
    · have := (c05_isValueReserved w).mp e
      simp only [List.mem_cons, List.not_mem_nil, or_false] at this
      omega
    · have := (c05_isKeyReserved w).mp e
      omega

/-- What `rand()` returns is never drawn again. -/
theorem redraw_draw {shift r : Nat} (hs : shift ≤ 3) (h : r < 2 ^ 31) (rs : List Nat) :
    redraw shift (BitVec.ofNat 64 r) rs = some (BitVec.ofNat 64 r, rs) := by
  have hn : (BitVec.ofNat 64 r <<< shift).toNat < 2 ^ 64 - 32 := by
    rw [BitVec.toNat_shiftLeft, Nat.shiftLeft_eq, BitVec.toNat_ofNat, Nat.mod_eq_of_lt (show r < 2 ^ 64 by omega)]
    have : 2 ^ shift ≤ 2 ^ 3 := Nat.pow_le_pow_right (by omega) hs
    have : r * 2 ^ shift ≤ r * 2 ^ 3 := Nat.mul_le_mul_left _ this
    rw [Nat.mod_eq_of_lt (by omega)]
    omega
  cases rs <;> simp only [redraw, not_reserved_small hn] <;> rfl

/-- **C57**, the filling: whatever `rand()` returns, `2 * n` draws are enough for `n` rounds, at most `n` elements are inserted, and
the map can hold each. -/
theorem c57_prefix (n : Nat) {rs : List Nat} (hr : ∀ r ∈ rs, r < 2 ^ 31) (hl : 2 * n ≤ rs.length) :
    ∃ ops left, prefixOps n rs = some (ops, left) ∧ rs.length ≤ left.length + 2 * n ∧ ops.length ≤ n ∧
      ∀ op ∈ ops, op.Valid ∧ ∃ r ∈ rs, op = .insert (BitVec.ofNat 64 r) := by
  induction n generalizing rs with
  | zero => exact ⟨[], rs, by cases rs <;> rfl, by omega, by simp, by simp⟩
  | succ n ih =>
    match rs, hr, hl with
    | [], _, hl => simp at hl
    | [_], _, hl => simp at hl; omega
    | r :: v :: rs, hr, hl =>
      simp only [List.length_cons] at hl
      by_cases h2 : r % 2 = 0
      · obtain ⟨ops, left, e, h3, h4, h5⟩ := ih (rs := v :: rs) (fun x hx => hr x (.tail _ hx)) (by simp; omega)
        refine ⟨ops, left, by rw [prefixOps, if_pos h2, e], ?_, by omega, fun op ho => ⟨(h5 op ho).1, ?_⟩⟩
        · simp only [List.length_cons] at h3 ⊢; omega
        · obtain ⟨x, hx, rfl⟩ := (h5 op ho).2
          exact ⟨x, .tail _ hx, rfl⟩
      · obtain ⟨ops, left, e, h3, h4, h5⟩ := ih (rs := rs) (fun x hx => hr x (.tail _ (.tail _ hx))) (by omega)
        have hv : v < 2 ^ 31 := hr v (by simp)
        refine ⟨.insert (BitVec.ofNat 64 v) :: ops, left, ?_, ?_, by simp; omega, ?_⟩
        · simp only [prefixOps, if_neg h2, redraw_draw (Nat.le_refl 3) hv, e, Option.map_some]
        · simp only [List.length_cons]; omega
        · intro op ho
          rcases List.mem_cons.mp ho with rfl | ho
          · exact ⟨element_of_draw hv, v, by simp, rfl⟩
          · obtain ⟨x, hx, rfl⟩ := (h5 op ho).2
            exact ⟨(h5 _ ho).1, x, .tail _ (.tail _ hx), rfl⟩

theorem pick_valid {r : Nat} {val : Word} (h : Element val) {op : UOp} (ho : op ∈ (pick r val).toList) : op.Valid := by
  unfold pick at ho
  split at ho <;> simp only [Option.toList, List.mem_singleton, List.not_mem_nil] at ho <;> subst ho <;>
    first | exact h | exact trivial

/-- **C57**, the rounds of a thread: whatever `rand()` returns, exactly `2 * n` draws are used for `n` rounds, at most `n` calls are
made, and each is one the map can carry out. -/
theorem c57_rounds (n : Nat) {rs : List Nat} (hr : ∀ r ∈ rs, r < 2 ^ 31) (hl : 2 * n ≤ rs.length) :
    ∃ ops, testOps n rs = some (ops, rs.drop (2 * n)) ∧ ops.length ≤ n ∧ ∀ op ∈ ops, op.Valid := by
  induction n generalizing rs with
  | zero => exact ⟨[], by cases rs <;> rfl, by simp, by simp⟩
  | succ n ih =>
    match rs, hr, hl with
    | [], _, hl => simp at hl
    | [_], _, hl => simp at hl; omega
    | v :: r :: rs, hr, hl =>
      simp only [List.length_cons] at hl
      obtain ⟨ops, e, h4, h5⟩ := ih (rs := rs) (fun x hx => hr x (.tail _ (.tail _ hx))) (by omega)
      have hv : v < 2 ^ 31 := hr v (by simp)
      refine ⟨(pick r (BitVec.ofNat 64 v)).toList ++ ops, ?_, ?_, ?_⟩
      · simp only [testOps, redraw_draw (Nat.zero_le 3) hv, e, Option.map_some, show 2 * (n + 1) = 2 * n + 1 + 1 by omega,
          List.drop_succ_cons]
      · have : (pick r (BitVec.ofNat 64 v)).toList.length ≤ 1 := by cases pick r (BitVec.ofNat 64 v) <;> simp
        simp only [List.length_append]; omega
      · intro op ho
        rcases List.mem_append.mp ho with ho | ho
        · exact pick_valid (element_of_draw hv) ho
        · exact h5 op ho

/-- **C57**, all calls are drawn: for each call on an element below 2^31 there are two draws that lead to it. -/
theorem c57_every_call (op : UOp) (v : Nat) (hv : v < 2 ^ 31)
    (h : op = .count ∨ op ∈ [UOp.insert (BitVec.ofNat 64 v), .erase (BitVec.ofNat 64 v), .contains (BitVec.ofNat 64 v),
      .get (BitVec.ofNat 64 v), .increment (BitVec.ofNat 64 v)]) :
    ∃ r, r < 8 ∧ ∀ rest, testOps 1 (v :: r :: rest) = some ([op], rest) := by
  have key : ∀ r, pick r (BitVec.ofNat 64 v) = some op → ∀ rest, testOps 1 (v :: r :: rest) = some ([op], rest) := by
    intro r hr rest
    simp only [testOps, redraw_draw (Nat.zero_le 3) hv, hr]
    cases rest <;> rfl
  simp only [List.mem_cons, List.not_mem_nil, or_false] at h
  rcases h with rfl | rfl | rfl | rfl | rfl | rfl
  exacts [⟨4, by omega, key 4 rfl⟩, ⟨0, by omega, key 0 rfl⟩, ⟨1, by omega, key 1 rfl⟩, ⟨2, by omega, key 2 rfl⟩,
    ⟨3, by omega, key 3 rfl⟩, ⟨5, by omega, key 5 rfl⟩]

/-- The words of an element are valid arguments, so a valid container call is a valid call of the map. -/
theorem call_valid {op : UOp} (h : op.Valid) : op.call.Valid := by
  cases op with
  | count => trivial
  | insert el => exact ⟨(c06_element_word h).1, (c06_element_word h).2.1⟩
  | erase el => exact (c06_element_word h).1
  | contains el => exact (c06_element_word h).1
  | get el => exact (c06_element_word h).1
  | increment el => exact ⟨(c06_element_word h).1, .inr (by decide)⟩

/-- **C57**, the whole test: for every number of threads and of operations, whatever numbers `rand()` returns to whom, and for every
interleaving of the threads (thread `T` is the main thread, which fills the map), there is no undefined behaviour; the
threads together make at most `pnoiter` calls. -/
theorem c57_no_ub {hash : Word → Word} {fuel len cap : Nat} (hs : Sized len cap) {T pnoiter : Nat} (hT : 0 < T)
    (draws : Nat → List Nat) (hr : ∀ t, ∀ r ∈ draws t, r < 2 ^ 31) (hl : ∀ t, 2 * pnoiter ≤ (draws t).length) :
    ∃ ops : Nat → List UOp, (∀ t, t < T → ∃ left, threadOps T pnoiter t (draws t) = some (ops t, left)) ∧
      (∃ left, prefixOps pnoiter (draws T) = some (ops T, left)) ∧
      (∑ t ∈ Finset.range T, (ops t).length) ≤ pnoiter ∧
      ∀ xs, ((Sys.init len cap fun t => if t ≤ T then (ops t).map UOp.call else []).exec hash fuel xs).ub = false := by
  have hne : T ≠ 0 := by omega
  have hshare : ∀ t, ∃ n, opsPerThread T pnoiter t = some n ∧ n ≤ pnoiter := by
    intro t
    simp only [opsPerThread, hne, if_false]
    refine ⟨_, rfl, ?_⟩
    have := Nat.div_add_mod pnoiter T
    have : pnoiter / T ≤ T * (pnoiter / T) := Nat.le_mul_of_pos_left _ hT
    split_ifs <;> omega
  have hthread : ∀ t, ∃ ops left, threadOps T pnoiter t (draws t) = some (ops, left) ∧
      ops.length ≤ (opsPerThread T pnoiter t).getD 0 ∧ ∀ op ∈ ops, op.Valid := by
    intro t
    obtain ⟨n, e, hn⟩ := hshare t
    obtain ⟨ops, e', h1, h2⟩ := c57_rounds n (hr t) (by have := hl t; omega)
    exact ⟨ops, (draws t).drop (2 * n), by simp only [threadOps, e, e'], by rw [e]; exact h1, h2⟩
  choose ops left h1 h2 h3 using hthread
  obtain ⟨pre, pl, p1, -, -, p2⟩ := c57_prefix pnoiter (hr T) (hl T)
  refine ⟨fun t => if t = T then pre else ops t, ?_, ⟨pl, by simpa using p1⟩, ?_, ?_⟩
  · intro t ht
    exact ⟨left t, by rw [h1 t]; dsimp only; rw [if_neg (by omega)]⟩
  · calc (∑ t ∈ Finset.range T, (if t = T then pre else ops t).length)
        ≤ ∑ t ∈ Finset.range T, (opsPerThread T pnoiter t).getD 0 := by
          refine Finset.sum_le_sum fun t ht => ?_
          rw [if_neg (by have := Finset.mem_range.mp ht; omega)]
          exact h2 t
      _ = pnoiter := c32_shares_add_up T pnoiter hT
  · intro xs
    refine c16_no_ub hs _ ?_ xs
    intro t op ho
    split at ho
    · obtain ⟨u, hu, rfl⟩ := List.mem_map.mp ho
      refine call_valid ?_
      dsimp only at hu
      split at hu
      · exact (p2 u hu).1
      · exact h3 t u hu
    · cases ho

/-- Two threads and five operations, with draws that make every kind of call. -/
example : (threadOps 2 5 0 [7, 0, 2147483647, 5, 9, 2, 1, 3, 4, 4]).map Prod.fst =
      some [.insert 7#64, .increment 2147483647#64, .contains 9#64] ∧
    (threadOps 2 5 1 [7, 1, 3, 6, 9, 2, 1, 3, 4, 4]).map Prod.fst = some [.erase 7#64] ∧
    (prefixOps 5 [1, 7, 0, 3, 2147483647, 2, 4, 8, 8, 8]).map Prod.fst = some [.insert 7#64, .insert 2147483647#64] := by
  decide +kernel

/-- The second of the two filters tests the element and not its word: a generator with wider results would get elements past it that
the map cannot hold.  The first does not stop all of those either. -/
theorem c57_filters_differ :
    redraw 0 (BitVec.ofNat 64 (2 ^ 61 - 1)) [] = some (BitVec.ofNat 64 (2 ^ 61 - 1), []) ∧
    redraw 3 (BitVec.ofNat 64 (2 ^ 61 - 1)) [] = none ∧ ¬ (UOp.insert (BitVec.ofNat 64 (2 ^ 61 - 1))).call.Valid ∧
    redraw 3 (BitVec.ofNat 64 (2 ^ 62)) [] = some (BitVec.ofNat 64 (2 ^ 62), []) ∧
    (UOp.insert (BitVec.ofNat 64 (2 ^ 62))).call = (UOp.insert 0#64).call := by
  refine ⟨by decide +kernel, by decide +kernel, ?_, by decide +kernel, by decide +kernel⟩
  rintro ⟨h, -⟩
  revert h
  unfold ValidKey
  decide +kernel

end PMap.Random
