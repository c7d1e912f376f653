import Verif.SelfTest
import Verif.Own.Phases
import Verif.Seq.Total
import Verif.Props.Containers
import Verif.Props.Harness

/-!
# The alternating self-test on the concurrent map (proof machinery)
-/

namespace PMap.Harness

open Prog

/-! ## The check as a program -/

theorem TW_and {α : Type} {p : Prog α} {Q R : α → A → Prop} {s : A} (h : TW p Q s) (h' : W p R s) :
    TW p (fun a s' => Q a s' ∧ R a s') s := by
  intro m hm
  obtain ⟨a, m', hr, hq⟩ := h m hm
  exact ⟨a, m', hr, hq, (h' m hm).2 a m' hr⟩

theorem TW_check {b : Bool} (hb : b = true) {Q : Unit → A → Prop} {s : A} (h : Q () s) : TW (do1 (.check b)) Q s :=
  TW_of (noHalt_do1 _) (W_check hb h)

variable {hash : Word → Word} {s : A} {M : AMap} {n : Nat}

theorem contains_total (h : Good hash s M) (hset : s.root + 1 = s.next) {el : Word} (hk : Element el)
    (hn : reprobeLimit (s.tab s.root).len + 1 < n) :
    TW (ucfContains hash n el) (fun b s' => b = (M (el <<< 3)).isSome ∧ s' = s) s := by
  have hu := userKey_of_valid (c06_element_word hk).1
  refine TW_bind (TW_mono (TW_and (get_total h hset hu hn) (mapGet_spec n h hu)) ?_)
  rintro r s' ⟨rfl, rfl, -⟩
  refine TW_pure ⟨?_, rfl⟩
  cases hM : M (el <<< 3) with
  | none => simp only [curWord, BITS_MARKED, hM]; decide
  | some v =>
    have := (getD_storable h.inv hM).ne_init
    simp only [curWord, BITS_MARKED, hM, Option.isSome_some, bne_iff_ne, ne_eq]
    exact this

/-- The check sees the elements `has`, and disturbs nothing. -/
def Sees (hash : Word → Word) (n thrid maxops : Nat) (has : Nat → Bool) (s : A) : Prop :=
  ∀ i, i < maxops → TW (hasElem hash n i thrid maxops) (fun b s' => b = has i ∧ s' = s) s

variable {thrid maxops : Nat} {has : Nat → Bool}

theorem checkFirst_spec (h : Sees hash n thrid maxops has s) : ∀ k opid nv ok, opid + k ≤ maxops →
    TW (checkFirst hash n thrid maxops k opid nv ok)
      (fun r s' => r = (nv + (List.range' opid k).countP has, ok && (List.range' opid k).all has) ∧ s' = s) s := by
  intro k
  induction k with
  | zero => intro opid nv ok _; exact TW_pure ⟨by simp, rfl⟩
  | succ k ih =>
    intro opid nv ok hle
    refine TW_bind (TW_check (by simpa using (by omega : opid < maxops)) (TW_bind (TW_mono (h opid (by omega)) ?_)))
    rintro b s' ⟨rfl, rfl⟩
    cases hb : has opid with
    | true =>
      refine TW_mono (ih (opid + 1) (nv + 1) ok (by omega)) ?_
      rintro r s' ⟨rfl, rfl⟩
      refine ⟨?_, rfl⟩
      rw [List.range'_succ, List.countP_cons, List.all_cons, hb]
      simp; omega
    | false =>
      refine TW_mono (ih (opid + 1) nv false (by omega)) ?_
      rintro r s' ⟨rfl, rfl⟩
      refine ⟨?_, rfl⟩
      rw [List.range'_succ, List.countP_cons, List.all_cons, hb]
      simp

theorem skipWhile_spec (h : Sees hash n thrid maxops has s) (want : Bool) : ∀ fuel rdid,
    TW (skipWhile hash n thrid maxops want fuel rdid)
      (fun r s' => r = advance (fun i => has i == want) maxops fuel rdid ∧ s' = s) s := by
  intro fuel
  induction fuel with
  | zero => intro rdid; exact TW_pure ⟨rfl, rfl⟩
  | succ k ih =>
    intro rdid
    rw [skipWhile, advance]
    by_cases hlt : rdid < maxops
    · rw [if_pos hlt]
      refine TW_bind (TW_mono (h rdid hlt) ?_)
      rintro b s' ⟨rfl, rfl⟩
      cases hb : has rdid == want with
      | true => rw [if_pos rfl, if_pos ⟨hlt, rfl⟩]; exact ih _
      | false =>
        rw [if_neg (by decide), if_neg (by rintro ⟨-, h⟩; cases h)]
        exact TW_pure ⟨rfl, rfl⟩
    · rw [if_neg hlt, if_neg (by rintro ⟨h, -⟩; exact hlt h)]
      exact TW_pure ⟨rfl, rfl⟩

theorem checkLast_spec (h : Sees hash n thrid maxops has s) : ∀ k opid ok, opid + k ≤ maxops ∨ k = 0 →
    TW (checkLast hash n thrid maxops k opid ok)
      (fun r s' => r = (ok && (List.range' opid k).all fun i => !has i) ∧ s' = s) s := by
  intro k
  induction k with
  | zero => intro opid ok _; exact TW_pure ⟨by simp, rfl⟩
  | succ k ih =>
    intro opid ok hle
    have hle : opid + (k + 1) ≤ maxops := hle.resolve_right (by omega)
    refine TW_bind (TW_check (by simpa using (by omega : opid < maxops)) (TW_bind (TW_mono (h opid (by omega)) ?_)))
    rintro b s' ⟨rfl, rfl⟩
    refine TW_mono (ih (opid + 1) _ (.inl (by omega))) ?_
    rintro r s' ⟨rfl, rfl⟩
    refine ⟨?_, rfl⟩
    rw [List.range'_succ, List.all_cons]
    cases has opid <;> simp

variable {T N t : Nat}

theorem share_le (hT : 0 < T) (t : Nat) : share T N t ≤ share T N 0 := by
  obtain ⟨a, b, h1, h2, h3⟩ := c32_share_bound T N t hT
  rw [share, share, h1, h2]; exact h3

theorem checkElementsProg_spec (hT : 0 < T) (h : Sees hash n t (share T N 0) has s) :
    TW (checkElementsProg hash n T N t) (fun r s' => r = checkElements (share T N 0) (share T N t) has ∧ s' = s) s := by
  have hle := share_le (N := N) hT t
  have hm := c32_main_loop_le (share T N t)
  generalize hmax : share T N 0 = maxops at h hle
  unfold checkElementsProg
  simp only [hmax]
  generalize share T N t = nu at *
  refine TW_bind (TW_mono (checkFirst_spec h _ 0 0 true (by omega)) ?_)
  rintro r s' ⟨rfl, rfl⟩
  refine TW_bind (TW_mono (skipWhile_spec h false _ _) ?_)
  rintro r1 s' ⟨hr1, rfl⟩
  refine TW_bind (TW_mono (skipWhile_spec h true _ _) ?_)
  rintro r2 s' ⟨hr2, rfl⟩
  have e1 : (fun i => has i == false) = fun i => !has i := by funext i; cases has i <;> rfl
  have e2 : (fun i => has i == true) = has := by funext i; cases has i <;> rfl
  rw [e1] at hr1
  rw [e2] at hr2
  have hlim : nu - opsMainLoop nu + (if 0 < opsMainLoop nu / 2 then opsMainLoop nu / 2 - 1 else 0) ≤ maxops := by
    split <;> omega
  refine TW_bind (TW_check (by simpa [hmax] using hlim) (TW_bind (TW_mono (checkLast_spec h _ _ true ?_) ?_)))
  · omega
  rintro r3 s' ⟨rfl, rfl⟩
  refine TW_pure ⟨?_, rfl⟩
  rw [checkElements, hr2, hr1, List.range_eq_range']
  simp

theorem checkThreads_spec (hT : 0 < T) {has : Nat → Nat → Bool} (h : ∀ t, t < T → Sees hash n t (share T N 0) (has t) s) :
    ∀ k i sz ok, i + k ≤ T →
    TW (checkThreads hash n T N k i sz ok)
      (fun r s' => r = (sz + ((List.range' i k).map fun t => throughInt (checkElements (share T N 0) (share T N t) (has t)).1).sum,
        ok && (List.range' i k).all fun t => (checkElements (share T N 0) (share T N t) (has t)).2) ∧ s' = s) s := by
  intro k
  induction k with
  | zero => intro i sz ok _; exact TW_pure ⟨by simp, rfl⟩
  | succ k ih =>
    intro i sz ok hle
    refine TW_bind (TW_mono (checkElementsProg_spec hT (h i (by omega))) ?_)
    rintro r s' ⟨rfl, rfl⟩
    refine TW_mono (ih (i + 1) _ _ (by omega)) ?_
    rintro r s' ⟨rfl, rfl⟩
    refine ⟨?_, rfl⟩
    rw [List.range'_succ, List.map_cons, List.sum_cons, List.all_cons, BitVec.add_assoc]
    cases (checkElements (share T N 0) (share T N i) (has i)).2 <;> simp

end PMap.Harness
