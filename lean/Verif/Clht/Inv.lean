import Verif.Clht.Model
import Mathlib.Algebra.BigOperators.Group.List.Basic
import Mathlib.Data.List.Basic

/-!
# The invariant of `clht`
-/

set_option linter.unusedSectionVars false

namespace PMap.Clht

variable {K V : Type} [DecidableEq K] {h : K → Nat}

@[simp] theorem out_done {α β : Type} (a : α) (f : α → Out β) : (Out.done a >>= f) = f a := rfl

@[simp] theorem out_pure {α : Type} (a : α) : (pure a : Out α) = .done a := rfl

theorem out_bind {α β : Type} {x : Out α} {f : α → Out β} {b : β} (e : (x >>= f) = .done b) : ∃ a, x = .done a ∧ f a = .done b := by
  cases x with
  | done a => exact ⟨a, rfl, e⟩
  | waits => cases e
  | ub => cases e
  | fuel => cases e

/-- Slots that are not null. -/
def used (l : List (Slot K V)) : Nat := l.countP fun s => match s with | .null => false | _ => true

/-- Nothing freed, and no key twice. -/
structure Good (l : List (Slot K V)) : Prop where
  live : Slot.freed ∉ l
  keys : l.Pairwise fun a b => ∀ k v w, a = .entry k v → b ≠ .entry k w

theorem Good.tail {a : Slot K V} {l : List (Slot K V)} (g : Good (a :: l)) : Good l :=
  ⟨fun e => g.live (List.mem_cons_of_mem _ e), (List.pairwise_cons.1 g.keys).2⟩

theorem find_spec {l : List (Slot K V)} (g : Good l) (k : K) :
    (find k l = .done none ∧ ∀ v, Slot.entry k v ∉ l) ∨ ∃ p v, find k l = .done (some (p, v)) ∧ l[p]? = some (.entry k v) := by
  induction l with
  | nil => exact .inl ⟨rfl, fun v => List.not_mem_nil⟩
  | cons a l ih =>
    have ih := ih g.tail
    cases a with
    | freed => exact absurd List.mem_cons_self g.live
    | null =>
      rcases ih with ⟨e, hn⟩ | ⟨p, v, e, hp⟩
      · refine .inl ⟨by rw [find, e]; rfl, fun v hm => ?_⟩
        rcases List.mem_cons.1 hm with h1 | h1
        · cases h1
        · exact hn v h1
      · exact .inr ⟨p + 1, v, by rw [find, e]; rfl, by rw [List.getElem?_cons_succ]; exact hp⟩
    | entry k' v' =>
      by_cases hk : k' = k
      · subst hk
        exact .inr ⟨0, v', by rw [find, if_pos rfl], rfl⟩
      · rcases ih with ⟨e, hn⟩ | ⟨p, v, e, hp⟩
        · refine .inl ⟨by rw [find, if_neg hk, e]; rfl, fun v hm => ?_⟩
          rcases List.mem_cons.1 hm with h1 | h1
          · cases h1
            exact hk rfl
          · exact hn v h1
        · exact .inr ⟨p + 1, v, by rw [find, if_neg hk, e]; rfl, by rw [List.getElem?_cons_succ]; exact hp⟩

theorem fill_some {k : K} {v : V} {l l' : List (Slot K V)} (e : fill k v l = some l') :
    ∃ a b, l = a ++ .null :: b ∧ l' = a ++ .entry k v :: b := by
  induction l generalizing l' with
  | nil => cases e
  | cons s l ih =>
    cases s with
    | null =>
      injection e with e
      exact ⟨[], l, rfl, e.symm⟩
    | entry k' v' =>
      rw [fill] at e
      · cases h1 : fill k v l with
        | none => rw [h1] at e; cases e
        | some l1 =>
          rw [h1] at e
          injection e with e
          obtain ⟨a, b, ha, hb⟩ := ih h1
          exact ⟨.entry k' v' :: a, b, by rw [ha]; rfl, by rw [← e, hb]; rfl⟩
      · exact fun h => nomatch h
    | freed =>
      rw [fill] at e
      · cases h1 : fill k v l with
        | none => rw [h1] at e; cases e
        | some l1 =>
          rw [h1] at e
          injection e with e
          obtain ⟨a, b, ha, hb⟩ := ih h1
          exact ⟨.freed :: a, b, by rw [ha]; rfl, by rw [← e, hb]; rfl⟩
      · exact fun h => nomatch h

theorem fill_none {k : K} {v : V} {l : List (Slot K V)} (e : fill k v l = none) : Slot.null ∉ l := by
  induction l with
  | nil => exact List.not_mem_nil
  | cons s l ih =>
    intro hm
    cases s with
    | null => cases e
    | entry k' v' =>
      rw [fill, Option.map_eq_none_iff] at e
      · rcases List.mem_cons.1 hm with h1 | h1
        · cases h1
        · exact ih e h1
      · exact fun h => nomatch h
    | freed =>
      rw [fill, Option.map_eq_none_iff] at e
      · rcases List.mem_cons.1 hm with h1 | h1
        · cases h1
        · exact ih e h1
      · exact fun h => nomatch h

/-- The same entries and one more. -/
structure More (k : K) (v : V) (l l' : List (Slot K V)) : Prop where
  mem : ∀ k' v', Slot.entry k' v' ∈ l' ↔ (k' = k ∧ v' = v) ∨ Slot.entry k' v' ∈ l
  good : Good l → (∀ w, Slot.entry k w ∉ l) → Good l'
  used : used l' = used l + 1

theorem fill_more {k : K} {v : V} {l l' : List (Slot K V)} (e : fill k v l = some l') :
    More k v l l' ∧ l'.length = l.length ∧ (Slot.null ∉ l → Slot.null ∉ l') := by
  obtain ⟨a, b, rfl, rfl⟩ := fill_some e
  refine ⟨⟨fun k' v' => ?_, fun g hn => ⟨?_, ?_⟩, ?_⟩, by simp, ?_⟩
  · simp only [List.mem_append, List.mem_cons, Slot.entry.injEq, reduceCtorEq, false_or]
    tauto
  · have := g.live
    simp only [List.mem_append, List.mem_cons, reduceCtorEq, false_or] at this ⊢
    exact this
  · have gk := g.keys
    rw [List.pairwise_append, List.pairwise_cons] at gk ⊢
    refine ⟨gk.1, ⟨fun s hs k1 v1 w e1 e2 => ?_, gk.2.1.2⟩, fun s hs s' hs' => ?_⟩
    · injection e1 with e1 e3
      subst e1
      exact hn w (by rw [← e2]; simp [hs])
    · rcases List.mem_cons.1 hs' with h1 | h1
      · intro k1 v1 w e1 e2
        rw [h1] at e2
        injection e2 with e2 e3
        subst e2
        exact hn v1 (by rw [← e1]; simp [hs])
      · exact gk.2.2 s hs s' (List.mem_cons_of_mem _ h1)
  · simp only [Clht.used, List.countP_append, List.countP_cons]
    simp
    omega
  · simp

theorem append_more {k : K} {v : V} {l : List (Slot K V)} : More k v l (l ++ [.entry k v, .null, .null]) := by
  refine ⟨fun k' v' => ?_, fun g hn => ⟨?_, ?_⟩, ?_⟩
  · simp only [List.mem_append, List.mem_cons, Slot.entry.injEq, reduceCtorEq, List.not_mem_nil, or_false]
    tauto
  · have := g.live
    simp [this]
  · rw [List.pairwise_append]
    refine ⟨g.keys, by simp, fun s hs s' hs' k1 v1 w e1 e2 => ?_⟩
    subst e1 e2
    simp only [List.mem_cons, Slot.entry.injEq, reduceCtorEq, or_false, List.not_mem_nil] at hs'
    rw [hs'.1] at hs
    exact hn _ hs
  · simp [Clht.used, List.countP_append]

theorem used_le (l : List (Slot K V)) : used l ≤ l.length := List.countP_le_length

theorem used_full {l : List (Slot K V)} (hn : Slot.null ∉ l) : used l = l.length := by
  rw [used, List.countP_eq_length]
  intro s hs
  cases s with
  | null => exact absurd hs hn
  | entry k v => rfl
  | freed => rfl

theorem size_eq (t : Table K V) : t.size = ((List.range t.n).map fun i => used (t.chain i)).sum := rfl

theorem sum_set (n i a : Nat) (f : Nat → Nat) (hi : i < n) :
    ((List.range n).map fun j => if j = i then a else f j).sum + f i = ((List.range n).map f).sum + a := by
  induction n with
  | zero => omega
  | succ n ih =>
    simp only [List.range_succ, List.map_append, List.sum_append, List.map_cons, List.map_nil, List.sum_cons, List.sum_nil]
    by_cases hn : i = n
    · subst hn
      have : ((List.range i).map fun j => if j = i then a else f j) = (List.range i).map f := by
        refine List.map_congr_left fun j hj => ?_
        rw [if_neg (by have := List.mem_range.1 hj; omega)]
      rw [this, if_pos rfl]
      omega
    · have := ih (by omega)
      rw [if_neg (by omega)]
      omega

theorem size_set {t : Table K V} {i : Nat} {l : List (Slot K V)} (hi : i < t.n) :
    (t.set i l).size + used (t.chain i) = t.size + used l := by
  have := sum_set t.n i (used l) (fun j => used (t.chain j)) hi
  rw [size_eq, size_eq]
  simp only [Table.set]
  rw [← this]
  congr 3
  funext j
  split <;> rfl

theorem used_le_size {t : Table K V} {i : Nat} (hi : i < t.n) : used (t.chain i) ≤ t.size := by
  have := size_set (l := []) hi
  have : used ([] : List (Slot K V)) = 0 := rfl
  omega

/-- What holds of every table: entries lie in the buckets of their hashes. -/
structure TInv (h : K → Nat) (t : Table K V) : Prop where
  pos : 0 < t.n
  good : ∀ i, Good (t.chain i)
  home : ∀ i k v, Slot.entry k v ∈ t.chain i → i = h k % t.n
  free : ∀ i, t.lock i = .free

/-- The entry is in the table. -/
def Has (h : K → Nat) (t : Table K V) (k : K) (v : V) : Prop := Slot.entry k v ∈ t.chain (h k % t.n)

theorem TInv.new {n : Nat} (hn : 0 < n) : TInv h (Table.new n : Table K V) where
  pos := hn
  good := fun i => ⟨by simp [Table.new], by simp [Table.new]⟩
  home := fun i k v e => by simp [Table.new] at e
  free := fun i => rfl

theorem TInv.lt {t : Table K V} (ht : TInv h t) (k : K) : h k % t.n < t.n := Nat.mod_lt _ ht.pos

theorem good_unique {l : List (Slot K V)} (g : Good l) {k : K} {v w : V} (h1 : Slot.entry k v ∈ l) (h2 : Slot.entry k w ∈ l) : v = w := by
  induction l with
  | nil => cases h1
  | cons a l ih =>
    have gk := List.pairwise_cons.1 g.keys
    rcases List.mem_cons.1 h1 with e1 | e1
    · rcases List.mem_cons.1 h2 with e2 | e2
      · rw [← e1] at e2
        injection e2 with e2 e3
        exact e3.symm
      · exact absurd rfl (gk.1 _ e2 k v w e1.symm)
    · rcases List.mem_cons.1 h2 with e2 | e2
      · exact absurd rfl (gk.1 _ e1 k w v e2.symm)
      · exact ih g.tail e1 e2

/-- Adds an entry with an absent key. -/
theorem TInv.add {t : Table K V} (ht : TInv h t) {k : K} {v : V} {l : List (Slot K V)} (hm : More k v (t.chain (h k % t.n)) l)
    (hn : ∀ w, ¬ Has h t k w) :
    TInv h (t.set (h k % t.n) l) ∧ ∀ k' v', Has h (t.set (h k % t.n) l) k' v' ↔ (k' = k ∧ v' = v) ∨ Has h t k' v' := by
  refine ⟨⟨ht.pos, fun i => ?_, fun i k' v' e => ?_, ht.free⟩, fun k' v' => ?_⟩
  · simp only [Table.set]
    split
    · exact hm.good (ht.good _) hn
    · exact ht.good i
  · simp only [Table.set] at e ⊢
    by_cases hi : i = h k % t.n
    · rw [if_pos hi] at e
      rcases (hm.mem k' v').1 e with ⟨rfl, -⟩ | e
      · exact hi
      · exact hi.trans (ht.home _ _ _ e)
    · rw [if_neg hi] at e
      exact ht.home _ _ _ e
  · unfold Has
    simp only [Table.set]
    by_cases hi : h k' % t.n = h k % t.n
    · rw [if_pos hi, hm.mem, hi]
    · rw [if_neg hi]
      constructor
      · exact .inr
      · rintro (⟨rfl, -⟩ | e)
        · exact absurd rfl hi
        · exact e

/-- A new table while it is filled: `P` are the entries copied so far. -/
structure NInv (h : K → Nat) (t : Table K V) (P : K → V → Prop) : Prop where
  tab : TInv h t
  three : ∀ i, (t.chain i).length = 3
  old : ∀ k v, Has h t k v → P k v
  kept : ∀ k v, P k v → Has h t k v ∨ Slot.null ∉ t.chain (h k % t.n)

theorem putSeq_spec {t : Table K V} {P : K → V → Prop} (ht : NInv h t P) {k : K} {v : V} (hn : ∀ w, ¬ P k w) :
    ∃ t', t.putSeq h k v = .done t' ∧ NInv h t' (fun k' v' => P k' v' ∨ (k' = k ∧ v' = v)) ∧ t'.n = t.n ∧
      t'.size + t'.expands = t.size + t.expands + 1 ∧ (t.expands < t'.expands → Slot.null ∉ t'.chain (h k % t.n)) ∧
      ∀ i, Slot.null ∉ t.chain i → Slot.null ∉ t'.chain i := by
  have hn' : ∀ w, ¬ Has h t k w := fun w e => hn w (ht.old _ _ e)
  have hnz : ¬ t.n = 0 := by have := ht.tab.pos; omega
  unfold Table.putSeq
  rw [if_neg hnz]
  cases e : fill k v (t.chain (h k % t.n)) with
  | none =>
    refine ⟨_, rfl, ⟨⟨ht.tab.pos, ht.tab.good, ht.tab.home, ht.tab.free⟩, ht.three, fun k' v' e' => .inl (ht.old _ _ e'), ?_⟩, rfl, ?_,
      fun _ => fill_none e, fun i => id⟩
    · rintro k' v' (e' | ⟨rfl, rfl⟩)
      · exact ht.kept _ _ e'
      · exact .inr (fill_none e)
    · show t.size + (t.expands + 1) = _
      omega
  | some l =>
    obtain ⟨hm, hl, hnull⟩ := fill_more e
    obtain ⟨h1, h2⟩ := ht.tab.add hm hn'
    have hfull : ∀ i, Slot.null ∉ t.chain i → Slot.null ∉ (t.set (h k % t.n) l).chain i := fun i hi => by
      simp only [Table.set]
      split
      · next e2 => exact hnull (e2 ▸ hi)
      · exact hi
    refine ⟨_, rfl, ⟨h1, fun i => ?_, fun k' v' e' => ?_, ?_⟩, rfl, ?_, fun e' => absurd e' (Nat.lt_irrefl _), hfull⟩
    · simp only [Table.set]
      split
      · rw [hl, ht.three]
      · exact ht.three i
    · rcases (h2 k' v').1 e' with e' | e'
      · exact .inr e'
      · exact .inl (ht.old _ _ e')
    · rintro k' v' (e' | e')
      · rcases ht.kept _ _ e' with e' | e'
        · exact .inl ((h2 k' v').2 (.inr e'))
        · exact .inr (hfull _ e')
      · exact .inl ((h2 k' v').2 (.inl e'))
    · have := size_set (l := l) (ht.tab.lt k)
      have := hm.used
      show (t.set (h k % t.n) l).size + t.expands = _
      omega

theorem copySlots_spec {l : List (Slot K V)} (g : Good l) {t : Table K V} {P : K → V → Prop} (ht : NInv h t P)
    (hn : ∀ k v, Slot.entry k v ∈ l → ∀ w, ¬ P k w) (hx : 0 < t.expands → ∃ i, i < t.n ∧ Slot.null ∉ t.chain i) :
    ∃ t', copySlots h l t = .done t' ∧ NInv h t' (fun k' v' => P k' v' ∨ Slot.entry k' v' ∈ l) ∧ t'.n = t.n ∧
      t'.size + t'.expands = t.size + t.expands + used l ∧ (0 < t'.expands → ∃ i, i < t'.n ∧ Slot.null ∉ t'.chain i) := by
  induction l generalizing t P with
  | nil => exact ⟨t, rfl, by simpa using ht, rfl, rfl, hx⟩
  | cons s l ih =>
    cases s with
    | freed => exact absurd List.mem_cons_self g.live
    | null =>
      obtain ⟨t', e, h1, h2, h3, h4⟩ := ih g.tail ht (fun k v hm => hn k v (List.mem_cons_of_mem _ hm)) hx
      refine ⟨t', e, ?_, h2, ?_, h4⟩
      · simpa [List.mem_cons] using h1
      · rw [h3]
        simp [used]
    | entry k v =>
      obtain ⟨t1, e1, h1, h2, h3, h4, h5⟩ := putSeq_spec ht (k := k) (v := v) (hn k v List.mem_cons_self)
      have hx1 : 0 < t1.expands → ∃ i, i < t1.n ∧ Slot.null ∉ t1.chain i := fun hp => by
        by_cases hlt : t.expands < t1.expands
        · exact ⟨h k % t.n, by rw [h2]; exact ht.tab.lt k, h4 hlt⟩
        · have hs : t1.size ≤ t.size + 1 ∨ 0 < t.expands := by omega
          by_cases h0 : 0 < t.expands
          · obtain ⟨i, hi, hnul⟩ := hx h0
            exact ⟨i, by rw [h2]; exact hi, h5 i hnul⟩
          · omega
      have hside : ∀ k' v', Slot.entry k' v' ∈ l → ∀ w, ¬ (P k' w ∨ k' = k ∧ w = v) := by
        rintro k' v' hm w (e' | ⟨e', -⟩)
        · exact hn k' v' (List.mem_cons_of_mem _ hm) w e'
        · subst e'
          exact (List.pairwise_cons.1 g.keys).1 _ hm k' v v' rfl rfl
      obtain ⟨t', e, g1, g2, g3, g4⟩ := ih g.tail h1 hside hx1
      refine ⟨t', ?_, ?_, by rw [g2, h2], ?_, g4⟩
      · rw [copySlots, e1]
        exact e
      · have : (fun k' v' => (P k' v' ∨ k' = k ∧ v' = v) ∨ Slot.entry k' v' ∈ l) =
            fun k' v' => P k' v' ∨ Slot.entry k' v' ∈ Slot.entry k v :: l := by
          funext k' v'
          simp only [List.mem_cons, Slot.entry.injEq, or_assoc]
        rw [← this]
        exact g1
      · have : used (Slot.entry k v :: l) = used l + 1 := by simp [used]
        omega

theorem NInv.congr {t : Table K V} {P Q : K → V → Prop} (ht : NInv h t P) (hq : ∀ k v, P k v ↔ Q k v) : NInv h t Q :=
  ⟨ht.tab, ht.three, fun k v e => (hq k v).1 (ht.old k v e), fun k v e => ht.kept k v ((hq k v).2 e)⟩

theorem copy_spec {old : Table K V} (ho : TInv h old) {m : Nat} (hm : 0 < m) (n : Nat) :
    ∃ t', copy h old n (Table.new m) = .done (true, t') ∧ NInv h t' (fun k v => ∃ i, i < n ∧ Slot.entry k v ∈ old.chain i) ∧ t'.n = m ∧
      t'.size + t'.expands = ((List.range n).map fun i => used (old.chain i)).sum ∧
      (0 < t'.expands → ∃ i, i < t'.n ∧ Slot.null ∉ t'.chain i) := by
  induction n with
  | zero =>
    refine ⟨_, rfl, ⟨TInv.new hm, fun i => rfl, fun k v e => ?_, ?_⟩, rfl, ?_, fun e => absurd e (Nat.lt_irrefl _)⟩
    · simp [Has, Table.new] at e
    · rintro k v ⟨i, hi, -⟩
      omega
    · rw [size_eq]
      simp [Table.new, used]
  | succ n ih =>
    obtain ⟨t, e, h1, h2, h3, h4⟩ := ih
    have hside : ∀ k v, Slot.entry k v ∈ old.chain n → ∀ w, ¬ ∃ i, i < n ∧ Slot.entry k w ∈ old.chain i := by
      rintro k v hv w ⟨i, hi, e1⟩
      have := ho.home _ _ _ e1
      have := ho.home _ _ _ hv
      omega
    obtain ⟨t', e', g1, g2, g3, g4⟩ := copySlots_spec (ho.good n) h1 hside h4
    refine ⟨t', ?_, g1.congr fun k v => ?_, by rw [g2, h2], ?_, g4⟩
    · rw [copy, e]
      simp only [out_done, if_true, ho.free, e']
      rfl
    · constructor
      · rintro (⟨i, hi, e1⟩ | e1)
        · exact ⟨i, by omega, e1⟩
        · exact ⟨n, by omega, e1⟩
      · rintro ⟨i, hi, e1⟩
        by_cases hin : i = n
        · exact .inr (hin ▸ e1)
        · exact .inl ⟨i, by omega, e1⟩
    · rw [g3, h3, List.range_succ]
      simp

theorem pow2roundup_pos (x : Nat) : 0 < pow2roundup x := by
  unfold pow2roundup
  split
  · omega
  · exact Nat.succ_pos _

theorem newSize_pos {t : Table K V} (hn : 0 < t.n) (hs : 2 ≤ t.size) : 0 < t.newSize := by
  unfold Table.newSize
  split
  · next e => omega
  · refine Nat.mul_pos ?_ hn
    split
    · omega
    · exact pow2roundup_pos _

theorem threshold_pos (n : Nat) : 0 < threshold n := by
  unfold threshold
  split <;> omega

end PMap.Clht
