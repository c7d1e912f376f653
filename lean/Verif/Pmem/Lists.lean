import Verif.Pmem.Locks

/-!
# libpmemobj's concurrent_hash_map: walking and splitting lists

Nothing here is code.
-/

namespace PMap.Pmem

deriving instance DecidableEq for Ptr

/-- From pointer `p` one passes the nodes `l` and comes to pointer `q`. -/
def PSeg (s : HSt) : Ptr → List Nat → Ptr → Prop
  | p, [], q => q = p
  | p, m :: l, q => s.rd' p = some m ∧ m ≠ 0 ∧ (s.heap m).isSome = true ∧ PSeg s (.next m) l q

theorem rd_wr_self {s : HSt} {p : Ptr} {w v : Nat} (h : s.rd' p = some w) : (s.wr' p v).rd' p = some v := by
  cases p with
  | head b => simp [HSt.rd', HSt.wr']
  | next n =>
    obtain ⟨x, hx, _⟩ : ∃ x, s.heap n = some x ∧ x.next = w := by simpa [HSt.rd'] using h
    simp [HSt.rd', HSt.wr', hx]

theorem rd_wr_ne {s : HSt} {p q : Ptr} {v : Nat} (h : q ≠ p) : (s.wr' p v).rd' q = s.rd' q := by
  cases p with
  | head b => cases q with
    | head c =>
      have : c ≠ b := fun e => h (by rw [e])
      simp [HSt.rd', HSt.wr', this]
    | next m => rfl
  | next n => cases q with
    | head c => rfl
    | next m =>
      have : m ≠ n := fun e => h (by rw [e])
      simp [HSt.rd', HSt.wr', this]

theorem live_wr {s : HSt} {p : Ptr} {v m : Nat} : ((s.wr' p v).heap m).isSome = (s.heap m).isSome := by
  cases p with
  | head b => rfl
  | next n =>
    simp only [HSt.wr']
    split
    · rename_i e
      subst e
      simp
    · rfl

theorem PSeg.end_mem {s : HSt} : ∀ {p : Ptr} {l : List Nat} {q : Ptr}, PSeg s p l q → q = p ∨ ∃ m ∈ l, q = .next m
  | _, [], _, h => Or.inl h
  | _, m :: l, _, ⟨_, _, _, h⟩ => by
    rcases h.end_mem with rfl | ⟨k, hk, e⟩
    · exact Or.inr ⟨m, by simp, rfl⟩
    · exact Or.inr ⟨k, by simp [hk], e⟩

theorem PSeg.end_mem' {s : HSt} {p : Ptr} {l : List Nat} {q : Ptr} (h : PSeg s p l q) (hl : l ≠ []) : ∃ m ∈ l, q = .next m := by
  cases l with
  | nil => exact absurd rfl hl
  | cons m l =>
    rcases h.2.2.2.end_mem with rfl | ⟨k, hk, e⟩
    · exact ⟨m, by simp, rfl⟩
    · exact ⟨k, by simp [hk], e⟩

theorem PSeg.wr_other {s : HSt} {w : Ptr} {v : Nat} : ∀ {p : Ptr} {l : List Nat} {q : Ptr}, PSeg s p l q → w ≠ p →
    (∀ m ∈ l, w ≠ .next m) → PSeg (s.wr' w v) p l q
  | _, [], _, h, _, _ => h
  | _, m :: l, _, ⟨h1, h2, h3, h⟩, hp, hl =>
    ⟨(rd_wr_ne (Ne.symm hp)).trans h1, h2, live_wr.trans h3, h.wr_other (hl m (by simp)) fun k hk => hl k (by simp [hk])⟩

theorem PSeg.wr_end {s : HSt} {v : Nat} : ∀ {p : Ptr} {l : List Nat} {q : Ptr}, PSeg s p l q → l.Nodup → (∀ m ∈ l, p ≠ .next m) →
    PSeg (s.wr' q v) p l q
  | _, [], _, h, _, _ => h
  | p, m :: l, q, hh, hd, hp => by
    obtain ⟨k, hk, e⟩ := hh.end_mem' (by simp)
    obtain ⟨h1, h2, h3, h⟩ := hh
    have hq : p ≠ q := by rw [e]; exact hp k hk
    refine ⟨(rd_wr_ne hq).trans h1, h2, live_wr.trans h3, h.wr_end (List.nodup_cons.1 hd).2 fun k hk e => ?_⟩
    cases e
    exact (List.nodup_cons.1 hd).1 hk

theorem PSeg.snoc {s : HSt} {m : Nat} : ∀ {p : Ptr} {l : List Nat} {q : Ptr}, PSeg s p l q → s.rd' q = some m → m ≠ 0 →
    (s.heap m).isSome = true → PSeg s p (l ++ [m]) (.next m)
  | _, [], _, h, a, b, c => by
    obtain rfl : _ = _ := h
    exact ⟨a, b, c, rfl⟩
  | _, _ :: l, _, ⟨h1, h2, h3, h⟩, a, b, c => ⟨h1, h2, h3, h.snoc a b c⟩

theorem PSeg.toChain {s : HSt} : ∀ {p : Ptr} {l R : List Nat} {q : Ptr} {r : Nat}, PSeg s p l q → s.rd' q = some r → Chain s.heap r R →
    ∃ v, s.rd' p = some v ∧ Chain s.heap v (l ++ R)
  | _, [], _, _, r, h, a, b => by
    obtain rfl : _ = _ := h
    exact ⟨r, a, b⟩
  | _, m :: l, _, _, _, ⟨h1, h2, h3, h⟩, a, b => by
    obtain ⟨v, e, c⟩ := h.toChain a b
    obtain ⟨x, hx⟩ := Option.isSome_iff_exists.1 h3
    refine ⟨m, h1, rfl, h2, x, hx, ?_⟩
    rw [HSt.rd', hx] at e
    cases e
    exact c

theorem Chain.wr {s : HSt} {w : Ptr} {v r : Nat} {R : List Nat} (h : Chain s.heap r R) (hw : ∀ m ∈ R, w ≠ .next m) :
    Chain (s.wr' w v).heap r R := by
  refine h.congr fun m hm => ?_
  cases w with
  | head b => rfl
  | next n =>
    have : m ≠ n := fun e => hw m hm (by rw [e])
    simp [HSt.wr', this]

/-- The pointer that `walk` found. -/
def ptr (b : Loc) (pred : Nat) : Ptr := if pred = 0 then .head b else .next pred

theorem walk_spec {s : HSt} {key : Word} {b : Loc} : ∀ {f pred n : Nat} {l : List Nat}, Chain s.heap n l → l.length < f →
    s.rd' (ptr b pred) = some n →
    (walk s key f pred n = some none ∧ ∀ m ∈ l, ∀ x, s.heap m = some x → x.key ≠ key) ∨
    ∃ l1 m l2 x pred', l = l1 ++ m :: l2 ∧ walk s key f pred n = some (some (pred', m)) ∧ s.heap m = some x ∧ x.key = key ∧
      PSeg s (ptr b pred) l1 (ptr b pred') ∧ s.rd' (ptr b pred') = some m ∧ (pred' ≠ 0 → (s.heap pred').isSome = true)
  | 0, _, _, _, _, h, _ => absurd h (Nat.not_lt_zero _)
  | f + 1, pred, n, [], h, _, _ => by
    have hz : n = 0 := h
    left
    simp [walk, hz]
  | f + 1, pred, n, m :: l, ⟨e, z, x, hx, h⟩, hf, hr => by
    subst e
    by_cases hk : x.key = key
    · right
      refine ⟨[], n, l, x, pred, rfl, by simp [walk, z, hx, hk], hx, hk, rfl, hr, fun hp => ?_⟩
      simp only [ptr, hp, if_false, HSt.rd'] at hr
      cases e : s.heap pred with
      | none => rw [e] at hr; cases hr
      | some y => rfl
    · have hp : ptr b n = .next n := by simp [ptr, z]
      have hw : walk s key (f + 1) pred n = walk s key f n x.next := by simp [walk, z, hx, hk]
      rw [hw]
      have hrn : s.rd' (ptr b n) = some x.next := by simp [hp, HSt.rd', hx]
      rcases walk_spec (b := b) h (by simpa using hf) hrn with ⟨h1, h2⟩ | ⟨l1, k, l2, y, pred', h1, h2, h3, h4, h5, h6, h7⟩
      · left
        refine ⟨h1, fun k hk' y hy => ?_⟩
        rcases List.mem_cons.1 hk' with rfl | hk'
        · rw [hx] at hy
          cases hy
          exact hk
        · exact h2 k hk' y hy
      · right
        refine ⟨n :: l1, k, l2, y, pred', by rw [h1]; rfl, h2, h3, h4, ?_, h6, h7⟩
        exact ⟨hr, z, by rw [hx]; rfl, hp ▸ h5⟩

/-- Two memories differ only in the list heads of two buckets and the `next` of nodes among `S`. -/
structure Fr (old new : Loc) (S : List Nat) (s s' : HSt) : Prop where
  rest : s' = { s with heap := s'.heap, list := s'.list }
  list : ∀ b, b ≠ old → b ≠ new → s'.list b = s.list b
  heap : ∀ n, n ∉ S → s'.heap n = s.heap n
  kv : ∀ n, (s'.heap n).map (fun x => (x.key, x.val)) = (s.heap n).map fun x => (x.key, x.val)

theorem Fr.refl (old new : Loc) (S : List Nat) (s : HSt) : Fr old new S s s := ⟨rfl, fun _ _ _ => rfl, fun _ _ => rfl, fun _ => rfl⟩

theorem Fr.trans {old new : Loc} {S : List Nat} {s s1 s2 : HSt} (h : Fr old new S s s1) (g : Fr old new S s1 s2) : Fr old new S s s2 where
  rest := by
    rw [g.rest, h.rest]
  list := fun b a c => (g.list b a c).trans (h.list b a c)
  heap := fun n a => (g.heap n a).trans (h.heap n a)
  kv := fun n => (g.kv n).trans (h.kv n)

theorem Fr.wr {old new : Loc} {S : List Nat} {s : HSt} {p : Ptr} {v : Nat} (hp : p = .head old ∨ p = .head new ∨ ∃ m ∈ S, p = .next m) :
    Fr old new S s (s.wr' p v) := by
  rcases hp with rfl | rfl | ⟨m, hm, rfl⟩
  · exact ⟨rfl, fun b h _ => by simp [HSt.wr', h], fun _ _ => rfl, fun _ => rfl⟩
  · exact ⟨rfl, fun b _ h => by simp [HSt.wr', h], fun _ _ => rfl, fun _ => rfl⟩
  · refine ⟨rfl, fun _ _ _ => rfl, fun n hn => ?_, fun n => ?_⟩
    · have : n ≠ m := fun e => hn (e ▸ hm)
      simp [HSt.wr', this]
    · simp only [HSt.wr']
      split
      · rename_i e
        subst e
        cases s.heap n <;> rfl
      · rfl

theorem Fr.back {old new : Loc} {S : List Nat} {s s' : HSt} (h : Fr old new S s s') {n : Nat} {x : Node} (hx : s'.heap n = some x) :
    ∃ y, s.heap n = some y ∧ y.key = x.key ∧ y.val = x.val := by
  have := h.kv n
  rw [hx] at this
  cases e : s.heap n with
  | none => rw [e] at this; cases this
  | some y =>
    rw [e] at this
    simp at this
    exact ⟨y, rfl, this.1.symm, this.2.symm⟩

theorem Fr.fwd {old new : Loc} {S : List Nat} {s s' : HSt} (h : Fr old new S s s') {n : Nat} {x : Node} (hx : s.heap n = some x) :
    ∃ y, s'.heap n = some y ∧ y.key = x.key ∧ y.val = x.val := by
  have := h.kv n
  rw [hx] at this
  cases e : s'.heap n with
  | none => rw [e] at this; cases this
  | some y =>
    rw [e] at this
    simp at this
    exact ⟨y, rfl, this.1, this.2⟩

theorem moveLoop_spec {E : HEnv} {mask h : Nat} {old new : Loc} (hne : old ≠ new) {P : Nat → Bool} {S : List Nat} : ∀ {f : Nat} {s : HSt}
    {pOld pNew : Ptr} {O R N : List Nat} {r : Nat}, R.length < f → PSeg s (.head old) O pOld → s.rd' pOld = some r → Chain s.heap r R →
    PSeg s (.head new) N pNew → (∃ v, s.rd' pNew = some v) → (O ++ R ++ N).Nodup → (∀ n ∈ O ++ R ++ N, n ∈ S) →
    (∀ n ∈ R, ∀ x, s.heap n = some x → (P n = true ↔ E.hash x.key &&& mask = h) ∧
      (E.hash x.key &&& (if h &&& (mask / 2) = 0 then 1 else 2 ^ (Nat.log2 (h &&& (mask / 2)) + 1) - 1) =
        h &&& (if h &&& (mask / 2) = 0 then 1 else 2 ^ (Nat.log2 (h &&& (mask / 2)) + 1) - 1))) →
    ∃ s', moveLoop E mask h f pOld pNew s = .ok () s' ∧ Fr old new S s s' ∧
      Chain s'.heap (s'.list old) (O ++ R.filter fun n => !P n) ∧ Chain s'.heap (s'.list new) (N ++ R.filter P)
  | 0, _, _, _, _, _, _, _, hf, _, _, _, _, _, _, _, _ => absurd hf (Nat.not_lt_zero _)
  | f + 1, s, pOld, pNew, O, [], N, r, _, hO, hr, hR, hN, ⟨w, hw⟩, hd, hS, _ => by
    have hz : r = 0 := hR
    subst hz
    simp only [List.append_nil] at hd
    obtain ⟨hdO, hdN, hdis⟩ := List.nodup_append.1 hd
    have hpn : pNew ≠ .head old := by
      rcases hN.end_mem with rfl | ⟨m, _, rfl⟩
      · exact fun e => hne (by cases e; rfl)
      · exact fun e => by cases e
    have hpo : ∀ m ∈ O, pNew ≠ .next m := by
      intro m hm e
      rcases hN.end_mem with e' | ⟨k, hk, e'⟩
      · rw [e] at e'; cases e'
      · rw [e] at e'; cases e'; exact hdis m hm m hk rfl
    have hqn : pOld ≠ pNew := by
      rcases hO.end_mem with rfl | ⟨m, hm, rfl⟩
      · exact hpn.symm
      · exact (hpo m hm).symm
    refine ⟨s.wr' pNew 0, by simp [moveLoop, hr], Fr.wr ?_, ?_, ?_⟩
    · rcases hN.end_mem with rfl | ⟨m, hm, rfl⟩
      · exact Or.inr (Or.inl rfl)
      · exact Or.inr (Or.inr ⟨m, hS m (by simp [hm]), rfl⟩)
    · obtain ⟨v, e, c⟩ := (hO.wr_other (v := 0) hpn hpo).toChain ((rd_wr_ne hqn).trans hr) (R := []) rfl
      simp only [HSt.rd'] at e
      cases e
      simpa using c
    · obtain ⟨v, e, c⟩ := (hN.wr_end (v := 0) hdN (fun m _ => by simp)).toChain (rd_wr_self hw) (R := []) rfl
      simp only [HSt.rd'] at e
      cases e
      simpa using c
  | f + 1, s, pOld, pNew, O, n :: R, N, r, hf, hO, hr, ⟨e, z, x, hx, hR⟩, hN, ⟨w, hw⟩, hd, hS, hP => by
    subst e
    obtain ⟨hp1, hp2⟩ := hP r (by simp) x hx
    have hdd : (r :: (O ++ R ++ N)).Nodup := by
      refine List.Perm.nodup ?_ hd
      refine List.Perm.trans (l₂ := (r :: (O ++ R)) ++ N) ?_ (by simp)
      exact List.Perm.append_right N List.perm_middle
    obtain ⟨hrn, hdr⟩ := List.nodup_cons.1 hdd
    simp only [List.mem_append, not_or] at hrn
    obtain ⟨hOR, hdN, hd3⟩ := List.nodup_append.1 hdr
    obtain ⟨hdO, hdR, hd2⟩ := List.nodup_append.1 hOR
    have hrd : s.rd' (.next r) = some x.next := by simp [HSt.rd', hx]
    by_cases hc : E.hash x.key &&& mask = h
    · have hPr : P r = true := hp1.2 hc
      have hpn : pNew ≠ .head old := by
        rcases hN.end_mem with rfl | ⟨m, _, rfl⟩
        · exact fun e => hne (by cases e; rfl)
        · exact fun e => by cases e
      have hpN : ∀ m, m ∉ N → pNew ≠ .next m := by
        intro m hm e
        rcases hN.end_mem with e' | ⟨k, hk, e'⟩
        · rw [e] at e'; cases e'
        · rw [e] at e'; cases e'; exact hm hk
      have hpO : ∀ m, m ∉ O → pOld ≠ .next m := by
        intro m hm e
        rcases hO.end_mem with e' | ⟨k, hk, e'⟩
        · rw [e] at e'; cases e'
        · rw [e] at e'; cases e'; exact hm hk
      have hpo : pOld ≠ .head new := by
        rcases hO.end_mem with rfl | ⟨m, _, rfl⟩
        · exact fun e => hne (by cases e; rfl)
        · exact fun e => by cases e
      have hqn : pOld ≠ pNew := by
        rcases hO.end_mem with rfl | ⟨m, hm, rfl⟩
        · exact hpn.symm
        · exact (hpN m fun h => hd3 m (by simp [hm]) m h rfl).symm
      have hstep : moveLoop E mask h (f + 1) pOld pNew s = moveLoop E mask h f pOld (.next r) ((s.wr' pNew r).wr' pOld x.next) := by
        obtain ⟨k, rfl⟩ := Nat.exists_eq_succ_of_ne_zero z
        rw [moveLoop]
        simp only [hr, hx]
        rw [if_neg (not_not.2 hp2), if_pos hc]
        simp only [rd_wr_ne (s := s) (v := k + 1) (Ne.symm (hpN (k + 1) hrn.2)), hrd]
      rw [hstep]
      generalize hs2 : (s.wr' pNew r).wr' pOld x.next = s2
      have hfr : Fr old new S s s2 := by
        rw [← hs2]
        refine (Fr.wr ?_).trans (Fr.wr ?_)
        · rcases hN.end_mem with rfl | ⟨m, hm, rfl⟩
          · exact Or.inr (Or.inl rfl)
          · exact Or.inr (Or.inr ⟨m, hS m (by simp [hm]), rfl⟩)
        · rcases hO.end_mem with rfl | ⟨m, hm, rfl⟩
          · exact Or.inl rfl
          · exact Or.inr (Or.inr ⟨m, hS m (by simp [hm]), rfl⟩)
      have h1 : PSeg s2 (.head old) O pOld := by
        rw [← hs2]
        exact (hO.wr_other hpn fun m hm => hpN m fun h => hd3 m (by simp [hm]) m h rfl).wr_end hdO (fun m _ => by simp)
      have h2 : s2.rd' pOld = some x.next := by
        rw [← hs2]
        exact rd_wr_self ((rd_wr_ne hqn).trans hr)
      have h3 : Chain s2.heap x.next R := by
        rw [← hs2]
        exact (hR.wr fun m hm => hpN m fun h => hd3 m (by simp [hm]) m h rfl).wr fun m hm => hpO m fun h => hd2 m h m hm rfl
      have h4 : PSeg s2 (.head new) (N ++ [r]) (.next r) := by
        rw [← hs2]
        refine ((hN.wr_end hdN (fun m _ => by simp)).snoc (rd_wr_self hw) z ?_).wr_other hpo ?_
        · rw [live_wr, hx]; rfl
        · intro m hm
          refine hpO m fun h => ?_
          rcases List.mem_append.1 hm with hm | hm
          · exact hd3 m (by simp [h]) m hm rfl
          · simp at hm; subst hm; exact hrn.1.1 h
      have h5 : ∃ v, s2.rd' (.next r) = some v := by
        obtain ⟨y, hy, _⟩ := hfr.fwd hx
        exact ⟨y.next, by simp [HSt.rd', hy]⟩
      have h6 : (O ++ R ++ (N ++ [r])).Nodup := by
        refine List.Perm.nodup ?_ hdd
        rw [← List.append_assoc]
        exact (List.perm_append_singleton r (O ++ R ++ N)).symm
      obtain ⟨s', a, b, c, d⟩ := moveLoop_spec (R := R) hne (by simpa using hf) h1 h2 h3 h4 h5 h6
        (fun n hn => hS n (by simp at hn ⊢; tauto)) (fun n hn y hy => by
          obtain ⟨y', hy', e, _⟩ := hfr.back hy
          rw [← e]
          exact hP n (by simp [hn]) y' hy')
      exact ⟨s', a, hfr.trans b, by simpa [hPr] using c, by simpa [hPr] using d⟩
    · have hPr : P r = false := by
        rw [← Bool.not_eq_true]
        exact fun h => hc (hp1.1 h)
      have hstep : moveLoop E mask h (f + 1) pOld pNew s = moveLoop E mask h f (.next r) pNew s := by
        obtain ⟨k, rfl⟩ := Nat.exists_eq_succ_of_ne_zero z
        rw [moveLoop]
        simp only [hr, hx]
        rw [if_neg (not_not.2 hp2), if_neg hc]
      rw [hstep]
      obtain ⟨s', a, b, c, d⟩ := moveLoop_spec (R := R) (P := P) (S := S) hne (by simpa using hf)
        (hO.snoc hr z (by rw [hx]; rfl)) hrd hR hN ⟨w, hw⟩ (by simpa using hd) (fun n hn => hS n (by simp at hn ⊢; tauto))
        (fun n hn y hy => hP n (by simp [hn]) y hy)
      exact ⟨s', a, b, by simpa [hPr] using c, by simpa [hPr] using d⟩

end PMap.Pmem
