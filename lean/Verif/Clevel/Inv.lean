import Verif.Clevel.Logic
import Mathlib.Data.List.Nodup

/-!
# The invariant of the clevel hash table
-/

namespace PMap.Clevel

open CP

/-- A word below `2 ^ 48` has no bits there.  Helper. -/
theorem shl48_and {p : BitVec 16} {c : Word} (hc : c.toNat < 2 ^ 48) : (p.setWidth 64 <<< 48) &&& c = 0#64 := by
  apply BitVec.eq_of_getLsbD_eq
  intro i hi
  rw [BitVec.getLsbD_and, BitVec.getLsbD_shiftLeft]
  by_cases h : i < 48
  · simp [h]
  · have : c.getLsbD i = false := Nat.testBit_lt_two_pow (lt_of_lt_of_le hc (Nat.pow_le_pow_right (by norm_num) (by omega)))
    simp [this]

theorem getOffset_setTag {o : Word} (h : getOffset o = o) (p : BitVec 16) : getOffset (setTag o p) = o := by
  have h2 : getOffset (o &&& 0x0000FFFFFFFFFFFF#64) = getOffset o := by
    unfold getOffset
    rw [BitVec.and_assoc]
    congr 1
  unfold setTag
  have : getOffset ((o &&& 0x0000FFFFFFFFFFFF#64) ||| (p.setWidth 64 <<< 48)) =
      getOffset (o &&& 0x0000FFFFFFFFFFFF#64) ||| (p.setWidth 64 <<< 48 &&& 0x0000FFFFFFFFFFFC#64) := by
    unfold getOffset
    rw [BitVec.and_or_distrib_right]
  rw [this, h2, h, shl48_and (by decide)]
  simp

theorem tagOf_setTag (o : Word) (p : BitVec 16) : tagOf (setTag o p) = p := by
  apply BitVec.eq_of_getLsbD_eq
  intro i hi
  unfold tagOf setTag
  have hm : (0x0000FFFFFFFFFFFF#64).getLsbD (48 + i) = false :=
    Nat.testBit_lt_two_pow (lt_of_lt_of_le (show (0x0000FFFFFFFFFFFF#64).toNat < 2 ^ 48 by decide)
      (Nat.pow_le_pow_right (by norm_num) (by omega)))
  simp only [BitVec.getLsbD_setWidth, BitVec.getLsbD_ushiftRight, BitVec.getLsbD_or, BitVec.getLsbD_and,
    BitVec.getLsbD_shiftLeft, hm]
  simp [hi, show 48 + i < 64 by omega, show i < 64 by omega]

/-- The levels `ls` are linked bottom to top, the last ending the chain, and their sizes double, starting at `2 ^ p`.  No code of
its own. -/
def Chain (g : Nat → Option (Nat × Nat)) : Nat → List Nat → Prop
  | _, [] => False
  | p, [l] => g l = some (2 ^ p, 0)
  | p, l :: l' :: r => g l = some (2 ^ p, l') ∧ Chain g (p + 1) (l' :: r)

/-- The two buckets of a key in a level of `cap` buckets.  No code of its own. -/
def Home (E : CEnv) (k : Word) (cap b : Nat) : Prop :=
  b = firstIndex (E.hash k) cap ∨ b = secondIndex (getPartial (E.hash k)) (firstIndex (E.hash k) cap) cap

/-- The key-value pair a slot refers to.  No code of its own. -/
def view (s : CSt) (l b j : Nat) : Option (Word × Word) :=
  if getOffset (word s l b j) = 0#64 then none else s.heap (getOffset (word s l b j))

/-- A slot of a level in use.  No code of its own. -/
def InUse (s : CSt) (ls : List Nat) (l b j : Nat) : Prop :=
  l ∈ ls ∧ (∃ c u, geo s l = some (c, u) ∧ b < c) ∧ j < assocNum

/-- A slot is empty, or it refers to a live entry, carries the tag of its key and is in one of the key's two buckets.  No code of
its own. -/
def SlotOK (E : CEnv) (s : CSt) (l b j : Nat) : Prop :=
  word s l b j = 0#64 ∨ ∃ k v c u, getOffset (word s l b j) ≠ 0#64 ∧ s.heap (getOffset (word s l b j)) = some (k, v) ∧
    tagOf (word s l b j) = getPartial (E.hash k) ∧ geo s l = some (c, u) ∧ Home E k c b

/-- The table in memory `s`, between accesses of callers that run alone, has levels `ls` from `2 ^ p` buckets and holds the map
`M`; `J` are the live entries that no slot refers to; if `B`, the background thread may run, and its position is right.  No code of its own. -/
structure Inv (E : CEnv) (B : Prop) (p0 : Nat) (s : CSt) (p : Nat) (ls : List Nat) (M : Word → Option Word) (J : Word → Prop) : Prop where
  base : 1 ≤ p0
  grown : p0 ≤ p
  pool : E.pool < 2 ^ (p0 + 15)
  fit : 2 ^ (p + ls.length - 1) ≤ E.pool
  chain : Chain (geo s) p ls
  nodup : ls.Nodup
  len : 2 ≤ ls.length
  mt : s.mt s.root = some ⟨ls.getLastD 0, ls.headD 0, decide (2 < ls.length)⟩
  nl : ∀ l ∈ ls, l ≤ s.nl
  nm : s.root ≤ s.nm
  tn : 0 < s.tn
  slots : ∀ l b j, InUse s ls l b j → SlotOK E s l b j
  uniq : ∀ l b j l' b' j', InUse s ls l b j → InUse s ls l' b' j' → ∀ k v v', view s l b j = some (k, v) →
    view s l' b' j' = some (k, v') → l = l' ∧ b = b' ∧ j = j'
  rep : ∀ k v, M k = some v ↔ ∃ l b j, InUse s ls l b j ∧ view s l b j = some (k, v)
  live : ∀ o e, s.heap o = some e → GoodOffset o ∧ (J o ∨ ∃ l b j, InUse s ls l b j ∧ getOffset (word s l b j) = o)
  junk : ∀ o, J o → s.heap o ≠ none ∧ ∀ l b j, InUse s ls l b j → getOffset (word s l b j) ≠ o
  exp : B → s.exp < 2 ^ p
  exp2 : B → ls.length = 2 → s.exp = 0
  done : B → ∀ b j, b < s.exp → j < assocNum → word s (ls.headD 0) b j = 0#64
  pos : 0 ∉ ls
  gone : ∀ l c u, l ∉ ls → geo s l = some (c, u) → ∀ b j, b < c → j < assocNum → word s l b j = 0#64
  fresh : ∀ l, s.nl < l → geo s l = none
  mfresh : ∀ m, s.nm < m → s.mt m = none

/-! ### Chains -/

theorem chain_suffix {g : Nat → Option (Nat × Nat)} : ∀ {pre : List Nat} {p : Nat} {suf : List Nat}, Chain g p (pre ++ suf) →
    suf ≠ [] → Chain g (p + pre.length) suf
  | [], p, suf, h, _ => by simpa using h
  | [l], p, l' :: r, h, _ => by
    simp only [List.cons_append, List.nil_append, Chain] at h
    simpa using h.2
  | l :: l' :: pre, p, suf, h, hs => by
    simp only [List.cons_append, Chain] at h
    have := chain_suffix (pre := l' :: pre) h.2 hs
    simpa [Nat.add_assoc, Nat.add_comm, Nat.add_left_comm] using this

theorem chain_head {g : Nat → Option (Nat × Nat)} {p l : Nat} {r : List Nat} (h : Chain g p (l :: r)) :
    g l = some (2 ^ p, r.headD 0) := by
  cases r with
  | nil => exact h
  | cons l' r => exact h.1

theorem chain_mem {g : Nat → Option (Nat × Nat)} : ∀ {ls : List Nat} {p l : Nat}, Chain g p ls → l ∈ ls →
    ∃ i u, i < ls.length ∧ ls[i]? = some l ∧ g l = some (2 ^ (p + i), u)
  | [l'], p, l, h, hl => by
    simp at hl
    subst hl
    exact ⟨0, 0, by simp, by simp, by simpa [Chain] using h⟩
  | l' :: l'' :: r, p, l, h, hl => by
    rcases List.mem_cons.1 hl with rfl | hl
    · exact ⟨0, l'', by simp, by simp, by simpa using h.1⟩
    · obtain ⟨i, u, hi, hg, hu⟩ := chain_mem h.2 hl
      exact ⟨i + 1, u, by simpa using hi, by simpa using hg, by rw [hu, Nat.add_assoc, Nat.add_comm 1 i]⟩

theorem chain_get {g : Nat → Option (Nat × Nat)} {ls : List Nat} {p i l : Nat} (h : Chain g p ls) (hi : ls[i]? = some l) :
    ∃ u, g l = some (2 ^ (p + i), u) := by
  have hlt : i < ls.length := by
    by_contra hc
    rw [List.getElem?_eq_none (by omega)] at hi
    cases hi
  have e : ls = ls.take i ++ ls.drop i := (List.take_append_drop i ls).symm
  have hd : ls.drop i = l :: ls.drop (i + 1) := by
    rw [List.drop_eq_getElem_cons hlt]
    congr 1
    rw [List.getElem?_eq_getElem hlt] at hi
    exact Option.some.inj hi
  rw [e] at h
  have := chain_suffix h (by rw [hd]; simp)
  rw [hd, List.length_take, Nat.min_eq_left hlt.le] at this
  exact ⟨_, chain_head this⟩

theorem chain_congr {g g' : Nat → Option (Nat × Nat)} : ∀ {ls : List Nat} {p : Nat}, (∀ l ∈ ls, g' l = g l) → Chain g p ls →
    Chain g' p ls
  | [l], p, hg, h => by simpa [Chain, hg l (by simp)] using h
  | l :: l' :: r, p, hg, h =>
    ⟨by rw [hg l (by simp)]; exact h.1, chain_congr (fun x hx => hg x (by simp [List.mem_cons.1 hx])) h.2⟩

theorem chain_append {g g' : Nat → Option (Nat × Nat)} {n : Nat} : ∀ {ls : List Nat} {p : Nat}, ls.Nodup → Chain g p ls →
    (∀ l ∈ ls, l ≠ ls.getLastD 0 → g' l = g l) → g' (ls.getLastD 0) = some (2 ^ (p + ls.length - 1), n) →
    g' n = some (2 ^ (p + ls.length), 0) → Chain g' p (ls ++ [n])
  | [l], p, _, h, _, hl, hn => by
    simp only [List.cons_append, List.nil_append, Chain]
    exact ⟨by simpa using hl, by simpa using hn⟩
  | l :: l' :: r, p, hd, h, hg, hl, hn => by
    simp only [List.cons_append, Chain]
    have hlast : (l :: l' :: r).getLastD 0 = (l' :: r).getLastD 0 := by
      simp [List.getLastD]
    rw [hlast] at hg hl
    have hne : l ≠ (l' :: r).getLastD 0 := by
      intro e
      have : (l' :: r).getLastD 0 ∈ l' :: r := by
        simp only [List.getLastD]
        exact List.getLast_mem _
      rw [← e] at this
      exact (List.nodup_cons.1 hd).1 this
    refine ⟨by rw [hg l (by simp) hne]; exact h.1, chain_append (List.nodup_cons.1 hd).2 h.2
      (fun x hx hx' => hg x (by simp [List.mem_cons.1 hx]) hx') ?_ ?_⟩
    · rw [hl]
      simp only [List.length_cons]
      congr 3
      omega
    · rw [hn]
      simp only [List.length_cons]
      congr 3
      omega

theorem chain_last {g : Nat → Option (Nat × Nat)} : ∀ {ls : List Nat} {p : Nat}, Chain g p ls →
    g (ls.getLastD 0) = some (2 ^ (p + ls.length - 1), 0)
  | [l], p, h => by simpa [Chain] using h
  | l :: l' :: r, p, h => by
    have := chain_last h.2
    have hlast : (l :: l' :: r).getLastD 0 = (l' :: r).getLastD 0 := by simp [List.getLastD]
    rw [hlast, this]
    simp only [List.length_cons]
    congr 3
    omega

/-! ### Buckets -/

theorem pow_half {q : Nat} (h : 1 ≤ q) : 2 ^ q / 2 = 2 ^ (q - 1) ∧ 2 ^ (q - 1) + 2 ^ (q - 1) = 2 ^ q ∧ 0 < 2 ^ (q - 1) := by
  obtain ⟨r, rfl⟩ : ∃ r, q = r + 1 := ⟨q - 1, by omega⟩
  have : 2 ^ (r + 1) = 2 ^ r * 2 := pow_succ 2 r
  have := Nat.pos_of_ne_zero (pow_ne_zero r (show (2 : Nat) ≠ 0 by decide))
  simp only [Nat.add_sub_cancel]
  omega

theorem firstIndex_lt {hv : Word} {q : Nat} (h : 1 ≤ q) : firstIndex hv (2 ^ q) < 2 ^ q / 2 := by
  obtain ⟨h1, h2, h3⟩ := pow_half h
  unfold firstIndex
  rw [h1]
  exact Nat.mod_lt _ h3

theorem secondIndex_bounds {t : BitVec 16} {i q : Nat} (h : 1 ≤ q) :
    2 ^ q / 2 ≤ secondIndex t i (2 ^ q) ∧ secondIndex t i (2 ^ q) < 2 ^ q := by
  obtain ⟨h1, h2, h3⟩ := pow_half h
  unfold secondIndex
  rw [h1]
  have := Nat.mod_lt ((BitVec.ofNat 64 i) ^^^ hashOfTag t).toNat h3
  omega

theorem Home.lt {E : CEnv} {k : Word} {q b : Nat} (h : 1 ≤ q) (hb : Home E k (2 ^ q) b) : b < 2 ^ q := by
  rcases hb with rfl | rfl
  · have := firstIndex_lt (hv := E.hash k) h
    omega
  · exact (secondIndex_bounds h).2

/-- The slots of bucket `b` of level `l` in the order the loops visit them.  No code of its own. -/
def slotsOf (l b : Nat) : List Pos := (List.range assocNum).map fun j => ⟨l, b, j⟩

/-- The slots of the levels `ls`, the first of `2 ^ p` buckets, that may hold a key, in the order the loops visit them.  No code
of its own. -/
def cands (E : CEnv) (k : Word) : Nat → List Nat → List Pos
  | _, [] => []
  | p, l :: r => slotsOf l (firstIndex (E.hash k) (2 ^ p)) ++
      (slotsOf l (secondIndex (getPartial (E.hash k)) (firstIndex (E.hash k) (2 ^ p)) (2 ^ p)) ++ cands E k (p + 1) r)

theorem mem_slotsOf {l b : Nat} {x : Pos} : x ∈ slotsOf l b ↔ x.l = l ∧ x.b = b ∧ x.j < assocNum := by
  unfold slotsOf
  simp only [List.mem_map, List.mem_range]
  constructor
  · rintro ⟨j, hj, rfl⟩
    exact ⟨rfl, rfl, hj⟩
  · rintro ⟨rfl, rfl, h⟩
    exact ⟨x.j, h, rfl⟩

theorem nodup_slotsOf (l b : Nat) : (slotsOf l b).Nodup := by
  unfold slotsOf
  refine List.Nodup.map ?_ List.nodup_range
  intro x y h
  simpa using h

theorem mem_cands {E : CEnv} {k : Word} {x : Pos} : ∀ {ls : List Nat} {p : Nat}, x ∈ cands E k p ls →
    x.l ∈ ls
  | l :: r, p, h => by
    simp only [cands, List.mem_append, mem_slotsOf] at h
    rcases h with h | h | h
    · simp [h.1]
    · simp [h.1]
    · exact List.mem_cons_of_mem _ (mem_cands h)

theorem cands_mem {E : CEnv} {k : Word} {l b j : Nat} (hj : j < assocNum) : ∀ {ls : List Nat} {p i : Nat}, ls[i]? = some l →
    Home E k (2 ^ (p + i)) b → Pos.mk l b j ∈ cands E k p ls
  | l' :: r, p, 0, hi, hb => by
    simp at hi
    subst hi
    simp only [cands, List.mem_append, mem_slotsOf]
    rcases hb with hb | hb
    · exact .inl ⟨trivial, by simpa using hb, hj⟩
    · exact .inr (.inl ⟨trivial, by simpa using hb, hj⟩)
  | l' :: r, p, i + 1, hi, hb => by
    simp only [cands, List.mem_append]
    refine .inr (.inr (cands_mem hj (i := i) (by simpa using hi) ?_))
    rwa [Nat.add_assoc, Nat.add_comm 1 i]

theorem nodup_cands {E : CEnv} {k : Word} : ∀ {ls : List Nat} {p : Nat}, 1 ≤ p → ls.Nodup → (cands E k p ls).Nodup
  | [], _, _, _ => List.nodup_nil
  | l :: r, p, hp, h => by
    have hl := List.nodup_cons.1 h
    simp only [cands]
    refine List.Nodup.append (nodup_slotsOf _ _) (List.Nodup.append (nodup_slotsOf _ _) (nodup_cands (by omega) hl.2) ?_) ?_
    · intro x hx hx'
      exact hl.1 ((mem_slotsOf.1 hx).1 ▸ mem_cands hx')
    · intro x hx hx'
      rcases List.mem_append.1 hx' with hx' | hx'
      · have h1 := (mem_slotsOf.1 hx).2.1
        have h2 := (mem_slotsOf.1 hx').2.1
        have h3 := firstIndex_lt (hv := E.hash k) hp
        have h4 := (secondIndex_bounds (t := getPartial (E.hash k)) (i := firstIndex (E.hash k) (2 ^ p)) hp).1
        omega
      · exact hl.1 ((mem_slotsOf.1 hx).1 ▸ mem_cands hx')

end PMap.Clevel
