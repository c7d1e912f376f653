import Verif.Clevel.Insert
import Mathlib.Data.Finset.Card
import Mathlib.Data.Finset.Prod

/-!
# A round of the background thread that runs alone
-/

namespace PMap.Clevel

open CP

variable {E : CEnv} {B : Prop} {p0 : Nat} {s : CSt} {p : Nat} {ls : List Nat} {M : Word → Option Word} {J : Word → Prop} {key val : Word}

/-- Counting the levels. -/
theorem cwp_countUp {Q : Nat → CSt → Prop} : ∀ {r : List Nat} {l p f : Nat}, Chain (geo s) p (l :: r) → (l :: r).Nodup →
    r.length < f → Q r.length s → cwp (countUp ((l :: r).getLastD 0) f l) Q s
  | _, _, _, 0, _, _, hf, _ => by omega
  | [], l, p, f + 1, _, _, _, hQ => by
    unfold countUp
    refine cwp_if (fun hc => absurd rfl hc) (fun _ => hQ)
  | l' :: r, l, p, f + 1, hc, hn, hf, hQ => by
    unfold countUp
    have hlast : (l :: l' :: r).getLastD 0 = (l' :: r).getLastD 0 := rfl
    refine cwp_if (fun _ => ?_) (fun hx => ?_)
    · rw [cwp_bind, cwp_rdUp hc.1, cwp_bind, hlast]
      refine cwp_countUp hc.2 (List.nodup_cons.1 hn).2 (by simp at hf; omega) ?_
      rw [cwp_pure]
      simpa using hQ
    · refine absurd (not_not.1 hx) fun e => (List.nodup_cons.1 hn).1 ?_
      rw [hlast] at e
      have := getLastD_mem (ls := l' :: r) (by simp)
      rw [← e] at this
      exact this

/-- At most `n` slots of level `l` are taken.  No code of its own. -/
def Few (s : CSt) (l n : Nat) : Prop :=
  ∃ F : Finset (Nat × Nat), F.card ≤ n ∧ ∀ b j, word s l b j ≠ 0#64 → (b, j) ∈ F

theorem Few.succ {l n : Nat} (h : Few s l n) : Few s l (n + 1) := by
  obtain ⟨F, h1, h2⟩ := h
  exact ⟨F, h1.trans (Nat.le_succ n), h2⟩

theorem ne_zero_of_offset {w : Word} (h : getOffset w ≠ 0#64) : w ≠ 0#64 := by
  rintro rfl
  exact h (by decide)

/-- A full bucket has eight slots that are taken. -/
theorem Few.not_full {l b n : Nat} (h : Few s l n) (hn : n < assocNum) :
    ¬ ∀ j, j < assocNum → getOffset (word s l b j) ≠ 0#64 := by
  obtain ⟨F, h1, h2⟩ := h
  intro hf
  have hsub : ({b} ×ˢ Finset.range assocNum : Finset (Nat × Nat)) ⊆ F := by
    rintro ⟨x, j⟩ hx
    simp only [Finset.mem_product, Finset.mem_singleton, Finset.mem_range] at hx
    rw [hx.1]
    exact h2 b j (ne_zero_of_offset (hf j hx.2))
  have := Finset.card_le_card hsub
  simp at this
  omega

/-- What moving the entry in slot `i` of bucket `eb` of the bottom level leaves behind.  No code of its own. -/
structure Moved (E : CEnv) (B : Prop) (p0 p : Nat) (ls : List Nat) (M : Word → Option Word) (J : Word → Prop) (eb i : Nat) (s s' : CSt) : Prop where
  inv : Inv E B p0 s' p ls M J
  exp : s'.exp = s.exp
  tn : s'.tn = s.tn
  root : s'.root = s.root
  here : word s' (ls.headD 0) eb i = 0#64
  there : ∀ j, j ≠ i → word s' (ls.headD 0) eb j = word s (ls.headD 0) eb j
  few : ∀ n, Few s (ls.getLastD 0) n → Few s' (ls.getLastD 0) (n + 1)

theorem head_ne_last (h : Inv E B p0 s p ls M J) : ls.headD 0 ≠ ls.getLastD 0 := by
  have hn := h.nodup
  have hl := h.len
  clear h
  obtain ⟨x, y, r, rfl⟩ : ∃ x y r, ls = x :: y :: r := by
    cases ls with
    | nil => simp at hl
    | cons x t => cases t with
      | nil => simp at hl
      | cons y r => exact ⟨x, y, r, rfl⟩
  intro e
  have := getLastD_mem (ls := y :: r) (by simp)
  rw [List.headD_cons, show (x :: y :: r).getLastD 0 = (y :: r).getLastD 0 from rfl] at e
  rw [← e] at this
  exact (List.nodup_cons.1 hn).1 this

theorem last_get (h : Inv E B p0 s p ls M J) : ls[ls.length - 1]? = some (ls.getLastD 0) := by
  have hl := h.len
  rw [List.getLastD_eq_getLast?, List.getLast?_eq_getElem?, List.getElem?_eq_getElem (by omega)]
  rfl

theorem head_get (h : Inv E B p0 s p ls M J) : ls[0]? = some (ls.headD 0) := by
  have hl := h.len
  clear h
  cases ls with
  | nil => simp at hl
  | cons x r => rfl

theorem head_geo (h : Inv E B p0 s p ls M J) : ∃ u, geo s (ls.headD 0) = some (2 ^ p, u) := by
  simpa using chain_get h.chain (head_get h)

theorem cwp_moveTo (h : Inv E B p0 s p ls M J) {Q : Bool → CSt → Prop} {eb i b j : Nat} (he : eb < 2 ^ p) (hi : i < assocNum)
    (hb : Home E key (2 ^ (p + ls.length - 1)) b) (hj : j < assocNum) (hv : view s (ls.headD 0) eb i = some (key, val))
    (ht : ∀ s', Moved E B p0 p ls M J eb i s s' → Q true s') (hf : getOffset (word s (ls.getLastD 0) b j) ≠ 0#64 → Q false s) :
    cwp (moveTo (ls.headD 0) eb i (ls.getLastD 0) b j (word s (ls.headD 0) eb i)) Q s := by
  have hlen := h.len
  have hget := last_get h
  have hb' : Home E key (2 ^ (p + (ls.length - 1))) b := by
    rw [show p + (ls.length - 1) = p + ls.length - 1 by omega]
    exact hb
  obtain ⟨-, ⟨c, u, hg, hbc⟩, -⟩ := h.inUse hget hb' hj
  obtain ⟨u0, hg0⟩ := head_geo h
  have hmem : ls.headD 0 ∈ ls := List.mem_of_getElem? (head_get h)
  have hu : InUse s ls (ls.headD 0) eb i := ⟨hmem, ⟨_, _, hg0, he⟩, hi⟩
  unfold moveTo
  rw [cwp_bind, cwp_rdSlot hg hbc hj]
  refine cwp_if (fun h0 => ?_) hf
  rw [cwp_bind, cwp_casSlot hg hbc hj, if_pos rfl, if_pos rfl, cwp_bind,
    cwp_wrSlot (s := s.setSlot _ _ _ _) (by rw [geo_setSlot]; exact hg0) he hi, cwp_pure]
  have hw1 := word_setSlot (b := b) (j := j) hg (word s (ls.headD 0) eb i)
  have hw2 := word_setSlot (s := s.setSlot (ls.getLastD 0) b j (word s (ls.headD 0) eb i)) (b := eb) (j := i)
    (by rw [geo_setSlot]; exact hg0) 0#64
  have hne := head_ne_last h
  refine ht _ ⟨h.move hget (by omega) hb' hj h0 hu hv, rfl, rfl, rfl, ?_, ?_, ?_⟩
  · rw [hw2, if_pos ⟨rfl, rfl, rfl⟩]
  · intro j' hj'
    rw [hw2, if_neg (fun x => hj' x.2.2), hw1, if_neg (fun x => hne x.1)]
  · rintro n ⟨F, h1, h2⟩
    refine ⟨Insert.insert (b, j) F, (Finset.card_insert_le _ _).trans (by omega), fun b' j' hx => ?_⟩
    rw [hw2, if_neg (fun x => hne x.1.symm), hw1] at hx
    rw [Finset.mem_insert]
    split at hx
    · rename_i e
      exact .inl (by rw [e.2.1, e.2.2])
    · exact .inr (h2 _ _ hx)

theorem cwp_moveSlots (h : Inv E B p0 s p ls M J) {Q : Bool → CSt → Prop} {eb i b1 b2 : Nat} (he : eb < 2 ^ p) (hi : i < assocNum)
    (hb1 : Home E key (2 ^ (p + ls.length - 1)) b1) (hb2 : Home E key (2 ^ (p + ls.length - 1)) b2)
    (hv : view s (ls.headD 0) eb i = some (key, val)) (ht : ∀ s', Moved E B p0 p ls M J eb i s s' → Q true s') :
    ∀ {js : List Nat}, (∀ j ∈ js, j < assocNum) → ((∀ j ∈ js, getOffset (word s (ls.getLastD 0) b1 j) ≠ 0#64) → Q false s) →
      cwp (moveSlots (ls.headD 0) eb i (ls.getLastD 0) b1 b2 (word s (ls.headD 0) eb i) js) Q s
  | [], _, hf => hf (by simp)
  | j :: js, hj, hf => by
    unfold moveSlots
    rw [cwp_bind]
    refine cwp_moveTo h he hi hb1 (hj j (by simp)) hv (fun s' hs' => ?_) (fun h1 => ?_)
    · rw [if_pos rfl]
      exact ht s' hs'
    · rw [if_neg (by decide), cwp_bind]
      refine cwp_moveTo h he hi hb2 (hj j (by simp)) hv (fun s' hs' => ?_) (fun _ => ?_)
      · rw [if_pos rfl]
        exact ht s' hs'
      · rw [if_neg (by decide)]
        exact cwp_moveSlots h he hi hb1 hb2 hv ht (fun x hx => hj x (by simp [hx]))
          (fun hx => hf (by rintro x (_ | ⟨_, hx'⟩); exacts [h1, hx x hx']))

/-- The loop over the slots of a bucket: it empties the bucket, or more than `i` slots of the top level are taken. -/
theorem cwp_rehashSlots {Q : Bool → CSt → Prop} {eb : Nat} (he : eb < 2 ^ p) (hlen : 2 < ls.length) :
    ∀ {n i : Nat} {s : CSt}, i + n = assocNum → Inv E B p0 s p ls M J → (∀ j, j < i → word s (ls.headD 0) eb j = 0#64) →
      (∀ s', Inv E B p0 s' p ls M J → s'.exp = s.exp → s'.tn = s.tn → s'.root = s.root → (∀ j, j < assocNum → word s' (ls.headD 0) eb j = 0#64) → Q true s') →
      (∀ s', Inv E B p0 s' p ls M J → s'.exp = s.exp → s'.tn = s.tn → s'.root = s.root → ¬ Few s (ls.getLastD 0) i → Q false s') →
      cwp (rehashSlots E (ls.headD 0) eb (ls.getLastD 0) (List.range' i n)) Q s
  | 0, i, s, hi, h, hz, ht, _ => by
    rw [List.range'_zero]
    exact ht s h rfl rfl rfl (fun j hj => hz j (by omega))
  | n + 1, i, s, hi, h, hz, ht, hf => by
    have hi' : i < assocNum := by omega
    obtain ⟨u0, hg0⟩ := head_geo h
    have hmem : ls.headD 0 ∈ ls := List.mem_of_getElem? (head_get h)
    have hu : InUse s ls (ls.headD 0) eb i := ⟨hmem, ⟨_, _, hg0, he⟩, hi'⟩
    have hnext : ∀ s', Moved E B p0 p ls M J eb i s s' ∨ (s' = s ∧ word s (ls.headD 0) eb i = 0#64) →
        cwp (rehashSlots E (ls.headD 0) eb (ls.getLastD 0) (List.range' (i + 1) n)) Q s' := by
      intro s' hs'
      have hI : Inv E B p0 s' p ls M J := by
        rcases hs' with hs' | ⟨rfl, -⟩
        · exact hs'.inv
        · exact h
      have hE : s'.exp = s.exp ∧ s'.tn = s.tn ∧ s'.root = s.root := by
        rcases hs' with hs' | ⟨rfl, -⟩
        · exact ⟨hs'.exp, hs'.tn, hs'.root⟩
        · exact ⟨rfl, rfl, rfl⟩
      refine cwp_rehashSlots he hlen (by omega) hI (fun j hj => ?_)
        (fun s2 h2 e1 e2 e3 hw => ht s2 h2 (e1.trans hE.1) (e2.trans hE.2.1) (e3.trans hE.2.2) hw)
        (fun s2 h2 e1 e2 e3 hw => hf s2 h2 (e1.trans hE.1) (e2.trans hE.2.1) (e3.trans hE.2.2) (fun hx => hw ?_))
      · rcases hs' with hs' | ⟨rfl, h0⟩
        · rcases Nat.lt_succ_iff_lt_or_eq.1 hj with hj | rfl
          · rw [hs'.there j (by omega), hz j hj]
          · exact hs'.here
        · rcases Nat.lt_succ_iff_lt_or_eq.1 hj with hj | rfl
          · exact hz j hj
          · exact h0
      · rcases hs' with hs' | ⟨rfl, -⟩
        · exact hs'.few i hx
        · exact hx.succ
    rw [List.range'_succ]
    unfold rehashSlots rehashSlot
    rw [cwp_bind, cwp_bind, cwp_rdSlot hg0 he hi']
    refine cwp_if (fun h0 => ?_) (fun h0 => ?_)
    · rw [cwp_pure, if_pos rfl]
      refine hnext s (.inr ⟨rfl, ?_⟩)
      rcases h.slots _ _ _ hu with hz | ⟨k, v, c, u, h1, -⟩
      · exact hz
      · exact absurd h0 h1
    · obtain ⟨k, v, c, u, hv, hh, -⟩ := (h.slots _ _ _ hu).of_ne h0
      rw [cwp_bind, cwp_rdKey hh]
      dsimp only
      rw [cwp_bind, cwp_rdCap (chain_last h.chain)]
      refine cwp_moveSlots h he hi' (.inl rfl) (.inr rfl) hv (fun s' hs' => ?_) (fun j hj => List.mem_range.1 hj) (fun hfull => ?_)
      · rw [if_pos rfl]
        exact hnext s' (.inl hs')
      · rw [if_neg (by decide), cwp_pure]
        exact hf s h rfl rfl rfl fun hx => hx.not_full hi' fun j hj => hfull j (List.mem_range.2 hj)

/-- Rehashing the next bucket: it ends (or the allocator throws), with that bucket empty and the counter one higher; the top level
may have grown by one. -/
theorem cwp_rehash (hB : B) (h : Inv E B p0 s p ls M J) {Q : Nat × Meta → CSt → Prop} (hlen : 2 < ls.length) {f : Nat}
    (hQ : ∀ s' ls', Inv E B p0 s' p ls' M J → 2 < ls'.length → s'.tn = s.tn → s'.exp = s.exp →
      (∀ j, j < assocNum → word s' (ls'.headD 0) s'.exp j = 0#64) →
      Q (s'.root, ⟨ls'.getLastD 0, ls'.headD 0, decide (2 < ls'.length)⟩) { s' with exp := s'.exp + 1 }) :
    cwp (rehash E (f + 2)) Q s := by
  unfold rehash
  rw [cwp_bind, cwp_rdMeta, cwp_bind, cwp_deMeta h.mt, cwp_bind, cwp_rdExp, cwp_bind, List.range_eq_range']
  refine cwp_rehashSlots (h.exp hB) hlen (Nat.zero_add _) h (by omega) (fun s1 h1 e1 e2 e3 hw => ?_) (fun s1 h1 e1 e2 e3 _ => ?_)
  · rw [if_pos rfl, cwp_bind, cwp_rdExp, cwp_bind, cwp_wrExp, cwp_pure, ← e3]
    exact hQ s1 ls h1 hlen e2 e1 (by rw [e1]; exact hw)
  · rw [if_neg (by decide), cwp_bind, ← e3]
    refine cwp_expand h1 h1.tn fun s2 n h2 hn hheap htmp htn hexp hw hz => ?_
    have hlen2 : 2 < (ls ++ [n]).length := by rw [List.length_append]; simp; omega
    have htop : (ls ++ [n]).getLastD 0 = n := by simp [List.getLastD_eq_getLast?]
    unfold rehash
    rw [cwp_bind, cwp_rdMeta, cwp_bind, cwp_deMeta h2.mt, cwp_bind, cwp_rdExp, cwp_bind, List.range_eq_range']
    refine cwp_rehashSlots (h2.exp hB) hlen2 (Nat.zero_add _) h2 (by omega) (fun s3 h3 e1' e2' e3' hw => ?_) (fun s3 h3 _ _ _ hx => ?_)
    · rw [if_pos rfl, cwp_bind, cwp_rdExp, cwp_bind, cwp_wrExp, cwp_pure, ← e3']
      exact hQ s3 _ h3 hlen2 (e2'.trans (htn.trans e2)) (e1'.trans (hexp.trans e1)) (by rw [e1']; exact hw)
    · refine absurd ⟨∅, by simp, fun b j hb => ?_⟩ hx
      rw [htop, hz] at hb
      exact absurd rfl hb

/-- Counting a bucket as done. -/
theorem Inv.bump (hB : B) (h : Inv E B p0 s p ls M J) (hlen : 2 < ls.length) (hlt : s.exp + 1 < 2 ^ p)
    (hz : ∀ j, j < assocNum → word s (ls.headD 0) s.exp j = 0#64) : Inv E B p0 { s with exp := s.exp + 1 } p ls M J :=
  { h with
    exp := fun _ => hlt
    exp2 := fun _ e => by omega
    done := fun _ b j hb hj => by
      rcases Nat.lt_succ_iff_lt_or_eq.1 hb with hb | rfl
      · exact h.done hB b j hb hj
      · exact hz j hj }

/-- The state after the background thread has installed the metadata without the bottom level (clevel:1548-1562).  No code of its
own. -/
def CSt.dropped (s : CSt) (X : Meta) : CSt :=
  { s with mt := fun m => if m = s.nm + 1 then some X else s.mt m, nm := s.nm + 1, tmpM := fun t' => if t' = 0 then s.nm + 1 else s.tmpM t', root := s.nm + 1, exp := 0 }

/-- Dropping the bottom level once every bucket of it is done. -/
theorem Inv.drop {l : Nat} (hB : B) (h : Inv E B p0 s p (l :: ls) M J) (hlen : 2 ≤ ls.length) (hlt : s.exp + 1 = 2 ^ p)
    (hz : ∀ j, j < assocNum → word s l s.exp j = 0#64) :
    Inv E B p0 (s.dropped ⟨ls.getLastD 0, ls.headD 0, decide (ls.length ≠ 2)⟩) (p + 1) ls M J := by
  generalize hs' : s.dropped ⟨ls.getLastD 0, ls.headD 0, decide (ls.length ≠ 2)⟩ = s'
  have hgeo : ∀ x, geo s' x = geo s x := fun x => by rw [← hs']; rfl
  have hw : ∀ x b j, word s' x b j = word s x b j := fun x b j => by rw [← hs']; rfl
  have hheap : s'.heap = s.heap := by rw [← hs']; rfl
  have hview : ∀ x b j, view s' x b j = view s x b j := fun x b j => by rw [← hs']; rfl
  have hne : ls ≠ [] := by rintro rfl; simp at hlen
  have hg0 := chain_head h.chain
  have hzero : ∀ b j, InUse s (l :: ls) l b j → word s l b j = 0#64 := by
    rintro b j ⟨-, ⟨c, u, hg, hb⟩, hj⟩
    rw [hg0] at hg
    cases hg
    rcases Nat.lt_succ_iff_lt_or_eq.1 (show b < s.exp + 1 by omega) with hb | rfl
    · exact h.done hB b j hb hj
    · exact hz j hj
  have huse : ∀ {x b j}, InUse s' ls x b j → InUse s (l :: ls) x b j := by
    rintro x b j ⟨hx, ⟨c, u, hg, hb⟩, hj⟩
    exact ⟨by simp [hx], ⟨c, u, by rw [← hgeo]; exact hg, hb⟩, hj⟩
  have huse' : ∀ {x b j}, InUse s (l :: ls) x b j → word s x b j ≠ 0#64 → InUse s' ls x b j := by
    rintro x b j ⟨hx, ⟨c, u, hg, hb⟩, hj⟩ hnz
    have hxl : x ≠ l := by
      rintro rfl
      exact hnz (hzero b j ⟨hx, ⟨c, u, hg, hb⟩, hj⟩)
    exact ⟨(List.mem_cons.1 hx).resolve_left hxl, ⟨c, u, by rw [hgeo]; exact hg, hb⟩, hj⟩
  have hch : Chain (geo s) (p + 1) ls := by
    have := chain_suffix (pre := [l]) h.chain hne
    simpa using this
  refine ⟨h.base, h.grown.trans (Nat.le_succ p), h.pool, ?_, chain_congr (fun x _ => hgeo x) hch, (List.nodup_cons.1 h.nodup).2, hlen,
    ?_, ?_, ?_, ?_, ?_, ?_, ?_, ?_, ?_, ?_, ?_, ?_, fun hx => h.pos (by simp [hx]), ?_, ?_, ?_⟩
  · have := h.fit
    rw [List.length_cons] at this
    rw [show p + 1 + ls.length - 1 = p + (ls.length + 1) - 1 by omega]
    exact this
  · rw [← hs']
    have : decide (ls.length ≠ 2) = decide (2 < ls.length) := by
      congr 1
      exact propext (by omega)
    simp [CSt.dropped, this]
  · intro x hx
    rw [← hs']
    exact h.nl x (by simp [hx])
  · rw [← hs']
    exact le_refl _
  · rw [← hs']
    exact h.tn
  · intro x b j hu
    rcases h.slots x b j (huse hu) with h1 | ⟨k, v, c, u, h1, h2, h3, h4, h5⟩
    · exact .inl (by rw [hw]; exact h1)
    · exact .inr ⟨k, v, c, u, by rw [hw]; exact h1, by rw [hw, hheap]; exact h2, by rw [hw]; exact h3, by rw [hgeo]; exact h4, h5⟩
  · intro x b j x' b' j' hu hu' k v v' hv hv'
    rw [hview] at hv hv'
    exact h.uniq _ _ _ _ _ _ (huse hu) (huse hu') k v v' hv hv'
  · intro k v
    rw [h.rep]
    constructor
    · rintro ⟨x, b, j, hu, hv⟩
      exact ⟨x, b, j, huse' hu (ne_zero_of_offset (view_some hv).1), by rw [hview, hv]⟩
    · rintro ⟨x, b, j, hu, hv⟩
      exact ⟨x, b, j, huse hu, by rw [← hview, hv]⟩
  · intro o e he
    rw [hheap] at he
    obtain ⟨hg, h2⟩ := h.live o e he
    refine ⟨hg, h2.imp_right ?_⟩
    rintro ⟨x, b, j, hu, ho⟩
    exact ⟨x, b, j, huse' hu (ne_zero_of_offset (by rw [ho]; exact hg.1)), by rw [hw, ho]⟩
  · intro o ho
    obtain ⟨h1, h2⟩ := h.junk o ho
    exact ⟨by rw [hheap]; exact h1, fun x b j hu => by rw [hw]; exact h2 x b j (huse hu)⟩
  · rw [← hs']
    exact fun _ => Nat.pos_of_ne_zero (pow_ne_zero _ (by decide))
  · rw [← hs']
    exact fun _ _ => rfl
  · intro _ b j hb _
    rw [← hs'] at hb
    exact absurd hb (Nat.not_lt_zero b)
  · intro x c u hx hg b j hb hj
    rw [hgeo] at hg
    rw [hw]
    by_cases hxl : x = l
    · subst hxl
      exact hzero b j ⟨by simp, ⟨c, u, hg, hb⟩, hj⟩
    · exact h.gone x c u (by simp [hx, hxl]) hg b j hb hj
  · intro x hx
    rw [hgeo]
    exact h.fresh x (by rw [← hs'] at hx; exact hx)
  · intro m hm
    have hm' : s.nm + 1 < m := by rw [← hs'] at hm; exact hm
    rw [← hs']
    simp only [CSt.dropped, if_neg (show m ≠ s.nm + 1 by omega)]
    exact h.mfresh m (by omega)

/-- A round of the background thread that runs alone ends (or the allocator throws), and the table still holds the same map. -/
theorem cwp_round (hB : B) (h : Inv E B p0 s p ls M J) {Q : Unit → CSt → Prop} {lf f : Nat} (hlf : maxLevel ≤ lf)
    (hQ : ∀ s' p' ls', Inv E B p0 s' p' ls' M J → s'.tn = s.tn → Q () s') : cwp (round E lf (f + 2)) Q s := by
  unfold round
  rw [cwp_bind, cwp_rdMeta, cwp_bind, cwp_deMeta h.mt, cwp_bind]
  have hlev := h.levels
  have hlen := h.len
  dsimp only
  obtain ⟨l, r, rfl⟩ : ∃ l r, ls = l :: r := by
    cases ls with
    | nil => simp at hlen
    | cons l r => exact ⟨l, r, rfl⟩
  rw [List.length_cons] at hlev hlen
  refine cwp_countUp h.chain h.nodup (by have : maxLevel = 16 := rfl; omega) ?_
  refine cwp_if (fun _ => hQ s p _ h rfl) (fun hc => ?_)
  rw [cwp_bind]
  refine cwp_rehash hB h (by rw [List.length_cons]; omega) fun s1 ls1 h1 hlen1 htn hexp hz => ?_
  dsimp only
  obtain ⟨u, hg⟩ := head_geo h1
  rw [cwp_bind, cwp_rdExp, cwp_bind, cwp_rdCap (s := { s1 with exp := s1.exp + 1 }) hg]
  dsimp only
  have hlt := h1.exp hB
  refine cwp_if (fun he => ?_) (fun he => ?_)
  · have hlev1 := h1.levels
    obtain ⟨l1, r1, rfl⟩ : ∃ l r, ls1 = l :: r := by
      cases ls1 with
      | nil => simp at hlen1
      | cons l r => exact ⟨l, r, rfl⟩
    rw [List.length_cons] at hlev1 hlen1
    unfold dropLoop
    rw [cwp_bind]
    refine cwp_countUp (s := { s1 with exp := s1.exp + 1 }) h1.chain h1.nodup (by have : maxLevel = 16 := rfl; omega) ?_
    have hup := chain_head h1.chain
    rw [cwp_bind]
    dsimp only [List.headD_cons]
    rw [cwp_rdUp (s := { s1 with exp := s1.exp + 1 }) hup, cwp_bind, cwp_newMeta (s := { s1 with exp := s1.exp + 1 }) h1.tn, cwp_bind,
      cwp_rdTmpMeta (by exact h1.tn), cwp_bind, cwp_casMeta, if_pos rfl, if_pos rfl, cwp_wrExp]
    have hr1 : (l1 :: r1).getLastD 0 = r1.getLastD 0 := by
      cases r1 with
      | nil => simp at hlen1
      | cons x y => rfl
    have := h1.drop hB (by omega) he hz
    rw [← hr1] at this
    exact hQ _ _ _ this htn
  · exact hQ _ _ _ (h1.bump hB hlen1 (by omega) hz) htn

end PMap.Clevel
