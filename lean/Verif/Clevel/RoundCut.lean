import Verif.Clevel.Reopen

/-!
# What a round of the background thread that is cut short leaves behind
-/

namespace PMap.Clevel

open CP

variable {E : CEnv} {B : Prop} {p0 : Nat} {s : CSt} {p : Nat} {ls : List Nat} {M : Word → Option Word} {J : Word → Prop} {key val : Word}
variable {K : CSt → Prop}

/-- An entry of the bottom level is in the top level too (between clevel:1493 and 1499, or 1510 and 1516).  No code of its own. -/
def Moving (s : CSt) : Prop := ∃ X L T, s.mt s.root = some X ∧ s.lv X.last = some L ∧ s.lv X.first = some T ∧
  ∃ b < L.cap, ∃ i < assocNum, ∃ b' < T.cap, ∃ j < assocNum, getOffset (L.slot b i) ≠ 0#64 ∧ T.slot b' j = L.slot b i

/-- The position of the background thread is a bucket of the bottom level, the buckets below it are empty, and without a level to move it
is 0.  No code of its own. -/
def Settled (s : CSt) : Prop := ∃ X L, s.mt s.root = some X ∧ s.lv X.last = some L ∧ s.exp < L.cap ∧ (X.resizing = false → s.exp = 0) ∧
  ∀ b < s.exp, ∀ j < assocNum, L.slot b j = 0#64

/-- A table with its invariant is at rest, if the background thread may run. -/
theorem Inv.settled (hB : B) (h : Inv E B p0 s p ls M J) : Settled s := by
  obtain ⟨u, hg⟩ := head_geo h
  obtain ⟨L, hL, hcap, -, hw⟩ := geo_some hg
  have hlen := h.len
  refine ⟨_, L, h.mt, hL, by rw [hcap]; exact h.exp hB, fun hx => h.exp2 hB ?_, fun b hb j hj => by rw [← hw]; exact h.done hB b j hb hj⟩
  have : ¬ 2 < ls.length := by simpa using hx
  omega

/-- The position does not matter if the background thread does not run. -/
theorem Inv.anywhere (h : Inv E B p0 s p ls M J) (n : Nat) : Inv E False p0 { s with exp := n } p ls M J :=
  { h with exp := False.elim, exp2 := False.elim, done := False.elim }

/-- If the table is at rest the background thread may run. -/
theorem Inv.settle (h : Inv E False p0 s p ls M J) (hs : Settled s) : Inv E B p0 s p ls M J := by
  obtain ⟨X, L, h1, h2, h3, h4, h5⟩ := hs
  obtain ⟨u, hg⟩ := head_geo h
  obtain ⟨L', hL', hcap, -, hw⟩ := geo_some hg
  rw [h.mt] at h1
  cases h1
  dsimp only at h2 h4
  rw [hL'] at h2
  cases h2
  exact { h with
    exp := fun _ => by rw [← hcap]; exact h3
    exp2 := fun _ e => h4 (by simp [e])
    done := fun _ b j hb hj => by rw [hw]; exact h5 b hb j hj }

theorem Inv.weaken {B' : Prop} (hBB : B' → B) (h : Inv E B p0 s p ls M J) : Inv E B' p0 s p ls M J :=
  { h with exp := fun b => h.exp (hBB b), exp2 := fun b => h.exp2 (hBB b), done := fun b => h.done (hBB b) }

theorem gcwp_wrExp {Q : Unit → CSt → Prop} {n : Nat} (hG : K { s with exp := n }) (h : Q () { s with exp := n }) :
    gcwp (fun _ t => K t) (wrExp n) Q s := ⟨.inr hG, h⟩

theorem gcwp_wrSlot {Q : Unit → CSt → Prop} {l b j c u : Nat} {w : Word} (h : geo s l = some (c, u)) (hb : b < c) (hj : j < assocNum)
    (hG : K (s.setSlot l b j w)) (hQ : Q () (s.setSlot l b j w)) : gcwp (fun _ t => K t) (wrSlot l b j w) Q s := by
  obtain ⟨L, hL, rfl, -, hw⟩ := geo_some h
  simp only [wrSlot, atom, gcwp, hL, hb, hj, and_self, if_true]
  exact ⟨.inr hG, hQ⟩

theorem gcwp_countUp {G : CSt → CSt → Prop} {Q : Nat → CSt → Prop} : ∀ {r : List Nat} {l p f : Nat}, Chain (geo s) p (l :: r) → (l :: r).Nodup →
    r.length < f → Q r.length s → gcwp G (countUp ((l :: r).getLastD 0) f l) Q s
  | _, _, _, 0, _, _, hf, _ => by omega
  | [], l, p, f + 1, _, _, _, hQ => by
    unfold countUp
    refine gcwp_if (fun hc => absurd rfl hc) (fun _ => hQ)
  | l' :: r, l, p, f + 1, hc, hn, hf, hQ => by
    unfold countUp
    have hlast : (l :: l' :: r).getLastD 0 = (l' :: r).getLastD 0 := rfl
    refine gcwp_if (fun _ => ?_) (fun hx => ?_)
    · rw [gcwp_bind, gcwp_rdUp hc.1, gcwp_bind, hlast]
      refine gcwp_countUp hc.2 (List.nodup_cons.1 hn).2 (by simp at hf; omega) ?_
      rw [gcwp_pure]
      simpa using hQ
    · refine absurd (not_not.1 hx) fun e => (List.nodup_cons.1 hn).1 ?_
      rw [hlast] at e
      have := getLastD_mem (ls := l' :: r) (by simp)
      rw [← e] at this
      exact this

theorem gcwp_moveTo (h : Inv E B p0 s p ls M J) {Q : Bool → CSt → Prop} {eb i b j : Nat} (he : eb < 2 ^ p) (hi : i < assocNum)
    (hb : Home E key (2 ^ (p + ls.length - 1)) b) (hj : j < assocNum) (hv : view s (ls.headD 0) eb i = some (key, val))
    (hK1 : ∀ s', Inv E B p0 s' p ls M J → s'.tn = s.tn → K s') (hK2 : ∀ s', Moving s' → s'.tn = s.tn → K s')
    (ht : ∀ s', Moved E B p0 p ls M J eb i s s' → Q true s') (hf : getOffset (word s (ls.getLastD 0) b j) ≠ 0#64 → Q false s) :
    gcwp (fun _ t => K t) (moveTo (ls.headD 0) eb i (ls.getLastD 0) b j (word s (ls.headD 0) eb i)) Q s := by
  have hlen := h.len
  have hget := last_get h
  have hb' : Home E key (2 ^ (p + (ls.length - 1))) b := by
    rw [show p + (ls.length - 1) = p + ls.length - 1 by omega]
    exact hb
  obtain ⟨-, ⟨c, u, hg, hbc⟩, -⟩ := h.inUse hget hb' hj
  obtain ⟨u0, hg0⟩ := head_geo h
  have hmem : ls.headD 0 ∈ ls := List.mem_of_getElem? (head_get h)
  have hu : InUse s ls (ls.headD 0) eb i := ⟨hmem, ⟨_, _, hg0, he⟩, hi⟩
  unfold moveTo
  rw [gcwp_bind, gcwp_rdSlot hg hbc hj]
  refine gcwp_if (fun h0 => ?_) hf
  have hw1 := word_setSlot (b := b) (j := j) hg (word s (ls.headD 0) eb i)
  have hw2 := word_setSlot (s := s.setSlot (ls.getLastD 0) b j (word s (ls.headD 0) eb i)) (b := eb) (j := i)
    (by rw [geo_setSlot]; exact hg0) 0#64
  have hne := head_ne_last h
  have hinv := h.move hget (by omega) hb' hj h0 hu hv
  rw [gcwp_bind]
  refine gcwp_casSlot hg hbc hj (hK2 _ ?_ rfl) ?_
  · have hgl := hg
    rw [← geo_setSlot (ls.getLastD 0) b j (word s (ls.headD 0) eb i)] at hgl
    have hgh := hg0
    rw [← geo_setSlot (ls.getLastD 0) b j (word s (ls.headD 0) eb i)] at hgh
    obtain ⟨T, hT, hTc, -, hTw⟩ := geo_some hgl
    obtain ⟨L, hL, hLc, -, hLw⟩ := geo_some hgh
    refine ⟨_, L, T, h.mt, hL, hT, eb, by rw [hLc]; exact he, i, hi, b, by rw [hTc]; exact hbc, j, hj, ?_, ?_⟩
    · rw [← hLw, hw1, if_neg (fun x => hne x.1)]
      exact (view_some hv).1
    · rw [← hLw, ← hTw, hw1, if_pos ⟨rfl, rfl, rfl⟩, hw1, if_neg (fun x => hne x.1)]
  rw [if_pos rfl, gcwp_bind]
  refine gcwp_wrSlot (s := s.setSlot _ _ _ _) (by rw [geo_setSlot]; exact hg0) he hi (hK1 _ hinv rfl) ?_
  rw [gcwp_pure]
  refine ht _ ⟨hinv, rfl, rfl, rfl, ?_, ?_, ?_⟩
  · rw [hw2, if_pos ⟨rfl, rfl, rfl⟩]
  · intro j' hj'
    rw [hw2, if_neg (fun x => hj' x.2.2), hw1, if_neg (fun x => hne x.1)]
  · rintro n ⟨F, h1, h2⟩
    refine ⟨Insert.insert (b, j) F, (Finset.card_insert_le _ _).trans (by omega), fun b' j' hx => ?_⟩
    rw [hw2, if_neg (fun x => hne x.1.symm), hw1] at hx
    rw [Finset.mem_insert]
    split at hx
    · rename_i e
      exact .inl (by rw [e.2.1, e.2.2])
    · exact .inr (h2 _ _ hx)

theorem gcwp_moveSlots (h : Inv E B p0 s p ls M J) {Q : Bool → CSt → Prop} {eb i b1 b2 : Nat} (he : eb < 2 ^ p) (hi : i < assocNum)
    (hb1 : Home E key (2 ^ (p + ls.length - 1)) b1) (hb2 : Home E key (2 ^ (p + ls.length - 1)) b2)
    (hv : view s (ls.headD 0) eb i = some (key, val))
    (hK1 : ∀ s', Inv E B p0 s' p ls M J → s'.tn = s.tn → K s') (hK2 : ∀ s', Moving s' → s'.tn = s.tn → K s')
    (ht : ∀ s', Moved E B p0 p ls M J eb i s s' → Q true s') :
    ∀ {js : List Nat}, (∀ j ∈ js, j < assocNum) → ((∀ j ∈ js, getOffset (word s (ls.getLastD 0) b1 j) ≠ 0#64) → Q false s) →
      gcwp (fun _ t => K t) (moveSlots (ls.headD 0) eb i (ls.getLastD 0) b1 b2 (word s (ls.headD 0) eb i) js) Q s
  | [], _, hf => hf (by simp)
  | j :: js, hj, hf => by
    unfold moveSlots
    rw [gcwp_bind]
    refine gcwp_moveTo h he hi hb1 (hj j (by simp)) hv hK1 hK2 (fun s' hs' => ?_) (fun h1 => ?_)
    · rw [if_pos rfl]
      exact ht s' hs'
    · rw [if_neg (by decide), gcwp_bind]
      refine gcwp_moveTo h he hi hb2 (hj j (by simp)) hv hK1 hK2 (fun s' hs' => ?_) (fun _ => ?_)
      · rw [if_pos rfl]
        exact ht s' hs'
      · rw [if_neg (by decide)]
        exact gcwp_moveSlots h he hi hb1 hb2 hv hK1 hK2 ht (fun x hx => hj x (by simp [hx]))
          (fun hx => hf (by rintro x (_ | ⟨_, hx'⟩); exacts [h1, hx x hx']))

theorem gcwp_rehashSlots {Q : Bool → CSt → Prop} {eb N : Nat} (he : eb < 2 ^ p) (hlen : 2 < ls.length)
    (hK1 : ∀ s', Inv E B p0 s' p ls M J → s'.tn = N → K s') (hK2 : ∀ s', Moving s' → s'.tn = N → K s') :
    ∀ {n i : Nat} {s : CSt}, i + n = assocNum → Inv E B p0 s p ls M J → s.tn = N → (∀ j, j < i → word s (ls.headD 0) eb j = 0#64) →
      (∀ s', Inv E B p0 s' p ls M J → s'.exp = s.exp → s'.tn = s.tn → s'.root = s.root → (∀ j, j < assocNum → word s' (ls.headD 0) eb j = 0#64) → Q true s') →
      (∀ s', Inv E B p0 s' p ls M J → s'.exp = s.exp → s'.tn = s.tn → s'.root = s.root → ¬ Few s (ls.getLastD 0) i → Q false s') →
      gcwp (fun _ t => K t) (rehashSlots E (ls.headD 0) eb (ls.getLastD 0) (List.range' i n)) Q s
  | 0, i, s, hi, h, _, hz, ht, _ => by
    rw [List.range'_zero]
    exact ht s h rfl rfl rfl (fun j hj => hz j (by omega))
  | n + 1, i, s, hi, h, hN, hz, ht, hf => by
    have hi' : i < assocNum := by omega
    obtain ⟨u0, hg0⟩ := head_geo h
    have hmem : ls.headD 0 ∈ ls := List.mem_of_getElem? (head_get h)
    have hu : InUse s ls (ls.headD 0) eb i := ⟨hmem, ⟨_, _, hg0, he⟩, hi'⟩
    have hnext : ∀ s', Moved E B p0 p ls M J eb i s s' ∨ (s' = s ∧ word s (ls.headD 0) eb i = 0#64) →
        gcwp (fun _ t => K t) (rehashSlots E (ls.headD 0) eb (ls.getLastD 0) (List.range' (i + 1) n)) Q s' := by
      intro s' hs'
      have hI : Inv E B p0 s' p ls M J := by
        rcases hs' with hs' | ⟨rfl, -⟩
        · exact hs'.inv
        · exact h
      have hE : s'.exp = s.exp ∧ s'.tn = s.tn ∧ s'.root = s.root := by
        rcases hs' with hs' | ⟨rfl, -⟩
        · exact ⟨hs'.exp, hs'.tn, hs'.root⟩
        · exact ⟨rfl, rfl, rfl⟩
      refine gcwp_rehashSlots he hlen hK1 hK2 (by omega) hI (hE.2.1.trans hN) (fun j hj => ?_)
        (fun s2 h2 e1 e2 e3 hw => ht s2 h2 (e1.trans hE.1) (e2.trans hE.2.1) (e3.trans hE.2.2) hw)
        (fun s2 h2 e1 e2 e3 hw => hf s2 h2 (e1.trans hE.1) (e2.trans hE.2.1) (e3.trans hE.2.2) (fun hx => hw ?_))
      · rcases hs' with hs' | ⟨rfl, h0⟩
        · rcases Nat.lt_succ_iff_lt_or_eq.1 hj with hj | rfl
          · rw [hs'.there j (by omega), hz j hj]
          · exact hs'.here
        · rcases Nat.lt_succ_iff_lt_or_eq.1 hj with hj | rfl
          · exact hz j hj
          · exact h0
      · rcases hs' with hs' | ⟨rfl, -⟩
        · exact hs'.few i hx
        · exact hx.succ
    rw [List.range'_succ]
    unfold rehashSlots rehashSlot
    rw [gcwp_bind, gcwp_bind, gcwp_rdSlot hg0 he hi']
    refine gcwp_if (fun h0 => ?_) (fun h0 => ?_)
    · rw [gcwp_pure, if_pos rfl]
      refine hnext s (.inr ⟨rfl, ?_⟩)
      rcases h.slots _ _ _ hu with hz | ⟨k, v, c, u, h1, -⟩
      · exact hz
      · exact absurd h0 h1
    · obtain ⟨k, v, c, u, hv, hh, -⟩ := (h.slots _ _ _ hu).of_ne h0
      rw [gcwp_bind, gcwp_rdKey hh]
      dsimp only
      rw [gcwp_bind, gcwp_rdCap (chain_last h.chain)]
      refine gcwp_moveSlots h he hi' (.inl rfl) (.inr rfl) hv (fun s' h' e => hK1 s' h' (e.trans hN)) (fun s' h' e => hK2 s' h' (e.trans hN))
        (fun s' hs' => ?_) (fun j hj => List.mem_range.1 hj) (fun hfull => ?_)
      · rw [if_pos rfl]
        exact hnext s' (.inl hs')
      · rw [if_neg (by decide), gcwp_pure]
        exact hf s h rfl rfl rfl fun hx => hx.not_full hi' fun j hj => hfull j (List.mem_range.2 hj)

/-- What a round leaves behind wherever it is cut: the same map, or an entry is in two places, or the table was about to grow.  No code of
its own. -/
def RoundCut (E : CEnv) (p0 n : Nat) (M : Word → Option Word) (J : Word → Prop) (t : CSt) : Prop :=
  t.tn = n ∧ ((∃ p ls, Inv E False p0 t p ls M J) ∨ Moving t ∨ Linked t)

theorem gcwp_rehash {N : Nat} (hB : B) (h : Inv E B p0 s p ls M J) (hN : s.tn = N) {Q : Nat × Meta → CSt → Prop} (hlen : 2 < ls.length) {f : Nat}
    (hQ : ∀ s' ls', Inv E B p0 s' p ls' M J → 2 < ls'.length → s'.tn = N → (∀ j, j < assocNum → word s' (ls'.headD 0) s'.exp j = 0#64) →
      Q (s'.root, ⟨ls'.getLastD 0, ls'.headD 0, decide (2 < ls'.length)⟩) { s' with exp := s'.exp + 1 }) :
    gcwp (fun _ t => RoundCut E p0 N M J t) (rehash E (f + 2)) Q s := by
  have hK1 : ∀ s' p' ls', Inv E B p0 s' p' ls' M J → s'.tn = N → RoundCut E p0 N M J s' :=
    fun s' p' ls' h' e => ⟨e, .inl ⟨p', ls', h'.weaken False.elim⟩⟩
  have hK2 : ∀ s', Moving s' → s'.tn = N → RoundCut E p0 N M J s' := fun s' h' e => ⟨e, .inr (.inl h')⟩
  have hK3 : ∀ s' ls', Inv E B p0 s' p ls' M J → s'.tn = N → RoundCut E p0 N M J { s' with exp := s'.exp + 1 } :=
    fun s' ls' h' e => ⟨e, .inl ⟨p, ls', h'.anywhere _⟩⟩
  unfold rehash
  rw [gcwp_bind, gcwp_rdMeta, gcwp_bind, gcwp_deMeta h.mt, gcwp_bind, gcwp_rdExp, gcwp_bind, List.range_eq_range']
  refine gcwp_rehashSlots (h.exp hB) hlen (fun s' h' e => hK1 s' _ _ h' e) hK2 (Nat.zero_add _) h hN (by omega) (fun s1 h1 e1 e2 e3 hw => ?_)
    (fun s1 h1 e1 e2 e3 _ => ?_)
  · rw [if_pos rfl, gcwp_bind, gcwp_rdExp, gcwp_bind]
    refine gcwp_wrExp (hK3 s1 ls h1 (e2.trans hN)) ?_
    rw [gcwp_pure, ← e3]
    exact hQ s1 ls h1 hlen (e2.trans hN) (by rw [e1]; exact hw)
  · rw [if_neg (by decide), gcwp_bind, ← e3]
    refine gcwp_expand h1 h1.tn (fun s' ls' h' e => hK1 s' _ _ h' (e.trans (e2.trans hN)))
      (fun s' _ hl e => ⟨e.trans (e2.trans hN), .inr (.inr hl)⟩) fun s2 n h2 hn hheap htmp htn hz => ?_
    have hlen2 : 2 < (ls ++ [n]).length := by rw [List.length_append]; simp; omega
    have htop : (ls ++ [n]).getLastD 0 = n := by simp [List.getLastD_eq_getLast?]
    have hN2 : s2.tn = N := htn.trans (e2.trans hN)
    unfold rehash
    rw [gcwp_bind, gcwp_rdMeta, gcwp_bind, gcwp_deMeta h2.mt, gcwp_bind, gcwp_rdExp, gcwp_bind, List.range_eq_range']
    refine gcwp_rehashSlots (h2.exp hB) hlen2 (fun s' h' e => hK1 s' _ _ h' e) hK2 (Nat.zero_add _) h2 hN2 (by omega)
      (fun s3 h3 e1' e2' e3' hw => ?_) (fun s3 h3 _ _ _ hx => ?_)
    · rw [if_pos rfl, gcwp_bind, gcwp_rdExp, gcwp_bind]
      refine gcwp_wrExp (hK3 s3 _ h3 (e2'.trans hN2)) ?_
      rw [gcwp_pure, ← e3']
      exact hQ s3 _ h3 hlen2 (e2'.trans hN2) (by rw [e1']; exact hw)
    · refine absurd ⟨∅, by simp, fun b j hb => ?_⟩ hx
      rw [htop, hz] at hb
      exact absurd rfl hb

/-- New metadata that nothing refers to yet. -/
theorem Inv.spareMeta (h : Inv E B p0 s p ls M J) {t : Nat} {X : Meta} : Inv E B p0 { s with mt := fun m => if m = s.nm + 1 then some X else s.mt m, nm := s.nm + 1, tmpM := fun t' => if t' = t then s.nm + 1 else s.tmpM t' } p ls M J := by
  have hne : s.root ≠ s.nm + 1 := by have := h.nm; omega
  exact { h with
    mt := by
      show (if s.root = s.nm + 1 then some X else s.mt s.root) = _
      rw [if_neg hne]
      exact h.mt
    nm := h.nm.trans (Nat.le_succ _)
    mfresh := fun m hm => by
      have hm' : s.nm + 1 < m := hm
      show (if m = s.nm + 1 then some X else s.mt m) = none
      rw [if_neg (by omega)]
      exact h.mfresh m (by omega) }

/-- A round that may be cut anywhere. -/
theorem gcwp_round {N : Nat} (hB : B) (h : Inv E B p0 s p ls M J) (hN : s.tn = N) {Q : Unit → CSt → Prop} {lf f : Nat} (hlf : maxLevel ≤ lf)
    (hQ : ∀ s' p' ls', Inv E B p0 s' p' ls' M J → s'.tn = N → Q () s') :
    gcwp (fun _ t => RoundCut E p0 N M J t) (round E lf (f + 2)) Q s := by
  unfold round
  rw [gcwp_bind, gcwp_rdMeta, gcwp_bind, gcwp_deMeta h.mt, gcwp_bind]
  have hlev := h.levels
  have hlen := h.len
  dsimp only
  obtain ⟨l, r, rfl⟩ : ∃ l r, ls = l :: r := by
    cases ls with
    | nil => simp at hlen
    | cons l r => exact ⟨l, r, rfl⟩
  rw [List.length_cons] at hlev hlen
  refine gcwp_countUp h.chain h.nodup (by have : maxLevel = 16 := rfl; omega) ?_
  refine gcwp_if (fun _ => hQ s p _ h hN) (fun hc => ?_)
  rw [gcwp_bind]
  refine gcwp_rehash hB h hN (by rw [List.length_cons]; omega) fun s1 ls1 h1 hlen1 htn hz => ?_
  dsimp only
  obtain ⟨u, hg⟩ := head_geo h1
  rw [gcwp_bind, gcwp_rdExp, gcwp_bind, gcwp_rdCap (s := { s1 with exp := s1.exp + 1 }) hg]
  dsimp only
  have hlt := h1.exp hB
  refine gcwp_if (fun he => ?_) (fun he => ?_)
  · have hlev1 := h1.levels
    obtain ⟨l1, r1, rfl⟩ : ∃ l r, ls1 = l :: r := by
      cases ls1 with
      | nil => simp at hlen1
      | cons l r => exact ⟨l, r, rfl⟩
    rw [List.length_cons] at hlev1 hlen1
    have hr1 : (l1 :: r1).getLastD 0 = r1.getLastD 0 := by
      cases r1 with
      | nil => simp at hlen1
      | cons x y => rfl
    have hdrop := h1.drop hB (by omega) he hz
    rw [← hr1] at hdrop
    unfold dropLoop
    rw [gcwp_bind]
    refine gcwp_countUp (s := { s1 with exp := s1.exp + 1 }) h1.chain h1.nodup (by have : maxLevel = 16 := rfl; omega) ?_
    have hup := chain_head h1.chain
    rw [gcwp_bind]
    dsimp only [List.headD_cons]
    rw [gcwp_rdUp (s := { s1 with exp := s1.exp + 1 }) hup, gcwp_bind]
    refine gcwp_newMeta (s := { s1 with exp := s1.exp + 1 }) h1.tn fun s2 hs2 => ⟨?_, ?_⟩
    · rw [hs2]
      exact ⟨htn, .inl ⟨_, _, (h1.anywhere _).spareMeta⟩⟩
    · have htm : s2.tmpM 0 = s1.nm + 1 := by rw [hs2]; simp
      rw [gcwp_bind, gcwp_rdTmpMeta (by rw [hs2]; exact h1.tn), htm, gcwp_bind]
      have hd : { s2 with root := s1.nm + 1, exp := 0 } =
          s1.dropped ⟨(l1 :: r1).getLastD 0, r1.headD 0, decide (r1.length ≠ 2)⟩ := by
        rw [hs2]
        rfl
      have hI : Inv E B p0 { s2 with root := s1.nm + 1, exp := 0 } (p + 1) r1 M J := by
        rw [hd]
        exact hdrop
      refine gcwp_casMeta (by rw [hs2]) ⟨by rw [hs2]; exact htn, .inl ⟨_, _, hI.anywhere s2.exp⟩⟩ ?_
      rw [if_pos rfl]
      exact gcwp_wrExp ⟨by rw [hs2]; exact htn, .inl ⟨_, _, hI.weaken False.elim⟩⟩ (hQ _ _ _ hI (by rw [hs2]; exact htn))
  · exact hQ _ _ _ (h1.bump hB hlen1 (by omega) hz) htn

end PMap.Clevel
