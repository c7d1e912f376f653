import Verif.Clevel.Rely

/-!
# What the background thread guarantees to searches
-/

namespace PMap.Clevel

open CP

variable {E : CEnv} {B : Prop} {p0 : Nat} {s t : CSt} {p : Nat} {ls : List Nat} {M : Word → Option Word} {J : Word → Prop} {key val : Word}

/-- A step that changes nothing searches look at.  No code of its own. -/
structure Quiet (s t : CSt) : Prop where
  heap : t.heap = s.heap
  root : t.root = s.root
  mt : ∀ m X, s.mt m = some X → t.mt m = some X
  geo : ∀ l c u, geo s l = some (c, u) → ∃ u', geo t l = some (c, u') ∧ (u ≠ 0 → u' = u)
  word : ∀ l c u, Clevel.geo s l = some (c, u) → ∀ b j, word t l b j = word s l b j
  new : ∀ l, Clevel.geo s l = none → ∀ b j, Clevel.word t l b j = 0#64

theorem word_none {l : Nat} (h : geo s l = none) (b j : Nat) : word s l b j = 0#64 := by
  unfold geo at h
  unfold word
  cases hl : s.lv l with
  | none => rfl
  | some L => simp [hl] at h

theorem Quiet.rely (h : Quiet s t) : Rely s t where
  heap := h.heap
  mt := h.mt
  geo := h.geo
  root := h.root.ge
  keep := fun _ X _ l b j h0 => by
    cases hg : Clevel.geo s l with
    | none =>
      rw [word_none hg] at h0
      exact absurd (by decide) h0
    | some x => exact .inl (h.word l x.1 x.2 hg b j)

theorem Quiet.rinv (h : Quiet s t) (hI : RInv E M s) : RInv E M t where
  heap0 := by rw [h.heap]; exact hI.heap0
  slots := fun l c u b j hg hb hj => by
    cases hs : Clevel.geo s l with
    | none => exact .inl (h.new l hs b j)
    | some x =>
      obtain ⟨c', u'⟩ := x
      obtain ⟨u2, hg2, -⟩ := h.geo l c' u' hs
      rw [hg] at hg2
      cases hg2
      rw [h.word l c u' hs, h.heap]
      exact hI.slots l c u' b j hs hb hj
  root := by
    obtain ⟨p, ls, X, h1, h2, h3, h4, h5, h6, h7, h8⟩ := hI.root
    refine ⟨p, ls, X, h1, h2, h3, by rw [h.root]; exact h.mt _ _ h4, h5, h6, seg_mono h.geo h7, fun k hk => ?_⟩
    obtain ⟨l, b, j, v, ⟨hl, ⟨c, u, hg, hb⟩, hj⟩, hv⟩ := h8 k hk
    obtain ⟨u', hg', -⟩ := h.geo l c u hg
    refine ⟨l, b, j, v, ⟨hl, ⟨c, u', hg', hb⟩, hj⟩, ?_⟩
    unfold view
    rw [h.word l c u hg, h.heap]
    exact hv

/-- What the background thread guarantees about each of its accesses.  No code of its own. -/
def mwp {α : Type} (E : CEnv) (M : Word → Option Word) (q : CP α) (Q : α → CSt → Prop) (s : CSt) : Prop :=
  gcwp (fun s t => RInv E M t ∧ Rely s t) q Q s

theorem mwp_bind {α β : Type} {Q : β → CSt → Prop} {g : α → CP β} {q : CP α} :
    mwp E M (q >>= g) Q s ↔ mwp E M q (fun a t => mwp E M (g a) Q t) s := gcwp_bind

theorem mwp_pure {α : Type} {Q : α → CSt → Prop} {a : α} : mwp E M (pure a) Q s ↔ Q a s := Iff.rfl

theorem mwp_if {α : Type} {Q : α → CSt → Prop} {c : Prop} [Decidable c] {a b : CP α} (h1 : c → mwp E M a Q s)
    (h2 : ¬ c → mwp E M b Q s) : mwp E M (if c then a else b) Q s := gcwp_if h1 h2

section atoms

variable {Q : Bool → CSt → Prop} {l b j c u : Nat}

theorem mwp_rdMeta {Q : Nat → CSt → Prop} : mwp E M rdMeta Q s ↔ Q s.root s := by simp [rdMeta, atom, mwp, gcwp]
theorem mwp_rdExp {Q : Nat → CSt → Prop} : mwp E M rdExp Q s ↔ Q s.exp s := by simp [rdExp, atom, mwp, gcwp]

theorem mwp_wrExp {Q : Unit → CSt → Prop} {n : Nat} (hI : RInv E M s) (h : Q () { s with exp := n }) : mwp E M (wrExp n) Q s := by
  have hq : Quiet s { s with exp := n } :=
    ⟨rfl, rfl, fun _ _ h => h, fun l c u h => ⟨u, h, fun _ => rfl⟩, fun _ _ _ _ _ _ => rfl, fun l h b j => word_none h b j⟩
  exact ⟨.inr ⟨hq.rinv hI, hq.rely⟩, h⟩

theorem mwp_deMeta {Q : Meta → CSt → Prop} {m : Nat} {X : Meta} (h : s.mt m = some X) : mwp E M (deMeta m) Q s ↔ Q X s := by
  simp [deMeta, atom, mwp, gcwp, h]

theorem mwp_casMeta {m n : Nat} (hm : s.root = m) (hG : RInv E M { s with root := n }) (hR : Rely s { s with root := n })
    (hQ : Q true { s with root := n }) : mwp E M (casMeta m n) Q s := by
  simp only [casMeta, atom, mwp, gcwp, hm, if_true]
  exact ⟨.inr ⟨hG, hR⟩, hQ⟩

theorem mwp_rdCap {Q : Nat → CSt → Prop} (h : geo s l = some (c, u)) : mwp E M (rdCap l) Q s ↔ Q c s := by
  obtain ⟨L, hL, rfl, -, -⟩ := geo_some h
  simp [rdCap, atom, mwp, gcwp, hL]

theorem mwp_rdUp {Q : Nat → CSt → Prop} (h : geo s l = some (c, u)) : mwp E M (rdUp l) Q s ↔ Q u s := by
  obtain ⟨L, hL, -, rfl, -⟩ := geo_some h
  simp [rdUp, atom, mwp, gcwp, hL]

theorem mwp_rdSlot {Q : Word → CSt → Prop} (h : geo s l = some (c, u)) (hb : b < c) (hj : j < assocNum) :
    mwp E M (rdSlot l b j) Q s ↔ Q (word s l b j) s := by
  obtain ⟨L, hL, rfl, -, hw⟩ := geo_some h
  simp [rdSlot, atom, mwp, gcwp, hL, hb, hj, hw]

theorem mwp_casSlot {new : Word} (h : geo s l = some (c, u)) (hb : b < c) (hj : j < assocNum)
    (hG : RInv E M (s.setSlot l b j new)) (hR : Rely s (s.setSlot l b j new)) (hQ : Q true (s.setSlot l b j new)) :
    mwp E M (casSlot l b j (word s l b j) new) Q s := by
  obtain ⟨L, hL, rfl, -, hw⟩ := geo_some h
  simp only [casSlot, atom, mwp, gcwp, hL, hb, hj, hw, and_self, if_true]
  exact ⟨.inr ⟨hG, hR⟩, hQ⟩

theorem mwp_wrSlot {Q : Unit → CSt → Prop} {w : Word} (h : geo s l = some (c, u)) (hb : b < c) (hj : j < assocNum)
    (hG : RInv E M (s.setSlot l b j w)) (hR : Rely s (s.setSlot l b j w)) (hQ : Q () (s.setSlot l b j w)) :
    mwp E M (wrSlot l b j w) Q s := by
  obtain ⟨L, hL, rfl, -, hw⟩ := geo_some h
  simp only [wrSlot, atom, mwp, gcwp, hL, hb, hj, and_self, if_true]
  exact ⟨.inr ⟨hG, hR⟩, hQ⟩

theorem mwp_rdKey {Q : Word → CSt → Prop} {w : Word} {e : Word × Word} (h : s.heap (getOffset w) = some e) :
    mwp E M (rdKey w) Q s ↔ Q e.1 s := by
  simp [rdKey, atom, mwp, gcwp, h]

theorem newLevel_quiet {t c : Nat} (hf : geo s (s.nl + 1) = none) :
    Quiet s { s with lv := fun l => if l = s.nl + 1 then some ⟨c, 0, fun _ _ => 0#64⟩ else s.lv l, nl := s.nl + 1,
                     tmpL := fun t' => if t' = t then s.nl + 1 else s.tmpL t' } := by
  generalize hs' : ({ s with lv := fun l => if l = s.nl + 1 then some ⟨c, 0, fun _ _ => 0#64⟩ else s.lv l, nl := s.nl + 1, tmpL := fun t' => if t' = t then s.nl + 1 else s.tmpL t' } : CSt) = s'
  refine ⟨by rw [← hs'], by rw [← hs'], fun m X h => by rw [← hs']; exact h, fun l c u h => ⟨u, ?_, fun _ => rfl⟩, fun l c u h b j => ?_, fun l h b j => ?_⟩
  · have : l ≠ s.nl + 1 := by rintro rfl; rw [hf] at h; cases h
    rw [← hs', ← h]
    simp [geo, this]
  · have : l ≠ s.nl + 1 := by rintro rfl; rw [hf] at h; cases h
    rw [← hs']
    simp [word, this]
  · by_cases hl : l = s.nl + 1
    · rw [← hs']
      simp [word, hl]
    · rw [← hs', ← word_none h b j]
      simp [word, hl]

theorem mwp_newLevel {Q : Unit → CSt → Prop} {t c : Nat} (ht : t < s.tn) (hI : RInv E M s) (hf : geo s (s.nl + 1) = none)
    (hQ : c ≤ E.pool → Q () { s with lv := fun l => if l = s.nl + 1 then some ⟨c, 0, fun _ _ => 0#64⟩ else s.lv l, nl := s.nl + 1,
                                     tmpL := fun t' => if t' = t then s.nl + 1 else s.tmpL t' }) :
    mwp E M (newLevel E t c) Q s := by
  by_cases hc : c ≤ E.pool
  · simp only [newLevel, atom, mwp, gcwp, if_pos ht, if_pos hc]
    exact ⟨.inr ⟨(newLevel_quiet hf).rinv hI, (newLevel_quiet hf).rely⟩, hQ hc⟩
  · simp only [newLevel, atom, mwp, gcwp, if_pos ht, if_neg hc]

theorem mwp_rdTmpLevel {Q : Nat → CSt → Prop} {t : Nat} (ht : t < s.tn) : mwp E M (rdTmpLevel t) Q s ↔ Q (s.tmpL t) s := by
  simp [rdTmpLevel, atom, mwp, gcwp, ht]

theorem mwp_rdTmpMeta {Q : Nat → CSt → Prop} {t : Nat} (ht : t < s.tn) : mwp E M (rdTmpMeta t) Q s ↔ Q (s.tmpM t) s := by
  simp [rdTmpMeta, atom, mwp, gcwp, ht]

theorem mwp_newMeta {Q : Unit → CSt → Prop} {t : Nat} {X : Meta} (ht : t < s.tn) (hI : RInv E M s) (hf : s.mt (s.nm + 1) = none)
    (hQ : Q () { s with mt := fun m => if m = s.nm + 1 then some X else s.mt m, nm := s.nm + 1,
                        tmpM := fun t' => if t' = t then s.nm + 1 else s.tmpM t' }) : mwp E M (newMeta t X) Q s := by
  simp only [newMeta, atom, mwp, gcwp, if_pos ht]
  refine ⟨.inr ?_, hQ⟩
  generalize hs' : ({ s with mt := fun m => if m = s.nm + 1 then some X else s.mt m, nm := s.nm + 1, tmpM := fun t' => if t' = t then s.nm + 1 else s.tmpM t' } : CSt) = s'
  have hq : Quiet s s' := by
    refine ⟨by rw [← hs'], by rw [← hs'], fun m Y h => ?_, fun l c u h => ⟨u, by rw [← hs']; exact h, fun _ => rfl⟩,
      fun l c u h b j => by rw [← hs']; rfl, fun l h b j => by rw [← hs']; exact word_none h b j⟩
    have : m ≠ s.nm + 1 := by rintro rfl; rw [hf] at h; cases h
    rw [← hs', ← h]
    simp [this]
  exact ⟨hq.rinv hI, hq.rely⟩

theorem casUp_quiet {l n : Nat} {L : Level} (hL : s.lv l = some L) (h0 : L.up = 0) :
    Quiet s { s with lv := fun l' => if l' = l then some { L with up := n } else s.lv l' } := by
  generalize hs' : ({ s with lv := fun l' => if l' = l then some { L with up := n } else s.lv l' } : CSt) = s'
  have hgl : geo s l = some (L.cap, 0) := by simp [geo, hL, h0]
  refine ⟨by rw [← hs'], by rw [← hs'], fun m X h => by rw [← hs']; exact h, fun l' c u h => ?_, fun l' c u h b j => ?_, fun l' h b j => ?_⟩
  · by_cases hl : l' = l
    · subst hl
      rw [hgl] at h
      cases h
      exact ⟨n, by rw [← hs']; simp [geo], fun h => absurd rfl h⟩
    · exact ⟨u, by rw [← hs', ← h]; simp [geo, hl], fun _ => rfl⟩
  · by_cases hl : l' = l
    · subst hl
      rw [← hs']
      simp [word, hL]
    · rw [← hs']
      simp [word, hl]
  · have : l' ≠ l := by rintro rfl; rw [hgl] at h; cases h
    rw [← hs', ← word_none h b j]
    simp [word, this]

theorem mwp_casUp {l n : Nat} {L : Level} (hL : s.lv l = some L) (h0 : L.up = 0) (hI : RInv E M s)
    (hQ : Q true { s with lv := fun l' => if l' = l then some { L with up := n } else s.lv l' }) : mwp E M (casUp l n) Q s := by
  simp only [casUp, atom, mwp, gcwp, hL, h0, if_true]
  exact ⟨.inr ⟨(casUp_quiet hL h0).rinv hI, (casUp_quiet hL h0).rely⟩, hQ⟩

end atoms

/-- New metadata: searches that look at the old notice. -/
theorem rely_root {n : Nat} (h : s.root < n) : Rely s { s with root := n } where
  heap := rfl
  mt := fun _ _ h => h
  geo := fun _ _ u h => ⟨u, h, fun _ => rfl⟩
  root := h.le
  keep := fun he => by
    have : n = s.root := he
    omega

/-- Nothing searches look at differs.  Helper. -/
theorem RInv.congr (hI : RInv E M s) (h1 : t.heap = s.heap) (h2 : t.lv = s.lv) (h3 : t.mt = s.mt) (h4 : t.root = s.root) : RInv E M t := by
  have hq : Quiet s t :=
    ⟨h1, h4, fun m X h => by rw [h3]; exact h, fun l c u h => ⟨u, by unfold geo; rw [h2]; exact h, fun _ => rfl⟩,
      fun l c u _ b j => by unfold word; rw [h2], fun l h b j => by rw [← word_none h b j]; unfold word; rw [h2]⟩
  exact hq.rinv hI

/-! ### The functions of the background thread -/

theorem mwp_countUp {Q : Nat → CSt → Prop} : ∀ {r : List Nat} {l p f : Nat}, Chain (geo s) p (l :: r) → (l :: r).Nodup →
    r.length < f → Q r.length s → mwp E M (countUp ((l :: r).getLastD 0) f l) Q s
  | _, _, _, 0, _, _, hf, _ => by omega
  | [], l, p, f + 1, _, _, _, hQ => by
    unfold countUp
    refine mwp_if (fun hc => absurd rfl hc) (fun _ => hQ)
  | l' :: r, l, p, f + 1, hc, hn, hf, hQ => by
    unfold countUp
    have hlast : (l :: l' :: r).getLastD 0 = (l' :: r).getLastD 0 := rfl
    refine mwp_if (fun _ => ?_) (fun hx => ?_)
    · rw [mwp_bind, mwp_rdUp hc.1, mwp_bind, hlast]
      refine mwp_countUp hc.2 (List.nodup_cons.1 hn).2 (by simp at hf; omega) ?_
      rw [mwp_pure]
      simpa using hQ
    · refine absurd (not_not.1 hx) fun e => (List.nodup_cons.1 hn).1 ?_
      rw [hlast] at e
      have := getLastD_mem (ls := l' :: r) (by simp)
      rw [← e] at this
      exact this

/-- Copying an entry of the bottom level to an empty slot of the top level. -/
theorem Inv.copy (h : Inv E B p0 s p ls M J) {eb i b j : Nat} (he : eb < 2 ^ p) (hi : i < assocNum)
    (hb : Home E key (2 ^ (p + ls.length - 1)) b) (hj : j < assocNum) (hv : view s (ls.headD 0) eb i = some (key, val))
    (h0 : getOffset (word s (ls.getLastD 0) b j) = 0#64) :
    RInv E M (s.setSlot (ls.getLastD 0) b j (word s (ls.headD 0) eb i)) ∧
    Rely s (s.setSlot (ls.getLastD 0) b j (word s (ls.headD 0) eb i)) := by
  have hlen := h.len
  have hI := h.rinv
  have hg := chain_last h.chain
  obtain ⟨u0, hg0⟩ := head_geo h
  have hw := word_setSlot (b := b) (j := j) hg (word s (ls.headD 0) eb i)
  have hgeo := fun x => geo_setSlot (s := s) (ls.getLastD 0) b j (word s (ls.headD 0) eb i) x
  generalize hs' : s.setSlot (ls.getLastD 0) b j (word s (ls.headD 0) eb i) = s' at hw hgeo
  have hheap : s'.heap = s.heap := by rw [← hs']; rfl
  have hroot : s'.root = s.root := by rw [← hs']; rfl
  have hmt : s'.mt = s.mt := by rw [← hs']; rfl
  have hold : ∀ x y z, getOffset (word s x y z) ≠ 0#64 → word s' x y z = word s x y z := by
    intro x y z hn
    rw [hw, if_neg]
    rintro ⟨rfl, rfl, rfl⟩
    exact hn h0
  refine ⟨⟨by rw [hheap]; exact hI.heap0, ?_, ?_⟩, ⟨hheap, by rw [hmt]; exact fun _ _ h => h, ?_, hroot.ge, ?_⟩⟩
  · intro l c u x y hgx hx hy
    rw [hgeo] at hgx
    rw [hw, hheap]
    split
    · rename_i e
      obtain ⟨rfl, rfl, rfl⟩ := e
      rw [hg] at hgx
      cases hgx
      rcases hI.slots _ _ _ eb i hg0 he hi with hz | ⟨k, v, h1, h2, h3, h4, h5⟩
      · exact .inl hz
      · rw [(view_some hv).2] at h2
        cases h2
        exact .inr ⟨key, val, h1, (view_some hv).2, h3, hb, h5⟩
    · exact hI.slots l c u x y hgx hx hy
  · obtain ⟨q, ks, X, h1, h2, h3, h4, h5, h6, h7, h8⟩ := hI.root
    refine ⟨q, ks, X, h1, h2, h3, by rw [hmt, hroot]; exact h4, h5, h6, seg_mono (fun l c u hx => ⟨u, by rw [hgeo]; exact hx, fun _ => rfl⟩) h7,
      fun k hk => ?_⟩
    obtain ⟨l, x, y, v, hu, hvx⟩ := h8 k hk
    refine ⟨l, x, y, v, (InUse.congr hgeo).2 hu, ?_⟩
    have := hold l x y (view_some hvx).1
    unfold view
    rw [this, hheap]
    exact hvx
  · exact fun l c u hx => ⟨u, by rw [hgeo]; exact hx, fun _ => rfl⟩
  · exact fun _ X _ l x y hn => .inl (hold l x y hn)

theorem mwp_moveTo (h : Inv E B p0 s p ls M J) {Q : Bool → CSt → Prop} {eb i b j : Nat} (he : eb < 2 ^ p) (hi : i < assocNum)
    (hb : Home E key (2 ^ (p + ls.length - 1)) b) (hj : j < assocNum) (hv : view s (ls.headD 0) eb i = some (key, val))
    (ht : ∀ s', Moved E B p0 p ls M J eb i s s' → Q true s') (hf : getOffset (word s (ls.getLastD 0) b j) ≠ 0#64 → Q false s) :
    mwp E M (moveTo (ls.headD 0) eb i (ls.getLastD 0) b j (word s (ls.headD 0) eb i)) Q s := by
  have hlen := h.len
  have hget := last_get h
  have hb' : Home E key (2 ^ (p + (ls.length - 1))) b := by
    rw [show p + (ls.length - 1) = p + ls.length - 1 by omega]
    exact hb
  obtain ⟨-, ⟨c, u, hg, hbc⟩, -⟩ := h.inUse hget hb' hj
  obtain ⟨u0, hg0⟩ := head_geo h
  have hmem : ls.headD 0 ∈ ls := List.mem_of_getElem? (head_get h)
  have hu : InUse s ls (ls.headD 0) eb i := ⟨hmem, ⟨_, _, hg0, he⟩, hi⟩
  unfold moveTo
  rw [mwp_bind, mwp_rdSlot hg hbc hj]
  refine mwp_if (fun h0 => ?_) hf
  have hcopy := h.copy he hi hb hj hv h0
  rw [mwp_bind]
  refine mwp_casSlot hg hbc hj hcopy.1 hcopy.2 ?_
  rw [if_pos rfl, mwp_bind]
  have hw1 := word_setSlot (b := b) (j := j) hg (word s (ls.headD 0) eb i)
  have hw2 := word_setSlot (s := s.setSlot (ls.getLastD 0) b j (word s (ls.headD 0) eb i)) (b := eb) (j := i)
    (by rw [geo_setSlot]; exact hg0) 0#64
  have hne := head_ne_last h
  have hinv := h.move hget (by omega) hb' hj h0 hu hv
  refine mwp_wrSlot (s := s.setSlot _ _ _ _) (by rw [geo_setSlot]; exact hg0) he hi hinv.rinv ?_ ?_
  · refine ⟨rfl, fun _ _ h => h, fun l c u hx => ⟨u, by rw [geo_setSlot]; exact hx, fun _ => rfl⟩, le_refl _, fun _ X hX l x y hn => ?_⟩
    have hX' : s.mt s.root = some X := hX
    rw [h.mt] at hX'
    cases hX'
    rw [hw2]
    split
    · rename_i e
      obtain ⟨rfl, rfl, rfl⟩ := e
      refine .inr ⟨rfl, hne, b, j, c, u, by rw [geo_setSlot, geo_setSlot]; exact hg, hbc, hj, ?_⟩
      rw [hw2, if_neg (fun x => hne x.1.symm), hw1, if_pos ⟨rfl, rfl, rfl⟩, hw1, if_neg (fun x => hne x.1)]
    · exact .inl rfl
  rw [mwp_pure]
  refine ht _ ⟨hinv, rfl, rfl, rfl, ?_, ?_, ?_⟩
  · rw [hw2, if_pos ⟨rfl, rfl, rfl⟩]
  · intro j' hj'
    rw [hw2, if_neg (fun x => hj' x.2.2), hw1, if_neg (fun x => hne x.1)]
  · rintro n ⟨F, h1, h2⟩
    refine ⟨Insert.insert (b, j) F, (Finset.card_insert_le _ _).trans (by omega), fun b' j' hx => ?_⟩
    rw [hw2, if_neg (fun x => hne x.1.symm), hw1] at hx
    rw [Finset.mem_insert]
    split at hx
    · rename_i e
      exact .inl (by rw [e.2.1, e.2.2])
    · exact .inr (h2 _ _ hx)

theorem mwp_moveSlots (h : Inv E B p0 s p ls M J) {Q : Bool → CSt → Prop} {eb i b1 b2 : Nat} (he : eb < 2 ^ p) (hi : i < assocNum)
    (hb1 : Home E key (2 ^ (p + ls.length - 1)) b1) (hb2 : Home E key (2 ^ (p + ls.length - 1)) b2)
    (hv : view s (ls.headD 0) eb i = some (key, val)) (ht : ∀ s', Moved E B p0 p ls M J eb i s s' → Q true s') :
    ∀ {js : List Nat}, (∀ j ∈ js, j < assocNum) → ((∀ j ∈ js, getOffset (word s (ls.getLastD 0) b1 j) ≠ 0#64) → Q false s) →
      mwp E M (moveSlots (ls.headD 0) eb i (ls.getLastD 0) b1 b2 (word s (ls.headD 0) eb i) js) Q s
  | [], _, hf => hf (by simp)
  | j :: js, hj, hf => by
    unfold moveSlots
    rw [mwp_bind]
    refine mwp_moveTo h he hi hb1 (hj j (by simp)) hv (fun s' hs' => ?_) (fun h1 => ?_)
    · rw [if_pos rfl]
      exact ht s' hs'
    · rw [if_neg (by decide), mwp_bind]
      refine mwp_moveTo h he hi hb2 (hj j (by simp)) hv (fun s' hs' => ?_) (fun _ => ?_)
      · rw [if_pos rfl]
        exact ht s' hs'
      · rw [if_neg (by decide)]
        exact mwp_moveSlots h he hi hb1 hb2 hv ht (fun x hx => hj x (by simp [hx]))
          (fun hx => hf (by rintro x (_ | ⟨_, hx'⟩); exacts [h1, hx x hx']))

theorem mwp_rehashSlots {Q : Bool → CSt → Prop} {eb : Nat} (he : eb < 2 ^ p) (hlen : 2 < ls.length) :
    ∀ {n i : Nat} {s : CSt}, i + n = assocNum → Inv E B p0 s p ls M J → (∀ j, j < i → word s (ls.headD 0) eb j = 0#64) →
      (∀ s', Inv E B p0 s' p ls M J → s'.exp = s.exp → s'.tn = s.tn → s'.root = s.root → (∀ j, j < assocNum → word s' (ls.headD 0) eb j = 0#64) → Q true s') →
      (∀ s', Inv E B p0 s' p ls M J → s'.exp = s.exp → s'.tn = s.tn → s'.root = s.root → ¬ Few s (ls.getLastD 0) i → Q false s') →
      mwp E M (rehashSlots E (ls.headD 0) eb (ls.getLastD 0) (List.range' i n)) Q s
  | 0, i, s, hi, h, hz, ht, _ => by
    rw [List.range'_zero]
    exact ht s h rfl rfl rfl (fun j hj => hz j (by omega))
  | n + 1, i, s, hi, h, hz, ht, hf => by
    have hi' : i < assocNum := by omega
    obtain ⟨u0, hg0⟩ := head_geo h
    have hmem : ls.headD 0 ∈ ls := List.mem_of_getElem? (head_get h)
    have hu : InUse s ls (ls.headD 0) eb i := ⟨hmem, ⟨_, _, hg0, he⟩, hi'⟩
    have hnext : ∀ s', Moved E B p0 p ls M J eb i s s' ∨ (s' = s ∧ word s (ls.headD 0) eb i = 0#64) →
        mwp E M (rehashSlots E (ls.headD 0) eb (ls.getLastD 0) (List.range' (i + 1) n)) Q s' := by
      intro s' hs'
      have hI : Inv E B p0 s' p ls M J := by
        rcases hs' with hs' | ⟨rfl, -⟩
        · exact hs'.inv
        · exact h
      have hE : s'.exp = s.exp ∧ s'.tn = s.tn ∧ s'.root = s.root := by
        rcases hs' with hs' | ⟨rfl, -⟩
        · exact ⟨hs'.exp, hs'.tn, hs'.root⟩
        · exact ⟨rfl, rfl, rfl⟩
      refine mwp_rehashSlots he hlen (by omega) hI (fun j hj => ?_)
        (fun s2 h2 e1 e2 e3 hw => ht s2 h2 (e1.trans hE.1) (e2.trans hE.2.1) (e3.trans hE.2.2) hw)
        (fun s2 h2 e1 e2 e3 hw => hf s2 h2 (e1.trans hE.1) (e2.trans hE.2.1) (e3.trans hE.2.2) (fun hx => hw ?_))
      · rcases hs' with hs' | ⟨rfl, h0⟩
        · rcases Nat.lt_succ_iff_lt_or_eq.1 hj with hj | rfl
          · rw [hs'.there j (by omega), hz j hj]
          · exact hs'.here
        · rcases Nat.lt_succ_iff_lt_or_eq.1 hj with hj | rfl
          · exact hz j hj
          · exact h0
      · rcases hs' with hs' | ⟨rfl, -⟩
        · exact hs'.few i hx
        · exact hx.succ
    rw [List.range'_succ]
    unfold rehashSlots rehashSlot
    rw [mwp_bind, mwp_bind, mwp_rdSlot hg0 he hi']
    refine mwp_if (fun h0 => ?_) (fun h0 => ?_)
    · rw [mwp_pure, if_pos rfl]
      refine hnext s (.inr ⟨rfl, ?_⟩)
      rcases h.slots _ _ _ hu with hz | ⟨k, v, c, u, h1, -⟩
      · exact hz
      · exact absurd h0 h1
    · obtain ⟨k, v, c, u, hv, hh, -⟩ := (h.slots _ _ _ hu).of_ne h0
      rw [mwp_bind, mwp_rdKey hh]
      dsimp only
      rw [mwp_bind, mwp_rdCap (chain_last h.chain)]
      refine mwp_moveSlots h he hi' (.inl rfl) (.inr rfl) hv (fun s' hs' => ?_) (fun j hj => List.mem_range.1 hj) (fun hfull => ?_)
      · rw [if_pos rfl]
        exact hnext s' (.inl hs')
      · rw [if_neg (by decide), mwp_pure]
        exact hf s h rfl rfl rfl fun hx => hx.not_full hi' fun j hj => hfull j (List.mem_range.2 hj)

theorem mwp_expand (h : Inv E B p0 s p ls M J) {Q : Unit → CSt → Prop} {t f : Nat} (ht : t < s.tn)
    (hQ : ∀ s' n, Inv E B p0 s' p (ls ++ [n]) M J → n ∉ ls → s'.heap = s.heap → s'.tmpE = s.tmpE → s'.tn = s.tn → s'.exp = s.exp →
      (∀ l b j, l ≠ n → word s' l b j = word s l b j) → (∀ b j, word s' n b j = 0#64) → Q () s') :
    mwp E M (expand E t s.root (f + 1)) Q s := by
  have hlen := h.len
  have hne : ls ≠ [] := by rintro rfl; simp at hlen
  have hlast := chain_last h.chain
  have htop := getLastD_mem hne
  have hn : s.nl + 1 ∉ ls := fun hm => by have := h.nl _ hm; omega
  have hnt : s.nl + 1 ≠ ls.getLastD 0 := fun e => hn (e ▸ htop)
  obtain ⟨L, hL, hcap, hup, hw⟩ := geo_some hlast
  have hgrow := fun hc => h.grow (t := t) hL hc
  have hlt : L.cap < L.cap * 2 := by
    rw [hcap]
    have := Nat.pos_of_ne_zero (pow_ne_zero (p + ls.length - 1) (show (2 : Nat) ≠ 0 by decide))
    omega
  unfold expand
  rw [mwp_bind, mwp_deMeta h.mt, mwp_bind, mwp_rdUp hlast, if_pos rfl, mwp_bind, mwp_rdCap hlast, ← hcap, mwp_bind]
  have hI0 := h.rinv
  refine mwp_newLevel ht hI0 (h.fresh _ (by omega)) fun hfit => ?_
  have hL1 : ∀ s1 : CSt, s1 = { s with lv := fun l => if l = s.nl + 1 then some ⟨L.cap * 2, 0, fun _ _ => 0#64⟩ else s.lv l, nl := s.nl + 1, tmpL := fun t' => if t' = t then s.nl + 1 else s.tmpL t' } → RInv E M s1 := by
    intro s1 e
    have := newLevel_quiet (t := t) (c := L.cap * 2) (h.fresh (s.nl + 1) (by omega))
    rw [e]
    exact this.rinv hI0
  rw [mwp_bind, mwp_rdTmpLevel (by exact ht), mwp_bind]
  refine mwp_casUp (L := L) (by simp only [if_neg (Ne.symm hnt)]; exact hL) hup (hL1 _ rfl) ?_
  have hI2 := (casUp_quiet (n := s.nl + 1) (s := { s with lv := fun l => if l = s.nl + 1 then some ⟨L.cap * 2, 0, fun _ _ => 0#64⟩ else s.lv l, nl := s.nl + 1, tmpL := fun t' => if t' = t then s.nl + 1 else s.tmpL t' })
    (l := ls.getLastD 0) (L := L) (by simp only [if_neg (Ne.symm hnt)]; exact hL) hup).rinv (hL1 _ rfl)
  rw [if_pos rfl]
  unfold expandLoop
  rw [mwp_bind, mwp_rdCap (c := L.cap) (u := s.nl + 1) (by simp [geo])]
  simp only [ge_iff_le]
  rw [if_neg (by omega), mwp_bind, mwp_rdUp (c := L.cap) (u := s.nl + 1) (by simp [geo]), if_neg (by omega), mwp_bind]
  refine mwp_newMeta (by exact ht) (by simpa using hI2) (h.mfresh _ (Nat.lt_succ_self _)) ?_
  rw [mwp_bind, mwp_rdTmpMeta (by exact ht), mwp_bind]
  have e : ∀ {P : CSt → Prop} (a b : CSt), a = b → P b → P a := fun a b e h => e ▸ h
  refine mwp_casMeta rfl ?_ (rely_root ?_) ?_
  · refine (hgrow hfit).rinv.congr rfl ?_ ?_ ?_
    · simp only [grownBy, if_true]
    · simp only [grownBy]
    · simp only [grownBy, if_true]
  · have := h.nm
    simp only [if_true]
    omega
  rw [if_pos rfl, mwp_pure]
  refine e _ (grownBy s t (ls.getLastD 0) L ⟨s.nl + 1, ls.headD 0, true⟩) ?_ ?_
  · simp only [grownBy]
    congr 1
  · refine hQ _ (s.nl + 1) (hgrow hfit) hn rfl rfl rfl rfl (fun l b j hl => ?_) (fun b j => ?_)
    · by_cases h1 : l = ls.getLastD 0
      · subst h1
        simp only [word, grownBy, if_true, hL]
      · simp only [word, grownBy, if_neg h1, if_neg hl]
    · simp only [word, grownBy, if_neg hnt, if_true]

theorem mwp_rehash (hB : B) (h : Inv E B p0 s p ls M J) {Q : Nat × Meta → CSt → Prop} (hlen : 2 < ls.length) {f : Nat}
    (hQ : ∀ s' ls', Inv E B p0 s' p ls' M J → 2 < ls'.length → s'.tn = s.tn → s'.exp = s.exp →
      (∀ j, j < assocNum → word s' (ls'.headD 0) s'.exp j = 0#64) →
      Q (s'.root, ⟨ls'.getLastD 0, ls'.headD 0, decide (2 < ls'.length)⟩) { s' with exp := s'.exp + 1 }) :
    mwp E M (rehash E (f + 2)) Q s := by
  unfold rehash
  rw [mwp_bind, mwp_rdMeta, mwp_bind, mwp_deMeta h.mt, mwp_bind, mwp_rdExp, mwp_bind, List.range_eq_range']
  refine mwp_rehashSlots (h.exp hB) hlen (Nat.zero_add _) h (by omega) (fun s1 h1 e1 e2 e3 hw => ?_) (fun s1 h1 e1 e2 e3 _ => ?_)
  · rw [if_pos rfl, mwp_bind, mwp_rdExp, mwp_bind]
    refine mwp_wrExp h1.rinv ?_
    rw [mwp_pure, ← e3]
    exact hQ s1 ls h1 hlen e2 e1 (by rw [e1]; exact hw)
  · rw [if_neg (by decide), mwp_bind, ← e3]
    refine mwp_expand h1 h1.tn fun s2 n h2 hn hheap htmp htn hexp hw hz => ?_
    have hlen2 : 2 < (ls ++ [n]).length := by rw [List.length_append]; simp; omega
    have htop : (ls ++ [n]).getLastD 0 = n := by simp [List.getLastD_eq_getLast?]
    unfold rehash
    rw [mwp_bind, mwp_rdMeta, mwp_bind, mwp_deMeta h2.mt, mwp_bind, mwp_rdExp, mwp_bind, List.range_eq_range']
    refine mwp_rehashSlots (h2.exp hB) hlen2 (Nat.zero_add _) h2 (by omega) (fun s3 h3 e1' e2' e3' hw => ?_) (fun s3 h3 _ _ _ hx => ?_)
    · rw [if_pos rfl, mwp_bind, mwp_rdExp, mwp_bind]
      refine mwp_wrExp h3.rinv ?_
      rw [mwp_pure, ← e3']
      exact hQ s3 _ h3 hlen2 (e2'.trans (htn.trans e2)) (e1'.trans (hexp.trans e1)) (by rw [e1']; exact hw)
    · refine absurd ⟨∅, by simp, fun b j hb => ?_⟩ hx
      rw [htop, hz] at hb
      exact absurd rfl hb

/-- A round of the background thread beside searches. -/
theorem mwp_round (hB : B) (h : Inv E B p0 s p ls M J) {Q : Unit → CSt → Prop} {lf f : Nat} (hlf : maxLevel ≤ lf)
    (hQ : ∀ s' p' ls', Inv E B p0 s' p' ls' M J → s'.tn = s.tn → Q () s') : mwp E M (round E lf (f + 2)) Q s := by
  unfold round
  rw [mwp_bind, mwp_rdMeta, mwp_bind, mwp_deMeta h.mt, mwp_bind]
  have hlev := h.levels
  have hlen := h.len
  dsimp only
  obtain ⟨l, r, rfl⟩ : ∃ l r, ls = l :: r := by
    cases ls with
    | nil => simp at hlen
    | cons l r => exact ⟨l, r, rfl⟩
  rw [List.length_cons] at hlev hlen
  refine mwp_countUp h.chain h.nodup (by have : maxLevel = 16 := rfl; omega) ?_
  refine mwp_if (fun _ => hQ s p _ h rfl) (fun hc => ?_)
  rw [mwp_bind]
  refine mwp_rehash hB h (by rw [List.length_cons]; omega) fun s1 ls1 h1 hlen1 htn hexp hz => ?_
  dsimp only
  obtain ⟨u, hg⟩ := head_geo h1
  rw [mwp_bind, mwp_rdExp, mwp_bind, mwp_rdCap (s := { s1 with exp := s1.exp + 1 }) hg]
  dsimp only
  have hlt := h1.exp hB
  refine mwp_if (fun he => ?_) (fun he => ?_)
  · have hlev1 := h1.levels
    obtain ⟨l1, r1, rfl⟩ : ∃ l r, ls1 = l :: r := by
      cases ls1 with
      | nil => simp at hlen1
      | cons l r => exact ⟨l, r, rfl⟩
    rw [List.length_cons] at hlev1 hlen1
    have hr1 : (l1 :: r1).getLastD 0 = r1.getLastD 0 := by
      cases r1 with
      | nil => simp at hlen1
      | cons x y => rfl
    have hdrop := h1.drop hB (by omega) he hz
    rw [← hr1] at hdrop
    unfold dropLoop
    rw [mwp_bind]
    refine mwp_countUp (s := { s1 with exp := s1.exp + 1 }) h1.chain h1.nodup (by have : maxLevel = 16 := rfl; omega) ?_
    have hup := chain_head h1.chain
    rw [mwp_bind]
    dsimp only [List.headD_cons]
    rw [mwp_rdUp (s := { s1 with exp := s1.exp + 1 }) hup, mwp_bind]
    refine mwp_newMeta (s := { s1 with exp := s1.exp + 1 }) h1.tn (h1.rinv.congr rfl rfl rfl rfl) (h1.mfresh _ (Nat.lt_succ_self _)) ?_
    rw [mwp_bind, mwp_rdTmpMeta (by exact h1.tn), mwp_bind]
    refine mwp_casMeta rfl ?_ (rely_root ?_) ?_
    · refine hdrop.rinv.congr rfl rfl rfl ?_
      simp only [CSt.dropped, if_true]
    · have := h1.nm
      simp only [if_true]
      omega
    rw [if_pos rfl]
    refine mwp_wrExp ?_ ?_
    · refine hdrop.rinv.congr rfl rfl rfl ?_
      simp only [CSt.dropped, if_true]
    · exact hQ _ _ _ hdrop htn
  · exact hQ _ _ _ (h1.bump hB hlen1 (by omega) hz) htn

/-- Rounds of the background thread beside searches. -/
theorem mwp_rounds (hB : B) {lf f : Nat} (hlf : maxLevel ≤ lf) : ∀ {n : Nat} {s : CSt} {p : Nat} {ls : List Nat},
    Inv E B p0 s p ls M J → ∀ {Q : Unit → CSt → Prop}, (∀ s' p' ls', Inv E B p0 s' p' ls' M J → Q () s') → mwp E M (rounds E lf (f + 2) n) Q s
  | 0, s, p, ls, h, Q, hQ => hQ s p ls h
  | n + 1, s, p, ls, h, Q, hQ => by
    unfold rounds
    rw [mwp_bind]
    exact mwp_round hB h hlf fun s' p' ls' h' _ => mwp_rounds hB hlf h' hQ

end PMap.Clevel
