import Verif.Clevel.Find

/-!
# An `expand` that runs alone
-/

namespace PMap.Clevel

open CP

variable {E : CEnv} {B : Prop} {p0 : Nat} {s : CSt} {p : Nat} {ls : List Nat} {M : Word → Option Word} {J : Word → Prop} {key : Word}

theorem cwp_newLevel {Q : Unit → CSt → Prop} {t c : Nat} (ht : t < s.tn)
    (hQ : c ≤ E.pool → Q () { s with lv := fun l => if l = s.nl + 1 then some ⟨c, 0, fun _ _ => 0#64⟩ else s.lv l, nl := s.nl + 1,
                                     tmpL := fun t' => if t' = t then s.nl + 1 else s.tmpL t' }) :
    cwp (newLevel E t c) Q s := by
  by_cases hc : c ≤ E.pool
  · simp only [newLevel, atom, cwp, if_pos ht, if_pos hc]
    exact hQ hc
  · simp only [newLevel, atom, cwp, if_pos ht, if_neg hc]

theorem cwp_rdTmpLevel {Q : Nat → CSt → Prop} {t : Nat} (ht : t < s.tn) : cwp (rdTmpLevel t) Q s ↔ Q (s.tmpL t) s := by
  simp [rdTmpLevel, atom, cwp, ht]

theorem cwp_rdTmpMeta {Q : Nat → CSt → Prop} {t : Nat} (ht : t < s.tn) : cwp (rdTmpMeta t) Q s ↔ Q (s.tmpM t) s := by
  simp [rdTmpMeta, atom, cwp, ht]

theorem cwp_newMeta {Q : Unit → CSt → Prop} {t : Nat} {X : Meta} (ht : t < s.tn) : cwp (newMeta t X) Q s ↔
    Q () { s with mt := fun m => if m = s.nm + 1 then some X else s.mt m, nm := s.nm + 1,
                  tmpM := fun t' => if t' = t then s.nm + 1 else s.tmpM t' } := by
  simp [newMeta, atom, cwp, ht]

theorem cwp_casUp {Q : Bool → CSt → Prop} {l n : Nat} {L : Level} (hL : s.lv l = some L) (h0 : L.up = 0) :
    cwp (casUp l n) Q s ↔ Q true { s with lv := fun l' => if l' = l then some { L with up := n } else s.lv l' } := by
  simp [casUp, atom, cwp, hL, h0]

theorem getLastD_mem {ls : List Nat} (h : ls ≠ []) : ls.getLastD 0 ∈ ls := by
  rw [List.getLastD_eq_getLast?, List.getLast?_eq_getLast_of_ne_nil h]
  exact List.getLast_mem h

/-- The memory after thread `t` expanded the table whose top level is `l` (with contents `L`).  No code of its own. -/
def grownBy (s : CSt) (t l : Nat) (L : Level) (X : Meta) : CSt :=
  { s with
    lv := fun x => if x = l then some { L with up := s.nl + 1 }
      else if x = s.nl + 1 then some ⟨L.cap * 2, 0, fun _ _ => 0#64⟩ else s.lv x
    nl := s.nl + 1
    mt := fun m => if m = s.nm + 1 then some X else s.mt m
    nm := s.nm + 1
    root := s.nm + 1
    tmpL := fun t' => if t' = t then s.nl + 1 else s.tmpL t'
    tmpM := fun t' => if t' = t then s.nm + 1 else s.tmpM t' }

theorem Inv.grow (h : Inv E B p0 s p ls M J) {t : Nat} {L : Level} (hL : s.lv (ls.getLastD 0) = some L) (hfit : L.cap * 2 ≤ E.pool) :
    Inv E B p0 (grownBy s t (ls.getLastD 0) L ⟨s.nl + 1, ls.headD 0, true⟩) p (ls ++ [s.nl + 1]) M J := by
  have hlen := h.len
  have hne : ls ≠ [] := by rintro rfl; simp at hlen
  have hlast := chain_last h.chain
  have hcap : L.cap = 2 ^ (p + ls.length - 1) ∧ L.up = 0 := by
    unfold geo at hlast
    rw [hL] at hlast
    simpa using hlast
  have htop := getLastD_mem hne
  have hn : s.nl + 1 ∉ ls := fun hm => by have := h.nl _ hm; omega
  have hnt : s.nl + 1 ≠ ls.getLastD 0 := fun e => hn (e ▸ htop)
  have hpow : L.cap * 2 = 2 ^ (p + ls.length) := by
    rw [hcap.1, ← pow_succ]
    congr 1
    omega
  generalize hs' : grownBy s t (ls.getLastD 0) L ⟨s.nl + 1, ls.headD 0, true⟩ = s'
  have glast : geo s' (ls.getLastD 0) = some (2 ^ (p + ls.length - 1), s.nl + 1) := by
    rw [← hs']
    simp only [geo, grownBy, if_true, Option.map_some, hcap.1]
  have gnew : geo s' (s.nl + 1) = some (2 ^ (p + ls.length), 0) := by
    rw [← hs']
    simp only [geo, grownBy, if_neg hnt, if_true, Option.map_some, hpow]
  have gold : ∀ x, x ≠ ls.getLastD 0 → x ≠ s.nl + 1 → geo s' x = geo s x := by
    intro x h1 h2
    rw [← hs']
    simp only [geo, grownBy, if_neg h1, if_neg h2]
  have wold : ∀ x b j, x ≠ s.nl + 1 → word s' x b j = word s x b j := by
    intro x b j h2
    rw [← hs']
    by_cases h1 : x = ls.getLastD 0
    · subst h1
      simp only [word, grownBy, if_true, hL]
    · simp only [word, grownBy, if_neg h1, if_neg h2]
  have wnew : ∀ b j, word s' (s.nl + 1) b j = 0#64 := by
    intro b j
    rw [← hs']
    simp only [word, grownBy, if_neg hnt, if_true]
  have heap : s'.heap = s.heap := by rw [← hs']; rfl
  have gcap : ∀ x ∈ ls, ∀ c, (∃ u, geo s' x = some (c, u)) ↔ ∃ u, geo s x = some (c, u) := by
    intro x hx c
    by_cases h1 : x = ls.getLastD 0
    · subst h1
      rw [glast, hlast]
      simp
    · rw [gold x h1 (fun e => hn (e ▸ hx))]
  have huse : ∀ x b j, InUse s' (ls ++ [s.nl + 1]) x b j ↔ InUse s ls x b j ∨ (x = s.nl + 1 ∧ b < 2 ^ (p + ls.length) ∧ j < assocNum) := by
    intro x b j
    unfold InUse
    rw [List.mem_append, List.mem_singleton]
    constructor
    · rintro ⟨hx | hx, ⟨c, u, hg, hb⟩, hj⟩
      · obtain ⟨u', hg'⟩ := (gcap x hx c).1 ⟨u, hg⟩
        exact .inl ⟨hx, ⟨c, u', hg', hb⟩, hj⟩
      · subst hx
        rw [gnew] at hg
        cases hg
        exact .inr ⟨rfl, hb, hj⟩
    · rintro (⟨hx, ⟨c, u, hg, hb⟩, hj⟩ | ⟨rfl, hb, hj⟩)
      · obtain ⟨u', hg'⟩ := (gcap x hx c).2 ⟨u, hg⟩
        exact ⟨.inl hx, ⟨c, u', hg', hb⟩, hj⟩
      · exact ⟨.inr rfl, ⟨_, _, gnew, hb⟩, hj⟩
  have hold : ∀ {x b j}, InUse s ls x b j → x ≠ s.nl + 1 := fun hu e => hn (e ▸ hu.1)
  have vold : ∀ x b j, x ≠ s.nl + 1 → view s' x b j = view s x b j := by
    intro x b j hx
    unfold view
    rw [wold x b j hx, heap]
  have vnew : ∀ b j, view s' (s.nl + 1) b j = none := fun b j => view_of_zero (by rw [wnew]; decide)
  have hhead : (ls ++ [s.nl + 1]).headD 0 = ls.headD 0 := by
    obtain ⟨x, r, rfl⟩ := List.exists_cons_of_ne_nil hne
    rfl
  have hlen' : (ls ++ [s.nl + 1]).length = ls.length + 1 := by simp
  refine ⟨h.base, h.grown, h.pool, ?_, ?_, ?_, ?_, ?_, ?_, ?_, ?_, ?_, ?_, ?_, ?_, ?_, ?_, ?_, ?_, ?_, ?_, ?_, ?_⟩
  · rw [hlen', show p + (ls.length + 1) - 1 = p + ls.length by omega, ← hpow]
    exact hfit
  · exact chain_append h.nodup h.chain (fun l hl hne => gold l hne (fun e => hn (e ▸ hl))) glast gnew
  · exact List.nodup_append.2 ⟨h.nodup, by simp, fun x hx y hy e => hn (by simp at hy; rw [← hy, ← e]; exact hx)⟩
  · omega
  · rw [hhead, hlen', decide_eq_true (by omega), ← hs']
    simp [grownBy, List.getLastD_eq_getLast?]
  · intro l hl
    rw [← hs']
    rcases List.mem_append.1 hl with hl | hl
    · exact (h.nl l hl).trans (Nat.le_succ _)
    · simp at hl
      rw [hl]
      exact le_refl _
  · rw [← hs']
    exact le_refl _
  · rw [← hs']
    exact h.tn
  · intro x b j hu
    rcases (huse x b j).1 hu with hu | ⟨rfl, -, -⟩
    · rcases h.slots x b j hu with hz | ⟨k, v, c, u, h1, h2, h3, h4, h5⟩
      · exact .inl (by rw [wold _ _ _ (hold hu), hz])
      · obtain ⟨u', hg'⟩ := (gcap x hu.1 c).2 ⟨u, h4⟩
        exact .inr ⟨k, v, c, u', by rw [wold _ _ _ (hold hu)]; exact ⟨h1, by rw [heap]; exact h2, h3, hg', h5⟩⟩
    · exact .inl (wnew _ _)
  · intro x1 y1 z1 x2 y2 z2 hu1 hu2 k v v' hv1 hv2
    rcases (huse _ _ _).1 hu1 with hu1 | ⟨rfl, -, -⟩
    · rcases (huse _ _ _).1 hu2 with hu2 | ⟨rfl, -, -⟩
      · rw [vold _ _ _ (hold hu1)] at hv1
        rw [vold _ _ _ (hold hu2)] at hv2
        exact h.uniq _ _ _ _ _ _ hu1 hu2 k v v' hv1 hv2
      · rw [vnew] at hv2
        cases hv2
    · rw [vnew] at hv1
      cases hv1
  · intro k v
    rw [h.rep]
    constructor
    · rintro ⟨x, b, j, hu, hv⟩
      exact ⟨x, b, j, (huse _ _ _).2 (.inl hu), by rw [vold _ _ _ (hold hu), hv]⟩
    · rintro ⟨x, b, j, hu, hv⟩
      rcases (huse _ _ _).1 hu with hu | ⟨rfl, -, -⟩
      · exact ⟨x, b, j, hu, by rw [← vold _ _ _ (hold hu), hv]⟩
      · rw [vnew] at hv
        cases hv
  · intro o e he
    rw [heap] at he
    obtain ⟨hg, h2⟩ := h.live o e he
    refine ⟨hg, h2.imp_right ?_⟩
    rintro ⟨x, b, j, hu, hw⟩
    exact ⟨x, b, j, (huse _ _ _).2 (.inl hu), by rw [wold _ _ _ (hold hu), hw]⟩
  · intro o ho
    obtain ⟨h1, h2⟩ := h.junk o ho
    refine ⟨by rw [heap]; exact h1, fun x b j hu => ?_⟩
    rcases (huse _ _ _).1 hu with hu | ⟨rfl, -, -⟩
    · rw [wold _ _ _ (hold hu)]
      exact h2 x b j hu
    · rw [wnew]
      intro e
      obtain ⟨e', he'⟩ := Option.ne_none_iff_exists'.1 h1
      exact (h.live o e' he').1.1 (by rw [← e]; decide)
  · rw [← hs']
    exact h.exp
  · rw [hlen']
    omega
  · intro hB b j hb hj
    rw [hhead, wold, h.done hB b j (by rw [← hs'] at hb; exact hb) hj]
    intro e
    apply hn
    obtain ⟨x, r, rfl⟩ := List.exists_cons_of_ne_nil hne
    rw [← e]
    simp
  · intro h0
    rcases List.mem_append.1 h0 with h0 | h0
    · exact h.pos h0
    · simp at h0
  · intro l c u hl hg b j hb hj
    have hl1 : l ∉ ls := fun hx => hl (List.mem_append.2 (.inl hx))
    have hl2 : l ≠ s.nl + 1 := fun hx => hl (List.mem_append.2 (.inr (by simp [hx])))
    rw [wold l b j hl2]
    exact h.gone l c u hl1 (by rw [← gold l (fun e => hl1 (e ▸ htop)) hl2]; exact hg) b j hb hj
  · intro l hl
    have hl' : s.nl + 1 < l := by rw [← hs'] at hl; exact hl
    rw [gold l (fun e => by have := h.nl _ htop; omega) (by omega)]
    exact h.fresh l (by omega)
  · intro m hm
    have hm' : s.nm + 1 < m := by rw [← hs'] at hm; exact hm
    rw [← hs']
    simp only [grownBy, if_neg (show m ≠ s.nm + 1 by omega)]
    exact h.mfresh m (by omega)

/-- An `expand` that runs alone ends (or there is no room): there is a new level, empty, on top. -/
theorem cwp_expand (h : Inv E B p0 s p ls M J) {Q : Unit → CSt → Prop} {t f : Nat} (ht : t < s.tn)
    (hQ : ∀ s' n, Inv E B p0 s' p (ls ++ [n]) M J → n ∉ ls → s'.heap = s.heap → s'.tmpE = s.tmpE → s'.tn = s.tn → s'.exp = s.exp →
      (∀ l b j, l ≠ n → word s' l b j = word s l b j) → (∀ b j, word s' n b j = 0#64) → Q () s') :
    cwp (expand E t s.root (f + 1)) Q s := by
  have hlen := h.len
  have hne : ls ≠ [] := by rintro rfl; simp at hlen
  have hlast := chain_last h.chain
  have htop := getLastD_mem hne
  have hn : s.nl + 1 ∉ ls := fun hm => by have := h.nl _ hm; omega
  have hnt : s.nl + 1 ≠ ls.getLastD 0 := fun e => hn (e ▸ htop)
  obtain ⟨L, hL, hcap, hup, hw⟩ := geo_some hlast
  have hgrow := fun hc => h.grow (t := t) hL hc
  have hlt : L.cap < L.cap * 2 := by
    rw [hcap]
    have := Nat.pos_of_ne_zero (pow_ne_zero (p + ls.length - 1) (show (2 : Nat) ≠ 0 by decide))
    omega
  unfold expand
  rw [cwp_bind, cwp_deMeta h.mt, cwp_bind, cwp_rdUp hlast, if_pos rfl, cwp_bind, cwp_rdCap hlast, ← hcap, cwp_bind]
  refine cwp_newLevel ht fun hfit => ?_
  rw [cwp_bind, cwp_rdTmpLevel (by exact ht), cwp_bind, cwp_casUp (L := L) (by simp only [if_neg (Ne.symm hnt)]; exact hL) hup,
    if_pos rfl]
  unfold expandLoop
  rw [cwp_bind, cwp_rdCap (c := L.cap) (u := s.nl + 1) (by simp [geo])]
  simp only [ge_iff_le]
  rw [if_neg (by omega), cwp_bind, cwp_rdUp (c := L.cap) (u := s.nl + 1) (by simp [geo]), if_neg (by omega), cwp_bind,
    cwp_newMeta (by exact ht), cwp_bind, cwp_rdTmpMeta (by exact ht), cwp_bind, cwp_casMeta, if_pos rfl, if_pos rfl, cwp_pure]
  have e : ∀ a b : CSt, a = b → Q () b → Q () a := fun a b e h => e ▸ h
  refine e _ (grownBy s t (ls.getLastD 0) L ⟨s.nl + 1, ls.headD 0, true⟩) ?_ ?_
  · simp only [grownBy]
    congr 1
  · refine hQ _ (s.nl + 1) (hgrow hfit) hn rfl rfl rfl rfl (fun l b j hl => ?_) (fun b j => ?_)
    · by_cases h1 : l = ls.getLastD 0
      · subst h1
        simp only [word, grownBy, if_true, hL]
      · simp only [word, grownBy, if_neg h1, if_neg hl]
    · simp only [word, grownBy, if_neg hnt, if_true]

end PMap.Clevel
