import Verif.Clevel.Change

/-!
# An erase that runs alone
-/

namespace PMap.Clevel

open CP

variable {E : CEnv} {B : Prop} {p0 : Nat} {s : CSt} {p : Nat} {ls : List Nat} {M : Word → Option Word} {J : Word → Prop} {key : Word}

theorem cwp_freeEntry {Q : Unit → CSt → Prop} {w : Word} {e : Word × Word} (h : s.heap (getOffset w) = some e) :
    cwp (freeEntry w) Q s ↔ Q () { s with heap := fun a => if a = getOffset w then none else s.heap a } := by
  simp [freeEntry, atom, cwp, h]

/-- Half way through an erase: `d` says whether the entry was removed, `rem` are the slots still to come.  No code of its own. -/
def Erasing (E : CEnv) (B : Prop) (p0 p : Nat) (ls : List Nat) (M : Word → Option Word) (J : Word → Prop) (key : Word) (r n : Nat) (rem : List Pos)
    (d : Bool) (s : CSt) : Prop :=
  (s.root = r ∧ s.tn = n) ∧ ((d = false ∧ Inv E B p0 s p ls M J ∧ Rem s ls key rem) ∨
    (d = true ∧ (M key).isSome ∧ Inv E B p0 s p ls (delKey M key) J))

theorem Erasing.inv {r n : Nat} {rem : List Pos} {d : Bool} (h : Erasing E B p0 p ls M J key r n rem d s) :
    s.root = r ∧ ∃ M', Inv E B p0 s p ls M' J := by
  obtain ⟨hr, ⟨-, h, -⟩ | ⟨-, -, h⟩⟩ := h
  · exact ⟨hr.1, _, h⟩
  · exact ⟨hr.1, _, h⟩

theorem delKey_self : delKey M key key = none := by simp [delKey]

theorem cwp_eraseSlot {Q : Bool → CSt → Prop} {l b j r n : Nat} {rem : List Pos} {d : Bool}
    (h : Erasing E B p0 p ls M J key r n (⟨l, b, j⟩ :: rem) d s) (hu : InUse s ls l b j)
    (hQ : ∀ x t, Erasing E B p0 p ls M J key r n rem (d || x) t → Q x t) :
    cwp (eraseSlot l b j (getPartial (E.hash key)) key) Q s := by
  obtain ⟨-, M', hi⟩ := id h.inv
  have hnot : (∀ v, view s l b j ≠ some (key, v)) → Q false s := by
    intro hn
    refine hQ false s ⟨h.1, ?_⟩
    rw [Bool.or_false]
    rcases h.2 with ⟨hd, h1, h2⟩ | h2
    · exact .inl ⟨hd, h1, h2.tail hn⟩
    · exact .inr h2
  obtain ⟨hl, ⟨c, u, hg, hb⟩, hj⟩ := id hu
  unfold eraseSlot
  rw [cwp_bind, cwp_rdSlot hg hb hj]
  refine cwp_if (fun hc => ?_) (fun hc => ?_)
  · obtain ⟨k, v, c', u', hv, hh, ht, -, -⟩ := (hi.slots l b j hu).of_ne hc.2
    rw [cwp_bind, cwp_rdKey hh]
    refine cwp_if (fun hk => ?_) (fun hk => ?_)
    · dsimp only at hk
      subst hk
      rw [cwp_bind, cwp_casSlot hg hb hj, if_pos rfl, if_pos rfl, cwp_bind, cwp_freeEntry (s := s.setSlot l b j 0#64) (e := (k, v)) hh, cwp_pure]
      refine hQ true _ ⟨h.1, .inr ?_⟩
      rcases h.2 with ⟨hd, h1, h2⟩ | ⟨-, -, h1⟩
      · exact ⟨by simp, by rw [(h1.rep k v).2 ⟨l, b, j, hu, hv⟩]; rfl, h1.clear hu hv⟩
      · have := (h1.rep k v).2 ⟨l, b, j, hu, hv⟩
        rw [delKey_self] at this
        cases this
    · exact hnot fun v' e => hk (by rw [hv] at e; cases e; rfl)
  · refine hnot fun v e => ?_
    obtain ⟨h0, hh⟩ := view_some e
    obtain ⟨k, v', c', u', hv, -, ht, -, -⟩ := (hi.slots l b j hu).of_ne h0
    rw [e] at hv
    cases hv
    exact hc ⟨ht, h0⟩

theorem cwp_eraseBucket {Q : Bool → CSt → Prop} {l b r n i : Nat} {rest : List Pos} (hi : ls[i]? = some l)
    (hb : Home E key (2 ^ (p + i)) b) (hQ : ∀ x t, Erasing E B p0 p ls M J key r n rest x t → Q x t) :
    ∀ {js : List Nat} {d : Bool} {s : CSt}, (∀ j ∈ js, j < assocNum) →
      Erasing E B p0 p ls M J key r n (js.map (fun j => Pos.mk l b j) ++ rest) d s →
      cwp (eraseBucket l b (getPartial (E.hash key)) key js d) Q s
  | [], d, s, _, h => hQ d s (by simpa using h)
  | j :: js, d, s, hj, h => by
    unfold eraseBucket
    rw [cwp_bind]
    obtain ⟨-, M', h'⟩ := id h.inv
    refine cwp_eraseSlot h (h'.inUse hi hb (hj j (by simp))) (fun x t ht => ?_)
    exact cwp_eraseBucket hi hb hQ (fun j' h' => hj j' (by simp [h'])) ht

theorem cwp_eraseLevels {Q : Bool → CSt → Prop} {r n : Nat} (hQ : ∀ x t, Erasing E B p0 p ls M J key r n [] x t → Q x t) :
    ∀ {suf pre : List Nat} {f : Nat} {d : Bool} {s : CSt}, ls = pre ++ suf → suf ≠ [] → suf.length ≤ f →
      Erasing E B p0 p ls M J key r n (cands E key (p + pre.length) suf) d s →
      cwp (eraseLevels E r key f (suf.headD 0) d) Q s
  | [], _, _, _, _, _, hs, _, _ => absurd rfl hs
  | l :: r', pre, 0, _, _, _, _, hf, _ => by simp at hf
  | l :: r', pre, f + 1, d, s, he, _, hf, h => by
    have hi : ls[pre.length]? = some l := by rw [he]; simp
    obtain ⟨-, M', h'⟩ := id h.inv
    obtain ⟨u, hg⟩ := chain_get h'.chain hi
    unfold eraseLevels
    simp only [List.headD_cons]
    rw [cwp_bind, cwp_rdCap hg, cwp_bind]
    simp only [cands, slotsOf] at h
    refine cwp_eraseBucket hi (.inl rfl) (fun x1 t1 h1 => ?_) (fun j hj => List.mem_range.1 hj) h
    rw [cwp_bind]
    refine cwp_eraseBucket hi (.inr rfl) (fun x2 t2 h2 => ?_) (fun j hj => List.mem_range.1 hj) h1
    obtain ⟨hr, M2, h2'⟩ := id h2.inv
    have hc := chain_suffix (he ▸ h2'.chain) (by simp : l :: r' ≠ [])
    rw [cwp_bind, cwp_rdUp (chain_head hc), cwp_bind, cwp_deMeta (by rw [← hr]; exact h2'.mt)]
    refine cwp_if (fun hl => ?_) (fun hl => ?_)
    all_goals
      simp only at hl
      rw [he, last_ne (he ▸ h2'.nodup)] at hl
    swap
    · have hlast := not_not.1 hl
      subst hlast
      exact hQ _ _ h2
    · refine cwp_eraseLevels hQ (pre := pre ++ [l]) (by simp [he]) hl (by simpa using hf) ?_
      rw [List.length_append, List.length_singleton, ← Nat.add_assoc]
      exact h2

/-- An erase that runs alone ends; it reports whether the key was in the map and removes it. -/
theorem cwp_erase (h : Inv E B p0 s p ls M J) {Q : Bool → CSt → Prop} {lf f : Nat} (hf : ls.length ≤ lf)
    (hQ : ∀ t, Inv E B p0 t p ls (delKey M key) J → t.tn = s.tn → Q (M key).isSome t) : cwp (erase E key lf (f + 1) false) Q s := by
  have hne : ls ≠ [] := by rintro rfl; have := h.len; simp at this
  unfold erase
  rw [cwp_bind, cwp_rdMeta, cwp_bind, cwp_deMeta h.mt, cwp_bind]
  refine cwp_eraseLevels (r := s.root) (n := s.tn) (fun x t ht => ?_) (pre := []) rfl hne hf
    ⟨⟨rfl, rfl⟩, .inl ⟨rfl, h, by simpa using h.rem key⟩⟩
  rw [cwp_bind, cwp_rdMeta, if_pos ht.1.1.symm, cwp_pure]
  rcases ht.2 with ⟨rfl, h1, h2⟩ | ⟨rfl, hs, h1⟩
  · have hn := h1.none_of_rem h2
    rw [hn] at hQ
    refine hQ t ?_ ht.1.2
    have : delKey M key = M := by
      funext k
      unfold delKey
      split
      · rename_i e
        rw [e, hn]
      · rfl
    rw [this]
    exact h1
  · rw [hs] at hQ
    exact hQ t h1 ht.1.2

end PMap.Clevel
