import Verif.Own.End

/-!
# Between calls, a map whose keys have one writer each is in order for one thread (proof machinery)
-/

namespace PMap

open Prog

variable {C : Cfg}

/-- What the single-threaded theorems ask for. -/
theorem good_own {s : OSt} (hC : C.OK) (hI : OInv C s) (hV : ∀ k v, s.M k = some v → ValidVal v)
    (hS : ∀ k, s.M k ≠ none → k ∈ C.S) : Good C.hash (abs s.m) s.M := by
  have hn : (abs s.m).next = 1 := hI.lone.next
  have hl : ((abs s.m).tab 0).len = C.len := hI.len
  have t0 : ∀ {t}, t < (abs s.m).next → t = 0 := fun h => by rw [hn] at h; omega
  have hck : ∀ i, (abs s.m).ck 0 i = clean (s.key i) := fun _ => rfl
  have hcv : ∀ i, (abs s.m).cv 0 i = clean (s.val i) := fun _ => rfl
  have hslot : ∀ k d, slotAt C.hash (abs s.m) 0 k d = pat C.hash C.len k d := fun k d => by rw [slotAt, hl, pat]
  have hstored : ∀ i, i < C.len → Stored (clean (s.val i)) := by
    intro i hi
    by_cases h0 : clean (s.key i) = KINITIAL
    · rw [hI.empty i hi h0]; exact .inl rfl
    · exact (hI.vals i hi h0).2
  have huser : ∀ i, i < C.len → clean (s.key i) ≠ KINITIAL → UserKey (clean (s.key i)) := fun i hi h0 =>
    userKey_of_valid (hC.valid _ (hI.placed.mem i hi h0))
  have hmig : ∀ i, i < C.len → isMig (clean (s.val i)) = false := fun i hi => (hstored i hi).mig
  refine ⟨⟨hI.ok, ?_, hI.lone.cap, ?_, ?_, ?_, ?_, ?_, ?_, ?_, ?_, ?_, ?_, ?_, ?_, ?_⟩, ?_, ?_⟩
  · change s.m.root < s.m.next; rw [hI.root]; exact hI.lt
  · intro t ht; cases t0 ht; rw [hl]; exact hC.pow
  · intro t ht; rw [hn] at ht; omega
  · intro t ht; cases t0 ht; rw [hn, if_neg (by omega)]; exact hI.newT
  · intro hre t ht; cases t0 ht; exact hI.lone.slots (hI.lone.reopened.symm.trans hre)
  · intro t i _ _; exact clean_clean _
  · intro t i ht hi h0; cases t0 ht; rw [hl] at hi; exact hI.empty i hi h0
  · intro t i ht hi h0
    cases t0 ht
    rw [hl] at hi
    rw [hck] at h0
    exact absurd h0 (huser i hi (by rw [h0]; exact KINITIAL_ne_KTOMBSTONE.symm)).ne_tomb
  · intro t i ht hi hu
    cases t0 ht
    rw [hl] at hi
    obtain ⟨d, h10, hd, e, h⟩ := hI.placed.path i hi hu.ne_init
    refine ⟨d, lt_of_lt_of_le h10 (le_trans C.bound_le (by rw [A.lim, hl])), by rw [hslot]; exact e, fun x hx => ?_, fun hre _ h' => .inl ?_⟩
    · rw [hslot]
      have := h x hx
      exact ⟨this.1, (huser _ (pat_lt hC.pos _ _) this.1).ne_tomb, this.2⟩
    · by_contra hv
      obtain ⟨d', h1, h2⟩ := hI.near (hI.lone.reopened.symm.trans hre) i hi hu.ne_init hv
      have := pat_inj hd (show d' < C.len by omega) (e.symm.trans h2)
      omega
  · intro t i ht hi
    cases t0 ht
    rw [hl] at hi
    rcases hstored i hi with h | h | h
    · exact .inl h
    · exact .inr (.inl h)
    · exact .inr (.inr (.inl (storable_of_valid h)))
  · intro t i ht hi h
    cases t0 ht
    rw [hl] at hi
    rw [hcv, hmig i hi] at h; cases h
  · intro t i x ht _ _ hx; rw [hn] at ht; omega
  · intro t i ht; have : t < s.m.root := ht; rw [hI.root] at this; omega
  · intro k v
    constructor
    · intro h
      have hkS := hS k (by rw [h]; simp)
      have hk := hC.valid k hkS
      refine ⟨userKey_of_valid hk, storable_of_valid (hV k v h), ?_⟩
      by_contra hne
      have hnone : ∀ i, i < C.len → clean (s.key i) ≠ k := by
        intro i hi hki
        have h0 : clean (s.key i) ≠ KINITIAL := by rw [hki]; exact (userKey_of_valid hk).ne_init
        have h1 := (hI.vals i hi h0).1
        rw [hki, h, dec] at h1
        split at h1
        · cases h1
        · exact hne ⟨0, i, by rw [hn]; exact Nat.zero_lt_one, by rw [hl]; exact hi, hki, (Option.some.inj h1).symm⟩
      rw [hI.absent k hk hnone] at h; cases h
    · rintro ⟨hk, hv, t, i, ht, hi, e1, e2⟩
      cases t0 ht
      rw [hl] at hi
      rw [hck] at e1
      rw [hcv] at e2
      have h1 := (hI.vals i hi (by rw [e1]; exact hk.ne_init)).1
      rw [e1, e2, dec, if_neg (by rintro (h | h); exacts [hv.ne_init h, hv.ne_tomb h])] at h1
      exact h1
  · intro t i _ ht hi h
    cases t0 ht
    rw [hl] at hi
    rw [hcv, hmig i hi] at h; cases h
  · funext t
    rw [drift]
    split
    · next ht =>
      cases t0 ht
      have h1 : ((abs s.m).tab 0).copyDone = 0 := hI.lone.done
      have h2 : cnt (abs s.m) 0 = 0 := by
        rw [cnt, Finset.card_eq_zero, Finset.filter_eq_empty_iff]
        intro i hi h
        rw [Finset.mem_range, hl] at hi
        rw [hcv] at h
        have := hmig i hi
        rw [h, isMig_TOMBPRIME] at this; cases this
      rw [h1, h2]; rfl
    · rfl

/-- A `get` that runs alone returns the content. -/
theorem get_own {s : OSt} (hC : C.OK) (hI : OInv C s) (hV : ∀ k v, s.M k = some v → ValidVal v)
    (hS : ∀ k, s.M k ≠ none → k ∈ C.S) {k : Word} (hk : ValidKey k) {n : Nat}
    {w : Word} {m' : Mem} (hg : run (mapGet C.hash n k) s.m = .done w m') : w = resWord (s.M k) := by
  obtain ⟨rfl, -⟩ := (mapGet_spec n (good_own hC hI hV hS) (userKey_of_valid hk) s.m rfl).2 w m' hg
  rfl

end PMap
