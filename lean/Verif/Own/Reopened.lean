import Verif.Own.Eras
import Verif.Seq.Scan

/-!
# One writer per key in a map opened from a file (proof machinery)
-/

namespace PMap

open Prog

variable {hash : Word → Word} {len cap n : Nat} {own : Word → Nat} {m : Mem} {M : AMap} {f : File}

/-- Any keys, in a table that comes from a file: if they do not fit, the table grows (no code of its own). -/
noncomputable def reCfg (hash : Word → Word) (len : Nat) (own : Word → Nat) : Cfg :=
  ⟨hash, len, validKeys.filter ValidKey, own, true, true⟩

theorem reCfg_ok (hp : ∃ p, p ≤ 32 ∧ len = 2 ^ p) : (reCfg hash len own).OK :=
  ⟨hp, fun _ h => (Finset.mem_filter.mp h).2, fun e => (by cases e)⟩

theorem reCfg_calm (h : m.next ≤ 1) : ¬ (reCfg hash len own).Grown m := fun hg => by
  have := hg.2
  omega

theorem mem_filt {k : Word} (hk : ValidKey k) : k ∈ validKeys.filter ValidKey := Finset.mem_filter.mpr ⟨mem_validKeys.mpr hk, hk⟩

/-- What opening a file in order, whose values are all ones a user can store, gives. -/
theorem between_open (hf : FileOK hash f) (hc : cap ≤ 2 ^ 32) (hv : ∀ k v, f.Holds k v → ValidVal v)
    (hM : ∀ k v, M k = some v ↔ f.Holds k v) (h : openFile f cap = .done () m) :
    Between (reCfg hash f.len own) m M := by
  obtain ⟨m', h', hs⟩ := openFile_spec f cap
  rw [h] at h'
  cases h'
  have hck : ∀ i, clean (m.word (.key 0 i)) = f.K i := hs.ck
  have hcv : ∀ i, i < f.len → clean (m.word (.val 0 i)) = f.fixed i := fun i hi => (hs.cv i).trans (if_pos hi)
  have hpos : 0 < f.len := by obtain ⟨p, -, e⟩ := hf.pow; rw [e]; positivity
  have hpat : ∀ k d, pat hash f.len k d = ((hash k).toNat + d) % f.len := by
    intro k d
    obtain ⟨p, -, e⟩ := hf.pow
    show (homePut hash k f.len + d) % f.len = _
    rw [e, c04_put_home, Nat.mod_add_mod]
  have huser : ∀ {i}, i < f.len → f.K i ≠ KINITIAL → ValidKey (f.K i) := fun hi h0 => validKey_of_user (K_user hf hi h0)
  have hkeys : ∀ k, M k ≠ none → k ∈ validKeys.filter ValidKey := by
    intro k hk
    obtain ⟨v, e⟩ := Option.ne_none_iff_exists'.mp hk
    obtain ⟨i, hi, rfl, e2, h3, -⟩ := (hM k v).mp e
    exact mem_filt (huser hi fun e => h3 (e2.symm.trans (hf.empty i hi e)))
  have hMi : ∀ {i}, i < f.len → f.K i ≠ KINITIAL → M (f.K i) = dec (f.V i) ∧ Stored (f.V i) := by
    intro i hi h0
    by_cases hl : f.V i = VINITIAL ∨ f.V i = VTOMBSTONE
    · refine ⟨?_, hl.imp id .inl⟩
      have : dec (f.V i) = none := by rcases hl with e | e <;> rw [e] <;> rfl
      rw [this]
      by_contra hne
      obtain ⟨v, e⟩ := Option.ne_none_iff_exists'.mp hne
      obtain ⟨j, hj, e1, e2, h3, h4⟩ := (hM _ v).mp e
      have := K_inj hf hi hj h0 e1.symm
      subst this
      rcases hl with e | e
      · exact h3 (e2.symm.trans e)
      · exact h4 (e2.symm.trans e)
    · rw [not_or] at hl
      have hh : f.Holds (f.K i) (f.V i) := ⟨i, hi, rfl, rfl, hl.1, hl.2⟩
      have := hv _ _ hh
      exact ⟨by rw [(hM _ _).mpr hh, dec_valid this], .inr (.inr this)⟩
  have hsize : (m.tab 0).size = BitVec.ofNat 64 ((validKeys.filter ValidKey).filter fun k => (M k).isSome = true).card := by
    rw [show (m.tab 0).size = BitVec.ofNat 64 (f.count f.len) from hs.size, count_card hf hM, AMap.card, ← Set.ncard_coe_finset]
    congr 2
    ext k
    simp only [Set.mem_ofPred_eq, Finset.coe_filter]
    rw [Option.isSome_iff_ne_none]
    exact ⟨fun h => ⟨hkeys k h, h⟩, fun h => h.2⟩
  refine ⟨?_, fun k v e => hv k v ((hM k v).mp e), hkeys⟩
  refine ⟨hs.root, ?_, hs.len, hs.newT, hs.failed, ⟨?_, ?_⟩, ?_, ?_, fun e => (by cases e), ?_, hsize,
    ⟨hs.next, hs.done, fun e => (by cases e), ?_, hs.reopened⟩⟩
  · show 0 < m.next
    rw [show m.next = 1 from hs.next]; exact Nat.one_pos
  · intro i hi h0
    have h0 : clean (m.word (.key 0 i)) ≠ KINITIAL := h0
    show clean (m.word (.key 0 i)) ∈ _
    rw [hck] at h0 ⊢
    exact mem_filt (huser hi h0)
  · intro i hi h0
    have h0 : clean (m.word (.key 0 i)) ≠ KINITIAL := h0
    show ∃ d, d < reprobeLimit f.len ∧ d < f.len ∧ i = pat hash f.len (clean (m.word (.key 0 i))) d ∧
      ∀ e, e < d → clean (m.word (.key 0 (pat hash f.len (clean (m.word (.key 0 i))) e))) ≠ KINITIAL ∧
        clean (m.word (.key 0 (pat hash f.len (clean (m.word (.key 0 i))) e))) ≠ clean (m.word (.key 0 i))
    simp only [hck, hpat] at h0 ⊢
    obtain ⟨d, h1, h2, h3⟩ := hf.path i hi h0
    refine ⟨d, h1, ?_, h2, h3⟩
    by_contra hd
    refine (h3 (d - f.len) (by omega)).2 ?_
    have : ((hash (clean (f.pair i).1)).toNat + (d - f.len)) % f.len = i := by
      conv_rhs => rw [h2]
      rw [← Nat.add_mod_right, Nat.add_assoc, Nat.sub_add_cancel (by omega)]
    rw [this]
  · intro i hi h0
    have h0 : clean (m.word (.key 0 i)) = KINITIAL := h0
    show clean (m.word (.val 0 i)) = VINITIAL
    rw [hck] at h0
    rw [hcv i hi, File.fixed, if_neg fun c => c.1 h0]
    exact hf.empty i hi h0
  · intro i hi h0
    have h0 : clean (m.word (.key 0 i)) ≠ KINITIAL := h0
    show M (clean (m.word (.key 0 i))) = dec (clean (m.word (.val 0 i))) ∧ Stored (clean (m.word (.val 0 i)))
    rw [hck] at h0
    rw [hck, hcv i hi, File.fixed]
    obtain ⟨h1, h2⟩ := hMi hi h0
    split
    · next c => exact ⟨by rw [h1, c.2, dec_init, dec_tomb], .inr (.inl rfl)⟩
    · exact ⟨h1, h2⟩
  · intro k hk hno
    by_contra hne
    obtain ⟨v, e⟩ := Option.ne_none_iff_exists'.mp hne
    obtain ⟨i, hi, e1, -⟩ := (hM k v).mp e
    exact hno i hi ((hck i).trans e1)
  · show m.cap ≤ _
    rw [show m.cap = cap from hs.cap]; exact hc

end PMap
