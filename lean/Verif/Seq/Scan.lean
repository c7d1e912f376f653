import Verif.Seq.Ops
import Verif.Reopen

/-!
# Opening an existing file establishes the invariant (proof machinery)
-/

namespace PMap

open Prog

variable {hash : Word → Word}

/-- The program contains no `halt`. -/
inductive NoHalt {α : Type} : Prog α → Prop
  | ret (a : α) : NoHalt (.ret a)
  | act (a : Act) (k : a.Resp → Prog α) : (∀ r, NoHalt (k r)) → NoHalt (.act a k)

theorem NoHalt.bind {α β : Type} {p : Prog α} {f : α → Prog β} (h : NoHalt p) (hf : ∀ a, NoHalt (f a)) :
    NoHalt (p.bind f) := by
  induction h with
  | ret a => exact hf a
  | act a k _ ih => exact .act a _ ih

theorem NoHalt.run {α : Type} {p : Prog α} (h : NoHalt p) {m : Mem} (hs : Safe p m) : ∃ a m', run p m = .done a m' := by
  induction h generalizing m with
  | ret a => exact ⟨a, m, rfl⟩
  | act a k _ ih =>
    rw [Safe] at hs
    rw [PMap.run]
    cases he : a.exec m with
    | none => rw [he] at hs; exact hs.2.elim
    | some rm => obtain ⟨r, m'⟩ := rm; rw [he] at hs; exact ih r hs.2

theorem noHalt_do1 (a : Act) : NoHalt (do1 a) := .act a _ (fun r => .ret r)

theorem noHalt_pcasRead (a : Addr) : NoHalt (pcasRead a) := by
  refine .act _ _ (fun r => ?_)
  show NoHalt (if isDirty r then _ else _)
  split
  · exact .act _ _ fun _ => .act _ _ fun _ => .act _ _ fun _ => .ret _
  · exact .ret _

theorem noHalt_pcas (a : Addr) (o n : Word) : NoHalt (pcas a o n) :=
  (noHalt_pcasRead a).bind fun _ => .act _ _ fun _ => .act _ _ fun _ => .ret _

theorem noHalt_scanFix (i : Nat) (K V : Word) : NoHalt (scanFix i K V) := by
  unfold scanFix
  split
  · exact NoHalt.bind ((noHalt_pcas _ _ _).bind fun _ => .ret _) fun _ => (noHalt_pcasRead _).bind fun _ =>
      .act _ _ fun _ => .ret _
  · exact .ret _

theorem noHalt_scanSlot (i : Nat) : NoHalt (scanSlot i) := by
  refine (noHalt_pcasRead _).bind fun V => (noHalt_pcasRead _).bind fun K => (noHalt_scanFix _ _ _).bind fun V' => ?_
  split
  · exact noHalt_do1 _
  · split
    · exact noHalt_do1 _
    · exact .ret _

theorem noHalt_scan (todo i : Nat) : NoHalt (scan todo i) := by
  induction todo generalizing i with
  | zero => exact .ret _
  | succ n ih => exact (noHalt_scanSlot i).bind fun _ => ih _

/-! ## What the scan does -/

section
variable (f : File) (cap : Nat)

/-- Clean key of pair `i`. -/
def File.K (f : File) (i : Nat) : Word := clean (f.pair i).1
/-- Clean value of pair `i`. -/
def File.V (f : File) (i : Nat) : Word := clean (f.pair i).2

/-- Pair `i` holds a value. -/
def File.Live (f : File) (i : Nat) : Prop := f.V i ≠ VINITIAL ∧ f.V i ≠ VTOMBSTONE ∧ f.V i ≠ TOMBPRIME
instance (i : Nat) : Decidable (f.Live i) := by unfold File.Live; infer_instance

/-- The value of pair `i` once repaired. -/
def File.fixed (f : File) (i : Nat) : Word := if f.K i ≠ KINITIAL ∧ f.V i = VINITIAL then VTOMBSTONE else f.V i

/-- Number of live pairs among the first `j`. -/
def File.count (f : File) (j : Nat) : Nat := ((Finset.range j).filter (fun i => f.Live i)).card

/-- The view after `j` rounds. -/
structure Scanned (j : Nat) (s : A) : Prop where
  ck : ∀ i, s.ck 0 i = f.K i
  cv : ∀ i, s.cv 0 i = if i < j then f.fixed i else f.V i
  len : (s.tab 0).len = f.len
  newT : (s.tab 0).newT = none
  size : (s.tab 0).size = BitVec.ofNat 64 (f.count j)
  done : (s.tab 0).copyDone = 0
  next : s.next = 1
  root : s.root = 0
  cap : s.cap = cap
  failed : s.failed = false
  reopened : s.reopened = true

variable {f cap}

theorem count_succ (j : Nat) : f.count (j + 1) = f.count j + if f.Live j then 1 else 0 := by
  unfold File.count
  rw [Finset.range_add_one, Finset.filter_insert]
  split
  · rw [Finset.card_insert_of_notMem (by simp)]
  · rfl

theorem ofNat_succ (n : Nat) : BitVec.ofNat 64 n + 1#64 = BitVec.ofNat 64 (n + 1) := by
  apply BitVec.eq_of_toNat_eq; simp

theorem live_fixed {j : Nat} : (f.fixed j ≠ VINITIAL ∧ f.fixed j ≠ VTOMBSTONE ∧ f.fixed j ≠ TOMBPRIME) ↔ f.Live j := by
  unfold File.fixed File.Live
  split
  · next h => simp [h.2]
  · rfl

theorem cv_step {s s' : A} {j : Nat} (h : Scanned f cap j s) (h' : ∀ i, s'.cv 0 i = if i = j then f.fixed j else s.cv 0 i)
    (i : Nat) : s'.cv 0 i = if i < j + 1 then f.fixed i else f.V i := by
  rw [h']
  rcases lt_trichotomy i j with hl | he | hg
  · rw [if_neg (by omega), h.cv, if_pos hl, if_pos (by omega)]
  · subst he; rw [if_pos rfl, if_pos (by omega)]
  · rw [if_neg (by omega), h.cv, if_neg (by omega), if_neg (by omega)]

theorem scanFix_spec {j : Nat} {s : A} (hj : j < f.len) (h : Scanned f cap j s) :
    W (scanFix j (f.K j) (f.V j)) (fun V s' => V = f.fixed j ∧ ∃ cv', s' = { s with cv := cv' } ∧
      ∀ i, cv' 0 i = if i = j then f.fixed j else s.cv 0 i) s := by
  have hn : 0 < s.next := by rw [h.next]; exact Nat.one_pos
  have hl : j < (s.tab 0).len := by rw [h.len]; exact hj
  have hv : s.cv 0 j = f.V j := by rw [h.cv, if_neg (lt_irrefl _)]
  unfold scanFix
  split
  · next hc =>
    have hfix : f.fixed j = VTOMBSTONE := by rw [File.fixed, if_pos hc]
    refine W_bind' (W_casValue hn hl (fun e => ?_) (fun e => absurd (hv.trans hc.2) e))
    refine W_bind' (W_tableValue hn hl ?_)
    have e1 : upd2 s.cv 0 j (clean VTOMBSTONE) 0 j = VTOMBSTONE := by simp [upd2, clean_VTOMBSTONE]
    simp only [e1]
    refine W_bind' (W_check (by simp) (W_pure ⟨hfix.symm, _, rfl, ?_⟩))
    intro i
    simp only [upd2, true_and, hfix, clean_VTOMBSTONE]
  · next hc =>
    have hfix : f.fixed j = f.V j := by rw [File.fixed, if_neg hc]
    refine W_pure ⟨hfix.symm, s.cv, rfl, ?_⟩
    intro i
    split
    · next hi => rw [hi, hv, hfix]
    · rfl

theorem scanSlot_spec {j : Nat} {s : A} (hj : j < f.len) (h : Scanned f cap j s) :
    W (scanSlot j) (fun _ s' => Scanned f cap (j + 1) s') s := by
  have hn : 0 < s.next := by rw [h.next]; exact Nat.one_pos
  have hl : j < (s.tab 0).len := by rw [h.len]; exact hj
  have hv : s.cv 0 j = f.V j := by rw [h.cv, if_neg (lt_irrefl _)]
  refine W_bind' (W_tableValue hn hl ?_)
  refine W_bind' (W_tableKey hn hl ?_)
  rw [hv, h.ck]
  refine W_bind' (W_mono (scanFix_spec hj h) ?_)
  rintro V s' ⟨rfl, cv', rfl, hcv⟩
  have hc := count_succ (f := f) j
  have hcv' := cv_step (s' := { s with cv := cv' }) h hcv
  by_cases hlive : f.Live j
  · rw [if_pos (live_fixed.mpr hlive)]
    rw [if_pos hlive] at hc
    refine W_addSize hn ⟨h.ck, hcv', ?_, ?_, ?_, ?_, h.next, h.root, h.cap, h.failed, h.reopened⟩ <;>
      simp only [upd_same]
    · exact h.len
    · exact h.newT
    · rw [h.size, ofNat_succ, hc]
    · exact h.done
  · rw [if_neg (fun hh => hlive (live_fixed.mp hh))]
    rw [if_neg hlive] at hc
    split
    · refine W_incSlots hn ⟨h.ck, hcv', ?_, ?_, ?_, ?_, h.next, h.root, h.cap, h.failed, h.reopened⟩ <;>
        simp only [upd_same]
      · exact h.len
      · exact h.newT
      · rw [h.size, hc, Nat.add_zero]
      · exact h.done
    · exact W_pure ⟨h.ck, hcv', h.len, h.newT, by rw [hc, Nat.add_zero]; exact h.size, h.done, h.next, h.root, h.cap, h.failed, h.reopened⟩

theorem scan_spec (todo : Nat) : ∀ {j : Nat} {s : A}, j + todo = f.len → Scanned f cap j s →
    W (scan todo j) (fun _ s' => Scanned f cap f.len s') s := by
  induction todo with
  | zero => intro j s hj h; rw [Nat.add_zero] at hj; subst hj; exact W_pure h
  | succ n ih =>
    intro j s hj h
    refine W_bind' (W_mono (scanSlot_spec (by omega) h) ?_)
    intro _ s' h'
    exact ih (by omega) h'

theorem scanned_start : Scanned f cap 0 (abs (reopenMem f cap)) where
  ck _ := rfl
  cv _ := rfl
  len := rfl
  newT := rfl
  size := rfl
  done := rfl
  next := rfl
  root := rfl
  cap := rfl
  failed := rfl
  reopened := rfl

theorem openFile_spec (f : File) (cap : Nat) : ∃ m, openFile f cap = .done () m ∧ Scanned f cap f.len (abs m) := by
  have h := scan_spec f.len (Nat.zero_add _) (scanned_start (f := f) (cap := cap)) _ rfl
  obtain ⟨a, m, hm⟩ := (noHalt_scan f.len 0).run h.1
  exact ⟨m, hm, h.2 a m hm⟩

/-! ## A file in order gives a map in order -/

theorem live_of {f : File} (hf : FileOK hash f) {i : Nat} (hi : i < f.len) : f.Live i ↔ Storable (f.V i) := by
  have hm : isMig (f.V i) = false := by
    show isMig (clean _) = false
    rw [isMig_clean]; exact hf.no_mig i hi
  constructor
  · rintro ⟨h1, h2, -⟩; exact ⟨clean_clean _, hm, h1, h2⟩
  · intro h; exact ⟨h.ne_init, h.ne_tomb, h.ne_prime⟩

theorem K_user {f : File} (hf : FileOK hash f) {i : Nat} (hi : i < f.len) (h : f.K i ≠ KINITIAL) : UserKey (f.K i) :=
  ⟨clean_clean _, h, hf.no_tomb i hi⟩

theorem fixed_storable {f : File} {i : Nat} {v : Word} (hv : Storable v) : f.fixed i = v ↔ f.V i = v := by
  unfold File.fixed
  split
  · next h => exact ⟨fun e => absurd e.symm hv.ne_tomb, fun e => absurd (h.2.symm.trans e).symm hv.ne_init⟩
  · rfl

theorem live_key {f : File} (hf : FileOK hash f) {i : Nat} (hi : i < f.len) (h : f.Live i) : f.K i ≠ KINITIAL :=
  fun e => h.1 (hf.empty i hi e)

theorem K_inj {f : File} (hf : FileOK hash f) {i j : Nat} (hi : i < f.len) (hj : j < f.len) (h : f.K i ≠ KINITIAL)
    (e : f.K i = f.K j) : i = j := by
  obtain ⟨d, -, h1, h2⟩ := hf.path i hi h
  obtain ⟨d', -, h1', h2'⟩ := hf.path j hj (fun hh => h (e.trans hh))
  change i = ((hash (f.K i)).toNat + d) % f.len at h1
  change j = ((hash (f.K j)).toNat + d') % f.len at h1'
  change ∀ x < d, f.K (((hash (f.K i)).toNat + x) % f.len) ≠ KINITIAL ∧ f.K (((hash (f.K i)).toNat + x) % f.len) ≠ f.K i at h2
  change ∀ x < d', f.K (((hash (f.K j)).toNat + x) % f.len) ≠ KINITIAL ∧ f.K (((hash (f.K j)).toNat + x) % f.len) ≠ f.K j at h2'
  rcases lt_trichotomy d d' with hl | he | hg
  · have := (h2' d hl).2
    rw [← e, ← h1] at this; exact absurd rfl this
  · rw [h1, h1', e, he]
  · have := (h2 d' hg).2
    rw [e, ← h1'] at this; exact absurd rfl this

theorem scanned_inv {f : File} (hf : FileOK hash f) (hc : cap ≤ 2 ^ 32) {M : AMap}
    (hM : ∀ k v, M k = some v ↔ f.Holds k v) {s : A} (h : Scanned f cap f.len s) : Good hash s M := by
  obtain ⟨p, hp, hlen⟩ := hf.pow
  have h0 : ∀ {t}, t < s.next → t = 0 := fun ht => by rw [h.next] at ht; omega
  have hl := h.len
  have hcv : ∀ i, i < f.len → s.cv 0 i = f.fixed i := fun i hi => by rw [h.cv, if_pos hi]
  have hslot : ∀ k d, slotAt hash s 0 k d = ((hash k).toNat + d) % f.len := by
    intro k d
    unfold slotAt
    rw [hl, hlen, c04_put_home, Nat.mod_add_mod]
  have hmigV : ∀ i, i < f.len → isMig (f.V i) = false := fun i hi => by
    show isMig (clean _) = false
    rw [isMig_clean]; exact hf.no_mig i hi
  have hfm : ∀ i, i < f.len → isMig (f.fixed i) = false := by
    intro i hi
    unfold File.fixed
    split
    · exact isMig_VTOMBSTONE
    · exact hmigV i hi
  refine ⟨?_, ?_, ?_⟩
  · refine ⟨h.failed, by rw [h.root, h.next]; exact Nat.one_pos, by rw [h.cap]; exact hc, ?_, ?_, ?_, ?_, ?_, ?_, ?_, ?_,
      ?_, ?_, ?_, ?_, ?_⟩
    · intro t ht; cases h0 ht; exact ⟨p, hp, by rw [hl, hlen]⟩
    · intro t ht; rw [h.next] at ht; omega
    · intro t ht; cases h0 ht; rw [h.newT, if_neg (by rw [h.next]; omega)]
    · intro hr; rw [h.reopened] at hr; cases hr
    · intro t i ht _; cases h0 ht; rw [h.ck]; exact clean_clean _
    · intro t i ht hi e; cases h0 ht
      rw [hl] at hi; rw [h.ck] at e
      rw [hcv i hi, File.fixed, if_neg (fun hh => hh.1 e)]
      exact hf.empty i hi e
    · intro t i ht hi e; cases h0 ht
      rw [hl] at hi; rw [h.ck] at e
      exact absurd e (hf.no_tomb i hi)
    · intro t i ht hi hk; cases h0 ht
      rw [hl] at hi; rw [h.ck] at hk ⊢
      obtain ⟨d, hd, h1, h2⟩ := hf.path i hi hk.ne_init
      refine ⟨d, ?_, ?_, ?_, ?_⟩
      · rw [A.lim, hl]; exact hd
      · rw [hslot]; exact h1
      · intro e he
        rw [hslot, h.ck]
        have h3 := h2 e he
        exact ⟨h3.1, hf.no_tomb _ (by rw [hlen]; exact Nat.mod_lt _ (by positivity)), h3.2⟩
      · intro hr; rw [h.reopened] at hr; cases hr
    · intro t i ht hi; cases h0 ht
      rw [hl] at hi; rw [hcv i hi]
      by_cases h1 : f.fixed i = VINITIAL
      · exact .inl h1
      · by_cases h2 : f.fixed i = VTOMBSTONE
        · exact .inr (.inl h2)
        · refine .inr (.inr (.inl ⟨?_, hfm i hi, h1, h2⟩))
          unfold File.fixed
          split
          · exact clean_VTOMBSTONE
          · exact clean_clean _
    · intro t i ht hi hm; cases h0 ht
      rw [hl] at hi; rw [hcv i hi, hfm i hi] at hm; cases hm
    · intro t i t0 ht _ _ hlt; cases h0 ht; exact absurd hlt (Nat.not_lt_zero _)
    · intro t i ht; rw [h.root] at ht; exact absurd ht (Nat.not_lt_zero _)
    · intro k v
      rw [hM]
      constructor
      · rintro ⟨i, hi, e1, e2, h3, h4⟩
        change f.K i = k at e1
        change f.V i = v at e2
        have hm := hmigV i hi
        rw [e2] at hm
        have hv : Storable v := ⟨by rw [← e2]; exact clean_clean _, hm, h3, h4⟩
        have hne : f.K i ≠ KINITIAL := fun e => h3 (e2.symm.trans (hf.empty i hi e))
        exact ⟨by rw [← e1]; exact K_user hf hi hne, hv, 0, i, by rw [h.next]; exact Nat.one_pos, by rw [hl]; exact hi,
          by rw [h.ck]; exact e1, by rw [hcv i hi]; exact (fixed_storable hv).mpr e2⟩
      · rintro ⟨hk, hv, t, i, ht, hi, e1, e2⟩
        cases h0 ht
        rw [hl] at hi; rw [h.ck] at e1; rw [hcv i hi] at e2
        exact ⟨i, hi, e1, (fixed_storable hv).mp e2, hv.ne_init, hv.ne_tomb⟩
  · intro t i _ ht hi hm; cases h0 ht
    rw [hl] at hi; rw [hcv i hi, hfm i hi] at hm; cases hm
  · funext t
    unfold drift
    split
    · next ht =>
      cases h0 ht
      have : cnt s 0 = 0 := by
        unfold cnt
        rw [Finset.card_eq_zero, Finset.filter_eq_empty_iff]
        intro i hi e
        rw [Finset.mem_range, hl] at hi
        rw [hcv i hi] at e
        have := hfm i hi
        rw [e, isMig_TOMBPRIME] at this; cases this
      rw [this, h.done]; rfl
    · rfl

theorem count_card {f : File} (hf : FileOK hash f) {M : AMap} (hM : ∀ k v, M k = some v ↔ f.Holds k v) :
    f.count f.len = AMap.card M := by
  have e : {k | M k ≠ none} = f.K '' (((Finset.range f.len).filter (fun i => f.Live i) : Finset Nat) : Set Nat) := by
    ext k
    simp only [Set.mem_ofPred_eq, Set.mem_image, Finset.mem_coe, Finset.mem_filter, Finset.mem_range]
    rw [Option.ne_none_iff_exists']
    constructor
    · rintro ⟨v, hv⟩
      obtain ⟨i, hi, e1, e2, h3, h4⟩ := (hM k v).mp hv
      refine ⟨i, ⟨hi, (live_of hf hi).mpr ⟨clean_clean _, ?_, by rw [File.V, e2]; exact h3, by rw [File.V, e2]; exact h4⟩⟩, e1⟩
      rw [File.V, isMig_clean]; exact hf.no_mig i hi
    · rintro ⟨i, ⟨hi, hl⟩, e⟩
      exact ⟨f.V i, (hM _ _).mpr ⟨i, hi, e, rfl, hl.1, hl.2.1⟩⟩
  unfold AMap.card File.count
  rw [e, Set.InjOn.ncard_image, Set.ncard_coe_finset]
  intro i hi j hj hij
  rw [Finset.mem_coe, Finset.mem_filter, Finset.mem_range] at hi hj
  exact K_inj hf hi.1 hj.1 (live_key hf hi.1 hi.2) hij

/-- A table in order, alone, makes a file in order. -/
theorem file_of_good {m : Mem} {M : AMap} (h : Good hash (abs m) M) (h1 : m.next = 1) :
    FileOK hash (fileOf m.word 0 (m.tab 0).len) ∧
      ∀ k v, M k = some v ↔ (fileOf m.word 0 (m.tab 0).len).Holds k v := by
  have hn : 0 < m.next := by omega
  have hI := h.inv
  obtain ⟨p, hp, hlen⟩ := hI.len_pow 0 hn
  have hlen : (m.tab 0).len = 2 ^ p := hlen
  have hslot : ∀ k d, slotAt hash (abs m) 0 k d = ((hash k).toNat + d) % (m.tab 0).len := by
    intro k d
    show (homePut hash k (m.tab 0).len + d) % (m.tab 0).len = _
    rw [hlen, c04_put_home, Nat.mod_add_mod]
  have hmig : ∀ i, i < (m.tab 0).len → isMig (clean (m.word (.val 0 i))) = false := by
    intro i hi
    cases hm : isMig (clean (m.word (.val 0 i))) with
    | false => rfl
    | true =>
      have h2 : 0 + 1 < m.next := hI.mig 0 i hn hi hm
      omega
  have htomb : ∀ i, i < (m.tab 0).len → clean (m.word (.key 0 i)) ≠ KTOMBSTONE := by
    intro i hi e
    have h2 : 0 + 1 < m.next := (hI.ktomb 0 i hn hi e).1
    omega
  refine ⟨⟨⟨p, hp, hlen⟩, ?_, htomb, ?_, ?_⟩, ?_⟩
  · intro i hi e; exact hI.kinit 0 i hn hi e
  · intro i hi
    have := hmig i hi
    rw [isMig_clean] at this; exact this
  · intro i hi hk
    obtain ⟨d, hd, h3, h4, -⟩ := hI.path 0 i hn hi ⟨clean_clean _, hk, htomb i hi⟩
    refine ⟨d, hd, ?_, ?_⟩
    · rw [hslot] at h3; exact h3
    · intro e he
      have h5 := h4 e he
      rw [hslot] at h5
      exact ⟨h5.1, h5.2.2⟩
  · intro k v
    rw [hI.cont]
    constructor
    · rintro ⟨hk, hv, t, i, ht, hi, e1, e2⟩
      have ht : t < m.next := ht
      have : t = 0 := by omega
      subst this
      exact ⟨i, hi, e1, e2, hv.ne_init, hv.ne_tomb⟩
    · rintro ⟨i, hi, e1, e2, h3, h4⟩
      have hi : i < (m.tab 0).len := hi
      have e1 : clean (m.word (.key 0 i)) = k := e1
      have e2 : clean (m.word (.val 0 i)) = v := e2
      refine ⟨⟨by rw [← e1]; exact clean_clean _, ?_, by rw [← e1]; exact htomb i hi⟩, ⟨by rw [← e2]; exact clean_clean _,
        by rw [← e2]; exact hmig i hi, h3, h4⟩, 0, i, hn, hi, e1, e2⟩
      intro e
      exact h3 (e2.symm.trans (hI.kinit 0 i hn hi (e1.trans e)))

end

end PMap
