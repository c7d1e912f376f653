import Verif.Seq.Crowd

/-!
# Growing finishes (proof machinery)

If the keys are spread well enough over a table of some length, then one thread alone never grows the map beyond that length,
and every call finishes.
-/

namespace PMap

open Prog

variable {hash : Word → Word} {s : A} {M : Word → Option Word} {t idx : Nat} {k : Word}

/-! ## Keys spread over a table -/

/-- The keys of `S` are spread over a table of `len` slots: not every slot is needed, and no stretch of ten or more slots is
the home of more keys than it has slots. -/
def FitsIn (hash : Word → Word) (S : Finset Word) (len : Nat) : Prop :=
  S.card < len ∧ ∀ a m, 10 ≤ m → m < len →
    (S.filter (fun x => ∃ j, j < m ∧ (hash x).toNat % len = (a + j) % len)).card ≤ m

variable {S : Finset Word} {L B : Nat}

theorem homePut_mod (hp : ∃ p, p ≤ 32 ∧ (s.tab t).len = 2 ^ p) (k : Word) :
    homePut hash k (s.tab t).len = (hash k).toNat % (s.tab t).len := and_len hp

/-- In the newest table, a key is at one slot only. -/
theorem Inv.slot_inj (hI : Inv hash s M) (ht : t < s.next) {i j : Nat} (hi : i < (s.tab t).len) (hj : j < (s.tab t).len)
    (hk : UserKey (s.ck t i)) (e : s.ck t i = s.ck t j) : i = j := by
  obtain ⟨d, -, h1, h2, -⟩ := hI.path t j ht hj (by rw [← e]; exact hk)
  rw [← e] at h1 h2
  rw [h1]
  exact hI.at_unique hk ht hi rfl h2 (.inr (.inr (by rw [← h1]; exact e.symm)))

/-- In the newest table, spread keys are found within ten slots. -/
theorem fits_near (hI : Inv hash s M) (hS : ∀ x ∈ S, UserKey x)
    (hkeys : ∀ i, i < (s.tab t).len → s.ck t i = KINITIAL ∨ s.ck t i = KTOMBSTONE ∨ s.ck t i ∈ S)
    (hlast : t + 1 = s.next) (hfit : FitsIn hash S (s.tab t).len) (hk : k ∈ S) {d : Nat} (hu : Upto hash s t k d) : d < 10 := by
  by_contra hcon
  have ht : t < s.next := by omega
  have hp := hI.len_pow t ht
  generalize hlen : (s.tab t).len = len at *
  have hpos : 0 < len := by rw [← hlen]; exact hI.len_pos ht
  have hocc : ∀ i, i < len → s.ck t i ≠ KINITIAL → s.ck t i ∈ S := by
    intro i hi h0
    rcases hkeys i hi with h | h | h
    · exact absurd h h0
    · have := (hI.ktomb t i ht (by rw [hlen]; exact hi) h).1; omega
    · exact h
  have hhome : ∀ x, homePut hash x len = (hash x).toNat % len := fun x => and_len hp
  have hslot : ∀ x e, slotAt hash s t x e = ((hash x).toNat % len + e) % len := fun x e => by
    simp only [slotAt, hlen, hhome]
  -- there is an empty slot
  have hempty : ∃ i, i < len ∧ s.ck t i = KINITIAL := by
    by_contra hno
    push Not at hno
    have := Finset.card_le_card_of_injOn (s := Finset.range len) (t := S) (fun i => s.ck t i)
      (fun i hi => by
        have hi : i < len := by simpa using hi
        exact hocc i hi (hno i hi))
      (fun i hi j hj e => by
        have hi : i < len := by simpa using hi
        have hj : j < len := by simpa using hj
        exact hI.slot_inj ht (by rw [hlen]; exact hi) (by rw [hlen]; exact hj) (hS _ (hocc i hi (hno i hi))) e)
    rw [Finset.card_range] at this
    have := hfit.1
    omega
  generalize hh : (hash k).toNat % len = h at *
  have hhl : h < len := by rw [← hh]; exact Nat.mod_lt _ hpos
  have hten : ∀ e, e < 10 → s.ck t ((h + e) % len) ≠ KINITIAL ∧ s.ck t ((h + e) % len) ≠ k := by
    intro e he
    have := hu e (by omega)
    rw [hslot, hh] at this
    exact ⟨this.1, this.2.2⟩
  -- the nearest empty slot on the left
  have hleft : ∃ j, 1 ≤ j ∧ j ≤ len ∧ s.ck t ((h + len - j) % len) = KINITIAL := by
    obtain ⟨i, hi, h0⟩ := hempty
    by_cases hc : i < h
    · refine ⟨h - i, by omega, by omega, ?_⟩
      rw [show h + len - (h - i) = i + len by omega, Nat.add_mod_right, Nat.mod_eq_of_lt hi]; exact h0
    · refine ⟨h + len - i, by omega, by omega, ?_⟩
      rw [show h + len - (h + len - i) = i by omega, Nat.mod_eq_of_lt hi]; exact h0
  classical
  obtain ⟨j, ⟨hj1, hjl, hj0⟩, hmin⟩ : ∃ j, (1 ≤ j ∧ j ≤ len ∧ s.ck t ((h + len - j) % len) = KINITIAL) ∧
      ∀ j', j' < j → ¬ (1 ≤ j' ∧ j' ≤ len ∧ s.ck t ((h + len - j') % len) = KINITIAL) :=
    ⟨Nat.find hleft, Nat.find_spec hleft, fun _ => Nat.find_min hleft⟩
  have hj10 : j + 10 ≤ len := by
    by_contra hc
    refine (hten (len - j) (by omega)).1 ?_
    rw [show h + (len - j) = h + len - j by omega]; exact hj0
  -- the stretch from there to the tenth slot probed
  generalize ha : h + len - j + 1 = a at *
  have hfull : ∀ q, q < j + 9 → s.ck t ((a + q) % len) ≠ KINITIAL := by
    intro q hq
    by_cases hc : q + 1 < j
    · have := hmin (j - 1 - q) (by omega)
      rw [show h + len - (j - 1 - q) = a + q by omega] at this
      exact fun h0 => this ⟨by omega, by omega, h0⟩
    · have := (hten (q + 1 - j) (by omega)).1
      rw [show a + q = h + (q + 1 - j) + len by omega, Nat.add_mod_right]; exact this
  have hqlt : ∀ q, (a + q) % len < len := fun q => Nat.mod_lt _ hpos
  have hmemS : ∀ q, q < j + 9 → s.ck t ((a + q) % len) ∈ S := fun q hq => hocc _ (hqlt q) (hfull q hq)
  have hpath : ∀ q, q < j + 9 → ∃ q', q' ≤ q ∧ (hash (s.ck t ((a + q) % len))).toNat % len = (a + q') % len ∧
      ∃ d', (a + q) % len = ((hash (s.ck t ((a + q) % len))).toNat % len + d') % len ∧ q = q' + d' := by
    intro q hq
    obtain ⟨d', -, h1, h2, -⟩ := hI.path t _ ht (by rw [hlen]; exact hqlt q) (hS _ (hmemS q hq))
    generalize s.ck t ((a + q) % len) = y at *
    rw [hslot] at h1
    have hy : (hash y).toNat % len < len := Nat.mod_lt _ hpos
    generalize hgen : (hash y).toNat % len = g at *
    have hd' : d' ≤ q := by
      by_contra hc
      have := (h2 (d' - (q + 1)) (by omega)).1
      apply this
      have hs2 : slotAt hash s t y (d' - (q + 1)) = (h + len - j) % len := by
        rw [hslot, hgen]
        have h3 : (g + (d' - (q + 1)) + (q + 1)) % len = (h + len - j + (q + 1)) % len := by
          rw [show g + (d' - (q + 1)) + (q + 1) = g + d' by omega, ← h1]
          congr 1; omega
        exact Nat.ModEq.add_right_cancel' (q + 1) (show _ ≡ _ [MOD len] from h3)
      rw [hs2]; exact hj0
    refine ⟨q - d', by omega, ?_, d', h1, by omega⟩
    have h3 : (g + d') % len = (a + (q - d') + d') % len := by
      rw [← h1]; congr 1; omega
    have := Nat.ModEq.add_right_cancel' d' (show _ ≡ _ [MOD len] from h3)
    rw [Nat.ModEq, Nat.mod_eq_of_lt hy] at this
    exact this
  -- count
  have hcard := hfit.2 a (j + 9) (by omega) (by omega)
  generalize hF : S.filter (fun x => ∃ q, q < j + 9 ∧ (hash x).toNat % len = (a + q) % len) = F at *
  have hkF : k ∈ F := by
    rw [← hF, Finset.mem_filter]
    refine ⟨hk, j - 1, by omega, ?_⟩
    rw [hh, show a + (j - 1) = h + len by omega, Nat.add_mod_right, Nat.mod_eq_of_lt hhl]
  have hinto : ∀ q ∈ Finset.range (j + 9), s.ck t ((a + q) % len) ∈ F.erase k := by
    intro q hq
    rw [Finset.mem_range] at hq
    obtain ⟨q', hq', h1, d', h2, h3⟩ := hpath q hq
    refine Finset.mem_erase.mpr ⟨?_, ?_⟩
    · intro e
      rw [e, hh] at h1 h2
      have hq'j : q' = j - 1 := by
        have h4 : (a + q') % len = (a + (j - 1)) % len := by
          rw [← h1, show a + (j - 1) = h + len by omega, Nat.add_mod_right, Nat.mod_eq_of_lt hhl]
        have := Nat.ModEq.add_left_cancel' a (show _ ≡ _ [MOD len] from h4)
        rw [Nat.ModEq, Nat.mod_eq_of_lt (by omega), Nat.mod_eq_of_lt (by omega)] at this
        exact this
      refine (hten d' (by omega)).2 ?_
      rw [← h2]; exact e
    · rw [← hF, Finset.mem_filter]
      exact ⟨hmemS q hq, q', by omega, h1⟩
  have hinj : Set.InjOn (fun q => s.ck t ((a + q) % len)) (Finset.range (j + 9) : Set Nat) := by
    intro q hq q2 hq2 e
    simp only [Finset.coe_range, Set.mem_Iio] at hq hq2
    have := hI.slot_inj ht (by rw [hlen]; exact hqlt q) (by rw [hlen]; exact hqlt q2) (hS _ (hmemS q hq)) e
    have := Nat.ModEq.add_left_cancel' a (show _ ≡ _ [MOD len] from this)
    rw [Nat.ModEq, Nat.mod_eq_of_lt (by omega), Nat.mod_eq_of_lt (by omega)] at this
    exact this
  have hle := Finset.card_le_card_of_injOn _ hinto hinj
  rw [Finset.card_range, Finset.card_erase_of_mem hkF] at hle
  have := Finset.card_pos.mpr ⟨k, hkF⟩
  omega

/-! ## Rules -/

theorem TW_and {α : Type} {p : Prog α} {Q Q' : α → A → Prop} (h : TW p Q s) (h' : W p Q' s) :
    TW p (fun a s' => Q a s' ∧ Q' a s') s := by
  intro m hm
  obtain ⟨a, m', hr, hq⟩ := h m hm
  exact ⟨a, m', hr, hq, (h' m hm).2 a m' hr⟩

theorem TW_loop {σ α : Type} {body : σ → Prog (Ctl σ α)} {Q : α → A → Prop} (I : σ → A → Prop) (μ : σ → A → Nat)
    (hb : ∀ x s, I x s → TW (body x) (fun c s' => match c with | .next x' => I x' s' ∧ μ x' s' < μ x s | .done a => Q a s') s)
    (n : Nat) : ∀ x s, I x s → μ x s < n → TW (loop n body x) Q s := by
  induction n with
  | zero => intro x s _ h; omega
  | succ n ih =>
    intro x s hI hμ
    refine TW_bind (TW_mono (hb x s hI) ?_)
    rintro (x' | a) s' h
    · exact ih x' s' h.1 (by have := h.2; omega)
    · exact TW_pure h

/-- A loop that is left in the first round. -/
theorem TW_once {σ α : Type} {body : σ → Prog (Ctl σ α)} {Q : α → A → Prop} {n : Nat} (hn : 0 < n) {x : σ}
    (hb : TW (body x) (fun c s' => ∃ a, c = .done a ∧ Q a s') s) : TW (loop n body x) Q s := by
  obtain ⟨n, rfl⟩ : ∃ j, n = j + 1 := ⟨n - 1, by omega⟩
  refine TW_bind (TW_mono hb ?_)
  rintro c s' ⟨a, rfl, h⟩
  exact TW_pure h

theorem TW_ite_bind {α β : Type} {c : Prop} [Decidable c] {p q : Prog α} {f : α → Prog β} {Q : β → A → Prop}
    (h : TW ((if c then p else q) >>= f) Q s) : TW (if c then p >>= f else q >>= f) Q s := by
  split <;> simp_all

/-! ## Bounded growth -/

/-- Only keys of `S` are in the tables, there are at most `B + 1` tables, each twice as long as the one before, and the file
system accepts the largest. -/
structure Spread (S : Finset Word) (L B : Nat) (s : A) : Prop where
  keys : ∀ t i, t < s.next → i < (s.tab t).len → s.ck t i = KINITIAL ∨ s.ck t i = KTOMBSTONE ∨ s.ck t i ∈ S
  next : s.next ≤ B + 1
  len : ∀ t, t < s.next → (s.tab t).len = L * 2 ^ t
  cap : L * 2 ^ B ≤ s.cap

theorem Spread.congr {s' : A} (h : Spread S L B s) (hck : s'.ck = s.ck) (hn : s'.next = s.next)
    (hl : ∀ t, (s'.tab t).len = (s.tab t).len) (hc : s'.cap = s.cap) : Spread S L B s' := by
  refine ⟨?_, by rw [hn]; exact h.next, ?_, by rw [hc]; exact h.cap⟩
  · intro t i; rw [hck, hn, hl]; exact h.keys t i
  · intro t; rw [hn, hl]; exact h.len t

theorem Spread.setVal (h : Spread S L B s) (i : Nat) (w : Word) : Spread S L B { s with cv := upd2 s.cv t i w } :=
  h.congr rfl rfl (fun _ => rfl) rfl

theorem Spread.setTab (h : Spread S L B s) {x : Tab} (hl : x.len = (s.tab t).len) :
    Spread S L B { s with tab := upd s.tab t x } :=
  h.congr rfl rfl (fun t' => by simp only [upd]; split <;> simp_all) rfl

theorem Spread.setKey (h : Spread S L B s) (i : Nat) {w : Word} (hw : w = KTOMBSTONE ∨ w ∈ S) :
    Spread S L B { s with ck := upd2 s.ck t i w } := by
  refine ⟨?_, h.next, h.len, h.cap⟩
  intro t' i' h1 h2
  show upd2 s.ck t i w t' i' = KINITIAL ∨ upd2 s.ck t i w t' i' = KTOMBSTONE ∨ upd2 s.ck t i w t' i' ∈ S
  by_cases e : t' = t ∧ i' = i
  · rw [show upd2 s.ck t i w t' i' = w from if_pos e]; exact .inr hw
  · rw [upd2_ne e]; exact h.keys t' i' h1 h2

theorem Spread.claim (h : Spread S L B s) (i : Nat) (hk : k ∈ S) : Spread S L B (claimA s t i k) :=
  (h.setKey i (.inr hk)).setTab rfl

theorem Spread.grow (h : Spread S L B s) (hl : t + 1 = s.next) (hB : t < B) : Spread S L B (growA s t) := by
  refine ⟨?_, by rw [growA_next]; omega, ?_, h.cap⟩
  · intro t' i h1 h2
    rw [growA_next] at h1
    rcases Nat.lt_succ_iff_lt_or_eq.mp h1 with h3 | rfl
    · rw [growA_ck h3]; rw [growA_len h3] at h2; exact h.keys t' i h3 h2
    · rw [growA_ck_new]; exact .inl rfl
  · intro t' h1
    rw [growA_next] at h1
    rcases Nat.lt_succ_iff_lt_or_eq.mp h1 with h3 | rfl
    · rw [growA_len h3]; exact h.len t' h3
    · rw [growA_tab_new (by omega)]
      show 2 * (s.tab t).len = _
      rw [h.len t (by omega), ← hl, pow_succ]; ring

theorem Spread.len_le (h : Spread S L B s) (ht : t < s.next) : (s.tab t).len ≤ L * 2 ^ B := by
  rw [h.len t ht]
  exact Nat.mul_le_mul_left _ (Nat.pow_le_pow_right (by norm_num) (by have := h.next; omega))

/-- The loop bounds needed. -/
def loops (L B : Nat) : Nat := L * 2 ^ B + 11

theorem Spread.limit (h : Spread S L B s) (ht : t < s.next) : reprobeLimit (s.tab t).len < loops L B := by
  have := h.len_le ht
  simp only [reprobeLimit, REPROBE_LIMIT, loops]; omega

theorem resize_total (hI : Inv hash s M) (h : Spread S L B s) (ht : t < s.next) (hB : t < B) :
    TW (resize t) (fun _ s' => Spread S L B s') s := by
  refine TW_bind (TW_of (noHalt_do1 _) (W_getNew ht ?_))
  by_cases h1 : t + 1 < s.next
  · rw [hI.newT t ht, if_pos h1]
    refine TW_bind (TW_of (noHalt_do1 _) (W_len h1 ?_))
    refine TW_bind (TW_of (noHalt_do1 _) (W_len ht ?_))
    refine TW_bind (TW_of (noHalt_do1 _) (W_check ?_ (TW_pure h)))
    rw [hI.len_dbl t h1]
    have := hI.len_pos ht
    exact decide_eq_true (show (s.tab t).len < 2 * (s.tab t).len by omega)
  · have hn : (s.tab t).newT = none := by rw [hI.newT t ht, if_neg h1]
    have hlast : t + 1 = s.next := by omega
    have hcap : newLen (s.tab t).len (s.tab t).size ≤ s.cap := by
      rw [newLen_double, h.len t ht]
      refine le_trans ?_ h.cap
      rw [Nat.mul_assoc, ← pow_succ]
      exact Nat.mul_le_mul_left _ (Nat.pow_le_pow_right (by norm_num) hB)
    rw [hn]
    refine TW_bind (TW_of (noHalt_do1 _) (W_len ht ?_))
    refine TW_bind (TW_of (noHalt_do1 _) (W_getSize ht ?_))
    refine TW_bind (TW_of (noHalt_do1 _) (W_getNew ht ?_))
    rw [hn]
    refine TW_bind (TW_of (noHalt_do1 _) (W_alloc ?_ (fun hc => absurd hcap hc)))
    intro _
    refine TW_bind (TW_of (noHalt_do1 _) (W_casNew (t := t) (n := s.next) ?_ ?_ ?_))
    · simp only [allocA]; omega
    · simp only [allocA]; rw [upd_ne (by omega), hn]
    have e : ({ allocA s (newLen (s.tab t).len (s.tab t).size) (s.tab t).size with
        tab := upd (allocA s (newLen (s.tab t).len (s.tab t).size) (s.tab t).size).tab t
          { (allocA s (newLen (s.tab t).len (s.tab t).size) (s.tab t).size).tab t with newT := some s.next } } : A)
        = growA s t := by
      have : (allocA s (newLen (s.tab t).len (s.tab t).size) (s.tab t).size).tab t = s.tab t := by
        simp only [allocA]; rw [upd_ne (by omega)]
      rw [this]; rfl
    rw [e, if_pos rfl]
    refine TW_bind (TW_of (noHalt_do1 _) (W_len (by rw [growA_next]; omega) ?_))
    refine TW_bind (TW_of (noHalt_do1 _) (W_check ?_ (TW_pure (h.grow hlast hB))))
    rw [growA_tab_new ht]
    have := hI.len_pos ht
    exact decide_eq_true (show (s.tab t).len < 2 * (s.tab t).len by omega)

theorem promote_total {w : Nat} (hI : Inv hash s M) (h : Spread S L B s) (ht : t + 1 < s.next) (hd : drift s t = w) :
    TW (copyCheckAndPromote t w) (fun _ s' => Spread S L B s' ∧ (s'.tab t).copyIdx = (s.tab t).copyIdx) s := by
  have ht' : t < s.next := by omega
  simp only [drift, if_pos ht'] at hd
  have hcd : (s.tab t).copyDone + w = cnt s t := by omega
  have hle := cnt_le s t
  refine TW_bind (TW_of (noHalt_do1 _) (W_len ht' ?_))
  refine TW_bind (TW_of (noHalt_do1 _) (W_getDone ht' ?_))
  refine TW_bind (TW_of (noHalt_do1 _) (W_check (decide_eq_true (show (s.tab t).copyDone + w ≤ (s.tab t).len by omega)) ?_))
  have key : ∀ s1 : A, s1.next = s.next → (s1.tab t).newT = (s.tab t).newT → Spread S L B s1 →
      (s1.tab t).copyIdx = (s.tab t).copyIdx → TW (if (s.tab t).copyDone + w = (s.tab t).len then do
        let nt ← do1 (.getNew t)
        match nt with
        | none => .halt .ub
        | some n => do
          let _ ← do1 (.casRoot t n)
          return ()
      else return () : Prog Unit) (fun _ s' => Spread S L B s' ∧ (s'.tab t).copyIdx = (s.tab t).copyIdx) s1 := by
    intro s1 hn hnt h1 hci
    split
    · refine TW_bind (TW_of (noHalt_do1 _) (W_getNew (by omega) ?_))
      rw [hnt, hI.newT t ht', if_pos ht]
      refine TW_bind (TW_of (noHalt_do1 _) (W_casRoot fun b => TW_pure ?_))
      split
      · exact ⟨h1.congr rfl rfl (fun _ => rfl) rfl, hci⟩
      · exact ⟨h1, hci⟩
    · exact TW_pure ⟨h1, hci⟩
  by_cases hw : 0 < w
  · rw [if_pos hw]
    refine TW_bind (TW_of (noHalt_do1 _) (W_addDone ht' ?_))
    refine key _ rfl ?_ (h.setTab rfl) ?_ <;> simp [upd_same]
  · rw [if_neg hw]
    exact TW_bind (TW_pure (key s rfl rfl h rfl))

/-! ## Copying a slot -/

/-- The recursive call made by migration finishes, for tables from `T` on. -/
def CopyTot (hash : Word → Word) (S : Finset Word) (L B T : Nat) (put : PutFn) : Prop :=
  ∀ (s : A) (M : Word → Option Word) (t : Nat) (k v : Word), T ≤ t → Inv hash s M → t < s.next → s.root < t → Rest s t →
    UserKey k → Storable v → (∀ t0, t0 < t → Pass hash s t0 k) →
    (∀ t' i, t ≤ t' → t' < s.next → i < (s.tab t').len → s.ck t' i ≠ k) →
    (∀ t', t ≤ t' → drift s t' = 0) → Spread S L B s → k ∈ S →
    TW (put t k v VINITIAL) (fun _ s' => Spread S L B s') s

theorem copySlotKey_total {n : Nat} (hn : 2 ≤ n) (h : Spread S L B s) (ht : t < s.next) (hi : idx < (s.tab t).len) :
    TW (copySlotKey n idx t) (fun _ s' => Spread S L B s') s := by
  refine TW_loop (I := fun _ s' => Spread S L B s' ∧ s'.next = s.next ∧ s'.tab = s.tab)
    (fun _ s' => if s'.ck t idx = KINITIAL then 1 else 0) ?_ n () s ⟨h, rfl, rfl⟩ (by split <;> omega)
  rintro - s1 ⟨h1, hn1, htab⟩
  have ht1 : t < s1.next := by omega
  have hi1 : idx < (s1.tab t).len := by rw [htab]; exact hi
  refine TW_bind (TW_of (noHalt_pcasRead _) (W_tableKey ht1 hi1 ?_))
  by_cases h0 : s1.ck t idx = KINITIAL
  · rw [if_pos h0]
    refine TW_bind (TW_of (noHalt_casKey _ _ _ _) (W_casKey ht1 hi1 (fun _ => TW_pure ?_) (fun h => absurd h0 h)))
    rw [clean_KTOMBSTONE]
    refine ⟨⟨h1.setKey idx (.inl rfl), hn1, htab⟩, ?_⟩
    show (if upd2 s1.ck t idx KTOMBSTONE t idx = KINITIAL then 1 else 0) < _
    rw [upd2_same, if_neg KINITIAL_ne_KTOMBSTONE.symm, if_pos h0]
    exact Nat.one_pos
  · rw [if_neg h0]; exact TW_pure h1

theorem copySlot_total {put : PutFn} (htot : CopyTot hash S L B (t + 1) put) (hput : CopyPut hash put) {n : Nat} (hn : 2 ≤ n)
    (hI : Inv hash s M) (hR : Rest s t) (ht : t + 1 < s.next) (hi : idx < (s.tab t).len)
    (hdr : ∀ t', t + 1 ≤ t' → drift s t' = 0) (h : Spread S L B s) :
    TW (copySlot put n idx t (t + 1)) (fun _ s' => Spread S L B s') s := by
  refine TW_bind (TW_mono (TW_and (copySlotKey_total hn h (by omega) hi) (copySlotKey_spec n hI ht hi)) ?_)
  rintro key s1 ⟨hsp1, rfl, hk1, hI1, hs1⟩
  have hcv : s1.cv = s.cv := by rcases hs1 with ⟨rfl, -⟩ | ⟨-, rfl⟩ <;> rfl
  have htab : s1.tab = s.tab := by rcases hs1 with ⟨rfl, -⟩ | ⟨-, rfl⟩ <;> rfl
  have hnext : s1.next = s.next := by rcases hs1 with ⟨rfl, -⟩ | ⟨-, rfl⟩ <;> rfl
  have hR1 : Rest s1 t := by
    intro t' i h1 h2 h3
    rw [hcv]; rw [hnext] at h2; rw [htab] at h3; exact hR t' i h1 h2 h3
  have hd1 : drift s1 = drift s := by
    funext t'; simp only [drift, cnt, hcv, htab, hnext]
  have hi1 : idx < (s1.tab t).len := by rw [htab]; exact hi
  have ht1 : t + 1 < s1.next := by rw [hnext]; exact ht
  clear hs1
  refine TW_bind (TW_of (noHalt_pcasRead _) (W_tableValue (by omega) hi1 ?_))
  by_cases hmig : isMig (s1.cv t idx) = true
  · have hprime := hR1 t idx (le_refl _) (by omega) hi1 hmig
    rw [hprime]
    refine TW_bind (TW_once (by omega) ?_)
    rw [if_pos isMig_TOMBPRIME]
    refine TW_pure ⟨_, rfl, ?_⟩
    simp only [if_true]
    exact TW_pure hsp1
  · have hmig : isMig (s1.cv t idx) = false := by simpa using hmig
    by_cases hv : s1.cv t idx = VINITIAL ∨ s1.cv t idx = VTOMBSTONE
    · refine TW_bind (TW_once (by omega) ?_)
      rw [if_neg (by rw [hmig]; simp)]
      simp only [if_pos hv]
      refine TW_bind (TW_of (noHalt_casValue _ _ _ _) (W_casValue (by omega) hi1 (fun _ => ?_) (fun h => absurd rfl h)))
      rw [if_pos rfl]
      exact TW_pure ⟨_, rfl, TW_pure (hsp1.setVal _ _)⟩
    · have hst : Storable (s1.cv t idx) := by
        rcases hI1.val t idx (by omega) hi1 with h | h | h | h
        · exact absurd (.inl h) hv
        · exact absurd (.inr h) hv
        · exact h
        · rw [hmig] at h; cases h
      generalize hvdef : s1.cv t idx = v at *
      have hku : UserKey (s1.ck t idx) := by
        refine ⟨hI1.kclean t idx (by omega) hi1, hk1, fun h => ?_⟩
        rcases (hI1.ktomb t idx (by omega) hi1 h).2 with h' | h'
        · exact hst.ne_init (hvdef.symm.trans h')
        · exact hst.ne_prime (hvdef.symm.trans h')
      have hkS : s1.ck t idx ∈ S := by
        rcases hsp1.keys t idx (by omega) hi1 with h | h | h
        · exact absurd h hk1
        · exact absurd h hku.ne_tomb
        · exact h
      generalize hkdef : s1.ck t idx = key at *
      have hcm : clean (setMark v MigrationFlag) = setMark v MigrationFlag := by
        rw [clean_setMig, hst.clean]
      have hmne : setMark v MigrationFlag ≠ TOMBPRIME := by
        intro h
        exact hst.ne_tomb (setMig_inj hst.mig isMig_VTOMBSTONE h)
      set s2 : A := { s1 with cv := upd2 s1.cv t idx (setMark v MigrationFlag) } with hs2
      have hI2 : Inv hash s2 (putM M key (setMark v MigrationFlag)) :=
        hI1.setVal_live hku (by omega) hi1 hkdef (by rw [hvdef]; exact hmig) (fun _ _ _ _ _ _ => .inr (isMig_setMig _))
          (.inr (.inr (.inr (isMig_setMig _)))) (fun _ => ht1)
      have hE2 : Ext s1 s2 := ext_setVal (fun _ => isMig_setMig _)
      have hR2 : Rest s2 (t + 1) := by
        intro t' i h1 h2 h3
        show isMig (upd2 s1.cv t idx _ t' i) = true → upd2 s1.cv t idx _ t' i = _
        rw [upd2_ne (by omega)]; exact hR1 t' i (by omega) h2 h3
      have hd2 : drift s2 = drift s1 := drift_setVal_other (by rw [hvdef]; exact hst.ne_prime) hmne
      refine TW_bind (TW_once (by omega) ?_)
      rw [if_neg (by rw [hmig]; simp)]
      simp only [if_neg hv]
      refine TW_bind (TW_of (noHalt_casValue _ _ _ _) (W_casValue (by omega) hi1 (fun _ => ?_) (fun h => absurd hvdef h)))
      rw [if_pos rfl, if_neg hmne, hcm]
      refine TW_pure ⟨_, rfl, ?_⟩
      change TW _ _ s2
      simp only [if_neg hmne]
      rw [clearMig_setMig hst.mig]
      refine TW_bind (TW_of (noHalt_do1 _) (W_check (by simpa using hst.ne_tomb) ?_))
      have hpass : ∀ t0, t0 < t + 1 → Pass hash s2 t0 key := by
        intro t0 h0
        rcases Nat.lt_succ_iff_lt_or_eq.mp h0 with h | rfl
        · have := hI1.cross t idx t0 (by omega) hi1 (by rw [hkdef]; exact hku) h
          rw [hkdef] at this
          exact hI1.pass_ext hku hE2 (by omega) this
        · obtain ⟨d, h1, h2, h3, -⟩ := hI1.path t0 idx (by omega) hi1 (by rw [hkdef]; exact hku)
          rw [hkdef] at h2 h3
          refine ⟨d, le_of_lt h1, hI1.upto_ext hE2 (by omega) h3, .inr (.inr ?_)⟩
          rw [slotAt_ext hE2 (by omega), ← h2]
          refine ⟨hkdef, ?_⟩
          show isMig (upd2 s1.cv t0 idx _ t0 idx) = true
          rw [upd2_same]; exact isMig_setMig _
      have hncl : ∀ t' i, t + 1 ≤ t' → t' < s2.next → i < (s2.tab t').len → s2.ck t' i ≠ key := by
        intro t' i h1 h2 h3 h4
        have := hI1.cross t' i t h2 h3 (by rw [show s1.ck t' i = key from h4]; exact hku) (by omega)
        rw [show s1.ck t' i = key from h4] at this
        have := hI1.pass_mig hku (by omega) this hi1 hkdef
        rw [hvdef, hmig] at this; cases this
      have hrt : s2.root < t + 1 := by
        show s1.root < t + 1
        by_contra hc
        have := hI1.dead t idx (by omega) hi1
        exact hst.ne_prime (hvdef.symm.trans this)
      refine TW_bind (TW_mono (TW_and (htot s2 _ (t + 1) key v (le_refl _) hI2 ht1 hrt hR2 hku hst hpass hncl
        (by rw [hd2, hd1]; exact hdr) (hsp1.setVal _ _) hkS) (hput s2 _ (t + 1) key v hI2 ht1 hrt hR2 hku hst hpass hncl
        (by rw [hd2, hd1]; exact hdr))) ?_)
      rintro r s3 ⟨hsp3, rfl, hI3, hR3, hK3, hB3, hd3⟩
      have hcv3 : s3.cv t idx = setMark v MigrationFlag := by
        rw [hB3.cv t idx (by omega)]; exact upd2_same _ _ _ _
      have ht3 : t + 1 < s3.next := lt_of_lt_of_le ht1 hK3.ext.next
      have hi3 : idx < (s3.tab t).len := by rw [hB3.tab t (by omega)]; exact hi1
      refine TW_bind (TW_once (by omega) ?_)
      refine TW_bind (TW_of (noHalt_casValue _ _ _ _) (W_casValue (by omega) hi3 (fun _ => ?_) (fun h => absurd hcv3 h)))
      rw [if_pos rfl]
      exact TW_pure ⟨_, rfl, TW_pure (hsp3.setVal _ _)⟩

/-! ## Copying a table -/

theorem prime_stays {s' : A} {i : Nat} (hK : Keep s s') (hR : Rest s' 0) (ht : t < s.next) (hi : i < (s.tab t).len)
    (h : s.cv t i = TOMBPRIME) : s'.cv t i = TOMBPRIME :=
  hR t i (Nat.zero_le _) (lt_of_lt_of_le ht hK.ext.next) (by rw [hK.ext.len t ht]; exact hi)
    (hK.ext.mig t i ht hi (by rw [h]; exact isMig_TOMBPRIME))

theorem copyChunk_total {put : PutFn} (htot : CopyTot hash S L B (t + 1) put) (hput : CopyPut hash put) {n : Nat} (hn : 2 ≤ n)
    (c : Nat) :
    ∀ (todo i wd : Nat) (s : A), Inv hash s M → Rest s 0 → t + 1 < s.next →
      drift s = (fun t' => if t' = t then (wd : Int) else 0) → Spread S L B s →
      TW (copyChunk put n t (t + 1) (s.tab t).len c todo i wd) (fun _ s' => Spread S L B s' ∧
        ∀ q, q < todo → s'.cv t ((c + i + q) % (s.tab t).len) = TOMBPRIME) s := by
  intro todo
  induction todo with
  | zero => intro i wd s hI hR ht hd h; exact TW_pure ⟨h, fun q hq => absurd hq (Nat.not_lt_zero _)⟩
  | succ todo ih =>
    intro i wd s hI hR ht hd h
    have hp := hI.len_pow t (by omega)
    have hdr : ∀ t', t + 1 ≤ t' → drift s t' = 0 := fun t' h => by rw [hd]; simp only; rw [if_neg (by omega)]
    refine TW_bind (TW_mono (TW_and (copySlot_total htot hput hn hI (hR.mono (Nat.zero_le _)) ht
      (and_len_lt hp) hdr h) (copySlot_spec hput n hI (hR.mono (Nat.zero_le _)) ht (and_len_lt hp) hdr)) ?_)
    rintro b s1 ⟨h1, hI1, hR1, hK1, hB1, htab, hcv1, hd1⟩
    have hR1' := hR.glue hR1 hB1 (by omega)
    have ht1 := lt_of_lt_of_le ht hK1.ext.next
    have hd1' : drift s1 = (fun t' => if t' = t then (((if b = true then wd + 1 else wd) : Nat) : Int) else 0) := by
      rw [hd1, hd]; funext t'
      by_cases e : t' = t <;> cases b <;> simp [e]
    have := TW_and (ih (i + 1) (if b = true then wd + 1 else wd) s1 hI1 hR1' ht1 hd1' h1)
      (copyChunk_spec hput n c todo (i + 1) (if b = true then wd + 1 else wd) s1 hI1 hR1' ht1 hd1')
    rw [htab] at this
    refine TW_mono this ?_
    rintro r s2 ⟨⟨h2, hq2⟩, hI2, hR2, hK2, -⟩
    refine ⟨h2, fun q hq => ?_⟩
    rcases q with _ | q
    · rw [Nat.add_zero, ← and_len hp]
      exact prime_stays hK2 hR2 (by omega) (by rw [htab]; exact and_len_lt hp) hcv1
    · have := hq2 q (by omega)
      rw [show c + i + (q + 1) = c + (i + 1) + q by omega]
      exact this

theorem claimChunk_total {n : Nat} (hn : 0 < n) (mw : Nat) (ht : t < s.next) (h : Spread S L B s) :
    TW (claimChunk n t (s.tab t).len mw) (fun c s' => Spread S L B s' ∧ s'.cv = s.cv ∧ c = (s.tab t).copyIdx ∧
      (c < (s.tab t).len * 2 → (s'.tab t).copyIdx = c + mw)) s := by
  refine TW_bind (TW_of (noHalt_do1 _) (W_getIdx ht ?_))
  refine TW_once hn ?_
  split
  · refine TW_bind (TW_of (noHalt_do1 _) (W_casIdx ht (fun _ => ?_) (fun h => absurd rfl h)))
    exact TW_pure ⟨_, rfl, h.setTab rfl, rfl, rfl, fun _ => by simp [upd_same]⟩
  · next hc => exact TW_pure ⟨_, rfl, h, rfl, rfl, fun h => absurd h hc⟩

theorem cnt_full (h : ∀ i, i < (s.tab t).len → s.cv t i = TOMBPRIME) : cnt s t = (s.tab t).len := by
  have : (Finset.range (s.tab t).len).filter (fun i => s.cv t i = TOMBPRIME) = Finset.range (s.tab t).len :=
    Finset.filter_true_of_mem fun i hi => h i (Finset.mem_range.mp hi)
  rw [cnt, this, Finset.card_range]

/-- `len` consecutive numbers meet every slot. -/
theorem round_trip {len : Nat} (st : Nat) {i : Nat} (hi : i < len) : ∃ j, st ≤ j ∧ j < st + len ∧ j % len = i := by
  have h1 := Nat.div_add_mod st len
  have h2 := Nat.mod_lt st (show 0 < len by omega)
  by_cases h : st % len ≤ i
  · refine ⟨len * (st / len) + i, by omega, by omega, ?_⟩
    rw [Nat.mul_add_mod, Nat.mod_eq_of_lt hi]
  · refine ⟨len * (st / len + 1) + i, by rw [Nat.mul_add]; omega, by rw [Nat.mul_add]; omega, ?_⟩
    rw [Nat.mul_add_mod, Nat.mod_eq_of_lt hi]

/-- Where the helper will start its next chunk. -/
def nextChunk (t : Nat) (x : Nat × Bool) (s : A) : Nat := if x.2 then x.1 else (s.tab t).copyIdx

theorem helpCopyImpl_total {put : PutFn} (htot : CopyTot hash S L B (t + 1) put) (hput : CopyPut hash put) {n : Nat}
    (hI : Inv hash s M) (hR : Rest s 0) (hd : drift s = fun _ => 0) (ht : t + 1 < s.next) (hroot : s.root = t)
    (h : Spread S L B s) (hn : loops L B ≤ n) :
    TW (helpCopyImpl put n t) (fun _ s' => Spread S L B s') s := by
  have hlen := h.len_le (t := t) (by omega)
  simp only [loops] at hn
  refine TW_bind (TW_of (noHalt_do1 _) (W_getNew (by omega) ?_))
  rw [hI.newT t (by omega), if_pos ht]
  refine TW_bind (TW_of (noHalt_do1 _) (W_check rfl ?_))
  refine TW_bind (TW_of (noHalt_do1 _) (W_len (by omega) ?_))
  generalize hmw : (if (s.tab t).len < 1024 then (s.tab t).len else 1024) = mw
  have hmw0 : 0 < mw := by
    have := hI.len_pos (t := t) (by omega)
    rw [← hmw]; split <;> omega
  generalize hst : (s.tab t).copyIdx = st
  refine TW_bind (TW_mono (Q := fun _ s' => Inv hash s' M ∧ (drift s' = fun _ => 0) ∧ t + 1 < s'.next ∧ Spread S L B s') ?_ ?_)
  · refine TW_loop (I := fun x s' => (Inv hash s' M ∧ Rest s' 0 ∧ Keep s s' ∧ (drift s' = fun _ => 0) ∧
      (s'.root = t ∨ s'.root = t + 1)) ∧ Spread S L B s' ∧ st ≤ nextChunk t x s' ∧
      ∀ j, st ≤ j → j < nextChunk t x s' → s'.cv t (j % (s.tab t).len) = TOMBPRIME)
      (fun x s' => st + (s.tab t).len - nextChunk t x s') ?_ n _ _ ⟨⟨hI, hR, Keep.refl s, hd, .inl hroot⟩, h, ?_, ?_⟩ ?_
    · rintro ⟨c0, pan⟩ s1 ⟨⟨hI1, hR1, hK1, hd1, hr1⟩, hsp1, hst1, hpr1⟩
      have ht1 : t + 1 < s1.next := lt_of_lt_of_le ht hK1.ext.next
      have hlen1 : (s1.tab t).len = (s.tab t).len := hK1.ext.len t (by omega)
      refine TW_bind (TW_of (noHalt_do1 _) (W_getDone (by omega) ?_))
      by_cases hlt : (s1.tab t).copyDone < (s.tab t).len
      · rw [if_pos hlt]
        -- not every slot has been visited
        have hroom : nextChunk t (c0, pan) s1 < st + (s.tab t).len := by
          by_contra hcon
          have hfull : cnt s1 t = (s1.tab t).len := by
            refine cnt_full fun i hi => ?_
            obtain ⟨j, h1, h2, h3⟩ := round_trip st (hlen1 ▸ hi)
            rw [← h3]
            exact hpr1 j h1 (by omega)
          have := cnt_of_drift (s := s1) (t := t) (by rw [hd1]) (by omega)
          omega
        have hcl : TW (claimChunk n t (s.tab t).len mw)
            (fun c s' => (Inv hash s' M ∧ Rest s' 0 ∧ Keep s1 s' ∧ s'.root = s1.root ∧ s'.next = s1.next ∧
              (s'.tab t).len = (s1.tab t).len ∧ drift s' = drift s1) ∧ Spread S L B s' ∧ s'.cv = s1.cv ∧
              c = (s1.tab t).copyIdx ∧ (c < (s.tab t).len * 2 → (s'.tab t).copyIdx = c + mw)) s1 := by
          rw [← hlen1]
          refine TW_mono (TW_and (claimChunk_total (n := n) (by omega) mw (by omega) hsp1)
            (claimChunk_spec n mw hI1 hR1 (by omega))) ?_
          rintro c s2 ⟨⟨a1, a2, a3, a4⟩, h1, h2, h3, h4, h5, h6, -, h8⟩
          exact ⟨⟨h1, h2, h3, h4, h5, h6, h8⟩, a1, a2, a3, a4⟩
        have hcl' : TW (if pan = true then (pure c0 : Prog Nat) else claimChunk n t (s.tab t).len mw)
            (fun c s' => (Inv hash s' M ∧ Rest s' 0 ∧ Keep s1 s' ∧ s'.root = s1.root ∧ s'.next = s1.next ∧
              (s'.tab t).len = (s1.tab t).len ∧ drift s' = drift s1) ∧ Spread S L B s' ∧ s'.cv = s1.cv ∧
              c = nextChunk t (c0, pan) s1 ∧
              ((pan || decide ((s.tab t).len * 2 ≤ c)) = false → (s'.tab t).copyIdx = c + mw)) s1 := by
          cases pan
          · refine TW_mono hcl ?_
            rintro c s2 ⟨h1, h2, h3, h4, h5⟩
            refine ⟨h1, h2, h3, h4, fun h6 => h5 ?_⟩
            simpa using h6
          · exact TW_pure ⟨⟨hI1, hR1, Keep.refl _, rfl, rfl, rfl, rfl⟩, hsp1, rfl, rfl, fun h => nomatch h⟩
        refine TW_ite_bind (TW_bind (TW_mono hcl' ?_))
        rintro c s2 ⟨⟨hI2, hR2, hK2, hr2, hn2, hl2, hd2⟩, hsp2, hcv2, hc, hci2⟩
        have e : (s.tab t).len = (s2.tab t).len := by rw [hl2, hlen1]
        have hd2' : drift s2 = fun t' => if t' = t then ((0 : Nat) : Int) else 0 := by
          rw [hd2, hd1]; funext t'; simp
        have hch := TW_and (copyChunk_total (t := t) htot hput (n := n) (by omega) c mw 0 0 s2 hI2 hR2 (by omega) hd2' hsp2)
          (copyChunk_spec (t := t) hput n c mw 0 0 s2 hI2 hR2 (by omega) hd2')
        rw [← e] at hch
        refine TW_bind (TW_mono hch ?_)
        rintro wd s3 ⟨⟨hsp3, hq3⟩, hI3, hR3, hK3, hr3, htab3, hd3⟩
        have ht3 : t + 1 < s3.next := by have := hK3.ext.next; omega
        -- the round is done once the counter is brought up to date
        have fin : ∀ s4 : A, (Inv hash s4 M ∧ Rest s4 0 ∧ Keep s s4 ∧ (drift s4 = fun _ => 0) ∧
            (s4.root = t ∨ s4.root = t + 1)) → Spread S L B s4 → s4.cv = s3.cv → (s4.tab t).copyIdx = (s3.tab t).copyIdx →
            ((Inv hash s4 M ∧ Rest s4 0 ∧ Keep s s4 ∧ (drift s4 = fun _ => 0) ∧ (s4.root = t ∨ s4.root = t + 1)) ∧
              Spread S L B s4 ∧ st ≤ nextChunk t (c + mw, (pan || decide ((s.tab t).len * 2 ≤ c))) s4 ∧
              ∀ j, st ≤ j → j < nextChunk t (c + mw, (pan || decide ((s.tab t).len * 2 ≤ c))) s4 →
                s4.cv t (j % (s.tab t).len) = TOMBPRIME) ∧
              st + (s.tab t).len - nextChunk t (c + mw, (pan || decide ((s.tab t).len * 2 ≤ c))) s4 <
                st + (s.tab t).len - nextChunk t (c0, pan) s1 := by
          intro s4 h4 hsp4 hcv4 hci4
          have hnx : nextChunk t (c + mw, (pan || decide ((s.tab t).len * 2 ≤ c))) s4 = c + mw := by
            unfold nextChunk
            split
            · rfl
            · next hb => rw [hci4, htab3]; exact hci2 (by simpa using hb)
          refine ⟨⟨h4, hsp4, ?_, ?_⟩, ?_⟩
          · rw [hnx]; omega
          · intro j h1 h2
            rw [hnx] at h2
            rw [hcv4]
            by_cases hj : j < c
            · have := hpr1 j h1 (hc ▸ hj)
              rw [← hcv2] at this
              have hpos := hI.len_pos (t := t) (by omega)
              exact prime_stays hK3 hR3 (by omega) (by rw [← e]; exact Nat.mod_lt _ hpos) this
            · have := hq3 (j - c) (by omega)
              rw [show c + 0 + (j - c) = j by omega] at this
              exact this
          · rw [hnx]; omega
        by_cases hw : 0 < wd
        · rw [if_pos hw]
          refine TW_bind (TW_mono (TW_and (promote_total (w := wd) hI3 hsp3 ht3 (by rw [hd3]; simp))
            (promote_spec (w := wd) hI3 ht3 (by rw [hd3]; simp))) ?_)
          rintro - s4 ⟨⟨hsp4, hci4⟩, hI4, hK4, hd4, hT4, -, hr4, -⟩
          refine TW_pure (fin s4 ⟨hI4, hR3.tabEq hT4, ((hK1.trans hK2).trans hK3).trans hK4, ?_, ?_⟩ hsp4 hT4.cv hci4)
          · rw [hd4, hd3]; funext t'; by_cases e : t' = t <;> simp [e]
          · rw [hr4, hr3, hr2]
            rcases hr1 with h | h
            · rw [h]; split
              · exact .inr rfl
              · exact .inl rfl
            · rw [h, if_neg (by omega)]; exact .inr rfl
        · rw [if_neg hw]
          refine TW_pure (fin s3 ⟨hI3, hR3, (hK1.trans hK2).trans hK3, ?_, ?_⟩ hsp3 rfl rfl)
          · have : wd = 0 := by omega
            rw [hd3, this]; funext t'; simp
          · rw [hr3, hr2]; exact hr1
      · rw [if_neg hlt]
        exact TW_pure ⟨hI1, hd1, ht1, hsp1⟩
    · exact hst.ge
    · intro j h1 h2
      have h2 : j < (s.tab t).copyIdx := h2
      omega
    · show st + (s.tab t).len - (s.tab t).copyIdx < n
      omega
  · rintro - s1 ⟨hI1, hd1, ht1, hsp1⟩
    exact TW_mono (promote_total (w := 0) hI1 hsp1 ht1 (by rw [hd1]; rfl)) fun _ _ h => h.1

theorem helpCopy_total {put : PutFn} (htot : CopyTot hash S L B 0 put) (hput : CopyPut hash put) {n : Nat}
    (hI : Inv hash s M) (hR : Rest s 0) (hd : drift s = fun _ => 0) (helper : Nat)
    (h : Spread S L B s) (hn : loops L B ≤ n) : TW (helpCopy put n helper) (fun _ s' => Spread S L B s') s := by
  refine TW_bind (TW_of (noHalt_do1 _) (W_getRoot ?_))
  refine TW_bind (TW_of (noHalt_do1 _) (W_getNew hI.root_lt ?_))
  by_cases hp : s.root + 1 < s.next
  · rw [hI.newT _ hI.root_lt, if_pos hp]
    exact TW_bind (TW_mono (helpCopyImpl_total (fun s M t k v h => htot s M t k v (Nat.zero_le _)) hput hI hR hd hp rfl h hn)
      fun _ _ h => TW_pure h)
  · rw [hI.newT _ hI.root_lt, if_neg hp]
    exact TW_pure h

theorem copySlotAndCheck_total {put : PutFn} (htot : CopyTot hash S L B 0 put) (hput : CopyPut hash put) {n : Nat}
    (hI : Inv hash s M) (hR : Rest s 0) (hd : drift s = fun _ => 0) (ht : t + 1 < s.next) (hi : idx < (s.tab t).len)
    (h : Spread S L B s) (hn : loops L B ≤ n) :
    TW (copySlotAndCheck put n t idx false) (fun _ s' => Spread S L B s') s := by
  refine TW_bind (TW_of (noHalt_do1 _) (W_getNew (by omega) ?_))
  rw [hI.newT t (by omega), if_pos ht]
  refine TW_bind (TW_of (noHalt_do1 _) (W_check rfl ?_))
  refine TW_bind (TW_mono (TW_and (copySlot_total (fun s M t k v h => htot s M t k v (Nat.zero_le _)) hput
    (n := n) (by simp only [loops] at hn; omega) hI (hR.mono (Nat.zero_le _)) ht hi (fun t' _ => by rw [hd]) h)
    (copySlot_spec hput n hI (hR.mono (Nat.zero_le _)) ht hi (fun t' _ => by rw [hd]))) ?_)
  rintro b s1 ⟨hsp1, hI1, hR1, hK1, hB1, htab1, hcv1, hd1⟩
  have ht1 : t + 1 < s1.next := lt_of_lt_of_le ht hK1.ext.next
  have hR1' := hR.glue hR1 hB1 (by omega)
  cases b with
  | true =>
    refine TW_bind (TW_mono (TW_and (promote_total (w := 1) hI1 hsp1 ht1 (by rw [hd1, hd]; simp))
      (promote_spec (w := 1) hI1 ht1 (by rw [hd1, hd]; simp))) ?_)
    rintro - s2 ⟨⟨hsp2, -⟩, hI2, hK2, hd2, hT2, -, -, -⟩
    refine helpCopy_total htot hput hI2 (hR1'.tabEq hT2) ?_ _ hsp2 hn
    rw [hd2, hd1, hd]; funext t'; by_cases e : t' = t <;> simp [e]
  | false =>
    refine helpCopy_total htot hput hI1 hR1' ?_ _ hsp1 hn
    rw [hd1, hd]; funext t'; simp

/-! ## Updates -/

/-- Only a table before the last allowed one lets a probe go ten slots or further. -/
theorem Spread.below (h : Spread S L B s) (hI : Inv hash s M) (hS : ∀ x ∈ S, UserKey x) (hfit : FitsIn hash S (L * 2 ^ B))
    (ht : t < s.next) (hk : k ∈ S) {d : Nat} (hu : Upto hash s t k d) (hd : 10 ≤ d) : t < B := by
  by_contra hcon
  have hn := h.next
  have e : t = B := by omega
  have := fits_near hI hS (fun i hi => h.keys t i ht hi) (by omega) (by rw [h.len t ht, e]; exact hfit) hk hu
  omega

theorem Spread.below_next (h : Spread S L B s) (ht : t + 1 < s.next) : t < B := by
  have := h.next; omega

theorem Spread.below_pass (h : Spread S L B s) (hI : Inv hash s M) (hS : ∀ x ∈ S, UserKey x) (hfit : FitsIn hash S (L * 2 ^ B))
    (ht : t < s.next) (hk : k ∈ S) (hp : Pass hash s t k) : t < B := by
  obtain ⟨d, hd, hu, h1 | h1 | ⟨-, h1⟩⟩ := hp
  · refine h.below hI hS hfit ht hk hu ?_
    rw [h1]; simp only [A.lim, reprobeLimit, REPROBE_LIMIT]; omega
  · exact h.below_next (hI.ktomb t _ ht (hI.slotAt_lt ht d) h1).1
  · exact h.below_next (hI.mig t _ ht (hI.slotAt_lt ht d) h1)

theorem wantNewTable_total (ht : t < s.next) (d : Nat) (V : Word) :
    TW (wantNewTable t d (s.tab t).len V) (fun b s' => s' = s ∧ (b = true → 10 ≤ d ∨ isMig V = true)) s := by
  unfold wantNewTable
  split
  · unfold tableFull
    by_cases hd : REPROBE_LIMIT ≤ d
    · rw [if_pos hd]
      exact TW_bind (TW_bind (TW_of (noHalt_do1 _) (W_getSlots ht (TW_pure (TW_pure ⟨rfl, fun _ => .inl hd⟩)))))
    · rw [if_neg hd]
      exact TW_bind (TW_pure (TW_pure ⟨rfl, fun h => .inr (by simpa using h)⟩))
  · exact TW_pure ⟨rfl, fun h => .inr h⟩

theorem copyPut_total (hS : ∀ x ∈ S, UserKey x) (hfit : FitsIn hash S (L * 2 ^ B)) (n : Nat) :
    ∀ T, loops L B + (B - T) < n → CopyTot hash S L B T (putIfMatch hash n .casValue) := by
  induction n with
  | zero => intro T h; omega
  | succ n ih =>
    intro T hn s M t k v hT hI ht hroot hR hk hv hpass hncl hdr hsp hkS
    have hput := copyPut hash n
    have hlim := hsp.limit ht
    show TW (putBody hash (putIfMatch hash n .casValue) n .casValue t k v VINITIAL) _ s
    refine TW_bind (TW_of (noHalt_do1 _) (W_check (by simpa using hv.ne_init) ?_))
    refine TW_bind (TW_of (noHalt_do1 _) (W_check (by rw [hv.mig]; rfl) ?_))
    refine TW_bind (TW_of (noHalt_do1 _) (W_check (by rw [isMig_VINITIAL]; rfl) ?_))
    refine TW_bind (TW_of (noHalt_do1 _) (W_len ht ?_))
    refine TW_bind (TW_mono (TW_of (noHalt_probe _ _ _ _ _ _ (by omega)) (probe_spec n hI ht hk v)) ?_)
    rintro (v' | ⟨i, d, V⟩ | -) s1 hp
    · exact absurd hp.2.1 hv.ne_tomb
    · obtain ⟨hd, hi, hu, hV, hs⟩ := hp
      have hilt : i < (s.tab t).len := by rw [hi]; exact hI.slotAt_lt ht d
      have hs' : s.ck t i = KINITIAL ∧ s1 = claimA s t i k := by
        rcases hs with ⟨-, h⟩ | h
        · exact absurd h (hncl t i (le_refl _) ht hilt)
        · exact h
      have so := slot_out hI ht hk hpass hd hi hu hs
      have hsp1 : Spread S L B s1 := by rw [hs'.2]; exact hsp.claim i hkS
      have hV0 : V = VINITIAL := by rw [hV]; exact hI.kinit t i ht hilt hs'.1
      have hcv1 : s1.cv t i = VINITIAL := by rw [so.cv, ← hV, hV0]
      have ht1 : t < s1.next := by rw [so.next]; exact ht
      have hR1 : Rest s1 t := by
        intro t' j h1 h2 h3; rw [so.cv]; rw [so.next] at h2; rw [so.len] at h3; exact hR t' j h1 h2 h3
      have hpass1 : ∀ t0, t0 < t → Pass hash s1 t0 k := fun t0 h => hI.pass_ext hk so.keep.ext (by omega) (hpass t0 h)
      have hn1 : ∀ t' j, t + 1 ≤ t' → t' < s1.next → j < (s1.tab t').len → s1.ck t' j ≠ k := by
        intro t' j h1 h2 h3
        rw [so.other t' j (by omega)]; rw [so.next] at h2; rw [so.len] at h3
        exact hncl t' j (by omega) h2 h3
      have hdr1 : ∀ t', t ≤ t' → drift s1 t' = 0 := by rw [so.drift]; exact hdr
      have hroot1 : s1.root < t := by rw [so.below.root]; exact hroot
      clear hs hs'
      simp only
      rw [if_neg (by rw [hV0]; exact hv.ne_init)]
      rw [← so.len t]
      refine TW_bind (TW_mono (wantNewTable_total ht1 d V) ?_)
      rintro b s2 ⟨he, hb⟩
      have he := he.symm
      subst he
      cases b with
      | true =>
        have htB : t < B := by
          rcases hb rfl with h | h
          · exact hsp1.below so.inv hS hfit ht1 hkS so.upto h
          · rw [hV0, isMig_VINITIAL] at h; cases h
        have htot := ih (t + 1) (by omega)
        refine TW_bind (TW_mono (TW_and (resize_total so.inv hsp1 ht1 htB) (resize_spec so.inv ht1)) ?_)
        rintro nt s2 ⟨hsp2, rfl, ht2, hI2, hs2⟩
        obtain ⟨hK2, hd2, hR2, hB2, hkv2, hck2⟩ := grow_cases hs2
        have hl2 : (s2.tab t).len = (s1.tab t).len := hK2.ext.len t ht1
        have hi2 : i < (s2.tab t).len := by rw [hl2]; exact so.ilt
        have hk2 : s2.ck t i = k := by rw [(hkv2 i).1]; exact so.key
        have hv2 : s2.cv t i = VINITIAL := by rw [(hkv2 i).2]; exact hcv1
        have hcs : TW (copySlotAndCheck (putIfMatch hash n .casValue) n t i true) (fun r s' => r = t + 1 ∧ Spread S L B s' ∧
            Inv hash s' M ∧ Rest s' t ∧ Keep s2 s' ∧ s'.root = s2.root ∧ drift s' = drift s2 ∧ isMig (s'.cv t i) = true ∧
            s'.ck = s2.ck ∧ s'.next = s2.next ∧ (∀ t', t + 1 ≤ t' → s'.tab t' = s2.tab t')) s2 := by
          refine TW_bind (TW_of (noHalt_do1 _) (W_getNew (by omega) ?_))
          rw [hI2.newT t (by omega), if_pos ht2]
          refine TW_bind (TW_of (noHalt_do1 _) (W_check rfl ?_))
          refine TW_bind (TW_mono (TW_and (copySlot_total htot hput (n := n) (by simp only [loops] at hn; omega) hI2 (hR2 t hR1) ht2 hi2
            (fun t' h => by rw [hd2]; exact hdr1 t' (by omega)) hsp2)
            (copySlot_empty n hI2 ht2 hi2 (by rw [hk2]; exact hk.ne_init) (.inl hv2) (t + 1))) ?_)
          rintro b s3 ⟨hsp3, rfl, hI3, rfl⟩
          have hd3 : drift { s2 with cv := upd2 s2.cv t i TOMBPRIME } = fun t' => drift s2 t' + if t' = t then 1 else 0 :=
            drift_setVal_prime (by omega) hi2 (by rw [hv2]; exact VINITIAL_ne_TOMBPRIME)
          have hdt : drift s2 t = 0 := by rw [hd2]; exact hdr1 t (le_refl _)
          refine TW_bind (TW_mono (TW_and (promote_total (w := 1) hI3 hsp3 ht2 (by rw [hd3]; simp [hdt]))
            (promote_spec (w := 1) hI3 ht2 (by rw [hd3]; simp [hdt]))) ?_)
          rintro - s4 ⟨⟨hsp4, -⟩, hI4, hK4, hd4, hT4, hoth4, hr4, -⟩
          have hroot2 : s2.root < t := by rw [hB2.root]; exact hroot1
          have hr4' : s4.root = s2.root := by
            rw [hr4, if_neg (by rintro ⟨h, -⟩; have h : s2.root = t := h; omega)]
          refine TW_pure ⟨rfl, hsp4, hI4, ?_, ?_, hr4', ?_, ?_, ?_, ?_, ?_⟩
          · exact (rest_set (hR2 t hR1) (fun _ => rfl)).tabEq hT4
          · exact Keep.trans (s2 := { s2 with cv := upd2 s2.cv t i TOMBPRIME }) ⟨ext_setVal (fun _ => isMig_TOMBPRIME), rfl⟩ hK4
          · rw [hd4, hd3]; funext t'
            by_cases e : t' = t
            · simp [e, hdt]
            · simp [e]
          · rw [hT4.cv]; show isMig (upd2 s2.cv t i TOMBPRIME t i) = true
            rw [upd2_same]; exact isMig_TOMBPRIME
          · rw [hT4.ck]
          · rw [hT4.next]
          · intro t' h; exact hoth4 t' (by omega)
        refine TW_bind (TW_mono hcs ?_)
        rintro nt s3 ⟨rfl, hsp3, hI3, hR3, hK3, hrt3, hd3, hm3, hck3, hn3, htab3⟩
        have hK13 : Keep s1 s3 := hK2.trans hK3
        have hpass3 : ∀ t0, t0 < t + 1 → Pass hash s3 t0 k := by
          intro t0 h0
          rcases Nat.lt_succ_iff_lt_or_eq.mp h0 with h | rfl
          · exact so.inv.pass_ext hk hK13.ext (by omega) (hpass1 t0 h)
          · exact pass_of_mig (by rw [lim_ext hK13.ext ht1]; exact so.lt)
              (by rw [slotAt_ext hK13.ext ht1]; exact so.idx)
              (so.inv.upto_ext hK13.ext ht1 so.upto) (by rw [hck3]; exact hk2) hm3
        refine htot s3 M (t + 1) k v (le_refl _) hI3 (by omega) ?_ (hR3.mono (by omega)) hk hv hpass3 ?_ ?_ hsp3 hkS
        · rw [hrt3, hB2.root]; omega
        · intro t' j h1 h2 h3
          rw [hck3]
          exact grow_unclaimed hk ht1 hs2 hn1 t' j h1 (by omega) (by rw [← htab3 t' h1]; exact h3)
        · intro t' h; rw [hd3, hd2]; exact hdr1 t' (by omega)
      | false =>
        refine TW_bind (TW_mono (Q := fun u s' => u = .returned VINITIAL ∧ Spread S L B s') (TW_once (by omega) ?_) ?_)
        · rw [hV0]
          refine TW_bind (TW_of (noHalt_do1 _) (W_check (by rw [isMig_VINITIAL]; rfl) ?_))
          rw [mismatch_init]
          refine TW_bind (TW_of (noHalt_casValue _ _ _ _) (W_casValue ht1 so.ilt (fun _ => ?_) (fun h => absurd hcv1 h)))
          rw [if_pos rfl]
          exact TW_bind (TW_pure (TW_pure ⟨_, rfl, rfl, hsp1.setVal _ _⟩))
        · rintro u s' ⟨rfl, h⟩
          exact TW_pure h
    · obtain ⟨he, hpt⟩ := hp
      have he := he.symm
      subst he
      have htB := hsp.below_pass hI hS hfit ht hkS hpt
      have htot := ih (t + 1) (by omega)
      refine TW_bind (TW_mono (TW_and (resize_total hI hsp ht htB) (resize_spec hI ht)) ?_)
      rintro nt s2 ⟨hsp2, rfl, ht2, hI2, hs2⟩
      obtain ⟨hK2, hd2, hR2, hB2, hkv2, -⟩ := grow_cases hs2
      simp only [ne_eq, not_true, if_false]
      have hpass2 : ∀ t0, t0 < t + 1 → Pass hash s2 t0 k := by
        intro t0 h0
        rcases Nat.lt_succ_iff_lt_or_eq.mp h0 with h | rfl
        · exact hI.pass_ext hk hK2.ext (by omega) (hpass t0 h)
        · exact hI.pass_ext hk hK2.ext ht hpt
      refine htot s2 M (t + 1) k v (le_refl _) hI2 ht2 (by rw [hB2.root]; omega) ((hR2 t hR).mono (by omega)) hk hv hpass2
        ?_ ?_ hsp2 hkS
      · exact grow_unclaimed hk ht hs2 (fun t' i h1 => hncl t' i (by omega))
      · intro t' h; rw [hd2]; exact hdr t' (by omega)

/-- An update finishes. -/
theorem mainPut_total (hS : ∀ x ∈ S, UserKey x) (hfit : FitsIn hash S (L * 2 ^ B)) (n : Nat) :
    ∀ (cf : CasFn) (s : A) (M : Word → Option Word) (t : Nat) (k nv ov : Word), loops L B + B + (B - t) + 1 < n →
      Inv hash s M → Rest s 0 → (drift s = fun _ => 0) →
      t < s.next → (Storable nv ∨ nv = VTOMBSTONE ∧ cf = .casValue) → ov ≠ VINITIAL → isMig ov = false →
      (∀ t0, t0 < t → Pass hash s t0 k) → Spread S L B s → k ∈ S →
      TW (putIfMatch hash n cf t k nv ov) (fun _ s' => Spread S L B s') s := by
  induction n with
  | zero => intro cf s M t k nv ov h; omega
  | succ n ih =>
    intro cf s M t k nv ov hn hI hR hd0 ht hnv hov hom hpass hsp hkS
    have hcopy := copyPut hash n
    have htot := copyPut_total hS hfit n 0 (by omega)
    have hlim := hsp.limit ht
    have hk := hS k hkS
    show TW (putBody hash (putIfMatch hash n .casValue) n cf t k nv ov) _ s
    have hnm : isMig nv = false := by
      rcases hnv with h | ⟨h, -⟩
      · exact h.mig
      · rw [h]; exact isMig_VTOMBSTONE
    have hnc : clean nv = nv := by
      rcases hnv with h | ⟨h, -⟩
      · exact h.clean
      · rw [h]; exact clean_VTOMBSTONE
    have hni : nv ≠ VINITIAL := by
      rcases hnv with h | ⟨h, -⟩
      · exact h.ne_init
      · rw [h]; exact sent_ne.2.2.2.2.1
    refine TW_bind (TW_of (noHalt_do1 _) (W_check (by simpa using hni) ?_))
    refine TW_bind (TW_of (noHalt_do1 _) (W_check (by rw [hnm]; rfl) ?_))
    refine TW_bind (TW_of (noHalt_do1 _) (W_check (by rw [hom]; rfl) ?_))
    refine TW_bind (TW_of (noHalt_do1 _) (W_len ht ?_))
    refine TW_bind (TW_mono (TW_of (noHalt_probe _ _ _ _ _ _ (by omega)) (probe_spec n hI ht hk nv)) ?_)
    rintro (v' | ⟨i, d, V⟩ | -) s1 hp
    · obtain ⟨rfl, -, rfl, -⟩ := hp
      exact TW_pure hsp
    · obtain ⟨hd, hi, hu, hV, hs⟩ := hp
      have so := slot_out hI ht hk hpass hd hi hu hs
      have hV1 : s1.cv t i = V := by rw [so.cv, hV]
      have ht1 : t < s1.next := by rw [so.next]; exact ht
      have hR1 : Rest s1 0 := by
        intro t' j h1 h2 h3; rw [so.cv]; rw [so.next] at h2; rw [so.len] at h3; exact hR t' j h1 h2 h3
      have hd1 : drift s1 = fun _ => 0 := by rw [so.drift]; exact hd0
      have hpass1 : ∀ t0, t0 < t → Pass hash s1 t0 k := fun t0 h => hI.pass_ext hk so.keep.ext (by omega) (hpass t0 h)
      have hsp1 : Spread S L B s1 := by
        rcases hs with ⟨rfl, -⟩ | ⟨-, rfl⟩
        · exact hsp
        · exact hsp.claim i hkS
      clear hs
      simp only
      by_cases hnV : nv = V
      · rw [if_pos hnV]; exact TW_pure hsp1
      · rw [if_neg hnV, ← so.len t]
        refine TW_bind (TW_mono (TW_and (wantNewTable_total ht1 d V) (wantNewTable_spec so.inv ht1 d V)) ?_)
        rintro b s2 ⟨⟨he, hb⟩, -, hb', -⟩
        have he := he.symm
        subst he
        cases b with
        | true =>
          have htB : t < B := by
            rcases hb rfl with h | h
            · exact hsp1.below so.inv hS hfit ht1 hkS so.upto h
            · exact hsp1.below_next (so.inv.mig t i ht1 so.ilt (by rw [hV1]; exact h))
          refine TW_bind (TW_mono (TW_and (resize_total so.inv hsp1 ht1 htB) (resize_spec so.inv ht1)) ?_)
          rintro nt s2 ⟨hsp2, rfl, ht2, hI2, hs2⟩
          obtain ⟨hK2, hd2, hR2, hB2, hkv2, -⟩ := grow_cases hs2
          have hi2 : i < (s2.tab t).len := by rw [hK2.ext.len t ht1]; exact so.ilt
          rw [decide_eq_false hov]
          refine TW_bind (TW_mono (TW_and
            (copySlotAndCheck_total htot hcopy hI2 (hR2 0 hR1) (by rw [hd2, hd1]) ht2 hi2 hsp2 (by omega))
            (copySlotAndCheck_spec hcopy n hI2 (hR2 0 hR1) (by rw [hd2, hd1]) ht2 hi2)) ?_)
          rintro nt s3 ⟨hsp3, rfl, hI3, hR3, hK3, hd3, hm3, -⟩
          have hK13 := hK2.trans hK3
          have hkey3 : s3.ck t i = k := by
            rw [hK13.ext.key t i ht1 so.ilt (by rw [so.key]; exact hk.ne_init), so.key]
          refine ih .casValue s3 M (t + 1) k nv ov (by omega) hI3 hR3 hd3 (lt_of_lt_of_le ht2 hK3.ext.next)
            (hnv.imp id (fun h => ⟨h.1, rfl⟩)) hov hom ?_ hsp3 hkS
          intro t0 h0
          rcases Nat.lt_succ_iff_lt_or_eq.mp h0 with h | rfl
          · exact so.inv.pass_ext hk hK13.ext (by omega) (hpass1 t0 h)
          · exact pass_of_mig (by rw [lim_ext hK13.ext ht1]; exact so.lt)
              (by rw [slotAt_ext hK13.ext ht1]; exact so.idx)
              (so.inv.upto_ext hK13.ext ht1 so.upto) hkey3 hm3
        | false =>
          have hVm := (hb' rfl).1
          refine TW_bind (TW_mono (Q := fun u s' => ∃ r, u = .returned r ∧ Spread S L B s') (TW_once (by omega) ?_) ?_)
          · refine TW_bind (TW_of (noHalt_do1 _) (W_check (by rw [hVm]; rfl) ?_))
            split
            · exact TW_pure ⟨_, rfl, _, rfl, hsp1⟩
            · refine TW_bind (TW_of (noHalt_call _ _ _ _ _) (casFn_call ht1 so.ilt hnc hV1 ?_))
              rw [if_pos rfl]
              refine TW_bind (TW_mono (TW_of (noHalt_adjustSize _ _ _ _)
                (adjustSize_spec (s := { s1 with cv := upd2 s1.cv t i (written cf nv V) }) ht1 hov)) ?_)
              rintro - s3 rfl
              exact TW_pure ⟨_, rfl, _, rfl, (hsp1.setVal _ _).setTab rfl⟩
          · rintro u s' ⟨r, rfl, h⟩
            exact TW_pure h
    · obtain ⟨he, hpt⟩ := hp
      have he := he.symm
      subst he
      have htB := hsp.below_pass hI hS hfit ht hkS hpt
      refine TW_bind (TW_mono (TW_and (resize_total hI hsp ht htB) (resize_spec hI ht)) ?_)
      rintro nt s2 ⟨hsp2, rfl, ht2, hI2, hs2⟩
      obtain ⟨hK2, hd2, hR2, hB2, hkv2, -⟩ := grow_cases hs2
      simp only [ne_eq, hov, not_false_eq_true, if_true]
      refine TW_bind (TW_mono (TW_and (helpCopy_total htot hcopy hI2 (hR2 0 hR) (by rw [hd2, hd0]) (t + 1) hsp2 (by omega))
        (helpCopy_spec hcopy n hI2 (hR2 0 hR) (by rw [hd2, hd0]) (t + 1))) ?_)
      rintro - s3 ⟨hsp3, -, hI3, hR3, hK3, hd3, -, -⟩
      have hK := hK2.trans hK3
      refine ih .casValue s3 M (t + 1) k nv ov (by omega) hI3 hR3 hd3 (lt_of_lt_of_le ht2 hK3.ext.next)
        (hnv.imp id (fun h => ⟨h.1, rfl⟩)) hov hom ?_ hsp3 hkS
      intro t0 h0
      rcases Nat.lt_succ_iff_lt_or_eq.mp h0 with h | rfl
      · exact hI.pass_ext hk hK.ext (by omega) (hpass t0 h)
      · exact hI.pass_ext hk hK.ext ht hpt

/-- A lookup finishes. -/
theorem getImpl_total (hS : ∀ x ∈ S, UserKey x) (hfit : FitsIn hash S (L * 2 ^ B)) (hk : UserKey k) (n : Nat) :
    ∀ (s : A) (t : Nat), loops L B + B + (B - t) + 1 < n → Inv hash s M → Rest s 0 → (drift s = fun _ => 0) →
      t < s.next → (∀ t0, t0 < t → Pass hash s t0 k) → Spread S L B s →
      TW (getImpl hash n t k) (fun _ s' => Spread S L B s') s := by
  induction n with
  | zero => intro s t h; omega
  | succ n ih =>
    intro s t hn hI hR hd ht hp hsp
    have hcopy := copyPut hash n
    have htot := copyPut_total hS hfit n 0 (by omega)
    have hlim := hsp.limit ht
    refine TW_bind (TW_of (noHalt_do1 _) (W_len ht ?_))
    refine TW_bind (TW_mono (TW_of (noHalt_gprobe _ _ _ _ _ (by omega)) (gprobe_spec n hI ht hk hp)) ?_)
    have hrec : ∀ s1, Inv hash s1 M → Rest s1 0 → (drift s1 = fun _ => 0) → Keep s s1 → t + 1 < s1.next →
        Pass hash s t k → Spread S L B s1 → TW (getImpl hash n (t + 1) k) (fun _ s' => Spread S L B s') s1 := by
      intro s1 h1 h2 h3 h4 h5 h6 h7
      refine ih s1 (t + 1) (by have := h7.below_next h5; omega) h1 h2 h3 h5 ?_ h7
      intro t0 h0
      rcases Nat.lt_succ_iff_lt_or_eq.mp h0 with h | rfl
      · exact hI.pass_ext hk h4.ext (by omega) (hp t0 h)
      · exact hI.pass_ext hk h4.ext ht h6
    rintro (v | i | nt) s1 hpost
    · obtain ⟨rfl, rfl⟩ := hpost
      exact TW_pure hsp
    · obtain ⟨he, hi, htn, hpt⟩ := hpost
      have he := he.symm
      subst he
      simp only
      rw [decide_eq_false hk.ne_init]
      refine TW_bind (TW_mono (TW_and (copySlotAndCheck_total htot hcopy hI hR hd htn hi hsp (by omega))
        (copySlotAndCheck_spec hcopy n hI hR hd htn hi)) ?_)
      rintro nt s2 ⟨hsp2, rfl, hI2, hR2, hK2, hd2, -⟩
      exact hrec s2 hI2 hR2 hd2 hK2 (lt_of_lt_of_le htn hK2.ext.next) hpt hsp2
    · obtain ⟨he, rfl, htn, hpt⟩ := hpost
      have he := he.symm
      subst he
      refine TW_bind (TW_mono (TW_and (helpCopy_total htot hcopy hI hR hd (t + 1) hsp (by omega))
        (helpCopy_spec hcopy n hI hR hd (t + 1))) ?_)
      rintro nt s2 ⟨hsp2, rfl, hI2, hR2, hK2, hd2, -, -⟩
      exact hrec s2 hI2 hR2 hd2 hK2 (lt_of_lt_of_le htn hK2.ext.next) hpt hsp2

/-! ## Public calls -/

/-- The fuel that suffices for any call. -/
def callFuel (L B : Nat) : Nat := loops L B + 2 * B + 2

theorem spread_get (hS : ∀ x ∈ S, UserKey x) (hfit : FitsIn hash S (L * 2 ^ B)) (h : Good hash s M) (hsp : Spread S L B s)
    (hk : UserKey k) {n : Nat} (hn : callFuel L B ≤ n) : TW (mapGet hash n k) (fun _ s' => Spread S L B s') s := by
  simp only [callFuel] at hn
  refine TW_bind (TW_of (noHalt_do1 _) (W_getRoot ?_))
  refine TW_bind (TW_mono (TW_and (getImpl_total hS hfit hk n s s.root (by omega) h.inv h.rest h.drift h.inv.root_lt (h.pass hk) hsp)
    (getImpl_spec n s s.root h.inv h.rest h.drift h.inv.root_lt hk (h.pass hk))) ?_)
  rintro r s' ⟨hsp', rfl, h2, -⟩
  refine TW_bind (TW_of (noHalt_do1 _) (W_check ?_ (TW_pure hsp')))
  cases hM : M k with
  | none => simp [curWord, hM, isMig_VINITIAL]
  | some v => simp [curWord, hM, (getD_storable h.inv hM).mig]

theorem spread_put (hS : ∀ x ∈ S, UserKey x) (hfit : FitsIn hash S (L * 2 ^ B)) (h : Good hash s M) (hsp : Spread S L B s)
    (hk : k ∈ S) (cf : CasFn) {nv ov : Word} (hnv : Storable nv ∨ nv = VTOMBSTONE ∧ cf = .casValue) (hov : ov ≠ VINITIAL)
    (hom : isMig ov = false) {n : Nat} (hn : callFuel L B ≤ n) :
    TW (mapPutIfMatch hash n cf k nv ov) (fun _ s' => Spread S L B s') s := by
  simp only [callFuel] at hn
  have hni : nv ≠ VINITIAL := by
    rcases hnv with h | ⟨h, -⟩
    · exact h.ne_init
    · rw [h]; exact sent_ne.2.2.2.2.1
  refine TW_bind (TW_of (noHalt_do1 _) (W_check (by simpa using hni) ?_))
  refine TW_bind (TW_of (noHalt_do1 _) (W_check (by simpa using hov) ?_))
  refine TW_bind (TW_of (noHalt_do1 _) (W_getRoot ?_))
  refine TW_bind (TW_mono (TW_and (mainPut_total hS hfit n cf s M s.root k nv ov (by omega) h.inv h.rest h.drift h.inv.root_lt hnv
    hov hom (h.pass (hS k hk)) hsp hk)
    (mainPut' hash n cf s M s.root k nv ov h.inv h.rest h.drift h.inv.root_lt (hS k hk) hnv hov hom (h.pass (hS k hk)))) ?_)
  rintro r s' ⟨hsp', w, h1, -⟩
  refine TW_bind (TW_of (noHalt_do1 _) (W_check ?_ (TW_pure hsp')))
  cases hM : M k with
  | none =>
    rw [hM] at h1
    rcases h1 with rfl | rfl
    · rw [isMig_VINITIAL]; rfl
    · rw [isMig_VTOMBSTONE]; rfl
  | some v =>
    rw [hM] at h1
    have h1 : r = v := h1
    rw [h1, (getD_storable h.inv hM).mig]; rfl

theorem spread_op (hS : ∀ x ∈ S, UserKey x) (hfit : FitsIn hash S (L * 2 ^ B)) (h : Good hash s M) (hsp : Spread S L B s)
    (op : Op) (hv : op.Valid) (ho : ∀ x, op.Names x → x ∈ S) {n : Nat} (hn : callFuel L B ≤ n) :
    TW (op.prog hash n) (fun _ s' => Spread S L B s') s := by
  obtain ⟨m1, m2, m3⟩ := nm_facts
  have i1 : NO_MATCH_OLD ≠ VINITIAL := by decide
  have i2 : VTOMBSTONE ≠ VINITIAL := by decide
  have i3 : MATCH_ANY ≠ VINITIAL := by decide
  have hP : ∀ {k nv ov : Word} (cf : CasFn), k ∈ S → (Storable nv ∨ nv = VTOMBSTONE ∧ cf = .casValue) → ov ≠ VINITIAL →
      isMig ov = false → TW (mapPutIfMatch hash n cf k nv ov) (fun _ s' => Spread S L B s') s :=
    fun cf h1 h2 h3 h4 => spread_put hS hfit h hsp h1 cf h2 h3 h4 hn
  cases op with
  | get k =>
    exact TW_bind (TW_mono (spread_get hS hfit h hsp (hS k (ho k rfl)) hn) fun _ _ h => TW_pure h)
  | containsKey k =>
    exact TW_bind (TW_bind (TW_mono (spread_get hS hfit h hsp (hS k (ho k rfl)) hn) fun _ _ h => TW_pure (TW_pure h)))
  | put k v =>
    exact TW_bind (TW_mono (hP _ (ho k rfl) (.inl (storable_of_valid hv.2)) i1 m1) fun _ _ h => TW_pure h)
  | putIfAbsent k v =>
    exact TW_bind (TW_mono (hP _ (ho k rfl) (.inl (storable_of_valid hv.2)) i2 m2) fun _ _ h => TW_pure h)
  | remove k =>
    exact TW_bind (TW_bind (TW_mono (hP _ (ho k rfl) (.inr ⟨rfl, rfl⟩) i1 m1) fun _ _ h => TW_pure (TW_pure h)))
  | removeIf k v =>
    exact TW_bind (TW_bind (TW_mono (hP _ (ho k rfl) (.inr ⟨rfl, rfl⟩) (validVal_ne hv.2).1 hv.2.2.1)
      fun _ _ h => TW_pure (TW_pure h)))
  | replace k o v =>
    exact TW_bind (TW_bind (TW_mono (hP _ (ho k rfl) (.inl (storable_of_valid hv.2.2)) (validVal_ne hv.2.1).1
      hv.2.1.2.1) fun _ _ h => TW_pure (TW_pure h)))
  | putIfMatch k v o =>
    have : o ≠ VINITIAL ∧ isMig o = false := by
      rcases hv.2.2 with h | h | h | h
      · exact ⟨(validVal_ne h).1, h.2.1⟩
      · rw [h]; exact ⟨i1, m1⟩
      · rw [h]; exact ⟨i3, m3⟩
      · rw [h]; exact ⟨i2, m2⟩
    exact TW_bind (TW_mono (hP _ (ho k rfl) (.inl (storable_of_valid hv.2.1)) this.1 this.2) fun _ _ h => TW_pure h)
  | update k v =>
    exact TW_bind (TW_mono (hP _ (ho k rfl)
      (.inl (hv.2.elim storable_of_valid (fun e => e ▸ storable_matchAny))) i1 m1) fun _ _ h => TW_pure h)
  | size =>
    refine TW_bind (TW_bind (TW_of (noHalt_do1 _) (W_getRoot ?_)))
    exact TW_of (noHalt_do1 _) (W_getSize h.inv.root_lt (TW_pure hsp))
  | isEmpty =>
    refine TW_bind (TW_bind (TW_bind (TW_of (noHalt_do1 _) (W_getRoot ?_))))
    exact TW_of (noHalt_do1 _) (W_getSize h.inv.root_lt (TW_pure (TW_pure hsp)))

theorem spread_ops (hS : ∀ x ∈ S, UserKey x) (hfit : FitsIn hash S (L * 2 ^ B)) {n : Nat} (hn : callFuel L B ≤ n) :
    ∀ (ops : List Op) (m : Mem) (M : AMap), (∀ op ∈ ops, op.Valid) → (∀ op ∈ ops, ∀ x, op.Names x → x ∈ S) →
      Good hash (abs m) M → Spread S L B (abs m) →
      ∃ rs m' M', runOps hash n ops m = .done rs m' ∧ Good hash (abs m') M' ∧ Spread S L B (abs m') := by
  intro ops
  induction ops with
  | nil => exact fun m M _ _ h h' => ⟨[], m, M, rfl, h, h'⟩
  | cons op ops ih =>
    intro m M hv ho h hsp
    obtain ⟨r, m1, h1, h2⟩ := spread_op hS hfit h hsp op (hv op (by simp)) (ho op (by simp)) hn m rfl
    obtain ⟨M1, hM1⟩ := (any_spec n op (hv op (by simp)) h m rfl).2 r m1 h1
    obtain ⟨rs, m2, M2, h3, h4⟩ := ih m1 M1 (fun o ho' => hv o (by simp [ho'])) (fun o ho' => ho o (by simp [ho'])) hM1 h2
    exact ⟨r :: rs, m2, M2, by simp only [runOps, h1, h3], h4⟩

theorem spread_fresh {L cap : Nat} (hcap : L * 2 ^ B ≤ cap) : Spread S L B (abs (freshMem L cap)) := by
  have hn : (abs (freshMem L cap)).next = 1 := rfl
  refine ⟨fun t i h _ => ?_, by rw [hn]; omega, fun t h => ?_, hcap⟩
  · have : t = 0 := by omega
    subst this
    left
    simp only [abs, freshMem, freshWords, if_true]; decide
  · have : t = 0 := by omega
    subst this
    show L = L * 2 ^ 0
    omega

end PMap
