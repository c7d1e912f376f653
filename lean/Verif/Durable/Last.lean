import Verif.Durable.Guard

/-!
# What the file can lack when one thread runs (proof machinery)
-/

namespace PMap

open Prog

variable {hash : Word → Word} {n : Nat} {s : Sys} {F : List Sched} {L : Nat} {α : Type}

theorem Rests.trans {xs ys zs : List Sched} (h1 : Rests hash n s xs ys) (h2 : Rests hash n s ys zs) : Rests hash n s xs zs := by
  refine ⟨h1.le.trans h2.le, fun us g1 g2 b => ?_⟩
  rcases List.prefix_or_prefix_of_prefix g2 h2.le with h | h
  · exact h1.same us g1 h b
  · rw [h2.same us h g2 b, h1.same ys h1.le (List.prefix_refl _) b]

theorem rests_snoc {xs : List Sched} {x : Sched}
    (h : ∀ b, (s.exec hash n (xs ++ [x])).mem.word b = (s.exec hash n xs).mem.word b) : Rests hash n s xs (xs ++ [x]) := by
  refine ⟨List.prefix_append .., fun zs g1 g2 b => ?_⟩
  rcases prefix_snoc g2 with g | rfl
  · rw [List.IsPrefix.eq_of_length g1 (le_antisymm g1.length_le g.length_le)]
  · exact h b

theorem gwp_later {Q : α → List Sched → Prop} (hq : ∀ a ys zs, Q a ys → Rests hash n s ys zs → Q a zs) {p : Prog α}
    {xs ys : List Sched} (h : gwp hash n s F L Q p xs) (hp : Rests hash n s xs ys) : gwp hash n s F L Q p ys := by
  cases p with
  | ret a => exact hq a xs ys h hp
  | halt x => trivial
  | act a k => exact fun zs x r m' h1 h2 h3 h4 => h zs x r m' (hp.trans h1) h2 h3 h4

/-- What the thread will do is guarded. -/
def AloneThr (hash : Word → Word) (n : Nat) (s : Sys) (F : List Sched) (L : Nat) (xs : List Sched) : Thread → Prop
  | .idle todo => ∀ op ∈ todo, op.Valid
  | .busy _ p todo => gwp hash n s F L (fun _ _ => True) p xs ∧ ∀ op ∈ todo, op.Valid

theorem AloneThr.later {xs ys : List Sched} {th : Thread} (h : AloneThr hash n s F L xs th) (hp : Rests hash n s xs ys) :
    AloneThr hash n s F L ys th := by
  cases th with
  | idle todo => exact h
  | busy op p todo => exact ⟨gwp_later (fun _ _ _ _ _ => trivial) h.1 hp, h.2⟩

theorem alone_thr (hF : Alone hash n s F L) {t : Nat} (h0 : AloneThr hash n s F L [] (s.thr t)) (hx : ∀ x ∈ F, x.Only t)
    {xs : List Sched} (hp : xs <+: F) : AloneThr hash n s F L xs ((s.exec hash n xs).thr t) := by
  induction xs using List.reverseRecOn with
  | nil => exact h0
  | append_singleton xs x ih =>
    have ih := ih ((List.prefix_append ..).trans hp)
    have hxt := hx x (hp.subset (List.mem_append_right _ (List.mem_singleton.mpr rfl)))
    have hm := exec_snoc (hash := hash) (n := n) (s := s) xs x
    cases x with
    | evict t' i =>
      have := ih.later (rests_snoc (x := .evict t' i) fun b => by rw [hm]; rfl)
      rw [hm]; exact this
    | run tid =>
      cases hxt
      have hsame : ∀ th, AloneThr hash n s F L xs th →
          (∀ b, ((s.exec hash n xs).step hash n (.run t)).mem.word b = (s.exec hash n xs).mem.word b) →
          AloneThr hash n s F L (xs ++ [.run t]) th := fun th h hw => h.later (rests_snoc fun b => by rw [hm]; exact hw b)
      rw [hm]
      cases hs : (s.exec hash n xs).thr t with
      | idle l =>
        rw [hs] at ih
        cases l with
        | nil =>
          have e : (s.exec hash n xs).step hash n (.run t) = s.exec hash n xs := by simp only [Sys.step, hs]
          rw [e, hs]; exact hsame _ ih fun b => by rw [e]
        | cons op' l =>
          simp only [Sys.step, hs, upd_same]
          exact ⟨gwp_op hF (ih op' (List.mem_cons_self ..)), fun op h => ih op (List.mem_cons_of_mem _ h)⟩
      | busy op' p' todo' =>
        rw [hs] at ih
        cases p' with
        | ret r =>
          simp only [Sys.step, hs, upd_same]
          exact ih.2
        | halt x =>
          have e : ((s.exec hash n xs).step hash n (.run t)).thr t = .busy op' (.halt x) todo' ∧
              ((s.exec hash n xs).step hash n (.run t)).mem = (s.exec hash n xs).mem := by
            cases x <;> simp only [Sys.step, hs, and_self]
          rw [e.1]; exact hsame _ ih fun b => by rw [e.2]
        | act a k =>
          cases he : a.exec (s.exec hash n xs).mem with
          | none =>
            have e : ((s.exec hash n xs).step hash n (.run t)).thr t = .busy op' (.act a k) todo' ∧
                ((s.exec hash n xs).step hash n (.run t)).mem = (s.exec hash n xs).mem := by
              simp only [Sys.step, hs, he, and_self]
            rw [e.1]; exact hsame _ ih fun b => by rw [e.2]
          | some q =>
            obtain ⟨r, m'⟩ := q
            simp only [Sys.step, hs, he, upd_same]
            refine ⟨(ih.1 xs (.run t) r m' ⟨List.prefix_refl _, fun zs g1 g2 b => ?_⟩ hp he ?_).2, ih.2⟩
            · rw [List.IsPrefix.eq_of_length g1 (le_antisymm g1.length_le g2.length_le)]
            · rw [hm]; simp only [Sys.step, hs, he]

/-- How a word of table 0 changes: by a guarded compare-and-swap. -/
theorem alone_change (hF : Alone hash n s F L) {t : Nat} (h0 : AloneThr hash n s F L [] (s.thr t)) (hx : ∀ x ∈ F, x.Only t)
    {xs : List Sched} {x : Sched} (hp : xs ++ [x] <+: F) {b : Addr} (hb : b.tab = 0)
    (hne : clean ((s.exec hash n (xs ++ [x])).mem.word b) ≠ clean ((s.exec hash n xs).mem.word b)) :
    Guard hash n s L xs (.cas b ((s.exec hash n xs).mem.word b) ((s.exec hash n (xs ++ [x])).mem.word b)) ∧
      (s.exec hash n (xs ++ [x])).mem.nv = (s.exec hash n xs).mem.nv := by
  have hxs : xs <+: F := (List.prefix_append ..).trans hp
  have hthr := alone_thr hF h0 hx hxs
  have hnext := hF.next xs hxs
  have hxt := hx x (hp.subset (List.mem_append_right _ (List.mem_singleton.mpr rfl)))
  have hm := exec_snoc (hash := hash) (n := n) (s := s) xs x
  cases x with
  | evict t' i => rw [hm] at hne; exact absurd rfl hne
  | run tid =>
    cases hxt
    rw [hm, Sys.step] at hne
    split at hne
    · exact absurd rfl hne
    · exact absurd rfl hne
    · exact absurd rfl hne
    · exact absurd rfl hne
    · exact absurd rfl hne
    · next op a k todo hs =>
      split at hne
      · exact absurd rfl hne
      · next r m' he =>
        simp only at hne
        rw [hs] at hthr
        have hmem : (s.exec hash n (xs ++ [.run t])).mem = m' := by rw [hm]; simp only [Sys.step, hs, he]
        have hg := (hthr.1 xs (.run t) r m' ⟨List.prefix_refl _, fun zs g1 g2 b => by
          rw [List.IsPrefix.eq_of_length g1 (le_antisymm g1.length_le g2.length_le)]⟩ hp he hmem).1
        rw [hmem]
        by_cases hpl : a.plain = true
        · exact absurd (by rw [plain_word hpl he]) hne
        cases a with
        | cas a e w =>
          simp only [Act.exec] at he
          split at he
          · split at he
            · next hw =>
              cases he
              by_cases e' : b = a
              · subst e'
                subst hw
                refine ⟨?_, rfl⟩
                simp only [setWord, if_true]
                exact hg
              · simp only [setWord, if_neg e'] at hne; exact absurd rfl hne
            · cases he; exact absurd rfl hne
          · cases he
        | alloc l sz =>
          exfalso
          simp only [Act.exec] at he
          split at he
          · cases he
            refine hne ?_
            cases b <;> simp only [Addr.tab] at hb <;> subst hb <;> simp only [freshWords] <;> rw [if_neg (by omega)]
          · cases he; exact hne rfl
        | _ => exact absurd rfl hpl

/-- The memory a session starts with: every key is where its probe path leads, and all words are in the file. -/
structure Begun (hash : Word → Word) (n : Nat) (s : Sys) (L : Nat) : Prop where
  path : ∀ i, i < L → clean (s.mem.word (.key 0 i)) ≠ KINITIAL → clean (s.mem.word (.key 0 i)) ≠ KTOMBSTONE ∧
    ∃ d, d < reprobeLimit L ∧ i = probeSlot hash (clean (s.mem.word (.key 0 i))) L d ∧
      WayTo hash n s L (clean (s.mem.word (.key 0 i))) d []
  nvK : ∀ i, i < L → clean (s.mem.nv (.key 0 i)) = clean (s.mem.word (.key 0 i))
  nvV : ∀ i, i < L → clean (s.mem.nv (.val 0 i)) = clean (s.mem.word (.val 0 i))

/-- Every key in the table is where its probe path leads, past slots whose keys are in the file. -/
theorem alone_path (hF : Alone hash n s F L) {t : Nat} (h0 : AloneThr hash n s F L [] (s.thr t)) (hx : ∀ x ∈ F, x.Only t)
    (hinit : Begun hash n s L) {xs : List Sched} (hp : xs <+: F) :
    ∀ i, i < L → clean ((s.exec hash n xs).mem.word (.key 0 i)) ≠ KINITIAL →
      clean ((s.exec hash n xs).mem.word (.key 0 i)) ≠ KTOMBSTONE ∧
      ∃ d, d < reprobeLimit L ∧ i = probeSlot hash (clean ((s.exec hash n xs).mem.word (.key 0 i))) L d ∧
        WayTo hash n s L (clean ((s.exec hash n xs).mem.word (.key 0 i))) d xs := by
  induction xs using List.reverseRecOn with
  | nil => exact hinit.path
  | append_singleton xs x ih =>
    intro i hi hK
    have hxs : xs <+: F := (List.prefix_append ..).trans hp
    by_cases hne : clean ((s.exec hash n (xs ++ [x])).mem.word (.key 0 i)) = clean ((s.exec hash n xs).mem.word (.key 0 i))
    · rw [hne] at hK ⊢
      obtain ⟨ht, d, h1, h2, h3⟩ := ih hxs i hi hK
      exact ⟨ht, d, h1, h2, h3.later hF.toStill (List.prefix_append ..) hp⟩
    · obtain ⟨ht, d, h1, h2, h3⟩ := (alone_change hF h0 hx hp rfl hne).1 rfl hne
      exact ⟨ht, d, h1, h2, h3.later hF.toStill (List.prefix_append ..) hp⟩

/-- The file lacks at most the last change of the word. -/
def LastOnly (hash : Word → Word) (n : Nat) (s : Sys) (xs : List Sched) (a : Addr) (w : Word) : Prop :=
  w = clean ((s.exec hash n xs).mem.word a) ∨ ∃ ys x, ys ++ [x] <+: xs ∧ clean ((s.exec hash n ys).mem.word a) = w ∧
    ∀ zs, ys ++ [x] <+: zs → zs <+: xs → clean ((s.exec hash n zs).mem.word a) = clean ((s.exec hash n xs).mem.word a)

theorem LastOnly.snoc {xs : List Sched} {x : Sched} {a : Addr} {w : Word} (h : LastOnly hash n s xs a w)
    (he : clean ((s.exec hash n (xs ++ [x])).mem.word a) = clean ((s.exec hash n xs).mem.word a)) :
    LastOnly hash n s (xs ++ [x]) a w := by
  rcases h with h | ⟨ys, y, h1, h2, h3⟩
  · left; rw [he]; exact h
  · refine .inr ⟨ys, y, h1.trans (List.prefix_append ..), h2, fun zs g1 g2 => ?_⟩
    rcases prefix_snoc g2 with g | rfl
    · rw [he]; exact h3 zs g1 g
    · rfl

theorem LastOnly.change {xs : List Sched} {x : Sched} {a : Addr} : LastOnly hash n s (xs ++ [x]) a
    (clean ((s.exec hash n xs).mem.word a)) := by
  refine .inr ⟨xs, x, List.prefix_refl _, rfl, fun zs g1 g2 => ?_⟩
  rw [List.IsPrefix.eq_of_length g1 (le_antisymm g1.length_le g2.length_le)]

/-- The value in the file is the one in memory or the one before. -/
theorem alone_val (hF : Alone hash n s F L) {t : Nat} (h0 : AloneThr hash n s F L [] (s.thr t)) (hx : ∀ x ∈ F, x.Only t)
    (hinit : Begun hash n s L) {xs : List Sched} (hp : xs <+: F)
    {i : Nat} (hi : i < L) : LastOnly hash n s xs (.val 0 i) (clean ((s.exec hash n xs).mem.nv (.val 0 i))) := by
  induction xs using List.reverseRecOn with
  | nil => exact .inl (hinit.nvV i hi)
  | append_singleton xs x ih =>
    have hxs : xs <+: F := (List.prefix_append ..).trans hp
    by_cases hne : clean ((s.exec hash n (xs ++ [x])).mem.word (.val 0 i)) = clean ((s.exec hash n xs).mem.word (.val 0 i))
    · rcases step_nv (hash := hash) (n := n) (s.exec hash n xs) x (.val 0 i) with h | h
      · rw [exec_snoc, h]
        exact (ih hxs).snoc hne
      · rw [exec_snoc, h, ← exec_snoc]
        exact .inl rfl
    · obtain ⟨h1, h2⟩ := alone_change hF h0 hx hp rfl hne
      have h3 := (h1 rfl hne).1
      rw [h2, hF.durV xs hxs i hi h3, ← clean_of_not_dirty h3]
      exact LastOnly.change

/-- A slot whose key is not in the file has had at most one value. -/
theorem alone_key (hF : Alone hash n s F L) {t : Nat} (h0 : AloneThr hash n s F L [] (s.thr t)) (hx : ∀ x ∈ F, x.Only t)
    (hinit : Begun hash n s L) {xs : List Sched} (hp : xs <+: F)
    {i : Nat} (hi : i < L) (hk : clean ((s.exec hash n xs).mem.nv (.key 0 i)) = KINITIAL) :
    LastOnly hash n s xs (.val 0 i) VINITIAL := by
  induction xs using List.reverseRecOn with
  | nil => exact .inl (hF.empty [] hp i hi (by rw [← hk]; exact (hinit.nvK i hi).symm)).symm
  | append_singleton xs x ih =>
    have hxs : xs <+: F := (List.prefix_append ..).trans hp
    by_cases hne : clean ((s.exec hash n (xs ++ [x])).mem.word (.val 0 i)) = clean ((s.exec hash n xs).mem.word (.val 0 i))
    · rcases step_nv (hash := hash) (n := n) (s.exec hash n xs) x (.key 0 i) with h | h
      · exact (ih hxs (by rw [← h, ← exec_snoc]; exact hk)).snoc hne
      · rw [exec_snoc, h, ← exec_snoc] at hk
        exact .inl (hF.empty _ hp i hi hk).symm
    · obtain ⟨h1, h2⟩ := alone_change hF h0 hx hp rfl hne
      rw [h2] at hk
      rw [← ((h1 rfl hne).2.resolve_left fun h => h hk)]
      exact LastOnly.change

/-! ## What `get` finds -/

/-- `k` is not in table 0, and nothing is being migrated. -/
structure MissesAt (hash : Word → Word) (v : A) (L : Nat) (k : Word) : Prop where
  pow : ∃ p, p ≤ 32 ∧ L = 2 ^ p
  root : v.root = 0
  next : 0 < v.next
  len : (v.tab 0).len = L
  newT : (v.tab 0).newT = none
  none : ∀ i, i < L → v.ck 0 i ≠ k

theorem MissesAt.get {v : A} {k : Word} (h : MissesAt hash v L k) {N : Nat} (hN : reprobeLimit L + 1 < N) :
    TW (mapGet hash N k) (fun r _ => r = VINITIAL) v := by
  obtain ⟨hpow, hroot, hnext, hlen, hnew, hmiss⟩ := h
  obtain ⟨N, rfl⟩ : ∃ j, N = j + 1 := ⟨N - 1, by omega⟩
  refine TW_bind (TW_of (noHalt_do1 _) (W_getRoot ?_))
  rw [hroot]
  refine TW_bind (TW_mono (Q := fun r _ => r = VINITIAL) ?_ ?_)
  · refine TW_bind (TW_of (noHalt_do1 _) (W_len hnext ?_))
    rw [hlen]
    refine TW_bind (TW_mono (Q := fun p _ => p = .returned VINITIAL) (TW_of (noHalt_gprobe _ _ _ _ _ (by omega)) ?_) ?_)
    · refine W_loop (I := fun (x : Nat × Nat) s' => s' = v ∧ x.1 = probeSlot hash k L x.2) ?_ N _ _
        ⟨rfl, probeSlot_zero hpow k⟩
      rintro ⟨i, e⟩ s0 ⟨rfl, hi⟩
      simp only at hi
      subst hi
      have hlt' : probeSlot hash k L e < L := by
        obtain ⟨p, -, rfl⟩ := hpow; exact Nat.mod_lt _ (by positivity)
      have hlt : probeSlot hash k L e < (s0.tab 0).len := by rw [hlen]; exact hlt'
      refine W_bind' (W_tableKey hnext hlt ?_)
      refine W_bind' (W_tableValue hnext hlt ?_)
      split
      · exact W_pure rfl
      · refine W_bind' (W_getNew hnext ?_)
        rw [if_neg (hmiss _ hlt'), hnew]
        split
        · exact W_pure rfl
        · exact W_pure ⟨rfl, probeSlot_succ hpow k e⟩
    · rintro _ s1 rfl
      exact TW_pure rfl
  · rintro _ s1 rfl
    refine TW_bind (TW_of (noHalt_do1 _) (W_check ?_ (TW_pure rfl)))
    decide

/-- What `get` finds at a moment of the execution: the value word of the key's slot. -/
theorem alone_finds (hF : Alone hash n s F L) {t : Nat} (h0 : AloneThr hash n s F L [] (s.thr t)) (hx : ∀ x ∈ F, x.Only t)
    (hinit : Begun hash n s L) {xs : List Sched} (hp : xs <+: F) {k : Word}
    (hk : k ≠ KINITIAL) {i : Nat} (hi : i < L) (he : clean ((s.exec hash n xs).mem.word (.key 0 i)) = k) :
    FindsAt hash (abs (s.exec hash n xs).mem) L k (clean ((s.exec hash n xs).mem.word (.val 0 i))) := by
  obtain ⟨-, d, h1, h2, h3⟩ := alone_path hF h0 hx hinit hp i hi (by rw [he]; exact hk)
  rw [he] at h2 h3
  subst h2
  refine ⟨hF.pow, hF.root xs hp, hF.next xs hp, hF.len xs hp, hF.newT xs hp, hk, hF.mig xs hp _ hi, d, h1, he, rfl, ?_⟩
  intro e he'
  obtain ⟨K, f1, f2, f3, f4⟩ := h3 e he'
  rw [show (abs (s.exec hash n xs).mem).ck 0 (probeSlot hash k L e) = K from f1.1]
  exact ⟨f2, f3, f4⟩

theorem alone_misses (hF : Alone hash n s F L) {xs : List Sched} (hp : xs <+: F) {k : Word}
    (he : ∀ i, i < L → clean ((s.exec hash n xs).mem.word (.key 0 i)) ≠ k) : MissesAt hash (abs (s.exec hash n xs).mem) L k :=
  ⟨hF.pow, hF.root xs hp, hF.next xs hp, hF.len xs hp, hF.newT xs hp, he⟩

/-- A `get` made alone at this moment finds `w`. -/
def GetIs (hash : Word → Word) (L : Nat) (k w : Word) (m : Mem) : Prop :=
  ∀ N, reprobeLimit L + 1 < N → ∃ m', run (mapGet hash N k) m = .done w m'

theorem FindsAt.getIs {m : Mem} {k V : Word} (h : FindsAt hash (abs m) L k V) : GetIs hash L k (gotWord V) m := by
  intro N hN
  obtain ⟨r, m1, h1, rfl⟩ := h.get hN m rfl
  exact ⟨m1, h1⟩

theorem MissesAt.getIs {m : Mem} {k : Word} (h : MissesAt hash (abs m) L k) : GetIs hash L k VINITIAL m := by
  intro N hN
  obtain ⟨r, m1, h1, rfl⟩ := h.get hN m rfl
  exact ⟨m1, h1⟩

/-- A slot without a key has no value, so `get` finds what its value word says as soon as no other slot has the key. -/
theorem alone_getIs (hF : Alone hash n s F L) {t : Nat} (h0 : AloneThr hash n s F L [] (s.thr t)) (hx : ∀ x ∈ F, x.Only t)
    (hinit : Begun hash n s L) {xs ys : List Sched} (hp : xs <+: F) (hy : ys <+: xs) {k : Word}
    (hk : k ≠ KINITIAL) {i : Nat} (hi : i < L) (he : clean ((s.exec hash n xs).mem.word (.key 0 i)) = k) :
    GetIs hash L k (gotWord (clean ((s.exec hash n ys).mem.word (.val 0 i)))) (s.exec hash n ys).mem := by
  have hyF := hy.trans hp
  by_cases h : clean ((s.exec hash n ys).mem.word (.key 0 i)) = KINITIAL
  · rw [hF.empty ys hyF i hi h]
    refine (alone_misses hF hyF fun j hj e => ?_).getIs
    have hij : j ≠ i := by
      rintro rfl
      rw [h] at e; exact hk e.symm
    have e' := hF.key ys xs hy hp j hj (by rw [e]; exact hk)
    rw [e] at e'
    -- the key would be in two slots of one table
    obtain ⟨-, d, h1, h2, h3⟩ := alone_path hF h0 hx hinit hp i hi (by rw [he]; exact hk)
    obtain ⟨-, d', h1', h2', h3'⟩ := alone_path hF h0 hx hinit hp j hj (by rw [e']; exact hk)
    rw [he] at h2 h3
    rw [e'] at h2' h3'
    rcases Nat.lt_trichotomy d d' with hlt | rfl | hlt
    · obtain ⟨K, f1, -, -, f4⟩ := h3' d hlt
      rw [← h2] at f1
      exact f4 (f1.1.symm.trans he)
    · exact hij (h2'.trans h2.symm)
    · obtain ⟨K, f1, -, -, f4⟩ := h3 d' hlt
      rw [← h2'] at f1
      exact f4 (f1.1.symm.trans e')
  · have e := hF.key ys xs hy hp i hi h
    exact (alone_finds hF h0 hx hinit hyF hk hi (by rw [← e, he])).getIs

/-- The key in the file is the one in memory, or there is none yet. -/
theorem alone_nvK (hF : Alone hash n s F L) (hinit : Begun hash n s L) {xs : List Sched} (hp : xs <+: F) {i : Nat} (hi : i < L) :
    clean ((s.exec hash n xs).mem.nv (.key 0 i)) = KINITIAL ∨
      clean ((s.exec hash n xs).mem.nv (.key 0 i)) = clean ((s.exec hash n xs).mem.word (.key 0 i)) := by
  induction xs using List.reverseRecOn with
  | nil => exact .inr (hinit.nvK i hi)
  | append_singleton xs x ih =>
    have hxs : xs <+: F := (List.prefix_append ..).trans hp
    rcases step_nv (hash := hash) (n := n) (s.exec hash n xs) x (.key 0 i) with h | h
    · rw [exec_snoc, h, ← exec_snoc]
      rcases ih hxs with h | h
      · exact .inl h
      · by_cases e : clean ((s.exec hash n xs).mem.word (.key 0 i)) = KINITIAL
        · exact .inl (h.trans e)
        · right; rw [h, hF.key xs _ (List.prefix_append ..) hp i hi e]
    · right; rw [exec_snoc, h]

/-- After the restart `get` finds what it would have found, or what it would have found before the last change of the key. -/
theorem alone_restart (hF : Alone hash n s F L) {t : Nat} (h0 : AloneThr hash n s F L [] (s.thr t)) (hx : ∀ x ∈ F, x.Only t)
    (hinit : Begun hash n s L)
    {k : Word} (hk : k ≠ KINITIAL) :
    ∃ m w' w, restart (s.exec hash n F).mem (s.exec hash n F).mem.nv = .done () m ∧ GetIs hash L k w' m ∧
      GetIs hash L k w (s.exec hash n F).mem ∧
      (w' = w ∨ ∃ ys x, ys ++ [x] <+: F ∧ GetIs hash L k w' (s.exec hash n ys).mem ∧
        ∀ zs, ys ++ [x] <+: zs → zs <+: F → GetIs hash L k w (s.exec hash n zs).mem) := by
  have hFF := List.prefix_refl F
  obtain ⟨m, hm, hsc⟩ := openFile_spec (fileOf (s.exec hash n F).mem.nv 0 ((s.exec hash n F).mem.tab 0).len) (s.exec hash n F).mem.cap
  have hl : ((s.exec hash n F).mem.tab 0).len = L := hF.len F hFF
  rw [hl] at hm hsc
  have hr : restart (s.exec hash n F).mem (s.exec hash n F).mem.nv = .done () m := by rw [PMap.restart, hl]; exact hm
  have hnvK := fun i hi => alone_nvK hF hinit hFF (i := i) hi
  by_cases hex : ∃ i, i < L ∧ clean ((s.exec hash n F).mem.word (.key 0 i)) = k
  · obtain ⟨i, hi, he⟩ := hex
    have hget := fun ys (hy : ys <+: F) => alone_getIs hF h0 hx hinit hFF hy hk hi he
    have hlast : ∀ w, LastOnly hash n s F (.val 0 i) w → gotWord w = gotWord (clean ((s.exec hash n F).mem.word (.val 0 i))) ∨
        ∃ ys x, ys ++ [x] <+: F ∧ GetIs hash L k (gotWord w) (s.exec hash n ys).mem ∧
          ∀ zs, ys ++ [x] <+: zs → zs <+: F → GetIs hash L k (gotWord (clean ((s.exec hash n F).mem.word (.val 0 i))))
            (s.exec hash n zs).mem := by
      rintro w (rfl | ⟨ys, x, g1, rfl, g3⟩)
      · exact .inl rfl
      · refine .inr ⟨ys, x, g1, hget ys ((List.prefix_append ..).trans g1), fun zs f1 f2 => ?_⟩
        rw [← g3 zs f1 f2]
        exact hget zs f2
    rcases hnvK i hi with hn | hn
    · -- the key is not in the file
      refine ⟨m, VINITIAL, _, hr, ?_, hget F hFF, ?_⟩
      · refine MissesAt.getIs ⟨hF.pow, hsc.root, by rw [hsc.next]; omega, hsc.len, hsc.newT, fun j hj e => ?_⟩
        rw [hsc.ck] at e
        have e : clean ((s.exec hash n F).mem.nv (.key 0 j)) = k := e
        have hij : j ≠ i := by
          rintro rfl
          rw [hn] at e; exact hk e.symm
        rcases hnvK j hj with h | h
        · rw [h] at e; exact hk e.symm
        · rw [e] at h
          have g1 := alone_path hF h0 hx hinit hFF i hi (by rw [he]; exact hk)
          have g2 := alone_path hF h0 hx hinit hFF j hj (by rw [← h]; exact hk)
          obtain ⟨-, d, h1, h2, h3⟩ := g1
          obtain ⟨-, d', h1', h2', h3'⟩ := g2
          rw [he] at h2 h3
          rw [← h] at h2' h3'
          rcases Nat.lt_trichotomy d d' with hlt | rfl | hlt
          · obtain ⟨K, f1, -, -, f4⟩ := h3' d hlt
            rw [← h2] at f1
            exact f4 (f1.1.symm.trans he)
          · exact hij (h2'.trans h2.symm)
          · obtain ⟨K, f1, -, -, f4⟩ := h3 d' hlt
            rw [← h2'] at f1
            exact f4 (f1.1.symm.trans h.symm)
      · have hV : gotWord VINITIAL = VINITIAL := by decide
        have := hlast _ (alone_key hF h0 hx hinit hFF hi hn)
        rw [hV] at this
        exact this
    · -- it is, and so is its path
      rw [he] at hn
      obtain ⟨-, d, h1, h2, h3⟩ := alone_path hF h0 hx hinit hFF i hi (by rw [he]; exact hk)
      rw [he] at h2 h3
      have hmig : isMig (clean ((s.exec hash n F).mem.nv (.val 0 i))) = false := by
        rcases alone_val hF h0 hx hinit hFF hi with h | ⟨ys, x, g1, g2, -⟩
        · rw [h]; exact hF.mig F hFF i hi
        · rw [← g2]; exact hF.mig ys ((List.prefix_append ..).trans g1) i hi
      have hfix : gotWord ((fileOf (s.exec hash n F).mem.nv 0 L).fixed i) = gotWord (clean ((s.exec hash n F).mem.nv (.val 0 i))) ∧
          isMig ((fileOf (s.exec hash n F).mem.nv 0 L).fixed i) = false := by
        unfold File.fixed
        have e2 : (fileOf (s.exec hash n F).mem.nv 0 L).V i = clean ((s.exec hash n F).mem.nv (.val 0 i)) := rfl
        rw [e2]
        split
        · next h => rw [h.2]; decide
        · exact ⟨rfl, hmig⟩
      refine ⟨m, gotWord (clean ((s.exec hash n F).mem.nv (.val 0 i))), _, hr, ?_, hget F hFF,
        hlast _ (alone_val hF h0 hx hinit hFF hi)⟩
      rw [← hfix.1]
      refine FindsAt.getIs ⟨hF.pow, hsc.root, by rw [hsc.next]; omega, hsc.len, hsc.newT, hk, hfix.2, d, h1, ?_, ?_, ?_⟩
      · rw [hsc.ck, ← h2]; exact hn
      · rw [hsc.cv, ← h2]; exact if_pos hi
      · intro e he'
        obtain ⟨K, f1, f2, f3, f4⟩ := h3 e he'
        rw [hsc.ck, show (fileOf (s.exec hash n F).mem.nv 0 L).K (probeSlot hash k L e) = K from f1.2]
        exact ⟨f2, f3, f4⟩
  · push Not at hex
    refine ⟨m, VINITIAL, VINITIAL, hr, ?_, (alone_misses hF hFF hex).getIs, .inl rfl⟩
    refine MissesAt.getIs ⟨hF.pow, hsc.root, by rw [hsc.next]; omega, hsc.len, hsc.newT, fun j hj e => ?_⟩
    rw [hsc.ck] at e
    have e : clean ((s.exec hash n F).mem.nv (.key 0 j)) = k := e
    rcases hnvK j hj with h | h
    · rw [h] at e; exact hk e.symm
    · exact hex j hj (h.symm.trans e)

end PMap
