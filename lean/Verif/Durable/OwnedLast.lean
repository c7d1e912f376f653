import Verif.Durable.Owned

/-!
# What the file can lack when every key is changed by one thread (proof machinery)
-/

namespace PMap

open Prog

variable {hash : Word → Word} {n : Nat} {s : Sys} {F : List Sched} {L : Nat} {own : Word → Nat} {t : Nat} {α : Type}

theorem jwp_later (hF : Shared hash n s F L) {Q : α → List Sched → Prop}
    (hq : ∀ a ys zs, Q a ys → Spared hash n s L own t F ys zs → Q a zs) {p : Prog α}
    {xs ys : List Sched} (h : jwp hash n s F L own t Q p xs) (hp : Spared hash n s L own t F xs ys) :
    jwp hash n s F L own t Q p ys := by
  cases p with
  | ret a => exact hq a xs ys h hp
  | halt x => trivial
  | act a k => exact fun zs x r m' h1 h2 h3 h4 => h zs x r m' (hp.trans hF h1) h2 h3 h4

/-- A valid call of the thread `t`, changing only keys of its own. -/
def OwnCall (own : Word → Nat) (t : Nat) (op : Op) : Prop := op.Valid ∧ ∀ k, op.changes = some k → own k = t

/-- What the thread will do is guarded. -/
def OwnThr (hash : Word → Word) (n : Nat) (s : Sys) (F : List Sched) (L : Nat) (own : Word → Nat) (t : Nat) (xs : List Sched) :
    Thread → Prop
  | .idle todo => ∀ op ∈ todo, OwnCall own t op
  | .busy _ p todo => jwp hash n s F L own t (fun _ _ => True) p xs ∧ ∀ op ∈ todo, OwnCall own t op

theorem OwnThr.later (hF : Shared hash n s F L) {xs ys : List Sched} {th : Thread} (h : OwnThr hash n s F L own t xs th)
    (hp : Spared hash n s L own t F xs ys) : OwnThr hash n s F L own t ys th := by
  cases th with
  | idle todo => exact h
  | busy op p todo => exact ⟨jwp_later hF (fun _ _ _ _ _ => trivial) h.1 hp, h.2⟩

/-- What a step of `tid` does to the words of table 0: at most one of them changes, by a guarded compare-and-swap. -/
def Guarded (hash : Word → Word) (n : Nat) (s : Sys) (L : Nat) (own : Word → Nat) (tid : Nat) (xs ys : List Sched) : Prop :=
  (∀ b, b.tab = 0 → (s.exec hash n ys).mem.word b = (s.exec hash n xs).mem.word b) ∨
  ∃ a, a.tab = 0 ∧ OGuard hash n s L own tid xs (.cas a ((s.exec hash n xs).mem.word a) ((s.exec hash n ys).mem.word a)) ∧
    (∀ b, b.tab = 0 → b ≠ a → (s.exec hash n ys).mem.word b = (s.exec hash n xs).mem.word b) ∧
    (s.exec hash n ys).mem.nv = (s.exec hash n xs).mem.nv

/-- Such a step leaves the keys of the other threads alone. -/
theorem Guarded.spared {tid : Nat} (hne : t ≠ tid) {xs ys : List Sched} (hle : xs <+: ys) (hy : ys <+: F)
    (h : Guarded hash n s L own tid xs ys) : Spared hash n s L own t F xs ys := by
  rcases h with h | ⟨a, ha, hg, hr, -⟩
  · exact spared_of hle hy fun b hb => .inl (h b hb)
  · cases a with
    | key t' i =>
      cases ha
      have hg := hg rfl
      refine ⟨hle, hy, fun j hj h1 h2 => ?_, fun j hj h1 => ?_, fun j hj h1 h2 => .inl (hr _ rfl (by simp))⟩
      · by_cases e : j = i
        · subst e
          rcases hg with hg | ⟨-, hg, -⟩
          · rw [hg, clean_clean]
          · exact absurd (h2.symm.trans hg) hne
        · rw [hr (.key 0 j) rfl (by simpa using e)]
      · by_cases e : j = i
        · subst e
          rcases hg with hg | ⟨g1, -, g2, -⟩
          · exact .inr hg
          · exact absurd (h1.trans g1) g2
        · exact .inl (hr (.key 0 j) rfl (by simpa using e))
    | val t' i =>
      cases ha
      have hg := hg rfl
      refine ⟨hle, hy, fun j hj h1 h2 => ?_, fun j hj h1 => .inl (hr _ rfl (by simp)), fun j hj h1 h2 => ?_⟩
      · rw [hr (.key 0 j) rfl (by simp)]
      · by_cases e : j = i
        · subst e
          rcases hg with hg | ⟨k, g1, -, g2, -⟩
          · exact .inr hg
          · rw [g1] at h2
            exact absurd (h2.symm.trans g2) hne
        · exact .inl (hr (.val 0 j) rfl (by simpa using e))

/-- One step of a thread whose next action is guarded. -/
theorem guarded_step {tid : Nat} {xs : List Sched} (hnext : 0 < (s.exec hash n xs).mem.next)
    (hthr : OwnThr hash n s F L own tid xs ((s.exec hash n xs).thr tid)) (hp : xs ++ [.run tid] <+: F) :
    Guarded hash n s L own tid xs (xs ++ [.run tid]) := by
  have hm := exec_snoc (hash := hash) (n := n) (s := s) xs (.run tid)
  have hsame : ((s.exec hash n xs).step hash n (.run tid)).mem = (s.exec hash n xs).mem →
      Guarded hash n s L own tid xs (xs ++ [.run tid]) := fun e => .inl fun b _ => by rw [hm, e]
  cases hs : (s.exec hash n xs).thr tid with
  | idle l =>
    cases l with
    | nil => exact hsame (by simp only [Sys.step, hs])
    | cons op l => exact hsame (by simp only [Sys.step, hs])
  | busy op p todo =>
    rw [hs] at hthr
    cases p with
    | ret r => exact hsame (by simp only [Sys.step, hs])
    | halt x => exact hsame (by cases x <;> simp only [Sys.step, hs])
    | act a k =>
      cases he : a.exec (s.exec hash n xs).mem with
      | none => exact hsame (by simp only [Sys.step, hs, he])
      | some q =>
        obtain ⟨r, m'⟩ := q
        have hmem : (s.exec hash n (xs ++ [.run tid])).mem = m' := by rw [hm]; simp only [Sys.step, hs, he]
        have hg := (hthr.1 xs (.run tid) r m' (Spared.refl ((List.prefix_append ..).trans hp)) hp he hmem).1
        by_cases hpl : a.plain = true
        · exact .inl fun b _ => by rw [hmem, plain_word hpl he]
        cases a with
        | cas a e w =>
          simp only [Act.exec] at he
          split at he
          · split at he
            · next hw =>
              cases he
              by_cases ha : a.tab = 0
              · refine .inr ⟨a, ha, ?_, fun b _ hb => ?_, by rw [hmem]⟩
                · rw [hmem, hw]
                  simp only [setWord, if_true]
                  exact hg
                · rw [hmem]; simp only [setWord, if_neg hb]
              · refine .inl fun b hb => ?_
                rw [hmem]
                simp only [setWord]
                rw [if_neg fun e => ha (by rw [← e]; exact hb)]
            · cases he; exact .inl fun b _ => by rw [hmem]
          · cases he
        | alloc l sz =>
          refine .inl fun b hb => ?_
          rw [hmem]
          simp only [Act.exec] at he
          split at he
          · cases he
            cases b <;> simp only [Addr.tab] at hb <;> subst hb <;> simp only [freshWords] <;> rw [if_neg (by omega)]
          · cases he; rfl
        | _ => exact absurd rfl hpl

theorem own_thr (hF : Shared hash n s F L) (h0 : ∀ t, OwnThr hash n s F L own t [] (s.thr t))
    {xs : List Sched} (hp : xs <+: F) : ∀ t, OwnThr hash n s F L own t xs ((s.exec hash n xs).thr t) := by
  induction xs using List.reverseRecOn with
  | nil => exact h0
  | append_singleton xs x ih =>
    have hxs : xs <+: F := (List.prefix_append ..).trans hp
    have ih := ih hxs
    have hm := exec_snoc (hash := hash) (n := n) (s := s) xs x
    intro t
    cases x with
    | evict t' i =>
      have := (ih t).later hF (spared_of (List.prefix_append ..) hp fun b _ => .inl (by rw [hm]; rfl))
      rw [hm]; exact this
    | run tid =>
      by_cases htt : t = tid
      · subst htt
        have ih := ih t
        have hsame : ∀ th, OwnThr hash n s F L own t xs th →
            (∀ b, ((s.exec hash n xs).step hash n (.run t)).mem.word b = (s.exec hash n xs).mem.word b) →
            OwnThr hash n s F L own t (xs ++ [.run t]) th := fun th h hw =>
          h.later hF (spared_of (List.prefix_append ..) hp fun b _ => .inl (by rw [hm]; exact hw b))
        rw [hm]
        cases hs : (s.exec hash n xs).thr t with
        | idle l =>
          rw [hs] at ih
          cases l with
          | nil =>
            have e : (s.exec hash n xs).step hash n (.run t) = s.exec hash n xs := by simp only [Sys.step, hs]
            rw [e, hs]; exact hsame _ ih fun b => by rw [e]
          | cons op' l =>
            simp only [Sys.step, hs, upd_same]
            have hop := ih op' (List.mem_cons_self ..)
            exact ⟨jwp_op hF hop.1 hop.2, fun op h => ih op (List.mem_cons_of_mem _ h)⟩
        | busy op' p' todo' =>
          rw [hs] at ih
          cases p' with
          | ret r =>
            simp only [Sys.step, hs, upd_same]
            exact ih.2
          | halt x =>
            have e : ((s.exec hash n xs).step hash n (.run t)).thr t = .busy op' (.halt x) todo' ∧
                ((s.exec hash n xs).step hash n (.run t)).mem = (s.exec hash n xs).mem := by
              cases x <;> simp only [Sys.step, hs, and_self]
            rw [e.1]; exact hsame _ ih fun b => by rw [e.2]
          | act a k =>
            cases he : a.exec (s.exec hash n xs).mem with
            | none =>
              have e : ((s.exec hash n xs).step hash n (.run t)).thr t = .busy op' (.act a k) todo' ∧
                  ((s.exec hash n xs).step hash n (.run t)).mem = (s.exec hash n xs).mem := by
                simp only [Sys.step, hs, he, and_self]
              rw [e.1]; exact hsame _ ih fun b => by rw [e.2]
            | some q =>
              obtain ⟨r, m'⟩ := q
              simp only [Sys.step, hs, he, upd_same]
              refine ⟨(ih.1 xs (.run t) r m' (Spared.refl hxs) hp he ?_).2, ih.2⟩
              rw [hm]; simp only [Sys.step, hs, he]
      · have hg := guarded_step (hF.next xs hxs) (ih tid) hp
        have hthr : (s.exec hash n (xs ++ [.run tid])).thr t = (s.exec hash n xs).thr t := by
          rw [hm, Sys.step]
          split
          · rfl
          · exact upd_ne htt
          · rfl
          · rfl
          · exact upd_ne htt
          · split
            · rfl
            · exact upd_ne htt
        rw [hthr]
        exact (ih t).later hF (hg.spared htt (List.prefix_append ..) hp)

/-- How a word of table 0 changes: by a guarded compare-and-swap. -/
theorem own_change (hF : Shared hash n s F L) (h0 : ∀ t, OwnThr hash n s F L own t [] (s.thr t))
    {xs : List Sched} {x : Sched} (hp : xs ++ [x] <+: F) {b : Addr} (hb : b.tab = 0)
    (hne : clean ((s.exec hash n (xs ++ [x])).mem.word b) ≠ clean ((s.exec hash n xs).mem.word b)) :
    ∃ t, x = .run t ∧ OGuard hash n s L own t xs (.cas b ((s.exec hash n xs).mem.word b) ((s.exec hash n (xs ++ [x])).mem.word b)) ∧
      (s.exec hash n (xs ++ [x])).mem.nv = (s.exec hash n xs).mem.nv := by
  have hxs : xs <+: F := (List.prefix_append ..).trans hp
  cases x with
  | evict t' i => rw [exec_snoc] at hne; exact absurd rfl hne
  | run tid =>
    rcases guarded_step (hF.next xs hxs) (own_thr hF h0 hxs tid) hp with h | ⟨a, -, h1, h2, h3⟩
    · exact absurd (by rw [h b hb]) hne
    · by_cases e : b = a
      · subst e; exact ⟨tid, rfl, h1, h3⟩
      · exact absurd (by rw [h2 b hb e]) hne

/-- Every key in the table is where its probe path leads, past slots with other keys. -/
theorem own_path (hF : Shared hash n s F L) (h0 : ∀ t, OwnThr hash n s F L own t [] (s.thr t)) (hinit : Begun hash n s L)
    {xs : List Sched} (hp : xs <+: F) : ∀ i, i < L → clean ((s.exec hash n xs).mem.word (.key 0 i)) ≠ KINITIAL →
      clean ((s.exec hash n xs).mem.word (.key 0 i)) ≠ KTOMBSTONE ∧
      ∃ d, d < reprobeLimit L ∧ i = probeSlot hash (clean ((s.exec hash n xs).mem.word (.key 0 i))) L d ∧
        WayIn hash n s L (clean ((s.exec hash n xs).mem.word (.key 0 i))) d xs := by
  induction xs using List.reverseRecOn with
  | nil =>
    intro i hi hK
    obtain ⟨ht, d, h1, h2, h3⟩ := hinit.path i hi hK
    refine ⟨ht, d, h1, h2, fun e he => ?_⟩
    obtain ⟨K, g1, g2, -, g3⟩ := h3 e he
    exact ⟨fun c => g2 (g1.1.symm.trans c), fun c => g3 (g1.1.symm.trans c)⟩
  | append_singleton xs x ih =>
    intro i hi hK
    have hxs : xs <+: F := (List.prefix_append ..).trans hp
    by_cases hne : clean ((s.exec hash n (xs ++ [x])).mem.word (.key 0 i)) = clean ((s.exec hash n xs).mem.word (.key 0 i))
    · rw [hne] at hK ⊢
      obtain ⟨ht, d, h1, h2, h3⟩ := ih hxs i hi hK
      exact ⟨ht, d, h1, h2, h3.later hF (List.prefix_append ..) hp⟩
    · obtain ⟨t, -, hg, -⟩ := own_change hF h0 hp rfl hne
      rcases hg rfl with hg | ⟨-, -, -, ht, d, h1, h2, h3⟩
      · exact absurd (by rw [hg, clean_clean]) hne
      · exact ⟨ht, d, h1, h2, h3.later hF (List.prefix_append ..) hp⟩

/-- A key is in one slot only. -/
theorem own_unique (hF : Shared hash n s F L) (h0 : ∀ t, OwnThr hash n s F L own t [] (s.thr t)) (hinit : Begun hash n s L)
    {xs : List Sched} (hp : xs <+: F) {k : Word} (hk : k ≠ KINITIAL) {i j : Nat} (hi : i < L) (hj : j < L)
    (ei : clean ((s.exec hash n xs).mem.word (.key 0 i)) = k) (ej : clean ((s.exec hash n xs).mem.word (.key 0 j)) = k) :
    i = j := by
  obtain ⟨-, d, -, h2, h3⟩ := own_path hF h0 hinit hp i hi (by rw [ei]; exact hk)
  obtain ⟨-, d', -, h2', h3'⟩ := own_path hF h0 hinit hp j hj (by rw [ej]; exact hk)
  rw [ei] at h2 h3
  rw [ej] at h2' h3'
  rcases Nat.lt_trichotomy d d' with hlt | rfl | hlt
  · have := (h3' d hlt).2
    rw [← h2] at this; exact absurd ei this
  · exact h2.trans h2'.symm
  · have := (h3 d' hlt).2
    rw [← h2'] at this; exact absurd ej this

/-- The value in the file is the one in memory or the one before. -/
theorem own_val (hF : Shared hash n s F L) (h0 : ∀ t, OwnThr hash n s F L own t [] (s.thr t)) (hinit : Begun hash n s L)
    {xs : List Sched} (hp : xs <+: F)
    {i : Nat} (hi : i < L) : LastOnly hash n s xs (.val 0 i) (clean ((s.exec hash n xs).mem.nv (.val 0 i))) := by
  induction xs using List.reverseRecOn with
  | nil => exact .inl (hinit.nvV i hi)
  | append_singleton xs x ih =>
    have hxs : xs <+: F := (List.prefix_append ..).trans hp
    by_cases hne : clean ((s.exec hash n (xs ++ [x])).mem.word (.val 0 i)) = clean ((s.exec hash n xs).mem.word (.val 0 i))
    · rcases step_nv (hash := hash) (n := n) (s.exec hash n xs) x (.val 0 i) with h | h
      · rw [exec_snoc, h]
        exact (ih hxs).snoc hne
      · rw [exec_snoc, h, ← exec_snoc]
        exact .inl rfl
    · obtain ⟨t, -, h1, h2⟩ := own_change hF h0 hp rfl hne
      rcases h1 rfl with hg | ⟨k, -, -, -, h3, -⟩
      · exact absurd (by rw [hg, clean_clean]) hne
      · rw [h2, hF.durV xs hxs i hi h3, ← clean_of_not_dirty h3]
        exact LastOnly.change

/-- A slot whose key, or whose path, is not in the file has had at most one value. -/
theorem own_key (hF : Shared hash n s F L) (h0 : ∀ t, OwnThr hash n s F L own t [] (s.thr t)) (hinit : Begun hash n s L)
    {xs : List Sched} (hp : xs <+: F) {i : Nat} (hi : i < L) {k : Word} (hk0 : k ≠ KINITIAL)
    (hk : clean ((s.exec hash n xs).mem.word (.key 0 i)) = KINITIAL ∨ clean ((s.exec hash n xs).mem.word (.key 0 i)) = k)
    (hin : ¬InFile hash n s L k i xs) : LastOnly hash n s xs (.val 0 i) VINITIAL := by
  induction xs using List.reverseRecOn with
  | nil =>
    rcases hk with hk | hk
    · exact .inl (hF.empty [] (List.nil_prefix) i hi hk).symm
    · obtain ⟨-, d, h1, h2, h3⟩ := hinit.path i hi (by rw [show clean (s.mem.word (.key 0 i)) = k from hk]; exact hk0)
      rw [show clean (s.mem.word (.key 0 i)) = k from hk] at h2 h3
      exact absurd ⟨d, h1, h2, h3, hk, (hinit.nvK i hi).trans hk⟩ hin
  | append_singleton xs x ih =>
    have hxs : xs <+: F := (List.prefix_append ..).trans hp
    have hin' : ¬InFile hash n s L k i xs := fun h => hin (h.later hF hk0 (List.prefix_append ..) hp)
    have hk' : clean ((s.exec hash n xs).mem.word (.key 0 i)) = KINITIAL ∨ clean ((s.exec hash n xs).mem.word (.key 0 i)) = k := by
      by_cases h : clean ((s.exec hash n xs).mem.word (.key 0 i)) = KINITIAL
      · exact .inl h
      · rw [hF.key xs _ (List.prefix_append ..) hp i hi h] at hk; exact hk
    by_cases hne : clean ((s.exec hash n (xs ++ [x])).mem.word (.val 0 i)) = clean ((s.exec hash n xs).mem.word (.val 0 i))
    · exact (ih hxs hk' hin').snoc hne
    · obtain ⟨t, -, h1, h2⟩ := own_change hF h0 hp rfl hne
      rcases h1 rfl with hg | ⟨k', g1, g2, -, -, g3⟩
      · exact absurd (by rw [hg, clean_clean]) hne
      · have e : k' = k := by
          rcases hk' with h | h
          · exact absurd (g1.symm.trans h) g2
          · exact g1.symm.trans h
        subst e
        rw [← g3.resolve_right hin']
        exact LastOnly.change

/-! ## What `get` finds -/

/-- The way to `k` in table 0 is cut by an empty slot. -/
structure BlockedAt (hash : Word → Word) (v : A) (L : Nat) (k : Word) : Prop where
  pow : ∃ p, p ≤ 32 ∧ L = 2 ^ p
  root : v.root = 0
  next : 0 < v.next
  len : (v.tab 0).len = L
  newT : (v.tab 0).newT = none
  cut : ∃ d, v.ck 0 (probeSlot hash k L d) = KINITIAL ∧ ∀ e, e < d → v.ck 0 (probeSlot hash k L e) ≠ k

theorem BlockedAt.get {v : A} {k : Word} (h : BlockedAt hash v L k) {N : Nat} (hN : reprobeLimit L + 1 < N) :
    TW (mapGet hash N k) (fun r _ => r = VINITIAL) v := by
  obtain ⟨hpow, hroot, hnext, hlen, hnew, d, hd, hmiss⟩ := h
  obtain ⟨N, rfl⟩ : ∃ j, N = j + 1 := ⟨N - 1, by omega⟩
  refine TW_bind (TW_of (noHalt_do1 _) (W_getRoot ?_))
  rw [hroot]
  refine TW_bind (TW_mono (Q := fun r _ => r = VINITIAL) ?_ ?_)
  · refine TW_bind (TW_of (noHalt_do1 _) (W_len hnext ?_))
    rw [hlen]
    refine TW_bind (TW_mono (Q := fun p _ => p = .returned VINITIAL) (TW_of (noHalt_gprobe _ _ _ _ _ (by omega)) ?_) ?_)
    · refine W_loop (I := fun (x : Nat × Nat) s' => s' = v ∧ x.1 = probeSlot hash k L x.2 ∧ x.2 ≤ d) ?_ N _ _
        ⟨rfl, probeSlot_zero hpow k, Nat.zero_le _⟩
      rintro ⟨i, e⟩ s0 ⟨rfl, hi, he⟩
      simp only at hi he
      subst hi
      have hlt' : probeSlot hash k L e < L := by
        obtain ⟨p, -, rfl⟩ := hpow; exact Nat.mod_lt _ (by positivity)
      have hlt : probeSlot hash k L e < (s0.tab 0).len := by rw [hlen]; exact hlt'
      refine W_bind' (W_tableKey hnext hlt ?_)
      refine W_bind' (W_tableValue hnext hlt ?_)
      split
      · exact W_pure rfl
      · next hK =>
        have he' : e < d := by
          rcases Nat.lt_or_eq_of_le he with h | rfl
          · exact h
          · exact absurd hd hK
        refine W_bind' (W_getNew hnext ?_)
        rw [if_neg (hmiss e he'), hnew]
        split
        · exact W_pure rfl
        · exact W_pure ⟨rfl, probeSlot_succ hpow k e, he'⟩
    · rintro _ s1 rfl
      exact TW_pure rfl
  · rintro _ s1 rfl
    refine TW_bind (TW_of (noHalt_do1 _) (W_check ?_ (TW_pure rfl)))
    decide

theorem BlockedAt.getIs {m : Mem} {k : Word} (h : BlockedAt hash (abs m) L k) : GetIs hash L k VINITIAL m := by
  intro N hN
  obtain ⟨r, m1, h1, rfl⟩ := h.get hN m rfl
  exact ⟨m1, h1⟩

/-- What `get` finds at a moment of the execution: the value word of the key's slot. -/
theorem own_finds (hF : Shared hash n s F L) (h0 : ∀ t, OwnThr hash n s F L own t [] (s.thr t)) (hinit : Begun hash n s L)
    {xs : List Sched} (hp : xs <+: F) {k : Word}
    (hk : k ≠ KINITIAL) {i : Nat} (hi : i < L) (he : clean ((s.exec hash n xs).mem.word (.key 0 i)) = k) :
    FindsAt hash (abs (s.exec hash n xs).mem) L k (clean ((s.exec hash n xs).mem.word (.val 0 i))) := by
  obtain ⟨-, d, h1, h2, h3⟩ := own_path hF h0 hinit hp i hi (by rw [he]; exact hk)
  rw [he] at h2 h3
  subst h2
  refine ⟨hF.pow, hF.root xs hp, hF.next xs hp, hF.len xs hp, hF.newT xs hp, hk, hF.mig xs hp _ hi, d, h1, he, rfl, ?_⟩
  intro e he'
  exact ⟨(h3 e he').1, (own_path hF h0 hinit hp _ (hF.slot_lt k e) (h3 e he').1).1, (h3 e he').2⟩

theorem own_misses (hF : Shared hash n s F L) {xs : List Sched} (hp : xs <+: F) {k : Word}
    (he : ∀ i, i < L → clean ((s.exec hash n xs).mem.word (.key 0 i)) ≠ k) : MissesAt hash (abs (s.exec hash n xs).mem) L k :=
  ⟨hF.pow, hF.root xs hp, hF.next xs hp, hF.len xs hp, hF.newT xs hp, he⟩

/-- A slot without a key has no value, so `get` finds what its value word says as soon as no other slot has the key. -/
theorem own_getIs (hF : Shared hash n s F L) (h0 : ∀ t, OwnThr hash n s F L own t [] (s.thr t)) (hinit : Begun hash n s L)
    {xs ys : List Sched} (hp : xs <+: F) (hy : ys <+: xs) {k : Word}
    (hk : k ≠ KINITIAL) {i : Nat} (hi : i < L) (he : clean ((s.exec hash n xs).mem.word (.key 0 i)) = k) :
    GetIs hash L k (gotWord (clean ((s.exec hash n ys).mem.word (.val 0 i)))) (s.exec hash n ys).mem := by
  have hyF := hy.trans hp
  by_cases h : clean ((s.exec hash n ys).mem.word (.key 0 i)) = KINITIAL
  · rw [hF.empty ys hyF i hi h]
    refine (own_misses hF hyF fun j hj e => ?_).getIs
    have e' := hF.key ys xs hy hp j hj (by rw [e]; exact hk)
    rw [e] at e'
    have := own_unique hF h0 hinit hp hk hi hj he e'
    subst this
    exact hk (e.symm.trans h)
  · have e := hF.key ys xs hy hp i hi h
    exact (own_finds hF h0 hinit hyF hk hi (by rw [← e, he])).getIs

/-- The key in the file is the one in memory, or there is none yet. -/
theorem own_nvK (hF : Shared hash n s F L) (hinit : Begun hash n s L) {xs : List Sched} (hp : xs <+: F) {i : Nat} (hi : i < L) :
    clean ((s.exec hash n xs).mem.nv (.key 0 i)) = KINITIAL ∨
      clean ((s.exec hash n xs).mem.nv (.key 0 i)) = clean ((s.exec hash n xs).mem.word (.key 0 i)) := by
  induction xs using List.reverseRecOn with
  | nil => exact .inr (hinit.nvK i hi)
  | append_singleton xs x ih =>
    have hxs : xs <+: F := (List.prefix_append ..).trans hp
    rcases step_nv (hash := hash) (n := n) (s.exec hash n xs) x (.key 0 i) with h | h
    · rw [exec_snoc, h, ← exec_snoc]
      rcases ih hxs with h | h
      · exact .inl h
      · by_cases e : clean ((s.exec hash n xs).mem.word (.key 0 i)) = KINITIAL
        · exact .inl (h.trans e)
        · right; rw [h, hF.key xs _ (List.prefix_append ..) hp i hi e]
    · right; rw [exec_snoc, h]

/-- After the restart `get` finds what it would have found, or what it would have found before the last change of the key. -/
theorem owned_restart (hF : Shared hash n s F L) (h0 : ∀ t, OwnThr hash n s F L own t [] (s.thr t)) (hinit : Begun hash n s L)
    {k : Word} (hk : k ≠ KINITIAL) :
    ∃ m w' w, restart (s.exec hash n F).mem (s.exec hash n F).mem.nv = .done () m ∧ GetIs hash L k w' m ∧
      GetIs hash L k w (s.exec hash n F).mem ∧
      (w' = w ∨ ∃ ys x, ys ++ [x] <+: F ∧ GetIs hash L k w' (s.exec hash n ys).mem ∧
        ∀ zs, ys ++ [x] <+: zs → zs <+: F → GetIs hash L k w (s.exec hash n zs).mem) := by
  have hFF := List.prefix_refl F
  obtain ⟨m, hm, hsc⟩ := openFile_spec (fileOf (s.exec hash n F).mem.nv 0 ((s.exec hash n F).mem.tab 0).len) (s.exec hash n F).mem.cap
  have hl : ((s.exec hash n F).mem.tab 0).len = L := hF.len F hFF
  rw [hl] at hm hsc
  have hr : restart (s.exec hash n F).mem (s.exec hash n F).mem.nv = .done () m := by rw [PMap.restart, hl]; exact hm
  have hnvK := fun i hi => own_nvK hF hinit hFF (i := i) hi
  have hck : ∀ i, (abs m).ck 0 i = clean ((s.exec hash n F).mem.nv (.key 0 i)) := fun i => hsc.ck i
  by_cases hex : ∃ i, i < L ∧ clean ((s.exec hash n F).mem.word (.key 0 i)) = k
  · obtain ⟨i, hi, he⟩ := hex
    have hget := fun ys (hy : ys <+: F) => own_getIs hF h0 hinit hFF hy hk hi he
    have hlast : ∀ w, LastOnly hash n s F (.val 0 i) w → gotWord w = gotWord (clean ((s.exec hash n F).mem.word (.val 0 i))) ∨
        ∃ ys x, ys ++ [x] <+: F ∧ GetIs hash L k (gotWord w) (s.exec hash n ys).mem ∧
          ∀ zs, ys ++ [x] <+: zs → zs <+: F → GetIs hash L k (gotWord (clean ((s.exec hash n F).mem.word (.val 0 i))))
            (s.exec hash n zs).mem := by
      rintro w (rfl | ⟨ys, x, g1, rfl, g3⟩)
      · exact .inl rfl
      · refine .inr ⟨ys, x, g1, hget ys ((List.prefix_append ..).trans g1), fun zs f1 f2 => ?_⟩
        rw [← g3 zs f1 f2]
        exact hget zs f2
    by_cases hin : InFile hash n s L k i F
    · -- the key is in the file, and so is its path
      obtain ⟨d, h1, h2, h3, h4⟩ := hin
      have hmig : isMig (clean ((s.exec hash n F).mem.nv (.val 0 i))) = false := by
        rcases own_val hF h0 hinit hFF hi with h | ⟨ys, x, g1, g2, -⟩
        · rw [h]; exact hF.mig F hFF i hi
        · rw [← g2]; exact hF.mig ys ((List.prefix_append ..).trans g1) i hi
      have hfix : gotWord ((fileOf (s.exec hash n F).mem.nv 0 L).fixed i) = gotWord (clean ((s.exec hash n F).mem.nv (.val 0 i))) ∧
          isMig ((fileOf (s.exec hash n F).mem.nv 0 L).fixed i) = false := by
        unfold File.fixed
        have e2 : (fileOf (s.exec hash n F).mem.nv 0 L).V i = clean ((s.exec hash n F).mem.nv (.val 0 i)) := rfl
        rw [e2]
        split
        · next h => rw [h.2]; decide
        · exact ⟨rfl, hmig⟩
      refine ⟨m, gotWord (clean ((s.exec hash n F).mem.nv (.val 0 i))), _, hr, ?_, hget F hFF,
        hlast _ (own_val hF h0 hinit hFF hi)⟩
      rw [← hfix.1]
      refine FindsAt.getIs ⟨hF.pow, hsc.root, by rw [hsc.next]; omega, hsc.len, hsc.newT, hk, hfix.2, d, h1, ?_, ?_, ?_⟩
      · rw [hck, ← h2]; exact h4.2
      · rw [hsc.cv, ← h2]; exact if_pos hi
      · intro e he'
        obtain ⟨K, f1, f2, f3, f4⟩ := h3 e he'
        rw [hck, f1.2]
        exact ⟨f2, f3, f4⟩
    · -- the key, or a slot on its path, is not in the file
      refine ⟨m, VINITIAL, _, hr, ?_, hget F hFF, ?_⟩
      · obtain ⟨-, d, h1, h2, h3⟩ := own_path hF h0 hinit hFF i hi (by rw [he]; exact hk)
        rw [he] at h2 h3
        refine BlockedAt.getIs ⟨hF.pow, hsc.root, by rw [hsc.next]; omega, hsc.len, hsc.newT, ?_⟩
        have hcut : ∃ e, e ≤ d ∧ clean ((s.exec hash n F).mem.nv (.key 0 (probeSlot hash k L e))) = KINITIAL := by
          by_contra hno
          push Not at hno
          refine hin ⟨d, h1, h2, fun e he' => ?_, he, ?_⟩
          · have := (hnvK _ (hF.slot_lt k e)).resolve_left (hno e (Nat.le_of_lt he'))
            exact ⟨_, ⟨rfl, this⟩, (h3 e he').1, (own_path hF h0 hinit hFF _ (hF.slot_lt k e) (h3 e he').1).1, (h3 e he').2⟩
          · have h := hno d (Nat.le_refl _)
            rw [← h2] at h
            rw [(hnvK i hi).resolve_left h, he]
        obtain ⟨e, hed, hce⟩ := hcut
        refine ⟨e, by rw [hck]; exact hce, fun e' he' c => ?_⟩
        rw [hck] at c
        rcases hnvK _ (hF.slot_lt k e') with h | h
        · exact hk (c.symm.trans h)
        · exact (h3 e' (by omega)).2 (h.symm.trans c)
      · have hV : gotWord VINITIAL = VINITIAL := by decide
        have := hlast _ (own_key hF h0 hinit hFF hi hk (.inr he) hin)
        rw [hV] at this
        exact this
  · push Not at hex
    refine ⟨m, VINITIAL, VINITIAL, hr, ?_, (own_misses hF hFF hex).getIs, .inl rfl⟩
    refine MissesAt.getIs ⟨hF.pow, hsc.root, by rw [hsc.next]; omega, hsc.len, hsc.newT, fun j hj e => ?_⟩
    rw [hck] at e
    rcases hnvK j hj with h | h
    · rw [h] at e; exact hk e.symm
    · exact hex j hj (h.symm.trans e)

end PMap
