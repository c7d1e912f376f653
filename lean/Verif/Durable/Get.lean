import Verif.Durable.Read
import Verif.Seq.Total

/-!
# `get` over time (proof machinery)
-/

namespace PMap

open Prog

variable {hash : Word → Word} {n : Nat} {s : Sys} {F : List Sched} {L : Nat}

/-- Slot number `d` on the way of `k` in a table of length `L`. -/
def probeSlot (hash : Word → Word) (k : Word) (L d : Nat) : Nat := (homePut hash k L + d) % L

/-- Table 0 stays the only table in use throughout the execution `F`. -/
structure StillTab (hash : Word → Word) (n : Nat) (s : Sys) (F : List Sched) (L : Nat) : Prop where
  pow : ∃ p, p ≤ 32 ∧ L = 2 ^ p
  root : ∀ ys, ys <+: F → (s.exec hash n ys).mem.root = 0
  next : ∀ ys, ys <+: F → 0 < (s.exec hash n ys).mem.next
  len : ∀ ys, ys <+: F → ((s.exec hash n ys).mem.tab 0).len = L
  newT : ∀ ys, ys <+: F → ((s.exec hash n ys).mem.tab 0).newT = none
  key : ∀ ys zs, ys <+: zs → zs <+: F → ∀ i, i < L → clean ((s.exec hash n ys).mem.word (.key 0 i)) ≠ KINITIAL →
    clean ((s.exec hash n zs).mem.word (.key 0 i)) = clean ((s.exec hash n ys).mem.word (.key 0 i))
  mig : ∀ ys, ys <+: F → ∀ i, i < L → isMig (clean ((s.exec hash n ys).mem.word (.val 0 i))) = false

/-- Moreover its words are durable when not dirty. -/
structure Still (hash : Word → Word) (n : Nat) (s : Sys) (F : List Sched) (L : Nat) : Prop extends StillTab hash n s F L where
  durK : ∀ ys, ys <+: F → ∀ i, i < L → Durable (s.exec hash n ys).mem (.key 0 i)
  durV : ∀ ys, ys <+: F → ∀ i, i < L → Durable (s.exec hash n ys).mem (.val 0 i)

theorem StillTab.slot_lt (h : StillTab hash n s F L) (k : Word) (d : Nat) : probeSlot hash k L d < L := by
  obtain ⟨p, -, rfl⟩ := h.pow
  exact Nat.mod_lt _ (by positivity)

theorem probeSlot_succ (h : ∃ p, p ≤ 32 ∧ L = 2 ^ p) (k : Word) (d : Nat) :
    (probeSlot hash k L d + 1) &&& (L - 1) = probeSlot hash k L (d + 1) := by
  rw [and_len h, probeSlot, probeSlot, Nat.mod_add_mod, Nat.add_assoc]

theorem probeSlot_zero (h : ∃ p, p ≤ 32 ∧ L = 2 ^ p) (k : Word) : homeGet hash k L = probeSlot hash k L 0 := by
  obtain ⟨p, hp, rfl⟩ := h
  obtain ⟨h1, h2⟩ := c04_same_home_slot hash k p hp
  rw [probeSlot, h1, h2, Nat.add_zero, Nat.mod_mod]

/-- The key is in memory and in the file. -/
def KeySafe (hash : Word → Word) (n : Nat) (s : Sys) (i : Nat) (K : Word) (xs : List Sched) : Prop :=
  clean ((s.exec hash n xs).mem.word (.key 0 i)) = K ∧ clean ((s.exec hash n xs).mem.nv (.key 0 i)) = K

theorem KeySafe.later (hF : Still hash n s F L) {i : Nat} (hi : i < L) {K : Word} (hK : K ≠ KINITIAL) {xs ys : List Sched}
    (h : KeySafe hash n s i K xs) (hp : xs <+: ys) (hy : ys <+: F) : KeySafe hash n s i K ys := by
  obtain ⟨l, rfl⟩ := hp
  induction l using List.reverseRecOn with
  | nil => rw [List.append_nil]; exact h
  | append_singleton l x ih =>
    rw [← List.append_assoc] at hy ⊢
    have h1 := ih ((List.prefix_append ..).trans hy)
    have h2 := hF.key (xs ++ l) (xs ++ l ++ [x]) (List.prefix_append ..) hy i hi (by rw [h1.1]; exact hK)
    rw [h1.1] at h2
    refine ⟨h2, ?_⟩
    rcases step_nv (hash := hash) (n := n) (s.exec hash n (xs ++ l)) x (.key 0 i) with h3 | h3
    · rw [exec_snoc, h3]; exact h1.2
    · rw [exec_snoc, h3, ← exec_snoc]; exact h2

theorem Seen.keySafe (hF : Still hash n s F L) {i : Nat} (hi : i < L) {K : Word} (hK : K ≠ KINITIAL) {x0 xs : List Sched}
    (h : Seen hash n s x0 (.key 0 i) K xs) (hx : xs <+: F) : KeySafe hash n s i K xs := by
  obtain ⟨ys, zs, -, h1, h2, -, h4, h5⟩ := h
  have h6 := hF.key ys zs h1 (h2.trans hx) i hi (by rw [h4]; exact hK)
  have h7 := hF.key ys xs (h1.trans h2) hx i hi (by rw [h4]; exact hK)
  exact ⟨h7.trans h4, h5.trans (h6.trans h4)⟩

/-- The way to `k`: `d` slots with other keys. -/
def WayTo (hash : Word → Word) (n : Nat) (s : Sys) (L : Nat) (k : Word) (d : Nat) (xs : List Sched) : Prop :=
  ∀ e, e < d → ∃ K, KeySafe hash n s (probeSlot hash k L e) K xs ∧ K ≠ KINITIAL ∧ K ≠ KTOMBSTONE ∧ K ≠ k

theorem WayTo.later (hF : Still hash n s F L) {k : Word} {d : Nat} {xs ys : List Sched} (h : WayTo hash n s L k d xs)
    (hp : xs <+: ys) (hy : ys <+: F) : WayTo hash n s L k d ys := fun e he =>
  let ⟨K, h1, h2, h3, h4⟩ := h e he
  ⟨K, h1.later hF (hF.slot_lt k e) h2 hp hy, h2, h3, h4⟩

/-- What `get` makes of a value word. -/
def gotWord (V : Word) : Word := if V = VTOMBSTONE then VINITIAL else V

/-- What a `get` that began at `x0` has seen. -/
def GetSeen (hash : Word → Word) (n : Nat) (s : Sys) (L : Nat) (x0 : List Sched) (k w : Word) (xs : List Sched) : Prop :=
  ∃ x1 d V, x0 <+: x1 ∧ d < reprobeLimit L ∧ k ≠ KINITIAL ∧ WayTo hash n s L k d x1 ∧
    KeySafe hash n s (probeSlot hash k L d) k x1 ∧ Seen hash n s x1 (.val 0 (probeSlot hash k L d)) V xs ∧ w = gotWord V

theorem GetSeen.later {x0 : List Sched} {k w : Word} {xs ys : List Sched} (h : GetSeen hash n s L x0 k w xs) (hp : xs <+: ys) :
    GetSeen hash n s L x0 k w ys :=
  let ⟨x1, d, V, h0, h1, h2, h3, h4, h5, h6⟩ := h
  ⟨x1, d, V, h0, h1, h2, h3, h4, h5.later hp, h6⟩

theorem twp_gprobe (hF : Still hash n s F L) (k : Word) (N : Nat) {x0 : List Sched} (hx : x0 <+: F) :
    twp hash n s F (fun p ys => ∃ w, p = .returned w ∧ (w = VINITIAL ∨ GetSeen hash n s L x0 k w ys))
      (loop N (getProbeBody 0 k L) (homeGet hash k L, 0)) x0 := by
  refine twp_loop (fun (x : Nat × Nat) xs => x0 <+: xs ∧ xs <+: F ∧ x.1 = probeSlot hash k L x.2 ∧ x.2 < reprobeLimit L ∧
    WayTo hash n s L k x.2 xs) ?_ N _ _
    ⟨List.prefix_refl _, hx, probeSlot_zero hF.pow k, by simp [reprobeLimit, REPROBE_LIMIT], fun e he => by simp at he⟩
  rintro ⟨i, d⟩ xs ⟨h0, h1, h2, h3, h4⟩
  simp only at h2 h3 h4
  subst h2
  have hi := hF.slot_lt k d
  refine twp_bind' (twp_mono (twp_pcasRead fun ys hy => hF.durK ys hy _ hi) ?_)
  rintro K x1 ⟨g1, g2, g3⟩
  refine twp_bind' (twp_mono (twp_pcasRead fun ys hy => hF.durV ys hy _ hi) ?_)
  rintro V x2 ⟨g4, g5, g6⟩
  split
  · exact twp_pure ⟨_, rfl, .inl rfl⟩
  · next hK =>
    have hkey := g3.keySafe hF hi hK g2
    have hway := h4.later hF g1 g2
    refine twp_bind' (twp_do1 fun x3 x r m' g7 g8 g9 g10 => ?_)
    have hx3 : x3 <+: F := (List.prefix_append ..).trans g8
    have hr : r = none := by
      simp only [Act.exec] at g9
      split at g9
      · cases g9; exact hF.newT x3 hx3
      · cases g9
    subst hr
    have hgo : x1 <+: x3 ++ [x] := (g4.trans g7).trans (List.prefix_append ..)
    split
    · next hk =>
      subst hk
      have hm : isMig V = false := by
        obtain ⟨ys, zs, -, f2, f3, -, f5, -⟩ := g6
        rw [← f5]; exact hF.mig ys ((f2.trans f3).trans g5) _ hi
      rw [hm]
      exact twp_pure ⟨_, rfl, .inr ⟨x1, d, V, h0.trans g1, h3, hK, hway, hkey,
        g6.later (g7.trans (List.prefix_append ..)), rfl⟩⟩
    · next hk =>
      split
      · exact twp_pure ⟨_, rfl, .inl rfl⟩
      · next hl =>
        push Not at hl
        refine twp_pure ⟨(h0.trans g1).trans hgo, g8, probeSlot_succ hF.pow k d, hl.1, ?_⟩
        intro e he
        rcases Nat.lt_succ_iff_lt_or_eq.mp he with he | rfl
        · exact hway.later hF hgo g8 e he
        · exact ⟨K, hkey.later hF hi hK hgo g8, hK, hl.2, hk⟩

/-- What a `get` returns, if it returns a value, it has seen. -/
theorem twp_mapGet (hF : Still hash n s F L) (k : Word) (N : Nat) (x0 : List Sched) :
    twp hash n s F (fun w ys => w = VINITIAL ∨ GetSeen hash n s L x0 k w ys) (mapGet hash N k) x0 := by
  refine twp_bind' (twp_do1 fun x1 x r m' g1 g2 g3 g4 => ?_)
  have hr : r = 0 := by
    cases g3; exact hF.root x1 ((List.prefix_append ..).trans g2)
  subst hr
  refine twp_bind' (twp_mono (Q := fun w ys => w = VINITIAL ∨ GetSeen hash n s L x0 k w ys) ?_ ?_)
  · cases N with
    | zero => trivial
    | succ N =>
      refine twp_bind' (twp_do1 fun x2 y r m' f1 f2 f3 f4 => ?_)
      have hr : r = L := by
        simp only [Act.exec] at f3
        split at f3
        · cases f3; exact hF.len x2 ((List.prefix_append ..).trans f2)
        · cases f3
      subst hr
      refine twp_bind' (twp_mono (twp_gprobe hF k N f2) ?_)
      rintro _ ys ⟨w, rfl, h⟩
      refine twp_pure (h.imp_right ?_)
      rintro ⟨z, d, V, h0, h⟩
      exact ⟨z, d, V, (((g1.trans (List.prefix_append ..)).trans f1).trans (List.prefix_append ..)).trans h0, h⟩
  · intro w ys h
    refine twp_bind' (twp_do1 fun zs x r m' f1 f2 f3 f4 => ?_)
    exact twp_pure (h.imp_right fun h => h.later (f1.trans (List.prefix_append ..)))

theorem twp_later {α : Type} {Q : α → List Sched → Prop} (hq : ∀ a ys zs, Q a ys → ys <+: zs → Q a zs) {p : Prog α}
    {xs ys : List Sched} (h : twp hash n s F Q p xs) (hp : xs <+: ys) : twp hash n s F Q p ys := by
  cases p with
  | ret a => exact hq a xs ys h hp
  | halt x => trivial
  | act a k => exact fun zs x r m' h1 h2 h3 h4 => h zs x r m' (hp.trans h1) h2 h3 h4

/-! ## What a `get` running alone returns -/

/-- `k` is in table 0 with the value word `V`, and nothing is being migrated. -/
structure FindsAt (hash : Word → Word) (v : A) (L : Nat) (k V : Word) : Prop where
  pow : ∃ p, p ≤ 32 ∧ L = 2 ^ p
  root : v.root = 0
  next : 0 < v.next
  len : (v.tab 0).len = L
  newT : (v.tab 0).newT = none
  ne : k ≠ KINITIAL
  mig : isMig V = false
  way : ∃ d, d < reprobeLimit L ∧ v.ck 0 (probeSlot hash k L d) = k ∧ v.cv 0 (probeSlot hash k L d) = V ∧
    ∀ e, e < d → v.ck 0 (probeSlot hash k L e) ≠ KINITIAL ∧ v.ck 0 (probeSlot hash k L e) ≠ KTOMBSTONE ∧
      v.ck 0 (probeSlot hash k L e) ≠ k

theorem isMig_gotWord {V : Word} (h : isMig V = false) : isMig (gotWord V) = false := by
  unfold gotWord; split
  · decide
  · exact h

theorem FindsAt.get {v : A} {k V : Word} (h : FindsAt hash v L k V) {N : Nat} (hN : reprobeLimit L + 1 < N) :
    TW (mapGet hash N k) (fun r _ => r = gotWord V) v := by
  obtain ⟨hpow, hroot, hnext, hlen, hnew, hne, hmig, d, hd, hk, hv, hw⟩ := h
  obtain ⟨N, rfl⟩ : ∃ j, N = j + 1 := ⟨N - 1, by omega⟩
  refine TW_bind (TW_of (noHalt_do1 _) (W_getRoot ?_))
  rw [hroot]
  refine TW_bind (TW_mono (Q := fun r _ => r = gotWord V) ?_ ?_)
  · refine TW_bind (TW_of (noHalt_do1 _) (W_len hnext ?_))
    rw [hlen]
    refine TW_bind (TW_mono (Q := fun p _ => p = .returned (gotWord V)) (TW_of (noHalt_gprobe _ _ _ _ _ (by omega)) ?_) ?_)
    · refine W_loop (I := fun (x : Nat × Nat) s' => s' = v ∧ x.1 = probeSlot hash k L x.2 ∧ x.2 ≤ d) ?_ N _ _
        ⟨rfl, probeSlot_zero hpow k, Nat.zero_le _⟩
      rintro ⟨i, e⟩ s0 ⟨rfl, hi, he⟩
      simp only at hi he
      subst hi
      have hlt : probeSlot hash k L e < (s0.tab 0).len := by
        rw [hlen]; obtain ⟨p, -, rfl⟩ := hpow; exact Nat.mod_lt _ (by positivity)
      refine W_bind' (W_tableKey hnext hlt ?_)
      refine W_bind' (W_tableValue hnext hlt ?_)
      rcases Nat.lt_or_eq_of_le he with he' | rfl
      · obtain ⟨h1, h2, h3⟩ := hw e he'
        rw [if_neg h1]
        refine W_bind' (W_getNew hnext ?_)
        rw [if_neg h3, if_neg (by push Not; exact ⟨by omega, h2⟩)]
        exact W_pure ⟨rfl, probeSlot_succ hpow k e, he'⟩
      · rw [hk, hv, if_neg hne]
        refine W_bind' (W_getNew hnext ?_)
        rw [if_pos rfl, if_neg (by rw [hmig]; decide)]
        exact W_pure rfl
    · rintro _ s1 rfl
      exact TW_pure rfl
  · rintro _ s1 rfl
    refine TW_bind (TW_of (noHalt_do1 _) (W_check ?_ (TW_pure rfl)))
    simp [isMig_gotWord hmig]

/-- After a restart `get` returns what was in the map at a moment not before the one at which the read saw its value. -/
theorem GetSeen.restart (hF : Still hash n s F L) {x0 xr : List Sched} {k w : Word} (h : GetSeen hash n s L x0 k w xr)
    (hxr : xr <+: F) :
    ∃ y0 zs w' m, x0 <+: y0 ∧ y0 <+: xr ∧ y0 <+: zs ∧ zs <+: F ∧
      restart (s.exec hash n F).mem (s.exec hash n F).mem.nv = .done () m ∧
      (∀ N, reprobeLimit L + 1 < N → ∃ m1, run (mapGet hash N k) m = .done w' m1) ∧
      (∀ N, reprobeLimit L + 1 < N → ∃ m1, run (mapGet hash N k) (s.exec hash n zs).mem = .done w' m1) ∧
      ∀ N, reprobeLimit L + 1 < N → ∃ m1, run (mapGet hash N k) (s.exec hash n y0).mem = .done w m1 := by
  obtain ⟨x1, d, V, h0, hd, hk, hway, hkey, ⟨y0, z0, q1, q2, q3, q4, rfl, q6⟩, rfl⟩ := h
  have hy0 : y0 <+: F := (q2.trans q3).trans hxr
  obtain ⟨ys, zs, g1, g2, g3, -, -, g6⟩ := Seen.later ⟨y0, z0, List.prefix_refl y0, q2, q3, q4, rfl, q6⟩ hxr
  have hmg := hF.mig zs g3 _ (hF.slot_lt k d)
  have hx1 : x1 <+: zs := (q1.trans g1).trans g2
  have hx1F : x1 <+: F := hx1.trans g3
  have hfind : ∀ zs, x1 <+: zs → zs <+: F → FindsAt hash (abs (s.exec hash n zs).mem) L k
      (clean ((s.exec hash n zs).mem.word (.val 0 (probeSlot hash k L d)))) := by
    intro zs hx1 g3
    refine ⟨hF.pow, hF.root zs g3, hF.next zs g3, hF.len zs g3, hF.newT zs g3, hk, hF.mig zs g3 _ (hF.slot_lt k d), d, hd, ?_,
      rfl, ?_⟩
    · exact (hkey.later hF (hF.slot_lt k d) hk hx1 g3).1
    · intro e he
      obtain ⟨K, f1, f2, f3, f4⟩ := hway.later hF hx1 g3 e he
      rw [show (abs (s.exec hash n zs).mem).ck 0 (probeSlot hash k L e) = K from f1.1]
      exact ⟨f2, f3, f4⟩
  obtain ⟨m, hm, hsc⟩ := openFile_spec (fileOf (s.exec hash n F).mem.nv 0 ((s.exec hash n F).mem.tab 0).len) (s.exec hash n F).mem.cap
  have hl : ((s.exec hash n F).mem.tab 0).len = L := hF.len F (List.prefix_refl _)
  rw [hl] at hm hsc
  have hkF := (hkey.later hF (hF.slot_lt k d) hk hx1F (List.prefix_refl _)).2
  have hfix : gotWord ((fileOf (s.exec hash n F).mem.nv 0 L).fixed (probeSlot hash k L d)) =
      gotWord (clean ((s.exec hash n zs).mem.word (.val 0 (probeSlot hash k L d)))) ∧
      isMig ((fileOf (s.exec hash n F).mem.nv 0 L).fixed (probeSlot hash k L d)) = false := by
    rw [← g6] at hmg ⊢
    unfold File.fixed
    have e2 : (fileOf (s.exec hash n F).mem.nv 0 L).V (probeSlot hash k L d) =
      clean ((s.exec hash n F).mem.nv (.val 0 (probeSlot hash k L d))) := rfl
    rw [e2]
    split
    · next h => rw [h.2]; decide
    · exact ⟨rfl, hmg⟩
  have hr : FindsAt hash (abs m) L k ((fileOf (s.exec hash n F).mem.nv 0 L).fixed (probeSlot hash k L d)) := by
    refine ⟨hF.pow, hsc.root, by rw [hsc.next]; omega, hsc.len, hsc.newT, hk, hfix.2, d, hd, ?_, ?_, ?_⟩
    · rw [hsc.ck]; exact hkF
    · rw [hsc.cv]; exact if_pos (hF.slot_lt k d)
    · intro e he
      obtain ⟨K, f1, f2, f3, f4⟩ := hway.later hF hx1F (List.prefix_refl _) e he
      rw [hsc.ck, show (fileOf (s.exec hash n F).mem.nv 0 L).K (probeSlot hash k L e) = K from f1.2]
      exact ⟨f2, f3, f4⟩
  refine ⟨y0, zs, gotWord ((fileOf (s.exec hash n F).mem.nv 0 L).fixed (probeSlot hash k L d)), m, h0.trans q1, q2.trans q3,
    g1.trans g2, g3, by rw [PMap.restart, hl]; exact hm, fun N hN => ?_, fun N hN => ?_, fun N hN => ?_⟩
  · obtain ⟨r, m1, h1, rfl⟩ := hr.get hN m rfl
    exact ⟨m1, h1⟩
  · obtain ⟨r, m1, h1, rfl⟩ := (hfind zs hx1 g3).get hN _ rfl
    exact ⟨m1, by rw [h1, hfix.1]⟩
  · obtain ⟨r, m1, h1, rfl⟩ := (hfind y0 q1 hy0).get hN _ rfl
    exact ⟨m1, h1⟩

/-! ## Calls of `get` in a history -/

/-- What is known about a call of `get` by `t`, made as the last event of `h0`. -/
def CallAt (hash : Word → Word) (n : Nat) (s : Sys) (t : Nat) (k : Word) (h1 : List Event) (x0 : List Sched) : Prop :=
  ∃ h0 h', h1 = h0 ++ .inv t (.get k) :: h' ∧ (∀ e ∈ h', e.tid ≠ t) ∧ (s.exec hash n x0).hist = h0 ++ [.inv t (.get k)]

/-- The invariant of the system. -/
structure GetsOK (hash : Word → Word) (n : Nat) (s : Sys) (F : List Sched) (L : Nat) (xs : List Sched) : Prop where
  thr : ∀ t k p todo, (s.exec hash n xs).thr t = .busy (.get k) p todo → ∃ x0, x0 <+: xs ∧
    CallAt hash n s t k (s.exec hash n xs).hist x0 ∧
    twp hash n s F (fun r ys => ∃ w, r = .word w ∧ (w = VINITIAL ∨ GetSeen hash n s L x0 k w ys)) p xs
  res : ∀ t k w h1 h2, (s.exec hash n xs).hist = h1 ++ .res t (.get k) (.word w) :: h2 → w ≠ VINITIAL →
    ∃ x0 xr, xr <+: xs ∧ (s.exec hash n xr).hist = h1 ∧ CallAt hash n s t k h1 x0 ∧ GetSeen hash n s L x0 k w xr

theorem CallAt.snoc {t : Nat} {k : Word} {h1 : List Event} {x0 : List Sched} (h : CallAt hash n s t k h1 x0) {e : Event}
    (he : e.tid ≠ t) : CallAt hash n s t k (h1 ++ [e]) x0 := by
  obtain ⟨h0, h', rfl, g1, g2⟩ := h
  refine ⟨h0, h' ++ [e], by simp, ?_, g2⟩
  intro x hx
  rcases List.mem_append.mp hx with hx | hx
  · exact g1 x hx
  · rw [List.mem_singleton.mp hx]; exact he

theorem snoc_split {α : Type} {l h1 h2 : List α} {e x : α} (h : l ++ [e] = h1 ++ x :: h2) :
    (h1 = l ∧ h2 = [] ∧ x = e) ∨ ∃ h2', h2 = h2' ++ [e] ∧ l = h1 ++ x :: h2' := by
  rcases List.eq_nil_or_concat h2 with rfl | ⟨h2', y, rfl⟩
  · have h3 := List.append_inj_right' h rfl
    simp only [List.cons.injEq, and_true] at h3
    exact .inl ⟨(List.append_inj_left' h rfl).symm, rfl, h3.symm⟩
  · right
    have h4 : l ++ [e] = (h1 ++ x :: h2') ++ [y] := by rw [h]; simp
    have h5 := List.append_inj_right' h4 rfl
    have h6 := List.append_inj_left' h4 rfl
    simp only [List.cons.injEq, and_true] at h5
    exact ⟨h2', by rw [h5]; simp, h6⟩

theorem getsOK_step (hF : Still hash n s F L) {xs : List Sched} {x : Sched} (hx : xs ++ [x] <+: F) (h : GetsOK hash n s F L xs) :
    GetsOK hash n s F L (xs ++ [x]) := by
  have hq : ∀ (x0 : List Sched) (k : Word) (r : Res) (ys zs : List Sched),
      (∃ w, r = .word w ∧ (w = VINITIAL ∨ GetSeen hash n s L x0 k w ys)) → ys <+: zs →
      (∃ w, r = .word w ∧ (w = VINITIAL ∨ GetSeen hash n s L x0 k w zs)) := by
    rintro x0 k r ys zs ⟨w, h1, h2⟩ hp
    exact ⟨w, h1, h2.imp_right fun h => h.later hp⟩
  have hp : xs <+: xs ++ [x] := List.prefix_append ..
  -- nothing visible happened
  have hsame : (∀ t, (s.exec hash n (xs ++ [x])).thr t = (s.exec hash n xs).thr t) →
      (s.exec hash n (xs ++ [x])).hist = (s.exec hash n xs).hist → GetsOK hash n s F L (xs ++ [x]) := by
    intro h1 h2
    constructor
    · intro t k p todo ht
      rw [h1] at ht
      obtain ⟨x0, g1, g2, g3⟩ := h.thr t k p todo ht
      exact ⟨x0, g1.trans hp, by rw [h2]; exact g2, twp_later (hq x0 k) g3 hp⟩
    · intro t k w l1 l2 hl hw
      rw [h2] at hl
      obtain ⟨x0, xr, g1, g⟩ := h.res t k w l1 l2 hl hw
      exact ⟨x0, xr, g1.trans hp, g⟩
  -- one event of thread `tid`
  have hev : ∀ (tid : Nat) (e : Event), e.tid = tid → (∀ t, t ≠ tid → (s.exec hash n (xs ++ [x])).thr t = (s.exec hash n xs).thr t) →
      (s.exec hash n (xs ++ [x])).hist = (s.exec hash n xs).hist ++ [e] →
      (∀ k p todo, (s.exec hash n (xs ++ [x])).thr tid = .busy (.get k) p todo → ∃ x0, x0 <+: xs ++ [x] ∧
        CallAt hash n s tid k ((s.exec hash n xs).hist ++ [e]) x0 ∧
        twp hash n s F (fun r ys => ∃ w, r = .word w ∧ (w = VINITIAL ∨ GetSeen hash n s L x0 k w ys)) p (xs ++ [x])) →
      (∀ k w, e = .res tid (.get k) (.word w) → w ≠ VINITIAL → ∃ x0, x0 <+: xs ∧ CallAt hash n s tid k (s.exec hash n xs).hist x0 ∧
        GetSeen hash n s L x0 k w xs) → GetsOK hash n s F L (xs ++ [x]) := by
    intro tid e he h1 h2 h3 h4
    constructor
    · intro t k p todo ht
      by_cases e' : t = tid
      · subst e'; rw [h2]; exact h3 k p todo ht
      · rw [h1 t e'] at ht
        obtain ⟨x0, g1, g2, g3⟩ := h.thr t k p todo ht
        exact ⟨x0, g1.trans hp, by rw [h2]; exact g2.snoc (by rw [he]; exact fun h => e' h.symm), twp_later (hq x0 k) g3 hp⟩
    · intro t k w l1 l2 hl hw
      rw [h2] at hl
      rcases snoc_split hl with ⟨rfl, -, e'⟩ | ⟨l2', -, e'⟩
      · have : t = tid := by rw [← he, ← e']; rfl
        subst this
        obtain ⟨x0, g1, g2, g3⟩ := h4 k w e'.symm hw
        exact ⟨x0, xs, hp, rfl, g2, g3⟩
      · obtain ⟨x0, xr, g1, g⟩ := h.res t k w l1 l2' e' hw
        exact ⟨x0, xr, g1.trans hp, g⟩
  cases x with
  | evict t i => exact hsame (fun _ => by rw [exec_snoc]; rfl) (by rw [exec_snoc]; rfl)
  | run tid =>
    have hstep := exec_snoc (hash := hash) (n := n) (s := s) xs (.run tid)
    rw [Sys.step] at hstep
    split at hstep
    · exact hsame (fun _ => by rw [hstep]) (by rw [hstep])
    · next op todo hthr =>
      refine hev tid (.inv tid op) rfl (fun t ht => by rw [hstep]; exact upd_ne ht) (by rw [hstep]) ?_ (fun k w e => by cases e)
      intro k p todo' ht
      rw [hstep] at ht
      simp only [upd_same] at ht
      cases ht
      refine ⟨xs ++ [.run tid], List.prefix_refl _, ⟨_, [], rfl, by simp, by rw [hstep]⟩, ?_⟩
      refine twp_bind' (twp_mono (twp_mapGet hF k n _) ?_)
      exact fun w ys h => twp_pure ⟨w, rfl, h⟩
    · exact hsame (fun _ => by rw [hstep]) (by rw [hstep])
    · exact hsame (fun _ => by rw [hstep]) (by rw [hstep])
    · next op r todo hthr =>
      refine hev tid (.res tid op r) rfl (fun t ht => by rw [hstep]; exact upd_ne ht) (by rw [hstep]) ?_ ?_
      · intro k p todo' ht
        rw [hstep] at ht
        simp only [upd_same] at ht
        cases ht
      · intro k w e hw
        cases e
        obtain ⟨x0, g1, g2, w', e, g3⟩ := h.thr tid k _ _ hthr
        cases e
        exact ⟨x0, g1, g2, g3.resolve_left hw⟩
    · next op a k todo hthr =>
      split at hstep
      · exact hsame (fun _ => by rw [hstep]) (by rw [hstep])
      · next r m' he =>
        constructor
        · intro t k' p todo' ht
          rw [hstep] at ht ⊢
          by_cases e : t = tid
          · subst e
            simp only [upd_same] at ht
            cases ht
            obtain ⟨x0, g1, g2, g3⟩ := h.thr t k' _ _ hthr
            exact ⟨x0, g1.trans hp, g2, g3 xs _ r m' (List.prefix_refl _) hx he (by rw [hstep])⟩
          · simp only [upd_ne e] at ht
            obtain ⟨x0, g1, g2, g3⟩ := h.thr t k' _ _ ht
            exact ⟨x0, g1.trans hp, g2, twp_later (hq x0 k') g3 hp⟩
        · intro t k' w l1 l2 hl hw
          rw [hstep] at hl
          obtain ⟨x0, xr, g1, g⟩ := h.res t k' w l1 l2 hl hw
          exact ⟨x0, xr, g1.trans hp, g⟩

theorem getsOK (hF : Still hash n s F L) (h0 : GetsOK hash n s F L []) {xs : List Sched} (hx : xs <+: F) :
    GetsOK hash n s F L xs := by
  induction xs using List.reverseRecOn with
  | nil => exact h0
  | append_singleton xs x ih => exact getsOK_step hF hx (ih ((List.prefix_append ..).trans hx))

theorem getsOK_start {m : Mem} {calls : Nat → List Op} : GetsOK hash n (Sys.start m calls) F L [] :=
  ⟨fun t k p todo h => by simp [Sys.exec, Sys.start] at h, fun t k w h1 h2 h => by simp [Sys.exec, Sys.start] at h⟩

end PMap
