import Verif.Durable.Distinct

/-!
# What a thread running alone knows when it writes (proof machinery)

`gwp F Q p xs`: the program `p`, run from the point `xs` on within the execution `F` with nobody else changing words, makes only
compare-and-swaps that meet `Guard`; if it returns `a` at `ys`, then `Q a ys`.
-/

namespace PMap

open Prog

variable {hash : Word → Word} {n : Nat} {s : Sys} {F : List Sched} {L : Nat} {α β σ : Type}

/-- Between `xs` and `ys` no word changes. -/
structure Rests (hash : Word → Word) (n : Nat) (s : Sys) (xs ys : List Sched) : Prop where
  le : xs <+: ys
  same : ∀ zs, xs <+: zs → zs <+: ys → ∀ b, (s.exec hash n zs).mem.word b = (s.exec hash n xs).mem.word b

/-- What is known when a compare-and-swap changes a word of table 0.  A key is a caller's, and is put only where its probe path leads, past slots
whose keys are in the file.  A value is replaced only when its old content is not dirty, and either the key is in the file or
there was no value yet. -/
def Guard (hash : Word → Word) (n : Nat) (s : Sys) (L : Nat) (ys : List Sched) : Act → Prop
  | .cas (.key 0 i) e v => (s.exec hash n ys).mem.word (.key 0 i) = e → clean v ≠ clean e →
      clean v ≠ KTOMBSTONE ∧ ∃ d, d < reprobeLimit L ∧ i = probeSlot hash (clean v) L d ∧ WayTo hash n s L (clean v) d ys
  | .cas (.val 0 i) e v => (s.exec hash n ys).mem.word (.val 0 i) = e → clean v ≠ clean e →
      isDirty e = false ∧ (clean ((s.exec hash n ys).mem.nv (.key 0 i)) ≠ KINITIAL ∨ clean e = VINITIAL)
  | _ => True

/-- See the head of this file. -/
def gwp (hash : Word → Word) (n : Nat) (s : Sys) (F : List Sched) (L : Nat) (Q : α → List Sched → Prop) : Prog α → List Sched → Prop
  | .ret a, xs => Q a xs
  | .halt _, _ => True
  | .act a k, xs => ∀ ys x r m', Rests hash n s xs ys → ys ++ [x] <+: F → a.exec (s.exec hash n ys).mem = some (r, m') →
      (s.exec hash n (ys ++ [x])).mem = m' → Guard hash n s L ys a ∧ gwp hash n s F L Q (k r) (ys ++ [x])

theorem gwp_mono {Q Q' : α → List Sched → Prop} {p : Prog α} {xs : List Sched} (h : gwp hash n s F L Q p xs)
    (hq : ∀ a ys, Q a ys → Q' a ys) : gwp hash n s F L Q' p xs := by
  induction p generalizing xs with
  | ret a => exact hq _ _ h
  | halt x => trivial
  | act a k ih => exact fun ys x r m' h1 h2 h3 h4 => ⟨(h ys x r m' h1 h2 h3 h4).1, ih r (h ys x r m' h1 h2 h3 h4).2⟩

theorem gwp_bind {Q : β → List Sched → Prop} {p : Prog α} {f : α → Prog β} {xs : List Sched}
    (h : gwp hash n s F L (fun a ys => gwp hash n s F L Q (f a) ys) p xs) : gwp hash n s F L Q (p >>= f) xs := by
  show gwp hash n s F L Q (p.bind f) xs
  induction p generalizing xs with
  | ret a => exact h
  | halt x => trivial
  | act a k ih => exact fun ys x r m' h1 h2 h3 h4 => ⟨(h ys x r m' h1 h2 h3 h4).1, ih r (h ys x r m' h1 h2 h3 h4).2⟩

theorem gwp_pure {Q : α → List Sched → Prop} {a : α} {xs : List Sched} (h : Q a xs) : gwp hash n s F L Q (pure a) xs := h

/-- What the body of a loop has to establish. -/
def LoopPost (I : σ → List Sched → Prop) (Q : α → List Sched → Prop) : Ctl σ α → List Sched → Prop
  | .next x', ys => I x' ys
  | .done a, ys => Q a ys

theorem gwp_loop {body : σ → Prog (Ctl σ α)} {Q : α → List Sched → Prop} (I : σ → List Sched → Prop)
    (hb : ∀ x xs, I x xs → gwp hash n s F L (LoopPost I Q) (body x) xs)
    (k : Nat) : ∀ x xs, I x xs → gwp hash n s F L Q (loop k body x) xs := by
  induction k with
  | zero => intro x xs _; trivial
  | succ k ih =>
    intro x xs hI
    refine gwp_bind (gwp_mono (hb x xs hI) ?_)
    rintro (x' | a) ys h
    · exact ih x' ys h
    · exact h

/-- Actions that write no word. -/
def Act.plain : Act → Bool
  | .cas .. => false
  | .alloc .. => false
  | _ => true

theorem plain_word {a : Act} (ha : a.plain = true) {m m' : Mem} {r : a.Resp} (h : a.exec m = some (r, m')) : m'.word = m.word := by
  cases a <;> simp only [Act.exec] at h
  case cas => cases ha
  case alloc => cases ha
  all_goals first
    | (cases h; rfl)
    | (split at h <;> first
        | (cases h; rfl)
        | (split at h <;> (cases h; rfl))
        | cases h)

theorem plain_guard {a : Act} (ha : a.plain = true) {ys : List Sched} : Guard hash n s L ys a := by
  cases a <;> trivial

theorem gwp_do1 {a : Act} {Q : a.Resp → List Sched → Prop} {xs : List Sched}
    (h : ∀ ys x r m', Rests hash n s xs ys → ys ++ [x] <+: F → a.exec (s.exec hash n ys).mem = some (r, m') →
      (s.exec hash n (ys ++ [x])).mem = m' → Guard hash n s L ys a ∧ Q r (ys ++ [x])) : gwp hash n s F L Q (do1 a) xs := h

/-- The words at `ys` are those at `xs`. -/
structure Same (hash : Word → Word) (n : Nat) (s : Sys) (F xs ys : List Sched) : Prop where
  le : xs <+: ys
  inF : ys <+: F
  word : ∀ b, (s.exec hash n ys).mem.word b = (s.exec hash n xs).mem.word b

theorem Same.trans {xs ys zs : List Sched} (h1 : Same hash n s F xs ys) (h2 : Same hash n s F ys zs) : Same hash n s F xs zs :=
  ⟨h1.le.trans h2.le, h2.inF, fun b => (h2.word b).trans (h1.word b)⟩

theorem gwp_plain {a : Act} (ha : a.plain = true) {Q : a.Resp → List Sched → Prop} {xs : List Sched}
    (h : ∀ ys r, Same hash n s F xs ys → (∃ y0 m', y0 <+: F ∧ a.exec (s.exec hash n y0).mem = some (r, m')) → Q r ys) :
    gwp hash n s F L Q (do1 a) xs := by
  intro ys x r m' h1 h2 h3 h4
  refine ⟨plain_guard ha, h _ r ⟨h1.le.trans (List.prefix_append ..), h2, fun b => ?_⟩ ⟨ys, m', (List.prefix_append ..).trans h2, h3⟩⟩
  rw [h4, plain_word ha h3]
  exact h1.same ys h1.le (List.prefix_refl _) b

/-- A word whose durable copy is up to date stays so while it rests. -/
theorem Rests.nv {xs ys : List Sched} (h : Rests hash n s xs ys) {a : Addr}
    (h0 : clean ((s.exec hash n xs).mem.nv a) = clean ((s.exec hash n xs).mem.word a)) :
    clean ((s.exec hash n ys).mem.nv a) = clean ((s.exec hash n xs).mem.word a) := by
  obtain ⟨⟨l, rfl⟩, h2⟩ := h
  have : ∀ l', l' <+: l → clean ((s.exec hash n (xs ++ l')).mem.nv a) = clean ((s.exec hash n xs).mem.word a) := by
    intro l'
    induction l' using List.reverseRecOn with
    | nil => intro _; rw [List.append_nil]; exact h0
    | append_singleton l' x ih =>
      intro hl
      rw [← List.append_assoc]
      rcases step_nv (hash := hash) (n := n) (s.exec hash n (xs ++ l')) x a with h3 | h3
      · rw [exec_snoc, h3]; exact ih ((List.prefix_append ..).trans hl)
      · rw [exec_snoc, h3, ← exec_snoc, List.append_assoc]
        rw [h2 _ (List.prefix_append ..) ((List.prefix_append_right_inj xs).mpr hl)]
  exact this l (List.prefix_refl _)

/-- `pcas_read` at `a`: afterwards the word is clean and in the file. -/
structure Cleared (hash : Word → Word) (n : Nat) (s : Sys) (F : List Sched) (a : Addr) (xs ys : List Sched) : Prop where
  le : xs <+: ys
  inF : ys <+: F
  word : (s.exec hash n ys).mem.word a = clean ((s.exec hash n xs).mem.word a)
  rest : ∀ b, b ≠ a → (s.exec hash n ys).mem.word b = (s.exec hash n xs).mem.word b
  nv : clean ((s.exec hash n ys).mem.nv a) = clean ((s.exec hash n xs).mem.word a)

theorem Cleared.clean {a : Addr} {xs ys : List Sched} (h : Cleared hash n s F a xs ys) (b : Addr) :
    PMap.clean ((s.exec hash n ys).mem.word b) = PMap.clean ((s.exec hash n xs).mem.word b) := by
  by_cases e : b = a
  · subst e; rw [h.word, clean_clean]
  · rw [h.rest b e]

theorem Cleared.not_dirty {a : Addr} {xs ys : List Sched} (h : Cleared hash n s F a xs ys) :
    isDirty ((s.exec hash n ys).mem.word a) = false := by
  rw [h.word]; exact isDirty_clean _

theorem guard_clear {ys : List Sched} (a : Addr) (w : Word) : Guard hash n s L ys (.cas a w (clearMark w DirtyFlag)) := by
  have h : clean (clearMark w DirtyFlag) = clean w := clean_clean w
  cases a with
  | key t i =>
    cases t with
    | zero => intro _ h'; exact absurd h h'
    | succ t => trivial
  | val t i =>
    cases t with
    | zero => intro _ h'; exact absurd h h'
    | succ t => trivial

theorem gwp_pcasRead {a : Addr} {xs : List Sched} (hd : ∀ ys, ys <+: F → Durable (s.exec hash n ys).mem a) :
    gwp hash n s F L (fun w ys => w = clean ((s.exec hash n xs).mem.word a) ∧ Cleared hash n s F a xs ys) (pcasRead a) xs := by
  refine gwp_bind (gwp_do1 fun ys x r m' h1 h2 h3 h4 => ?_)
  refine ⟨trivial, ?_⟩
  have hr : r = (s.exec hash n xs).mem.word a := by
    rw [← h1.same ys h1.le (List.prefix_refl _)]
    simp only [Act.exec] at h3
    split at h3
    · cases h3; rfl
    · cases h3
  have hw1 : ∀ b, (s.exec hash n (ys ++ [x])).mem.word b = (s.exec hash n xs).mem.word b := by
    intro b
    rw [h4, plain_word (a := .load a) rfl h3]
    exact h1.same ys h1.le (List.prefix_refl _) b
  have hp1 : xs <+: ys ++ [x] := h1.le.trans (List.prefix_append ..)
  subst hr
  split
  · refine gwp_bind (gwp_bind (gwp_do1 fun zs y r m' g1 g2 g3 g4 => ?_))
    refine ⟨trivial, ?_⟩
    have hw2 : ∀ b, (s.exec hash n (zs ++ [y])).mem.word b = (s.exec hash n xs).mem.word b := by
      intro b
      rw [g4, plain_word (a := .flush a) rfl g3, g1.same zs g1.le (List.prefix_refl _), hw1]
    have hnv : clean ((s.exec hash n (zs ++ [y])).mem.nv a) = clean ((s.exec hash n (zs ++ [y])).mem.word a) := by
      rw [g4]
      simp only [Act.exec] at g3
      split at g3
      · cases g3; simp [writeBack]
      · cases g3
    refine gwp_bind (gwp_do1 fun us u r m' k1 k2 k3 k4 => ?_)
    refine ⟨trivial, ?_⟩
    have hw3 : ∀ b, (s.exec hash n (us ++ [u])).mem.word b = (s.exec hash n xs).mem.word b := by
      intro b
      rw [k4, plain_word (a := .fence) rfl k3, k1.same us k1.le (List.prefix_refl _), hw2]
    have hnv3 : clean ((s.exec hash n (us ++ [u])).mem.nv a) = clean ((s.exec hash n (us ++ [u])).mem.word a) := by
      have := k1.nv hnv
      rw [hw3, ← hw2, ← this, k4]
      cases k3; rfl
    refine gwp_bind (gwp_do1 fun vs v r m' l1 l2 l3 l4 => ?_)
    refine ⟨guard_clear a _, gwp_pure (gwp_pure ⟨rfl, ?_⟩)⟩
    have hwv : ∀ b, (s.exec hash n vs).mem.word b = (s.exec hash n xs).mem.word b := fun b => by
      rw [l1.same vs l1.le (List.prefix_refl _), hw3]
    have hnvv := l1.nv hnv3
    simp only [Act.exec] at l3
    split at l3
    · rw [if_pos (hwv a)] at l3
      cases l3
      refine ⟨?_, l2, ?_, ?_, ?_⟩
      · exact (((hp1.trans g1.le).trans (List.prefix_append ..)).trans (k1.le.trans (List.prefix_append ..))).trans
          (l1.le.trans (List.prefix_append ..))
      · rw [l4]; simp only [setWord, if_pos]; rfl
      · intro b hb
        rw [l4]; simp only [setWord, if_neg hb]; exact hwv b
      · rw [l4]; show clean ((s.exec hash n vs).mem.nv a) = _
        rw [hnvv, hw3]
    · cases l3
  · next hc =>
    rw [Bool.not_eq_true] at hc
    have hys : ys ++ [x] <+: F := h2
    refine gwp_pure ⟨rfl, hp1, h2, ?_, fun b _ => hw1 b, ?_⟩
    · rw [hw1, clean_of_not_dirty hc]
    · rw [hd _ h2 (by rw [hw1]; exact hc), hw1, clean_of_not_dirty hc]

/-- The execution of a thread running alone before the first growth. -/
structure Alone (hash : Word → Word) (n : Nat) (s : Sys) (F : List Sched) (L : Nat) : Prop extends Still hash n s F L where
  empty : ∀ ys, ys <+: F → ∀ i, i < L → clean ((s.exec hash n ys).mem.word (.key 0 i)) = KINITIAL →
    clean ((s.exec hash n ys).mem.word (.val 0 i)) = VINITIAL

theorem Same.refl {xs : List Sched} (hx : xs <+: F) : Same hash n s F xs xs := ⟨List.prefix_refl _, hx, fun _ => rfl⟩

/-- `pcas` of an empty key word succeeds. -/
theorem gwp_casKey (hF : Alone hash n s F L) {k : Word} (hk : clean k = k) (hkt : k ≠ KTOMBSTONE) {d : Nat} (hd : d < reprobeLimit L)
    {xs : List Sched} (h0 : clean ((s.exec hash n xs).mem.word (.key 0 (probeSlot hash k L d))) = KINITIAL)
    (hw : WayTo hash n s L k d xs) :
    gwp hash n s F L (fun r ys => r = KINITIAL ∧ xs <+: ys ∧ ys <+: F ∧
        ∀ i, (s.exec hash n ys).mem.word (.val 0 i) = (s.exec hash n xs).mem.word (.val 0 i))
      (casKey 0 (probeSlot hash k L d) KINITIAL k) xs := by
  refine gwp_bind (gwp_bind (gwp_mono (gwp_pcasRead fun ys hy => hF.durK ys hy _ (hF.slot_lt k d)) ?_))
  rintro w y1 ⟨-, hc⟩
  refine gwp_bind (gwp_do1 fun ys x r m' h1 h2 h3 h4 => ?_)
  have hys : ys <+: F := (List.prefix_append ..).trans h2
  have he : (s.exec hash n ys).mem.word (.key 0 (probeSlot hash k L d)) = KINITIAL := by
    rw [h1.same ys h1.le (List.prefix_refl _), hc.word, h0]
  refine ⟨fun _ _ => ⟨by rw [clean_dirty, hk]; exact hkt, d, hd, by rw [clean_dirty, hk], ?_⟩, ?_⟩
  · rw [clean_dirty, hk]
    exact hw.later hF.toStill (hc.le.trans h1.le) hys
  · simp only [Act.exec] at h3
    split at h3
    · cases h3
      refine gwp_bind (gwp_plain rfl fun zs r' g1 _ => gwp_pure (gwp_pure ⟨rfl, ?_, g1.inF, fun i => ?_⟩))
      · exact (hc.le.trans h1.le).trans ((List.prefix_append ..).trans g1.le)
      · rw [g1.word, h4]
        simp only [setWord]
        rw [if_neg (by simp), h1.same ys h1.le (List.prefix_refl _), hc.rest _ (by simp)]
    · cases h3

/-- `pcas` of a value word with the value it has succeeds. -/
theorem gwp_casVal (hF : Alone hash n s F L) {j : Nat} (hj : j < L) {V nv : Word} {xs : List Sched}
    (hV : clean ((s.exec hash n xs).mem.word (.val 0 j)) = V) {k : Word} (hk : k ≠ KINITIAL)
    (hs : KeySafe hash n s j k xs ∨ V = VINITIAL) :
    gwp hash n s F L (fun r ys => r.2 = V ∧ ys <+: F) (pcas (.val 0 j) V nv) xs := by
  refine gwp_bind (gwp_mono (gwp_pcasRead fun ys hy => hF.durV ys hy _ hj) ?_)
  rintro w y1 ⟨-, hc⟩
  refine gwp_bind (gwp_do1 fun ys x r m' h1 h2 h3 h4 => ?_)
  have hys : ys <+: F := (List.prefix_append ..).trans h2
  have he : (s.exec hash n ys).mem.word (.val 0 j) = V := by
    rw [h1.same ys h1.le (List.prefix_refl _), hc.word, hV]
  have hcV : clean V = V := by rw [← hV, clean_clean]
  have hdV : isDirty V = false := by rw [← hV]; exact isDirty_clean _
  refine ⟨fun _ _ => ⟨hdV, hs.imp (fun h => ?_) (fun h => by rw [hcV]; exact h)⟩, ?_⟩
  · rw [(h.later hF.toStill hj hk (hc.le.trans h1.le) hys).2]; exact hk
  · simp only [Act.exec] at h3
    split at h3
    · cases h3
      exact gwp_bind (gwp_plain rfl fun zs r' g1 _ => gwp_pure ⟨rfl, g1.inF⟩)
    · cases h3

theorem getNew_none (hF : StillTab hash n s F L) {ys : List Sched} (hy : ys <+: F) {r : Option Nat} {m' : Mem}
    (h : (Act.getNew 0).exec (s.exec hash n ys).mem = some (r, m')) : r = none := by
  simp only [Act.exec] at h
  split at h
  · cases h; exact hF.newT ys hy
  · cases h

theorem gwp_resize (hF : StillTab hash n s F L) {Q : Nat → List Sched → Prop} {xs : List Sched} :
    gwp hash n s F L Q (resize 0) xs := by
  refine gwp_bind (gwp_plain rfl fun ys r _ ⟨y0, m', h2, h3⟩ => ?_)
  obtain rfl := getNew_none hF h2 h3
  refine gwp_bind (gwp_plain rfl fun ys r _ _ => ?_)
  refine gwp_bind (gwp_plain rfl fun ys r _ _ => ?_)
  refine gwp_bind (gwp_plain rfl fun ys r _ ⟨y0, m', h2, h3⟩ => ?_)
  obtain rfl := getNew_none hF h2 h3
  refine gwp_bind (gwp_do1 fun ys x r m' h1 h2 h3 h4 => ⟨trivial, ?_⟩)
  cases r with
  | none => trivial
  | some nt =>
    refine gwp_bind (gwp_do1 fun ys x r m' h1 h2 h3 h4 => ?_)
    exfalso
    have g1 := hF.newT ys ((List.prefix_append ..).trans h2)
    have g2 := hF.newT (ys ++ [x]) h2
    simp only [Act.exec, g1, if_pos] at h3
    split at h3
    · cases h3
      rw [h4] at g2
      simp [upd] at g2
    · cases h3

theorem gwp_wantNewTable {d : Nat} {V : Word} {xs : List Sched} (hx : xs <+: F) :
    gwp hash n s F L (fun _ ys => Same hash n s F xs ys) (wantNewTable 0 d L V) xs := by
  unfold wantNewTable tableFull
  split
  · split
    · exact gwp_bind (gwp_bind (gwp_plain rfl fun ys r h _ => gwp_pure (gwp_pure h)))
    · exact gwp_bind (gwp_pure (gwp_pure (Same.refl hx)))
  · exact gwp_pure (Same.refl hx)

theorem gwp_adjustSize {V nv ov : Word} {xs : List Sched} :
    gwp hash n s F L (fun _ _ => True) (adjustSize 0 V nv ov) xs := by
  unfold adjustSize
  split
  · split
    · exact gwp_plain rfl fun _ _ _ _ => trivial
    · split
      · exact gwp_plain rfl fun _ _ _ _ => trivial
      · exact gwp_pure trivial
  · exact gwp_pure trivial

theorem KeySafe.same {i : Nat} {K : Word} (hF : Alone hash n s F L) (hi : i < L) (hK : K ≠ KINITIAL) {xs ys : List Sched}
    (h : KeySafe hash n s i K xs) (hs : Same hash n s F xs ys) : KeySafe hash n s i K ys :=
  h.later hF.toStill hi hK hs.le hs.inF

/-- The update loop: its first compare-and-swap succeeds. -/
theorem gwp_update (hF : Alone hash n s F L) {cf : CasFn} {j : Nat} (hj : j < L) {nv ov : Word} (N : Nat) {k : Word}
    (hk : k ≠ KINITIAL) {xs : List Sched} {V : Word} (hV : clean ((s.exec hash n xs).mem.word (.val 0 j)) = V)
    (hs : KeySafe hash n s j k xs ∨ V = VINITIAL) :
    gwp hash n s F L (fun u _ => ∃ w, u = .returned w) (loop N (updateBody cf 0 j nv ov) V) xs := by
  refine gwp_loop (fun V xs => clean ((s.exec hash n xs).mem.word (.val 0 j)) = V ∧ (KeySafe hash n s j k xs ∨ V = VINITIAL))
    ?_ N _ _ ⟨hV, hs⟩
  rintro V xs ⟨hV, hs⟩
  refine gwp_bind (gwp_plain rfl fun ys _ h _ => ?_)
  have hV' : clean ((s.exec hash n ys).mem.word (.val 0 j)) = V := by rw [h.word, hV]
  have hs' : KeySafe hash n s j k ys ∨ V = VINITIAL := hs.imp_left fun g => g.same hF hj hk h
  split
  · exact gwp_pure ⟨_, rfl⟩
  · have hcall : gwp hash n s F L (fun r _ => r = V) (cf.call 0 j V nv) ys := by
      cases cf with
      | casValue => exact gwp_bind (gwp_mono (gwp_casVal hF hj hV' hk hs') fun r zs h => gwp_pure h.1)
      | increment => exact gwp_bind (gwp_mono (gwp_casVal hF hj hV' hk hs') fun r zs h => gwp_pure h.1)
    refine gwp_bind (gwp_mono hcall ?_)
    rintro _ zs rfl
    rw [if_pos rfl]
    exact gwp_bind (gwp_mono gwp_adjustSize fun _ _ _ => gwp_pure ⟨_, rfl⟩)

/-- How the probe loop of `putIfMatch` ends when running alone. -/
def AtSlot (hash : Word → Word) (n : Nat) (s : Sys) (F : List Sched) (L : Nat) (k : Word) : Probe → List Sched → Prop
  | .slot j _ V, ys => j < L ∧ ys <+: F ∧ clean ((s.exec hash n ys).mem.word (.val 0 j)) = V ∧
      (KeySafe hash n s j k ys ∨ V = VINITIAL)
  | _, _ => True

theorem gwp_probe (hF : Alone hash n s F L) {k nv : Word} (hk : clean k = k) (hkt : k ≠ KTOMBSTONE) (N : Nat) {xs : List Sched}
    (hx : xs <+: F) :
    gwp hash n s F L (AtSlot hash n s F L k) (loop N (probeBody 0 k nv L) (homePut hash k L, 0)) xs := by
  have h0 : homePut hash k L = probeSlot hash k L 0 := by
    obtain ⟨p, -, rfl⟩ := hF.pow
    rw [probeSlot, Nat.add_zero, homePut, and_len hF.pow, Nat.mod_mod]
  refine gwp_loop (fun (x : Nat × Nat) xs => xs <+: F ∧ x.1 = probeSlot hash k L x.2 ∧ x.2 < reprobeLimit L ∧
    WayTo hash n s L k x.2 xs) ?_ N _ _ ⟨hx, h0, by simp [reprobeLimit, REPROBE_LIMIT], fun e he => by simp at he⟩
  rintro ⟨j, d⟩ xs ⟨h1, h2, h3, h4⟩
  simp only at h2 h3 h4
  subst h2
  have hi := hF.slot_lt k d
  refine gwp_bind (gwp_mono (gwp_pcasRead fun ys hy => hF.durK ys hy _ hi) ?_)
  rintro K x1 ⟨hK, c1⟩
  refine gwp_bind (gwp_mono (gwp_pcasRead fun ys hy => hF.durV ys hy _ hi) ?_)
  rintro V x2 ⟨hV, c2⟩
  have hK2 : clean ((s.exec hash n x2).mem.word (.key 0 (probeSlot hash k L d))) = K := by rw [c2.clean, c1.clean, hK]
  have hV2 : clean ((s.exec hash n x2).mem.word (.val 0 (probeSlot hash k L d))) = V := by rw [c2.clean, hV]
  have hway := h4.later hF.toStill (c1.le.trans c2.le) c2.inF
  split
  · next hKI =>
    split
    · exact gwp_pure trivial
    · have hKI : K = KINITIAL := hKI
      have hVI : V = VINITIAL := by
        rw [← hV2]; exact hF.empty x2 c2.inF _ hi (by rw [hK2, hKI])
      refine gwp_bind (gwp_mono (gwp_casKey hF hk hkt h3 (by rw [hK2, hKI]) hway) ?_)
      rintro _ x3 ⟨rfl, g1, g2, g3⟩
      rw [if_pos rfl]
      refine gwp_bind (gwp_plain rfl fun ys _ h _ => gwp_pure ⟨hi, h.inF, ?_, .inr hVI⟩)
      rw [h.word, g3, hV2]
  · next hKI =>
    have hKI : K ≠ KINITIAL := hKI
    have hsafe : KeySafe hash n s (probeSlot hash k L d) K x2 :=
      KeySafe.later hF.toStill hi hKI (xs := x1) ⟨by rw [c1.clean, hK], by rw [c1.nv, hK]⟩ c2.le c2.inF
    unfold probeMatch
    split
    · next e => exact gwp_pure ⟨hi, c2.inF, hV2, .inl (e ▸ hsafe)⟩
    · next hne =>
      split
      · exact gwp_pure trivial
      · next hl =>
        push Not at hl
        refine gwp_pure ⟨c2.inF, probeSlot_succ hF.pow k d, hl.1, ?_⟩
        intro e he
        rcases Nat.lt_succ_iff_lt_or_eq.mp he with he | rfl
        · exact hway e he
        · exact ⟨K, hsafe, hKI, hl.2, hne⟩

/-- Every compare-and-swap of `putIfMatch` meets the guard. -/
theorem gwp_mapPutIfMatch (hF : Alone hash n s F L) {cf : CasFn} {k nv ov : Word} (hk : clean k = k) (hk0 : k ≠ KINITIAL)
    (hkt : k ≠ KTOMBSTONE) (N : Nat) {xs : List Sched} : gwp hash n s F L (fun _ _ => True) (mapPutIfMatch hash N cf k nv ov) xs := by
  refine gwp_bind (gwp_plain rfl fun ys _ _ _ => ?_)
  refine gwp_bind (gwp_plain rfl fun ys _ _ _ => ?_)
  refine gwp_bind (gwp_plain rfl fun ys r _ ⟨y0, m', h2, h3⟩ => ?_)
  have hr : r = 0 := by
    cases h3; exact hF.root y0 h2
  subst hr
  refine gwp_bind (gwp_mono (Q := fun _ _ => True) ?_ fun _ _ _ => gwp_bind (gwp_plain rfl fun ys _ _ _ => gwp_pure trivial))
  cases N with
  | zero => trivial
  | succ N =>
    refine gwp_bind (gwp_plain rfl fun ys _ _ _ => ?_)
    refine gwp_bind (gwp_plain rfl fun ys _ _ _ => ?_)
    refine gwp_bind (gwp_plain rfl fun ys _ _ _ => ?_)
    refine gwp_bind (gwp_plain rfl fun ys r hys ⟨y0, m', h2, h3⟩ => ?_)
    have hr : r = L := by
      simp only [Act.exec] at h3
      split at h3
      · cases h3; exact hF.len y0 h2
      · cases h3
    subst hr
    refine gwp_bind (gwp_mono (gwp_probe hF hk hkt N hys.inF) ?_)
    rintro (w | ⟨j, d, V⟩ | _) x1 hp
    · exact gwp_pure trivial
    · obtain ⟨hj, hx1, hV, hs⟩ := hp
      dsimp only
      split
      · exact gwp_pure trivial
      · refine gwp_bind (gwp_mono (gwp_wantNewTable hx1) ?_)
        rintro w x2 g
        split
        · exact gwp_bind (gwp_resize hF.toStillTab)
        · refine gwp_bind (gwp_mono (gwp_update hF hj N hk0 (by rw [g.word]; exact hV)
            (hs.imp_left fun h => h.same hF hj hk0 g)) ?_)
          rintro _ x3 ⟨w, rfl⟩
          exact gwp_pure trivial
    · exact gwp_bind (gwp_resize hF.toStillTab)

theorem gwp_mapGet (hF : Alone hash n s F L) (k : Word) (N : Nat) {xs : List Sched} :
    gwp hash n s F L (fun _ _ => True) (mapGet hash N k) xs := by
  refine gwp_bind (gwp_plain rfl fun ys r _ ⟨y0, m', h2, h3⟩ => ?_)
  have hr : r = 0 := by
    cases h3; exact hF.root y0 h2
  subst hr
  refine gwp_bind (gwp_mono (Q := fun _ _ => True) ?_ fun _ _ _ => gwp_bind (gwp_plain rfl fun ys _ _ _ => gwp_pure trivial))
  cases N with
  | zero => trivial
  | succ N =>
    refine gwp_bind (gwp_plain rfl fun ys r hys ⟨y0, m', h2, h3⟩ => ?_)
    have hr : r = L := by
      simp only [Act.exec] at h3
      split at h3
      · cases h3; exact hF.len y0 h2
      · cases h3
    subst hr
    refine gwp_bind (gwp_mono (Q := fun p _ => ∃ w, p = .returned w) ?_ ?_)
    · have hlt : ∀ a, a &&& (r - 1) < r := by
        intro a
        rw [and_len hF.pow]; obtain ⟨p, -, e⟩ := hF.pow; exact Nat.mod_lt _ (by rw [e]; positivity)
      refine gwp_loop (fun (x : Nat × Nat) xs => x.1 < r ∧ xs <+: F) ?_ N _ _ ⟨hlt _, hys.inF⟩
      rintro ⟨j, d⟩ xs ⟨hj, hx⟩
      simp only at hj
      refine gwp_bind (gwp_mono (gwp_pcasRead fun ys hy => hF.durK ys hy _ hj) ?_)
      rintro K x1 ⟨-, c1⟩
      refine gwp_bind (gwp_mono (gwp_pcasRead fun ys hy => hF.durV ys hy _ hj) ?_)
      rintro V x2 ⟨rfl, c2⟩
      split
      · exact gwp_pure ⟨_, rfl⟩
      · refine gwp_bind (gwp_plain rfl fun ys nt hys' ⟨y0, m', g2, g3⟩ => ?_)
        obtain rfl := getNew_none hF.toStillTab g2 g3
        split
        · rw [hF.mig x1 c1.inF j hj]
          exact gwp_pure ⟨_, rfl⟩
        · split
          · exact gwp_pure ⟨_, rfl⟩
          · exact gwp_pure ⟨hlt _, hys'.inF⟩
    · rintro _ x1 ⟨w, rfl⟩
      exact gwp_pure trivial

theorem gwp_op (hF : Alone hash n s F L) {op : Op} (hv : op.Valid) {xs : List Sched} :
    gwp hash n s F L (fun _ _ => True) (op.prog hash n) xs := by
  have hput : ∀ cf k nv ov, ValidKey k → gwp hash n s F L (fun _ _ => True) (mapPutIfMatch hash n cf k nv ov) xs :=
    fun cf k nv ov hk => gwp_mapPutIfMatch hF (userKey_of_valid hk).clean (userKey_of_valid hk).ne_init (userKey_of_valid hk).ne_tomb n
  cases op with
  | get k => exact gwp_bind (gwp_mono (gwp_mapGet hF k n) fun _ _ _ => gwp_pure trivial)
  | containsKey k => exact gwp_bind (gwp_bind (gwp_mono (gwp_mapGet hF k n) fun _ _ _ => gwp_pure (gwp_pure trivial)))
  | put k w => exact gwp_bind (gwp_mono (hput _ k w NO_MATCH_OLD hv.1) fun _ _ _ => gwp_pure trivial)
  | putIfAbsent k w => exact gwp_bind (gwp_mono (hput _ k w VTOMBSTONE hv.1) fun _ _ _ => gwp_pure trivial)
  | remove k => exact gwp_bind (gwp_bind (gwp_mono (hput _ k VTOMBSTONE NO_MATCH_OLD hv) fun _ _ _ => gwp_pure (gwp_pure trivial)))
  | removeIf k w => exact gwp_bind (gwp_bind (gwp_mono (hput _ k VTOMBSTONE w hv.1) fun _ _ _ => gwp_pure (gwp_pure trivial)))
  | replace k o w => exact gwp_bind (gwp_bind (gwp_mono (hput _ k w o hv.1) fun _ _ _ => gwp_pure (gwp_pure trivial)))
  | putIfMatch k w o => exact gwp_bind (gwp_mono (hput _ k w o hv.1) fun _ _ _ => gwp_pure trivial)
  | update k w => exact gwp_bind (gwp_mono (hput _ k w NO_MATCH_OLD hv.1) fun _ _ _ => gwp_pure trivial)
  | size =>
    refine gwp_bind (gwp_bind (gwp_plain rfl fun _ _ _ _ => ?_))
    exact gwp_plain rfl fun _ _ _ _ => gwp_pure trivial
  | isEmpty =>
    refine gwp_bind (gwp_bind (gwp_bind (gwp_plain rfl fun _ _ _ _ => ?_)))
    exact gwp_plain rfl fun _ _ _ _ => gwp_pure (gwp_pure trivial)

end PMap
