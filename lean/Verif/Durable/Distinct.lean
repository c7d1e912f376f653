import Verif.Durable.Get

/-!
# Values stored once do not return (proof machinery)

`twb F i v Q p b xs`: run from the point `xs` on within the execution `F`, the program `p` changes the value word of slot `i`
of table 0 into `v` at most once, and only if the budget `b` is `true`; if it returns `a` at `ys` with the budget `b'` left, then
`Q a b' ys`.
-/

namespace PMap

open Prog

variable {hash : Word → Word} {n : Nat} {s : Sys} {F : List Sched} {L i : Nat} {v : Word} {α β σ : Type}

/-- The action changed the value word of slot `i` of table 0 into `v`. -/
def hits (i : Nat) (v : Word) : (a : Act) → a.Resp → Bool
  | .cas a e w, r => r.1 && decide (a = .val 0 i) && decide (clean w = v) && decide (clean e ≠ v)
  | _, _ => false

/-- See the head of this file. -/
def twb (hash : Word → Word) (n : Nat) (s : Sys) (F : List Sched) (i : Nat) (v : Word) (Q : α → Bool → List Sched → Prop) :
    Prog α → Bool → List Sched → Prop
  | .ret a, b, xs => Q a b xs
  | .halt _, _, _ => True
  | .act a k, b, xs => ∀ ys x r m', xs <+: ys → ys ++ [x] <+: F → a.exec (s.exec hash n ys).mem = some (r, m') →
      (s.exec hash n (ys ++ [x])).mem = m' →
      (hits i v a r = true → b = true) ∧ twb hash n s F i v Q (k r) (b && !hits i v a r) (ys ++ [x])

theorem twb_mono {Q Q' : α → Bool → List Sched → Prop} {p : Prog α} {b : Bool} {xs : List Sched}
    (h : twb hash n s F i v Q p b xs) (hq : ∀ a b ys, Q a b ys → Q' a b ys) : twb hash n s F i v Q' p b xs := by
  induction p generalizing xs b with
  | ret a => exact hq _ _ _ h
  | halt x => trivial
  | act a k ih => exact fun ys x r m' h1 h2 h3 h4 => ⟨(h ys x r m' h1 h2 h3 h4).1, ih r (h ys x r m' h1 h2 h3 h4).2⟩

theorem twb_bind {Q : β → Bool → List Sched → Prop} {p : Prog α} {f : α → Prog β} {b : Bool} {xs : List Sched}
    (h : twb hash n s F i v (fun a b ys => twb hash n s F i v Q (f a) b ys) p b xs) :
    twb hash n s F i v Q (p >>= f) b xs := by
  show twb hash n s F i v Q (p.bind f) b xs
  induction p generalizing xs b with
  | ret a => exact h
  | halt x => trivial
  | act a k ih => exact fun ys x r m' h1 h2 h3 h4 => ⟨(h ys x r m' h1 h2 h3 h4).1, ih r (h ys x r m' h1 h2 h3 h4).2⟩

theorem twb_pure {Q : α → Bool → List Sched → Prop} {a : α} {b : Bool} {xs : List Sched} (h : Q a b xs) :
    twb hash n s F i v Q (pure a) b xs := h

/-- What a loop body has to establish. -/
def CtlPost (I : σ → Bool → List Sched → Prop) (Q : α → Bool → List Sched → Prop) : Ctl σ α → Bool → List Sched → Prop
  | .next x', b, ys => I x' b ys
  | .done a, b, ys => Q a b ys

theorem twb_loop {body : σ → Prog (Ctl σ α)} {Q : α → Bool → List Sched → Prop} (I : σ → Bool → List Sched → Prop)
    (hb : ∀ x b xs, I x b xs → twb hash n s F i v (CtlPost I Q) (body x) b xs)
    (k : Nat) : ∀ x b xs, I x b xs → twb hash n s F i v Q (loop k body x) b xs := by
  induction k with
  | zero => intro x b xs _; trivial
  | succ k ih =>
    intro x b xs hI
    refine twb_bind (twb_mono (hb x b xs hI) ?_)
    rintro (x' | a) b ys h
    · exact ih x' b ys h
    · exact h

/-- An action that is no CAS. -/
theorem twb_do1 {a : Act} {Q : a.Resp → Bool → List Sched → Prop} {b : Bool} {xs : List Sched} (ha : ∀ r, hits i v a r = false)
    (h : ∀ ys x r m', xs <+: ys → ys ++ [x] <+: F → a.exec (s.exec hash n ys).mem = some (r, m') →
      (s.exec hash n (ys ++ [x])).mem = m' → Q r b (ys ++ [x])) : twb hash n s F i v Q (do1 a) b xs := by
  intro ys x r m' h1 h2 h3 h4
  rw [ha r]
  refine ⟨fun h => (by cases h), ?_⟩
  rw [Bool.not_false, Bool.and_true]
  exact h ys x r m' h1 h2 h3 h4

theorem twb_later {Q : α → Bool → List Sched → Prop} (hq : ∀ a b ys zs, Q a b ys → ys <+: zs → Q a b zs) {p : Prog α}
    {b : Bool} {xs ys : List Sched} (h : twb hash n s F i v Q p b xs) (hp : xs <+: ys) : twb hash n s F i v Q p b ys := by
  cases p with
  | ret a => exact hq a b xs ys h hp
  | halt x => trivial
  | act a k => exact fun zs x r m' h1 h2 h3 h4 => h zs x r m' (hp.trans h1) h2 h3 h4

/-- Only the end of the program matters. -/
def Ends (F xs : List Sched) (b : Bool) (b' : Bool) (ys : List Sched) : Prop := b' = b ∧ xs <+: ys ∧ ys <+: F

theorem hits_clear (a : Addr) (w : Word) (r : Bool × Word) : hits i v (.cas a w (clearMark w DirtyFlag)) r = false := by
  have h : clean (clearMark w DirtyFlag) = clean w := clean_clean w
  by_cases e : clean w = v <;> simp [hits, h, e]

/-- `pcas_read` stores nothing new, and returns a word that was there. -/
theorem twb_pcasRead {a : Addr} {b : Bool} {xs : List Sched} :
    twb hash n s F i v (fun w b' ys => Ends F xs b b' ys ∧ ∃ zs, xs <+: zs ∧ zs <+: ys ∧ clean ((s.exec hash n zs).mem.word a) = w)
      (pcasRead a) b xs := by
  refine twb_bind (twb_do1 (fun _ => rfl) fun ys x r m' h1 h2 h3 h4 => ?_)
  have hr : r = (s.exec hash n ys).mem.word a := by
    simp only [Act.exec] at h3
    split at h3
    · cases h3; rfl
    · cases h3
  subst hr
  split
  · refine twb_bind (twb_bind (twb_do1 (fun _ => rfl) fun zs y r m' g1 g2 g3 g4 => ?_))
    refine twb_bind (twb_do1 (fun _ => rfl) fun zs' y' r m' k1 k2 k3 k4 => ?_)
    refine twb_bind (twb_do1 (fun r => hits_clear a _ r) fun zs'' y'' r m' l1 l2 l3 l4 => ?_)
    refine twb_pure (twb_pure ?_)
    have hz : ys <+: zs'' ++ [y''] := (((((List.prefix_append ys [x]).trans g1).trans (List.prefix_append ..)).trans k1).trans
      (List.prefix_append ..)).trans (l1.trans (List.prefix_append ..))
    exact ⟨⟨rfl, h1.trans hz, l2⟩, ys, h1, hz, rfl⟩
  · exact twb_pure ⟨⟨rfl, h1.trans (List.prefix_append ..), h2⟩, ys, h1, List.prefix_append .., rfl⟩

/-- `pcas` of a key word stores no value; if it takes an empty slot, or finds the key there, the slot is the key's. -/
theorem twb_casKey (hF : StillTab hash n s F L) {j : Nat} (hj : j < L) {k : Word} (hk : clean k = k) (hk0 : k ≠ KINITIAL)
    {b : Bool} {xs : List Sched} :
    twb hash n s F i v (fun r b' ys => Ends F xs b b' ys ∧ ((r = KINITIAL ∨ r = k) → clean ((s.exec hash n ys).mem.word (.key 0 j)) = k))
      (casKey 0 j KINITIAL k) b xs := by
  refine twb_bind (twb_bind (twb_mono twb_pcasRead ?_))
  rintro w b' y1 ⟨⟨rfl, e1, e2⟩, -⟩
  refine twb_bind (twb_do1 (fun r => by simp [hits]) fun ys x r m' h1 h2 h3 h4 => ?_)
  have hr : (r.2 = KINITIAL ∨ r.2 = k) → clean ((s.exec hash n (ys ++ [x])).mem.word (.key 0 j)) = k := by
    rw [h4]
    simp only [Act.exec] at h3
    split at h3
    · split at h3
      · cases h3
        intro _
        simp only [setWord, if_pos]
        rw [clean_dirty, hk]
      · next hne =>
        cases h3
        rintro (h | h)
        · exact absurd h hne
        · have h : (s.exec hash n ys).mem.word (.key 0 j) = k := h
          rw [h]; exact hk
    · cases h3
  refine twb_bind (twb_do1 (fun _ => rfl) fun zs y r' m' g1 g2 g3 g4 => ?_)
  refine twb_pure (twb_pure ⟨⟨rfl, ?_, g2⟩, fun h => ?_⟩)
  · exact ((e1.trans h1).trans (List.prefix_append ..)).trans (g1.trans (List.prefix_append ..))
  · have := hr h
    rw [hF.key (ys ++ [x]) (zs ++ [y]) (g1.trans (List.prefix_append ..)) g2 j hj (by rw [this]; exact hk0)]
    exact this

/-- `pcas` of a value word. -/
theorem twb_casValue {j : Nat} {V nv : Word} (hnv : clean nv = nv) {b : Bool} {xs : List Sched} (hb : j = i → nv = v → b = true) :
    twb hash n s F i v (fun r b' ys => xs <+: ys ∧ ys <+: F ∧ (r = V ∨ (r ≠ V ∧ b' = b))) (casValue 0 j V nv) b xs := by
  refine twb_bind (twb_bind (twb_mono twb_pcasRead ?_))
  rintro w b' y1 ⟨⟨rfl, e1, e2⟩, -⟩
  refine twb_bind ?_
  intro ys x r m' h1 h2 h3 h4
  refine ⟨fun h => ?_, ?_⟩
  · simp only [hits, Bool.and_eq_true, decide_eq_true_eq] at h
    obtain ⟨⟨⟨-, ha⟩, hw⟩, -⟩ := h
    rw [clean_dirty, hnv] at hw
    cases ha
    exact hb rfl hw
  · have hres : r.2 = V ∨ (r.2 ≠ V ∧ r.1 = false) := by
      simp only [Act.exec] at h3
      split at h3
      · split at h3
        · cases h3; exact .inl rfl
        · next hne => cases h3; exact .inr ⟨hne, rfl⟩
      · cases h3
    refine twb_bind (twb_do1 (fun _ => rfl) fun zs y r' m' g1 g2 g3 g4 => ?_)
    refine twb_pure (twb_pure ⟨((e1.trans h1).trans (List.prefix_append ..)).trans (g1.trans (List.prefix_append ..)), g2, ?_⟩)
    refine hres.imp_right fun h => ⟨h.1, ?_⟩
    have : hits i v (.cas (.val 0 j) V (dirty nv)) r = false := by simp [hits, h.2]
    rw [this, Bool.not_false, Bool.and_true]

/-- Growing does not happen. -/
theorem twb_resize (hF : StillTab hash n s F L) {Q : Nat → Bool → List Sched → Prop} {b : Bool} {xs : List Sched} :
    twb hash n s F i v Q (resize 0) b xs := by
  have hnone : ∀ ys x (r : Option Nat) m', ys ++ [x] <+: F → (Act.getNew 0).exec (s.exec hash n ys).mem = some (r, m') → r = none := by
    intro ys x r m' h2 h3
    simp only [Act.exec] at h3
    split at h3
    · cases h3; exact hF.newT ys ((List.prefix_append ..).trans h2)
    · cases h3
  refine twb_bind (twb_do1 (fun _ => rfl) fun ys x r m' h1 h2 h3 h4 => ?_)
  obtain rfl := hnone ys x r m' h2 h3
  refine twb_bind (twb_do1 (fun _ => rfl) fun ys x r m' h1 h2 h3 h4 => ?_)
  refine twb_bind (twb_do1 (fun _ => rfl) fun ys x r m' h1 h2 h3 h4 => ?_)
  refine twb_bind (twb_do1 (fun _ => rfl) fun ys x r m' h1 h2 h3 h4 => ?_)
  obtain rfl := hnone ys x r m' h2 h3
  refine twb_bind (twb_do1 (fun _ => rfl) fun ys x r m' h1 h2 h3 h4 => ?_)
  cases r with
  | none => trivial
  | some nt =>
    refine twb_bind (twb_do1 (fun _ => rfl) fun ys x r m' h1 h2 h3 h4 => ?_)
    exfalso
    have g1 := hF.newT ys ((List.prefix_append ..).trans h2)
    have g2 := hF.newT (ys ++ [x]) h2
    simp only [Act.exec, g1, if_pos] at h3
    split at h3
    · cases h3
      rw [h4] at g2
      simp [upd] at g2
    · cases h3

theorem twb_wantNewTable {d : Nat} {V : Word} {b : Bool} {xs : List Sched} (hx : xs <+: F) :
    twb hash n s F i v (fun _ b' ys => Ends F xs b b' ys) (wantNewTable 0 d L V) b xs := by
  unfold wantNewTable tableFull
  split
  · split
    · refine twb_bind (twb_bind (twb_do1 (fun _ => rfl) fun ys x r m' h1 h2 h3 h4 => ?_))
      exact twb_pure (twb_pure ⟨rfl, h1.trans (List.prefix_append ..), h2⟩)
    · exact twb_bind (twb_pure (twb_pure ⟨rfl, List.prefix_refl _, hx⟩))
  · exact twb_pure ⟨rfl, List.prefix_refl _, hx⟩

theorem twb_adjustSize {V nv ov : Word} {b : Bool} {xs : List Sched} :
    twb hash n s F i v (fun _ b' _ => b' = b) (adjustSize 0 V nv ov) b xs := by
  unfold adjustSize
  split
  · split
    · exact twb_do1 (fun _ => rfl) fun _ _ _ _ _ _ _ _ => rfl
    · split
      · exact twb_do1 (fun _ => rfl) fun _ _ _ _ _ _ _ _ => rfl
      · exact twb_pure rfl
  · exact twb_pure rfl

/-- The update loop, on a slot of the key, ends without a migration and stores at most once. -/
theorem twb_update {j : Nat} (hF : StillTab hash n s F L) (hj : j < L) {nv ov : Word} (hnv : clean nv = nv) {b : Bool} (N : Nat)
    {xs : List Sched} (hb : j = i → nv = v → b = true) (V : Word) :
    twb hash n s F i v (fun u _ _ => ∃ w, u = .returned w) (loop N (updateBody .casValue 0 j nv ov) V) b xs := by
  refine twb_loop (fun (_ : Word) b' _ => b' = b) ?_ N _ _ _ rfl
  rintro V b' xs rfl
  refine twb_bind (twb_do1 (fun _ => rfl) fun ys x r m' h1 h2 h3 h4 => ?_)
  split
  · exact twb_pure ⟨_, rfl⟩
  · refine twb_bind (twb_mono (twb_casValue hnv hb) ?_)
    rintro r b2 y2 ⟨e1, e2, e3⟩
    split
    · exact twb_bind (twb_mono twb_adjustSize fun _ _ _ _ => twb_pure ⟨_, rfl⟩)
    · next hne =>
      obtain ⟨-, rfl⟩ := e3.resolve_left hne
      refine twb_bind (twb_mono twb_pcasRead ?_)
      rintro V' b3 y3 ⟨⟨rfl, f1, f2⟩, zs, f3, f4, rfl⟩
      rw [hF.mig zs (f4.trans f2) j hj]
      exact twb_pure rfl

/-- How the probe loop of `putIfMatch` ends. -/
def ProbeEnd (hash : Word → Word) (n : Nat) (s : Sys) (F : List Sched) (L : Nat) (k : Word) (b : Bool) :
    Probe → Bool → List Sched → Prop
  | .slot j _ V, b', ys => b' = b ∧ j < L ∧ clean ((s.exec hash n ys).mem.word (.key 0 j)) = k ∧ isMig V = false ∧ ys <+: F
  | _, b', _ => b' = b

/-- The probe loop of `putIfMatch` ends at a slot of the key. -/
theorem twb_probe (hF : StillTab hash n s F L) {k nv : Word} (hk : clean k = k) (hk0 : k ≠ KINITIAL) {b : Bool} (N : Nat)
    {xs : List Sched} :
    twb hash n s F i v (ProbeEnd hash n s F L k b)
      (loop N (probeBody 0 k nv L) (homePut hash k L, 0)) b xs := by
  have hpos : 0 < L := by obtain ⟨p, -, rfl⟩ := hF.pow; positivity
  have hlt : ∀ a, a &&& (L - 1) < L := by
    intro a
    rw [and_len hF.pow]; exact Nat.mod_lt _ hpos
  refine twb_loop (fun (x : Nat × Nat) b' _ => b' = b ∧ x.1 < L) ?_ N _ _ _ ⟨rfl, hlt _⟩
  rintro ⟨j, d⟩ b' xs ⟨rfl, hj⟩
  simp only at hj
  refine twb_bind (twb_mono twb_pcasRead ?_)
  rintro K b1 x1 ⟨⟨rfl, e1, e2⟩, z1, -, e4, hK⟩
  refine twb_bind (twb_mono twb_pcasRead ?_)
  rintro V b2 x2 ⟨⟨rfl, f1, f2⟩, z2, -, f4, rfl⟩
  have hV := hF.mig z2 (f4.trans f2) j hj
  have hmatch : ∀ K' ys, ys <+: F → (K' = k → clean ((s.exec hash n ys).mem.word (.key 0 j)) = k) →
      twb hash n s F i v (CtlPost (fun (x : Nat × Nat) b' _ => b' = b2 ∧ x.1 < L) (ProbeEnd hash n s F L k b2)) (probeMatch k L j d K' (clean ((s.exec hash n z2).mem.word (.val 0 j)))) b2 ys := by
    intro K' ys hy h
    unfold probeMatch
    split
    · next e => exact twb_pure ⟨rfl, hj, h e, hV, hy⟩
    · split
      · exact twb_pure rfl
      · exact twb_pure ⟨rfl, hlt _⟩
  split
  · split
    · exact twb_pure rfl
    · refine twb_bind (twb_mono (twb_casKey hF hj hk hk0) ?_)
      rintro r b3 x3 ⟨⟨rfl, g1, g2⟩, g3⟩
      split
      · next e =>
        have hkey := g3 (.inl e)
        refine twb_bind (twb_do1 (fun _ => rfl) fun ys x r m' h1 h2 h3 h4 => ?_)
        refine twb_pure ⟨rfl, hj, ?_, hV, h2⟩
        rw [hF.key x3 (ys ++ [x]) (h1.trans (List.prefix_append ..)) h2 j hj (by rw [hkey]; exact hk0)]
        exact hkey
      · exact hmatch r x3 g2 fun e => g3 (.inr e)
  · refine hmatch K x2 f2 fun e => ?_
    subst e
    rw [hF.key z1 x2 (e4.trans f1) f2 j hj (by rw [hK]; exact hk0)]
    exact hK

/-- `putIfMatch` stores at most once, its own value, and only in a slot of its key. -/
theorem twb_mapPutIfMatch (hF : StillTab hash n s F L) {k nv ov : Word} (hk : clean k = k) (hk0 : k ≠ KINITIAL)
    (hnv : clean nv = nv) {b : Bool} (N : Nat) {xs : List Sched}
    (hb : ∀ ys, ys <+: F → clean ((s.exec hash n ys).mem.word (.key 0 i)) = k → nv = v → b = true) :
    twb hash n s F i v (fun _ _ _ => True) (mapPutIfMatch hash N .casValue k nv ov) b xs := by
  refine twb_bind (twb_do1 (fun _ => rfl) fun ys x r m' h1 h2 h3 h4 => ?_)
  refine twb_bind (twb_do1 (fun _ => rfl) fun ys x r m' h1 h2 h3 h4 => ?_)
  refine twb_bind (twb_do1 (fun _ => rfl) fun ys x r m' h1 h2 h3 h4 => ?_)
  have hr : r = 0 := by
    cases h3; exact hF.root ys ((List.prefix_append ..).trans h2)
  subst hr
  refine twb_bind (twb_mono (Q := fun _ _ _ => True) ?_ fun _ _ _ _ =>
    twb_bind (twb_do1 (fun _ => rfl) fun ys x r m' h1 h2 h3 h4 => twb_pure trivial))
  cases N with
  | zero => trivial
  | succ N =>
    refine twb_bind (twb_do1 (fun _ => rfl) fun ys x r m' h1 h2 h3 h4 => ?_)
    refine twb_bind (twb_do1 (fun _ => rfl) fun ys x r m' h1 h2 h3 h4 => ?_)
    refine twb_bind (twb_do1 (fun _ => rfl) fun ys x r m' h1 h2 h3 h4 => ?_)
    refine twb_bind (twb_do1 (fun _ => rfl) fun ys x r m' h1 h2 h3 h4 => ?_)
    have hr : r = L := by
      simp only [Act.exec] at h3
      split at h3
      · cases h3; exact hF.len ys ((List.prefix_append ..).trans h2)
      · cases h3
    subst hr
    refine twb_bind (twb_mono (twb_probe hF hk hk0 N) ?_)
    rintro (w | ⟨j, d, V⟩ | _) b1 x1 hp
    · exact twb_pure trivial
    · obtain ⟨rfl, hj, hkey, hV, hx1⟩ := hp
      dsimp only
      split
      · exact twb_pure trivial
      · refine twb_bind (twb_mono (twb_wantNewTable hx1) ?_)
        rintro w b2 x2 ⟨rfl, g1, g2⟩
        split
        · exact twb_bind (twb_resize hF)
        · refine twb_bind (twb_mono (twb_update hF hj hnv N ?_ V) ?_)
          · rintro rfl e; exact hb x1 hx1 hkey e
          · rintro _ b3 x3 ⟨w, rfl⟩
            exact twb_pure trivial
    · exact twb_bind (twb_resize hF)

theorem twb_mapGet (hF : StillTab hash n s F L) (k : Word) {b : Bool} (N : Nat) {xs : List Sched} :
    twb hash n s F i v (fun _ _ _ => True) (mapGet hash N k) b xs := by
  refine twb_bind (twb_do1 (fun _ => rfl) fun ys x r m' h1 h2 h3 h4 => ?_)
  have hr : r = 0 := by
    cases h3; exact hF.root ys ((List.prefix_append ..).trans h2)
  subst hr
  refine twb_bind (twb_mono (Q := fun _ _ _ => True) ?_ fun _ _ _ _ =>
    twb_bind (twb_do1 (fun _ => rfl) fun ys x r m' h1 h2 h3 h4 => twb_pure trivial))
  cases N with
  | zero => trivial
  | succ N =>
    refine twb_bind (twb_do1 (fun _ => rfl) fun ys x r m' h1 h2 h3 h4 => ?_)
    have hr : r = L := by
      simp only [Act.exec] at h3
      split at h3
      · cases h3; exact hF.len ys ((List.prefix_append ..).trans h2)
      · cases h3
    subst hr
    refine twb_bind (twb_mono (Q := fun p _ _ => ∃ w, p = .returned w) ?_ ?_)
    · have hlt : ∀ a, a &&& (r - 1) < r := by
        intro a
        rw [and_len hF.pow]; obtain ⟨p, -, e⟩ := hF.pow; exact Nat.mod_lt _ (by rw [e]; positivity)
      refine twb_loop (fun (x : Nat × Nat) _ _ => x.1 < r) ?_ N _ _ _ (hlt _)
      rintro ⟨j, d⟩ b' xs hj
      simp only at hj
      refine twb_bind (twb_mono twb_pcasRead ?_)
      rintro K b1 x1 -
      refine twb_bind (twb_mono twb_pcasRead ?_)
      rintro V b2 x2 ⟨⟨rfl, f1, f2⟩, z2, -, f4, rfl⟩
      split
      · exact twb_pure ⟨_, rfl⟩
      · refine twb_bind (twb_do1 (fun _ => rfl) fun ys x nt m' h1 h2 h3 h4 => ?_)
        have hnt : nt = none := by
          simp only [Act.exec] at h3
          split at h3
          · cases h3; exact hF.newT ys ((List.prefix_append ..).trans h2)
          · cases h3
        subst hnt
        split
        · rw [hF.mig z2 (f4.trans f2) j hj]
          exact twb_pure ⟨_, rfl⟩
        · split
          · exact twb_pure ⟨_, rfl⟩
          · exact twb_pure (hlt _)
    · rintro _ b1 x1 ⟨w, rfl⟩
      exact twb_pure trivial

/-! ## The whole system -/

/-- The key of slot `i` at the end of the execution. -/
def endKey (hash : Word → Word) (n : Nat) (s : Sys) (F : List Sched) (i : Nat) : Word :=
  clean ((s.exec hash n F).mem.word (.key 0 i))

theorem twb_op (hF : StillTab hash n s F L) (hi : i < L) {op : Op} (hv : op.Valid) (hu : op.isUpdate = false) {b : Bool}
    (hb : op.stores = some (endKey hash n s F i, v) → b = true) {xs : List Sched} :
    twb hash n s F i v (fun _ _ _ => True) (op.prog hash n) b xs := by
  have hput : ∀ k nv ov, ValidKey k → clean nv = nv → (k = endKey hash n s F i → nv = v → b = true) →
      twb hash n s F i v (fun _ _ _ => True) (mapPutIfMatch hash n .casValue k nv ov) b xs := by
    intro k nv ov hk hnv hb
    have hk := userKey_of_valid hk
    refine twb_mapPutIfMatch hF hk.clean hk.ne_init hnv n ?_
    intro ys hy e1 e2
    refine hb ?_ e2
    rw [endKey, hF.key ys F hy (List.prefix_refl _) i hi (by rw [e1]; exact hk.ne_init), e1]
  cases op with
  | get k => exact twb_bind (twb_mono (twb_mapGet hF k n) fun _ _ _ _ => twb_pure trivial)
  | containsKey k =>
    exact twb_bind (twb_bind (twb_mono (twb_mapGet hF k n) fun _ _ _ _ => twb_pure (twb_pure trivial)))
  | put k w =>
    exact twb_bind (twb_mono (hput k w NO_MATCH_OLD hv.1 (storable_of_valid hv.2).clean (fun e1 e2 => hb (by simp [Op.stores, e1, e2])))
      fun _ _ _ _ => twb_pure trivial)
  | putIfAbsent k w =>
    exact twb_bind (twb_mono (hput k w VTOMBSTONE hv.1 (storable_of_valid hv.2).clean (fun e1 e2 => hb (by simp [Op.stores, e1, e2])))
      fun _ _ _ _ => twb_pure trivial)
  | remove k =>
    exact twb_bind (twb_bind (twb_mono (hput k VTOMBSTONE NO_MATCH_OLD hv (by decide)
      (fun e1 e2 => hb (by simp [Op.stores, e1, e2]))) fun _ _ _ _ => twb_pure (twb_pure trivial)))
  | removeIf k w =>
    exact twb_bind (twb_bind (twb_mono (hput k VTOMBSTONE w hv.1 (by decide)
      (fun e1 e2 => hb (by simp [Op.stores, e1, e2]))) fun _ _ _ _ => twb_pure (twb_pure trivial)))
  | replace k o w =>
    exact twb_bind (twb_bind (twb_mono (hput k w o hv.1 (storable_of_valid hv.2.2).clean
      (fun e1 e2 => hb (by simp [Op.stores, e1, e2]))) fun _ _ _ _ => twb_pure (twb_pure trivial)))
  | putIfMatch k w o =>
    exact twb_bind (twb_mono (hput k w o hv.1 (storable_of_valid hv.2.1).clean (fun e1 e2 => hb (by simp [Op.stores, e1, e2])))
      fun _ _ _ _ => twb_pure trivial)
  | update k w => cases hu
  | size =>
    refine twb_bind (twb_bind (twb_do1 (fun _ => rfl) fun ys x r m' h1 h2 h3 h4 => ?_))
    exact twb_do1 (fun _ => rfl) fun ys x r m' h1 h2 h3 h4 => twb_pure trivial
  | isEmpty =>
    refine twb_bind (twb_bind (twb_bind (twb_do1 (fun _ => rfl) fun ys x r m' h1 h2 h3 h4 => ?_)))
    exact twb_do1 (fun _ => rfl) fun ys x r m' h1 h2 h3 h4 => twb_pure (twb_pure trivial)

/-- Calls the theorem covers. -/
def Fine (op : Op) : Prop := op.Valid ∧ op.isUpdate = false

/-- The thread will not store `v` under `K`. -/
def QuietThr (hash : Word → Word) (n : Nat) (s : Sys) (F : List Sched) (i : Nat) (v K : Word) (xs : List Sched) : Thread → Prop
  | .idle todo => ∀ op ∈ todo, Fine op ∧ op.stores ≠ some (K, v)
  | .busy _ p todo => twb hash n s F i v (fun _ _ _ => True) p false xs ∧ ∀ op ∈ todo, Fine op ∧ op.stores ≠ some (K, v)

/-- The thread may store `v` under `K` once. -/
def LoudThr (hash : Word → Word) (n : Nat) (s : Sys) (F : List Sched) (i : Nat) (v K : Word) (xs : List Sched) : Thread → Prop
  | .idle todo => (∀ op ∈ todo, Fine op) ∧ todo.countP (fun op => op.stores = some (K, v)) ≤ 1
  | .busy _ p todo => (∀ op ∈ todo, Fine op) ∧
      ((twb hash n s F i v (fun _ _ _ => True) p true xs ∧ ∀ op ∈ todo, op.stores ≠ some (K, v)) ∨
       (twb hash n s F i v (fun _ _ _ => True) p false xs ∧ todo.countP (fun op => op.stores = some (K, v)) ≤ 1))

theorem QuietThr.later {K : Word} {xs ys : List Sched} {th : Thread} (h : QuietThr hash n s F i v K xs th) (hp : xs <+: ys) :
    QuietThr hash n s F i v K ys th := by
  cases th with
  | idle todo => exact h
  | busy op p todo => exact ⟨twb_later (fun _ _ _ _ _ _ => trivial) h.1 hp, h.2⟩

theorem LoudThr.later {K : Word} {xs ys : List Sched} {th : Thread} (h : LoudThr hash n s F i v K xs th) (hp : xs <+: ys) :
    LoudThr hash n s F i v K ys th := by
  cases th with
  | idle todo => exact h
  | busy op p todo =>
    refine ⟨h.1, h.2.imp ?_ ?_⟩
    · exact fun g => ⟨twb_later (fun _ _ _ _ _ _ => trivial) g.1 hp, g.2⟩
    · exact fun g => ⟨twb_later (fun _ _ _ _ _ _ => trivial) g.1 hp, g.2⟩

theorem countP_zero {K : Word} {l : List Op} : (∀ op ∈ l, op.stores ≠ some (K, v)) ↔
    l.countP (fun op => op.stores = some (K, v)) = 0 := by
  rw [List.countP_eq_zero]; simp

/-- Only a CAS can turn a value word into `v`. -/
theorem hits_of_word {a : Act} {m m' : Mem} {r : a.Resp} (h : a.exec m = some (r, m')) (hn : 0 < m.next)
    (h1 : clean (m.word (.val 0 i)) ≠ v) (h2 : clean (m'.word (.val 0 i)) = v) : hits i v a r = true := by
  cases a <;> simp only [Act.exec] at h
  case cas a e w =>
    split at h
    · split at h
      · next he =>
        cases h
        simp only [setWord] at h2
        split at h2
        · next e' => simp only [hits, e', h2, Bool.true_and]; subst e'; rw [he] at h1; simp [h1]
        · exact absurd h2 h1
      · cases h; exact absurd h2 h1
    · cases h
  case alloc l sz =>
    split at h
    · cases h
      simp only [freshWords] at h2
      rw [if_neg (by omega)] at h2
      exact absurd h2 h1
    · cases h; exact absurd h2 h1
  all_goals first
    | (cases h; exact absurd h2 h1)
    | (split at h <;> first
        | (cases h; exact absurd h2 h1)
        | (split at h <;> (cases h; exact absurd h2 h1))
        | cases h)

/-- The invariant: at most one thread (`T`) may still store `v` in slot `i`, and as long as there is one, `v` has not been there. -/
structure Singly (hash : Word → Word) (n : Nat) (s : Sys) (F : List Sched) (i : Nat) (v K : Word) (xs : List Sched)
    (T : Option Nat) : Prop where
  quiet : ∀ t, T ≠ some t → QuietThr hash n s F i v K xs ((s.exec hash n xs).thr t)
  loud : ∀ t, T = some t → LoudThr hash n s F i v K xs ((s.exec hash n xs).thr t)
  new : T ≠ none → clean ((s.exec hash n xs).mem.word (.val 0 i)) ≠ v

theorem singly_step (hF : StillTab hash n s F L) (hi : i < L) {K : Word} (hK : K = endKey hash n s F i) {xs : List Sched}
    {x : Sched} (hx : xs ++ [x] <+: F) {T : Option Nat} (h : Singly hash n s F i v K xs T) :
    ∃ T', Singly hash n s F i v K (xs ++ [x]) T' ∧ (T = none → T' = none ∧
      (clean ((s.exec hash n xs).mem.word (.val 0 i)) ≠ v → clean ((s.exec hash n (xs ++ [x])).mem.word (.val 0 i)) ≠ v)) := by
  have hp : xs <+: xs ++ [x] := List.prefix_append ..
  -- nobody stored `v`
  have hsame : ∀ tid, (∀ t, t ≠ tid → (s.exec hash n (xs ++ [x])).thr t = (s.exec hash n xs).thr t) →
      (T ≠ some tid → QuietThr hash n s F i v K (xs ++ [x]) ((s.exec hash n (xs ++ [x])).thr tid)) →
      (T = some tid → LoudThr hash n s F i v K (xs ++ [x]) ((s.exec hash n (xs ++ [x])).thr tid)) →
      (clean ((s.exec hash n xs).mem.word (.val 0 i)) ≠ v → clean ((s.exec hash n (xs ++ [x])).mem.word (.val 0 i)) ≠ v) →
      ∃ T', Singly hash n s F i v K (xs ++ [x]) T' ∧ (T = none → T' = none ∧
        (clean ((s.exec hash n xs).mem.word (.val 0 i)) ≠ v → clean ((s.exec hash n (xs ++ [x])).mem.word (.val 0 i)) ≠ v)) := by
    intro tid h1 h2 h3 h4
    refine ⟨T, ⟨fun t ht => ?_, fun t ht => ?_, fun hT => h4 (h.new hT)⟩, fun e => ⟨e, h4⟩⟩
    · by_cases e : t = tid
      · subst e; exact h2 ht
      · rw [h1 t e]; exact (h.quiet t ht).later hp
    · by_cases e : t = tid
      · subst e; exact h3 ht
      · rw [h1 t e]; exact (h.loud t ht).later hp
  cases x with
  | evict t j =>
    have e := exec_snoc (hash := hash) (n := n) (s := s) xs (.evict t j)
    rw [Sys.step] at e
    refine hsame 0 (fun t _ => by rw [e]) (fun hT => ?_) (fun hT => ?_) (fun h => by rw [e]; exact h)
    · rw [e]; exact (h.quiet 0 hT).later hp
    · rw [e]; exact (h.loud 0 hT).later hp
  | run tid =>
    have hstep := exec_snoc (hash := hash) (n := n) (s := s) xs (.run tid)
    have hstay : s.exec hash n (xs ++ [.run tid]) = s.exec hash n xs → ∃ T', Singly hash n s F i v K (xs ++ [.run tid]) T' ∧
        (T = none → T' = none ∧ (clean ((s.exec hash n xs).mem.word (.val 0 i)) ≠ v →
          clean ((s.exec hash n (xs ++ [.run tid])).mem.word (.val 0 i)) ≠ v)) := by
      intro e
      refine hsame tid (fun t _ => by rw [e]) (fun hT => ?_) (fun hT => ?_) (fun h => by rw [e]; exact h)
      · rw [e]; exact (h.quiet tid hT).later hp
      · rw [e]; exact (h.loud tid hT).later hp
    rw [Sys.step] at hstep
    split at hstep
    · exact hstay hstep
    · next op todo hthr =>
      refine hsame tid (fun t ht => by rw [hstep]; exact upd_ne ht) (fun hT => ?_) (fun hT => ?_) (fun h => by rw [hstep]; exact h)
      · have hq := h.quiet tid hT
        rw [hthr] at hq
        rw [hstep]
        simp only [upd_same]
        obtain ⟨⟨g1, g2⟩, g3⟩ := hq op (List.mem_cons_self ..)
        exact ⟨twb_op hF hi g1 g2 (fun e => absurd (hK ▸ e) g3), fun op' h' => hq op' (List.mem_cons_of_mem _ h')⟩
      · have hq := h.loud tid hT
        rw [hthr] at hq
        rw [hstep]
        simp only [upd_same]
        obtain ⟨g1, g2⟩ := hq.1 op (List.mem_cons_self ..)
        refine ⟨fun op' h' => hq.1 op' (List.mem_cons_of_mem _ h'), ?_⟩
        have hc := hq.2
        rw [List.countP_cons] at hc
        by_cases e : op.stores = some (K, v)
        · refine .inl ⟨twb_op hF hi g1 g2 (fun _ => rfl), countP_zero.mpr ?_⟩
          simp only [e, decide_true, if_true] at hc
          omega
        · refine .inr ⟨twb_op hF hi g1 g2 (fun e' => absurd (hK ▸ e') e), by omega⟩
    · exact hsame tid (fun t _ => by rw [hstep]) (fun hT => by rw [hstep]; exact (h.quiet tid hT).later hp)
        (fun hT => by rw [hstep]; exact (h.loud tid hT).later hp) (fun h => by rw [hstep]; exact h)
    · exact hstay hstep
    · next op r todo hthr =>
      refine hsame tid (fun t ht => by rw [hstep]; exact upd_ne ht) (fun hT => ?_) (fun hT => ?_) (fun h => by rw [hstep]; exact h)
      · have hq := h.quiet tid hT
        rw [hthr] at hq
        rw [hstep]
        simp only [upd_same]
        exact hq.2
      · have hq := h.loud tid hT
        rw [hthr] at hq
        rw [hstep]
        simp only [upd_same]
        refine ⟨hq.1, ?_⟩
        rcases hq.2 with g | g
        · rw [countP_zero.mp g.2]; omega
        · exact g.2
    · next op a k todo hthr =>
      split at hstep
      · exact hsame tid (fun t _ => by rw [hstep]) (fun hT => by rw [hstep]; exact (h.quiet tid hT).later hp)
          (fun hT => by rw [hstep]; exact (h.loud tid hT).later hp) (fun h => by rw [hstep]; exact h)
      · next r m' he =>
        have hmem : (s.exec hash n (xs ++ [.run tid])).mem = m' := by rw [hstep]
        have hthr' : (s.exec hash n (xs ++ [.run tid])).thr tid = .busy op (k r) todo := by rw [hstep]; exact upd_same ..
        have hothers : ∀ t, t ≠ tid → (s.exec hash n (xs ++ [.run tid])).thr t = (s.exec hash n xs).thr t := by
          intro t ht; rw [hstep]; exact upd_ne ht
        have hword : hits i v a r = false → clean ((s.exec hash n xs).mem.word (.val 0 i)) ≠ v →
            clean ((s.exec hash n (xs ++ [.run tid])).mem.word (.val 0 i)) ≠ v := by
          intro hh h1 h2
          rw [hmem] at h2
          rw [hits_of_word he (hF.next xs (hp.trans hx)) h1 h2] at hh
          cases hh
        have hfalse : ∀ {Q : Res → Bool → List Sched → Prop}, twb hash n s F i v Q (.act a k) false xs →
            hits i v a r = false ∧ twb hash n s F i v Q (k r) false (xs ++ [.run tid]) := by
          intro Q hq
          obtain ⟨g1, g2⟩ := hq xs _ r m' (List.prefix_refl _) hx he hmem
          refine ⟨?_, by simpa using g2⟩
          cases hh : hits i v a r with
          | false => rfl
          | true => cases g1 hh
        by_cases hT : T = some tid
        · have hq := h.loud tid hT
          rw [hthr] at hq
          rcases hq.2 with ⟨g1, g2⟩ | ⟨g1, g2⟩
          · obtain ⟨-, g4⟩ := g1 xs _ r m' (List.prefix_refl _) hx he hmem
            cases hh : hits i v a r with
            | true =>
              rw [hh] at g4
              refine ⟨none, ⟨fun t _ => ?_, fun t e => (by cases e), fun e => absurd rfl e⟩, fun e => by rw [e] at hT; cases hT⟩
              by_cases e : t = tid
              · subst e
                rw [hthr']
                exact ⟨g4, fun op' h' => ⟨hq.1 op' h', g2 op' h'⟩⟩
              · rw [hothers t e]
                exact (h.quiet t (by rw [hT]; exact fun h => e (Option.some.inj h).symm)).later hp
            | false =>
              rw [hh] at g4
              refine hsame tid hothers (fun e => absurd hT e) (fun _ => ?_) (hword hh)
              rw [hthr']
              exact ⟨hq.1, .inl ⟨g4, g2⟩⟩
          · obtain ⟨hh, g4⟩ := hfalse g1
            refine hsame tid hothers (fun e => absurd hT e) (fun _ => ?_) (hword hh)
            rw [hthr']
            exact ⟨hq.1, .inr ⟨g4, g2⟩⟩
        · have hq := h.quiet tid hT
          rw [hthr] at hq
          obtain ⟨hh, g4⟩ := hfalse hq.1
          refine hsame tid hothers (fun _ => ?_) (fun e => absurd e hT) (hword hh)
          rw [hthr']
          exact ⟨g4, hq.2⟩

theorem singly_exec (hF : StillTab hash n s F L) (hi : i < L) {xs ys : List Sched} (hp : xs <+: ys) (hy : ys <+: F)
    {T : Option Nat} (h : Singly hash n s F i v (endKey hash n s F i) xs T) :
    ∃ T', Singly hash n s F i v (endKey hash n s F i) ys T' ∧ (T = none → T' = none ∧
      (clean ((s.exec hash n xs).mem.word (.val 0 i)) ≠ v → clean ((s.exec hash n ys).mem.word (.val 0 i)) ≠ v)) := by
  obtain ⟨l, rfl⟩ := hp
  induction l using List.reverseRecOn with
  | nil => rw [List.append_nil]; exact ⟨T, h, fun e => ⟨e, id⟩⟩
  | append_singleton l x ih =>
    rw [← List.append_assoc] at hy ⊢
    obtain ⟨T1, g1, g2⟩ := ih ((List.prefix_append ..).trans hy)
    obtain ⟨T2, g3, g4⟩ := singly_step hF hi rfl hy g1
    exact ⟨T2, g3, fun e => ⟨(g4 (g2 e).1).1, fun hne => (g4 (g2 e).1).2 ((g2 e).2 hne)⟩⟩

/-- If no two calls store the same value under the same key, and none stores what is there at the start, no value word returns. -/
theorem noReturn_of_distinct (hs0 : ∀ t, ∃ l, s.thr t = .idle l ∧ ∀ op ∈ l, op.Valid) {calls : Nat → List Op}
    (hc : ∀ t, s.thr t = .idle (calls t)) (hd : DistinctStores calls)
    (hw : clean (s.mem.word (.val 0 i)) = VINITIAL ∨ clean (s.mem.word (.key 0 i)) ≠ KINITIAL ∧ ∀ t, ∀ op ∈ calls t,
      op.stores ≠ some (clean (s.mem.word (.key 0 i)), clean (s.mem.word (.val 0 i)))) (hF : StillTab hash n s F L) (hi : i < L) :
    NoReturn hash n s F (.val 0 i) := by
  intro x y z h1 h2 h3 _ _ e
  by_contra hne
  have hvalid : ∀ t, ∀ op ∈ calls t, Fine op := by
    intro t op hop
    obtain ⟨l, e1, e2⟩ := hs0 t
    rw [hc] at e1
    cases e1
    exact ⟨e2 op hop, hd.noUpdate t op hop⟩
  generalize hv : clean ((s.exec hash n x).mem.word (.val 0 i)) = v at hne e
  -- the state at the start
  have hstart : ∃ T, Singly hash n s F i v (endKey hash n s F i) [] T := by
    by_cases hvi : v = VINITIAL
    · refine ⟨none, fun t _ => ?_, fun t e => (by cases e), fun e => absurd rfl e⟩
      show QuietThr _ _ _ _ _ _ _ _ (s.thr t)
      rw [hc]
      intro op hop
      refine ⟨hvalid t op hop, fun hst => ?_⟩
      have hval := (hvalid t op hop).1
      subst hvi
      cases op with
      | put k w => cases hst; exact absurd rfl (storable_of_valid hval.2).ne_init
      | putIfAbsent k w => cases hst; exact absurd rfl (storable_of_valid hval.2).ne_init
      | replace k o w => cases hst; exact absurd rfl (storable_of_valid hval.2.2).ne_init
      | putIfMatch k w o => cases hst; exact absurd rfl (storable_of_valid hval.2.1).ne_init
      | remove k => simp only [Op.stores, Option.some.injEq, Prod.mk.injEq] at hst; exact absurd hst.2 (by decide)
      | removeIf k w => simp only [Op.stores, Option.some.injEq, Prod.mk.injEq] at hst; exact absurd hst.2 (by decide)
      | get k => cases hst
      | containsKey k => cases hst
      | update k w => cases hst
      | size => cases hst
      | isEmpty => cases hst
    · by_cases hex : ∃ t, ∃ op ∈ calls t, op.stores = some (endKey hash n s F i, v)
      · obtain ⟨T, op, hop, hst⟩ := hex
        refine ⟨some T, fun t ht => ?_, fun t e => ?_, fun _ => ?_⟩
        · show QuietThr _ _ _ _ _ _ _ _ (s.thr t)
          rw [hc]
          intro op' hop'
          refine ⟨hvalid t op' hop', fun hst' => ht ?_⟩
          rw [hd.one T t _ _ op hop op' hop' hst hst']
        · cases e
          show LoudThr _ _ _ _ _ _ _ _ (s.thr T)
          rw [hc]
          exact ⟨hvalid _, hd.once _ _ _⟩
        · show clean (s.mem.word _) ≠ v
          intro h
          rcases hw with hw | ⟨hK, hw⟩
          · exact hvi (h.symm.trans hw)
          · refine hw T op hop ?_
            rw [hst, h, endKey, hF.key [] F List.nil_prefix (List.prefix_refl _) i hi hK]; rfl
      · refine ⟨none, fun t _ => ?_, fun t e => (by cases e), fun e => absurd rfl e⟩
        show QuietThr _ _ _ _ _ _ _ _ (s.thr t)
        rw [hc]
        exact fun op hop => ⟨hvalid t op hop, fun hst => hex ⟨t, op, hop, hst⟩⟩
  obtain ⟨T, hT⟩ := hstart
  obtain ⟨Tx, hTx, -⟩ := singly_exec hF hi (List.nil_prefix (l := x)) ((h1.trans h2).trans h3) hT
  have hnone : Tx = none := by
    by_contra hx
    exact hTx.new hx hv
  subst hnone
  obtain ⟨Ty, hTy, g⟩ := singly_exec hF hi h1 (h2.trans h3) hTx
  obtain ⟨rfl, -⟩ := g rfl
  obtain ⟨Tz, -, g⟩ := singly_exec hF hi h2 h3 hTy
  exact (g rfl).2 hne e.symm

end PMap
