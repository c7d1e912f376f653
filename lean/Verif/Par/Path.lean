import Verif.Par.Ops

/-!
# Where keys lie: the probe path of a key has no gap (proof machinery)

A second, light logic on top of `wp`: only what concerns the claiming of slots is proved here, the rest is taken from the
facts that `wp` gives.
-/

namespace PMap

open Prog

variable {A : Word → Word → Prop} {hash : Word → Word} {m m' m'' : Mem} {t i : Nat} {α β σ : Type}

/-- The slot probed after `d` steps (hashMap.hpp:1055, 1133): home slot, then one further each time, round the end. -/
def probeAt (hash : Word → Word) (k : Word) (len : Nat) : Nat → Nat
  | 0 => homePut hash k len
  | d + 1 => (probeAt hash k len d + 1) &&& (len - 1)

/-- Every key lies on its probe path, within the limit, and no slot before it is empty; there are no tombstone keys
before the first growth. -/
structure KInv (hash : Word → Word) (m : Mem) : Prop where
  path : ∀ t i, Has m t i → pk m t i ≠ KINITIAL → pk m t i ≠ KTOMBSTONE →
    ∃ d, d < reprobeLimit (m.tab t).len ∧ probeAt hash (pk m t i) (m.tab t).len d = i ∧
      ∀ e, e < d → pk m t (probeAt hash (pk m t i) (m.tab t).len e) ≠ KINITIAL
  tomb : ∀ t i, Has m t i → pk m t i = KTOMBSTONE → 1 < m.next

/-- A key word that is not the initial one with the dirty bit never becomes so. -/
def KSt (m m' : Mem) : Prop := ∀ t i, Has m t i → m.word (.key t i) ≠ dirty KINITIAL → m'.word (.key t i) ≠ dirty KINITIAL

/-- `Go` with both invariants. -/
structure GoK (A : Word → Word → Prop) (hash : Word → Word) (m m' : Mem) : Prop where
  go : Go A m m'
  st : KSt m m'
  inv : KInv hash m'

theorem GoK.refl (h : PInv A m) (hk : KInv hash m) : GoK A hash m m := ⟨.refl h, fun _ _ _ h => h, hk⟩
theorem GoK.trans (h1 : GoK A hash m m') (h2 : GoK A hash m' m'') : GoK A hash m m'' :=
  ⟨h1.go.trans h2.go, fun t i hx h => h2.st t i (h1.go.has hx) (h1.st t i hx h), h2.inv⟩

/-- See the head of this file: every action of `p` keeps `KInv` and is a `KSt`, given that it is a `Go`. -/
def kwp (A : Word → Word → Prop) (hash : Word → Word) (Q : α → Mem → Prop) : Prog α → Mem → Prop
  | .ret a, m => Q a m
  | .halt _, _ => True
  | .act a k, m => ∀ m1, GoK A hash m m1 → ∀ r m2, a.exec m1 = some (r, m2) → Go A m1 m2 →
      (KInv hash m2 ∧ KSt m1 m2) ∧ kwp A hash Q (k r) m2

theorem kwp_env {Q : α → Mem → Prop} (hQ : ∀ a m m', GoK A hash m m' → Q a m → Q a m') {p : Prog α}
    (h : kwp A hash Q p m) (he : GoK A hash m m') : kwp A hash Q p m' := by
  cases p with
  | ret a => exact hQ _ _ _ he h
  | halt x => trivial
  | act a k => exact fun m1 h1 => h m1 (he.trans h1)

/-- What `wp` knows may be used, and the memory has gone on from where it was. -/
theorem kwp_and {M : Prop} {P Q : α → Mem → Prop} {p : Prog α} (hm : PInv A m) (hk : KInv hash m) (hw : wp (pRG A M) P p m)
    (h : kwp A hash Q p m) : kwp A hash (fun a m' => GoK A hash m m' ∧ P a m' ∧ Q a m') p m := by
  suffices H : ∀ m0, GoK A hash m0 m → kwp A hash (fun a m' => GoK A hash m0 m' ∧ P a m' ∧ Q a m') p m from
    H m (.refl hm hk)
  intro m0 g0
  induction p generalizing m with
  | ret a => exact ⟨g0, hw, h⟩
  | halt x => trivial
  | act a k ih =>
    intro m1 g1 r m2 he g2
    rw [wp] at hw
    obtain ⟨r', m2', he', hi, hs, _, hw'⟩ := hw m1 (fun _ => ⟨g1.go.inv, g1.go.evo⟩) g1.go.inv
    rw [he] at he'
    cases he'
    obtain ⟨⟨h1, h2⟩, h3⟩ := h m1 g1 r m2 he g2
    have g : GoK A hash m0 m2 := (g0.trans g1).trans ⟨g2, h2, h1⟩
    exact ⟨⟨h1, h2⟩, ih r g2.inv h1 hw' h3 g⟩

theorem kwp_mono {Q Q' : α → Mem → Prop} {p : Prog α} (h : kwp A hash Q p m) (hq : ∀ a m', Q a m' → Q' a m') :
    kwp A hash Q' p m := by
  induction p generalizing m with
  | ret a => exact hq _ _ h
  | halt x => trivial
  | act a k ih =>
    intro m1 g1 r m2 he g2
    obtain ⟨h1, h2⟩ := h m1 g1 r m2 he g2
    exact ⟨h1, ih r h2⟩

theorem kwp_bind {Q : β → Mem → Prop} {p : Prog α} {f : α → Prog β}
    (h : kwp A hash (fun a m' => kwp A hash Q (f a) m') p m) : kwp A hash Q (p >>= f) m := by
  change kwp A hash Q (p.bind f) m
  induction p generalizing m with
  | ret a => exact h
  | halt x => trivial
  | act a k ih =>
    intro m1 g1 r m2 he g2
    obtain ⟨h1, h2⟩ := h m1 g1 r m2 he g2
    exact ⟨h1, ih r h2⟩

theorem kwp_pure {Q : α → Mem → Prop} {a : α} (h : Q a m) : kwp A hash Q (pure a) m := h

/-- Binding with what both logics know of the first part. -/
theorem k_bind {M : Prop} {P R : α → Mem → Prop} {Q : β → Mem → Prop} {p : Prog α} {f : α → Prog β} (hm : PInv A m)
    (hk : KInv hash m) (hw : wp (pRG A M) (fun a m' => Go A m m' ∧ P a m') p m) (h : kwp A hash R p m)
    (hf : ∀ a m', GoK A hash m m' → P a m' → R a m' → kwp A hash Q (f a) m') : kwp A hash Q (p >>= f) m :=
  kwp_bind (kwp_mono (kwp_and hm hk hw h) fun a m' h => hf a m' h.1 h.2.1.2 h.2.2)

/-! ## Actions that claim nothing -/

/-- The action does not claim a slot: a CAS on a key word only removes the dirty bit. -/
def Act.NoClaim : Act → Prop
  | .cas (.key _ _) e n => n = clean e
  | _ => True

/-- No action of the program claims a slot, whatever it reads. -/
def nc : Prog α → Prop
  | .ret _ => True
  | .halt _ => True
  | .act a k => a.NoClaim ∧ ∀ r, nc (k r)

theorem nc_bind {p : Prog α} {f : α → Prog β} (h : nc p) (hf : ∀ a, nc (f a)) : nc (p >>= f) := by
  change nc (p.bind f)
  induction p with
  | ret a => exact hf a
  | halt x => trivial
  | act a k ih => exact ⟨h.1, fun r => ih r (h.2 r)⟩

theorem nc_pure (a : α) : nc (pure a : Prog α) := trivial
theorem nc_do1 {a : Act} (h : a.NoClaim) : nc (do1 a) := ⟨h, fun _ => trivial⟩

theorem nc_loop {body : σ → Prog (Ctl σ α)} (h : ∀ s, nc (body s)) (n : Nat) : ∀ s, nc (loop n body s) := by
  induction n with
  | zero => intro s; trivial
  | succ n ih =>
    intro s
    refine nc_bind (h s) ?_
    rintro (x | a)
    · exact ih x
    · trivial

theorem nc_check (b : Bool) : nc (check b) := nc_do1 trivial

theorem nc_pcasRead (a : Addr) : nc (pcasRead a) := by
  refine nc_bind (nc_do1 trivial) fun w => ?_
  split
  · refine nc_bind (nc_bind (nc_do1 trivial) fun _ => nc_bind (nc_do1 trivial) fun _ => nc_bind (nc_do1 ?_) fun _ => trivial)
      fun _ => trivial
    cases a <;> simp [Act.NoClaim, clean]
  · trivial

theorem nc_pcasVal (t i : Nat) (o n : Word) : nc (pcas (.val t i) o n) :=
  nc_bind (nc_pcasRead _) fun _ => nc_bind (nc_do1 trivial) fun _ => nc_bind (nc_check _) fun _ => trivial

theorem nc_casValue (t i : Nat) (o n : Word) : nc (casValue t i o n) := nc_bind (nc_pcasVal ..) fun _ => trivial

/-- Nothing is claimed if every key word is as before, up to the dirty bit, and new slots are empty. -/
theorem KInv.keep (h : KInv hash m) (hm : PInv A m) (g : Go A m m')
    (hs : ∀ t i, Has m' t i → (Has m t i ∧ pk m' t i = pk m t i) ∨ pk m' t i = KINITIAL) : KInv hash m' := by
  constructor
  · intro t i hx h1 h2
    rcases hs t i hx with ⟨hx0, e⟩ | e
    · rw [e] at h1 h2 ⊢
      obtain ⟨d, hd, hi, hp⟩ := h.path t i hx0 h1 h2
      rw [g.evo.len t hx0.1]
      refine ⟨d, hd, hi, fun e he => ?_⟩
      have hxe : Has m t (probeAt hash (pk m t i) (m.tab t).len e) := by
        obtain ⟨p, _, hp'⟩ := hm.pow t hx0.1
        refine ⟨hx0.1, ?_⟩
        cases e <;> simp only [probeAt, homePut] <;> rw [hp'] <;> exact and_lt_pow
      rw [g.evo.key t _ hxe (hp e he)]
      exact hp e he
    · exact absurd e h1
  · intro t i hx h1
    rcases hs t i hx with ⟨hx0, e⟩ | e
    · rw [e] at h1
      exact lt_of_lt_of_le (h.tomb t i hx0 h1) g.evo.next
    · rw [e] at h1; exact absurd h1 (by decide)

theorem dirty_KI_ne {w : Word} : clean w ≠ dirty KINITIAL := by
  intro e
  have := isDirty_clean w
  rw [e] at this
  exact absurd this (by decide)

/-- An action that does not claim keeps the paths. -/
theorem NoClaim.keep {a : Act} (hn : a.NoClaim) (hm : PInv A m) (h : KInv hash m) {r : a.Resp} (he : a.exec m = some (r, m'))
    (g : Go A m m') : KInv hash m' ∧ KSt m m' := by
  -- the key words of slots that exist are as before
  have same : (∀ t i, Has m t i → m'.word (.key t i) = m.word (.key t i)) → m'.next = m.next → KInv hash m' ∧ KSt m m' := by
    intro hw hx
    refine ⟨h.keep hm g fun t i hx' => ?_, fun t i hx h => by rw [hw t i hx]; exact h⟩
    have hx0 : Has m t i := by
      have h1 : t < m.next := by rw [← hx]; exact hx'.1
      exact ⟨h1, by rw [← g.evo.len t h1]; exact hx'.2⟩
    exact .inl ⟨hx0, by rw [pk, pk, hw t i hx0]⟩
  cases a with
  | cas a e n =>
    simp only [Act.exec] at he
    split at he
    · next hb =>
      split at he
      · next hw =>
        simp only [Option.some.injEq, Prod.mk.injEq] at he
        obtain ⟨-, rfl⟩ := he
        cases a with
        | val t i => exact same (fun t' i' _ => by simp [setWord]) rfl
        | key t i =>
          have hn : n = clean e := hn
          subst hn
          refine ⟨h.keep hm g fun t' i' hx' => ?_, fun t' i' hx h => ?_⟩
          · refine .inl ⟨hx', ?_⟩
            rw [pk_setKey]
            split
            · next e' => rw [clean_clean, pk, e'.1, e'.2, hw]
            · rfl
          · simp only [setWord]
            split
            · exact dirty_KI_ne
            · exact h
      · simp only [Option.some.injEq, Prod.mk.injEq] at he
        obtain ⟨-, rfl⟩ := he
        exact same (fun _ _ _ => rfl) rfl
    · cases he
  | alloc l sz =>
    simp only [Act.exec] at he
    split at he
    · simp only [Option.some.injEq, Prod.mk.injEq] at he
      obtain ⟨-, rfl⟩ := he
      have hw : ∀ t i, t ≠ m.next → freshWords m.word m.next (.key t i) = m.word (.key t i) := by
        intro t i hne; simp only [freshWords, if_neg hne]
      refine ⟨h.keep hm g fun t i hx => ?_, fun t i hx h => ?_⟩
      · by_cases e : t = m.next
        · right; simp only [pk, freshWords, e, if_true, clean_dirty, clean_KI]
        · have h1 : t < m.next := by have := hx.1; simp only at this; omega
          refine .inl ⟨⟨h1, ?_⟩, by simp only [pk]; rw [hw t i e]⟩
          have := hx.2
          simp only [upd, if_neg e] at this
          exact this
      · simp only [hw t i (Nat.ne_of_lt hx.1)]; exact h
    · simp only [Option.some.injEq, Prod.mk.injEq] at he
      obtain ⟨-, rfl⟩ := he
      exact same (fun _ _ _ => rfl) rfl
  | _ =>
    simp only [Act.exec] at he
    repeat' split at he
    all_goals first
      | cases he; done
      | (simp only [Option.some.injEq, Prod.mk.injEq] at he; obtain ⟨-, rfl⟩ := he; exact same (fun _ _ _ => rfl) rfl)

theorem kwp_nc {p : Prog α} (h : nc p) : kwp A hash (fun _ _ => True) p m := by
  induction p generalizing m with
  | ret a => trivial
  | halt x => trivial
  | act a k ih =>
    intro m1 g1 r m2 he g2
    exact ⟨NoClaim.keep h.1 g1.go.inv g1.inv he g2, ih r (h.2 r)⟩

/-- Binding when the first part claims nothing. -/
theorem k_nc {M : Prop} {P : α → Mem → Prop} {Q : β → Mem → Prop} {p : Prog α} {f : α → Prog β} (hm : PInv A m)
    (hk : KInv hash m) (hw : wp (pRG A M) (fun a m' => Go A m m' ∧ P a m') p m) (h : nc p)
    (hf : ∀ a m', GoK A hash m m' → P a m' → kwp A hash Q (f a) m') : kwp A hash Q (p >>= f) m :=
  k_bind hm hk hw (kwp_nc h) fun a m' g h _ => hf a m' g h

/-! ## Claiming -/

/-- Claiming slot `i` for `key` is right: a tombstone after the first growth, or the key on its path. -/
def MayClaim (hash : Word → Word) (m : Mem) (t i : Nat) (key : Word) : Prop :=
  Has m t i ∧ ((key = KTOMBSTONE ∧ 1 < m.next) ∨ (key ≠ KTOMBSTONE ∧
    ∃ d, d < reprobeLimit (m.tab t).len ∧ probeAt hash key (m.tab t).len d = i ∧
      ∀ e, e < d → pk m t (probeAt hash key (m.tab t).len e) ≠ KINITIAL))

theorem probeAt_lt (hm : PInv A m) (ht : t < m.next) (k : Word) (d : Nat) : probeAt hash k (m.tab t).len d < (m.tab t).len := by
  obtain ⟨p, _, hp⟩ := hm.pow t ht
  cases d <;> simp only [probeAt, homePut] <;> rw [hp] <;> exact and_lt_pow

theorem Go.mayClaim (g : Go A m m') {key : Word} (h : MayClaim hash m t i key) : MayClaim hash m' t i key := by
  refine ⟨g.has h.1, ?_⟩
  rcases h.2 with ⟨e, h2⟩ | ⟨e, d, hd, hi, hp⟩
  · exact .inl ⟨e, lt_of_lt_of_le h2 g.evo.next⟩
  · rw [g.evo.len t h.1.1]
    refine .inr ⟨e, d, hd, hi, fun e he => ?_⟩
    rw [g.evo.key t _ ⟨h.1.1, probeAt_lt g.src h.1.1 _ _⟩ (hp e he)]
    exact hp e he

/-- A claim keeps the paths. -/
theorem claim_keep (hm : PInv A m) (h : KInv hash m) {key : Word} (hc : MayClaim hash m t i key) (hk : clean key = key)
    (hne : key ≠ KINITIAL) (he : m.word (.key t i) = KINITIAL)
    (g : Go A m { m with word := setWord m.word (.key t i) (dirty key) }) :
    KInv hash { m with word := setWord m.word (.key t i) (dirty key) } ∧
      KSt m { m with word := setWord m.word (.key t i) (dirty key) } := by
  have hpk : ∀ t' i', pk { m with word := setWord m.word (.key t i) (dirty key) } t' i' =
      if t' = t ∧ i' = i then key else pk m t' i' := by
    intro t' i'; rw [pk_setKey, clean_dirty, hk]
  have hstay : ∀ t' i', pk m t' i' ≠ KINITIAL → pk { m with word := setWord m.word (.key t i) (dirty key) } t' i' ≠ KINITIAL := by
    intro t' i' h; rw [hpk]; split
    · exact hne
    · exact h
  refine ⟨⟨?_, ?_⟩, ?_⟩
  · intro t' i' hx h1 h2
    rw [hpk] at h1 h2 ⊢
    split at h1
    · next e =>
      obtain ⟨rfl, rfl⟩ := e
      simp only [and_self, if_true] at h2 ⊢
      rcases hc.2 with ⟨e, _⟩ | ⟨_, d, hd, hi, hp⟩
      · exact absurd e h2
      · exact ⟨d, hd, hi, fun e he => hstay _ _ (hp e he)⟩
    · next e =>
      rw [if_neg e] at h2 ⊢
      obtain ⟨d, hd, hi, hp⟩ := h.path t' i' hx h1 h2
      exact ⟨d, hd, hi, fun e he => hstay _ _ (hp e he)⟩
  · intro t' i' hx h1
    rw [hpk] at h1
    split at h1
    · next e =>
      obtain ⟨rfl, rfl⟩ := e
      rcases hc.2 with ⟨_, h2⟩ | ⟨h2, _⟩
      · exact h2
      · exact absurd h1 h2
    · exact h.tomb t' i' hx h1
  · intro t' i' hx h1
    simp only [setWord, Addr.key.injEq]
    split
    · intro e
      have := congrArg clean e
      rw [clean_dirty, clean_dirty, hk, clean_KI] at this
      exact hne this
    · exact h1

/-- After a read the key word is not the initial one with the dirty bit. -/
theorem k_readKey : kwp A hash (fun _ m' => m'.word (.key t i) ≠ dirty KINITIAL) (pcasRead (.key t i)) m := by
  intro m1 g1 w m2 he g2
  have h12 : m2 = m1 ∧ w = m1.word (.key t i) ∧ Has m1 t i := by
    simp only [Act.exec] at he
    split at he
    · next hb => simp only [Option.some.injEq, Prod.mk.injEq] at he; exact ⟨he.2.symm, he.1.symm, hb⟩
    · cases he
  refine ⟨NoClaim.keep (a := .load (.key t i)) trivial g1.go.inv g1.inv he g2, ?_⟩
  obtain ⟨rfl, hw, hx⟩ := h12
  have k1 : KInv hash m2 := g1.inv
  show kwp A hash _ (if isDirty w = true then _ else _) m2
  split
  · refine kwp_bind (kwp_bind ?_)
    -- flush
    intro m3 g3 r3 m4 he3 g4
    have n4 := NoClaim.keep (a := .flush (.key t i)) trivial g3.go.inv g3.inv he3 g4
    refine ⟨n4, kwp_bind ?_⟩
    -- fence
    intro m5 g5 r5 m6 he5 g6
    have n6 := NoClaim.keep (a := .fence) trivial g5.go.inv g5.inv he5 g6
    refine ⟨n6, kwp_bind ?_⟩
    -- cas
    intro m7 g7 r7 m8 he7 g8
    have n8 := NoClaim.keep (a := .cas (.key t i) w (clearMark w DirtyFlag)) rfl g7.go.inv g7.inv he7 g8
    refine ⟨n8, ?_⟩
    show m8.word (.key t i) ≠ dirty KINITIAL
    have hx7 : Has m7 t i := g7.go.has (g6.has (g5.go.has (g4.has (g3.go.has hx))))
    by_cases hd : m7.word (.key t i) = dirty KINITIAL
    · simp only [Act.exec] at he7
      split at he7
      · split at he7
        · simp only [Option.some.injEq, Prod.mk.injEq] at he7
          rw [← he7.2]
          simp only [setWord, if_true]
          exact dirty_KI_ne
        · next hw7 =>
          exfalso
          -- the word was something else before, and did not become the initial one
          have h0 : m2.word (.key t i) ≠ dirty KINITIAL := by
            rw [← hw]; intro e; rw [e] at hw7; exact hw7 hd
          have h3 := g3.st t i hx h0
          have h4 := n4.2 t i (g3.go.has hx) h3
          have h5 := g5.st t i (g4.has (g3.go.has hx)) h4
          have h6 := n6.2 t i (g5.go.has (g4.has (g3.go.has hx))) h5
          exact g7.st t i (g6.has (g5.go.has (g4.has (g3.go.has hx)))) h6 hd
      · next hn => exact absurd hx7 hn
    · exact n8.2 t i hx7 hd
  · next hd =>
    show m2.word (.key t i) ≠ dirty KINITIAL
    rw [← hw]; intro e; rw [e] at hd; exact hd (by decide)

/-- Claiming a slot, or meeting the key that is there. -/
theorem k_casKey (hm : PInv A m) (hi : KInv hash m) {key : Word} (hk : clean key = key) (hne : key ≠ KINITIAL)
    (hc : MayClaim hash m t i key) :
    kwp A hash (fun _ m' => pk m' t i ≠ KINITIAL) (casKey t i KINITIAL key) m := by
  unfold casKey pcas
  refine kwp_bind (kwp_bind (kwp_mono
    (kwp_and (M := True) (P := fun _ _ => True) hm hi (wp_mono (p_pcasRead (a := .key t i) hm hc.1) fun _ _ _ => trivial) k_readKey) ?_))
  rintro w m1 ⟨g1, -, hd⟩
  have hx1 : Has m1 t i := g1.go.has hc.1
  refine kwp_bind ?_
  intro m2 g2 r m3 he g3
  have hx2 := g2.go.has hx1
  have hd2 := g2.st t i hx1 hd
  have hc2 := (g1.go.trans g2.go).mayClaim hc
  have key : (KInv hash m3 ∧ KSt m2 m3) ∧ pk m3 t i ≠ KINITIAL := by
    simp only [Act.exec] at he
    split at he
    · split at he
      · next hw =>
        simp only [Option.some.injEq, Prod.mk.injEq] at he
        obtain ⟨-, rfl⟩ := he
        exact ⟨claim_keep g2.go.inv g2.inv hc2 hk hne hw g3, by rw [pk_setKey]; simp [clean_dirty, hk, hne]⟩
      · next hw =>
        simp only [Option.some.injEq, Prod.mk.injEq] at he
        obtain ⟨-, rfl⟩ := he
        exact ⟨⟨g2.inv, fun _ _ _ h => h⟩, fun e => hd2 (eq_dirty_of_clean e hw)⟩
    · next hn => exact absurd hx2 hn
  refine ⟨key.1, kwp_bind ?_⟩
  intro m4 g4 r4 m5 he5 g5
  refine ⟨NoClaim.keep (a := .check _) trivial g4.go.inv g4.inv he5 g5, ?_⟩
  have h4 : pk m4 t i ≠ KINITIAL := by
    rw [g4.go.evo.key t i (g3.has hx2) key.2]; exact key.2
  show pk m5 t i ≠ KINITIAL
  rw [g5.evo.key t i (g4.go.has (g3.has hx2)) h4]; exact h4

/-! ## Loops -/

theorem k_loop {body : σ → Prog (Ctl σ α)} {Q : α → Mem → Prop} (I : σ → Mem → Prop)
    (hb : ∀ x m, I x m → kwp A hash (fun c m' => match c with | .next x' => I x' m' | .done a => Q a m') (body x) m)
    (n : Nat) : ∀ x m, I x m → kwp A hash Q (loop n body x) m := by
  induction n with
  | zero => intro x m _; trivial
  | succ n ih =>
    intro x m hI
    refine kwp_bind (kwp_mono (hb x m hI) ?_)
    rintro (x' | a) m' h
    · exact ih x' m' h
    · exact h

/-! ## Functions that claim nothing -/

theorem nc_resize (t : Nat) : nc (resize t) := by
  refine nc_bind (nc_do1 trivial) fun o => ?_
  cases o with
  | some n => exact nc_bind (nc_do1 trivial) fun _ => nc_bind (nc_do1 trivial) fun _ => nc_bind (nc_check _) fun _ => trivial
  | none =>
    refine nc_bind (nc_do1 trivial) fun _ => nc_bind (nc_do1 trivial) fun _ => nc_bind (nc_do1 trivial) fun o => ?_
    cases o with
    | some n => exact nc_bind (nc_do1 trivial) fun _ => nc_bind (nc_check _) fun _ => trivial
    | none =>
      refine nc_bind (nc_do1 trivial) fun a => ?_
      cases a with
      | none => trivial
      | some n =>
        refine nc_bind (nc_do1 trivial) fun ok => ?_
        split
        · exact nc_bind (nc_do1 trivial) fun _ => nc_bind (nc_check _) fun _ => trivial
        · refine nc_bind (nc_do1 trivial) fun o => ?_
          cases o with
          | none => exact nc_bind (nc_check _) fun _ => trivial
          | some n => exact nc_bind (nc_do1 trivial) fun _ => nc_bind (nc_check _) fun _ => trivial

theorem nc_promote (t w : Nat) : nc (copyCheckAndPromote t w) := by
  refine nc_bind (nc_do1 trivial) fun l => nc_bind (nc_do1 trivial) fun d => nc_bind (nc_check _) fun _ => ?_
  have h : nc (if d + w = l then do
      let nt ← do1 (.getNew t)
      match nt with
      | none => .halt .ub
      | some n => do
        let _ ← do1 (.casRoot t n)
        return ()
    else return ()) := by
    split
    · refine nc_bind (nc_do1 trivial) fun o => ?_
      cases o with
      | none => trivial
      | some n => exact nc_bind (nc_do1 trivial) fun _ => trivial
    · trivial
  dsimp only
  split
  · exact nc_bind (nc_do1 trivial) fun _ => h
  · exact h

theorem nc_claimChunk (n t l w : Nat) : nc (claimChunk n t l w) := by
  refine nc_bind (nc_do1 trivial) fun c => nc_loop (fun c => ?_) n c
  split
  · refine nc_bind (nc_do1 trivial) fun r => ?_
    split <;> trivial
  · trivial

theorem nc_mark (n i t : Nat) (V : Word) : nc (copySlotMark n i t V) := by
  refine nc_loop (fun V => ?_) n V
  split
  · trivial
  · refine nc_bind (nc_casValue ..) fun _ => ?_
    split
    · generalize (if V = VINITIAL ∨ V = VTOMBSTONE then TOMBPRIME else setMark V MigrationFlag) = w
      split <;> trivial
    · trivial

theorem nc_finish (n i t : Nat) (V : Word) : nc (copySlotFinish n i t V) := by
  refine nc_loop (fun V => nc_bind (nc_casValue ..) fun _ => ?_) n V
  split <;> trivial

theorem nc_tableFull (t r l : Nat) : nc (tableFull t r l) := by
  unfold tableFull
  split
  · exact nc_bind (nc_do1 trivial) fun _ => trivial
  · trivial

theorem nc_want (t r l : Nat) (V : Word) : nc (wantNewTable t r l V) := by
  unfold wantNewTable
  split
  · exact nc_bind (nc_tableFull ..) fun _ => trivial
  · trivial

theorem nc_update (cf : CasFn) (t i : Nat) (nv ov : Word) (n : Nat) (V : Word) : nc (loop n (updateBody cf t i nv ov) V) := by
  refine nc_loop (fun V => nc_bind (nc_check _) fun _ => ?_) n V
  split
  · trivial
  · have hcall : nc (cf.call t i V nv) := by
      cases cf
      · exact nc_casValue ..
      · exact nc_bind (nc_pcasVal ..) fun _ => trivial
    refine nc_bind hcall fun a => ?_
    split
    · refine nc_bind ?_ fun _ => trivial
      unfold adjustSize
      split
      · split
        · exact nc_do1 trivial
        · split
          · exact nc_do1 trivial
          · trivial
      · trivial
    · refine nc_bind (nc_pcasRead _) fun _ => ?_
      split <;> trivial

theorem nc_getProbe (t : Nat) (key : Word) (l n : Nat) (s : Nat × Nat) : nc (loop n (getProbeBody t key l) s) := by
  refine nc_loop (fun s => nc_bind (nc_pcasRead _) fun K => nc_bind (nc_pcasRead _) fun V => ?_) n s
  split
  · trivial
  · refine nc_bind (nc_do1 trivial) fun o => ?_
    split
    · split <;> trivial
    · split
      · cases o <;> trivial
      · trivial

/-! ## Functions that claim -/

/-- The contract of the recursive call. -/
def PutK (A : Word → Word → Prop) (hash : Word → Word) (put : PutFn) : Prop :=
  ∀ t key nv ov m, PInv A m → KInv hash m → t < m.next → clean key = key → key ≠ KINITIAL → (key = KTOMBSTONE → 1 < m.next) →
    NewOK A key nv → isMig ov = false → kwp A hash (fun _ _ => True) (put t key nv ov) m

theorem Linked.one (h : PInv A m) {n : Nat} (hl : Linked m t n) : 1 < m.next := by
  have := h.newT _ _ hl.1 hl.2; omega

theorem k_copySlotKey (hm : PInv A m) (hi : KInv hash m) (hx : Has m t i) {nt : Nat} (hl : Linked m t nt) (n : Nat) :
    kwp A hash (fun _ _ => True) (copySlotKey n i t) m := by
  refine k_loop (fun _ m1 => GoK A hash m m1) (fun _ m1 g1 => ?_) n () m (.refl hm hi)
  have hx1 := g1.go.has hx
  refine k_nc g1.go.inv g1.inv (p_tableKey (M := True) g1.go.inv hx1) (nc_pcasRead _) fun K m2 g2 _ => ?_
  have g02 := g1.trans g2
  split
  · refine k_bind g2.go.inv g2.inv (p_casKey (M := True) g2.go.inv (g2.go.has hx1) clean_KT (by decide))
      (k_casKey g2.go.inv g2.inv clean_KT (by decide) ⟨g2.go.has hx1, .inl ⟨rfl, (g02.go.linked hl).one g2.go.inv⟩⟩)
      fun _ m3 g3 _ _ => kwp_pure (g02.trans g3)
  · exact kwp_pure trivial

theorem k_copySlot (hA : AskedOK A) {put : PutFn} (hp : PutOK A True put) (hpk : PutK A hash put) (hm : PInv A m)
    (hi : KInv hash m) {nt : Nat} (hx : Has m t i) (hl : Linked m t nt) (n : Nat) :
    kwp A hash (fun _ _ => True) (copySlot put n i t nt) m := by
  unfold copySlot
  refine k_bind hm hi (p_copySlotKey (M := True) hm hx n) (k_copySlotKey hm hi hx hl n) fun K m1 g1 ⟨hk, hKc⟩ _ => ?_
  refine k_nc g1.go.inv g1.inv (p_tableValue (M := True) g1.go.inv hk.1) (nc_pcasRead _) fun V m2 g2 ⟨hv, hc, hdv, _⟩ => ?_
  have g12 := g1.trans g2
  have hk2 := g2.go.keyAt hk
  refine k_nc g2.go.inv g2.inv (p_copySlotMark (M := True) g2.go.inv hk2 (g12.go.linked hl) hv (fun e => ?_) n) (nc_mark ..)
    fun r m3 g3 hr => ?_
  · rw [e] at hc; exact absurd hc (by decide)
  have g13 := g12.trans g3
  cases r with
  | finished => exact kwp_pure trivial
  | val v =>
    obtain ⟨hmig, hv3⟩ := hr v rfl
    dsimp only
    split
    · exact kwp_pure trivial
    · next hne =>
      have hnt : clearMark v MigrationFlag ≠ VTOMBSTONE := fun e => hne (eq_tombprime hmig e)
      refine k_nc g3.go.inv g3.inv (p_check (M := True) g3.go.inv (.inr trivial)) (nc_check _) fun _ m4 g4 _ => ?_
      have g14 := g13.trans g4
      have hk3 := g3.go.keyAt hk2
      have hn : NewOK A K (clearMark v MigrationFlag) := by
        refine ⟨isMig_clearMig v, ?_⟩
        rw [clean_clearMig]
        rcases (hv3.valOK hk3).marked hA (by rw [isMig_clean]; exact hmig) with e | ⟨u, hu, e⟩
        · left; rw [e]; decide
        · right; rw [e, clearMig_setMig (hA.val _ _ hu).2]; exact hu
      refine k_bind g4.go.inv g4.inv (hp nt K _ _ m4 g4.go.inv ((g14.go.linked hl).lt g4.go.inv) hKc hk.2.2 hn (by decide) fun _ => (g14.go.linked hl).grown)
        (hpk nt K _ _ m4 g4.go.inv g4.inv ((g14.go.linked hl).lt g4.go.inv) hKc hk.2.2
          (fun _ => (g14.go.linked hl).one g4.go.inv) hn (by decide)) fun r m5 g5 _ _ => ?_
      exact kwp_bind (kwp_mono (kwp_nc (nc_finish ..)) fun _ _ _ => kwp_pure trivial)

theorem k_copyChunk (hA : AskedOK A) {put : PutFn} (hp : PutOK A True put) (hpk : PutK A hash put) {nt : Nat} (n c : Nat)
    (todo : Nat) : ∀ j w m, PInv A m → KInv hash m → Linked m t nt →
    kwp A hash (fun _ _ => True) (copyChunk put n t nt (m.tab t).len c todo j w) m := by
  induction todo with
  | zero => intro j w m _ _ _; exact kwp_pure trivial
  | succ todo ih =>
    intro j w m hm hi hl
    rw [copyChunk]
    obtain ⟨p, _, hp'⟩ := hm.pow t hl.1
    have hx : Has m t ((c + j) &&& ((m.tab t).len - 1)) := ⟨hl.1, by rw [hp']; exact and_lt_pow⟩
    refine k_bind hm hi (p_copySlot (M := True) hA hp hm hx hl n) (k_copySlot hA hp hpk hm hi hx hl n) fun b m1 g1 _ _ => ?_
    have := ih (j + 1) (if b = true then w + 1 else w) m1 g1.go.inv g1.inv (g1.go.linked hl)
    rw [g1.go.evo.len t hl.1] at this
    exact this

theorem k_helpCopyImpl (hA : AskedOK A) {put : PutFn} (hp : PutOK A True put) (hpk : PutK A hash put) (hm : PInv A m)
    (hi : KInv hash m) {nt : Nat} (hl : Linked m t nt) (n : Nat) :
    kwp A hash (fun _ _ => True) (helpCopyImpl put n t) m := by
  unfold helpCopyImpl
  refine k_nc hm hi (p_getNew (M := True) hm hl.1) (nc_do1 trivial) fun o m1 g1 ho => ?_
  have hl1 := g1.go.linked hl
  rw [hl1.2] at ho
  subst ho
  refine k_nc g1.go.inv g1.inv (p_check (M := True) g1.go.inv (.inl rfl)) (nc_check _) fun _ m2 g2 _ => ?_
  have hl2 := g2.go.linked hl1
  refine k_nc g2.go.inv g2.inv (p_len (M := True) g2.go.inv hl2.1) (nc_do1 trivial)
    fun (l : Nat) m3 g3 (hlen : l = (m2.tab t).len) => ?_
  have hl3 := g3.go.linked hl2
  dsimp only
  refine kwp_bind (kwp_mono (k_loop (fun _ m4 => GoK A hash m3 m4) (Q := fun _ _ => True) ?_ n (0, false) m3 (.refl g3.go.inv g3.inv))
    fun _ _ _ => kwp_nc (nc_promote ..))
  rintro ⟨c, b⟩ m4 g4
  have hl4 := g4.go.linked hl3
  refine k_nc g4.go.inv g4.inv (p_getDone (M := True) g4.go.inv hl4.1) (nc_do1 trivial) fun d m5 g5 _ => ?_
  split
  · have hrest : ∀ c' m6, GoK A hash m5 m6 → kwp A hash (fun (c : Ctl (Nat × Bool) Unit) m' => match c with
          | .next _ => GoK A hash m3 m'
          | .done _ => True) (do
        let workDone ← copyChunk put n t nt l c' (if l < 1024 then l else 1024) 0 0
        if 0 < workDone then do
          copyCheckAndPromote t workDone
        else pure ()
        return Ctl.next (c' + (if l < 1024 then l else 1024), b || decide (l * 2 ≤ c'))) m6 := by
      intro c' m6 g6
      have g46 := g5.trans g6
      have hl6 := g46.go.linked hl4
      have h1 := p_copyChunk (M := True) hA hp (nt := nt) n c' (if l < 1024 then l else 1024) 0 0 m6 g6.go.inv hl6
      have h2 := k_copyChunk hA hp hpk (nt := nt) n c' (if l < 1024 then l else 1024) 0 0 m6 g6.go.inv g6.inv hl6
      rw [(g4.trans g46).go.evo.len t hl3.1, g3.go.evo.len t hl2.1, ← hlen] at h1 h2
      refine k_bind g6.go.inv g6.inv h1 h2 fun w m7 g7 _ _ => ?_
      have g47 := g46.trans g7
      dsimp only
      split
      · refine k_nc g7.go.inv g7.inv (p_promote (M := True) g7.go.inv (g7.go.linked hl6) _) (nc_promote ..) fun _ m8 g8 _ =>
          kwp_pure ((g4.trans g47).trans g8)
      · exact kwp_pure (g4.trans g47)
    cases b with
    | true =>
      simp only [if_true]
      exact kwp_bind (kwp_pure (kwp_mono (hrest c m5 (.refl g5.go.inv g5.inv)) (by rintro (c | c) m' h <;> exact h)))
    | false =>
      simp only [Bool.false_eq_true, if_false]
      exact k_nc g5.go.inv g5.inv (p_claimChunk (M := True) g5.go.inv (g5.go.lt hl4.1) n _ _) (nc_claimChunk ..) fun c' m6 g6 _ =>
        kwp_mono (hrest c' m6 g6) (by rintro (c | c) m' h <;> exact h)
  · exact kwp_pure trivial

theorem k_helpCopy (hA : AskedOK A) {put : PutFn} (hp : PutOK A True put) (hpk : PutK A hash put) (hm : PInv A m)
    (hi : KInv hash m) (n h : Nat) : kwp A hash (fun _ _ => True) (helpCopy put n h) m := by
  unfold helpCopy
  refine k_nc hm hi (p_getRoot (M := True) hm) (nc_do1 trivial) fun r m1 g1 hr => ?_
  refine k_nc g1.go.inv g1.inv (p_getNew (M := True) g1.go.inv hr) (nc_do1 trivial) fun o m2 g2 ho => ?_
  cases o with
  | none => exact kwp_pure trivial
  | some n' =>
    exact kwp_bind (kwp_mono (k_helpCopyImpl hA hp hpk g2.go.inv g2.inv ⟨g2.go.lt hr, ho.symm⟩ n) fun _ _ _ => kwp_pure trivial)

theorem k_copySlotAndCheck (hA : AskedOK A) {put : PutFn} (hp : PutOK A True put) (hpk : PutK A hash put) (hm : PInv A m)
    (hi : KInv hash m) {nt : Nat} (hx : Has m t i) (hl : Linked m t nt) (n : Nat) (b : Bool) :
    kwp A hash (fun _ _ => True) (copySlotAndCheck put n t i b) m := by
  unfold copySlotAndCheck
  refine k_nc hm hi (p_getNew (M := True) hm hl.1) (nc_do1 trivial) fun o m1 g1 ho => ?_
  have hl1 := g1.go.linked hl
  rw [hl1.2] at ho
  subst ho
  refine k_nc g1.go.inv g1.inv (p_check (M := True) g1.go.inv (.inl rfl)) (nc_check _) fun _ m2 g2 _ => ?_
  have g12 := g1.trans g2
  dsimp only
  refine k_bind g2.go.inv g2.inv (p_copySlot (M := True) hA hp g2.go.inv (g12.go.has hx) (g12.go.linked hl) n)
    (k_copySlot hA hp hpk g2.go.inv g2.inv (g12.go.has hx) (g12.go.linked hl) n) fun w m3 g3 _ _ => ?_
  have g13 := g12.trans g3
  have hrest : ∀ m4, GoK A hash m3 m4 → kwp A hash (fun _ _ => True)
      (if b = true then pure nt else helpCopy put n nt) m4 := by
    intro m4 g4
    split
    · exact kwp_pure trivial
    · exact k_helpCopy hA hp hpk g4.go.inv g4.inv n nt
  split
  · exact k_nc g3.go.inv g3.inv (p_promote (M := True) g3.go.inv (g13.go.linked hl) 1) (nc_promote ..) fun _ m4 g4 _ => hrest m4 g4
  · exact hrest m3 (.refl g3.go.inv g3.inv)

/-! ## putIfMatch and getImpl -/

/-- The probe loop: the slots passed are not empty. -/
theorem k_probe (hm : PInv A m) (hi : KInv hash m) (ht : t < m.next) {key newVal : Word} (hk : clean key = key)
    (hne : key ≠ KINITIAL) (hkt : key = KTOMBSTONE → 1 < m.next) (n : Nat) :
    kwp A hash (fun _ _ => True) (loop n (probeBody t key newVal (m.tab t).len) (homePut hash key (m.tab t).len, 0)) m := by
  refine k_loop (fun s m1 => GoK A hash m m1 ∧ s.1 = probeAt hash key (m.tab t).len s.2 ∧ s.2 < reprobeLimit (m.tab t).len ∧
    ∀ e, e < s.2 → pk m1 t (probeAt hash key (m.tab t).len e) ≠ KINITIAL) ?_ n _ m
    ⟨.refl hm hi, rfl, by simp [reprobeLimit, REPROBE_LIMIT], fun e he => absurd he (Nat.not_lt_zero _)⟩
  rintro ⟨i, r⟩ m1 ⟨g1, hi, hr, hp⟩
  simp only at hi hr hp
  have hlt : i < (m.tab t).len := by rw [hi]; exact probeAt_lt hm ht _ _
  have hx1 : Has m1 t i := g1.go.has ⟨ht, hlt⟩
  have hstay : ∀ m2, Go A m1 m2 → ∀ e, e < r → pk m2 t (probeAt hash key (m.tab t).len e) ≠ KINITIAL := by
    intro m2 g2 e he
    rw [g2.evo.key t _ (g1.go.has ⟨ht, probeAt_lt hm ht _ _⟩) (hp e he)]
    exact hp e he
  have hmatch : ∀ K V m2, GoK A hash m1 m2 → pk m2 t i ≠ KINITIAL →
      kwp A hash (fun c m' => match c with
        | .next s => GoK A hash m m' ∧ s.1 = probeAt hash key (m.tab t).len s.2 ∧ s.2 < reprobeLimit (m.tab t).len ∧
          ∀ e, e < s.2 → pk m' t (probeAt hash key (m.tab t).len e) ≠ KINITIAL
        | .done _ => True) (probeMatch key (m.tab t).len i r K V) m2 := by
    intro K V m2 g2 hK
    unfold probeMatch
    split
    · exact kwp_pure trivial
    · split
      · exact kwp_pure trivial
      · next hn =>
        refine kwp_pure ⟨g1.trans g2, by rw [hi]; rfl, by simp only; omega, fun e he => ?_⟩
        rcases Nat.lt_succ_iff_lt_or_eq.mp he with he | he
        · exact hstay m2 g2.go e he
        · rw [he, ← hi]; exact hK
  unfold probeBody
  refine k_nc g1.go.inv g1.inv (p_tableKey (M := True) g1.go.inv hx1) (nc_pcasRead _) fun K m2 g2 hK => ?_
  refine k_nc g2.go.inv g2.inv (p_tableValue (M := True) g2.go.inv (g2.go.has hx1)) (nc_pcasRead _) fun V m3 g3 _ => ?_
  have g13 := g2.trans g3
  split
  · split
    · exact kwp_pure trivial
    · have hx3 := g13.go.has hx1
      have hc : MayClaim hash m3 t i key := by
        refine ⟨hx3, ?_⟩
        have g03 := g1.trans g13
        by_cases e : key = KTOMBSTONE
        · exact .inl ⟨e, lt_of_lt_of_le (hkt e) g03.go.evo.next⟩
        · refine .inr ⟨e, r, ?_, ?_, ?_⟩ <;> rw [g03.go.evo.len t ht]
          · exact hr
          · exact hi.symm
          · exact hstay m3 g13.go
      refine k_bind g3.go.inv g3.inv (p_casKey (M := True) g3.go.inv hx3 hk hne) (k_casKey g3.go.inv g3.inv hk hne hc)
        fun a m4 g4 _ h4 => ?_
      split
      · exact kwp_bind (kwp_mono (kwp_nc (nc_do1 trivial)) fun _ _ _ => kwp_pure trivial)
      · exact kwp_mono (hmatch a V m4 (g13.trans g4) h4) (by rintro (c | c) m' h <;> exact h)
  · next h =>
    have h3 := g3.go.keyAt (hK h)
    exact kwp_mono (hmatch K V m3 g13 (by rw [h3.2.1]; exact h3.2.2)) (by rintro (c | c) m' h <;> exact h)

theorem k_putBody (hA : AskedOK A) {put : PutFn} (hp : PutOK A True put) (hpk : PutK A hash put) (hm : PInv A m)
    (hi0 : KInv hash m) (ht : t < m.next) {key nv ov : Word} (hk : clean key = key) (hne : key ≠ KINITIAL)
    (hkt : key = KTOMBSTONE → 1 < m.next) (hn : NewOK A key nv)
    (hov : isMig ov = false) (cf : CasFn) (hi : cf = .increment → ∀ V, A key (incremented V)) (n : Nat) :
    kwp A hash (fun _ _ => True) (putBody hash put n cf t key nv ov) m := by
  unfold putBody
  refine k_nc hm hi0 (p_check (M := True) hm (.inr trivial)) (nc_check _) fun _ m1 g1 _ => ?_
  refine k_nc g1.go.inv g1.inv (p_check (M := True) g1.go.inv (.inr trivial)) (nc_check _) fun _ m2 g2 _ => ?_
  refine k_nc g2.go.inv g2.inv (p_check (M := True) g2.go.inv (.inr trivial)) (nc_check _) fun _ m3 g3 _ => ?_
  have g03 := (g1.trans g2).trans g3
  refine k_nc g3.go.inv g3.inv (p_len (M := True) g3.go.inv (g03.go.lt ht)) (nc_do1 trivial)
    fun (l : Nat) m4 g4 (hl : l = (m3.tab t).len) => ?_
  have g04 := g03.trans g4
  have ht4 := g04.go.lt ht
  have hl4 : l = (m4.tab t).len := by rw [g4.go.evo.len t (g03.go.lt ht), hl]
  obtain ⟨p, _, hp'⟩ := g4.go.inv.pow t ht4
  have hhome : homePut hash key l < (m4.tab t).len := by rw [homePut, hl4, hp']; exact and_lt_pow
  subst hl4
  refine k_bind g4.go.inv g4.inv (p_probe (M := True) (newVal := nv) g4.go.inv ht4 hk hne n _ _ hhome)
    (k_probe (newVal := nv) g4.go.inv g4.inv ht4 hk hne (fun e => lt_of_lt_of_le (hkt e) g04.go.evo.next) n) fun pr m5 g5 hpr _ => ?_
  have g05 := g04.trans g5
  have ht5 := g05.go.lt ht
  have hput : ∀ nt m6, GoK A hash m m6 → nt < m6.next → kwp A hash (fun _ _ => True) (put nt key nv ov) m6 :=
    fun nt m6 g6 h6 => hpk nt key nv ov m6 g6.go.inv g6.inv h6 hk hne (fun e => lt_of_lt_of_le (hkt e) g6.go.evo.next) hn hov
  cases pr with
  | returned v => exact kwp_pure trivial
  | full =>
    refine k_nc g5.go.inv g5.inv (p_resize (M := True) g5.go.inv ht5) (nc_resize _) fun nt m6 g6 hl6 => ?_
    have g06 := g05.trans g6
    split
    · exact k_bind g6.go.inv g6.inv (p_helpCopy hA hp g6.go.inv n nt) (k_helpCopy hA hp hpk g6.go.inv g6.inv n nt)
        fun _ m7 g7 _ _ => hput nt m7 (g06.trans g7) (g7.go.lt (hl6.lt g6.go.inv))
    · exact hput nt m6 g06 (hl6.lt g6.go.inv)
  | slot i r V =>
    obtain ⟨hk5, hv5, hc⟩ := hpr
    have hcopy : ∀ nt m6, GoK A hash m5 m6 → Linked m6 t nt → kwp A hash (fun _ _ => True) (do
        let nt ← copySlotAndCheck put n t i (decide (ov = VINITIAL))
        put nt key nv ov) m6 := by
      intro nt m6 g6 hl6
      refine k_bind g6.go.inv g6.inv (p_copySlotAndCheck hA hp g6.go.inv (g6.go.has hk5.1) hl6 n _)
        (k_copySlotAndCheck hA hp hpk g6.go.inv g6.inv (g6.go.has hk5.1) hl6 n _) fun r m7 g7 hr _ => ?_
      subst hr
      exact hput _ m7 ((g05.trans g6).trans g7) (g7.go.lt (hl6.lt g6.go.inv))
    dsimp only
    split
    · exact kwp_pure trivial
    · refine k_nc g5.go.inv g5.inv (p_wantNewTable (M := True) g5.go.inv ht5 _ _ V) (nc_want ..) fun w m6 g6 hw => ?_
      split
      · exact k_nc g6.go.inv g6.inv (p_resize (M := True) g6.go.inv (g6.go.lt ht5)) (nc_resize _) fun nt m7 g7 hl7 =>
          hcopy nt m7 (g6.trans g7) hl7
      · next h =>
        have hV := hw (by simpa using h)
        refine k_nc g6.go.inv g6.inv (p_update (M := True) g6.go.inv (g6.go.keyAt hk5) cf hV (g6.go.valAt hv5) hn hi n)
          (nc_update ..) fun u m7 g7 hu => ?_
        have g57 := g6.trans g7
        cases u with
        | returned v => exact kwp_pure trivial
        | migrated =>
          have := g7.go.inv.mig t i (g57.go.has hk5.1) hu
          obtain ⟨nt, hnt⟩ := Option.ne_none_iff_exists'.mp this
          exact hcopy nt m7 g57 ⟨g57.go.lt ht5, hnt⟩

theorem k_putIfMatch (hA : AskedOK A) (n : Nat) : ∀ cf t key nv ov m, PInv A m → KInv hash m → t < m.next → clean key = key →
    key ≠ KINITIAL → (key = KTOMBSTONE → 1 < m.next) → NewOK A key nv → isMig ov = false →
    (cf = .increment → ∀ V, A key (incremented V)) →
    kwp A hash (fun _ _ => True) (putIfMatch hash n cf t key nv ov) m := by
  induction n with
  | zero => intro cf t key nv ov m _ _ _ _ _ _ _ _ _; trivial
  | succ n ih =>
    intro cf t key nv ov m hm hk0 ht hk hne hkt hn hov hi
    exact k_putBody hA (putOK hA hash n) (fun t key nv ov m hm hk0 ht hk hne hkt hn hov =>
      ih .casValue t key nv ov m hm hk0 ht hk hne hkt hn hov (fun h => by cases h)) hm hk0 ht hk hne hkt hn hov cf hi n

theorem putK (hA : AskedOK A) (n : Nat) : PutK A hash (putIfMatch hash n .casValue) :=
  fun t key nv ov m hm hk0 ht hk hne hkt hn hov => k_putIfMatch hA n .casValue t key nv ov m hm hk0 ht hk hne hkt hn hov
    (fun h => by cases h)

theorem k_getImpl (hA : AskedOK A) (n : Nat) : ∀ t key m, PInv A m → KInv hash m → t < m.next →
    kwp A hash (fun _ _ => True) (getImpl hash n t key) m := by
  induction n with
  | zero => intro t key m _ _ _; trivial
  | succ n ih =>
    intro t key m hm hi ht
    unfold getImpl
    refine k_nc hm hi (p_len (M := True) hm ht) (nc_do1 trivial) fun (l : Nat) m1 g1 (hl : l = (m.tab t).len) => ?_
    have ht1 := g1.go.lt ht
    have hl1 : l = (m1.tab t).len := by rw [g1.go.evo.len t ht, hl]
    obtain ⟨p, _, hp⟩ := g1.go.inv.pow t ht1
    have hhome : homeGet hash key l < (m1.tab t).len := by rw [homeGet, hl1, hp]; exact and_lt_pow
    subst hl1
    have hput := putOK (M := True) hA hash n
    refine k_nc g1.go.inv g1.inv (p_getProbe (M := True) (key := key) g1.go.inv ht1 n _ _ hhome) (nc_getProbe ..) fun pr m2 g2 hpr => ?_
    have g12 := g1.trans g2
    cases pr with
    | returned v => exact kwp_pure trivial
    | copy i =>
      obtain ⟨nt, hnt⟩ := Option.ne_none_iff_exists'.mp (g2.go.inv.mig t i hpr.1 hpr.2)
      have hl2 : Linked m2 t nt := ⟨g12.go.lt ht, hnt⟩
      refine k_bind g2.go.inv g2.inv (p_copySlotAndCheck hA hput g2.go.inv hpr.1 hl2 n _)
        (k_copySlotAndCheck hA hput (putK hA n) g2.go.inv g2.inv hpr.1 hl2 n _) fun r m3 g3 hr _ => ?_
      subst hr
      exact ih _ key m3 g3.go.inv g3.inv (g3.go.lt (hl2.lt g2.go.inv))
    | chase nt =>
      refine k_bind g2.go.inv g2.inv (p_helpCopy hA hput g2.go.inv n nt) (k_helpCopy hA hput (putK hA n) g2.go.inv g2.inv n nt)
        fun r m3 g3 hr _ => ?_
      subst hr
      exact ih _ key m3 g3.go.inv g3.inv (g3.go.lt hpr)

/-! ## Calls and systems -/

theorem k_mapGet (hA : AskedOK A) (n : Nat) (hm : PInv A m) (hi : KInv hash m) (key : Word) :
    kwp A hash (fun _ _ => True) (mapGet hash n key) m := by
  unfold mapGet
  refine k_nc hm hi (p_getRoot (M := True) hm) (nc_do1 trivial) fun r m1 g1 hr => ?_
  exact kwp_bind (kwp_mono (k_getImpl hA n r key m1 g1.go.inv g1.inv hr) fun _ _ _ =>
    kwp_nc (nc_bind (nc_check _) fun _ => trivial))

theorem k_mapPutIfMatch (hA : AskedOK A) (n : Nat) (cf : CasFn) (hm : PInv A m) (hi0 : KInv hash m) {key nv ov : Word}
    (hov : isMig ov = false) (hk : ValidKey key) (hn : NewOK A key nv)
    (hi : cf = .increment → ∀ V, A key (incremented V)) :
    kwp A hash (fun _ _ => True) (mapPutIfMatch hash n cf key nv ov) m := by
  have hu := userKey_of_valid hk
  unfold mapPutIfMatch
  refine k_nc hm hi0 (p_check (M := True) hm (.inr trivial)) (nc_check _) fun _ m1 g1 _ => ?_
  refine k_nc g1.go.inv g1.inv (p_check (M := True) g1.go.inv (.inr trivial)) (nc_check _) fun _ m2 g2 _ => ?_
  refine k_nc g2.go.inv g2.inv (p_getRoot (M := True) g2.go.inv) (nc_do1 trivial) fun r m3 g3 hr => ?_
  exact kwp_bind (kwp_mono (k_putIfMatch hA n cf r key nv ov m3 g3.go.inv g3.inv hr hu.clean hu.ne_init
    (fun e => absurd e hu.ne_tomb) hn hov hi) fun _ _ _ => kwp_nc (nc_bind (nc_check _) fun _ => trivial))

/-- Every call keeps the paths. -/
theorem k_op (hA : AskedOK A) (n : Nat) {op : Op} (hv : op.Valid) (ha : ∀ k v, op.Asks k v → A k v) (hm : PInv A m)
    (hi : KInv hash m) : kwp A hash (fun _ _ => True) (op.prog hash n) m := by
  have hn : ∀ {k v}, ValidVal v → A k v → NewOK A k v := fun h h' =>
    ⟨h.2.1, .inr (by rw [clean_of_not_dirty h.1]; exact h')⟩
  have ht : ∀ {k}, NewOK A k VTOMBSTONE := ⟨by decide, .inl clean_VT⟩
  have hno : CasFn.casValue = .increment → ∀ (k V : Word), A k (incremented V) := fun h => by cases h
  have one : ∀ {α β : Type} {p : Prog α} {f : α → β}, kwp A hash (fun _ _ => True) p m →
      kwp A hash (fun _ _ => True) (do return f (← p)) m := fun h => kwp_bind (kwp_mono h fun _ _ _ => kwp_pure trivial)
  cases op with
  | get k => exact one (k_mapGet hA n hm hi k)
  | containsKey k => exact one (one (k_mapGet hA n hm hi k))
  | put k v => exact one (k_mapPutIfMatch hA n _ hm hi (by decide) hv.1 (hn hv.2 (ha k v ⟨rfl, rfl⟩)) (fun h => hno h k))
  | putIfAbsent k v => exact one (k_mapPutIfMatch hA n _ hm hi (by decide) hv.1 (hn hv.2 (ha k v ⟨rfl, rfl⟩)) (fun h => hno h k))
  | putIfMatch k v o =>
    have hov : isMig o = false := by
      rcases hv.2.2 with h | rfl | rfl | rfl
      · exact h.2.1
      all_goals decide
    exact one (k_mapPutIfMatch hA n _ hm hi hov hv.1 (hn hv.2.1 (ha k v ⟨rfl, rfl⟩)) (fun h => hno h k))
  | replace k o v =>
    exact one (one (k_mapPutIfMatch hA n _ hm hi hv.2.1.2.1 hv.1 (hn hv.2.2 (ha k v ⟨rfl, rfl⟩)) (fun h => hno h k)))
  | remove k => exact one (one (k_mapPutIfMatch hA n _ hm hi (by decide) hv ht (fun h => hno h k)))
  | removeIf k v => exact one (one (k_mapPutIfMatch hA n _ hm hi hv.2.2.1 hv.1 ht (fun h => hno h k)))
  | update k v =>
    have hinc : ∀ V, A k (incremented V) := fun V => ha k _ ⟨rfl, .inr ⟨_, rfl⟩⟩
    have hnew : NewOK A k v := by
      have := asks_valid (op := .update k v) hv (k := k) (v := v) ⟨rfl, .inl rfl⟩
      exact ⟨this.1.2, .inr (by rw [this.1.1]; exact ha k v ⟨rfl, .inl rfl⟩)⟩
    exact one (k_mapPutIfMatch hA n _ hm hi (by decide) hv.1 hnew (fun _ => hinc))
  | size => exact one (kwp_nc (nc_bind (nc_do1 trivial) fun _ => nc_do1 trivial))
  | isEmpty => exact one (one (kwp_nc (nc_bind (nc_do1 trivial) fun _ => nc_do1 trivial)))

/-- Invariant of the system: besides `SysOK`, every thread keeps the paths. -/
structure PathOK (A : Word → Word → Prop) (hash : Word → Word) (s : Sys) : Prop where
  ok : SysOK (pRG A True) (OpRes A) s
  inv : KInv hash s.mem
  thr : ∀ t, match s.thr t with
    | .idle _ => True
    | .busy _ p _ => kwp A hash (fun _ _ => True) p s.mem

theorem PathOK.env {s : Sys} (h : PathOK A hash s) (he : GoK A hash s.mem m') (t : Nat) :
    match s.thr t with
    | .idle _ => True
    | .busy _ p _ => kwp A hash (fun _ _ => True) p m' := by
  have h1 := h.thr t
  cases hs : s.thr t with
  | idle todo => trivial
  | busy op p todo =>
    rw [hs] at h1
    exact kwp_env (fun _ _ _ _ h => h) h1 he

theorem PathOK.step {s : Sys} (hA : AskedOK A) (n : Nat) (h : PathOK A hash s) (x : Sched)
    (hok : ∀ t op, .inv t op ∈ (s.step hash n x).hist → op.Valid ∧ ∀ k v, op.Asks k v → A k v) :
    PathOK A hash (s.step hash n x) ∧ GoK A hash s.mem (s.step hash n x).mem := by
  obtain ⟨hs1, hs2⟩ := h.ok.step p_evict (fun _ _ ho hm => p_opM hA n ho.1 ho.2 hm) x hok
  have go : Go A s.mem (s.step hash n x).mem := hs2.1.go h.ok.inv
  have same : (s.step hash n x).mem = s.mem → KInv hash (s.step hash n x).mem ∧ KSt s.mem (s.step hash n x).mem := fun e => by
    rw [e]; exact ⟨h.inv, fun _ _ _ h => h⟩
  suffices H : (KInv hash (s.step hash n x).mem ∧ KSt s.mem (s.step hash n x).mem) ∧
      (∀ t, x = .run t → match (s.step hash n x).thr t with
        | .idle _ => True
        | .busy _ p _ => kwp A hash (fun _ _ => True) p (s.step hash n x).mem) ∧
      ∀ t, x ≠ .run t → (s.step hash n x).thr t = s.thr t by
    obtain ⟨⟨h1, h2⟩, h3, h4⟩ := H
    have g : GoK A hash s.mem (s.step hash n x).mem := ⟨go, h2, h1⟩
    refine ⟨⟨hs1, h1, fun t => ?_⟩, g⟩
    by_cases e : x = .run t
    · exact h3 t e
    · rw [h4 t e]; exact h.env g t
  cases x with
  | evict t i =>
    refine ⟨⟨h.inv.keep h.ok.inv go fun t i hx => .inl ⟨hx, rfl⟩, fun _ _ _ h => h⟩, ⟨fun t e => (by simp at e), fun t _ => rfl⟩⟩
  | run tid =>
    have ht := h.thr tid
    have hw := h.ok.thr tid
    refine ⟨?_, ?_, ?_⟩
    · cases hs : s.thr tid with
      | idle todo =>
        cases todo with
        | nil => exact same (by simp only [Sys.step, hs])
        | cons op todo => exact same (by simp only [Sys.step, hs])
      | busy op p todo =>
        rw [hs] at ht
        cases p with
        | halt y => cases y <;> exact same (by simp only [Sys.step, hs])
        | ret r => exact same (by simp only [Sys.step, hs])
        | act a k =>
          cases he : a.exec s.mem with
          | none => exact same (by simp only [Sys.step, hs, he])
          | some x =>
            obtain ⟨r, m2⟩ := x
            have e2 : (s.step hash n (.run tid)).mem = m2 := by simp only [Sys.step, hs, he]
            rw [e2] at go ⊢
            exact (ht s.mem (.refl h.ok.inv h.inv) r m2 he go).1
    · intro t e
      cases e
      cases hs : s.thr tid with
      | idle todo =>
        cases todo with
        | nil => simp only [Sys.step, hs]
        | cons op todo =>
          have hin : .inv tid op ∈ (s.step hash n (.run tid)).hist := by simp [Sys.step, hs]
          have := hok tid op hin
          simp only [Sys.step, hs, upd, if_true]
          exact k_op hA n this.1 this.2 h.ok.inv h.inv
      | busy op p todo =>
        rw [hs] at ht
        cases p with
        | halt y => cases y <;> simp only [Sys.step, hs] <;> trivial
        | ret r => simp only [Sys.step, hs, upd, if_true]
        | act a k =>
          cases he : a.exec s.mem with
          | none => simp only [Sys.step, hs, he]; exact ht
          | some x =>
            obtain ⟨r, m2⟩ := x
            have e2 : (s.step hash n (.run tid)).mem = m2 := by simp only [Sys.step, hs, he]
            rw [e2] at go
            simp only [Sys.step, hs, he, upd, if_true]
            exact (ht s.mem (.refl h.ok.inv h.inv) r m2 he go).2
    · intro t e
      have e : t ≠ tid := fun h => e (by rw [h])
      rw [Sys.step]
      split
      · rfl
      · simp only [upd, if_neg e]
      · rfl
      · rfl
      · simp only [upd, if_neg e]
      · split
        · rfl
        · simp only [upd, if_neg e]

theorem PathOK.exec (hA : AskedOK A) (n : Nat) (xs : List Sched) : ∀ {s : Sys}, PathOK A hash s →
    (∀ t op, .inv t op ∈ (s.exec hash n xs).hist → op.Valid ∧ ∀ k v, op.Asks k v → A k v) →
    PathOK A hash (s.exec hash n xs) ∧ GoK A hash s.mem (s.exec hash n xs).mem := by
  induction xs with
  | nil => intro s h _; exact ⟨h, .refl h.ok.inv h.inv⟩
  | cons x xs ih =>
    intro s h hok
    have hs : ∀ t op, .inv t op ∈ (s.step hash n x).hist → op.Valid ∧ ∀ k v, op.Asks k v → A k v := by
      intro t op hm
      obtain ⟨h', e⟩ := exec_hist hash n xs (s.step hash n x)
      exact hok t op (by rw [Sys.exec, e]; exact List.mem_append_left _ hm)
    obtain ⟨h1, g1⟩ := h.step hA n x hs
    obtain ⟨h2, g2⟩ := ih h1 hok
    exact ⟨h2, g1.trans g2⟩

theorem KInv_fresh {len cap : Nat} : KInv hash (freshMem len cap) := by
  have h0 : ∀ t i, Has (freshMem len cap) t i → pk (freshMem len cap) t i = KINITIAL := by
    intro t i h
    have : t = 0 := by have := h.1; simp only [freshMem] at this; omega
    subst this
    simp only [pk, freshMem, freshWords, if_true, clean_dirty, clean_KI]
  exact ⟨fun t i hx h => absurd (h0 t i hx) h, fun t i hx h => by rw [h0 t i hx] at h; exact absurd h (by decide)⟩

/-- The paths at every moment of an execution, and between any moment after `xs` and the end. -/
theorem path_between {len cap : Nat} (hs : Sized len cap) (hash : Word → Word) (n : Nat) (calls : Nat → List Op)
    (hv : ∀ t, ∀ op ∈ calls t, op.Valid) (xs ys : List Sched) :
    ∃ A, AskedOK A ∧ ∀ zs ws, ys = zs ++ ws → PathOK A hash ((Sys.init len cap calls).exec hash n (xs ++ zs)) ∧
      GoK A hash ((Sys.init len cap calls).exec hash n xs).mem ((Sys.init len cap calls).exec hash n (xs ++ zs)).mem ∧
      GoK A hash ((Sys.init len cap calls).exec hash n (xs ++ zs)).mem ((Sys.init len cap calls).exec hash n (xs ++ ys)).mem := by
  have hall : ∀ zs, AllValid ((Sys.init len cap calls).exec hash n zs).hist := init_valid hash n calls hv
  refine ⟨askedIn ((Sys.init len cap calls).exec hash n (xs ++ ys)).hist, asked_ok (hall _), ?_⟩
  have hA := asked_ok (hall (xs ++ ys))
  have hok : ∀ zs, (∃ ws, xs ++ ys = zs ++ ws) → ∀ t op, .inv t op ∈ ((Sys.init len cap calls).exec hash n zs).hist →
      op.Valid ∧ ∀ k v, op.Asks k v → askedIn ((Sys.init len cap calls).exec hash n (xs ++ ys)).hist k v := by
    rintro zs ⟨ws, e⟩ t op h
    refine ⟨hall zs t op h, fun k v ha => ⟨t, op, ?_, ha⟩⟩
    obtain ⟨h', e'⟩ := exec_hist hash n ws ((Sys.init len cap calls).exec hash n zs)
    rw [e, exec_append, e']
    exact List.mem_append_left _ h
  have h0 : PathOK (askedIn ((Sys.init len cap calls).exec hash n (xs ++ ys)).hist) hash (Sys.init len cap calls) :=
    ⟨start_ok (PInv_fresh hs) calls, KInv_fresh, fun _ => trivial⟩
  obtain ⟨h1, g1⟩ := h0.exec hA n xs (hok xs ⟨ys, rfl⟩)
  intro zs ws e
  obtain ⟨h2, g2⟩ := h1.exec hA n zs (by rw [← exec_append]; exact hok (xs ++ zs) ⟨ws, by rw [e, List.append_assoc]⟩)
  rw [← exec_append] at h2 g2
  obtain ⟨h3, g3⟩ := h2.exec hA n ws (by
    rw [← exec_append, List.append_assoc, ← e]; exact hok (xs ++ ys) ⟨[], by simp⟩)
  rw [← exec_append, List.append_assoc, ← e] at g3
  exact ⟨h2, g2, g3⟩

theorem path_ok {len cap : Nat} (hs : Sized len cap) (hash : Word → Word) (n : Nat) (calls : Nat → List Op)
    (hv : ∀ t, ∀ op ∈ calls t, op.Valid) (xs ys : List Sched) :
    ∃ A, AskedOK A ∧ PathOK A hash ((Sys.init len cap calls).exec hash n xs) ∧
      GoK A hash ((Sys.init len cap calls).exec hash n xs).mem ((Sys.init len cap calls).exec hash n (xs ++ ys)).mem := by
  obtain ⟨A, hA, h⟩ := path_between hs hash n calls hv xs ys
  have h1 := h [] ys rfl
  rw [List.append_nil] at h1
  exact ⟨A, hA, h1.1, h1.2.2⟩

end PMap
