import Verif.Par.Spec

/-!
# Migration, `putIfMatch` and `getImpl` under interference (proof machinery)
-/

namespace PMap

open Prog

variable {A : Word → Word → Prop} {m m' m'' : Mem} {t i : Nat} {α β σ : Type} {M : Prop}

/-- A loop whose rounds all start from a later memory with `I`. -/
theorem p_loop {body : σ → Prog (Ctl σ α)} {P : α → Mem → Prop} (I : σ → Mem → Prop) (hm : PInv A m)
    (hb : ∀ x m1, Go A m m1 → I x m1 →
      wp (pRG A M) (fun c m' => Go A m1 m' ∧ match c with | .next x' => I x' m' | .done a => P a m') (body x) m1)
    (n : Nat) (x : σ) (hi : I x m) : wp (pRG A M) (fun a m' => Go A m m' ∧ P a m') (loop n body x) m := by
  refine wp_loop (I := fun x m1 => Go A m m1 ∧ I x m1) ?_ n x m ⟨.refl hm, hi⟩
  rintro x m1 ⟨g, h⟩
  refine wp_mono (hb x m1 g h) ?_
  rintro (c | c) m2 ⟨g2, h2⟩ <;> exact ⟨g.trans g2, h2⟩

theorem p_weak {P : α → Mem → Prop} {P' : α → Mem → Prop} {p : Prog α}
    (h : wp (pRG A M) (fun a m' => Go A m m' ∧ P a m') p m) (hp : ∀ a m', Go A m m' → P a m' → P' a m') :
    wp (pRG A M) (fun a m' => Go A m m' ∧ P' a m') p m :=
  wp_mono h fun a m' h => ⟨h.1, hp a m' h.1 h.2⟩

/-- Return type of the recursive `putIfMatch`. -/
def PRet (A : Word → Word → Prop) (key v : Word) : Prop :=
  isMig v = false ∧ (clean v = VINITIAL ∨ clean v = VTOMBSTONE ∨ A key (clean v))

/-- A new value the recursive `putIfMatch` may be given. -/
def NewOK (A : Word → Word → Prop) (key v : Word) : Prop :=
  isMig v = false ∧ (clean v = VTOMBSTONE ∨ A key (clean v))

/-- The contract of the recursive call. -/
def PutOK (A : Word → Word → Prop) (M : Prop) (put : PutFn) : Prop :=
  ∀ t key nv ov m, PInv A m → t < m.next → clean key = key → key ≠ KINITIAL → NewOK A key nv → isMig ov = false →
    (nv = VINITIAL → Grown m) → wp (pRG A M) (fun r m' => Go A m m' ∧ PRet A key r) (put t key nv ov) m

/-! ## Migration -/

theorem eq_tombprime {v : Word} (h1 : isMig v = true) (h2 : clearMark v MigrationFlag = VTOMBSTONE) : v = TOMBPRIME := by
  rw [← setMig_clearMig h1, h2]; rfl

theorem p_copySlotKey (hm : PInv A m) (hx : Has m t i) (n : Nat) :
    wp (pRG A M) (fun K m' => Go A m m' ∧ (KeyAt m' t i K ∧ clean K = K)) (copySlotKey n i t) m := by
  refine p_loop (fun _ _ => True) hm ?_ n () trivial
  intro _ m1 g1 _
  have hx1 := g1.has hx
  refine p_bind (p_tableKey g1.inv hx1) fun K m2 g2 hK => ?_
  split
  · refine p_bind (p_casKey g2.inv (g2.has hx1) clean_KT (by decide)) fun _ m3 g3 _ => ?_
    exact wp_pure ⟨g2.trans g3, trivial⟩
  · next h =>
    have := hK h
    refine wp_pure ⟨g2, this, ?_⟩
    rw [← this.2.1, pk, clean_clean]

theorem p_copySlotMark (hm : PInv A m) {K V : Word} {nt : Nat} (hk : KeyAt m t i K) (hl : Linked m t nt)
    (hv : ValAt A m t i V) (hd : V = dirty VINITIAL → A K VINITIAL) (n : Nat) :
    wp (pRG A M) (fun r m' => Go A m m' ∧ ∀ v, r = .val v → isMig v = true ∧ ValAt A m' t i v) (copySlotMark n i t V) m := by
  refine p_loop (fun V m1 => ValAt A m1 t i V ∧ (V = dirty VINITIAL → A K VINITIAL)) hm ?_ n V ⟨hv, hd⟩
  rintro V m1 g1 ⟨hv, hd⟩
  have hk1 := g1.keyAt hk
  have hl1 := g1.linked hl
  split
  · next h => exact wp_pure ⟨.refl g1.inv, fun v e => by cases e; exact ⟨h, hv⟩⟩
  · next h =>
    have hnm : isMig V = false := by simpa using h
    have hlive := (hv.valOK hk1).live (by rw [isMig_clean]; exact hnm)
    generalize hmk : (if V = VINITIAL ∨ V = VTOMBSTONE then TOMBPRIME else setMark V MigrationFlag) = mark
    have hmig : isMig mark = true := by
      rw [← hmk]; split
      · decide
      · exact isMig_setMig V
    have hok : ValOK A K (clean mark) := by
      rw [← hmk]; split
      · rw [clean_TP]; exact .inr (.inr (.inl rfl))
      · next hne =>
        rw [clean_setMig]
        rcases hlive with e | e | e
        · have hV : V = dirty VINITIAL := eq_dirty_of_clean e (fun h => hne (.inl h))
          rw [e]; exact .inr (.inr (.inr (.inr ⟨_, hd hV, rfl⟩)))
        · rw [e]; exact .inr (.inr (.inl rfl))
        · exact .inr (.inr (.inr (.inr ⟨_, e, rfl⟩)))
    refine wp_bind' (wp_bind' (wp_mono (p_casVal (n := mark) (o := V) g1.inv hk1 hok (fun _ => by rw [hl1.2]; simp)
      (fun e => by rw [hnm] at e; cases e) (fun e => ?_)) ?_))
    · rw [← isMig_clean, e] at hmig; exact absurd hmig (by decide)
    · rintro r m2 ⟨g2, h2⟩
      refine wp_pure ?_
      rcases h2 with ⟨e, h2⟩ | ⟨e, h2, h3⟩
      · rw [if_pos e]
        split
        · exact wp_pure ⟨g2, fun v e => by cases e⟩
        · exact wp_pure ⟨g2, fun v e => by cases e; exact ⟨hmig, h2⟩⟩
      · rw [if_neg e]
        exact wp_pure ⟨g2, h2, h3⟩

theorem p_copySlotFinish (hm : PInv A m) {K V : Word} (hk : KeyAt m t i K) (hl : (m.tab t).newT ≠ none) (n : Nat) :
    wp (pRG A M) (fun _ m' => Go A m m' ∧ True) (copySlotFinish n i t V) m := by
  refine p_loop (fun _ _ => True) hm ?_ n V trivial
  rintro V m1 g1 -
  have hk1 := g1.keyAt hk
  have hl1 : (m1.tab t).newT ≠ none := by
    cases h : (m.tab t).newT with
    | none => exact absurd h hl
    | some n => rw [g1.newT hk.1.1 h]; simp
  refine wp_bind' (wp_bind' (wp_mono (p_casVal (n := TOMBPRIME) (o := V) g1.inv hk1 (.inr (.inr (.inl clean_TP)))
    (fun _ => hl1) (fun _ => clean_TP) (fun e => absurd e (by decide))) ?_))
  rintro r m2 ⟨g2, _⟩
  refine wp_pure ?_
  split <;> exact wp_pure ⟨g2, trivial⟩

theorem p_copySlot (hA : AskedOK A) {put : PutFn} (hp : PutOK A M put) (hm : PInv A m) {nt : Nat} (hx : Has m t i)
    (hl : Linked m t nt) (n : Nat) :
    wp (pRG A M) (fun _ m' => Go A m m' ∧ True) (copySlot put n i t nt) m := by
  unfold copySlot
  refine p_bind (p_copySlotKey hm hx n) fun K m1 g1 ⟨hk, hKc⟩ => ?_
  refine p_bind (p_tableValue g1.inv hk.1) fun V m2 g2 ⟨hv, hc, hdv, _⟩ => ?_
  have g12 := g1.trans g2
  have hk2 := g2.keyAt hk
  refine p_bind (p_copySlotMark g2.inv hk2 (g12.linked hl) hv (fun e => ?_) n) fun r m3 g3 hr => ?_
  · rw [e] at hc; exact absurd hc (by decide)
  have g13 := g12.trans g3
  cases r with
  | finished => exact wp_pure ⟨g13, trivial⟩
  | val v =>
    obtain ⟨hmig, hv3⟩ := hr v rfl
    dsimp only
    split
    · exact wp_pure ⟨g13, trivial⟩
    · next hne =>
      have hnt : clearMark v MigrationFlag ≠ VTOMBSTONE := fun e => hne (eq_tombprime hmig e)
      refine p_bind (p_check g3.inv (.inl (by simp [hnt]))) fun _ m4 g4 _ => ?_
      have g14 := g13.trans g4
      have hk3 := g3.keyAt hk2
      have hn : NewOK A K (clearMark v MigrationFlag) := by
        refine ⟨isMig_clearMig v, ?_⟩
        rw [clean_clearMig]
        rcases (hv3.valOK hk3).marked hA (by rw [isMig_clean]; exact hmig) with e | ⟨u, hu, e⟩
        · left; rw [e]; decide
        · right; rw [e, clearMig_setMig (hA.val _ _ hu).2]; exact hu
      refine p_bind (hp nt K _ _ m4 g4.inv ((g14.linked hl).lt g4.inv) hKc hk.2.2 hn (by decide) fun _ => (g14.linked hl).grown) fun r m5 g5 _ => ?_
      refine p_bind (p_copySlotFinish g5.inv ((g4.trans g5).keyAt hk3) ?_ n) fun _ m6 g6 _ =>
        wp_pure ⟨(g14.trans g5).trans g6, trivial⟩
      rw [((g14.trans g5).linked hl).2]; simp

theorem p_claimChunk (hm : PInv A m) (ht : t < m.next) (n l w : Nat) :
    wp (pRG A M) (fun _ m' => Go A m m' ∧ True) (claimChunk n t l w) m := by
  unfold claimChunk
  refine p_bind (p_getIdx hm ht) fun c m1 g1 _ => ?_
  refine wp_mono (p_loop (fun _ _ => True) g1.inv ?_ n c trivial) fun _ _ h => ⟨g1.trans h.1, h.2⟩
  intro c m2 g2 _
  split
  · refine p_bind (p_casIdx g2.inv (g2.lt (g1.lt ht)) _ _) fun r m3 g3 _ => ?_
    split <;> exact wp_pure ⟨g3, trivial⟩
  · exact wp_pure ⟨.refl g2.inv, trivial⟩

theorem p_copyChunk (hA : AskedOK A) {put : PutFn} (hp : PutOK A M put) {nt : Nat} (n c : Nat) (todo : Nat) :
    ∀ j w m, PInv A m → Linked m t nt →
    wp (pRG A M) (fun _ m' => Go A m m' ∧ True) (copyChunk put n t nt (m.tab t).len c todo j w) m := by
  induction todo with
  | zero => intro j w m hm _; exact wp_pure ⟨.refl hm, trivial⟩
  | succ todo ih =>
    intro j w m hm hl
    rw [copyChunk]
    obtain ⟨p, _, hp'⟩ := hm.pow t hl.1
    have hx : Has m t ((c + j) &&& ((m.tab t).len - 1)) := ⟨hl.1, by rw [hp']; exact and_lt_pow⟩
    refine p_bind (p_copySlot hA hp hm hx hl n) fun b m1 g1 _ => ?_
    have := ih (j + 1) (if b = true then w + 1 else w) m1 g1.inv (g1.linked hl)
    rw [g1.evo.len t hl.1] at this
    exact wp_mono this fun _ _ h => ⟨g1.trans h.1, trivial⟩

theorem p_helpCopyImpl (hA : AskedOK A) {put : PutFn} (hp : PutOK A M put) (hm : PInv A m) {nt : Nat} (hl : Linked m t nt)
    (n : Nat) : wp (pRG A M) (fun _ m' => Go A m m' ∧ True) (helpCopyImpl put n t) m := by
  unfold helpCopyImpl
  refine p_bind (p_getNew hm hl.1) fun o m1 g1 ho => ?_
  have hl1 := g1.linked hl
  rw [hl1.2] at ho
  subst ho
  refine p_bind (p_check g1.inv (.inl rfl)) fun _ m2 g2 _ => ?_
  have hl2 := g2.linked hl1
  refine p_bind (p_len g2.inv hl2.1) fun (l : Nat) m3 g3 (hlen : l = (m2.tab t).len) => ?_
  have hl3 := g3.linked hl2
  have g13 := (g1.trans g2).trans g3
  dsimp only
  refine p_bind (p_loop (fun _ _ => True) (P := fun _ _ => True) g3.inv ?_ n (0, false) trivial) fun _ m4 g4 _ => ?_
  · rintro ⟨c, b⟩ m4 g4 -
    have hl4 := g4.linked hl3
    refine p_bind (p_getDone g4.inv hl4.1) fun d m5 g5 _ => ?_
    split
    · have hrest : ∀ c' m6, Go A m5 m6 → wp (pRG A M) (fun (c : Ctl (Nat × Bool) Unit) m' => Go A m4 m' ∧ match c with
            | .next _ => True
            | .done _ => True) (do
          let workDone ← copyChunk put n t nt l c' (if l < 1024 then l else 1024) 0 0
          if 0 < workDone then do
            copyCheckAndPromote t workDone
          else pure ()
          return Ctl.next (c' + (if l < 1024 then l else 1024), b || decide (l * 2 ≤ c'))) m6 := by
        intro c' m6 g6
        have g46 := g5.trans g6
        have hl6 := g46.linked hl4
        have := p_copyChunk hA hp (nt := nt) n c' (if l < 1024 then l else 1024) 0 0 m6 g6.inv hl6
        rw [(g4.trans g46).evo.len t hl3.1, g3.evo.len t hl2.1, ← hlen] at this
        refine p_bind this fun w m7 g7 _ => ?_
        have g47 := g46.trans g7
        dsimp only
        split
        · refine p_bind (p_promote g7.inv (g7.linked hl6) _) fun _ m8 g8 _ => wp_pure ⟨g47.trans g8, trivial⟩
        · exact wp_pure ⟨g47, trivial⟩
      cases b with
      | true =>
        simp only [if_true]
        exact wp_bind' (wp_pure (wp_mono (hrest c m5 (.refl g5.inv)) (by rintro (c | c) m' h <;> exact h)))
      | false =>
        simp only [Bool.false_eq_true, if_false]
        exact p_bind (p_claimChunk g5.inv (g5.lt hl4.1) n _ _) fun c' m6 g6 _ =>
          wp_mono (hrest c' m6 g6) (by rintro (c | c) m' h <;> exact h)
    · exact wp_pure ⟨g5, trivial⟩
  · exact wp_mono (p_promote g4.inv (g4.linked hl3) 0) fun _ _ h => ⟨(g13.trans g4).trans h.1, trivial⟩

theorem p_helpCopy (hA : AskedOK A) {put : PutFn} (hp : PutOK A M put) (hm : PInv A m) (n h : Nat) :
    wp (pRG A M) (fun r m' => Go A m m' ∧ r = h) (helpCopy put n h) m := by
  unfold helpCopy
  refine p_bind (p_getRoot hm) fun r m1 g1 hr => ?_
  refine p_bind (p_getNew g1.inv hr) fun o m2 g2 ho => ?_
  have g12 := g1.trans g2
  cases o with
  | none => exact wp_pure ⟨g12, rfl⟩
  | some n' =>
    exact p_bind (p_helpCopyImpl hA hp g2.inv ⟨g2.lt hr, ho.symm⟩ n) fun _ m3 g3 _ => wp_pure ⟨g12.trans g3, rfl⟩

theorem p_copySlotAndCheck (hA : AskedOK A) {put : PutFn} (hp : PutOK A M put) (hm : PInv A m) {nt : Nat} (hx : Has m t i)
    (hl : Linked m t nt) (n : Nat) (b : Bool) :
    wp (pRG A M) (fun r m' => Go A m m' ∧ r = nt) (copySlotAndCheck put n t i b) m := by
  unfold copySlotAndCheck
  refine p_bind (p_getNew hm hl.1) fun o m1 g1 ho => ?_
  have hl1 := g1.linked hl
  rw [hl1.2] at ho
  subst ho
  refine p_bind (p_check g1.inv (.inl rfl)) fun _ m2 g2 _ => ?_
  have g12 := g1.trans g2
  dsimp only
  refine p_bind (p_copySlot hA hp g2.inv (g12.has hx) (g12.linked hl) n) fun w m3 g3 _ => ?_
  have g13 := g12.trans g3
  have hrest : ∀ m4, Go A m3 m4 → wp (pRG A M) (fun r m' => Go A m m' ∧ r = nt)
      (if b = true then pure nt else helpCopy put n nt) m4 := by
    intro m4 g4
    split
    · exact wp_pure ⟨g13.trans g4, rfl⟩
    · exact wp_mono (p_helpCopy hA hp g4.inv n nt) fun _ _ h => ⟨(g13.trans g4).trans h.1, h.2⟩
  split
  · exact p_bind (p_promote g3.inv (g13.linked hl) 1) fun _ m4 g4 _ => hrest m4 g4
  · exact hrest m3 (.refl g3.inv)

/-! ## putIfMatch -/

theorem p_tableFull (hm : PInv A m) (ht : t < m.next) (r l : Nat) :
    wp (pRG A M) (fun _ m' => Go A m m' ∧ True) (tableFull t r l) m := by
  unfold tableFull
  split
  · exact p_bind (p_getSlots hm ht) fun _ _ g _ => wp_pure ⟨g, trivial⟩
  · exact wp_pure ⟨.refl hm, trivial⟩

theorem p_wantNewTable (hm : PInv A m) (ht : t < m.next) (r l : Nat) (V : Word) :
    wp (pRG A M) (fun w m' => Go A m m' ∧ (w = false → isMig V = false)) (wantNewTable t r l V) m := by
  unfold wantNewTable
  split
  · exact p_bind (p_tableFull hm ht r l) fun f _ g _ => wp_pure ⟨g, fun h => by
      cases hf : isMig V <;> simp_all⟩
  · exact wp_pure ⟨.refl hm, fun h => h⟩

/-- What the probe loop found. -/
def ProbeOK (A : Word → Word → Prop) (t : Nat) (key newVal : Word) (p : Probe) (m : Mem) : Prop :=
  match p with
  | .returned v => v = newVal
  | .full => True
  | .slot i _ V => KeyAt m t i key ∧ ValAt A m t i V ∧ clean V = V

theorem p_probe (hm : PInv A m) (ht : t < m.next) {key newVal : Word} (hk : clean key = key) (hne : key ≠ KINITIAL)
    (n i r : Nat) (hi : i < (m.tab t).len) :
    wp (pRG A M) (fun p m' => Go A m m' ∧ ProbeOK A t key newVal p m')
      (loop n (probeBody t key newVal (m.tab t).len) (i, r)) m := by
  obtain ⟨p, _, hp⟩ := hm.pow t ht
  refine p_loop (fun s _ => s.1 < (m.tab t).len) hm ?_ n (i, r) hi
  rintro ⟨i, r⟩ m1 g1 hi
  have hi : i < (m.tab t).len := hi
  have hx1 : Has m1 t i := g1.has ⟨ht, hi⟩
  have hmatch : ∀ K V m2, Go A m1 m2 → (K = key → KeyAt m2 t i key) → ValAt A m2 t i V → clean V = V →
      wp (pRG A M) (fun c m' => Go A m1 m' ∧ match c with
        | .next x' => x'.1 < (m.tab t).len
        | .done a => ProbeOK A t key newVal a m') (probeMatch key (m.tab t).len i r K V) m2 := by
    intro K V m2 g2 hK hv hc
    unfold probeMatch
    split
    · next e => exact wp_pure ⟨g2, hK e, hv, hc⟩
    · split
      · exact wp_pure ⟨g2, trivial⟩
      · exact wp_pure ⟨g2, by rw [hp]; exact and_lt_pow⟩
  unfold probeBody
  refine p_bind (p_tableKey g1.inv hx1) fun K m2 g2 hK => ?_
  refine p_bind (p_tableValue g2.inv (g2.has hx1)) fun V m3 g3 ⟨hv, hc, _⟩ => ?_
  have g13 := g2.trans g3
  split
  · split
    · exact wp_pure ⟨g13, rfl⟩
    · refine p_bind (p_casKey g3.inv (g13.has hx1) hk hne) fun a m4 g4 ha => ?_
      have g14 := g13.trans g4
      split
      · next e =>
        refine p_bind (p_incSlots g4.inv (g14.lt hx1.1)) fun _ m5 g5 _ => ?_
        exact wp_pure ⟨g14.trans g5, g5.keyAt (ha (.inl e)), (g4.trans g5).valAt hv, hc⟩
      · exact wp_mono (hmatch a V m4 g14 (fun e => ha (.inr e)) (g4.valAt hv) hc) (by rintro (c | c) m' h <;> exact h)
  · next h => exact wp_mono (hmatch K V m3 g13 (fun e => e ▸ g3.keyAt (hK h)) hv hc) (by rintro (c | c) m' h <;> exact h)

theorem p_adjustSize (hm : PInv A m) (ht : t < m.next) (V nv ov : Word) :
    wp (pRG A M) (fun _ m' => Go A m m' ∧ True) (adjustSize t V nv ov) m := by
  unfold adjustSize
  split
  · split
    · exact p_addSize hm ht _
    · split
      · exact p_addSize hm ht _
      · exact wp_pure ⟨.refl hm, trivial⟩
  · exact wp_pure ⟨.refl hm, trivial⟩

theorem isMig_shl (x : Word) : isMig (x <<< 3) = false := by
  rw [isMig, isMarked_eq_false]
  have h : ∀ i (hi : i < 64), (MigrationFlag)[i] = decide (i = 1) := by decide
  ext i hi
  rw [BitVec.getElem_and, h i hi, BitVec.getElem_shiftLeft]
  by_cases e : i = 1 <;> simp [e]

theorem clean_shl (x : Word) : clean (x <<< 3) = x <<< 3 := by
  rw [← not_dirty_iff, isDirty, isMarked_eq_false]
  have h : ∀ i (hi : i < 64), (DirtyFlag)[i] = decide (i = 0) := by decide
  ext i hi
  rw [BitVec.getElem_and, h i hi, BitVec.getElem_shiftLeft]
  by_cases e : i = 0 <;> simp [e]

theorem isMig_incremented (V : Word) : isMig (incremented V) = false := isMig_shl _
theorem clean_incremented (V : Word) : clean (incremented V) = incremented V := clean_shl _

theorem p_call (hm : PInv A m) {K : Word} (hk : KeyAt m t i K) (cf : CasFn) {o nv : Word} (ho : isMig o = false)
    (hn : NewOK A K nv) (hi : cf = .increment → ∀ V, A K (incremented V)) :
    wp (pRG A M) (fun r m' => Go A m m' ∧ (r = o ∨ ValAt A m' t i r)) (cf.call t i o nv) m := by
  have key : ∀ w, NewOK A K w → wp (pRG A M) (fun r m' => Go A m m' ∧ (r = o ∨ ValAt A m' t i r))
      (do let r ← pcas (.val t i) o w; return r.2) m := by
    intro w hw
    refine wp_bind' (wp_mono (p_casVal (n := w) (o := o) hm hk ?_ ?_ ?_ ?_) ?_)
    · rcases hw.2 with e | e
      · rw [e]; exact .inr (.inl rfl)
      · exact .inr (.inr (.inr (.inl e)))
    · intro e; rw [hw.1] at e; cases e
    · intro e; rw [ho] at e; cases e
    · intro e
      rcases hw.2 with e' | e'
      · rw [e] at e'; exact absurd e' (by decide)
      · rw [e] at e'; exact e'
    · rintro r m' ⟨g, h⟩
      refine wp_pure ⟨g, ?_⟩
      rcases h with h | h
      · exact .inl h.1
      · exact .inr h.2.1
  cases cf with
  | casValue => exact key nv hn
  | increment =>
    exact key (incremented o) ⟨isMig_incremented o, .inr (by rw [clean_incremented]; exact hi rfl o)⟩

theorem p_update (hm : PInv A m) {K : Word} (hk : KeyAt m t i K) (cf : CasFn) {V nv ov : Word}
    (hV : isMig V = false) (hv : ValAt A m t i V)
    (hn : NewOK A K nv) (hi : cf = .increment → ∀ V, A K (incremented V)) (n : Nat) :
    wp (pRG A M) (fun u m' => Go A m m' ∧ match u with
      | .returned v => PRet A K v
      | .migrated => isMig (pv m' t i) = true) (loop n (updateBody cf t i nv ov) V) m := by
  refine p_loop (fun V m1 => isMig V = false ∧ ValAt A m1 t i V)
    (P := fun (u : Upd) m' => match u with
      | .returned v => PRet A K v
      | .migrated => isMig (pv m' t i) = true) hm ?_ n V ⟨hV, hv⟩
  rintro V m1 g1 ⟨hV, hv⟩
  unfold updateBody
  refine p_bind (p_check g1.inv (.inl (by simp [hV]))) fun _ m2 g2 _ => ?_
  have hk2 := (g1.trans g2).keyAt hk
  have hret : PRet A K V :=
    ⟨hV, (hv.valOK (g1.keyAt hk)).live (by rw [isMig_clean]; exact hV)⟩
  split
  · exact wp_pure ⟨g2, hret⟩
  · refine p_bind (p_call g2.inv hk2 cf hV hn hi) fun a m3 g3 ha => ?_
    have g13 := g2.trans g3
    split
    · refine p_bind (p_adjustSize g3.inv (g13.lt hv.has.1) _ _ _) fun _ m4 g4 _ => wp_pure ⟨g13.trans g4, ?_⟩
      dsimp only
      split
      · exact ⟨by decide, .inr (.inl clean_VT)⟩
      · exact hret
    · next hne =>
      have ha := ha.resolve_left hne
      refine p_bind (p_tableValue g3.inv ha.has) fun V' m4 g4 ⟨hv', _, _, m0, h0, h1, e0⟩ => ?_
      have g14 := g13.trans g4
      split
      · next h => exact wp_pure ⟨g14, hv'.mig h⟩
      · next h =>
        refine wp_pure ⟨g14, ?_, g4.valAt ha⟩
        cases hc : isMig a with
        | false => rfl
        | true =>
          have := h0.evo.mig t i ha.has (ha.mig hc)
          rw [← e0] at this
          exact absurd this h

theorem NewOK.new {key nv : Word} (h : NewOK A key nv) (hg : nv = VINITIAL → Grown m) :
    (nv != VINITIAL) = true ∨ (Grown m ∧ ∃ k, A k VINITIAL) := by
  by_cases e : nv = VINITIAL
  · right
    rcases h.2 with h1 | h1
    · rw [e] at h1; exact absurd h1 (by decide)
    · rw [e, clean_VI] at h1; exact ⟨hg e, key, h1⟩
  · exact .inl (by simp [e])

theorem p_putBody (hA : AskedOK A) (hash : Word → Word) {put : PutFn} (hp : PutOK A M put) (hm : PInv A m) (ht : t < m.next)
    {key nv ov : Word} (hk : clean key = key) (hne : key ≠ KINITIAL) (hn : NewOK A key nv) (hov : isMig ov = false) (cf : CasFn)
    (hi : cf = .increment → ∀ V, A key (incremented V)) (hg : nv = VINITIAL → Grown m) (n : Nat) :
    wp (pRG A M) (fun r m' => Go A m m' ∧ PRet A key r) (putBody hash put n cf t key nv ov) m := by
  unfold putBody
  refine p_bind (p_checkNew hm (hn.new hg)) fun _ m1 g1 _ => ?_
  refine p_bind (p_check g1.inv (.inl (by simp [hn.1]))) fun _ m2 g2 _ => ?_
  refine p_bind (p_check g2.inv (.inl (by simp [hov]))) fun _ m3 g3 _ => ?_
  have g03 := (g1.trans g2).trans g3
  refine p_bind (p_len g3.inv (g03.lt ht)) fun (l : Nat) m4 g4 (hl : l = (m3.tab t).len) => ?_
  have g04 := g03.trans g4
  have ht4 := g04.lt ht
  have hl4 : l = (m4.tab t).len := by rw [g4.evo.len t (g03.lt ht), hl]
  obtain ⟨p, _, hp'⟩ := g4.inv.pow t ht4
  have hhome : homePut hash key l < (m4.tab t).len := by rw [homePut, hl4, hp']; exact and_lt_pow
  subst hl4
  refine p_bind (p_probe g4.inv ht4 hk hne n _ _ hhome) fun pr m5 g5 hpr => ?_
  have g05 := g04.trans g5
  have ht5 := g05.lt ht
  have hret : PRet A key nv := ⟨hn.1, hn.2.elim (fun h => .inr (.inl h)) (fun h => .inr (.inr h))⟩
  have hput : ∀ nt m6, Go A m m6 → nt < m6.next → wp (pRG A M) (fun r m' => Go A m m' ∧ PRet A key r) (put nt key nv ov) m6 :=
    fun nt m6 g6 h6 => wp_mono (hp nt key nv ov m6 g6.inv h6 hk hne hn hov fun e => g6.grown (hg e)) fun _ _ h => ⟨g6.trans h.1, h.2⟩
  cases pr with
  | returned v => cases hpr; exact wp_pure ⟨g05, hret⟩
  | full =>
    refine p_bind (p_resize g5.inv ht5) fun nt m6 g6 hl6 => ?_
    have g06 := g05.trans g6
    split
    · exact p_bind (p_helpCopy hA hp g6.inv n nt) fun _ m7 g7 _ => hput nt m7 (g06.trans g7) (g7.lt (hl6.lt g6.inv))
    · exact hput nt m6 g06 (hl6.lt g6.inv)
  | slot i r V =>
    obtain ⟨hk5, hv5, hc⟩ := hpr
    have hcopy : ∀ nt m6, Go A m5 m6 → Linked m6 t nt → wp (pRG A M) (fun r m' => Go A m m' ∧ PRet A key r) (do
        let nt ← copySlotAndCheck put n t i (decide (ov = VINITIAL))
        put nt key nv ov) m6 := by
      intro nt m6 g6 hl6
      refine p_bind (p_copySlotAndCheck hA hp g6.inv (g6.has hk5.1) hl6 n _) fun r m7 g7 hr => ?_
      subst hr
      exact hput _ m7 ((g05.trans g6).trans g7) (g7.lt (hl6.lt g6.inv))
    dsimp only
    split
    · next e => exact wp_pure ⟨g05, e ▸ hret⟩
    · refine p_bind (p_wantNewTable g5.inv ht5 _ _ V) fun w m6 g6 hw => ?_
      split
      · exact p_bind (p_resize g6.inv (g6.lt ht5)) fun nt m7 g7 hl7 => hcopy nt m7 (g6.trans g7) hl7
      · next h =>
        have hV := hw (by simpa using h)
        refine p_bind (p_update g6.inv (g6.keyAt hk5) cf hV (g6.valAt hv5) hn hi n) fun u m7 g7 hu => ?_
        have g57 := g6.trans g7
        cases u with
        | returned v => exact wp_pure ⟨g05.trans g57, hu⟩
        | migrated =>
          have := g7.inv.mig t i (g57.has hk5.1) hu
          obtain ⟨nt, hnt⟩ := Option.ne_none_iff_exists'.mp this
          exact hcopy nt m7 g57 ⟨g57.lt ht5, hnt⟩

theorem p_putIfMatch (hA : AskedOK A) (hash : Word → Word) (n : Nat) :
    ∀ cf t key nv ov m, PInv A m → t < m.next → clean key = key → key ≠ KINITIAL → NewOK A key nv →
    isMig ov = false → (cf = .increment → ∀ V, A key (incremented V)) → (nv = VINITIAL → Grown m) →
    wp (pRG A M) (fun r m' => Go A m m' ∧ PRet A key r) (putIfMatch hash n cf t key nv ov) m := by
  induction n with
  | zero => intro cf t key nv ov m _ _ _ _ _ _ _ _; exact wp_fuel
  | succ n ih =>
    intro cf t key nv ov m hm ht hk hne hn hov hi hg
    exact p_putBody hA hash (fun t key nv ov m hm ht hk hne hn hov hg => ih .casValue t key nv ov m hm ht hk hne hn hov
      (fun h => by cases h) hg) hm ht hk hne hn hov cf hi hg n

theorem putOK (hA : AskedOK A) (hash : Word → Word) (n : Nat) : PutOK A M (putIfMatch hash n .casValue) :=
  fun t key nv ov m hm ht hk hne hn hov hg => p_putIfMatch hA hash n .casValue t key nv ov m hm ht hk hne hn hov (fun h => by cases h) hg

/-! ## getImpl -/

/-- What `get` may return. -/
def GetOK (A : Word → Word → Prop) (key v : Word) : Prop := v = VINITIAL ∨ A key v

theorem p_getProbe (hm : PInv A m) (ht : t < m.next) {key : Word} (n i r : Nat) (hi : i < (m.tab t).len) :
    wp (pRG A M) (fun p m' => Go A m m' ∧ match p with
      | .returned v => GetOK A key v
      | .copy i => Has m' t i ∧ isMig (pv m' t i) = true
      | .chase nt => nt < m'.next) (loop n (getProbeBody t key (m.tab t).len) (i, r)) m := by
  obtain ⟨p, _, hp⟩ := hm.pow t ht
  refine p_loop (fun s _ => s.1 < (m.tab t).len) (P := fun (p : GProbe) m' => match p with
      | .returned v => GetOK A key v
      | .copy i => Has m' t i ∧ isMig (pv m' t i) = true
      | .chase nt => nt < m'.next) hm ?_ n (i, r) hi
  rintro ⟨i, r⟩ m1 g1 hi
  have hi : i < (m.tab t).len := hi
  have hx1 : Has m1 t i := g1.has ⟨ht, hi⟩
  unfold getProbeBody
  refine p_bind (p_tableKey g1.inv hx1) fun K m2 g2 hK => ?_
  refine p_bind (p_tableValue g2.inv (g2.has hx1)) fun V m3 g3 ⟨hv, hc, _⟩ => ?_
  have g13 := g2.trans g3
  split
  · exact wp_pure ⟨g13, .inl rfl⟩
  · next hne =>
    have hk3 := g3.keyAt (hK hne)
    refine p_bind (p_getNew g3.inv (g13.lt hx1.1)) fun o m4 g4 ho => ?_
    have g14 := g13.trans g4
    split
    · next e =>
      subst e
      split
      · next hmig => exact wp_pure ⟨g14, g14.has hx1, (g4.valAt hv).mig hmig⟩
      · next hmig =>
        refine wp_pure ⟨g14, ?_⟩
        have hnm : isMig V = false := by simpa using hmig
        have := (hv.valOK hk3).live (by rw [hc]; exact hnm)
        rw [hc] at this
        dsimp only
        split
        · exact .inl rfl
        · next h => exact this.elim .inl (fun h' => h'.elim (fun e => absurd e h) .inr)
    · split
      · cases o with
        | none => exact wp_pure ⟨g14, .inl rfl⟩
        | some nt => exact wp_pure ⟨g14, Linked.lt g4.inv (t := t) ⟨g14.lt hx1.1, ho.symm⟩⟩
      · exact wp_pure ⟨g14, by rw [hp]; exact and_lt_pow⟩

theorem p_getImpl (hA : AskedOK A) (hash : Word → Word) (n : Nat) : ∀ t key m, PInv A m → t < m.next →
    wp (pRG A M) (fun r m' => Go A m m' ∧ GetOK A key r) (getImpl hash n t key) m := by
  induction n with
  | zero => intro t key m _ _; exact wp_fuel
  | succ n ih =>
    intro t key m hm ht
    unfold getImpl
    refine p_bind (p_len hm ht) fun (l : Nat) m1 g1 (hl : l = (m.tab t).len) => ?_
    have ht1 := g1.lt ht
    have hl1 : l = (m1.tab t).len := by rw [g1.evo.len t ht, hl]
    obtain ⟨p, _, hp⟩ := g1.inv.pow t ht1
    have hhome : homeGet hash key l < (m1.tab t).len := by rw [homeGet, hl1, hp]; exact and_lt_pow
    subst hl1
    have hput := putOK (M := M) hA hash n
    refine p_bind (p_getProbe (key := key) g1.inv ht1 n _ _ hhome) fun pr m2 g2 hpr => ?_
    have g12 := g1.trans g2
    cases pr with
    | returned v => exact wp_pure ⟨g12, hpr⟩
    | copy i =>
      obtain ⟨nt, hnt⟩ := Option.ne_none_iff_exists'.mp (g2.inv.mig t i hpr.1 hpr.2)
      have hl2 : Linked m2 t nt := ⟨g12.lt ht, hnt⟩
      refine p_bind (p_copySlotAndCheck hA hput g2.inv hpr.1 hl2 n _) fun r m3 g3 hr => ?_
      subst hr
      exact wp_mono (ih _ key m3 g3.inv (g3.lt (hl2.lt g2.inv))) fun _ _ h => ⟨(g12.trans g3).trans h.1, h.2⟩
    | chase nt =>
      refine p_bind (p_helpCopy hA hput g2.inv n nt) fun r m3 g3 hr => ?_
      subst hr
      exact wp_mono (ih _ key m3 g3.inv (g3.lt hpr)) fun _ _ h => ⟨(g12.trans g3).trans h.1, h.2⟩

/-! ## The public interface -/

theorem p_mapGet (hA : AskedOK A) (hash : Word → Word) (n : Nat) (hm : PInv A m) (key : Word) :
    wp (pRG A M) (fun r m' => Go A m m' ∧ GetOK A key r) (mapGet hash n key) m := by
  unfold mapGet
  refine p_bind (p_getRoot hm) fun r m1 g1 hr => ?_
  refine p_bind (p_getImpl hA hash n r key m1 g1.inv hr) fun V m2 g2 hV => ?_
  have hmig : isMig V = false := by
    rcases hV with rfl | h
    · decide
    · exact (hA.val _ _ h).2
  exact p_bind (p_check g2.inv (.inl (by simp [hmig]))) fun _ m3 g3 _ => wp_pure ⟨(g1.trans g2).trans g3, hV⟩

/-- What the public `putIfMatch` may return; the dirty bit may be set. -/
def PutRes (A : Word → Word → Prop) (key v : Word) : Prop :=
  isMig v = false ∧ v ≠ VTOMBSTONE ∧ (clean v = VINITIAL ∨ v = dirty VTOMBSTONE ∨ A key (clean v))

theorem p_mapPutIfMatch (hA : AskedOK A) (hash : Word → Word) (n : Nat) (cf : CasFn) (hm : PInv A m) {key nv ov : Word}
    (hov : isMig ov = false ∧ ov ≠ VINITIAL) (hk : clean key = key) (hne : key ≠ KINITIAL) (hn : NewOK A key nv)
    (hi : cf = .increment → ∀ V, A key (incremented V)) (hg : nv ≠ VINITIAL) :
    wp (pRG A M) (fun r m' => Go A m m' ∧ PutRes A key r) (mapPutIfMatch hash n cf key nv ov) m := by
  unfold mapPutIfMatch
  refine p_bind (p_check hm (.inl (by simp [hg]))) fun _ m1 g1 _ => ?_
  refine p_bind (p_check g1.inv (.inl (by simp [hov.2]))) fun _ m2 g2 _ => ?_
  refine p_bind (p_getRoot g2.inv) fun r m3 g3 hr => ?_
  refine p_bind (p_putIfMatch hA hash n cf r key nv ov m3 g3.inv hr hk hne hn hov.1 hi fun e => absurd e hg) fun v m4 g4 hv => ?_
  refine p_bind (p_check g4.inv (.inl (by simp [hv.1]))) fun _ m5 g5 _ => wp_pure ⟨(((g1.trans g2).trans g3).trans g4).trans g5, ?_⟩
  split
  · exact ⟨by decide, by decide, .inl clean_VI⟩
  · next h =>
    refine ⟨hv.1, h, ?_⟩
    rcases hv.2 with e | e | e
    · exact .inl e
    · exact .inr (.inl (eq_dirty_of_clean e h))
    · exact .inr (.inr e)

end PMap
