import Verif.Conc

/-!
# How the code writes words: the discipline behind durability (proof machinery)

Every compare-and-swap of the code either stores a word with its dirty bit set, or clears the dirty bit of a word that the same
thread has loaded from that address and then flushed.
-/

namespace PMap

open Prog

/-- What a thread has just done to a word. -/
inductive DSt
  | none
  | loaded (a : Addr) (w : Word)
  | flushed (a : Addr) (w : Word)

/-- A flush after a load of the same address. -/
def DSt.flush (a : Addr) : DSt → DSt
  | .loaded b w => if b = a then .flushed a w else .none
  | _ => .none

variable {α β σ : Type}

/-- See the head of this file. -/
def disc : Prog α → DSt → Prop
  | .ret _, _ => True
  | .halt _, _ => True
  | .act (.load a) k, _ => ∀ r, disc (k r) (.loaded a r)
  | .act (.flush a) k, st => disc (k ()) (st.flush a)
  | .act .fence k, st => disc (k ()) st
  | .act (.cas a e n) k, st => (isDirty n = true ∨ (st = .flushed a e ∧ n = clean e)) ∧ ∀ r, disc (k r) .none
  | .act (.len _) k, _ => ∀ r, disc (k r) .none
  | .act (.getNew _) k, _ => ∀ r, disc (k r) .none
  | .act (.casNew _ _) k, _ => ∀ r, disc (k r) .none
  | .act .getRoot k, _ => ∀ r, disc (k r) .none
  | .act (.casRoot _ _) k, _ => ∀ r, disc (k r) .none
  | .act (.getSize _) k, _ => ∀ r, disc (k r) .none
  | .act (.addSize _ _) k, _ => ∀ r, disc (k r) .none
  | .act (.getSlots _) k, _ => ∀ r, disc (k r) .none
  | .act (.incSlots _) k, _ => ∀ r, disc (k r) .none
  | .act (.getDone _) k, _ => ∀ r, disc (k r) .none
  | .act (.addDone _ _) k, _ => ∀ r, disc (k r) .none
  | .act (.getIdx _) k, _ => ∀ r, disc (k r) .none
  | .act (.casIdx _ _ _) k, _ => ∀ r, disc (k r) .none
  | .act (.alloc _ _) k, _ => ∀ r, disc (k r) .none
  | .act (.check _) k, _ => ∀ r, disc (k r) .none

theorem disc_mono {p : Prog α} : ∀ {st : DSt}, disc p .none → disc p st := by
  induction p with
  | ret a => intro st _; trivial
  | halt h => intro st _; trivial
  | act a k ih =>
    intro st h
    cases a with
    | flush a => rw [disc] at h ⊢; exact ih () h
    | fence => rw [disc] at h ⊢; exact ih () h
    | cas a e n =>
      rw [disc] at h ⊢
      refine ⟨.inl (h.1.resolve_right fun h => by cases h.1), h.2⟩
    | load a => rw [disc] at h ⊢; exact h
    | len t => rw [disc] at h ⊢; exact h
    | getNew t => rw [disc] at h ⊢; exact h
    | casNew t n => rw [disc] at h ⊢; exact h
    | getRoot => rw [disc] at h ⊢; exact h
    | casRoot o n => rw [disc] at h ⊢; exact h
    | getSize t => rw [disc] at h ⊢; exact h
    | addSize t d => rw [disc] at h ⊢; exact h
    | getSlots t => rw [disc] at h ⊢; exact h
    | incSlots t => rw [disc] at h ⊢; exact h
    | getDone t => rw [disc] at h ⊢; exact h
    | addDone t n => rw [disc] at h ⊢; exact h
    | getIdx t => rw [disc] at h ⊢; exact h
    | casIdx t e n => rw [disc] at h ⊢; exact h
    | alloc l s => rw [disc] at h ⊢; exact h
    | check b => rw [disc] at h ⊢; exact h

theorem disc_bind {p : Prog α} {f : α → Prog β} (hf : ∀ a, disc (f a) .none) : ∀ {st : DSt}, disc p st →
    disc (p.bind f) st := by
  induction p with
  | ret a => intro st _; exact disc_mono (hf a)
  | halt h => intro st _; trivial
  | act a k ih =>
    intro st h
    rw [Prog.bind]
    cases a with
    | flush a => rw [disc] at h ⊢; exact ih () h
    | fence => rw [disc] at h ⊢; exact ih () h
    | cas a e n => rw [disc] at h ⊢; exact ⟨h.1, fun r => ih r (h.2 r)⟩
    | load a => rw [disc] at h ⊢; exact fun r => ih r (h r)
    | len t => rw [disc] at h ⊢; exact fun r => ih r (h r)
    | getNew t => rw [disc] at h ⊢; exact fun r => ih r (h r)
    | casNew t n => rw [disc] at h ⊢; exact fun r => ih r (h r)
    | getRoot => rw [disc] at h ⊢; exact fun r => ih r (h r)
    | casRoot o n => rw [disc] at h ⊢; exact fun r => ih r (h r)
    | getSize t => rw [disc] at h ⊢; exact fun r => ih r (h r)
    | addSize t d => rw [disc] at h ⊢; exact fun r => ih r (h r)
    | getSlots t => rw [disc] at h ⊢; exact fun r => ih r (h r)
    | incSlots t => rw [disc] at h ⊢; exact fun r => ih r (h r)
    | getDone t => rw [disc] at h ⊢; exact fun r => ih r (h r)
    | addDone t n => rw [disc] at h ⊢; exact fun r => ih r (h r)
    | getIdx t => rw [disc] at h ⊢; exact fun r => ih r (h r)
    | casIdx t e n => rw [disc] at h ⊢; exact fun r => ih r (h r)
    | alloc l s => rw [disc] at h ⊢; exact fun r => ih r (h r)
    | check b => rw [disc] at h ⊢; exact fun r => ih r (h r)

theorem disc_bind' {p : Prog α} {f : α → Prog β} (hp : disc p .none) (hf : ∀ a, disc (f a) .none) : disc (p >>= f) .none :=
  disc_bind hf hp
theorem disc_pure (a : α) {st : DSt} : disc (pure a) st := trivial
theorem disc_ret (a : α) {st : DSt} : disc (.ret a) st := trivial
theorem disc_halt {h : Halt} {st : DSt} : disc (.halt h : Prog α) st := trivial

theorem disc_loop {body : σ → Prog (Ctl σ α)} (h : ∀ x, disc (body x) .none) (n : Nat) : ∀ x, disc (loop n body x) .none := by
  induction n with
  | zero => intro x; trivial
  | succ n ih =>
    intro x
    refine disc_bind (fun c => ?_) (h x)
    cases c with
    | next x' => exact ih x'
    | done a => trivial

theorem disc_act {a : Act} {st : DSt} (h : ∀ b e n, a ≠ .cas b e n) : disc (do1 a) st := by
  cases a <;> first | (rw [do1, disc]; exact fun _ => trivial) | (rw [do1, disc]; trivial) | exact absurd rfl (h _ _ _)

/-! ## The code -/

theorem disc_check (b : Bool) : disc (check b) .none := disc_act (by simp)

theorem disc_pcasRead (a : Addr) : disc (pcasRead a) .none := by
  show disc (Prog.bind (do1 (.load a)) _) .none
  rw [do1, Prog.bind, disc]
  intro w
  rw [Prog.bind]
  split
  · refine disc_bind (fun _ => disc_pure _) ?_
    show disc (.act (.flush a) _) _
    rw [disc]
    show disc (.act .fence _) _
    rw [disc]
    show disc (.act (.cas a w (clearMark w DirtyFlag)) _) _
    rw [disc]
    refine ⟨.inr ⟨?_, rfl⟩, fun _ => trivial⟩
    simp only [DSt.flush, if_true]
  · exact disc_pure _

theorem disc_pcas (a : Addr) (o v : Word) : disc (pcas a o v) .none := by
  refine disc_bind' (disc_pcasRead a) fun _ => disc_bind' ?_ fun _ => disc_bind' (disc_check _) fun _ => disc_pure _
  rw [do1, disc]
  exact ⟨.inl (isDirty_dirty _), fun _ => trivial⟩

/-- Decomposes a program into known parts. -/
macro "disc_tac" : tactic => `(tactic| repeat' first
  | exact disc_pure _
  | exact disc_ret _
  | exact disc_halt
  | exact disc_check _
  | exact disc_pcasRead _
  | exact disc_pcas _ _ _
  | assumption
  | exact disc_act (by simp)
  | apply disc_bind'
  | apply disc_loop
  | intro _
  | split
  | dsimp only)

theorem disc_tableKey (t i : Nat) : disc (tableKey t i) .none := disc_pcasRead _
theorem disc_tableValue (t i : Nat) : disc (tableValue t i) .none := disc_pcasRead _
theorem disc_casKey (t i : Nat) (o v : Word) : disc (casKey t i o v) .none := by unfold casKey; disc_tac
theorem disc_casValue (t i : Nat) (o v : Word) : disc (casValue t i o v) .none := by unfold casValue; disc_tac
theorem disc_increment (t i : Nat) (o v : Word) : disc (increment t i o v) .none := by unfold increment; disc_tac
theorem disc_call (cf : CasFn) (t i : Nat) (o v : Word) : disc (cf.call t i o v) .none := by
  cases cf
  · exact disc_casValue t i o v
  · exact disc_increment t i o v
theorem disc_tableFull (t r l : Nat) : disc (tableFull t r l) .none := by unfold tableFull; disc_tac
theorem disc_resize (t : Nat) : disc (resize t) .none := by unfold resize; disc_tac
theorem disc_promote (t w : Nat) : disc (copyCheckAndPromote t w) .none := by unfold copyCheckAndPromote; disc_tac

/-- The recursive call is disciplined. -/
def PutDisc (put : PutFn) : Prop := ∀ t k v o, disc (put t k v o) .none

theorem disc_copySlotKey (n i t : Nat) : disc (copySlotKey n i t) .none := by
  unfold copySlotKey
  refine disc_loop (fun _ => disc_bind' (disc_tableKey _ _) fun k => ?_) _ _
  split
  · exact disc_bind' (disc_casKey _ _ _ _) fun _ => disc_pure _
  · exact disc_pure _
theorem disc_copySlotMark (n i t : Nat) (v : Word) : disc (copySlotMark n i t v) .none := by
  unfold copySlotMark
  refine disc_loop (fun v => ?_) _ _
  split
  · exact disc_pure _
  · refine disc_bind' (disc_casValue _ _ _ _) fun _ => ?_
    disc_tac
theorem disc_copySlotFinish (n i t : Nat) (v : Word) : disc (copySlotFinish n i t v) .none := by
  unfold copySlotFinish
  refine disc_loop (fun v => disc_bind' (disc_casValue _ _ _ _) fun _ => ?_) _ _
  disc_tac
theorem disc_copySlot {put : PutFn} (h : PutDisc put) (n i t t' : Nat) : disc (copySlot put n i t t') .none := by
  unfold copySlot
  refine disc_bind' (disc_copySlotKey _ _ _) fun k => disc_bind' (disc_tableValue _ _) fun v =>
    disc_bind' (disc_copySlotMark _ _ _ _) fun r => ?_
  split
  · exact disc_pure _
  · split
    · exact disc_pure _
    · exact disc_bind' (disc_check _) fun _ => disc_bind' (h _ _ _ _) fun _ =>
        disc_bind' (disc_copySlotFinish _ _ _ _) fun _ => disc_pure _
theorem disc_claimChunk (n t l w : Nat) : disc (claimChunk n t l w) .none := by unfold claimChunk; disc_tac
theorem disc_copyChunk {put : PutFn} (h : PutDisc put) (n t t' l c : Nat) : ∀ todo i w,
    disc (copyChunk put n t t' l c todo i w) .none := by
  intro todo
  induction todo with
  | zero => intro i w; exact disc_pure _
  | succ todo ih => intro i w; exact disc_bind' (disc_copySlot h _ _ _ _) fun b => ih _ _
theorem disc_helpCopyImpl {put : PutFn} (h : PutDisc put) (n t : Nat) : disc (helpCopyImpl put n t) .none := by
  unfold helpCopyImpl
  refine disc_bind' (disc_act (by simp)) fun nt => disc_bind' (disc_check _) fun _ => ?_
  split
  · exact disc_halt
  · refine disc_bind' (disc_act (by simp)) fun l => ?_
    refine disc_bind' (disc_loop (fun s => ?_) _ _) fun _ => disc_promote _ _
    refine disc_bind' (disc_act (by simp)) fun d => ?_
    split
    · extract_lets jp
      have hjp : ∀ c, disc (jp c) .none := by
        intro c
        refine disc_bind' (disc_copyChunk h _ _ _ _ _ _ _ _) fun w => ?_
        dsimp only
        split
        · exact disc_bind' (disc_promote _ _) fun _ => disc_pure _
        · exact disc_pure _
      split
      · exact disc_bind' (disc_pure _) hjp
      · exact disc_bind' (disc_claimChunk _ _ _ _) hjp
    · exact disc_pure _
theorem disc_helpCopy {put : PutFn} (h : PutDisc put) (n t : Nat) : disc (helpCopy put n t) .none := by
  unfold helpCopy
  refine disc_bind' (disc_act (by simp)) fun top => disc_bind' (disc_act (by simp)) fun nt => ?_
  split
  · exact disc_pure _
  · exact disc_bind' (disc_helpCopyImpl h _ _) fun _ => disc_pure _
theorem disc_copySlotAndCheck {put : PutFn} (h : PutDisc put) (n t i : Nat) (b : Bool) :
    disc (copySlotAndCheck put n t i b) .none := by
  unfold copySlotAndCheck
  refine disc_bind' (disc_act (by simp)) fun nt => disc_bind' (disc_check _) fun _ => ?_
  split
  · exact disc_halt
  · refine disc_bind' (disc_copySlot h _ _ _ _) fun c => ?_
    extract_lets jp
    have hjp : ∀ u, disc (jp u) .none := by
      intro u
      show disc (if b = true then _ else _) .none
      split
      · exact disc_pure _
      · exact disc_helpCopy h _ _
    split
    · exact disc_bind' (disc_promote _ _) hjp
    · exact hjp ()

theorem disc_probeMatch (k : Word) (l i r : Nat) (K V : Word) : disc (probeMatch k l i r K V) .none := by
  unfold probeMatch; disc_tac
theorem disc_probeBody (t : Nat) (k v : Word) (l : Nat) (s : Nat × Nat) : disc (probeBody t k v l s) .none := by
  unfold probeBody
  refine disc_bind' (disc_tableKey _ _) fun K => disc_bind' (disc_tableValue _ _) fun V => ?_
  split
  · split
    · exact disc_pure _
    · refine disc_bind' (disc_casKey _ _ _ _) fun a => ?_
      split
      · disc_tac
      · exact disc_probeMatch _ _ _ _ _ _
  · exact disc_probeMatch _ _ _ _ _ _
theorem disc_adjustSize (t : Nat) (V v o : Word) : disc (adjustSize t V v o) .none := by unfold adjustSize; disc_tac
theorem disc_updateBody (cf : CasFn) (t i : Nat) (v o V : Word) : disc (updateBody cf t i v o V) .none := by
  unfold updateBody
  refine disc_bind' (disc_check _) fun _ => ?_
  split
  · exact disc_pure _
  · refine disc_bind' (disc_call _ _ _ _ _) fun a => ?_
    split
    · exact disc_bind' (disc_adjustSize _ _ _ _) fun _ => disc_pure _
    · refine disc_bind' (disc_tableValue _ _) fun a => ?_
      disc_tac
theorem disc_wantNewTable (t r l : Nat) (V : Word) : disc (wantNewTable t r l V) .none := by
  unfold wantNewTable
  split
  · exact disc_bind' (disc_tableFull _ _ _) fun _ => disc_pure _
  · exact disc_pure _

theorem disc_putBody {hash : Word → Word} {put : PutFn} (h : PutDisc put) (n : Nat) (cf : CasFn) (t : Nat) (k v o : Word) :
    disc (putBody hash put n cf t k v o) .none := by
  unfold putBody
  refine disc_bind' (disc_check _) fun _ => disc_bind' (disc_check _) fun _ => disc_bind' (disc_check _) fun _ =>
    disc_bind' (disc_act (by simp)) fun l => disc_bind' (disc_loop (fun s => disc_probeBody _ _ _ _ _) _ _) fun p => ?_
  split
  · exact disc_pure _
  · refine disc_bind' (disc_resize _) fun nt => ?_
    split
    · exact disc_bind' (disc_helpCopy h _ _) fun _ => h _ _ _ _
    · exact h _ _ _ _
  · split
    · exact disc_pure _
    · refine disc_bind' (disc_wantNewTable _ _ _ _) fun w => ?_
      split
      · exact disc_bind' (disc_resize _) fun _ => disc_bind' (disc_copySlotAndCheck h _ _ _ _) fun _ => h _ _ _ _
      · refine disc_bind' (disc_loop (fun s => disc_updateBody _ _ _ _ _ _) _ _) fun u => ?_
        split
        · exact disc_pure _
        · exact disc_bind' (disc_copySlotAndCheck h _ _ _ _) fun _ => h _ _ _ _

theorem disc_putIfMatch (hash : Word → Word) : ∀ (n : Nat) (cf : CasFn), PutDisc (putIfMatch hash n cf) := by
  intro n
  induction n with
  | zero => intro cf t k v o; exact disc_halt
  | succ n ih => intro cf t k v o; exact disc_putBody (ih _) _ _ _ _ _ _

theorem disc_getProbeBody (t : Nat) (k : Word) (l : Nat) (s : Nat × Nat) : disc (getProbeBody t k l s) .none := by
  unfold getProbeBody
  refine disc_bind' (disc_tableKey _ _) fun K => disc_bind' (disc_tableValue _ _) fun V => ?_
  disc_tac
theorem disc_getImpl (hash : Word → Word) : ∀ (n t : Nat) (k : Word), disc (getImpl hash n t k) .none := by
  intro n
  induction n with
  | zero => intro t k; exact disc_halt
  | succ n ih =>
    intro t k
    rw [getImpl]
    refine disc_bind' (disc_act (by simp)) fun l => disc_bind' (disc_loop (fun s => disc_getProbeBody _ _ _ _) _ _) fun p => ?_
    split
    · exact disc_pure _
    · exact disc_bind' (disc_copySlotAndCheck (disc_putIfMatch hash n _) _ _ _ _) fun _ => ih _ _
    · exact disc_bind' (disc_helpCopy (disc_putIfMatch hash n _) _ _) fun _ => ih _ _
theorem disc_mapGet (hash : Word → Word) (n : Nat) (k : Word) : disc (mapGet hash n k) .none := by
  unfold mapGet
  exact disc_bind' (disc_act (by simp)) fun _ => disc_bind' (disc_getImpl _ _ _ _) fun _ => disc_bind' (disc_check _) fun _ =>
    disc_pure _
theorem disc_mapPutIfMatch (hash : Word → Word) (n : Nat) (cf : CasFn) (k v o : Word) :
    disc (mapPutIfMatch hash n cf k v o) .none := by
  unfold mapPutIfMatch
  exact disc_bind' (disc_check _) fun _ => disc_bind' (disc_check _) fun _ => disc_bind' (disc_act (by simp)) fun _ =>
    disc_bind' (disc_putIfMatch _ _ _ _ _ _ _) fun _ => disc_bind' (disc_check _) fun _ => disc_pure _
theorem disc_mapSize : disc mapSize .none := by unfold mapSize; disc_tac

/-- Every call is disciplined. -/
theorem op_disc (hash : Word → Word) (n : Nat) (op : Op) : disc (op.prog hash n) .none := by
  cases op with
  | get k => exact disc_bind' (disc_mapGet _ _ _) fun _ => disc_pure _
  | containsKey k => exact disc_bind' (disc_bind' (disc_mapGet _ _ _) fun _ => disc_pure _) fun _ => disc_pure _
  | put k v => exact disc_bind' (disc_mapPutIfMatch _ _ _ _ _ _) fun _ => disc_pure _
  | putIfAbsent k v => exact disc_bind' (disc_mapPutIfMatch _ _ _ _ _ _) fun _ => disc_pure _
  | remove k => exact disc_bind' (disc_bind' (disc_mapPutIfMatch _ _ _ _ _ _) fun _ => disc_pure _) fun _ => disc_pure _
  | removeIf k v => exact disc_bind' (disc_bind' (disc_mapPutIfMatch _ _ _ _ _ _) fun _ => disc_pure _) fun _ => disc_pure _
  | replace k o v => exact disc_bind' (disc_bind' (disc_mapPutIfMatch _ _ _ _ _ _) fun _ => disc_pure _) fun _ => disc_pure _
  | putIfMatch k v o => exact disc_bind' (disc_mapPutIfMatch _ _ _ _ _ _) fun _ => disc_pure _
  | update k v => exact disc_bind' (disc_mapPutIfMatch _ _ _ _ _ _) fun _ => disc_pure _
  | size => exact disc_bind' disc_mapSize fun _ => disc_pure _
  | isEmpty => exact disc_bind' (disc_bind' disc_mapSize fun _ => disc_pure _) fun _ => disc_pure _

end PMap
