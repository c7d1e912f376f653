import Verif.Seq.Top

/-!
# Fuel does not matter, and running to the end (proof machinery)

`MoreFuel p q`: `q` does what `p` does, wherever `p` does not run out of fuel.
-/

namespace PMap

open Prog

/-- `q` is `p` with possibly more fuel. -/
inductive MoreFuel {α : Type} : Prog α → Prog α → Prop
  | fuel (q : Prog α) : MoreFuel (.halt .fuel) q
  | halt (h : Halt) : MoreFuel (.halt h) (.halt h)
  | ret (a : α) : MoreFuel (.ret a) (.ret a)
  | act (a : Act) {k k' : a.Resp → Prog α} (h : ∀ r, MoreFuel (k r) (k' r)) : MoreFuel (.act a k) (.act a k')

namespace MoreFuel

theorem refl {α : Type} (p : Prog α) : MoreFuel p p := by
  induction p with
  | ret a => exact .ret a
  | halt h => exact .halt h
  | act a k ih => exact .act a ih

theorem bind {α β : Type} {p p' : Prog α} {f f' : α → Prog β} (h : MoreFuel p p') (hf : ∀ a, MoreFuel (f a) (f' a)) :
    MoreFuel (p.bind f) (p'.bind f') := by
  induction h with
  | fuel q => exact .fuel _
  | halt h => exact .halt h
  | ret a => exact hf a
  | act a h ih => exact .act a ih

theorem bind' {α β : Type} {p p' : Prog α} {f f' : α → Prog β} (h : MoreFuel p p') (hf : ∀ a, MoreFuel (f a) (f' a)) :
    MoreFuel (p >>= f) (p' >>= f') := bind h hf

theorem bindr {α β : Type} {p : Prog α} {f f' : α → Prog β} (hf : ∀ a, MoreFuel (f a) (f' a)) :
    MoreFuel (p >>= f) (p >>= f') := bind (refl p) hf

theorem ite {α : Type} {c : Prop} [Decidable c] {p p' q q' : Prog α} (h : MoreFuel p p') (h' : MoreFuel q q') :
    MoreFuel (if c then p else q) (if c then p' else q') := by split <;> assumption

theorem loop {σ α : Type} {f f' : σ → Prog (Ctl σ α)} (hf : ∀ s, MoreFuel (f s) (f' s)) {n n' : Nat} (hn : n ≤ n') (s : σ) :
    MoreFuel (loop n f s) (loop n' f' s) := by
  induction n generalizing n' s with
  | zero => exact .fuel _
  | succ n ih =>
    obtain ⟨n', rfl⟩ : ∃ j, n' = j + 1 := ⟨n' - 1, by omega⟩
    refine bind (hf s) ?_
    rintro (s' | a)
    · exact ih (by omega) s'
    · exact .ret a

/-- A program that ends does the same with more fuel. -/
theorem run {α : Type} {p q : Prog α} (h : MoreFuel p q) (m : Mem) : run p m ≠ .halted .fuel → run q m = run p m := by
  induction h generalizing m with
  | fuel q => intro h; exact absurd rfl h
  | halt h => intro _; rfl
  | ret a => intro _; rfl
  | act a h ih =>
    simp only [PMap.run]
    split
    · intro _; rfl
    · exact ih _ _

end MoreFuel

/-- More fuel for the recursive calls. -/
def MorePut (f g : PutFn) : Prop := ∀ t k v o, MoreFuel (f t k v o) (g t k v o)

section
variable {put put' : PutFn} {n n' : Nat} (hp : MorePut put put') (hn : n ≤ n')
include hn

theorem more_copySlotKey (idx t : Nat) : MoreFuel (copySlotKey n idx t) (copySlotKey n' idx t) :=
  .loop (fun _ => .refl _) hn _
theorem more_copySlotMark (idx t : Nat) (v : Word) : MoreFuel (copySlotMark n idx t v) (copySlotMark n' idx t v) :=
  .loop (fun _ => .refl _) hn _
theorem more_copySlotFinish (idx t : Nat) (v : Word) : MoreFuel (copySlotFinish n idx t v) (copySlotFinish n' idx t v) :=
  .loop (fun _ => .refl _) hn _

theorem more_claimChunk (t a b : Nat) : MoreFuel (claimChunk n t a b) (claimChunk n' t a b) :=
  .bindr fun _ => .loop (fun _ => .refl _) hn _

include hp

theorem more_copySlot (idx t nt : Nat) : MoreFuel (copySlot put n idx t nt) (copySlot put' n' idx t nt) := by
  refine .bind' (more_copySlotKey hn idx t) fun key => .bindr fun v => .bind' (more_copySlotMark hn idx t v) ?_
  rintro (_ | v)
  · exact .refl _
  · refine .ite (.refl _) (.bindr fun _ => .bind' (hp _ _ _ _) fun r => .bind' (more_copySlotFinish hn idx t v) fun _ => .refl _)

theorem more_copyChunk (t nt l c : Nat) : ∀ todo i w, MoreFuel (copyChunk put n t nt l c todo i w) (copyChunk put' n' t nt l c todo i w)
  | 0, _, _ => .refl _
  | todo + 1, i, _ => .bind' (more_copySlot hp hn _ t nt) fun _ => more_copyChunk t nt l c todo (i + 1) _

theorem more_helpCopyImpl (t : Nat) : MoreFuel (helpCopyImpl put n t) (helpCopyImpl put' n' t) := by
  refine .bindr fun nt => .bindr fun _ => ?_
  cases nt with
  | none => exact .refl _
  | some nt =>
    refine .bindr fun l => .bind' (.loop (fun s => .bindr fun d => .ite ?_ (.refl _)) hn _) fun _ => .refl _
    obtain ⟨a, b⟩ := s
    cases b
    · exact .bind' (more_claimChunk hn t l _) fun c => .bind' (more_copyChunk hp hn t nt l c _ 0 0) fun _ => .refl _
    · exact .bind' (.refl _) fun c => .bind' (more_copyChunk hp hn t nt l c _ 0 0) fun _ => .refl _

theorem more_helpCopy (h : Nat) : MoreFuel (helpCopy put n h) (helpCopy put' n' h) := by
  refine .bindr fun top => .bindr fun nt => ?_
  cases nt with
  | none => exact .refl _
  | some nt => exact .bind' (more_helpCopyImpl hp hn top) fun _ => .refl _

theorem more_copySlotAndCheck (t idx : Nat) (b : Bool) :
    MoreFuel (copySlotAndCheck put n t idx b) (copySlotAndCheck put' n' t idx b) := by
  refine .bindr fun nt => .bindr fun _ => ?_
  cases nt with
  | none => exact .refl _
  | some nt =>
    refine .bind' (more_copySlot hp hn idx t nt) fun c => ?_
    have hrest : ∀ u : Unit, MoreFuel (if b = true then pure nt else helpCopy put n nt : Prog Nat)
        (if b = true then pure nt else helpCopy put' n' nt) := fun _ => .ite (.refl _) (more_helpCopy hp hn nt)
    cases c
    · exact hrest ()
    · exact .bindr hrest

theorem more_putBody (hash : Word → Word) (cf : CasFn) (t : Nat) (k v o : Word) :
    MoreFuel (putBody hash put n cf t k v o) (putBody hash put' n' cf t k v o) := by
  refine .bindr fun _ => .bindr fun _ => .bindr fun _ => .bindr fun l => .bind' (.loop (fun _ => .refl _) hn _) ?_
  rintro (v' | ⟨i, c, V⟩ | _)
  · exact .refl _
  · refine .ite (.refl _) (.bindr fun w => .ite (.bindr fun _ => .bind' (more_copySlotAndCheck hp hn _ _ _) fun nt => hp _ _ _ _)
      (.bind' (.loop (fun _ => .refl _) hn _) ?_))
    rintro (u | _)
    · exact .refl _
    · exact .bind' (more_copySlotAndCheck hp hn _ _ _) fun nt => hp _ _ _ _
  · refine .bindr fun nt => .ite (.bind' (more_helpCopy hp hn _) fun _ => hp _ _ _ _) (hp _ _ _ _)

end

theorem more_putIfMatch (hash : Word → Word) : ∀ {n n' : Nat} (_ : n ≤ n') (cf : CasFn),
    MorePut (putIfMatch hash n cf) (putIfMatch hash n' cf)
  | 0, _, _, _ => fun _ _ _ _ => .fuel _
  | n + 1, 0, h, _ => absurd h (by omega)
  | n + 1, n' + 1, h, cf => fun t k v o =>
    more_putBody (more_putIfMatch hash (Nat.le_of_succ_le_succ h) .casValue) (Nat.le_of_succ_le_succ h) hash cf t k v o

theorem more_getImpl (hash : Word → Word) : ∀ {n n' : Nat} (_ : n ≤ n') (t : Nat) (k : Word),
    MoreFuel (getImpl hash n t k) (getImpl hash n' t k)
  | 0, _, _ => fun _ _ => .fuel _
  | n + 1, 0, h => absurd h (by omega)
  | n + 1, n' + 1, h => fun t k => by
    have hn := Nat.le_of_succ_le_succ h
    refine .bindr fun l => .bind' (.loop (fun _ => .refl _) hn _) ?_
    rintro (v | i | nt)
    · exact .refl _
    · exact .bind' (more_copySlotAndCheck (more_putIfMatch hash hn .casValue) hn _ _ _) fun nt => more_getImpl hash hn nt k
    · exact .bind' (more_helpCopy (more_putIfMatch hash hn .casValue) hn _) fun nt => more_getImpl hash hn nt k

theorem more_mapGet (hash : Word → Word) {n n' : Nat} (hn : n ≤ n') (k : Word) : MoreFuel (mapGet hash n k) (mapGet hash n' k) :=
  .bindr fun _ => .bind' (more_getImpl hash hn _ k) fun _ => .refl _

theorem more_mapPutIfMatch (hash : Word → Word) {n n' : Nat} (hn : n ≤ n') (cf : CasFn) (k v o : Word) :
    MoreFuel (mapPutIfMatch hash n cf k v o) (mapPutIfMatch hash n' cf k v o) :=
  .bindr fun _ => .bindr fun _ => .bindr fun _ => .bind' (more_putIfMatch hash hn cf _ _ _ _) fun _ => .refl _

theorem more_op (hash : Word → Word) {n n' : Nat} (hn : n ≤ n') (op : Op) : MoreFuel (op.prog hash n) (op.prog hash n') := by
  cases op with
  | get k => exact .bind' (more_mapGet hash hn k) fun _ => .refl _
  | containsKey k => exact .bind' (.bind' (more_mapGet hash hn k) fun _ => .refl _) fun _ => .refl _
  | put k v => exact .bind' (more_mapPutIfMatch hash hn _ _ _ _) fun _ => .refl _
  | putIfAbsent k v => exact .bind' (more_mapPutIfMatch hash hn _ _ _ _) fun _ => .refl _
  | remove k => exact .bind' (.bind' (more_mapPutIfMatch hash hn _ _ _ _) fun _ => .refl _) fun _ => .refl _
  | removeIf k v => exact .bind' (.bind' (more_mapPutIfMatch hash hn _ _ _ _) fun _ => .refl _) fun _ => .refl _
  | replace k o v => exact .bind' (.bind' (more_mapPutIfMatch hash hn _ _ _ _) fun _ => .refl _) fun _ => .refl _
  | putIfMatch k v o => exact .bind' (more_mapPutIfMatch hash hn _ _ _ _) fun _ => .refl _
  | update k v => exact .bind' (more_mapPutIfMatch hash hn _ _ _ _) fun _ => .refl _
  | size => exact .refl _
  | isEmpty => exact .refl _

end PMap
