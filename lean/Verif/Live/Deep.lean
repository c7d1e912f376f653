import Verif.Live.Sys

/-!
# Fuel lasts for as many steps as its amount (proof machinery)
-/

namespace PMap

open Prog

variable {α β σ : Type}

/-- `p` does not run out of fuel before it has made `d` actions (no code of its own). -/
def deep : Nat → Prog α → Prop
  | 0, _ => True
  | _ + 1, .ret _ => True
  | _ + 1, .halt h => h ≠ .fuel
  | d + 1, .act _ k => ∀ r, deep d (k r)

theorem deep_ret (d : Nat) (a : α) : deep d (.ret a) := by cases d <;> trivial
theorem deep_pure (d : Nat) (a : α) : deep d (pure a : Prog α) := deep_ret d a
theorem deep_ub (d : Nat) : deep d (.halt .ub : Prog α) := by cases d <;> simp [deep]
theorem deep_threw (d : Nat) : deep d (.halt .threw : Prog α) := by cases d <;> simp [deep]

theorem deep_mono {p : Prog α} {d d' : Nat} (h : deep d p) (hd : d' ≤ d) : deep d' p := by
  induction d' generalizing d p with
  | zero => trivial
  | succ d' ih =>
    obtain ⟨d, rfl⟩ : ∃ e, d = e + 1 := ⟨d - 1, by omega⟩
    cases p with
    | ret a => trivial
    | halt x => exact h
    | act a k => exact fun r => ih (h r) (by omega)

theorem deep_bind {d : Nat} {p : Prog α} {f : α → Prog β} (h : deep d p) (hf : ∀ a, deep d (f a)) : deep d (p.bind f) := by
  induction d generalizing p with
  | zero => trivial
  | succ d ih =>
    cases p with
    | ret a => exact hf a
    | halt x => exact h
    | act a k => exact fun r => ih (h r) fun a => deep_mono (hf a) (Nat.le_succ d)

theorem deep_bind' {d : Nat} {p : Prog α} {f : α → Prog β} (h : deep d p) (hf : ∀ a, deep d (f a)) : deep d (p >>= f) :=
  deep_bind h hf

theorem deep_do1 (d : Nat) (a : Act) : deep d (do1 a) := by
  cases d with
  | zero => trivial
  | succ d => exact fun r => deep_ret d r

theorem deep_act {d : Nat} {a : Act} {f : a.Resp → Prog β} (hf : ∀ r, deep d (f r)) : deep (d + 1) (do1 a >>= f) := hf

theorem deep_ite {c : Prop} [Decidable c] {d : Nat} {p q : Prog α} (h : deep d p) (h' : deep d q) :
    deep d (if c then p else q) := by split <;> assumption

/-- A loop all of whose iterations that go round again make an action lasts for `n` actions. -/
theorem deep_loop {body : σ → Prog (Ctl σ α)} (hb : ∀ d x, deep d (body x)) (hf : ∀ x y, body x ≠ .ret (.next y)) (n : Nat) :
    ∀ x, deep n (loop n body x) := by
  induction n with
  | zero => intro x; trivial
  | succ n ih =>
    intro x
    have h1 := hb (n + 1) x
    have h2 := hf x
    rw [loop]
    cases e : body x with
    | ret c =>
      rw [e] at h2
      cases c with
      | next y => exact absurd rfl (h2 y)
      | done a => trivial
    | halt y => rw [e] at h1; exact h1
    | act a k =>
      rw [e] at h1
      intro r
      refine deep_bind (h1 r) ?_
      rintro (y | a)
      · exact ih y
      · exact deep_ret n a

/-- The same when the body itself has fuel. -/
theorem deep_loop' {body : σ → Prog (Ctl σ α)} {n : Nat} (hb : ∀ x, deep n (body x)) (hf : ∀ x y, body x ≠ .ret (.next y)) :
    ∀ k, k ≤ n → ∀ x, deep k (loop k body x) := by
  intro k
  induction k with
  | zero => intro _ x; trivial
  | succ k ih =>
    intro hk x
    have h1 := deep_mono (hb x) hk
    have h2 := hf x
    rw [loop]
    cases e : body x with
    | ret c =>
      rw [e] at h2
      cases c with
      | next y => exact absurd rfl (h2 y)
      | done a => trivial
    | halt y => rw [e] at h1; exact h1
    | act a f =>
      rw [e] at h1
      intro r
      refine deep_bind (h1 r) ?_
      rintro (y | a)
      · exact ih (by omega) y
      · exact deep_ret k a

/-- A program whose first step is an action. -/
theorem act_ne {a : Act} {f : a.Resp → Prog α} {x : α} : (do1 a >>= f) ≠ .ret x := by intro h; cases h

/-! ## The functions -/

theorem deep_pcasRead (d : Nat) (a : Addr) : deep d (pcasRead a) := by
  refine deep_bind' (deep_do1 _ _) fun w => ?_
  split
  · refine deep_bind' ?_ fun _ => deep_pure _ _
    exact deep_bind' (deep_do1 _ _) fun _ => deep_bind' (deep_do1 _ _) fun _ => deep_bind' (deep_do1 _ _) fun _ => deep_pure _ _
  · exact deep_pure _ _

theorem deep_pcas (d : Nat) (a : Addr) (o w : Word) : deep d (pcas a o w) :=
  deep_bind' (deep_pcasRead _ _) fun _ => deep_bind' (deep_do1 _ _) fun _ => deep_bind' (deep_do1 _ _) fun _ => deep_pure _ _

theorem deep_casKey (d t i : Nat) (o w : Word) : deep d (casKey t i o w) := deep_bind' (deep_pcas _ _ _ _) fun _ => deep_pure _ _
theorem deep_casValue (d t i : Nat) (o w : Word) : deep d (casValue t i o w) := deep_bind' (deep_pcas _ _ _ _) fun _ => deep_pure _ _
theorem deep_call (cf : CasFn) (d t i : Nat) (o w : Word) : deep d (cf.call t i o w) := by
  cases cf <;> exact deep_bind' (deep_pcas _ _ _ _) fun _ => deep_pure _ _

theorem deep_resize (d t : Nat) : deep d (resize t) := by
  refine deep_bind' (deep_do1 _ _) fun nt => ?_
  cases nt with
  | some x => exact deep_bind' (deep_do1 _ _) fun _ => deep_bind' (deep_do1 _ _) fun _ => deep_bind' (deep_do1 _ _) fun _ => deep_pure _ _
  | none =>
    refine deep_bind' (deep_do1 _ _) fun _ => deep_bind' (deep_do1 _ _) fun _ => deep_bind' (deep_do1 _ _) fun nt => ?_
    cases nt with
    | some x => exact deep_bind' (deep_do1 _ _) fun _ => deep_bind' (deep_do1 _ _) fun _ => deep_pure _ _
    | none =>
      refine deep_bind' (deep_do1 _ _) fun a => ?_
      cases a with
      | none => exact deep_threw _
      | some x =>
        refine deep_bind' (deep_do1 _ _) fun ok => ?_
        cases ok with
        | true => exact deep_bind' (deep_do1 _ _) fun _ => deep_bind' (deep_do1 _ _) fun _ => deep_pure _ _
        | false =>
          refine deep_bind' (deep_do1 _ _) fun nt => ?_
          cases nt with
          | none => exact deep_bind' (deep_do1 _ _) fun _ => deep_ub _
          | some x => exact deep_bind' (deep_do1 _ _) fun _ => deep_bind' (deep_do1 _ _) fun _ => deep_pure _ _

theorem deep_copyCheckAndPromote (d t w : Nat) : deep d (copyCheckAndPromote t w) := by
  refine deep_bind' (deep_do1 _ _) fun l => deep_bind' (deep_do1 _ _) fun c => deep_bind' (deep_do1 _ _) fun _ => ?_
  have hrest : ∀ _ : Unit, deep d (if c + w = l then do
      let nt ← do1 (.getNew t)
      match nt with
      | none => .halt .ub
      | some n => do
        let _ ← do1 (.casRoot t n)
        return ()
    else return () : Prog Unit) := by
    intro _
    refine deep_ite (deep_bind' (deep_do1 _ _) fun nt => ?_) (deep_pure _ _)
    cases nt with
    | none => exact deep_ub _
    | some x => exact deep_bind' (deep_do1 _ _) fun _ => deep_pure _ _
  exact deep_ite (deep_bind' (deep_do1 _ _) hrest) (hrest ())

theorem deep_copySlotKey (n i t : Nat) : deep n (copySlotKey n i t) := by
  refine deep_loop (fun d _ => ?_) ?_ n ()
  case refine_2 => exact fun _ _ => act_ne
  exact deep_bind' (deep_pcasRead _ _) fun _ => deep_ite (deep_bind' (deep_casKey _ _ _ _ _) fun _ => deep_pure _ _) (deep_pure _ _)

theorem deep_copySlotMark (n i t : Nat) (v : Word) : deep n (copySlotMark n i t v) := by
  refine deep_loop (fun d v => ?_) (fun v y => ?_) n v
  · exact deep_ite (deep_pure _ _) (deep_bind' (deep_casValue _ _ _ _ _) fun _ =>
      deep_ite (deep_ite (deep_pure _ _) (deep_pure _ _)) (deep_pure _ _))
  · split
    · intro h; cases h
    · exact act_ne

theorem deep_copySlotFinish (n i t : Nat) (v : Word) : deep n (copySlotFinish n i t v) := by
  refine deep_loop (fun d v => ?_) ?_ n v
  case refine_2 => exact fun _ _ => act_ne
  exact deep_bind' (deep_casValue _ _ _ _ _) fun _ => deep_ite (deep_pure _ _) (deep_pure _ _)

theorem deep_claimChunk (n t a b : Nat) : deep n (claimChunk n t a b) := by
  refine deep_bind' (deep_do1 _ _) fun c => deep_loop (fun d c => ?_) (fun c y => ?_) n c
  · exact deep_ite (deep_bind' (deep_do1 _ _) fun _ => deep_ite (deep_pure _ _) (deep_pure _ _)) (deep_pure _ _)
  · split
    · exact act_ne
    · intro h; cases h

section
variable {put : PutFn} {n : Nat} (hp : ∀ t k v o, deep n (put t k v o))
include hp

theorem deep_copySlot (i t nt : Nat) : deep n (copySlot put n i t nt) := by
  refine deep_bind' (deep_copySlotKey _ _ _) fun key => deep_bind' (deep_pcasRead _ _) fun v => deep_bind' (deep_copySlotMark _ _ _ _) ?_
  rintro (_ | v)
  · exact deep_pure _ _
  · exact deep_ite (deep_pure _ _) (deep_bind' (deep_do1 _ _) fun _ => deep_bind' (hp _ _ _ _) fun _ =>
      deep_bind' (deep_copySlotFinish _ _ _ _) fun _ => deep_pure _ _)

theorem deep_copyChunk (t nt l c : Nat) : ∀ todo i w, deep n (copyChunk put n t nt l c todo i w)
  | 0, _, _ => deep_pure _ _
  | todo + 1, i, _ => deep_bind' (deep_copySlot hp _ t nt) fun _ => deep_copyChunk t nt l c todo (i + 1) _

theorem deep_helpCopyImpl (t : Nat) : deep n (helpCopyImpl put n t) := by
  refine deep_bind' (deep_do1 _ _) fun nt => deep_bind' (deep_do1 _ _) fun _ => ?_
  cases nt with
  | none => exact deep_ub _
  | some nt =>
    refine deep_bind' (deep_do1 _ _) fun l => deep_bind' (deep_loop' (fun s => deep_bind' (deep_do1 _ _) fun d => ?_)
      (fun s y => act_ne) n (le_refl _) _) fun _ => deep_copyCheckAndPromote _ _ _
    refine deep_ite ?_ (deep_pure _ _)
    have hrest : ∀ c (s : Nat × Bool), deep n (do
        let workDone ← copyChunk put n t nt l c (if l < 1024 then l else 1024) 0 0
        if 0 < workDone then do
          copyCheckAndPromote t workDone
        else pure ()
        return .next (c + (if l < 1024 then l else 1024), s.2 || decide (l * 2 ≤ c)) : Prog (Ctl (Nat × Bool) Unit)) := by
      intro c s
      refine deep_bind' (deep_copyChunk hp t nt l c _ 0 0) fun w => ?_
      exact deep_ite (deep_bind' (deep_copyCheckAndPromote _ _ _) fun _ => deep_pure _ _) (deep_pure _ _)
    obtain ⟨a, b⟩ := s
    cases b
    · exact deep_bind' (deep_claimChunk n t l _) fun c => hrest c (a, false)
    · exact hrest a (a, true)

theorem deep_helpCopy (h : Nat) : deep n (helpCopy put n h) := by
  refine deep_bind' (deep_do1 _ _) fun top => deep_bind' (deep_do1 _ _) fun nt => ?_
  cases nt with
  | none => exact deep_pure _ _
  | some nt => exact deep_bind' (deep_helpCopyImpl hp top) fun _ => deep_pure _ _

theorem deep_copySlotAndCheck (t i : Nat) (b : Bool) : deep n (copySlotAndCheck put n t i b) := by
  refine deep_bind' (deep_do1 _ _) fun nt => deep_bind' (deep_do1 _ _) fun _ => ?_
  cases nt with
  | none => exact deep_ub _
  | some nt =>
    refine deep_bind' (deep_copySlot hp i t nt) fun c => ?_
    have hrest : ∀ _ : Unit, deep n (if b = true then pure nt else helpCopy put n nt : Prog Nat) :=
      fun _ => deep_ite (deep_pure _ _) (deep_helpCopy hp nt)
    cases c
    · exact hrest ()
    · exact deep_bind' (deep_copyCheckAndPromote _ _ _) hrest

theorem deep_putBody (hash : Word → Word) (cf : CasFn) (t : Nat) (k v o : Word) : deep (n + 1) (putBody hash put n cf t k v o) := by
  refine deep_act fun _ => deep_bind' (deep_do1 _ _) fun _ => deep_bind' (deep_do1 _ _) fun _ => deep_bind' (deep_do1 _ _) fun l =>
    deep_bind' (deep_loop (fun d s => ?_) ?_ n _) ?_
  case refine_2 => exact fun _ _ => act_ne
  · have hm : ∀ K V, deep d (probeMatch k l s.1 s.2 K V) := by
      intro K V
      exact deep_ite (deep_pure _ _) (deep_ite (deep_pure _ _) (deep_pure _ _))
    refine deep_bind' (deep_pcasRead _ _) fun K => deep_bind' (deep_pcasRead _ _) fun V => deep_ite (deep_ite (deep_pure _ _) ?_) (hm _ _)
    exact deep_bind' (deep_casKey _ _ _ _ _) fun _ => deep_ite (deep_bind' (deep_do1 _ _) fun _ => deep_pure _ _) (hm _ _)
  rintro (v' | ⟨i, c, V⟩ | _)
  · exact deep_pure _ _
  · refine deep_ite (deep_pure _ _) (deep_bind' ?_ fun w => deep_ite (deep_bind' (deep_resize _ _) fun _ =>
      deep_bind' (deep_copySlotAndCheck hp _ _ _) fun nt => hp _ _ _ _)
      (deep_bind' (deep_loop (fun d s => ?_) ?_ n _) ?_))
    case refine_3 => exact fun _ _ => act_ne
    · refine deep_ite (deep_bind' ?_ fun _ => deep_pure _ _) (deep_pure _ _)
      exact deep_ite (deep_bind' (deep_do1 _ _) fun _ => deep_pure _ _) (deep_pure _ _)
    · refine deep_bind' (deep_do1 _ _) fun _ => deep_ite (deep_pure _ _) (deep_bind' (deep_call _ _ _ _ _ _) fun _ =>
        deep_ite (deep_bind' ?_ fun _ => deep_pure _ _) (deep_bind' (deep_pcasRead _ _) fun _ => deep_ite (deep_pure _ _) (deep_pure _ _)))
      exact deep_ite (deep_ite (deep_do1 _ _) (deep_ite (deep_do1 _ _) (deep_pure _ _))) (deep_pure _ _)
    · rintro (u | _)
      · exact deep_pure _ _
      · exact deep_bind' (deep_copySlotAndCheck hp _ _ _) fun nt => hp _ _ _ _
  · exact deep_bind' (deep_resize _ _) fun nt => deep_ite (deep_bind' (deep_helpCopy hp _) fun _ => hp _ _ _ _) (hp _ _ _ _)

end

theorem deep_putIfMatch (hash : Word → Word) : ∀ (n : Nat) (cf : CasFn) (t : Nat) (k v o : Word), deep n (putIfMatch hash n cf t k v o)
  | 0, _, _, _, _, _ => trivial
  | n + 1, cf, t, k, v, o => deep_putBody (deep_putIfMatch hash n .casValue) hash cf t k v o

theorem deep_getImpl (hash : Word → Word) : ∀ (n t : Nat) (k : Word), deep n (getImpl hash n t k)
  | 0, _, _ => trivial
  | n + 1, t, k => by
    refine deep_act fun l => deep_bind' (deep_loop (fun d s => ?_) ?_ n _) ?_
    case refine_2 => exact fun _ _ => act_ne
    · refine deep_bind' (deep_pcasRead _ _) fun K => deep_bind' (deep_pcasRead _ _) fun V => deep_ite (deep_pure _ _) ?_
      refine deep_bind' (deep_do1 _ _) fun nt => deep_ite (deep_ite (deep_pure _ _) (deep_pure _ _)) (deep_ite ?_ (deep_pure _ _))
      cases nt <;> exact deep_pure _ _
    · rintro (v | i | nt)
      · exact deep_pure _ _
      · exact deep_bind' (deep_copySlotAndCheck (deep_putIfMatch hash n .casValue) _ _ _) fun nt => deep_getImpl hash n nt k
      · exact deep_bind' (deep_helpCopy (deep_putIfMatch hash n .casValue) _) fun nt => deep_getImpl hash n nt k

theorem deep_mapGet (hash : Word → Word) (n : Nat) (k : Word) : deep n (mapGet hash n k) :=
  deep_bind' (deep_do1 _ _) fun _ => deep_bind' (deep_getImpl hash n _ k) fun _ => deep_bind' (deep_do1 _ _) fun _ => deep_pure _ _

theorem deep_mapPutIfMatch (hash : Word → Word) (n : Nat) (cf : CasFn) (k v o : Word) : deep n (mapPutIfMatch hash n cf k v o) :=
  deep_bind' (deep_do1 _ _) fun _ => deep_bind' (deep_do1 _ _) fun _ => deep_bind' (deep_do1 _ _) fun _ =>
    deep_bind' (deep_putIfMatch hash n cf _ _ _ _) fun _ => deep_bind' (deep_do1 _ _) fun _ => deep_pure _ _

theorem deep_op (hash : Word → Word) (n : Nat) (op : Op) : deep n (op.prog hash n) := by
  cases op with
  | get k => exact deep_bind' (deep_mapGet hash n k) fun _ => deep_pure _ _
  | containsKey k => exact deep_bind' (deep_bind' (deep_mapGet hash n k) fun _ => deep_pure _ _) fun _ => deep_pure _ _
  | put k v => exact deep_bind' (deep_mapPutIfMatch hash n _ _ _ _) fun _ => deep_pure _ _
  | putIfAbsent k v => exact deep_bind' (deep_mapPutIfMatch hash n _ _ _ _) fun _ => deep_pure _ _
  | remove k => exact deep_bind' (deep_bind' (deep_mapPutIfMatch hash n _ _ _ _) fun _ => deep_pure _ _) fun _ => deep_pure _ _
  | removeIf k v => exact deep_bind' (deep_bind' (deep_mapPutIfMatch hash n _ _ _ _) fun _ => deep_pure _ _) fun _ => deep_pure _ _
  | replace k o v => exact deep_bind' (deep_bind' (deep_mapPutIfMatch hash n _ _ _ _) fun _ => deep_pure _ _) fun _ => deep_pure _ _
  | putIfMatch k v o => exact deep_bind' (deep_mapPutIfMatch hash n _ _ _ _) fun _ => deep_pure _ _
  | update k v => exact deep_bind' (deep_mapPutIfMatch hash n _ _ _ _) fun _ => deep_pure _ _
  | size => exact deep_bind' (deep_bind' (deep_do1 _ _) fun _ => deep_do1 _ _) fun _ => deep_pure _ _
  | isEmpty => exact deep_bind' (deep_bind' (deep_bind' (deep_do1 _ _) fun _ => deep_do1 _ _) fun _ => deep_pure _ _) fun _ => deep_pure _ _

/-! ## Interleavings -/

variable {hash : Word → Word} {n : Nat}

/-- The thread does not run out of fuel before it has made `d` steps (no code of its own). -/
def Thread.deep (d : Nat) : Thread → Prop
  | .idle _ => True
  | .busy _ p _ => PMap.deep d p

theorem deep_step {s : Sys} {d : Nat} (hd : d + 1 ≤ n + 1) {t : Nat} (h : (s.thr t).deep (d + 1)) (x : Sched) :
    ((s.step hash n x).thr t).deep d := by
  have hm : (s.thr t).deep d := by
    cases e : s.thr t with
    | idle l => trivial
    | busy op p l => rw [e] at h; exact deep_mono h (Nat.le_succ d)
  cases x with
  | evict a i => exact hm
  | run u =>
    by_cases e : t = u
    · subst e
      cases hs : s.thr t with
      | idle l =>
        cases l with
        | nil => simp only [Sys.step, hs]; trivial
        | cons op l => simp only [Sys.step, hs, upd, if_pos]; exact deep_mono (deep_op hash n op) (by omega)
      | busy op p l =>
        rw [hs] at h hm
        cases p with
        | ret a => simp only [Sys.step, hs, upd, if_pos]; trivial
        | halt y => cases y <;> simp only [Sys.step, hs] <;> exact hm
        | act a k =>
          simp only [Sys.step, hs]
          cases ha : a.exec s.mem with
          | none => simp only [hs]; exact hm
          | some rm => simp only [upd, if_pos]; exact h _
    · rw [step_other e]; exact hm

theorem deep_exec : ∀ (xs : List Sched) (s : Sys) (d : Nat), xs.length + d ≤ n + 1 → ∀ t, (s.thr t).deep (xs.length + d) →
    ((s.exec hash n xs).thr t).deep d := by
  intro xs
  induction xs with
  | nil => intro s d _ t h; rwa [List.length_nil, Nat.zero_add] at h
  | cons x xs ih =>
    intro s d hd t h
    rw [List.length_cons] at hd h
    exact ih _ d (by omega) t (deep_step (by omega) (by rwa [show xs.length + 1 + d = xs.length + d + 1 by omega] at h) x)

end PMap
