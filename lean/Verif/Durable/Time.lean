import Verif.Durable.Disc
import Verif.Durable.Spec
import Verif.Par.Logic

/-!
# Words of an execution over time (proof machinery)
-/

namespace PMap

open Prog

variable {hash : Word → Word} {n : Nat} {s : Sys}

/-- The address exists. -/
def Addr.In (a : Addr) (m : Mem) : Prop := a.tab < m.next ∧ a.idx < (m.tab a.tab).len

/-- What a thread's discipline state says about the execution so far. -/
def StOK (hash : Word → Word) (n : Nat) (s : Sys) (xs : List Sched) : DSt → Prop
  | .none => True
  | .loaded a w => ∃ ys, ys <+: xs ∧ a.In (s.exec hash n ys).mem ∧ (s.exec hash n ys).mem.word a = w
  | .flushed a w => ∃ ys zs, ys <+: zs ∧ zs <+: xs ∧ a.In (s.exec hash n ys).mem ∧ (s.exec hash n ys).mem.word a = w ∧
      (s.exec hash n xs).mem.nv a = (s.exec hash n zs).mem.word a

theorem exec_snoc (xs : List Sched) (x : Sched) : s.exec hash n (xs ++ [x]) = (s.exec hash n xs).step hash n x := by
  rw [exec_append]; rfl

theorem prefix_snoc {α : Type} {ys xs : List α} {x : α} (h : ys <+: xs ++ [x]) : ys <+: xs ∨ ys = xs ++ [x] := by
  rw [List.prefix_concat_iff] at h
  exact h.symm

/-- An action changes the durable copy of a word only by writing the word back. -/
theorem act_nv {a : Act} {m m' : Mem} {r : a.Resp} (h : a.exec m = some (r, m')) (b : Addr) :
    m'.nv b = m.nv b ∨ m'.nv b = m'.word b := by
  cases a <;> simp only [Act.exec] at h
  case flush a =>
    split at h
    · cases h
      by_cases e : b.tab = a.tab ∧ b.idx = a.idx
      · exact .inr (if_pos e)
      · exact .inl (if_neg e)
    · cases h
  case alloc l sz =>
    split at h
    · cases h
      cases b with
      | key t i =>
        by_cases e : t = m.next
        · right; simp only [freshWords, if_pos e]
        · left; simp only [freshWords, if_neg e]
      | val t i =>
        by_cases e : t = m.next
        · right; simp only [freshWords, if_pos e]
        · left; simp only [freshWords, if_neg e]
    · cases h; exact .inl rfl
  all_goals first
    | (cases h; exact .inl rfl)
    | (split at h <;> first
        | (cases h; exact .inl rfl)
        | (split at h <;> (cases h; exact .inl rfl))
        | cases h)

theorem step_nv (s : Sys) (x : Sched) (b : Addr) :
    (s.step hash n x).mem.nv b = s.mem.nv b ∨ (s.step hash n x).mem.nv b = (s.step hash n x).mem.word b := by
  cases x with
  | evict t i =>
    by_cases e : b.tab = t ∧ b.idx = i
    · exact .inr (if_pos e)
    · exact .inl (if_neg e)
  | run tid =>
    rw [Sys.step]
    split
    · exact .inl rfl
    · exact .inl rfl
    · exact .inl rfl
    · exact .inl rfl
    · exact .inl rfl
    · split
      · exact .inl rfl
      · next he => exact act_nv he b

theorem StOK.snoc {xs : List Sched} {st : DSt} (h : StOK hash n s xs st) (x : Sched) : StOK hash n s (xs ++ [x]) st := by
  cases st with
  | none => trivial
  | loaded a w =>
    obtain ⟨ys, h1, h2, h3⟩ := h
    exact ⟨ys, h1.trans (List.prefix_append ..), h2, h3⟩
  | flushed a w =>
    obtain ⟨ys, zs, h1, h2, h3, h4, h5⟩ := h
    rcases step_nv (hash := hash) (n := n) (s.exec hash n xs) x a with h6 | h6
    · refine ⟨ys, zs, h1, h2.trans (List.prefix_append ..), h3, h4, ?_⟩
      rw [exec_snoc, h6, h5]
    · exact ⟨ys, xs ++ [x], (h1.trans h2).trans (List.prefix_append ..), List.prefix_refl _, h3, h4, by rw [exec_snoc, h6]⟩

/-- After an action the thread is again disciplined, and what its new state says is true. -/
theorem disc_step {α : Type} {a : Act} {k : a.Resp → Prog α} {st : DSt} {xs : List Sched} {x : Sched} {r : a.Resp}
    {m' : Mem} (hd : disc (.act a k) st) (hst : StOK hash n s xs st) (he : a.exec (s.exec hash n xs).mem = some (r, m'))
    (hm : (s.exec hash n (xs ++ [x])).mem = m') : ∃ st', disc (k r) st' ∧ StOK hash n s (xs ++ [x]) st' := by
  have hst' := hst.snoc x
  cases a with
  | load a =>
    rw [disc] at hd
    refine ⟨_, hd r, xs, List.prefix_append .., ?_⟩
    simp only [Act.exec] at he
    split at he
    · next h => cases he; exact ⟨h, rfl⟩
    · cases he
  | flush a =>
    rw [disc] at hd
    refine ⟨_, hd, ?_⟩
    cases st with
    | none => trivial
    | flushed b w => trivial
    | loaded b w =>
      simp only [DSt.flush]
      split
      · next e =>
        subst e
        obtain ⟨ys, h1, h2, h3⟩ := hst'
        refine ⟨ys, xs ++ [x], h1, List.prefix_refl _, h2, h3, ?_⟩
        rw [hm]
        simp only [Act.exec] at he
        split at he
        · cases he; exact if_pos ⟨rfl, rfl⟩
        · cases he
      · trivial
  | fence => rw [disc] at hd; exact ⟨_, hd, hst'⟩
  | cas a e v => rw [disc] at hd; exact ⟨.none, hd.2 r, trivial⟩
  | len t => rw [disc] at hd; exact ⟨.none, hd r, trivial⟩
  | getNew t => rw [disc] at hd; exact ⟨.none, hd r, trivial⟩
  | casNew t n => rw [disc] at hd; exact ⟨.none, hd r, trivial⟩
  | getRoot => rw [disc] at hd; exact ⟨.none, hd r, trivial⟩
  | casRoot o n => rw [disc] at hd; exact ⟨.none, hd r, trivial⟩
  | getSize t => rw [disc] at hd; exact ⟨.none, hd r, trivial⟩
  | addSize t d => rw [disc] at hd; exact ⟨.none, hd r, trivial⟩
  | getSlots t => rw [disc] at hd; exact ⟨.none, hd r, trivial⟩
  | incSlots t => rw [disc] at hd; exact ⟨.none, hd r, trivial⟩
  | getDone t => rw [disc] at hd; exact ⟨.none, hd r, trivial⟩
  | addDone t n => rw [disc] at hd; exact ⟨.none, hd r, trivial⟩
  | getIdx t => rw [disc] at hd; exact ⟨.none, hd r, trivial⟩
  | casIdx t e n => rw [disc] at hd; exact ⟨.none, hd r, trivial⟩
  | alloc l s => rw [disc] at hd; exact ⟨.none, hd r, trivial⟩
  | check b => rw [disc] at hd; exact ⟨.none, hd r, trivial⟩

/-- What an action of a disciplined thread does to a word. -/
theorem disc_word {α : Type} {a : Act} {k : a.Resp → Prog α} {st : DSt} {m m' : Mem} {r : a.Resp}
    (hd : disc (.act a k) st) (he : a.exec m = some (r, m')) (b : Addr) :
    (m'.word b = m.word b) ∨ isDirty (m'.word b) = true ∨
      (st = .flushed b (m.word b) ∧ b.In m ∧ m'.word b = clean (m.word b) ∧ m'.nv = m.nv) := by
  cases a
  case cas a e v =>
    rw [disc] at hd
    simp only [Act.exec] at he
    split at he
    · next hin =>
      split at he
      · next hw =>
        cases he
        by_cases hb : b = a
        · subst hb
          rcases hd.1 with h | ⟨h1, h2⟩
          · right; left; simp only [setWord, if_true]; exact h
          · right; right
            subst hw
            exact ⟨h1, hin, by simp only [setWord, if_true]; exact h2, rfl⟩
        · left; simp only [setWord, if_neg hb]
      · cases he; exact .inl rfl
    · cases he
  case alloc l sz =>
    simp only [Act.exec] at he
    split at he
    · cases he
      cases b with
      | key t i =>
        by_cases e : t = m.next
        · right; left; simp only [freshWords, if_pos e]; exact isDirty_dirty _
        · left; simp only [freshWords, if_neg e]
      | val t i =>
        by_cases e : t = m.next
        · right; left; simp only [freshWords, if_pos e]; exact isDirty_dirty _
        · left; simp only [freshWords, if_neg e]
    · cases he; exact .inl rfl
  all_goals
    left
    simp only [Act.exec] at he
    first
    | (cases he; rfl)
    | (split at he <;> first
        | (cases he; rfl)
        | (split at he <;> (cases he; rfl))
        | cases he)

/-- Every thread is disciplined. -/
def TimeOK (hash : Word → Word) (n : Nat) (s : Sys) (xs : List Sched) : Prop :=
  ∀ t op p todo, (s.exec hash n xs).thr t = .busy op p todo → ∃ st, disc p st ∧ StOK hash n s xs st

theorem TimeOK.snoc {xs : List Sched} (h : TimeOK hash n s xs) (x : Sched) : TimeOK hash n s (xs ++ [x]) := by
  intro t op p todo ht
  have old : (s.exec hash n xs).thr t = .busy op p todo → ∃ st, disc p st ∧ StOK hash n s (xs ++ [x]) st := by
    intro ht
    obtain ⟨st, h1, h2⟩ := h t op p todo ht
    exact ⟨st, h1, h2.snoc x⟩
  have hm := exec_snoc (hash := hash) (n := n) (s := s) xs x
  cases x with
  | evict t' i => rw [hm] at ht; exact old ht
  | run tid =>
    rw [hm, Sys.step] at ht
    split at ht
    · exact old ht
    · by_cases e : t = tid
      · simp only [upd, e, if_true] at ht
        cases ht
        exact ⟨.none, op_disc _ _ _, trivial⟩
      · simp only [upd, if_neg e] at ht; exact old ht
    · exact old ht
    · exact old ht
    · by_cases e : t = tid
      · simp only [upd, e, if_true] at ht
        cases ht
      · simp only [upd, if_neg e] at ht; exact old ht
    · next op' a k todo' hs =>
      split at ht
      · exact old ht
      · next r m' he =>
        by_cases e : t = tid
        · simp only [upd, e, if_true] at ht
          cases ht
          obtain ⟨st, h1, h2⟩ := h tid _ _ _ hs
          exact disc_step h1 h2 he (by rw [hm, Sys.step]; simp only [hs, he])
        · simp only [upd, if_neg e] at ht; exact old ht

theorem timeOK {s : Sys} (h0 : TimeOK hash n s []) (xs : List Sched) : TimeOK hash n s xs := by
  induction xs using List.reverseRecOn with
  | nil => exact h0
  | append_singleton xs x ih => exact ih.snoc x

theorem time_start {m : Mem} {calls : Nat → List Op} : TimeOK hash n (Sys.start m calls) [] := by
  intro t op p todo h; cases h

/-! ## Durability over time -/

/-- What a step of the whole system does to a word. -/
theorem step_word {xs : List Sched} (h : TimeOK hash n s xs) (x : Sched) (b : Addr) :
    ((s.exec hash n (xs ++ [x])).mem.word b = (s.exec hash n xs).mem.word b) ∨
    isDirty ((s.exec hash n (xs ++ [x])).mem.word b) = true ∨
    (∃ op p todo t, x = .run t ∧ (s.exec hash n xs).thr t = .busy op p todo ∧
      (∀ st, disc p st → st = .flushed b ((s.exec hash n xs).mem.word b)) ∧
      StOK hash n s xs (.flushed b ((s.exec hash n xs).mem.word b)) ∧ b.In (s.exec hash n xs).mem ∧
      (s.exec hash n (xs ++ [x])).mem.word b = clean ((s.exec hash n xs).mem.word b) ∧
      (s.exec hash n (xs ++ [x])).mem.nv = (s.exec hash n xs).mem.nv) := by
  by_cases hsame : (s.exec hash n (xs ++ [x])).mem.word b = (s.exec hash n xs).mem.word b
  · exact .inl hsame
  by_cases hdirty : isDirty ((s.exec hash n (xs ++ [x])).mem.word b) = true
  · exact .inr (.inl hdirty)
  right; right
  have hm := exec_snoc (hash := hash) (n := n) (s := s) xs x
  cases x with
  | evict t i => rw [hm] at hsame; exact absurd rfl hsame
  | run tid =>
    rw [hm, Sys.step] at hsame hdirty
    split at hsame
    · exact absurd rfl hsame
    · exact absurd rfl hsame
    · exact absurd rfl hsame
    · exact absurd rfl hsame
    · exact absurd rfl hsame
    · next op a k todo hs =>
      split at hsame
      · exact absurd rfl hsame
      · next r m' he =>
        obtain ⟨st, h1, h2⟩ := h tid _ _ _ hs
        have key := fun st (hd : disc (.act a k) st) => ((disc_word (st := st) hd he b).resolve_left hsame).resolve_left (by
          simpa only [hs, he] using hdirty)
        obtain ⟨e, h3, h4, h5⟩ := key st h1
        subst e
        refine ⟨op, _, todo, tid, rfl, hs, fun st hd => (key st hd).1, h2, h3, ?_, ?_⟩
        · rw [hm, Sys.step]; simp only [hs, he]; exact h4
        · rw [hm, Sys.step]; simp only [hs, he]; exact h5

/-- A word that never returns to an old content is durable whenever its dirty bit is off. -/
theorem durable_time (h0 : TimeOK hash n s []) {a : Addr} (hd : Durable s.mem a) (xs : List Sched)
    (hr : NoReturn hash n s xs a) : Durable (s.exec hash n xs).mem a := by
  induction xs using List.reverseRecOn with
  | nil => exact hd
  | append_singleton xs x ih =>
    have ih := ih fun x' y' z' h1 h2 h3 => hr x' y' z' h1 h2 (h3.trans (List.prefix_append ..))
    intro hc
    have hnv := step_nv (hash := hash) (n := n) (s.exec hash n xs) x a
    rw [← exec_snoc] at hnv
    rcases step_word (timeOK h0 xs) x a with h | h | ⟨op, p, todo, t, -, -, -, hst, hin, hw, hnv'⟩
    · rcases hnv with h' | h'
      · rw [h', h]; exact ih (by rw [← h]; exact hc)
      · rw [h', clean_of_not_dirty hc]
    · rw [h] at hc; cases hc
    · obtain ⟨ys, zs, h1, h2, h3, h4, h5⟩ := hst
      have := hr ys zs xs h1 h2 (List.prefix_append ..) h3.1 h3.2 (by rw [h4])
      rw [hnv', h5, this, h4, hw]

/-! ## One thread -/

/-- What the discipline state says when no other thread runs. -/
def SoloSt (m : Mem) : DSt → Prop
  | .flushed a _ => m.nv a = m.word a
  | _ => True

/-- When only thread `t` runs, every word is durable whenever its dirty bit is off. -/
theorem durable_solo {t : Nat} (h0 : TimeOK hash n s []) (hd : ∀ a, Durable s.mem a)
    (hi : ∀ op p todo, s.thr t = .busy op p todo → ∃ st, disc p st ∧ SoloSt s.mem st) (xs : List Sched)
    (hx : ∀ x ∈ xs, x.Only t) : (∀ a, Durable (s.exec hash n xs).mem a) ∧
      ∀ op p todo, (s.exec hash n xs).thr t = .busy op p todo → ∃ st, disc p st ∧ SoloSt (s.exec hash n xs).mem st := by
  induction xs using List.reverseRecOn with
  | nil => exact ⟨hd, hi⟩
  | append_singleton xs x ih =>
    obtain ⟨ih1, ih2⟩ := ih fun x h => hx x (List.mem_append_left _ h)
    have hxt := hx x (List.mem_append_right _ (List.mem_singleton.mpr rfl))
    constructor
    · intro a hc
      have hnv := step_nv (hash := hash) (n := n) (s.exec hash n xs) x a
      rw [← exec_snoc] at hnv
      rcases step_word (timeOK h0 xs) x a with h | h | ⟨op, p, todo, t', e, hs, hst, -, hin, hw, hnv'⟩
      · rcases hnv with h' | h'
        · rw [h', h]; exact ih1 a (by rw [← h]; exact hc)
        · rw [h', clean_of_not_dirty hc]
      · rw [h] at hc; cases hc
      · subst e
        cases hxt
        obtain ⟨st, h1, h2⟩ := ih2 op p todo hs
        rw [hst st h1] at h2
        rw [hnv', hw, h2]
    · intro op p todo ht
      have hm := exec_snoc (hash := hash) (n := n) (s := s) xs x
      cases x with
      | evict t' i =>
        rw [hm] at ht
        obtain ⟨st, h1, h2⟩ := ih2 op p todo ht
        refine ⟨st, h1, ?_⟩
        cases st with
        | none => trivial
        | loaded a w => trivial
        | flushed a w =>
          rw [hm]
          show writeBack _ _ _ a = _
          unfold writeBack
          split
          · rfl
          · exact h2
      | run tid =>
        cases hxt
        rw [hm] at ht ⊢
        rw [Sys.step] at ht ⊢
        cases hs : (s.exec hash n xs).thr t with
        | idle l =>
          rw [hs] at ht
          cases l with
          | nil => rw [hs] at ht; cases ht
          | cons op' l =>
            simp only [upd, if_true] at ht
            cases ht
            exact ⟨.none, op_disc _ _ _, trivial⟩
        | busy op' p' todo' =>
          obtain ⟨st, h1, h2⟩ := ih2 op' p' todo' hs
          cases p' with
          | ret r => simp only [hs, upd, if_true] at ht; cases ht
          | halt x =>
            cases x with
            | ub => simp only [hs] at ht ⊢; cases ht; exact ⟨.none, trivial, trivial⟩
            | threw => simp only [hs] at ht ⊢; cases ht; exact ⟨.none, trivial, trivial⟩
            | fuel => simp only [hs] at ht ⊢; cases ht; exact ⟨.none, trivial, trivial⟩
          | act a k =>
            cases he : a.exec (s.exec hash n xs).mem with
            | none => simp only [hs, he] at ht ⊢; cases ht; exact ⟨st, h1, h2⟩
            | some q =>
              obtain ⟨r, m'⟩ := q
              simp only [hs, he, upd, if_true] at ht ⊢
              cases ht
              cases a with
              | load a => rw [disc] at h1; exact ⟨_, h1 r, trivial⟩
              | flush a =>
                rw [disc] at h1
                refine ⟨_, h1, ?_⟩
                cases st with
                | none => trivial
                | flushed b w => trivial
                | loaded b w =>
                  simp only [DSt.flush]
                  split
                  · simp only [Act.exec] at he
                    split at he
                    · cases he; exact if_pos ⟨rfl, rfl⟩
                    · cases he
                  · trivial
              | fence =>
                rw [disc] at h1
                cases he
                exact ⟨_, h1, h2⟩
              | cas a e v => rw [disc] at h1; exact ⟨.none, h1.2 r, trivial⟩
              | len t => rw [disc] at h1; exact ⟨.none, h1 r, trivial⟩
              | getNew t => rw [disc] at h1; exact ⟨.none, h1 r, trivial⟩
              | casNew t n => rw [disc] at h1; exact ⟨.none, h1 r, trivial⟩
              | getRoot => rw [disc] at h1; exact ⟨.none, h1 r, trivial⟩
              | casRoot o n => rw [disc] at h1; exact ⟨.none, h1 r, trivial⟩
              | getSize t => rw [disc] at h1; exact ⟨.none, h1 r, trivial⟩
              | addSize t d => rw [disc] at h1; exact ⟨.none, h1 r, trivial⟩
              | getSlots t => rw [disc] at h1; exact ⟨.none, h1 r, trivial⟩
              | incSlots t => rw [disc] at h1; exact ⟨.none, h1 r, trivial⟩
              | getDone t => rw [disc] at h1; exact ⟨.none, h1 r, trivial⟩
              | addDone t n => rw [disc] at h1; exact ⟨.none, h1 r, trivial⟩
              | getIdx t => rw [disc] at h1; exact ⟨.none, h1 r, trivial⟩
              | casIdx t e n => rw [disc] at h1; exact ⟨.none, h1 r, trivial⟩
              | alloc l s => rw [disc] at h1; exact ⟨.none, h1 r, trivial⟩
              | check b => rw [disc] at h1; exact ⟨.none, h1 r, trivial⟩

end PMap
