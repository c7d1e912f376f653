import Verif.KCAS.Ops

/-! # Calls of `pmwcas.hpp`, what they should do, and threads running them -/

namespace PMap.KCAS

/-- The public operations: pmwcas.hpp:541 `PMwCAS`, 717 `PMwCASRead`, 756 `CAS`. -/
inductive Call
  | mwcas (ws : List Entry)
  | read (off : Word)
  | cas (off old new : Word)

/-- What a call returns (pmwcas.hpp:541, 717, 756). -/
inductive Answer
  | flag (b : Bool)
  | word (w : Word)
  | flagWord (b : Bool) (w : Word)
  deriving DecidableEq

/-- pmwcas.hpp:541-551, 717-753, 756-803: the call made by thread `t`. -/
def Call.prog (tb n : Nat) (t : Word) : Call → Prog Answer
  | .mwcas ws => do return .flag (← KCAS.mwcas tb n t ws)
  | .read off => do return .word (← mwRead tb n t off)
  | .cas off old new => do
    let r ← mwCAS1 tb n t off old new
    return .flagWord r.1 r.2

/-- Calls one after another, each by the thread given (no code of its own). -/
def calls (tb n : Nat) : List (Word × Call) → Prog (List Answer)
  | [] => return []
  | c :: cs => do
    let a ← c.2.prog tb n c.1
    let as ← calls tb n cs
    return a :: as

/-- All words of the list changed at once. -/
def writeAll (A : Word → Word) (ws : List Entry) : Word → Word := fun o =>
  match ws.find? (fun e => e.off == o) with
  | some e => e.new
  | none => A o

/-- What a call should do to an array of words. -/
def Call.spec : Call → (Word → Word) → Answer × (Word → Word)
  | .mwcas ws, A => if ∀ e ∈ ws, A e.off = e.old then (.flag true, writeAll A ws) else (.flag false, A)
  | .read off, A => (.word (A off), A)
  | .cas off old new, A => if A off = old then (.flagWord true old, writeAll A [⟨off, old, new⟩]) else (.flagWord false (A off), A)

/-- What calls one after another should do. -/
def specs : List (Word × Call) → (Word → Word) → List Answer × (Word → Word)
  | [], A => ([], A)
  | c :: cs, A =>
    let r := c.2.spec A
    let q := specs cs r.2
    (r.1 :: q.1, q.2)

/-- The words a call names. -/
def Call.offs : Call → List Word
  | .mwcas ws => ws.map Entry.off
  | .read off => [off]
  | .cas off _ _ => [off]

/-- What the comments ask of callers: pmwcas.hpp:30 (three free bits), 380 (at least one word), 396-399 (no word twice). -/
def Call.Ok : Call → Prop
  | .mwcas ws => ws ≠ [] ∧ ws.length < 2 ^ 64 ∧ (ws.map Entry.off).Nodup ∧ ∀ e ∈ ws, Plain e.new
  | .read _ => True
  | .cas _ _ new => Plain new

instance : ∀ c : Call, Decidable c.Ok
  | .mwcas ws => by unfold Call.Ok; infer_instance
  | .read _ => by unfold Call.Ok; infer_instance
  | .cas _ _ new => by unfold Call.Ok; infer_instance

/-- How far a call moves sequence numbers. -/
def Call.cost : Call → Nat
  | .mwcas ws => 2 * ws.length
  | _ => 0

/-- Fuel enough for a call. -/
def Call.fuel : Call → Nat
  | .mwcas ws => ws.length + 2
  | _ => 1

/-- How far calls move sequence numbers. -/
def costs (cs : List (Word × Call)) : Nat := (cs.map fun c => c.2.cost).sum

theorem writeAll_mem {A : Word → Word} {ws : List Entry} (hn : (ws.map Entry.off).Nodup) {e : Entry} (he : e ∈ ws) :
    writeAll A ws e.off = e.new := by
  unfold writeAll
  have : ws.find? (fun x => x.off == e.off) = some e := by
    induction ws with
    | nil => cases he
    | cons a l ih =>
      rw [List.map_cons, List.nodup_cons] at hn
      rcases List.mem_cons.1 he with rfl | he
      · simp
      · rw [List.find?_cons_of_neg]
        · exact ih hn.2 he
        · intro h
          apply hn.1
          rw [beq_iff_eq] at h
          rw [h]; exact List.mem_map_of_mem he
  rw [this]

theorem writeAll_other {A : Word → Word} {ws : List Entry} {o : Word} (h : o ∉ ws.map Entry.off) : writeAll A ws o = A o := by
  unfold writeAll
  have : ws.find? (fun x => x.off == o) = none := by
    rw [List.find?_eq_none]
    intro x hx he
    rw [beq_iff_eq] at he
    exact h (he ▸ List.mem_map_of_mem hx)
  rw [this]

theorem spec_other (c : Call) (A : Word → Word) {o : Word} (h : o ∉ c.offs) : (c.spec A).2 o = A o := by
  cases c with
  | mwcas ws =>
    simp only [Call.spec]
    split
    · exact writeAll_other h
    · rfl
  | read off => rfl
  | cas off old new =>
    simp only [Call.spec]
    split
    · exact writeAll_other (by simpa [Call.offs] using h)
    · rfl

/-- The state as callers see it: words, no descriptor left, no failed assertion, and room for `N` more sequence numbers. -/
structure Good (tb : Nat) (R : Word → Prop) (N : Nat) (A : Word → Word) (T : Word → Prop) (v : V) : Prop where
  arr : ∀ o, R o → v.mem (.arr o) = A o
  plain : ∀ o, R o → Plain (A o)
  fail : v.failed = false
  room : ∀ t, T t → kseqOf v t + N < 2 ^ seqSize tb ∧ wseqOf v t + N < 2 ^ seqSize tb

variable {tb : Nat} {Z : Foot} {R T : Word → Prop}

theorem W.call (hb : tb ≤ 61) (c : Call) (t : Word) (ht : t.toNat < 2 ^ tb) (hT : T t) (hoT : Own Z t) (hR : ∀ o ∈ c.offs, R o)
    (hZ : ∀ o, R o → Z.L (.arr o)) (hok : c.Ok) (n : Nat) (hn : c.fuel ≤ n) (N : Nat) (A : Word → Word) (v : V)
    (hg : Good tb R (c.cost + N) A T v) :
    W Z (c.prog tb n t) (fun a v' => a = (c.spec A).1 ∧ Good tb R N (c.spec A).2 T v') v := by
  cases c with
  | mwcas ws =>
    obtain ⟨h0, hlen, hnd, hpn⟩ := hok
    have hlp : 0 < ws.length := List.length_pos_iff.2 h0
    obtain ⟨n, rfl⟩ : ∃ k, n = k + 2 := ⟨n - 2, by simp only [Call.fuel] at hn; omega⟩
    have hfu : ws.length < n + 1 := by simp only [Call.fuel] at hn; omega
    have hroom := hg.room t hT
    simp only [Call.cost] at hroom
    have hRe : ∀ e ∈ ws, R e.off := fun e he => hR _ (List.mem_map_of_mem he)
    simp only [Call.prog]
    apply W.bind
    refine W.mwcas hb ht hoT (fun e he => hZ _ (hRe e he)) h0 hnd hlen (by omega) (by omega)
      (fun e he => by rw [hg.arr _ (hRe e he)]; exact hg.plain _ (hRe e he)) hpn (n + 1) hfu ?_
    intro v' B f1 f2 f3 f4 f5 f6 f7
    have hiff : (∀ e ∈ ws, v.mem (.arr e.off) = e.old) ↔ (∀ e ∈ ws, A e.off = e.old) :=
      forall₂_congr fun e he => by rw [hg.arr _ (hRe e he)]
    have hro : ∀ x, T x → kseqOf v' x + N < 2 ^ seqSize tb ∧ wseqOf v' x + N < 2 ^ seqSize tb := by
      intro x hx
      have hr := hg.room x hx
      simp only [Call.cost] at hr
      by_cases hxt : x = t
      · subst hxt; omega
      · have hh := f3 x hxt
        have e1 : kseqOf v' x = kseqOf v x := by unfold kseqOf; rw [hh.1]
        have e2 : wseqOf v' x = wseqOf v x := by unfold wseqOf; rw [hh.2]
        omega
    apply W.ret
    simp only [Call.spec]
    by_cases ha : ∀ e ∈ ws, A e.off = e.old
    · have ha' := hiff.2 ha
      rw [if_pos ha]
      obtain ⟨g1, g2⟩ := f6 ha'
      refine ⟨by rw [decide_eq_true ha'], ?_, ?_, f1.trans hg.fail, hro⟩
      · intro o ho
        show v'.mem (.arr o) = writeAll A ws o
        rw [f2]
        by_cases hm : o ∈ ws.map Entry.off
        · obtain ⟨e, he, rfl⟩ := List.mem_map.1 hm
          rw [g1 e he, writeAll_mem hnd he]
        · rw [g2 o hm, writeAll_other hm, hg.arr o ho]
      · intro o ho
        show Plain (writeAll A ws o)
        by_cases hm : o ∈ ws.map Entry.off
        · obtain ⟨e, he, rfl⟩ := List.mem_map.1 hm
          rw [writeAll_mem hnd he]; exact hpn e he
        · rw [writeAll_other hm]; exact hg.plain o ho
    · have ha' := fun h => ha (hiff.1 h)
      rw [if_neg ha]
      refine ⟨by rw [decide_eq_false ha'], ?_, hg.plain, f1.trans hg.fail, hro⟩
      intro o ho
      rw [f2, f7 ha' o, hg.arr o ho]
  | read off =>
    have hRo : R off := hR off (by simp [Call.offs])
    obtain ⟨n, rfl⟩ : ∃ k, n = k + 1 := ⟨n - 1, by simp only [Call.fuel] at hn; omega⟩
    simp only [Call.prog]
    apply W.bind
    refine W.mwRead (hZ _ hRo) (by rw [hg.arr _ hRo]; exact hg.plain _ hRo) n ?_
    apply W.ret
    refine ⟨by rw [hg.arr _ hRo]; rfl, hg.arr, hg.plain, hg.fail, ?_⟩
    intro x hx
    have := hg.room x hx
    simp only [Call.cost] at this
    omega
  | cas off old new =>
    have hRo : R off := hR off (by simp [Call.offs])
    obtain ⟨n, rfl⟩ : ∃ k, n = k + 1 := ⟨n - 1, by simp only [Call.fuel] at hn; omega⟩
    have hro : ∀ x, T x → kseqOf v x + N < 2 ^ seqSize tb ∧ wseqOf v x + N < 2 ^ seqSize tb := by
      intro x hx
      have := hg.room x hx
      simp only [Call.cost] at this
      omega
    simp only [Call.prog]
    apply W.bind
    refine W.mwCAS1 (hZ _ hRo) (by rw [hg.arr _ hRo]; exact hg.plain _ hRo) hok n ?_ ?_
    · intro he
      rw [hg.arr _ hRo] at he
      apply W.ret
      simp only [Call.spec]
      rw [if_pos he]
      have hnd : (([⟨off, old, new⟩] : List Entry).map Entry.off).Nodup := by simp
      have hw : ∀ o, writeAll A [⟨off, old, new⟩] o = if o = off then new else A o := by
        intro o
        split
        · rename_i h; subst h
          exact writeAll_mem (A := A) hnd (e := ⟨o, old, new⟩) (by simp)
        · rename_i h; exact writeAll_other (by simpa using h)
      refine ⟨rfl, ?_, ?_, hg.fail, hro⟩
      · intro o ho
        show _ = writeAll A [⟨off, old, new⟩] o
        rw [hw]
        show (if Loc.arr o = Loc.arr off then new else v.mem (.arr o)) = _
        rw [hg.arr o ho]
        simp only [Loc.arr.injEq]
      · intro o ho
        show Plain (writeAll A [⟨off, old, new⟩] o)
        rw [hw]
        split
        · exact hok
        · exact hg.plain o ho
    · intro he
      rw [hg.arr _ hRo] at he ⊢
      apply W.ret
      simp only [Call.spec]
      rw [if_neg he]
      exact ⟨rfl, hg.arr, hg.plain, hg.fail, hro⟩

theorem W.calls (hb : tb ≤ 61) (hZ : ∀ o, R o → Z.L (.arr o)) (n : Nat) (cs : List (Word × Call))
    (h : ∀ c ∈ cs, c.1.toNat < 2 ^ tb ∧ T c.1 ∧ Own Z c.1 ∧ (∀ o ∈ c.2.offs, R o) ∧ c.2.Ok ∧ c.2.fuel ≤ n)
    (A : Word → Word) (v : V) (hg : Good tb R (costs cs) A T v) :
    W Z (calls tb n cs) (fun a v' => a = (specs cs A).1 ∧ Good tb R 0 (specs cs A).2 T v') v := by
  induction cs generalizing A v with
  | nil => exact W.ret ⟨rfl, hg⟩
  | cons c cs ih =>
    obtain ⟨h1, h2, h3, h4, h5, h6⟩ := h c (by simp)
    unfold KCAS.calls
    apply W.bind
    have hg' : Good tb R (c.2.cost + costs cs) A T v := by
      unfold costs at hg ⊢
      rwa [List.map_cons, List.sum_cons] at hg
    refine (W.call hb c.2 c.1 h1 h2 h3 h4 hZ h5 n h6 (costs cs) A v hg').mono ?_
    rintro a v' ⟨rfl, hv⟩
    apply W.bind
    refine (ih (fun c hc => h c (by simp [hc])) _ v' hv).mono ?_
    rintro as v'' ⟨rfl, hv'⟩
    exact W.ret ⟨rfl, hv'⟩

theorem specs_other (cs : List (Word × Call)) (A : Word → Word) {o : Word} (h : ∀ c ∈ cs, o ∉ c.2.offs) :
    (specs cs A).2 o = A o := by
  induction cs generalizing A with
  | nil => rfl
  | cons c cs ih =>
    show (specs cs (c.2.spec A).2).2 o = A o
    rw [ih _ (fun c hc => h c (by simp [hc])), spec_other _ _ (h c (by simp))]

/-! ## Threads -/

/-- Threads and the memory they share. -/
structure Cfg (α : Type) where
  threads : Nat → Prog α
  mem : S

/-- One step of one thread. -/
inductive Step {α : Type} : Cfg α → Cfg α → Prop
  | mk (c : Cfg α) (i : Nat) (a : Act) (k : Word → Prog α) (h : c.threads i = .act a k) :
      Step c ⟨fun j => if j = i then k (a.exec c.mem).1 else c.threads j, (a.exec c.mem).2⟩

/-- Any interleaving. -/
inductive Steps {α : Type} : Cfg α → Cfg α → Prop
  | refl (c : Cfg α) : Steps c c
  | tail {a b c : Cfg α} (h : Steps a b) (s : Step b c) : Steps a c

/-- Run the thread at the head of the list one step, and so on. -/
def sched {α : Type} : List Nat → Cfg α → Cfg α
  | [], c => c
  | i :: is, c =>
    match c.threads i with
    | .act a k => sched is ⟨fun j => if j = i then k (a.exec c.mem).1 else c.threads j, (a.exec c.mem).2⟩
    | _ => sched is c

theorem Steps.head {α : Type} {a b c : Cfg α} (s : Step a b) (h : Steps b c) : Steps a c := by
  induction h with
  | refl => exact .tail (.refl _) s
  | tail _ s' ih => exact .tail ih s'

theorem sched_steps {α : Type} (is : List Nat) (c : Cfg α) : Steps c (sched is c) := by
  induction is generalizing c with
  | nil => exact .refl c
  | cons i is ih =>
    unfold sched
    split
    · rename_i a k h
      exact .head (.mk c i a k h) (ih _)
    · exact ih c

/-- Agreement on a part of memory. -/
def Agree (Z : Foot) (s s' : S) : Prop := (∀ l, Z.L l → s.mem l = s'.mem l) ∧ (∀ f, Z.G f → s.fld f = s'.fld f)

theorem exec_agree {Z : Foot} {a : Act} (h : a.In Z) {s s' : S} (hs : Agree Z s s') :
    (a.exec s).1 = (a.exec s').1 ∧ Agree Z (a.exec s).2 (a.exec s').2 := by
  cases a with
  | ld l => exact ⟨hs.1 l h, hs⟩
  | rd f => exact ⟨hs.2 f h, hs⟩
  | check b => exact ⟨rfl, hs⟩
  | st l w =>
    refine ⟨rfl, ?_, hs.2⟩
    intro l' hl'
    show (if l' = l then w else s.mem l') = if l' = l then w else s'.mem l'
    rw [hs.1 l' hl']
  | wr f w =>
    refine ⟨rfl, hs.1, ?_⟩
    intro f' hf'
    show (if f' = f then w else s.fld f') = if f' = f then w else s'.fld f'
    rw [hs.2 f' hf']
  | cas l e n =>
    have hl := hs.1 l h
    rw [exec_cas, exec_cas]
    refine ⟨hl, ?_⟩
    show Agree Z (if s.mem l = e then s.put l n else s) (if s'.mem l = e then s'.put l n else s')
    rw [hl]
    split
    · refine ⟨?_, hs.2⟩
      intro l' hl'
      show (if l' = l then n else s.mem l') = if l' = l then n else s'.mem l'
      rw [hs.1 l' hl']
    · exact hs

theorem exec_frame {Z Z' : Foot} (hL : ∀ l, Z.L l → ¬ Z'.L l) (hG : ∀ f, Z.G f → ¬ Z'.G f) {a : Act} (h : a.In Z) (s : S) :
    Agree Z' s (a.exec s).2 := by
  cases a with
  | ld l => exact ⟨fun _ _ => rfl, fun _ _ => rfl⟩
  | rd f => exact ⟨fun _ _ => rfl, fun _ _ => rfl⟩
  | check b => exact ⟨fun _ _ => rfl, fun _ _ => rfl⟩
  | st l w =>
    refine ⟨?_, fun _ _ => rfl⟩
    intro l' hl'
    show s.mem l' = if l' = l then w else s.mem l'
    rw [if_neg]; rintro rfl; exact hL _ h hl'
  | wr f w =>
    refine ⟨fun _ _ => rfl, ?_⟩
    intro f' hf'
    show s.fld f' = if f' = f then w else s.fld f'
    rw [if_neg]; rintro rfl; exact hG _ h hf'
  | cas l e n =>
    rw [exec_cas]
    show Agree Z' s (if s.mem l = e then s.put l n else s)
    split
    · refine ⟨?_, fun _ _ => rfl⟩
      intro l' hl'
      show s.mem l' = if l' = l then n else s.mem l'
      rw [if_neg]; rintro rfl; exact hL _ h hl'
    · exact ⟨fun _ _ => rfl, fun _ _ => rfl⟩

theorem Agree.trans {Z : Foot} {a b c : S} (h : Agree Z a b) (h' : Agree Z b c) : Agree Z a c :=
  ⟨fun l hl => (h.1 l hl).trans (h'.1 l hl), fun f hf => (h.2 f hf).trans (h'.2 f hf)⟩

theorem Runs.failed_mono {α : Type} {Z : Foot} {p : Prog α} {s s' : S} {a : α} (h : Runs Z p s a s') (hf : s.failed = true) :
    s'.failed = true := by
  induction h with
  | ret => exact hf
  | @act b k s a s' _ _ ih =>
    apply ih
    cases b with
    | check b => show (s.failed || !b) = true; rw [hf]; rfl
    | cas l e n => rw [exec_cas]; show (if s.mem l = e then s.put l n else s).failed = true; split <;> exact hf
    | ld l => exact hf
    | st l w => exact hf
    | rd f => exact hf
    | wr f w => exact hf

/-- Threads that keep to separate parts of memory do, in every interleaving, what each does alone. -/
theorem separate {α : Type} (Z : Nat → Foot) (hsep : ∀ i j, i ≠ j → (∀ l, (Z i).L l → ¬ (Z j).L l) ∧ (∀ f, (Z i).G f → ¬ (Z j).G f))
    (p : Nat → Prog α) (s0 : S) (ans : Nat → α) (fin : Nat → S) (hrun : ∀ i, Runs (Z i) (p i) s0 (ans i) (fin i))
    (hfail0 : s0.failed = false) (hfail : ∀ i, (fin i).failed = false) (c : Cfg α) (h : Steps ⟨p, s0⟩ c) :
    c.mem.failed = false ∧ ∀ i, ∃ si, Agree (Z i) si c.mem ∧ Runs (Z i) (c.threads i) si (ans i) (fin i) := by
  generalize hc0 : (⟨p, s0⟩ : Cfg α) = c0 at h
  induction h with
  | refl =>
    subst hc0
    exact ⟨hfail0, fun i => ⟨s0, ⟨fun _ _ => rfl, fun _ _ => rfl⟩, hrun i⟩⟩
  | @tail b _ _ s ih =>
    obtain ⟨hf, hall⟩ := ih
    cases s with
    | mk i a k hk =>
      obtain ⟨si, hag, hri⟩ := hall i
      rw [hk] at hri
      cases hri with
      | act hin hr =>
        obtain ⟨hresp, hag'⟩ := exec_agree hin hag
        refine ⟨?_, ?_⟩
        · -- no assertion fails
          cases a with
          | check b' =>
            show (b.mem.failed || !b') = false
            rw [hf, Bool.false_or, Bool.not_eq_false']
            cases hb' : b' with
            | true => rfl
            | false =>
              subst hb'
              have : (((Act.check false).exec si).2).failed = true := by
                show (si.failed || !false) = true
                simp
              have := hr.failed_mono this
              rw [hfail i] at this
              cases this
          | cas l e n => rw [exec_cas]; show (if b.mem.mem l = e then b.mem.put l n else b.mem).failed = false; split <;> exact hf
          | ld l => exact hf
          | st l w => exact hf
          | rd f => exact hf
          | wr f w => exact hf
        · intro j
          by_cases hji : j = i
          · subst hji
            refine ⟨_, hag', ?_⟩
            show Runs (Z j) (if j = j then k (a.exec b.mem).1 else b.threads j) _ _ _
            rw [if_pos rfl, ← hresp]
            exact hr
          · obtain ⟨sj, hagj, hrj⟩ := hall j
            obtain ⟨s1, s2⟩ := hsep i j (fun e => hji e.symm)
            refine ⟨sj, hagj.trans (exec_frame s1 s2 hin _), ?_⟩
            show Runs (Z j) (if j = i then k (a.exec b.mem).1 else b.threads j) _ _ _
            rw [if_neg hji]
            exact hrj

end PMap.KCAS
