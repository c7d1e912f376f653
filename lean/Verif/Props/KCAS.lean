import Verif.KCAS.Decide

/-! # C35 and C36: multi-word compare-and-swap -/

namespace PMap.KCAS

/-! ## C35 -/

/-- Everything. -/
private def everything : Foot := ⟨fun _ => True, fun _ => True⟩

/-- Run alone, by any thread, on any number of different words, with any values in memory: if every word holds its expected
value the multi-word CAS returns true and afterwards every word holds its new value; otherwise it returns false and no word
changes.  Words not named never change, and no assertion fails.  (A word's value is the word without its dirty bit; the words
named hold values, not descriptors; sequence numbers do not overflow.) -/
theorem c35_all_or_nothing (tb : Nat) (hb : tb ≤ 61) (s : S) (t : Word) (ht : t.toNat < 2 ^ tb) (ws : List Entry)
    (h0 : ws ≠ []) (hlen : ws.length < 2 ^ 64) (hnd : (ws.map Entry.off).Nodup)
    (hold : ∀ e ∈ ws, (s.mem (.arr e.off)).toNat % 8 ≤ 1) (hnew : ∀ e ∈ ws, e.new.toNat % 8 = 0)
    (hk : (s.mem (.kmut t)).toNat / 8 + 2 < 2 ^ (61 - tb)) (hw : (s.mem (.wmut t)).toNat / 2 + 2 * ws.length < 2 ^ (61 - tb))
    (n : Nat) (hn : ws.length + 2 ≤ n) :
    ∃ b s', run (mwcas tb n t ws) s = .done b s' ∧ s'.failed = s.failed
      ∧ (b = true ↔ ∀ e ∈ ws, s.mem (.arr e.off) &&& ~~~1#64 = e.old)
      ∧ (b = true → ∀ e ∈ ws, s'.mem (.arr e.off) &&& ~~~1#64 = e.new)
      ∧ (b = false → ∀ e ∈ ws, s'.mem (.arr e.off) &&& ~~~1#64 = s.mem (.arr e.off) &&& ~~~1#64)
      ∧ ∀ o, o ∉ ws.map Entry.off → s'.mem (.arr o) &&& ~~~1#64 = s.mem (.arr o) &&& ~~~1#64 := by
  obtain ⟨n, rfl⟩ : ∃ k, n = k + 1 := ⟨n - 1, by omega⟩
  have hkq : kseqOf (view s) t = (s.mem (.kmut t)).toNat / 8 := by
    unfold kseqOf
    rw [(KMut.unpack_fields _).1]
    show (cl (s.mem (.kmut t))).toNat / 8 = _
    rw [cl_toNat]; omega
  have hwq : wseqOf (view s) t = (s.mem (.wmut t)).toNat / 2 := by
    unfold wseqOf
    rw [(WMut.unpack_fields _).1]
    show (cl (s.mem (.wmut t))).toNat / 2 = _
    rw [cl_toNat]; omega
  have hmain := W.mwcas (Z := everything) (v := view s) hb ht ⟨trivial, trivial, fun _ _ => trivial⟩ (fun _ _ => trivial) h0 hnd hlen
    (by rw [hkq]; exact hk) (by rw [hwq]; exact hw)
    (fun e he => by
      show (cl (s.mem (.arr e.off))).toNat % 8 = 0
      rw [cl_toNat]
      have := hold e he
      omega) hnew n (by omega)
    (Q := fun b v' => v'.failed = s.failed ∧ (b = true ↔ ∀ e ∈ ws, cl (s.mem (.arr e.off)) = e.old)
      ∧ (b = true → ∀ e ∈ ws, v'.mem (.arr e.off) = e.new) ∧ (b = false → ∀ e ∈ ws, v'.mem (.arr e.off) = cl (s.mem (.arr e.off)))
      ∧ ∀ o, o ∉ ws.map Entry.off → v'.mem (.arr o) = cl (s.mem (.arr o)))
    (by
      intro v' B f1 f2 _ _ _ f6 f7
      refine ⟨f1, decide_eq_true_iff, ?_, ?_, ?_⟩
      · intro h e he
        rw [f2]; exact (f6 (decide_eq_true_iff.1 h)).1 e he
      · intro h e _
        rw [f2]; exact f7 (decide_eq_false_iff_not.1 h) _
      · intro o ho
        rw [f2]
        by_cases h : ∀ e ∈ ws, (view s).mem (.arr e.off) = e.old
        · exact (f6 h).2 o ho
        · exact f7 h o)
  obtain ⟨b, s', hr, hq⟩ := hmain s rfl
  exact ⟨b, s', hr.run, hq⟩

/-- Three words out of order, one of them dirty, thread 2 of 4, all matching; and the same with one word that does not match. -/
example : ∃ b s', run (mwcas 2 5 2#64 [⟨9, 16, 24⟩, ⟨4, 0, 8⟩, ⟨7, 32, 32⟩])
      (fresh fun o => if o = 9 then 17 else if o = 7 then 32 else 0) = .done b s' ∧ b = true := by
  obtain ⟨b, s', h, -, hb, -⟩ := c35_all_or_nothing 2 (by decide) (fresh fun o => if o = 9 then 17 else if o = 7 then 32 else 0)
    2#64 (by decide) [⟨9, 16, 24⟩, ⟨4, 0, 8⟩, ⟨7, 32, 32⟩] (by decide) (by decide) (by decide) (by decide) (by decide) (by decide)
    (by decide) 5 (by decide)
  exact ⟨b, s', h, hb.2 (by decide)⟩

example : ∃ b s', run (mwcas 2 5 2#64 [⟨9, 16, 24⟩, ⟨4, 0, 8⟩, ⟨7, 40, 32⟩])
      (fresh fun o => if o = 9 then 17 else if o = 7 then 32 else 0) = .done b s' ∧ b = false ∧ s'.mem (.arr 9) &&& ~~~1#64 = 16 := by
  obtain ⟨b, s', h, -, hb, -, hf, -⟩ := c35_all_or_nothing 2 (by decide) (fresh fun o => if o = 9 then 17 else if o = 7 then 32 else 0)
    2#64 (by decide) [⟨9, 16, 24⟩, ⟨4, 0, 8⟩, ⟨7, 40, 32⟩] (by decide) (by decide) (by decide) (by decide) (by decide) (by decide)
    (by decide) 5 (by decide)
  have hbf : b = false := by
    cases b with
    | false => rfl
    | true => exact absurd (hb.1 rfl) (by decide)
  exact ⟨b, s', h, hbf, by rw [hf hbf ⟨9, 16, 24⟩ (by decide)]; decide⟩

theorem fresh_view (A : Word → Word) (t : Word) : kseqOf (view (fresh A)) t = 0 ∧ wseqOf (view (fresh A)) t = 0 := by
  constructor
  · unfold kseqOf
    rw [(KMut.unpack_fields _).1]
    show (cl (KMut.pack ⟨true, Status.succeeded.word, 0#64⟩)).toNat / 8 = 0
    decide
  · unfold wseqOf
    rw [(WMut.unpack_fields _).1]
    show (cl (WMut.pack ⟨true, 0#64⟩)).toNat / 2 = 0
    decide

/-- Threads taking turns: any sequence of multi-word CASes, reads and single CASes, by any threads below `P`, on an array of any
values, gives the answers of an array whose operations are atomic, and leaves its contents. -/
theorem c35_refines (P k : Nat) (hk : k ≤ 16) (hP : P = 2 ^ k) (A : Word → Word) (hA : ∀ o, (A o).toNat % 8 = 0)
    (cs : List (Word × Call)) (hcs : ∀ c ∈ cs, c.1.toNat < P ∧ c.2.Ok) (hcost : costs cs < 2 ^ (61 - tidSize P)) (n : Nat)
    (hn : ∀ c ∈ cs, c.2.fuel ≤ n) :
    ∃ s', run (calls (tidSize P) n cs) (fresh A) = .done (specs cs A).1 s' ∧ s'.failed = false
      ∧ ∀ o, s'.mem (.arr o) &&& ~~~1#64 = (specs cs A).2 o := by
  have hb : tidSize P ≤ 61 := by subst hP; rw [tidSize_pow]; split <;> omega
  have hPt : P ≤ 2 ^ tidSize P := by
    subst hP; rw [tidSize_pow]; exact Nat.pow_le_pow_right (by decide) (by split <;> omega)
  have hg : Good (tidSize P) (fun _ => True) (costs cs) A (fun _ => True) (view (fresh A)) := by
    refine ⟨?_, fun o _ => hA o, rfl, ?_⟩
    · intro o _
      exact cl_of_plain (hA o)
    · intro t _
      obtain ⟨h1, h2⟩ := fresh_view A t
      rw [h1, h2, Nat.zero_add]
      exact ⟨hcost, hcost⟩
  obtain ⟨a, s', hr, rfl, hg'⟩ := W.calls (Z := everything) (R := fun _ => True) (T := fun _ => True) hb (fun _ _ => trivial) n cs
    (fun c hc => ⟨Nat.lt_of_lt_of_le (hcs c hc).1 hPt, trivial, ⟨trivial, trivial, fun _ _ => trivial⟩, fun _ _ => trivial,
      (hcs c hc).2, hn c hc⟩) A _ hg (fresh A) rfl
  exact ⟨s', hr.run, hg'.fail, fun o => hg'.arr o trivial⟩

/-- Two threads in turn: the second multi-word CAS sees what the first wrote. -/
example : ∃ s', run (calls (tidSize 4) 9 [(1#64, .mwcas [⟨5, 0, 8⟩, ⟨3, 0, 16⟩]), (2#64, .read 3),
      (3#64, .mwcas [⟨3, 16, 24⟩, ⟨6, 8, 0⟩]), (2#64, .cas 5 8 40)]) (fresh fun _ => 0)
    = .done [.flag true, .word 16, .flag false, .flagWord true 8] s' := by
  obtain ⟨s', h, -⟩ := c35_refines 4 2 (by decide) rfl (fun _ => 0) (by intro o; rfl)
    [(1#64, .mwcas [⟨5, 0, 8⟩, ⟨3, 0, 16⟩]), (2#64, .read 3), (3#64, .mwcas [⟨3, 16, 24⟩, ⟨6, 8, 0⟩]), (2#64, .cas 5 8 40)]
    (by decide) (by decide) 9 (by decide)
  exact ⟨s', h⟩

/-! ## C36 -/

/-- The part of memory of thread `t` working on the words `R` (no descriptors if it makes no calls). -/
private def region (t : Word) (used : Prop) (R : Word → Prop) : Foot where
  L
    | .arr o => R o
    | .kmut x => x = t ∧ used
    | .wmut x => x = t ∧ used
  G f := f.owner = t ∧ used

/-- Full statement: whatever the helpers do, a multi-word CAS takes effect on all words or none and its owner's result says
which.  It is false (`c36_torn`, `c36_wrong_answer`).  Proved here: when the threads name different words, so that no thread
helps another, then in every interleaving of any number of threads, each making any calls, no assertion fails, no thread gets
stuck, and each thread that is done has the answers, and its words the values, of atomic operations.  Missing: threads whose
words overlap. -/
theorem c36_separate_words_partial (tb : Nat) (hb : tb ≤ 61) (A : Word → Word) (hA : ∀ o, (A o).toNat % 8 = 0)
    (todo : Nat → List Call) (tid : Nat → Word) (htid : ∀ i, todo i ≠ [] → (tid i).toNat < 2 ^ tb)
    (hinj : ∀ i j, todo i ≠ [] → todo j ≠ [] → tid i = tid j → i = j) (hok : ∀ i, ∀ c ∈ todo i, c.Ok)
    (hdisj : ∀ i j, i ≠ j → ∀ c ∈ todo i, ∀ d ∈ todo j, ∀ o, o ∈ c.offs → o ∉ d.offs)
    (hcost : ∀ i, ((todo i).map Call.cost).sum < 2 ^ (61 - tb)) (n : Nat) (hn : ∀ i, ∀ c ∈ todo i, c.fuel ≤ n)
    (c : Cfg (List Answer)) (h : Steps ⟨fun i => calls tb n ((todo i).map fun c => (tid i, c)), fresh A⟩ c) :
    c.mem.failed = false ∧ ∀ i, (∀ e, c.threads i ≠ .halt e) ∧
      ∀ a, c.threads i = .ret a → a = (specs ((todo i).map fun c => (tid i, c)) A).1
        ∧ ∀ d ∈ todo i, ∀ o ∈ d.offs, c.mem.mem (.arr o) &&& ~~~1#64 = (specs ((todo i).map fun c => (tid i, c)) A).2 o := by
  have hcosts : ∀ i, costs ((todo i).map fun c => (tid i, c)) = ((todo i).map Call.cost).sum := by
    intro i; unfold costs; rw [List.map_map]; rfl
  have hsolo : ∀ i, ∃ a s', Runs (region (tid i) (todo i ≠ []) fun o => ∃ c ∈ todo i, o ∈ c.offs)
      (calls tb n ((todo i).map fun c => (tid i, c))) (fresh A) a s' ∧ a = (specs ((todo i).map fun c => (tid i, c)) A).1
      ∧ Good tb (fun o => ∃ c ∈ todo i, o ∈ c.offs) 0 (specs ((todo i).map fun c => (tid i, c)) A).2 (fun x => x = tid i) (view s') := by
    intro i
    have hg : Good tb (fun o => ∃ c ∈ todo i, o ∈ c.offs) (costs ((todo i).map fun c => (tid i, c))) A (fun x => x = tid i)
        (view (fresh A)) := by
      refine ⟨fun o _ => cl_of_plain (hA o), fun o _ => hA o, rfl, ?_⟩
      intro t _
      obtain ⟨h1, h2⟩ := fresh_view A t
      rw [h1, h2, Nat.zero_add, hcosts]
      exact ⟨hcost i, hcost i⟩
    refine W.calls (Z := region (tid i) (todo i ≠ []) fun o => ∃ c ∈ todo i, o ∈ c.offs) (R := fun o => ∃ c ∈ todo i, o ∈ c.offs)
      (T := fun x => x = tid i) hb (fun o ho => ho) n _ ?_ A _ hg (fresh A) rfl
    intro x hx
    obtain ⟨d, hd, rfl⟩ := List.mem_map.1 hx
    have hne : todo i ≠ [] := List.ne_nil_of_mem hd
    exact ⟨htid i hne, rfl, ⟨⟨rfl, hne⟩, ⟨rfl, hne⟩, fun _ h => ⟨h, hne⟩⟩, fun o ho => ⟨d, hd, ho⟩, hok i d hd, hn i d hd⟩
  choose ans fin hr ha hgd using hsolo
  obtain ⟨hf, hall⟩ := separate (fun i => region (tid i) (todo i ≠ []) fun o => ∃ c ∈ todo i, o ∈ c.offs) (by
      intro i j hij
      constructor
      · intro l
        cases l with
        | arr o =>
          rintro ⟨c, hc, ho⟩ ⟨d, hd, ho'⟩
          exact hdisj i j hij c hc d hd o ho ho'
        | kmut x => rintro ⟨h1, u1⟩ ⟨h2, u2⟩; exact hij (hinj _ _ u1 u2 (h1.symm.trans h2))
        | wmut x => rintro ⟨h1, u1⟩ ⟨h2, u2⟩; exact hij (hinj _ _ u1 u2 (h1.symm.trans h2))
      · rintro f ⟨h1, u1⟩ ⟨h2, u2⟩; exact hij (hinj _ _ u1 u2 (h1.symm.trans h2)))
    _ (fresh A) ans fin hr rfl (fun i => (hgd i).fail) c h
  refine ⟨hf, ?_⟩
  intro i
  obtain ⟨si, hag, hri⟩ := hall i
  refine ⟨?_, ?_⟩
  · intro e he
    rw [he] at hri; cases hri
  · intro a he
    rw [he] at hri
    cases hri with
    | ret =>
      refine ⟨ha i, ?_⟩
      intro d hd o ho
      rw [← hag.1 (.arr o) ⟨d, hd, ho⟩]
      exact (hgd i).arr o ⟨d, hd, ho⟩

/-- Two threads on different words, taking turns step by step. -/
private def apart : Nat → List Call
  | 0 => [.mwcas [⟨1, 0, 8⟩, ⟨0, 0, 8⟩], .read 1]
  | 1 => [.mwcas [⟨2, 0, 16⟩, ⟨3, 8, 16⟩], .cas 2 0 24]
  | _ => []

private def turns : List Nat := (List.range 400).map (· % 2)

private def together : Cfg (List Answer) :=
  sched turns ⟨fun i => calls 3 9 ((apart i).map fun c => (BitVec.ofNat 64 i, c)), fresh fun _ => 0⟩

private theorem apart_lt {i : Nat} (h : apart i ≠ []) : i < 2 := by
  match i, h with
  | 0, _ => decide
  | 1, _ => decide
  | _ + 2, h => exact absurd rfl h

private theorem apart_all {P : Nat → Prop} (h0 : P 0) (h1 : P 1) (h2 : ∀ i, P (i + 2)) (i : Nat) : P i := by
  match i with
  | 0 => exact h0
  | 1 => exact h1
  | i + 2 => exact h2 i

/-- Both threads are done after these steps, so the theorem says what they returned. -/
example : together.mem.failed = false ∧ (∃ a, together.threads 0 = .ret a) ∧ (∃ a, together.threads 1 = .ret a)
    ∧ (∀ a, together.threads 0 = .ret a → a = [.flag true, .word 8])
    ∧ ∀ a, together.threads 1 = .ret a → a = [.flag false, .flagWord true 0] := by
  obtain ⟨hf, h⟩ := c36_separate_words_partial 3 (by decide) (fun _ => 0) (fun _ => rfl) apart (fun i => BitVec.ofNat 64 i)
    (by
      intro i hi
      have := apart_lt hi
      show (BitVec.ofNat 64 i).toNat < 8
      rw [BitVec.toNat_ofNat, Nat.mod_eq_of_lt (by omega)]; omega)
    (by
      intro i j hi hj h
      have h1 := apart_lt hi
      have h2 := apart_lt hj
      have := congrArg BitVec.toNat h
      rw [BitVec.toNat_ofNat, BitVec.toNat_ofNat, Nat.mod_eq_of_lt (by omega), Nat.mod_eq_of_lt (by omega)] at this
      exact this)
    (apart_all (by decide) (by decide) (fun i c hc => by cases hc))
    (by
      intro i j hij c hc d hd
      have hi := apart_lt (List.ne_nil_of_mem hc)
      have hj := apart_lt (List.ne_nil_of_mem hd)
      have h01 : ∀ c ∈ apart 0, ∀ d ∈ apart 1, ∀ o, o ∈ c.offs → o ∉ d.offs := by
        intro c hc d hd o ho hod
        simp only [apart, List.mem_cons, List.not_mem_nil, or_false] at hc hd
        rcases hc with rfl | rfl <;> rcases hd with rfl | rfl <;>
          simp only [Call.offs, List.map_cons, List.map_nil, List.mem_cons, List.not_mem_nil, or_false] at ho hod <;>
          rcases ho with rfl | rfl <;> revert hod <;> decide
      match i, j, hi, hj with
      | 0, 0, _, _ => exact absurd rfl hij
      | 1, 1, _, _ => exact absurd rfl hij
      | 0, 1, _, _ => exact h01 c hc d hd
      | 1, 0, _, _ => exact fun o ho ho' => h01 d hd c hc o ho' ho)
    (apart_all (by decide) (by decide) (fun i => by show (0 : Nat) < _; decide)) 9
    (apart_all (by decide) (by decide) (fun i c hc => by cases hc)) together (sched_steps _ _)
  have d0 : (match together.threads 0 with | .ret _ => true | _ => false) = true := by decide +kernel
  have d1 : (match together.threads 1 with | .ret _ => true | _ => false) = true := by decide +kernel
  refine ⟨hf, ?_, ?_, fun a ha => ?_, fun a ha => ?_⟩
  · revert d0; cases together.threads 0 with
    | ret a => exact fun _ => ⟨a, rfl⟩
    | halt _ => intro h; cases h
    | act _ _ => intro h; cases h
  · revert d1; cases together.threads 1 with
    | ret a => exact fun _ => ⟨a, rfl⟩
    | halt _ => intro h; cases h
    | act _ _ => intro h; cases h
  · rw [((h 0).2 a ha).1]; decide
  · rw [((h 1).2 a ha).1]; decide

/-- Whatever the threads do and however they overlap and help: a step leaves a multi-word CAS's sequence number and, once it is
decided, its status as they are, or is the owner's start of a new operation (the next sequence number, undecided).  So no two
helpers decide the same operation differently.  Missing of the full statement: that the words and the owner's result follow the
decision, which is false (`c36_torn`, `c36_wrong_answer`). -/
theorem c36_decided_once_partial (tb n : Nat) (s0 : S) (todo : Nat → List Call) (tid : Nat → Word)
    (hinj : ∀ i j, todo i ≠ [] → todo j ≠ [] → tid i = tid j → i = j)
    (c c' : Cfg (List Answer)) (h : Steps ⟨fun i => calls tb n ((todo i).map fun c => (tid i, c)), s0⟩ c) (hs : Step c c') (t : Word) :
    ((c'.mem.mem (.kmut t)).toNat / 8 = (c.mem.mem (.kmut t)).toNat / 8
        ∧ ((c.mem.mem (.kmut t)).toNat / 2 % 4 = 0 ∨ (c'.mem.mem (.kmut t)).toNat / 2 % 4 = (c.mem.mem (.kmut t)).toNat / 2 % 4))
      ∨ ((c'.mem.mem (.kmut t)).toNat / 8 = ((c.mem.mem (.kmut t)).toNat / 8 + 1) % 2 ^ 61
        ∧ (c'.mem.mem (.kmut t)).toNat / 2 % 4 = 0) := by
  have hk := step_kept tid (fun i => todo i ≠ []) hinj _ s0
    (fun i hi => ⟨[], by rw [not_not.1 hi]; rfl⟩) (fun i q => Obey.calls tb n (tid i) (todo i) q) c c' h hs t
  rcases hk with ⟨h1, h2⟩ | ⟨h1, h2⟩
  · left
    refine ⟨?_, h2.imp ?_ ?_⟩
    · rw [← seqW_toNat, ← seqW_toNat, h1]
    · intro h; rw [← statusW_toNat, h]; rfl
    · intro h; rw [← statusW_toNat, ← statusW_toNat, h]
  · right
    constructor
    · have := congrArg BitVec.toNat h1
      rw [seqW_toNat, low_toNat 61 (by decide), BitVec.toNat_add, seqW_toNat] at this
      rw [this]
      have h3 := (c.mem.mem (.kmut t)).isLt
      show ((_ + 1) % 2 ^ 64) % 2 ^ 61 = _
      omega
    · rw [← statusW_toNat, h2]; rfl

/-- The owner of a two-word CAS and a reader of one of its words. -/
private def overlap (o : Word) : Nat → List Call
  | 0 => [.mwcas [⟨1, 0, 8⟩, ⟨0, 0, 8⟩]]
  | 1 => [.read o]
  | _ => []

private def race (o : Word) (k : Nat) : Cfg (List Answer) :=
  sched (List.replicate k 0 ++ List.replicate 200 1 ++ List.replicate 400 0)
    ⟨fun i => calls 3 20 ((overlap o i).map fun c => (BitVec.ofNat 64 i, c)), fresh fun _ => 0⟩

private def answers (c : Cfg (List Answer)) (i : Nat) : Option (List Answer) :=
  match c.threads i with
  | .ret a => some a
  | _ => none

/-- A torn update: the owner has installed its descriptor in both words and decided when a reader comes to word 1 and helps.  The
helper's own attempt to decide fails, and it undoes word 1 to the old value.  The owner returns true, word 0 has the new value and
word 1 the old one. -/
theorem c36_torn : ∃ c : Cfg (List Answer),
    Steps ⟨fun i => calls 3 20 ((overlap 1 i).map fun c => (BitVec.ofNat 64 i, c)), fresh fun _ => 0⟩ c
      ∧ answers c 0 = some [.flag true] ∧ answers c 1 = some [.word 0]
      ∧ c.mem.mem (.arr 0) &&& ~~~1#64 = 8 ∧ c.mem.mem (.arr 1) &&& ~~~1#64 = 0 :=
  ⟨race 1 110, sched_steps _ _, by decide +kernel, by decide +kernel, by decide +kernel, by decide +kernel⟩

/-- A wrong answer: a reader finishes the owner's operation for it, so both words have the new values (and the reader has seen
one), yet the owner returns false. -/
theorem c36_wrong_answer : ∃ c : Cfg (List Answer),
    Steps ⟨fun i => calls 3 20 ((overlap 0 i).map fun c => (BitVec.ofNat 64 i, c)), fresh fun _ => 0⟩ c
      ∧ answers c 0 = some [.flag false] ∧ answers c 1 = some [.word 8]
      ∧ c.mem.mem (.arr 0) &&& ~~~1#64 = 8 ∧ c.mem.mem (.arr 1) &&& ~~~1#64 = 8 :=
  ⟨race 0 35, sched_steps _ _, by decide +kernel, by decide +kernel, by decide +kernel, by decide +kernel⟩

/-- In the middle of the torn operation (decided, reader halfway through helping) the reader can step, and the decision
stays unless its owner has started another operation. -/
example : ∃ c', Step (sched (List.replicate 110 0 ++ List.replicate 20 1)
      ⟨fun i => calls 3 20 ((overlap 1 i).map fun c => (BitVec.ofNat 64 i, c)), fresh fun _ => 0⟩) c'
    ∧ ((c'.mem.mem (.kmut 0#64)).toNat / 2 % 4 = 1 ∨ (c'.mem.mem (.kmut 0#64)).toNat / 8 = 3) := by
  have hlt : ∀ i, overlap 1 i ≠ [] → i < 2 := by
    intro i h
    match i, h with
    | 0, _ => decide
    | 1, _ => decide
    | _ + 2, h => exact absurd rfl h
  generalize hc : sched (List.replicate 110 0 ++ List.replicate 20 1)
      ⟨fun i => calls 3 20 ((overlap 1 i).map fun c => (BitVec.ofNat 64 i, c)), fresh fun _ => 0⟩ = c
  have h1 : (match c.threads 1 with | .act _ _ => true | _ => false) = true := by rw [← hc]; decide +kernel
  have hdec : (c.mem.mem (.kmut 0#64)).toNat / 2 % 4 = 1 ∧ (c.mem.mem (.kmut 0#64)).toNat / 8 = 2 := by
    rw [← hc]; decide +kernel
  obtain ⟨a, k, hk⟩ : ∃ a k, c.threads 1 = .act a k := by
    revert h1
    cases c.threads 1 with
    | ret a => intro h; cases h
    | halt _ => intro h; cases h
    | act a k => exact fun _ => ⟨a, k, rfl⟩
  have hstep := Step.mk (c := c) 1 a k hk
  refine ⟨_, hstep, ?_⟩
  have := c36_decided_once_partial 3 20 (fresh fun _ => 0) (overlap 1) (fun i => BitVec.ofNat 64 i)
    (by
      intro i j hi hj h
      have h1 := hlt i hi
      have h2 := hlt j hj
      have := congrArg BitVec.toNat h
      rw [BitVec.toNat_ofNat, BitVec.toNat_ofNat, Nat.mod_eq_of_lt (by omega), Nat.mod_eq_of_lt (by omega)] at this
      exact this) c _ (hc ▸ sched_steps _ _) hstep 0#64
  rcases this with ⟨-, h⟩ | ⟨h, -⟩
  · rcases h with h | h
    · rw [hdec.1] at h; cases h
    · exact Or.inl (h.trans hdec.1)
  · exact Or.inr (h.trans (by rw [hdec.2]; decide))

end PMap.KCAS
