import Verif.Durable.OwnedLast
import Verif.Durable.Crash
import Verif.Props.Path
import Verif.Props.Durable

/-!
# Sessions of several threads that end in a crash (proof machinery)
-/

namespace PMap

open Prog

variable {hash : Word → Word} {n : Nat} {F : List Sched} {L : Nat} {own : Word → Nat} {m : Mem} {calls : Nat → List Op} {s : Sys}

theorem Opened.durK (h : Opened hash L m) (hv : ∀ t, ∀ op ∈ calls t, op.Valid) (ys : List Sched) (i : Nat) :
    Durable ((Sys.start m calls).exec hash n ys).mem (.key 0 i) := by
  refine durable_time time_start (h.sync.durable _) ys ?_
  have hevo := fun xs ys => ((h.ok (n := n) hv xs ys).2 (h.ok (n := n) hv xs ys).1.inv).2
  rintro x y z ⟨l1, rfl⟩ ⟨l2, rfl⟩ - ht hi e
  by_cases hx : clean (((Sys.start m calls).exec hash n x).mem.word (.key 0 i)) = KINITIAL
  · by_contra hne
    rw [hx] at hne
    have := (hevo (x ++ l1) l2).key 0 i ⟨lt_of_lt_of_le ht (hevo x l1).next, by rw [(hevo x l1).len 0 ht]; exact hi⟩ hne
    exact hne (this.symm.trans (e.symm.trans hx))
  · exact (hevo x l1).key 0 i ⟨ht, hi⟩ hx

theorem Opened.paths (h : Opened hash L m) : KInv hash m := by
  have h0 : 0 < m.next := by rw [h.next]; omega
  have hpow : ∃ p, p ≤ 32 ∧ L = 2 ^ p := by rw [← h.len]; exact h.inv.pow 0 h0
  have hpow' : ∃ p, L = 2 ^ p := hpow.imp fun _ h => h.2
  refine ⟨fun t i ht hK hT => ?_, fun t i ht hK => ?_⟩ <;>
  · obtain rfl : t = 0 := by have := ht.1; rw [h.next] at this; omega
    have hi : i < L := by rw [← h.len]; exact ht.2
    first
    | obtain ⟨-, d, h1, h2, h3⟩ := h.path i hi hK
      rw [h.len]
      simp only [probeAt_mod hash _ _ hpow']
      simp only [probeSlot_mod hpow] at h2 h3
      exact ⟨d, h1, h2.symm, fun e he => (h3 e he).1⟩
    | have hK' : clean (m.word (.key 0 i)) = KTOMBSTONE := hK
      exact absurd hK' (h.path i hi (by rw [hK']; decide)).1

theorem Opened.shared (h : Opened hash L m) (hv : ∀ t, ∀ op ∈ calls t, op.Valid)
    (h1 : (((Sys.start m calls).exec hash n F).mem.tab 0).newT = none)
    (hr : ∀ i, i < L → NoReturn hash n (Sys.start m calls) F (.val 0 i)) : Shared hash n (Sys.start m calls) F L := by
  have hF := h.still hv h1
  refine ⟨⟨hF, fun ys _ i _ => h.durK hv ys i, fun ys hy i hi => durable_time time_start (h.sync.durable _) ys
    fun x y z g1 g2 g3 => hr i hi x y z g1 g2 (g3.trans hy)⟩, fun ys hy i hi => h.empty hv h1 hy hi, fun ys hy i hi hK hT => ?_⟩
  have h0 : PathOK Askable hash (Sys.start m calls) := ⟨start_ok h.inv calls, h.paths, fun _ => trivial⟩
  have hP := (h0.exec askable_ok n ys fun t op he =>
    ⟨hv t op (inv_calls hash n _ calls ys he), fun k v ha => ⟨op, hv t op (inv_calls hash n _ calls ys he), ha⟩⟩).1
  obtain ⟨d, h2, h3, h4⟩ := hP.inv.path 0 i ⟨hF.next ys hy, by rw [hF.len ys hy]; exact hi⟩ hK hT
  have hpow' : ∃ p, L = 2 ^ p := hF.pow.imp fun _ h => h.2
  rw [hF.len ys hy] at h2 h3 h4
  simp only [probeAt_mod hash _ _ hpow'] at h3 h4
  simp only [probeSlot_mod hF.pow]
  exact ⟨d, h2, h3.symm, h4⟩

/-! ## Keys without collisions -/

/-- All keys of the table belong to `K` and lie in their home slots. -/
def AtHome (hash : Word → Word) (L : Nat) (K : Word → Prop) (m : Mem) : Prop :=
  ∀ i, i < L → clean (m.word (.key 0 i)) ≠ KINITIAL →
    K (clean (m.word (.key 0 i))) ∧ i = probeSlot hash (clean (m.word (.key 0 i))) L 0

/-- Different keys of `K` have different home slots. -/
def HomesApart (hash : Word → Word) (L : Nat) (K : Word → Prop) : Prop :=
  ∀ k k', K k → K k' → (hash k).toNat % L = (hash k').toNat % L → k = k'

theorem unused (F : List Sched) : ∃ b, ∀ T, b ≤ T → .run T ∉ F := by
  induction F with
  | nil => exact ⟨0, fun _ _ => List.not_mem_nil⟩
  | cons x F ih =>
    obtain ⟨b, hb⟩ := ih
    cases x with
    | evict t i => exact ⟨b, fun T h c => by simp only [List.mem_cons, reduceCtorEq, false_or] at c; exact hb T h c⟩
    | run t =>
      refine ⟨max b (t + 1), fun T h c => ?_⟩
      simp only [List.mem_cons, Sched.run.injEq] at c
      rcases c with rfl | c
      · omega
      · exact hb T (by omega) c

open Classical in
theorem home_exec (hF : Shared hash n s F L) {K : Word → Prop} (hK : HomesApart hash L K)
    (h0 : ∀ t, s.thr t = .idle (calls t)) (hv : ∀ t, ∀ op ∈ calls t, op.Valid)
    (ho : ∀ t, ∀ op ∈ calls t, ∀ k, op.changes = some k → own k = t ∧ K k) (hm : AtHome hash L K s.mem)
    {xs : List Sched} (hp : xs <+: F) : AtHome hash L K (s.exec hash n xs).mem := by
  obtain ⟨T, hT⟩ := unused F
  have hthr : ∀ t, OwnThr hash n s F L (fun k => if K k then own k else T) t [] (s.thr t) := by
    intro t
    rw [h0]
    intro op hop
    refine ⟨hv t op hop, fun k hk => ?_⟩
    obtain ⟨g1, g2⟩ := ho t op hop k hk
    simp only [if_pos g2]
    exact g1
  induction xs using List.reverseRecOn with
  | nil => exact hm
  | append_singleton xs x ih =>
    have hxs : xs <+: F := (List.prefix_append ..).trans hp
    have ih := ih hxs
    intro i hi hk
    by_cases hne : clean ((s.exec hash n (xs ++ [x])).mem.word (.key 0 i)) = clean ((s.exec hash n xs).mem.word (.key 0 i))
    · rw [hne] at hk ⊢
      exact ih i hi hk
    · obtain ⟨t, rfl, hg, -⟩ := own_change hF hthr hp rfl hne
      rcases hg rfl with hg | ⟨-, g1, -, -, d, g2, g3, g4⟩
      · exact absurd (by rw [hg, clean_clean]) hne
      · have hkK : K (clean ((s.exec hash n (xs ++ [.run t])).mem.word (.key 0 i))) := by
          by_contra hno
          simp only [if_neg hno] at g1
          exact hT t (by omega) (hp.subset (by simp))
        refine ⟨hkK, ?_⟩
        cases d with
        | zero => exact g3
        | succ d =>
          obtain ⟨f1, f2⟩ := g4 0 (Nat.succ_pos _)
          obtain ⟨f3, f4⟩ := ih _ (hF.slot_lt _ 0) f1
          refine absurd (hK _ _ f3 hkK ?_) f2
          simp only [probeSlot_mod hF.pow, Nat.add_zero] at f4 ⊢
          exact f4.symm

/-- The file at the moment of the crash is in order when no two keys collide. -/
theorem Opened.file_home (h : Opened hash L m) (hv : ∀ t, ∀ op ∈ calls t, op.Valid)
    (h1 : (((Sys.start m calls).exec hash n F).mem.tab 0).newT = none)
    (hF : Shared hash n (Sys.start m calls) F L) (ho : ∀ t, ∀ op ∈ calls t, ∀ k, op.changes = some k → own k = t)
    {K : Word → Prop} (hm : AtHome hash L K ((Sys.start m calls).exec hash n F).mem) :
    FileOK hash (fileOf ((Sys.start m calls).exec hash n F).mem.nv 0 L) := by
  have hFF := List.prefix_refl F
  have hP := (h.ok (n := n) hv F []).1.inv
  have hhas : ∀ i, i < L → Has ((Sys.start m calls).exec hash n F).mem 0 i := fun i hi =>
    ⟨hF.next F hFF, by rw [hF.len F hFF]; exact hi⟩
  have hnvK := fun i hi => own_nvK hF (h.begun (n := n)) hFF (i := i) hi
  have hpath := own_path hF (own := own) (fun t op ho' => ⟨hv t op ho', ho t op ho'⟩) (h.begun (n := n)) hFF
  have hpos : 0 < L := by obtain ⟨p, -, e⟩ := hF.pow; rw [e]; positivity
  refine ⟨hF.pow, fun i hi => (hP.durable 0 i (hhas i hi)).1, fun i hi e => ?_, fun i hi => ?_, fun i hi hK => ?_⟩
  · have e : clean (((Sys.start m calls).exec hash n F).mem.nv (.key 0 i)) = KTOMBSTONE := e
    rcases hnvK i hi with g | g
    · rw [g] at e; revert e; decide
    · rw [g] at e
      exact (hpath i hi (by rw [e]; decide)).1 e
  · cases e : isMig (((Sys.start m calls).exec hash n F).mem.nv (.val 0 i)) with
    | false => exact e
    | true => exact absurd h1 (hP.dmig 0 i (hhas i hi) e)
  · have hK : clean (((Sys.start m calls).exec hash n F).mem.nv (.key 0 i)) ≠ KINITIAL := hK
    have g := (hnvK i hi).resolve_left hK
    have h2 := (hm i hi (by rw [← g]; exact hK)).2
    rw [← g, probeSlot_mod hF.pow] at h2
    refine ⟨0, ?_, h2, fun e he => absurd he (Nat.not_lt_zero _)⟩
    show 0 < reprobeLimit L
    unfold reprobeLimit REPROBE_LIMIT
    omega

/-- Opening the file again: the keys that are in it are at home. -/
theorem home_open {f : File} {cap : Nat} {K : Word → Prop} {m' : Mem}
    (hf : ∀ i, i < f.len → clean (f.pair i).1 ≠ KINITIAL →
      K (clean (f.pair i).1) ∧ i = probeSlot hash (clean (f.pair i).1) f.len 0)
    (h : openFile f cap = .done () m') : AtHome hash f.len K m' := by
  obtain ⟨m1, h', hs⟩ := openFile_spec f cap
  rw [h] at h'
  cases h'
  have hck : ∀ i, clean (m'.word (.key 0 i)) = clean (f.pair i).1 := hs.ck
  intro i hi hk
  rw [hck] at hk ⊢
  exact hf i hi hk

theorem Opened.reopen_home (h : Opened hash L m) (hv : ∀ t, ∀ op ∈ calls t, op.Valid)
    (h1 : (((Sys.start m calls).exec hash n F).mem.tab 0).newT = none)
    (hF : Shared hash n (Sys.start m calls) F L) (ho : ∀ t, ∀ op ∈ calls t, ∀ k, op.changes = some k → own k = t)
    {K : Word → Prop} (hm : AtHome hash L K ((Sys.start m calls).exec hash n F).mem) {f : File}
    (hf : (fileOf ((Sys.start m calls).exec hash n F).mem.nv 0 L).Left f) {m' : Mem}
    (hr : openFile f ((Sys.start m calls).exec hash n F).mem.cap = .done () m') : Opened hash L m' ∧ AtHome hash L K m' := by
  have hFF := List.prefix_refl F
  have hP := (h.ok (n := n) hv F []).1.inv
  have hL : f.len = L := hf.len
  have h2 := opened_open (hf.ok (h.file_home hv h1 hF ho hm)) hP.cap (left_pair hf fun i hi =>
    hP.durable 0 i ⟨hF.next F hFF, by rw [hF.len F hFF]; exact hi⟩) hr
  have h3 : AtHome hash f.len K m' := by
    refine home_open (fun i hi hk => ?_) hr
    rw [hL] at hi ⊢
    have e : clean (f.pair i).1 = clean (((Sys.start m calls).exec hash n F).mem.nv (.key 0 i)) := hf.key i
    rw [e] at hk ⊢
    rcases own_nvK hF (h.begun (n := n)) hFF hi with g | g
    · exact absurd g hk
    · rw [g] at hk ⊢
      exact hm i hi hk
  rw [hL] at h2 h3
  exact ⟨h2, h3⟩

end PMap
