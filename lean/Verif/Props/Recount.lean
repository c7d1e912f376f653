import Verif.Props.Rejoin
import Verif.Props.Own
import Verif.Props.Fixed

/-!
# One writer per key, with increments, in a map opened from a file: C18, C19, C21 and C50
-/

namespace PMap

open Prog

variable {hash : Word → Word} {cap n : Nat} {own : Word → Nat} {m : Mem} {M : AMap} {f : File} {ctr : Word → Prop} {U : Nat}

theorem opened_start (hf : FileOK hash f) (hcap : cap ≤ 2 ^ 32) (hv : ∀ k v, f.Holds k v → ValidVal v)
    (hM : ∀ k v, M k = some v ↔ f.Holds k v) (hm : openFile f cap = .done () m) (hU : 8 * U < LIM)
    (hroom : ∀ k v, ctr k → f.Holds k v → v.toNat + 8 * U < LIM) {A : Nat → Op → Prop}
    (hA : ∀ t op, A t op → op.Mine own t ∧ op.Room ctr U) {calls : Nat → List Op} (hc : ∀ t, ∀ op ∈ calls t, A t op)
    (xs : List Sched) (hn : ((Sys.start m calls).exec hash n xs).hist.countP Event.updBegins ≤ U)
    (h1 : ((Sys.start m calls).exec hash n xs).mem.next ≤ 1) :
    ∃ M' sz P fx, OwnOK (reCfg hash f.len own) M ctr U A ((Sys.start m calls).exec hash n xs) M' sz P fx := by
  have hB := between_open (own := own) hf hcap hv hM hm
  rw [← begTids_upd] at hn
  exact own_restart (C := reCfg hash f.len own) (reCfg_ok hf.pow) (fun _ _ _ _ => hU)
    (fun t op h => ⟨(hA t op h).1.by, (hA t op h).2⟩) hB.inv hB.valid
    (fun k v hk e => by have := hroom k v hk ((hM k v).mp e); omega) (fun _ => rfl) hc xs hn (reCfg_calm h1)

/-- **C18, partial**, with increments, in a map opened from a file in order whose values are ones a user can store: when each key
has one writer and the counters (`ctr`) have room for `U` increments, then until `U` increments have begun or a second table is
allocated every history is linearizable from what the file holds, and no thread meets undefined behaviour or fails an
assertion. -/
theorem c18_opened_with_increments_no_growth_partial (hf : FileOK hash f) (hcap : cap ≤ 2 ^ 32) (hv : ∀ k v, f.Holds k v → ValidVal v)
    (hM : ∀ k v, M k = some v ↔ f.Holds k v) (hm : openFile f cap = .done () m) (hU : 8 * U < LIM)
    (hroom : ∀ k v, ctr k → f.Holds k v → v.toNat + 8 * U < LIM) {calls : Nat → List Op}
    (hc : ∀ t, ∀ op ∈ calls t, op.Mine own t ∧ op.Room ctr U) (xs : List Sched)
    (hn : ((Sys.start m calls).exec hash n xs).hist.countP Event.updBegins ≤ U)
    (h1 : ((Sys.start m calls).exec hash n xs).mem.next ≤ 1) :
    LinRun M (fun _ => .idle) ((Sys.start m calls).exec hash n xs).hist ∧
      ((Sys.start m calls).exec hash n xs).ub = false ∧ ((Sys.start m calls).exec hash n xs).mem.failed = false := by
  obtain ⟨M', sz, P, fx, h⟩ := opened_start (A := fun t op => op.Mine own t ∧ op.Room ctr U) hf hcap hv hM hm hU hroom
    (fun t op h => h) hc xs hn h1
  refine ⟨?_, h.noub, h.inv.ok⟩
  have := h.lin.run [] .nil
  rwa [List.append_nil] at this

/-- **C19, partial**, in a map opened from a file: what `get`, `put`, `putIfAbsent`, `putIfMatch` and `update` return is the
"absent" word or a value a user can store. -/
theorem c19_opened_one_writer_no_growth_partial (hf : FileOK hash f) (hcap : cap ≤ 2 ^ 32) (hv : ∀ k v, f.Holds k v → ValidVal v)
    (hm : openFile f cap = .done () m) (hU : 8 * U < LIM)
    (hroom : ∀ k v, ctr k → f.Holds k v → v.toNat + 8 * U < LIM) {calls : Nat → List Op}
    (hc : ∀ t, ∀ op ∈ calls t, op.Mine own t ∧ op.Room ctr U) (xs : List Sched)
    (hn : ((Sys.start m calls).exec hash n xs).hist.countP Event.updBegins ≤ U)
    (h1 : ((Sys.start m calls).exec hash n xs).mem.next ≤ 1) {t : Nat} {op : Op} {w : Word}
    (ht : op.tells = true) (hw : .res t op (.word w) ∈ ((Sys.start m calls).exec hash n xs).hist) :
    w = VINITIAL ∨ ValidVal w := by
  obtain ⟨M, hM⟩ := file_map hf
  obtain ⟨M', sz, P, fx, h⟩ := opened_start (A := fun t op => op.Mine own t ∧ op.Room ctr U) hf hcap hv hM hm hU hroom
    (fun t op h => h) hc xs hn h1
  rw [← begTids_upd] at hn
  exact (h.lin.words (ctr := ctr) (U := U) (fun k v e => hv k v ((hM k v).mp e))
    (fun k v hk e => by have := hroom k v hk ((hM k v).mp e); omega)
    (fun x hx => ⟨(h.fx x hx).1.valid, (h.fx x hx).2, fun _ => hU⟩) (le_trans (h.lin.eff_le _) hn)).2.2 t op w hw ht

/-- **C21, partial**, in a map opened from a file: a counter goes on from the value in the file.  One thread increments the key `k`,
under which the file holds `v`, a multiple of 8, and everybody may read it.  At any moment before the table grows `get` shows at least
`v` plus 8 (one increment, hashMap.hpp:91) for each increment of `k` that has returned and at most `v` plus 8 for each one that has
begun, and when no call is in progress exactly `v` plus 8 for each one made. -/
theorem c21_opened_counter_no_growth_partial (hf : FileOK hash f) (hcap : cap ≤ 2 ^ 32) (hv : ∀ k v, f.Holds k v → ValidVal v)
    (hm : openFile f cap = .done () m) (hU : 8 * U < LIM)
    (hroom : ∀ k v, ctr k → f.Holds k v → v.toNat + 8 * U < LIM) {k v : Word} (hk : ctr k) (hh : f.Holds k v)
    (h8 : v.toNat % 8 = 0) {calls : Nat → List Op}
    (hc : ∀ t, ∀ op ∈ calls t, (op.Mine own t ∧ op.Room ctr U) ∧ op.writes ≠ some k) (xs : List Sched)
    {s : Sys} (he : s = (Sys.start m calls).exec hash n xs) (hn : s.hist.countP Event.updBegins ≤ U) (h1 : s.mem.next ≤ 1)
    {n' : Nat} {w : Word} {m' : Mem} (hg : run (mapGet hash n' k) s.mem = .done w m') :
    v.toNat + 8 * s.hist.countP (Event.incEnds k) ≤ w.toNat ∧ w.toNat ≤ v.toNat + 8 * s.hist.countP (Event.incBegins k) ∧
      ((∀ t, ∃ todo, s.thr t = .idle todo) → w.toNat = v.toNat + 8 * s.hist.countP (Event.incEnds k)) := by
  subst he
  obtain ⟨M, hM⟩ := file_map hf
  obtain ⟨M', sz, P, fx, h⟩ := opened_start (A := fun t op => (op.Mine own t ∧ op.Room ctr U) ∧ op.writes ≠ some k) hf hcap hv hM hm hU
    hroom (fun t op h => h.1) hc xs hn h1
  have hB := between_open (own := own) hf hcap hv hM hm
  have hv0 := (hM k v).mpr hh
  have hkey : ValidKey k := (Finset.mem_filter.mp (hB.keys k (by rw [hv0]; simp))).2
  have hb := get_own (C := reCfg hash f.len own) (s := ⟨_, M', sz⟩) (reCfg_ok hf.pow) h.inv h.valid
    (fun k hk => h.lin.inside (own := own) hB.keys (fun x hx => (h.fx x hx).1.1.by) hk) hkey hg
  rw [← begTids_upd] at hn
  have hle := h.lin.eff_le Op.isUpdate
  have hinc := effTids_inc_le k fx
  have hr := hroom k v hk hh
  obtain ⟨w', hw', hval⟩ := (h.lin.weak (sp := fun _ _ => False)).counter hv0 h8 (fun x hx => (h.fx x hx).2) (by omega)
  change w = resWord (M' k) at hb
  rw [hw'] at hb
  rw [hb, show (resWord (some w')) = w' from rfl, hval]
  have h1 := h.lin.end_le (Op.isInc k)
  have h2 := h.lin.eff_le (Op.isInc k)
  rw [endTids_inc] at h1
  rw [begTids_inc] at h2
  refine ⟨by omega, by omega, fun hi => ?_⟩
  have h3 := h.lin.all_idle (Op.isInc k) fun t => by
    obtain ⟨todo, ht⟩ := hi t
    have := h.thr t
    rw [ht] at this
    cases hp : P t <;> rw [hp] at this <;> first | rfl | exact this.elim
  rw [endTids_inc, begTids_inc] at h3
  omega

/-- **C50, partial**, in a map opened from a file: as soon as no call is in progress there is an order of all calls made, in which each
thread's calls come in the order the thread made them, such that `size()` is the number of keys present after that order, starting
with what the file holds, `isEmpty()` says whether there are none, and `get` returns what that order leaves under each key. -/
theorem c50_opened_one_writer_no_growth_partial (hf : FileOK hash f) (hcap : cap ≤ 2 ^ 32) (hv : ∀ k v, f.Holds k v → ValidVal v)
    (hM : ∀ k v, M k = some v ↔ f.Holds k v) (hm : openFile f cap = .done () m) (hU : 8 * U < LIM)
    (hroom : ∀ k v, ctr k → f.Holds k v → v.toNat + 8 * U < LIM) {calls : Nat → List Op}
    (hc : ∀ t, ∀ op ∈ calls t, op.Mine own t ∧ op.Room ctr U) (xs : List Sched)
    {s : Sys} (he : s = (Sys.start m calls).exec hash n xs) (hn : s.hist.countP Event.updBegins ≤ U) (h1 : s.mem.next ≤ 1)
    (hi : ∀ t, ∃ todo, s.thr t = .idle todo) :
    ∃ fx : List (Nat × Op), (∀ t, orderOf t fx = returnedOf t s.hist) ∧
      (∃ w, run mapSize s.mem = .done w s.mem ∧ w.toNat = (specRun (fx.map Prod.snd) M).card) ∧
      run mapIsEmpty s.mem = .done (decide ((specRun (fx.map Prod.snd) M).card = 0)) s.mem ∧
      ∀ k n' v m', ValidKey k → run (mapGet hash n' k) s.mem = .done v m' → v = resWord (specRun (fx.map Prod.snd) M k) := by
  subst he
  obtain ⟨M', sz, P, fx, h⟩ := opened_start (A := fun t op => op.Mine own t ∧ op.Room ctr U) hf hcap hv hM hm hU hroom
    (fun t op h => h) hc xs hn h1
  have hB := between_open (own := own) hf hcap hv hM hm
  have hin : ∀ k, M' k ≠ none → k ∈ (reCfg hash f.len own).S := fun k hk =>
    h.lin.inside (own := own) hB.keys (fun x hx => (h.fx x hx).1.by) hk
  have hidle : ∀ t, P t = .idle ∧ Counted (reCfg hash f.len own) t ⟨((Sys.start m calls).exec hash n xs).mem, M', sz⟩ := by
    intro t
    obtain ⟨todo, ht⟩ := hi t
    have := h.thr t
    rw [ht] at this
    cases hp : P t <;> rw [hp] at this <;> first | exact ⟨rfl, this.2⟩ | exact this.elim
  obtain ⟨w, h1, h2, h3⟩ := size_own (C := reCfg hash f.len own) (reCfg_ok hf.pow) h.inv (fun t => (hidle t).2) hin
  refine ⟨fx, fun t => ?_, ?_⟩
  · rw [h.lin.order t, (hidle t).1]
    exact List.append_nil _
  · rw [← h.lin.map_eq]
    exact ⟨⟨w, h1, h2⟩, h3, fun k n' v m' hk hg =>
      get_own (C := reCfg hash f.len own) (s := ⟨_, M', sz⟩) (reCfg_ok hf.pow) h.inv h.valid hin hk hg⟩

/-! ### A case that meets the hypotheses -/

/-- On the map opened from the demonstration file, which holds 88 under key 8: thread 0 increments key 8 twice, thread 1 inserts key 24
and removes key 32, thread 2 reads. -/
def countCalls : Nat → List Op := callsOf [.update 8#64 MATCH_ANY, .update 8#64 MATCH_ANY] [.put 24#64 104#64, .remove 32#64]
  [.get 8#64, .get 8#64] []
def countSys : Sys := (Sys.start fileMem countCalls).exec (fun x => x >>> 3) 30 againPhases

theorem count_calls : ∀ t, ∀ op ∈ countCalls t, (op.Mine (fun k => if k = 8#64 then 0 else 1) t ∧ op.Room (fun k => k = 8#64) 2) ∧
    op.writes ≠ some 8#64 := by
  intro t op h
  rcases mem_callsOf h with ⟨rfl, g⟩ | ⟨rfl, g⟩ | ⟨rfl, g⟩ | ⟨rfl, g⟩ <;>
    simp only [List.mem_cons, List.not_mem_nil, or_false] at g
  · rcases g with rfl | rfl <;>
      exact ⟨⟨⟨by decide, fun k e => (by cases e; rfl), fun k v e => (by cases e; rfl)⟩, (rfl : 8#64 = 8#64)⟩, fun e => by cases e⟩
  · rcases g with rfl | rfl
    · exact ⟨⟨⟨by decide, fun k e => (by cases e; rfl), fun k v e => (by cases e)⟩, fun e => absurd e (by decide)⟩, by decide⟩
    · exact ⟨⟨⟨(by decide : ValidKey _), fun k e => (by cases e; rfl), fun k v e => (by cases e)⟩, trivial⟩, by decide⟩
  · rcases g with rfl | rfl <;>
      exact ⟨⟨⟨(by decide : ValidKey _), fun k e => (by cases e), fun k v e => (by cases e)⟩, trivial⟩, fun e => by cases e⟩

theorem count_room : ∀ k v, k = 8#64 → demoFile.Holds k v → v.toNat + 8 * 2 < LIM := by
  have h : ∀ i, i < 4 → clean (demoFile.pair i).1 = 8#64 → clean (demoFile.pair i).2 = 88#64 := by decide +kernel
  rintro k v rfl ⟨i, hi, e1, rfl, -⟩
  rw [h i hi e1]; decide

example (h : ∀ t, ∃ todo, countSys.thr t = .idle todo) {w : Word} {m' : Mem}
    (hg : run (mapGet (fun x => x >>> 3) 30 8#64) countSys.mem = .done w m') :
    w.toNat = (88#64).toNat + 8 * countSys.hist.countP (Event.incEnds 8#64) :=
  (c21_opened_counter_no_growth_partial (ctr := fun k => k = 8#64) (U := 2) demoFile_ok (by decide : 64 ≤ 2 ^ 32) fileDemo_values fileDemo_open
    (by decide) count_room rfl (⟨1, by decide, by decide, by decide, by decide, by decide⟩ : demoFile.Holds 8#64 88#64) (by decide)
    count_calls againPhases (s := countSys) rfl (by decide +kernel) (by decide +kernel) hg).2.2 h

example : ∀ t, ∃ todo, countSys.thr t = .idle todo := fileDemo_idle (calls := countCalls) rfl (by decide +kernel)

example : countSys.hist.length = 12 ∧ (runOps (fun x => x >>> 3) 30 [.get 8#64, .get 24#64, .get 32#64, .size] countSys.mem).val? =
    some [.word 104#64, .word 104#64, .word VINITIAL, .word 2#64] := by decide +kernel

end PMap
