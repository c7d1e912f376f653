import Verif.Props.Restarts
import Verif.Props.Path

/-!
# C59 in reopened maps

A file whose keys lie where their probe paths lead (`Opened`), as one thread at a time leaves it (`crashed_opened`), or several threads
whose keys do not collide (`crashes_opened`), keeps this whatever any threads then do.  In general it is false (`c59_orphan`).
-/

namespace PMap

open Prog

theorem path_between_opened {len : Nat} {hash : Word → Word} {m0 : Mem} (ho : Opened hash len m0) (n : Nat) (calls : Nat → List Op)
    (hv : ∀ t, ∀ op ∈ calls t, op.Valid) (xs ys : List Sched) :
    ∃ A, AskedOK A ∧ ∀ zs ws, ys = zs ++ ws → PathOK A hash ((Sys.start m0 calls).exec hash n (xs ++ zs)) ∧
      GoK A hash ((Sys.start m0 calls).exec hash n xs).mem ((Sys.start m0 calls).exec hash n (xs ++ zs)).mem ∧
      GoK A hash ((Sys.start m0 calls).exec hash n (xs ++ zs)).mem ((Sys.start m0 calls).exec hash n (xs ++ ys)).mem := by
  refine ⟨Askable, askable_ok, ?_⟩
  have hok : ∀ zs t op, .inv t op ∈ ((Sys.start m0 calls).exec hash n zs).hist → op.Valid ∧ ∀ k v, op.Asks k v → Askable k v :=
    fun zs t op he => ⟨hv t op (inv_calls hash n _ calls zs he), fun k v ha => ⟨op, hv t op (inv_calls hash n _ calls zs he), ha⟩⟩
  have h0 : PathOK Askable hash (Sys.start m0 calls) := ⟨start_ok ho.inv calls, ho.paths, fun _ => trivial⟩
  obtain ⟨h1, g1⟩ := h0.exec askable_ok n xs (hok xs)
  intro zs ws e
  obtain ⟨h2, g2⟩ := h1.exec askable_ok n zs (by rw [← exec_append]; exact hok (xs ++ zs))
  rw [← exec_append] at h2 g2
  obtain ⟨h3, g3⟩ := h2.exec askable_ok n ws (by rw [← exec_append, List.append_assoc, ← e]; exact hok (xs ++ ys))
  rw [← exec_append, List.append_assoc, ← e] at g3
  exact ⟨h2, g2, g3⟩

theorem path_ok_opened {len : Nat} {hash : Word → Word} {m0 : Mem} (ho : Opened hash len m0) (n : Nat)
    (calls : Nat → List Op)
    (hv : ∀ t, ∀ op ∈ calls t, op.Valid) (xs ys : List Sched) :
    ∃ A, AskedOK A ∧ PathOK A hash ((Sys.start m0 calls).exec hash n xs) ∧
      GoK A hash ((Sys.start m0 calls).exec hash n xs).mem ((Sys.start m0 calls).exec hash n (xs ++ ys)).mem := by
  obtain ⟨A, hA, h⟩ := path_between_opened ho n calls hv xs ys
  have h1 := h [] ys rfl
  rw [List.append_nil] at h1
  exact ⟨A, hA, h1.1, h1.2.2⟩

/-- **C59 in a reopened map, first part.** As `c59_path_without_gaps`, for a map opened from a file in order.
Partial: after crashed sessions of several threads the file need not be in order (`c59_orphan`). -/
theorem c59_path_without_gaps_reopened_partial {len : Nat} {hash : Word → Word} {m0 : Mem} (ho : Opened hash len m0) (n : Nat)
    (calls : Nat → List Op)
    (hv : ∀ t, ∀ op ∈ calls t, op.Valid) (xs ys : List Sched) :
    let m := ((Sys.start m0 calls).exec hash n xs).mem
    let m' := ((Sys.start m0 calls).exec hash n (xs ++ ys)).mem
    ∀ t i, t < m.next → i < (m.tab t).len → clean (m.word (.key t i)) ≠ KINITIAL → clean (m.word (.key t i)) ≠ KTOMBSTONE →
      ∃ d, d < REPROBE_LIMIT + (m.tab t).len / 4 ∧ i = ((hash (clean (m.word (.key t i)))).toNat + d) % (m.tab t).len ∧
        ∀ e, e ≤ d → clean (m.word (.key t (((hash (clean (m.word (.key t i)))).toNat + e) % (m.tab t).len))) ≠ KINITIAL ∧
          clean (m'.word (.key t (((hash (clean (m.word (.key t i)))).toNat + e) % (m.tab t).len))) =
            clean (m.word (.key t (((hash (clean (m.word (.key t i)))).toNat + e) % (m.tab t).len))) := by
  intro m m' t i ht hi h1 h2
  obtain ⟨A, _, h, g⟩ := path_ok_opened ho n calls hv xs ys
  obtain ⟨d, hd, hp, he⟩ := h.inv.path t i ⟨ht, hi⟩ h1 h2
  obtain ⟨p, hp32, hlen⟩ := h.ok.inv.pow t ht
  have hat := fun e => probeAt_mod hash (pk m t i) e ⟨p, hlen⟩
  refine ⟨d, hd, (hp.symm.trans (hat d)), fun e hle => ?_⟩
  have hne : pk m t (probeAt hash (pk m t i) (m.tab t).len e) ≠ KINITIAL := by
    rcases Nat.lt_or_eq_of_le hle with h | rfl
    · exact he e h
    · rw [hp]; exact h1
  have hlt : probeAt hash (pk m t i) (m.tab t).len e < (m.tab t).len := probeAt_lt h.ok.inv ht _ e
  have hkey := g.go.evo.key t _ ⟨ht, hlt⟩ hne
  rw [hat] at hne hkey
  exact ⟨hne, hkey⟩

/-- **C59 in a reopened map, second part.** As `c59_found_partial`, for a map opened from a file in order. -/
theorem c59_found_reopened_partial {len : Nat} {hash : Word → Word} {m0 : Mem} (ho : Opened hash len m0) (n : Nat)
    (calls : Nat → List Op)
    (hv : ∀ t, ∀ op ∈ calls t, op.Valid) (xs ys : List Sched) (t : Nat) (k : Word) (hvk : ValidKey k) (todo : List Op) (r : Res)
    (R i : Nat) (hroot : ((Sys.start m0 calls).exec hash n xs).mem.root = R)
    (hi : i < (((Sys.start m0 calls).exec hash n xs).mem.tab R).len)
    (hk : clean (((Sys.start m0 calls).exec hash n xs).mem.word (.key R i)) = k)
    (hT : ∀ d, let key := fun e => clean (((Sys.start m0 calls).exec hash n xs).mem.word
        (.key R (((hash k).toNat + e) % (((Sys.start m0 calls).exec hash n xs).mem.tab R).len)))
      (∀ e, e ≤ d → key e ≠ k) → key d ≠ KTOMBSTONE)
    (h0 : ((Sys.start m0 calls).exec hash n xs).thr t = .idle (.get k :: todo))
    (h1 : ((Sys.start m0 calls).exec hash n (xs ++ ys)).thr t = .busy (.get k) (.ret r) todo)
    (hnew : (((Sys.start m0 calls).exec hash n (xs ++ ys)).mem.tab R).newT = none) :
    ∃ j zs ws, ys = zs ++ ws ∧ j < (((Sys.start m0 calls).exec hash n (xs ++ zs)).mem.tab R).len ∧
      clean (((Sys.start m0 calls).exec hash n (xs ++ zs)).mem.word (.key R j)) = k ∧
      r = .word (if clean (((Sys.start m0 calls).exec hash n (xs ++ zs)).mem.word (.val R j)) = VTOMBSTONE then VINITIAL
        else clean (((Sys.start m0 calls).exec hash n (xs ++ zs)).mem.word (.val R j))) := by
  have hu := userKey_of_valid hvk
  obtain ⟨A, _, hb⟩ := path_between_opened ho n calls hv xs ys
  generalize hS : Sys.start m0 calls = S at *
  have hstart := hb [] ys rfl
  rw [List.append_nil] at hstart
  obtain ⟨hok, -, hend⟩ := hstart
  have hR : R < (S.exec hash n xs).mem.next := by rw [← hroot]; exact hok.ok.inv.root
  obtain ⟨d1, hd1, hp1, he1⟩ := hok.inv.path R i ⟨hR, hi⟩ (by rw [pk, hk]; exact hu.ne_init) (by rw [pk, hk]; exact hu.ne_tomb)
  have hk' : pk (S.exec hash n xs).mem R i = k := hk
  rw [hk'] at hp1 he1
  generalize hl : ((S.exec hash n xs).mem.tab R).len = l at *
  obtain ⟨p, hp32, hlp⟩ := hok.ok.inv.pow R hR
  rw [hl] at hlp
  obtain ⟨d, hdd, hdk, hdo⟩ := first_on_path (f := fun e => pk (S.exec hash n xs).mem R (probeAt hash k l e)) (k := k) (d := d1)
    (by rw [hp1]; exact hk')
  have hlt : ∀ e, probeAt hash k l e < l := by
    intro e
    have := probeAt_lt (hash := hash) hok.ok.inv hR k e
    rwa [hl] at this
  have hne : ∀ e, e ≤ d → pk (S.exec hash n xs).mem R (probeAt hash k l e) ≠ KINITIAL := by
    intro e he
    rcases Nat.lt_or_eq_of_le he with h | rfl
    · exact he1 e (by omega)
    · rw [hdk]; exact hu.ne_init
  let Z : Mem → Prop := fun m => ∃ zs ws, ys = zs ++ ws ∧ m = (S.exec hash n (xs ++ zs)).mem
  have hkeep : ∀ m, Z m → ∀ e, e ≤ d → pk m R (probeAt hash k l e) = pk (S.exec hash n xs).mem R (probeAt hash k l e) := by
    rintro m ⟨zs, ws, e, rfl⟩ e' he'
    exact (hb zs ws e).2.1.go.evo.key R _ ⟨hR, by rw [hl]; exact hlt e'⟩ (hne e' he')
  have hlen : ∀ m, Z m → (m.tab R).len = l := by
    rintro m ⟨zs, ws, e, rfl⟩
    rw [(hb zs ws e).2.1.go.evo.len R hR, hl]
  have hnone : ∀ m, Z m → (m.tab R).newT = none := by
    rintro m ⟨zs, ws, e, rfl⟩
    cases hn : ((S.exec hash n (xs ++ zs)).mem.tab R).newT with
    | none => rfl
    | some x =>
      have := (hb zs ws e).2.2.go.evo.newT R x ((hb zs ws e).2.1.go.lt hR) hn
      rw [hnew] at this; cases this
  have hpath : Path A hash Z R l d k := by
    refine ⟨?_, ?_, hnone, hlen, ?_, ?_, ?_, ⟨p, hp32, hlp⟩, hu.ne_init⟩
    · rintro m ⟨zs, ws, e, rfl⟩; exact (hb zs ws e).1.ok.inv
    · rintro m ⟨zs, ws, e, rfl⟩
      have h := (hb zs ws e).2.1.go.evo.root
      rw [hroot] at h
      have h' := hnone _ ⟨zs, ws, e, rfl⟩
      rcases Relation.ReflTransGen.cases_head h with h | ⟨c, hc, _⟩
      · exact h.symm
      · rw [h'] at hc; cases hc
    · intro m hz; rw [hkeep m hz d (Nat.le_refl _)]; exact hdk
    · intro m hz e he
      rw [hkeep m hz e (Nat.le_of_lt he)]
      refine ⟨hne e (Nat.le_of_lt he), hdo e he, ?_⟩
      have := hT e (fun e' he' => by
        beta_reduce
        rw [← probeAt_mod hash k e' ⟨p, hlp⟩]
        exact hdo e' (by omega))
      beta_reduce at this
      rw [← probeAt_mod hash k e ⟨p, hlp⟩] at this
      exact this
    · exact Nat.lt_of_le_of_lt hdd hd1
  have hq : zwp Z (fun r => ∃ v, r = .word v ∧ Sees Z R (probeAt hash k l d) v) ((Op.get k).prog hash n) :=
    z_bind (z_get hpath n) fun v hv => z_pure ⟨v, rfl, hv⟩
  have hcall := atCall_exec (todo := todo) (t := t) hq ys (S.exec hash n xs) (by rw [h0]; exact .inl rfl) fun zs ws e =>
    ⟨zs, ws, e, by rw [exec_append]⟩
  rw [← exec_append, h1] at hcall
  rcases hcall with ⟨-, -, v, rfl, m, ⟨zs, ws, e, rfl⟩, hv⟩ | h
  · exact ⟨probeAt hash k l d, zs, ws, e, by rw [hlen _ ⟨zs, ws, e, rfl⟩]; exact hlt d,
      hpath.here _ ⟨zs, ws, e, rfl⟩, by rw [hv]; rfl⟩
  · exact absurd h (Nat.lt_irrefl _)

/-- **C59 in a reopened map, before its first growth.** As `c59_found_before_growth`, for a map opened from a file in order: as long
as the session has only one table, a get of a key that lies in it returns what a slot with that key held at some moment during the
call.  Partial: files that are not in order (`c59_orphan`). -/
theorem c59_found_before_growth_reopened_partial {len : Nat} {hash : Word → Word} {m0 : Mem} (ho : Opened hash len m0) (n : Nat)
    (calls : Nat → List Op)
    (hv : ∀ t, ∀ op ∈ calls t, op.Valid) (xs ys : List Sched) (t : Nat) (k : Word) (hvk : ValidKey k) (todo : List Op) (r : Res)
    (i : Nat) (hi : i < (((Sys.start m0 calls).exec hash n xs).mem.tab 0).len)
    (hk : clean (((Sys.start m0 calls).exec hash n xs).mem.word (.key 0 i)) = k)
    (h0 : ((Sys.start m0 calls).exec hash n xs).thr t = .idle (.get k :: todo))
    (h1 : ((Sys.start m0 calls).exec hash n (xs ++ ys)).thr t = .busy (.get k) (.ret r) todo)
    (hnew : ((Sys.start m0 calls).exec hash n (xs ++ ys)).mem.next ≤ 1) :
    ∃ j zs ws, ys = zs ++ ws ∧ j < (((Sys.start m0 calls).exec hash n (xs ++ zs)).mem.tab 0).len ∧
      clean (((Sys.start m0 calls).exec hash n (xs ++ zs)).mem.word (.key 0 j)) = k ∧
      r = .word (if clean (((Sys.start m0 calls).exec hash n (xs ++ zs)).mem.word (.val 0 j)) = VTOMBSTONE then VINITIAL
        else clean (((Sys.start m0 calls).exec hash n (xs ++ zs)).mem.word (.val 0 j))) := by
  obtain ⟨A, _, hb⟩ := path_between_opened ho n calls hv xs ys
  have hstart := hb [] ys rfl
  rw [List.append_nil] at hstart
  obtain ⟨hok, -, hend⟩ := hstart
  have hfin := (hb ys [] (by simp)).1.ok.inv
  have hnx := hend.go.evo.next
  have hroot := hok.ok.inv.root
  have h0n : 0 < ((Sys.start m0 calls).exec hash n xs).mem.next := by omega
  refine c59_found_reopened_partial ho n calls hv xs ys t k hvk todo r 0 i (by omega) hi hk ?_ h0 h1 ?_
  · intro d _ _ hd
    have := hok.inv.tomb 0 _ ⟨h0n, Nat.mod_lt _ (by omega)⟩ hd
    omega
  · by_contra hne
    obtain ⟨x, hx⟩ := Option.ne_none_iff_exists'.mp hne
    have := hfin.newT 0 x (by omega) hx
    omega

/-- **C59 is false of reopened maps in general**: after a session of two threads which had returned from all their calls when the
machine stopped, the reopened table has key 72 with its value in slot 2, and get of 72 finds nothing. -/
theorem c59_orphan : Restarted (fun x => x >>> 3) 8 64 orphanSys.hist orphanMem ∧ orphanMem.root = 0 ∧
    clean (orphanMem.word (.key 0 2)) = 72#64 ∧ clean (orphanMem.word (.val 0 2)) = 16#64 ∧
    .res 0 (.put 72#64 16#64) (.word VINITIAL) ∈ orphanSys.hist ∧
    (run (mapGet (fun x => x >>> 3) 30 72#64) orphanMem).val? = some VINITIAL :=
  ⟨orphan_restarted, by decide +kernel, by decide +kernel, by decide +kernel, by decide +kernel, by decide +kernel⟩

/-! ## A case that meets the hypotheses -/

/-- In the map reopened after `loseSys` (keys 8 and 16 in slots 1 and 2) thread 0 reads key 8 while thread 1 changes it. -/
def refindCalls : Nat → List Op := callsOf [.get 8#64] [.put 8#64 48#64, .put 80#64 56#64] [] []
def refindA : List Sched := steps 1 5
def refindB : List Sched := steps 0 3 ++ steps 1 20 ++ steps 0 7

theorem refind_valid : ∀ t, ∀ op ∈ refindCalls t, op.Valid := fun t op h => by
  rcases mem_callsOf h with ⟨-, g⟩ | ⟨-, g⟩ | ⟨-, g⟩ | ⟨-, g⟩ <;> clear h <;> revert op <;> decide

/-- What is checked of it. -/
def refindCheck : Bool :=
  (match ((Sys.start lostMem refindCalls).exec (fun x => x >>> 3) 30 refindA).thr 0 with | .idle l => l == [.get 8#64] | _ => false) &&
  (match ((Sys.start lostMem refindCalls).exec (fun x => x >>> 3) 30 (refindA ++ refindB)).thr 0 with
    | .busy op (.ret r) l => decide (op = .get 8#64 ∧ r = .word 48#64 ∧ l = [])
    | _ => false)

theorem refind_check : refindCheck = true := by decide +kernel

example : ∃ r : Res, r = .word 48#64 ∧ ∃ j zs ws, refindB = zs ++ ws ∧
      j < (((Sys.start lostMem refindCalls).exec (fun x => x >>> 3) 30 (refindA ++ zs)).mem.tab 0).len ∧
      clean (((Sys.start lostMem refindCalls).exec (fun x => x >>> 3) 30 (refindA ++ zs)).mem.word (.key 0 j)) = 8#64 ∧
      r = .word (if clean (((Sys.start lostMem refindCalls).exec (fun x => x >>> 3) 30 (refindA ++ zs)).mem.word (.val 0 j)) = VTOMBSTONE
        then VINITIAL else clean (((Sys.start lostMem refindCalls).exec (fun x => x >>> 3) 30 (refindA ++ zs)).mem.word (.val 0 j))) := by
  have h := refind_check
  rw [refindCheck, Bool.and_eq_true] at h
  obtain ⟨g1, g2⟩ := h
  cases e1 : ((Sys.start lostMem refindCalls).exec (fun x => x >>> 3) 30 refindA).thr 0 with
  | busy op p l => rw [e1] at g1; cases g1
  | idle l =>
    rw [e1] at g1
    have hl : l = [.get 8#64] := by simpa using g1
    subst hl
    cases e2 : ((Sys.start lostMem refindCalls).exec (fun x => x >>> 3) 30 (refindA ++ refindB)).thr 0 with
    | idle l => rw [e2] at g2; cases g2
    | busy op p l =>
      rw [e2] at g2
      cases p with
      | act a f => cases g2
      | halt y => cases g2
      | ret r =>
        simp only [decide_eq_true_eq] at g2
        obtain ⟨rfl, rfl, rfl⟩ := g2
        exact ⟨_, rfl, c59_found_before_growth_reopened_partial (crashed_opened sized8 lost_crashed) 30 refindCalls refind_valid refindA
          refindB 0 8#64 ⟨by decide, by decide⟩ [] _ 1 (by decide +kernel) (by decide +kernel) e1 e2 (by decide +kernel)⟩

/-- The other two speak of the same run: key 8 lies in slot 1, on its path. -/
example := c59_path_without_gaps_reopened_partial (crashed_opened sized8 lost_crashed) 30 refindCalls refind_valid refindA refindB

end PMap
