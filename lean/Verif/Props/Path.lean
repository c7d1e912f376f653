import Verif.Par.Find
import Verif.Props.Witness
import Verif.Live.Sys

/-!
# C59: a key that lies in the current table is found
-/

namespace PMap

/-- The probe path in numbers. -/
theorem probeAt_mod (hash : Word → Word) (k : Word) (e : Nat) {len : Nat} (h : ∃ p, len = 2 ^ p) :
    probeAt hash k len e = ((hash k).toNat + e) % len := by
  obtain ⟨p, rfl⟩ := h
  induction e with
  | zero => rw [probeAt, homePut, Nat.and_two_pow_sub_one_eq_mod]; rfl
  | succ e ih =>
    rw [probeAt, ih, Nat.and_two_pow_sub_one_eq_mod, Nat.add_mod, Nat.mod_mod, ← Nat.add_mod, Nat.add_assoc]

/-- **C59, first part.** Whatever the interleaving, and however often the table has grown: a key that lies in some slot of some
table lies on its probe path (home slot `hash mod len`, then one further each time), within the limit at which a get stops
probing, and no slot before it is empty.  It stays so: the same slots hold the same keys after any further steps. -/
theorem c59_path_without_gaps {len cap : Nat} (hs : Sized len cap) (hash : Word → Word) (n : Nat) (calls : Nat → List Op)
    (hv : ∀ t, ∀ op ∈ calls t, op.Valid) (xs ys : List Sched) :
    let m := ((Sys.init len cap calls).exec hash n xs).mem
    let m' := ((Sys.init len cap calls).exec hash n (xs ++ ys)).mem
    ∀ t i, t < m.next → i < (m.tab t).len → clean (m.word (.key t i)) ≠ KINITIAL → clean (m.word (.key t i)) ≠ KTOMBSTONE →
      ∃ d, d < REPROBE_LIMIT + (m.tab t).len / 4 ∧ i = ((hash (clean (m.word (.key t i)))).toNat + d) % (m.tab t).len ∧
        ∀ e, e ≤ d → clean (m.word (.key t (((hash (clean (m.word (.key t i)))).toNat + e) % (m.tab t).len))) ≠ KINITIAL ∧
          clean (m'.word (.key t (((hash (clean (m.word (.key t i)))).toNat + e) % (m.tab t).len))) =
            clean (m.word (.key t (((hash (clean (m.word (.key t i)))).toNat + e) % (m.tab t).len))) := by
  intro m m' t i ht hi h1 h2
  obtain ⟨A, _, h, g⟩ := path_ok hs hash n calls hv xs ys
  obtain ⟨d, hd, hp, he⟩ := h.inv.path t i ⟨ht, hi⟩ h1 h2
  obtain ⟨p, hp32, hlen⟩ := h.ok.inv.pow t ht
  have hat := fun e => probeAt_mod hash (pk m t i) e ⟨p, hlen⟩
  refine ⟨d, hd, (hp.symm.trans (hat d)), fun e hle => ?_⟩
  have hne : pk m t (probeAt hash (pk m t i) (m.tab t).len e) ≠ KINITIAL := by
    rcases Nat.lt_or_eq_of_le hle with h | rfl
    · exact he e h
    · rw [hp]; exact h1
  have hlt : probeAt hash (pk m t i) (m.tab t).len e < (m.tab t).len := probeAt_lt h.ok.inv ht _ e
  have hkey := g.go.evo.key t _ ⟨ht, hlt⟩ hne
  rw [hat] at hne hkey
  exact ⟨hne, hkey⟩

/-- Where `k` lies first on its probe path. -/
theorem first_on_path {f : Nat → Word} {k : Word} {d : Nat} (h : f d = k) : ∃ d', d' ≤ d ∧ f d' = k ∧ ∀ e, e < d' → f e ≠ k := by
  classical
  have hex : ∃ d, f d = k := ⟨d, h⟩
  exact ⟨Nat.find hex, Nat.find_min' hex h, Nat.find_spec hex, fun e he => Nat.find_min hex he⟩

/-- **C59, second part.** Let `k` lie in the current table `R` when a thread is about to call get(k), no tombstone key lying
before it on its probe path, and let the table still have no successor when the call is about to return.  Then the call returns
what a slot with the key `k` held at some moment during the call (absent if that was the removal mark), whatever the other
threads do. -/
theorem c59_found_partial {len cap : Nat} (hs : Sized len cap) (hash : Word → Word) (n : Nat) (calls : Nat → List Op)
    (hv : ∀ t, ∀ op ∈ calls t, op.Valid) (xs ys : List Sched) (t : Nat) (k : Word) (hvk : ValidKey k) (todo : List Op) (r : Res)
    (R i : Nat) (hroot : ((Sys.init len cap calls).exec hash n xs).mem.root = R)
    (hi : i < (((Sys.init len cap calls).exec hash n xs).mem.tab R).len)
    (hk : clean (((Sys.init len cap calls).exec hash n xs).mem.word (.key R i)) = k)
    (hT : ∀ d, let key := fun e => clean (((Sys.init len cap calls).exec hash n xs).mem.word
        (.key R (((hash k).toNat + e) % (((Sys.init len cap calls).exec hash n xs).mem.tab R).len)))
      (∀ e, e ≤ d → key e ≠ k) → key d ≠ KTOMBSTONE)
    (h0 : ((Sys.init len cap calls).exec hash n xs).thr t = .idle (.get k :: todo))
    (h1 : ((Sys.init len cap calls).exec hash n (xs ++ ys)).thr t = .busy (.get k) (.ret r) todo)
    (hnew : (((Sys.init len cap calls).exec hash n (xs ++ ys)).mem.tab R).newT = none) :
    ∃ j zs ws, ys = zs ++ ws ∧ j < (((Sys.init len cap calls).exec hash n (xs ++ zs)).mem.tab R).len ∧
      clean (((Sys.init len cap calls).exec hash n (xs ++ zs)).mem.word (.key R j)) = k ∧
      r = .word (if clean (((Sys.init len cap calls).exec hash n (xs ++ zs)).mem.word (.val R j)) = VTOMBSTONE then VINITIAL
        else clean (((Sys.init len cap calls).exec hash n (xs ++ zs)).mem.word (.val R j))) := by
  have hu := userKey_of_valid hvk
  obtain ⟨A, _, hb⟩ := path_between hs hash n calls hv xs ys
  generalize hS : Sys.init len cap calls = S at *
  have hstart := hb [] ys rfl
  rw [List.append_nil] at hstart
  obtain ⟨hok, -, hend⟩ := hstart
  have hR : R < (S.exec hash n xs).mem.next := by rw [← hroot]; exact hok.ok.inv.root
  obtain ⟨d1, hd1, hp1, he1⟩ := hok.inv.path R i ⟨hR, hi⟩ (by rw [pk, hk]; exact hu.ne_init) (by rw [pk, hk]; exact hu.ne_tomb)
  have hk' : pk (S.exec hash n xs).mem R i = k := hk
  rw [hk'] at hp1 he1
  generalize hl : ((S.exec hash n xs).mem.tab R).len = l at *
  obtain ⟨p, hp32, hlp⟩ := hok.ok.inv.pow R hR
  rw [hl] at hlp
  obtain ⟨d, hdd, hdk, hdo⟩ := first_on_path (f := fun e => pk (S.exec hash n xs).mem R (probeAt hash k l e)) (k := k) (d := d1)
    (by rw [hp1]; exact hk')
  have hlt : ∀ e, probeAt hash k l e < l := by
    intro e
    have := probeAt_lt (hash := hash) hok.ok.inv hR k e
    rwa [hl] at this
  have hne : ∀ e, e ≤ d → pk (S.exec hash n xs).mem R (probeAt hash k l e) ≠ KINITIAL := by
    intro e he
    rcases Nat.lt_or_eq_of_le he with h | rfl
    · exact he1 e (by omega)
    · rw [hdk]; exact hu.ne_init
  let Z : Mem → Prop := fun m => ∃ zs ws, ys = zs ++ ws ∧ m = (S.exec hash n (xs ++ zs)).mem
  have hkeep : ∀ m, Z m → ∀ e, e ≤ d → pk m R (probeAt hash k l e) = pk (S.exec hash n xs).mem R (probeAt hash k l e) := by
    rintro m ⟨zs, ws, e, rfl⟩ e' he'
    exact (hb zs ws e).2.1.go.evo.key R _ ⟨hR, by rw [hl]; exact hlt e'⟩ (hne e' he')
  have hlen : ∀ m, Z m → (m.tab R).len = l := by
    rintro m ⟨zs, ws, e, rfl⟩
    rw [(hb zs ws e).2.1.go.evo.len R hR, hl]
  have hnone : ∀ m, Z m → (m.tab R).newT = none := by
    rintro m ⟨zs, ws, e, rfl⟩
    cases hn : ((S.exec hash n (xs ++ zs)).mem.tab R).newT with
    | none => rfl
    | some x =>
      have := (hb zs ws e).2.2.go.evo.newT R x ((hb zs ws e).2.1.go.lt hR) hn
      rw [hnew] at this; cases this
  have hpath : Path A hash Z R l d k := by
    refine ⟨?_, ?_, hnone, hlen, ?_, ?_, ?_, ⟨p, hp32, hlp⟩, hu.ne_init⟩
    · rintro m ⟨zs, ws, e, rfl⟩; exact (hb zs ws e).1.ok.inv
    · rintro m ⟨zs, ws, e, rfl⟩
      have h := (hb zs ws e).2.1.go.evo.root
      rw [hroot] at h
      have h' := hnone _ ⟨zs, ws, e, rfl⟩
      rcases Relation.ReflTransGen.cases_head h with h | ⟨c, hc, _⟩
      · exact h.symm
      · rw [h'] at hc; cases hc
    · intro m hz; rw [hkeep m hz d (Nat.le_refl _)]; exact hdk
    · intro m hz e he
      rw [hkeep m hz e (Nat.le_of_lt he)]
      refine ⟨hne e (Nat.le_of_lt he), hdo e he, ?_⟩
      have := hT e (fun e' he' => by
        beta_reduce
        rw [← probeAt_mod hash k e' ⟨p, hlp⟩]
        exact hdo e' (by omega))
      beta_reduce at this
      rw [← probeAt_mod hash k e ⟨p, hlp⟩] at this
      exact this
    · exact Nat.lt_of_le_of_lt hdd hd1
  have hq : zwp Z (fun r => ∃ v, r = .word v ∧ Sees Z R (probeAt hash k l d) v) ((Op.get k).prog hash n) :=
    z_bind (z_get hpath n) fun v hv => z_pure ⟨v, rfl, hv⟩
  have hcall := atCall_exec (todo := todo) (t := t) hq ys (S.exec hash n xs) (by rw [h0]; exact .inl rfl) fun zs ws e =>
    ⟨zs, ws, e, by rw [exec_append]⟩
  rw [← exec_append, h1] at hcall
  rcases hcall with ⟨-, -, v, rfl, m, ⟨zs, ws, e, rfl⟩, hv⟩ | h
  · exact ⟨probeAt hash k l d, zs, ws, e, by rw [hlen _ ⟨zs, ws, e, rfl⟩]; exact hlt d,
      hpath.here _ ⟨zs, ws, e, rfl⟩, by rw [hv]; rfl⟩
  · exact absurd h (Nat.lt_irrefl _)

/-- **C59 before the first growth.** There the condition on tombstone keys is always met: as long as the map has only one
table, a get of a key that lies in it returns what a slot with that key held at some moment during the call. -/
theorem c59_found_before_growth {len cap : Nat} (hs : Sized len cap) (hash : Word → Word) (n : Nat) (calls : Nat → List Op)
    (hv : ∀ t, ∀ op ∈ calls t, op.Valid) (xs ys : List Sched) (t : Nat) (k : Word) (hvk : ValidKey k) (todo : List Op) (r : Res)
    (i : Nat) (hi : i < (((Sys.init len cap calls).exec hash n xs).mem.tab 0).len)
    (hk : clean (((Sys.init len cap calls).exec hash n xs).mem.word (.key 0 i)) = k)
    (h0 : ((Sys.init len cap calls).exec hash n xs).thr t = .idle (.get k :: todo))
    (h1 : ((Sys.init len cap calls).exec hash n (xs ++ ys)).thr t = .busy (.get k) (.ret r) todo)
    (hnew : ((Sys.init len cap calls).exec hash n (xs ++ ys)).mem.next ≤ 1) :
    ∃ j zs ws, ys = zs ++ ws ∧ j < (((Sys.init len cap calls).exec hash n (xs ++ zs)).mem.tab 0).len ∧
      clean (((Sys.init len cap calls).exec hash n (xs ++ zs)).mem.word (.key 0 j)) = k ∧
      r = .word (if clean (((Sys.init len cap calls).exec hash n (xs ++ zs)).mem.word (.val 0 j)) = VTOMBSTONE then VINITIAL
        else clean (((Sys.init len cap calls).exec hash n (xs ++ zs)).mem.word (.val 0 j))) := by
  obtain ⟨A, _, hb⟩ := path_between hs hash n calls hv xs ys
  have hstart := hb [] ys rfl
  rw [List.append_nil] at hstart
  obtain ⟨hok, -, hend⟩ := hstart
  have hfin := (hb ys [] (by simp)).1.ok.inv
  have hnx := hend.go.evo.next
  have hroot := hok.ok.inv.root
  have h0n : 0 < ((Sys.init len cap calls).exec hash n xs).mem.next := by omega
  refine c59_found_partial hs hash n calls hv xs ys t k hvk todo r 0 i (by omega) hi hk ?_ h0 h1 ?_
  · intro d _ _ hd
    have := hok.inv.tomb 0 _ ⟨h0n, Nat.mod_lt _ (by omega)⟩ hd
    omega
  · by_contra hne
    obtain ⟨x, hx⟩ := Option.ne_none_iff_exists'.mp hne
    have := hfin.newT 0 x (by omega) hx
    omega

/-! ## The witness -/

/-- Several threads, one after the other, in the fast interpreter (no code of its own). -/
def fsched (hash : Word → Word) (n : Nat) : List (Nat × Nat) → (Nat → Thread) × FM × List Event →
    Option ((Nat → Thread) × FM × List Event)
  | [], x => some x
  | (t, c) :: l, (th, m, es) =>
    match fsteps hash n t c (th t, m, es) with
    | none => none
    | some (th', m', es') => fsched hash n l (upd th t th', m', es')

/-- The schedule that `fsched` follows (no code of its own). -/
def turns : List (Nat × Nat) → List Sched
  | [] => []
  | (t, c) :: l => List.replicate c (.run t) ++ turns l

theorem fsched_sound {hash : Word → Word} {n : Nat} : ∀ (l : List (Nat × Nat)) {s : Sys} {th' : Nat → Thread} {m m' : FM}
    {es' : List Event}, FM.Rel m s.mem → fsched hash n l (s.thr, m, s.hist) = some (th', m', es') →
    FM.Rel m' (s.exec hash n (turns l)).mem ∧ (s.exec hash n (turns l)).thr = th' ∧ (s.exec hash n (turns l)).hist = es' := by
  intro l
  induction l with
  | nil => intro s th' m m' es' hr h; cases h; exact ⟨hr, rfl, rfl⟩
  | cons x l ih =>
    obtain ⟨t, c⟩ := x
    intro s th' m m' es' hr h
    rw [fsched] at h
    cases h1 : fsteps hash n t c (s.thr t, m, s.hist) with
    | none => rw [h1] at h; cases h
    | some y =>
      obtain ⟨a, b, d⟩ := y
      rw [h1] at h
      obtain ⟨ev, e1, e2, e3, e4, -⟩ := fsteps_sound c hr rfl h1
      rw [turns, exec_append]
      exact ih e2 (by rw [e3, e4, ← e1]; exact h)

/-- Calls for the example below. -/
def foundCalls : Nat → List Op := callsOf
  [.put 8 8, .put 136 8, .put 16 8, .put 24 8, .put 32 8, .put 40 8, .put 48 8, .put 56 8, .put 64 8, .put 136 16] [.get 136] [] []

/-- What the fast interpreter says. -/
def foundCheck : Bool :=
  match fsched (fun w => w >>> 3) 40 [(0, 681)] ((fun t => .idle (foundCalls t)), FM.fresh 8 64, []) with
  | none => false
  | some (th, m, es) =>
    (match th 1 with | .idle l => l == [.get 136] | _ => false) &&
    decide (m.root = 1 ∧ m.next = 2 ∧ (m.tab 1).len = 16 ∧ clean (m.word (.key 1 1)) = 8 ∧ clean (m.word (.key 1 2)) = 136) &&
    (match fsched (fun w => w >>> 3) 40 [(1, 3), (0, 18), (1, 10)] (th, m, es) with
      | none => false
      | some (th', m', _) => decide (m'.next = 2 ∧ (m'.tab 1).newT = none) &&
        (match th' 1 with | .busy (.get k) (.ret r) l => decide (k = 136 ∧ r = .word 16 ∧ l = []) | _ => false))

set_option maxRecDepth 100000 in
theorem foundCheck_true : foundCheck = true := by decide +kernel

/-- The hypotheses of `c59_found_partial` are met in the second table: 136 lies behind its home slot, which holds 8; while the
get is under way another thread stores 16, and the get returns that. -/
example : ∃ xs ys, Sized 8 64 ∧ ValidKey 136 ∧
    (let s := (Sys.init 8 64 foundCalls).exec (fun w => w >>> 3) 40 xs;
      s.mem.root = 1 ∧ (s.mem.tab 1).len = 16 ∧ clean (s.mem.word (.key 1 2)) = 136 ∧
      (∀ d, let key := fun e => clean (s.mem.word (.key 1 ((((136 : Word) >>> 3).toNat + e) % (s.mem.tab 1).len)))
        (∀ e, e ≤ d → key e ≠ 136) → key d ≠ KTOMBSTONE) ∧ s.thr 1 = .idle [.get 136]) ∧
    (let s := (Sys.init 8 64 foundCalls).exec (fun w => w >>> 3) 40 (xs ++ ys);
      s.thr 1 = .busy (.get 136) (.ret (.word 16)) [] ∧ (s.mem.tab 1).newT = none) := by
  refine ⟨turns [(0, 681)], turns [(1, 3), (0, 18), (1, 10)], ⟨⟨3, by decide, by decide⟩, by decide⟩, ⟨by decide, by decide⟩, ?_⟩
  have hc := foundCheck_true
  unfold foundCheck at hc
  cases h1 : fsched (fun w => w >>> 3) 40 [(0, 681)] ((fun t => .idle (foundCalls t)), FM.fresh 8 64, []) with
  | none => rw [h1] at hc; cases hc
  | some x =>
    obtain ⟨th, m, es⟩ := x
    rw [h1] at hc
    obtain ⟨hr, ht, hh⟩ := fsched_sound [(0, 681)] (s := Sys.init 8 64 foundCalls) (FM.fresh_rel 8 64) h1
    simp only [Bool.and_eq_true, decide_eq_true_eq] at hc
    obtain ⟨⟨c0, c1, c2, c3, c4, c5⟩, c6⟩ := hc
    cases h2 : fsched (fun w => w >>> 3) 40 [(1, 3), (0, 18), (1, 10)] (th, m, es) with
    | none => rw [h2] at c6; cases c6
    | some y =>
      obtain ⟨th', m', es'⟩ := y
      rw [h2] at c6
      simp only [Bool.and_eq_true, decide_eq_true_eq] at c6
      obtain ⟨⟨c7, c8⟩, c9⟩ := c6
      rw [exec_append]
      generalize hs : (Sys.init 8 64 foundCalls).exec (fun w => w >>> 3) 40 (turns [(0, 681)]) = s at *
      obtain ⟨hr', ht', -⟩ := fsched_sound [(1, 3), (0, 18), (1, 10)] (s := s) hr (by rw [ht, hh]; exact h2)
      have hnx : s.mem.next = 2 := by rw [← hr.next, c2]
      have hlen : (s.mem.tab 1).len = 16 := by rw [← hr.tab 1 (by rw [hnx]; decide)]; exact c3
      have k1 : clean (s.mem.word (.key 1 1)) = 8 := by rw [← hr.word _ (by rw [hnx]; decide)]; exact c4
      have k2 : clean (s.mem.word (.key 1 2)) = 136 := by rw [← hr.word _ (by rw [hnx]; decide)]; exact c5
      refine ⟨⟨by rw [← hr.root, c1], hlen, k2, ?_, ?_⟩, ?_, ?_⟩
      · rw [hlen]
        intro d key hd h
        match d, hd, h with
        | 0, _, h => exact absurd (k1.symm.trans h) (by decide)
        | d + 1, hd, _ => exact hd 1 (by omega) k2
      · rw [ht]
        cases h3 : th 1 with
        | idle l => rw [h3] at c0; simp only [beq_iff_eq] at c0; rw [c0]
        | busy _ _ _ => rw [h3] at c0; cases c0
      · rw [ht']
        split at c9
        · next k r l e => rw [e]; obtain ⟨rfl, rfl, rfl⟩ := of_decide_eq_true c9; rfl
        · cases c9
      · rw [← hr'.tab 1 (by rw [← hr'.next, c7]; decide)]; exact c8

/-- No call under way and none to come (no code of its own). -/
def Thread.over : Thread → Bool
  | .idle [] => true
  | _ => false

/-- The calls of the witness: nothing is removed, and no key is written by two threads. -/
def lostCalls : Nat → List Op := callsOf
  [.put 8 8, .put 16 8, .put 24 8, .put 32 8, .put 40 8, .put 48 8, .put 56 8, .put 64 8, .put 72 8, .put 128 8, .put 256 8]
  [.get 8] [.put 240 8] [.get 240, .put 496 8, .get 240]

/-- Threads and steps up to where put(240, 8) has returned and no call is under way. -/
def lostTurns : List (Nat × Nat) := [(0, 742), (1, 73), (0, 1), (1, 16), (0, 108), (2, 11), (1, 56), (2, 21)]

/-- What the fast interpreter says. -/
def lostCheck : Bool :=
  match fsched (fun w => w >>> 3) 40 lostTurns ((fun t => .idle (lostCalls t)), FM.fresh 16 64, []) with
  | none => false
  | some (th, m, es) =>
    (th 0).over && (th 1).over && (th 2).over &&
    (match th 3 with | .idle l => l == lostCalls 3 | _ => false) &&
    es.contains (.res 2 (.put 240 8) (.word VINITIAL)) &&
    decide (m.root = 1 ∧ m.next = 2 ∧ (m.tab 1).newT = none ∧ (m.tab 1).len = 32 ∧
      clean (m.word (.key 1 30)) = KTOMBSTONE ∧ clean (m.word (.key 1 31)) = 240 ∧ clean (m.word (.val 1 31)) = 8) &&
    (match fsched (fun w => w >>> 3) 40 [(3, 886)] (th, m, es) with
      | none => false
      | some (th', m', es') => (th' 3).over && decide (es' = es ++ [.inv 3 (.get 240), .res 3 (.get 240) (.word VINITIAL),
          .inv 3 (.put 496 8), .res 3 (.put 496 8) (.word VINITIAL), .inv 3 (.get 240), .res 3 (.get 240) (.word 8)]))

set_option maxRecDepth 100000 in
theorem lostCheck_true : lostCheck = true := by decide +kernel

theorem turns_mem {l : List (Nat × Nat)} {t : Nat} (h : Sched.run t ∈ turns l) : t ∈ l.map Prod.fst := by
  induction l with
  | nil => cases h
  | cons x l ih =>
    rw [turns, List.mem_append] at h
    rcases h with h | h
    · have := List.eq_of_mem_replicate h
      cases this
      exact List.mem_cons_self
    · exact List.mem_cons_of_mem _ (ih h)

theorem over_eq {th : Thread} (h : th.over = true) : th = .idle [] := by
  cases th with
  | idle l => cases l <;> [rfl; cases h]
  | busy o p l => cases h

/-- **C59 is false across growths.** Nothing is ever removed and no key is written by two threads.  After `xs` no call is under
way, put(240, 8) has returned, and slot 31 of the current table, which is not being copied, holds 240 and 8; but slot 30, the
home slot of 240, holds a tombstone key, which the copying of an empty slot has put there.  The following get(240) says
that 240 is absent.  After put(496, 8) has made the table grow, get(240) says 8, although nothing has stored it since. -/
theorem c59_returned_put_not_found : ∃ xs ys,
    (∀ t, ∀ op ∈ lostCalls t, op.Valid) ∧ Sized 16 64 ∧
    (let s := (Sys.init 16 64 lostCalls).exec (fun w => w >>> 3) 40 xs;
      (∀ t, s.thr t = .idle (if t = 3 then [.get 240, .put 496 8, .get 240] else [])) ∧
      .res 2 (.put 240 8) (.word VINITIAL) ∈ s.hist ∧ s.mem.root = 1 ∧ (s.mem.tab 1).newT = none ∧ (s.mem.tab 1).len = 32 ∧
      clean (s.mem.word (.key 1 30)) = KTOMBSTONE ∧ clean (s.mem.word (.key 1 31)) = 240 ∧
      clean (s.mem.word (.val 1 31)) = 8 ∧
      (s.exec (fun w => w >>> 3) 40 ys).hist = s.hist ++ [.inv 3 (.get 240), .res 3 (.get 240) (.word VINITIAL),
        .inv 3 (.put 496 8), .res 3 (.put 496 8) (.word VINITIAL), .inv 3 (.get 240), .res 3 (.get 240) (.word 8)]) := by
  refine ⟨turns lostTurns, turns [(3, 886)], ?_, ⟨⟨4, by decide, by decide⟩, by decide⟩, ?_⟩
  · intro t op h
    have hall : ∀ l ∈ [lostCalls 0, lostCalls 1, lostCalls 2, lostCalls 3], ∀ op ∈ l, op.Valid := by
      have mk : ∀ k v, (!isDirty k && !isKeyReserved k && !isDirty v && !isMig v && !isValueReserved v) = true →
          ValidKey k ∧ ValidVal v := by
        intro k v h
        simpa only [Bool.and_eq_true, Bool.not_eq_true', ValidKey, ValidVal, and_assoc] using h
      intro l hl op ho
      simp only [List.mem_cons, List.not_mem_nil, or_false] at hl
      rcases hl with rfl | rfl | rfl | rfl <;> simp [lostCalls, callsOf] at ho
      · rcases ho with rfl | rfl | rfl | rfl | rfl | rfl | rfl | rfl | rfl | rfl | rfl <;> exact mk _ _ (by decide)
      · subst ho; exact (mk 8 8 (by decide)).1
      · subst ho; exact mk _ _ (by decide)
      · rcases ho with rfl | rfl | rfl
        exacts [(mk 240 8 (by decide)).1, mk _ _ (by decide), (mk 240 8 (by decide)).1]
    have hlt : t < 4 := by
      by_contra hge
      simp only [lostCalls, callsOf] at h
      rw [if_neg (by omega), if_neg (by omega), if_neg (by omega), if_neg (by omega)] at h
      cases h
    refine hall (lostCalls t) ?_ op h
    have : t = 0 ∨ t = 1 ∨ t = 2 ∨ t = 3 := by omega
    rcases this with rfl | rfl | rfl | rfl <;> simp
  have hc := lostCheck_true
  unfold lostCheck at hc
  cases h1 : fsched (fun w => w >>> 3) 40 lostTurns ((fun t => .idle (lostCalls t)), FM.fresh 16 64, []) with
  | none => rw [h1] at hc; cases hc
  | some x =>
    obtain ⟨th, m, es⟩ := x
    rw [h1] at hc
    obtain ⟨hr, ht, hh⟩ := fsched_sound lostTurns (s := Sys.init 16 64 lostCalls) (FM.fresh_rel 16 64) h1
    simp only [Bool.and_eq_true, decide_eq_true_eq] at hc
    obtain ⟨⟨⟨⟨⟨⟨c0, c1⟩, c2⟩, c3⟩, c4⟩, c5, c6, c7, c8, c9, c10, c11⟩, c12⟩ := hc
    cases h2 : fsched (fun w => w >>> 3) 40 [(3, 886)] (th, m, es) with
    | none => rw [h2] at c12; cases c12
    | some y =>
      obtain ⟨th', m', es'⟩ := y
      rw [h2] at c12
      simp only [Bool.and_eq_true, decide_eq_true_eq] at c12
      intro s
      have hnx : s.mem.next = 2 := by rw [← hr.next, c6]
      obtain ⟨_, _, hh'⟩ := fsched_sound [(3, 886)] (s := s) hr (by rw [ht, hh]; exact h2)
      have tb := hr.tab 1 (by rw [hnx]; decide)
      refine ⟨fun t => ?_, ?_, ?_, ?_, ?_, ?_, ?_, ?_, ?_⟩
      · by_cases e3 : t = 3
        · subst e3
          rw [if_pos rfl, ht]
          cases h3 : th 3 with
          | idle l => rw [h3] at c3; simp only [beq_iff_eq] at c3; rw [c3]; rfl
          | busy _ _ _ => rw [h3] at c3; cases c3
        · rw [if_neg e3]
          by_cases e : t = 0 ∨ t = 1 ∨ t = 2
          · rw [ht]; rcases e with rfl | rfl | rfl
            · exact over_eq c0
            · exact over_eq c1
            · exact over_eq c2
          · rw [exec_other]
            · simp only [Sys.init, lostCalls, callsOf]
              simp only [not_or] at e
              rw [if_neg e.1, if_neg e.2.1, if_neg e.2.2, if_neg e3]
            · intro h
              have := turns_mem h
              simp [lostTurns] at this
              omega
      · rw [hh]; simpa using c4
      · rw [← hr.root, c5]
      · rw [← tb]; exact c7
      · rw [← tb]; exact c8
      · rw [← hr.word _ (by rw [hnx]; decide)]; exact c9
      · rw [← hr.word _ (by rw [hnx]; decide)]; exact c10
      · rw [← hr.word _ (by rw [hnx]; decide)]; exact c11
      · rw [hh', hh]; exact c12.2

end PMap
