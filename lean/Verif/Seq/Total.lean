import Verif.Seq.Ops
import Verif.Seq.Scan
import Verif.Seq.Fuel

/-!
# Calls that certainly finish (proof machinery)
-/

namespace PMap

open Prog

variable {hash : Word → Word} {s : A} {M : Word → Option Word} {t : Nat} {k : Word}

/-- Total correctness on views. -/
def TW {α : Type} (p : Prog α) (Q : α → A → Prop) (s : A) : Prop :=
  ∀ m, abs m = s → ∃ a m', run p m = .done a m' ∧ Q a (abs m')

theorem TW_of {α : Type} {p : Prog α} {Q : α → A → Prop} (hn : NoHalt p) (h : W p Q s) : TW p Q s := by
  intro m hm
  obtain ⟨h1, h2⟩ := h m hm
  obtain ⟨a, m', hr⟩ := hn.run h1
  exact ⟨a, m', hr, h2 a m' hr⟩

theorem TW_bind {α β : Type} {p : Prog α} {f : α → Prog β} {Q : β → A → Prop}
    (h : TW p (fun a s' => TW (f a) Q s') s) : TW (p >>= f) Q s := by
  intro m hm
  obtain ⟨a, m', hr, hq⟩ := h m hm
  obtain ⟨b, m2, hr2, hq2⟩ := hq m' rfl
  refine ⟨b, m2, ?_, hq2⟩
  show run (p.bind f) m = _
  rw [run_bind, hr]; exact hr2

theorem TW_pure {α : Type} {a : α} {Q : α → A → Prop} (h : Q a s) : TW (pure a) Q s := by
  intro m hm; subst hm; exact ⟨a, m, rfl, h⟩

theorem TW_mono {α : Type} {p : Prog α} {Q Q' : α → A → Prop} (h : TW p Q s) (hq : ∀ a s', Q a s' → Q' a s') : TW p Q' s :=
  fun m hm => (h m hm).imp fun a h => h.imp fun _ h => ⟨h.1, hq a _ h.2⟩

/-- Every way through the program ends with a result satisfying `P`. -/
inductive Leaves {α : Type} (P : α → Prop) : Prog α → Prop
  | ret (a : α) : P a → Leaves P (.ret a)
  | act (a : Act) (k : a.Resp → Prog α) : (∀ r, Leaves P (k r)) → Leaves P (.act a k)

theorem Leaves.bind {α β : Type} {P : β → Prop} {p : Prog α} {f : α → Prog β} (h : NoHalt p) (hf : ∀ a, Leaves P (f a)) :
    Leaves P (p >>= f) := by
  show Leaves P (p.bind f)
  induction h with
  | ret a => exact hf a
  | act a k _ ih => exact .act a _ ih

theorem Leaves.then {α β : Type} {P : α → Prop} {p : Prog α} {f : α → Prog β} (h : Leaves P p) (hf : ∀ a, P a → NoHalt (f a)) :
    NoHalt (p.bind f) := by
  induction h with
  | ret a h => exact hf a h
  | act a k _ ih => exact .act a _ ih

/-- Going round again makes the measure smaller than `b`. -/
def Shrinks {σ α : Type} (μ : σ → Nat) (b : Nat) : Ctl σ α → Prop
  | .next x' => μ x' < b
  | .done _ => True

/-- A loop whose state carries a decreasing measure ends. -/
theorem noHalt_loop {σ α : Type} {body : σ → Prog (Ctl σ α)} (μ : σ → Nat)
    (hb : ∀ x, Leaves (Shrinks μ (μ x)) (body x)) (n : Nat) :
    ∀ x, μ x < n → NoHalt (loop n body x) := by
  induction n with
  | zero => intro x h; omega
  | succ n ih =>
    intro x h
    refine (hb x).then ?_
    rintro (x' | a) h'
    · have h' : μ x' < μ x := h'
      exact ih x' (by omega)
    · exact .ret a

theorem noHalt_casKey (t i : Nat) (o n : Word) : NoHalt (casKey t i o n) := (noHalt_pcas _ _ _).bind fun _ => .ret _
theorem noHalt_casValue (t i : Nat) (o n : Word) : NoHalt (casValue t i o n) := (noHalt_pcas _ _ _).bind fun _ => .ret _

theorem leaves_probeMatch (key : Word) (len i d : Nat) (K V : Word) :
    Leaves (Shrinks (fun x : Nat × Nat => reprobeLimit len - x.2) (reprobeLimit len - d))
      (probeMatch key len i d K V) := by
  unfold probeMatch
  split
  · exact .ret _ trivial
  · split
    · exact .ret _ trivial
    · next h =>
      refine .ret _ ?_
      show reprobeLimit len - (d + 1) < reprobeLimit len - d
      omega

theorem noHalt_probe (t : Nat) (key nv : Word) (len i n : Nat) (hn : reprobeLimit len < n) :
    NoHalt (loop n (probeBody t key nv len) (i, 0)) := by
  refine noHalt_loop (fun x => reprobeLimit len - x.2) ?_ n _ (by simpa using hn)
  rintro ⟨i, d⟩
  refine Leaves.bind (noHalt_pcasRead _) fun K => Leaves.bind (noHalt_pcasRead _) fun V => ?_
  split
  · split
    · exact .ret _ trivial
    · refine Leaves.bind (noHalt_casKey _ _ _ _) fun ak => ?_
      split
      · exact Leaves.bind (noHalt_do1 _) fun _ => .ret _ trivial
      · exact leaves_probeMatch _ _ _ _ _ _
  · exact leaves_probeMatch _ _ _ _ _ _

theorem noHalt_gprobe (t : Nat) (key : Word) (len i n : Nat) (hn : reprobeLimit len < n) :
    NoHalt (loop n (getProbeBody t key len) (i, 0)) := by
  refine noHalt_loop (fun x => reprobeLimit len - x.2) ?_ n _ (by simpa using hn)
  rintro ⟨i, d⟩
  refine Leaves.bind (noHalt_pcasRead _) fun K => Leaves.bind (noHalt_pcasRead _) fun V => ?_
  split
  · exact .ret _ trivial
  · refine Leaves.bind (noHalt_do1 _) fun nt => ?_
    split
    · split <;> exact .ret _ trivial
    · split
      · split <;> exact .ret _ trivial
      · next h =>
        refine .ret _ ?_
        show reprobeLimit len - (d + 1) < reprobeLimit len - d
        simp only at h
        omega

theorem noHalt_wantNewTable (t d len : Nat) (V : Word) : NoHalt (wantNewTable t d len V) := by
  unfold wantNewTable tableFull
  split
  · refine NoHalt.bind ?_ fun _ => .ret _
    split
    · exact (noHalt_do1 _).bind fun _ => .ret _
    · exact .ret _
  · exact .ret _

theorem noHalt_adjustSize (t : Nat) (V nv ov : Word) : NoHalt (adjustSize t V nv ov) := by
  unfold adjustSize
  split
  · split
    · exact noHalt_do1 _
    · split
      · exact noHalt_do1 _
      · exact .ret _
  · exact .ret _

theorem noHalt_call (cf : CasFn) (t i : Nat) (o n : Word) : NoHalt (cf.call t i o n) := by
  cases cf <;> exact (noHalt_pcas _ _ _).bind fun _ => .ret _

/-- Nothing happened except, perhaps, that a slot was claimed for `k`. -/
structure Calm (s : A) (k : Word) (s' : A) : Prop where
  next : s'.next = s.next
  root : s'.root = s.root
  reopened : s'.reopened = s.reopened
  len : ∀ t, (s'.tab t).len = (s.tab t).len
  key : ∀ t i, s'.ck t i = s.ck t i ∨ s'.ck t i = k

theorem calm_refl (s : A) (k : Word) : Calm s k s := ⟨rfl, rfl, rfl, fun _ => rfl, fun _ _ => .inl rfl⟩

/-- `get` finishes if no migration is pending. -/
theorem get_total (h : Good hash s M) (hset : s.root + 1 = s.next) (hk : UserKey k) {n : Nat}
    (hn : reprobeLimit (s.tab s.root).len + 1 < n) : TW (mapGet hash n k) (fun _ s' => s' = s) s := by
  obtain ⟨n, rfl⟩ : ∃ j, n = j + 1 := ⟨n - 1, by omega⟩
  have ht := h.inv.root_lt
  refine TW_bind (TW_of (noHalt_do1 _) (W_getRoot ?_))
  refine TW_bind (TW_mono (Q := fun r s' => s' = s ∧ r = curWord M k) ?_ ?_)
  · refine TW_bind (TW_of (noHalt_do1 _) (W_len ht ?_))
    refine TW_bind (TW_mono (TW_of (noHalt_gprobe _ _ _ _ _ (by omega)) (gprobe_spec n h.inv ht hk (h.pass hk))) ?_)
    rintro (v | i | nt) s1 hpost
    · exact TW_pure hpost
    · obtain ⟨-, -, h1, -⟩ := hpost; omega
    · obtain ⟨-, -, h1, -⟩ := hpost; omega
  · rintro r s1 ⟨rfl, rfl⟩
    refine TW_bind (TW_of (noHalt_do1 _) (W_check ?_ (TW_pure rfl)))
    cases hM : M k with
    | none => simp [curWord, hM, isMig_VINITIAL]
    | some v => simp [curWord, hM, (getD_storable h.inv hM).mig]

/-- An update finishes without growing the table, if no migration is pending and the key or an empty slot is among the first
ten slots probed. -/
theorem put_total (h : Good hash s M) (hset : s.root + 1 = s.next) (hk : UserKey k) (cf : CasFn) {nv ov : Word}
    (hnv : Storable nv ∨ nv = VTOMBSTONE ∧ cf = .casValue) (hov : ov ≠ VINITIAL) (hom : isMig ov = false) {d : Nat} (hd : d < 10)
    (hslot : s.ck s.root (slotAt hash s s.root k d) = k ∨ s.ck s.root (slotAt hash s s.root k d) = KINITIAL) {n : Nat}
    (hn : reprobeLimit (s.tab s.root).len + 1 < n) : TW (mapPutIfMatch hash n cf k nv ov) (fun _ s' => Calm s k s') s := by
  obtain ⟨n, rfl⟩ : ∃ j, n = j + 1 := ⟨n - 1, by omega⟩
  have ht := h.inv.root_lt
  have hnp : Plain nv := by
    rcases hnv with h | ⟨h, -⟩
    · exact .inr (.inr h)
    · exact .inr (.inl h)
  have hnm : isMig nv = false := by
    rcases hnv with h | ⟨h, -⟩
    · exact h.mig
    · rw [h]; exact isMig_VTOMBSTONE
  have hnc : clean nv = nv := by
    rcases hnv with h | ⟨h, -⟩
    · exact h.clean
    · rw [h]; exact clean_VTOMBSTONE
  have hni : nv ≠ VINITIAL := by
    rcases hnv with h | ⟨h, -⟩
    · exact h.ne_init
    · rw [h]; exact sent_ne.2.2.2.2.1
  have hlim : 10 ≤ s.lim s.root := by simp only [A.lim, reprobeLimit, REPROBE_LIMIT]; omega
  have hdec : s.ck s.root (slotAt hash s s.root k d) = KINITIAL ∨ s.ck s.root (slotAt hash s s.root k d) = KTOMBSTONE ∨
      s.ck s.root (slotAt hash s s.root k d) = k := by tauto
  -- no probe gets past distance `d`
  have hstop : ∀ e, Upto hash s s.root k e → e ≤ d := by
    intro e he
    by_contra hcon
    obtain ⟨h1, -, h3⟩ := he d (by omega)
    rcases hslot with h | h
    · exact h3 h
    · exact h1 h
  have hlive : ∀ i, i < (s.tab s.root).len → isMig (s.cv s.root i) = false := by
    intro i hi
    by_contra hcon
    have := h.inv.mig s.root i ht hi (by simpa using hcon)
    omega
  refine TW_bind (TW_of (noHalt_do1 _) (W_check (by simpa using hni) ?_))
  refine TW_bind (TW_of (noHalt_do1 _) (W_check (by simpa using hov) ?_))
  refine TW_bind (TW_of (noHalt_do1 _) (W_getRoot ?_))
  refine TW_bind (TW_mono (Q := fun r s' => Calm s k s' ∧ isMig r = false) ?_ ?_)
  · refine TW_bind (TW_of (noHalt_do1 _) (W_check (by simpa using hni) ?_))
    refine TW_bind (TW_of (noHalt_do1 _) (W_check (by simpa using hnm) ?_))
    refine TW_bind (TW_of (noHalt_do1 _) (W_check (by simpa using hom) ?_))
    refine TW_bind (TW_of (noHalt_do1 _) (W_len ht ?_))
    refine TW_bind (TW_mono (TW_of (noHalt_probe _ _ _ _ _ _ (by omega)) (probe_spec n h.inv ht hk nv)) ?_)
    rintro (v | ⟨i, e, V⟩ | _) s1 hpost
    · obtain ⟨rfl, -, rfl, -⟩ := hpost
      exact TW_pure ⟨calm_refl _ _, isMig_VTOMBSTONE⟩
    · obtain ⟨he, hi, hu, hV, hs⟩ := hpost
      have hed := hstop e hu
      have hout := slot_out h.inv ht hk (h.pass hk) he hi hu hs
      have hilt : i < (s.tab s.root).len := by rw [← hout.len]; exact hout.ilt
      have hcalm : Calm s k s1 := by
        rcases hs with ⟨rfl, -⟩ | ⟨-, rfl⟩
        · exact calm_refl _ _
        · refine ⟨rfl, rfl, rfl, hout.len, fun t' i' => ?_⟩
          simp only [claimA, upd2]
          split
          · exact .inr rfl
          · exact .inl rfl
      have ht1 : s.root < s1.next := by rw [hout.next]; exact ht
      have hmV : isMig V = false := by rw [hV]; exact hlive i hilt
      have hpV : Plain V := by rw [hV]; exact h.inv.plain ht hilt (hlive i hilt)
      show TW (if nv = V then _ else _) _ s1
      split
      · exact TW_pure ⟨hcalm, hmV⟩
      · refine TW_bind (TW_mono (Q := fun b s' => b = false ∧ s' = s1) ?_ ?_)
        · unfold wantNewTable tableFull
          by_cases hVi : V = VINITIAL
          · rw [if_pos hVi, if_neg (by simp only [REPROBE_LIMIT]; omega)]
            refine TW_bind (TW_pure (TW_pure ⟨?_, rfl⟩))
            rw [hmV]; rfl
          · rw [if_neg hVi]; exact TW_pure ⟨hmV, rfl⟩
        · rintro b s2 ⟨rfl, rfl⟩
          rw [if_neg Bool.false_ne_true]
          refine TW_bind (TW_mono (Q := fun u s' => ∃ v, u = .returned v ∧ Calm s k s' ∧ isMig v = false) ?_ ?_)
          · obtain ⟨n, rfl⟩ : ∃ j, n = j + 1 := ⟨n - 1, by omega⟩
            refine TW_bind (TW_mono (Q := fun c s' => ∃ v, c = .done (.returned v) ∧ Calm s k s' ∧ isMig v = false) ?_ ?_)
            · refine TW_bind (TW_of (noHalt_do1 _) (W_check (by simpa using hmV) ?_))
              split
              · exact TW_pure ⟨V, rfl, hcalm, hmV⟩
              · refine TW_bind (TW_of (noHalt_call _ _ _ _ _) (casFn_call ht1 hout.ilt hnc (by rw [hout.cv, hV]) ?_))
                rw [if_pos rfl]
                refine TW_bind (TW_mono (TW_of (noHalt_adjustSize _ _ _ _) (adjustSize_spec ht1 hov)) ?_)
                rintro _ s3 rfl
                refine TW_pure ⟨_, rfl, ⟨hcalm.next, hcalm.root, hcalm.reopened, fun t' => ?_, hcalm.key⟩, ?_⟩
                · rw [← hcalm.len t']
                  simp only [addA, upd]
                  split
                  · next e => subst e; rfl
                  · rfl
                · split
                  · exact isMig_VTOMBSTONE
                  · exact hmV
            · rintro c s3 ⟨v, rfl, h1, h2⟩
              exact TW_pure ⟨v, rfl, h1, h2⟩
          · rintro u s3 ⟨v, rfl, h1, h2⟩
            exact TW_pure ⟨h1, h2⟩
    · obtain ⟨-, e, he, hu, hc⟩ := hpost
      have hed := hstop e hu
      exfalso
      rcases hc with hc | hc | ⟨-, hm⟩
      · omega
      · have := (h.inv.ktomb s.root _ ht (h.inv.slotAt_lt ht e) hc).1; omega
      · have := hlive _ (h.inv.slotAt_lt (k := k) ht e)
        rw [this] at hm; cases hm
  · rintro r s1 ⟨h1, h2⟩
    exact TW_bind (TW_of (noHalt_do1 _) (W_check (by rw [h2]; rfl) (TW_pure h1)))

end PMap
