import Verif.KCAS.RecoverRun

/-! # Runs of `recover` and of readers that do not return -/

namespace PMap.KCAS

variable {tb : Nat}

/-- From every memory with this view the run ends without a result, for the reason `h`. -/
def Halts {α : Type} (p : Prog α) (h : Stop) (v : V) : Prop := ∀ s, view s = v → run p s = .halted h

theorem run_bind_done {α β : Type} {p : Prog α} {f : α → Prog β} {s s' : S} {a : α} (h : run p s = .done a s') :
    run (p >>= f) s = run (f a) s' := by
  show run (p.bind f) s = _
  induction p generalizing s with
  | ret b => cases h; rfl
  | halt h' => cases h
  | act b k ih => exact ih _ h

theorem run_bind_halted {α β : Type} {p : Prog α} {f : α → Prog β} {s : S} {e : Stop} (h : run p s = .halted e) :
    run (p >>= f) s = .halted e := by
  show run (p.bind f) s = _
  induction p generalizing s with
  | ret b => cases h
  | halt h' => cases h; rfl
  | act b k ih => exact ih _ h

theorem Halts.after {α β : Type} {p : Prog α} {f : α → Prog β} {e : Stop} {v : V}
    (h : W full p (fun a v' => Halts (f a) e v') v) : Halts (p >>= f) e v := by
  intro s hs
  obtain ⟨a, s', hr, hq⟩ := h s hs
  rw [run_bind_done hr.run]
  exact hq s' rfl

theorem Halts.first {α β : Type} {p : Prog α} {f : α → Prog β} {e : Stop} {v : V} (h : Halts p e v) : Halts (p >>= f) e v :=
  fun s hs => run_bind_halted (h s hs)

theorem Halts.stop {α : Type} (e : Stop) (v : V) : Halts (.halt e : Prog α) e v := fun _ _ => rfl

theorem Halts.loop_next {σ α : Type} {n : Nat} {body : σ → Prog (Ctl σ α)} {x : σ} {e : Stop} {v : V}
    (h : W full (body x) (fun r v' => ∃ y, r = .next y ∧ Halts (loop n body y) e v') v) : Halts (loop (n + 1) body x) e v := by
  unfold KCAS.loop
  apply Halts.after
  refine W.mono h ?_
  rintro r v' ⟨y, rfl, hy⟩
  exact hy

theorem Halts.loop_stop {σ α : Type} {n : Nat} {body : σ → Prog (Ctl σ α)} {x : σ} {e : Stop} {v : V}
    (h : Halts (body x) e v) : Halts (loop (n + 1) body x) e v := by
  unfold KCAS.loop
  exact Halts.first h

/-! ## The check runs past the descriptors -/

theorem Halts.recoverCheck {P n : Nat} (hn : P + 1 ≤ n) {v : V} (hR : NoR tb v) (hK : NoK tb v)
    (hc : ∀ i < P, i < (v.fld (.count (BitVec.ofNat 64 i))).toNat) : Halts (KCAS.recoverCheck tb P n) .beyond v := by
  unfold KCAS.recoverCheck
  suffices main : ∀ m i, P + 1 ≤ m + i → i ≤ P → Halts (KCAS.loop m (fun (i : Nat) => do
    if P ≤ i then .halt .beyond
    else do
      let c ← step (.rd (.count (BitVec.ofNat 64 i)))
      if i < c.toNat then do
        let off ← step (.rd (.koff (BitVec.ofNat 64 i) i))
        let v ← KCAS.pcasRead (.arr off)
        let _ ← step (.check ((unpack tb v).kcas == (unpack tb v).rdcss))
        let v ← if (unpack tb v).rdcss ∧ ¬ (unpack tb v).kcas then do
            let _ ← KCAS.completeInstall tb (unpack tb v)
            let off ← step (.rd (.koff (BitVec.ofNat 64 i) i))
            KCAS.pcasRead (.arr off)
          else pure v
        let _ ← step (.check (!(unpack tb v).kcas && !(unpack tb v).rdcss))
        return .next (i + 1)
      else return (.done () : Ctl Nat Unit)) i) .beyond v from main n 0 (by omega) (by omega)
  intro m
  induction m with
  | zero => intro i h1 h2; omega
  | succ m ih =>
    intro i h1 h2
    by_cases hi : P ≤ i
    · apply Halts.loop_stop
      rw [if_pos hi]
      exact Halts.stop _ _
    · apply Halts.loop_next
      rw [if_neg hi]
      have hci := hc i (by omega)
      apply W.bind; refine W.rd trivial ?_
      rw [if_pos hci]
      apply W.bind; refine W.rd trivial ?_
      apply W.bind; refine W.pcasRead trivial ?_
      have hr := hR (v.fld (.koff (BitVec.ofNat 64 i) i))
      have hk := hK (v.fld (.koff (BitVec.ofNat 64 i) i))
      apply W.bind; refine W.check (by rw [hr, hk]; rfl) ?_
      rw [if_neg (by rw [hr]; simp)]
      apply W.bind; refine W.ret ?_
      apply W.bind; refine W.check (by rw [hr, hk]; rfl) ?_
      apply W.ret
      exact ⟨i + 1, rfl, ih (i + 1) (by omega) (by omega)⟩

theorem Halts.recover {P n : Nat} (hP : 0 < P) (hn : P + 1 ≤ n) {v : V} (hR : NoR tb v) (hK : NoK tb v)
    (hc : ∀ i < P, i < (v.fld (.count (BitVec.ofNat 64 i))).toNat) (hs : Settled v 0#64) (me : Word) :
    Halts (KCAS.recover tb P n me) .beyond v := by
  unfold KCAS.recover
  apply Halts.after
  refine W.upTo (fun _ v' => v' = v) P ?_ P 0 (by omega) v rfl ?_
  · rintro i v' - rfl
    exact W.recoverWord_none hR i rfl
  rintro v' rfl
  obtain ⟨P, rfl⟩ : ∃ p, P = p + 1 := ⟨P - 1, by omega⟩
  unfold KCAS.upTo
  apply Halts.first
  unfold KCAS.recoverDesc
  apply Halts.after
  refine W.pcasRead trivial ?_
  rw [if_neg (by
    show ¬ (seqW (v'.mem (.kmut 0#64))).toNat % 2 ≠ 0
    rw [hs.2]; simp)]
  apply Halts.after
  refine W.pcasRead trivial ?_
  rw [if_neg (show ¬ (KMut.unpack (v'.mem (.kmut 0#64))).status = Status.undecided.word from hs.1)]
  exact Halts.recoverCheck hn hR hK hc

/-! ## A word left with a descriptor that is gone -/

theorem Halts.mwRead (hb : tb ≤ 61) {d : Ref} (hd : d.Fits tb) (hk : KRef d) {off : Word} {v : V} (hw : v.mem (.arr off) = pack tb d)
    (hq : d.seq ≠ seqW (v.mem (.kmut d.tid))) (hc : v.fld (.count d.tid) = 0#64) (me : Word) (n : Nat) :
    Halts (KCAS.mwRead tb n me off) .fuel v := by
  unfold KCAS.mwRead
  have hun : unpack tb (pack tb d) = d := unpack_pack tb hb d hd
  have hbits : (pack tb d).toNat / 4 % 2 = 0 ∧ (pack tb d).toNat / 2 % 2 = 1 := by
    have := pack_k8 hb hd hk
    omega
  have hp : ∀ m, Halts (KCAS.pmwcas tb me m d none) .fuel v ∨ W full (KCAS.pmwcas tb me m d none) (fun _ v' => v' = v) v := by
    intro m
    match m with
    | 0 => exact .inl (Halts.stop _ _)
    | 1 =>
      left
      unfold KCAS.pmwcas
      apply Halts.after; refine W.ret ?_
      apply Halts.first
      exact Halts.stop _ _
    | m + 2 =>
      right
      unfold KCAS.pmwcas
      apply W.bind; refine W.ret ?_
      apply W.bind
      unfold KCAS.place
      apply W.loop
      rw [if_pos rfl]
      apply W.bind; refine W.rd trivial ?_
      rw [hc, if_neg (by simp)]
      apply W.ret
      simp only [if_true]
      apply W.bind
      unfold KCAS.persistAll
      apply W.loop
      apply W.bind; refine W.rd trivial ?_
      rw [hc, if_neg (by simp)]
      apply W.ret
      apply W.bind
      unfold KCAS.casField
      apply W.bind; refine W.pcasRead trivial ?_
      apply W.bind
      unfold KCAS.getSeq
      rw [if_pos ⟨hk.2.1, by rw [hk.2.2]; simp⟩]
      apply W.bind; refine W.pcasRead trivial ?_
      apply W.ret
      rw [if_pos (show d.seq ≠ (KMut.unpack (v.mem (.kmut d.tid))).seq from hq)]
      apply W.ret
      apply W.bind; refine W.persist trivial ?_
      simp only [Bool.not_false, if_true]
      apply W.ret
      rfl
  suffices main : ∀ k, Halts (KCAS.loop k (fun (_ : Unit) => do
    let v ← step (.ld (.arr off))
    if v &&& RDCSSBit ≠ 0#64 then do
      let _ ← step (.check ((unpack tb v).tid != me))
      let _ ← KCAS.completeInstall tb (unpack tb v)
      return .next ()
    else do
      if v &&& DirtyBit ≠ 0#64 then KCAS.persist (.arr off) v else pure ()
      let v := cl v
      if v &&& PMwCASBit ≠ 0#64 then do
        let _ ← KCAS.pmwcas tb me n (unpack tb v) none
        return .next ()
      else return .done v) ()) .fuel v from main n
  intro k
  induction k with
  | zero => exact Halts.stop _ _
  | succ k ih =>
    have hld : ∀ s, view s = v → cl (s.mem (.arr off)) = pack tb d := by
      intro s hs; rw [← hw, ← hs]; rfl
    have hb1 : ∀ w : Word, cl w = pack tb d → ¬ w &&& RDCSSBit ≠ 0#64 ∧ cl w &&& PMwCASBit ≠ 0#64 := by
      intro w hwd
      have h1 := hbits.1
      have h2 := hbits.2
      rw [← hwd, cl_toNat] at h1
      refine ⟨?_, ?_⟩
      · rw [not_not, rdcss_iff]; omega
      · rw [hwd]
        intro h
        rw [pmwcas_iff] at h
        omega
    rcases hp n with hp | hp
    · apply Halts.loop_stop
      apply Halts.after
      refine W.ld trivial ?_
      intro w hwd
      rw [hw] at hwd
      obtain ⟨b1, b2⟩ := hb1 w hwd
      rw [if_neg b1]
      have hrest : Halts (if cl w &&& PMwCASBit ≠ 0#64 then do
          let _ ← KCAS.pmwcas tb me n (unpack tb (cl w)) none
          return .next ()
        else return (.done (cl w) : Ctl Unit Word)) .fuel v := by
        rw [if_pos b2, hwd, hun]
        exact Halts.first hp
      split
      · apply Halts.after; exact W.persist trivial hrest
      · exact hrest
    · apply Halts.loop_next
      apply W.bind
      refine W.ld trivial ?_
      intro w hwd
      rw [hw] at hwd
      obtain ⟨b1, b2⟩ := hb1 w hwd
      rw [if_neg b1]
      have hrest : ∀ R : Ctl Unit Word → V → Prop, R (.next ()) v → W full (if cl w &&& PMwCASBit ≠ 0#64 then do
          let _ ← KCAS.pmwcas tb me n (unpack tb (cl w)) none
          return .next ()
        else return (.done (cl w) : Ctl Unit Word)) R v := by
        intro R hR
        rw [if_pos b2, hwd, hun]
        apply W.bind
        refine W.mono hp ?_
        rintro _ _ rfl
        exact W.ret hR
      apply W.ite
      · intro _
        apply W.bind; refine W.persist trivial ?_
        exact hrest _ ⟨(), rfl, ih⟩
      · intro _
        exact hrest _ ⟨(), rfl, ih⟩

end PMap.KCAS
