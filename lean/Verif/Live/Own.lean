import Verif.Live.Bound

/-!
# With one writer per key, in a table that does not grow, every call ends within a bounded number of its own steps
(proof machinery)
-/

namespace PMap

open Prog

variable {C : Cfg} {t : Nat} {op : Op} {s : OSt} {c : Option Res} {k : Word}
variable {cf : CasFn} {nv ov : Word} {f : Option Word → Option Word} {res : Option Word → Res}

/-- The update loop ends in its first iteration. -/
theorem bupdate (hC : C.OK) (hw : WOp op k cf nv ov f res) (hk : k ∈ C.S) (ho : C.own k = t) (n : Nat) {i : Nat} (hi : i < C.len)
    {V : Word} {o : Option Word} (hH : Held C t k o o.isSome s) (hki : clean (s.key i) = k) (hnear : C.re = false → ∃ d, d < 10 ∧ i = pat C.hash C.len k d) (hv : s.val i = V) (hV : Stored V)
    (hd : dec V = o) (hne : nv ≠ V) (hc : c = some (res o) ∧ f o = o ∨ c = none ∧ f o ≠ o) :
    owp C t op (fun u s' c' => ∃ V', u = .returned V' ∧ Stored V' ∧ dec V' = o ∧ c' = some (res o) ∧ Counted C t s')
      (limit (loop (n + 1) (updateBody cf 0 i nv ov) V) 8) s c := by
  refine limit_seq (N1 := 8) (N2 := 0) (p := updateBody cf 0 i nv ov V) ?_ (le_refl _)
  refine limit_bind' (N2 := 7) (bnd_do1 _) (owp_check (by rw [hV.mig]; rfl) fun s1 r1 i1 _ => ?_) (le_refl _)
  have hk0 : clean (s.key i) ≠ KINITIAL := by rw [hki]; exact (hC.user hk).ne_init
  have hH1 := hH.rely r1 ho
  have hk1 : clean (s1.key i) = k := by rw [r1.key i hi hk0, hki]
  have hv1 : s1.val i = V := by
    rcases r1.val i hi hk0 (by rw [hki]; exact ho) with e | e <;> rw [e, hv]
    exact hV.clean
  cases hm : mismatch V ov with
  | true =>
    rw [if_pos rfl]
    have := hw.stop V hV hm
    rw [hd] at this
    refine owp_ret (owp_ret ⟨V, rfl, hV, hd, ?_, hH1.counted⟩)
    rcases hc with ⟨hc, -⟩ | ⟨-, hc⟩
    · exact hc
    · exact absurd this hc
  | false =>
    rw [if_neg (by decide)]
    have hov : ∀ v, o = some v → ValidVal v := by
      intro v e
      rw [← hd] at e
      exact (hV.dec_some e).2
    refine limit_bind' (N2 := 1) (bnd_call _ _ _ _ _) (owp_mono (ocall hC hw hk ho hi hH1 hk1 hnear hv1 hV hd hm hne (hc.imp id (·.1)) ?_) ?_) (le_refl _)
    · intro e v hv
      rcases hc with ⟨-, hf⟩ | ⟨hn, -⟩
      · rw [hf] at hv; exact hov v hv
      · rw [hn] at e; cases e
    rintro a s2 c2 ⟨rfl, rfl, hH2, hf⟩ -
    rw [if_pos rfl]
    rw [← hd] at hH2 hf
    refine limit_bind' (N2 := 0) (bnd_adjust _ _ _ _) (oadjust hk ho hw.ov_init hV hH2 hf fun s3 h3 _ => owp_ret (owp_ret ?_)) (le_refl _)
    refine ⟨_, rfl, ?_, ?_, rfl, h3⟩
    · split
      · exact .inr (.inl rfl)
      · exact hV
    · split
      · next e => rw [dec_tomb, ← hd, e.1, dec_init]
      · exact hd

theorem bput (hC : C.OK) (hg : C.grow = false) (hw : WOp op k cf nv ov f res) (hk : k ∈ C.S) (ho : C.own k = t) {n : Nat} (hn : reprobeLimit C.len ≤ n)
    {o : Option Word} (hH : Held C t k o o.isSome s) (hc : c = some (res o) ∧ f o = o ∨ c = none ∧ f o ≠ o) :
    owp C t op (fun V s' c' => Stored V ∧ dec V = o ∧ c' = some (res o) ∧ Counted C t s')
      (limit (putIfMatch C.hash (n + 1) cf 0 k nv ov) (15 * reprobeLimit C.len + 13)) s c := by
  have h0 : 0 < reprobeLimit C.len := by unfold reprobeLimit REPROBE_LIMIT; omega
  obtain ⟨n', rfl⟩ : ∃ m, n = m + 1 := ⟨n - 1, by omega⟩
  refine limit_bind' (N2 := 15 * reprobeLimit C.len + 12) (bnd_do1 _) (owp_check (by simpa using hw.nv_init) fun s1 r1 i1 _ => ?_) (by omega)
  refine limit_bind' (N2 := 15 * reprobeLimit C.len + 11) (bnd_do1 _) (owp_check (by rw [hw.nv_mig]; rfl) fun s2 r2 i2 _ => ?_) (by omega)
  refine limit_bind' (N2 := 15 * reprobeLimit C.len + 10) (bnd_do1 _) (owp_check (by rw [hw.ov_mig]; rfl) fun s3 r3 i3 _ => ?_) (by omega)
  refine limit_bind' (N2 := 15 * reprobeLimit C.len + 9) (bnd_do1 _) (owp_len fun s4 r4 i4 _ => ?_) (by omega)
  have hH4 := hH.rely (r1.trans (r2.trans (r3.trans r4))) ho
  refine limit_bind' (N2 := 9) (bnd_probe C.hash 0 k nv C.len hn) (owp_mono (oprobe (nv := nv) hC hk ho (n' + 1) hH4) ?_) (le_refl _)
  rintro p s5 c5 ⟨rfl, hH5, ⟨rfl, hnv, hnone⟩ | ⟨-, hg'⟩ | ⟨i, d, V, rfl, hi, hid, hdl, hten, hki, hv, hV, hd⟩⟩ -
  · have := hw.skip hnv
    rw [← hnone] at this
    refine owp_ret ⟨.inr (.inl rfl), by rw [dec_tomb, hnone], ?_, hH5.counted⟩
    rcases hc with ⟨hc, -⟩ | ⟨-, hc⟩
    · exact hc
    · exact absurd this hc
  · rw [hg] at hg'; cases hg'
  · have h10 : d < 10 := hten.resolve_right fun h => by rw [hg] at h; cases h.1
    simp only
    by_cases he : nv = V
    · rw [if_pos he]
      have := hw.same V hV he
      rw [hd] at this
      refine owp_ret ⟨hV, hd, ?_, hH5.counted⟩
      rcases hc with ⟨hc, -⟩ | ⟨-, hc⟩
      · exact hc
      · exact absurd this hc
    · rw [if_neg he]
      have hwant : ∀ Q : Bool → OSt → Option Res → Prop, Q false s5 c5 → owp C t op Q (wantNewTable 0 d C.len V) s5 c5 := by
        intro Q hQ
        unfold wantNewTable
        split
        · rw [tableFull, if_neg (by unfold REPROBE_LIMIT; omega)]
          refine owp_bind' (owp_pure (owp_pure ?_))
          rw [hV.mig]; exact hQ
        · refine owp_pure ?_
          rw [hV.mig]; exact hQ
      refine limit_bind' (N2 := 8) (bnd_want _ _ _ _) (hwant _ fun _ => ?_) (le_refl _)
      rw [if_neg (by decide)]
      refine limit_seq (N1 := 8) (N2 := 0) (owp_mono (bupdate hC hw hk ho n' hi hH5 hki (fun _ => ⟨d, h10, hid⟩) hv hV hd he hc) ?_) (le_refl _)
      rintro u s6 c6 ⟨V', rfl, hV', hd', hc', hcount⟩
      exact owp_ret ⟨hV', hd', hc', hcount⟩

/-- The public function, called by the owner of the key. -/
theorem bmapPut (hC : C.OK) (hg : C.grow = false) (hw : WOp op k cf nv ov f res) (hk : k ∈ C.S) (ho : C.own k = t) {n : Nat} (hn : reprobeLimit C.len < n)
    (hcount : Counted C t s) :
    owp C t op (fun w s' c' => ∃ o, w = resWord o ∧ (∀ v, o = some v → ValidVal v) ∧ c' = some (res o) ∧ Counted C t s')
      (limit (mapPutIfMatch C.hash n cf k nv ov) (15 * reprobeLimit C.len + 17)) s none := by
  obtain ⟨n, rfl⟩ : ∃ m, n = m + 1 := ⟨n - 1, by omega⟩
  refine limit_bind' (N2 := 15 * reprobeLimit C.len + 16) (bnd_do1 _) (owp_check (by simpa using hw.nv_init) fun s1 r1 i1 _ => ?_) (by omega)
  refine limit_bind' (N2 := 15 * reprobeLimit C.len + 15) (bnd_do1 _) (owp_check (by simpa using hw.ov_init) fun s2 r2 i2 _ => ?_) (by omega)
  refine limit_bind' (N2 := 15 * reprobeLimit C.len + 14) (bnd_do1 _) ?_ (by omega)
  rw [do1, owp]
  intro s3 r3 i3 _
  have hH := (hcount.rely (r1.trans (r2.trans r3))).held ho
  have hrest : ∀ c, (c = some (res (s3.M k)) ∧ f (s3.M k) = s3.M k ∨ c = none ∧ f (s3.M k) ≠ s3.M k) →
      owp C t op (fun w s' c' => ∃ o, w = resWord o ∧ (∀ v, o = some v → ValidVal v) ∧ c' = some (res o) ∧ Counted C t s') (limit (do
        let retVal ← putIfMatch C.hash (n + 1) cf 0 k nv ov
        check (!isMig retVal)
        return if retVal = VTOMBSTONE then VINITIAL else retVal) (15 * reprobeLimit C.len + 14)) s3 c := by
    intro c hc
    refine limit_seq (N2 := 1) (owp_mono (bput hC hg hw hk ho (by omega) hH hc) ?_) (le_refl _)
    rintro V s4 c4 ⟨hV, hd, rfl, h4⟩
    refine limit_bind' (N2 := 0) (bnd_do1 _) (owp_check (by rw [hV.mig]; rfl) fun s5 r5 i5 _ => owp_ret ⟨s3.M k, ?_, fun v e => ?_, rfl, h4.rely r5⟩) (le_refl _)
    · rw [resWord_dec hV, hd]
    · rw [← hd] at e; exact (hV.dec_some e).2
  refine ⟨s3.m.root, s3, rfl, .inr ⟨i3, fun _ _ => Rely.refl _, ?_⟩⟩
  by_cases hf : f (s3.M k) = s3.M k
  · refine .inr ⟨rfl, (hw.stay hf).symm, res (s3.M k), fun y hy => hw.spec _ y hy, ?_⟩
    rw [owp, i3.root]
    exact fun _ => hrest _ (.inl ⟨rfl, hf⟩)
  · refine .inl ⟨rfl, ?_⟩
    rw [owp, i3.root]
    exact fun _ => hrest _ (.inr ⟨rfl, hf⟩)

theorem bmapGet (hC : C.OK) (hk : k ∈ C.S) {n : Nat} (hn : reprobeLimit C.len < n) {res : Option Word → Res}
    (hnext : ∀ M, specNext op M = M) (hres : ∀ M y, specRes op M = some y → res (M k) = y) :
    owp C t op (fun w s' c => ∃ o, w = resWord o ∧ c = some (res o) ∧ (∀ v, o = some v → ValidVal v) ∧ Rely C t s s')
      (limit (mapGet C.hash n k) (9 * reprobeLimit C.len + 3)) s none := by
  obtain ⟨n, rfl⟩ : ∃ m, n = m + 1 := ⟨n - 1, by omega⟩
  refine limit_bind' (N2 := 9 * reprobeLimit C.len + 2) (bnd_do1 _) (owp_getRoot fun s1 r1 i1 _ => ?_) (by omega)
  refine limit_seq (N1 := 9 * reprobeLimit C.len + 1) (N2 := 1) ?_ (le_refl _)
  refine limit_bind' (N2 := 9 * reprobeLimit C.len) (bnd_do1 _) (owp_len fun s2 r2 i2 _ => ?_) (by omega)
  refine limit_bind' (N2 := 0) (bnd_gprobe C.hash 0 k C.len (by omega)) (owp_mono (ogprobe hC hk n hnext hres) ?_) (le_refl _)
  rintro p s3 c ⟨o, rfl, rfl, ho, r3⟩ -
  refine owp_ret (limit_bind' (N2 := 0) (bnd_do1 _) (owp_check ?_ fun s4 r4 i4 _ => owp_ret ⟨o, rfl, rfl, ho, r1.trans (r2.trans (r3.trans r4))⟩) (le_refl _))
  rw [resWord_mig ho]; rfl

theorem bmapGet_absent (hC : C.OK) (hv : ValidKey k) (hk : k ∉ C.S) {n : Nat} (hn : reprobeLimit C.len < n) {res : Option Word → Res}
    (hnext : ∀ M, specNext op M = M) (hres : ∀ M y, specRes op M = some y → res (M k) = y) :
    owp C t op (fun w s' c => w = VINITIAL ∧ c = some (res none) ∧ Rely C t s s')
      (limit (mapGet C.hash n k) (9 * reprobeLimit C.len + 3)) s none := by
  obtain ⟨n, rfl⟩ : ∃ m, n = m + 1 := ⟨n - 1, by omega⟩
  refine limit_bind' (N2 := 9 * reprobeLimit C.len + 2) (bnd_do1 _) ?_ (by omega)
  rw [do1, owp]
  intro s1 r1 i1 _
  have hM : s1.M k = none := by
    refine i1.absent k hv fun i hi e => hk ?_
    rw [← e]
    refine i1.placed.mem i hi ?_
    rw [e]; exact (userKey_of_valid hv).ne_init
  refine ⟨s1.m.root, s1, rfl, .inr ⟨i1, fun _ _ => Rely.refl _, .inr ⟨rfl, (hnext _).symm, res none, fun y hy => ?_, ?_⟩⟩⟩
  · rw [← hM]; exact hres _ y hy
  · rw [owp, i1.root]
    intro _
    refine limit_seq (N1 := 9 * reprobeLimit C.len + 1) (N2 := 1) ?_ (le_refl _)
    refine limit_bind' (N2 := 9 * reprobeLimit C.len) (bnd_do1 _) (owp_len fun s2 r2 i2 _ => ?_) (by omega)
    refine limit_bind' (N2 := 0) (bnd_gprobe C.hash 0 k C.len (by omega)) (owp_mono (ogprobe_absent hC hk n) ?_) (le_refl _)
    rintro p s3 c ⟨rfl, rfl, r3⟩ -
    exact owp_ret (limit_bind' (N2 := 0) (bnd_do1 _) (owp_check rfl fun s4 r4 i4 _ => owp_ret ⟨rfl, rfl, r1.trans (r2.trans (r3.trans r4))⟩) (le_refl _))

/-- How many actions a call can need in a table of `len` slots. -/
def callBound (len : Nat) : Nat := 15 * reprobeLimit len + 17

/-- Every call ends within its bound. -/
theorem op_bounded (hC : C.OK) (hg : C.grow = false) {n : Nat} (hn : reprobeLimit C.len < n) (ho : op.By C.S C.own t) (hcount : Counted C t s) :
    owp C t op (fun r s' c => c = some r ∧ Counted C t s') (limit (op.prog C.hash n) (callBound C.len)) s none := by
  refine op_owp_of hC n ho hcount (fun _ p => limit p (callBound C.len)) (fun p g => limit_map p _)
    (fun hw h1 h2 => bmapPut hC hg hw h1 h2 hn hcount)
    (fun hk h1 h2 => limit_mono (bmapGet hC hk hn h1 h2) (by unfold callBound; omega))
    (fun hv hk h1 h2 => limit_mono (bmapGet_absent hC hv hk hn h1 h2) (by unfold callBound; omega)) (fun {g} h1 h2 => ?_)
  have : limit mapSize (callBound C.len) = mapSize := by
    obtain ⟨N, hN⟩ : ∃ N, callBound C.len = N + 2 := ⟨callBound C.len - 2, by unfold callBound; omega⟩
    rw [hN]; rfl
  rw [this]
  exact omapSize hcount h1 h2

end PMap
