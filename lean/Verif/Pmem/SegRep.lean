import Verif.Pmem.SegVec
import Verif.Pmem.VecRep

/-!
# The segments of a `segment_vector` and a list (proof machinery)
-/

namespace PMap.Pmem.Seg

variable {α : Type} {P : Policy}

/-- What a policy must provide. -/
structure Policy.Ok (P : Policy) : Prop where
  top0 : P.top 0 = 0
  top_succ : ∀ i, P.top (i + 1) = P.top i + P.size i
  pos : ∀ i, 0 < P.size i
  seg_le : ∀ n, P.top (P.seg n) ≤ n
  seg_lt : ∀ n, n < P.top (P.seg n + 1)
  idx : ∀ n, P.idx n = n - P.top (P.seg n)
  cap : ∀ i, P.cap i = P.top (i + 1)
  lim : ∀ k, P.limit = some k → ∀ n, n < P.max → P.seg n < k

theorem Policy.Ok.mono (h : P.Ok) {i j : Nat} (hij : i ≤ j) : P.top i ≤ P.top j := by
  induction hij with
  | refl => exact Nat.le_refl _
  | step _ ih => rw [h.top_succ]; omega

theorem Policy.Ok.lt (h : P.Ok) {i j : Nat} (hij : i < j) : P.top i < P.top j := by
  have h1 := h.mono (show i + 1 ≤ j from hij)
  have h2 := h.top_succ i
  have h3 := h.pos i
  omega

theorem Policy.Ok.seg_eq (h : P.Ok) {n i : Nat} (h1 : P.top i ≤ n) (h2 : n < P.top (i + 1)) : P.seg n = i := by
  have a := h.seg_le n
  have b := h.seg_lt n
  rcases Nat.lt_trichotomy (P.seg n) i with hl | he | hl
  · have := h.mono (show P.seg n + 1 ≤ i from hl); omega
  · exact he
  · have := h.mono (show i + 1 ≤ P.seg n from hl); omega

theorem Policy.Ok.seg_top (h : P.Ok) (i : Nat) : P.seg (P.top i) = i := h.seg_eq (Nat.le_refl _) (h.lt (Nat.lt_succ_self i))

theorem Policy.Ok.seg_lt_iff (h : P.Ok) {n i : Nat} : P.seg n < i ↔ n < P.top i := by
  constructor
  · intro hl
    have := h.seg_lt n
    have := h.mono (show P.seg n + 1 ≤ i from hl)
    omega
  · intro hl
    by_contra hc
    have := h.seg_le n
    have := h.mono (show i ≤ P.seg n by omega)
    omega

theorem Policy.Ok.seg_mono (h : P.Ok) {m n : Nat} (hmn : m ≤ n) : P.seg m ≤ P.seg n := by
  by_contra hc
  have := h.seg_lt_iff.mp (show P.seg n < P.seg m by omega)
  have := h.seg_le m
  omega

/-- The part of the list in segment `i`. -/
def slice (P : Policy) (l : List α) (i : Nat) : List α := (l.drop (P.top i)).take (P.size i)

theorem get_slice (l : List α) (i p : Nat) : (slice P l i)[p]? = if p < P.size i then l[P.top i + p]? else none := by
  rw [slice]
  by_cases c : p < P.size i
  · rw [if_pos c, List.getElem?_take_of_lt c, List.getElem?_drop]
  · rw [if_neg c, List.getElem?_eq_none (by rw [List.length_take]; omega)]

theorem length_slice (l : List α) (i : Nat) : (slice P l i).length = min (P.size i) (l.length - P.top i) := by
  rw [slice, List.length_take, List.length_drop]

theorem slice_nil {l : List α} {i : Nat} (h : l.length ≤ P.top i) : slice P l i = [] := by
  rw [slice, List.drop_eq_nil_of_le h, List.take_nil]

/-- Segment `i` holds `f i`; the first `u` segments have all their memory, the others all or none. -/
structure RepF (P : Policy) (data : List (Vec α)) (f : Nat → List α) (u : Nat) : Prop where
  rep : ∀ i v, data[i]? = some v → Rep v (f i)
  full : ∀ i v, data[i]? = some v → i < u → v.cap = P.size i
  cap : ∀ i v, data[i]? = some v → v.cap = 0 ∨ v.cap = P.size i
  len : u ≤ data.length

/-- The vector holds the list. -/
structure RepS (P : Policy) (s : SV α) (l : List α) : Prop where
  segs : RepF P s.data (slice P l) s.used
  le : l.length ≤ P.top s.used
  lim : ∀ k, P.limit = some k → s.data.length = k

theorem RepF.mono {data : List (Vec α)} {f g : Nat → List α} {u u' : Nat} (h : RepF P data f u) (hu : u' ≤ u)
    (hf : ∀ i, i < data.length → f i = g i) : RepF P data g u' := by
  refine ⟨fun i v hi => ?_, fun i v hi hl => h.full i v hi (by omega), h.cap, Nat.le_trans hu h.len⟩
  rw [← hf i (List.getElem?_eq_some_iff.mp hi).1]
  exact h.rep i v hi

/-- One segment is changed. -/
theorem onSeg_spec {data : List (Vec α)} {f : Nat → List α} {u i : Nat} (h : RepF P data f u) (hi : i < data.length)
    {op : Vec α → R (Vec α)} {m : List α} {T : Prop}
    (hop : ∀ v, Rep v (f i) → (i < u → v.cap = P.size i) → (v.cap = 0 ∨ v.cap = P.size i) →
      ∃ c, Does T (op v) v m c ∧ (i < u → c = P.size i) ∧ (c = 0 ∨ c = P.size i)) :
    ∃ data', onSeg data i op = .ok data' ∧ RepF P data' (fun j => if j = i then m else f j) u ∧ data'.length = data.length := by
  have hd := List.getElem?_eq_getElem hi
  obtain ⟨c, ⟨w, e, h1, h2, -⟩, hf, hc⟩ := hop _ (h.rep i _ hd) (h.full i _ hd) (h.cap i _ hd)
  rw [onSeg, hd]
  simp only [e, ok_bind]
  have key : ∀ j v, (data.set i w)[j]? = some v → (j = i ∧ v = w) ∨ (j ≠ i ∧ data[j]? = some v) := by
    intro j v hj
    rw [List.getElem?_set] at hj
    by_cases ej : i = j
    · rw [if_pos ej] at hj
      subst ej
      rw [if_pos hi] at hj
      exact .inl ⟨rfl, (Option.some.inj hj).symm⟩
    · rw [if_neg ej] at hj
      exact .inr ⟨Ne.symm ej, hj⟩
  refine ⟨_, rfl, ⟨fun j v hj => ?_, fun j v hj hl => ?_, fun j v hj => ?_, ?_⟩, List.length_set ..⟩
  · rcases key j v hj with ⟨rfl, rfl⟩ | ⟨hne, hj⟩
    · simp only [if_true]; exact h1
    · simp only [if_neg hne]; exact h.rep j v hj
  · rcases key j v hj with ⟨rfl, rfl⟩ | ⟨hne, hj⟩
    · rw [h2]; exact hf hl
    · exact h.full j v hj hl
  · rcases key j v hj with ⟨rfl, rfl⟩ | ⟨hne, hj⟩
    · rw [h2]; exact hc
    · exact h.cap j v hj
  · rw [List.length_set]; exact h.len

/-- One segment is changed and keeps its memory. -/
theorem onSeg_keep {data : List (Vec α)} {f : Nat → List α} {u i : Nat} (h : RepF P data f u) (hi : i < data.length)
    {op : Vec α → R (Vec α)} {m : List α} {T : Prop}
    (hop : ∀ v, Rep v (f i) → (i < u → v.cap = P.size i) → Does T (op v) v m v.cap) :
    ∃ data', onSeg data i op = .ok data' ∧ RepF P data' (fun j => if j = i then m else f j) u ∧ data'.length = data.length :=
  onSeg_spec h hi fun v h1 h2 h3 => ⟨v.cap, hop v h1 h2, h2, h3⟩

theorem sum_slices (hP : P.Ok) {data : List (Vec α)} {l : List α} {u : Nat} (h : RepF P data (slice P l) u) :
    ((data.take u).map Vec.size).sum = min l.length (P.top u) := by
  have key : ∀ k, k ≤ u → ((data.take k).map Vec.size).sum = min l.length (P.top k) := by
    intro k
    induction k with
    | zero => intro _; simp [hP.top0]
    | succ k ih =>
      intro hk
      have hd : k < data.length := by have := h.len; omega
      rw [List.take_succ_eq_append_getElem hd, List.map_append, List.sum_append, ih (by omega)]
      have := (h.rep k _ (List.getElem?_eq_getElem hd)).size
      rw [length_slice] at this
      have h2 := hP.top_succ k
      simp only [List.map_cons, List.map_nil, List.sum_cons, List.sum_nil]
      omega
  exact key u (Nat.le_refl _)

theorem size_spec (hP : P.Ok) {s : SV α} {l : List α} (h : RepS P s l) : s.size = .ok l.length := by
  rw [SV.size, if_pos h.segs.len, sum_slices hP h.segs, Nat.min_eq_left h.le]

theorem capacity_spec (hP : P.Ok) (s : SV α) : s.capacity P = P.top s.used := by
  rw [SV.capacity]
  split
  · next e => rw [e, hP.top0]
  · rw [hP.cap]; congr 1; omega

theorem validate_spec {s : SV α} {f : Nat → List α} (h : RepF P s.data f s.used) : s.validate P = .ok s := by
  rw [SV.validate, ensure_true, ok_bind]
  rw [List.all_eq_true]
  intro i hi
  rw [List.mem_range] at hi
  have hd : i < s.data.length := by have := h.len; omega
  have := h.full i _ (List.getElem?_eq_getElem hd) hi
  rw [List.getElem?_eq_getElem hd]
  simp only [beq_iff_eq]
  exact this

theorem get_seg (hP : P.Ok) {s : SV α} {l : List α} (h : RepS P s l) {n : Nat} (hn : n < l.length) : s.get P n = .ok l[n] := by
  have hu := hP.seg_lt_iff.mpr (Nat.lt_of_lt_of_le hn h.le)
  have hd : P.seg n < s.data.length := Nat.lt_of_lt_of_le hu h.segs.len
  have := get_spec (h.segs.rep _ _ (List.getElem?_eq_getElem hd)) (P.idx n)
  rw [SV.get, List.getElem?_eq_getElem hd]
  simp only
  have h1 := hP.seg_le n
  have h2 := hP.seg_lt n
  have h3 := hP.top_succ (P.seg n)
  rw [this, get_slice, hP.idx, if_pos (by omega), show P.top (P.seg n) + (n - P.top (P.seg n)) = n by omega,
    List.getElem?_eq_getElem hn]

theorem slice_set (hP : P.Ok) (l : List α) (n : Nat) (x : α) (i : Nat) :
    slice P (l.set n x) i = if i = P.seg n then (slice P l i).set (P.idx n) x else slice P l i := by
  have h1 := hP.seg_le n
  have h2 := hP.seg_lt n
  have h3 := hP.top_succ (P.seg n)
  apply List.ext_getElem?
  intro p
  rw [get_slice, List.getElem?_set]
  by_cases e : i = P.seg n
  · rw [if_pos e]
    subst e
    rw [List.getElem?_set, get_slice, length_slice, hP.idx]
    by_cases c : p < P.size (P.seg n)
    · rw [if_pos c, if_pos c]
      by_cases e : n = P.top (P.seg n) + p
      · rw [if_pos e, if_pos (show n - P.top (P.seg n) = p by omega)]
        by_cases c' : n < l.length
        · rw [if_pos c', if_pos (by omega)]
        · rw [if_neg c', if_neg (by omega)]
      · rw [if_neg e, if_neg (by omega)]
    · rw [if_neg c, if_neg c, if_neg (by omega)]
  · rw [if_neg e]
    rw [get_slice]
    by_cases c : p < P.size i
    · rw [if_pos c, if_pos c, if_neg]
      intro hn
      apply e
      have := hP.top_succ i
      exact (hP.seg_eq (n := n) (i := i) (by omega) (by omega)).symm
    · rw [if_neg c, if_neg c]

theorem set_seg (hP : P.Ok) {s : SV α} {l : List α} (h : RepS P s l) {n : Nat} (hn : n < l.length) (x : α) :
    ∃ s', s.set P n x = .ok s' ∧ RepS P s' (l.set n x) ∧ s'.used = s.used := by
  have hu := hP.seg_lt_iff.mpr (Nat.lt_of_lt_of_le hn h.le)
  have h1 := hP.seg_le n
  have h2 := hP.seg_lt n
  have h3 := hP.top_succ (P.seg n)
  obtain ⟨d, e, hd, hl⟩ := onSeg_keep (T := True) h.segs (Nat.lt_of_lt_of_le hu h.segs.len) (op := fun v => v.set (P.idx n) x)
    fun v hv _ => does_set hv (i := P.idx n) (by rw [length_slice, hP.idx]; omega) x
  rw [SV.set, e, ok_bind]
  refine ⟨_, rfl, ⟨hd.mono (Nat.le_refl _) fun i _ => ?_, by rw [List.length_set]; exact h.le, fun k hk => hl.trans (h.lim k hk)⟩, rfl⟩
  rw [slice_set hP]
  split <;> next e => subst_vars; rfl

/-! ## Room for more -/

/-- There is no room for `n` elements: more than `max_size()`, or a segment that is larger than can be allocated. -/
def Policy.TooMany (P : Policy) (n : Nat) : Prop := P.max < n ∨ ∃ i, i ≤ P.seg (n - 1) ∧ P.smax < P.size i

theorem reserveSegs_spec {f : Nat → List α} (n : Nat) : ∀ (data : List (Vec α)) i, RepF P data f i → i + n ≤ data.length →
    (∃ j, i ≤ j ∧ j < i + n ∧ P.smax < P.size j ∧ reserveSegs P data n i = .error .threw) ∨
    ∃ data', reserveSegs P data n i = .ok data' ∧ RepF P data' f (i + n) ∧ data'.length = data.length := by
  induction n with
  | zero => exact fun data i h _ => .inr ⟨data, rfl, h, rfl⟩
  | succ n ih =>
    intro data i h hl
    have hd := List.getElem?_eq_getElem (show i < data.length by omega)
    by_cases hs : P.smax < P.size i
    · by_cases hc : data[i].cap = P.size i
      · -- the segment has its memory already
        obtain ⟨d, e, h1, h2⟩ := onSeg_keep (T := True) h (show i < data.length by omega) (op := fun v => .ok v) (m := f i)
          fun v hv _ => does_ok hv
        have hres : onSeg data i (fun v => v.reserve P.smax (P.size i)) = .ok data := by
          rw [onSeg, hd]
          simp only [Vec.reserve, if_pos (Nat.le_of_eq hc.symm), ok_bind]
          rw [List.set_getElem_self]
        have hrep : RepF P data f (i + 1) := ⟨h.rep, fun j v hj hjl => by
          by_cases ej : j = i
          · subst ej; rw [hd] at hj; cases hj; exact hc
          · exact h.full j v hj (by omega), h.cap, by omega⟩
        rcases ih data (i + 1) hrep (by omega) with ⟨j, a, b, c, e'⟩ | ⟨d', e', g1, g2⟩
        · exact .inl ⟨j, by omega, by omega, c, by rw [reserveSegs, hres, ok_bind, e']⟩
        · exact .inr ⟨d', by rw [reserveSegs, hres, ok_bind, e'], by rw [show i + (n + 1) = i + 1 + n by omega]; exact g1, g2⟩
      · refine .inl ⟨i, by omega, by omega, hs, ?_⟩
        have hz : data[i].cap = 0 := (h.cap i _ hd).resolve_right hc
        rw [reserveSegs, onSeg, hd]
        simp only [Vec.reserve]
        rw [if_neg (by omega), threw_realloc hs]
        rfl
    · have hd' : ∃ d, onSeg data i (fun v => v.reserve P.smax (P.size i)) = .ok d ∧ RepF P d f (i + 1) ∧ d.length = data.length := by
        obtain ⟨w, ew, w1, w2, -⟩ := does_reserve (h.rep i _ hd) (n := P.size i) (max := P.smax)
          (by rcases h.cap i _ hd with e | e <;> omega) (by omega)
        rw [onSeg, hd]
        simp only [ew, ok_bind]
        have key : ∀ j v, (data.set i w)[j]? = some v → (j = i ∧ v = w) ∨ (j ≠ i ∧ data[j]? = some v) := by
          intro j v hj
          rw [List.getElem?_set] at hj
          by_cases ej : i = j
          · rw [if_pos ej] at hj
            subst ej
            rw [if_pos (by omega)] at hj
            exact .inl ⟨rfl, (Option.some.inj hj).symm⟩
          · rw [if_neg ej] at hj
            exact .inr ⟨Ne.symm ej, hj⟩
        refine ⟨_, rfl, ⟨fun j v hj => ?_, fun j v hj hjl => ?_, fun j v hj => ?_, ?_⟩, List.length_set ..⟩
        · rcases key j v hj with ⟨rfl, rfl⟩ | ⟨-, hj⟩
          · exact w1
          · exact h.rep j v hj
        · rcases key j v hj with ⟨rfl, rfl⟩ | ⟨hne, hj⟩
          · exact w2
          · exact h.full j v hj (by omega)
        · rcases key j v hj with ⟨rfl, rfl⟩ | ⟨-, hj⟩
          · exact .inr w2
          · exact h.cap j v hj
        · rw [List.length_set]; omega
      obtain ⟨d, ed, d1, d2⟩ := hd'
      rcases ih d (i + 1) d1 (by omega) with ⟨j, a, b, c, e'⟩ | ⟨d', e', g1, g2⟩
      · exact .inl ⟨j, by omega, by omega, c, by rw [reserveSegs, ed, ok_bind, e']⟩
      · exact .inr ⟨d', by rw [reserveSegs, ed, ok_bind, e'], by rw [show i + (n + 1) = i + 1 + n by omega]; exact g1, g2.trans d2⟩

/-- The array of segments gets another length. -/
theorem resizeData_spec {data : List (Vec α)} {f : Nat → List α} {u n : Nat} (h : RepF P data f u) (hn : u ≤ n)
    (hf : ∀ i, data.length ≤ i → f i = []) : RepF P (resizeData P data n) f u ∧
      (∀ k, P.limit = some k → (resizeData P data n).length = data.length) ∧ (P.limit = none → (resizeData P data n).length = n) := by
  rw [resizeData]
  cases hl : P.limit with
  | some k => exact ⟨h, fun _ _ => rfl, fun e => by cases e⟩
  | none =>
    have hlen : (data.take n ++ List.replicate (n - data.length) (Vec.empty : Vec α)).length = n := by
      rw [List.length_append, List.length_take, List.length_replicate]; omega
    have key : ∀ (j : Nat) (v : Vec α), (data.take n ++ List.replicate (n - data.length) (Vec.empty : Vec α))[j]? = some v →
        data[j]? = some v ∨ (data.length ≤ j ∧ v = Vec.empty) := by
      intro j v hj
      rw [List.getElem?_append] at hj
      split at hj
      · rw [List.getElem?_take] at hj
        split at hj
        · exact .inl hj
        · cases hj
      · next hlt =>
        rw [List.getElem?_replicate] at hj
        split at hj
        · next hlt' =>
          simp only [List.length_take] at hlt hlt'
          exact .inr ⟨by omega, (Option.some.inj hj).symm⟩
        · cases hj
    refine ⟨⟨fun j v hj => ?_, fun j v hj hjl => ?_, fun j v hj => ?_, by rw [hlen]; exact hn⟩, fun k e => (by cases e), fun _ => hlen⟩
    · rcases key j v hj with hj | ⟨hle, rfl⟩
      · exact h.rep j v hj
      · rw [hf j hle]; exact rep_empty
    · rcases key j v hj with hj | ⟨hle, rfl⟩
      · exact h.full j v hj hjl
      · have := h.len; omega
    · rcases key j v hj with hj | ⟨hle, rfl⟩
      · exact h.cap j v hj
      · exact .inl rfl

/-- A call on a segment vector that succeeds, or throws because there is no room for `b` elements. -/
def STries (P : Policy) (b : Nat) (r : R (SV α)) (l : List α) : Prop :=
  (P.TooMany b ∧ r = .error .threw) ∨ ∃ s, r = .ok s ∧ RepS P s l

theorem internalReserve_spec (hP : P.Ok) {s : SV α} {l : List α} (h : RepS P s l) {n : Nat} (hn : s.capacity P < n) :
    (P.TooMany n ∧ s.internalReserve P n = .error .threw) ∨
    ∃ s', s.internalReserve P n = .ok s' ∧ RepS P s' l ∧ n ≤ P.top s'.used := by
  rw [SV.internalReserve]
  by_cases hm : P.max < n
  · rw [if_pos hm]; exact .inl ⟨.inl hm, rfl⟩
  rw [if_neg hm, if_neg (by omega)]
  rw [capacity_spec hP] at hn ⊢
  rw [hP.seg_top]
  have hge : s.used ≤ P.seg (n - 1) := by
    have := hP.seg_mono (show P.top s.used ≤ n - 1 by omega)
    rwa [hP.seg_top] at this
  obtain ⟨r1, r2, r3⟩ := resizeData_spec (n := P.seg (n - 1) + 1) h.segs (by omega) fun i hi =>
    slice_nil (Nat.le_trans h.le (hP.mono (Nat.le_trans h.segs.len hi)))
  have hlen : P.seg (n - 1) + 1 ≤ (resizeData P s.data (P.seg (n - 1) + 1)).length := by
    cases hl : P.limit with
    | none => rw [r3 hl]
    | some k => rw [r2 k hl, h.lim k hl]; exact hP.lim k hl _ (by omega)
  rcases reserveSegs_spec (P.seg (n - 1) + 1 - s.used) _ s.used r1 (by omega) with ⟨j, a, b, c, e⟩ | ⟨d, e, d1, d2⟩
  · rw [e]; exact .inl ⟨.inr ⟨j, by omega, c⟩, rfl⟩
  · rw [show s.used + (P.seg (n - 1) + 1 - s.used) = P.seg (n - 1) + 1 by omega] at d1
    rw [e, ok_bind, validate_spec (s := ⟨d, P.seg (n - 1) + 1⟩) d1]
    have := hP.seg_lt (n - 1)
    refine .inr ⟨_, rfl, ⟨d1, ?_, fun k hk => by rw [← h.lim k hk, ← r2 k hk]; exact d2⟩, by simp only; omega⟩
    have := h.le
    simp only; omega

/-! ## Adding elements -/

theorem slice_append (hP : P.Ok) (l : List α) (x : α) (i : Nat) :
    slice P (l ++ [x]) i = if i = P.seg l.length then slice P l i ++ [x] else slice P l i := by
  have h1 := hP.seg_le l.length
  have h2 := hP.seg_lt l.length
  have h3 := hP.top_succ (P.seg l.length)
  apply List.ext_getElem?
  intro p
  rw [get_slice, List.getElem?_append]
  by_cases e : i = P.seg l.length
  · rw [if_pos e]
    subst e
    rw [List.getElem?_append, length_slice, get_slice]
    by_cases c : p < P.size (P.seg l.length)
    · rw [if_pos c]
      by_cases c2 : P.top (P.seg l.length) + p < l.length
      · rw [if_pos c2, if_pos (by omega), if_pos c]
      · rw [if_neg c2, if_neg (by omega)]
        congr 1; omega
    · rw [if_neg c, if_neg (by omega), List.getElem?_eq_none (by simp; omega)]
  · rw [if_neg e]
    rw [get_slice]
    by_cases c : p < P.size i
    · rw [if_pos c, if_pos c]
      split
      · rfl
      · next c2 =>
        have hne : l.length ≠ P.top i + p := fun hn => e (by
          have := hP.top_succ i
          exact (hP.seg_eq (n := l.length) (i := i) (by omega) (by omega)).symm)
        rw [List.getElem?_eq_none (by simp; omega), List.getElem?_eq_none (by omega)]
    · rw [if_neg c, if_neg c]

theorem append_seg (hP : P.Ok) {s : SV α} {l : List α} (h : RepS P s l) (hc : l.length < P.top s.used) (x : α) :
    ∃ d, onSeg s.data (P.seg l.length) (fun v => v.emplaceBack P.smax x) = .ok d ∧ RepS P { s with data := d } (l ++ [x]) := by
  have hu := hP.seg_lt_iff.mpr hc
  have h1 := hP.seg_le l.length
  have h2 := hP.seg_lt l.length
  have h3 := hP.top_succ (P.seg l.length)
  obtain ⟨d, e, hd, hl⟩ := onSeg_keep (T := True) h.segs (Nat.lt_of_lt_of_le hu h.segs.len) (op := fun v => v.emplaceBack P.smax x)
    fun v hv hcap => does_emplaceBack hv (by rw [length_slice, hcap hu]; omega) x
  refine ⟨d, e, ⟨hd.mono (Nat.le_refl _) fun i _ => ?_, by simp only [List.length_append, List.length_singleton]; omega,
    fun k hk => hl.trans (h.lim k hk)⟩⟩
  rw [slice_append hP]
  split <;> next e => subst_vars; rfl

theorem constructSegs_spec (hP : P.Ok) (x : α) (n : Nat) : ∀ {s : SV α} {l : List α}, RepS P s l → l.length + n ≤ P.top s.used →
    ∃ d, constructSegs P x s.data n l.length = .ok d ∧ RepS P { s with data := d } (l ++ List.replicate n x) := by
  induction n with
  | zero => intro s l h _; exact ⟨s.data, rfl, by simpa using h⟩
  | succ n ih =>
    intro s l h hc
    obtain ⟨d, e, hd⟩ := append_seg hP h (by omega) x
    obtain ⟨d', e', hd'⟩ := ih hd (by simp only [List.length_append, List.length_singleton]; omega)
    rw [constructSegs, e, ok_bind]
    refine ⟨d', ?_, ?_⟩
    · rw [← e']; simp
    · rw [List.replicate_succ]; simpa using hd'

theorem construct_spec (hP : P.Ok) {s : SV α} {l : List α} (h : RepS P s l) {n : Nat} (hc : l.length + n ≤ P.top s.used) (x : α) :
    ∃ s', s.construct P l.length n x = .ok s' ∧ RepS P s' (l ++ List.replicate n x) ∧ s'.used = s.used := by
  obtain ⟨d, e, hd⟩ := constructSegs_spec hP x n h hc
  rw [SV.construct, size_spec hP h, ok_bind, capacity_spec hP, ensure_true (by simpa using hc), ok_bind, e, ok_bind, validate_spec hd.segs]
  exact ⟨_, rfl, hd, rfl⟩

/-! ## Removing elements -/

theorem clearSegs_spec {u e : Nat} (n : Nat) : ∀ {data : List (Vec α)} {f : Nat → List α}, RepF P data f u → e + n < data.length →
    ∃ d, clearSegs data e n = .ok d ∧ RepF P d (fun i => if e < i ∧ i ≤ e + n then [] else f i) u ∧ d.length = data.length := by
  induction n with
  | zero =>
    intro data f h _
    exact ⟨data, rfl, h.mono (Nat.le_refl _) fun i _ => by rw [if_neg (by omega)], rfl⟩
  | succ n ih =>
    intro data f h hl
    obtain ⟨d, ed, d1, d2⟩ := onSeg_keep (T := True) h (show e + n + 1 < data.length by omega) (op := Vec.clear) (m := [])
      fun v hv _ => does_clear hv
    obtain ⟨d', ed', g1, g2⟩ := ih d1 (by omega)
    rw [clearSegs, ed, ok_bind]
    refine ⟨d', ed', g1.mono (Nat.le_refl _) fun i _ => ?_, g2.trans d2⟩
    by_cases c1 : e < i ∧ i ≤ e + n
    · rw [if_pos c1, if_pos (by omega)]
    · rw [if_neg c1]
      by_cases c2 : i = e + n + 1
      · rw [if_pos c2, if_pos (by omega)]
      · rw [if_neg c2, if_neg (by omega)]

theorem slice_take (hP : P.Ok) (l : List α) (n : Nat) (i : Nat) :
    slice P (l.take n) i = if i = P.seg n then (slice P l i).take (P.idx n) else if P.seg n < i then [] else slice P l i := by
  have h1 := hP.seg_le n
  have h2 := hP.seg_lt n
  have h3 := hP.top_succ (P.seg n)
  apply List.ext_getElem?
  intro p
  rw [get_slice, List.getElem?_take]
  by_cases e : i = P.seg n
  · rw [if_pos e]
    subst e
    rw [List.getElem?_take, get_slice, hP.idx]
    by_cases c : p < P.size (P.seg n)
    · rw [if_pos c, if_pos c]
      by_cases c2 : P.top (P.seg n) + p < n
      · rw [if_pos c2, if_pos (by omega)]
      · rw [if_neg c2, if_neg (by omega)]
    · rw [if_neg c, if_neg c]; split <;> rfl
  · rw [if_neg e]
    by_cases c : P.seg n < i
    · rw [if_pos c]
      have := hP.mono (show P.seg n + 1 ≤ i from c)
      rw [if_neg (show ¬P.top i + p < n by omega)]
      split <;> rfl
    · rw [if_neg c, get_slice]
      have := hP.mono (show i + 1 ≤ P.seg n by omega)
      have h4 := hP.top_succ i
      by_cases c2 : p < P.size i
      · rw [if_pos c2, if_pos c2, if_pos (by omega)]
      · rw [if_neg c2, if_neg c2]

/-- Removing everything from element `n` on: the segments above are cleared, then that of `n` is cut. -/
theorem cut_spec (hP : P.Ok) {s : SV α} {l : List α} (h : RepS P s l) {n : Nat} (hn : n < l.length) {op : Vec α → R (Vec α)}
    (hop : ∀ v, Rep v (slice P l (P.seg n)) → v.cap = P.size (P.seg n) → P.idx n ≤ (slice P l (P.seg n)).length →
      Does False (op v) v ((slice P l (P.seg n)).take (P.idx n)) v.cap) :
    ∃ d d', clearSegs s.data (P.seg n) (P.seg (l.length - 1) - P.seg n) = .ok d ∧ onSeg d (P.seg n) op = .ok d' ∧
      RepF P d' (slice P (l.take n)) s.used ∧ d'.length = s.data.length := by
  have hge := hP.seg_mono (show n ≤ l.length - 1 by omega)
  have hlast := hP.seg_lt_iff.mpr (show l.length - 1 < P.top s.used by have := h.le; omega)
  have hlen := h.segs.len
  have h1 := hP.seg_le n
  have h2 := hP.seg_lt n
  have h3 := hP.top_succ (P.seg n)
  obtain ⟨d, e, d1, d2⟩ := clearSegs_spec (e := P.seg n) (P.seg (l.length - 1) - P.seg n) h.segs (by omega)
  obtain ⟨d', e', g1, g2⟩ := onSeg_keep (op := op) (m := (slice P l (P.seg n)).take (P.idx n)) (T := False) d1
    (show P.seg n < d.length by omega) fun v hv hc => by
      rw [if_neg (by omega)] at hv
      exact hop v hv (hc (by omega)) (by rw [length_slice, hP.idx]; omega)
  refine ⟨d, d', e, e', g1.mono (Nat.le_refl _) fun i _ => ?_, g2.trans d2⟩
  rw [slice_take hP l n]
  by_cases c : i = P.seg n
  · subst c; rw [if_pos rfl, if_pos rfl]
  · rw [if_neg c, if_neg c]
    by_cases c2 : P.seg n < i
    · rw [if_pos c2]
      split
      · rfl
      · apply slice_nil
        have := hP.seg_lt (l.length - 1)
        have := hP.mono (show P.seg (l.length - 1) + 1 ≤ i by omega)
        omega
    · rw [if_neg c2, if_neg (by omega)]

theorem shrink_spec (hP : P.Ok) {s : SV α} {l : List α} (h : RepS P s l) {n : Nat} (hn : n < l.length ∨ n = 0) :
    ∃ s', s.shrink P n = .ok s' ∧ RepS P s' (l.take n) ∧ s'.used = s.used := by
  rw [SV.shrink, size_spec hP h, ok_bind, ensure_true (by simp only [decide_eq_true_eq]; omega), ok_bind]
  by_cases h0 : l.length = 0
  · rw [if_pos h0]
    refine ⟨s, rfl, ?_, rfl⟩
    rw [List.length_eq_zero_iff.mp h0] at h ⊢
    simpa using h
  rw [if_neg h0]
  obtain ⟨d, d', e, e', g1, g2⟩ := cut_spec hP h (n := n) (by omega) (op := fun v => v.erase (P.idx n) v.size) fun v hv _ hi => by
    have := does_erase hv hi (Nat.le_refl _)
    rw [List.drop_length, List.append_nil] at this
    rwa [hv.size]
  rw [e, ok_bind, e', ok_bind, validate_spec (s := { s with data := d' }) g1]
  exact ⟨_, rfl, ⟨g1, by rw [List.length_take]; have := h.le; simp only; omega, fun k hk => g2.trans (h.lim k hk)⟩, rfl⟩

theorem stries_resize (hP : P.Ok) {s : SV α} {l : List α} (h : RepS P s l) (n : Nat) (x : α) :
    STries P n (s.resize P n x) (resized l n x) := by
  rw [SV.resize, size_spec hP h, ok_bind]
  by_cases hn : n < l.length
  · obtain ⟨s', e, h1, -⟩ := shrink_spec hP h (.inl hn)
    simp only [if_pos hn, e, ok_bind]
    rw [validate_spec h1.segs, resized_le (by omega)]
    exact .inr ⟨_, rfl, h1⟩
  · simp only [if_neg hn]
    rw [resized_ge (by omega)]
    by_cases hc : s.capacity P < n
    · rw [if_pos hc]
      rcases internalReserve_spec hP h hc with ⟨hm, e⟩ | ⟨s1, e, h1, h2⟩
      · rw [e]; exact .inl ⟨hm, rfl⟩
      · obtain ⟨s2, e2, g1, -⟩ := construct_spec hP h1 (n := n - l.length) (by omega) x
        rw [e, ok_bind, e2, ok_bind, validate_spec g1.segs]
        exact .inr ⟨_, rfl, g1⟩
    · rw [if_neg hc, ok_bind]
      rw [capacity_spec hP] at hc
      obtain ⟨s2, e2, g1, -⟩ := construct_spec hP h (n := n - l.length) (by omega) x
      rw [e2, ok_bind, validate_spec g1.segs]
      exact .inr ⟨_, rfl, g1⟩

theorem stries_reserve (hP : P.Ok) {s : SV α} {l : List α} (h : RepS P s l) (n : Nat) : STries P n (s.reserve P n) l := by
  rw [SV.reserve]
  split
  · exact .inr ⟨_, rfl, h⟩
  · rcases internalReserve_spec hP h (n := n) (by omega) with h1 | ⟨s1, e, h1, -⟩
    · exact .inl h1
    · exact .inr ⟨_, e, h1⟩

theorem stries_emplaceBack (hP : P.Ok) {s : SV α} {l : List α} (h : RepS P s l) (hm : l.length < P.max) (x : α) :
    STries P (l.length + 1) (s.emplaceBack P x) (l ++ [x]) := by
  rw [SV.emplaceBack, size_spec hP h, ok_bind, ensure_true (by simpa using hm), ok_bind]
  by_cases hc : l.length = s.capacity P
  · simp only [if_pos hc]
    rcases internalReserve_spec hP h (n := s.capacity P + 1) (by omega) with ⟨hm, e⟩ | ⟨s1, e, h1, h2⟩
    · rw [e]; exact .inl ⟨by rw [hc]; exact hm, rfl⟩
    · obtain ⟨d, e2, g⟩ := append_seg hP h1 (by omega) x
      rw [e]; simp only [ok_bind]
      rw [size_spec hP h1, ok_bind, e2, ok_bind]
      exact .inr ⟨_, rfl, g⟩
  · simp only [if_neg hc, ok_bind]
    rw [capacity_spec hP] at hc
    obtain ⟨d, e2, g⟩ := append_seg hP h (by have := h.le; omega) x
    rw [size_spec hP h, ok_bind, e2, ok_bind]
    exact .inr ⟨_, rfl, g⟩

theorem popBack_seg (hP : P.Ok) {s : SV α} {l : List α} (h : RepS P s l) : ∃ s', s.popBack P = .ok s' ∧ RepS P s' l.dropLast := by
  rw [SV.popBack, size_spec hP h, ok_bind]
  split
  · next e =>
    rw [List.length_eq_zero_iff] at e
    subst e
    exact ⟨_, rfl, h⟩
  · obtain ⟨s', e, h1, -⟩ := shrink_spec hP h (n := l.length - 1) (.inl (by omega))
    rw [e, ok_bind, validate_spec h1.segs, List.dropLast_eq_take]
    exact ⟨_, rfl, h1⟩

theorem clear_seg (hP : P.Ok) {s : SV α} {l : List α} (h : RepS P s l) : ∃ s', s.clear P = .ok s' ∧ RepS P s' [] := by
  obtain ⟨s', e, h1, -⟩ := shrink_spec hP h (n := 0) (.inr rfl)
  rw [SV.clear, e, ok_bind, validate_spec h1.segs]
  exact ⟨_, rfl, h1⟩

/-! ## Giving memory back -/

theorem freeSegs_spec {u : Nat} (n : Nat) : ∀ {data : List (Vec α)} {f : Nat → List α} (i : Nat), RepF P data f u → u ≤ i →
    i + n ≤ data.length →
    ∃ d, freeSegs data n i = .ok d ∧ RepF P d (fun j => if i ≤ j ∧ j < i + n then [] else f j) u ∧ d.length = data.length := by
  induction n with
  | zero =>
    intro data f i h _ _
    exact ⟨data, rfl, h.mono (Nat.le_refl _) fun j _ => by rw [if_neg (by omega)], rfl⟩
  | succ n ih =>
    intro data f i h hu hl
    obtain ⟨d, ed, d1, d2⟩ := onSeg_spec (T := True) h (show i < data.length by omega) (op := Vec.freeData) (m := [])
      fun v hv _ _ => ⟨0, does_freeData hv, by omega, .inl rfl⟩
    obtain ⟨d', ed', g1, g2⟩ := ih (i + 1) d1 (by omega) (by omega)
    rw [freeSegs, ed, ok_bind]
    refine ⟨d', ed', g1.mono (Nat.le_refl _) fun j _ => ?_, g2.trans d2⟩
    by_cases c1 : i + 1 ≤ j ∧ j < i + 1 + n
    · rw [if_pos c1, if_pos (by omega)]
    · rw [if_neg c1]
      by_cases c2 : j = i
      · rw [if_pos c2, if_pos (by omega)]
      · rw [if_neg c2, if_neg (by omega)]

theorem freeData_seg (hP : P.Ok) {s : SV α} {l : List α} (h : RepS P s l) : ∃ s', s.freeData = .ok s' ∧ RepS P s' [] := by
  obtain ⟨d, e, d1, d2⟩ := freeSegs_spec s.used 0 (h.segs.mono (Nat.zero_le _) fun _ _ => rfl) (Nat.le_refl _) (by have := h.segs.len; omega)
  rw [SV.freeData, e, ok_bind]
  refine ⟨_, rfl, ⟨d1.mono (Nat.le_refl _) fun i _ => ?_, Nat.zero_le _, fun k hk => d2.trans (h.lim k hk)⟩⟩
  rw [slice_nil (l := []) (Nat.zero_le _)]
  split
  · rfl
  · exact slice_nil (Nat.le_trans h.le (hP.mono (by omega)))

theorem shrinkToFit_seg (hP : P.Ok) {s : SV α} {l : List α} (h : RepS P s l) : ∃ s', s.shrinkToFit P = .ok s' ∧ RepS P s' l := by
  rw [SV.shrinkToFit, size_spec hP h, ok_bind]
  split
  · exact ⟨_, rfl, h⟩
  split
  · exact ⟨_, rfl, h⟩
  next h0 h1 =>
  have hlast := hP.seg_lt_iff.mpr (show l.length - 1 < P.top s.used by have := h.le; omega)
  have hend := hP.seg_lt (l.length - 1)
  have hlen := h.segs.len
  obtain ⟨d, e, d1, d2⟩ := freeSegs_spec (s.used - (P.seg (l.length - 1) + 1)) (P.seg (l.length - 1) + 1)
    (h.segs.mono (show P.seg (l.length - 1) + 1 ≤ s.used from hlast) fun _ _ => rfl) (Nat.le_refl _) (by omega)
  have d3 : RepF P d (slice P l) (P.seg (l.length - 1) + 1) := d1.mono (Nat.le_refl _) fun i _ => by
    split
    · next c => exact (slice_nil (by have := hP.mono c.1; omega)).symm
    · rfl
  obtain ⟨r1, r2, r3⟩ := resizeData_spec (n := P.seg (l.length - 1) + 1) d3 (Nat.le_refl _) fun i hi =>
    slice_nil (Nat.le_trans h.le (hP.mono (by omega)))
  rw [e, ok_bind]
  exact ⟨_, rfl, ⟨r1, by simp only; omega, fun k hk => (r2 k hk).trans (d2.trans (h.lim k hk))⟩⟩

/-! ## Assigning everything -/

theorem assignSegs_spec (x : α) {u : Nat} (n : Nat) : ∀ {data : List (Vec α)} {f : Nat → List α} (i : Nat), RepF P data f u → i + n ≤ u →
    ∃ d, assignSegs P x data n i = .ok d ∧
      RepF P d (fun j => if i ≤ j ∧ j < i + n then List.replicate (P.size j) x else f j) u ∧ d.length = data.length := by
  induction n with
  | zero =>
    intro data f i h _
    exact ⟨data, rfl, h.mono (Nat.le_refl _) fun j _ => by rw [if_neg (by omega)], rfl⟩
  | succ n ih =>
    intro data f i h hl
    obtain ⟨d, ed, d1, d2⟩ := onSeg_keep (T := True) h (show i < data.length by have := h.len; omega)
      (op := fun v => v.assign P.smax (P.size i) x) (m := List.replicate (P.size i) x)
      fun v hv hc => does_assign hv (by rw [hc (by omega)]) x
    obtain ⟨d', ed', g1, g2⟩ := ih (i + 1) d1 (by omega)
    rw [assignSegs, ed, ok_bind]
    refine ⟨d', ed', g1.mono (Nat.le_refl _) fun j _ => ?_, g2.trans d2⟩
    by_cases c1 : i + 1 ≤ j ∧ j < i + 1 + n
    · rw [if_pos c1, if_pos (by omega)]
    · rw [if_neg c1]
      by_cases c2 : j = i
      · subst c2; rw [if_pos rfl, if_pos (by omega)]
      · rw [if_neg c2, if_neg (by omega)]

theorem slice_replicate (n : Nat) (x : α) (i : Nat) : slice P (List.replicate n x) i = List.replicate (min (P.size i) (n - P.top i)) x := by
  rw [slice, List.drop_replicate, List.take_replicate]

theorem stries_assign (hP : P.Ok) {s : SV α} {l : List α} (h : RepS P s l) (n : Nat) (x : α) :
    STries P n (s.assign P n x) (List.replicate n x) := by
  rw [SV.assign]
  by_cases hm : P.max < n
  · rw [if_pos hm]; exact .inl ⟨.inl hm, rfl⟩
  rw [if_neg hm, size_spec hP h, ok_bind]
  -- room, and nothing behind
  have hroom : (P.TooMany n ∧ (if s.capacity P < n then s.internalReserve P n else if n < l.length then s.shrink P n else .ok s) =
      .error .threw) ∨ ∃ s1 m, (if s.capacity P < n then s.internalReserve P n else if n < l.length then s.shrink P n else .ok s) =
      .ok s1 ∧ RepS P s1 m ∧ n ≤ P.top s1.used ∧ m.length ≤ n := by
    by_cases hc : s.capacity P < n
    · rw [if_pos hc]
      rcases internalReserve_spec hP h hc with h1 | ⟨s1, e, h1, h2⟩
      · exact .inl h1
      · exact .inr ⟨s1, l, e, h1, h2, by have := h.le; rw [capacity_spec hP] at hc; omega⟩
    · rw [if_neg hc]
      rw [capacity_spec hP] at hc
      by_cases hn : n < l.length
      · rw [if_pos hn]
        obtain ⟨s1, e, h1, h2⟩ := shrink_spec hP h (.inl hn)
        exact .inr ⟨s1, _, e, h1, by rw [h2]; omega, by rw [List.length_take]; omega⟩
      · rw [if_neg hn]
        exact .inr ⟨s, l, rfl, h, by omega, by omega⟩
  rcases hroom with ⟨ht, e⟩ | ⟨s1, m, e, h1, h2, h3⟩
  · refine .inl ⟨ht, ?_⟩
    by_cases hc : s.capacity P < n
    · rw [if_pos hc] at e; simp only [if_pos hc]; rw [e]; rfl
    · rw [if_neg hc] at e; simp only [if_neg hc]
      by_cases hn : n < l.length
      · rw [if_pos hn] at e; simp only [if_pos hn]; rw [e]; rfl
      · rw [if_neg hn] at e; cases e
  have goal : STries P n (if n = 0 then s1.validate P
      else do
        let data ← assignSegs P x s1.data (P.seg (n - 1)) 0
        let data ← onSeg data (P.seg (n - 1)) fun v => v.assign P.smax (n - P.top (P.seg (n - 1))) x
        SV.validate P ⟨data, P.seg (n - 1) + 1⟩) (List.replicate n x) := by
    by_cases h0 : n = 0
    · rw [if_pos h0, validate_spec h1.segs]
      subst h0
      rw [List.length_eq_zero_iff.mp (show m.length = 0 by omega)] at h1
      exact .inr ⟨_, rfl, h1⟩
    · rw [if_neg h0]
      have hu := hP.seg_lt_iff.mpr (show n - 1 < P.top s1.used by omega)
      have hlo := hP.seg_le (n - 1)
      have hhi := hP.seg_lt (n - 1)
      have hsz := hP.top_succ (P.seg (n - 1))
      obtain ⟨d, e1, d1, d2⟩ := assignSegs_spec x (P.seg (n - 1)) 0 (h1.segs.mono (show P.seg (n - 1) + 1 ≤ s1.used from hu) fun _ _ => rfl)
        (by omega)
      obtain ⟨d', e2, g1, g2⟩ := onSeg_keep (T := True) d1 (show P.seg (n - 1) < d.length by have := d1.len; omega)
        (op := fun v => v.assign P.smax (n - P.top (P.seg (n - 1))) x) (m := List.replicate (n - P.top (P.seg (n - 1))) x)
        fun v hv hc => does_assign hv (by rw [hc (by omega)]; omega) x
      have g3 : RepF P d' (slice P (List.replicate n x)) (P.seg (n - 1) + 1) := g1.mono (Nat.le_refl _) fun i _ => by
        rw [slice_replicate]
        by_cases c : i = P.seg (n - 1)
        · rw [if_pos c]; congr 1; rw [c]; omega
        · rw [if_neg c]
          by_cases c2 : i < P.seg (n - 1)
          · rw [if_pos (by omega)]
            have := hP.mono (show i + 1 ≤ P.seg (n - 1) from c2)
            have := hP.top_succ i
            congr 1; omega
          · rw [if_neg (by omega)]
            have := hP.mono (show P.seg (n - 1) + 1 ≤ i by omega)
            rw [slice_nil (by omega), show n - P.top i = 0 by omega]
            simp
      rw [e1, ok_bind, e2, ok_bind, validate_spec (s := ⟨d', P.seg (n - 1) + 1⟩) g3]
      exact .inr ⟨_, rfl, ⟨g3, by rw [List.length_replicate]; simp only; omega, fun k hk => g2.trans (d2.trans (h1.lim k hk))⟩⟩
  by_cases hc : s.capacity P < n
  · rw [if_pos hc] at e; simp only [if_pos hc]; rw [e]; exact goal
  · rw [if_neg hc] at e; simp only [if_neg hc]
    by_cases hn : n < l.length
    · rw [if_pos hn] at e; simp only [if_pos hn]; rw [e]; exact goal
    · rw [if_neg hn] at e; simp only [if_neg hn]; rw [e]; exact goal

/-! ## Moving elements -/

theorem moveDown_seg (hP : P.Ok) (n : Nat) : ∀ i j {s : SV α} {l : List α}, RepS P s l → i ≤ j → j + n ≤ l.length →
    ∃ s', s.moveDown P n i j = .ok s' ∧ RepS P s' (listDown n i j l) ∧ s'.used = s.used := by
  induction n with
  | zero => exact fun i j s l h _ _ => ⟨s, rfl, h, rfl⟩
  | succ n ih =>
    intro i j s l h hij hj
    have hm : j < l.length := by omega
    obtain ⟨s1, e, h1, h2⟩ := set_seg hP h (show i < l.length by omega) l[j]
    obtain ⟨s2, e2, g1, g2⟩ := ih (i + 1) (j + 1) h1 (by omega) (by rw [List.length_set]; omega)
    rw [SV.moveDown, get_seg hP h hm, ok_bind, e, ok_bind, listDown, dif_pos hm]
    exact ⟨s2, e2, g1, g2.trans h2⟩

theorem erase_seg (hP : P.Ok) (d : α) {s : SV α} {l : List α} (h : RepS P s l) {i j : Nat} (hij : i ≤ j) (hj : j ≤ l.length) :
    ∃ s', s.erase P d i j = .ok s' ∧ RepS P s' (l.take i ++ l.drop j) := by
  rw [SV.erase]
  split
  · next e =>
    have : i = j := by omega
    subst this
    rw [List.take_append_drop]
    exact ⟨_, rfl, h⟩
  · next hne =>
    obtain ⟨s1, e1, h1, h2⟩ := moveDown_seg hP (l.length - j) i j h hij (by omega)
    obtain ⟨d1, d2, e2, e3, g1, g2⟩ := cut_spec hP h1 (n := l.length - (j - i)) (by rw [length_listDown]; omega)
      (op := fun v => v.resize P.smax (P.idx (l.length - (j - i))) d) fun v hv hc hi => by
        have h3 := does_resize (max := P.smax) hv (n := P.idx (l.length - (j - i))) (by have := hv.le; rw [hv.size] at this; omega) d
        rw [resized_le hi] at h3
        exact h3.weaken fun h => h.elim
    rw [length_listDown] at e2
    rw [size_spec hP h, ok_bind, e1, ok_bind, e2, ok_bind, e3, ok_bind]
    have hlt := hP.seg_lt_iff.mpr (show l.length - (j - i) < P.top s.used by have := h.le; omega)
    have hend := hP.seg_lt (l.length - (j - i))
    rw [erase_list hij hj] at g1
    have g3 : RepF P d2 (slice P (l.take i ++ l.drop j)) (P.seg (l.length - (j - i)) + 1) := g1.mono (by omega) fun _ _ => rfl
    rw [validate_spec (s := ⟨d2, P.seg (l.length - (j - i)) + 1⟩) g3]
    refine ⟨_, rfl, ⟨g3, ?_, fun k hk => g2.trans (h1.lim k hk)⟩⟩
    simp only [List.length_append, List.length_take, List.length_drop]; omega

/-- Moving `k` elements from position `i` on up by `c` places, the last one first. -/
def listUp (i c : Nat) : Nat → List α → List α
  | 0, l => l
  | k + 1, l => if h : i + k < l.length then listUp i c k (l.set (i + k + c) l[i + k]) else l

theorem length_listUp (i c k : Nat) : ∀ l : List α, (listUp i c k l).length = l.length := by
  induction k with
  | zero => exact fun _ => rfl
  | succ k ih =>
    intro l
    rw [listUp]
    split
    · rw [ih, List.length_set]
    · rfl

theorem get_listUp (i c k : Nat) : ∀ (l : List α), i + k + c ≤ l.length → ∀ p,
    (listUp i c k l)[p]? = if i + c ≤ p ∧ p < i + c + k then l[p - c]? else l[p]? := by
  induction k with
  | zero => intro l _ p; rw [if_neg (by omega)]; rfl
  | succ k ih =>
    intro l hl p
    rw [listUp, dif_pos (by omega), ih _ (by rw [List.length_set]; omega), List.getElem?_set, List.getElem?_set]
    by_cases e : i + k + c = p
    · subst e
      rw [if_neg (by omega), if_pos rfl, if_pos (by omega), if_pos (by omega), show i + k + c - c = i + k by omega,
        List.getElem?_eq_getElem (by omega)]
    · rw [if_neg e]
      by_cases c2 : i + c ≤ p ∧ p < i + c + (k + 1)
      · rw [if_pos c2, if_pos (by omega), if_neg (by omega)]
      · rw [if_neg c2, if_neg (by omega)]

theorem moveUp_seg (hP : P.Ok) (i c k : Nat) : ∀ {s : SV α} {l : List α}, RepS P s l → i + k + c ≤ l.length →
    ∃ s', s.moveUp P i c k = .ok s' ∧ RepS P s' (listUp i c k l) := by
  induction k with
  | zero => exact fun {s} {l} h _ => ⟨s, rfl, h⟩
  | succ k ih =>
    intro s l h hk
    have hm : i + k < l.length := by omega
    by_cases hz : i + k + c < l.length
    · obtain ⟨s1, e, h1, h2⟩ := set_seg hP h hz l[i + k]
      obtain ⟨s2, e2, g1⟩ := ih h1 (by rw [List.length_set]; omega)
      rw [SV.moveUp, get_seg hP h hm, ok_bind, e, ok_bind, listUp, dif_pos hm]
      exact ⟨s2, e2, g1⟩
    · omega

theorem fillFrom_seg (hP : P.Ok) (x : α) (n : Nat) : ∀ i {s : SV α} {l : List α}, RepS P s l → i + n ≤ l.length →
    ∃ s', s.fillFrom P (fun _ => .ok x) n i = .ok s' ∧ RepS P s' (l.take i ++ List.replicate n x ++ l.drop (i + n)) := by
  induction n with
  | zero => intro i s l h _; exact ⟨s, rfl, by simpa using h⟩
  | succ n ih =>
    intro i s l h hi
    obtain ⟨s1, e, h1, -⟩ := set_seg hP h (show i < l.length by omega) x
    obtain ⟨s2, e2, g1⟩ := ih (i + 1) h1 (by rw [List.length_set]; omega)
    rw [SV.fillFrom, ok_bind, e, ok_bind]
    refine ⟨s2, e2, ?_⟩
    convert g1 using 1
    rw [List.take_succ_eq_append_getElem (by rw [List.length_set]; omega), List.take_set_of_le (Nat.le_refl _), List.getElem_set_self,
      List.drop_set_of_lt (by omega), List.replicate_succ, show i + (n + 1) = i + 1 + n by omega]
    simp

theorem insert_list (l : List α) {i n : Nat} (hi : i ≤ l.length) (x d : α) :
    (listUp i n (l.length - i) (l ++ List.replicate n d)).take i ++ List.replicate n x ++
      (listUp i n (l.length - i) (l ++ List.replicate n d)).drop (i + n) = l.take i ++ List.replicate n x ++ l.drop i := by
  have hl : i + (l.length - i) + n ≤ (l ++ List.replicate n d).length := by simp; omega
  congr 1
  · congr 1
    apply List.ext_getElem?
    intro p
    by_cases c : p < i
    · rw [List.getElem?_take_of_lt c, List.getElem?_take_of_lt c, get_listUp _ _ _ _ hl, if_neg (by omega),
        List.getElem?_append_left (by omega)]
    · rw [List.getElem?_eq_none (by rw [List.length_take]; omega), List.getElem?_eq_none (by rw [List.length_take]; omega)]
  · apply List.ext_getElem?
    intro p
    rw [List.getElem?_drop, List.getElem?_drop, get_listUp _ _ _ _ hl]
    by_cases c : p < l.length - i
    · rw [if_pos (by omega), List.getElem?_append_left (by omega)]
      congr 1; omega
    · rw [if_neg (by omega), List.getElem?_eq_none (by simp; omega), List.getElem?_eq_none (by omega)]

theorem stries_insert (hP : P.Ok) (d : α) {s : SV α} {l : List α} (h : RepS P s l) {i : Nat} (hi : i ≤ l.length) (n : Nat) (x : α) :
    STries P (l.length + n) (s.insert P d i n x) (l.take i ++ List.replicate n x ++ l.drop i) := by
  rw [SV.insert, SV.insertGap]
  by_cases h0 : n = 0
  · rw [if_pos h0, ok_bind]
    subst h0
    simp only [List.replicate_zero, List.append_nil, List.take_append_drop]
    exact .inr ⟨s, rfl, h⟩
  rw [if_neg h0, size_spec hP h, ok_bind]
  have rest : ∀ {s1 : SV α}, RepS P s1 l → STries P (l.length + n) ((do
      let s ← s1.resize P (l.length + n) d
      let s ← s.moveUp P i n (l.length - i)
      s.validate P) >>= fun s => s.fillFrom P (fun _ => .ok x) n i) (l.take i ++ List.replicate n x ++ l.drop i) := by
    intro s1 h1
    rcases stries_resize hP h1 (l.length + n) d with ⟨hm, e⟩ | ⟨s2, e, h2⟩
    · rw [e]; exact .inl ⟨hm, rfl⟩
    · rw [resized_ge (by omega), show l.length + n - l.length = n by omega] at h2
      obtain ⟨s3, e3, h3⟩ := moveUp_seg hP i n (l.length - i) h2 (by simp; omega)
      obtain ⟨s4, e4, h4⟩ := fillFrom_seg hP x n i h3 (by rw [length_listUp]; simp; omega)
      rw [e, ok_bind, e3, ok_bind, validate_spec h3.segs, ok_bind, e4]
      rw [insert_list l hi] at h4
      exact .inr ⟨_, rfl, h4⟩
  by_cases hc : s.capacity P < l.length + n
  · simp only [if_pos hc]
    rcases internalReserve_spec hP h hc with ⟨hm, e⟩ | ⟨s1, e, h1, -⟩
    · rw [e]; exact .inl ⟨hm, rfl⟩
    · rw [e]; exact rest h1
  · simp only [if_neg hc]
    exact rest h

theorem rep_new_seg : RepS P (SV.empty P : SV α) [] := by
  refine ⟨⟨fun i v hi => ?_, fun i v _ hl => (by cases hl), fun i v hi => ?_, Nat.zero_le _⟩, Nat.zero_le _, fun k hk => ?_⟩
  · rw [SV.empty, List.getElem?_replicate] at hi
    split at hi
    · cases hi; rw [slice_nil (l := []) (Nat.zero_le _)]; exact rep_empty
    · cases hi
  · rw [SV.empty, List.getElem?_replicate] at hi
    split at hi
    · cases hi; exact .inl rfl
    · cases hi
  · rw [SV.empty, hk]; simp

/-! ## The policies -/

theorem fixed_ok {k max smax : Nat} {limit : Option Nat} (hk : 0 < k) (hl : ∀ m, limit = some m → max ≤ m * k) :
    (Policy.fixed k max smax limit).Ok where
  top0 := Nat.zero_mul k
  top_succ i := Nat.succ_mul i k
  pos _ := hk
  seg_le n := Nat.div_mul_le_self n k
  seg_lt n := by
    show n < (n / k + 1) * k
    rw [Nat.mul_comm]; exact Nat.lt_mul_div_succ n hk
  idx n := by
    show n % k = n - n / k * k
    have := Nat.div_add_mod n k
    rw [Nat.mul_comm] at this; omega
  cap _ := rfl
  lim m hm n hn := by
    show n / k < m
    exact Nat.div_lt_of_lt_mul (by have := hl m hm; rw [Nat.mul_comm] at this; exact Nat.lt_of_lt_of_le hn this)

theorem expTop_zero : expTop 0 = 0 := rfl

theorem expTop_succ (i : Nat) : expTop (i + 1) = 2 ^ (i + 1) := by
  rw [expTop, Nat.one_shiftLeft, Nat.pow_succ]; omega

theorem log2_or (n : Nat) : Nat.log2 (n ||| 1) = if n = 0 then 0 else Nat.log2 n := by
  split
  · next e => subst e; rfl
  · next e =>
    have h0 : n ||| 1 ≠ 0 := by
      have := Nat.left_le_or (n := n) (m := 1); omega
    rw [Nat.log2_eq_iff h0]
    obtain ⟨h1, h2⟩ := (Nat.log2_eq_iff e).mp rfl
    refine ⟨Nat.le_trans h1 Nat.left_le_or, Nat.or_lt_two_pow h2 ?_⟩
    exact Nat.one_lt_two_pow (by omega)

theorem exponential_ok {max smax : Nat} {limit : Option Nat} (hl : ∀ m, limit = some m → max ≤ 2 ^ m) (hm : limit ≠ some 0) :
    (Policy.exponential max smax limit).Ok := by
  have hsz : ∀ i, expTop (i + 1) = expTop i + expSize i := by
    intro i
    rw [expSize]
    cases i with
    | zero => rfl
    | succ i => rw [if_neg (by omega), expTop_succ, expTop_succ, Nat.pow_succ]; omega
  have hle : ∀ n, expTop (Nat.log2 (n ||| 1)) ≤ n ∧ n < expTop (Nat.log2 (n ||| 1) + 1) := by
    intro n
    rw [log2_or]
    split
    · next e => subst e; exact ⟨Nat.le_refl _, by decide⟩
    · next e =>
      obtain ⟨h1, h2⟩ := (Nat.log2_eq_iff e).mp rfl
      refine ⟨?_, by rw [expTop_succ]; exact h2⟩
      have : expTop (Nat.log2 n) ≤ 2 ^ Nat.log2 n := by rw [expTop, Nat.one_shiftLeft]; omega
      omega
  refine ⟨rfl, hsz, fun i => ?_, fun n => (hle n).1, fun n => (hle n).2, fun _ => rfl, fun i => ?_, fun k hk n hn => ?_⟩
  · show 0 < expSize i
    rw [expSize]
    cases i with
    | zero => decide
    | succ i => rw [if_neg (by omega), expTop_succ]; exact Nat.two_pow_pos _
  · show (if i = 0 then 2 else expSize i * 2) = expTop (i + 1)
    rw [expTop_succ, expSize]
    cases i with
    | zero => rfl
    | succ i => rw [if_neg (by omega), if_neg (by omega), expTop_succ, Nat.pow_succ (m := i + 1)]
  · show Nat.log2 (n ||| 1) < k
    have h0 : k ≠ 0 := fun e => hm (by rw [← e]; exact hk)
    rw [log2_or]
    split
    · omega
    · next e =>
      have := hl k hk
      exact (Nat.log2_lt e).mpr (Nat.lt_of_lt_of_le hn this)

end PMap.Pmem.Seg
