import Verif.Fixed.Spec
import Verif.Seq.Ops

/-!
# Calls on keys that are already in a table that does not grow (proof machinery)

`lwp D op Q p c`: in every memory that represents, in the way described by `D`, some ordinary map, the next action of `p`
either leaves that map as it is, or (once, while `c = none`) changes it to what the call `op` makes of it and fixes the
result the call must return, or (likewise, if another thread may store what it waits for) lets a conditional call give up; and so on
to the end.  Nothing is assumed about what other threads do between two actions except that the memory still represents some map, and
that a value word they change is clean or stored by one of their calls.
-/

namespace PMap

open Prog

/-- The parts of the memory that do not change: the number and length of the table, the keys in its slots, the keys whose
values may change, the slot of each of them, and which of them may be removed; and the thread whose call is looked at, and which thread
may store what under which key. -/
structure Desc where
  tab : Nat
  len : Nat
  key : Nat → Word
  has : Word → Prop
  slot : Word → Nat
  rem : Word → Bool
  me : Nat
  stored : Nat → Word → Word → Prop

/-- The call `op` of this thread waits for a content that another thread may store. -/
def Desc.spur (D : Desc) (op : Op) : Prop := ∃ k o, op.expects = some (k, o) ∧ ∃ j, j ≠ D.me ∧ D.stored j k o

/-- How the content of a key is stored. -/
def enc (o : Option Word) : Word := o.getD VTOMBSTONE

/-- Facts about a description used by the probe loops. -/
structure Desc.OK (hash : Word → Word) (D : Desc) : Prop where
  pow : ∃ p, p ≤ 32 ∧ D.len = 2 ^ p
  path : ∀ k, D.has k → ∃ d, d < reprobeLimit D.len ∧ D.slot k = (homePut hash k D.len + d) % D.len ∧
    ∀ e, e < d → D.key ((homePut hash k D.len + e) % D.len) ≠ KINITIAL ∧
      D.key ((homePut hash k D.len + e) % D.len) ≠ KTOMBSTONE ∧ D.key ((homePut hash k D.len + e) % D.len) ≠ k
  at_slot : ∀ k, D.has k → D.key (D.slot k) = k
  valid : ∀ k, D.has k → ValidKey k

/-- The contents the described memory can represent. -/
structure Fits (D : Desc) (M : AMap) : Prop where
  vals : ∀ k, D.has k → ∀ v, M k = some v → ValidVal v
  there : ∀ k, D.rem k = false → D.has k → M k ≠ none
  absent : ∀ k, ValidKey k → ¬ D.has k → M k = none

/-- The memory represents the map. -/
structure Rep (D : Desc) (m : Mem) (M : AMap) : Prop where
  root : m.root = D.tab
  lt : D.tab < m.next
  len : (m.tab D.tab).len = D.len
  newT : (m.tab D.tab).newT = none
  ok : m.failed = false
  keys : ∀ i, i < D.len → clean (m.word (.key D.tab i)) = D.key i
  vals : ∀ k, D.has k → clean (m.word (.val D.tab (D.slot k))) = enc (M k)
  rest : ∀ i, i < D.len → ¬ D.has (D.key i) → ValidKey (D.key i) →
    clean (m.word (.val D.tab i)) = VINITIAL ∨ clean (m.word (.val D.tab i)) = VTOMBSTONE
  fits : Fits D M

variable {D : Desc} {op : Op} {α β σ : Type}

/-- The value word of `k` is still `w`, or it is clean or stored by another thread than `j`. -/
def Desc.Seen (D : Desc) (j : Nat) (k w : Word) (m : Mem) : Prop :=
  m.word (.val D.tab (D.slot k)) = w ∨
    (isDirty (m.word (.val D.tab (D.slot k))) = true → ∃ i, i ≠ j ∧ D.stored i k (clean (m.word (.val D.tab (D.slot k)))))

/-- What the thread knows. -/
def Desc.Knows (D : Desc) (K : Option (Word × Word)) (m : Mem) : Prop := ∀ p, K = some p → D.has p.1 ∧ D.Seen D.me p.1 p.2 m

/-- What other threads know stays true. -/
def Desc.Keep (D : Desc) (m m2 : Mem) : Prop := ∀ j k w, j ≠ D.me → D.has k → D.Seen j k w m → D.Seen j k w m2

theorem Desc.knows_none (D : Desc) (m : Mem) : D.Knows none m := fun _ h => by cases h

theorem Desc.keep_same {m m2 : Mem} (h : ∀ a, m2.word a = m.word a) : D.Keep m m2 := by
  intro j k w _ _ hs
  rw [Desc.Seen, h]
  exact hs

theorem Desc.Knows.same {K : Option (Word × Word)} {m m2 : Mem} (h : D.Knows K m) (hw : ∀ a, m2.word a = m.word a) : D.Knows K m2 := by
  intro p hp
  refine ⟨(h p hp).1, ?_⟩
  rw [Desc.Seen, hw]
  exact (h p hp).2

/-- See the head of this file; `K` is what the thread knows. -/
def lwpK (D : Desc) (op : Op) (Q : α → Option Res → Prop) : Prog α → Option Res → Option (Word × Word) → Prop
  | .ret a, c, _ => Q a c
  | .halt h, _, _ => h ≠ .ub
  | .act a k, c, K => ∀ m M, Rep D m M → D.Knows K m → (c = none → Fits D (specNext op M)) →
      ∃ r m2, a.exec m = some (r, m2) ∧ D.Keep m m2 ∧ ∃ K', D.Knows K' m2 ∧
        ((Rep D m2 M ∧ lwpK D op Q (k r) c K') ∨
         (c = none ∧ Rep D m2 (specNext op M) ∧
           ∃ x, (∀ y, specRes op M = some y → x = y) ∧ lwpK D op Q (k r) (some x) K') ∨
         (c = none ∧ D.spur op ∧ Rep D m2 M ∧ ∃ x, spurRes op M = some x ∧ lwpK D op Q (k r) (some x) K'))

/-- The same where the thread knows nothing. -/
def lwp (D : Desc) (op : Op) (Q : α → Option Res → Prop) (p : Prog α) (c : Option Res) : Prop := lwpK D op Q p c none

theorem lwp.any {Q : α → Option Res → Prop} {p : Prog α} {c : Option Res} (h : lwp D op Q p c) (K : Option (Word × Word)) :
    lwpK D op Q p c K := by
  cases p with
  | ret a => exact h
  | halt x => exact h
  | act a k => exact fun m M h1 _ h2 => h m M h1 (D.knows_none m) h2

/-- An action after which nothing is known. -/
theorem lwp_act {a : Act} {k : a.Resp → Prog α} {Q : α → Option Res → Prop} {c : Option Res}
    (h : ∀ m M, Rep D m M → (c = none → Fits D (specNext op M)) → ∃ r m2, a.exec m = some (r, m2) ∧ D.Keep m m2 ∧
      ((Rep D m2 M ∧ lwp D op Q (k r) c) ∨
       (c = none ∧ Rep D m2 (specNext op M) ∧ ∃ x, (∀ y, specRes op M = some y → x = y) ∧ lwp D op Q (k r) (some x)) ∨
       (c = none ∧ D.spur op ∧ Rep D m2 M ∧ ∃ x, spurRes op M = some x ∧ lwp D op Q (k r) (some x)))) :
    lwp D op Q (.act a k) c := by
  intro m M h1 _ h2
  obtain ⟨r, m2, e, h3, h4⟩ := h m M h1 h2
  exact ⟨r, m2, e, h3, none, D.knows_none m2, h4⟩

theorem lwp_ret {Q : α → Option Res → Prop} {a : α} {c : Option Res} (h : Q a c) : lwp D op Q (.ret a) c := h
theorem lwp_pure {Q : α → Option Res → Prop} {a : α} {c : Option Res} (h : Q a c) : lwp D op Q (pure a) c := h
theorem lwp_fuel {Q : α → Option Res → Prop} {c : Option Res} : lwp D op Q (.halt .fuel) c := by rw [lwp, lwpK]; decide

theorem lwpK_mono {Q Q' : α → Option Res → Prop} {p : Prog α} {c : Option Res} {K : Option (Word × Word)} (h : lwpK D op Q p c K)
    (hq : ∀ a c', Q a c' → Q' a c') : lwpK D op Q' p c K := by
  induction p generalizing c K with
  | ret a => exact hq _ _ h
  | halt x => exact h
  | act a k ih =>
    intro m M h1 hK h2
    obtain ⟨r, m2, e, hk, K', hK', h3⟩ := h m M h1 hK h2
    refine ⟨r, m2, e, hk, K', hK', ?_⟩
    rcases h3 with ⟨h3, h4⟩ | ⟨h3, h4, x, h5, h6⟩ | ⟨h3, h7, h4, x, h5, h6⟩
    · exact .inl ⟨h3, ih r h4⟩
    · exact .inr (.inl ⟨h3, h4, x, h5, ih r h6⟩)
    · exact .inr (.inr ⟨h3, h7, h4, x, h5, ih r h6⟩)

theorem lwp_mono {Q Q' : α → Option Res → Prop} {p : Prog α} {c : Option Res} (h : lwp D op Q p c)
    (hq : ∀ a c', Q a c' → Q' a c') : lwp D op Q' p c := lwpK_mono h hq

theorem lwpK_bind {Q : β → Option Res → Prop} {p : Prog α} {f : α → Prog β} {c : Option Res} {K : Option (Word × Word)}
    (h : lwpK D op (fun a c' => lwp D op Q (f a) c') p c K) : lwpK D op Q (p.bind f) c K := by
  induction p generalizing c K with
  | ret a => exact lwp.any h K
  | halt x => exact h
  | act a k ih =>
    intro m M h1 hK h2
    obtain ⟨r, m2, e, hk, K', hK', h3⟩ := h m M h1 hK h2
    refine ⟨r, m2, e, hk, K', hK', ?_⟩
    rcases h3 with ⟨h3, h4⟩ | ⟨h3, h4, x, h5, h6⟩ | ⟨h3, h7, h4, x, h5, h6⟩
    · exact .inl ⟨h3, ih r h4⟩
    · exact .inr (.inl ⟨h3, h4, x, h5, ih r h6⟩)
    · exact .inr (.inr ⟨h3, h7, h4, x, h5, ih r h6⟩)

theorem lwp_bind {Q : β → Option Res → Prop} {p : Prog α} {f : α → Prog β} {c : Option Res}
    (h : lwp D op (fun a c' => lwp D op Q (f a) c') p c) : lwp D op Q (p.bind f) c := lwpK_bind h

theorem lwp_bind' {Q : β → Option Res → Prop} {p : Prog α} {f : α → Prog β} {c : Option Res}
    (h : lwp D op (fun a c' => lwp D op Q (f a) c') p c) : lwp D op Q (p >>= f) c := lwp_bind h

theorem lwp_loop {body : σ → Prog (Ctl σ α)} {Q : α → Option Res → Prop} (I : σ → Option Res → Prop)
    (hb : ∀ x c, I x c → lwp D op (fun r c' => match r with | .next x' => I x' c' | .done a => Q a c') (body x) c)
    (n : Nat) : ∀ x c, I x c → lwp D op Q (loop n body x) c := by
  induction n with
  | zero => intro x c _; exact lwp_fuel
  | succ n ih =>
    intro x c hI
    refine lwp_bind (lwp_mono (hb x c hI) ?_)
    rintro (x' | a) c' h
    · exact ih x' c' h
    · exact h

/-! ## Single actions -/

/-- An action that changes neither the map nor the state of the call. -/
theorem lwp_same {a : Act} {Q : a.Resp → Option Res → Prop} {c : Option Res}
    (h : ∀ m M, Rep D m M → ∃ r m2, a.exec m = some (r, m2) ∧ D.Keep m m2 ∧ Rep D m2 M ∧ Q r c) : lwp D op Q (do1 a) c := by
  refine lwp_act fun m M h1 _ => ?_
  obtain ⟨r, m2, e, h0, h2, h3⟩ := h m M h1
  exact ⟨r, m2, e, h0, .inl ⟨h2, h3⟩⟩

/-- A slot of the table. -/
def Desc.Slot (D : Desc) (a : Addr) : Prop := a.tab = D.tab ∧ a.idx < D.len

theorem Rep.exec_ok {m : Mem} {M : AMap} (h : Rep D m M) {a : Addr} (ha : D.Slot a) :
    a.tab < m.next ∧ a.idx < (m.tab a.tab).len := by
  rw [ha.1]; exact ⟨h.lt, by rw [h.len]; exact ha.2⟩

/-- The clean content of the words is all that matters. -/
theorem Rep.congr {m m' : Mem} {M : AMap} (h : Rep D m M) (hw : ∀ a, clean (m'.word a) = clean (m.word a))
    (h1 : m'.root = m.root) (h2 : m'.next = m.next) (h3 : m'.tab = m.tab) (h4 : m'.failed = m.failed) : Rep D m' M where
  root := by rw [h1]; exact h.root
  lt := by rw [h2]; exact h.lt
  len := by rw [h3]; exact h.len
  newT := by rw [h3]; exact h.newT
  ok := by rw [h4]; exact h.ok
  keys i hi := by rw [hw]; exact h.keys i hi
  vals k hk := by rw [hw]; exact h.vals k hk
  rest i hi h1 h2 := by rw [hw]; exact h.rest i hi h1 h2
  fits := h.fits

theorem lwp_check {b : Bool} (hb : b = true) {Q : Unit → Option Res → Prop} {c : Option Res} (h : Q () c) :
    lwp D op Q (check b) c := by
  refine lwp_same fun m M hR => ⟨_, _, rfl, Desc.keep_same fun _ => rfl, hR.congr (fun _ => rfl) rfl rfl rfl ?_, h⟩
  simp [hb]

theorem lwp_getRoot {Q : Nat → Option Res → Prop} {c : Option Res} (h : Q D.tab c) : lwp D op Q (do1 .getRoot) c :=
  lwp_same fun m _ hR => ⟨m.root, m, rfl, Desc.keep_same fun _ => rfl, hR, by rw [hR.root]; exact h⟩

theorem lwp_len {Q : Nat → Option Res → Prop} {c : Option Res} (h : Q D.len c) : lwp D op Q (do1 (.len D.tab)) c :=
  lwp_same fun m _ hR => ⟨D.len, m, by simp [Act.exec, hR.lt, hR.len], Desc.keep_same fun _ => rfl, hR, h⟩

theorem lwp_getNew {Q : Option Nat → Option Res → Prop} {c : Option Res} (h : Q none c) :
    lwp D op Q (do1 (.getNew D.tab)) c :=
  lwp_same fun m _ hR => ⟨none, m, by simp [Act.exec, hR.lt, hR.newT], Desc.keep_same fun _ => rfl, hR, h⟩

theorem lwp_getSize {Q : Word → Option Res → Prop} {c : Option Res} (h : ∀ w, Q w c) :
    lwp D op Q (do1 (.getSize D.tab)) c :=
  lwp_same fun m _ hR => ⟨(m.tab D.tab).size, m, by simp only [Act.exec, hR.lt, if_true], Desc.keep_same fun _ => rfl, hR, h _⟩

theorem Rep.addSize {m : Mem} {M : AMap} (h : Rep D m M) (d : Word) :
    Rep D { m with tab := upd m.tab D.tab { m.tab D.tab with size := (m.tab D.tab).size + d } } M where
  root := h.root
  lt := h.lt
  len := by simp only [upd, if_true]; exact h.len
  newT := by simp only [upd, if_true]; exact h.newT
  ok := h.ok
  keys := h.keys
  vals := h.vals
  rest := h.rest
  fits := h.fits

theorem lwp_addSize {d : Word} {Q : Unit → Option Res → Prop} {c : Option Res} (h : Q () c) :
    lwp D op Q (do1 (.addSize D.tab d)) c :=
  lwp_same fun m _ hR => ⟨(), { m with tab := upd m.tab D.tab { m.tab D.tab with size := (m.tab D.tab).size + d } },
    by simp only [Act.exec, hR.lt, if_true], Desc.keep_same fun _ => rfl, hR.addSize d, h⟩

theorem lwp_fence {Q : Unit → Option Res → Prop} {c : Option Res} (h : Q () c) : lwp D op Q (do1 .fence) c :=
  lwp_same fun m _ hR => ⟨(), m, rfl, Desc.keep_same fun _ => rfl, hR, h⟩

theorem lwp_flush {a : Addr} (ha : D.Slot a) {Q : Unit → Option Res → Prop} {c : Option Res} (h : Q () c) :
    lwp D op Q (do1 (.flush a)) c := by
  refine lwp_same fun m M hR => ⟨(), { m with nv := writeBack m a.tab a.idx }, ?_, Desc.keep_same fun _ => rfl, hR.congr (fun _ => rfl) rfl rfl rfl rfl, h⟩
  rw [Act.exec, if_pos (hR.exec_ok ha)]

/-- Clearing a dirty bit hurts nobody. -/
theorem Desc.keep_clean {m : Mem} {a : Addr} {v : Word} :
    D.Keep m { m with word := setWord m.word a (clearMark v DirtyFlag) } := by
  intro j k w _ _ hs
  simp only [Desc.Seen, setWord] at hs ⊢
  split
  · exact .inr fun h => by rw [show clearMark v DirtyFlag = clean v from rfl, isDirty_clean] at h; cases h
  · exact hs

/-- A CAS that at most clears a dirty bit. -/
theorem lwp_casClean {a : Addr} (ha : D.Slot a) {v : Word} {Q : Bool × Word → Option Res → Prop} {c : Option Res}
    (h : ∀ r, Q r c) : lwp D op Q (do1 (.cas a v (clearMark v DirtyFlag))) c := by
  refine lwp_same fun m M hR => ?_
  by_cases hw : m.word a = v
  · refine ⟨_, { m with word := setWord m.word a (clearMark v DirtyFlag) }, ?_, Desc.keep_clean, ?_, h (true, v)⟩
    · rw [Act.exec, if_pos (hR.exec_ok ha), if_pos hw]
    · refine hR.congr (fun b => ?_) rfl rfl rfl rfl
      simp only [setWord]
      split
      · next e => subst e; rw [hw]; exact clean_clean v
      · rfl
  · exact ⟨_, m, by rw [Act.exec, if_pos (hR.exec_ok ha), if_neg hw], Desc.keep_same fun _ => rfl, hR, h _⟩

theorem lwp_persist {a : Addr} (ha : D.Slot a) {v : Word} {Q : Word → Option Res → Prop} {c : Option Res}
    (h : ∀ r, Q r c) : lwp D op Q (persist a v) c :=
  lwp_bind' (lwp_flush ha (lwp_bind' (lwp_fence (lwp_bind' (lwp_casClean ha fun r => lwp_pure (h r.2))))))

/-- `pcas_read`, given what the load does. -/
theorem lwp_pcasRead {a : Addr} (ha : D.Slot a) {Q : Word → Option Res → Prop} {c : Option Res}
    (h : lwp D op (fun w c' => Q (clean w) c') (do1 (.load a)) c) : lwp D op Q (pcasRead a) c := by
  refine lwp_bind' (lwp_mono h ?_)
  intro w c' hq
  split
  · exact lwp_bind' (lwp_persist ha fun _ => lwp_pure hq)
  · exact lwp_pure hq

/-- `pcas_read` of a value word: afterwards the word is clean, or another thread has stored it since. -/
theorem lwp_pcasReadSeen {k : Word} (hk : D.has k) (ha : D.Slot (.val D.tab (D.slot k))) {Q : β → Option Res → Prop} {c : Option Res}
    {f : Word → Prog β} {V : Word} (h : ∀ w, lwpK D op Q (f w) c (some (k, V))) :
    lwp D op Q (pcasRead (.val D.tab (D.slot k)) >>= f) c := by
  intro m M hR _ _
  refine ⟨_, m, by rw [Act.exec, if_pos (hR.exec_ok ha)], Desc.keep_same fun _ => rfl, ?_⟩
  by_cases hd : isDirty (m.word (.val D.tab (D.slot k))) = true
  · refine ⟨some (k, m.word (.val D.tab (D.slot k))), ?_, .inl ⟨hR, ?_⟩⟩
    · intro p hp
      cases hp
      exact ⟨hk, .inl rfl⟩
    generalize m.word (.val D.tab (D.slot k)) = x at hd
    show lwpK D op Q ((if isDirty x = true then persist (.val D.tab (D.slot k)) x >>= fun _ => pure (clean x) else pure (clean x)).bind f) c
      (some (k, x))
    rw [if_pos hd]
    intro m M hR hK _
    refine ⟨(), { m with nv := writeBack m D.tab (D.slot k) }, ?_, Desc.keep_same fun _ => rfl, some (k, x), hK.same fun _ => rfl,
      .inl ⟨hR.congr (fun _ => rfl) rfl rfl rfl rfl, ?_⟩⟩
    · rw [Act.exec, if_pos (hR.exec_ok ha)]; rfl
    intro m M hR hK _
    refine ⟨(), m, rfl, Desc.keep_same fun _ => rfl, some (k, x), hK, .inl ⟨hR, ?_⟩⟩
    intro m M hR hK _
    by_cases hw : m.word (.val D.tab (D.slot k)) = x
    · refine ⟨(true, x), { m with word := setWord m.word (.val D.tab (D.slot k)) (clearMark x DirtyFlag) }, ?_, Desc.keep_clean,
        some (k, V), ?_, .inl ⟨?_, h _⟩⟩
      · rw [Act.exec, if_pos (hR.exec_ok ha), if_pos hw]
      · intro p hp
        cases hp
        refine ⟨hk, .inr fun hd' => ?_⟩
        simp only [setWord, if_true] at hd'
        rw [show clearMark x DirtyFlag = clean x from rfl, isDirty_clean] at hd'; cases hd'
      · refine hR.congr (fun b => ?_) rfl rfl rfl rfl
        simp only [setWord]
        split
        · next e => subst e; rw [hw]; exact clean_clean x
        · rfl
    · refine ⟨(false, m.word (.val D.tab (D.slot k))), m, ?_, Desc.keep_same fun _ => rfl, some (k, V), ?_, .inl ⟨hR, h _⟩⟩
      · rw [Act.exec, if_pos (hR.exec_ok ha), if_neg hw]
      · intro p hp
        cases hp
        exact ⟨hk, .inr ((hK _ rfl).2.resolve_left hw)⟩
  · refine ⟨some (k, V), ?_, .inl ⟨hR, ?_⟩⟩
    · intro p hp
      cases hp
      exact ⟨hk, .inr fun h => absurd h hd⟩
    generalize m.word (.val D.tab (D.slot k)) = x at hd
    show lwpK D op Q ((if isDirty x = true then persist (.val D.tab (D.slot k)) x >>= fun _ => pure (clean x) else pure (clean x)).bind f) c
      (some (k, V))
    rw [if_neg hd]
    exact h _

/-- A load that does not matter to the call. -/
theorem lwp_loadAny {a : Addr} (ha : D.Slot a) {Q : Word → Option Res → Prop} {c : Option Res}
    (h : ∀ m M, Rep D m M → Q (m.word a) c) : lwp D op Q (do1 (.load a)) c :=
  lwp_same fun m M hR => ⟨_, m, by rw [Act.exec, if_pos (hR.exec_ok ha)], Desc.keep_same fun _ => rfl, hR, h m M hR⟩

/-- A load at which the call may take effect without changing the map. -/
theorem lwp_loadEff {a : Addr} (ha : D.Slot a) {Q : Word → Option Res → Prop}
    (h : ∀ m M, Rep D m M → Q (m.word a) none ∨
      (specNext op M = M ∧ ∃ x, (∀ y, specRes op M = some y → x = y) ∧ Q (m.word a) (some x))) :
    lwp D op Q (do1 (.load a)) none := by
  refine lwp_act fun m M hR _ => ?_
  refine ⟨m.word a, m, by rw [Act.exec, if_pos (hR.exec_ok ha)], Desc.keep_same fun _ => rfl, ?_⟩
  rcases h m M hR with hq | ⟨e, x, hx, hq⟩
  · exact .inl ⟨hR, hq⟩
  · exact .inr (.inl ⟨rfl, by rw [e]; exact hR, x, hx, hq⟩)

/-! ## Values -/

/-- A word that can be found in the value slot of a key. -/
def Desc.Value (D : Desc) (k w : Word) : Prop := (clean w = VTOMBSTONE ∧ D.rem k = true) ∨ ValidVal (clean w)

theorem ValidVal.clean_eq {v : Word} (h : ValidVal v) : clean v = v := clean_of_not_dirty h.1
theorem ValidVal.ne_init {v : Word} (h : ValidVal v) : v ≠ VINITIAL := by rintro rfl; exact absurd h.2.2 (by decide)
theorem ValidVal.ne_tomb {v : Word} (h : ValidVal v) : v ≠ VTOMBSTONE := by rintro rfl; exact absurd h.2.2 (by decide)
theorem ValidVal.ne_any {v : Word} (h : ValidVal v) : v ≠ MATCH_ANY := by rintro rfl; exact absurd h.2.2 (by decide)
theorem ValidVal.ne_no {v : Word} (h : ValidVal v) : v ≠ NO_MATCH_OLD := by rintro rfl; exact absurd h.2.2 (by decide)

theorem enc_clean {o : Option Word} (h : ∀ v, o = some v → ValidVal v) : clean (enc o) = enc o := by
  cases o with
  | none => exact clean_VTOMBSTONE
  | some v => exact (h v rfl).clean_eq

theorem enc_mig {o : Option Word} (h : ∀ v, o = some v → ValidVal v) : isMig (enc o) = false := by
  cases o with
  | none => exact isMig_VTOMBSTONE
  | some v => exact (h v rfl).2.1

theorem enc_ne_init {o : Option Word} (h : ∀ v, o = some v → ValidVal v) : enc o ≠ VINITIAL := by
  cases o with
  | none => exact VINITIAL_ne_VTOMBSTONE.symm
  | some v => exact (h v rfl).ne_init

theorem Rep.value {m : Mem} {M : AMap} (h : Rep D m M) {k : Word} (hk : D.has k) :
    D.Value k (m.word (.val D.tab (D.slot k))) := by
  rw [Desc.Value, h.vals k hk]
  cases hM : M k with
  | none =>
    refine .inl ⟨rfl, ?_⟩
    cases hr : D.rem k with
    | true => rfl
    | false => exact absurd hM (h.fits.there k hr hk)
  | some v => exact .inr (h.fits.vals k hk v hM)

theorem Desc.Value.mig {k w : Word} (h : D.Value k w) : isMig w = false := by
  rw [← isMig_clean]
  rcases h with ⟨h, -⟩ | h
  · rw [h]; exact isMig_VTOMBSTONE
  · exact h.2.1

theorem Desc.Value.ne_init {k w : Word} (h : D.Value k w) : w ≠ VINITIAL := by
  rintro rfl
  rcases h with ⟨h, -⟩ | h
  · exact absurd h (by decide)
  · exact h.ne_init (by decide)

theorem Desc.Value.clean {k w : Word} (h : D.Value k w) : D.Value k (clean w) := by
  rw [Desc.Value, clean_clean]; exact h

end PMap
