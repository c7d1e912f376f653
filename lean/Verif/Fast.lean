import Verif.AMap

/-!
# A faster interpreter for concrete runs

`run` keeps the memory as nested function updates, which makes the kernel slow on long concrete runs.  `frun` keeps it
in search trees; `frun_sound` says it computes the same as `run`.  It is only used to check examples and witnesses and
models no code of its own.
-/

namespace PMap

/-- Binary tries indexed by natural numbers. -/
inductive Tree (α : Type)
  | leaf
  | node (l : Tree α) (v : Option α) (r : Tree α)

namespace Tree

variable {α : Type}

/-- Look up. -/
def get : Tree α → Nat → Option α
  | leaf, _ => none
  | node l v r, n => if n = 0 then v else if n % 2 = 1 then l.get (n / 2) else r.get (n / 2 - 1)

/-- Insert (the first argument bounds the recursion). -/
def ins : Nat → Nat → α → Tree α → Tree α
  | 0, _, _, t => t
  | f + 1, n, w, t =>
    let (l, v, r) := match t with
      | leaf => (leaf, none, leaf)
      | node l v r => (l, v, r)
    if n = 0 then node l (some w) r
    else if n % 2 = 1 then node (ins f (n / 2) w l) v r else node l v (ins f (n / 2 - 1) w r)

theorem get_ins (f n : Nat) (w : α) (t : Tree α) (hf : n < f) (n' : Nat) :
    (ins f n w t).get n' = if n' = n then some w else t.get n' := by
  induction f generalizing n t n' with
  | zero => omega
  | succ f ih =>
    have key : ∀ l v r, (∀ n', t.get n' = (node l v r).get n') →
        ((if n = 0 then node l (some w) r
          else if n % 2 = 1 then node (ins f (n / 2) w l) v r else node l v (ins f (n / 2 - 1) w r))).get n' =
        if n' = n then some w else t.get n' := by
      intro l v r ht
      rw [ht n']
      by_cases h0 : n = 0
      · rw [if_pos h0]
        subst h0
        by_cases h1 : n' = 0
        · simp [get, h1]
        · simp [get, h1]
      · rw [if_neg h0]
        by_cases h1 : n % 2 = 1
        · rw [if_pos h1]
          simp only [get]
          by_cases h2 : n' = 0
          · subst h2; simp [Ne.symm h0]
          · rw [if_neg h2]
            by_cases h3 : n' % 2 = 1
            · rw [if_pos h3, ih _ _ (by omega)]
              by_cases h4 : n' = n
              · subst h4; simp
              · rw [if_neg h4, if_neg (by omega), if_neg h2, if_pos h3]
            · rw [if_neg h3, if_neg (by rintro rfl; exact h3 h1), if_neg h2, if_neg h3]
        · rw [if_neg h1]
          simp only [get]
          by_cases h2 : n' = 0
          · subst h2; simp [Ne.symm h0]
          · rw [if_neg h2]
            by_cases h3 : n' % 2 = 1
            · rw [if_pos h3, if_neg (by rintro rfl; exact h1 h3), if_neg h2, if_pos h3]
            · rw [if_neg h3, ih _ _ (by omega)]
              by_cases h4 : n' = n
              · subst h4; simp
              · rw [if_neg h4, if_neg (by omega), if_neg h2, if_neg h3]
    cases t with
    | leaf => exact key leaf none leaf (by intro n'; simp [get])
    | node l v r => exact key l v r (fun _ => rfl)

end Tree

/-- Memory of the fast interpreter; `pairs t` is a trie of words, keys at even and values at odd positions. -/
structure FM where
  words : Tree (Tree Word)
  tabs : Tree Tab
  next : Nat
  root : Nat
  cap : Nat
  failed : Bool

namespace FM

/-- Position of a word within its table. -/
def pos : Addr → Nat
  | .key _ i => 2 * i
  | .val _ i => 2 * i + 1

/-- What a fresh word is. -/
def deflt : Addr → Word
  | .key _ _ => dirty KINITIAL
  | .val _ _ => dirty VINITIAL

def word (s : FM) (a : Addr) : Word :=
  match s.words.get a.tab with
  | none => deflt a
  | some t => (t.get (pos a)).getD (deflt a)

def tab (s : FM) (t : Nat) : Tab := (s.tabs.get t).getD (freshTab 0 0#64)

def setWord (s : FM) (a : Addr) (w : Word) : FM :=
  let t := (s.words.get a.tab).getD .leaf
  { s with words := s.words.ins (a.tab + 1) a.tab (t.ins (pos a + 1) (pos a) w) }

def setTab (s : FM) (t : Nat) (b : Tab) : FM := { s with tabs := s.tabs.ins (t + 1) t b }

/-- The fast memory describes the memory (apart from the durable copy). -/
structure Rel (s : FM) (m : Mem) : Prop where
  word : ∀ a, a.tab < m.next → s.word a = m.word a
  none : ∀ t, m.next ≤ t → s.words.get t = none
  tab : ∀ t, t < m.next → s.tab t = m.tab t
  next : s.next = m.next
  root : s.root = m.root
  cap : s.cap = m.cap
  failed : s.failed = m.failed

theorem word_setWord (s : FM) (a b : Addr) (w : Word) :
    (s.setWord a w).word b = if b = a then w else s.word b := by
  unfold setWord word
  simp only
  rw [Tree.get_ins _ _ _ _ (Nat.lt_succ_self _)]
  by_cases h : b.tab = a.tab
  · rw [if_pos h]
    simp only
    rw [Tree.get_ins _ _ _ _ (Nat.lt_succ_self _)]
    by_cases h2 : pos b = pos a
    · have : b = a := by
        cases a <;> cases b <;> simp [pos, Addr.tab] at * <;> first | (constructor <;> omega) | omega
      simp [this]
    · have : b ≠ a := by rintro rfl; exact h2 rfl
      rw [if_neg h2, if_neg this, h]
      cases s.words.get a.tab with
      | none => simp [Tree.get]
      | some t => simp
  · have : b ≠ a := by rintro rfl; exact h rfl
    rw [if_neg h, if_neg this]

theorem tab_setTab (s : FM) (t t' : Nat) (b : Tab) :
    (s.setTab t b).tab t' = if t' = t then b else s.tab t' := by
  unfold setTab tab
  simp only
  rw [Tree.get_ins _ _ _ _ (Nat.lt_succ_self _)]
  by_cases h : t' = t <;> simp [h]

/-- One action. -/
def exec : (a : Act) → FM → Option (a.Resp × FM)
  | .load a, s => if a.tab < s.next ∧ a.idx < (s.tab a.tab).len then some (s.word a, s) else none
  | .cas a e n, s =>
    if a.tab < s.next ∧ a.idx < (s.tab a.tab).len then
      if s.word a = e then some ((true, e), s.setWord a n) else some ((false, s.word a), s)
    else none
  | .flush a, s => if a.tab < s.next ∧ a.idx < (s.tab a.tab).len then some ((), s) else none
  | .fence, s => some ((), s)
  | .len t, s => if t < s.next then some ((s.tab t).len, s) else none
  | .getNew t, s => if t < s.next then some ((s.tab t).newT, s) else none
  | .casNew t n, s =>
    if t < s.next then
      if (s.tab t).newT = .none then some (true, s.setTab t { s.tab t with newT := some n }) else some (false, s)
    else none
  | .getRoot, s => some (s.root, s)
  | .casRoot o n, s => if s.root = o then some (true, { s with root := n }) else some (false, s)
  | .getSize t, s => if t < s.next then some ((s.tab t).size, s) else none
  | .addSize t d, s =>
    if t < s.next then some ((), s.setTab t { s.tab t with size := (s.tab t).size + d }) else none
  | .getSlots t, s => if t < s.next then some ((s.tab t).slots, s) else none
  | .incSlots t, s =>
    if t < s.next then some ((), s.setTab t { s.tab t with slots := (s.tab t).slots + 1 }) else none
  | .getDone t, s => if t < s.next then some ((s.tab t).copyDone, s) else none
  | .addDone t n, s =>
    if t < s.next then some ((), s.setTab t { s.tab t with copyDone := (s.tab t).copyDone + n }) else none
  | .getIdx t, s => if t < s.next then some ((s.tab t).copyIdx, s) else none
  | .casIdx t e n, s =>
    if t < s.next then
      if (s.tab t).copyIdx = e then some ((true, e), s.setTab t { s.tab t with copyIdx := n })
      else some ((false, (s.tab t).copyIdx), s)
    else none
  | .alloc l sz, s =>
    if l ≤ s.cap then some (some s.next, { s.setTab s.next (freshTab l sz) with next := s.next + 1 })
    else some (.none, s)
  | .check b, s => some ((), { s with failed := s.failed || !b })

end FM

/-- The fast interpreter. -/
def frun {α : Type} : Prog α → FM → Except Halt (α × FM)
  | .ret a, s => .ok (a, s)
  | .halt h, _ => .error h
  | .act a k, s =>
    match s.exec a with
    | none => .error .ub
    | some (r, s') => frun (k r) s'

namespace FM

theorem Rel.setTab {s : FM} {m : Mem} (h : Rel s m) (t : Nat) (b c : Tab) (hbc : b = c) :
    Rel (s.setTab t b) { m with tab := upd m.tab t c } :=
  { word := h.word, none := h.none
    tab := by
      intro t' ht'
      rw [tab_setTab]
      show _ = if t' = t then c else m.tab t'
      rw [hbc, ← h.tab t' ht']
    next := h.next, root := h.root, cap := h.cap, failed := h.failed }

theorem exec_rel (a : Act) {s : FM} {m : Mem} (h : Rel s m) :
    match s.exec a, a.exec m with
    | .none, .none => True
    | some (r, s'), some (r', m') => r = r' ∧ Rel s' m'
    | _, _ => False := by
  have hg : ∀ x : Addr, (x.tab < s.next ∧ x.idx < (s.tab x.tab).len) ↔ (x.tab < m.next ∧ x.idx < (m.tab x.tab).len) := by
    intro x
    rw [h.next]
    constructor <;> rintro ⟨h1, h2⟩ <;> refine ⟨h1, ?_⟩
    · rwa [← h.tab _ h1]
    · rwa [h.tab _ h1]
  have hn : ∀ t, t < s.next ↔ t < m.next := by intro t; rw [h.next]
  cases a with
  | load a =>
    simp only [exec, Act.exec]
    by_cases c : a.tab < m.next ∧ a.idx < (m.tab a.tab).len
    · rw [if_pos c, if_pos ((hg a).mpr c)]; exact ⟨h.word _ c.1, h⟩
    · rw [if_neg c, if_neg (fun x => c ((hg a).mp x))]; trivial
  | cas a e n =>
    simp only [exec, Act.exec]
    by_cases c : a.tab < m.next ∧ a.idx < (m.tab a.tab).len
    · rw [if_pos c, if_pos ((hg a).mpr c), h.word _ c.1]
      by_cases d : m.word a = e
      · rw [if_pos d, if_pos d]
        refine ⟨rfl, ?_, ?_, h.tab, h.next, h.root, h.cap, h.failed⟩
        · intro b hb
          rw [word_setWord]
          show _ = if b = a then n else m.word b
          rw [← h.word b hb]
        · intro t ht
          show (Tree.ins _ _ _ _).get t = .none
          rw [Tree.get_ins _ _ _ _ (Nat.lt_succ_self _), if_neg (by have := c.1; simp only at ht; omega)]
          exact h.none t ht
      · rw [if_neg d, if_neg d]; exact ⟨rfl, h⟩
    · rw [if_neg c, if_neg (fun x => c ((hg a).mp x))]; trivial
  | flush a =>
    simp only [exec, Act.exec]
    by_cases c : a.tab < m.next ∧ a.idx < (m.tab a.tab).len
    · rw [if_pos c, if_pos ((hg a).mpr c)]
      exact ⟨trivial, h.word, h.none, h.tab, h.next, h.root, h.cap, h.failed⟩
    · rw [if_neg c, if_neg (fun x => c ((hg a).mp x))]; trivial
  | fence => exact ⟨rfl, h⟩
  | len t =>
    simp only [exec, Act.exec]
    by_cases c : t < m.next
    · rw [if_pos c, if_pos ((hn t).mpr c)]; exact ⟨by rw [h.tab t c], h⟩
    · rw [if_neg c, if_neg (fun x => c ((hn t).mp x))]; trivial
  | getNew t =>
    simp only [exec, Act.exec]
    by_cases c : t < m.next
    · rw [if_pos c, if_pos ((hn t).mpr c)]; exact ⟨by rw [h.tab t c], h⟩
    · rw [if_neg c, if_neg (fun x => c ((hn t).mp x))]; trivial
  | casNew t n =>
    simp only [exec, Act.exec]
    by_cases c : t < m.next
    · rw [if_pos c, if_pos ((hn t).mpr c), h.tab t c]
      by_cases d : (m.tab t).newT = .none
      · rw [if_pos d, if_pos d]; exact ⟨rfl, h.setTab t _ _ rfl⟩
      · rw [if_neg d, if_neg d]; exact ⟨rfl, h⟩
    · rw [if_neg c, if_neg (fun x => c ((hn t).mp x))]; trivial
  | getRoot => exact ⟨h.root, h⟩
  | casRoot o n =>
    simp only [exec, Act.exec]
    rw [h.root]
    by_cases d : m.root = o
    · rw [if_pos d, if_pos d]; exact ⟨rfl, h.word, h.none, h.tab, h.next, rfl, h.cap, h.failed⟩
    · rw [if_neg d, if_neg d]; exact ⟨rfl, h⟩
  | getSize t =>
    simp only [exec, Act.exec]
    by_cases c : t < m.next
    · rw [if_pos c, if_pos ((hn t).mpr c)]; exact ⟨by rw [h.tab t c], h⟩
    · rw [if_neg c, if_neg (fun x => c ((hn t).mp x))]; trivial
  | addSize t d =>
    simp only [exec, Act.exec]
    by_cases c : t < m.next
    · rw [if_pos c, if_pos ((hn t).mpr c), h.tab t c]; exact ⟨trivial, h.setTab t _ _ rfl⟩
    · rw [if_neg c, if_neg (fun x => c ((hn t).mp x))]; trivial
  | getSlots t =>
    simp only [exec, Act.exec]
    by_cases c : t < m.next
    · rw [if_pos c, if_pos ((hn t).mpr c)]; exact ⟨by rw [h.tab t c], h⟩
    · rw [if_neg c, if_neg (fun x => c ((hn t).mp x))]; trivial
  | incSlots t =>
    simp only [exec, Act.exec]
    by_cases c : t < m.next
    · rw [if_pos c, if_pos ((hn t).mpr c), h.tab t c]; exact ⟨trivial, h.setTab t _ _ rfl⟩
    · rw [if_neg c, if_neg (fun x => c ((hn t).mp x))]; trivial
  | getDone t =>
    simp only [exec, Act.exec]
    by_cases c : t < m.next
    · rw [if_pos c, if_pos ((hn t).mpr c)]; exact ⟨by rw [h.tab t c], h⟩
    · rw [if_neg c, if_neg (fun x => c ((hn t).mp x))]; trivial
  | addDone t n =>
    simp only [exec, Act.exec]
    by_cases c : t < m.next
    · rw [if_pos c, if_pos ((hn t).mpr c), h.tab t c]; exact ⟨trivial, h.setTab t _ _ rfl⟩
    · rw [if_neg c, if_neg (fun x => c ((hn t).mp x))]; trivial
  | getIdx t =>
    simp only [exec, Act.exec]
    by_cases c : t < m.next
    · rw [if_pos c, if_pos ((hn t).mpr c)]; exact ⟨by rw [h.tab t c], h⟩
    · rw [if_neg c, if_neg (fun x => c ((hn t).mp x))]; trivial
  | casIdx t e n =>
    simp only [exec, Act.exec]
    by_cases c : t < m.next
    · rw [if_pos c, if_pos ((hn t).mpr c), h.tab t c]
      by_cases d : (m.tab t).copyIdx = e
      · rw [if_pos d, if_pos d]; exact ⟨rfl, h.setTab t _ _ rfl⟩
      · rw [if_neg d, if_neg d]; exact ⟨rfl, h⟩
    · rw [if_neg c, if_neg (fun x => c ((hn t).mp x))]; trivial
  | alloc l sz =>
    simp only [exec, Act.exec]
    rw [h.cap, h.next]
    by_cases c : l ≤ m.cap
    · rw [if_pos c, if_pos c]
      refine ⟨rfl, ?_, ?_, ?_, rfl, h.root, h.cap, h.failed⟩
      · intro b hb
        show s.word b = freshWords m.word m.next b
        have hb : b.tab < m.next + 1 := hb
        by_cases e : b.tab = m.next
        · have : s.word b = deflt b := by unfold word; rw [h.none b.tab (by omega)]
          rw [this]
          cases b <;> simp [freshWords, deflt, Addr.tab] at * <;> simp [e]
        · rw [h.word b (by omega)]
          cases b <;> simp [freshWords, Addr.tab] at * <;> simp [e]
      · intro t ht
        exact h.none t (Nat.le_of_succ_le ht)
      · intro t ht
        have ht : t < m.next + 1 := ht
        show (s.setTab m.next (freshTab l sz)).tab t = if t = m.next then _ else m.tab t
        rw [tab_setTab]
        by_cases e : t = m.next
        · rw [if_pos e, if_pos e]
        · rw [if_neg e, if_neg e, h.tab t (by omega)]
    · rw [if_neg c, if_neg c]; exact ⟨rfl, h⟩
  | check b =>
    exact ⟨rfl, h.word, h.none, h.tab, h.next, h.root, h.cap, by show (s.failed || !b) = _; rw [h.failed]⟩

/-- The memory right after construction. -/
def fresh (len cap : Nat) : FM :=
  { words := .leaf, tabs := .node .leaf (some (freshTab len 0#64)) .leaf, next := 1, root := 0, cap := cap, failed := false }

theorem fresh_rel (len cap : Nat) : Rel (fresh len cap) (freshMem len cap) where
  word := by
    intro a ha
    have : a.tab = 0 := by have : a.tab < 1 := ha; omega
    cases a <;> simp [Addr.tab] at this <;> subst this <;> rfl
  none := by intro t _; rfl
  tab := by
    intro t ht
    have : t = 0 := by have : t < 1 := ht; omega
    subst this; rfl
  next := rfl
  root := rfl
  cap := rfl
  failed := rfl

end FM

theorem frun_sound {α : Type} (p : Prog α) {s : FM} {m : Mem} (h : FM.Rel s m) :
    match frun p s, run p m with
    | .error e, .halted e' => e = e'
    | .ok (a, s'), .done a' m' => a = a' ∧ FM.Rel s' m'
    | _, _ => False := by
  induction p generalizing s m with
  | ret a => exact ⟨rfl, h⟩
  | halt e => exact rfl
  | act a k ih =>
    have := FM.exec_rel a h
    simp only [frun, run]
    cases h1 : s.exec a with
    | none =>
      cases h2 : a.exec m with
      | none => rfl
      | some x => rw [h1, h2] at this; exact this.elim
    | some x =>
      cases h2 : a.exec m with
      | none => rw [h1, h2] at this; exact this.elim
      | some y =>
        rw [h1, h2] at this
        obtain ⟨e, hR⟩ := this
        obtain ⟨r, s'⟩ := x
        obtain ⟨r', m'⟩ := y
        simp only at e hR ⊢
        subst e
        exact ih r hR

theorem frun_ok {α : Type} {p : Prog α} {s s' : FM} {m : Mem} {a : α} (h : FM.Rel s m) (hr : frun p s = .ok (a, s')) :
    ∃ m', run p m = .done a m' ∧ FM.Rel s' m' := by
  have := frun_sound p h
  rw [hr] at this
  cases hm : run p m with
  | halted e => rw [hm] at this; exact this.elim
  | done a' m' => rw [hm] at this; exact ⟨m', by rw [this.1], this.2⟩

theorem frun_error {α : Type} {p : Prog α} {s : FM} {m : Mem} {e : Halt} (h : FM.Rel s m) (hr : frun p s = .error e) :
    run p m = .halted e := by
  have := frun_sound p h
  rw [hr] at this
  cases hm : run p m with
  | halted e' => rw [hm] at this; rw [this]
  | done a' m' => rw [hm] at this; exact this.elim

/-- A list of calls. -/
def frunOps (hash : Word → Word) (n : Nat) : List Op → FM → Option (List Res × FM)
  | [], s => some ([], s)
  | op :: ops, s =>
    match frun (op.prog hash n) s with
    | .error _ => none
    | .ok (r, s') =>
      match frunOps hash n ops s' with
      | none => none
      | some (rs, s'') => some (r :: rs, s'')

theorem frunOps_ok {hash : Word → Word} {n : Nat} (ops : List Op) {s s' : FM} {m : Mem} {rs : List Res} (h : FM.Rel s m)
    (hr : frunOps hash n ops s = some (rs, s')) : ∃ m', runOps hash n ops m = .done rs m' ∧ FM.Rel s' m' := by
  induction ops generalizing s m rs with
  | nil => cases hr; exact ⟨m, rfl, h⟩
  | cons op ops ih =>
    rw [frunOps] at hr
    cases h1 : frun (op.prog hash n) s with
    | error e => rw [h1] at hr; cases hr
    | ok x =>
      obtain ⟨r, s1⟩ := x
      rw [h1] at hr
      obtain ⟨m1, e1, r1⟩ := frun_ok h h1
      simp only at hr
      cases h2 : frunOps hash n ops s1 with
      | none => rw [h2] at hr; cases hr
      | some y =>
        obtain ⟨rs', s2⟩ := y
        rw [h2] at hr
        cases hr
        obtain ⟨m2, e2, r2⟩ := ih r1 h2
        exact ⟨m2, by rw [runOps, e1]; simp only; rw [e2], r2⟩

theorem runOps_reach {hash : Word → Word} {len cap n : Nat} (ops : List Op) {m m' : Mem} {M : AMap} {rs : List Res}
    (h : Reach hash len cap (fun _ => True) m M) (hv : ∀ op ∈ ops, op.Valid ∧ op.isUpdate = false)
    (hr : runOps hash n ops m = .done rs m') : Reach hash len cap (fun _ => True) m' (specRun ops M) := by
  induction ops generalizing m M rs with
  | nil => cases hr; exact h
  | cons op ops ih =>
    rw [runOps] at hr
    have ho := hv op (List.mem_cons_self ..)
    cases he : run (op.prog hash n) m with
    | halted x => rw [he] at hr; cases hr
    | done r m1 =>
      rw [he] at hr
      simp only at hr
      cases h2 : runOps hash n ops m1 with
      | halted x => rw [h2] at hr; cases hr
      | done rs' m2 =>
        rw [h2] at hr
        cases hr
        exact ih (h.step n ho.1 ho.2 he trivial) (fun o h => hv o (List.mem_cons_of_mem _ h)) h2

theorem runOps_reachAny {hash : Word → Word} {len cap n : Nat} (ops : List Op) {m m' : Mem} {rs : List Res}
    (h : ReachAny hash len cap m) (hv : ∀ op ∈ ops, op.Valid) (hr : runOps hash n ops m = .done rs m') :
    ReachAny hash len cap m' := by
  induction ops generalizing m rs with
  | nil => cases hr; exact h
  | cons op ops ih =>
    rw [runOps] at hr
    have ho := hv op (List.mem_cons_self ..)
    cases he : run (op.prog hash n) m with
    | halted x => rw [he] at hr; cases hr
    | done r m1 =>
      rw [he] at hr
      simp only at hr
      cases h2 : runOps hash n ops m1 with
      | halted x => rw [h2] at hr; cases hr
      | done rs' m2 =>
        rw [h2] at hr
        cases hr
        exact ih (h.step n ho he) (fun o h => hv o (List.mem_cons_of_mem _ h)) h2

end PMap
