import Verif.Seq.Crowd
import Verif.Props.Seq

/-!
# C13: which calls finish

The model bounds recursion and loops by fuel.  The first theorem says that the fuel is only a bound: with more of it a call
that finishes does the same.  So "finishes" below means that some amount of fuel suffices, and "never returns" that none does.
-/

namespace PMap

open Prog

variable {hash : Word → Word} {len cap : Nat}

/-! ## Fuel -/

/-- **C13.** Whatever the memory, a call that ends with some fuel, in any way but by using it up, ends in the same way with
more. -/
theorem c13_fuel {n n' : Nat} (hn : n ≤ n') (op : Op) (m : Mem) (h : run (op.prog hash n) m ≠ .halted .fuel) :
    run (op.prog hash n') m = run (op.prog hash n) m :=
  (more_op hash hn op).run m h

/-- `put` on a fresh map of 16 slots ends with fuel 20. -/
example : run ((Op.put 8#64 16#64).prog id 20) (freshMem 16 64) ≠ .halted .fuel := by
  have : ((run ((Op.put 8#64 16#64).prog id 20) (freshMem 16 64)).val?) = some (.word VINITIAL) := by decide +kernel
  intro h
  rw [h] at this
  cases this

/-! ## Calls that finish -/

/-- **C13, `get`.** In every state a single thread can reach in which no migration is pending, `get` finishes, and changes
nothing but the dirty bits and the file. -/
theorem c13_get_partial (hs : Sized len cap) {m : Mem} (h : ReachAny hash len cap m) (hset : m.root + 1 = m.next) {k : Word}
    (hk : ValidKey k) {n : Nat} (hn : reprobeLimit (m.tab m.root).len + 1 < n) :
    ∃ v m', run (mapGet hash n k) m = .done v m' ∧ m'.tab = m.tab ∧ ∀ a, clean (m'.word a) = clean (m.word a) := by
  obtain ⟨M, hG⟩ := reachAny_good hs h
  obtain ⟨v, m', h1, h2⟩ := get_total (s := abs m) hG hset (userKey_of_valid hk) hn m rfl
  refine ⟨v, m', h1, congrArg A.tab h2, fun a => ?_⟩
  cases a with
  | key t i => exact congrFun (congrFun (congrArg A.ck h2) t) i
  | val t i => exact congrFun (congrFun (congrArg A.cv h2) t) i

/-- **C13, updates.** If no migration is pending and one of the first ten slots probed for the key is empty or holds the key,
then `put` finishes, without growing the table. -/
theorem c13_put_partial (hs : Sized len cap) {m : Mem} (h : ReachAny hash len cap m) (hset : m.root + 1 = m.next) {k v : Word}
    (hk : ValidKey k) (hv : ValidVal v) {d : Nat} (hd : d < 10)
    (hslot : clean (m.word (.key m.root (((hash k).toNat + d) % (m.tab m.root).len))) = k ∨
      clean (m.word (.key m.root (((hash k).toNat + d) % (m.tab m.root).len))) = KINITIAL) {n : Nat}
    (hn : reprobeLimit (m.tab m.root).len + 1 < n) :
    ∃ r m', run (mapPut hash n k v) m = .done r m' ∧ m'.next = m.next := by
  obtain ⟨M, hG⟩ := reachAny_good hs h
  have hsl : slotAt hash (abs m) m.root k d = ((hash k).toNat + d) % (m.tab m.root).len := by
    obtain ⟨p, -, e⟩ := hG.inv.len_pow m.root hG.inv.root_lt
    have e : (m.tab m.root).len = 2 ^ p := e
    show (homePut hash k (m.tab m.root).len + d) % (m.tab m.root).len = _
    rw [e, c04_put_home, Nat.mod_add_mod]
  obtain ⟨r, m', h1, h2⟩ := put_total (s := abs m) hG hset (userKey_of_valid hk) .casValue (.inl (storable_of_valid hv))
    (show NO_MATCH_OLD ≠ VINITIAL by decide) nm_facts.1 hd (by
      show (abs m).ck m.root (slotAt hash (abs m) m.root k d) = k ∨ (abs m).ck m.root (slotAt hash (abs m) m.root k d) = KINITIAL
      rw [hsl]; exact hslot) hn m rfl
  exact ⟨r, m', h1, h2.next⟩

/-- The state after one `put` is such a state, for `get` and for a second `put`. -/
example : ∃ m, ReachAny id 16 64 m ∧ m.root + 1 = m.next ∧
    clean (m.word (.key m.root (((id (24#64 : Word)).toNat + 0) % (m.tab m.root).len))) = 24#64 ∧
    clean (m.word (.key m.root (((id (8#64 : Word)).toNat + 1) % (m.tab m.root).len))) = KINITIAL := by
  have h : ((runChk id 20 (fun _ => true) [.put 24#64 16#64] (freshMem 16 64)).map (fun m =>
    decide (m.root + 1 = m.next ∧ clean (m.word (.key m.root (((id (24#64 : Word)).toNat + 0) % (m.tab m.root).len))) = 24#64 ∧
    clean (m.word (.key m.root (((id (8#64 : Word)).toNat + 1) % (m.tab m.root).len))) = KINITIAL))) = some true := by
    decide +kernel
  rw [Option.map_eq_some_iff] at h
  obtain ⟨m, h1, h2⟩ := h
  exact ⟨m, runChk_reachAny _ .init (by decide +kernel) h1, of_decide_eq_true h2⟩

theorem runOps_more {n n' : Nat} (hn : n ≤ n') : ∀ (ops : List Op) (m : Mem) {rs : List Res} {m' : Mem},
    runOps hash n ops m = .done rs m' → runOps hash n' ops m = .done rs m' := by
  intro ops
  induction ops with
  | nil => exact fun m rs m' h => h
  | cons op ops ih =>
    intro m rs m' h
    simp only [runOps] at h ⊢
    cases h1 : run (op.prog hash n) m with
    | halted x => rw [h1] at h; cases h
    | done r m1 =>
      rw [h1] at h
      rw [c13_fuel hn op m (by rw [h1]; intro h; cases h), h1]
      simp only at h ⊢
      cases h2 : runOps hash n ops m1 with
      | halted x => rw [h2] at h; cases h
      | done rs1 m2 => rw [h2] at h; rw [ih m1 h2]; exact h

/-- **C13, at most ten keys.** Let the initial capacity be at least 16.  Whatever the hash function, any sequence of valid
calls that names at most ten different keys finishes, and the table is never replaced by a larger one. -/
theorem c13_ten_keys_partial {p : Nat} (hp : p ≤ 32) (h4 : 4 ≤ p) (hc : cap ≤ 2 ^ 32) (S : Finset Word) (hS : ∀ x ∈ S, ValidKey x)
    (hcard : S.card ≤ 10) (ops : List Op) (hv : ∀ op ∈ ops, op.Valid) (ho : ∀ op ∈ ops, ∀ x, op.Names x → x ∈ S) {n : Nat}
    (hn : reprobeLimit (2 ^ p) + 1 < n) :
    ∃ rs m', runOps hash n ops (freshMem (2 ^ p) cap) = .done rs m' ∧ m'.next = 1 := by
  obtain ⟨rs, m', M', h1, h2⟩ := few_ops (fun x hx => userKey_of_valid (hS x hx)) hcard
    (show 16 ≤ 2 ^ p from Nat.pow_le_pow_right (n := 2) (i := 4) (by norm_num) h4) hn ops _ _ hv ho (few_fresh hp hc)
  exact ⟨rs, m', h1, h2.next⟩

/-- Ten keys of one hash, then other calls on them. -/
def tenOps : List Op :=
  (List.range 10).map (fun i => .put (BitVec.ofNat 64 (8 * i)) 16#64) ++ [.remove 8#64, .update 16#64 24#64, .get 72#64, .size]

/-- The ten keys. -/
def tenKeys : List Word := [0#64, 8#64, 16#64, 24#64, 32#64, 40#64, 48#64, 56#64, 64#64, 72#64]

theorem tenKeys_valid : ∀ x ∈ tenKeys, ValidKey x := by
  have : tenKeys.all (fun x => decide (ValidKey x)) = true := by decide +kernel
  intro x hx
  exact of_decide_eq_true (List.all_eq_true.mp this x hx)

/-- Every key the call names is one of the ten. -/
def namesTen : Op → Bool
  | .get k | .containsKey k | .put k _ | .putIfAbsent k _ | .remove k | .removeIf k _ | .replace k _ _ | .putIfMatch k _ _
  | .update k _ => tenKeys.contains k
  | .size | .isEmpty => true

theorem namesTen_iff {op : Op} (h : namesTen op = true) (x : Word) (hx : op.Names x) : x ∈ tenKeys := by
  cases op
  case size => exact hx.elim
  case isEmpty => exact hx.elim
  all_goals
    have hx : _ = x := hx
    subst hx
    exact List.contains_iff_mem.mp h

example : (∀ op ∈ tenOps, op.Valid) ∧ (∀ op ∈ tenOps, ∀ x, op.Names x → x ∈ tenKeys.toFinset) ∧
    (∀ x ∈ tenKeys.toFinset, ValidKey x) ∧ tenKeys.toFinset.card ≤ 10 := by
  refine ⟨by decide +kernel, fun op hop x hx => List.mem_toFinset.mpr (namesTen_iff ?_ x hx), fun x hx => ?_,
    List.toFinset_card_le _⟩
  · exact (show ∀ op ∈ tenOps, namesTen op = true by decide +kernel) op hop
  · exact tenKeys_valid x (List.mem_toFinset.mp hx)

/-! ## A call that never returns -/

theorem runOps_append {n : Nat} : ∀ (ops1 ops2 : List Op) (m : Mem) {rs : List Res} {m' : Mem},
    runOps hash n (ops1 ++ ops2) m = .done rs m' → ∃ rs1 m1 rs2, runOps hash n ops1 m = .done rs1 m1 ∧
      runOps hash n ops2 m1 = .done rs2 m' := by
  intro ops1
  induction ops1 with
  | nil => exact fun ops2 m rs m' h => ⟨[], m, rs, rfl, h⟩
  | cons op ops1 ih =>
    intro ops2 m rs m' h
    simp only [List.cons_append, runOps] at h
    cases h1 : run (op.prog hash n) m with
    | halted x => rw [h1] at h; cases h
    | done r m1 =>
      rw [h1] at h
      simp only at h
      cases h2 : runOps hash n (ops1 ++ ops2) m1 with
      | halted x => rw [h2] at h; cases h
      | done rs1 m2 =>
        rw [h2] at h
        cases h
        obtain ⟨rs1', m1', rs2, h3, h4⟩ := ih ops2 m1 h2
        exact ⟨r :: rs1', m1', rs2, by simp only [runOps, h1, h3], h4⟩

theorem specRun_puts (v : Word) (ks : List Word) : ∀ (M : AMap) (x : Word), (x ∈ ks ∨ M x ≠ none) →
    specRun (ks.map (fun k => Op.put k v)) M x ≠ none := by
  induction ks with
  | nil => intro M x h; rcases h with h | h; · cases h
           · exact h
  | cons k ks ih =>
    intro M x h
    refine ih (M.set k v) x ?_
    by_cases e : x = k
    · right; subst e; simp [AMap.set]
    · rcases h with h | h
      · rcases List.mem_cons.mp h with h | h
        · exact absurd h e
        · exact .inl h
      · right; simpa [AMap.set, e] using h

/-- **C13 fails.** Let the initial capacity be at least 16, and let eleven different keys have the same hash.  After ten of
them have been put, putting the eleventh never returns: no amount of fuel lets the calls finish.  (By `c13_ten_keys_partial`
the first ten calls do finish.)  The call grows the table again and again, until a file cannot be created any more. -/
theorem c13_eleventh_never {p : Nat} (hp : p ≤ 32) (h4 : 4 ≤ p) (hc : cap ≤ 2 ^ 32) {ks : List Word} (hnd : ks.Nodup)
    (hlen : ks.length = 10) (hks : ∀ x ∈ ks, ValidKey x) {k v w : Word} (hk : ValidKey k) (hkn : k ∉ ks) (hv : ValidVal v)
    (hw : ValidVal w) (heq : ∀ x ∈ ks, hash x = hash k) (n : Nat) (rs : List Res) (m' : Mem) :
    runOps hash n (ks.map (fun x => Op.put x v) ++ [.put k w]) (freshMem (2 ^ p) cap) ≠ .done rs m' := by
  intro hrun
  have h16 : 16 ≤ 2 ^ p := Nat.pow_le_pow_right (n := 2) (i := 4) (by norm_num) h4
  obtain ⟨rs1, m1, rs2, h1, h2⟩ := runOps_append _ _ _ hrun
  have huk : ∀ x ∈ ks.toFinset, UserKey x := fun x hx => userKey_of_valid (hks x (List.mem_toFinset.mp hx))
  have hcard : ks.toFinset.card = 10 := by rw [List.toFinset_card_of_nodup hnd, hlen]
  have hval : ∀ op ∈ ks.map (fun x => Op.put x v), op.Valid ∧ op.isUpdate = false := by
    intro op hop
    obtain ⟨x, hx, rfl⟩ := List.mem_map.mp hop
    exact ⟨⟨hks x hx, hv⟩, rfl⟩
  obtain ⟨hG, -⟩ := runOps_good n _ _ _ hval (good_fresh ⟨p, hp, rfl⟩ hc).1 rs1 m1 h1
  obtain ⟨rs', m1', M', h3, hF⟩ := few_ops (hash := hash) (n := n + reprobeLimit (2 ^ p) + 2) huk hcard.le h16 (by omega)
    (ks.map (fun x => Op.put x v)) _ _ (fun op ho => (hval op ho).1) (by
      intro op hop x hx
      obtain ⟨y, hy, rfl⟩ := List.mem_map.mp hop
      have : y = x := hx
      subst this
      exact List.mem_toFinset.mpr hy) (few_fresh (hash := hash) hp hc)
  have h1' := runOps_more (n' := n + reprobeLimit (2 ^ p) + 2) (by omega) _ _ h1
  rw [h3] at h1'
  cases h1'
  have hten : Ten hash ks.toFinset k (abs m1) (specRun (ks.map (fun x => Op.put x v)) AMap.empty) := by
    refine ⟨hG, by rw [hF.root, hF.next], by rw [hF.root, hF.len]; exact h16, hF.reop, huk, hcard, ?_, ?_, ?_, ?_⟩
    · exact fun x hx => heq x (List.mem_toFinset.mp hx)
    · exact fun h => hkn (List.mem_toFinset.mp h)
    · exact fun x hx => specRun_puts v ks _ x (.inl (List.mem_toFinset.mp hx))
    · rw [hF.root, hF.len]; exact hF.only
  simp only [runOps] at h2
  cases h5 : run ((Op.put k w).prog hash n) m1 with
  | halted x => rw [h5] at h2; cases h2
  | done r m2 =>
    have := PW_bind (f := fun r => (pure (.word r) : Prog Res)) (Q := fun _ _ => False) (PW_mono
      (ten_never_map n .casValue (userKey_of_valid hk) (storable_of_valid hw) (show NO_MATCH_OLD ≠ VINITIAL by decide) nm_facts.1 hten)
      (fun _ _ h => h.elim))
    exact this m1 rfl r m2 h5

/-- Such keys exist: with the constant hash function any eleven, and with any hash function that does not tell some eleven
keys apart. -/
example : ∃ ks : List Word, ks.Nodup ∧ ks.length = 10 ∧ (∀ x ∈ ks, ValidKey x) ∧ (80#64 : Word) ∉ ks ∧ ValidKey 80#64 ∧
    ValidVal 16#64 ∧ ∀ x ∈ ks, (fun _ : Word => (5#64 : Word)) x = (fun _ : Word => (5#64 : Word)) 80#64 :=
  ⟨tenKeys, by decide +kernel, by decide +kernel, tenKeys_valid, by decide +kernel, by decide +kernel, by decide +kernel,
    fun _ _ => rfl⟩

end PMap
