import Verif.Word

/-!
# The memory of the clevel hash table

`containers/levelMap.hpp` keeps its set in `include/libpmemobj++/experimental/clevel_hash.hpp`.  This file describes the memory
that header works on, its atomic accesses, and programs made of them.  "clevel" below means that header.

Simplified throughout: levels and metadata objects are numbered in the order of their creation and a number is never used again;
null is number 0.  Key-value entries do have offsets, and an offset may be used again after it is freed.  The flushes
(`pop.persist`) are left out, so this is the table as its threads see it, not as a crash leaves it.
-/

namespace PMap.Clevel

/-- What an access does: it returns a value and a new memory, or the allocator throws (`oom`), or the behaviour is undefined
(`ub`), or an `assert` fails (`abort`).  No code of its own: the outcomes of C++ statements. -/
inductive R (σ : Type) (β : Type) where
  | ok (b : β) (s : σ)
  | oom
  | ub
  | abort

/-- A bucket array with its size and the next larger level (clevel:227-247, `bucket` and `level_bucket`).  `slot b j` is the
word in slot `j` of bucket `b`: a tagged pointer, `KV_entry_ptr_u` (clevel:208-225). -/
structure Level where
  cap : Nat
  up : Nat
  slot : Nat → Nat → Word

/-- `level_meta` (clevel:249-268). -/
structure Meta where
  first : Nat
  last : Nat
  resizing : Bool
  deriving DecidableEq

/-- The table and the heap it lives in (members at clevel:521-542).  `heap` maps the offset of a live key-value entry to its
contents; `allocs` counts the entries allocated so far; `lv`, `nl` are the level objects and the last number given out; `mt`,
`nm` the same for metadata; `root` is the pointer `meta`; `exp` is `expand_bucket`; `tn` is `thread_num` and `tmpE`, `tmpL`, `tmpM`
are the buffers `tmp_entry`, `tmp_level` and `tmp_meta`. -/
structure CSt where
  heap : Word → Option (Word × Word)
  allocs : Nat
  lv : Nat → Option Level
  nl : Nat
  mt : Nat → Option Meta
  nm : Nat
  root : Nat
  exp : Nat
  tn : Nat
  tmpE : Nat → Word
  tmpL : Nat → Nat
  tmpM : Nat → Nat

/-- What the code does not fix: `hash` is the hash function (`hasher`, clevel:92), `pick n` is the offset the allocator offers
for the `n`-th entry, and `pool` the largest number of buckets for which there is room in the pool (levelMap.hpp:106-108 creates
it with a fixed size).  No code of its own. -/
structure CEnv where
  hash : Word → Word
  pick : Nat → Word
  pool : Nat

/-- Programs: a sequence of atomic accesses.  `spin` is a loop that has not ended within the number of rounds the model gives it.
No code of its own. -/
inductive CP (α : Type) : Type 1 where
  | ret (a : α)
  | act {β : Type} (f : CSt → R CSt β) (k : β → CP α)
  | spin

namespace CP

/-- Sequencing.  No code of its own. -/
def bind {α β : Type} : CP α → (α → CP β) → CP β
  | .ret a, g => g a
  | .act f k, g => .act f fun b => (k b).bind g
  | .spin, _ => .spin

instance : Monad CP where
  pure := .ret
  bind := .bind

/-- A single access.  No code of its own. -/
def atom {β : Type} (f : CSt → R CSt β) : CP β := .act f .ret

end CP

/-- `assoc_num` (clevel:128). -/
def assocNum : Nat := 8

/-- `MAX_LEVEL` (clevel:52). -/
def maxLevel : Nat := 16

/-- `compound_pool_ptr::get_offset`, also the mask of `get_address` (compound_pool_ptr.hpp:115-121, 180-184). -/
def getOffset (w : Word) : Word := w &&& 0x0000FFFFFFFFFFFC#64

/-- The `x.partial` view of the union `KV_entry_ptr_u` (clevel:208-214): the top two bytes. -/
def tagOf (w : Word) : BitVec 16 := (w >>> 48).setWidth 16

/-- Writing `x.partial` of the union (clevel:998-999). -/
def setTag (w : Word) (p : BitVec 16) : Word := (w &&& 0x0000FFFFFFFFFFFF#64) ||| (p.setWidth 64 <<< 48)

/-- `get_partial` (clevel:270-276). -/
def getPartial (hv : Word) : BitVec 16 := (hv >>> 48).setWidth 16

/-- `first_index` (clevel:135-143).  For a capacity below 2 the code divides by zero; here the result is then out of range of
every bucket array, or the access below rejects it. -/
def firstIndex (hv : Word) (cap : Nat) : Nat := hv.toNat % (cap / 2)

/-- The hash of a tag (clevel:149-151, 160-162). -/
def hashOfTag (p : BitVec 16) : Word := (((p >>> 1) <<< 1) + 1#16).setWidth 64 * 0xc6a4a7935bd1e995#64

/-- `second_index` (clevel:145-155). -/
def secondIndex (p : BitVec 16) (idx cap : Nat) : Nat :=
  ((BitVec.ofNat 64 idx) ^^^ hashOfTag p).toNat % (cap / 2) + cap / 2

/-- `alt_index` (clevel:157-175). -/
def altIndex (p : BitVec 16) (idx cap : Nat) : Nat :=
  if idx < cap / 2 then ((BitVec.ofNat 64 idx) ^^^ hashOfTag p).toNat % (cap / 2) + cap / 2
  else ((BitVec.ofNat 64 idx) ^^^ hashOfTag p).toNat % (cap / 2)

/-- An offset an allocator may hand out: not null, within the 48 bits the tag leaves and aligned to 4 bytes, the bits
`compound_pool_ptr` keeps (compound_pool_ptr.hpp:9-14). -/
def GoodOffset (w : Word) : Prop := w ≠ 0#64 ∧ getOffset w = w

instance (w : Word) : Decidable (GoodOffset w) := by unfold GoodOffset; infer_instance

namespace CSt

/-- The memory after writing one slot.  No code of its own. -/
def setSlot (s : CSt) (l b j : Nat) (w : Word) : CSt :=
  { s with lv := fun l' => if l' = l then
      (s.lv l).map fun L => { L with slot := fun b' j' => if b' = b ∧ j' = j then w else L.slot b' j' }
    else s.lv l' }

end CSt

open CP

/-- Reading `meta` (e.g. clevel:556). -/
def rdMeta : CP Nat := atom fun s => .ok s.root s

/-- Reading through a metadata pointer (e.g. clevel:557-562). -/
def deMeta (m : Nat) : CP Meta := atom fun s => match s.mt m with
  | none => .ub
  | some M => .ok M s

/-- `CAS(&(meta.off), old, new)` (e.g. clevel:1351). -/
def casMeta (old new : Nat) : CP Bool := atom fun s =>
  if s.root = old then .ok true { s with root := new } else .ok false s

/-- Reading `capacity` of a level (e.g. clevel:567). -/
def rdCap (l : Nat) : CP Nat := atom fun s => match s.lv l with
  | none => .ub
  | some L => .ok L.cap s

/-- Reading `up` of a level (e.g. clevel:598). -/
def rdUp (l : Nat) : CP Nat := atom fun s => match s.lv l with
  | none => .ub
  | some L => .ok L.up s

/-- `CAS(&(cl->up.off), 0, new)` (clevel:1319). -/
def casUp (l new : Nat) : CP Bool := atom fun s => match s.lv l with
  | none => .ub
  | some L => if L.up = 0 then
      .ok true { s with lv := fun l' => if l' = l then some { L with up := new } else s.lv l' }
    else .ok false s

/-- Reading a slot (e.g. clevel:573).  Undefined outside the bucket array. -/
def rdSlot (l b j : Nat) : CP Word := atom fun s => match s.lv l with
  | none => .ub
  | some L => if b < L.cap ∧ j < assocNum then .ok (L.slot b j) s else .ub

/-- `CAS` on a slot (e.g. clevel:1062). -/
def casSlot (l b j : Nat) (old new : Word) : CP Bool := atom fun s => match s.lv l with
  | none => .ub
  | some L => if b < L.cap ∧ j < assocNum then
      (if L.slot b j = old then .ok true (s.setSlot l b j new) else .ok false s)
    else .ub

/-- A plain store to a slot (clevel:1499, 1517). -/
def wrSlot (l b j : Nat) (w : Word) : CP Unit := atom fun s => match s.lv l with
  | none => .ub
  | some L => if b < L.cap ∧ j < assocNum then .ok () (s.setSlot l b j w) else .ub

/-- Reading the key an entry pointer refers to, `p.get_address(my_pool_uuid)->first` (e.g. clevel:576-577).  Undefined for null
and for an entry that is not live. -/
def rdKey (w : Word) : CP Word := atom fun s => match s.heap (getOffset w) with
  | none => .ub
  | some e => .ok e.1 s

/-- `allocate_KV(pop, tmp_entry[t_id], param)` and reading the pointer back (clevel:996-998).  Undefined if the thread has no
buffer.  An offset that is already in use, or that is not a possible one, stands for an allocation that fails. -/
def newEntry (E : CEnv) (t : Nat) (k v : Word) : CP Word := atom fun s =>
  if t < s.tn then
    let o := E.pick s.allocs
    if GoodOffset o ∧ s.heap o = none then
      .ok o { s with heap := fun a => if a = o then some (k, v) else s.heap a, allocs := s.allocs + 1,
                     tmpE := fun t' => if t' = t then o else s.tmpE t' }
    else .oom
  else .ub

/-- `pmemobj_free` of an entry (clevel:640-641, 1146-1147, 1186-1187): undefined if it is not live. -/
def freeEntry (w : Word) : CP Unit := atom fun s => match s.heap (getOffset w) with
  | none => .ub
  | some _ => .ok () { s with heap := fun a => if a = getOffset w then none else s.heap a }

/-- `delete_persistent_atomic<value_type>(tmp_entry[t_id])` (clevel:1056, 1281), which also clears the pointer. -/
def freeTmpEntry (t : Nat) : CP Unit := atom fun s =>
  if t < s.tn then
    match s.heap (s.tmpE t) with
    | none => .ub
    | some _ => .ok () { s with heap := fun a => if a = s.tmpE t then none else s.heap a,
                                tmpE := fun t' => if t' = t then 0#64 else s.tmpE t' }
  else .ub

/-- The allocation and initialisation of a level in `tmp_level[t_id]` (clevel:1305-1316).  There is room for so many buckets or
the allocator throws.  Simplified: one access. -/
def newLevel (E : CEnv) (t cap : Nat) : CP Unit := atom fun s =>
  if t < s.tn then
    if cap ≤ E.pool then
      .ok () { s with lv := fun l => if l = s.nl + 1 then some ⟨cap, 0, fun _ _ => 0#64⟩ else s.lv l, nl := s.nl + 1,
                      tmpL := fun t' => if t' = t then s.nl + 1 else s.tmpL t' }
    else .oom
  else .ub

/-- Reading `tmp_level[t_id]` (clevel:1319). -/
def rdTmpLevel (t : Nat) : CP Nat := atom fun s => if t < s.tn then .ok (s.tmpL t) s else .ub

/-- Freeing the level in `tmp_level[t_id]` (clevel:1326-1329). -/
def freeTmpLevel (t : Nat) : CP Unit := atom fun s =>
  if t < s.tn then
    match s.lv (s.tmpL t) with
    | none => .ub
    | some _ => .ok () { s with lv := fun l => if l = s.tmpL t then none else s.lv l,
                                tmpL := fun t' => if t' = t then 0 else s.tmpL t' }
  else .ub

/-- `make_persistent_atomic<level_meta>(pop, tmp_meta[t_id], ...)` (e.g. clevel:1340-1341).  Simplified: this small allocation
does not fail. -/
def newMeta (t : Nat) (M : Meta) : CP Unit := atom fun s =>
  if t < s.tn then
    .ok () { s with mt := fun m => if m = s.nm + 1 then some M else s.mt m, nm := s.nm + 1,
                    tmpM := fun t' => if t' = t then s.nm + 1 else s.tmpM t' }
  else .ub

/-- Reading `tmp_meta[t_id]` (e.g. clevel:1351). -/
def rdTmpMeta (t : Nat) : CP Nat := atom fun s => if t < s.tn then .ok (s.tmpM t) s else .ub

/-- `delete_persistent_atomic<level_meta>(tmp_meta[t_id])` (clevel:1370, 1413, 1566): undefined if it is not live. -/
def freeTmpMeta (t : Nat) : CP Unit := atom fun s =>
  if t < s.tn then
    match s.mt (s.tmpM t) with
    | none => .ub
    | some _ => .ok () { s with mt := fun m => if m = s.tmpM t then none else s.mt m,
                                tmpM := fun t' => if t' = t then 0 else s.tmpM t' }
  else .ub

/-- Reading `expand_bucket` (e.g. clevel:1467). -/
def rdExp : CP Nat := atom fun s => .ok s.exp s

/-- Writing `expand_bucket` (clevel:1533, 1559). -/
def wrExp (n : Nat) : CP Unit := atom fun s => .ok () { s with exp := n }

/-- A failed `assert` (clevel:838, 927). -/
def failAssert {α : Type} : CP α := .act (β := Unit) (fun _ => .abort) fun _ => .spin

/-- The write past the end of a local array (clevel:670-673, 771-774). -/
def outOfBounds {α : Type} : CP α := .act (β := Unit) (fun _ => .ub) fun _ => .spin

end PMap.Clevel
