/-!
# The extendible hash table `CCEH` (include/libpmemobj++/experimental/cceh.hpp)

One thread.  A key is the list of its bytes, and `hash` any function on byte strings (cceh.hpp:97-104 uses `std::hash`).  No function
of the class reads a value, so values are left out.  Locks are always free for the one thread, so `try_acquire` (260) succeeds and
taking and releasing locks has no effect; 437, which releases a mutex inside the directory deleted at 435, is left out.  Allocation
does not fail.
-/

namespace PMap.CCEH

/-- No code of its own: what a call does.  `ub` is undefined behaviour (a shift by a negative number or by 64, a read past the end
of a key), `fuel` that the loop of `insert` has not ended. -/
inductive Res (α : Type)
  | done (a : α)
  | ub
  | fuel
deriving DecidableEq

/-- No code of its own: one thing after the other. -/
def Res.bind {α β : Type} : Res α → (α → Res β) → Res β
  | .done a, f => f a
  | .ub, _ => .ub
  | .fuel, _ => .fuel

instance : Monad Res where
  pure := .done
  bind := Res.bind

/-- cceh.hpp:63 `key_type`: the bytes of a key. -/
abbrev Key := List (BitVec 8)

/-- cceh.hpp:97-104 `hasher`: `std::string(key, sz)` reads `sz` bytes. -/
def hasher (hash : Key → BitVec 64) (k : Key) (sz : Nat) : Res (BitVec 64) :=
  if sz ≤ k.length then .done (hash (k.take sz)) else .ub

/-- cceh.hpp:107-116 `key_equal`: `strncmp` of at most `sz` bytes. -/
def keyEqual : Nat → Key → Key → Res Bool
  | 0, _, _ => .done true
  | sz + 1, a :: l, b :: r => if a ≠ b then .done false else if a = 0 then .done true else keyEqual sz l r
  | _ + 1, _, _ => .ub

/-- cceh.hpp:156-176 `segment` (`KNumSlot` is 1024, line 90).  `slots` of index 1024 and more do not exist. -/
structure Seg where
  slots : Nat → Option Key
  depth : Nat
  pattern : Nat

/-- cceh.hpp:166-174: the constructors; a slot is a null pointer. -/
def Seg.new (depth pattern : Nat) : Seg := ⟨fun _ => none, depth, pattern⟩

/-- No code of its own: assignment to a slot. -/
def Seg.set (s : Seg) (i : Nat) (k : Option Key) : Seg := { s with slots := fun j => if j = i then k else s.slots j }

/-- cceh.hpp:293-329 `directory` and 523 `dir`; the segments allocated so far are numbered. -/
structure Table where
  segs : Nat → Seg
  next : Nat
  depth : Nat
  dir : Nat → Nat

/-- cceh.hpp:333-351: the constructor. -/
def Table.new (depth : Nat) : Table := ⟨fun i => Seg.new depth i, 2 ^ depth, depth, id⟩

/-- cceh.hpp:181, 191, 363, 380, 461: `h >> (8*sizeof(h) - d)`; undefined for `d = 0` and for `d > 64`. -/
def top (h : BitVec 64) (d : Nat) : Res Nat := if d = 0 ∨ 64 < d then .ub else .done (h.toNat >>> (64 - d))

/-- cceh.hpp:85-90, 359, 457: `(key_hash&kMask)*kNumPairPerCacheLine`. -/
def loc (h : BitVec 64) : Nat := (h.toNat % 256) * 4

/-- cceh.hpp:184-230: the loop of `segment_insert` over 16 slots, `n` of them left; line 190 hashes `key.length` bytes of the key
that is in the slot.  `none`: no slot. -/
def insertSlot (hash : Key → BitVec 64) (s : Seg) (key : Key) (start : Nat) : Nat → Res (Option Seg)
  | 0 => .done none
  | n + 1 =>
    let i := (start + (15 - n)) % 1024
    match s.slots i with
    | none => .done (some (s.set i (some key)))
    | some k => do
      let hv ← hasher hash k key.length
      let p ← top hv s.depth
      if p = s.pattern then insertSlot hash s key start n else .done (some (s.set i (some key)))

/-- No code of its own: the three results of `segment_insert`. -/
inductive Rc
  | stored (s : Seg)
  | full
  | wrong

/-- cceh.hpp:178-233 `segment_insert`. -/
def segInsert (hash : Key → BitVec 64) (s : Seg) (key : Key) (h : BitVec 64) : Res Rc := do
  let p ← top h s.depth
  if p ≠ s.pattern then return .wrong
  match ← insertSlot hash s key (loc h) 16 with
  | some s => return .stored s
  | none => return .full

/-- cceh.hpp:238-254 `Insert4split`, `n` slots left: the pointer is copied to the first free slot, if there is one. -/
def insert4split (s : Seg) (key : Key) (start : Nat) : Nat → Seg
  | 0 => s
  | n + 1 =>
    let i := (start + (15 - n)) % 1024
    match s.slots i with
    | none => s.set i (some key)
    | some _ => insert4split s key start n

/-- cceh.hpp:269-279: the loop of `Split` over the slots before `n`; `s` is the segment that is split, whose depth is `s.depth`. -/
def migrate (hash : Key → BitVec 64) (s : Seg) : Nat → Seg → Seg
  | 0, new => new
  | i + 1, new =>
    let new := migrate hash s i new
    match s.slots i with
    | none => new
    | some k => if (hash k).getLsbD (64 - s.depth - 1) then insert4split new k (loc (hash k)) 16 else new

/-- cceh.hpp:256-290 `Split` of the segment `t` for a key with hash `h`: the shift of 274 is undefined at depth 64.  The number of
the new segment is `c.next`; its pattern is set later. -/
def split (hash : Key → BitVec 64) (c : Table) (t : Nat) (h : BitVec 64) : Res Table :=
  let s := c.segs t
  if s.depth = 0 ∨ 64 ≤ s.depth then .ub
  else
    let new := migrate hash s 1024 (Seg.new (s.depth + 1) 0)
    .done { c with
      segs := fun i => if i = t then { s with depth := s.depth + 1, pattern := (h.toNat >>> (64 - (s.depth + 1) + 1)) <<< 1 }
        else if i = c.next then new else c.segs i
      next := c.next + 1 }

/-- cceh.hpp:376: the pattern of the new segment. -/
def setPattern (c : Table) (t new : Nat) (h : BitVec 64) : Table :=
  { c with segs := fun i => if i = new then
      { c.segs new with pattern := ((h.toNat >>> (64 - (c.segs t).depth + 1)) <<< 1) + 1 } else c.segs i }

/-- cceh.hpp:380-438: the directory gets the new segment. -/
def link (c : Table) (t new : Nat) (h : BitVec 64) : Res Table := do
  let x ← top h c.depth
  let ld := (c.segs t).depth
  if (c.segs (c.dir x)).depth - 1 < c.depth then
    if c.depth - ld = 0 then
      let y := if x % 2 = 0 then x + 1 else x
      return { c with dir := fun i => if i = y then new else c.dir i }
    else
      let chunk := 2 ^ (c.depth - (ld - 1))
      let x0 := x - x % chunk
      return { c with dir := fun i => if x0 + chunk / 2 ≤ i ∧ i < x0 + chunk / 2 + chunk / 2 then new else c.dir i }
  else
    return { c with depth := c.depth + 1, dir := fun i => if i / 2 = x then (if i % 2 = 0 then t else new) else c.dir (i / 2) }

/-- cceh.hpp:353-452 `insert`.  A key of less than 8 bytes is undefined behaviour where it is stored (204, 222: `memcpy` of
`key_len-8` bytes); here it is so at once.  `n` is the number of times the code may go back to `STARTOVER` or `RETRY`. -/
def insert (hash : Key → BitVec 64) (key : Key) : Nat → Table → Res Table
  | 0, _ => .fuel
  | n + 1, c =>
    if key.length < 8 then .ub
    else do
      let h := hash key
      let x ← top h c.depth
      let t := c.dir x
      match ← segInsert hash (c.segs t) key h with
      | .stored s => return { c with segs := fun i => if i = t then s else c.segs i }
      | .full =>
        let c' ← split hash c t h
        let c' ← link (setPattern c' t c.next h) t c.next h
        insert hash key n c'
      | .wrong => insert hash key n c

/-- cceh.hpp:467-479: the loop of `get`, `n` slots left. -/
def getSlot (s : Seg) (key : Key) (start : Nat) : Nat → Res Bool
  | 0 => .done false
  | n + 1 =>
    match s.slots ((start + (15 - n)) % 1024) with
    | none => getSlot s key start n
    | some k => do
      if ← keyEqual key.length key k then return true
      getSlot s key start n

/-- cceh.hpp:454-484 `get`: whether the key was found. -/
def get (hash : Key → BitVec 64) (key : Key) (c : Table) : Res Bool := do
  let h := hash key
  let x ← top h c.depth
  getSlot (c.segs (c.dir x)) key (loc h) 16

end PMap.CCEH
