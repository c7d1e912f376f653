import Verif.XXHash

/-!
# xxHash in both widths, at once and in pieces (`hashing/xxhash.hpp`)

The template parameter `N` (`bit_mode`) is 32 or 64.  Bytes are read on a little-endian machine.  A write outside the buffer of
the state is `none`.  Not modelled: `bEnd - (bit_mode / 2)` at line 1861 may point before the buffer, which the C++ standard does
not define (the comparison is modelled on numbers), and `operator=` (1920-1923), which has no `return`.
-/

namespace PMap.XXH

/-- A byte (no code of its own). -/
abbrev Byte := BitVec 8

/-- xxhash.hpp:760 `primes32`. -/
def primes32 : List Nat := [2654435761, 2246822519, 3266489917, 668265263, 374761393]
/-- xxhash.hpp:761 `primes64`. -/
def primes64 : List Nat :=
  [11400714785074694791, 14029467366897019727, 1609587929392839161, 9650029242287828579, 2870177450012600261]

/-- xxhash.hpp:763-774 `PRIME`. -/
def PRIME (N n : Nat) : BitVec N :=
  BitVec.ofNat N ((if N = 32 then primes32 else primes64).getD (n - 1) 0)

/-- xxhash.hpp:249-253, 444-456 `rotl<N>`. -/
def rotl {N : Nat} (x : BitVec N) (r : Nat) : BitVec N := (x <<< r) ||| (x >>> (N - r))

/-- xxhash.hpp:780-797 `round<N>`. -/
def roundN {N : Nat} (seed input : BitVec N) : BitVec N :=
  let seed := seed + input * PRIME N 2
  let seed := if N = 32 then rotl seed 13 else rotl seed 31
  seed * PRIME N 1

/-- xxhash.hpp:798-804, 806-812 `mergeRound64`. -/
def mergeRound {N : Nat} (acc val : BitVec N) : BitVec N :=
  let val := roundN 0 val
  let acc := acc ^^^ val
  acc * PRIME N 1 + PRIME N 4

/-- xxhash.hpp:522-544 `readLE`: the little-endian number of the bytes. -/
def readBytes (N : Nat) : List Byte → BitVec N
  | [] => 0
  | b :: bs => b.setWidth N ||| (readBytes N bs <<< 8)

/-- The four accumulators (no code of its own). -/
abbrev Acc (N : Nat) := BitVec N × BitVec N × BitVec N × BitVec N

/-- The values `v1` to `v4` start with: xxhash.hpp:888-891, 1914-1917, 1928-1931. -/
def acc0 {N : Nat} (seed : BitVec N) : Acc N :=
  (seed + PRIME N 1 + PRIME N 2, seed + PRIME N 2, seed + 0, seed - PRIME N 1)

/-- One stripe of `N / 2` bytes: xxhash.hpp:895-902, 1846-1854, 1866-1873. -/
def stripe {N : Nat} (v : Acc N) (p : List Byte) : Acc N :=
  (roundN v.1 (readBytes N (p.take (N / 8))),
   roundN v.2.1 (readBytes N ((p.drop (N / 8)).take (N / 8))),
   roundN v.2.2.1 (readBytes N ((p.drop (2 * (N / 8))).take (N / 8))),
   roundN v.2.2.2 (readBytes N ((p.drop (3 * (N / 8))).take (N / 8))))

/-- The loop `do … while (p <= limit)`, entered only if there is a whole stripe: xxhash.hpp:893-903, 1861-1876.  The first argument
bounds the number of rounds; the callers pass enough. -/
def stripesN {N : Nat} : Nat → Acc N → List Byte → Acc N × List Byte
  | 0, v, p => (v, p)
  | n + 1, v, p => if N / 2 ≤ p.length then stripesN n (stripe v p) (p.drop (N / 2)) else (v, p)

/-- xxhash.hpp:905-910, 1893-1898: from the accumulators to the hash. -/
def collect {N : Nat} (v : Acc N) : BitVec N :=
  let h := rotl v.1 1 + rotl v.2.1 7 + rotl v.2.2.1 12 + rotl v.2.2.2 18
  if N = 64 then mergeRound (mergeRound (mergeRound (mergeRound h v.1) v.2.1) v.2.2.1) v.2.2.2 else h

/-- xxhash.hpp:819-824: the 4-byte steps of the 32-bit hash. -/
def words32 {N : Nat} : Nat → BitVec N → List Byte → BitVec N × List Byte
  | 0, h, p => (h, p)
  | n + 1, h, p =>
    if 4 ≤ p.length then words32 n (rotl (h + readBytes N (p.take 4) * PRIME N 3) 17 * PRIME N 4) (p.drop 4) else (h, p)

/-- xxhash.hpp:826-831: the single bytes of the 32-bit hash. -/
def bytes32 {N : Nat} : BitVec N → List Byte → BitVec N
  | h, [] => h
  | h, b :: bs => bytes32 (rotl (h + b.setWidth N * PRIME N 5) 11 * PRIME N 1) bs

/-- xxhash.hpp:843-850: the 8-byte steps of the 64-bit hash. -/
def words64 {N : Nat} : Nat → BitVec N → List Byte → BitVec N × List Byte
  | 0, h, p => (h, p)
  | n + 1, h, p =>
    if 8 ≤ p.length then
      words64 n (rotl (h ^^^ roundN 0 (readBytes N (p.take 8))) 27 * PRIME N 1 + PRIME N 4) (p.drop 8)
    else (h, p)

/-- xxhash.hpp:852-857: the 4-byte step of the 64-bit hash. -/
def half64 {N : Nat} (h : BitVec N) (p : List Byte) : BitVec N × List Byte :=
  if 4 ≤ p.length then (rotl (h ^^^ (readBytes N (p.take 4) * PRIME N 1)) 23 * PRIME N 2 + PRIME N 3, p.drop 4) else (h, p)

/-- xxhash.hpp:859-864: the single bytes of the 64-bit hash. -/
def bytes64 {N : Nat} : BitVec N → List Byte → BitVec N
  | h, [] => h
  | h, b :: bs => bytes64 (rotl (h ^^^ (b.setWidth N * PRIME N 5)) 11 * PRIME N 1) bs

/-- xxhash.hpp:833-837, 866-870: the final mix. -/
def mixN {N : Nat} (h : BitVec N) : BitVec N :=
  let s : Nat × Nat × Nat := if N = 32 then (15, 13, 16) else (33, 29, 32)
  let h := h ^^^ (h >>> s.1)
  let h := h * PRIME N 2
  let h := h ^^^ (h >>> s.2.1)
  let h := h * PRIME N 3
  h ^^^ (h >>> s.2.2)

/-- xxhash.hpp:814-874 `endian_align_sub_ending<N>`. -/
def ending {N : Nat} (h : BitVec N) (p : List Byte) : BitVec N :=
  if N = 32 then
    let r := words32 (p.length / 4) h p
    mixN (bytes32 r.1 r.2)
  else
    let r := words64 (p.length / 8) h p
    let r := half64 r.1 r.2
    mixN (bytes64 r.1 r.2)

/-- xxhash.hpp:876-921 `endian_align<N>`, which every overload of `xxhash<N>` (1683-1726) calls with the bytes of its input. -/
def oneShot (N : Nat) (input : List Byte) (seed : BitVec N) : BitVec N :=
  let r : BitVec N × List Byte :=
    if N / 2 ≤ input.length then
      let s := stripesN (input.length / (N / 2)) (acc0 seed) input
      (collect s.1, s.2)
    else (seed + PRIME N 5, input)
  ending (r.1 + BitVec.ofNat N input.length) r.2

/-! ## In pieces -/

/-- xxhash.hpp:1824-1827: `hash_state_t`.  `mem` is the array of four words as bytes; those from `memsize` on are leftovers. -/
structure Stream (N : Nat) where
  total : Word
  v : Acc N
  mem : List Byte
  memsize : Nat

/-- xxhash.hpp:1911-1918 the constructor and 1925-1932 `reset`. -/
def Stream.init {N : Nat} (seed : BitVec N) : Stream N := ⟨0, acc0 seed, List.replicate (N / 2) 0, 0⟩

/-- `memcpy(dst + off, src, n)` into an array, `none` outside of either array (no code of its own). -/
def memcpy (dst : List Byte) (off : Nat) (src : List Byte) (n : Nat) : Option (List Byte) :=
  if off + n ≤ dst.length ∧ n ≤ src.length then some (dst.take off ++ src.take n ++ dst.drop (off + n)) else none

/-- xxhash.hpp:1829-1883 `update_impl`, which every overload of `update` (1934-1968) calls with the bytes of its input. -/
def Stream.update {N : Nat} (s : Stream N) (input : List Byte) : Option (Stream N) := do
  let total := s.total + BitVec.ofNat 64 input.length
  if (s.memsize + input.length) % 2 ^ 64 < N / 2 then do
    let mem ← memcpy s.mem s.memsize input input.length
    return { s with total, mem, memsize := s.memsize + input.length }
  else do
    let q : Acc N × List Byte × Nat × List Byte ←
      if 0 < s.memsize then do
        let mem ← memcpy s.mem s.memsize input (N / 2 - s.memsize)
        pure (stripe s.v mem, mem, 0, input.drop (N / 2 - s.memsize))
      else pure (s.v, s.mem, s.memsize, input)
    let r := stripesN (q.2.2.2.length / (N / 2)) q.1 q.2.2.2
    if 0 < r.2.length then do
      let mem ← memcpy q.2.1 0 r.2 r.2.length
      return ⟨total, r.1, mem, r.2.length⟩
    else return ⟨total, r.1, q.2.1, q.2.2.1⟩

/-- xxhash.hpp:1885-1908 `digest_impl`. -/
def Stream.digest {N : Nat} (s : Stream N) : BitVec N :=
  let h := if N / 2 ≤ s.total.toNat then collect s.v else s.v.2.2.1 + PRIME N 5
  ending (h + s.total.setWidth N) (s.mem.take s.memsize)

/-- Several updates in a row (no code of its own). -/
def Stream.updates {N : Nat} (s : Stream N) : List (List Byte) → Option (Stream N)
  | [] => some s
  | c :: cs => do
    let s ← s.update c
    s.updates cs

/-! ## Multiplication and canonical form -/

/-- xxhash.hpp:284-287 `mult32to64`. -/
def mult32to64 (x y : Word) : Word := (x.setWidth 32).setWidth 64 * (y.setWidth 32).setWidth 64

/-- xxhash.hpp:312-324: `mult64to128` where the compiler has no 128-bit integers; `(low64, high64)`. -/
def mult64to128 (lhs rhs : Word) : Word × Word :=
  let loLo := mult32to64 (lhs &&& 0xFFFFFFFF#64) (rhs &&& 0xFFFFFFFF#64)
  let hiLo := mult32to64 (lhs >>> 32) (rhs &&& 0xFFFFFFFF#64)
  let loHi := mult32to64 (lhs &&& 0xFFFFFFFF#64) (rhs >>> 32)
  let hiHi := mult32to64 (lhs >>> 32) (rhs >>> 32)
  let cross := (loLo >>> 32) + (hiLo &&& 0xFFFFFFFF#64) + loHi
  let upper := (hiLo >>> 32) + (cross >>> 32) + hiHi
  let lower := (cross <<< 32) ||| (loLo &&& 0xFFFFFFFF#64)
  (lower, upper)

/-- The bytes of a number in memory, lowest first (`memcpy` from a variable on a little-endian machine; no code of its own). -/
def bytesLE (N : Nat) (x : BitVec N) : List Byte := (List.range (N / 8)).map fun i => (x >>> (8 * i)).setWidth 8

/-- xxhash.hpp:265-269, 472-484 `swap<N>`. -/
def swapN (N : Nat) (x : BitVec N) : BitVec N := readBytes N (bytesLE N x).reverse

/-- xxhash.hpp:2219-2229 `canonical_t(hash)` for 32 and 64 bits. -/
def canonical (N : Nat) (hash : BitVec N) : List Byte := bytesLE N (swapN N hash)

/-- xxhash.hpp:2243-2248 `get_hash` for 32 and 64 bits. -/
def getHash (N : Nat) (digest : List Byte) : BitVec N := swapN N (readBytes N (digest.take (N / 8)))

/-- xxhash.hpp:2230-2240 `canonical_t(hash)` for 128 bits, `(low64, high64)`. -/
def canonical128 (h : Word × Word) : List Byte := bytesLE 64 (swapN 64 h.2) ++ bytesLE 64 (swapN 64 h.1)

/-- xxhash.hpp:2249-2252 `get_hash` for 128 bits. -/
def getHash128 (digest : List Byte) : Word × Word :=
  (swapN 64 (readBytes 64 ((digest.drop 8).take 8)), swapN 64 (readBytes 64 (digest.take 8)))

end PMap.XXH
