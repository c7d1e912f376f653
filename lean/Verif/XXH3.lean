import Verif.XXStream

/-!
# XXH3 (`hashing/xxhash.hpp`), at once and in pieces

A pointer into an array is the list of the bytes from there on; a read or write outside an array is `none`.  The template parameter
`N` (`bit_mode`) is 64 or 128: `wide` is `N == 128`, and a hash is `(low64, high64)` with `high64 = 0` for 64 bits.  The vector mode is
a parameter of the two functions that use it; everything else is built on the scalar versions (`c61_vector_modes`).
Not modelled: prefetching; `operator=` (2096-2099), which has no `return`; the variant of `len_9to16` for 32-bit machines (1441-1444).
`secretSize` is assumed below 2^32 (it is narrowed at 2140).
-/

namespace PMap.XXH

/-- xxhash.hpp:974-1167 `default_secret`. -/
def defaultSecret : List Byte := List.map (BitVec.ofNat 8) [
  184, 254, 108, 57, 35, 164, 75, 190, 124, 1, 129, 44, 247, 33, 173, 28, 222, 212, 109, 233, 131, 144, 151, 219,
  114, 64, 164, 164, 183, 179, 103, 31, 203, 121, 230, 78, 204, 192, 229, 120, 130, 90, 208, 125, 204, 255, 114, 33,
  184, 8, 70, 116, 247, 67, 36, 142, 224, 53, 144, 230, 129, 58, 38, 76, 60, 40, 82, 187, 145, 195, 0, 203,
  136, 208, 101, 139, 27, 83, 46, 163, 113, 100, 72, 151, 162, 13, 249, 78, 56, 25, 239, 70, 169, 222, 172, 216,
  168, 250, 118, 63, 227, 156, 52, 63, 249, 220, 187, 199, 199, 11, 79, 29, 138, 81, 224, 75, 205, 180, 89, 49,
  200, 159, 126, 201, 217, 120, 115, 100, 234, 197, 172, 131, 52, 211, 235, 195, 197, 129, 160, 255, 250, 19, 99, 235,
  23, 13, 221, 81, 183, 240, 218, 73, 211, 22, 85, 38, 41, 212, 104, 158, 43, 22, 190, 88, 125, 71, 161, 252,
  143, 248, 184, 209, 122, 208, 49, 206, 69, 203, 58, 143, 149, 22, 4, 40, 175, 215, 251, 202, 187, 75, 64, 126]

/-- The eight accumulators (no code of its own). -/
abbrev Acc8 := List Word

/-- xxhash.hpp:1169 `init_acc`. -/
def initAcc : Acc8 :=
  [(PRIME 32 3).setWidth 64, PRIME 64 1, PRIME 64 2, PRIME 64 3, PRIME 64 4, (PRIME 32 2).setWidth 64, PRIME 64 5, (PRIME 32 1).setWidth 64]

/-- xxhash.hpp:522-544 `readLE<N>(p + i)`. -/
def rd (N : Nat) (p : List Byte) (i : Nat) : Option (BitVec N) :=
  if i + N / 8 ≤ p.length then some (readBytes N ((p.drop i).take (N / 8))) else none

/-- xxhash.hpp:1175-1183 `avalanche`. -/
def avalanche (h : Word) : Word :=
  let h := h ^^^ (h >>> 37)
  let h := h * 0x165667919E3779F9#64
  h ^^^ (h >>> 32)

/-- xxhash.hpp:489-494 `mul64to128`; 300-303 where the compiler has 128-bit integers, otherwise `mult64to128` (`c60_product`). -/
def mul64to128 (x y : Word) : Word × Word :=
  let product := x.setWidth 128 * y.setWidth 128
  (product.setWidth 64, (product >>> 64).setWidth 64)

/-- xxhash.hpp:496-501 `mul128fold64`. -/
def mul128fold64 (x y : Word) : Word :=
  let product := mul64to128 x y
  product.1 ^^^ product.2

/-! ## Stripes -/

/-- xxhash.hpp:1196-1236, one round of the loop in scalar mode. -/
def accumLane (wide : Bool) (input secret : List Byte) (acc : Acc8) (i : Nat) : Option Acc8 := do
  let dataVec ← rd 64 input (8 * i)
  let keyVec ← rd 64 secret (8 * i)
  let dataKey := dataVec ^^^ keyVec
  let product := mult32to64 (dataKey &&& 0xFFFFFFFF#64) (dataKey >>> 32)
  let acc := if wide then acc.modify (i ^^^ 1) (· + dataVec) else acc.modify i (· + dataVec)
  return acc.modify i (· + product)

/-- xxhash.hpp:1185-1238 `accumulate_512` in scalar mode. -/
def accumulate512 (wide : Bool) (acc : Acc8) (input secret : List Byte) : Option Acc8 :=
  (List.range 8).foldlM (accumLane wide input secret) acc

/-- xxhash.hpp:1251-1273, one round of the loop in scalar mode. -/
def scrambleLane (secret : List Byte) (acc : Acc8) (i : Nat) : Option Acc8 := do
  let keyVec ← rd 64 secret (8 * i)
  return acc.modify i fun a => ((a ^^^ (a >>> 47)) ^^^ keyVec) * (PRIME 32 1).setWidth 64

/-- xxhash.hpp:1240-1274 `scramble_acc` in scalar mode. -/
def scramble (acc : Acc8) (secret : List Byte) : Option Acc8 :=
  (List.range 8).foldlM (scrambleLane secret) acc

/-- xxhash.hpp:1276-1285 `accumulate`. -/
def accumulate (wide : Bool) : Nat → Acc8 → (input secret : List Byte) → Option Acc8
  | 0, acc, _, _ => some acc
  | n + 1, acc, input, secret => do
    let acc ← accumulate512 wide acc input secret
    accumulate wide n acc (input.drop 64) (secret.drop 8)

/-- xxhash.hpp:1293-1297: the whole blocks. -/
def blocks (wide : Bool) (rounds : Nat) (secret : List Byte) : Nat → Acc8 → List Byte → Option Acc8
  | 0, acc, _ => some acc
  | n + 1, acc, input => do
    let acc ← accumulate wide rounds acc input secret
    let acc ← scramble acc (secret.drop (secret.length - 64))
    blocks wide rounds secret n acc (input.drop (64 * rounds))

/-- xxhash.hpp:1287-1311 `hash_long_internal_loop`.  A secret of less than 72 bytes has no round: the length of a block would be zero
and is divided by (or, below 64 bytes, the secret is read outside). -/
def longLoop (wide : Bool) (acc : Acc8) (input secret : List Byte) : Option Acc8 :=
  if secret.length < 72 then none else do
    let len := input.length
    let nbRounds := (secret.length - 64) / 8
    let blockLen := 64 * nbRounds
    let nbBlocks := len / blockLen
    let acc ← blocks wide nbRounds secret nbBlocks acc input
    let nbStripes := (len - blockLen * nbBlocks) / 64
    let acc ← accumulate wide nbStripes acc (input.drop (nbBlocks * blockLen)) secret
    if len % 64 ≠ 0 then accumulate512 wide acc (input.drop (len - 64)) (secret.drop (secret.length - 64 - 7)) else return acc

/-- xxhash.hpp:1313-1316 `mix_2_accs(acc + j, secret + i)`. -/
def mix2 (acc : Acc8) (j : Nat) (secret : List Byte) (i : Nat) : Option Word := do
  let s0 ← rd 64 secret i
  let s1 ← rd 64 secret (i + 8)
  return mul128fold64 (acc.getD j 0 ^^^ s0) (acc.getD (j + 1) 0 ^^^ s1)

/-- xxhash.hpp:1318-1328 `merge_accs`. -/
def mergeAccs (acc : Acc8) (secret : List Byte) (start : Word) : Option Word := do
  let a ← mix2 acc 0 secret 0
  let b ← mix2 acc 2 secret 16
  let c ← mix2 acc 4 secret 32
  let d ← mix2 acc 6 secret 48
  return avalanche (start + a + b + c + d)

/-- xxhash.hpp:1330-1337 `init_custom_secret`. -/
def customSecret (seed : Word) : List Byte :=
  (List.range 12).flatMap fun i =>
    bytesLE 64 (readBytes 64 ((defaultSecret.drop (16 * i)).take 8) + seed) ++
    bytesLE 64 (readBytes 64 ((defaultSecret.drop (16 * i + 8)).take 8) - seed)

/-- xxhash.hpp:1491-1513 `hash_long_internal`. -/
def hashLong (wide : Bool) (input secret : List Byte) : Option (Word × Word) := do
  let acc ← longLoop wide initAcc input secret
  let len := BitVec.ofNat 64 input.length
  let low ← mergeAccs acc (secret.drop 11) (len * PRIME 64 1)
  if wide then do
    let high ← mergeAccs acc (secret.drop (secret.length - 64 - 11)) (~~~(len * PRIME 64 2))
    return (low, high)
  else return (low, 0)

/-! ## Short inputs -/

/-- xxhash.hpp:1339-1371 `len_1to3`. -/
def len1to3 (wide : Bool) (input secret : List Byte) (seed : Word) : Option (Word × Word) := do
  let len := input.length
  let c1 ← rd 8 input 0
  let c2 ← rd 8 input (len / 2)
  let c3 ← rd 8 input (len - 1)
  let combined : BitVec 32 := (c1.setWidth 32 <<< 16) + (c2.setWidth 32 <<< 24) + c3.setWidth 32 + (BitVec.ofNat 32 len <<< 8)
  let s0 ← rd 32 secret 0
  let s1 ← rd 32 secret 4
  let bitflipl := (s0 ^^^ s1).setWidth 64 + seed
  let low := avalanche ((combined.setWidth 64 ^^^ bitflipl) * PRIME 64 1)
  if wide then do
    let combinedh := rotl (swapN 32 combined) 13
    let s2 ← rd 32 secret 8
    let s3 ← rd 32 secret 12
    let bitfliph := (s2 ^^^ s3).setWidth 64 - seed
    return (low, avalanche ((combinedh.setWidth 64 ^^^ bitfliph) * PRIME 64 5))
  else return (low, 0)

/-- xxhash.hpp:1373-1413 `len_4to8`. -/
def len4to8 (wide : Bool) (input secret : List Byte) (seed : Word) : Option (Word × Word) := do
  let len := input.length
  let mixConstant := 0x9FB21C651E98DF25#64
  let seed := seed ^^^ ((swapN 32 (seed.setWidth 32)).setWidth 64 <<< 32)
  let input1 ← rd 32 input 0
  let input2 ← rd 32 input (len - 4)
  if wide then do
    let input64 := input1.setWidth 64 + (input2.setWidth 64 <<< 32)
    let s2 ← rd 64 secret 16
    let s3 ← rd 64 secret 24
    let keyed := input64 ^^^ ((s2 ^^^ s3) + seed)
    let m := mul64to128 keyed (PRIME 64 1 + (BitVec.ofNat 64 len <<< 2))
    let high := m.2 + (m.1 <<< 1)
    let low := m.1 ^^^ (high >>> 3)
    let low := low ^^^ (low >>> 35)
    let low := low * mixConstant
    return (low ^^^ (low >>> 28), avalanche high)
  else do
    let s1 ← rd 64 secret 8
    let s2 ← rd 64 secret 16
    let x := (input2.setWidth 64 + (input1.setWidth 64 <<< 32)) ^^^ ((s1 ^^^ s2) - seed)
    let x := x ^^^ (rotl x 49 ^^^ rotl x 24)
    let x := x * mixConstant
    let x := x ^^^ ((x >>> 35) + BitVec.ofNat 64 len)
    let x := x * mixConstant
    return (x ^^^ (x >>> 28), 0)

/-- xxhash.hpp:1415-1458 `len_9to16`. -/
def len9to16 (wide : Bool) (input secret : List Byte) (seed : Word) : Option (Word × Word) := do
  let len := BitVec.ofNat 64 input.length
  let lo ← rd 64 input 0
  let hi ← rd 64 input (input.length - 8)
  let s3 ← rd 64 secret 24
  let s4 ← rd 64 secret 32
  let s5 ← rd 64 secret 40
  let s6 ← rd 64 secret 48
  if wide then do
    let s7 ← rd 64 secret 56
    let bitflipl := (s4 ^^^ s5) - seed
    let bitfliph := (s6 ^^^ s7) + seed
    let m := mul64to128 (lo ^^^ hi ^^^ bitflipl) (PRIME 64 1)
    let mlow := m.1 + ((len - 1) <<< 54)
    let hi := hi ^^^ bitfliph
    let mhigh := m.2 + (hi + mult32to64 hi ((PRIME 32 2 - 1).setWidth 64))
    let mlow := mlow ^^^ swapN 64 mhigh
    let h := mul64to128 mlow (PRIME 64 2)
    return (avalanche h.1, avalanche (h.2 + mhigh * PRIME 64 2))
  else do
    let lo := lo ^^^ ((s3 ^^^ s4) + seed)
    let hi := hi ^^^ ((s5 ^^^ s6) - seed)
    return (avalanche (len + swapN 64 lo + hi + mul128fold64 lo hi), 0)

/-- xxhash.hpp:1460-1489 `len_0to16`. -/
def len0to16 (wide : Bool) (input secret : List Byte) (seed : Word) : Option (Word × Word) :=
  if 8 < input.length then len9to16 wide input secret seed
  else if 4 ≤ input.length then len4to8 wide input secret seed
  else if input.length ≠ 0 then len1to3 wide input secret seed
  else if wide then do
    let s8 ← rd 64 secret 64
    let s9 ← rd 64 secret 72
    let s10 ← rd 64 secret 80
    let s11 ← rd 64 secret 88
    return (avalanche ((PRIME 64 1 + seed) ^^^ (s8 ^^^ s9)), avalanche ((PRIME 64 2 - seed) ^^^ (s10 ^^^ s11)))
  else do
    let s7 ← rd 64 secret 56
    let s8 ← rd 64 secret 64
    return (avalanche ((PRIME 64 1 + seed) ^^^ (s7 ^^^ s8)), 0)

/-- xxhash.hpp:1515-1521 `mix_16b(input + i, secret + j, seed)`. -/
def mix16 (input : List Byte) (i : Nat) (secret : List Byte) (j : Nat) (seed : Word) : Option Word := do
  let lo ← rd 64 input i
  let hi ← rd 64 input (i + 8)
  let s0 ← rd 64 secret j
  let s1 ← rd 64 secret (j + 8)
  return mul128fold64 (lo ^^^ (s0 + seed)) (hi ^^^ (s1 - seed))

/-- xxhash.hpp:1523-1531 `mix_32b(acc, input + i1, input + i2, secret + j, seed)`. -/
def mix32 (acc : Word × Word) (input : List Byte) (i1 i2 : Nat) (secret : List Byte) (j : Nat) (seed : Word) :
    Option (Word × Word) := do
  let a ← mix16 input i1 secret j seed
  let x0 ← rd 64 input i2
  let x1 ← rd 64 input (i2 + 8)
  let low := (acc.1 + a) ^^^ (x0 + x1)
  let b ← mix16 input i2 secret (j + 16) seed
  let y0 ← rd 64 input i1
  let y1 ← rd 64 input (i1 + 8)
  return (low, (acc.2 + b) ^^^ (y0 + y1))

/-- xxhash.hpp:1584-1587, 1640-1643: the end of the two 128-bit functions. -/
def finish128 (acc : Word × Word) (len seed : Word) : Word × Word :=
  let low := acc.1 + acc.2
  let high := acc.1 * PRIME 64 1 + acc.2 * PRIME 64 4 + (len - seed) * PRIME 64 2
  (avalanche low, 0 - avalanche high)

/-- xxhash.hpp:1533-1589 `len_17to128`. -/
def len17to128 (wide : Bool) (input secret : List Byte) (seed : Word) : Option (Word × Word) := do
  let n := input.length
  let len := BitVec.ofNat 64 n
  if wide then do
    let acc : Word × Word := (len * PRIME 64 1, 0)
    let acc ← if 96 < n then mix32 acc input 48 (n - 64) secret 96 seed else pure acc
    let acc ← if 64 < n then mix32 acc input 32 (n - 48) secret 64 seed else pure acc
    let acc ← if 32 < n then mix32 acc input 16 (n - 32) secret 32 seed else pure acc
    let acc ← mix32 acc input 0 (n - 16) secret 0 seed
    return finish128 acc len seed
  else do
    let acc := len * PRIME 64 1
    let acc ← if 96 < n then do
        let a ← mix16 input 48 secret 96 seed
        let b ← mix16 input (n - 64) secret 112 seed
        pure (acc + a + b)
      else pure acc
    let acc ← if 64 < n then do
        let a ← mix16 input 32 secret 64 seed
        let b ← mix16 input (n - 48) secret 80 seed
        pure (acc + a + b)
      else pure acc
    let acc ← if 32 < n then do
        let a ← mix16 input 16 secret 32 seed
        let b ← mix16 input (n - 32) secret 48 seed
        pure (acc + a + b)
      else pure acc
    let a ← mix16 input 0 secret 0 seed
    let b ← mix16 input (n - 16) secret 16 seed
    return (avalanche (acc + a + b), 0)

/-- xxhash.hpp:1599-1602, 1606-1609: `for (i = from; i < from + k; i++) acc += mix_16b(input + i * 16, secret + f(i), seed)`. -/
def mixes16 (input secret : List Byte) (seed : Word) (f : Nat → Nat) : Nat → Nat → Word → Option Word
  | 0, _, acc => some acc
  | k + 1, i, acc => do
    let a ← mix16 input (i * 16) secret (f i) seed
    mixes16 input secret seed f k (i + 1) (acc + a)

/-- xxhash.hpp:1624-1627, 1632-1635: the loops of the 128-bit version. -/
def mixes32 (input secret : List Byte) (seed : Word) (f : Nat → Nat) : Nat → Nat → Word × Word → Option (Word × Word)
  | 0, _, acc => some acc
  | k + 1, i, acc => do
    let acc ← mix32 acc input (i * 32) (i * 32 + 16) secret (f i) seed
    mixes32 input secret seed f k (i + 1) acc

/-- xxhash.hpp:1591-1645 `len_129to240`. -/
def len129to240 (wide : Bool) (input secret : List Byte) (seed : Word) : Option (Word × Word) := do
  let n := input.length
  let len := BitVec.ofNat 64 n
  if wide then do
    let acc ← mixes32 input secret seed (fun i => i * 32) 4 0 (len * PRIME 64 1, 0)
    let acc ← mixes32 input secret seed (fun i => 3 + (i - 4) * 32) (n / 32 - 4) 4 (avalanche acc.1, avalanche acc.2)
    let acc ← mix32 acc input (n - 16) (n - 32) secret (136 - 17 - 16) (0 - seed)
    return finish128 acc len seed
  else do
    let acc ← mixes16 input secret seed (fun i => i * 16) 8 0 (len * PRIME 64 1)
    let acc ← mixes16 input secret seed (fun i => (i - 8) * 16 + 3) (n / 16 - 8) 8 (avalanche acc)
    let a ← mix16 input (n - 16) secret (136 - 17) seed
    return (avalanche (acc + a), 0)

/-- xxhash.hpp:1647-1679 `xxhash3_impl`, which every overload of `xxhash3` (1732-1815) calls with the bytes of its input.
`secretSize` is the length of the secret. -/
def xxh3 (wide : Bool) (input : List Byte) (seed : Word) (secret : List Byte) : Option (Word × Word) :=
  let long := if seed ≠ 0 then customSecret seed else secret
  let short := if seed ≠ 0 then defaultSecret else secret
  if input.length ≤ 16 then len0to16 wide input short seed
  else if input.length ≤ 128 then len17to128 wide input short seed
  else if input.length ≤ 240 then len129to240 wide input short seed
  else hashLong wide input long

/-! ## In pieces -/

/-- xxhash.hpp:1991-2002 `hash3_state_t`.  `secret` is what the pointer points to. -/
structure Stream3 where
  acc : Acc8
  buffer : List Byte
  bufferedSize : Nat
  stripesSoFar : Nat
  total : Word
  seed : Word
  secret : List Byte

/-- xxhash.hpp:2138-2141, 2129-2130: `secretLimit`. -/
def Stream3.limit (s : Stream3) : Nat := s.secret.length - 64
/-- xxhash.hpp:2130, 2141: `nbStripesPerBlock`. -/
def Stream3.perBlock (s : Stream3) : Nat := s.limit / 8

/-- xxhash.hpp:2101-2131 the constructor with a seed and `reset(seed)`. -/
def Stream3.ofSeed (seed : Word) : Stream3 :=
  ⟨initAcc, List.replicate 256 0, 0, 0, 0, seed, if seed = 0 then defaultSecret else customSecret seed⟩

/-- xxhash.hpp:2107-2111, 2133-2142 the constructor with a secret and `reset(secret, secretSize)`. -/
def Stream3.ofSecret (secret : List Byte) : Stream3 := ⟨initAcc, List.replicate 256 0, 0, 0, 0, 0, secret⟩

/-- xxhash.hpp:2004-2020 `consume_stripes`; the result is `acc` and `nbStripesSoFar`. -/
def consume (wide : Bool) (secret : List Byte) (perBlock limit : Nat) (acc : Acc8) (soFar totalStripes : Nat) (input : List Byte) :
    Option (Acc8 × Nat) :=
  if perBlock - soFar ≤ totalStripes then do
    let nbStripes := perBlock - soFar
    let acc ← accumulate wide nbStripes acc input (secret.drop (soFar * 8))
    let acc ← scramble acc (secret.drop limit)
    let acc ← accumulate wide (totalStripes - nbStripes) acc (input.drop (nbStripes * 64)) secret
    return (acc, totalStripes - nbStripes)
  else do
    let acc ← accumulate wide totalStripes acc input (secret.drop (soFar * 8))
    return (acc, soFar + totalStripes)

/-- xxhash.hpp:2048-2057: whole buffers straight from the input. -/
def direct (wide : Bool) (s : Stream3) : Nat → Acc8 × Nat → List Byte → Option ((Acc8 × Nat) × List Byte)
  | 0, x, input => some (x, input)
  | n + 1, x, input =>
    if 256 ≤ input.length then do
      let x ← consume wide s.secret s.perBlock s.limit x.1 x.2 4 input
      direct wide s n x (input.drop 256)
    else some (x, input)

/-- xxhash.hpp:2022-2064 `update_impl`, which every overload of `update` (2144-2178) calls with the bytes of its input. -/
def Stream3.update (wide : Bool) (s : Stream3) (input : List Byte) : Option Stream3 := do
  let total := s.total + BitVec.ofNat 64 input.length
  if (s.bufferedSize + input.length) % 2 ^ 64 ≤ 256 then do
    let buffer ← memcpy s.buffer s.bufferedSize input input.length
    return { s with total, buffer, bufferedSize := s.bufferedSize + input.length }
  else do
    let q : (Acc8 × Nat) × List Byte × Nat × List Byte ←
      if 0 < s.bufferedSize then do
        let loadSize := 256 - s.bufferedSize
        let buffer ← memcpy s.buffer s.bufferedSize input loadSize
        let x ← consume wide s.secret s.perBlock s.limit s.acc s.stripesSoFar 4 buffer
        pure (x, buffer, 0, input.drop loadSize)
      else pure ((s.acc, s.stripesSoFar), s.buffer, s.bufferedSize, input)
    let r ← direct wide s (q.2.2.2.length / 256) q.1 q.2.2.2
    if 0 < r.2.length then do
      let buffer ← memcpy q.2.1 0 r.2 r.2.length
      return { s with acc := r.1.1, stripesSoFar := r.1.2, total, buffer, bufferedSize := r.2.length }
    else return { s with acc := r.1.1, stripesSoFar := r.1.2, total, buffer := q.2.1, bufferedSize := q.2.2.1 }

/-- xxhash.hpp:2066-2093 `digest_long`. -/
def Stream3.digestLong (wide : Bool) (s : Stream3) : Option Acc8 :=
  if 64 ≤ s.bufferedSize then do
    let x ← consume wide s.secret s.perBlock s.limit s.acc s.stripesSoFar (s.bufferedSize / 64) s.buffer
    if s.bufferedSize % 64 ≠ 0 then
      accumulate512 wide x.1 (s.buffer.drop (s.bufferedSize - 64)) (s.secret.drop (s.limit - 7))
    else return x.1
  else if 0 < s.bufferedSize then
    let catchupSize := 64 - s.bufferedSize
    let lastStripe := (s.buffer.drop (256 - catchupSize)).take catchupSize ++ s.buffer.take s.bufferedSize
    accumulate512 wide s.acc lastStripe (s.secret.drop (s.limit - 7))
  else return s.acc

/-- xxhash.hpp:2180-2206 `digest`. -/
def Stream3.digest (wide : Bool) (s : Stream3) : Option (Word × Word) :=
  if 240 < s.total.toNat then do
    let acc ← s.digestLong wide
    let low ← mergeAccs acc (s.secret.drop 11) (s.total * PRIME 64 1)
    if wide then do
      let high ← mergeAccs acc (s.secret.drop (s.limit + 64 - 64 - 11)) (~~~(s.total * PRIME 64 2))
      return (low, high)
    else return (low, 0)
  else xxh3 wide (s.buffer.take s.total.toNat) s.seed s.secret

/-- Several updates in a row (no code of its own). -/
def Stream3.updates (wide : Bool) (s : Stream3) : List (List Byte) → Option Stream3
  | [] => some s
  | c :: cs => do
    let s ← s.update wide c
    s.updates wide cs

/-! ## Vector modes -/

/-- The four 32-bit lanes of 128 bits, as two words (no code of its own). -/
def lanes (a b : Word) : List (BitVec 32) := [a.setWidth 32, (a >>> 32).setWidth 32, b.setWidth 32, (b >>> 32).setWidth 32]

/-- Two 32-bit lanes as a word (no code of its own). -/
def ofLanes (lo hi : BitVec 32) : Word := lo.setWidth 64 ||| (hi.setWidth 64 <<< 32)

/-- xxhash.hpp:660-678 `shuffle<bits, S1, S2, S3, S4>`: `_mm_shuffle_epi32` on every 128 bits; lane 0 of the result is lane `S4`. -/
def shuffle (S1 S2 S3 S4 : Nat) : List Word → List Word
  | a :: b :: v =>
    let l := lanes a b
    ofLanes (l.getD S4 0) (l.getD S3 0) :: ofLanes (l.getD S2 0) (l.getD S1 0) :: shuffle S1 S2 S3 S4 v
  | v => v

/-- xxhash.hpp:618-636 `mul<bits>`: `_mm_mul_epu32`, the low halves of each 64-bit lane. -/
def mulEpu32 (a b : List Word) : List Word := List.zipWith (fun x y => (x.setWidth 32).setWidth 64 * (y.setWidth 32).setWidth 64) a b

/-- xxhash.hpp:639-657 `add<bits>`: `_mm_add_epi64`. -/
def addV (a b : List Word) : List Word := List.zipWith (· + ·) a b

/-- xxhash.hpp:598-616 `xorv<bits>`. -/
def xorV (a b : List Word) : List Word := List.zipWith (· ^^^ ·) a b

/-- xxhash.hpp:577-595 `loadu<bits>(p + i)`, `w` words. -/
def loadV (w : Nat) (p : List Byte) (i : Nat) : Option (List Word) := (List.range w).mapM fun j => rd 64 p (8 * (w * i + j))

/-- xxhash.hpp:1196-1222: one round in SSE2 (`w = 2`) or AVX2 (`w = 4`) mode. -/
def accumVec (w : Nat) (wide : Bool) (input secret : List Byte) (acc : Acc8) (i : Nat) : Option Acc8 := do
  let dataVec ← loadV w input i
  let keyVec ← loadV w secret i
  let dataKey := xorV dataVec keyVec
  let product := mulEpu32 dataKey (shuffle 0 3 0 1 dataKey)
  let xacc := (acc.drop (w * i)).take w
  let new := if wide then addV (addV xacc (shuffle 1 0 3 2 dataVec)) product else addV (addV xacc dataVec) product
  return acc.take (w * i) ++ new ++ acc.drop (w * i + w)

/-- xxhash.hpp:1185-1238 `accumulate_512` in SSE2 or AVX2 mode. -/
def accumulate512V (w : Nat) (wide : Bool) (acc : Acc8) (input secret : List Byte) : Option Acc8 :=
  (List.range (8 / w)).foldlM (accumVec w wide input secret) acc

/-- xxhash.hpp:1251-1268: one round in SSE2 or AVX2 mode.  `set1<bits>(PRIME<32>(1))` (681-699) fills all 32-bit lanes. -/
def scrambleVec (w : Nat) (secret : List Byte) (acc : Acc8) (i : Nat) : Option Acc8 := do
  let accVec := (acc.drop (w * i)).take w
  let dataVec := xorV accVec (accVec.map fun a : Word => a >>> 47)
  let keyVec ← loadV w secret i
  let dataKey := xorV dataVec keyVec
  let prime32 := List.replicate w (ofLanes (PRIME 32 1) (PRIME 32 1))
  let prodLo := mulEpu32 dataKey prime32
  let prodHi := mulEpu32 (shuffle 0 3 0 1 dataKey) prime32
  return acc.take (w * i) ++ addV prodLo (prodHi.map fun a : Word => a <<< 32) ++ acc.drop (w * i + w)

/-- xxhash.hpp:1240-1274 `scramble_acc` in SSE2 or AVX2 mode. -/
def scrambleV (w : Nat) (acc : Acc8) (secret : List Byte) : Option Acc8 :=
  (List.range (8 / w)).foldlM (scrambleVec w secret) acc

/-- xxhash.hpp:83-86 `uint128_t::operator>`, numbers as `(low64, high64)`. -/
def gt128 (a b : Word × Word) : Bool := decide (a.2 > b.2) || decide (a.1 > b.1)

/-- xxhash.hpp:93-96, 88-91, 78-81 `uint128_t::operator<`. -/
def lt128 (a b : Word × Word) : Bool := !(gt128 a b || (a.1 == b.1 && a.2 == b.2))

end PMap.XXH
