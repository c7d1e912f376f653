import Verif.Word

/-!
# xxHash-64 (`hashing/xxhash.hpp`)

The 64-bit classic algorithm, `xxh::xxhash<64>`, which `hashing/hash.hpp:8-18` calls on the bytes of one key.
Bytes are read on a little-endian machine; `readLE<64>` is modelled on the byte list.
-/

namespace PMap.XXH

/-- xxhash.hpp:761 `primes64[0..4]` (`PRIME<64>(1..5)`). -/
def P1 : Word := 11400714785074694791#64
/-- xxhash.hpp:761. -/
def P2 : Word := 14029467366897019727#64
/-- xxhash.hpp:761. -/
def P3 : Word := 1609587929392839161#64
/-- xxhash.hpp:761. -/
def P4 : Word := 9650029242287828579#64
/-- xxhash.hpp:761. -/
def P5 : Word := 2870177450012600261#64

/-- xxhash.hpp:253 `rotl64`. -/
def rotl64 (x : Word) (r : Nat) : Word := (x <<< r) ||| (x >>> (64 - r))
/-- xxhash.hpp:255 `rotr64`. -/
def rotr64 (x : Word) (r : Nat) : Word := (x >>> r) ||| (x <<< (64 - r))

/-- xxhash.hpp:780-796 `round<64>`. -/
def round (seed input : Word) : Word :=
  let seed := seed + input * P2
  let seed := rotl64 seed 31
  seed * P1

/-- xxhash.hpp:798-804 `mergeRound64`. -/
def mergeRound64 (acc val : Word) : Word :=
  let val := round 0#64 val
  let acc := acc ^^^ val
  acc * P1 + P4

/-- hashing/xxhash.hpp:534 `readLE<N>`: the little-endian number of the given bytes, as a 64-bit word. -/
def readLE : List (BitVec 8) → Word
  | [] => 0#64
  | b :: bs => b.setWidth 64 ||| (readLE bs <<< 8)

/-- xxhash.hpp:843-850: the 8-byte steps; returns the hash and the bytes left. -/
def steps8 : Nat → Word → List (BitVec 8) → Word × List (BitVec 8)
  | 0, h, p => (h, p)
  | n + 1, h, p =>
    if 8 ≤ p.length then
      let k1 := round 0#64 (readLE (p.take 8))
      let h := h ^^^ k1
      let h := rotl64 h 27 * P1 + P4
      steps8 n h (p.drop 8)
    else (h, p)

/-- xxhash.hpp:852-857: the 4-byte step. -/
def step4 (h : Word) (p : List (BitVec 8)) : Word × List (BitVec 8) :=
  if 4 ≤ p.length then
    let h := h ^^^ (readLE (p.take 4) * P1)
    (rotl64 h 23 * P2 + P3, p.drop 4)
  else (h, p)

/-- xxhash.hpp:859-864: the single-byte steps. -/
def steps1 : Word → List (BitVec 8) → Word
  | h, [] => h
  | h, b :: bs => steps1 (rotl64 (h ^^^ (b.setWidth 64 * P5)) 11 * P1) bs

/-- xxhash.hpp:866-870: the final mix. -/
def finalMix (h : Word) : Word :=
  let h := h ^^^ (h >>> 33)
  let h := h * P2
  let h := h ^^^ (h >>> 29)
  let h := h * P3
  h ^^^ (h >>> 32)

/-- xxhash.hpp:814-874 `endian_align_sub_ending<64>`. -/
def subEnding (h : Word) (p : List (BitVec 8)) : Word :=
  let r := steps8 (p.length / 8) h p
  let r := step4 r.1 r.2
  finalMix (steps1 r.1 r.2)

/-- xxhash.hpp:893-903: the 32-byte stripes (`do … while (p <= limit)`). -/
def stripes : Nat → Word × Word × Word × Word → List (BitVec 8) → (Word × Word × Word × Word) × List (BitVec 8)
  | 0, v, p => (v, p)
  | n + 1, v, p =>
    if 32 ≤ p.length then
      let v1 := round v.1 (readLE (p.take 8))
      let v2 := round v.2.1 (readLE ((p.drop 8).take 8))
      let v3 := round v.2.2.1 (readLE ((p.drop 16).take 8))
      let v4 := round v.2.2.2 (readLE ((p.drop 24).take 8))
      stripes n (v1, v2, v3, v4) (p.drop 32)
    else (v, p)

/-- xxhash.hpp:876-920 `endian_align<64>`. -/
def xxh64 (input : List (BitVec 8)) (seed : Word) : Word :=
  let r : Word × List (BitVec 8) :=
    if 32 ≤ input.length then
      let s := stripes (input.length / 32) (seed + P1 + P2, seed + P2, seed + 0#64, seed - P1) input
      let v := s.1
      let h := rotl64 v.1 1 + rotl64 v.2.1 7 + rotl64 v.2.2.1 12 + rotl64 v.2.2.2 18
      let h := mergeRound64 h v.1
      let h := mergeRound64 h v.2.1
      let h := mergeRound64 h v.2.2.1
      let h := mergeRound64 h v.2.2.2
      (h, s.2)
    else (seed + P5, input)
  subEnding (r.1 + BitVec.ofNat 64 input.length) r.2

/-- The bytes of a 64-bit key in memory (little endian): hash.hpp:14 `std::array<Type, 1> input{type}`. -/
def keyBytes (k : Word) : List (BitVec 8) := (List.range 8).map fun i => (k >>> (8 * i)).setWidth 8

/-- hash.hpp:12-17 `xxhash<size_t>::operator()`: default seed 0. -/
def hashKey (k : Word) : Word := xxh64 (keyBytes k) 0#64

end PMap.XXH
