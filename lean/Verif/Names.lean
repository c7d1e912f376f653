import Verif.Word
import Mathlib.Data.Nat.Digits.Lemmas

/-!
# Table file names and the recovery constructor (`hashMap.hpp`)

Strings are lists of characters; `none` is undefined behaviour.
-/

namespace PMap.Names

/-- The character of a decimal digit (part of `std::to_string`, hashMap.hpp:550). -/
def digitChar (d : Nat) : Char := Char.ofNat (48 + d)
/-- The digit of a character, if it is one (part of `atoi`, hashMap.hpp:591). -/
def charDigit (c : Char) : Option Nat := if 48 ≤ c.toNat ∧ c.toNat ≤ 57 then some (c.toNat - 48) else none

/-- `std::to_string(size_t)` (hashMap.hpp:550): decimal, no leading zeros, "0" for zero. -/
def toString (n : Nat) : List Char := if n = 0 then ['0'] else ((Nat.digits 10 n).map digitChar).reverse

/-- hashMap.hpp:550: the directory prefix. -/
def tableDir : List Char := ['/', 'm', 'n', 't', '/', 'p', 'm', 'e', 'm', '/', 'p', 'm', '1', '/', 't', 'a', 'b', 'l', 'e', 's', '/']
/-- hashMap.hpp:550: the suffix. -/
def suffix : List Char := ['.', 'd', 'a', 't']

/-- hashMap.hpp:548-551 `getOrderedFileName`. -/
def getOrderedFileName (count : Nat) : List Char := tableDir ++ toString count ++ suffix

/-- hashMap.hpp:562-570 and 572-580: index of the last occurrence of `c`.  The C++ loop condition `i >= 0` is always
true, so a string without `c` makes the loop run off the beginning of the string: `none`. -/
def lastIdx (c : Char) (s : List Char) : Option Nat :=
  match s.reverse.findIdx? (· = c) with
  | some j => some (s.length - 1 - j)
  | none => none

/-- One digit of `atoi` (hashMap.hpp:591). -/
def atoiStep (acc : Option Nat) (c : Char) : Option Nat :=
  match acc, charDigit c with
  | some n, some d => some (10 * n + d)
  | _, _ => none

/-- `atoi` (hashMap.hpp:591) on a string of digits ended by a newline: leading digits only; the result must fit in `int`, otherwise the
behaviour is undefined.  Signs and leading white space are not modelled (no generated name has them): `none`. -/
def atoi (s : List Char) : Option Nat :=
  match s.foldl atoiStep (some 0) with
  | some n => if n < 2 ^ 31 then some n else none
  | none => none

/-- hashMap.hpp:553-594 `numFromName`.  The copy goes to a 240-byte buffer (582) followed by a newline (589). -/
def numFromName (s : List Char) : Option Nat :=
  match lastIdx '.' s, lastIdx '/' s with
  | some e, some b =>
    let mid := (s.take e).drop (b + 1)
    if mid.length < 240 then atoi mid else none
  | _, _ => none

/-! ## Recovery constructor -/

/-- `a.compare(b) < 0` on `std::string` (hashMap.hpp:787): lexicographic order of characters. -/
def nameLt : List Char → List Char → Bool
  | [], [] => false
  | [], _ :: _ => true
  | _ :: _, [] => false
  | a :: as, b :: bs => if a.toNat < b.toNat then true else if b.toNat < a.toNat then false else nameLt as bs

/-- Insertion into a sorted list (part of `std::sort`, hashMap.hpp:784). -/
def insertName (x : List Char) : List (List Char) → List (List Char)
  | [] => [x]
  | y :: ys => if nameLt y x then y :: insertName x ys else x :: y :: ys
/-- `std::sort` with `nameLt` (hashMap.hpp:784-788); insertion sort, any correct sort gives the same list. -/
def sortNames : List (List Char) → List (List Char)
  | [] => []
  | x :: xs => insertName x (sortNames xs)

/-- What the recovery loop knows about the `Table` object of one file (hashMap.hpp:793-843). -/
structure TableObj where
  size : Nat
  len : Nat
  live : Bool

/-- Result of the recovery constructor (hashMap.hpp:763-876). -/
inductive Recovered
  | ub
  | threw
  /-- tables kept (numbers), and the new `fileNameCounter` -/
  | ok (tables : List TableObj) (counter : Nat)

/-- hashMap.hpp:595-752 `mmapTable(newTable, capacity, 0, name)` as the constructor calls it (796):
`newTable = !reconstruct = false`, so `fd = -1` (627-632) and the file is created or truncated and re-initialised
(702-741): the table object has `size = 0`.  `num` is `numFromName` (619). -/
def mmapForRecovery (num : List Char → Option Nat) (capacity : Nat) (name : List Char) : Option TableObj :=
  match num name with
  | none => none
  | some _ => some { size := 0, len := capacity, live := true }

/-- hashMap.hpp:753-759 `munmapTable`: `delete table`; a second delete is undefined. -/
def munmapObj (t : TableObj) : Option TableObj := if t.live then some { t with live := false } else none

/-- hashMap.hpp:793-843: one round of the recovery loop; `none` is undefined behaviour, `some none` means the table was
dropped.  Reading `table->len` (807) of a deleted table is undefined. -/
def recoverOne (num : List Char → Option Nat) (capacity : Nat) (name : List Char) : Option (Option TableObj) :=
  match mmapForRecovery num capacity name with
  | none => none
  | some t =>
    match (if t.size = 0 then munmapObj t else some t) with
    | none => none
    | some t =>
      if t.live then
        -- 805-841: every value is VINITIAL after re-initialisation, so `migrationDone` stays true
        match munmapObj t with
        | none => none
        | some _ => some none
      else none

/-- hashMap.hpp:793-843: the recovery loop. -/
def recoverAll (num : List Char → Option Nat) (capacity : Nat) : List (List Char) → Option (List TableObj)
  | [] => some []
  | x :: xs =>
    match recoverOne num capacity x with
    | none => none
    | some r =>
      match recoverAll num capacity xs with
      | none => none
      | some ts => some (match r with | some t => t :: ts | none => ts)

/-- hashMap.hpp:763-865: the constructor with `reconstruct = true`.  `dir = none`: the directory does not exist and
`directory_iterator` throws (774).  `tables[0]` (861) of an empty vector is undefined. -/
def recoverCtor (num : List Char → Option Nat) (capacity : Nat) (dir : Option (List (List Char))) : Recovered :=
  match dir with
  | none => .threw
  | some files =>
    let names := sortNames files
    match recoverAll num capacity names with
    | none => .ub
    | some [] => .ub
    | some (t :: ts) =>
      match num (names.getLastD []) with
      | none => .ub
      | some c => .ok (t :: ts) c

end PMap.Names
