import Mathlib.Data.BitVec
import Mathlib.Tactic.Ring

/-!
# Words, marks and sentinels

`KeyT = ValT = size_t` (include/define.hpp), hence keys and values are 64-bit words.
-/

namespace PMap

/-- include/define.hpp:20-21: `KeyT`/`ValT` are `size_t`; 64 bits on the target. -/
abbrev Word := BitVec 64

/-- include/marking.hpp:7 `DirtyFlag`. -/
def DirtyFlag : Word := 1#64
/-- include/marking.hpp:16 `MigrationFlag`. -/
def MigrationFlag : Word := 2#64
/-- include/marking.hpp:18 `AddressMask`. -/
def AddressMask : Word := ~~~(DirtyFlag ||| MigrationFlag)

/-- include/marking.hpp:22-25 `setMark`. -/
def setMark (p flag : Word) : Word := p ||| flag
/-- include/marking.hpp:26-29 `clearMark`. -/
def clearMark (p flag : Word) : Word := p &&& ~~~flag
/-- include/marking.hpp:30-33 `isMarked`; the C++ returns a pointer that is only used as a truth value. -/
def isMarked (p flag : Word) : Bool := (p &&& flag) != 0#64

/-- hashMap.hpp:91 `BITS_MARKED`. -/
def BITS_MARKED : Nat := 3

/-- hashMap.hpp:1350 `VINITIAL`. -/
def VINITIAL : Word := ((1#64 <<< 62) - 1#64) <<< BITS_MARKED
/-- hashMap.hpp:1352 `VTOMBSTONE`. -/
def VTOMBSTONE : Word := ((1#64 <<< 62) - 2#64) <<< BITS_MARKED
/-- hashMap.hpp:1354 `TOMBPRIME`. -/
def TOMBPRIME : Word := setMark VTOMBSTONE MigrationFlag
/-- hashMap.hpp:1356 `MATCH_ANY`. -/
def MATCH_ANY : Word := ((1#64 <<< 62) - 3#64) <<< BITS_MARKED
/-- hashMap.hpp:1358 `NO_MATCH_OLD`. -/
def NO_MATCH_OLD : Word := ((1#64 <<< 62) - 4#64) <<< BITS_MARKED
/-- hashMap.hpp:1361 `KINITIAL`. -/
def KINITIAL : Word := ((1#64 <<< 62) - 1#64) <<< BITS_MARKED
/-- hashMap.hpp:1363 `KTOMBSTONE`. -/
def KTOMBSTONE : Word := ((1#64 <<< 62) - 2#64) <<< BITS_MARKED

/-- hashMap.hpp:1311-1314 `isKeyReserved`. -/
def isKeyReserved (k : Word) : Bool := k == KINITIAL || k == KTOMBSTONE
/-- hashMap.hpp:1317-1320 `isValueReserved`. -/
def isValueReserved (v : Word) : Bool :=
  v == VINITIAL || v == VTOMBSTONE || v == TOMBPRIME || v == MATCH_ANY || v == NO_MATCH_OLD

/-- The word with its dirty bit removed: persistence.hpp:89 `(uintptr_t)word & ~DirtyFlag`. -/
def clean (w : Word) : Word := clearMark w DirtyFlag
/-- The word with its dirty bit set: persistence.hpp:101 `(uintptr_t)newVal | DirtyFlag`. -/
def dirty (w : Word) : Word := setMark w DirtyFlag
/-- persistence.hpp:85 `((uintptr_t)word & DirtyFlag) != 0`. -/
def isDirty (w : Word) : Bool := isMarked w DirtyFlag
/-- The migration mark test used throughout hashMap.hpp: `isMarked(V, MigrationFlag)`. -/
def isMig (w : Word) : Bool := isMarked w MigrationFlag

/-! ## Bit lemmas -/

theorem isMarked_eq_false {w f : Word} : isMarked w f = false ↔ w &&& f = 0#64 := by
  simp [isMarked]
theorem isMarked_eq_true {w f : Word} : isMarked w f = true ↔ w &&& f ≠ 0#64 := by
  simp [isMarked]

theorem clearMark_setMark (w f : Word) : clearMark (setMark w f) f = clearMark w f := by
  simp only [clearMark, setMark]; ext i hi; simp; grind
theorem clearMark_clearMark (w f : Word) : clearMark (clearMark w f) f = clearMark w f := by
  simp only [clearMark]; ext i hi; simp
theorem setMark_clearMark (w f : Word) : setMark (clearMark w f) f = setMark w f := by
  simp only [clearMark, setMark]; ext i hi; simp; grind
theorem setMark_setMark (w f : Word) : setMark (setMark w f) f = setMark w f := by
  simp only [setMark]; ext i hi; simp
theorem isMarked_clearMark (w f : Word) : isMarked (clearMark w f) f = false := by
  rw [isMarked_eq_false]; simp only [clearMark]; ext i hi; simp
theorem isMarked_setMark (w : Word) {f : Word} (hf : f ≠ 0#64) : isMarked (setMark w f) f = true := by
  rw [isMarked_eq_true]
  have : setMark w f &&& f = f := by
    simp only [setMark]; ext i hi; simp; grind
  rw [this]; exact hf
theorem clearMark_of_not_marked {w f : Word} (h : isMarked w f = false) : clearMark w f = w := by
  rw [isMarked_eq_false] at h
  simp only [clearMark]; ext i hi
  have := congrArg (fun b => b.getLsbD i) h
  simp [hi] at this
  simp; grind
theorem clearMark_comm (w f g : Word) : clearMark (clearMark w f) g = clearMark (clearMark w g) f := by
  simp only [clearMark]; ext i hi; simp; grind
/-- Clearing one flag leaves a disjoint flag alone. -/
theorem isMarked_clearMark_disjoint {f g : Word} (hfg : f &&& g = 0#64) (w : Word) :
    isMarked (clearMark w f) g = isMarked w g := by
  have : clearMark w f &&& g = w &&& g := by
    simp only [clearMark]; ext i hi
    have := congrArg (fun b => b.getLsbD i) hfg
    simp [hi] at this
    simp; grind
  simp only [isMarked, this]
theorem clearMark_setMark_disjoint {f g : Word} (hfg : f &&& g = 0#64) (w : Word) :
    clearMark (setMark w g) f = setMark (clearMark w f) g := by
  simp only [clearMark, setMark]; ext i hi
  have := congrArg (fun b => b.getLsbD i) hfg
  simp [hi] at this
  simp; grind
/-- For the one-bit dirty flag, a marked word is its unmarked part with the mark. -/
theorem setMark_of_isDirty {w : Word} (h : isMarked w DirtyFlag = true) : setMark w DirtyFlag = w := by
  rw [isMarked_eq_true] at h
  simp only [setMark, DirtyFlag] at *
  have h0 : w[0] = true := by
    by_contra hc
    apply h
    ext i hi
    simp
    rintro hw rfl
    simp_all
  ext i hi
  simp
  rintro rfl
  exact h0
theorem setMark_of_isMig {w : Word} (h : isMarked w MigrationFlag = true) : setMark w MigrationFlag = w := by
  rw [isMarked_eq_true] at h
  simp only [setMark, MigrationFlag] at *
  have two : ∀ i (hi : i < 64), (2#64)[i] = decide (i = 1) := by decide
  have h0 : w[1] = true := by
    by_contra hc
    apply h
    ext i hi
    rw [BitVec.getElem_and, two i hi]
    simp
    rintro hw rfl
    simp_all
  ext i hi
  rw [BitVec.getElem_or, two i hi]
  simp
  rintro rfl
  exact h0

theorem dirty_mig_disjoint : DirtyFlag &&& MigrationFlag = 0#64 := by decide

theorem clean_dirty (w : Word) : clean (dirty w) = clean w := clearMark_setMark w _
theorem clean_clean (w : Word) : clean (clean w) = clean w := clearMark_clearMark w _
theorem isDirty_clean (w : Word) : isDirty (clean w) = false := isMarked_clearMark w _
theorem isDirty_dirty (w : Word) : isDirty (dirty w) = true := isMarked_setMark w (by decide)
theorem clean_of_not_dirty {w : Word} (h : isDirty w = false) : clean w = w := clearMark_of_not_marked h
theorem not_dirty_iff {w : Word} : isDirty w = false ↔ clean w = w :=
  ⟨clean_of_not_dirty, fun h => h ▸ isDirty_clean w⟩
theorem dirty_clean (w : Word) : dirty (clean w) = dirty w := setMark_clearMark w _
theorem dirty_dirty (w : Word) : dirty (dirty w) = dirty w := setMark_setMark w _
/-- A dirty word is its clean part with the dirty bit. -/
theorem dirty_of_isDirty {w : Word} (h : isDirty w = true) : dirty w = w := setMark_of_isDirty h

theorem isMig_clean (w : Word) : isMig (clean w) = isMig w :=
  isMarked_clearMark_disjoint dirty_mig_disjoint w
theorem isMig_dirty (w : Word) : isMig (dirty w) = isMig w := by
  rw [← isMig_clean (dirty w), clean_dirty, isMig_clean]
/-- Setting the migration bit commutes with cleaning. -/
theorem clean_setMig (w : Word) : clean (setMark w MigrationFlag) = setMark (clean w) MigrationFlag :=
  clearMark_setMark_disjoint dirty_mig_disjoint w
theorem clean_clearMig (w : Word) : clean (clearMark w MigrationFlag) = clearMark (clean w) MigrationFlag :=
  clearMark_comm w _ _
theorem isMig_setMig (w : Word) : isMig (setMark w MigrationFlag) = true := isMarked_setMark w (by decide)
theorem isMig_clearMig (w : Word) : isMig (clearMark w MigrationFlag) = false := isMarked_clearMark w _
theorem clearMig_setMig {w : Word} (h : isMig w = false) :
    clearMark (setMark w MigrationFlag) MigrationFlag = w := by
  rw [clearMark_setMark, clearMark_of_not_marked h]
theorem setMig_clearMig {w : Word} (h : isMig w = true) :
    setMark (clearMark w MigrationFlag) MigrationFlag = w := by
  rw [setMark_clearMark, setMark_of_isMig h]
theorem setMig_inj {a b : Word} (ha : isMig a = false) (hb : isMig b = false)
    (h : setMark a MigrationFlag = setMark b MigrationFlag) : a = b := by
  rw [← clearMig_setMig ha, ← clearMig_setMig hb, h]

end PMap
