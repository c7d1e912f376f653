import Verif.Word

/-!
# `PERSIST` (`include/persistence.hpp:32-59`)
-/

namespace PMap.Persist

/-- persistence.hpp:29 `FLUSH_ALIGN`. -/
def FLUSH_ALIGN : Word := 64#64

/-- persistence.hpp:37-42: the loop; the result lists the flushed addresses, `none` if it has not ended within the fuel. -/
def flushLoop : Nat → Word → Word → Option (List Word)
  | 0, _, _ => none
  | n + 1, uptr, stop =>
    if uptr < stop then
      match flushLoop n (uptr + FLUSH_ALIGN) stop with
      | some l => some (uptr :: l)
      | none => none
    else some []

/-- persistence.hpp:32-45 `PERSIST` and 47-59 `PERSIST_FLUSH_ONLY` (same loop; the fence is not part of the result). -/
def persistRange (fuel : Nat) (addr len : Word) : Option (List Word) :=
  flushLoop fuel (addr &&& ~~~(FLUSH_ALIGN - 1#64)) (addr + len)

end PMap.Persist
