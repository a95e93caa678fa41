import Verif.Base

/-!
# Modes of files — src/liolib.c 34-44

A mode is the list of the bytes of the C string.
-/
namespace Verif.IoMode

/-- `strspn(mode, "b")` — the bytes in front that are `b` (`L_MODEEXT`, liolib.c:36). -/
def strspnB : List Nat → Nat
  | [] => 0
  | c :: m => if c = 98 then strspnB m + 1 else 0

/-- The `+` is skipped if it is there — liolib.c:42. -/
def skipPlus : List Nat → List Nat
  | [] => []
  | c :: m => if c = 43 then m else c :: m

/-- `l_checkmode` — liolib.c:40-44. -/
def checkmode : List Nat → Bool
  | [] => false
  | c :: mode =>
    [114, 119, 97].contains c &&
      strspnB (skipPlus mode) == (skipPlus mode).length

end Verif.IoMode
