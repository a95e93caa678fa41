import Verif.Base
/-!
String comparison: `/repo/src/lvm.c` 544-564 (`l_strcmp`), 689-690 and 707-708 (the string branches of `luaV_lessthan` and `luaV_lessequal`).

The body of a `TString` in memory is its bytes followed by a terminating 0.  A C pointer into it is the list of the bytes from
the pointer to the end of the object; reading past the end is undefined behaviour.
Simplification: `strcoll` is `strcmp` (the "C" locale, in which every program starts; `os.setlocale` may change it).
-/
namespace Verif.StrCmp

/-- memory of the body of a string object: the bytes and the terminator -/
def mem (s : List UInt8) : List UInt8 := s ++ [0]

/-- C `strcmp` (bytes compared as `unsigned char`) -/
def strcmp : List UInt8 → List UInt8 → Res Int
  | a :: l, b :: r => if a ≠ b then .ok ((a.toNat : Int) - b.toNat) else if a = 0 then .ok 0 else strcmp l r
  | _, _ => .ub

/-- C `strlen` -/
def strlen : List UInt8 → Res Nat
  | [] => .ub
  | a :: l => if a = 0 then .ok 0 else do
    let n ← strlen l
    return n + 1

/-- the loop of `l_strcmp`, lvm.c 549-563.  `ll -= len` is unsigned arithmetic; an underflow would make the length meaningless and
is treated as undefined behaviour. -/
def loop : Nat → List UInt8 → Nat → List UInt8 → Nat → Res Int
  | 0, _, _, _, _ => .ub
  | fuel + 1, l, ll, r, lr => do
    let temp ← strcmp l r
    if temp ≠ 0 then return temp
    else do
      let len ← strlen l
      if len = lr then return (if len = ll then 0 else 1)
      else if len = ll then return -1
      else if ll < len + 1 ∨ lr < len + 1 then .ub
      else loop fuel (l.drop (len + 1)) (ll - (len + 1)) (r.drop (len + 1)) (lr - (len + 1))

/-- `l_strcmp`, lvm.c 544-564 -/
def lStrcmp (ls rs : List UInt8) : Res Int := loop (ls.length + 1) (mem ls) ls.length (mem rs) rs.length

/-- string branch of `luaV_lessthan`, lvm.c 689-690 -/
def lessthan (l r : List UInt8) : Res Bool := do
  let v ← lStrcmp l r
  return decide (v < 0)

/-- string branch of `luaV_lessequal`, lvm.c 707-708 -/
def lessequal (l r : List UInt8) : Res Bool := do
  let v ← lStrcmp l r
  return decide (v ≤ 0)

end Verif.StrCmp
