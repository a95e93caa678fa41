import Verif.Base

/-!
# Tracebacks — src/lauxlib.c 110-153, src/ldebug.c 117-131

The active calls are a list of frames, the innermost first (`L->ci` down to, but without,
`base_ci`).  Numbers are C `int`s; an overflow is `ub`.
-/
namespace Verif.Trace
variable {α : Type}

/-- The walk of `lua_getstack` over the frames — ldebug.c:122-128. -/
def walk : List α → Nat → Option α
  | [], _ => none
  | fr :: _, 0 => some fr
  | _ :: fs, level + 1 => walk fs level

/-- `lua_getstack` — ldebug.c:117-131. -/
def getstack (frames : List α) (level : Int) : Option α :=
  if level < 0 then none else walk frames level.toNat

/-- The search for an upper bound in `lastlevel` — lauxlib.c:112-114; the first number bounds the
rounds (`ub` if they run out). -/
def bound (frames : List α) : Nat → Nat → Nat → Res (Nat × Nat)
  | 0, _, _ => .ub
  | f + 1, li, le =>
    if (getstack frames le).isSome then
      if le * 2 ≥ 2 ^ 31 then .ub else bound frames f le (le * 2)
    else .ok (li, le)

/-- The binary search in `lastlevel` — lauxlib.c:116-120. -/
def bsearch (frames : List α) : Nat → Nat → Nat → Res Nat
  | 0, _, _ => .ub
  | f + 1, li, le =>
    if li < le then
      if li + le ≥ 2 ^ 31 then .ub
      else
        let m := (li + le) / 2
        if (getstack frames m).isSome then bsearch frames f (m + 1) le else bsearch frames f li m
    else .ok le

/-- `lastlevel` — lauxlib.c:110-122. -/
def lastlevel (frames : List α) : Res Nat := do
  let (li, le) ← bound frames (frames.length + 2) 1 1
  let le ← bsearch frames (frames.length + 2) li le
  .ok (le - 1)

/-- A line of a traceback: a frame or `...`. -/
inductive Item (α : Type)
  | frame (fr : α)
  | dots
deriving DecidableEq, Repr

/-- The loop of `luaL_traceback` — lauxlib.c:135-151; `LEVELS2` is 11.  Simplified: what is written
about a frame is the frame itself. -/
def loop (frames : List α) (last : Nat) : Nat → Int → Int → Res (List (Item α))
  | 0, _, _ => .ub
  | f + 1, level, n1 =>
    if level = 2 ^ 31 - 1 then .ub
    else
      match getstack frames level with
      | none => .ok []
      | some fr =>
        if n1 = -2 ^ 31 then .ub
        else if n1 = 0 then do
          let rest ← loop frames last f ((last : Int) - 11 + 1) (n1 - 1)
          .ok (.dots :: rest)
        else do
          let rest ← loop frames last f (level + 1) (n1 - 1)
          .ok (.frame fr :: rest)

/-- `luaL_traceback` — lauxlib.c:125-153; `LEVELS1` is 10. -/
def traceback (frames : List α) (level : Int) : Res (List (Item α)) := do
  let last ← lastlevel frames
  if (last : Int) - level > 2 ^ 31 - 1 then .ub
  else
    let n1 : Int := if (last : Int) - level > 10 + 11 then 10 else -1
    loop frames last (frames.length + 14) level n1

end Verif.Trace
