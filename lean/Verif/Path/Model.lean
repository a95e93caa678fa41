import Verif.Base

/-!
# Substitution and the search for modules — src/lauxlib.c 1020-1040, src/loadlib.c 473-526

A string of C is the list of its bytes, without the final zero.
-/
namespace Verif.Path

/-- What a C function sees of a Lua string: the bytes before the first zero. -/
def cstr (s : List Nat) : List Nat := s.takeWhile (· ≠ 0)

/-- `strstr`: what is before the first occurrence of `p`, and what is after it. -/
def strstr (p : List Nat) : List Nat → Option (List Nat × List Nat)
  | [] => if p = [] then some ([], []) else none
  | c :: s =>
    if p.isPrefixOf (c :: s) then some ([], (c :: s).drop p.length)
    else (strstr p s).map fun x => (c :: x.1, x.2)

/-- `luaL_addgsub` — lauxlib.c:1020-1030, with the buffer `acc`; the number bounds the rounds of the loop
(`ub` if they run out), the proofs are for every number that is large enough. -/
def addgsub (p r : List Nat) : Nat → List Nat → List Nat → Res (List Nat)
  | 0, _, _ => .ub
  | f + 1, s, acc =>
    match strstr p s with
    | some (before, after) => addgsub p r f after (acc ++ before ++ r)
    | none => .ok (acc ++ s)

/-- `luaL_gsub` — lauxlib.c:1033-1040. -/
def gsub (s p r : List Nat) : Res (List Nat) := addgsub p r (s.length + 1) s []

/-- `LUA_PATH_SEP` and `LUA_PATH_MARK`: `;` and `?` — include/luaconf.h:172-173. -/
def SEP : Nat := 59

/-- See `SEP`. -/
def MARK : Nat := 63

/-- `pushnexttemplate` — loadlib.c:481-489: the template and the rest of the path. -/
def nextTemplate (path : List Nat) : Option (List Nat × List Nat) :=
  let path := path.dropWhile (· = SEP)
  if path = [] then none else some (path.takeWhile (· ≠ SEP), path.dropWhile (· ≠ SEP))

/-- The entry of the message for one file, `"\n\tno file '%s'"` — loadlib.c:506. -/
def noFile (f : List Nat) : List Nat := [10, 9, 110, 111, 32, 102, 105, 108, 101, 32, 39] ++ f ++ [39]

/-- The name of a file, or a message. -/
inductive Found
  | file (name : List Nat)
  | message (m : List Nat)
deriving DecidableEq, Repr

/-- The loop of `searchpath` — loadlib.c:500-511.  `readable` says which files can be opened
(loadlib.c:473-478); simplified: this does not change during the search. -/
def searchLoop (readable : List Nat → Bool) (name : List Nat) : Nat → List Nat → List Nat → Res Found
  | 0, _, _ => .ub
  | f + 1, path, msg =>
    match nextTemplate path with
    | none => .ok (.message msg)
    | some (t, rest) => do
      let filename ← gsub t [MARK] name
      if readable filename then .ok (.file filename)
      else searchLoop readable name f rest (msg ++ noFile filename)

/-- `searchpath` — loadlib.c:492-512, on C strings. -/
def searchpath (readable : List Nat → Bool) (name path sep dirsep : List Nat) : Res Found := do
  let name ← if sep ≠ [] then gsub name sep dirsep else .ok name
  searchLoop readable name (path.length + 1) path []

/-- `package.searchpath` — loadlib.c:515-526, on Lua strings. -/
def llSearchpath (readable : List Nat → Bool) (name path sep dirsep : List Nat) : Res Found :=
  searchpath readable (cstr name) (cstr path) (cstr sep) (cstr dirsep)

end Verif.Path
