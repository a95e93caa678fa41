import Verif.CInt
/-!
Basic functions of the string library: `/repo/src/lstrlib.c` 71-79 (`posrelatI`), 87-97 (`getendpos`), 100-109 (`str_sub`), 112-121
(`str_reverse`), 150-173 (`str_rep`), 176-191 (`str_byte`), 194-206 (`str_char`), 670-690 (`lmemfind`), 770-787 (`str_find_aux`, plain search).

A C string object is the list of its bytes followed by the terminating 0 (`mem`); reading outside is undefined behaviour.
Result buffers (`luaL_buffinitsize(L, &b, n)`) are lists of `n` bytes with arbitrary initial content; writing outside is undefined behaviour.
Simplification: the buffer machinery itself is the subject of `Verif/Buffer`.
-/
namespace Verif.StrLib

/-- body of a string object -/
def mem (s : List UInt8) : List UInt8 := s ++ [0]

/-- read one byte -/
def rd (m : List UInt8) (i : Nat) : Res UInt8 :=
  match m[i]? with
  | some b => .ok b
  | none => .ub

/-- read `n` bytes from offset `i` -/
def rdN (m : List UInt8) (i n : Nat) : Res (List UInt8) :=
  if i + n ≤ m.length then .ok ((m.drop i).take n) else .ub

/-- write one byte to a buffer -/
def wr (buff : List UInt8) (i : Nat) (b : UInt8) : Res (List UInt8) :=
  if i < buff.length then .ok (buff.set i b) else .ub

/-- `memcpy(buff + off, src, |src|)` -/
def memcpy (buff : List UInt8) (off : Nat) (src : List UInt8) : Res (List UInt8) :=
  if off + src.length ≤ buff.length then .ok (buff.take off ++ src ++ buff.drop (off + src.length)) else .ub

/-- `posrelatI`, lstrlib.c 71-79; `size_t` arithmetic wraps -/
def posrelatI (pos : Int) (len : Nat) : Nat :=
  if pos > 0 then toU pos
  else if pos = 0 then 1
  else if pos < -(len : Int) then 1
  else uw (len + toU pos + 1)

/-- `getendpos`, lstrlib.c 87-97 (the argument already defaulted) -/
def getendpos (pos : Int) (len : Nat) : Nat :=
  if pos > (len : Int) then len
  else if pos ≥ 0 then toU pos
  else if pos < -(len : Int) then 0
  else uw (len + toU pos + 1)

/-- `str_sub`, lstrlib.c 100-109 -/
def sub (s : List UInt8) (i j : Int) : Res (List UInt8) :=
  let l := s.length
  let start := posrelatI i l
  let e := getendpos j l
  if start ≤ e then rdN (mem s) (start - 1) (e - start + 1) else .ok []

/-- loop of `str_byte`, lstrlib.c 188-189 -/
def byteLoop (s : List UInt8) (posi : Nat) : Nat → Nat → Res (List Int)
  | _, 0 => .ok []
  | i, n + 1 => do
    let b ← rd (mem s) (posi + i - 1)
    let r ← byteLoop s posi (i + 1) n
    return (b.toNat : Int) :: r

/-- `str_byte`, lstrlib.c 176-191; `room` is the number of stack slots `luaL_checkstack` can provide -/
def byte (room : Nat) (s : List UInt8) (i : Int) (j : Option Int) : Res (List Int) :=
  let l := s.length
  let posi := posrelatI i l
  let pose := getendpos (j.getD i) l
  if pose < posi then .ok []
  else if 2147483647 ≤ pose - posi then .err "string slice too long"
  else
    let n := pose - posi + 1
    if room < n then .err "stack overflow (string slice too long)" else byteLoop s posi 0 n

/-- loop of `str_char`, lstrlib.c 199-203 -/
def charLoop : List Int → Nat → List UInt8 → Res (List UInt8)
  | [], _, buff => .ok buff
  | c :: args, i, buff =>
    let c := toU c
    if 255 < c then .err "value out of range" else do
      let buff ← wr buff (i - 1) (UInt8.ofNat c)
      charLoop args (i + 1) buff

/-- `str_char`, lstrlib.c 194-206 (arguments are integers) -/
def char (garbage : Nat → UInt8) (args : List Int) : Res (List UInt8) := do
  let buff ← charLoop args 1 ((List.range args.length).map garbage)
  return buff.take args.length

/-- loop of `str_reverse`, lstrlib.c 117-118 -/
def reverseLoop (s : List UInt8) (l : Nat) : Nat → Nat → List UInt8 → Res (List UInt8)
  | _, 0, buff => .ok buff
  | i, n + 1, buff => do
    let b ← rd (mem s) (l - i - 1)
    let buff ← wr buff i b
    reverseLoop s l (i + 1) n buff

/-- `str_reverse`, lstrlib.c 112-121 -/
def reverse (garbage : Nat → UInt8) (s : List UInt8) : Res (List UInt8) :=
  reverseLoop s s.length 0 s.length ((List.range s.length).map garbage)

/-- the copying loop of `str_rep`, lstrlib.c 162-169; the first argument is `n - 1` -/
def repLoop (s sep : List UInt8) : Nat → List UInt8 → Nat → Res (List UInt8)
  | 0, buff, p => memcpy buff p s
  | n + 1, buff, p => do
    let buff ← memcpy buff p s
    let p := p + s.length
    if 0 < sep.length then do
      let buff ← memcpy buff p sep
      repLoop s sep n buff (p + sep.length)
    else repLoop s sep n buff p

/-- `MAXSIZE`, lstrlib.c 50-51 -/
def maxSize : Nat := 2147483647

/-- `str_rep`, lstrlib.c 150-173 -/
def rep (garbage : Nat → UInt8) (s : List UInt8) (n : Int) (sep : List UInt8) : Res (List UInt8) :=
  let l := s.length
  let lsep := sep.length
  if n ≤ 0 then .ok []
  else if uw (l + lsep) < l ∨ maxSize / toU n < uw (l + lsep) then .err "resulting string too large"
  else
    let totallen := uw (uw (toU n * l) + uw (toU (n - 1) * lsep))
    repLoop s sep (n.toNat - 1) ((List.range totallen).map garbage) 0

/-- C `memchr(m + off, c, n)`, as an offset -/
def memchr (m : List UInt8) (c : UInt8) : Nat → Nat → Res (Option Nat)
  | _, 0 => .ok none
  | off, n + 1 => do
    let b ← rd m off
    if b = c then return some off else memchr m c (off + 1) n

/-- C `memcmp(m1 + o1, m2 + o2, n) == 0`; both ranges must be readable -/
def memeq (m1 : List UInt8) (o1 : Nat) (m2 : List UInt8) (o2 n : Nat) : Res Bool := do
  let a ← rdN m1 o1 n
  let b ← rdN m2 o2 n
  return decide (a = b)

/-- the loop of `lmemfind`, lstrlib.c 678-687; `l2` already decremented -/
def memfindLoop (m1 m2 : List UInt8) (l2 : Nat) : Nat → Nat → Nat → Res (Option Nat)
  | 0, _, _ => .ub
  | fuel + 1, s1, l1 =>
    if 0 < l1 then do
      let c ← rd m2 0
      let r ← memchr m1 c s1 l1
      match r with
      | none => return none
      | some k => do
        let init := k + 1
        let eq ← memeq m1 init m2 1 l2
        if eq then return some (init - 1) else memfindLoop m1 m2 l2 fuel init (l1 - (init - s1))
    else .ok none

/-- `lmemfind`, lstrlib.c 670-690, with pointers as offsets -/
def lmemfind (m1 : List UInt8) (s1 l1 : Nat) (m2 : List UInt8) (l2 : Nat) : Res (Option Nat) :=
  if l2 = 0 then .ok (some s1)
  else if l1 < l2 then .ok none
  else memfindLoop m1 m2 (l2 - 1) (l1 + 1) s1 (l1 - (l2 - 1))

/-- plain search of `str_find_aux`, lstrlib.c 770-787 and 808-810: the first position and the last -/
def findPlain (s p : List UInt8) (i : Int) : Res (Option (Int × Int)) :=
  let ls := s.length
  let init := posrelatI i ls - 1
  if ls < init then .ok none
  else do
    let r ← lmemfind (mem s) init (ls - init) (mem p) p.length
    match r with
    | none => return none
    | some k => return some ((k : Int) + 1, (k : Int) + p.length)

end Verif.StrLib
