import Verif.StrLib.Model

/-!
# `string.pack`, `string.packsize`, `string.unpack` — lstrlib.c:1326-1755

The format is the list of its bytes up to the terminating zero; reading at the end gives the
terminator, reading further is undefined.  `int` results outside 32 bits are undefined.  Positions
and sizes (`size_t`) are naturals: they are bounded by lengths of strings in memory.  Arguments are
given in the form in which `luaL_checkinteger`, `luaL_checknumber` and `luaL_checklstring` deliver
them, without the conversions these do.  Floats are 64-bit patterns; the conversions to and from
single precision are parameters.  `luaL_checkstack` (1706) is left out.
-/
namespace Verif.Pack
open Verif.StrLib (rd wr mem rdN posrelatI)

/-- `MAXINTSIZE` — lstrlib.c:1333. -/
def MAXINTSIZE : Nat := 16
/-- `MAXALIGN` — lstrlib.c:1354-1359 on 64-bit machines. -/
def MAXALIGN : Nat := 8
/-- `SZINT` — lstrlib.c:1342. -/
def SZINT : Nat := 8
/-- `MC` — lstrlib.c:1339. -/
def MC : Nat := 255
/-- `MAXSIZE` — lstrlib.c:49-50. -/
def MAXSIZE : Nat := 2147483647

/-- `Header` — lstrlib.c:1374-1378. -/
structure Header where
  little : Bool
  maxalign : Nat
deriving DecidableEq, Repr

/-- `KOption` — lstrlib.c:1384-1394. -/
inductive KOption
  | int | uint | float | char | string | zstr | padding | paddalign | nop
deriving DecidableEq, Repr

/-- `digit` — lstrlib.c:1401. -/
def digit (c : UInt8) : Bool := 48 ≤ c.toNat && c.toNat ≤ 57

/-- A C `int`. -/
def int32 (n : Nat) : Res Nat := if n ≤ 2147483647 then .ok n else .ub

/-- The loop of `getnum` — lstrlib.c:1408-1410. -/
def getnumLoop : Nat → List UInt8 → Res (Nat × List UInt8)
  | a, [] => .ok (a, [])
  | a, c :: cs =>
    if digit c && a ≤ (MAXSIZE - 9) / 10 then do
      let a ← int32 (a * 10 + (c.toNat - 48))
      getnumLoop a cs
    else .ok (a, c :: cs)

/-- `getnum` — lstrlib.c:1403-1413; `none` is the default. -/
def getnum (fmt : List UInt8) : Res (Option Nat × List UInt8) :=
  match fmt with
  | [] => .ok (none, fmt)
  | c :: _ =>
    if digit c then do
      let (a, fmt) ← getnumLoop 0 fmt
      pure (some a, fmt)
    else .ok (none, fmt)

/-- `getnumlimit` — lstrlib.c:1420-1426. -/
def getnumlimit (fmt : List UInt8) (df : Nat) : Res (Nat × List UInt8) := do
  let (n, fmt) ← getnum fmt
  let sz := n.getD df
  if sz > MAXINTSIZE ∨ sz = 0 then .err "integral size out of limits"
  else pure (sz, fmt)

/-- `getoption` — lstrlib.c:1442-1478. -/
def getoption (native : Bool) (h : Header) (fmt : List UInt8) : Res (KOption × Nat × Header × List UInt8) :=
  match fmt with
  | [] => .ub
  | c :: fmt =>
    match Char.ofNat c.toNat with
    | 'b' => .ok (.int, 1, h, fmt)
    | 'B' => .ok (.uint, 1, h, fmt)
    | 'h' => .ok (.int, 2, h, fmt)
    | 'H' => .ok (.uint, 2, h, fmt)
    | 'l' => .ok (.int, 8, h, fmt)
    | 'L' => .ok (.uint, 8, h, fmt)
    | 'j' => .ok (.int, 8, h, fmt)
    | 'J' => .ok (.uint, 8, h, fmt)
    | 'T' => .ok (.uint, 8, h, fmt)
    | 'f' => .ok (.float, 4, h, fmt)
    | 'd' => .ok (.float, 8, h, fmt)
    | 'n' => .ok (.float, 8, h, fmt)
    | 'i' => do
      let (sz, fmt) ← getnumlimit fmt 4
      pure (.int, sz, h, fmt)
    | 'I' => do
      let (sz, fmt) ← getnumlimit fmt 4
      pure (.uint, sz, h, fmt)
    | 's' => do
      let (sz, fmt) ← getnumlimit fmt 8
      pure (.string, sz, h, fmt)
    | 'c' => do
      let (n, fmt) ← getnum fmt
      match n with
      | some n => pure (.char, n, h, fmt)
      | none => .err "missing size for format option 'c'"
    | 'z' => .ok (.zstr, 0, h, fmt)
    | 'x' => .ok (.padding, 1, h, fmt)
    | 'X' => .ok (.paddalign, 0, h, fmt)
    | ' ' => .ok (.nop, 0, h, fmt)
    | '<' => .ok (.nop, 0, { h with little := true }, fmt)
    | '>' => .ok (.nop, 0, { h with little := false }, fmt)
    | '=' => .ok (.nop, 0, { h with little := native }, fmt)
    | '!' => do
      let (sz, fmt) ← getnumlimit fmt MAXALIGN
      pure (.nop, 0, { h with maxalign := sz }, fmt)
    | _ => .err "invalid format option"

/-- The alignment part of `getdetails` — lstrlib.c:1497-1507. -/
def alignment (h : Header) (opt : KOption) (align total : Nat) : Res Nat :=
  if align ≤ 1 ∨ opt = .char then .ok 0
  else
    let align := if align > h.maxalign then h.maxalign else align
    if align &&& (align - 1) ≠ 0 then .err "format asks for alignment not power of 2"
    else .ok ((align - (total &&& (align - 1))) &&& (align - 1))

/-- `getdetails` — lstrlib.c:1489-1509: option, size, padding. -/
def getdetails (native : Bool) (h : Header) (total : Nat) (fmt : List UInt8) :
    Res (KOption × Nat × Nat × Header × List UInt8) := do
  let (opt, size, h, fmt) ← getoption native h fmt
  if opt = .paddalign then
    if fmt = [] then .err "invalid next option for option 'X'"
    else do
      let (o2, align, h, fmt) ← getoption native h fmt
      if o2 = .char ∨ align = 0 then .err "invalid next option for option 'X'"
      else do
        let n ← alignment h opt align total
        pure (opt, size, n, h, fmt)
  else do
    let n ← alignment h opt size total
    pure (opt, size, n, h, fmt)

/-- `buff[islittle ? i : size - 1 - i]`. -/
def at_ (little : Bool) (size i : Nat) : Nat := if little then i else size - 1 - i

/-- The first loop of `packint` — lstrlib.c:1522-1525; `k` bytes left, `n` already shifted by `i` bytes. -/
def packLoop (little : Bool) (size : Nat) : Nat → Nat → Nat → List UInt8 → Res (List UInt8)
  | 0, _, _, buff => .ok buff
  | k + 1, i, n, buff => do
    let n := n >>> 8
    let buff ← wr buff (at_ little size i) (UInt8.ofNat (n &&& MC))
    packLoop little size k (i + 1) n buff

/-- The sign-extension loop of `packint` — lstrlib.c:1526-1529. -/
def extLoop (little : Bool) (size : Nat) : Nat → Nat → List UInt8 → Res (List UInt8)
  | 0, _, buff => .ok buff
  | k + 1, i, buff => do
    let buff ← wr buff (at_ little size i) (UInt8.ofNat MC)
    extLoop little size k (i + 1) buff

/-- `packint` — lstrlib.c:1516-1531; `buff` is the prepared space, whatever it holds. -/
def packint (n : Nat) (little : Bool) (size : Nat) (neg : Bool) (buff : List UInt8) : Res (List UInt8) := do
  let buff ← wr buff (at_ little size 0) (UInt8.ofNat (n &&& MC))
  let buff ← packLoop little size (size - 1) 1 n buff
  if neg ∧ size > SZINT then extLoop little size (size - SZINT) SZINT buff
  else pure buff

/-- The first loop of `unpackint` — lstrlib.c:1669-1672; `i` counts down. -/
def readLoop (data : List UInt8) (pos : Nat) (little : Bool) (size : Nat) : Nat → Nat → Res Nat
  | 0, res => .ok res
  | i + 1, res => do
    let b ← rd (mem data) (pos + at_ little size i)
    readLoop data pos little size i (uw (res <<< 8) ||| b.toNat)

/-- The check of the unread bytes in `unpackint` — lstrlib.c:1681-1684. -/
def checkLoop (data : List UInt8) (pos : Nat) (little : Bool) (size mask : Nat) : Nat → Nat → Res Unit
  | 0, _ => .ok ()
  | k + 1, i => do
    let b ← rd (mem data) (pos + at_ little size i)
    if b.toNat ≠ mask then .err "integer does not fit into Lua Integer"
    else checkLoop data pos little size mask k (i + 1)

/-- `unpackint` — lstrlib.c:1664-1687. -/
def unpackint (data : List UInt8) (pos : Nat) (little : Bool) (size : Nat) (signed : Bool) : Res Int := do
  let limit := if size ≤ SZINT then size else SZINT
  let res ← readLoop data pos little size limit 0
  if size < SZINT then
    if signed then
      let mask := 1 <<< (size * 8 - 1)
      pure (toS (uw ((res ^^^ mask) + (18446744073709551616 - mask))))
    else pure (toS res)
  else if size > SZINT then do
    let mask := if signed = false ∨ toS res ≥ 0 then 0 else MC
    checkLoop data pos little size mask (size - limit) limit
    pure (toS res)
  else pure (toS res)

/-- Arguments and results: integers, floats (64-bit patterns) and strings. -/
inductive Val
  | int (i : Int)
  | flt (bits : Nat)
  | str (s : List UInt8)
deriving DecidableEq, Repr

/-- `luaL_checkinteger` without conversions. -/
def checkInt : List Val → Res (Int × List Val)
  | .int i :: vs => .ok (i, vs)
  | _ => .err "integer expected"
/-- `luaL_checknumber` without conversions. -/
def checkFlt : List Val → Res (Nat × List Val)
  | .flt x :: vs => .ok (x, vs)
  | _ => .err "number expected"
/-- `luaL_checklstring` without conversions. -/
def checkStr : List Val → Res (List UInt8 × List Val)
  | .str s :: vs => .ok (s, vs)
  | _ => .err "string expected"

/-- The machine: its byte order, and the conversions between the 64-bit and 32-bit patterns of floats
(C casts at lstrlib.c:1586 and 1721). -/
structure Machine where
  little : Bool
  narrow : Nat → Nat
  widen : Nat → Nat

/-- `size` bytes of a number, least significant first. -/
def bytes : Nat → Nat → List UInt8
  | 0, _ => []
  | k + 1, n => UInt8.ofNat (n % 256) :: bytes k (n / 256)

/-- The number with the given bytes, least significant first. -/
def value : List UInt8 → Nat
  | [] => 0
  | b :: bs => b.toNat + 256 * value bs

/-- The memory of a float of `size` bytes with the given pattern. -/
def repr (M : Machine) (size bits : Nat) : List UInt8 :=
  if M.little then bytes size bits else (bytes size bits).reverse

/-- Reading it back. -/
def ofRepr (M : Machine) (m : List UInt8) : Nat := if M.little then value m else value m.reverse

/-- `copywithendian` — lstrlib.c:1538-1547. -/
def copywithendian (M : Machine) (src : List UInt8) (little : Bool) : List UInt8 :=
  if little = M.little then src else src.reverse

/-- Whatever the prepared buffer holds before it is written. -/
def junk (size : Nat) : List UInt8 := List.replicate size 0xA5

/-- One option of `str_pack` — lstrlib.c:1565-1627, after the alignment bytes: the bytes added and the
arguments left.  `strlen(s) == len` is the absence of zeros. -/
def packItem (M : Machine) (h : Header) (opt : KOption) (size : Nat) (args : List Val) : Res (List UInt8 × List Val) :=
  match opt with
  | .int => do
    let (n, args) ← checkInt args
    let lim : Int := 2 ^ (size * 8 - 1)
    if size < SZINT ∧ ¬ (-lim ≤ n ∧ n < lim) then .err "integer overflow"
    else do
      let b ← packint (toU n) h.little size (n < 0) (junk size)
      pure (b, args)
  | .uint => do
    let (n, args) ← checkInt args
    if size < SZINT ∧ ¬ (toU n < 1 <<< (size * 8)) then .err "unsigned overflow"
    else do
      let b ← packint (toU n) h.little size false (junk size)
      pure (b, args)
  | .float => do
    let (x, args) ← checkFlt args
    pure (copywithendian M (if size = 4 then repr M 4 (M.narrow x) else repr M size x) h.little, args)
  | .char => do
    let (s, args) ← checkStr args
    if s.length > size then .err "string longer than given size"
    else pure (s ++ List.replicate (size - s.length) 0, args)
  | .string => do
    let (s, args) ← checkStr args
    if ¬ (size ≥ 8 ∨ s.length < 1 <<< (size * 8)) then .err "string length does not fit in given size"
    else do
      let b ← packint s.length h.little size false (junk size)
      pure (b ++ s, args)
  | .zstr => do
    let (s, args) ← checkStr args
    if s.contains 0 then .err "string contains zeros"
    else pure (s ++ [0], args)
  | .padding => .ok ([0], args)
  | .paddalign => .ok ([], args)
  | .nop => .ok ([], args)

/-- What `totalsize` grows by besides the alignment — lstrlib.c:1562, 1609, 1619. -/
def grow (opt : KOption) (size : Nat) (args : List Val) : Nat :=
  match opt, args with
  | .string, .str s :: _ => size + s.length
  | .zstr, .str s :: _ => size + s.length + 1
  | _, _ => size

/-- The loop of `str_pack` — lstrlib.c:1559-1628. -/
def packFmt (M : Machine) : Nat → Header → List UInt8 → List Val → Nat → List UInt8 → Res (List UInt8)
  | 0, _, _, _, _, _ => .ub
  | fuel + 1, h, fmt, args, total, out =>
    if fmt = [] then .ok out
    else do
      let (opt, size, n, h, fmt) ← getdetails M.little h total fmt
      let (b, args') ← packItem M h opt size args
      packFmt M fuel h fmt args' (total + n + grow opt size args) (out ++ List.replicate n 0 ++ b)

/-- The format as C sees it: up to the first zero. -/
def cfmt (fmt : List UInt8) : List UInt8 := fmt.takeWhile (· ≠ 0)

/-- `str_pack` — lstrlib.c:1550-1631. -/
def pack (M : Machine) (fmt : List UInt8) (args : List Val) : Res (List UInt8) :=
  packFmt M ((cfmt fmt).length + 1) ⟨M.little, 1⟩ (cfmt fmt) args 0 []

/-- The loop of `str_packsize` — lstrlib.c:1639-1648. -/
def sizeFmt (native : Bool) : Nat → Header → List UInt8 → Nat → Res Nat
  | 0, _, _, _ => .ub
  | fuel + 1, h, fmt, total =>
    if fmt = [] then .ok total
    else do
      let (opt, size, n, h, fmt) ← getdetails native h total fmt
      if opt = .string ∨ opt = .zstr then .err "variable-length format"
      else do
        let size ← int32 (size + n)
        if total ≤ MAXSIZE - size then sizeFmt native fuel h fmt (total + size)
        else .err "format result too large"

/-- `str_packsize` — lstrlib.c:1634-1651. -/
def packsize (M : Machine) (fmt : List UInt8) : Res Nat :=
  sizeFmt M.little ((cfmt fmt).length + 1) ⟨M.little, 1⟩ (cfmt fmt) 0

/-- Subtraction in `size_t`, which wraps. -/
def szsub (a b : Nat) : Nat := uw (a + (18446744073709551616 - b))

/-- `strlen` from an offset. -/
def strlen (data : List UInt8) (pos : Nat) : Res Nat :=
  if pos ≤ data.length then .ok ((data.drop pos).takeWhile (· ≠ 0)).length else .ub

/-- One option of `str_unpack` — lstrlib.c:1709-1751, after the alignment: the results and the next
position. -/
def unpackItem (M : Machine) (h : Header) (opt : KOption) (size : Nat) (data : List UInt8) (pos : Nat) :
    Res (List Val × Nat) :=
  match opt with
  | .int => do
    let r ← unpackint data pos h.little size true
    pure ([.int r], pos + size)
  | .uint => do
    let r ← unpackint data pos h.little size false
    pure ([.int r], pos + size)
  | .float => do
    let m ← rdN (mem data) pos size
    let x := ofRepr M (copywithendian M m h.little)
    pure ([.flt (if size = 4 then M.widen x else x)], pos + size)
  | .char => do
    let s ← rdN (mem data) pos size
    pure ([.str s], pos + size)
  | .string => do
    let r ← unpackint data pos h.little size false
    let len := toU r
    if len ≤ szsub (szsub data.length pos) size then do
      let s ← rdN (mem data) (pos + size) len
      pure ([.str s], pos + len + size)
    else .err "data string too short"
  | .zstr => do
    let len ← strlen data pos
    if pos + len < data.length then do
      let s ← rdN (mem data) pos len
      pure ([.str s], pos + len + 1 + size)
    else .err "unfinished string for format 'z'"
  | .padding => .ok ([], pos + size)
  | .paddalign => .ok ([], pos + size)
  | .nop => .ok ([], pos + size)

/-- The loop of `str_unpack` — lstrlib.c:1699-1752. -/
def unpackFmt (M : Machine) (data : List UInt8) : Nat → Header → List UInt8 → Nat → Res (List Val × Nat)
  | 0, _, _, _ => .ub
  | fuel + 1, h, fmt, pos =>
    if fmt = [] then .ok ([], pos + 1)
    else do
      let (opt, size, n, h, fmt) ← getdetails M.little h pos fmt
      if n + size ≤ szsub data.length pos then do
        let (vs, pos) ← unpackItem M h opt size data (pos + n)
        let (ws, next) ← unpackFmt M data fuel h fmt pos
        pure (vs ++ ws, next)
      else .err "data string too short"

/-- `str_unpack` — lstrlib.c:1690-1755: the values and the next position. -/
def unpack (M : Machine) (fmt data : List UInt8) (init : Int) : Res (List Val × Nat) :=
  let pos := posrelatI init data.length - 1
  if pos ≤ data.length then unpackFmt M data ((cfmt fmt).length + 1) ⟨M.little, 1⟩ (cfmt fmt) pos
  else .err "initial position out of string"

end Verif.Pack
