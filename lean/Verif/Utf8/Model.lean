import Verif.CInt
/-!
UTF-8: `/repo/src/lobject.c` 350-368 (`luaO_utf8esc`), `/repo/src/lutf8lib.c` 43-47 (`u_posrelat`), 57-84 (`utf8_decode`), 92-115 (`utflen`), 122-148
(`codepoint`), 151-177 (`utfchar`), 224-245 (`iter_aux`).

A C pointer into a string is the list of bytes from it to the end of the object, terminator included; reading beyond is undefined behaviour.
`utfint` is a 32-bit unsigned integer: values wrap, and a shift by 32 or more is undefined behaviour.
-/
namespace Verif.Utf8

/-- `UTF8BUFFSZ`, lobject.h 866 -/
def buffSz : Nat := 8

/-- write one byte into the buffer -/
def wr (buff : List UInt8) (i : Int) (b : Nat) : Res (List UInt8) :=
  if 0 ≤ i ∧ i < buff.length then .ok (buff.set i.toNat (UInt8.ofNat b)) else .ub

/-- the `do … while` loop of `luaO_utf8esc`, lobject.c 357-361, and the first byte, 362; `mfb` is 32-bit, `x` 64-bit -/
def escLoop : Nat → List UInt8 → Nat → Nat → Nat → Res (List UInt8 × Nat)
  | 0, _, _, _, _ => .ub
  | fuel + 1, buff, n, x, mfb => do
    let buff ← wr buff ((buffSz : Int) - n) (0x80 ||| (x &&& 0x3f))
    let n := n + 1
    let x := x >>> 6
    let mfb := mfb >>> 1
    if mfb < x then escLoop fuel buff n x mfb
    else do
      let buff ← wr buff ((buffSz : Int) - n) ((((4294967295 - mfb) <<< 1) % 4294967296) ||| x)
      return (buff, n)

/-- `luaO_utf8esc`, lobject.c 350-368; the buffer is filled from its end, the second result is the number of bytes -/
def utf8esc (buff : List UInt8) (x : Nat) : Res (List UInt8 × Nat) :=
  if x < 0x80 then do
    let buff ← wr buff ((buffSz : Int) - 1) x
    return (buff, 1)
  else escLoop 8 buff 1 x 0x3f

/-- `%U` in `luaO_pushvfstring`, lobject.c 532-537: the last `len` bytes of the buffer -/
def charBytes (garbage : List UInt8) (x : Nat) : Res (List UInt8) := do
  let (buff, n) ← utf8esc garbage x
  return buff.drop (buffSz - n)

/-- `pushutfchar` for each argument, lutf8lib.c 151-177 -/
def utfchar (garbage : List UInt8) : List Int → Res (List UInt8)
  | [] => .ok []
  | c :: cs =>
    let code := toU c
    if code ≤ 0x7FFFFFFF then do
      let b ← charBytes garbage code
      let r ← utfchar garbage cs
      return b ++ r
    else .err "value out of range"

/-- the loop over continuation bytes, lutf8lib.c 66-71; the list starts at `s[count + 1]`.  Returns the final `c`, `count`, `res` and the pointer
behind the bytes read; `none` is the `return NULL` -/
def contLoop : Nat → Nat → Nat → Nat → List UInt8 → Res (Option (Nat × Nat × Nat × List UInt8))
  | 0, _, _, _, _ => .ub
  | fuel + 1, c, count, res, l =>
    if c &&& 0x40 ≠ 0 then
      match l with
      | [] => .ub
      | cc :: l =>
        if cc.toNat &&& 0xC0 ≠ 0x80 then .ok none
        else contLoop fuel ((c <<< 1) % 4294967296) (count + 1) (((res <<< 6) % 4294967296) ||| (cc.toNat &&& 0x3F)) l
    else .ok (some (c, count, res, l))

/-- `limits`, lutf8lib.c 58-59 -/
def limits : List Nat := [4294967295, 0x80, 0x800, 0x10000, 0x200000, 0x4000000]

/-- lutf8lib.c 77-81 -/
def strictOk (strict : Bool) (res : Nat) : Bool :=
  if strict then ¬ (0x10FFFF < res ∨ (0xD800 ≤ res ∧ res ≤ 0xDFFF)) else true

/-- the end of `utf8_decode`, lutf8lib.c 77-83 -/
def decodeEnd (strict : Bool) (res : Nat) (l : List UInt8) : Res (Option (Nat × List UInt8)) :=
  if strictOk strict res then .ok (some (res, l)) else .ok none

/-- `utf8_decode`, lutf8lib.c 57-84: the code point and the pointer behind it, or NULL -/
def decode (strict : Bool) : List UInt8 → Res (Option (Nat × List UInt8))
  | [] => .ub
  | b :: l =>
    let c := b.toNat
    if c < 0x80 then decodeEnd strict c l
    else do
      let r ← contLoop 8 c 0 0 l
      match r with
      | none => return none
      | some (c, count, res, l) =>
        if 32 ≤ count * 5 then .ub
        else
          let res := res ||| (((c &&& 0x7F) <<< (count * 5)) % 4294967296)
          if 5 < count ∨ 0x7FFFFFFF < res then return none
          else match limits[count]? with
            | none => .ub
            | some lim => if res < lim then return none else decodeEnd strict res l

/-- `u_posrelat`, lutf8lib.c 43-47 -/
def posrelat (pos : Int) (len : Nat) : Int :=
  if pos ≥ 0 then pos
  else if (len : Nat) < toU (-pos) then 0
  else (len : Int) + pos + 1

/-- result of `utf8.len`: a count, or the position of the first invalid byte -/
inductive Len where
  | count (n : Nat)
  | invalid (pos : Int)
deriving Repr, DecidableEq

/-- the loop of `utflen`, lutf8lib.c 103-112; a pointer is `len + 1 - (number of bytes left)` -/
def lenLoop (s : List UInt8) (strict : Bool) (posj : Int) : Nat → Int → Nat → Res Len
  | 0, _, _ => .ub
  | fuel + 1, posi, n =>
    if posi ≤ posj then
      if posi < 0 then .ub else do
        let r ← decode strict ((s ++ [0]).drop posi.toNat)
        match r with
        | none => return .invalid (posi + 1)
        | some (_, l) => lenLoop s strict posj fuel ((s.length : Int) + 1 - l.length) (n + 1)
    else .ok (.count n)

/-- `utflen`, lutf8lib.c 92-115 -/
def utflen (s : List UInt8) (i j : Int) (lax : Bool) : Res Len :=
  let posi := posrelat i s.length
  let posj := posrelat j s.length
  if 1 ≤ posi ∧ posi - 1 ≤ s.length then
    if posj - 1 < s.length then lenLoop s (!lax) (posj - 1) (s.length + 1) (posi - 1) 0
    else .err "final position out of bounds"
  else .err "initial position out of bounds"

/-- the loop of `codepoint`, lutf8lib.c 140-147 -/
def cpLoop (s : List UInt8) (strict : Bool) (pose : Int) : Nat → Int → Res (List Nat)
  | 0, _ => .ub
  | fuel + 1, p =>
    if p < pose then
      if p < 0 then .ub else do
        let r ← decode strict ((s ++ [0]).drop p.toNat)
        match r with
        | none => .err "invalid UTF-8 code"
        | some (code, l) => do
          let rest ← cpLoop s strict pose fuel ((s.length : Int) + 1 - l.length)
          return code :: rest
    else .ok []

/-- `codepoint`, lutf8lib.c 122-148; `room` is the number of stack slots available -/
def codepoint (room : Nat) (s : List UInt8) (i : Int) (j : Option Int) (lax : Bool) : Res (List Nat) :=
  let posi := posrelat i s.length
  let pose := posrelat (j.getD posi) s.length
  if 1 ≤ posi then
    if pose ≤ s.length then
      if posi > pose then .ok []
      else if 2147483647 ≤ pose - posi then .err "string slice too long"
      else if (room : Int) < pose - posi + 1 then .err "stack overflow (string slice too long)"
      else cpLoop s (!lax) pose (s.length + 1) (posi - 1)
    else .err "out of bounds"
  else .err "out of bounds"

/-- `iscont(p)`, lutf8lib.c 38 -/
def iscont (b : UInt8) : Bool := b.toNat &&& 0xC0 == 0x80

/-- `while (iscont(s + n)) n++`, lutf8lib.c 232, on the bytes from `s + n` -/
def skipCont : List UInt8 → Res (List UInt8)
  | [] => .ub
  | b :: l => if iscont b then skipCont l else .ok (b :: l)

/-- `iter_aux`, lutf8lib.c 224-245, on a control value `n0`; result: next control value and code point, or nothing at the end -/
def iterAux (s : List UInt8) (n0 : Int) (strict : Bool) : Res (Option (Int × Nat)) :=
  match sres (n0 - 1) with
  | .ok n => do
    let m ← (if n < 0 then .ok (0 : Int)
      else if n < s.length then do
        let l ← skipCont ((s ++ [0]).drop (n.toNat + 1))
        return (s.length : Int) + 1 - l.length
      else .ok n : Res Int)
    if m ≥ s.length then return none
    else do
      let r ← decode strict ((s ++ [0]).drop m.toNat)
      match r with
      | none => .err "invalid UTF-8 code"
      | some (code, _) => return some (m + 1, code)
  | _ => .ub

end Verif.Utf8
