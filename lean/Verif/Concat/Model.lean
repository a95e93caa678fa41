import Verif.Base
/-!
Concatenation: `/repo/src/lvm.c` 784-793 (`tostring`, `isemptystr`, `copy2buff`) and 796-840 (`luaV_concat`).

The stack is a list with the top element first; a value is a string (its bytes), a number (with the bytes `luaO_tostring` converts
it to) or another value.  `top - k` is position `k - 1` of the list; reading outside is undefined behaviour.
`luaT_trybinTM` is an arbitrary function `tm` on the two operands and the rest of the program state `σ`, which may fail.
Simplifications: garbage collection and memory errors are not modelled; a string is its content (interning is the subject of `Verif/StrTab`).
-/
namespace Verif.Concat

/-- a Lua value as far as concatenation can see -/
inductive Val where
  | str (s : List UInt8)
  | num (text : List UInt8)
  | other (id : Nat)
deriving Repr, DecidableEq

/-- `ttisstring(o) || cvt2str(o)` -/
def Val.stringable : Val → Bool
  | .other _ => false
  | _ => true

/-- the macro `tostring`, lvm.c 784-785: converts numbers in place; the second component is its truth value -/
def tostring : Val → Val × Bool
  | .num t => (.str t, true)
  | .str s => (.str s, true)
  | .other i => (.other i, false)

/-- `LUAI_MAXSHORTLEN`, /repo/src/llimits.h -/
def maxShort : Nat := 40

/-- `MAX_SIZE`, /repo/src/llimits.h 43 -/
def maxSize : Nat := 2 ^ 63 - 1

/-- `isemptystr`, lvm.c 787 -/
def isEmptyStr : Val → Bool
  | .str [] => true
  | _ => false

/-- `top - k` -/
def at_ (stk : List Val) (k : Nat) : Res Val :=
  if k = 0 then .ub else match stk[k - 1]? with
    | some v => .ok v
    | none => .ub

/-- assignment to `top - k` -/
def put (stk : List Val) (k : Nat) (v : Val) : Res (List Val) :=
  if k = 0 ∨ stk.length < k then .ub else .ok (stk.set (k - 1) v)

/-- `svalue`/`vslen` of a slot that must hold a string -/
def svalue : Val → Res (List UInt8)
  | .str s => .ok s
  | _ => .ub

/-- `memcpy(buff + off, src, l)`: writing outside the buffer is undefined behaviour -/
def memcpy (buff : List UInt8) (off : Nat) (src : List UInt8) : Res (List UInt8) :=
  if off + src.length ≤ buff.length then .ok (buff.take off ++ src ++ buff.drop (off + src.length)) else .ub

/-- `copy2buff`, lvm.c 790-797: a `do … while (--n > 0)` loop, recursion on `n` -/
def copy2buff (stk : List Val) : Nat → List UInt8 → Nat → Res (List UInt8)
  | 0, _, _ => .ub
  | n + 1, buff, tl => do
    let v ← at_ stk (n + 1)
    let s ← svalue v
    let buff ← memcpy buff tl s
    if 0 < n then copy2buff stk n buff (tl + s.length) else return buff

/-- the collecting loop, lvm.c 821-826: `n` counts strings already collected, `tl` their total length; returns the stack (numbers have
been converted in place), `n` and `tl`.  The fuel is `total - n`. -/
def collect : Nat → List Val → Nat → Nat → Res (List Val × Nat × Nat)
  | 0, stk, n, tl => .ok (stk, n, tl)
  | fuel + 1, stk, n, tl => do
    let v ← at_ stk (n + 1)
    let (v', b) := tostring v
    if b then do
      let stk ← put stk (n + 1) v'
      let s ← svalue v'
      let l := s.length
      if maxSize - tl ≤ l then .err "string length overflow"
      else collect fuel stk (n + 1) (tl + l)
    else .ok (stk, n, tl)

/-- lvm.c 827-835: build the result string from the `n` topmost strings of total length `tl`; `garbage` is the initial content of the buffer -/
def build (garbage : Nat → UInt8) (stk : List Val) (n tl : Nat) : Res (List UInt8) :=
  if tl ≤ maxShort then do
    let buff ← copy2buff stk n ((List.range maxShort).map garbage) 0
    if tl ≤ buff.length then return buff.take tl else .ub
  else copy2buff stk n ((List.range tl).map garbage) 0

/-- the last branch of `luaV_concat`, lvm.c 817-836: returns the new stack before popping, and `n` -/
def many (garbage : Nat → UInt8) (stk : List Val) (total : Nat) : Res (List Val × Nat) := do
  let v1 ← at_ stk 1
  let s1 ← svalue v1
  let (stk, n, tl) ← collect (total - 1) stk 1 s1.length
  let ts ← build garbage stk n tl
  let stk ← put stk n (.str ts)
  return (stk, n)

/-- one iteration of the loop of `luaV_concat`, lvm.c 805-838; returns the state, the stack with `L->top` lowered, and the new `total` -/
def pass {σ : Type} (tm : Val → Val → σ → Res (Val × σ)) (garbage : Nat → UInt8) (st : σ) (stk : List Val) (total : Nat) :
    Res (σ × List Val × Nat) := do
  let v2 ← at_ stk 2
  let v1 ← at_ stk 1
  let (v1', b) := tostring v1
  if ¬ v2.stringable ∨ ¬ b then do
    let (r, st) ← tm v2 v1 st
    let stk ← put stk 2 r
    return (st, stk.drop 1, total - 1)
  else do
    let stk ← put stk 1 v1'
    if isEmptyStr v1' then do
      let stk ← put stk 2 (tostring v2).1
      return (st, stk.drop 1, total - 1)
    else if isEmptyStr v2 then do
      let stk ← put stk 2 v1'
      return (st, stk.drop 1, total - 1)
    else do
      let (stk, n) ← many garbage stk total
      return (st, stk.drop (n - 1), total - (n - 1))

/-- `luaV_concat`, lvm.c 802-840; the fuel is `total` -/
def concatF {σ : Type} (tm : Val → Val → σ → Res (Val × σ)) (garbage : Nat → UInt8) : Nat → σ → List Val → Nat → Res (σ × List Val)
  | 0, _, _, _ => .ub
  | fuel + 1, st, stk, total => do
    let (st, stk, total) ← pass tm garbage st stk total
    if 1 < total then concatF tm garbage fuel st stk total else return (st, stk)

def concat {σ : Type} (tm : Val → Val → σ → Res (Val × σ)) (garbage : Nat → UInt8) (st : σ) (stk : List Val) (total : Nat) :
    Res (σ × List Val) := concatF tm garbage total st stk total

end Verif.Concat
