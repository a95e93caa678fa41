import Verif.Base
/-!
Parsing of expressions: `subexpr` and what it calls in `src/lparser.c` 1070-1213, 1393-1640, 1643-1820.

The parser of the C code emits instructions while it reads; here it returns the tree of the expression
(what is emitted for a tree is the subject of `ExpCode`).  The token stream is a list of tokens, and the
end of the input is the end of the list.  Left out: function bodies (`TK_FUNCTION`), `...` outside vararg functions and
other checks that depend on the context, the limits on registers and constants, and the dotted names of user types
after `@` (lparser.c 1785-1789).  `ravicomp/src/parser.c` 1116-1183 has the same tables and the same
loop, but no limit on the depth.
-/
namespace Verif.Parse

/-- binary operators, `BinOpr` (lcode.h) -/
inductive BinOp where
  | add | sub | mul | mod | pow | div | idiv | band | bor | bxor | shl | shr | concat
  | eq | lt | le | ne | gt | ge | and | or
deriving DecidableEq

/-- unary operators, `UnOpr` (lcode.h); `cast i` are the type assertions `@integer`, `@T` and so on -/
inductive UnOp where
  | minus | bnot | not | len | cast (i : Nat)
deriving DecidableEq

/-- tokens that are operators -/
inductive OpTok where
  | plus | minus | star | percent | caret | slash | dslash | amp | bar | tilde | shl | shr | dots
  | eq | lt | le | ne | gt | ge | and | or | not | hash | cast (i : Nat)
deriving DecidableEq

/-- tokens; `lit` are the literals other than strings, `other` is any token that is not part of an
expression -/
inductive Tok where
  | lit (i : Nat)
  | str (i : Nat)
  | name (i : Nat)
  | op (o : OpTok)
  | lpar | rpar | lbrk | rbrk | lbrc | rbrc | dot | colon | comma | semi | assign
  | other (i : Nat)
deriving DecidableEq

/-- Trees.  One type for expressions, arguments, expression lists and fields of constructors; `T.sort`
tells them apart. -/
inductive T where
  | lit (i : Nat)
  | str (i : Nat)
  | name (i : Nat)
  | paren (e : T)
  | dot (e : T) (i : Nat)
  | idx (e k : T)
  | call (f a : T)
  | mcall (o : T) (i : Nat) (a : T)
  | un (o : UnOp) (e : T)
  | bin (o : BinOp) (l r : T)
  | tab (fs : T)
  -- arguments: `(list)`, a string, a constructor
  | aparen (l : T)
  | astr (i : Nat)
  | atab (fs : T)
  -- lists of expressions
  | lnil
  | lcons (e l : T)
  -- fields
  | fpos (e : T)
  | fnamed (i : Nat) (e : T)
  | fkeyed (k e : T)
  -- lists of fields; `semi`: separated by `;`
  | fsnil
  | fslast (f : T)
  | fsmore (f : T) (semi : Bool) (fs : T)
deriving DecidableEq

/-! ### the parser -/

/-- `getunopr`, lparser.c 1702-1718 -/
def getunopr : Tok → Option UnOp
  | .op .not => some .not
  | .op .minus => some .minus
  | .op .tilde => some .bnot
  | .op .hash => some .len
  | .op (.cast i) => some (.cast i)
  | _ => none

/-- `getbinopr`, lparser.c 1721-1747 -/
def getbinopr : Tok → Option BinOp
  | .op .plus => some .add
  | .op .minus => some .sub
  | .op .star => some .mul
  | .op .percent => some .mod
  | .op .caret => some .pow
  | .op .slash => some .div
  | .op .dslash => some .idiv
  | .op .amp => some .band
  | .op .bar => some .bor
  | .op .tilde => some .bxor
  | .op .shl => some .shl
  | .op .shr => some .shr
  | .op .dots => some .concat
  | .op .ne => some .ne
  | .op .eq => some .eq
  | .op .lt => some .lt
  | .op .le => some .le
  | .op .gt => some .gt
  | .op .ge => some .ge
  | .op .and => some .and
  | .op .or => some .or
  | _ => none

/-- `priority[op].left`, lparser.c 1750-1764 -/
def left : BinOp → Nat
  | .add | .sub => 10
  | .mul | .mod => 11
  | .pow => 14
  | .div | .idiv => 11
  | .band => 6
  | .bor => 4
  | .bxor => 5
  | .shl | .shr => 7
  | .concat => 9
  | .eq | .lt | .le | .ne | .gt | .ge => 3
  | .and => 2
  | .or => 1

/-- `priority[op].right`, lparser.c 1750-1764 -/
def right : BinOp → Nat
  | .add | .sub => 10
  | .mul | .mod => 11
  | .pow => 13
  | .div | .idiv => 11
  | .band => 6
  | .bor => 4
  | .bxor => 5
  | .shl | .shr => 7
  | .concat => 8
  | .eq | .lt | .le | .ne | .gt | .ge => 3
  | .and => 2
  | .or => 1

/-- `UNARY_PRIORITY`, lparser.c 1765 -/
def unaryPriority : Nat := 12

/-- `checknext` and `check_match`, lparser.c -/
def check (t : Tok) : List Tok → Res (List Tok)
  | x :: r => if x = t then .ok r else .err "expected"
  | [] => .err "expected"

/-- `explist`, lparser.c 1393-1403; `ex` is `expr` -/
def explist (ex : List Tok → Res (T × List Tok)) (toks : List Tok) : Res (T × List Tok) :=
  match ex toks with
  | .ok (e, .comma :: r) =>
    if _h : r.length < toks.length then
      match explist ex r with
      | .ok (l, r) => .ok (.lcons e l, r)
      | .err m => .err m
      | .ub => .ub
    else .ub
  | .ok (e, r) => .ok (.lcons e .lnil, r)
  | .err m => .err m
  | .ub => .ub
termination_by toks.length

/-- `field` with `recfield` and `listfield`, lparser.c 1109-1186 -/
def field (ex : List Tok → Res (T × List Tok)) (toks : List Tok) : Res (T × List Tok) :=
  match toks with
  | .name i :: .assign :: r => do
    let (e, r) ← ex r
    return (.fnamed i e, r)
  | .lbrk :: r => do
    let (k, r) ← ex r
    let r ← check .rbrk r
    let r ← check .assign r
    let (e, r) ← ex r
    return (.fkeyed k e, r)
  | toks => do
    let (e, r) ← ex toks
    return (.fpos e, r)

/-- the loop of `constructor`, lparser.c 1201-1207 -/
def fields (ex : List Tok → Res (T × List Tok)) (toks : List Tok) : Res (T × List Tok) :=
  if toks.head? = some .rbrc then .ok (.fsnil, toks)
  else
    match field ex toks with
    | .ok (f, .comma :: r) =>
      if _h : r.length < toks.length then
        match fields ex r with
        | .ok (l, r) => .ok (.fsmore f false l, r)
        | .err m => .err m
        | .ub => .ub
      else .ub
    | .ok (f, .semi :: r) =>
      if _h : r.length < toks.length then
        match fields ex r with
        | .ok (l, r) => .ok (.fsmore f true l, r)
        | .err m => .err m
        | .ub => .ub
      else .ub
    | .ok (f, r) => .ok (.fslast f, r)
    | .err m => .err m
    | .ub => .ub
termination_by toks.length

/-- `constructor`, lparser.c 1188-1213, after the `{`: the fields -/
def constr (ex : List Tok → Res (T × List Tok)) (toks : List Tok) : Res (T × List Tok) := do
  let (fs, r) ← fields ex toks
  let r ← check .rbrc r
  return (fs, r)

/-- `funcargs`, lparser.c 1529-1580 -/
def funcargs (ex : List Tok → Res (T × List Tok)) (toks : List Tok) : Res (T × List Tok) :=
  match toks with
  | .lpar :: .rpar :: r => .ok (.aparen .lnil, r)
  | .lpar :: r => do
    let (l, r) ← explist ex r
    let r ← check .rpar r
    return (.aparen l, r)
  | .lbrc :: r => do
    let (fs, r) ← constr ex r
    return (.atab fs, r)
  | .str i :: r => .ok (.astr i, r)
  | _ => .err "function arguments expected"

/-- the suffix after an expression, one turn of the loop in `suffixedexp`, lparser.c 1611-1638; `none`: there is
no suffix -/
def suffix1 (ex : List Tok → Res (T × List Tok)) (v : T) (toks : List Tok) : Res (Option (T × List Tok)) :=
  match toks with
  | .dot :: .name i :: r => .ok (some (.dot v i, r))
  | .dot :: _ => .err "<name> expected"
  | .lbrk :: r => do
    let (k, r) ← ex r
    let r ← check .rbrk r
    return some (.idx v k, r)
  | .colon :: .name i :: r => do
    let (a, r) ← funcargs ex r
    return some (.mcall v i a, r)
  | .colon :: _ => .err "<name> expected"
  | .lpar :: _ | .str _ :: _ | .lbrc :: _ => do
    let (a, r) ← funcargs ex toks
    return some (.call v a, r)
  | _ => .ok none

/-- the loop of `suffixedexp`, lparser.c 1611-1639 -/
def suffixes (ex : List Tok → Res (T × List Tok)) (v : T) (toks : List Tok) : Res (T × List Tok) :=
  match suffix1 ex v toks with
  | .ok (some (v', r)) => if _h : r.length < toks.length then suffixes ex v' r else .ub
  | .ok none => .ok (v, toks)
  | .err m => .err m
  | .ub => .ub
termination_by toks.length

/-- `primaryexp`, lparser.c 1583-1602 -/
def primaryexp (ex : List Tok → Res (T × List Tok)) (toks : List Tok) : Res (T × List Tok) :=
  match toks with
  | .lpar :: r => do
    let (e, r) ← ex r
    let r ← check .rpar r
    return (.paren e, r)
  | .name i :: r => .ok (.name i, r)
  | _ => .err "unexpected symbol"

/-- `simpleexp`, lparser.c 1643-1700 -/
def simpleexp (ex : List Tok → Res (T × List Tok)) (toks : List Tok) : Res (T × List Tok) :=
  match toks with
  | .lit i :: r => .ok (.lit i, r)
  | .str i :: r => .ok (.str i, r)
  | .lbrc :: r => do
    let (fs, r) ← constr ex r
    return (.tab fs, r)
  | toks => do
    let (v, r) ← primaryexp ex toks
    suffixes ex v r

/-- the loop of `subexpr`, lparser.c 1797-1812; `sub` is `subexpr` one level deeper.  (The operator
that `subexpr` returns is the one at the current token.) -/
def binloop (sub : Nat → List Tok → Res (T × List Tok)) (limit : Nat) (v : T) (toks : List Tok) :
    Res (T × List Tok) :=
  match toks with
  | [] => .ok (v, [])
  | t :: r =>
    match getbinopr t with
    | none => .ok (v, t :: r)
    | some o =>
      if left o > limit then
        match sub (right o) r with
        | .ok (v2, r2) => if _h : r2.length < (t :: r).length then binloop sub limit (.bin o v v2) r2 else .ub
        | .err m => .err m
        | .ub => .ub
      else .ok (v, t :: r)
termination_by toks.length

/-- the operand of `subexpr`, lparser.c 1776-1796 -/
def operand (sub : Nat → List Tok → Res (T × List Tok)) (toks : List Tok) : Res (T × List Tok) :=
  match toks with
  | t :: r =>
    match getunopr t with
    | some u => do
      let (e, r) ← sub unaryPriority r
      return (.un u e, r)
    | none => simpleexp (sub 0) (t :: r)
  | [] => .err "unexpected symbol"

/-- `subexpr`, lparser.c 1772-1815.  The first argument is the number of levels that are left:
`enterlevel` (lparser.c 774-778) raises an error when `nCcalls` exceeds `LUAI_MAXCCALLS` (125,
llimits.h 202). -/
def subexpr : Nat → Nat → List Tok → Res (T × List Tok)
  | 0, _, _ => .err "too many C levels"
  | n + 1, limit, toks => do
    let (v, r) ← operand (subexpr n) toks
    binloop (subexpr n) limit v r

/-- `expr`, lparser.c 1818-1820 -/
def expr (n : Nat) (toks : List Tok) : Res (T × List Tok) := subexpr n 0 toks

/-! ### the language -/

/-- how binary operators are written -/
def BinOp.tok : BinOp → OpTok
  | .add => .plus | .sub => .minus | .mul => .star | .mod => .percent | .pow => .caret | .div => .slash
  | .idiv => .dslash | .band => .amp | .bor => .bar | .bxor => .tilde | .shl => .shl | .shr => .shr
  | .concat => .dots | .eq => .eq | .lt => .lt | .le => .le | .ne => .ne | .gt => .gt | .ge => .ge
  | .and => .and | .or => .or

/-- how unary operators are written -/
def UnOp.tok : UnOp → OpTok
  | .minus => .minus | .bnot => .tilde | .not => .not | .len => .hash | .cast i => .cast i

/-- the text of a tree -/
def T.text : T → List Tok
  | .lit i => [.lit i]
  | .str i => [.str i]
  | .name i => [.name i]
  | .paren e => .lpar :: e.text ++ [.rpar]
  | .dot e i => e.text ++ [.dot, .name i]
  | .idx e k => e.text ++ .lbrk :: k.text ++ [.rbrk]
  | .call f a => f.text ++ a.text
  | .mcall o i a => o.text ++ .colon :: .name i :: a.text
  | .un o e => .op o.tok :: e.text
  | .bin o l r => l.text ++ .op o.tok :: r.text
  | .tab fs => .lbrc :: fs.text ++ [.rbrc]
  | .aparen l => .lpar :: l.text ++ [.rpar]
  | .astr i => [.str i]
  | .atab fs => .lbrc :: fs.text ++ [.rbrc]
  | .lnil => []
  | .lcons e .lnil => e.text
  | .lcons e l => e.text ++ .comma :: l.text
  | .fpos e => e.text
  | .fnamed i e => .name i :: .assign :: e.text
  | .fkeyed k e => .lbrk :: k.text ++ .rbrk :: .assign :: e.text
  | .fsnil => []
  | .fslast f => f.text
  | .fsmore f semi fs => f.text ++ (if semi then .semi else .comma) :: fs.text

/-- what a tree is -/
inductive Sort' where
  | exp | args | list | fld | flds
deriving DecidableEq

def T.sort : T → Sort'
  | .lit _ | .str _ | .name _ | .paren _ | .dot .. | .idx .. | .call .. | .mcall .. | .un .. | .bin .. | .tab _ => .exp
  | .aparen _ | .astr _ | .atab _ => .args
  | .lnil | .lcons .. => .list
  | .fpos _ | .fnamed .. | .fkeyed .. => .fld
  | .fsnil | .fslast _ | .fsmore .. => .flds

/-- the level of a binary operator in the table of section 3.4.8 of the manual, from low to high -/
def BinOp.level : BinOp → Nat
  | .or => 1
  | .and => 2
  | .lt | .gt | .le | .ge | .ne | .eq => 3
  | .bor => 4
  | .bxor => 5
  | .band => 6
  | .shl | .shr => 7
  | .concat => 8
  | .add | .sub => 9
  | .mul | .div | .idiv | .mod => 10
  | .pow => 12

/-- concatenation and exponentiation are right associative, all other binary operators left associative -/
def BinOp.rightAssoc : BinOp → Bool
  | .concat | .pow => true
  | _ => false

/-- the level of the unary operators -/
def unaryLevel : Nat := 11

/-- the level of an expression: that of its outermost operator -/
def T.level : T → Nat
  | .bin o _ _ => o.level
  | .un _ _ => unaryLevel
  | _ => 13

/-- expressions that can be indexed and called (`prefixexp` of the manual's grammar) -/
def T.isPrefix : T → Bool
  | .name _ | .paren _ | .dot .. | .idx .. | .call .. | .mcall .. => true
  | _ => false

/-- The trees that the manual's grammar (section 9) and precedence rules (3.4.8) give: an operand of an
operator has no operator of a lower level outermost, and operators of the same level associate as
they should.  A unary operator may follow `^` directly (`2^-3`). -/
def T.ok : T → Prop
  | .lit _ | .str _ | .name _ => True
  | .paren e => e.ok ∧ e.sort = .exp
  | .dot e _ => e.ok ∧ e.isPrefix = true
  | .idx e k => e.ok ∧ e.isPrefix = true ∧ k.ok ∧ k.sort = .exp
  | .call f a => f.ok ∧ f.isPrefix = true ∧ a.ok ∧ a.sort = .args
  | .mcall o _ a => o.ok ∧ o.isPrefix = true ∧ a.ok ∧ a.sort = .args
  | .un _ e => e.ok ∧ e.sort = .exp ∧ unaryLevel ≤ e.level
  | .bin o l r => l.ok ∧ l.sort = .exp ∧ r.ok ∧ r.sort = .exp ∧
      (if o.rightAssoc then o.level < l.level else o.level ≤ l.level) ∧
      (if o = .pow then unaryLevel ≤ r.level else if o.rightAssoc then o.level ≤ r.level else o.level < r.level)
  | .tab fs => fs.ok ∧ fs.sort = .flds
  | .aparen l => l.ok ∧ l.sort = .list
  | .astr _ => True
  | .atab fs => fs.ok ∧ fs.sort = .flds
  | .lnil => True
  | .lcons e l => e.ok ∧ e.sort = .exp ∧ l.ok ∧ l.sort = .list
  | .fpos e => e.ok ∧ e.sort = .exp
  | .fnamed _ e => e.ok ∧ e.sort = .exp
  | .fkeyed k e => k.ok ∧ k.sort = .exp ∧ e.ok ∧ e.sort = .exp
  | .fsnil => True
  | .fslast f => f.ok ∧ f.sort = .fld
  | .fsmore f _ fs => f.ok ∧ f.sort = .fld ∧ fs.ok ∧ fs.sort = .flds

/-- How deep an expression is nested, for the limit: brackets, arguments, fields, unary operators and right
operands count, left operands do not. -/
def T.depth : T → Nat
  | .lit _ | .str _ | .name _ => 1
  | .paren e => e.depth + 1
  | .dot e _ => e.depth
  | .idx e k => max e.depth (k.depth + 1)
  | .call f a => max f.depth (a.depth + 1)
  | .mcall o _ a => max o.depth (a.depth + 1)
  | .un _ e => e.depth + 1
  | .bin _ l r => max l.depth (r.depth + 1)
  | .tab fs => fs.depth + 1
  | .aparen l => l.depth
  | .astr _ => 0
  | .atab fs => fs.depth
  | .lnil => 0
  | .lcons e l => max e.depth l.depth
  | .fpos e => e.depth
  | .fnamed _ e => e.depth
  | .fkeyed k e => max k.depth e.depth
  | .fsnil => 0
  | .fslast f => f.depth
  | .fsmore f _ fs => max f.depth fs.depth

/-- the expression ends in a variable, a call or a parenthesis, to which a suffix could be added -/
def T.open : T → Bool
  | .un _ e => e.open
  | .bin _ _ r => r.open
  | e => e.isPrefix

/-- the tokens that begin a suffix -/
def Tok.suffix : Tok → Bool
  | .dot | .lbrk | .colon | .lpar | .str _ | .lbrc => true
  | _ => false

/-- what follows does not continue the expression: it does not begin with a binary operator, nor, if the
expression can take a suffix, with a suffix -/
def Stops (e : T) (rest : List Tok) : Prop :=
  ∀ t, rest.head? = some t → (∀ o : BinOp, t ≠ .op o.tok) ∧ (e.open = true → t.suffix = false)

end Verif.Parse
