import Verif.Pat.Model

/-!
# The meaning of patterns (manual §6.4.1)

Patterns as items, and what items match.  Nothing here refers to the functions of the matcher; only the
representation of captures is shared with it.
-/
namespace Verif.Pat

/-- Element of a set: a class, a range, a byte. -/
inductive El
  | cls (l : UInt8)
  | range (a b : UInt8)
  | chr (c : UInt8)
deriving DecidableEq, Repr

/-- A single-character item: any, a class `%l`, a set, a byte. -/
inductive Single
  | any
  | cls (l : UInt8)
  | set (neg : Bool) (els : List El)
  | chr (c : UInt8)
deriving DecidableEq, Repr

inductive Suffix | one | opt | star | plus | minus
deriving DecidableEq, Repr

/-- Pattern items: `(`, `()`, `)`, `$` at the end, `%bxy`, `%f[set]`, `%1`, a single character with suffix. -/
inductive Item
  | open_ | pos | close | dollar
  | bal (x y : UInt8)
  | front (neg : Bool) (els : List El)
  | back (d : UInt8)
  | single (x : Single) (q : Suffix)
deriving DecidableEq, Repr

/-- The classes by their letter, as sets of ASCII codes. -/
def classes : List (UInt8 × (Nat → Bool)) :=
  [(97, fun c => (65 ≤ c ∧ c ≤ 90) ∨ (97 ≤ c ∧ c ≤ 122)),
   (99, fun c => c ≤ 31 ∨ c = 127),
   (100, fun c => 48 ≤ c ∧ c ≤ 57),
   (103, fun c => 33 ≤ c ∧ c ≤ 126),
   (108, fun c => 97 ≤ c ∧ c ≤ 122),
   (112, fun c => (33 ≤ c ∧ c ≤ 47) ∨ (58 ≤ c ∧ c ≤ 64) ∨ (91 ≤ c ∧ c ≤ 96) ∨ (123 ≤ c ∧ c ≤ 126)),
   (115, fun c => (9 ≤ c ∧ c ≤ 13) ∨ c = 32),
   (117, fun c => 65 ≤ c ∧ c ≤ 90),
   (119, fun c => (48 ≤ c ∧ c ≤ 57) ∨ (65 ≤ c ∧ c ≤ 90) ∨ (97 ≤ c ∧ c ≤ 122)),
   (120, fun c => (48 ≤ c ∧ c ≤ 57) ∨ (65 ≤ c ∧ c ≤ 70) ∨ (97 ≤ c ∧ c ≤ 102)),
   (122, fun c => c = 0)]

/-- `%l`: the class of the letter, its complement for the capital letter, the byte itself otherwise. -/
def classHas (l c : UInt8) : Bool :=
  match classes.find? (fun k => k.1 == l || k.1 == l + 32) with
  | some k => if k.1 = l then k.2 c.toNat else !k.2 c.toNat
  | none => l == c

def El.has : El → UInt8 → Bool
  | .cls l, c => classHas l c
  | .range a b, c => a ≤ c && c ≤ b
  | .chr a, c => a == c

def setHas (neg : Bool) (els : List El) (c : UInt8) : Bool := (els.any (·.has c)) != neg

def Single.has : Single → UInt8 → Bool
  | .any, _ => true
  | .cls l, c => classHas l c
  | .set neg els, c => setHas neg els c
  | .chr a, c => a == c

/-- The text of a set after `[` or `[^`: what is inside, what follows the closing bracket.  The first
byte and a byte after `%` never close the set. -/
def setBody : List UInt8 → Option (List UInt8 × List UInt8)
  | [] => none
  | c :: r =>
    if c = 37 then
      match r with
      | [] => none
      | x :: r => if r.head? = some 93 then some ([c, x], r.tail) else (setBody r).map (fun q => (c :: x :: q.1, q.2))
    else if r.head? = some 93 then some ([c], r.tail) else (setBody r).map (fun q => (c :: q.1, q.2))

/-- The elements of a set.  (A `%` as the end of a range leaves what follows to be read on its own; the
manual gives no meaning to such patterns.) -/
def elems : List UInt8 → List El
  | [] => []
  | c :: r =>
    if c = 37 then
      match r with
      | [] => [.cls 93]
      | x :: r => .cls x :: elems r
    else
      match r with
      | d :: h :: r' => if d = 45 then .range c h :: elems r' else .chr c :: elems (d :: h :: r')
      | r => .chr c :: elems r

/-- A set after its opening bracket. -/
def parseSet (r : List UInt8) : Option ((Bool × List El) × List UInt8) :=
  if r.head? = some 94 then (setBody r.tail).map (fun q => ((true, elems q.1), q.2))
  else (setBody r).map (fun q => ((false, elems q.1), q.2))

def parseSingle : List UInt8 → Option (Single × List UInt8)
  | [] => none
  | c :: r =>
    if c = 46 then some (.any, r)
    else if c = 37 then
      match r with
      | [] => none
      | x :: r => some (.cls x, r)
    else if c = 91 then (parseSet r).map (fun q => (.set q.1.1 q.1.2, q.2))
    else some (.chr c, r)

def suffix : List UInt8 → Suffix × List UInt8
  | [] => (.one, [])
  | c :: r =>
    if c = 63 then (.opt, r) else if c = 42 then (.star, r) else if c = 43 then (.plus, r) else if c = 45 then (.minus, r)
    else (.one, c :: r)

/-- The items of a pattern (after an anchor `^`); `none` if it is malformed. -/
def parse : Nat → List UInt8 → Option (List Item)
  | 0, _ => none
  | _ + 1, [] => some []
  | f + 1, c :: r =>
    if c = 40 then
      if r.head? = some 41 then (parse f r.tail).map (Item.pos :: ·) else (parse f r).map (Item.open_ :: ·)
    else if c = 41 then (parse f r).map (Item.close :: ·)
    else if c = 36 ∧ r = [] then some [.dollar]
    else if c = 37 ∧ r.head? = some 98 then
      match r.tail with
      | x :: y :: r' => (parse f r').map (Item.bal x y :: ·)
      | _ => none
    else if c = 37 ∧ r.head? = some 102 then
      match r.tail with
      | [] => none
      | o :: r1 =>
        if o = 91 then
          match parseSet r1 with
          | none => none
          | some (st, r2) => (parse f r2).map (Item.front st.1 st.2 :: ·)
        else none
    else if c = 37 ∧ (48 ≤ r.headD 0 ∧ r.headD 0 ≤ 57) then (parse f r.tail).map (Item.back (r.headD 0) :: ·)
    else
      match parseSingle (c :: r) with
      | none => none
      | some (x, r1) => (parse f (suffix r1).2).map (Item.single x (suffix r1).1 :: ·)

def items (pat : List UInt8) : Option (List Item) := parse (pat.length + 1) pat

/-- Whether captures are used properly: `st` tells which are open.  At most 32; `)` closes an open one;
`%1` names a closed one. -/
def check : List Item → List Bool → Bool
  | [], _ => true
  | .open_ :: r, st => st.length < 32 && check r (st ++ [true])
  | .pos :: r, st => st.length < 32 && check r (st ++ [false])
  | .close :: r, st => st.contains true && check r ((st.reverse.replace true false).reverse)
  | .back d :: r, st => 49 ≤ d.toNat && (st[d.toNat - 49]? == some false) && check r st
  | _ :: r, st => check r st

/-- The single-character item matches at a position of the subject. -/
def hit (src : List UInt8) (x : Single) (s : Nat) : Bool :=
  match src[s]? with
  | some c => x.has c
  | none => false

/-- `%bxy` after the opening `x`: with `k` still open, how many bytes up to the `y` that closes them. -/
def closes (x y : UInt8) : Nat → List UInt8 → Option Nat
  | _, [] => none
  | k, c :: r =>
    if c = y then
      if k = 1 then some 1 else (closes x y (k - 1) r).map (· + 1)
    else (closes x y (if c = x then k + 1 else k) r).map (· + 1)

/-- `%bxy` at a position: where it ends. -/
def balance (src : List UInt8) (x y : UInt8) (s : Nat) : Option Nat :=
  if src[s]? = some x then (closes x y 1 (src.drop (s + 1))).map (· + (s + 1)) else none

/-- `%f[set]`: the byte before is not in the set, the byte here is; outside the subject there are zeros. -/
def frontier (src : List UInt8) (neg : Bool) (els : List El) (s : Nat) : Bool :=
  !setHas neg els (if s = 0 then 0 else src.getD (s - 1) 0) && setHas neg els (src.getD s 0)

/-- The innermost open capture. -/
def innermost (caps : List Cap) : Option Nat := (List.range caps.length).reverse.find? (fun i => (caps.getD i (0, 0)).2 == UNFIN)

/-- The text of a closed capture is at the position; its length.  A position capture matches nothing. -/
def backref (src : List UInt8) (caps : List Cap) (d : UInt8) (s : Nat) : Option Nat :=
  match caps[d.toNat - 49]? with
  | some (i, len) =>
    if 0 ≤ len ∧ s + len.toNat ≤ src.length ∧ (src.drop i).take len.toNat = (src.drop s).take len.toNat then some (s + len.toNat) else none
  | none => none

/-- What items match from a position on, with the given captures before: where the match ends and the
captures after it. -/
inductive Sem (src : List UInt8) : List Item → Nat → List Cap → Nat → List Cap → Prop
  | done (s : Nat) (caps : List Cap) : Sem src [] s caps s caps
  | open_ {r s caps e caps'} : Sem src r s (caps ++ [(s, UNFIN)]) e caps' → Sem src (.open_ :: r) s caps e caps'
  | pos {r s caps e caps'} : Sem src r s (caps ++ [(s, POSN)]) e caps' → Sem src (.pos :: r) s caps e caps'
  | close {r s caps e caps' l} : innermost caps = some l →
      Sem src r s (caps.set l ((caps.getD l (0, 0)).1, (s : Int) - (caps.getD l (0, 0)).1)) e caps' → Sem src (.close :: r) s caps e caps'
  | dollar {r caps e caps'} : Sem src r src.length caps e caps' → Sem src (.dollar :: r) src.length caps e caps'
  | bal {r s caps e caps' x y m} : balance src x y s = some m → Sem src r m caps e caps' → Sem src (.bal x y :: r) s caps e caps'
  | front {r s caps e caps' neg els} : frontier src neg els s = true → Sem src r s caps e caps' → Sem src (.front neg els :: r) s caps e caps'
  | back {r s caps e caps' d m} : backref src caps d s = some m → Sem src r m caps e caps' → Sem src (.back d :: r) s caps e caps'
  | one {r s caps e caps' x} : hit src x s = true → Sem src r (s + 1) caps e caps' → Sem src (.single x .one :: r) s caps e caps'
  | opt {r s caps e caps' x} (i : Nat) : i ≤ 1 → (∀ j < i, hit src x (s + j) = true) → Sem src r (s + i) caps e caps' →
      Sem src (.single x .opt :: r) s caps e caps'
  | star {r s caps e caps' x} (i : Nat) : (∀ j < i, hit src x (s + j) = true) → Sem src r (s + i) caps e caps' →
      Sem src (.single x .star :: r) s caps e caps'
  | plus {r s caps e caps' x} (i : Nat) : 1 ≤ i → (∀ j < i, hit src x (s + j) = true) → Sem src r (s + i) caps e caps' →
      Sem src (.single x .plus :: r) s caps e caps'
  | minus {r s caps e caps' x} (i : Nat) : (∀ j < i, hit src x (s + j) = true) → Sem src r (s + i) caps e caps' →
      Sem src (.single x .minus :: r) s caps e caps'

/-- How many times in a row the item matches from a position on. -/
def run (src : List UInt8) (x : Single) (s : Nat) : Nat := ((src.drop s).takeWhile x.has).length

/-- All matches in order of preference: `*` and `+` try the longest first, `-` the shortest, `?` one
before none; earlier items decide first. -/
def all (src : List UInt8) : List Item → Nat → List Cap → List (Nat × List Cap)
  | [], s, caps => [(s, caps)]
  | .open_ :: r, s, caps => all src r s (caps ++ [(s, UNFIN)])
  | .pos :: r, s, caps => all src r s (caps ++ [(s, POSN)])
  | .close :: r, s, caps =>
    match innermost caps with
    | some l => all src r s (caps.set l ((caps.getD l (0, 0)).1, (s : Int) - (caps.getD l (0, 0)).1))
    | none => []
  | .dollar :: r, s, caps => if s = src.length then all src r s caps else []
  | .bal x y :: r, s, caps =>
    match balance src x y s with
    | some m => all src r m caps
    | none => []
  | .front neg els :: r, s, caps => if frontier src neg els s then all src r s caps else []
  | .back d :: r, s, caps =>
    match backref src caps d s with
    | some m => all src r m caps
    | none => []
  | .single x .one :: r, s, caps => if hit src x s then all src r (s + 1) caps else []
  | .single x .opt :: r, s, caps => (if hit src x s then all src r (s + 1) caps else []) ++ all src r s caps
  | .single x .star :: r, s, caps => ((List.range (run src x s + 1)).reverse).flatMap (fun i => all src r (s + i) caps)
  | .single x .plus :: r, s, caps => ((List.range (run src x s)).reverse).flatMap (fun i => all src r (s + (i + 1)) caps)
  | .single x .minus :: r, s, caps => (List.range (run src x s + 1)).flatMap (fun i => all src r (s + i) caps)

end Verif.Pat
