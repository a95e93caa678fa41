import Verif.HashTab.Model
import Verif.Float.Model
/-!
Two users of the sets: the string table of the compiler (`ravicomp/src/lexer.c` 148-187, `parser.c`
1943-1956, `fnv_hash.c` 53-66) and the constant table of a function (`linearizer.c` 284-383).
-/
namespace Verif.HashTab

/-! ### strings -/

/-- `StringObject` (parser.h): `id` is its address, `str` the `len` bytes at `str` -/
structure SO where
  id : Nat
  str : List UInt8
  hash : Nat
  reserved : Option Nat

/-- `fnv1_hash_data`, fnv_hash.c 53-66: `hash ^= *bytes; hash = hash * 0x01000193` in `uint32_t` -/
def fnv (bytes : List UInt8) : Nat :=
  bytes.foldl (fun h b => (h ^^^ b.toNat) * 0x01000193 % 2 ^ 32) 2166136261

/-- `string_equal`, parser.c 1943-1950: lengths and hashes, then `memcmp` over `c1->len` bytes -/
def stringEqual (a b : SO) : Bool :=
  if a.str.length != b.str.length || a.hash != b.hash then false else a.str == b.str

/-- `string_hash`, parser.c 1952-1956 -/
def stringHash (a : SO) : Nat := a.hash

/-- The entries of `luaX_tokens` (lexer.c 49-99) that begin with a letter or `@`, with their indices. -/
def words : List (Nat × String) := [
  (0, "and"), (1, "break"), (2, "do"), (3, "else"), (4, "elseif"), (5, "end"), (6, "false"),
  (7, "for"), (8, "function"), (9, "goto"), (10, "if"), (11, "in"), (12, "local"), (13, "defer"),
  (14, "C__decl"), (15, "C__unsafe"), (16, "C__new"), (17, "nil"), (18, "not"), (19, "or"),
  (20, "repeat"), (21, "return"), (22, "then"), (23, "true"), (24, "until"), (25, "while"),
  (36, "@integer"), (37, "@number"), (38, "@integer[]"), (39, "@number[]"), (40, "@table"),
  (41, "@string"), (42, "@closure")]

/-- the bytes of a token -/
def bytesOf (s : String) : List UInt8 := s.toList.map (fun c => UInt8.ofNat c.toNat)

/-- `strcmp (luaX_tokens[i], s) == 0`, lexer.c 175-182: the first token equal to the bytes up to the
first zero -/
def reservedOf (str : List UInt8) : Option Nat :=
  (words.find? (fun w => bytesOf w.2 == str.takeWhile (· != 0))).map (·.1)

/-- the string table and the next address -/
structure Strings where
  set : HT SO Unit
  next : Nat

/-- `raviX_create_string`, lexer.c 155-187 (the copy of the bytes is the same list) -/
def createString (s : Strings) (input : List UInt8) : Res (SO × Strings) :=
  let h := fnv input
  let temp : SO := { id := s.next, str := input, hash := h, reserved := none }
  match searchPre stringEqual s.set h temp with
  | .ok (some a) => match s.set.tab a with
    | .present _ k _ => .ok (k, s)
    | _ => .ub
  | .ok none =>
    let new : SO := { id := s.next, str := input, hash := h, reserved := reservedOf input }
    match insertPre stringEqual 2 s.set h new () with
    | .ok (set, _) => .ok (new, { set, next := s.next + 1 })
    | .err m => .err m
    | .ub => .ub
  | .err m => .err m
  | .ub => .ub

/-- a new string table, parser.c 1964 -/
def Strings.new : Strings := { set := create, next := 0 }

/-- the strings made for a list of inputs, one after the other -/
def createAll : Strings → List (List UInt8) → Res (List SO × Strings)
  | s, [] => .ok ([], s)
  | s, i :: l => match createString s i with
    | .ok (p, s1) => match createAll s1 l with
      | .ok (ps, s2) => .ok (p :: ps, s2)
      | .err m => .err m
      | .ub => .ub
    | .err m => .err m
    | .ub => .ub

/-! ### constants -/

/-- the value of a `Constant` (linearizer.h 252-261): its type and the union; a string by address -/
inductive CV where
  | int (i : Verif.Arith.LInt)
  | flt (n : Verif.Float.Dbl)
  | str (id : Nat)
deriving DecidableEq

/-- `Constant`; `index` is a `uint16_t` -/
structure Const where
  v : CV
  index : Nat

/-- `compare_constants`, linearizer.c 288-300 -/
def compareConstants (a b : Const) : Bool :=
  match a.v, b.v with
  | .int i, .int j => i == j
  | .flt x, .flt y => Verif.Float.eq x y
  | .str x, .str y => x == y
  | _, _ => false

/-- `(uint32_t) n` for a double is defined when the value without its fraction is in range
(C11 6.3.1.4) -/
def castDefined : Verif.Float.Dbl → Bool
  | .fin neg s => if neg then decide (s < Verif.Float.U) else decide (s < 2 ^ 32 * Verif.Float.U)
  | _ => false

/-- `(uint32_t) n`, where the C standard defines it; elsewhere whatever `junk` the machine makes of
that double -/
def ucast (junk : Verif.Float.Dbl → Nat) (x : Verif.Float.Dbl) : Nat :=
  match x with
  | .fin _ s => if castDefined x then s / Verif.Float.U else junk x
  | _ => junk x

/-- What hashing depends on: `junk` above, and the `hash` in the string object at an address. -/
structure Env where
  junk : Verif.Float.Dbl → Nat
  shash : Nat → Nat

/-- `hash_constant`, linearizer.c 305-314; `(uint32_t) c1->i` keeps the low 32 bits -/
def hashConstant (e : Env) (c : Const) : Nat :=
  match c.v with
  | .int i => i.toNat % 2 ^ 32
  | .flt x => ucast e.junk x
  | .str s => e.shash s

/-- the constants of a `Proc` (linearizer.h 270-300); the counters are `uint16_t` -/
structure Consts where
  set : HT Const Unit
  nint : Nat
  nflt : Nat
  nstr : Nat

/-- the counter a constant of that type is numbered from, linearizer.c 330-341 -/
def Consts.count (p : Consts) : CV → Nat
  | .int _ => p.nint
  | .flt _ => p.nflt
  | .str _ => p.nstr

/-- `proc->num_…constants++` for that type -/
def Consts.bump (p : Consts) : CV → Consts
  | .int _ => { p with nint := (p.nint + 1) % 2 ^ 16 }
  | .flt _ => { p with nflt := (p.nflt + 1) % 2 ^ 16 }
  | .str _ => { p with nstr := (p.nstr + 1) % 2 ^ 16 }

/-- `add_constant`, linearizer.c 320-352 -/
def addConstant (e : Env) (p : Consts) (v : CV) : Res (Const × Consts) :=
  match search compareConstants (hashConstant e) p.set { v := v, index := 0 } with
  | .ok (some a) => match p.set.tab a with
    | .present _ k _ => .ok (k, p)
    | _ => .ub
  | .ok none =>
    let new : Const := { v := v, index := p.count v }
    match insert compareConstants (hashConstant e) p.set new () with
    | .ok (set, _) => .ok (new, { p.bump v with set := set })
    | .err m => .err m
    | .ub => .ub
  | .err m => .err m
  | .ub => .ub

/-- `raviX_set_create(hash_constant, compare_constants)`, linearizer.c 661 -/
def Consts.new : Consts := { set := create, nint := 0, nflt := 0, nstr := 0 }

/-- the constants added for a list of literals, in order -/
def addAll (e : Env) : Consts → List CV → Res (List Const × Consts)
  | s, [] => .ok ([], s)
  | s, i :: l => match addConstant e s i with
    | .ok (p, s1) => match addAll e s1 l with
      | .ok (ps, s2) => .ok (p :: ps, s2)
      | .err m => .err m
      | .ub => .ub
    | .err m => .err m
    | .ub => .ub

end Verif.HashTab
