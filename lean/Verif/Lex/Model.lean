import Verif.Num.Model
import Verif.Utf8.Model

/-!
# The lexer — llex.c, and the quoting of strings — lstrlib.c:1101-1122

The input is the list of bytes not yet read; its head is `ls->current`, the empty list is `EOZ`
(the reader is modelled in `Verif/Zio` only as far as delivering these bytes).  The token buffer is a
list; it grows without the limit of `MAX_SIZE/2` (llex.c:64-65), which memory reaches first.
`lexerror` is an error.  Removing more bytes than the buffer holds is undefined.
The conversion of numerals to floats (`l_str2d`) is a parameter: it says whether a text is a float.
-/
namespace Verif.Lex
open Verif.Num (isDigit isSpace isXdigit hexavalue testprop str2int)

/-- The parts of `LexState` used (llex.h): input, buffer, line. -/
structure LS where
  inp : List UInt8
  buff : List UInt8
  line : Nat
deriving DecidableEq, Repr

/-- `lislalpha` — lctype.h:61. -/
def lislalpha (c : UInt8) : Bool := testprop c 1
/-- `lislalnum` — lctype.h:62. -/
def lislalnum (c : UInt8) : Bool := testprop c 3

/-- `ls->current == c`. -/
def LS.cur (l : LS) (c : UInt8) : Bool := l.inp.head? == some c
/-- A character class at the current position; the entry for `EOZ` in the table is 0 (lctype.c:20). -/
def LS.is (l : LS) (p : UInt8 → Bool) : Bool := match l.inp with | c :: _ => p c | [] => false
/-- `next` — llex.c:32. -/
def LS.next (l : LS) : LS := { l with inp := l.inp.tail }
/-- `save` — llex.c:63-73. -/
def LS.save (l : LS) (c : UInt8) : LS := { l with buff := l.buff ++ [c] }
/-- `save_and_next` — llex.c:57; `EOZ` would be saved as 255. -/
def LS.saveNext (l : LS) : LS := (l.save (l.inp.head?.getD 255)).next
/-- `luaZ_buffremove` — lzio.h:31. -/
def LS.remove (l : LS) (i : Nat) : Res LS :=
  if i ≤ l.buff.length then .ok { l with buff := l.buff.take (l.buff.length - i) } else .ub
/-- `luaZ_resetbuffer` — lzio.h:32. -/
def LS.reset (l : LS) : LS := { l with buff := [] }

/-- `currIsNewline` — llex.c:36. -/
def isNl (c : UInt8) : Bool := c == 10 || c == 13

/-- `MAX_INT` — llimits.h:49. -/
def MAXINT : Nat := 2147483647

/-- `inclinenumber` — llex.c:160-168. -/
def inclinenumber (l : LS) : Res LS :=
  match l.inp with
  | [] => .ub
  | old :: _ =>
    let l := l.next
    let l := if l.is (fun c => isNl c && c != old) then l.next else l
    let l := { l with line := l.line + 1 }
    if l.line ≥ MAXINT then .err "chunk has too many lines" else .ok l

/-- `check_next1` — llex.c:195-201. -/
def checkNext1 (l : LS) (c : UInt8) : Bool × LS := if l.cur c then (true, l.next) else (false, l)
/-- `check_save_next1` — llex.c:204-210. -/
def checkSaveNext1 (l : LS) (c : UInt8) : LS := if l.cur c then l.saveNext else l
/-- `check_next2` — llex.c:218-226. -/
def checkNext2 (l : LS) (a b : UInt8) : Bool × LS := if l.cur a || l.cur b then (true, l.saveNext) else (false, l)

/-- The loop of `read_numeral` — llex.c:249-255; the fuel is the length of the input. -/
def numLoop (a b : UInt8) : Nat → LS → Res LS
  | 0, _ => .ub
  | fuel + 1, l =>
    let (e, l1) := checkNext2 l a b
    if e then numLoop a b fuel (checkNext2 l1 45 43).2
    else if l.is isXdigit || l.cur 46 then numLoop a b fuel l.saveNext
    else .ok l

/-- Tokens with their values; `res` is a reserved word by its place in `luaX_tokens` (llex.c:40-44). -/
inductive Tok
  | chr (c : UInt8)
  | res (i : Nat)
  | idiv | concat | dots | eq | ge | le | ne | shl | shr | dbcolon | eos
  | int (i : Int) | flt (text : List UInt8)
  | name (s : List UInt8) | string (s : List UInt8)
  | toInteger | toNumber | toIntArray | toNumArray | toTable | toString | toClosure
  | at_ (s : List UInt8)
deriving DecidableEq, Repr

/-- `read_numeral` — llex.c:241-266; the text ends at the first zero, as in C. -/
def readNumeral (isFlt : List UInt8 → Bool) (l : LS) : Res (Tok × LS) := do
  let first := l.inp.head?
  let l := l.saveNext
  let (hex, l) := if first = some 48 then checkNext2 l 120 88 else (false, l)
  let (a, b) : UInt8 × UInt8 := if hex then (80, 112) else (69, 101)
  let l ← numLoop a b (l.inp.length + 1) l
  let l := if l.is lislalpha then l.saveNext else l
  let l := l.save 0
  let text := l.buff.takeWhile (· ≠ 0)
  match ← str2int text with
  | some i => .ok (.int i, l)
  | none => if isFlt text then .ok (.flt text, l) else .err "malformed number"

/-- The loop of `skip_sep` — llex.c:283-286. -/
def sepLoop : Nat → LS → Nat → Res (Nat × LS)
  | 0, _, _ => .ub
  | fuel + 1, l, count => if l.cur 61 then sepLoop fuel l.saveNext (count + 1) else .ok (count, l)

/-- `skip_sep` — llex.c:278-290. -/
def skipSep (l : LS) : Res (Nat × LS) := do
  let s := l.inp.head?
  let l := l.saveNext
  let (count, l) ← sepLoop (l.inp.length + 1) l 0
  pure (if l.inp.head? = s then count + 2 else if count = 0 then 1 else 0, l)

/-- The loop of `read_long_string` — llex.c:298-325; `str` tells a string from a comment. -/
def longLoop (str : Bool) (sep : Nat) : Nat → LS → Res LS
  | 0, _ => .ub
  | fuel + 1, l =>
    match l.inp with
    | [] => .err "unfinished long string"
    | c :: _ =>
      if c = 93 then do
        let (n, l) ← skipSep l
        if n = sep then .ok l.saveNext else longLoop str sep fuel l
      else if isNl c then do
        let l ← inclinenumber (l.save 10)
        longLoop str sep fuel (if str then l else l.reset)
      else longLoop str sep fuel (if str then l.saveNext else l.next)

/-- The line break after the opening bracket — llex.c:296-297. -/
def skipFirst (l : LS) : Res LS := if l.is isNl then inclinenumber l else .ok l

/-- `read_long_string` — llex.c:293-329: the string, if wanted. -/
def readLongString (str : Bool) (sep : Nat) (l : LS) : Res (List UInt8 × LS) := do
  let l := l.saveNext
  let l ← skipFirst l
  let l ← longLoop str sep (l.inp.length + 1) l
  if str then
    if 2 * sep ≤ l.buff.length then pure ((l.buff.drop sep).take (l.buff.length - 2 * sep), l) else .ub
  else pure ([], l)

/-- `gethexa` — llex.c:341-345. -/
def gethexa (l : LS) : Res (Nat × LS) :=
  let l := l.saveNext
  match l.inp with
  | c :: _ => if isXdigit c then .ok (hexavalue c, l) else .err "hexadecimal digit expected"
  | [] => .err "hexadecimal digit expected"

/-- `readhexaesc` — llex.c:348-353. -/
def readhexaesc (l : LS) : Res (Nat × LS) := do
  let (a, l) ← gethexa l
  let (b, l) ← gethexa l
  let l ← l.remove 2
  pure (a * 16 + b, l)

/-- The loop of `readutf8esc` — llex.c:362-366. -/
def uLoop : Nat → LS → Nat → Nat → Res (Nat × Nat × LS)
  | 0, _, _, _ => .ub
  | fuel + 1, l, r, i =>
    let l := l.saveNext
    match l.inp with
    | c :: _ =>
      if isXdigit c then
        if r ≤ 0x7FFFFFFF / 16 then uLoop fuel l (r * 16 + hexavalue c) (i + 1)
        else .err "UTF-8 value too large"
      else .ok (r, i, l)
    | [] => .ok (r, i, l)

/-- `readutf8esc` — llex.c:356-371. -/
def readutf8esc (l : LS) : Res (Nat × LS) := do
  let l := l.saveNext
  if l.cur 123 then do
    let (r, l) ← gethexa l
    let (r, i, l) ← uLoop (l.inp.length + 1) l r 4
    if l.cur 125 then do
      let l ← l.next.remove i
      pure (r, l)
    else .err "missing '}'"
  else .err "missing '{'"

/-- `utf8esc` — llex.c:374-379. -/
def utf8esc (l : LS) : Res LS := do
  let (x, l) ← readutf8esc l
  let b ← Utf8.charBytes (List.replicate 8 0xA5) x
  pure { l with buff := l.buff ++ b }

/-- The loop of `readdecesc` — llex.c:385-388: `k` more digits at most. -/
def decLoop : Nat → LS → Nat → Nat → Nat × Nat × LS
  | 0, l, r, i => (r, i, l)
  | k + 1, l, r, i =>
    match l.inp with
    | c :: _ => if isDigit c then decLoop k l.saveNext (10 * r + (c.toNat - 48)) (i + 1) else (r, i, l)
    | [] => (r, i, l)

/-- `readdecesc` — llex.c:382-392. -/
def readdecesc (l : LS) : Res (Nat × LS) :=
  let (r, i, l) := decLoop 3 l 0 0
  if r ≤ 255 then do
    let l ← l.remove i
    pure (r, l)
  else .err "decimal escape too large"

/-- The loop after `\z` — llex.c:424-427. -/
def zapLoop : Nat → LS → Res LS
  | 0, _ => .ub
  | fuel + 1, l =>
    match l.inp with
    | c :: _ =>
      if isSpace c then
        if isNl c then do
          let l ← inclinenumber l
          zapLoop fuel l
        else zapLoop fuel l.next
      else .ok l
    | [] => .ok l

/-- `only_save` — llex.c:439-441. -/
def onlySave (l : LS) (c : Nat) : Res LS := do
  let l ← l.remove 1
  pure (l.save (UInt8.ofNat c))

/-- The escape sequences — llex.c:406-443; the backslash is the current character. -/
def escape (l : LS) : Res LS :=
  let l := l.saveNext
  match l.inp with
  | [] => .ok l
  | e :: _ =>
    if e = 97 then onlySave l.next 7
    else if e = 98 then onlySave l.next 8
    else if e = 102 then onlySave l.next 12
    else if e = 110 then onlySave l.next 10
    else if e = 114 then onlySave l.next 13
    else if e = 116 then onlySave l.next 9
    else if e = 118 then onlySave l.next 11
    else if e = 120 then do
      let (c, l) ← readhexaesc l
      onlySave l.next c
    else if e = 117 then utf8esc l
    else if isNl e then do
      let l ← inclinenumber l
      onlySave l 10
    else if e = 92 ∨ e = 34 ∨ e = 39 then onlySave l.next e.toNat
    else if e = 122 then do
      let l ← l.remove 1
      zapLoop (l.inp.length + 1) l.next
    else if isDigit e then do
      let (c, l) ← readdecesc l
      onlySave l c
    else .err "invalid escape sequence"

/-- The loop of `read_string` — llex.c:397-447. -/
def strLoop (del : UInt8) : Nat → LS → Res LS
  | 0, _ => .ub
  | fuel + 1, l =>
    match l.inp with
    | [] => .err "unfinished string"
    | c :: _ =>
      if c = del then .ok l
      else if isNl c then .err "unfinished string"
      else if c = 92 then do
        let l ← escape l
        strLoop del fuel l
      else strLoop del fuel l.saveNext

/-- `read_string` — llex.c:395-451: the string without its delimiters. -/
def readString (del : UInt8) (l : LS) : Res (List UInt8 × LS) := do
  let l := l.saveNext
  let l ← strLoop del (l.inp.length + 1) l
  let l := l.saveNext
  if 2 ≤ l.buff.length then pure ((l.buff.drop 1).take (l.buff.length - 2), l) else .ub

/-- `strncmp(s, lit, n) == 0` for a buffer of `n` bytes and a literal (followed by its zero). -/
def strncmp0 : List UInt8 → List UInt8 → Bool
  | [], _ => true
  | a :: _, [] => a == 0
  | a :: as, b :: bs => if a = b then (a == 0 || strncmp0 as bs) else false

/-- The names after `@` — llex.c:463-484. -/
def sInteger : List UInt8 := "@integer".toUTF8.toList
def sIntArray : List UInt8 := "@integer[]".toUTF8.toList
def sNumber : List UInt8 := "@number".toUTF8.toList
def sNumArray : List UInt8 := "@number[]".toUTF8.toList
def sTable : List UInt8 := "@table".toUTF8.toList
def sString : List UInt8 := "@string".toUTF8.toList
def sClosure : List UInt8 := "@closure".toUTF8.toList

/-- `casttoken` — llex.c:457-490. -/
def casttoken (l : LS) : Res (Tok × LS) := do
  let s := l.buff
  let t : Tok :=
    if strncmp0 s sInteger then .toInteger
    else if strncmp0 s sIntArray then .toIntArray
    else if strncmp0 s sNumber then .toNumber
    else if strncmp0 s sNumArray then .toNumArray
    else if strncmp0 s sTable then .toTable
    else if strncmp0 s sString then .toString
    else if strncmp0 s sClosure then .toClosure
    else .at_ (s.drop 1)
  let l ← l.remove s.length
  pure (t, l)

/-- Reserved words in order — llex.c:40-49 with `RAVI_DEFER_STATEMENT`. -/
def reserved : List (List UInt8) :=
  ["and", "break", "do", "else", "elseif", "end", "false", "for", "function", "goto", "if", "in", "local", "defer",
   "nil", "not", "or", "repeat", "return", "then", "true", "until", "while"].map (·.toUTF8.toList)

/-- A run of characters of a class, saved — llex.c:590-592 and 599-601. -/
def saveWhile (p : UInt8 → Bool) : Nat → LS → Res LS
  | 0, _ => .ub
  | fuel + 1, l => if l.is p then saveWhile p fuel l.saveNext else .ok l

/-- A run of characters of a class, skipped — llex.c:519-520. -/
def skipWhile (p : UInt8 → Bool) : Nat → LS → Res LS
  | 0, _ => .ub
  | fuel + 1, l => if l.is p then skipWhile p fuel l.next else .ok l

/-- The default case — llex.c:596-617. -/
def word (l : LS) (c : UInt8) : Res (Tok × LS) :=
  if lislalpha c then do
    let l := l.saveNext
    let l ← saveWhile lislalnum (l.inp.length + 1) l
    match reserved.findIdx? (· == l.buff) with
    | some i => pure (.res i, l)
    | none => pure (.name l.buff, l)
  else .ok (.chr c, l.next)

/-- `if (check_next1(ls, c)) return t; else …` -/
def two (l : LS) (c : UInt8) (t : Tok) (k : LS → Tok × LS) : Tok × LS :=
  let (b, l) := checkNext1 l c
  if b then (t, l) else k l

/-- After `--` — llex.c:506-521. -/
def comment (l : LS) : Res LS := do
  let short (l : LS) : Res LS := skipWhile (fun c => !isNl c) (l.inp.length + 1) l
  if l.cur 91 then do
    let (sep, l) ← skipSep l
    let l := l.reset
    if sep ≥ 2 then do
      let (_, l) ← readLongString false sep l
      pure l.reset
    else short l
  else short l

/-- `llex` — llex.c:493-620. -/
def llex (isFlt : List UInt8 → Bool) : Nat → LS → Res (Tok × LS)
  | 0, _ => .ub
  | fuel + 1, l =>
    match l.inp with
    | [] => .ok (.eos, l)
    | c :: _ =>
      if isNl c then do
        let l ← inclinenumber l
        llex isFlt fuel l
      else if c = 32 ∨ c = 12 ∨ c = 9 ∨ c = 11 then llex isFlt fuel l.next
      else if c = 45 then
        let l := l.next
        if l.cur 45 then do
          let l ← comment l.next
          llex isFlt fuel l
        else .ok (.chr 45, l)
      else if c = 91 then do
        let (sep, l) ← skipSep l
        if sep ≥ 2 then do
          let (s, l) ← readLongString true sep l
          pure (.string s, l)
        else if sep = 0 then .err "invalid long string delimiter"
        else pure (.chr 91, l)
      else if c = 61 then .ok (two l.next 61 .eq (fun l => (.chr 61, l)))
      else if c = 60 then .ok (two l.next 61 .le (fun l => two l 60 .shl (fun l => (.chr 60, l))))
      else if c = 62 then .ok (two l.next 61 .ge (fun l => two l 62 .shr (fun l => (.chr 62, l))))
      else if c = 47 then .ok (two l.next 47 .idiv (fun l => (.chr 47, l)))
      else if c = 126 then .ok (two l.next 61 .ne (fun l => (.chr 126, l)))
      else if c = 58 then .ok (two l.next 58 .dbcolon (fun l => (.chr 58, l)))
      else if c = 34 ∨ c = 39 then do
        let (s, l) ← readString c l
        pure (.string s, l)
      else if c = 46 then
        let l := l.saveNext
        if l.cur 46 then
          let l := l.next
          if l.cur 46 then .ok (.dots, l.next) else .ok (.concat, l)
        else if ! l.is isDigit then .ok (.chr 46, l)
        else readNumeral isFlt l
      else if isDigit c then readNumeral isFlt l
      else if c = 64 then do
        let l := l.saveNext
        let l ← saveWhile lislalnum (l.inp.length + 1) l
        casttoken (checkSaveNext1 (checkSaveNext1 l 91) 93)
      else word l c

/-- One token: `llex` with the buffer reset (llex.c:494). -/
def token (isFlt : List UInt8 → Bool) (l : LS) : Res (Tok × LS) := llex isFlt (l.inp.length + 1) l.reset

/-- `iscntrl` in the C locale. -/
def iscntrl (c : UInt8) : Bool := c.toNat < 32 || c.toNat == 127

/-- Decimal digits: `"%d"` and `"%03d"` of a byte. -/
def decimal (pad : Bool) (c : UInt8) : List UInt8 :=
  let d (n : Nat) : UInt8 := UInt8.ofNat (48 + n % 10)
  let n := c.toNat
  if pad ∨ n ≥ 100 then [d (n / 100), d (n / 10), d n]
  else if n ≥ 10 then [d (n / 10), d n]
  else [d n]

/-- The loop of `addquoted` — lstrlib.c:1103-1120; past the end of the string there is the zero. -/
def quoteLoop : List UInt8 → List UInt8
  | [] => []
  | c :: cs =>
    (if c = 34 ∨ c = 92 ∨ c = 10 then [92, c]
     else if iscntrl c then 92 :: decimal (isDigit (cs.head?.getD 0)) c
     else [c]) ++ quoteLoop cs

/-- `addquoted` — lstrlib.c:1101-1122. -/
def quote (s : List UInt8) : List UInt8 := [34] ++ quoteLoop s ++ [34]

end Verif.Lex
