import Verif.StrLib.Model

/-!
# Pattern matching — lstrlib.c:345-980

The subject is the memory of a string object (`mem`: its bytes and the terminating zero); positions in it
are offsets.  Pointers into the pattern only move forward; such a pointer is the list of bytes from it to
the terminating zero of the pattern, so `p == ms->p_end` says that one byte is left, and `*p` with no byte
left is undefined.  Character classes are those of the "C" locale.
-/
namespace Verif.Pat
open Verif.StrLib (mem rd rdN memeq posrelatI lmemfind)

/-- `<ctype.h>` in the "C" locale. -/
def isupper (c : UInt8) : Bool := 65 ≤ c && c ≤ 90
def islower (c : UInt8) : Bool := 97 ≤ c && c ≤ 122
def isalpha (c : UInt8) : Bool := isupper c || islower c
def isdigit (c : UInt8) : Bool := 48 ≤ c && c ≤ 57
def isalnum (c : UInt8) : Bool := isalpha c || isdigit c
def iscntrl (c : UInt8) : Bool := c < 32 || c == 127
def isgraph (c : UInt8) : Bool := 33 ≤ c && c ≤ 126
def ispunct (c : UInt8) : Bool := isgraph c && !isalnum c
def isspace (c : UInt8) : Bool := c == 32 || (9 ≤ c && c ≤ 13)
def isxdigit (c : UInt8) : Bool := isdigit c || (65 ≤ c && c ≤ 70) || (97 ≤ c && c ≤ 102)
def tolower (c : UInt8) : UInt8 := if isupper c then c + 32 else c

/-- A capture: where it starts and its length, or `CAP_UNFINISHED` or `CAP_POSITION` (lstrlib.c:352-353). -/
abbrev Cap := Nat × Int
def UNFIN : Int := -1
def POSN : Int := -2

/-- `LUA_MAXCAPTURES` — lstrlib.c:35. -/
def MAXCAP : Nat := 32

/-- `*p` and `*(p + 1)` for a pointer into the pattern. -/
def at0 (p : List UInt8) : Res UInt8 := match p with | c :: _ => .ok c | [] => .ub
def at1 (p : List UInt8) : Res UInt8 := match p with | _ :: c :: _ => .ok c | _ => .ub

/-- `check_capture` — lstrlib.c:384-389. -/
def checkCapture (caps : List Cap) (l : UInt8) : Res Nat :=
  if l.toNat < 49 then .err "invalid capture index"
  else match caps[l.toNat - 49]? with
    | none => .err "invalid capture index"
    | some c => if c.2 = UNFIN then .err "invalid capture index" else .ok (l.toNat - 49)

/-- `capture_to_close` — lstrlib.c:392-398: from level `n` downwards. -/
def captureToClose (caps : List Cap) : Nat → Res Nat
  | 0 => .err "invalid pattern capture"
  | n + 1 => match caps[n]? with
    | none => .ub
    | some c => if c.2 = UNFIN then .ok n else captureToClose caps n

/-- The loop of `classend` — lstrlib.c:410-415; the fuel is the length of the pattern. -/
def setEnd : Nat → List UInt8 → Res (List UInt8)
  | 0, _ => .ub
  | fuel + 1, p =>
    if p.length = 1 then .err "malformed pattern (missing ']')"
    else do
      let c ← at0 p
      let p := p.drop 1
      let p := if c = 37 ∧ 1 < p.length then p.drop 1 else p
      let d ← at0 p
      if d ≠ 93 then setEnd fuel p else .ok (p.drop 1)

/-- `if (*p == '^') p++` — lstrlib.c:409 -/
def skipCaret (p : List UInt8) : Res (List UInt8) := do
  let c ← at0 p
  pure (if c = 94 then p.drop 1 else p)

/-- `classend` — lstrlib.c:401-421. -/
def classend (p : List UInt8) : Res (List UInt8) := do
  let c ← at0 p
  let p := p.drop 1
  if c = 37 then
    if p.length = 1 then .err "malformed pattern (ends with '%')" else .ok (p.drop 1)
  else if c = 91 then do
    let p ← skipCaret p
    setEnd (p.length + 1) p
  else .ok p

/-- `match_class` — lstrlib.c:424-441. -/
def matchClass (c cl : UInt8) : Bool :=
  let k := tolower cl
  let fin (res : Bool) : Bool := if islower cl then res else !res
  if k = 97 then fin (isalpha c)
  else if k = 99 then fin (iscntrl c)
  else if k = 100 then fin (isdigit c)
  else if k = 103 then fin (isgraph c)
  else if k = 108 then fin (islower c)
  else if k = 112 then fin (ispunct c)
  else if k = 115 then fin (isspace c)
  else if k = 117 then fin (isupper c)
  else if k = 119 then fin (isalnum c)
  else if k = 120 then fin (isxdigit c)
  else if k = 122 then fin (c == 0)
  else cl == c

/-- The loop of `matchbracketclass` — lstrlib.c:450-463: `p` is already advanced; `ec` is given as the
number of bytes from it to the end of the pattern's memory, so `p < ec` compares those numbers. -/
def setLoop (c : UInt8) (sig : Bool) (ec : Nat) : Nat → List UInt8 → Res Bool
  | 0, _ => .ub
  | fuel + 1, p =>
    if ec < p.length then do
      let b ← at0 p
      if b = 37 then do
        let cl ← at1 p
        if matchClass c cl then pure sig else setLoop c sig ec fuel (p.drop 2)
      else do
        let d ← at1 p
        if d = 45 ∧ ec + 2 < p.length then do
          let hi ← at0 (p.drop 2)
          if b ≤ c ∧ c ≤ hi then pure sig else setLoop c sig ec fuel (p.drop 3)
        else if b = c then pure sig
        else setLoop c sig ec fuel (p.drop 1)
    else .ok (!sig)

/-- `matchbracketclass` — lstrlib.c:444-464. -/
def matchSet (c : UInt8) (p : List UInt8) (ec : Nat) : Res Bool := do
  let d ← at1 p
  if d = 94 then setLoop c false ec p.length (p.drop 2)
  else setLoop c true ec p.length (p.drop 1)

/-- `singlematch` — lstrlib.c:467-480. -/
def singlematch (src : List UInt8) (s : Nat) (p ep : List UInt8) : Res Bool :=
  if s ≥ src.length then .ok false
  else do
    let c ← rd (mem src) s
    let b ← at0 p
    if b = 46 then pure true
    else if b = 37 then do
      let cl ← at1 p
      pure (matchClass c cl)
    else if b = 91 then matchSet c p (ep.length + 1)
    else pure (b == c)

/-- The loop of `matchbalance` — lstrlib.c:492-497. -/
def balLoop (src : List UInt8) (b e : UInt8) : Nat → Nat → Nat → Res (Option Nat)
  | 0, _, _ => .ub
  | fuel + 1, s, cont =>
    let s := s + 1
    if s < src.length then do
      let c ← rd (mem src) s
      if c = e then
        if cont = 1 then pure (some (s + 1)) else balLoop src b e fuel s (cont - 1)
      else balLoop src b e fuel s (if c = b then cont + 1 else cont)
    else .ok none

/-- `matchbalance` — lstrlib.c:483-500. -/
def matchbalance (src : List UInt8) (s : Nat) (p : List UInt8) : Res (Option Nat) :=
  if p.length < 3 then .err "malformed pattern (missing arguments to '%b')"
  else do
    let c ← rd (mem src) s
    let b ← at0 p
    if c ≠ b then pure none
    else do
      let e ← at1 p
      balLoop src b e (src.length + 1) s 1

/-- The result of `match`: the end of the match if there is one, and the captures of the state. -/
abbrev Out := Res (Option Nat × List Cap)

/-- The first loop of `max_expand` — lstrlib.c:506-507. -/
def countLoop (src p ep : List UInt8) (s : Nat) : Nat → Nat → Res Nat
  | 0, _ => .ub
  | fuel + 1, i => do
    let m ← singlematch src (s + i) p ep
    if m then countLoop src p ep s fuel (i + 1) else pure i

/-- The second loop of `max_expand` — lstrlib.c:509-513; `k` matches the rest of the pattern. -/
def backLoop (k : Nat → List Cap → Out) (s : Nat) : Nat → List Cap → Out
  | 0, caps => k s caps
  | i + 1, caps => do
    let (r, caps) ← k (s + (i + 1)) caps
    match r with
    | some e => pure (some e, caps)
    | none => backLoop k s i caps

/-- `max_expand` — lstrlib.c:503-515. -/
def maxExpand (src p ep : List UInt8) (k : Nat → List Cap → Out) (s : Nat) (caps : List Cap) : Out := do
  let i ← countLoop src p ep s (src.length + 1) 0
  backLoop k s i caps

/-- `min_expand` — lstrlib.c:518-528. -/
def minExpand (src p ep : List UInt8) (k : Nat → List Cap → Out) : Nat → Nat → List Cap → Out
  | 0, _, _ => .ub
  | fuel + 1, s, caps => do
    let (r, caps) ← k s caps
    match r with
    | some e => pure (some e, caps)
    | none => do
      let m ← singlematch src s p ep
      if m then minExpand src p ep k fuel (s + 1) caps else pure (none, caps)

/-- `ms->capture[level].init = …; .len = …; ms->level = level + 1` — lstrlib.c:536-538; the array has
`LUA_MAXCAPTURES` elements (lstrlib.c:366). -/
def addCapture (caps : List Cap) (c : Cap) : Res (List Cap) :=
  if caps.length < 32 then .ok (caps ++ [c]) else .ub

/-- `start_capture` — lstrlib.c:531-542. -/
def startCapture (k : Nat → List Cap → Out) (s : Nat) (what : Int) (caps : List Cap) : Out :=
  if caps.length ≥ MAXCAP then .err "too many captures"
  else do
    let caps ← addCapture caps (s, what)
    let (r, caps) ← k s caps
    match r with
    | some e => pure (some e, caps)
    | none => if caps = [] then .ub else pure (none, caps.dropLast)

/-- `end_capture` — lstrlib.c:545-553. -/
def endCapture (k : Nat → List Cap → Out) (s : Nat) (caps : List Cap) : Out := do
  let l ← captureToClose caps caps.length
  match caps[l]? with
  | none => .ub
  | some c => do
    let (r, caps) ← k s (caps.set l (c.1, (s : Int) - c.1))
    match r with
    | some e => pure (some e, caps)
    | none => match caps[l]? with
      | none => .ub
      | some c => pure (none, caps.set l (c.1, UNFIN))

/-- `match_capture` — lstrlib.c:556-564; `len` is converted to `size_t`. -/
def matchCapture (src : List UInt8) (s : Nat) (caps : List Cap) (l : UInt8) : Res (Option Nat) := do
  let l ← checkCapture caps l
  match caps[l]? with
  | none => .ub
  | some c =>
    let len := toU c.2
    if len ≤ src.length - s then do
      let eq ← memeq (mem src) c.1 (mem src) s len
      pure (if eq then some (s + len) else none)
    else pure none

/-- `previous` — lstrlib.c:604 -/
def previous (src : List UInt8) (s : Nat) : Res UInt8 := if s = 0 then .ok 0 else rd (mem src) (s - 1)

/-- The default case of `match` — lstrlib.c:625-660: `again` is the jump to `init`, `rec_` the recursive call. -/
def single_ (src : List UInt8) (again rec_ : List UInt8 → Nat → List Cap → Out) (s : Nat) (p : List UInt8) (caps : List Cap) : Out := do
  let ep ← classend p
  let m ← singlematch src s p ep
  let q ← at0 ep
  if m = false then
    if q = 42 ∨ q = 63 ∨ q = 45 then again (ep.drop 1) s caps
    else pure (none, caps)
  else if q = 63 then do
    let (r, caps) ← rec_ (ep.drop 1) (s + 1) caps
    match r with
    | some e => pure (some e, caps)
    | none => again (ep.drop 1) s caps
  else if q = 43 then maxExpand src p ep (rec_ (ep.drop 1)) (s + 1) caps
  else if q = 42 then maxExpand src p ep (rec_ (ep.drop 1)) s caps
  else if q = 45 then minExpand src p ep (rec_ (ep.drop 1)) (src.length + 1) s caps
  else again ep (s + 1) caps

/-- `match` — lstrlib.c:567-666, from the label `init` on: `d` is `matchdepth`, already decremented.  The
recursive calls and the jumps to `init` have a shorter pattern. -/
def doMatch (src : List UInt8) : Nat → Int → Nat → List UInt8 → List Cap → Out
  | 0, _, _, _, _ => .ub
  | fuel + 1, d, s, p, caps =>
    let rec_ (p : List UInt8) (s : Nat) (caps : List Cap) : Out :=
      if d = 0 then .err "pattern too complex" else doMatch src fuel (d - 1) s p caps
    let again (p : List UInt8) (s : Nat) (caps : List Cap) : Out := doMatch src fuel d s p caps
    let dflt : Unit → Out := fun _ => single_ src again rec_ s p caps
    if p.length = 1 then .ok (some s, caps)
    else do
      let c ← at0 p
      if c = 40 then do
        let c1 ← at1 p
        if c1 = 41 then startCapture (rec_ (p.drop 2)) s POSN caps
        else startCapture (rec_ (p.drop 1)) s UNFIN caps
      else if c = 41 then endCapture (rec_ (p.drop 1)) s caps
      else if c = 36 then
        if p.length ≠ 2 then dflt () else pure (if s = src.length then some s else none, caps)
      else if c = 37 then do
        let c1 ← at1 p
        if c1 = 98 then do
          let r ← matchbalance src s (p.drop 2)
          match r with
          | some s => doMatch src fuel d s (p.drop 4) caps
          | none => pure (none, caps)
        else if c1 = 102 then do
          let p := p.drop 2
          let c2 ← at0 p
          if c2 ≠ 91 then .err "missing '[' after '%f' in pattern"
          else do
            let ep ← classend p
            let prev ← previous src s
            let m1 ← matchSet prev p (ep.length + 1)
            if m1 then pure (none, caps)
            else do
              let cur ← rd (mem src) s
              let m2 ← matchSet cur p (ep.length + 1)
              if m2 then doMatch src fuel d s ep caps else pure (none, caps)
        else if isdigit c1 then do
          let r ← matchCapture src s caps c1
          match r with
          | some s => doMatch src fuel d s (p.drop 2) caps
          | none => pure (none, caps)
        else dflt ()
      else dflt ()

/-- `MAXCCALLS` — lstrlib.c:376. -/
def MAXCCALLS : Int := 200

/-- `match` called with a given `matchdepth` and pattern. -/
def matchAt (src : List UInt8) (d : Int) (p : List UInt8) (s : Nat) : Out :=
  if d = 0 then .err "pattern too complex" else doMatch src p.length (d - 1) s p []

/-- A value pushed for a capture: a position or a string. -/
inductive CapVal
  | pos (i : Int)
  | str (s : List UInt8)
deriving DecidableEq, Repr

/-- `get_onecapture` and `push_onecapture` — lstrlib.c:699-730. -/
def getOne (src : List UInt8) (caps : List Cap) (i s e : Nat) : Res CapVal :=
  match caps[i]? with
  | none =>
    if i ≠ 0 then .err "invalid capture index"
    else if s ≤ e then do
      let b ← rdN (mem src) s (e - s)
      pure (.str b)
    else .ub
  | some c =>
    if c.2 = UNFIN then .err "unfinished capture"
    else if c.2 = POSN then .ok (.pos ((c.1 : Int) + 1))
    else if c.2 < 0 then .ub
    else do
      let b ← rdN (mem src) c.1 c.2.toNat
      pure (.str b)

/-- The captures from `i` on, `n` of them. -/
def pushLoop (src : List UInt8) (caps : List Cap) (s e : Nat) : Nat → Nat → Res (List CapVal)
  | _, 0 => .ok []
  | i, n + 1 => do
    let v ← getOne src caps i s e
    let vs ← pushLoop src caps s e (i + 1) n
    pure (v :: vs)

/-- `push_captures` — lstrlib.c:733-740; `whole` says whether the first argument is not `NULL`. -/
def pushCaptures (src : List UInt8) (caps : List Cap) (whole : Bool) (s e : Nat) : Res (List CapVal) :=
  pushLoop src caps s e 0 (if caps.length = 0 ∧ whole then 1 else caps.length)

/-- `strpbrk(p, SPECIALS)` on a zero-terminated text: whether there is a special byte before the zero. -/
def strpbrk : List UInt8 → Res Bool
  | [] => .ub
  | c :: cs => if c = 0 then .ok false else if [94, 36, 42, 43, 63, 46, 40, 91, 37, 45].contains c then .ok true else strpbrk cs

/-- `strlen` on the memory from a pointer. -/
def strlen : List UInt8 → Res Nat
  | [] => .ub
  | c :: cs => if c = 0 then .ok 0 else do
    let n ← strlen cs
    pure (n + 1)

/-- `nospecials` — lstrlib.c:744-752. -/
def nospecials (m : List UInt8) (l : Nat) : Nat → Nat → Res Bool
  | 0, _ => .ub
  | fuel + 1, upto => do
    let sp ← strpbrk (m.drop upto)
    if sp then pure false
    else do
      let n ← strlen (m.drop upto)
      if upto + n + 1 ≤ l then nospecials m l fuel (upto + n + 1) else pure true

/-- The results of `string.find` and `string.match`. -/
inductive Found
  | fail
  | found (start stop : Int) (caps : List CapVal)
  | matched (caps : List CapVal)
deriving DecidableEq, Repr

/-- What `str_find_aux` does with a match — lstrlib.c:798-805. -/
def deliver (src : List UInt8) (find : Bool) (s1 e : Nat) (caps : List Cap) : Res Found :=
  if find then do
    let vs ← pushCaptures src caps false 0 0
    pure (.found ((s1 : Int) + 1) e vs)
  else do
    let vs ← pushCaptures src caps true s1 e
    pure (.matched vs)

/-- The loop of `str_find_aux` — lstrlib.c:795-807. -/
def findLoop (src p : List UInt8) (find anchor : Bool) : Nat → Nat → Res Found
  | 0, _ => .ub
  | fuel + 1, s1 => do
    let (r, caps) ← matchAt src MAXCCALLS p s1
    match r with
    | some e => deliver src find s1 e caps
    | none => if s1 < src.length ∧ anchor = false then findLoop src p find anchor fuel (s1 + 1) else pure .fail

/-- The plain search in `str_find_aux` — lstrlib.c:782-787. -/
def plainFind (src pat : List UInt8) (init : Nat) : Res Found := do
  let r ← lmemfind (mem src) init (src.length - init) (mem pat) pat.length
  match r with
  | none => pure .fail
  | some k => pure (.found ((k : Int) + 1) ((k : Int) + pat.length) [])

/-- The search with a pattern in `str_find_aux` — lstrlib.c:788-807. -/
def patFind (src pat : List UInt8) (find : Bool) (init : Nat) : Res Found := do
  let c ← at0 (mem pat)
  if c = 94 then findLoop src ((mem pat).drop 1) find true (src.length + 2) init
  else findLoop src (mem pat) find false (src.length + 2) init

/-- `str_find_aux` — lstrlib.c:770-811; `plain` is the fourth argument. -/
def strFindAux (find : Bool) (src pat : List UInt8) (i : Int) (plain : Bool) : Res Found :=
  let init := posrelatI i src.length - 1
  if init > src.length then .ok .fail
  else if find then do
    let ns ← if plain then pure true else nospecials (mem pat) pat.length (pat.length + 2) 0
    if ns then plainFind src pat init else patFind src pat find init
  else patFind src pat find init

/-- The loop of `gmatch_aux` — lstrlib.c:839-846: the captures, and the end of the match. -/
def gmatchLoop (src p : List UInt8) (d : Int) (last : Option Nat) : Nat → Nat → Res (Option (List CapVal × Nat))
  | 0, _ => .ub
  | fuel + 1, s =>
    if s ≤ src.length then do
      let (r, caps) ← matchAt src d p s
      match r with
      | some e =>
        if some e ≠ last then do
          let vs ← pushCaptures src caps true s e
          pure (some (vs, e))
        else gmatchLoop src p d last fuel (s + 1)
      | none => gmatchLoop src p d last fuel (s + 1)
    else pure none

/-- State of the iterator (`GMatchState`): current position, end of the last match, `matchdepth`. -/
structure GM where
  pos : Nat
  last : Option Nat
  depth : Int
  deriving DecidableEq

/-- `gmatch` — lstrlib.c:851-865; the optional position. -/
def gmatchInit (src : List UInt8) (i : Int) : GM :=
  let init := posrelatI i src.length - 1
  ⟨if init > src.length then src.length + 1 else init, none, MAXCCALLS⟩

/-- One call of the iterator — lstrlib.c:835-848. -/
def gmatchNext (src pat : List UInt8) (g : GM) : Res (Option (List CapVal × GM)) := do
  let r ← gmatchLoop src (mem pat) g.depth g.last (src.length + 2) g.pos
  match r with
  | some (vs, e) => pure (some (vs, ⟨e, some e, g.depth⟩))
  | none => pure none

/-- `lua_Integer` to text, as `luaL_addvalue` appends a position. -/
def natText (n : Nat) : List UInt8 := (toString n).toUTF8.toList

/-- Position of the first `%` — `memchr(news, L_ESC, l)`, lstrlib.c:874. -/
def splitEsc : List UInt8 → Option (List UInt8 × List UInt8)
  | [] => none
  | c :: cs => if c = 37 then some ([], cs) else match splitEsc cs with
    | none => none
    | some (a, b) => some (c :: a, b)

/-- `add_s` — lstrlib.c:868-896: the text appended; the byte after the last `%` is the zero. -/
def addS (src : List UInt8) (caps : List Cap) (s e : Nat) : Nat → List UInt8 → Res (List UInt8)
  | 0, _ => .ub
  | fuel + 1, news =>
    match splitEsc news with
    | none => .ok news
    | some (a, rest) => do
      let t ←
        match rest with
        | [] => (.err "invalid use of '%' in replacement string" : Res (List UInt8))
        | c :: _ =>
          if c = 37 then pure [37]
          else if c = 48 then if s ≤ e then rdN (mem src) s (e - s) else .ub
          else if isdigit c then do
            match ← getOne src caps (c.toNat - 49) s e with
            | .pos i => pure (natText i.toNat)
            | .str b => pure b
          else .err "invalid use of '%' in replacement string"
      let u ← addS src caps s e fuel (rest.drop 1)
      pure (a ++ t ++ u)

/-- The replacement: a string, or a function or table.  A call or a lookup is a function of the number of
calls made before and the captures: `none` is `nil` or `false`, `some` the text of the value. -/
inductive Repl
  | str (s : List UInt8)
  | fn (f : Nat → List CapVal → Res (Option (List UInt8)))
  | tab (f : Nat → CapVal → Res (Option (List UInt8)))

/-- `add_value` — lstrlib.c:904-936: the text appended and whether it is a change. -/
def addValue (src : List UInt8) (r : Repl) (n : Nat) (caps : List Cap) (s e : Nat) : Res (List UInt8 × Bool) :=
  let finish (v : Option (List UInt8)) : Res (List UInt8 × Bool) :=
    match v with
    | some t => pure (t, true)
    | none => if s ≤ e then do
        let b ← rdN (mem src) s (e - s)
        pure (b, false)
      else .ub
  match r with
  | .str news => do
    let t ← addS src caps s e (news.length + 1) news
    pure (t, true)
  | .fn f => do
    let vs ← pushCaptures src caps true s e
    let v ← f n vs
    finish v
  | .tab f => do
    let c ← getOne src caps 0 s e
    let v ← f n c
    finish v

/-- State of `str_gsub`: position, last match, replacements, text so far, changed. -/
structure GS where
  s : Nat
  last : Option Nat
  n : Nat
  out : List UInt8
  changed : Bool

/-- The loop of `str_gsub` — lstrlib.c:962-974. -/
def gsubLoop (src p : List UInt8) (r : Repl) (max : Int) (anchor : Bool) : Nat → GS → Res GS
  | 0, _ => .ub
  | fuel + 1, g =>
    if (g.n : Int) < max then do
      let (m, caps) ← matchAt src MAXCCALLS p g.s
      let skip : Unit → Res GS := fun _ =>
        if g.s < src.length then do
          let c ← rd (mem src) g.s
          let g := { g with s := g.s + 1, out := g.out ++ [c] }
          if anchor then pure g else gsubLoop src p r max anchor fuel g
        else pure g
      match m with
      | some e =>
        if some e ≠ g.last then do
          let (t, ch) ← addValue src r g.n caps g.s e
          let g : GS := ⟨e, some e, g.n + 1, g.out ++ t, ch || g.changed⟩
          if anchor then pure g else gsubLoop src p r max anchor fuel g
        else skip ()
      | none => skip ()
    else pure g

/-- `str_gsub` — lstrlib.c:939-982: the result and the number of replacements. -/
def gsub (src pat : List UInt8) (r : Repl) (max : Option Int) : Res (List UInt8 × Nat) := do
  let c ← at0 (mem pat)
  let anchor := c = 94
  let p := if anchor then (mem pat).drop 1 else mem pat
  let g ← gsubLoop src p r (max.getD (src.length + 1)) anchor (2 * src.length + 4) ⟨0, none, 0, [], false⟩
  if g.changed then
    if g.s ≤ src.length then do
      let b ← rdN (mem src) g.s (src.length - g.s)
      pure (g.out ++ b, g.n)
    else .ub
  else pure (src, g.n)

end Verif.Pat
