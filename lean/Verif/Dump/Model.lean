import Verif.Base

/-!
Precompiled chunks: `string.dump` / `lua_dump` (`ldump.c`), `load` of a binary chunk
(`lundump.c`), the buffered input stream both loaders read from (`lzio.c`) and the choice between
text and binary chunks (`f_parser`, `ldo.c`).

The platform is the usual one: `int` and `Instruction` have 4 bytes, `size_t`, `lua_Integer` and
`lua_Number` have 8, little endian.  Memory is never exhausted, except that a vector with a negative
number of elements is never allocated.
-/
namespace Verif.Dump

abbrev Byte := UInt8
/-- contents of a `TString` -/
abbrev Str := List Byte
abbrev I32 := BitVec 32
abbrev I64 := BitVec 64

/-- little-endian image of the `k` low bytes of `v`: what `DumpVar` hands to the writer for a
variable of `k` bytes (`ldump.c:45-54`) -/
def le : Nat → Nat → List Byte
  | 0, _ => []
  | k + 1, v => UInt8.ofNat v :: le k (v / 256)

/-- value of the variable whose bytes `LoadVar` filled (`lundump.c:56-62`) -/
def unle : List Byte → Nat
  | [] => 0
  | b :: bs => b.toNat + 256 * unle bs

/-- `RAVI_TM_ANY` (`lobject.h:97`) -/
def TM_ANY : I32 := BitVec.allOnes 32

/-- a constant of a function (`TValue` in `f->k`, `lobject.h:535`).  A boolean keeps the byte
`setbvalue` stores (`lundump.c:138`), a float its bits. -/
inductive K where
  | nil
  | bool (b : Byte)
  | flt (bits : I64)
  | int (i : I64)
  | str (s : Str)
deriving DecidableEq, Repr

/-- `Upvaldesc` (`lobject.h:477-483`); `none` is a NULL string -/
structure Up where
  instack : Byte
  idx : Byte
  name : Option Str
  tm : I32
  usertype : Option Str
deriving DecidableEq, Repr

/-- `LocVar` (`lobject.h:490-496`) -/
structure LocVar where
  varname : Option Str
  startpc : I32
  endpc : I32
  tm : I32
  usertype : Option Str
deriving DecidableEq, Repr

/-- the fields of a `Proto` that do not contain other prototypes (`lobject.h:522-551`).  The last
closure created (`cache`) and the compiled code (`ravi_jit`) are caches, not part of the function,
and neither dumped nor modelled. -/
structure Fields where
  source : Option Str
  linedefined : I32
  lastlinedefined : I32
  numparams : Byte
  is_vararg : Byte
  maxstacksize : Byte
  code : List I32
  k : List K
  upvalues : List Up
  lineinfo : List I32
  locvars : List LocVar
deriving DecidableEq, Repr

/-- `Proto` (`lobject.h:522-551`): its own fields and the functions defined inside (`f->p`) -/
inductive Proto where
  | mk (f : Fields) (p : List Proto)

/-! ## Dumping -/

/-- the blocks handed to the writer, in order -/
abbrev Blocks := List (List Byte)

/-- `DumpByte` (`ldump.c:57-60`): the argument is reduced to a byte -/
def DumpByte (y : Nat) : Blocks := [[UInt8.ofNat y]]

/-- `DumpInt` (`ldump.c:63-65`) -/
def DumpInt (x : I32) : Blocks := [le 4 x.toNat]

/-- `DumpInt` of the number of elements of a vector, an `int` -/
def DumpCount (n : Nat) : Blocks := DumpInt (BitVec.ofNat 32 n)

/-- `DumpNumber`, `DumpInteger` (`ldump.c:68-75`) -/
def Dump64 (x : I64) : Blocks := [le 8 x.toNat]

/-- `DumpString` (`ldump.c:78-92`) -/
def DumpString : Option Str → Blocks
  | none => DumpByte 0
  | some s =>
    let size := s.length + 1
    (if size < 0xFF then DumpByte size else DumpByte 0xFF ++ [le 8 size]) ++ [s]

/-- `DumpVector` of an array of 4-byte integers (`ldump.c:40`) -/
def DumpVector (v : List I32) : Blocks := [v.flatMap fun x => le 4 x.toNat]

/-- `DumpCode` (`ldump.c:95-98`) -/
def DumpCode (f : Fields) : Blocks := DumpCount f.code.length ++ DumpVector f.code

/-- the type tag `DumpConstants` writes (`ldump.c:109-111`): `ttype` of the constant.  A string is
short when it has at most `LUAI_MAXSHORTLEN` = 40 bytes (`lstring.c:199-210`). -/
def K.tag : K → Nat
  | .nil => 0
  | .bool _ => 1
  | .flt _ => 3
  | .int _ => 3 + 16
  | .str s => if s.length ≤ 40 then 4 else 4 + 16

/-- body of the loop of `DumpConstants` (`ldump.c:107-131`) -/
def DumpConstant (o : K) : Blocks :=
  DumpByte o.tag ++
  match o with
  | .nil => []
  | .bool b => DumpByte b.toNat
  | .flt x => Dump64 x
  | .int x => Dump64 x
  | .str s => DumpString (some s)

/-- `DumpConstants` (`ldump.c:103-132`) -/
def DumpConstants (f : Fields) : Blocks :=
  DumpCount f.k.length ++ f.k.flatMap DumpConstant

/-- `DumpUpvalues` (`ldump.c:144-151`) -/
def DumpUpvalues (f : Fields) : Blocks :=
  DumpCount f.upvalues.length ++
  f.upvalues.flatMap fun u => DumpByte u.instack.toNat ++ DumpByte u.idx.toNat

/-- the loop that searches the last typed entry (`ldump.c:160-167`, `177-183`): `i` runs down from
`n - 1` and stops at an entry whose type is not `RAVI_TM_ANY`; the result is the new `n` -/
def lastTyped (tm : Nat → I32) : Nat → Nat
  | 0 => 0
  | i + 1 => if tm i ≠ TM_ANY then i + 1 else lastTyped tm i

/-- number of local variables dumped (`ldump.c:159-166`) -/
def numLocvars (strip : Bool) (f : Fields) : Nat :=
  if strip then lastTyped (fun i => (f.locvars[i]?.map (·.tm)).getD TM_ANY) f.locvars.length
  else f.locvars.length

/-- number of upvalues whose name and type are dumped (`ldump.c:176-183`) -/
def numUpvalues (strip : Bool) (f : Fields) : Nat :=
  if strip then lastTyped (fun i => (f.upvalues[i]?.map (·.tm)).getD TM_ANY) f.upvalues.length
  else f.upvalues.length

/-- body of the loop over local variables (`ldump.c:168-174`) -/
def DumpLocvar (strip : Bool) (v : LocVar) : Blocks :=
  DumpString (if strip then none else v.varname) ++ DumpInt v.startpc ++ DumpInt v.endpc ++
  DumpInt v.tm ++ DumpString v.usertype

/-- body of the loop over upvalues (`ldump.c:185-189`) -/
def DumpUpname (strip : Bool) (u : Up) : Blocks :=
  DumpString (if strip then none else u.name) ++ DumpInt u.tm ++ DumpString u.usertype

/-- `DumpDebug` (`ldump.c:153-190`) -/
def DumpDebug (strip : Bool) (f : Fields) : Blocks :=
  let lines := if strip then [] else f.lineinfo
  DumpCount lines.length ++ DumpVector lines ++
  DumpCount (numLocvars strip f) ++
  (f.locvars.take (numLocvars strip f)).flatMap (DumpLocvar strip) ++
  DumpCount (numUpvalues strip f) ++
  (f.upvalues.take (numUpvalues strip f)).flatMap (DumpUpname strip)

/-- the source name `DumpFunction` writes (`ldump.c:194-197`).  `same` is the comparison of the two
string pointers; all that is known about it is that equal pointers have equal contents. -/
def dumpedSource (same : Option Str → Option Str → Bool) (strip : Bool)
    (psource source : Option Str) : Option Str :=
  if strip || same source psource then none else source

mutual
/-- `DumpFunction` (`ldump.c:193-208`) -/
def DumpFunction (same : Option Str → Option Str → Bool) (strip : Bool) (psource : Option Str) :
    Proto → Blocks
  | .mk f ps =>
    DumpString (dumpedSource same strip psource f.source) ++
    DumpInt f.linedefined ++ DumpInt f.lastlinedefined ++
    DumpByte f.numparams.toNat ++ DumpByte f.is_vararg.toNat ++ DumpByte f.maxstacksize.toNat ++
    DumpCode f ++ DumpConstants f ++ DumpUpvalues f ++
    (DumpCount ps.length ++ DumpProtos same strip f.source ps) ++
    DumpDebug strip f
/-- loop of `DumpProtos` (`ldump.c:139-140`) -/
def DumpProtos (same : Option Str → Option Str → Bool) (strip : Bool) (source : Option Str) :
    List Proto → Blocks
  | [] => []
  | p :: ps => DumpFunction same strip source p ++ DumpProtos same strip source ps
end

/-- `LUA_SIGNATURE` without its first character: "Ravi" (`lua.h:31`) -/
def sigRest : List Byte := [0x52, 0x61, 0x76, 0x69]
/-- `LUAC_DATA` (`lundump.h:16`) -/
def LUAC_DATA : List Byte := [0x19, 0x93, 0x0d, 0x0a, 0x1a, 0x0a]
/-- `LUAC_VERSION` (`lundump.h:22`) -/
def LUAC_VERSION : Nat := 0x53
/-- `LUAC_FORMAT` (`lundump.h:23`) -/
def LUAC_FORMAT : Nat := 1
/-- `LUAC_INT` (`lundump.h:18`) -/
def LUAC_INT : I64 := 0x5678
/-- `LUAC_NUM`, the bits of 370.5 (`lundump.h:19`) -/
def LUAC_NUM : I64 := 0x4077280000000000

/-- `DumpHeader` (`ldump.c:211-223`) -/
def DumpHeader : Blocks :=
  [0x1b :: sigRest] ++ DumpByte LUAC_VERSION ++ DumpByte LUAC_FORMAT ++ [LUAC_DATA] ++
  DumpByte 4 ++ DumpByte 8 ++ DumpByte 4 ++ DumpByte 8 ++ DumpByte 8 ++
  Dump64 LUAC_INT ++ Dump64 LUAC_NUM

/-- the blocks `luaU_dump` produces (`ldump.c:229-241`) -/
def luaU_dump (same : Option Str → Option Str → Bool) (strip : Bool) : Proto → Blocks
  | .mk f ps =>
    DumpHeader ++ DumpByte f.upvalues.length ++ DumpFunction same strip none (.mk f ps)

/-- `DumpBlock` for each block in order (`ldump.c:45-51`): the writer is called while the status is
0, with non-empty blocks only -/
def write {σ : Type} (w : List Byte → σ → Nat × σ) : Blocks → Nat × σ → Nat × σ
  | [], st => st
  | b :: bs, (status, s) =>
    if status = 0 ∧ 0 < b.length then write w bs (w b s) else write w bs (status, s)

/-- the dumped string: what `str_dump` collects (`lstrlib.c:214-242`) -/
def bytes (same : Option Str → Option Str → Bool) (strip : Bool) (p : Proto) : List Byte :=
  (luaU_dump same strip p).flatten

/-! ## Loading

A loader is a program whose only effect is `LoadBlock`. -/

/-- programs made of `LoadBlock` calls -/
inductive L (α : Type) where
  | ret (a : α)
  /-- `luaD_throw` -/
  | fail (msg : String)
  /-- undefined behaviour -/
  | ub
  /-- `LoadBlock` of `n` bytes, then the rest of the program (`lundump.c:56-59`) -/
  | read (n : Nat) (k : List Byte → L α)

namespace L
def bind {α β : Type} : L α → (α → L β) → L β
  | ret a, f => f a
  | fail m, _ => fail m
  | ub, _ => ub
  | read n k, f => read n fun b => bind (k b) f

instance : Monad L where
  pure := ret
  bind := bind

/-- run a loader on a string -/
def run {α : Type} : L α → List Byte → Res (α × List Byte)
  | ret a, bs => .ok (a, bs)
  | fail m, _ => .err m
  | ub, _ => .ub
  | read n k, bs => if n ≤ bs.length then run (k (bs.take n)) (bs.drop n) else .err "truncated"
end L

/-- `LoadBlock` (`lundump.c:56-59`) -/
def LoadBlock (n : Nat) : L (List Byte) := .read n .ret

/-- `LoadByte` (`lundump.c:65-69`) -/
def LoadByte : L Byte := do
  let b ← LoadBlock 1
  return UInt8.ofNat (unle b)

/-- `LoadInt` (`lundump.c:72-76`) -/
def LoadInt : L I32 := do
  let b ← LoadBlock 4
  return BitVec.ofNat 32 (unle b)

/-- `LoadNumber`, `LoadInteger` (`lundump.c:79-90`) -/
def Load64 : L I64 := do
  let b ← LoadBlock 8
  return BitVec.ofNat 64 (unle b)

/-- `LoadInt` of a number of elements followed by `luaM_newvector` (`lmem.h:30-48`): the byte size
of a vector with a negative number of elements is astronomic -/
def LoadCount : L Nat := do
  let n ← LoadInt
  if n.msb then .fail "not enough memory" else return n.toNat

/-- the size `LoadString` reads (`lundump.c:94-96`) -/
def LoadSize : L Nat := do
  let size ← LoadByte
  if size = 0xFF then do
    let b ← LoadBlock 8
    return unle b
  else return size.toNat

/-- `LoadString` (`lundump.c:93-109`).  `luaS_createlngstrobj` (`lstring.c:147-151`) does not check
its argument: a length close to `2^64` makes the size of the object wrap around. -/
def LoadString : L (Option Str) := do
  let size ← LoadSize
  if size = 0 then return none
  else if 2 ^ 64 ≤ size - 1 + 25 then .ub
  else do
    let b ← LoadBlock (size - 1)
    return some b

/-- split the bytes of a vector into 4-byte integers -/
def words : Nat → List Byte → List I32
  | 0, _ => []
  | n + 1, bs => BitVec.ofNat 32 (unle (bs.take 4)) :: words n (bs.drop 4)

/-- `LoadVector` of `n` 4-byte integers (`lundump.c:54`) -/
def LoadVector (n : Nat) : L (List I32) := do
  let b ← LoadBlock (n * 4)
  return words n b

/-- `for (i = 0; i < n; i++)` around a loader -/
def rep {α : Type} (m : L α) : Nat → L (List α)
  | 0 => return []
  | n + 1 => do
    let a ← m
    let as ← rep m n
    return a :: as

/-- `LoadCode` (`lundump.c:112-117`) -/
def LoadCode : L (List I32) := do
  let n ← LoadCount
  LoadVector n

/-- the switch of `LoadConstants` (`lundump.c:133-152`).  An unknown type leaves the nil stored
before; `setsvalue2n` reads the tag of the string and so must not be given NULL
(`lobject.h:345-348`). -/
def LoadConstantOf (t : Byte) : L K :=
  if t = 0 then return .nil
  else if t = 1 then do
    let b ← LoadByte
    return .bool b
  else if t = 3 then do
    let x ← Load64
    return .flt x
  else if t = 19 then do
    let x ← Load64
    return .int x
  else if t = 4 ∨ t = 20 then do
    let s ← LoadString
    match s with
    | some s => return .str s
    | none => .ub
  else return .nil

/-- body of the loop of `LoadConstants` (`lundump.c:130-153`) -/
def LoadConstant : L K := do
  let t ← LoadByte
  LoadConstantOf t

/-- `LoadConstants` (`lundump.c:123-154`) -/
def LoadConstants : L (List K) := do
  let n ← LoadCount
  rep LoadConstant n

/-- body of the second loop of `LoadUpvalues` (`lundump.c:176-185`) -/
def LoadUpvalue : L Up := do
  let instack ← LoadByte
  let idx ← LoadByte
  return ⟨instack, idx, none, TM_ANY, none⟩

/-- `LoadUpvalues` (`lundump.c:171-186`) -/
def LoadUpvalues : L (List Up) := do
  let n ← LoadCount
  rep LoadUpvalue n

/-- `ravi_map_old_type_to_new` (`lundump.c:188-203`) with the type indexes of `lobject.h:57-71` -/
def mapOldType (t : Byte) : I32 :=
  match t.toNat with
  | 1 => 1#32 <<< 3
  | 2 => 1#32 <<< 4
  | 3 => 1#32 <<< 5
  | 4 => 1#32 <<< 6
  | 5 => (1#32 <<< 9) ||| (1#32 <<< 0)
  | 6 => 1#32 <<< 7
  | 7 => (1#32 <<< 8) ||| (1#32 <<< 0)
  | 8 => 1#32 <<< 0
  | 9 => (1#32 <<< 1) ||| (1#32 <<< 2) ||| (1#32 <<< 0)
  | 10 => (1#32 <<< 10) ||| (1#32 <<< 0)
  | _ => TM_ANY

/-- the type of a variable, in the old or the new format (`lundump.c:222`, `228`) -/
def LoadType (version : Byte) : L I32 :=
  if version = 0 then do
    let t ← LoadByte
    return mapOldType t
  else LoadInt

/-- body of the loop over local variables (`lundump.c:218-224`) -/
def LoadLocvar (version : Byte) : L LocVar := do
  let varname ← LoadString
  let startpc ← LoadInt
  let endpc ← LoadInt
  let tm ← LoadType version
  let usertype ← LoadString
  return ⟨varname, startpc, endpc, tm, usertype⟩

/-- the loop over upvalue names (`lundump.c:226-230`): `n` is not compared with the number of
upvalues; storing beyond the vector is undefined -/
def LoadUpnames (version : Byte) : Nat → List Up → L (List Up)
  | 0, us => return us
  | _ + 1, [] => .ub
  | n + 1, u :: us => do
    let name ← LoadString
    let tm ← LoadType version
    let usertype ← LoadString
    let us ← LoadUpnames version n us
    return { u with name, tm, usertype } :: us

/-- `LoadDebug` (`lundump.c:205-231`): line information, local variables and the upvalues with
their names and types filled in.  The last count is not used for an allocation; when negative the
loop does nothing. -/
def LoadDebug (version : Byte) (us : List Up) : L (List I32 × List LocVar × List Up) := do
  let n ← LoadCount
  let lineinfo ← LoadVector n
  let n ← LoadCount
  let locvars ← rep (LoadLocvar version) n
  let n ← LoadInt
  let us ← LoadUpnames version (if n.msb then 0 else n.toNat) us
  return (lineinfo, locvars, us)

/-- the source of a function: its parent's if none was dumped (`lundump.c:235-237`) -/
def orParent (psource : Option Str) : Option Str → Option Str
  | none => psource
  | some s => some s

/-- `LoadFunction` (`lundump.c:234-248`).  The recursion of the C function is bounded only by its
input; here it is bounded by `fuel`, and `fuel_irrelevant` shows that the length of the input is
enough. -/
def LoadFunction (version : Byte) : Nat → Option Str → L Proto
  | 0, _ => .fail "fuel"
  | fuel + 1, psource => do
    let s ← LoadString
    let source := orParent psource s
    let linedefined ← LoadInt
    let lastlinedefined ← LoadInt
    let numparams ← LoadByte
    let is_vararg ← LoadByte
    let maxstacksize ← LoadByte
    let code ← LoadCode
    let k ← LoadConstants
    let us ← LoadUpvalues
    let n ← LoadCount
    let p ← rep (LoadFunction version fuel source) n
    let (lineinfo, locvars, upvalues) ← LoadDebug version us
    return .mk { source, linedefined, lastlinedefined, numparams, is_vararg, maxstacksize, code, k,
                 upvalues, lineinfo, locvars } p

/-- `checkliteral` (`lundump.c:251-257`) -/
def checkliteral (s : List Byte) (msg : String) : L Unit := do
  let b ← LoadBlock s.length
  if b ≠ s then .fail msg else return ()

/-- `LoadByte(S) != x` and an error (`lundump.c:260-263`, `270-271`) -/
def checkbyte (x : Nat) (msg : String) : L Unit := do
  let b ← LoadByte
  if b.toNat ≠ x then .fail msg else return ()

/-- `checkHeader` after the first character (`lundump.c:268-285`); returns the format.  The float is
compared by its bits: 370.5 has only one representation. -/
def checkHeader : L Byte := do
  checkliteral sigRest "not a"
  checkbyte LUAC_VERSION "version mismatch in"
  let version ← LoadByte
  if LUAC_FORMAT < version.toNat then .fail "format mismatch in"
  else do
    checkliteral LUAC_DATA "corrupted"
    checkbyte 4 "int size mismatch in"
    checkbyte 8 "size_t size mismatch in"
    checkbyte 4 "Instruction size mismatch in"
    checkbyte 8 "lua_Integer size mismatch in"
    checkbyte 8 "lua_Number size mismatch in"
    let i ← Load64
    if i ≠ LUAC_INT then .fail "endianness mismatch in"
    else do
      let x ← Load64
      if x ≠ LUAC_NUM then .fail "float format mismatch in" else return version

/-- `luaU_undump` (`lundump.c:291-311`): the number of upvalues of the closure and its prototype -/
def luaU_undump (fuel : Nat) : L (Byte × Proto) := do
  let version ← checkHeader
  let nupvalues ← LoadByte
  let p ← LoadFunction version fuel none
  return (nupvalues, p)

/-- what `f_parser` made of a chunk -/
inductive Loaded where
  /-- a text chunk, given to the parser -/
  | text
  /-- a binary chunk: closure with so many upvalues and this prototype -/
  | binary (nupvalues : Byte) (p : Proto)

/-- `checkmode` (`ldo.c:872-878`) with the first character of "binary" or "text" -/
def checkmode (mode : Option (List Byte)) (x : Byte) : Res Unit :=
  match mode with
  | none => .ok ()
  | some m => if x ∈ m then .ok () else .err "mode"

/-- `f_parser` (`ldo.c:881-895`) on a whole string.  What follows a binary chunk is not looked at. -/
def load (mode : Option (List Byte)) : List Byte → Res Loaded
  | [] => do
    checkmode mode 0x74
    return .text
  | c :: bs =>
    if c = 0x1b then do
      checkmode mode 0x62
      let (r, _) ← (luaU_undump (bs.length + 1)).run bs
      return .binary r.1 r.2
    else do
      checkmode mode 0x74
      return .text

/-! ## The input stream -/

/-- `ZIO` (`lzio.h:56-62`): the unread part of the last piece and the pieces the reader will
return.  A reader that has returned all of them returns NULL.  `bad`: `zgetc` decremented the
counter of an empty buffer and found the end of the input, so the counter is `SIZE_MAX`. -/
structure Z where
  buf : List Byte
  rest : List (List Byte)
  bad : Bool

/-- `luaZ_fill` up to putting back the character it returns (`lzio.c:23-35`); `none` is `EOZ` -/
def fill (rest : List (List Byte)) : Option (List Byte × List (List Byte)) :=
  match rest with
  | [] => none
  | b :: rest => if b.length = 0 then none else some (b, rest)

/-- `luaZ_read` (`lzio.c:48-67`); `none` if bytes are missing -/
def zread (buf : List Byte) (rest : List (List Byte)) (n : Nat) :
    Option (List Byte × List Byte × List (List Byte)) :=
  if n = 0 then some ([], buf, rest)
  else if _hb : buf = [] then
    match _hf : fill rest with
    | none => none
    | some (b, rest') => do
      let m := if n ≤ b.length then n else b.length
      let (x, buf'', rest'') ← zread (b.drop m) rest' (n - m)
      return (b.take m ++ x, buf'', rest'')
  else do
    let m := if n ≤ buf.length then n else buf.length
    let (x, buf', rest') ← zread (buf.drop m) rest (n - m)
    return (buf.take m ++ x, buf', rest')
termination_by n
decreasing_by
  · have : 0 < b.length := by
      unfold fill at _hf
      split at _hf
      · exact nomatch _hf
      · split at _hf
        · exact nomatch _hf
        · simp only [Option.some.injEq, Prod.mk.injEq] at _hf
          obtain ⟨rfl, _⟩ := _hf
          omega
    split <;> omega
  · have : 0 < buf.length := List.length_pos_iff.mpr _hb
    split <;> omega

/-- `zgetc` (`lzio.h:19`): `none` is `EOZ` -/
def zgetc (z : Z) : Option Byte × Z :=
  match z.buf with
  | c :: buf => (some c, { z with buf })
  | [] =>
    match fill z.rest with
    | some (c :: buf, rest) => (some c, { z with buf, rest })
    | _ => (none, { z with rest := z.rest.drop 1, bad := true })

/-- run a loader on a stream: `LoadBlock` calls `luaZ_read` (`lundump.c:56-59`) -/
def L.runZ {α : Type} : L α → Z → Res (α × Z)
  | .ret a, z => .ok (a, z)
  | .fail m, _ => .err m
  | .ub, _ => .ub
  | .read n k, z =>
    if z.bad then .ub
    else match zread z.buf z.rest n with
    | none => .err "truncated"
    | some (b, buf, rest) => runZ (k b) { z with buf, rest }

/-- `f_parser` (`ldo.c:881-895`) on a stream -/
def loadZ (fuel : Nat) (mode : Option (List Byte)) (z : Z) : Res Loaded :=
  let (c, z) := zgetc z
  if c = some 0x1b then do
    checkmode mode 0x62
    let (r, _) ← (luaU_undump fuel).runZ z
    return .binary r.1 r.2
  else do
    checkmode mode 0x74
    return .text

/-! ## What a debugger sees -/

/-- `luaF_getlocalname` (`lfunc.c:246-264`): name, type and user type of the `n`-th variable active
at `pc` -/
def getlocalname (pc : Int) : List LocVar → Nat → Option Str × I32 × Option Str
  | [], _ => (none, TM_ANY, none)
  | v :: vs, n =>
    if v.startpc.toInt ≤ pc then
      if pc < v.endpc.toInt then
        if n = 1 then (v.varname, v.tm, v.usertype) else getlocalname pc vs (n - 1)
      else getlocalname pc vs n
    else (none, TM_ANY, none)

end Verif.Dump
