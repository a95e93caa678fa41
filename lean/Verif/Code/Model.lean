import Verif.Base

/-!
# Instruction encoding (`lopcodes.h`) and jump lists (`lcode.c`)

An `Instruction` is an unsigned 32-bit word, modelled as a natural number below `2^32`.
-/
namespace Verif.Code

/-- `MAXARG_A` — lopcodes.h:52. -/
def MAXARG_A : Nat := 0x7f
/-- `MAXARG_B` — lopcodes.h:53. -/
def MAXARG_B : Nat := 0xff
/-- `MAXARG_C` — lopcodes.h:54. -/
def MAXARG_C : Nat := 0xff
/-- `MAXARG_Bx` — lopcodes.h:55. -/
def MAXARG_Bx : Nat := 0xffff
/-- `MAXARG_Ax` — lopcodes.h:56. -/
def MAXARG_Ax : Nat := 0xffffff
/-- `MAXARG_sBx` — lopcodes.h:65. -/
def MAXARG_sBx : Int := 0x8000
/-- `NO_REG` — lopcodes.h:112. -/
def NO_REG : Nat := MAXARG_A

/-- `GET_OPCODE` — lopcodes.h:58. -/
def getOp (i : Nat) : Nat := i &&& 0xff
/-- `GETARG_A` — lopcodes.h:59. -/
def getA (i : Nat) : Nat := (i >>> 8) &&& 0x7f
/-- `GETARG_B` — lopcodes.h:60. -/
def getB (i : Nat) : Nat := i >>> 24
/-- `GETARG_C` — lopcodes.h:61. -/
def getC (i : Nat) : Nat := (i >>> 16) &&& 0xff
/-- `GETARG_Bx` — lopcodes.h:62. -/
def getBx (i : Nat) : Nat := i >>> 16
/-- `GETARG_Ax` — lopcodes.h:63. -/
def getAx (i : Nat) : Nat := i >>> 8
/-- `GETARG_sBx` — lopcodes.h:64. -/
def getsBx (i : Nat) : Int := (getBx i : Int) - MAXARG_sBx

/-- The four bytes in memory of the word `i`; `le` is the byte order chosen by
`RAVI_ENDIAN_SELECT`. -/
def toMem (le : Bool) (i : Nat) : List Nat :=
  let b := [i % 256, i / 256 % 256, i / 65536 % 256, i / 16777216 % 256]
  if le then b else b.reverse

/-- The word stored in four bytes of memory. -/
def ofMem (le : Bool) (m : List Nat) : Nat :=
  ((if le then m else m.reverse).foldr (fun b acc => b + 256 * acc) 0)

/-- `setbc_byte` — lopcodes.h:67-68: one byte store into the word. -/
def setByte (le : Bool) (p x ofs : Nat) : Nat :=
  ofMem le ((toMem le p).set (if le then ofs else 3 - ofs) (x % 256))

/-- `SET_OPCODE` — lopcodes.h:70. -/
def setOp (le : Bool) (p x : Nat) : Nat := setByte le p x 0
/-- `SETARG_A` — lopcodes.h:71. -/
def setA (le : Bool) (p x : Nat) : Nat := setByte le p (x &&& 0x7f) 1
/-- `SETARG_B` — lopcodes.h:72. -/
def setB (le : Bool) (p x : Nat) : Nat := setByte le p x 3
/-- `SETARG_C` — lopcodes.h:73. -/
def setC (le : Bool) (p x : Nat) : Nat := setByte le p x 2

/-- The two 16-bit halves in memory of the word `i`. -/
def toMem16 (le : Bool) (i : Nat) : List Nat :=
  let b := [i % 65536, i / 65536 % 65536]
  if le then b else b.reverse

/-- The word stored in two 16-bit halves. -/
def ofMem16 (le : Bool) (m : List Nat) : Nat :=
  ((if le then m else m.reverse).foldr (fun b acc => b + 65536 * acc) 0)

/-- `SETARG_Bx` — lopcodes.h:74-75: a 16-bit store into one half of the word. -/
def setBx (le : Bool) (p x : Nat) : Nat :=
  ofMem16 le ((toMem16 le p).set (if le then 1 else 0) (x % 65536))

/-- `SETARG_sBx` — lopcodes.h:76: the addition is done on unsigned 32-bit words. -/
def setsBx (le : Bool) (p : Nat) (x : Int) : Nat :=
  setBx le p ((x + MAXARG_sBx) % 4294967296).toNat

/-- `SETARG_Ax` — lopcodes.h:77. -/
def setAx (p x : Nat) : Nat := (p &&& 0xff) ||| (x <<< 8) % 4294967296

/-- `CREATE_ABC` — lopcodes.h:80-83 (each shift is on 32-bit unsigned words). -/
def createABC (o a b c : Nat) : Nat :=
  o ||| (a <<< 8) % 4294967296 ||| (b <<< 24) % 4294967296 ||| (c <<< 16) % 4294967296

/-- `CREATE_ABx` — lopcodes.h:85-87. -/
def createABx (o a bc : Nat) : Nat :=
  o ||| (a <<< 8) % 4294967296 ||| (bc <<< 16) % 4294967296

/-- `CREATE_Ax` — lopcodes.h:89-90. -/
def createAx (o a : Nat) : Nat := o ||| (a <<< 8) % 4294967296

/-- `BITRK` — lopcodes.h:93. -/
def BITRK : Nat := 0x80
/-- `ISK` — lopcodes.h:96. -/
def isK (x : Nat) : Bool := x &&& BITRK != 0
/-- `INDEXK` — lopcodes.h:99: `r & ~BITRK`, on values that fit in eight bits. -/
def indexK (r : Nat) : Nat := r &&& (0xffffffff ^^^ BITRK)
/-- `MAXINDEXRK` — lopcodes.h:102. -/
def MAXINDEXRK : Nat := BITRK - 1
/-- `RKASK` — lopcodes.h:106. -/
def rkAsK (x : Nat) : Nat := x ||| BITRK

/-! ### Opcodes needed by the jump code — lopcodes.h:129-173 -/
/-- `OP_LOADNIL` — lopcodes.h:134. -/
def OP_LOADNIL : Nat := 4
/-- `OP_JMP` — lopcodes.h:167. -/
def OP_JMP : Nat := 30
/-- `OP_TEST` — lopcodes.h:172. -/
def OP_TEST : Nat := 34
/-- `OP_TESTSET` — lopcodes.h:173. -/
def OP_TESTSET : Nat := 35

/-- `testTMode` — lopcodes.h:340 with the table lopcodes.c:176-313: the opcodes whose
first column is 1 are `OP_EQ`..`OP_TESTSET` (31-35) and `OP_RAVI_EQ_II`..`OP_RAVI_LE_FF`
(101-106). -/
def tMode (op : Nat) : Bool := (31 ≤ op && op ≤ 35) || (101 ≤ op && op ≤ 106)

/-- `NO_JUMP` — lcode.h:20. -/
def NO_JUMP : Int := -1

/-- The parts of `FuncState` used by the jump code (lparser.h); `fs->pc` is the length
of `code`. -/
structure FS where
  code : List Nat
  jpc : Int
  lasttarget : Int
  deriving DecidableEq

/-- `fs->pc`. -/
def FS.pc (fs : FS) : Int := fs.code.length

/-- Reading `fs->f->code[pc]`; outside the code it is undefined. -/
def rd (code : List Nat) (pc : Int) : Res Nat :=
  if pc < 0 then .ub else match code[pc.toNat]? with
    | some i => .ok i
    | none => .ub

/-- Writing `fs->f->code[pc]`. -/
def wr (code : List Nat) (pc : Int) (i : Nat) : Res (List Nat) :=
  if pc < 0 then .ub else
  if pc.toNat < code.length then .ok (code.set pc.toNat i) else .ub

/-- `getjump` — lcode.c:97-103. -/
def getjump (code : List Nat) (pc : Int) : Res Int := do
  let i ← rd code pc
  let offset := getsBx i
  if offset = NO_JUMP then pure NO_JUMP else pure ((pc + 1) + offset)

/-- `fixjump` — lcode.c:110-117. -/
def fixjump (le : Bool) (code : List Nat) (pc dest : Int) : Res (List Nat) := do
  let i ← rd code pc
  let offset := dest - (pc + 1)
  if (offset.natAbs : Int) > MAXARG_sBx then .err "control structure too long"
  else wr code pc (setsBx le i offset)

/-- The loop of `luaK_concat` — lcode.c:129-130; running out of fuel (a cyclic list)
is `ub`. -/
def lastOf (code : List Nat) : Nat → Int → Res Int
  | 0, _ => .ub
  | f + 1, list => do
    let next ← getjump code list
    if next = NO_JUMP then pure list else lastOf code f next

/-- `luaK_concat` — lcode.c:123-134. Returns the code and the new `*l1`. -/
def concat (le : Bool) (code : List Nat) (l1 l2 : Int) : Res (List Nat × Int) :=
  if l2 = NO_JUMP then pure (code, l1)
  else if l1 = NO_JUMP then pure (code, l2)
  else do
    let list ← lastOf code (code.length + 1) l1
    let code' ← fixjump le code list l2
    pure (code', l1)

/-- `getjumpcontrol` — lcode.c:186-192, as a position. -/
def getjumpcontrol (code : List Nat) (pc : Int) : Res Int :=
  if pc ≥ 1 then do
    let p ← rd code (pc - 1)
    if tMode (getOp p) then pure (pc - 1) else pure pc
  else pure pc

/-- `patchtestreg` — lcode.c:202-217. -/
def patchtestreg (le : Bool) (code : List Nat) (node : Int) (reg : Nat) :
    Res (List Nat × Bool) := do
  let ip ← getjumpcontrol code node
  let i ← rd code ip
  if getOp i ≠ OP_TESTSET then pure (code, false)
  else if reg ≠ NO_REG ∧ reg ≠ getB i then do
    let code' ← wr code ip (setA le i reg)
    pure (code', true)
  else do
    let code' ← wr code ip (createABC OP_TEST (getB i) 0 (getC i))
    pure (code', true)

/-- `patchlistaux` — lcode.c:234-244; fuel exhaustion is `ub`. -/
def patchlistaux (le : Bool) : Nat → List Nat → Int → Int → Nat → Int → Res (List Nat)
  | f, code, list, vtarget, reg, dtarget =>
    if list = NO_JUMP then pure code
    else match f with
    | 0 => .ub
    | f + 1 => do
      let next ← getjump code list
      let (code1, v) ← patchtestreg le code list reg
      let code2 ← fixjump le code1 list (if v then vtarget else dtarget)
      patchlistaux le f code2 next vtarget reg dtarget

/-- `dischargejpc` — lcode.c:252-255. -/
def dischargejpc (le : Bool) (fs : FS) : Res FS := do
  let code ← patchlistaux le (fs.code.length + 1) fs.code fs.jpc fs.pc NO_REG fs.pc
  pure { fs with code := code, jpc := NO_JUMP }

/-- `luaK_code` — lcode.c:304-318, without the line information and the array growth.
Returns the position of the new instruction. -/
def code (le : Bool) (fs : FS) (i : Nat) : Res (FS × Int) := do
  let fs' ← dischargejpc le fs
  pure ({ fs' with code := fs'.code ++ [i] }, fs'.pc)

/-- `luaK_codeABC` — lcode.c:324-330 (the assertions are off). -/
def codeABC (le : Bool) (fs : FS) (o a b c : Nat) : Res (FS × Int) :=
  code le fs (createABC o a b c)

/-- `luaK_codeABx` — lcode.c:336-341. -/
def codeABx (le : Bool) (fs : FS) (o a bc : Nat) : Res (FS × Int) :=
  code le fs (createABx o a bc)

/-- `luaK_codeAsBx` — lcode.h:47 (`luaK_codeABx(fs,o,A,(sBx)+MAXARG_sBx)`). -/
def codeAsBx (le : Bool) (fs : FS) (o a : Nat) (sbx : Int) : Res (FS × Int) :=
  codeABx le fs o a ((sbx + MAXARG_sBx) % 4294967296).toNat

/-- `luaK_jump` — lcode.c:143-150. -/
def jump (le : Bool) (fs : FS) : Res (FS × Int) := do
  let jpc := fs.jpc
  let (fs1, j) ← codeAsBx le { fs with jpc := NO_JUMP } OP_JMP 0 NO_JUMP
  let (c, j') ← concat le fs1.code j jpc
  pure ({ fs1 with code := c }, j')

/-- `luaK_getlabel` — lcode.c:175-178. -/
def getlabel (fs : FS) : FS × Int := ({ fs with lasttarget := fs.pc }, fs.pc)

/-- `luaK_patchtohere` — lcode.c:262-265. -/
def patchtohere (le : Bool) (fs : FS) (list : Int) : Res FS := do
  let fs1 := (getlabel fs).1
  let (c, l) ← concat le fs1.code fs1.jpc list
  pure { fs1 with code := c, jpc := l }

/-- `luaK_patchlist` — lcode.c:273-280. -/
def patchlist (le : Bool) (fs : FS) (list target : Int) : Res FS :=
  if target = fs.pc then patchtohere le fs list
  else do
    let c ← patchlistaux le (fs.code.length + 1) fs.code list target NO_REG target
    pure { fs with code := c }

/-- `luaK_patchclose` — lcode.c:288-297 (the assertion is off); `f` bounds the walk. -/
def patchcloseAux (le : Bool) (level : Nat) : Nat → List Nat → Int → Res (List Nat)
  | f, code, list =>
    if list = NO_JUMP then pure code
    else match f with
    | 0 => .ub
    | f + 1 => do
      let i ← rd code list
      let code' ← wr code list (setA le i level)
      let next ← getjump code' list
      patchcloseAux le level f code' next

/-- `luaK_patchclose` — lcode.c:288-297. -/
def patchclose (le : Bool) (fs : FS) (list : Int) (level : Nat) : Res FS := do
  let c ← patchcloseAux le (level + 1) (fs.code.length + 1) fs.code list
  pure { fs with code := c }

/-- The attempt of `luaK_nil` to extend the previous instruction — lcode.c:72-88:
`some` the new code if it succeeds. -/
def nilMerge (le : Bool) (fs : FS) (frm n : Nat) : Option (List Nat) :=
  if fs.pc > fs.lasttarget then
    match fs.code.getLast? with
    | none => none
    | some previous =>
      let l := frm + n - 1
      if getOp previous = OP_LOADNIL then
        let pfrom := getA previous
        let pl := pfrom + getB previous
        if (pfrom ≤ frm ∧ frm ≤ pl + 1) ∨ (frm ≤ pfrom ∧ pfrom ≤ l + 1) then
          let frm' := if pfrom < frm then pfrom else frm
          let l' := if pl > l then pl else l
          some (fs.code.dropLast ++ [setB le (setA le previous frm') (l' - frm')])
        else none
      else none
  else none

/-- `luaK_nil` — lcode.c:69-91. -/
def nil (le : Bool) (fs : FS) (frm n : Nat) : Res FS :=
  match nilMerge le fs frm n with
  | some c => pure { fs with code := c }
  | none => do
    let (fs', _) ← codeABC le fs OP_LOADNIL frm (n - 1) 0
    pure fs'

end Verif.Code
