import Verif.Base
import Verif.CInt

/-!
# `luaO_chunkid` — lobject.c:572-614
-/
namespace Verif.ChunkId

abbrev Bytes := List UInt8

/-- `RETS` — lobject.c:574. -/
def RETS : Bytes := [0x2e, 0x2e, 0x2e]
/-- `PRE` — lobject.c:575: `[string "`. -/
def PRE : Bytes := [0x5b, 0x73, 0x74, 0x72, 0x69, 0x6e, 0x67, 0x20, 0x22]
/-- `POS` — lobject.c:576: `"]`. -/
def POS : Bytes := [0x22, 0x5d]

/-- The output array (unwritten bytes are `none`) and the moving pointer `out`. -/
structure Out where
  mem : List (Option UInt8)
  pos : Nat

/-- `memcpy(out, src + off, l)` where `src` is the string followed by its terminator; outside
either array it is undefined. -/
def memcpy (o : Out) (src : Bytes) (off l : Nat) : Res Out :=
  if off + l ≤ src.length + 1 ∧ o.pos + l ≤ o.mem.length then
    let bs := ((src ++ [0]).drop off).take l
    .ok { o with mem := o.mem.take o.pos ++ bs.map some ++ o.mem.drop (o.pos + l) }
  else .ub

/-- `addstr` — lobject.c:578. -/
def addstr (o : Out) (src : Bytes) (off l : Nat) : Res Out := do
  let o1 ← memcpy o src off l
  pure { o1 with pos := o1.pos + l }

/-- `a - b` in `size_t` (for `b` in range). -/
def usub (a b : Nat) : Nat := uw (a + (18446744073709551616 - b))

/-- `strchr(source, '\n') - source`, if any. -/
def newline (s : Bytes) : Option Nat := s.findIdx? (· == 0x0a)

/-- `luaO_chunkid` — lobject.c:580-614, on a C string `source` (no zero byte). -/
def chunkid (out : Out) (source : Bytes) (bufflen : Nat) : Res Out :=
  let l := source.length
  if source.head? = some 0x3d then
    if l ≤ bufflen then memcpy out source 1 l
    else do
      let o ← addstr out source 1 (usub bufflen 1)
      memcpy o [] 0 1
  else if source.head? = some 0x40 then
    if l ≤ bufflen then memcpy out source 1 l
    else do
      let o ← addstr out RETS 0 3
      let bufflen := usub bufflen 3
      memcpy o source (1 + l - bufflen) bufflen
  else do
    let nl := newline source
    let o ← addstr out PRE 0 9
    let bufflen := usub bufflen 15
    let o ← middle o source l nl bufflen
    memcpy o POS 0 3
where
  /-- lobject.c:604-612: the source, or its first line shortened. -/
  middle (o : Out) (source : Bytes) (l : Nat) (nl : Option Nat) (bufflen : Nat) : Res Out :=
    if l < bufflen ∧ nl = none then addstr o source 0 l
    else do
      let l := nl.getD l
      let l := if l > bufflen then bufflen else l
      let o ← addstr o source 0 l
      addstr o RETS 0 3

end Verif.ChunkId
