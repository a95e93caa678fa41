import Verif.Base

/-!
# Bit sets of the Ravi compiler — ravicomp/src/bitset.c, bitset.h

Words are naturals below 2^64.  `size_t` arithmetic is not wrapped: a bit number near 2^64 would
need more memory than there is.  Reading or writing outside the array is undefined.
-/
namespace Verif.BitSet

/-- `BitSet` — bitset.h:44-48; `size` is the length of `varr`. -/
structure BS where
  els : Nat
  varr : List Nat
deriving DecidableEq, Repr

/-- `addr[i]`. -/
def get (v : List Nat) (i : Nat) : Res Nat :=
  match v[i]? with
  | some w => .ok w
  | none => .ub

/-- `addr[i] = w`. -/
def put (v : List Nat) (i w : Nat) : Res (List Nat) :=
  if i < v.length then .ok (v.set i w) else .ub

/-- `raviX_bitset_create2` — bitset.c:61-65 (zeroed by `calloc`). -/
def create (bits : Nat) : BS := ⟨0, List.replicate ((bits + 63) / 64) 0⟩

/-- `raviX_bitset_clear` — bitset.h:56-59. -/
def clear (bm : BS) : BS := { bm with els := 0 }

/-- `bitset_expand` — bitset.c:72-81; `raviX_realloc_array` (allocate.c:58-75) zeroes the added
part. -/
def expand (bm : BS) (nb : Nat) : BS :=
  let newLen := (nb + 63) / 64
  if newLen > bm.els then
    if newLen > bm.varr.length then
      ⟨newLen, bm.varr ++ List.replicate (newLen - bm.varr.length) 0⟩
    else ⟨newLen, bm.varr⟩
  else bm

/-- `raviX_bitset_bit_p` — bitset.c:83-91. -/
def bitP (bm : BS) (nb : Nat) : Res Bool :=
  if nb ≥ 64 * bm.els then .ok false
  else do
    let w ← get bm.varr (nb / 64)
    pure ((w >>> (nb % 64)) &&& 1 != 0)

/-- `raviX_bitset_set_bit_p` — bitset.c:96-109. -/
def setBit (bm : BS) (bit : Nat) : Res (BS × Bool) := do
  let bm := expand bm (bit + 1)
  let nw := bit / 64
  let sh := bit % 64
  let w ← get bm.varr nw
  let res := (w >>> sh) &&& 1 == 0
  let v ← put bm.varr nw (w ||| (1 <<< sh))
  pure ({ bm with varr := v }, res)

/-- `~x` on a word. -/
def wnot (x : Nat) : Nat := 2 ^ 64 - (x + 1)

/-- `raviX_bitset_clear_bit_p` — bitset.c:111-122. -/
def clearBit (bm : BS) (nb : Nat) : Res (BS × Bool) :=
  if nb ≥ 64 * bm.els then .ok (bm, false)
  else do
    let w ← get bm.varr (nb / 64)
    let v ← put bm.varr (nb / 64) (w &&& wnot (1 <<< (nb % 64)))
    pure ({ bm with varr := v }, (w >>> (nb % 64)) &&& 1 != 0)

/-- The mask of `raviX_bitset_set_or_clear_bit_range_p` — bitset.c:135. -/
def rangeMask (lsh rsh : Nat) : Nat := ((wnot 0 >>> (rsh + lsh)) <<< lsh) % 2 ^ 64

/-- `rsh` — bitset.c:134. -/
def rangeRsh (nb len : Nat) : Nat :=
  if len ≥ 64 - nb % 64 then 0 else 64 - (nb + len) % 64

/-- The loop of `raviX_bitset_set_or_clear_bit_range_p` — bitset.c:131-146.  Each turn handles at
least one bit; the fuel is the number of bits. -/
def rangeLoop (setp : Bool) : Nat → List Nat → Nat → Nat → Bool → Res (List Nat × Bool)
  | _, v, _, 0, res => .ok (v, res)
  | 0, _, _, _ + 1, _ => .ub
  | fuel + 1, v, nb, len + 1, res => do
    let nw := nb / 64
    let lsh := nb % 64
    let rsh := rangeRsh nb (len + 1)
    let mask := rangeMask lsh rsh
    let w ← get v nw
    let v ← put v nw (if setp then w ||| mask else w &&& wnot mask)
    let res := res || (if setp then (wnot w &&& mask) != 0 else (w &&& mask) != 0)
    let rl := 64 - rsh - lsh
    rangeLoop setp fuel v (nb + rl) (len + 1 - rl) res

/-- `raviX_bitset_set_or_clear_bit_range_p` — bitset.c:124-148. -/
def range (bm : BS) (nb len : Nat) (setp : Bool) : Res (BS × Bool) := do
  let bm := expand bm (nb + len)
  let (v, res) ← rangeLoop setp len bm.varr nb len false
  pure ({ bm with varr := v }, res)

/-- `raviX_bitset_copy` — bitset.c:150-161. -/
def copy (dst src : BS) : Res BS :=
  let dst := if dst.els ≥ src.els then { dst with els := src.els } else expand dst (src.els * 64)
  if src.els ≤ src.varr.length ∧ src.els ≤ dst.varr.length then
    .ok { dst with varr := src.varr.take src.els ++ dst.varr.drop src.els }
  else .ub

/-- The loop "all words in `[i, i+k)` are zero" — bitset.c:180-181, 201-202. -/
def zeros (v : List Nat) : Nat → Nat → Res Bool
  | 0, _ => .ok true
  | k + 1, i => do
    let w ← get v i
    if w ≠ 0 then pure false else zeros v k (i + 1)

/-- `raviX_bitset_equal_p` with `bm1` the shorter one — bitset.c:177-182. -/
def equalAux (bm1 bm2 : BS) : Res Bool :=
  if bm1.els ≤ bm1.varr.length ∧ bm1.els ≤ bm2.varr.length then
    if bm1.varr.take bm1.els ≠ bm2.varr.take bm1.els then .ok false
    else zeros bm2.varr (bm2.els - bm1.els) bm1.els
  else .ub

/-- `raviX_bitset_equal_p` — bitset.c:163-183. -/
def equal (bm1 bm2 : BS) : Res Bool :=
  if bm1.els > bm2.els then equalAux bm2 bm1 else equalAux bm1 bm2

/-- The loop of `raviX_bitset_intersect_p` — bitset.c:192-193. -/
def meets (v1 v2 : List Nat) : Nat → Nat → Res Bool
  | 0, _ => .ok false
  | k + 1, i => do
    let a ← get v1 i
    let b ← get v2 i
    if a &&& b ≠ 0 then pure true else meets v1 v2 k (i + 1)

/-- `raviX_bitset_intersect_p` — bitset.c:185-195. -/
def intersect (bm1 bm2 : BS) : Res Bool :=
  meets bm1.varr bm2.varr (if bm1.els ≤ bm2.els then bm1.els else bm2.els) 0

/-- `raviX_bitset_empty_p` — bitset.c:197-204. -/
def empty (bm : BS) : Res Bool := zeros bm.varr bm.els 0

/-- `for (; el != 0; el >>= 1) if (el & 1) count++` — bitset.c:223-224 (the test for 0 before
it, 222, changes nothing). -/
def popLoop : Nat → Nat → Nat → Res Nat
  | _, 0, c => .ok c
  | 0, _ + 1, _ => .ub
  | fuel + 1, el + 1, c =>
    popLoop fuel ((el + 1) >>> 1) (if (el + 1) &&& 1 ≠ 0 then c + 1 else c)

/-- The loop of `raviX_bitset_bit_count` — bitset.c:221-226. -/
def countLoop (v : List Nat) : Nat → Nat → Nat → Res Nat
  | 0, _, c => .ok c
  | k + 1, i, c => do
    let el ← get v i
    let c ← popLoop 64 el c
    countLoop v k (i + 1) c

/-- `raviX_bitset_bit_count` — bitset.c:216-228. -/
def count (bm : BS) : Res Nat := countLoop bm.varr bm.els 0 0

/-- `i >= src_len ? 0 : src_addr[i]` — bitset.c:245. -/
def word (s : BS) (i : Nat) : Res Nat := if i ≥ s.els then .ok 0 else get s.varr i

/-- The loop of `raviX_bitset_op2` and `raviX_bitset_op3` — bitset.c:243-249, 269-276: `f i` is the
value computed for word `i`. The state is the destination, `bound` and `change_p`. -/
def opLoop (f : Nat → Res Nat) : Nat → Nat → List Nat → Nat → Bool → Res (List Nat × Nat × Bool)
  | 0, _, v, bound, ch => .ok (v, bound, ch)
  | k + 1, i, v, bound, ch => do
    let old ← get v i
    let w ← f i
    let v ← put v i w
    opLoop f k (i + 1) v (if w ≠ 0 then i + 1 else bound) (ch || old != w)

/-- `raviX_bitset_op2` — bitset.c:230-252.  The sources may be the destination itself: word `i` is
read before it is written, and the lengths are read before the expansion, so they are passed as
values. -/
def op2 (op : Nat → Nat → Nat) (dst s1 s2 : BS) : Res (BS × Bool) := do
  let len := if s1.els < s2.els then s2.els else s1.els
  let dst := expand dst (len * 64)
  let (v, bound, ch) ← opLoop (fun i => do
    let a ← word s1 i
    let b ← word s2 i
    pure (op a b)) len 0 dst.varr 0 false
  pure (⟨bound, v⟩, ch)

/-- `bitset_el_max3` — bitset.c:210-213. -/
def max3 (a b c : Nat) : Nat :=
  if a ≤ b then (if b < c then c else b) else (if a < c then c else a)

/-- `raviX_bitset_op3` — bitset.c:254-279. -/
def op3 (op : Nat → Nat → Nat → Nat) (dst s1 s2 s3 : BS) : Res (BS × Bool) := do
  let len := max3 s1.els s2.els s3.els
  let dst := expand dst (len * 64)
  let (v, bound, ch) ← opLoop (fun i => do
    let a ← word s1 i
    let b ← word s2 i
    let c ← word s3 i
    pure (op a b c)) len 0 dst.varr 0 false
  pure (⟨bound, v⟩, ch)

/-- `raviX_bitset_el_and` — bitset.h:79. -/
def elAnd (a b : Nat) : Nat := a &&& b
/-- `raviX_bitset_el_and_compl` — bitset.h:83-85. -/
def elAndCompl (a b : Nat) : Nat := a &&& wnot b
/-- `raviX_bitset_el_ior` — bitset.h:89. -/
def elIor (a b : Nat) : Nat := a ||| b
/-- `raviX_bitset_el_ior_and` — bitset.h:95-97. -/
def elIorAnd (a b c : Nat) : Nat := a ||| (b &&& c)
/-- `raviX_bitset_el_ior_and_compl` — bitset.h:102-104. -/
def elIorAndCompl (a b c : Nat) : Nat := a ||| (b &&& wnot c)

/-- The inner loop of `raviX_bitset_iterator_next` — bitset.c:288-292: the bit found, or none. -/
def scanWord : Nat → Nat → Nat → Res (Option Nat)
  | _, 0, _ => .ok none
  | 0, _ + 1, _ => .ub
  | fuel + 1, el + 1, nbit =>
    if (el + 1) &&& 1 ≠ 0 then .ok (some nbit) else scanWord fuel ((el + 1) >>> 1) (nbit + 1)

/-- The outer loop — bitset.c:286-292, `k` words left, `cur` the word number. -/
def scan (v : List Nat) : Nat → Nat → Nat → Res (Option Nat)
  | 0, _, _ => .ok none
  | k + 1, cur, nbit => do
    let el ← get v cur
    let r ← (if el ≠ 0 then scanWord 64 (el >>> (nbit % 64)) nbit else .ok none)
    match r with
    | some n => pure (some n)
    | none => scan v k (cur + 1) ((cur + 1) * 64)

/-- `raviX_bitset_iterator_next` — bitset.c:281-294: the next bit at or after `nbit`; the iterator
then continues at the bit after it. -/
def next (bm : BS) (nbit : Nat) : Res (Option Nat) := scan bm.varr (bm.els - nbit / 64) (nbit / 64) nbit

/-- `FOREACH_BITSET_BIT` — bitset.h:119-120: all bits delivered, starting at `nbit`. -/
def iterate (bm : BS) : Nat → Nat → Res (List Nat)
  | 0, _ => .ub
  | fuel + 1, nbit => do
    let r ← next bm nbit
    match r with
    | none => pure []
    | some n => do
      let l ← iterate bm fuel (n + 1)
      pure (n :: l)

end Verif.BitSet
