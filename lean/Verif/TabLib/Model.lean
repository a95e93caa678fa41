import Verif.CInt
/-!
Table library: `/repo/src/ltablib.c` 80-103 (`tinsert`), 106-120 (`tremove`), 129-160 (`tmove`), 163-188 (`addfield`, `tconcat`), 197-208 (`pack`),
211-226 (`unpack`).

A table is its contents as seen by `lua_geti`/`lua_seti` without metamethods: a function from integers to values, with a value `nil`.
(That the table implementation behaves like such a function is the subject of `Verif/Table`.)  The length used by `aux_getn` is a
parameter `n`: any `lua_Integer`, since `__len` may return anything.  Functions return the final table together with the outcome, so that
"an error changes nothing" can be stated.  Simplification: `checktab` and metamethods `__index`/`__newindex` are not modelled.
-/
namespace Verif.TabLib

variable {V : Type}

/-- contents of a table -/
abbrev Tab (V : Type) := Int → V

/-- `lua_seti` -/
def Tab.set (t : Tab V) (i : Int) (v : V) : Tab V := fun k => if k = i then v else t k

/-- the loop of `tinsert`, ltablib.c 92-95 -/
def moveUp : Nat → Tab V → Int → Int → Tab V × Res Unit
  | 0, t, _, _ => (t, .ub)
  | fuel + 1, t, i, pos => if i > pos then moveUp fuel (t.set i (t (i - 1))) (i - 1) pos else (t, .ok ())

/-- `tinsert`, ltablib.c 80-103; `pos` is absent in the two-argument form -/
def tinsert (t : Tab V) (n : Int) (pos : Option Int) (v : V) : Tab V × Res Unit :=
  match sres (n + 1) with
  | .ok e =>
    match pos with
    | none => (t.set e v, .ok ())
    | some p =>
      if 1 ≤ p ∧ p ≤ e then
        match moveUp ((e - p).toNat + 1) t e p with
        | (t, .ok ()) => (t.set p v, .ok ())
        | r => r
      else (t, .err "position out of bounds")
  | _ => (t, .ub)

/-- the loop of `tremove`, ltablib.c 112-115; returns the table and the final `pos` -/
def moveDown : Nat → Tab V → Int → Int → Tab V × Res Int
  | 0, t, _, _ => (t, .ub)
  | fuel + 1, t, pos, size => if pos < size then moveDown fuel (t.set pos (t (pos + 1))) (pos + 1) size else (t, .ok pos)

/-- `tremove`, ltablib.c 106-120; `pos` defaults to the size -/
def tremove (nil : V) (t : Tab V) (size : Int) (pos : Option Int) : Tab V × Res V :=
  let p := pos.getD size
  let go : Tab V × Res V :=
    let res := t p
    match moveDown ((size - p).toNat + 1) t p size with
    | (t, .ok q) => (t.set q nil, .ok res)
    | (t, _) => (t, .ub)
  if p ≠ size then
    if 1 ≤ p then
      match sres (size + 1) with
      | .ok s1 => if p ≤ s1 then go else (t, .err "position out of bounds")
      | _ => (t, .ub)
    else (t, .err "position out of bounds")
  else go

/-- all tables of the program -/
abbrev Heap (V : Type) := Nat → Tab V

/-- store into one table -/
def Heap.set (h : Heap V) (x : Nat) (i : Int) (v : V) : Heap V := fun y => if y = x then (h x).set i v else h y

/-- `for (i = 0; i < n; i++)` copy loop, ltablib.c 144-147 -/
def copyUp (a b : Nat) (f t n : Int) : Nat → Heap V → Int → Heap V × Res Unit
  | 0, h, _ => (h, .ub)
  | fuel + 1, h, i =>
    if i < n then
      match sres (f + i), sres (t + i) with
      | .ok src, .ok dst => copyUp a b f t n fuel (h.set b dst (h a src)) (i + 1)
      | _, _ => (h, .ub)
    else (h, .ok ())

/-- `for (i = n - 1; i >= 0; i--)` copy loop, ltablib.c 150-153 -/
def copyDown (a b : Nat) (f t : Int) : Nat → Heap V → Int → Heap V × Res Unit
  | 0, h, _ => (h, .ub)
  | fuel + 1, h, i =>
    if i ≥ 0 then
      match sres (f + i), sres (t + i) with
      | .ok src, .ok dst => copyDown a b f t fuel (h.set b dst (h a src)) (i - 1)
      | _, _ => (h, .ub)
    else (h, .ok ())

/-- `tmove`, ltablib.c 129-160; `a` is the source, `b` the optional destination (argument 5), `eq` the outcome of `lua_compare` on them -/
def tmove (h : Heap V) (a : Nat) (f e t : Int) (b : Option Nat) (eq : Bool) : Heap V × Res Unit :=
  let tt := b.getD a
  if e ≥ f then
    -- f > 0 || e < LUA_MAXINTEGER + f
    if f > 0 ∨ e < maxI + f then
      match sres (e - f) with
      | .ok d =>
        match sres (d + 1) with
        | .ok n =>
          match sres (maxI - n) with
          | .ok m =>
            match sres (m + 1) with
            | .ok lim =>
              if t ≤ lim then
                if t > e ∨ t ≤ f ∨ (b.isSome ∧ eq = false) then copyUp a tt f t n (n.toNat + 1) h 0
                else copyDown a tt f t (n.toNat + 1) h (n - 1)
              else (h, .err "destination wrap around")
            | _ => (h, .ub)
          | _ => (h, .ub)
        | _ => (h, .ub)
      | _ => (h, .ub)
    else (h, .err "too many elements to move")
  else (h, .ok ())

/-- the loop of `tconcat`, ltablib.c 179-186; `str v` is the string form of a string or number, `none` for other values -/
def concatLoop (str : V → Option (List UInt8)) (t : Tab V) (sep : List UInt8) (last : Int) : Nat → Int → List UInt8 → Res (List UInt8)
  | 0, _, _ => .ub
  | fuel + 1, i, b =>
    if i < last then
      match str (t i) with
      | some s => concatLoop str t sep last fuel (i + 1) (b ++ s ++ sep)
      | none => .err "invalid value in table for 'concat'"
    else if i = last then
      match str (t i) with
      | some s => .ok (b ++ s)
      | none => .err "invalid value in table for 'concat'"
    else .ok b

/-- `tconcat`, ltablib.c 172-188, with its defaulted arguments -/
def tconcat (str : V → Option (List UInt8)) (t : Tab V) (sep : List UInt8) (i last : Int) : Res (List UInt8) :=
  concatLoop str t sep last ((last - i).toNat + 1) i []

/-- the loop of `unpack`, ltablib.c 221-224 -/
def unpackLoop (t : Tab V) (e : Int) : Nat → Int → Res (List V)
  | 0, _ => .ub
  | fuel + 1, i =>
    if i < e then do
      let r ← unpackLoop t e fuel (i + 1)
      return t i :: r
    else .ok [t e]

/-- `unpack`, ltablib.c 211-226; `room` is the number of slots `lua_checkstack` can provide -/
def unpack (room : Nat) (t : Tab V) (i e : Int) : Res (List V) :=
  if i > e then .ok []
  else
    let n := toU ((toU e : Int) - i)
    if 2147483647 ≤ n ∨ room < n + 1 then .err "too many results to unpack"
    else unpackLoop t e ((e - i).toNat + 1) i

/-- loop of `pack`, ltablib.c 202-203: pops the arguments, the last first -/
def packLoop : List V → Nat → Tab V → Tab V
  | [], _, t => t
  | v :: rest, i, t => packLoop rest (i - 1) (t.set i v)

/-- `pack`, ltablib.c 197-208: the new table (array part) and the value of field `n` -/
def pack (nil : V) (args : List V) : Tab V × Nat := (packLoop args.reverse args.length (fun _ => nil), args.length)

end Verif.TabLib
