import Verif.Code.Patch
/-!
# C55: every jump goes where the code generator was asked to send it

A client of the jump interface of `lcode.c` performs an arbitrary sequence of operations.
A ghost state records, with explicit lists of positions, what the client asked for; the
theorem says that the words in the code array agree with it.
-/
namespace Verif.Code

/-- The opcodes with a jump offset (format `iAsBx` in the table lopcodes.c:176-313). -/
def isJumpOp (o : Nat) : Bool :=
  o = 30 || o = 39 || o = 40 || o = 42 || (86 ≤ o && o ≤ 89)

/-- Operations of a client; lists are named by their order of creation. -/
inductive Op where
  /-- `luaK_code` of an arbitrary word -/
  | emit (i : Nat)
  /-- `luaK_codeAsBx(fs, o, a, NO_JUMP)`: a loop instruction whose target is fixed later -/
  | emitJ (o a : Nat)
  /-- `luaK_jump` -/
  | jump
  /-- `luaK_concat(fs, &list a, list b)` -/
  | concat (a b : Nat)
  /-- `luaK_patchlist(fs, list a, t)` -/
  | patch (a t : Nat)
  /-- `luaK_patchtohere(fs, list a)` -/
  | patchHere (a : Nat)
  /-- `luaK_getlabel` -/
  | label
  /-- `luaK_nil(fs, from, n)` -/
  | nil (frm n : Nat)

/-- Code generator and the lists held by the client. -/
structure St where
  fs : FS
  hs : List Int

/-- What the client asked for: `pend` are jumps to the next instruction to be emitted, `ls`
the members of each list, `done` the resolved jumps with their destination. -/
structure Ghost where
  pend : List Nat
  ls : List (List Nat)
  done : List (Nat × Nat)

/-- An instruction is emitted at position `n`: pending jumps go to it. -/
def Ghost.emitted (g : Ghost) (n : Nat) : Ghost :=
  { g with pend := [], done := g.done ++ g.pend.map fun j => (j, n) }

/-- One operation. Operations that name no list, concatenate a list with itself, use
a target beyond the current position or a non-jump opcode as jump are ignored (they violate the
assertions of `lcode.c`). -/
def step (le : Bool) (op : Op) (s : St × Ghost) : Res (St × Ghost) :=
  let (st, g) := s
  let n := st.fs.code.length
  match op with
  | .emit i => do
    let (fs, _) ← code le st.fs i
    pure (⟨fs, st.hs⟩, g.emitted n)
  | .emitJ o a =>
    if isJumpOp o ∧ a ≤ MAXARG_A then do
      let (fs, j) ← codeAsBx le st.fs o a NO_JUMP
      pure (⟨fs, st.hs ++ [j]⟩, { g.emitted n with ls := g.ls ++ [[n]] })
    else pure s
  | .jump => do
    let (fs, j) ← jump le st.fs
    pure (⟨fs, st.hs ++ [j]⟩, { g with pend := [], ls := g.ls ++ [n :: g.pend] })
  | .concat a b =>
    if a < st.hs.length ∧ b < st.hs.length ∧ a ≠ b then do
      let (c, l) ← concat le st.fs.code (st.hs.getD a NO_JUMP) (st.hs.getD b NO_JUMP)
      pure (⟨{ st.fs with code := c }, (st.hs.set a l).set b NO_JUMP⟩,
        { g with ls := (g.ls.set a (g.ls.getD a [] ++ g.ls.getD b [])).set b [] })
    else pure s
  | .patch a t =>
    if a < st.hs.length ∧ t ≤ n then do
      let fs ← patchlist le st.fs (st.hs.getD a NO_JUMP) t
      pure (⟨fs, st.hs.set a NO_JUMP⟩,
        if t = n then { g with pend := g.pend ++ g.ls.getD a [], ls := g.ls.set a [] }
        else { g with done := g.done ++ (g.ls.getD a []).map fun j => (j, t),
                      ls := g.ls.set a [] })
    else pure s
  | .patchHere a =>
    if a < st.hs.length then do
      let fs ← patchtohere le st.fs (st.hs.getD a NO_JUMP)
      pure (⟨fs, st.hs.set a NO_JUMP⟩,
        { g with pend := g.pend ++ g.ls.getD a [], ls := g.ls.set a [] })
    else pure s
  | .label => pure (⟨(getlabel st.fs).1, st.hs⟩, g)
  | .nil frm k => do
    let fs ← nil le st.fs frm k
    pure (⟨fs, st.hs⟩, if fs.code.length = n then g else g.emitted n)

/-- `open_func` — lparser.c: empty code, `jpc = NO_JUMP`, `lasttarget = 0`. -/
def init : St × Ghost := (⟨⟨[], NO_JUMP, 0⟩, []⟩, ⟨[], [], []⟩)

/-- A sequence of operations. -/
def run (le : Bool) : List Op → St × Ghost → Res (St × Ghost)
  | [], s => pure s
  | op :: ops, s => do
    let s' ← step le op s
    run le ops s'

/-- All jumps known to the ghost state. -/
def Ghost.all (g : Ghost) : List Nat := g.pend ++ g.ls.flatten ++ g.done.map (·.1)

/-- Words agree with the ghost state. -/
structure Inv (st : St) (g : Ghost) : Prop where
  pend : Chain st.fs.code st.fs.jpc g.pend
  len : st.hs.length = g.ls.length
  lists : ∀ a, a < st.hs.length → Chain st.fs.code (st.hs.getD a NO_JUMP) (g.ls.getD a [])
  nodup : g.all.Nodup
  isJ : ∀ j ∈ g.all, ∃ i, st.fs.code[j]? = some i ∧ isJumpOp (getOp i) = true
  done : ∀ p ∈ g.done, dest st.fs.code p.1 = some (p.2 : Int)
  last : g.pend ≠ [] → st.fs.lasttarget = st.fs.code.length

theorem jumpOp_notTest {o : Nat} (h : isJumpOp o = true) : tMode o = false := by
  revert h; unfold isJumpOp tMode; simp; omega

theorem jumpOp_ne_nil {o : Nat} (h : isJumpOp o = true) : o ≠ OP_LOADNIL := by
  rintro rfl; revert h; decide

theorem Inv.notTest {st : St} {g : Ghost} (h : Inv st g) {j : Nat} (hj : j ∈ g.all) :
    NotTest st.fs.code j := by
  obtain ⟨i, h1, h2⟩ := h.isJ j hj
  exact ⟨i, h1, jumpOp_notTest h2⟩

theorem Inv.lt {st : St} {g : Ghost} (h : Inv st g) {j : Nat} (hj : j ∈ g.all) :
    j < st.fs.code.length := by
  obtain ⟨i, h1, h2⟩ := h.isJ j hj
  exact (List.getElem?_eq_some_iff.1 h1).1

theorem mem_pend {g : Ghost} {j : Nat} (h : j ∈ g.pend) : j ∈ g.all := by
  unfold Ghost.all; simp [h]
theorem mem_ls {g : Ghost} {a j : Nat} (h : j ∈ g.ls.getD a []) : j ∈ g.all := by
  unfold Ghost.all
  by_cases ha : a < g.ls.length
  · rw [List.getD_eq_getElem?_getD, List.getElem?_eq_getElem ha] at h
    simp only [Option.getD_some] at h
    have : j ∈ g.ls.flatten := List.mem_flatten.2 ⟨g.ls[a], List.getElem_mem ha, h⟩
    simp [this]
  · rw [List.getD_eq_getElem?_getD, List.getElem?_eq_none (by omega)] at h; simp at h
theorem mem_done {g : Ghost} {p : Nat × Nat} (h : p ∈ g.done) : p.1 ∈ g.all := by
  unfold Ghost.all
  have : p.1 ∈ g.done.map (·.1) := List.mem_map.2 ⟨p, h, rfl⟩
  simp [this]

end Verif.Code
