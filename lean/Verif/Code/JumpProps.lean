import Verif.Code.Inv
/-!
# C30, C55, C56: jumps and merged `OP_LOADNIL`
-/
namespace Verif.Code

/-- C55 (partial: without the bound the claim is false, see `long_jump_misses`). For every sequence of at most 32768 operations on the jump interface, on either byte
order: no operation fails, and every jump that the client asked to send to a position
does go there. -/
theorem jumps_resolved_partial (le : Bool) (ops : List Op) (hn : ops.length ≤ 32768) :
    ∃ st g, run le ops init = .ok (st, g) ∧
      ∀ j t, (j, t) ∈ g.done → dest st.fs.code j = some (t : Int) := by
  obtain ⟨st, g, he, hI⟩ := run_inv le ops init_inv (by show 0 + _ ≤ _; omega)
  exact ⟨st, g, he, fun j t h => hI.done (j, t) h⟩

/-- A fixed jump goes to its destination exactly when the offset is from -32768 to 32767, for
any position and code; only the offset of that instruction changes. -/
theorem fixjump_exact (le : Bool) (code : List Nat) (pc : Nat) (d : Int) (hpc : pc < code.length) :
    (-32768 ≤ d - (pc + 1) ∧ d - (pc + 1) ≤ 32767 →
      ∃ code', fixjump le code pc d = .ok code' ∧ dest code' pc = some d ∧
        code'.length = code.length ∧
        (∀ k : Nat, k ≠ pc → code'[k]? = code[k]?) ∧
        code'[pc]?.map getOp = code[pc]?.map getOp ∧ code'[pc]?.map getA = code[pc]?.map getA) ∧
    (d - (pc + 1) < -32768 ∨ 32768 < d - (pc + 1) →
      fixjump le code pc d = .err "control structure too long") := by
  have hi : code[pc]? = some code[pc] := List.getElem?_eq_getElem hpc
  constructor
  · rintro ⟨h1, h2⟩
    refine ⟨_, fixjump_ok le hi (by omega), ?_, by simp, ?_, ?_, ?_⟩
    · unfold dest
      rw [List.getElem?_set_self hpc, Option.map_some, sBx_get le _ h1 h2]
      congr 1; omega
    · intro k hk; rw [List.getElem?_set_ne (Ne.symm hk)]
    · rw [List.getElem?_set_self hpc, hi]; simp [sBx_op]
    · rw [List.getElem?_set_self hpc, hi]; simp [sBx_A]
  · intro h
    exact fixjump_err le hi (by omega)

/-- The offset 32768 passes the check of `fixjump` (`abs(offset) > MAXARG_sBx`) but does not
fit: the jump goes 32768 instructions backwards instead. -/
theorem fixjump_wraps (le : Bool) (code : List Nat) (pc : Nat) (hpc : pc < code.length) :
    ∃ code', fixjump le code pc (pc + 1 + 32768) = .ok code' ∧
      dest code' pc = some ((pc : Int) + 1 - 32768) := by
  have hi : code[pc]? = some code[pc] := List.getElem?_eq_getElem hpc
  refine ⟨_, fixjump_ok le hi (by omega), ?_⟩
  unfold dest
  rw [List.getElem?_set_self hpc, Option.map_some]
  have e : ((pc : Int) + 1 + 32768 - ((pc : Int) + 1)) = 32768 := by omega
  rw [e]
  have : getsBx (setsBx le code[pc] 32768) = -32768 := by
    unfold getsBx setsBx; rw [setBx_eq, getBx_eq]; unfold MAXARG_sBx; omega
  rw [this]; congr 1

theorem run_append (le : Bool) (a b : List Op) (s : St × Ghost) :
    run le (a ++ b) s = (run le a s >>= run le b) := by
  induction a generalizing s with
  | nil => rfl
  | cons op a ih =>
    simp only [List.cons_append, run]
    cases step le op s with
    | ok x => simp only [Res.bind_ok]; exact ih x
    | err m => rfl
    | ub => rfl

theorem run_emits (le : Bool) (i : Nat) (k : Nat) (c : List Nat) (t : Int) (hs : List Int)
    (ls : List (List Nat)) (dn : List (Nat × Nat)) :
    run le (List.replicate k (.emit i)) (⟨⟨c, NO_JUMP, t⟩, hs⟩, ⟨[], ls, dn⟩) =
      .ok (⟨⟨c ++ List.replicate k i, NO_JUMP, t⟩, hs⟩, ⟨[], ls, dn⟩) := by
  induction k generalizing c with
  | zero => simp [run]
  | succ k ih =>
    have hs1 : step le (.emit i) (⟨⟨c, NO_JUMP, t⟩, hs⟩, ⟨[], ls, dn⟩) =
        .ok (⟨⟨c ++ [i], NO_JUMP, t⟩, hs⟩, ⟨[], ls, dn⟩) := by
      unfold step; dsimp only
      unfold code dischargejpc patchlistaux
      rw [if_pos rfl]
      simp only [Res.pure_eq, Res.bind_ok, Ghost.emitted, List.map_nil, List.append_nil]
    rw [List.replicate_succ]
    unfold run
    rw [hs1]; simp only [Res.bind_ok]
    rw [ih]
    simp [List.replicate_succ]

theorem run_jump0 (le : Bool) :
    run le [.jump] init = .ok (⟨⟨[createABx OP_JMP 0 32767], NO_JUMP, 0⟩, [0]⟩, ⟨[], [[0]], []⟩) := by
  cases le <;> rfl

theorem long_jump_aux (le : Bool) (i N : Nat) (hN : N = 32768) :
    ∃ st g, run le ([.jump] ++ List.replicate N (.emit i) ++ [.patchHere 0, .emit i]) init =
        .ok (st, g) ∧
      (0, 32769) ∈ g.done ∧ dest st.fs.code 0 = some (-32767) := by
  rw [run_append, run_append, run_jump0]
  simp only [Res.bind_ok]
  rw [run_emits]
  simp only [Res.bind_ok]
  generalize hw : createABx OP_JMP 0 32767 = w
  have hw' : w = 2147418142 := by rw [← hw]; decide
  generalize hr : List.replicate N i = r
  have hrl : r.length = 32768 := by rw [← hr, List.length_replicate, hN]
  have h1 : step le (.patchHere 0) (⟨⟨[w] ++ r, NO_JUMP, 0⟩, [0]⟩, ⟨[], [[0]], []⟩) =
      .ok (⟨⟨[w] ++ r, 0, ([w] ++ r).length⟩, [NO_JUMP]⟩, ⟨[0], [[]], []⟩) := by
    unfold step; dsimp only
    rw [if_pos (by simp)]
    unfold patchtohere getlabel concat
    dsimp only
    rw [if_neg (by decide), if_pos rfl]
    rfl
  unfold run
  rw [h1]
  simp only [Res.bind_ok]
  unfold run
  have hat : ([w] ++ r)[0]? = some w := rfl
  have hg : getjump ([w] ++ r) ((0 : Nat) : Int) = .ok NO_JUMP := by
    rw [getjump_some hat, hw']; decide
  have hnt : NotTest ([w] ++ r) 0 := ⟨w, hat, by rw [hw']; decide⟩
  have hch : Chain ([w] ++ r) ((0 : Nat) : Int) [0] := ⟨rfl, NO_JUMP, hg, rfl⟩
  have hlen : ([w] ++ r).length = 32769 := by simp [hrl]
  obtain ⟨c', he, hP⟩ := patchlistaux_spec le (([w] ++ r).length : Int) NO_REG (([w] ++ r).length : Int)
    (f := ([w] ++ r).length + 1) hch (by simp) (by simpa using hnt) (by simp)
    (by intro j hj; simp only [List.mem_singleton] at hj; subst hj; rw [hlen]; decide)
    (by intro j hj; simp only [List.mem_singleton] at hj; subst hj; rw [hlen]; decide)
  have h2 : step le (.emit i) (⟨⟨[w] ++ r, 0, ([w] ++ r).length⟩, [NO_JUMP]⟩, ⟨[0], [[]], []⟩) =
      .ok (⟨⟨c' ++ [i], NO_JUMP, ([w] ++ r).length⟩, [NO_JUMP]⟩, ⟨[], [[]], [(0, 32769)]⟩) := by
    unfold step; dsimp only
    unfold code dischargejpc
    dsimp only [FS.pc]
    have he' : patchlistaux le (([w] ++ r).length + 1) ([w] ++ r) 0 (([w] ++ r).length : Int) NO_REG
      (([w] ++ r).length : Int) = .ok c' := he
    rw [he']
    simp only [Res.pure_eq, Res.bind_ok, Ghost.emitted, List.map_cons, List.map_nil,
      List.nil_append, hlen]
  rw [h2]
  simp only [Res.bind_ok]
  refine ⟨_, _, rfl, by simp, ?_⟩
  have hj := hP.jumps 0 (by simp)
  show dest (c' ++ [i]) 0 = _
  unfold dest
  have hc0 : 0 < c'.length := by rw [hP.len, hlen]; omega
  rw [List.getElem?_append_left hc0, hj, hat, hlen, hw']
  simp only [ite_self, Option.map_some]
  congr 1
  cases le <;> decide

/-- The reachable instance: one forward jump over 32768 instructions. The client asked for
destination 32769; no error is raised and the jump goes to position -32767. -/
theorem long_jump_misses (le : Bool) (i : Nat) :
    ∃ st g, run le ([.jump] ++ List.replicate 32768 (.emit i) ++ [.patchHere 0, .emit i]) init =
        .ok (st, g) ∧
      (0, 32769) ∈ g.done ∧ dest st.fs.code 0 = some (-32767) :=
  long_jump_aux le i 32768 rfl

/-- Two lists of jumps are joined: the result threads the members of both, provided no
link is longer than an offset can say. Only the offset of the last member of the
first list changes. -/
theorem concat_correct (le : Bool) (c : List Nat) (l1 l2 : Int) (js1 js2 : List Nat)
    (h1 : Chain c l1 js1) (h2 : Chain c l2 js2) (hnd : (js1 ++ js2).Nodup)
    (hr : ∀ j ∈ js1, ∀ k ∈ js2, -32768 ≤ (k : Int) - ((j : Int) + 1) ∧
      (k : Int) - ((j : Int) + 1) ≤ 32767) :
    ∃ c' l, concat le c l1 l2 = .ok (c', l) ∧ Chain c' l (js1 ++ js2) ∧
      (∀ k : Nat, k ∉ js1 → c'[k]? = c[k]?) ∧
      (∀ k : Nat, c'[k]?.map getOp = c[k]?.map getOp ∧ c'[k]?.map getA = c[k]?.map getA) := by
  obtain ⟨c', l, a, b, d⟩ := concat_chain le h1 h2 hnd hr
  exact ⟨c', l, a, b, d.2⟩

/-- `patchlistaux`: jumps after an `OP_TESTSET` go to `vtarget`, the others to `dtarget`; an
`OP_TESTSET` stores into `reg`, or stores nothing when there is no register or the
value is already there; nothing else changes. -/
theorem patchlist_correct (le : Bool) (c : List Nat) (l : Int) (js : List Nat) (v d : Int)
    (reg : Nat) (hreg : reg ≤ MAXARG_A) (hw : ∀ i ∈ c, i < 2 ^ 32)
    (hc : Chain c l js) (hnd : js.Nodup)
    (hnt : ∀ j ∈ js, ∀ i, c[j]? = some i → tMode (getOp i) = false)
    (hv : ∀ j ∈ js, -32768 ≤ v - ((j : Int) + 1) ∧ v - ((j : Int) + 1) ≤ 32767)
    (hd : ∀ j ∈ js, -32768 ≤ d - ((j : Int) + 1) ∧ d - ((j : Int) + 1) ≤ 32767) :
    ∃ c', patchlistaux le (c.length + 1) c l v reg d = .ok c' ∧
      (∀ j ∈ js, dest c' j = some (if valued c j then v else d)) ∧
      (∀ k : Nat, k ∉ js → k + 1 ∈ js → valued c (k + 1) →
        ∃ i i', c[k]? = some i ∧ c'[k]? = some i' ∧
          (reg ≠ NO_REG ∧ reg ≠ getB i →
            getOp i' = OP_TESTSET ∧ getA i' = reg ∧ getB i' = getB i ∧ getC i' = getC i) ∧
          (reg = NO_REG ∨ reg = getB i → getB i ≤ MAXARG_A →
            getOp i' = OP_TEST ∧ getA i' = getB i ∧ getC i' = getC i)) ∧
      (∀ k : Nat, k ∉ js → ¬ (k + 1 ∈ js ∧ valued c (k + 1)) → c'[k]? = c[k]?) := by
  have hnt' : ∀ j ∈ js, NotTest c j := fun j hj => by
    have := chain_lt hc j hj
    exact ⟨c[j], List.getElem?_eq_getElem this, hnt j hj _ (List.getElem?_eq_getElem this)⟩
  obtain ⟨c', he, hP⟩ := patchlistaux_spec le v reg d (f := c.length + 1) hc hnd hnt'
    (by have := nodup_len hnd (chain_lt hc); omega)
    (fun j hj => by have := hv j hj; omega) (fun j hj => by have := hd j hj; omega)
  refine ⟨c', he, ?_, ?_, hP.rest⟩
  · intro j hj
    have hlt := chain_lt hc j hj
    unfold dest
    rw [hP.jumps j hj, List.getElem?_eq_getElem hlt]
    simp only [Option.map_some]
    have : getsBx (setsBx le c[j] ((if valued c j then v else d) - ((j : Int) + 1))) =
        (if valued c j then v else d) - ((j : Int) + 1) := by
      split
      · exact sBx_get le _ (hv j hj).1 (hv j hj).2
      · exact sBx_get le _ (hd j hj).1 (hd j hj).2
    rw [this]; congr 1; omega
  · intro k hk1 hk2 hk3
    have h2 := hk3.2
    simp only [Nat.add_sub_cancel] at h2
    obtain ⟨i, hi, ho⟩ := Option.map_eq_some_iff.1 h2
    have hc' := hP.ctl k hk1 hk2 hk3
    rw [hi, Option.map_some] at hc'
    have hi32 : i < 2 ^ 32 := hw i (List.mem_of_getElem? hi)
    have hs := (set_get le i reg hi32).2.1 hreg
    refine ⟨i, _, hi, hc', ?_, ?_⟩
    · intro hcnd
      unfold patchReg
      rw [if_pos hcnd]
      exact ⟨by rw [hs.2.1]; exact ho, hs.1, hs.2.2.1, hs.2.2.2.1⟩
    · intro hcnd hB
      unfold patchReg
      rw [if_neg (by rintro ⟨a, b⟩; exact hcnd.elim a b)]
      have hC : getC i ≤ MAXARG_C := by rw [getC_eq]; unfold MAXARG_C; omega
      have := createABC_get OP_TEST (getB i) 0 (getC i) (by decide) hB (by decide) hC
      exact ⟨this.1, this.2.1, this.2.2.2.1⟩

/-- `OP_LOADNIL` — lvm.c:1431-1437, on a register file: registers `A`, ..., `A + B` become
nil (`none`). -/
def execNil {V : Type} (i : Nat) (r : Nat → Option V) : Nat → Option V :=
  fun k => if getA i ≤ k ∧ k ≤ getA i + getB i then none else r k

/-- C56. `luaK_nil(from, n)` appends, or changes the previous `OP_LOADNIL` into, code whose
effect is that of the code before followed by setting exactly the registers `from`, ...,
`from + n - 1` to nil. It only changes the previous instruction when no jump
targets the position after it. -/
theorem nil_correct {V : Type} (le : Bool) (fs : FS) (frm n : Nat) (h1 : 1 ≤ n)
    (h2 : frm + n ≤ 125) (hw : ∀ i ∈ fs.code, i < 2 ^ 32)
    (hp : ∀ i ∈ fs.code, getOp i = OP_LOADNIL → getA i + getB i ≤ 124) (hj : fs.jpc = NO_JUMP) :
    ∃ fs' p, nil le fs frm n = .ok fs' ∧ fs'.jpc = NO_JUMP ∧ getOp p = OP_LOADNIL ∧
      p < 2 ^ 32 ∧ getA p + getB p ≤ 124 ∧
      ((fs'.code = fs.code ++ [p] ∧
          ∀ (r : Nat → Option V), execNil p r =
            fun k => if frm ≤ k ∧ k < frm + n then none else r k) ∨
       (fs.lasttarget < fs.code.length ∧ ∃ pre q, fs.code = pre ++ [q] ∧ getOp q = OP_LOADNIL ∧
          fs'.code = pre ++ [p] ∧
          ∀ (r : Nat → Option V), execNil p r =
            fun k => if frm ≤ k ∧ k < frm + n then none else execNil q r k)) := by
  have hnone : nilMerge le fs frm n = none →
      ∃ fs' p, nil le fs frm n = .ok fs' ∧ fs'.jpc = NO_JUMP ∧ getOp p = OP_LOADNIL ∧
      p < 2 ^ 32 ∧ getA p + getB p ≤ 124 ∧
      ((fs'.code = fs.code ++ [p] ∧
          ∀ (r : Nat → Option V), execNil p r =
            fun k => if frm ≤ k ∧ k < frm + n then none else r k) ∨
       (fs.lasttarget < fs.code.length ∧ ∃ pre q, fs.code = pre ++ [q] ∧ getOp q = OP_LOADNIL ∧
          fs'.code = pre ++ [p] ∧
          ∀ (r : Nat → Option V), execNil p r =
            fun k => if frm ≤ k ∧ k < frm + n then none else execNil q r k)) := by
    intro hm
    have hg := createABC_get OP_LOADNIL frm (n - 1) 0 (by decide) (by unfold MAXARG_A; omega)
      (by unfold MAXARG_B; omega) (by decide)
    refine ⟨⟨fs.code ++ [createABC OP_LOADNIL frm (n - 1) 0], NO_JUMP, fs.lasttarget⟩,
      createABC OP_LOADNIL frm (n - 1) 0, ?_, rfl, hg.1, hg.2.2.2.2, ?_, .inl ⟨rfl, ?_⟩⟩
    · unfold nil; rw [hm]; dsimp only
      unfold codeABC code dischargejpc patchlistaux
      rw [if_pos hj]
      simp only [Res.pure_eq, Res.bind_ok]
    · rw [hg.2.1, hg.2.2.1]; omega
    · intro r; funext k; unfold execNil
      rw [hg.2.1, hg.2.2.1]
      by_cases hk : frm ≤ k ∧ k < frm + n
      · rw [if_pos hk, if_pos (by omega)]
      · rw [if_neg hk, if_neg (by omega)]
  cases hm : nilMerge le fs frm n with
  | none => exact hnone hm
  | some c =>
    obtain ⟨hgt, pre, q, p', hq1, hq2, hop⟩ := nilMerge_some hm
    have hq32 : q < 2 ^ 32 := hw q (by rw [hq1]; simp)
    have hqp := hp q (by rw [hq1]; simp) hop
    unfold nilMerge at hm
    rw [if_pos hgt] at hm
    have hl : fs.code.getLast? = some q := by rw [hq1]; simp
    rw [hl] at hm
    dsimp only at hm
    rw [if_pos hop] at hm
    split at hm
    case isFalse => simp at hm
    case isTrue hcond =>
      injection hm with hm
      rw [hq2, hq1, List.dropLast_concat] at hm
      have hp' : p' = setB le (setA le q (if getA q < frm then getA q else frm))
          ((if getA q + getB q > frm + n - 1 then getA q + getB q else frm + n - 1) -
            (if getA q < frm then getA q else frm)) := by
        have := List.append_cancel_left hm
        injection this with this
        exact this.symm
      generalize hf' : (if getA q < frm then getA q else frm) = f' at hp'
      generalize hl' : (if getA q + getB q > frm + n - 1 then getA q + getB q else frm + n - 1) = l'
        at hp'
      have hfb : f' ≤ 124 := by rw [← hf']; split <;> omega
      have hlb : l' ≤ 124 := by rw [← hl']; split <;> omega
      have s1 := (set_get le q f' hq32).2.1 (by unfold MAXARG_A; omega)
      have s2 := (set_get le (setA le q f') (l' - f') s1.2.2.2.2.2).2.2.1 (by unfold MAXARG_B; omega)
      rw [← hp'] at s2
      have hA : getA p' = f' := by rw [s2.2.2.1, s1.1]
      have hB : getB p' = l' - f' := s2.1
      have hfl : f' ≤ l' := by rw [← hf', ← hl']; split <;> split <;> omega
      refine ⟨{ fs with code := c }, p', ?_, hj, ?_, s2.2.2.2.2, ?_, .inr ⟨?_, pre, q, hq1, hop, hq2, ?_⟩⟩
      · unfold nil nilMerge
        rw [if_pos hgt, hl]
        dsimp only
        rw [if_pos hop, if_pos hcond, hf', hl', ← hp', hq2, hq1, List.dropLast_concat]
        rfl
      · rw [s2.2.1, s1.2.1]; exact hop
      · rw [hA, hB]; omega
      · unfold FS.pc at hgt; omega
      · intro r; funext k
        unfold execNil
        rw [hA, hB]
        by_cases hk : frm ≤ k ∧ k < frm + n
        · rw [if_pos hk, if_pos]
          rw [← hf', ← hl']; split <;> split <;> omega
        · rw [if_neg hk]
          by_cases hk2 : getA q ≤ k ∧ k ≤ getA q + getB q
          · rw [if_pos hk2, if_pos]
            rw [← hf', ← hl']; split <;> split <;> omega
          · rw [if_neg hk2, if_neg]
            rw [← hf', ← hl']; split <;> split <;> omega

/-! ### Non-vacuity -/

/-- The resolved jumps of a run and their destinations in the code. -/
def outcome (r : Res (St × Ghost)) : List (Nat × Nat) × List (Option Int) := match r with
  | .ok (st, g) => (g.done, g.done.map fun p => dest st.fs.code p.1)
  | _ => ([], [])

-- a loop: label 0; jump out; body; jump back; exit here; end
example : outcome (run true [.emit 13, .jump, .emit 14, .jump, .patch 1 0, .patchHere 0, .emit 38]
    init) = ([(3, 0), (1, 4)], [some 0, some 4]) := by decide +kernel
-- jumps to a jump are sent to its destination
example : outcome (run false [.jump, .patchHere 0, .jump, .emit 1, .emit 2, .patchHere 1, .emit 3]
    init) = ([(1, 4), (0, 4)], [some 4, some 4]) := by decide +kernel
-- `local a, b; local c` makes one instruction
example : nil true ⟨[createABC 4 2 1 0], -1, 0⟩ 4 1 = .ok ⟨[createABC 4 2 2 0], -1, 0⟩ := by
  decide +kernel
-- but not when the position is a jump target
example : nil true ⟨[createABC 4 2 1 0], -1, 1⟩ 4 1 =
    .ok ⟨[createABC 4 2 1 0, createABC 4 4 0 0], -1, 1⟩ := by
  decide +kernel
-- `x = a and b`: TESTSET; JMP with list
example : patchlistaux true 3 [createABC 35 127 4 0, createABx 30 0 32767] 1 9 6 7 =
    .ok [createABC 35 6 4 0, createABx 30 0 (32768 + 7)] := by decide +kernel

end Verif.Code
