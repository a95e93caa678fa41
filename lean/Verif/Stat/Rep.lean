import Verif.Stat.Model
import Verif.ExpCode.Props
/-!
The code generator for expressions does not look at the code before the expression: replacing that code (`pre`, with
jumps `J` that are to go to the place where the expression begins) commutes with it.
-/
namespace Verif.Stat
open Verif.ExpCode
open Verif.Fold (FOps BOp UOp)

variable (pre : List Instr) (J : List Nat)

/-- other code before the code of the expression, to whose beginning jumps have been patched -/
def phiC (c : List Instr) : List Instr :=
  patchlistaux pre J pre.length none pre.length ++ c.drop pre.length

def phi (s : FS) : FS := { s with code := phiC pre J s.code }

def rep (s : FS) : FS :=
  if s.code.length = pre.length then { s with code := pre, jpc := J } else phi pre J s

def isRet : Instr → Bool
  | .ret .. | .retcall .. => true
  | _ => false

/-- the code of an expression does not return -/
def NR (c : List Instr) : Prop := ∀ x ∈ c, isRet x = false

/-- a state in the middle of an expression whose code begins at `m` -/
structure Bar (m : Nat) (s : FS) : Prop where
  le : m ≤ s.code.length
  lt : m ≤ s.lasttarget
  jpc : ∀ j ∈ s.jpc, m < j ∧ j < s.code.length
  nr : NR s.code

def PosL (m : Nat) (s : FS) (l : List Nat) : Prop := ∀ j ∈ l, m < j ∧ j < s.code.length

def PosK (m : Nat) (s : FS) : Kind → Prop
  | .jmp j => m < j ∧ j < s.code.length
  | .reloc pc => m ≤ pc ∧ pc < s.code.length
  | _ => True

structure Pos (m : Nat) (s : FS) (d : D) : Prop where
  k : PosK m s d.kind
  t : PosL m s d.t
  f : PosL m s d.f

variable {pre J}

/-! ### code -/

theorem NR.append {c d : List Instr} (h : NR c) (h' : NR d) : NR (c ++ d) :=
  fun x hx => (List.mem_append.1 hx).elim (h x) (h' x)

theorem NR.single {i : Instr} (h : isRet i = false) : NR [i] := by
  intro x hx
  rw [List.mem_singleton] at hx
  rw [hx]; exact h

theorem NR.set {c : List Instr} (h : NR c) (p : Nat) {i : Instr} (hi : isRet i = false) : NR (c.set p i) := by
  intro x hx
  rcases List.mem_or_eq_of_mem_set hx with hx | rfl
  · exact h x hx
  · exact hi

theorem NR.modify {c : List Instr} (h : NR c) (p : Nat) {f : Instr → Instr} (hf : ∀ i, isRet i = false → isRet (f i) = false) :
    NR (c.modify p f) := by
  intro x hx
  obtain ⟨k, hk⟩ := List.mem_iff_getElem?.1 hx
  rw [List.getElem?_modify] at hk
  cases hc : c[k]? with
  | none => rw [hc] at hk; cases hk
  | some y =>
    rw [hc] at hk
    have hy := h y (List.mem_iff_getElem?.2 ⟨k, hc⟩)
    by_cases e : p = k
    · simp [e] at hk; rw [← hk]; exact hf y hy
    · simp [e] at hk; rw [← hk]; exact hy

theorem NR.dropLast {c : List Instr} (h : NR c) : NR c.dropLast := fun x hx => h x (List.dropLast_subset c hx)

theorem NR.patchtestreg {c : List Instr} (h : NR c) (j : Nat) (reg : Option Nat) : NR (patchtestreg c j reg).1 := by
  unfold ExpCode.patchtestreg
  split
  · exact h
  · split
    · refine h.set _ ?_
      split
      · split <;> rfl
      · rfl
    · exact h

theorem NR.patchlistaux {l : List Nat} {vt : Nat} {reg : Option Nat} {dt : Nat} : ∀ {c : List Instr}, NR c →
    NR (patchlistaux c l vt reg dt) := by
  unfold ExpCode.patchlistaux
  induction l with
  | nil => exact id
  | cons j l ih =>
    intro c h
    rw [List.foldl_cons]
    refine ih ?_
    unfold patch1
    exact (h.patchtestreg j reg).set _ rfl

theorem NR.remove {l : List Nat} : ∀ {c : List Instr}, NR c → NR (l.foldl (fun c j => (ExpCode.patchtestreg c j none).1) c) := by
  induction l with
  | nil => exact id
  | cons j l ih =>
    intro c h
    rw [List.foldl_cons]
    exact ih (h.patchtestreg j none)

theorem phiC_length {c : List Instr} (h : pre.length ≤ c.length) : (phiC pre J c).length = c.length := by
  unfold phiC
  rw [List.length_append, patchlistaux_length, List.length_drop]; omega

theorem phiC_get {c : List Instr} {i : Nat} (h : pre.length ≤ i) : (phiC pre J c)[i]? = c[i]? := by
  unfold phiC
  rw [List.getElem?_append_right (by rw [patchlistaux_length]; exact h), patchlistaux_length, List.getElem?_drop]
  congr 1; omega

theorem phiC_set {c : List Instr} {i : Nat} (h : pre.length ≤ i) (x : Instr) :
    (phiC pre J c).set i x = phiC pre J (c.set i x) := by
  unfold phiC
  rw [List.set_append_right _ _ (by rw [patchlistaux_length]; exact h), patchlistaux_length, List.drop_set,
    if_neg (by omega)]

theorem phiC_modify {c : List Instr} {i : Nat} (h : pre.length ≤ i) (f : Instr → Instr) :
    (phiC pre J c).modify i f = phiC pre J (c.modify i f) := by
  apply List.ext_getElem?
  intro k
  rw [List.getElem?_modify]
  rcases Nat.lt_or_ge k pre.length with hk | hk
  · have e1 : ∀ c : List Instr, (phiC pre J c)[k]? = (patchlistaux pre J pre.length none pre.length)[k]? := by
      intro c
      unfold phiC
      rw [List.getElem?_append_left (by rw [patchlistaux_length]; exact hk)]
    rw [e1, e1]
    have hne : ¬ i = k := by omega
    simp [hne]
  · rw [phiC_get hk, phiC_get hk, List.getElem?_modify]

theorem phiC_append {c : List Instr} (h : pre.length ≤ c.length) (d : List Instr) :
    phiC pre J c ++ d = phiC pre J (c ++ d) := by
  unfold phiC
  rw [List.drop_append_of_le_length h, List.append_assoc]

theorem phiC_dropLast {c : List Instr} (h : pre.length < c.length) :
    (phiC pre J c).dropLast = phiC pre J c.dropLast := by
  unfold phiC
  rw [List.dropLast_append_of_ne_nil (by
    intro e
    have := congrArg List.length e
    rw [List.length_drop, List.length_nil] at this
    omega)]
  congr 1
  rw [List.dropLast_eq_take, List.dropLast_eq_take, List.length_drop, List.drop_take]
  congr 1; omega

theorem phiC_getLast {c : List Instr} (h : pre.length < c.length) : (phiC pre J c).getLast? = c.getLast? := by
  rw [List.getLast?_eq_getElem?, List.getLast?_eq_getElem?, phiC_length (by omega), phiC_get (by omega)]

theorem phiC_patchtestreg {c : List Instr} {j : Nat} (h : pre.length < j) (reg : Option Nat) :
    patchtestreg (phiC pre J c) j reg = (phiC pre J (patchtestreg c j reg).1, (patchtestreg c j reg).2) := by
  cases j with
  | zero => omega
  | succ p =>
    unfold patchtestreg
    dsimp only
    rw [phiC_get (by omega)]
    split
    · rw [phiC_set (by omega)]
    · rfl

theorem phiC_patch1 {c : List Instr} {j : Nat} (h : pre.length < j) (vt : Nat) (reg : Option Nat) (dt : Nat) :
    patch1 vt reg dt (phiC pre J c) j = phiC pre J (patch1 vt reg dt c j) := by
  unfold patch1
  rw [phiC_patchtestreg h]
  dsimp only
  rw [phiC_set (by omega)]

theorem phiC_patchlistaux {l : List Nat} (h : ∀ j ∈ l, pre.length < j) (vt : Nat) (reg : Option Nat) (dt : Nat) :
    ∀ c : List Instr, patchlistaux (phiC pre J c) l vt reg dt = phiC pre J (patchlistaux c l vt reg dt) := by
  induction l with
  | nil => intro c; rfl
  | cons j l ih =>
    intro c
    show patchlistaux (patch1 vt reg dt (phiC pre J c) j) l vt reg dt = _
    rw [phiC_patch1 (h j (List.mem_cons_self ..)), ih (fun j hj => h j (List.mem_cons_of_mem _ hj))]
    rfl

theorem phiC_remove {l : List Nat} (h : ∀ j ∈ l, pre.length < j) :
    ∀ c : List Instr, l.foldl (fun c j => (patchtestreg c j none).1) (phiC pre J c)
      = phiC pre J (l.foldl (fun c j => (patchtestreg c j none).1) c) := by
  induction l with
  | nil => intro c; rfl
  | cons j l ih =>
    intro c
    show l.foldl _ (patchtestreg (phiC pre J c) j none).1 = _
    rw [phiC_patchtestreg (h j (List.mem_cons_self ..)), ih (fun j hj => h j (List.mem_cons_of_mem _ hj))]
    rfl

theorem phiC_needValue {l : List Nat} (h : ∀ j ∈ l, pre.length < j) (c : List Instr) :
    needValue (phiC pre J c) l = needValue c l := by
  unfold needValue
  induction l with
  | nil => rfl
  | cons j l ih =>
    rw [List.any_cons, List.any_cons, ih (fun j hj => h j (List.mem_cons_of_mem _ hj))]
    congr 1
    have := h j (List.mem_cons_self ..)
    cases j with
    | zero => omega
    | succ p => dsimp only; rw [phiC_get (by omega)]

theorem patchtestreg_length (c : List Instr) (j : Nat) (reg : Option Nat) :
    (patchtestreg c j reg).1.length = c.length := by
  unfold patchtestreg
  cases j with
  | zero => rfl
  | succ p => dsimp only; split <;> simp

theorem remove_length : ∀ (l : List Nat) (c : List Instr),
    (l.foldl (fun c j => (patchtestreg c j none).1) c).length = c.length := by
  intro l
  induction l with
  | nil => intro c; rfl
  | cons j l ih => intro c; rw [List.foldl_cons, ih, patchtestreg_length]

/-! ### states -/

theorem rep_gt {s : FS} (h : pre.length < s.code.length) : rep pre J s = phi pre J s := by
  unfold rep; rw [if_neg (by omega)]

theorem rep_eq {s : FS} (h : s.code.length = pre.length) : rep pre J s = { s with code := pre, jpc := J } := by
  unfold rep; rw [if_pos h]

@[simp] theorem rep_nactvar (s : FS) : (rep pre J s).nactvar = s.nactvar := by unfold rep; split <;> rfl
@[simp] theorem rep_freereg (s : FS) : (rep pre J s).freereg = s.freereg := by unfold rep; split <;> rfl
@[simp] theorem rep_k (s : FS) : (rep pre J s).k = s.k := by unfold rep; split <;> rfl
@[simp] theorem rep_lasttarget (s : FS) : (rep pre J s).lasttarget = s.lasttarget := by unfold rep; split <;> rfl

theorem rep_length {s : FS} (h : pre.length ≤ s.code.length) : (rep pre J s).code.length = s.code.length := by
  unfold rep
  split
  · rename_i h; exact h.symm
  · exact phiC_length h

theorem rep_pc {s : FS} (h : pre.length ≤ s.code.length) : (rep pre J s).pc = s.pc := rep_length h

theorem rep_setfree (s : FS) (n : Nat) :
    rep pre J { s with freereg := n } = { rep pre J s with freereg := n } := by
  unfold rep; dsimp only; split <;> rfl

theorem rep_setk (s : FS) (k : List Val) : rep pre J { s with k := k } = { rep pre J s with k := k } := by
  unfold rep; dsimp only; split <;> rfl

theorem rep_setlast (s : FS) (n : Nat) :
    rep pre J { s with lasttarget := n } = { rep pre J s with lasttarget := n } := by
  unfold rep; dsimp only; split <;> rfl

/-- the state differs in other fields -/
theorem Bar.same {m : Nat} {s s' : FS} (h : Bar m s) (h1 : s'.code = s.code) (h2 : s'.jpc = s.jpc)
    (h3 : s'.lasttarget = s.lasttarget) : Bar m s' :=
  ⟨by rw [h1]; exact h.le, by rw [h3]; exact h.lt, by rw [h1, h2]; exact h.jpc, by rw [h1]; exact h.nr⟩

theorem PosL.mono {m : Nat} {s s' : FS} {l : List Nat} (h : PosL m s l) (h1 : s.code.length ≤ s'.code.length) :
    PosL m s' l := fun j hj => ⟨(h j hj).1, Nat.lt_of_lt_of_le (h j hj).2 h1⟩

theorem PosK.mono {m : Nat} {s s' : FS} {k : Kind} (h : PosK m s k) (h1 : s.code.length ≤ s'.code.length) :
    PosK m s' k := by
  cases k <;> first | trivial | exact ⟨h.1, Nat.lt_of_lt_of_le h.2 h1⟩

theorem Pos.mono {m : Nat} {s s' : FS} {d : D} (h : Pos m s d) (h1 : s.code.length ≤ s'.code.length) : Pos m s' d :=
  ⟨h.k.mono h1, h.t.mono h1, h.f.mono h1⟩

theorem PosL.nil {m : Nat} {s : FS} : PosL m s [] := fun _ h => nomatch h

theorem PosL.append {m : Nat} {s : FS} {l l' : List Nat} (h : PosL m s l) (h' : PosL m s l') : PosL m s (l ++ l') :=
  fun j hj => (List.mem_append.1 hj).elim (h j) (h' j)

theorem PosL.gt {m : Nat} {s : FS} {l : List Nat} (h : PosL m s l) (hl : l ≠ []) : m < s.code.length := by
  cases l with
  | nil => exact absurd rfl hl
  | cons a l => have := h a (List.mem_cons_self ..); omega

theorem PosL.empty {m : Nat} {s : FS} {l : List Nat} (h : PosL m s l) (hl : s.code.length = m) : l = [] := by
  cases l with
  | nil => rfl
  | cons a l => have := h a (List.mem_cons_self ..); omega

theorem Bar.jpcL {m : Nat} {s : FS} (h : Bar m s) : PosL m s s.jpc := h.jpc

/-! ### instructions and jumps -/

theorem emit_phi {s : FS} (h : pre.length ≤ s.code.length) (hj : ∀ j ∈ s.jpc, pre.length < j) (i : Instr) :
    emit (phi pre J s) i = phi pre J (emit s i) := by
  unfold emit dischargejpc phi FS.pc
  dsimp only
  rw [phiC_length h, phiC_patchlistaux hj, phiC_append (by rw [patchlistaux_length]; exact h)]

theorem emit_length (s : FS) (i : Instr) : (emit s i).code.length = s.code.length + 1 := by
  unfold emit dischargejpc
  dsimp only
  rw [List.length_append, patchlistaux_length]; rfl

theorem emit_rep {s : FS} (h : Bar pre.length s) (i : Instr) : emit (rep pre J s) i = rep pre J (emit s i) := by
  rw [rep_gt (s := emit s i) (by rw [emit_length]; have := h.le; omega)]
  rcases Nat.eq_or_lt_of_le h.le with e | e
  · rw [rep_eq e.symm]
    have hj := h.jpcL.empty e.symm
    unfold emit dischargejpc phi phiC FS.pc
    dsimp only
    rw [hj]
    rw [show patchlistaux s.code [] s.code.length none s.code.length = s.code from rfl]
    rw [List.drop_append_of_le_length (by omega), List.drop_eq_nil_of_le (by omega), List.nil_append]
  · rw [rep_gt e, emit_phi h.le (fun j hj => (h.jpc j hj).1)]

theorem emit_bar {m : Nat} {s : FS} (h : Bar m s) (i : Instr) (hi : isRet i = false := by rfl) : Bar m (emit s i) :=
  ⟨by rw [emit_length]; have := h.le; omega, h.lt, (fun _ hj => nomatch hj), h.nr.patchlistaux.append (NR.single hi)⟩

theorem jump_phi {s : FS} (h : pre.length ≤ s.code.length) :
    jump (phi pre J s) = (phi pre J (jump s).1, (jump s).2) := by
  unfold jump phi FS.pc
  dsimp only
  rw [phiC_length h, phiC_append h]

theorem jump_length (s : FS) : (jump s).1.code.length = s.code.length + 1 := by
  unfold jump; dsimp only; rw [List.length_append]; rfl

theorem jump_rep {s : FS} (h : pre.length < s.code.length) :
    jump (rep pre J s) = (rep pre J (jump s).1, (jump s).2) := by
  rw [rep_gt h, jump_phi (Nat.le_of_lt h), rep_gt (by rw [jump_length]; omega)]

theorem jump_bar {m : Nat} {s : FS} (h : Bar m s) (hl : m < s.code.length) :
    Bar m (jump s).1 ∧ PosL m (jump s).1 (jump s).2 := by
  refine ⟨⟨by rw [jump_length]; have := h.le; omega, h.lt, (fun _ hj => nomatch hj), h.nr.append (NR.single rfl)⟩, ?_⟩
  intro j hj
  rw [jump_length]
  unfold jump FS.pc at hj
  rcases List.mem_cons.1 hj with rfl | hj
  · exact ⟨hl, by omega⟩
  · have := h.jpc j hj; omega

theorem condjump_rep {s : FS} (h : Bar pre.length s) (i : Instr) :
    condjump (rep pre J s) i = (rep pre J (condjump s i).1, (condjump s i).2) := by
  unfold condjump
  rw [emit_rep h, jump_rep (by rw [emit_length]; have := h.le; omega)]

theorem condjump_bar {m : Nat} {s : FS} (h : Bar m s) (i : Instr) (hi : isRet i = false := by rfl) :
    Bar m (condjump s i).1 ∧ PosL m (condjump s i).1 (condjump s i).2 :=
  jump_bar (emit_bar h i hi) (by rw [emit_length]; have := h.le; omega)

theorem condjump_length (s : FS) (i : Instr) : (condjump s i).1.code.length = s.code.length + 2 := by
  unfold condjump; rw [jump_length, emit_length]

theorem getlabel_rep {s : FS} (h : pre.length ≤ s.code.length) : getlabel (rep pre J s) = rep pre J (getlabel s) := by
  have := rep_pc (J := J) h
  show { rep pre J s with lasttarget := (rep pre J s).pc } = _
  rw [this]
  exact (rep_setlast ..).symm

theorem getlabel_bar {m : Nat} {s : FS} (h : Bar m s) : Bar m (getlabel s) := ⟨h.le, h.le, h.jpc, h.nr⟩

theorem patchtohere_rep {s : FS} (h : Bar pre.length s) {l : List Nat} (hl : PosL pre.length s l) :
    patchtohere (rep pre J s) l = rep pre J (patchtohere s l) := by
  rcases Nat.eq_or_lt_of_le h.le with e | e
  · have e1 := hl.empty e.symm
    have e2 := h.jpcL.empty e.symm
    subst e1
    unfold patchtohere
    dsimp only
    rw [getlabel_rep h.le, rep_eq (s := getlabel s) e.symm, rep_eq (s := { getlabel s with jpc := _ }) e.symm,
      List.append_nil]
  · unfold patchtohere
    dsimp only
    rw [getlabel_rep h.le, rep_gt (s := getlabel s) e, rep_gt (s := { getlabel s with jpc := _ }) e]
    rfl

theorem patchtohere_bar {m : Nat} {s : FS} (h : Bar m s) {l : List Nat} (hl : PosL m s l) :
    Bar m (patchtohere s l) := ⟨h.le, h.le, h.jpcL.append hl, h.nr⟩

/-- changes of the code that keep its length and do nothing on an empty piece -/
theorem rep_code {s : FS} (f : List Instr → List Instr) (h : pre.length ≤ s.code.length)
    (h1 : pre.length < s.code.length → f (phiC pre J s.code) = phiC pre J (f s.code))
    (h2 : (f s.code).length = s.code.length) (h3 : s.code.length = pre.length → f pre = pre) :
    { rep pre J s with code := f (rep pre J s).code } = rep pre J { s with code := f s.code } := by
  rcases Nat.eq_or_lt_of_le h with e | e
  · rw [rep_eq e.symm, rep_eq (s := { s with code := f s.code }) (by show (f s.code).length = _; omega)]
    dsimp only
    rw [h3 e.symm]
  · rw [rep_gt e, rep_gt (s := { s with code := f s.code }) (by show _ < (f s.code).length; omega)]
    unfold phi
    dsimp only
    rw [h1 e]

theorem patchlistaux_rep {s : FS} (h : Bar pre.length s) {l : List Nat} (hl : PosL pre.length s l) (vt : Nat)
    (reg : Option Nat) (dt : Nat) :
    { rep pre J s with code := patchlistaux (rep pre J s).code l vt reg dt }
      = rep pre J { s with code := patchlistaux s.code l vt reg dt } := by
  refine rep_code (fun c => patchlistaux c l vt reg dt) h.le (fun _ => phiC_patchlistaux (fun j hj => (hl j hj).1) ..)
    (patchlistaux_length ..) (fun e => ?_)
  rw [hl.empty e]; rfl

theorem removevalues_rep {s : FS} (h : Bar pre.length s) {l : List Nat} (hl : PosL pre.length s l) :
    removevalues (rep pre J s) l = rep pre J (removevalues s l) := by
  refine rep_code (fun c => l.foldl (fun c j => (patchtestreg c j none).1) c) h.le
    (fun _ => phiC_remove (fun j hj => (hl j hj).1) _) (remove_length ..) (fun e => ?_)
  rw [hl.empty e]; rfl

theorem removevalues_length (s : FS) (l : List Nat) : (removevalues s l).code.length = s.code.length :=
  remove_length ..

theorem Bar.setCode {m : Nat} {s : FS} (h : Bar m s) {c : List Instr} (hc : c.length = s.code.length) (hn : NR c) :
    Bar m { s with code := c } :=
  ⟨by show m ≤ c.length; rw [hc]; exact h.le, h.lt, fun j hj => by
    have := h.jpc j hj
    show m < j ∧ j < c.length
    rw [hc]; exact this, hn⟩

theorem needValue_rep {s : FS} (h : Bar pre.length s) {l : List Nat} (hl : PosL pre.length s l) :
    needValue (rep pre J s).code l = needValue s.code l := by
  rcases Nat.eq_or_lt_of_le h.le with e | e
  · rw [hl.empty e.symm]; rfl
  · rw [rep_gt e]; exact phiC_needValue (fun j hj => (hl j hj).1) _

theorem modify_rep {s : FS} (h : Bar pre.length s) {p : Nat} (hp : pre.length ≤ p) (f : Instr → Instr) :
    { rep pre J s with code := (rep pre J s).code.modify p f } = rep pre J { s with code := s.code.modify p f } := by
  refine rep_code (fun c => c.modify p f) h.le (fun _ => phiC_modify hp f) (List.length_modify ..) (fun e => ?_)
  exact List.modify_eq_self (by omega)

theorem get_rep {s : FS} (h : Bar pre.length s) {p : Nat} (hp : pre.length ≤ p) : (rep pre J s).code[p]? = s.code[p]? := by
  rcases Nat.eq_or_lt_of_le h.le with e | e
  · rw [rep_eq e.symm, List.getElem?_eq_none (l := s.code) (by omega)]
    exact List.getElem?_eq_none (by show pre.length ≤ p; exact hp)
  · rw [rep_gt e]; exact phiC_get hp

theorem negatecondition_rep {s : FS} (h : Bar pre.length s) {j : Nat} (hj : pre.length < j) :
    negatecondition (rep pre J s) j = rep pre J (negatecondition s j) :=
  modify_rep h (by omega) _

/-! ### registers and constants -/

theorem freeReg_rep (s : FS) (r : Nat) : freeReg (rep pre J s) r = rep pre J (freeReg s r) := by
  unfold freeReg
  by_cases h : s.nactvar ≤ r
  · rw [if_pos h, if_pos (by rw [rep_nactvar]; exact h), rep_setfree s (s.freereg - 1)]
    have := rep_freereg (pre := pre) (J := J) s
    generalize rep pre J s = x at *
    rw [this]
  · rw [if_neg h, if_neg (by rw [rep_nactvar]; exact h)]

theorem freeexp_rep (s : FS) (d : D) : freeexp (rep pre J s) d = rep pre J (freeexp s d) := by
  unfold freeexp
  split
  · exact freeReg_rep ..
  · rfl

theorem freeRK_rep (s : FS) (x : RK) : freeRK (rep pre J s) x = rep pre J (freeRK s x) := by
  cases x
  · exact freeReg_rep ..
  · rfl

theorem freeexps_rep (s : FS) (d1 d2 : D) : freeexps (rep pre J s) d1 d2 = rep pre J (freeexps s d1 d2) := by
  unfold freeexps
  split <;> rw [freeexp_rep, freeexp_rep]

theorem freeReg_same (s : FS) (r : Nat) : (freeReg s r).code = s.code ∧ (freeReg s r).jpc = s.jpc ∧
    (freeReg s r).lasttarget = s.lasttarget := by
  unfold freeReg; split <;> exact ⟨rfl, rfl, rfl⟩

theorem freeexp_same (s : FS) (d : D) : (freeexp s d).code = s.code ∧ (freeexp s d).jpc = s.jpc ∧
    (freeexp s d).lasttarget = s.lasttarget := by
  unfold freeexp
  split
  · exact freeReg_same ..
  · exact ⟨rfl, rfl, rfl⟩

theorem freeRK_same (s : FS) (x : RK) : (freeRK s x).code = s.code ∧ (freeRK s x).jpc = s.jpc ∧
    (freeRK s x).lasttarget = s.lasttarget := by
  cases x
  · exact freeReg_same ..
  · exact ⟨rfl, rfl, rfl⟩

theorem freeexps_same (s : FS) (d1 d2 : D) : (freeexps s d1 d2).code = s.code ∧ (freeexps s d1 d2).jpc = s.jpc ∧
    (freeexps s d1 d2).lasttarget = s.lasttarget := by
  unfold freeexps
  split
  · obtain ⟨a, b, c⟩ := freeexp_same s d1
    obtain ⟨a', b', c'⟩ := freeexp_same (freeexp s d1) d2
    exact ⟨a'.trans a, b'.trans b, c'.trans c⟩
  · obtain ⟨a, b, c⟩ := freeexp_same s d2
    obtain ⟨a', b', c'⟩ := freeexp_same (freeexp s d2) d1
    exact ⟨a'.trans a, b'.trans b, c'.trans c⟩

theorem Bar.freeReg {m : Nat} {s : FS} (h : Bar m s) (r : Nat) : Bar m (freeReg s r) := by
  obtain ⟨a, b, c⟩ := freeReg_same s r; exact h.same a b c

theorem Bar.freeexp {m : Nat} {s : FS} (h : Bar m s) (d : D) : Bar m (freeexp s d) := by
  obtain ⟨a, b, c⟩ := freeexp_same s d; exact h.same a b c

theorem Bar.freeRK {m : Nat} {s : FS} (h : Bar m s) (d : RK) : Bar m (freeRK s d) := by
  obtain ⟨a, b, c⟩ := freeRK_same s d; exact h.same a b c

theorem Bar.freeexps {m : Nat} {s : FS} (h : Bar m s) (d1 d2 : D) : Bar m (freeexps s d1 d2) := by
  obtain ⟨a, b, c⟩ := freeexps_same s d1 d2; exact h.same a b c

theorem addK_rep (s : FS) (v : Val) : addK (rep pre J s) v = (rep pre J (addK s v).1, (addK s v).2) := by
  have e := rep_k (pre := pre) (J := J) s
  unfold addK
  split
  · rename_i i h
    rw [e] at h
    rw [h]
  · rename_i h
    rw [e] at h
    rw [h]
    dsimp only
    rw [rep_setk s (s.k ++ [v])]
    generalize rep pre J s = x at *
    rw [e]

theorem Bar.addK {m : Nat} {s : FS} (h : Bar m s) (v : Val) : Bar m (addK s v).1 := by
  obtain ⟨a, b, c, _⟩ := addK_same s v; exact h.same a b c

theorem codeNil_rep {s : FS} (h : Bar pre.length s) (r : Nat) : codeNil (rep pre J s) r = rep pre J (codeNil s r) := by
  unfold codeNil
  rw [rep_lasttarget, rep_pc h.le]
  rcases Nat.eq_or_lt_of_le h.le with e | e
  · have : decide (s.lasttarget < s.pc) = false := by
      have := h.lt
      unfold FS.pc
      rw [decide_eq_false_iff_not]; omega
    rw [this]
    dsimp only
    exact emit_rep h _
  · have e1 : (rep pre J s).code.getLast? = s.code.getLast? := by rw [rep_gt e]; exact phiC_getLast e
    rw [e1]
    split
    · split
      · have el := h.le
        rw [rep_gt e]
        unfold phi
        dsimp only
        rw [phiC_dropLast e, phiC_append (by rw [List.length_dropLast]; omega)]
        rw [rep_gt (by dsimp only; rw [List.length_append, List.length_dropLast, List.length_singleton]; omega)]
        rfl
      · exact emit_rep h _
    · exact emit_rep h _

theorem codeNil_bar {m : Nat} {s : FS} (h : Bar m s) (r : Nat) : Bar m (codeNil s r) ∧
    s.code.length ≤ (codeNil s r).code.length := by
  unfold codeNil
  have he : Bar m (emit s (.loadnil r 0)) ∧ s.code.length ≤ (emit s (.loadnil r 0)).code.length :=
    ⟨emit_bar h _, by rw [emit_length]; omega⟩
  split
  · rename_i a n h1 h2
    split
    · have hl : 0 < s.code.length := by
        rcases Nat.eq_zero_or_pos s.code.length with h0 | h0
        · rw [List.getLast?_eq_none_iff.2 (List.length_eq_zero_iff.1 h0)] at h2; cases h2
        · exact h0
      have : (s.code.dropLast ++ [Instr.loadnil (if a < r then a else r)
          ((if a + n > r then a + n else r) - if a < r then a else r)]).length = s.code.length := by
        rw [List.length_append, List.length_dropLast, List.length_singleton]; omega
      exact ⟨h.setCode this (h.nr.dropLast.append (NR.single rfl)), Nat.le_of_eq this.symm⟩
    · exact he
  · exact he

end Verif.Stat
