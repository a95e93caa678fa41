import Verif.Lin.Model
import Mathlib.Order.Lattice

/-!
# Registers, blocks and runs
-/
namespace Verif.Lin

/-! ## Registers in use -/

/-- The three pools of registers. -/
inductive K | i | f | a
deriving DecidableEq, Repr

section
variable {F O : Type}

def pool (st : St F O) : K → List Nat
  | .i => st.i
  | .f => st.f
  | .a => st.a

/-- The register is in use. -/
def live (st : St F O) (k : K × Nat) : Prop := k.2 ∈ pool st k.1

/-- The register a pseudo reads, if any. -/
def use : Ps F O → Option (K × Nat)
  | .ti r _ | .tb r => some (.i, r)
  | .tf r _ => some (.f, r)
  | .ta r => some (.a, r)
  | _ => none

/-- The register that is given back when a pseudo is freed, if any. -/
def fk : Ps F O → Option (K × Nat)
  | .ti r false | .tb r => some (.i, r)
  | .tf r false => some (.f, r)
  | .ta r => some (.a, r)
  | _ => none

theorem fk_use {q : Ps F O} {k} (h : fk q = some k) : use q = some k := by
  rcases q with _ | ⟨r, _ | _⟩ | ⟨r, _ | _⟩ | _ | _ | _ <;> simp_all [fk, use]

/-- Registers read through a pending access or a pseudo. -/
def uses : Pn F O → List (K × Nat)
  | .p q => (use q).toList
  | .idx c k => (use c).toList ++ (use k).toList

def fks : Pn F O → List (K × Nat)
  | .p q => (fk q).toList
  | .idx c k => (fk c).toList ++ (fk k).toList

theorem fks_uses {n : Pn F O} {k} (h : k ∈ fks n) : k ∈ uses n := by
  rcases n with q | ⟨c, d⟩
  · simp only [fks, uses, Option.mem_toList, Option.mem_def] at *
    exact fk_use h
  · simp only [fks, uses, Option.mem_toList, Option.mem_def, List.mem_append] at *
    exact h.imp fk_use fk_use

theorem live_freeP (st : St F O) (p : Ps F O) (k : K × Nat) :
    live (freeP st p) k ↔ live st k ∧ fk p ≠ some k := by
  obtain ⟨κ, r⟩ := k
  rcases p with _ | ⟨s, _ | _⟩ | ⟨s, _ | _⟩ | s | s | _ <;> cases κ <;>
    simp [live, freeP, fk, pool, free] <;> intro _ <;> exact not_congr eq_comm

theorem live_freeN (st : St F O) (n : Pn F O) (k : K × Nat) :
    live (freeN st n) k ↔ live st k ∧ k ∉ fks n := by
  rcases n with q | ⟨c, d⟩
  · simp [freeN, live_freeP, fks]
  · simp only [freeN, live_freeP, fks, List.mem_append, Option.mem_toList, Option.mem_def]
    constructor
    · rintro ⟨⟨h1, h2⟩, h3⟩
      exact ⟨h1, fun h => h.elim h3 h2⟩
    · rintro ⟨h1, h2⟩
      exact ⟨⟨h1, fun h => h2 (Or.inr h)⟩, fun h => h2 (Or.inl h)⟩

@[simp] theorem live_emit (st : St F O) (x) (k) : live (emit st x) k ↔ live st k := by
  obtain ⟨κ, r⟩ := k
  cases κ <;> simp [live, emit, pool]

@[simp] theorem live_nb (st : St F O) (n) (k) : live { st with nb := n } k ↔ live st k := by
  obtain ⟨κ, r⟩ := k
  cases κ <;> simp [live, pool]

@[simp] theorem live_cur (st : St F O) (n) (k) : live { st with cur := n } k ↔ live st k := by
  obtain ⟨κ, r⟩ := k
  cases κ <;> simp [live, pool]

theorem lt_top {u : List Nat} {r : Nat} (h : r ∈ u) : r < top u := by
  induction u with
  | nil => simp at h
  | cons a u ih =>
    simp only [top, List.foldr_cons] at ih ⊢
    rcases List.mem_cons.1 h with h | h
    · subst h; exact lt_of_lt_of_le (Nat.lt_succ_self _) (le_max_left _ _)
    · exact lt_of_lt_of_le (ih h) (le_max_right _ _)

theorem top_not_mem (u : List Nat) : top u ∉ u := fun h => absurd (lt_top h) (lt_irrefl _)

theorem alloc_ok {u r u'} (h : alloc u = .ok (r, u')) : r ∉ u ∧ u' = r :: u := by
  unfold alloc at h
  split at h
  · simp only [Res.ok.injEq, Prod.mk.injEq] at h
    obtain ⟨rfl, rfl⟩ := h
    exact ⟨top_not_mem u, rfl⟩
  · cases h

/-- Which kind of temporary holds a value of a static type. -/
def kindOf (q : Ps F O) (t : Ty) : Prop :=
  match t with
  | .int => ∃ r, q = .ti r false
  | .bool => ∃ r, q = .tb r
  | .flt => ∃ r, q = .tf r false
  | _ => ∃ r, q = .ta r

theorem allocT_ok {st : St F O} {t q st'} (h : allocT st t = .ok (q, st')) :
    kindOf q t ∧ (∃ k, fk q = some k ∧ ¬ live st k ∧ ∀ k', live st' k' ↔ live st k' ∨ k' = k) ∧
    st'.blocks = st.blocks ∧ st'.nb = st.nb ∧ st'.cur = st.cur := by
  cases t <;> simp only [allocT, Res.bind_eq_ok] at h <;> obtain ⟨⟨r, u⟩, h1, h2⟩ := h <;>
    simp only [Res.ok.injEq, Prod.mk.injEq] at h2 <;> obtain ⟨rfl, rfl⟩ := h2 <;>
    obtain ⟨h3, rfl⟩ := alloc_ok h1 <;> refine ⟨⟨r, rfl⟩, ⟨_, rfl, h3, ?_⟩, rfl, rfl, rfl⟩ <;>
    rintro ⟨κ, r'⟩ <;> cases κ <;> simp [live, pool, or_comm]

/-! ## Blocks -/

/-- The blocks of `st'` are those of `st` with more code; only the current block of `st` and new
blocks have been touched. -/
structure BExt (st st' : St F O) : Prop where
  nb : st.nb ≤ st'.nb
  pre : ∀ b, st.blocks b <+: st'.blocks b
  oth : ∀ b, b < st.nb → b ≠ st.cur → st'.blocks b = st.blocks b
  cur : st'.cur = st.cur ∨ st.nb ≤ st'.cur
  lt : st.cur < st.nb → st'.cur < st'.nb
  emp : st.cur < st.nb → (∀ b, st.nb ≤ b → st.blocks b = []) → ∀ b, st'.nb ≤ b → st'.blocks b = []

theorem BExt.refl (st : St F O) : BExt st st :=
  ⟨le_refl _, fun _ => List.prefix_refl _, fun _ _ _ => rfl, Or.inl rfl, id, fun _ => id⟩

theorem BExt.trans {s1 s2 s3 : St F O} (h : BExt s1 s2) (h' : BExt s2 s3) : BExt s1 s3 := by
  refine ⟨h.nb.trans h'.nb, fun b => (h.pre b).trans (h'.pre b), ?_, ?_, fun x => h'.lt (h.lt x),
    fun x y => h'.emp (h.lt x) (h.emp x y)⟩
  · intro b hb hc
    rw [h'.oth b (lt_of_lt_of_le hb h.nb), h.oth b hb hc]
    rcases h.cur with e | e
    · rwa [e]
    · exact fun e' => absurd (e' ▸ hb) (not_lt.2 e)
  · rcases h'.cur with e | e
    · rw [e]; exact h.cur
    · exact Or.inr (h.nb.trans e)

/-- States with the same blocks. -/
theorem BExt.same {s1 s2 : St F O} (h : s2.blocks = s1.blocks ∧ s2.nb = s1.nb ∧ s2.cur = s1.cur) :
    BExt s1 s2 := by
  obtain ⟨h1, h2, h3⟩ := h
  refine ⟨by rw [h2], fun b => by rw [h1]; exact List.prefix_refl _, fun _ _ _ => by rw [h1], Or.inl h3, ?_, ?_⟩
  · intro h; rwa [h3, h2]
  · intro _ h b hb; rw [h1]; exact h b (h2 ▸ hb)

theorem freeP_blocks (st : St F O) (p : Ps F O) :
    (freeP st p).blocks = st.blocks ∧ (freeP st p).nb = st.nb ∧ (freeP st p).cur = st.cur := by
  rcases p with _ | ⟨s, _ | _⟩ | ⟨s, _ | _⟩ | s | s | _ <;> exact ⟨rfl, rfl, rfl⟩

theorem freeN_blocks (st : St F O) (n : Pn F O) :
    (freeN st n).blocks = st.blocks ∧ (freeN st n).nb = st.nb ∧ (freeN st n).cur = st.cur := by
  rcases n with q | ⟨c, d⟩
  · exact freeP_blocks st q
  · obtain ⟨a1, a2, a3⟩ := freeP_blocks (freeP st d) c
    obtain ⟨b1, b2, b3⟩ := freeP_blocks st d
    exact ⟨a1.trans b1, a2.trans b2, a3.trans b3⟩

theorem tofree_blocks (st : St F O) (n : Pn F O) (q : Ps F O) :
    (tofree st n q).blocks = st.blocks ∧ (tofree st n q).nb = st.nb ∧
    (tofree st n q).cur = st.cur := by
  rcases n with _ | _
  · exact ⟨rfl, rfl, rfl⟩
  · exact freeP_blocks st q

theorem BExt.emit (st : St F O) (x : Ins F O) : BExt st (emit st x) := by
  refine ⟨le_refl _, ?_, ?_, Or.inl rfl, id, ?_⟩
  · intro b
    by_cases h : b = st.cur
    · subst h; simp [Lin.emit, set]
    · simp [Lin.emit, set, h]
  · intro b _ h; simp [Lin.emit, set, h]
  · intro hc h b hb
    have : b ≠ st.cur := fun e => absurd (e ▸ hb) (not_le.2 hc)
    simp only [Lin.emit, set, this, if_false]
    exact h b hb

end

/-! ## Running -/

variable {P : Par}

/-- The point after the code emitted so far. -/
def here (st : St P.F P.O) (M : Mach P) : Cfg P := ⟨st.cur, (st.blocks st.cur).length, M⟩

/-- The program contains the code emitted so far. -/
def Covers (g : Prog P) (st : St P.F P.O) : Prop := ∀ b, st.blocks b <+: g b

theorem Covers.mono {g : Prog P} {s1 s2 : St P.F P.O} (h : Covers g s2) (e : BExt s1 s2) :
    Covers g s1 := fun b => (e.pre b).trans (h b)

theorem Run.trans {g : Prog P} {c c' o} (h : Run P g c (.ok c')) (h' : Run P g c' o) :
    Run P g c o := by
  generalize hx : (Res.ok c' : Res (Cfg P)) = x at h
  induction h with
  | here c => cases hx; exact h'
  | step c c1 o hs _ ih => exact .step _ _ _ hs (ih hx)
  | err => cases hx
  | ub => cases hx

/-- The code from `c` to the end of the code of `st'` does what `r` says: `Q` relates the result
and the final state. -/
def Exe {X : Type} (g : Prog P) (c : Cfg P) (st' : St P.F P.O) (r : Res X)
    (Q : X → Mach P → Prop) : Prop :=
  match r with
  | .ok x => ∃ M', Run P g c (.ok (here st' M')) ∧ Q x M'
  | .err m => Run P g c (.err m)
  | .ub => Run P g c .ub

theorem Exe.pre {X : Type} {g : Prog P} {c c' st'} {r : Res X} {Q}
    (h : Run P g c (.ok c')) (h' : Exe g c' st' r Q) : Exe g c st' r Q := by
  rcases r with x | m | _
  · obtain ⟨M', h1, h2⟩ := h'
    exact ⟨M', h.trans h1, h2⟩
  · exact h.trans h'
  · exact h.trans h'

theorem Exe.bind {X Y : Type} {g : Prog P} {c st1 st2} {r : Res X} {f : X → Res Y} {Q Q'}
    (h : Exe g c st1 r Q)
    (h' : ∀ x M1, r = .ok x → Q x M1 → Exe g (here st1 M1) st2 (f x) Q') :
    Exe g c st2 (r >>= f) Q' := by
  rcases r with x | m | _
  · obtain ⟨M1, h1, h2⟩ := h
    rw [Res.bind_ok]
    exact Exe.pre h1 (h' x M1 rfl h2)
  · exact h
  · exact h

theorem Exe.ok {X : Type} {g : Prog P} {st' M} {x : X} {Q : X → Mach P → Prop} (h : Q x M) :
    Exe g (here st' M) st' (.ok x) Q := ⟨M, .here _, h⟩

theorem Exe.imp {X : Type} {g : Prog P} {c st'} {r : Res X} {Q Q' : X → Mach P → Prop}
    (h : Exe g c st' r Q) (i : ∀ x M, r = .ok x → Q x M → Q' x M) : Exe g c st' r Q' := by
  rcases r with x | m | _
  · obtain ⟨M', h1, h2⟩ := h
    exact ⟨M', h1, i x M' rfl h2⟩
  · exact h
  · exact h

theorem Exe.same {X : Type} {g : Prog P} {c s1 s2} {r : Res X} {Q : X → Mach P → Prop}
    (e : s2.blocks = s1.blocks ∧ s2.nb = s1.nb ∧ s2.cur = s1.cur)
    (h : Exe g c s1 r Q) : Exe g c s2 r Q := by
  have : ∀ M, here s2 M = here s1 M := fun M => by simp only [here, e.1, e.2.2]
  rcases r with x | m | _
  · obtain ⟨M', h1, h2⟩ := h
    exact ⟨M', by rw [this]; exact h1, h2⟩
  · exact h
  · exact h

theorem fetch {g : Prog P} {st : St P.F P.O} {x} (h : Covers g (emit st x)) :
    (g st.cur)[(st.blocks st.cur).length]? = some x := by
  obtain ⟨r, hr⟩ := h st.cur
  rw [← hr]
  simp [emit, set]

def Ins.jump {F O : Type} : Ins F O → Bool
  | .br _ | .cbr _ _ _ => true
  | _ => false

theorem step_ins {g : Prog P} {st : St P.F P.O} {x M} (h : Covers g (emit st x))
    (hj : x.jump = false) :
    step P g (here st M) =
      some (do let M' ← exIns P M x; .ok (here (emit st x) M')) := by
  have hf := fetch h
  have hl : ((emit st x).blocks (emit st x).cur).length = (st.blocks st.cur).length + 1 := by
    simp [emit, set]
  unfold step
  simp only [here, hf]
  cases x <;> first | (simp [Ins.jump] at hj; done) | (simp only [hl]; rfl)

/-- What an instruction does to its target. -/
def Wr (M : Mach P) (t : Ps P.F P.O) (r : Res (P.V × P.S)) (e : Res (Mach P)) : Prop :=
  match r with
  | .ok (v, s) => ∃ M', e = .ok M' ∧ rd P M' t = v ∧ M'.s = s ∧
      ∀ q, use q ≠ use t → rd P M' q = rd P M q
  | .err m => e = .err m
  | .ub => e = .ub

theorem exe_ins {g : Prog P} {st : St P.F P.O} {x M t r} (h : Covers g (emit st x))
    (hj : x.jump = false) (hw : Wr M t r (exIns P M x)) :
    Exe g (here st M) (emit st x) r (fun y M' => rd P M' t = y.1 ∧ M'.s = y.2 ∧
      ∀ q, use q ≠ use t → rd P M' q = rd P M q) := by
  have hs := step_ins (M := M) h hj
  rcases r with ⟨v, s⟩ | m | _
  · obtain ⟨M', h1, h2, h3, h4⟩ := hw
    rw [h1] at hs
    exact ⟨M', .step _ _ _ hs (.here _), h2, h3, h4⟩
  · have hw : exIns P M x = .err m := hw
    rw [hw] at hs
    exact Run.err _ _ hs
  · have hw : exIns P M x = .ub := hw
    rw [hw] at hs
    exact Run.ub _ hs

theorem Wr.bind {M : Mach P} {X : Type} {t} {r : Res X} {f : X → Res (P.V × P.S)}
    {f' : X → Res (Mach P)} (h : ∀ x, r = .ok x → Wr M t (f x) (f' x)) :
    Wr M t (r >>= f) (r >>= f') := by
  rcases r with x | m | _
  · simpa using h x rfl
  · exact rfl
  · exact rfl

/-! ## Stores into temporaries -/

/-- A temporary that is not a register of a variable on the Lua stack. -/
def notSym : Ps P.F P.O → Prop
  | .sym _ _ => False
  | .kc _ => False
  | _ => True

theorem wrT_ta {M : Mach P} {r v s} : Wr M (.ta r) (.ok (v, s)) (wrT P { M with s := s } (.ta r) v) := by
  refine ⟨_, rfl, ?_, rfl, ?_⟩
  · simp [rd, set]
  · intro q hq
    cases q <;> simp_all [rd, set, use]

theorem wrB_kind {M : Mach P} {d b s} (h : kindOf d .bool ∨ kindOf d .any) :
    Wr M d (.ok (.bool b, s)) (wrB P { M with s := s } d b) := by
  rcases h with ⟨r, rfl⟩ | ⟨r, rfl⟩
  · refine ⟨_, rfl, ?_, rfl, ?_⟩
    · cases b <;> simp [rd, set]
    · intro q hq
      cases q <;> simp_all [rd, set, use]
  · exact wrT_ta

theorem wrI_ti {M : Mach P} {r l i s} (hs : M.s = s) :
    Wr M (.ti r l) (.ok (.int i, s)) (wrI P M (.ti r l) i) := by
  refine ⟨_, rfl, ?_, hs, ?_⟩
  · simp [rd, set]
  · intro q hq
    cases q <;> simp_all [rd, set, use]

theorem wrI_tf {M : Mach P} {r l i s} (hs : M.s = s) :
    Wr M (.tf r l) (.ok (.flt (P.ofInt i), s)) (wrI P M (.tf r l) i) := by
  refine ⟨_, rfl, ?_, hs, ?_⟩
  · simp [rd, set]
  · intro q hq
    cases q <;> simp_all [rd, set, use]

theorem wrF_tf {M : Mach P} {r l f s} (hs : M.s = s) :
    Wr M (.tf r l) (.ok (.flt f, s)) (wrF P M (.tf r l) f) := by
  refine ⟨_, rfl, ?_, hs, ?_⟩
  · simp [rd, set]
  · intro q hq
    cases q <;> simp_all [rd, set, use]

theorem wrA_ti {M : Mach P} {r l i s} :
    Wr M (.ti r l) (.ok (.int i, s)) (wrA P { M with s := s } (.ti r l) (.int i)) := by
  refine ⟨_, rfl, ?_, rfl, ?_⟩
  · simp [rd, set]
  · intro q hq
    cases q <;> simp_all [rd, set, use]

theorem wrA_tf {M : Mach P} {r l f s} :
    Wr M (.tf r l) (.ok (.flt f, s)) (wrA P { M with s := s } (.tf r l) (.flt f)) := by
  refine ⟨_, rfl, ?_, rfl, ?_⟩
  · simp [rd, set]
  · intro q hq
    cases q <;> simp_all [rd, set, use]

end Verif.Lin
