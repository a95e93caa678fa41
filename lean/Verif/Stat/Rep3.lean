import Verif.Stat.Rep2
/-! Replacing the code before an expression: conditions, operators, whole expressions. -/
namespace Verif.Stat
open Verif.ExpCode
open Verif.Fold (FOps BOp UOp)

variable {pre : List Instr} {J : List Nat} {α β : Type}

theorem drop_condjump {s : FS} (h : Bar pre.length s) (hl : pre.length < s.code.length) (i : Instr) (hi : isRet i = false) :
    Rq pre J s.code.length (condjump { rep pre J s with code := (rep pre J s).code.dropLast } i)
      (condjump { s with code := s.code.dropLast } i) (PosL pre.length) := by
  have e : ({ rep pre J s with code := (rep pre J s).code.dropLast } : FS)
      = phi pre J { s with code := s.code.dropLast } := by
    rw [rep_gt hl]
    unfold phi
    dsimp only
    rw [phiC_dropLast hl]
  rw [e]
  have hd : s.code.dropLast.length = s.code.length - 1 := List.length_dropLast
  have hm : pre.length ≤ ({ s with code := s.code.dropLast } : FS).code.length := by
    show pre.length ≤ s.code.dropLast.length
    omega
  have hE : emit (phi pre J { s with code := s.code.dropLast }) i
      = phi pre J (emit { s with code := s.code.dropLast } i) := emit_phi hm (fun j hj => (h.jpc j hj).1) i
  have lE : (emit { s with code := s.code.dropLast } i).code.length = s.code.length := by
    rw [emit_length]
    show s.code.dropLast.length + 1 = _
    omega
  have bE : Bar pre.length (emit { s with code := s.code.dropLast } i) :=
    ⟨by rw [lE]; exact h.le, h.lt, (fun _ hj => nomatch hj), h.nr.dropLast.patchlistaux.append (NR.single hi)⟩
  obtain ⟨b1, b2⟩ := jump_bar bE (by rw [lE]; exact hl)
  refine ⟨?_, b1, ?_, b2⟩
  · unfold condjump
    rw [hE, ← rep_gt (J := J) (by rw [lE]; exact hl), jump_rep (by rw [lE]; exact hl)]
  · unfold condjump
    rw [jump_length, lE]; omega

theorem jumponcond_rp {s : FS} (h : Bar pre.length s) {d : D} (hd : Pos pre.length s d) (cond : Bool) :
    Rp pre J s.code.length (jumponcond (rep pre J s) d cond) (jumponcond s d cond)
      (fun s x => Pos pre.length s x.1 ∧ PosL pre.length s x.2) := by
  have gen : Rp pre J s.code.length
      (discharge2anyreg (rep pre J s) d >>= fun x => (let j := condjump (freeexp x.1 x.2.1) (.testset none x.2.2 cond)
        .ok (j.1, x.2.1, j.2) : Res (FS × D × List Nat)))
      (discharge2anyreg s d >>= fun x => (let j := condjump (freeexp x.1 x.2.1) (.testset none x.2.2 cond)
        .ok (j.1, x.2.1, j.2) : Res (FS × D × List Nat)))
      (fun s x => Pos pre.length s x.1 ∧ PosL pre.length s x.2) := by
    refine (discharge2anyreg_rp h hd).bind ?_
    rintro s1 ⟨d1, r⟩ hb hl hp
    dsimp only
    rw [freeexp_rep, condjump_rep (hb.freeexp d1)]
    obtain ⟨b1, b2⟩ := condjump_bar (hb.freeexp d1) (.testset none r cond)
    have hl2 : s1.code.length ≤ (condjump (freeexp s1 d1) (.testset none r cond)).1.code.length := by
      rw [condjump_length, (freeexp_same s1 d1).1]; omega
    exact Rp.ok b1 hl2 ⟨hp.mono hl2, b2⟩
  unfold jumponcond
  cases hk : d.kind with
  | reloc pc =>
    have hp := hd.k
    rw [hk] at hp
    dsimp only
    rw [get_rep h hp.1]
    have drop : ∀ b, Rp pre J s.code.length
        (.ok ((condjump { rep pre J s with code := (rep pre J s).code.dropLast } (.test b (!cond))).1, d,
          (condjump { rep pre J s with code := (rep pre J s).code.dropLast } (.test b (!cond))).2))
        (.ok ((condjump { s with code := s.code.dropLast } (.test b (!cond))).1, d,
          (condjump { s with code := s.code.dropLast } (.test b (!cond))).2))
        (fun s x => Pos pre.length s x.1 ∧ PosL pre.length s x.2) := by
      intro b
      obtain ⟨h1, h2, h3, h4⟩ := drop_condjump (J := J) h (by have := hp.1; have := hp.2; omega) (.test b (!cond)) rfl
      rw [h1]
      exact Rp.ok h2 h3 ⟨hd.mono h3, h4⟩
    cases hc : s.code[pc]? with
    | none => exact gen
    | some i =>
      cases i with
      | set a x =>
        cases x with
        | not b => exact drop b
        | _ => exact gen
      | _ => exact gen
  | _ => exact gen

theorem negatecondition_bar {m : Nat} {s : FS} (h : Bar m s) (j : Nat) :
    Bar m (negatecondition s j) ∧ (negatecondition s j).code.length = s.code.length := by
  have : (negatecondition s j).code.length = s.code.length := List.length_modify ..
  exact ⟨h.setCode this (h.nr.modify _ (fun i hi => by cases i <;> first | exact hi | rfl)), this⟩

theorem goiftrueJump_rp {fixed : Bool} {s : FS} (h : Bar pre.length s) {d : D} (hd : Pos pre.length s d) :
    Rp pre J s.code.length (goiftrueJump fixed (rep pre J s) d) (goiftrueJump fixed s d)
      (fun s x => Pos pre.length s x.1 ∧ PosL pre.length s x.2) := by
  have nop : Rp pre J s.code.length (.ok (rep pre J s, d, [])) (.ok (s, d, []))
      (fun s x => Pos pre.length s x.1 ∧ PosL pre.length s x.2) := Rp.ok h (Nat.le_refl _) ⟨hd, PosL.nil⟩
  unfold goiftrueJump
  cases hk : d.kind with
  | jmp j =>
    have hp := hd.k
    rw [hk] at hp
    dsimp only
    rw [negatecondition_rep h hp.1]
    obtain ⟨b1, b2⟩ := negatecondition_bar h j
    have hl := Nat.le_of_eq b2.symm
    refine Rp.ok b1 hl ⟨hd.mono hl, ?_⟩
    intro i hi
    rw [List.mem_singleton] at hi
    subst hi
    exact ⟨hp.1, by rw [b2]; exact hp.2⟩
  | k _ => exact nop
  | kflt _ => exact nop
  | kint _ => exact nop
  | tru => exact nop
  | _ =>
    dsimp only
    split
    · exact jumponcond_rp h hd false
    · exact nop

theorem goiffalseJump_rp {fixed : Bool} {s : FS} (h : Bar pre.length s) {d : D} (hd : Pos pre.length s d) :
    Rp pre J s.code.length (goiffalseJump fixed (rep pre J s) d) (goiffalseJump fixed s d)
      (fun s x => Pos pre.length s x.1 ∧ PosL pre.length s x.2) := by
  have nop : Rp pre J s.code.length (.ok (rep pre J s, d, [])) (.ok (s, d, []))
      (fun s x => Pos pre.length s x.1 ∧ PosL pre.length s x.2) := Rp.ok h (Nat.le_refl _) ⟨hd, PosL.nil⟩
  unfold goiffalseJump
  cases hk : d.kind with
  | jmp j =>
    have hp := hd.k
    rw [hk] at hp
    refine Rp.ok h (Nat.le_refl _) ⟨hd, ?_⟩
    intro i hi
    rw [List.mem_singleton] at hi
    subst hi
    exact hp
  | nil => exact nop
  | fls => exact nop
  | _ =>
    dsimp only
    split
    · exact jumponcond_rp h hd true
    · exact nop

theorem goiftrue_rp {fixed : Bool} {s : FS} (h : Bar pre.length s) {d : D} (hd : Pos pre.length s d) :
    Rp pre J s.code.length (goiftrue fixed (rep pre J s) d) (goiftrue fixed s d)
      (fun s d => PosL pre.length s d.f ∧ d.t = []) := by
  obtain ⟨h1, h2, h3, h4⟩ := dischargevars_rq (J := J) h hd
  unfold goiftrue
  rw [h1]
  dsimp only
  refine Rp.imp ((goiftrueJump_rp h2 h4).bind (Q' := fun s d => PosL pre.length s d.f ∧ d.t = []) ?_) h3 (fun _ _ _ _ h => h)
  rintro s1 ⟨d1, j⟩ hb hl ⟨hp, hj⟩
  dsimp only
  rw [patchtohere_rep hb hp.t]
  exact Rp.ok (patchtohere_bar hb hp.t) (Nat.le_refl _) ⟨hp.f.append hj, rfl⟩

theorem goiffalse_rp {fixed : Bool} {s : FS} (h : Bar pre.length s) {d : D} (hd : Pos pre.length s d) :
    Rp pre J s.code.length (goiffalse fixed (rep pre J s) d) (goiffalse fixed s d)
      (fun s d => PosL pre.length s d.t ∧ d.f = []) := by
  obtain ⟨h1, h2, h3, h4⟩ := dischargevars_rq (J := J) h hd
  unfold goiffalse
  rw [h1]
  dsimp only
  refine Rp.imp ((goiffalseJump_rp h2 h4).bind (Q' := fun s d => PosL pre.length s d.t ∧ d.f = []) ?_) h3 (fun _ _ _ _ h => h)
  rintro s1 ⟨d1, j⟩ hb hl ⟨hp, hj⟩
  dsimp only
  rw [patchtohere_rep hb hp.f]
  exact Rp.ok (patchtohere_bar hb hp.f) (Nat.le_refl _) ⟨hp.t.append hj, rfl⟩

theorem codenotKind_rp {s : FS} (h : Bar pre.length s) {d : D} (hd : Pos pre.length s d) :
    Rp pre J s.code.length (codenotKind (rep pre J s) d) (codenotKind s d) (fun s k => PosK pre.length s k) := by
  have gen : Rp pre J s.code.length
      (discharge2anyreg (rep pre J s) d >>= fun x => (.ok (emit (freeexp x.1 x.2.1) (.set 0 (.not x.2.2)),
        .reloc (freeexp x.1 x.2.1).pc) : Res (FS × Kind)))
      (discharge2anyreg s d >>= fun x => (.ok (emit (freeexp x.1 x.2.1) (.set 0 (.not x.2.2)),
        .reloc (freeexp x.1 x.2.1).pc) : Res (FS × Kind))) (fun s k => PosK pre.length s k) := by
    refine (discharge2anyreg_rp h hd).bind ?_
    rintro s1 ⟨d1, r⟩ hb hl hp
    dsimp only
    have hf := hb.freeexp d1
    rw [freeexp_rep, rep_pc hf.le, emit_rep hf]
    refine Rp.ok (emit_bar hf _) (by rw [emit_length, (freeexp_same s1 d1).1]; omega) ⟨hf.le, ?_⟩
    rw [emit_length]
    exact Nat.lt_succ_self _
  unfold codenotKind
  cases hk : d.kind with
  | jmp j =>
    have hp := hd.k
    rw [hk] at hp
    dsimp only
    rw [negatecondition_rep h hp.1]
    obtain ⟨b1, b2⟩ := negatecondition_bar h j
    exact Rp.ok b1 (Nat.le_of_eq b2.symm) ⟨hp.1, by rw [b2]; exact hp.2⟩
  | k _ => exact Rp.ok h (Nat.le_refl _) trivial
  | kflt _ => exact Rp.ok h (Nat.le_refl _) trivial
  | kint _ => exact Rp.ok h (Nat.le_refl _) trivial
  | tru => exact Rp.ok h (Nat.le_refl _) trivial
  | nil => exact Rp.ok h (Nat.le_refl _) trivial
  | fls => exact Rp.ok h (Nat.le_refl _) trivial
  | _ => exact gen

theorem removevalues_bar {m : Nat} {s : FS} (h : Bar m s) (l : List Nat) : Bar m (removevalues s l) :=
  h.setCode (removevalues_length s l) h.nr.remove

theorem codenot_rp {s : FS} (h : Bar pre.length s) {d : D} (hd : Pos pre.length s d) :
    Rp pre J s.code.length (codenot (rep pre J s) d) (codenot s d) (Pos pre.length) := by
  obtain ⟨h1, h2, h3, h4⟩ := dischargevars_rq (J := J) h hd
  unfold codenot
  rw [h1]
  generalize dischargevars s d = x at h2 h3 h4
  obtain ⟨s0, d0⟩ := x
  dsimp only at h2 h3 h4 ⊢
  refine Rp.imp ((codenotKind_rp h2 h4).bind (Q' := Pos pre.length) ?_) h3 (fun _ _ _ _ h => h)
  rintro s1 k hb hl hp
  dsimp only
  have ht := h4.t.mono hl
  have hf := h4.f.mono hl
  have b1 := removevalues_bar hb d0.t
  have e1 := removevalues_length s1 d0.t
  have e2 := removevalues_length (removevalues s1 d0.t) d0.f
  rw [removevalues_rep hb ht, removevalues_rep b1 (hf.mono (by rw [e1]; exact Nat.le_refl _))]
  have hl' : s1.code.length ≤ (removevalues (removevalues s1 d0.t) d0.f).code.length := by omega
  exact Rp.ok (removevalues_bar b1 _) hl' ⟨hp.mono hl', hf.mono hl', ht.mono hl'⟩

/-! ### operators -/

/-- an instruction whose destination is open -/
theorem emit_reloc_rp {s : FS} (h : Bar pre.length s) {L : Nat} (hL : L ≤ s.code.length) (i : Instr) (hi : isRet i = false) {d : D} (ht : PosL pre.length s d.t)
    (hf : PosL pre.length s d.f) (tm : Typed.TM) :
    Rp pre J L (.ok (emit (rep pre J s) i, { d with kind := .reloc (rep pre J s).pc, tm := tm }))
      (.ok (emit s i, { d with kind := .reloc s.pc, tm := tm })) (Pos pre.length) := by
  have hl : s.code.length ≤ (emit s i).code.length := by rw [emit_length]; omega
  rw [emit_rep h, rep_pc h.le]
  exact Rp.ok (emit_bar h i hi) (Nat.le_trans hL hl)
    ⟨⟨h.le, by rw [emit_length]; exact Nat.lt_succ_self _⟩, ht.mono hl, hf.mono hl⟩

theorem infixArith_rp {s : FS} (h : Bar pre.length s) {d : D} (hd : Pos pre.length s d) :
    Rp pre J s.code.length (infixArith (rep pre J s) d) (infixArith s d) (Pos pre.length) := by
  unfold infixArith
  split
  · exact Rp.ok h (Nat.le_refl _) hd
  · exact (exp2RK_rp h hd).bind (fun s x hb hl hp => Rp.ok hb (Nat.le_refl _) hp)

theorem codebin_rp {s : FS} (h : Bar pre.length s) (o : BOp) {d1 d2 : D} (h1 : Pos pre.length s d1) (h2 : Pos pre.length s d2) :
    Rp pre J s.code.length (codebin (rep pre J s) o d1 d2) (codebin s o d1 d2) (Pos pre.length) := by
  unfold codebin
  refine (exp2RK_rp h h2).bind ?_
  rintro s1 ⟨e2, r2⟩ hb hl hp
  dsimp only
  refine (exp2RK_rp hb (h1.mono hl)).bind ?_
  rintro s2 ⟨e1, r1⟩ hb' hl' hp'
  dsimp only
  have hs := (freeexps_same s2 e1 e2).1
  rw [freeexps_rep]
  exact emit_reloc_rp (hb'.freeexps e1 e2) (by rw [hs]; exact Nat.le_refl _) _ rfl (d := { kind := .nil, t := e1.t, f := e1.f, tm := 0 })
    (hp'.t.mono (by rw [hs]; exact Nat.le_refl _)) (hp'.f.mono (by rw [hs]; exact Nat.le_refl _)) _

theorem numD_pos {m : Nat} {s : FS} (n : Verif.Float.Num) : Pos m s (numD n) := by
  cases n <;> exact ⟨trivial, PosL.nil, PosL.nil⟩

theorem posfixArith_rp {F : FOps} {s : FS} (h : Bar pre.length s) (o : BOp) {d1 d2 : D} (h1 : Pos pre.length s d1)
    (h2 : Pos pre.length s d2) :
    Rp pre J s.code.length (posfixArith F (rep pre J s) o d1 d2) (posfixArith F s o d1 d2) (Pos pre.length) := by
  unfold posfixArith
  cases foldD F (.b o) d1 d2 with
  | err e => exact rfl
  | ub => exact rfl
  | ok r =>
    cases r with
    | some r => exact Rp.ok h (Nat.le_refl _) (numD_pos r)
    | none => exact codebin_rp h o h1 h2

theorem codeun_rp {s : FS} (h : Bar pre.length s) (o : UOp) {d : D} (hd : Pos pre.length s d) :
    Rp pre J s.code.length (codeun (rep pre J s) o d) (codeun s o d) (Pos pre.length) := by
  unfold codeun
  refine (exp2anyreg_rp h hd).bind ?_
  rintro s1 ⟨e, r⟩ hb hl hp
  dsimp only
  have hs := (freeexp_same s1 e).1
  rw [freeexp_rep]
  exact emit_reloc_rp (hb.freeexp e) (by rw [hs]; exact Nat.le_refl _) _ rfl (d := e)
    (hp.t.mono (by rw [hs]; exact Nat.le_refl _)) (hp.f.mono (by rw [hs]; exact Nat.le_refl _)) _

theorem prefixUn_rp {F : FOps} {s : FS} (h : Bar pre.length s) (o : UOp) {d : D} (hd : Pos pre.length s d) :
    Rp pre J s.code.length (prefixUn F (rep pre J s) o d) (prefixUn F s o d) (Pos pre.length) := by
  unfold prefixUn
  cases foldD F (.u o) d { kind := .kint 0, tm := Typed.tANY } with
  | err e => exact rfl
  | ub => exact rfl
  | ok r =>
    cases r with
    | some r => exact Rp.ok h (Nat.le_refl _) (numD_pos r)
    | none => exact codeun_rp h o hd

theorem codelen_rp {s : FS} (h : Bar pre.length s) {d : D} (hd : Pos pre.length s d) :
    Rp pre J s.code.length (codelen (rep pre J s) d) (codelen s d) (Pos pre.length) := by
  unfold codelen
  refine (exp2anyreg_rp h hd).bind ?_
  rintro s1 ⟨e, r⟩ hb hl hp
  dsimp only
  have hs := (freeexp_same s1 e).1
  rw [freeexp_rep]
  have key := fun tm => emit_reloc_rp (J := J) (hb.freeexp e) (L := s1.code.length) (by rw [hs]; exact Nat.le_refl _) (.set 0 (.len r)) rfl (d := e)
    (hp.t.mono (by rw [hs]; exact Nat.le_refl _)) (hp.f.mono (by rw [hs]; exact Nat.le_refl _)) tm
  split
  · exact key _
  · split
    · exact rfl
    · exact key _

theorem codecomp_rp {s : FS} (h : Bar pre.length s) (o : Cmp) {d1 d2 : D} (rk1 : RK) (h1 : Pos pre.length s d1)
    (h2 : Pos pre.length s d2) :
    Rp pre J s.code.length (codecomp (rep pre J s) o d1 rk1 d2) (codecomp s o d1 rk1 d2) (Pos pre.length) := by
  unfold codecomp
  refine (exp2RK_rp h h2).bind ?_
  rintro s1 ⟨e2, r2⟩ hb hl hp
  dsimp only
  have hs := (freeexps_same s1 d1 e2).1
  have hf := hb.freeexps d1 e2
  rw [freeexps_rep, condjump_rep hf, rep_pc hf.le]
  have hcl := condjump_length (freeexps s1 d1 e2) (o.instr rk1 r2)
  have hl' : s1.code.length ≤ (condjump (freeexps s1 d1 e2) (o.instr rk1 r2)).1.code.length := by
    rw [hcl, hs]; omega
  refine Rp.ok (condjump_bar hf _ (by cases o <;> rfl)).1 hl' ⟨⟨?_, ?_⟩, (h1.t.mono hl).mono hl', (h1.f.mono hl).mono hl'⟩
  · have := hf.le
    unfold FS.pc
    omega
  · rw [hcl]
    unfold FS.pc
    omega

theorem posfixCat_rp {s : FS} (h : Bar pre.length s) {d1 d2 : D} (r1 : Nat) (h1 : Pos pre.length s d1)
    (h2 : Pos pre.length s d2) :
    Rp pre J s.code.length (posfixCat (rep pre J s) d1 r1 d2) (posfixCat s d1 r1 d2) (Pos pre.length) := by
  unfold posfixCat
  refine (exp2val_rp h h2).bind ?_
  rintro s1 e2 hb hl hp
  have hp1 := h1.mono hl
  have gen : Rp pre J s1.code.length
      (exp2nextreg (rep pre J s1) e2 >>= fun x => (.ok (emit (freeexps x.1 d1 x.2.1) (.set 0 (.concat r1 x.2.2)),
        { d1 with kind := .reloc (freeexps x.1 d1 x.2.1).pc, tm := catTm d1.tm x.2.1.tm }) : Res (FS × D)))
      (exp2nextreg s1 e2 >>= fun x => (.ok (emit (freeexps x.1 d1 x.2.1) (.set 0 (.concat r1 x.2.2)),
        { d1 with kind := .reloc (freeexps x.1 d1 x.2.1).pc, tm := catTm d1.tm x.2.1.tm }) : Res (FS × D))) (Pos pre.length) := by
    refine (exp2nextreg_rp hb hp).bind ?_
    rintro s2 ⟨e, r⟩ hb' hl' hp'
    dsimp only
    have hs := (freeexps_same s2 d1 e).1
    rw [freeexps_rep]
    exact emit_reloc_rp (hb'.freeexps d1 e) (by rw [hs]; exact Nat.le_refl _) _ rfl (d := d1)
      ((hp1.t.mono hl').mono (by rw [hs]; exact Nat.le_refl _)) ((hp1.f.mono hl').mono (by rw [hs]; exact Nat.le_refl _)) _
  dsimp only
  cases hk : e2.kind with
  | reloc pc =>
    have hpk := hp.k
    rw [hk] at hpk
    dsimp only
    rw [get_rep hb hpk.1]
    cases hc : s1.code[pc]? with
    | none => exact gen
    | some i =>
      cases i with
      | set a x =>
        cases x with
        | concat b c =>
          dsimp only
          have hs := (freeexp_same s1 d1).1
          have hf := hb.freeexp d1
          rw [freeexp_rep, modify_rep hf hpk.1]
          have hm : ((freeexp s1 d1).code.modify pc (·.setB r1)).length = s1.code.length := by
            rw [List.length_modify, hs]
          have hl' : s1.code.length ≤ ({ freeexp s1 d1 with code := (freeexp s1 d1).code.modify pc (·.setB r1) } : FS).code.length :=
            Nat.le_of_eq hm.symm
          exact Rp.ok (hf.setCode (by rw [hm, hs]) (hf.nr.modify _ (fun i hi => by
            cases i with
            | set a x => cases x <;> rfl
            | _ => exact hi))) hl' ⟨⟨hpk.1, Nat.lt_of_lt_of_le hpk.2 hl'⟩, hp1.t.mono hl', hp1.f.mono hl'⟩
        | _ => exact gen
      | _ => exact gen
  | _ => exact gen

theorem exp2anyregup_rp {s : FS} (h : Bar pre.length s) {d : D} (hd : Pos pre.length s d) :
    Rp pre J s.code.length (exp2anyregup (rep pre J s) d) (exp2anyregup s d) (Pos pre.length) := by
  unfold exp2anyregup
  split
  · exact Rp.ok h (Nat.le_refl _) hd
  · exact (exp2anyreg_rp h hd).bind (fun s x hb hl hp => Rp.ok hb (Nat.le_refl _) hp)

theorem indexed_rp {s : FS} (h : Bar pre.length s) {d1 d2 : D} (h1 : Pos pre.length s d1)
    (h2 : Pos pre.length s d2) :
    Rp pre J s.code.length (indexed (rep pre J s) d1 d2) (indexed s d1 d2) (Pos pre.length) := by
  unfold indexed
  refine (exp2RK_rp h h2).bind ?_
  rintro s1 ⟨e2, r2⟩ hb hl hp
  dsimp only
  split
  · exact Rp.ok hb (Nat.le_refl _) ⟨trivial, h1.t.mono hl, h1.f.mono hl⟩
  · exact Rp.ok hb (Nat.le_refl _) ⟨trivial, h1.t.mono hl, h1.f.mono hl⟩
  · exact rfl

/-! ### expressions -/

theorem emit_next_rp {s : FS} (h : Bar pre.length s) (i : Instr) (hi : isRet i = false) (tm : Typed.TM) :
    Rp pre J s.code.length
      (exp2nextreg (emit (rep pre J s) i) { kind := .reloc (rep pre J s).pc, tm := tm } >>= fun x => (.ok (x.1, x.2.1) : Res (FS × D)))
      (exp2nextreg (emit s i) { kind := .reloc s.pc, tm := tm } >>= fun x => (.ok (x.1, x.2.1) : Res (FS × D))) (Pos pre.length) := by
  rw [emit_rep h, rep_pc h.le]
  refine Rp.imp ((exp2nextreg_rp (emit_bar h i hi) (d := { kind := .reloc s.pc, tm := tm }) ⟨⟨h.le, by rw [emit_length]; exact Nat.lt_succ_self _⟩, PosL.nil, PosL.nil⟩).bind
    (Q' := Pos pre.length) (fun s x hb hl hp => Rp.ok hb (Nat.le_refl _) hp)) (by rw [emit_length]; omega) (fun _ _ _ _ h => h)

theorem selfOp_rp {s : FS} (h : Bar pre.length s) {d : D} (hd : Pos pre.length s d) (i : Nat) :
    Rp pre J s.code.length (selfOp (rep pre J s) d i) (selfOp s d i) (fun _ _ => True) := by
  unfold selfOp
  refine (exp2anyreg_rp h hd).bind ?_
  rintro s1 ⟨e, r⟩ hb hl hp
  dsimp only
  have hs := (freeexp_same s1 e).1
  rw [freeexp_rep, rep_freereg, ← hs]
  refine reserve_rp (hb.freeexp e) ?_
  intro s2 hs2 hb2
  have hl2 : s2.code.length = (freeexp s1 e).code.length := by rw [hs2]
  rw [← hl2]
  refine (exp2RK_rp hb2 (d := { kind := .k i, tm := Typed.tSTR }) ⟨trivial, PosL.nil, PosL.nil⟩).bind ?_
  rintro s3 ⟨e3, r3⟩ hb3 hl3 hp3
  dsimp only
  rw [emit_rep hb3, freeexp_rep]
  refine Rp.ok ((emit_bar hb3 _).freeexp _) ?_ trivial
  rw [(freeexp_same _ _).1, emit_length]
  omega

theorem genArgs_rp (F : FOps) (fixed : Bool) : ∀ (as : E), (∀ a ∈ as.args, ∀ s : FS, Bar pre.length s →
      Rp pre J s.code.length (gen F fixed a (rep pre J s)) (gen F fixed a s) (Pos pre.length)) →
    ∀ s : FS, Bar pre.length s →
    Rp pre J s.code.length (genArgs F fixed as (rep pre J s)) (genArgs F fixed as s) (fun _ _ => True) := by
  intro as
  induction as using E.indArgs with
  | anil => intro _ s h; simp only [genArgs]; exact Rp.ok h (Nat.le_refl _) trivial
  | acons a r ih =>
    intro hi s h
    simp only [genArgs]
    refine (hi a (by simp [E.args]) s h).bind ?_
    intro s1 d1 hb hl hp
    refine (exp2nextreg_rp hb hp).bind ?_
    intro s2 d2 hb2 hl2 hp2
    exact ih (fun a ha => hi a (by simp [E.args, ha])) s2 hb2
  | aopen f as ih =>
    intro hi s h
    simp only [genArgs]
    refine (hi f (by simp [E.args]) s h).bind ?_
    intro s1 d1 hb hl hp
    refine (exp2nextreg_rp hb hp).bind ?_
    intro s2 d2 hb2 hl2 hp2
    refine (ih (fun a ha => hi a (by simp [E.args, ha])) s2 hb2).bind ?_
    intro s3 o hb3 hl3 _
    have e : callOf (rep pre J s3) d2.2 o = callOf s3 d2.2 o := by cases o <;> simp [callOf]
    dsimp only
    rw [← rep_setfree, e]
    exact Rp.ok (hb3.same rfl rfl rfl) (Nat.le_refl _) trivial
  | amopen f k as ih =>
    intro hi s h
    simp only [genArgs]
    refine (hi f (by simp [E.args]) s h).bind ?_
    intro s1 d1 hb hl hp
    dsimp only
    rw [addK_rep]
    have hc : (addK s1 (.str k)).1.code = s1.code := (addK_same _ _).1
    refine Rp.imp (L := (addK s1 (.str k)).1.code.length) ((selfOp_rp (hb.addK _) (hp.mono (by rw [hc]; exact Nat.le_refl _)) _).bind ?_)
      (by rw [hc]; exact Nat.le_refl _) (fun _ _ _ _ h => h)
    intro s2 d2 hb2 hl2 _
    refine (ih (fun a ha => hi a (by simp [E.args, ha])) s2 hb2).bind ?_
    intro s3 o hb3 hl3 _
    have e : callOf (rep pre J s3) d2 o = callOf s3 d2 o := by cases o <;> simp [callOf]
    dsimp only
    rw [← rep_setfree, e]
    exact Rp.ok (hb3.same rfl rfl rfl) (Nat.le_refl _) trivial
  | other e h1 h2 h3 h4 =>
    intro _ s h
    cases e <;> first | exact (h1 rfl).elim | exact (h2 _ _ rfl).elim | exact (h3 _ _ rfl).elim | exact (h4 _ _ _ rfl).elim | (simp only [genArgs]; exact rfl)

theorem endcall_rp {s : FS} (h : Bar pre.length s) (base : Nat) (o : Option OpenCall) :
    Rp pre J s.code.length (.ok (endcall (rep pre J s) base o)) (.ok (endcall s base o)) (Pos pre.length) := by
  have e : callOf (rep pre J s) base o = callOf s base o := by cases o <;> simp [callOf]
  unfold endcall
  rw [e]
  dsimp only
  rw [emit_rep h, ← rep_setfree]
  exact Rp.ok ((emit_bar h (.call _ _ _ _)).same rfl rfl rfl)
    (by show _ ≤ (emit s (.call _ _ _ _)).code.length; rw [emit_length]; omega) ⟨trivial, PosL.nil, PosL.nil⟩

theorem gen_rp (F : FOps) (fixed : Bool) : ∀ (e : E) (s : FS), Bar pre.length s →
    Rp pre J s.code.length (gen F fixed e (rep pre J s)) (gen F fixed e s) (Pos pre.length) := by
  have triv : ∀ (s : FS) (k : Kind) (tm : Typed.TM), Bar pre.length s → PosK pre.length s k →
      Rp pre J s.code.length (.ok (rep pre J s, { kind := k, tm := tm })) (.ok (s, { kind := k, tm := tm }))
        (Pos pre.length) := fun s k tm h hk => Rp.ok h (Nat.le_refl _) ⟨hk, PosL.nil, PosL.nil⟩
  intro e
  induction e with
  | nil => intro s h; exact triv _ _ _ h trivial
  | tru => intro s h; exact triv _ _ _ h trivial
  | fls => intro s h; exact triv _ _ _ h trivial
  | int i => intro s h; exact triv _ _ _ h trivial
  | flt x => intro s h; exact triv _ _ _ h trivial
  | loc r => intro s h; exact triv _ _ _ h trivial
  | up u => intro s h; exact triv _ _ _ h trivial
  | str b =>
    intro s h
    simp only [gen]
    rw [addK_rep]
    exact Rp.imp (triv _ _ _ (h.addK _) trivial) (by rw [(addK_same _ _).1]; exact Nat.le_refl _) (fun _ _ _ _ h => h)
  | tnew => intro s h; exact emit_next_rp h _ rfl _
  | func i => intro s h; exact emit_next_rp h _ rfl _
  | paren a iha =>
    intro s h
    simp only [gen]
    refine (iha s h).bind ?_
    intro s1 d1 hb hl hp
    exact (dischargevars_rq hb hp).toRp
  | bin o a b iha ihb =>
    intro s h
    simp only [gen]
    refine (iha s h).bind ?_
    intro s1 d1 hb hl hp
    refine (infixArith_rp hb hp).bind ?_
    intro s2 d2 hb2 hl2 hp2
    refine (ihb s2 hb2).bind ?_
    intro s3 d3 hb3 hl3 hp3
    exact posfixArith_rp hb3 o (hp2.mono hl3) hp3
  | cmp o a b iha ihb =>
    intro s h
    simp only [gen]
    refine (iha s h).bind ?_
    intro s1 d1 hb hl hp
    refine (exp2RK_rp hb hp).bind ?_
    intro s2 d2 hb2 hl2 hp2
    refine (ihb s2 hb2).bind ?_
    intro s3 d3 hb3 hl3 hp3
    exact codecomp_rp hb3 o _ (Pos.mono hp2 hl3) hp3
  | and a b iha ihb =>
    intro s h
    simp only [gen]
    refine (iha s h).bind ?_
    intro s1 d1 hb hl hp
    refine (goiftrue_rp hb hp).bind ?_
    rintro s2 d2 hb2 hl2 ⟨hp2, _⟩
    refine (ihb s2 hb2).bind ?_
    intro s3 d3 hb3 hl3 hp3
    obtain ⟨h1, h2, h3, h4⟩ := dischargevars_rq (J := J) hb3 hp3
    dsimp only
    rw [h1]
    exact Rp.ok h2 h3 ⟨h4.k, h4.t, h4.f.append ((hp2.mono hl3).mono h3)⟩
  | or a b iha ihb =>
    intro s h
    simp only [gen]
    refine (iha s h).bind ?_
    intro s1 d1 hb hl hp
    refine (goiffalse_rp hb hp).bind ?_
    rintro s2 d2 hb2 hl2 ⟨hp2, _⟩
    refine (ihb s2 hb2).bind ?_
    intro s3 d3 hb3 hl3 hp3
    obtain ⟨h1, h2, h3, h4⟩ := dischargevars_rq (J := J) hb3 hp3
    dsimp only
    rw [h1]
    exact Rp.ok h2 h3 ⟨h4.k, h4.t.append ((hp2.mono hl3).mono h3), h4.f⟩
  | not a iha =>
    intro s h
    simp only [gen]
    exact (iha s h).bind (fun s1 d1 hb hl hp => codenot_rp hb hp)
  | un o a iha =>
    intro s h
    simp only [gen]
    exact (iha s h).bind (fun s1 d1 hb hl hp => prefixUn_rp hb o hp)
  | len a iha =>
    intro s h
    simp only [gen]
    exact (iha s h).bind (fun s1 d1 hb hl hp => codelen_rp hb hp)
  | cat a b iha ihb =>
    intro s h
    simp only [gen]
    refine (iha s h).bind ?_
    intro s1 d1 hb hl hp
    refine (exp2nextreg_rp hb hp).bind ?_
    intro s2 d2 hb2 hl2 hp2
    refine (ihb s2 hb2).bind ?_
    intro s3 d3 hb3 hl3 hp3
    exact posfixCat_rp hb3 _ (Pos.mono hp2 hl3) hp3
  | index a b iha ihb =>
    intro s h
    simp only [gen]
    refine (iha s h).bind ?_
    intro s1 d1 hb hl hp
    refine (exp2anyregup_rp hb hp).bind ?_
    intro s2 d2 hb2 hl2 hp2
    refine (ihb s2 hb2).bind ?_
    intro s3 d3 hb3 hl3 hp3
    refine (exp2val_rp hb3 hp3).bind ?_
    intro s4 d4 hb4 hl4 hp4
    exact indexed_rp hb4 ((hp2.mono hl3).mono hl4) hp4
  | call f as ihf iha =>
    intro s h
    simp only [gen]
    refine (ihf s h).bind ?_
    intro s1 d1 hb hl hp
    refine (exp2nextreg_rp hb hp).bind ?_
    intro s2 d2 hb2 hl2 hp2
    refine (genArgs_rp F fixed as iha s2 hb2).bind ?_
    intro s3 o hb3 hl3 _
    exact endcall_rp hb3 _ o
  | anil => intro s h; simp only [gen]; exact rfl
  | acons a r => intro s h; simp only [gen]; exact rfl
  | aopen f as => intro s h; simp only [gen]; exact rfl
  | amopen f k as => intro s h; simp only [gen]; exact rfl
  | mcall f k as ihf iha =>
    intro s h
    simp only [gen]
    refine (ihf s h).bind ?_
    intro s1 d1 hb hl hp
    dsimp only
    rw [addK_rep]
    have hc : (addK s1 (.str k)).1.code = s1.code := (addK_same _ _).1
    refine Rp.imp (L := (addK s1 (.str k)).1.code.length) ((selfOp_rp (hb.addK _) (hp.mono (by rw [hc]; exact Nat.le_refl _)) _).bind ?_)
      (by rw [hc]; exact Nat.le_refl _) (fun _ _ _ _ h => h)
    intro s2 d2 hb2 hl2 _
    refine (genArgs_rp F fixed as iha s2 hb2).bind ?_
    intro s3 o hb3 hl3 _
    exact endcall_rp hb3 _ o

end Verif.Stat
