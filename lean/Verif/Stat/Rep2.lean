import Verif.Stat.Rep
/-! Replacing the code before an expression: the generator functions. -/
namespace Verif.Stat
open Verif.ExpCode
open Verif.Fold (FOps BOp UOp)

variable {pre : List Instr} {J : List Nat} {α β : Type}

/-- the same result on the state with other code before -/
def Rq (pre : List Instr) (J : List Nat) (L : Nat) (a b : FS × α) (Q : FS → α → Prop) : Prop :=
  a = (rep pre J b.1, b.2) ∧ Bar pre.length b.1 ∧ L ≤ b.1.code.length ∧ Q b.1 b.2

def Rp (pre : List Instr) (J : List Nat) (L : Nat) (a b : Res (FS × α)) (Q : FS → α → Prop) : Prop :=
  match b with
  | .ok (s, x) => a = .ok (rep pre J s, x) ∧ Bar pre.length s ∧ L ≤ s.code.length ∧ Q s x
  | .err e => a = .err e
  | .ub => a = .ub

theorem Rp.bind {L : Nat} {a b : Res (FS × α)} {Q : FS → α → Prop} (h : Rp pre J L a b Q)
    {f : FS × α → Res (FS × β)} {Q' : FS → β → Prop}
    (hf : ∀ s x, Bar pre.length s → L ≤ s.code.length → Q s x →
      Rp pre J s.code.length (f (rep pre J s, x)) (f (s, x)) Q') :
    Rp pre J L (a >>= f) (b >>= f) Q' := by
  unfold Rp at h
  rcases b with ⟨s, x⟩ | e | _
  · obtain ⟨rfl, h1, h2, h3⟩ := h
    have := hf s x h1 h2 h3
    show Rp pre J L (f (rep pre J s, x)) (f (s, x)) Q'
    unfold Rp at this ⊢
    generalize f (s, x) = fx at this ⊢
    rcases fx with ⟨s', y⟩ | e | _
    · obtain ⟨a, b, c, d⟩ := this
      exact ⟨a, b, Nat.le_trans h2 c, d⟩
    · exact this
    · exact this
  · dsimp only at h; subst h; exact rfl
  · dsimp only at h; subst h; exact rfl

theorem Rp.ok {L : Nat} {s : FS} {x : α} {Q : FS → α → Prop} (h1 : Bar pre.length s) (h2 : L ≤ s.code.length) (h3 : Q s x) :
    Rp pre J L (.ok (rep pre J s, x)) (.ok (s, x)) Q := ⟨rfl, h1, h2, h3⟩

theorem Rq.toRp {L : Nat} {a b : FS × α} {Q : FS → α → Prop} (h : Rq pre J L a b Q) : Rp pre J L (.ok a) (.ok b) Q := by
  obtain ⟨h1, h2, h3, h4⟩ := h
  subst h1
  exact ⟨rfl, h2, h3, h4⟩

theorem Rp.imp {L L' : Nat} {a b : Res (FS × α)} {Q Q' : FS → α → Prop} (h : Rp pre J L a b Q) (hL : L' ≤ L)
    (hq : ∀ s x, Bar pre.length s → L ≤ s.code.length → Q s x → Q' s x) : Rp pre J L' a b Q' := by
  unfold Rp at h ⊢
  rcases b with ⟨s, x⟩ | e | _
  · obtain ⟨h1, h2, h3, h4⟩ := h; exact ⟨h1, h2, Nat.le_trans hL h3, hq s x h2 h3 h4⟩
  · exact h
  · exact h

theorem reserve_rp {s : FS} (h : Bar pre.length s) {n : Nat} {f : FS → Res (FS × β)} {Q' : FS → β → Prop}
    (hf : ∀ s', s' = { s with freereg := s.freereg + n } → Bar pre.length s' →
      Rp pre J s.code.length (f (rep pre J s')) (f s') Q') :
    Rp pre J s.code.length (reserve (rep pre J s) n >>= f) (reserve s n >>= f) Q' := by
  unfold reserve
  rw [rep_freereg]
  split
  · exact rfl
  · have := hf _ rfl (h.same rfl rfl rfl)
    rw [rep_setfree s (s.freereg + n)] at this
    exact this

/-! ### discharging -/

theorem dischargevars_rq {s : FS} (h : Bar pre.length s) {d : D} (hd : Pos pre.length s d) :
    Rq pre J s.code.length (dischargevars (rep pre J s) d) (dischargevars s d) (Pos pre.length) := by
  unfold dischargevars
  have emi : ∀ (s' : FS) (i : Instr) (tm : Typed.TM), isRet i = false → Bar pre.length s' → s'.code.length = s.code.length →
      Rq pre J s.code.length (emit (rep pre J s') i, { d with kind := .reloc (rep pre J s').pc, tm := tm })
        (emit s' i, { d with kind := .reloc s'.pc, tm := tm }) (Pos pre.length) := by
    intro s' i tm hi h' e
    have hl : s.code.length ≤ (emit s' i).code.length := by rw [emit_length]; omega
    refine ⟨by rw [emit_rep h', rep_pc h'.le], emit_bar h' i hi, hl, ⟨?_, hd.t.mono hl, hd.f.mono hl⟩⟩
    exact ⟨h'.le, by rw [emit_length]; exact Nat.lt_succ_self _⟩
  split
  · exact ⟨rfl, h, Nat.le_refl _, ⟨trivial, hd.t, hd.f⟩⟩
  · exact emi s _ _ rfl h rfl
  · rename_i t x _
    dsimp only
    rw [freeRK_rep, freeReg_rep]
    refine emi _ _ _ rfl ((h.freeRK x).freeReg t) ?_
    rw [(freeReg_same _ _).1, (freeRK_same _ _).1]
  · rename_i u x _
    dsimp only
    rw [freeRK_rep]
    refine emi _ _ _ rfl (h.freeRK x) ?_
    rw [(freeRK_same _ _).1]
  · exact ⟨rfl, h, Nat.le_refl _, hd⟩

theorem discharge2reg_rq {s : FS} (h : Bar pre.length s) {d : D} (hd : Pos pre.length s d) (reg : Nat) :
    Rq pre J s.code.length (discharge2reg (rep pre J s) d reg) (discharge2reg s d reg) (Pos pre.length) := by
  obtain ⟨h1, h2, h3, h4⟩ := dischargevars_rq (J := J) h hd
  unfold discharge2reg
  rw [h1]
  generalize dischargevars s d = x at h2 h3 h4
  obtain ⟨s1, d1⟩ := x
  dsimp only at h2 h3 h4 ⊢
  have non : ∀ s2, Bar pre.length s2 → s1.code.length ≤ s2.code.length →
      Bar pre.length s2 ∧ s.code.length ≤ s2.code.length ∧ Pos pre.length s2 { d1 with kind := .nonreloc reg } :=
    fun s2 hb hl => ⟨hb, Nat.le_trans h3 hl, trivial, h4.t.mono hl, h4.f.mono hl⟩
  have emi : ∀ (s2 : FS) (i : Instr), isRet i = false → Bar pre.length s2 → s1.code.length = s2.code.length →
      Rq pre J s.code.length (emit (rep pre J s2) i, { d1 with kind := .nonreloc reg })
        (emit s2 i, { d1 with kind := .nonreloc reg }) (Pos pre.length) :=
    fun s2 i hi hb e => ⟨by rw [emit_rep hb], non _ (emit_bar hb i hi) (by rw [emit_length]; omega)⟩
  cases hk : d1.kind with
  | nil =>
    dsimp only
    obtain ⟨a, b⟩ := codeNil_bar h2 reg
    exact ⟨by rw [codeNil_rep h2], non _ a b⟩
  | tru => exact emi _ _ rfl h2 rfl
  | fls => exact emi _ _ rfl h2 rfl
  | k i => exact emi _ _ rfl h2 rfl
  | kflt x =>
    dsimp only
    rw [addK_rep]
    exact emi _ _ rfl (h2.addK _) (by rw [(addK_same _ _).1])
  | kint x =>
    dsimp only
    rw [addK_rep]
    exact emi _ _ rfl (h2.addK _) (by rw [(addK_same _ _).1])
  | reloc pc =>
    dsimp only
    have hp := h4.k
    rw [hk] at hp
    have hl : (s1.code.modify pc (·.setDest reg)).length = s1.code.length := List.length_modify ..
    exact ⟨by rw [modify_rep h2 hp.1], non _ (h2.setCode hl (h2.nr.modify _ (fun i hi => by cases i <;> first | exact hi | rfl))) (Nat.le_of_eq hl.symm)⟩
  | nonreloc r =>
    dsimp only
    split
    · exact ⟨rfl, non _ h2 (Nat.le_refl _)⟩
    · exact emi _ _ rfl h2 rfl
  | _ => exact ⟨rfl, h2, h3, h4⟩

theorem discharge2anyreg_rp {s : FS} (h : Bar pre.length s) {d : D} (hd : Pos pre.length s d) :
    Rp pre J s.code.length (discharge2anyreg (rep pre J s) d) (discharge2anyreg s d)
      (fun s x => Pos pre.length s x.1) := by
  have main : Rp pre J s.code.length
      (reserve (rep pre J s) 1 >>= fun s => (let r := s.freereg - 1
        let x := discharge2reg s d r
        .ok (x.1, x.2, r) : Res (FS × D × Nat)))
      (reserve s 1 >>= fun s => (let r := s.freereg - 1
        let x := discharge2reg s d r
        .ok (x.1, x.2, r) : Res (FS × D × Nat))) (fun s x => Pos pre.length s x.1) := by
    refine reserve_rp h ?_
    rintro s' rfl hb
    dsimp only
    obtain ⟨h1, h2, h3, h4⟩ := discharge2reg_rq (J := J) (s := { s with freereg := s.freereg + 1 }) (d := d) hb
      ⟨hd.k, hd.t, hd.f⟩ (s.freereg + 1 - 1)
    rw [rep_freereg, h1]
    exact Rp.ok h2 h3 h4
  unfold discharge2anyreg
  cases hk : d.kind with
  | nonreloc r => exact Rp.ok h (Nat.le_refl _) hd
  | _ => exact main

theorem needValue_ne {c : List Instr} {t f : List Nat} (h : (needValue c t || needValue c f) = true) : t ++ f ≠ [] := by
  intro e
  obtain ⟨rfl, rfl⟩ := List.append_eq_nil_iff.1 e
  cases h

theorem exp2regJumps_rq {s : FS} (h : Bar pre.length s) (isJmp : Bool) {t f : List Nat} (ht : PosL pre.length s t)
    (hf : PosL pre.length s f) (reg : Nat) :
    exp2regJumps (rep pre J s) isJmp t f reg = rep pre J (exp2regJumps s isJmp t f reg) ∧
    Bar pre.length (exp2regJumps s isJmp t f reg) ∧ s.code.length ≤ (exp2regJumps s isJmp t f reg).code.length := by
  have fin : ∀ (s2 : FS) (pf pt : Nat), Bar pre.length s2 → s.code.length ≤ s2.code.length →
      ({ getlabel (rep pre J s2) with
        code := patchlistaux (patchlistaux (rep pre J s2).code f (rep pre J s2).pc (some reg) pf) t (rep pre J s2).pc (some reg) pt } : FS)
      = rep pre J { getlabel s2 with
        code := patchlistaux (patchlistaux s2.code f s2.pc (some reg) pf) t s2.pc (some reg) pt } ∧
      Bar pre.length { getlabel s2 with
        code := patchlistaux (patchlistaux s2.code f s2.pc (some reg) pf) t s2.pc (some reg) pt } ∧
      s.code.length ≤ (patchlistaux (patchlistaux s2.code f s2.pc (some reg) pf) t s2.pc (some reg) pt).length := by
    intro s2 pf pt hb hl
    have hlen : (patchlistaux (patchlistaux s2.code f s2.pc (some reg) pf) t s2.pc (some reg) pt).length = s2.code.length := by
      rw [patchlistaux_length, patchlistaux_length]
    refine ⟨?_, (getlabel_bar hb).setCode hlen hb.nr.patchlistaux.patchlistaux, by omega⟩
    have e0 := getlabel_rep (J := J) hb.le
    have e3 := rep_pc (J := J) hb.le
    have e1 := rep_code (J := J) (s := getlabel s2)
      (fun c => patchlistaux (patchlistaux c f s2.pc (some reg) pf) t s2.pc (some reg) pt) hb.le
      (fun _ => by
        rw [phiC_patchlistaux (fun j hj => (hf j hj).1), phiC_patchlistaux (fun j hj => (ht j hj).1)])
      (by rw [patchlistaux_length, patchlistaux_length])
      (fun e => by
        have e : s2.code.length = pre.length := e
        rw [(hf.mono (s' := s2) hl).empty e, (ht.mono (s' := s2) hl).empty e]; rfl)
    refine Eq.trans ?_ e1
    rw [← e0, e3]
    rfl
  unfold exp2regJumps
  rw [needValue_rep h ht, needValue_rep h hf]
  by_cases hn : (needValue s.code t || needValue s.code f) = true
  · rw [if_pos hn, if_pos hn]
    have hgt : pre.length < s.code.length := by
      have := needValue_ne hn
      exact (ht.append hf).gt this
    have hjs : ∃ s1 fj, (if isJmp then (s, []) else jump s) = (s1, fj) ∧
        (if isJmp then (rep pre J s, []) else jump (rep pre J s)) = (rep pre J s1, fj) ∧ Bar pre.length s1 ∧
        s.code.length ≤ s1.code.length ∧ PosL pre.length s1 fj := by
      cases isJmp with
      | true => exact ⟨s, [], rfl, rfl, h, Nat.le_refl _, PosL.nil⟩
      | false =>
        obtain ⟨a, b⟩ := jump_bar h hgt
        exact ⟨(jump s).1, (jump s).2, rfl, by exact jump_rep hgt, a, by rw [jump_length]; omega, b⟩
    obtain ⟨s1, fj, e1, e2, b1, l1, p1⟩ := hjs
    rw [e1, e2]
    dsimp only
    have g1 := getlabel_bar b1
    rw [getlabel_rep b1.le, emit_rep g1]
    have b2 := emit_bar g1 (.loadbool reg false true)
    rw [getlabel_rep b2.le, emit_rep (getlabel_bar b2)]
    have b3 := emit_bar (getlabel_bar b2) (.loadbool reg true false)
    have l3 : s1.code.length ≤ (emit (getlabel (emit (getlabel s1) (.loadbool reg false true))) (.loadbool reg true false)).code.length := by
      rw [emit_length]
      show s1.code.length ≤ (emit (getlabel s1) (.loadbool reg false true)).code.length + 1
      rw [emit_length]
      show s1.code.length ≤ s1.code.length + 1 + 1
      omega
    have p3 := p1.mono l3
    rw [patchtohere_rep b3 p3, rep_pc b1.le, rep_pc b2.le]
    exact fin _ _ _ (patchtohere_bar b3 p3) (Nat.le_trans l1 l3)
  · rw [if_neg hn, if_neg hn]
    have e3 := rep_pc (J := J) h.le
    have := fin s s.pc s.pc h (Nat.le_refl _)
    rw [e3] at this
    refine ⟨?_, this.2⟩
    refine Eq.trans ?_ this.1
    show ({ getlabel (rep pre J s) with code := patchlistaux (patchlistaux (rep pre J s).code f (rep pre J s).pc (some reg) (rep pre J s).pc) t (rep pre J s).pc (some reg) (rep pre J s).pc } : FS) = _
    rw [e3]

theorem exp2reg_rq {s : FS} (h : Bar pre.length s) {d : D} (hd : Pos pre.length s d) (reg : Nat) :
    Rq pre J s.code.length (exp2reg (rep pre J s) d reg) (exp2reg s d reg) (Pos pre.length) := by
  obtain ⟨h1, h2, h3, h4⟩ := discharge2reg_rq (J := J) h hd reg
  unfold exp2reg
  rw [h1]
  generalize discharge2reg s d reg = x at h2 h3 h4
  obtain ⟨s1, d1⟩ := x
  dsimp only at h2 h3 h4 ⊢
  have fin : ∀ s2, Bar pre.length s2 → s1.code.length ≤ s2.code.length →
      Rq pre J s.code.length (rep pre J s2, { d1 with kind := .nonreloc reg, t := [], f := [] })
        (s2, { d1 with kind := .nonreloc reg, t := [], f := [] }) (Pos pre.length) :=
    fun s2 hb hl => ⟨rfl, hb, Nat.le_trans h3 hl, trivial, PosL.nil, PosL.nil⟩
  have key : ∀ (b : Bool) (T : List Nat), PosL pre.length s1 T →
      Rq pre J s.code.length
        (if (!T.isEmpty || !d1.f.isEmpty) = true then exp2regJumps (rep pre J s1) b T d1.f reg else rep pre J s1,
          { d1 with kind := .nonreloc reg, t := [], f := [] })
        (if (!T.isEmpty || !d1.f.isEmpty) = true then exp2regJumps s1 b T d1.f reg else s1,
          { d1 with kind := .nonreloc reg, t := [], f := [] }) (Pos pre.length) := by
    intro b T hT
    split
    · obtain ⟨a1, a2, a3⟩ := exp2regJumps_rq (J := J) h2 b hT h4.f reg
      rw [a1]
      exact fin _ a2 a3
    · exact fin _ h2 (Nat.le_refl _)
  have hk := h4.k
  cases e : d1.kind with
  | jmp j =>
    rw [e] at hk
    refine key true (d1.t ++ [j]) (h4.t.append ?_)
    intro i hi
    rw [List.mem_singleton] at hi
    subst hi
    exact hk
  | _ => exact key false d1.t h4.t

theorem exp2nextreg_rp {s : FS} (h : Bar pre.length s) {d : D} (hd : Pos pre.length s d) :
    Rp pre J s.code.length (exp2nextreg (rep pre J s) d) (exp2nextreg s d) (fun s x => Pos pre.length s x.1) := by
  obtain ⟨h1, h2, h3, h4⟩ := dischargevars_rq (J := J) h hd
  unfold exp2nextreg
  rw [h1]
  generalize dischargevars s d = x at h2 h3 h4
  obtain ⟨s1, d1⟩ := x
  dsimp only at h2 h3 h4 ⊢
  rw [freeexp_rep]
  have hb := h2.freeexp d1
  have hc := (freeexp_same s1 d1).1
  refine Rp.imp (reserve_rp hb (Q' := fun s x => Pos pre.length s x.1) ?_) (by rw [hc]; exact h3) (fun _ _ _ _ h => h)
  rintro s' rfl hb'
  dsimp only
  obtain ⟨k1, k2, k3, k4⟩ := exp2reg_rq (J := J) hb' (d := d1)
    (h4.mono (by show s1.code.length ≤ (freeexp s1 d1).code.length; rw [hc]; exact Nat.le_refl _))
    ((freeexp s1 d1).freereg + 1 - 1)
  rw [rep_freereg, k1]
  exact Rp.ok k2 k3 k4

theorem exp2anyreg_rp {s : FS} (h : Bar pre.length s) {d : D} (hd : Pos pre.length s d) :
    Rp pre J s.code.length (exp2anyreg (rep pre J s) d) (exp2anyreg s d) (fun s x => Pos pre.length s x.1) := by
  obtain ⟨h1, h2, h3, h4⟩ := dischargevars_rq (J := J) h hd
  unfold exp2anyreg
  rw [h1]
  generalize dischargevars s d = x at h2 h3 h4
  obtain ⟨s1, d1⟩ := x
  dsimp only at h2 h3 h4 ⊢
  have nx := (exp2nextreg_rp (J := J) h2 h4).imp h3 (fun _ _ _ _ h => h)
  rw [rep_nactvar]
  split
  · split
    · exact Rp.ok h2 h3 h4
    · split
      · rename_i r _ _ _
        obtain ⟨k1, k2, k3, k4⟩ := exp2reg_rq (J := J) h2 h4 r
        rw [k1]
        exact Rp.ok k2 (Nat.le_trans h3 k3) k4
      · exact nx
  · exact nx

theorem exp2val_rp {s : FS} (h : Bar pre.length s) {d : D} (hd : Pos pre.length s d) :
    Rp pre J s.code.length (exp2val (rep pre J s) d) (exp2val s d) (Pos pre.length) := by
  unfold exp2val
  split
  · exact (exp2anyreg_rp h hd).bind (fun s x hb hl hp => Rp.ok hb (Nat.le_refl _) hp)
  · exact (dischargevars_rq h hd).toRp

theorem constOf_rep (s : FS) (d : D) : constOf (rep pre J s) d = (constOf s d).map (fun p => (rep pre J p.1, p.2)) := by
  unfold constOf
  cases d.kind <;> first | rfl | exact congrArg some (addK_rep s _)

theorem constOf_same {s s' : FS} {d : D} {i : Nat} (h : constOf s d = some (s', i)) :
    s'.code = s.code ∧ s'.jpc = s.jpc ∧ s'.lasttarget = s.lasttarget := by
  unfold constOf at h
  have aux : ∀ v, some (addK s v) = some (s', i) → s'.code = s.code ∧ s'.jpc = s.jpc ∧ s'.lasttarget = s.lasttarget := by
    intro v e
    have e := Option.some.inj e
    obtain ⟨a, b, c, _⟩ := addK_same s v
    rw [e] at a b c
    exact ⟨a, b, c⟩
  split at h
  · exact aux _ h
  · exact aux _ h
  · exact aux _ h
  · exact aux _ h
  · exact aux _ h
  · cases h; exact ⟨rfl, rfl, rfl⟩
  · cases h

theorem exp2RK_rp {s : FS} (h : Bar pre.length s) {d : D} (hd : Pos pre.length s d) :
    Rp pre J s.code.length (exp2RK (rep pre J s) d) (exp2RK s d) (fun s x => Pos pre.length s x.1) := by
  unfold exp2RK
  refine (exp2val_rp h hd).bind ?_
  intro s1 d1 hb hl hp
  dsimp only
  rw [constOf_rep]
  cases hc : constOf s1 d1 with
  | none =>
    simp only [Option.map_none]
    exact (exp2anyreg_rp hb hp).bind (fun s x hb hl hp => Rp.ok hb (Nat.le_refl _) hp)
  | some p =>
    obtain ⟨s2, i⟩ := p
    simp only [Option.map_some]
    obtain ⟨c1, c2, c3⟩ := constOf_same hc
    have hb2 := hb.same c1 c2 c3
    have hp2 : Pos pre.length s2 { d1 with kind := .k i } :=
      ⟨trivial, hp.t.mono (by rw [c1]; exact Nat.le_refl _), hp.f.mono (by rw [c1]; exact Nat.le_refl _)⟩
    split
    · exact Rp.ok hb2 (by rw [c1]; exact Nat.le_refl _) hp2
    · refine Rp.imp ((exp2anyreg_rp hb2 hp2).bind (Q' := fun s x => Pos pre.length s x.1)
        (fun s x hb hl hp => Rp.ok hb (Nat.le_refl _) hp)) (by rw [c1]; exact Nat.le_refl _) (fun _ _ _ _ h => h)

end Verif.Stat
