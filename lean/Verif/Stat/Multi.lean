import Verif.Stat.Expr
import Verif.Assign.Main
/-! The code of an assignment. -/
namespace Verif.Stat
open Verif.ExpCode
open Verif.Fold (FOps)
open Verif.Assign (assignMulti assignAll Lhs genLhs genVars checkVar checkConflict storevar storeRest assignment assign put putAll evalVars)
variable {W : Type} {P : Ops W} {α : Type}

/-! ### other code before -/

def unit (r : Res FS) : Res (FS × Unit) := r >>= fun s => (.ok (s, ()) : Res (FS × Unit))

theorem unit_bind {β : Type} (x : Res β) (f : β → Res FS) : unit (x >>= f) = x >>= fun a => unit (f a) := by
  cases x <;> rfl

theorem genLhs_rp (F : FOps) (fixed : Bool) {pre : List Instr} {J : List Nat} (v : Lhs) (s : FS) (h : Bar pre.length s) :
    Rp pre J s.code.length (genLhs F fixed v (rep pre J s)) (genLhs F fixed v s) (fun _ _ => True) := by
  cases v with
  | loc x => exact Rp.ok h (Nat.le_refl _) trivial
  | up u => exact Rp.ok h (Nat.le_refl _) trivial
  | index a b =>
    simp only [genLhs]
    exact (gen_rp F fixed _ s h).bind (fun s1 d1 hb hl hp => Rp.ok hb (Nat.le_refl _) trivial)

theorem checkVar_rp {pre : List Instr} {J : List Nat} (lh : List Kind) (v : Kind) (s : FS) (h : Bar pre.length s) :
    Rp pre J s.code.length (checkVar (rep pre J s) lh v) (checkVar s lh v) (fun _ _ => True) := by
  have key : Rp pre J s.code.length (checkConflict (rep pre J s) lh v) (checkConflict s lh v) (fun _ _ => True) := by
    unfold checkConflict
    rw [rep_freereg]
    split
    · rw [emit_rep h]
      have hr : isRet (Assign.copyInstr v s.freereg) = false := by cases v <;> rfl
      have := reserve_rp (J := J) (emit_bar h (Assign.copyInstr v s.freereg) hr) (n := 1)
        (f := fun s' => (.ok (s', lh.map fun k => (Assign.conflict v s.freereg k).1) : Res (FS × List Kind))) (Q' := fun _ _ => True)
        (fun s1 hs hb => Rp.ok hb (by rw [hs]; exact Nat.le_refl _) trivial)
      exact this.imp (by rw [emit_length]; omega) (fun _ _ _ _ h => h)
    · exact Rp.ok h (Nat.le_refl _) trivial
  unfold checkVar
  split
  · exact Rp.ok h (Nat.le_refl _) trivial
  · exact Rp.ok h (Nat.le_refl _) trivial
  · exact key

theorem genVars_rp (F : FOps) (fixed : Bool) {pre : List Instr} {J : List Nat} : ∀ (vs : List Lhs) (s : FS) (lh : List Kind),
    Bar pre.length s → Rp pre J s.code.length (genVars F fixed vs (rep pre J s) lh) (genVars F fixed vs s lh) (fun _ _ => True) := by
  intro vs
  induction vs with
  | nil => intro s lh h; exact Rp.ok h (Nat.le_refl _) trivial
  | cons v vs ih =>
    intro s lh h
    simp only [genVars]
    refine (genLhs_rp F fixed v s h).bind ?_
    intro s1 k hb hl _
    refine (checkVar_rp lh k s1 hb).bind ?_
    intro s2 lh2 hb2 hl2 _
    exact ih s2 _ hb2

theorem storevar_rp {pre : List Instr} {J : List Nat} {s : FS} (h : Bar pre.length s) {d : D} (hd : Pos pre.length s d) (v : Kind) :
    Rp pre J s.code.length (unit (storevar (rep pre J s) v d)) (unit (storevar s v d)) (fun _ _ => True) := by
  have fin : ∀ {s : FS} (i : Instr) (d : D), isRet i = false → Bar pre.length s →
      Rp pre J s.code.length (.ok (freeexp (emit (rep pre J s) i) d, ())) (.ok (freeexp (emit s i) d, ())) (fun _ _ => True) := by
    intro s i d hi hb
    rw [emit_rep hb, freeexp_rep]
    exact Rp.ok ((emit_bar hb i hi).freeexp d) (by rw [(freeexp_same _ d).1, emit_length]; omega) trivial
  unfold storevar
  cases v with
  | loc x => exact storelocal_rq h hd x
  | up u =>
    dsimp only
    rw [unit_bind, unit_bind]
    exact (exp2anyreg_rp h hd).bind (fun s1 x hb hl hp => fin _ _ rfl hb)
  | indexed t i =>
    dsimp only
    rw [unit_bind, unit_bind]
    exact (exp2RK_rp h hd).bind (fun s1 x hb hl hp => fin _ _ rfl hb)
  | indexup t i =>
    dsimp only
    rw [unit_bind, unit_bind]
    exact (exp2RK_rp h hd).bind (fun s1 x hb hl hp => fin _ _ rfl hb)
  | _ => exact rfl

theorem storeRest_rp {pre : List Instr} {J : List Nat} : ∀ (vs : List Kind) (s : FS), Bar pre.length s →
    Rp pre J s.code.length (unit (storeRest vs (rep pre J s))) (unit (storeRest vs s)) (fun _ _ => True) := by
  intro vs
  induction vs with
  | nil => intro s h; exact Rp.ok h (Nat.le_refl _) trivial
  | cons v vs ih =>
    intro s h
    have assoc : ∀ s : FS, unit (storeRest (v :: vs) s) =
        unit (storevar s v { kind := .nonreloc (s.freereg - 1), tm := Typed.tANY }) >>= fun x => unit (storeRest vs x.1) := by
      intro s
      simp only [storeRest]
      cases storevar s v { kind := .nonreloc (s.freereg - 1), tm := Typed.tANY } <;> rfl
    rw [assoc, assoc, rep_freereg]
    refine (storevar_rp h (d := { kind := .nonreloc (s.freereg - 1), tm := Typed.tANY }) ⟨trivial, PosL.nil, PosL.nil⟩ v).bind ?_
    intro s1 _ hb hl _
    exact ih s1 hb

theorem assignment_rp (F : FOps) (fixed : Bool) {pre : List Instr} {J : List Nat} (vs : List Lhs) (es : List E) (e : E) (s : FS)
    (h : Bar pre.length s) :
    Rp pre J s.code.length (unit (assignment F fixed vs es e (rep pre J s))) (unit (assignment F fixed vs es e s)) (fun _ _ => True) := by
  unfold assignment
  rw [unit_bind, unit_bind]
  refine (genVars_rp F fixed vs s [] h).bind ?_
  intro s1 lh hb hl _
  dsimp only
  split
  · cases lh with
    | nil =>
      have assoc : ∀ s : FS, unit (genList F fixed es s >>= fun s => gen F fixed e s >>= fun _ => (.ub : Res FS)) =
          (genList F fixed es s >>= fun s => (.ok (s, ()) : Res (FS × Unit))) >>= fun x => gen F fixed e x.1 >>= fun _ => .ub := by
        intro s
        cases genList F fixed es s with
        | err m => rfl
        | ub => rfl
        | ok s =>
          simp only [Res.bind_ok]
          cases gen F fixed e s <;> rfl
      dsimp only
      rw [assoc, assoc]
      refine (genList_rp F fixed es s1 hb).bind ?_
      intro s2 _ hb2 hl2 _
      refine (gen_rp F fixed e s2 hb2).bind ?_
      intro s3 d hb3 hl3 hp
      exact rfl
    | cons v lh =>
      have assoc : ∀ s : FS, unit (genList F fixed es s >>= fun s => gen F fixed e s >>= fun x =>
            storevar x.1 v x.2 >>= fun s => storeRest lh s) =
          (genList F fixed es s >>= fun s => (.ok (s, ()) : Res (FS × Unit))) >>= fun x => gen F fixed e x.1 >>= fun x =>
            unit (storevar x.1 v x.2) >>= fun y => unit (storeRest lh y.1) := by
        intro s
        cases genList F fixed es s with
        | err m => rfl
        | ub => rfl
        | ok s =>
          simp only [Res.bind_ok]
          cases gen F fixed e s with
          | err m => rfl
          | ub => rfl
          | ok x =>
            simp only [Res.bind_ok]
            cases storevar x.1 v x.2 <;> rfl
      dsimp only
      rw [assoc, assoc]
      refine (genList_rp F fixed es s1 hb).bind ?_
      intro s2 _ hb2 hl2 _
      refine (gen_rp F fixed e s2 hb2).bind ?_
      intro s3 d hb3 hl3 hp
      refine (storevar_rp hb3 hp v).bind ?_
      intro s4 _ hb4 hl4 _
      exact storeRest_rp lh s4 hb4
  · have assoc : ∀ (l : List E) (s : FS) (m : Nat), unit (genList F fixed l s >>= fun s => storeRest lh { s with freereg := s.freereg - m }) =
      (genList F fixed l s >>= fun s => (.ok (s, ()) : Res (FS × Unit))) >>= fun x =>
        unit (storeRest lh { x.1 with freereg := x.1.freereg - m }) := by
      intro l s m
      cases genList F fixed l s <;> rfl
    rw [assoc, assoc]
    refine (genList_rp F fixed _ s1 hb).bind ?_
    intro s2 _ hb2 hl2 _
    dsimp only
    rw [rep_freereg, ← rep_setfree]
    exact storeRest_rp lh _ (hb2.same rfl rfl rfl)

/-! ### the meaning of an assignment depends on the local variables only -/

/-- the same result, as far as the first `n` variables are concerned -/
def Agree (n : Nat) (a b : Res ((Nat → Val) × W)) : Prop :=
  match a with
  | .ok (L, w) => ∃ L', b = .ok (L', w) ∧ ∀ x, x < n → L x = L' x
  | .err m => b = .err m
  | .ub => b = .ub

theorem Agree.bind {n : Nat} {a b : Res ((Nat → Val) × W)} (h : Agree n a b) {f : (Nat → Val) × W → Res ((Nat → Val) × W)}
    (hf : ∀ L L' w, (∀ x, x < n → L x = L' x) → Agree n (f (L, w)) (f (L', w))) : Agree n (a >>= f) (b >>= f) := by
  rcases a with ⟨L, w⟩ | m | _
  · obtain ⟨L', rfl, h⟩ := h
    exact hf _ _ _ h
  · cases h; exact rfl
  · cases h; exact rfl

theorem putAll_agree {n : Nat} : ∀ (ts : List Assign.Tgt) (vs : List Val) (L L' : Nat → Val) (w : W), (∀ x, x < n → L x = L' x) →
    Agree n (putAll P ts vs L w) (putAll P ts vs L' w) := by
  intro ts
  induction ts with
  | nil => intro vs L L' w h; exact ⟨L', rfl, h⟩
  | cons t ts ih =>
    intro vs L L' w h
    cases vs with
    | nil => exact ⟨L', rfl, h⟩
    | cons v vs =>
      simp only [putAll]
      refine (ih vs L L' w h).bind fun M M' w h => ?_
      dsimp only
      cases t with
      | loc x =>
        refine ⟨_, rfl, fun y hy => ?_⟩
        dsimp only
        rw [h y hy]
      | up u => exact ⟨_, rfl, h⟩
      | field t k =>
        simp only [put]
        cases P.setindex t k v w with
        | ok w => exact ⟨_, rfl, h⟩
        | err m => exact rfl
        | ub => exact rfl

theorem assign_agree {n : Nat} {L L' : Nat → Val} (h : ∀ x, x < n → L x = L' x) {vs : List Lhs} (hv : ∀ v ∈ vs, v.ok n) {es : List E}
    (he : ∀ e ∈ es, e.ok n) (w : W) : Agree n (assign P vs es L w) (assign P vs es L' w) := by
  unfold assign
  rw [Assign.evalVars_congr (fun r hr => h r hr) vs hv w]
  cases evalVars P L' vs w with
  | err m => exact rfl
  | ub => exact rfl
  | ok p =>
    simp only [Res.bind_ok]
    rw [evalList_congr (fun r hr => h r hr) _ he]
    cases evalList P L' es p.2 with
    | err m => exact rfl
    | ub => exact rfl
    | ok q => exact putAll_agree _ _ _ _ _ h

/-! ### the piece -/

theorem assign_piece {vs : List Lhs} {es : List E} {e : E} {s s' : FS} (h : assignment P.F true vs es e s = .ok s')
    (hl : s.lasttarget = s.pc) (hna : s.nactvar ≤ s.freereg) (hv : ∀ v ∈ vs, v.ok s.nactvar)
    (hst : ∀ v ∈ vs, v.indexes (Assign.Stable P)) (hok : ∀ e' ∈ es ++ [e], e'.ok s.nactvar) :
    Tr s s' [] ∧ s'.nactvar = s.nactvar ∧
    ∀ K, s'.k <+: K → ∀ X, Inv s.code (s.jpc ++ X) → ∀ C, OK C s' → ∀ (R : Regs) (L : Nat → Val), (∀ x, x < s.nactvar → R x = L x) → ∀ w,
      Then P K C (.run s.pc R w) (assign P vs (es ++ [e]) L w) fun L' w' => ∃ R', (∀ x, x < s.nactvar → R' x = L' x) ∧
        Go P K C (.run s.pc R w) (.run s'.pc R' w') := by
  have h' : unit (assignment P.F true vs es e s) = .ok (s', ()) := by rw [h]; rfl
  obtain ⟨sb, t1, t2, t3, t4, _⟩ := twin (f := fun s => unit (assignment P.F true vs es e s))
    (Q := fun _ _ _ => True) (fun pre J s hb => assignment_rp P.F true vs es e s hb) h' hl
  obtain ⟨s2, e2, t1⟩ := Res.bind_eq_ok.1 t1
  cases t1
  have key := fun K => Assign.assignment_ext (P := P) (K := K) e2 (bar_wf hl) hna hv hst hok
  obtain ⟨g, z2, z3⟩ := key []
  obtain ⟨p1, p2, p3, p4, _⟩ := piece (l := []) t2 t3 t4 z2 (fun _ h => nomatch h) List.nodup_nil
  refine ⟨p1, p2, ?_⟩
  intro K hK X hX C hC R L hR w
  obtain ⟨g, z2, z3⟩ := key K
  obtain ⟨_, _, _, _, p5⟩ := piece (l := []) t2 t3 t4 z2 (fun _ h => nomatch h) List.nodup_nil
  rw [p3] at hK
  have hm := z3 hK R w
  have hx := p5 X hX C hC R w
  have ha := assign_agree (P := P) hR hv hok w
  cases hg : g R w with
  | err m =>
    rw [hg] at hm hx
    rw [show assign P vs (es ++ [e]) R w = .err m from hm] at ha
    rw [show assign P vs (es ++ [e]) L w = .err m from ha]
    exact hx
  | ub =>
    rw [hg] at hm hx
    rw [show assign P vs (es ++ [e]) R w = .ub from hm] at ha
    rw [show assign P vs (es ++ [e]) L w = .ub from ha]
    exact hx
  | ok o =>
    rw [hg] at hm hx
    cases o with
    | exit j R1 w1 => exact hm.elim
    | fall R1 w1 =>
      obtain ⟨⟨L1, w'⟩, h1, rfl, h2⟩ := hm
      rw [h1] at ha
      obtain ⟨L2, h3, h4⟩ := ha
      rw [h3]
      exact ⟨R1, fun x hx => (h2 x hx).trans (h4 x hx), hx⟩

/-! ### lists that end with a call -/

theorem args_rp (F : FOps) (fixed : Bool) {pre : List Instr} {J : List Nat} (as : E) (s : FS) (h : Bar pre.length s) :
    Rp pre J s.code.length (genArgs F fixed as (rep pre J s)) (genArgs F fixed as s) (fun _ _ => True) :=
  genArgs_rp F fixed as (fun a _ s h => gen_rp F fixed a s h) s h

theorem genMulti_rp (F : FOps) (fixed : Bool) {pre : List Instr} {J : List Nat} (as : E) (n : Nat) (s : FS) (h : Bar pre.length s) :
    Rp pre J s.code.length (unit (genMulti F fixed as n (rep pre J s))) (unit (genMulti F fixed as n s)) (fun _ _ => True) := by
  unfold genMulti
  rw [unit_bind, unit_bind]
  refine (args_rp F fixed as s h).bind ?_
  intro s1 o hb hl _
  cases o with
  | none => exact rfl
  | some o =>
    obtain ⟨a, k, l⟩ := o
    dsimp only
    rw [emit_rep hb, unit_bind, unit_bind]
    have := reserve_rp (J := J) (emit_bar hb (.call a k l (n + 1 - as.exps))) (n := n + 1 - as.exps - 1)
      (f := fun s' => unit (.ok { s' with freereg := s'.freereg - (as.exps - n) })) (Q' := fun _ _ => True)
      (fun s1 hs hb => by
        rw [rep_freereg, ← rep_setfree]
        exact Rp.ok (hb.same rfl rfl rfl) (by rw [hs]; exact Nat.le_refl _) trivial)
    exact this.imp (by rw [emit_length]; omega) (fun _ _ _ _ h => h)

theorem assignMulti_rp (F : FOps) (fixed : Bool) {pre : List Instr} {J : List Nat} (vs : List Lhs) (as : E) (s : FS)
    (h : Bar pre.length s) :
    Rp pre J s.code.length (unit (assignMulti F fixed vs as (rep pre J s))) (unit (assignMulti F fixed vs as s)) (fun _ _ => True) := by
  unfold assignMulti
  rw [unit_bind, unit_bind]
  refine (genVars_rp F fixed vs s [] h).bind ?_
  intro s1 lh hb hl _
  dsimp only
  split
  · exact rfl
  · have assoc : ∀ s : FS, unit (genMulti F fixed as vs.length s >>= fun s => storeRest lh s) =
        unit (genMulti F fixed as vs.length s) >>= fun x => unit (storeRest lh x.1) := by
      intro s
      cases genMulti F fixed as vs.length s <;> rfl
    rw [assoc, assoc]
    refine (genMulti_rp F fixed as _ s1 hb).bind ?_
    intro s2 _ hb2 hl2 _
    exact storeRest_rp lh s2 hb2

theorem assignAll_agree {n : Nat} {L L' : Nat → Val} (h : ∀ x, x < n → L x = L' x) {vs : List Lhs} (hv : ∀ v ∈ vs, v.ok n) {as : E}
    (he : as.ok n) (w : W) : Agree n (assignAll P vs as L w) (assignAll P vs as L' w) := by
  unfold assignAll
  rw [Assign.evalVars_congr (fun r hr => h r hr) vs hv w]
  cases evalVars P L' vs w with
  | err m => exact rfl
  | ub => exact rfl
  | ok p =>
    simp only [Res.bind_ok]
    rw [evalArgs_local (fun r hr => h r hr) _ he]
    cases evalArgs P L' as p.2 with
    | err m => exact rfl
    | ub => exact rfl
    | ok q => exact putAll_agree _ _ _ _ _ h

theorem multi_piece {as : E} {n : Nat} {s s' : FS} (h : genMulti P.F true as n s = .ok s')
    (hl : s.lasttarget = s.pc) (hna : s.nactvar ≤ s.freereg) (hok : as.ok s.nactvar) :
    Tr s s' [] ∧ s'.nactvar = s.nactvar ∧
    ∀ K, s'.k <+: K → ∀ X, Inv s.code (s.jpc ++ X) → ∀ C, OK C s' → ∀ R w,
      Then P K C (.run s.pc R w) (evalArgs P R as w) fun vs w' => ∃ R', (∀ r, r < s.freereg → R' r = R r) ∧
        (∀ i, i < n → R' (s.freereg + i) = vs.getD i .nil) ∧ Go P K C (.run s.pc R w) (.run s'.pc R' w') := by
  have h' : unit (genMulti P.F true as n s) = .ok (s', ()) := by rw [h]; rfl
  obtain ⟨sb, t1, t2, t3, t4, _⟩ := twin (f := fun s => unit (genMulti P.F true as n s))
    (Q := fun _ _ _ => True) (fun pre J s hb => genMulti_rp P.F true as n s hb) h' hl
  obtain ⟨s2, e2, t1⟩ := Res.bind_eq_ok.1 t1
  cases t1
  have key := fun K => genMulti_ext (P := P) (K := K) e2 (bar_wf hl) hna hok
  obtain ⟨_, g, z2, z3⟩ := key []
  obtain ⟨p1, p2, p3, p4, _⟩ := piece (l := []) t2 t3 t4 z2 (fun _ h => nomatch h) List.nodup_nil
  refine ⟨p1, p2, ?_⟩
  intro K hK X hX C hC R w
  obtain ⟨_, g, z2, z3⟩ := key K
  obtain ⟨_, _, _, _, p5⟩ := piece (l := []) t2 t3 t4 z2 (fun _ h => nomatch h) List.nodup_nil
  rw [p3] at hK
  have hm := z3 hK R w
  have hx := p5 X hX C hC R w
  cases hg : g R w with
  | err m => rw [hg] at hm hx; rw [show evalArgs P R as w = .err m from hm]; exact hx
  | ub => rw [hg] at hm hx; rw [show evalArgs P R as w = .ub from hm]; exact hx
  | ok o =>
    rw [hg] at hm hx
    cases o with
    | exit j R1 w1 => exact hm.elim
    | fall R1 w1 =>
      obtain ⟨h1, vs, h2, h3⟩ := hm
      rw [h2]
      exact ⟨R1, h1, h3, hx⟩

theorem assignMulti_piece {vs : List Lhs} {as : E} {s s' : FS} (h : assignMulti P.F true vs as s = .ok s')
    (hl : s.lasttarget = s.pc) (hna : s.nactvar ≤ s.freereg) (hv : ∀ v ∈ vs, v.ok s.nactvar)
    (hst : ∀ v ∈ vs, v.indexes (Assign.Stable P)) (hok : as.ok s.nactvar) :
    Tr s s' [] ∧ s'.nactvar = s.nactvar ∧
    ∀ K, s'.k <+: K → ∀ X, Inv s.code (s.jpc ++ X) → ∀ C, OK C s' → ∀ (R : Regs) (L : Nat → Val), (∀ x, x < s.nactvar → R x = L x) → ∀ w,
      Then P K C (.run s.pc R w) (assignAll P vs as L w) fun L' w' => ∃ R', (∀ x, x < s.nactvar → R' x = L' x) ∧
        Go P K C (.run s.pc R w) (.run s'.pc R' w') := by
  have h' : unit (assignMulti P.F true vs as s) = .ok (s', ()) := by rw [h]; rfl
  obtain ⟨sb, t1, t2, t3, t4, _⟩ := twin (f := fun s => unit (assignMulti P.F true vs as s))
    (Q := fun _ _ _ => True) (fun pre J s hb => assignMulti_rp P.F true vs as s hb) h' hl
  obtain ⟨s2, e2, t1⟩ := Res.bind_eq_ok.1 t1
  cases t1
  have key := fun K => Assign.assignMulti_ext (P := P) (K := K) e2 (bar_wf hl) hna hv hst hok
  obtain ⟨g, z2, z3⟩ := key []
  obtain ⟨p1, p2, p3, p4, _⟩ := piece (l := []) t2 t3 t4 z2 (fun _ h => nomatch h) List.nodup_nil
  refine ⟨p1, p2, ?_⟩
  intro K hK X hX C hC R L hR w
  obtain ⟨g, z2, z3⟩ := key K
  obtain ⟨_, _, _, _, p5⟩ := piece (l := []) t2 t3 t4 z2 (fun _ h => nomatch h) List.nodup_nil
  rw [p3] at hK
  have hm := z3 hK R w
  have hx := p5 X hX C hC R w
  have ha := assignAll_agree (P := P) hR hv hok w
  cases hg : g R w with
  | err m =>
    rw [hg] at hm hx
    rw [show assignAll P vs as R w = .err m from hm] at ha
    rw [show assignAll P vs as L w = .err m from ha]
    exact hx
  | ub =>
    rw [hg] at hm hx
    rw [show assignAll P vs as R w = .ub from hm] at ha
    rw [show assignAll P vs as L w = .ub from ha]
    exact hx
  | ok o =>
    rw [hg] at hm hx
    cases o with
    | exit j R1 w1 => exact hm.elim
    | fall R1 w1 =>
      obtain ⟨⟨L1, w'⟩, h1, rfl, h2⟩ := hm
      rw [h1] at ha
      obtain ⟨L2, h3, h4⟩ := ha
      rw [h3]
      exact ⟨R1, fun x hx => (h2 x hx).trans (h4 x hx), hx⟩

/-- the code up to the call -/
theorem args_piece {as : E} {s s' : FS} {o : Option OpenCall} (h : genArgs P.F true as s = .ok (s', o))
    (hl : s.lasttarget = s.pc) (hna : s.nactvar ≤ s.freereg) (hok : as.ok s.nactvar) :
    Tr s s' [] ∧ s'.nactvar = s.nactvar ∧
    ∀ K, s'.k <+: K → ∀ X, Inv s.code (s.jpc ++ X) → ∀ C, OK C s' → ∀ R w,
      (∃ R' w', Go P K C (.run s.pc R w) (.run s'.pc R' w') ∧
        match opened P o R' s'.freereg w' with
        | .ok (R2, top, w2) => evalArgs P R as w = .ok ((List.range' s.freereg (top - s.freereg)).map R2, w2)
        | .err m => evalArgs P R as w = .err m
        | .ub => evalArgs P R as w = .ub) ∨
      (∃ m, evalArgs P R as w = .err m ∧ ∃ n, mrun P K C n (.run s.pc R w) = .done (.err m)) ∨
      (evalArgs P R as w = .ub ∧ ∃ n, mrun P K C n (.run s.pc R w) = .done .ub) := by
  obtain ⟨sb, t1, t2, t3, t4, _⟩ := twin (f := fun s => genArgs P.F true as s)
    (Q := fun _ _ _ => True) (fun pre J s hb => args_rp P.F true as s hb) h hl
  have key := fun K => (gen_args (P := P) (K := K) t1 (bar_wf hl) hna hok).1
  obtain ⟨_, g, z2, z3⟩ := key []
  obtain ⟨p1, p2, p3, p4, _⟩ := piece (l := []) t2 t3 t4 z2 (fun _ h => nomatch h) List.nodup_nil
  refine ⟨p1, p2, ?_⟩
  intro K hK X hX C hC R w
  obtain ⟨_, g, z2, z3⟩ := key K
  obtain ⟨_, _, _, _, p5⟩ := piece (l := []) t2 t3 t4 z2 (fun _ h => nomatch h) List.nodup_nil
  rw [p3] at hK
  have hm := z3 hK R w
  have hx := p5 X hX C hC R w
  cases hg : g R w with
  | err m => rw [hg] at hm hx; exact Or.inr (Or.inl ⟨m, hm, hx⟩)
  | ub => rw [hg] at hm hx; exact Or.inr (Or.inr ⟨hm, hx⟩)
  | ok q =>
    rw [hg] at hm hx
    cases q with
    | exit j R1 w1 => exact hm.elim
    | fall R1 w1 =>
      refine Or.inl ⟨R1, w1, hx, ?_⟩
      have hm := hm.2
      rw [p4]
      cases ho : opened P o R1 sb.freereg w1 with
      | err m => rw [ho] at hm; exact hm
      | ub => rw [ho] at hm; exact hm
      | ok r => obtain ⟨R2, top, w2⟩ := r; rw [ho] at hm; exact hm.2.2

end Verif.Stat
