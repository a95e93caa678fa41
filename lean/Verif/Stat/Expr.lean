import Verif.Stat.Piece
/-! The code of expressions in statements. -/
namespace Verif.Stat
open Verif.ExpCode
open Verif.Fold (FOps)
variable {W : Type} {P : Ops W} {α : Type}

/-! ### generator functions and other code before -/

theorem genList_rp (F : FOps) (fixed : Bool) {pre : List Instr} {J : List Nat} : ∀ (es : List E) (s : FS), Bar pre.length s →
    Rp pre J s.code.length (genList F fixed es (rep pre J s) >>= fun s => (.ok (s, ()) : Res (FS × Unit)))
      (genList F fixed es s >>= fun s => (.ok (s, ()) : Res (FS × Unit))) (fun _ _ => True) := by
  intro es
  induction es with
  | nil => intro s h; exact Rp.ok h (Nat.le_refl _) trivial
  | cons e es ih =>
    intro s h
    have assoc : ∀ s : FS, (genList F fixed (e :: es) s >>= fun s => (.ok (s, ()) : Res (FS × Unit)))
        = gen F fixed e s >>= fun x => exp2nextreg x.1 x.2 >>= fun y => genList F fixed es y.1 >>= fun s => .ok (s, ()) := by
      intro s
      simp only [genList]
      rcases gen F fixed e s with x | _ | _
      · obtain ⟨s1, d1⟩ := x
        simp only [Res.bind_ok]
        rcases exp2nextreg s1 d1 with y | _ | _ <;> rfl
      · rfl
      · rfl
    rw [assoc, assoc]
    refine (gen_rp F fixed e s h).bind ?_
    intro s1 d1 hb hl hp
    refine (exp2nextreg_rp hb hp).bind ?_
    intro s2 d2 hb2 hl2 hp2
    exact ih s2 hb2

/-- an expression and then something else -/
theorem genThen_rp (F : FOps) (fixed : Bool) (e : E) {f : FS → D → Res (FS × α)} {Q : Nat → FS → α → Prop}
    (hf : ∀ (pre : List Instr) (J : List Nat) (s : FS) (d : D), Bar pre.length s → Pos pre.length s d →
      Rp pre J s.code.length (f (rep pre J s) d) (f s d) (Q pre.length))
    (pre : List Instr) (J : List Nat) (s : FS) (h : Bar pre.length s) :
    Rp pre J s.code.length (gen F fixed e (rep pre J s) >>= fun x => f x.1 x.2)
      (gen F fixed e s >>= fun x => f x.1 x.2) (Q pre.length) :=
  (gen_rp F fixed e s h).bind (fun s1 d1 hb _ hp => hf pre J s1 d1 hb hp)

/-! ### the pieces -/

/-- the machine reaches a state, or it fails as `r` says -/
def Then (P : Ops W) (K : List Val) (C : List Instr) (st : St W) (r : Res (α × W)) (f : α → W → Prop) : Prop :=
  match r with
  | .ok (a, w) => f a w
  | .err m => ∃ n, mrun P K C n st = .done (.err m)
  | .ub => ∃ n, mrun P K C n st = .done .ub

theorem Then.does {K : List Val} {C : List Instr} {st : St W} {r : Res (α × W)} {f : α → W → Prop} (h : Then P K C st r f)
    {i : Nat} {k : α → W → O W} (hf : ∀ a w, r = .ok (a, w) → f a w → Does P K C i st (k a w)) : Does P K C i st (bindR r k) := by
  rcases r with ⟨a, w⟩ | m | _
  · exact hf a w rfl h
  · exact h
  · exact h

theorem list_piece {es : List E} {s s' : FS} (h : genList P.F true es s = .ok s') (hl : s.lasttarget = s.pc)
    (hna : s.nactvar ≤ s.freereg) (hok : ∀ e ∈ es, e.ok s.nactvar) :
    Tr s s' [] ∧ s'.nactvar = s.nactvar ∧ s'.freereg = s.freereg + es.length ∧
    ∀ K, s'.k <+: K → ∀ X, Inv s.code (s.jpc ++ X) → ∀ C, OK C s' → ∀ R w,
      Then P K C (.run s.pc R w) (evalList P R es w) fun vs w' => ∃ R', (∀ r, r < s.freereg → R' r = R r) ∧
        vs = (List.range' s.freereg es.length).map R' ∧ Go P K C (.run s.pc R w) (.run s'.pc R' w') := by
  have h' : (genList P.F true es s >>= fun s => (.ok (s, ()) : Res (FS × Unit))) = .ok (s', ()) := by rw [h]; rfl
  obtain ⟨sb, t1, t2, t3, t4, _⟩ := twin (f := fun s => genList P.F true es s >>= fun s => (.ok (s, ()) : Res (FS × Unit)))
    (Q := fun _ _ _ => True) (fun pre J s hb => genList_rp P.F true es s hb) h' hl
  obtain ⟨s2, e2, t1⟩ := Res.bind_eq_ok.1 t1
  cases t1
  have key := fun K => genList_ext (P := P) (K := K) es _ _ e2 (bar_wf hl) hna hok
  obtain ⟨z1, g, z2, z3⟩ := key []
  obtain ⟨p1, p2, p3, p4, _⟩ := piece (l := []) t2 t3 t4 z2 (fun _ h => nomatch h) List.nodup_nil
  refine ⟨p1, p2, p4.trans z1, ?_⟩
  intro K hK X hX C hC R w
  obtain ⟨z1, g, z2, z3⟩ := key K
  obtain ⟨_, _, _, _, p5⟩ := piece (l := []) t2 t3 t4 z2 (fun _ h => nomatch h) List.nodup_nil
  rw [p3] at hK
  have hm := z3 hK R w
  have hx := p5 X hX C hC R w
  cases hg : g R w with
  | err m => rw [hg] at hm hx; rw [show evalList P R es w = .err m from hm]; exact hx
  | ub => rw [hg] at hm hx; rw [show evalList P R es w = .ub from hm]; exact hx
  | ok o =>
    cases o with
    | exit j R1 w1 => rw [hg] at hm; exact hm.elim
    | fall R1 w1 =>
      rw [hg] at hm hx
      rw [hm.2]
      exact ⟨R1, hm.1, rfl, hx⟩

theorem any_piece {e : E} {s s1 s' : FS} {d d' : D} {r : Nat} (h : gen P.F true e s = .ok (s1, d))
    (h2 : exp2anyreg s1 d = .ok (s', d', r)) (hl : s.lasttarget = s.pc)
    (hna : s.nactvar ≤ s.freereg) (hok : e.ok s.nactvar) :
    Tr s s' [] ∧ s'.nactvar = s.nactvar ∧
    ∀ K, s'.k <+: K → ∀ X, Inv s.code (s.jpc ++ X) → ∀ C, OK C s' → ∀ R w,
      Then P K C (.run s.pc R w) (eval P R e w) fun v w' => ∃ R', (∀ r, r < s.freereg → R' r = R r) ∧
        R' r = v ∧ Go P K C (.run s.pc R w) (.run s'.pc R' w') := by
  obtain ⟨sb, t1, t2, t3, t4, _⟩ := twin (f := fun s => gen P.F true e s >>= fun x => exp2anyreg x.1 x.2)
    (Q := fun m s x => Pos m s x.1) (fun pre J s hb => genThen_rp P.F true e (f := exp2anyreg) (Q := fun m s x => Pos m s x.1) (fun pre J s d hb hp => exp2anyreg_rp hb hp) pre J s hb)
    (s := s) (s' := s') (x := (d', r)) (by show (gen P.F true e s >>= _) = _; rw [h]; exact h2) hl
  obtain ⟨⟨s2, d2⟩, e2, t1⟩ := Res.bind_eq_ok.1 t1
  have key : ∀ K, ∃ g, Ext P K (bar s) sb g ∧ (sb.k <+: K → ∀ R w,
      Match (fun r => r < s.freereg) [] [] [] (fun R w => .ok (R r, w)) R (eval P R e w) (g R w)) := by
    intro K
    obtain ⟨⟨ha, hv, q, sem, g, hs⟩, _⟩ := gen_gs (P := P) (K := K) e _ _ _ e2 (bar_wf hl) hna hok
    obtain ⟨_, _, y4, y5, y6, g', y7⟩ := exp2anyreg_spec hs (Nat.lt_irrefl _) hna ha t1
    exact ⟨g', y7.ext, (y7.opd y4 y5).mat⟩
  obtain ⟨g, z2, z3⟩ := key []
  obtain ⟨p1, p2, p3, p4, _⟩ := piece (l := []) t2 t3 t4 z2 (fun _ h => nomatch h) List.nodup_nil
  refine ⟨p1, p2, ?_⟩
  intro K hK X hX C hC R w
  obtain ⟨g, z2, z3⟩ := key K
  obtain ⟨_, _, _, _, p5⟩ := piece (l := []) t2 t3 t4 z2 (fun _ h => nomatch h) List.nodup_nil
  rw [p3] at hK
  have hm := z3 hK R w
  have hx := p5 X hX C hC R w
  cases hg : g R w with
  | err m => rw [hg] at hm hx; rw [show eval P R e w = .err m from hm]; exact hx
  | ub => rw [hg] at hm hx; rw [show eval P R e w = .ub from hm]; exact hx
  | ok o =>
    rw [hg] at hm hx
    cases o with
    | exit j R1 w1 =>
      obtain ⟨_, v, _, h3, _⟩ := hm
      cases mem_lists h3
    | fall R1 w1 =>
      rw [← hm.2]
      exact ⟨R1, hm.1, rfl, hx⟩

theorem storelocal_rq {pre : List Instr} {J : List Nat} {s : FS} (h : Bar pre.length s) {d : D} (hd : Pos pre.length s d) (x : Nat) :
    Rp pre J s.code.length (.ok (storelocal (rep pre J s) d x, ())) (.ok (storelocal s d x, ())) (fun _ _ => True) := by
  unfold storelocal
  have hs := (freeexp_same s d).1
  obtain ⟨h1, h2, h3, _⟩ := exp2reg_rq (J := J) (h.freeexp d) (hd.mono (by rw [hs]; exact Nat.le_refl _)) x
  rw [freeexp_rep, h1]
  exact Rp.ok h2 (by rw [hs] at h3; exact h3) trivial

/-! ### conditions -/

/-- `cond`: a condition that is the constant nil -/
def nilfls (d : D) : D := match d.kind with | .nil => { d with kind := .fls } | _ => d

/-- the value as a condition -/
theorem nilfls_spec {K : List Val} {keep : Nat → Prop} {s0 s : FS} {d : D} {ev : Regs → W → Res (Val × W)} {q : FS}
    {sem : Regs → W → Res (Val × W)} {g : Regs → W → Res (Out W)} (hs : Spec P K keep s0 s d ev q sem g) :
    ∃ ev' sem', Spec P K keep s0 s (nilfls d) ev' q sem' g ∧ (s.k <+: K → ∀ R w,
      match ev' R w with
      | .ok (v', w') => ∃ v, ev R w = .ok (v, w') ∧ v.truthy = v'.truthy
      | .err m => ev R w = .err m
      | .ub => ev R w = .ub) := by
  by_cases hk : d.kind = .nil
  · have e : nilfls d = { d with kind := .fls } := by unfold nilfls; rw [hk]
    rw [e]
    have hp := hs.pre
    rw [hk] at hp
    obtain ⟨hq, hsem⟩ := hp
    refine ⟨fun R w => match g R w with | .ok (.fall _ w') => .ok (.bool false, w') | _ => ev R w,
      fun _ w => .ok (.bool false, w), ⟨⟨hq, rfl⟩, hs.ext, ?_, hs.pend, hs.nodup⟩, ?_⟩
    · intro hK R w
      have := hs.mat hK R w
      cases hg : g R w with
      | err m => rw [hg] at this; exact this
      | ub => rw [hg] at this; exact this
      | ok o =>
        rw [hg] at this
        cases o with
        | fall R1 w1 => exact ⟨this.1, rfl⟩
        | exit j R1 w1 => exact this
    · intro hK R w
      have := hs.mat hK R w
      have triv : match ev R w with
          | .ok (v', w') => ∃ v, ev R w = .ok (v, w') ∧ v.truthy = v'.truthy
          | .err m => ev R w = .err m
          | .ub => ev R w = .ub := by
        rcases ev R w with ⟨v, w'⟩ | m | _
        · exact ⟨v, rfl, rfl⟩
        · rfl
        · rfl
      dsimp only
      cases hg : g R w with
      | err m => exact triv
      | ub => exact triv
      | ok o =>
        rw [hg] at this
        cases o with
        | exit j R1 w1 => exact triv
        | fall R1 w1 =>
          have h2 := this.2
          rw [hsem] at h2
          exact ⟨.nil, h2.symm, rfl⟩
  · have e : nilfls d = d := by
      unfold nilfls
      split
      · rename_i h; exact absurd h hk
      · rfl
    rw [e]
    refine ⟨ev, sem, hs, fun _ R w => ?_⟩
    rcases ev R w with ⟨v, w'⟩ | m | _
    · exact ⟨v, rfl, rfl⟩
    · rfl
    · rfl

theorem nilfls_pos {m : Nat} {s : FS} {d : D} (h : Pos m s d) : Pos m s (nilfls d) := by
  unfold nilfls
  split
  · exact ⟨trivial, h.t, h.f⟩
  · exact h

/-- the machine goes on at `s'` if the value is `b`, and otherwise by one of the jumps in `l` -/
def CondRes (P : Ops W) (e : E) (s s' : FS) (b : Bool) (l : List Nat) : Prop :=
  Tr s s' l ∧ s'.nactvar = s.nactvar ∧ s'.freereg = s.freereg ∧ (∀ j ∈ l, s.pc ≤ j) ∧
    ∀ K, s'.k <+: K → ∀ X, Inv s.code (s.jpc ++ X) → ∀ C, OK C s' → ∀ R w,
      Then P K C (.run s.pc R w) (eval P R e w) fun v w' => ∃ R', (∀ r, r < s.freereg → R' r = R r) ∧
        if v.truthy = b then Go P K C (.run s.pc R w) (.run s'.pc R' w')
        else ∃ j ∈ l, Go P K C (.run s.pc R w) (.run j R' w')

theorem condRes {e : E} {s s' sb : FS} {b : Bool} {l : List Nat} (t2 : s' = rep s.code s.jpc sb)
    (t3 : sb = rep (nops s.code.length) [] sb) (t4 : Bar s.code.length sb) (hfree : sb.freereg = s.freereg)
    (key : ∀ K, ∃ g ev', Cond P K (fun r => r < s.freereg) (bar s) sb b l ev' g ∧ (sb.k <+: K → ∀ R w,
      match ev' R w with
      | .ok (v', w') => ∃ v, eval P R e w = .ok (v, w') ∧ v.truthy = v'.truthy
      | .err m => eval P R e w = .err m
      | .ub => eval P R e w = .ub)) : CondRes P e s s' b l := by
  obtain ⟨g, ev', z1, z2⟩ := key []
  obtain ⟨p1, p2, p3, p4, _⟩ := piece t2 t3 t4 z1.ext (fun j hj => by
    obtain ⟨a, b⟩ := z1.pend j hj
    rw [bar_length] at b
    exact ⟨a, b⟩) z1.nodup
  refine ⟨p1, p2, p4.trans hfree, (fun j hj => by
    obtain ⟨a, b⟩ := z1.pend j hj
    rw [bar_length] at b
    exact b), ?_⟩
  intro K hK X hX C hC R w
  obtain ⟨g, ev', z1, z2⟩ := key K
  obtain ⟨_, _, _, _, p5⟩ := piece t2 t3 t4 z1.ext (fun j hj => by
    obtain ⟨a, b⟩ := z1.pend j hj
    rw [bar_length] at b
    exact ⟨a, b⟩) z1.nodup
  rw [p3] at hK
  have hm := z1.mat hK R w
  have hx := p5 X hX C hC R w
  have he := z2 hK R w
  cases hg : g R w with
  | err m =>
    rw [hg] at hm hx
    rw [show ev' R w = .err m from hm] at he
    rw [show eval P R e w = .err m from he]
    exact hx
  | ub =>
    rw [hg] at hm hx
    rw [show ev' R w = .ub from hm] at he
    rw [show eval P R e w = .ub from he]
    exact hx
  | ok o =>
    rw [hg] at hm hx
    cases o with
    | exit j R1 w1 =>
      obtain ⟨a1, v, a2, a3, a4, _⟩ := hm
      rw [a2] at he
      obtain ⟨v0, b1, b2⟩ := he
      rw [b1]
      refine ⟨R1, a1, ?_⟩
      rw [if_neg (by rw [b2, a3]; cases b <;> simp)]
      exact ⟨j, a4, hx⟩
    | fall R1 w1 =>
      obtain ⟨a1, v, a2, a3⟩ := hm
      rw [a2] at he
      obtain ⟨v0, b1, b2⟩ := he
      rw [b1]
      refine ⟨R1, a1, ?_⟩
      rw [if_pos (by rw [b2, a3])]
      exact hx

theorem eval_triv (P : Ops W) (e : E) (R : Regs) (w : W) : match eval P R e w with
    | .ok (v', w') => ∃ v, eval P R e w = .ok (v, w') ∧ v.truthy = v'.truthy
    | .err m => eval P R e w = .err m
    | .ub => eval P R e w = .ub := by
  rcases eval P R e w with ⟨v, w'⟩ | m | _
  · exact ⟨v, rfl, rfl⟩
  · rfl
  · rfl

theorem goiftrue_fls_k {s s' : FS} {d d' : D} (hk : d.kind = .fls) (h : goiftrue true s d = .ok (s', d')) : s'.k = s.k := by
  unfold goiftrue at h
  have hv : dischargevars s d = (s, d) := by unfold dischargevars; rw [hk]
  rw [hv] at h
  dsimp only at h
  obtain ⟨⟨s2, d2, l⟩, e2, h⟩ := Res.bind_eq_ok.1 h
  cases h
  unfold goiftrueJump jumponcond discharge2anyreg at e2
  rw [hk] at e2
  dsimp only [Bool.true_or, if_true] at e2
  simp only [Bool.true_or, if_true] at e2
  obtain ⟨⟨s3, d3, r⟩, e3, e2⟩ := Res.bind_eq_ok.1 e2
  obtain ⟨s4, e4, e3⟩ := Res.bind_eq_ok.1 e3
  unfold reserve at e4
  split at e4
  · cases e4
  · cases e4
    unfold discharge2reg dischargevars at e3
    rw [hk] at e3
    dsimp only at e3
    rw [hk] at e3
    cases e3
    cases e2
    show (freeexp _ _).k = _
    rw [(ExpCode.freeexp_same _ _).2.1]
    rfl

/-- `goiftrue` on an expression, where `f` changes the descriptor -/
theorem condTrue {e : E} {f : D → D} (hf : f = id ∨ f = nilfls) {s s1 s' : FS} {d d' : D} (h : gen P.F true e s = .ok (s1, d))
    (h2 : goiftrue true s1 (f d) = .ok (s', d')) (hl : s.lasttarget = s.pc)
    (hna : s.nactvar ≤ s.freereg) (hok : e.ok s.nactvar) : CondRes P e s s' true d'.f := by
  have hpos : ∀ {m : Nat} {s : FS} {d : D}, Pos m s d → Pos m s (f d) := by
    intro m s d h
    rcases hf with rfl | rfl
    · exact h
    · exact nilfls_pos h
  obtain ⟨sb, t1, t2, t3, t4, _⟩ := twin (f := fun s => gen P.F true e s >>= fun x => goiftrue true x.1 (f x.2))
    (Q := fun m s d => PosL m s d.f ∧ d.t = []) (fun pre J s hb => genThen_rp P.F true e (f := fun s d => goiftrue true s (f d)) (Q := fun m s d => PosL m s d.f ∧ d.t = [])
      (fun pre J s d hb hp => goiftrue_rp hb (hpos hp)) pre J s hb)
    (s := s) (s' := s') (x := d') (by show (gen P.F true e s >>= _) = _; rw [h]; exact h2) hl
  obtain ⟨⟨s2, d2⟩, e2, t1⟩ := Res.bind_eq_ok.1 t1
  have t1 : goiftrue true s2 (f d2) = .ok (sb, d') := t1
  have key : ∀ K, ∃ g ev', sb.freereg = s.freereg ∧ Cond P K (fun r => r < s.freereg) (bar s) sb true d'.f ev' g ∧
      (sb.k <+: K → ∀ R w, match ev' R w with
      | .ok (v', w') => ∃ v, eval P R e w = .ok (v, w') ∧ v.truthy = v'.truthy
      | .err m => eval P R e w = .err m
      | .ub => eval P R e w = .ub) := by
    intro K
    obtain ⟨⟨ha, hv, q, sem, g, hs⟩, _⟩ := gen_gs (P := P) (K := K) e _ _ _ e2 (bar_wf hl) hna hok
    rcases hf with rfl | rfl
    · obtain ⟨y1, y2, y3, g', y4⟩ := goiftrue_spec hs (Nat.lt_irrefl _) hna ha hv t1
      exact ⟨g', _, y1, y4, fun _ R w => eval_triv P e R w⟩
    · obtain ⟨ev', sem', hs', hev⟩ := nilfls_spec hs
      have ha' : Acc s.nactvar s.freereg s2 (nilfls d2).kind := by
        unfold nilfls
        split
        · rename_i hk
          have ha : Acc s.nactvar s.freereg s2 d2.kind := ha
          rw [hk] at ha
          exact ha
        · exact ha
      have hv' : KInv s2 (nilfls d2).kind := by
        unfold nilfls
        split
        · exact trivial
        · exact hv
      obtain ⟨y1, y2, y3, g', y4⟩ := goiftrue_spec hs' (Nat.lt_irrefl _) hna ha' hv' t1
      by_cases hk : d2.kind = .nil
      · have e : sb.k = s2.k := goiftrue_fls_k (by unfold nilfls; rw [hk]) t1
        exact ⟨g', ev', y1, y4, fun hK => hev (e ▸ hK)⟩
      · obtain ⟨y1, y2, y3, g', y4⟩ := goiftrue_spec hs (Nat.lt_irrefl _) hna ha hv (d' := d') (s' := sb) (by
          rw [← t1]
          congr 1
          unfold nilfls
          split
          · rename_i h; exact absurd h hk
          · rfl)
        exact ⟨g', _, y1, y4, fun _ R w => eval_triv P e R w⟩
  obtain ⟨_, _, hfree, _⟩ := key []
  exact condRes t2 t3 t4 hfree (fun K => by
    obtain ⟨g, ev', _, a, b⟩ := key K
    exact ⟨g, ev', a, b⟩)

theorem condFalse {e : E} {s s1 s' : FS} {d d' : D} (h : gen P.F true e s = .ok (s1, d))
    (h2 : goiffalse true s1 d = .ok (s', d')) (hl : s.lasttarget = s.pc)
    (hna : s.nactvar ≤ s.freereg) (hok : e.ok s.nactvar) : CondRes P e s s' false d'.t := by
  obtain ⟨sb, t1, t2, t3, t4, _⟩ := twin (f := fun s => gen P.F true e s >>= fun x => goiffalse true x.1 x.2)
    (Q := fun m s d => PosL m s d.t ∧ d.f = []) (fun pre J s hb => genThen_rp P.F true e (f := goiffalse true) (Q := fun m s d => PosL m s d.t ∧ d.f = [])
      (fun pre J s d hb hp => goiffalse_rp hb hp) pre J s hb)
    (s := s) (s' := s') (x := d') (by show (gen P.F true e s >>= _) = _; rw [h]; exact h2) hl
  obtain ⟨⟨s2, d2⟩, e2, t1⟩ := Res.bind_eq_ok.1 t1
  have t1 : goiffalse true s2 d2 = .ok (sb, d') := t1
  have key : ∀ K, ∃ g, sb.freereg = s.freereg ∧ Cond P K (fun r => r < s.freereg) (bar s) sb false d'.t (fun R w => eval P R e w) g := by
    intro K
    obtain ⟨⟨ha, hv, q, sem, g, hs⟩, _⟩ := gen_gs (P := P) (K := K) e _ _ _ e2 (bar_wf hl) hna hok
    obtain ⟨y1, y2, y3, g', y4⟩ := goiffalse_spec hs (Nat.lt_irrefl _) hna ha t1
    exact ⟨g', y1, y4⟩
  obtain ⟨_, hfree, _⟩ := key []
  exact condRes t2 t3 t4 hfree (fun K => by
    obtain ⟨g, _, a⟩ := key K
    exact ⟨g, _, a, fun _ R w => eval_triv P e R w⟩)

end Verif.Stat
