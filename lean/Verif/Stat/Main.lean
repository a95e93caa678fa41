import Verif.Stat.For
/-! The parts of `if`, and all statements. -/
namespace Verif.Stat
open Verif.ExpCode
variable {W : Type} {P : Ops W} {K : List Val} {C : List Instr}

theorem testend_res (isFi : Bool) (jf : List Nat) (g : G) {g' : G} {j : List Nat} (h : testend isFi jf g = (g', j)) :
    g'.nact = g.nact ∧ g'.labels = g.labels ∧ g'.gotos = g.gotos ∧ g'.fs.nactvar = g.fs.nactvar ∧ g'.fs.freereg = g.fs.freereg ∧
    g'.fs.k = g.fs.k ∧ g.fs.pc ≤ g'.fs.pc ∧ ((isFi = true ∧ g'.fs.pc = g.fs.pc) ∨ g.fs.pc ∈ j) ∧
    ∀ X, GInv g (jf ++ X) → GInv g' (j ++ X) ∧ ∀ C κ t, All C κ g' → Tgt C j t → All C κ g ∧ Tgt C jf g'.fs.pc := by
  unfold testend at h
  split at h
  · rename_i hf
    cases h
    have hp := patchtohere_pa g.fs jf
    refine ⟨rfl, rfl, rfl, rfl, rfl, rfl, Nat.le_refl _, Or.inl ⟨hf, rfl⟩, fun X hX => ⟨hp.inv _ hX.inv3, fun C κ t hA _ => ?_⟩⟩
    obtain ⟨a1, a2⟩ := hp.back _ hX.inv3 C hA.ok
    exact ⟨⟨a1, hA.gts, hA.lbs⟩, a2⟩
  · cases h
    have hj := jump_tr g.fs
    have hp := patchtohere_pa (jump g.fs).1 jf
    refine ⟨rfl, rfl, rfl, rfl, rfl, rfl, hj.le, Or.inr (List.mem_cons_self ..), fun X hX => ?_⟩
    have z1 : Inv (jump g.fs).1.code ((jump g.fs).1.jpc ++ (jf ++ (jms g.gotos ++ ((jump g.fs).2 ++ X)))) := by
      refine (hj.inv _ hX.inv3).perm (List.Perm.append_left _ ?_)
      exact (perm2 ..).trans (List.Perm.append_left _ (perm2 ..))
    refine ⟨hp.inv _ z1, fun C κ t hA ht => ?_⟩
    obtain ⟨a1, a2⟩ := hp.back _ z1 C hA.ok
    exact ⟨⟨hj.back _ hX.inv3 C t a1 ht, hA.gts, hA.lbs⟩, a2⟩

/-- the rest of an `if`, after a part -/
theorem rest_done {c : E} {b rest : S} {u : Bool} {g g1 g2 g3 : G} {jf j esc : List Nat}
    (hc : Claim P rest) (hg : Good .part g) (hwr : rest.wf (Assign.Stable P) .part g.fs.nactvar)
    (k1 : g1.nact = g.nact) (k2 : g1.labels = g.labels) (k3 : g1.fs.nactvar = g.fs.nactvar) (k4 : g1.fs.freereg = g.fs.nactvar)
    (k5 : g.fs.pc ≤ g1.fs.pc) (k6 : g.fs.k <+: g1.fs.k) (k7 : Sep g1)
    (ht : testend rest.isFi jf g1 = (g2, j)) (hr : gs P.F true false rest g2 = .ok (g3, esc))
    (inv : ∀ X, GInv g X → GInv g1 (jf ++ X))
    (back : ∀ X, GInv g X → ∀ C κ, All C κ g1 → ∀ t, Tgt C jf t → All C κ g)
    (sim : ∀ X, GInv g X → ∀ C κ, All C κ g1 → ∀ t, Tgt C jf t → ∀ K, g1.fs.k <+: K → ∀ d i, i ≤ d → ∀ ρ k k',
      LOK P K C i ρ κ g.fs.pc [] → Sim P K C i k g1.fs.pc g.fs.nactvar → Sim P K C i k' t g.fs.nactvar →
      Sim P K C i (fun env w => bindR (eval P (look env) c w) fun v w =>
        if v.truthy then scope d b ρ (sem P d false g.fs.nactvar g.fs.nactvar b) (cut g.fs.nactvar k) env w
        else k' env w) g.fs.pc g.fs.nactvar) :
    Done P u .part (.test c b rest) g g3 (j ++ esc) := by
  obtain ⟨t1, t2, t3, t4, t5, t6, t7, t8, t9⟩ := testend_res _ _ _ ht
  have hg2 : Good .part g2 := ⟨by rw [t5, t4, k4, k3], by rw [t1, t4, k1, k3]; exact hg.nact,
    ⟨by rw [t2, t3]; exact k7.gl, by rw [t2]; exact k7.nodup⟩, fun h => nomatch h⟩
  have hD := hc false .part _ _ _ hr hg2 (by rw [t4, k3]; exact hwr)
  have hnm : rest.names = [] ∧ rest.nloc = 0 := by cases rest <;> first | exact ⟨rfl, rfl⟩ | exact hwr.elim
  obtain ⟨ls, q1, q2⟩ := hD.labels
  rw [hnm.1] at q2
  rw [List.map_eq_nil_iff.1 q2] at q1
  have pre : ∀ X, GInv g X → ∀ C κ t, All C κ g3 → Tgt C (j ++ esc) t → All C κ g2 ∧ All C κ g1 ∧ Tgt C jf g2.fs.pc := by
    intro X hX C κ t hA ht
    obtain ⟨z1, z2⟩ := t9 _ (inv X hX)
    have a1 := hD.back _ z1 C κ t hA (ht.sub (fun _ h => List.mem_append_right _ h))
    exact ⟨a1, z2 C κ t a1 (ht.sub (fun _ h => List.mem_append_left _ h))⟩
  refine ⟨by rw [hD.nact, t1, k1], by rw [hD.act, hnm.2, t4, k3]; rfl, ⟨[], by rw [q1, t2, k2], rfl⟩, hD.free, fun h => absurd rfl h,
    Nat.le_trans k5 (Nat.le_trans t7 hD.le), k6.trans (t6 ▸ hD.k), hD.sep, ?_, ?_, ?_⟩
  · intro X hX
    refine (hD.inv _ (t9 _ (inv X hX)).1).perm ?_
    rw [List.append_assoc]
    exact perm2 ..
  · intro X hX C κ t hA ht
    obtain ⟨_, a2, a3⟩ := pre X hX C κ t hA ht
    exact back X hX C κ a2 _ a3
  · intro K hK X hX C κ hA ht d i hi n0 ρ k _ hρ hk _
    obtain ⟨a1, a2, a3⟩ := pre X hX C κ _ hA ht
    have hn3 : g3.fs.nactvar = g.fs.nactvar := by rw [hD.act, hnm.2, t4, k3]; rfl
    have hρ : LOK P K C i ρ κ g.fs.pc [] := hρ
    have hr2 := (hD.sim K hK _ (t9 _ (inv X hX)).1 C κ hA (ht.sub (fun _ h => List.mem_append_right _ h)) d i hi g.fs.nactvar ρ k
      (fun h => nomatch h) (by rw [hnm.1]; exact hρ.mono (Nat.le_refl _) (Nat.le_trans k5 t7) (fun _ h => h)) hk (fun h => nomatch h)).1
    rw [t4, k3] at hr2
    rw [hn3] at hk
    rw [sem]
    refine ⟨?_, ents_nil⟩
    refine sim X hX C κ a2 _ a3 K (by rw [← t6]; exact hD.k.trans hK) d i hi ρ k _ hρ ?_ hr2
    rcases t8 with ⟨hf, hp⟩ | hj
    · have : rest = .fi := by cases rest <;> first | rfl | cases hf
      subst this
      rw [gs] at hr
      cases hr
      rw [← hp]
      exact hk
    · intro env R w hl hR
      exact (ht.go (List.mem_append_left _ hj) R w) _ _ (hk env R w hl hR)

theorem gs_test {c : E} {b rest : S} (hb : ∀ l b', b ≠ .cons (.goto l) b') (F : Fold.FOps) (fixed u : Bool) (g : G) :
    gs F fixed u (.test c b rest) g = (do
      let (s, jf) ← condIf F fixed c g.fs
      let (i, _) ← gs F fixed false b (enter s)
      let g ← leave false i g
      let (g, j) := testend rest.isFi jf g
      let (g, esc) ← gs F fixed false rest g
      return (g, j ++ esc)) := by
  rw [gs]
  intro l b' e
  exact hb l b' e

theorem claim_test {c : E} {b rest : S} (hb : ∀ l b', b ≠ .cons (.goto l) b') (h1 : Claim P b) (h2 : Claim P rest) :
    Claim P (.test c b rest) := by
  intro u sort g g' esc h hg hwf
  have hst : sort = .part := by cases sort <;> first | rfl | exact hwf.elim
  subst hst
  obtain ⟨w1, w2, w3⟩ : c.ok g.fs.nactvar ∧ b.wf (Assign.Stable P) .list g.fs.nactvar ∧ rest.wf (Assign.Stable P) .part g.fs.nactvar := hwf
  rw [gs_test hb] at h
  obtain ⟨⟨s, jf⟩, q1, h⟩ := Res.bind_eq_ok.1 h
  obtain ⟨⟨i, e0⟩, q2, h⟩ := Res.bind_eq_ok.1 h
  obtain ⟨g1, q3, h⟩ := Res.bind_eq_ok.1 h
  dsimp only at h q2 q3
  cases ht : testend rest.isFi jf g1 with
  | mk g2 j =>
  rw [ht] at h
  dsimp only at h
  obtain ⟨⟨g3, esc'⟩, q4, h⟩ := Res.bind_eq_ok.1 h
  cases h
  obtain ⟨c1, c2, c3, c4, c5⟩ := condIf_res q1 (Nat.le_of_eq hg.free.symm) w1
  obtain ⟨b1, b2, b3, b4, b5, b6, b7, b8⟩ := block h1 q2 q3 (by rw [c3, c2]; exact hg.free) hg.sep (by rw [c2]; exact w2)
  have z : ∀ X, GInv g X → Inv s.code (s.jpc ++ (jms g.gotos ++ (jf ++ X))) := fun X hX =>
    (c1.inv _ hX).perm (perm3 ..)
  refine rest_done h2 hg w3 b1 b2 (b3.trans c2) (b4.trans c2) (Nat.le_trans c1.le b5) (c1.k.trans b6) b7 ht q4 ?_ ?_ ?_
  · exact fun X hX => (b8 _ (z X hX)).1
  · intro X hX C κ hA t htg
    have a := ((b8 _ (z X hX)).2 C κ hA).1
    exact ⟨c1.back _ hX C t a.ok htg, a.gts, a.lbs⟩
  · intro X hX C κ hA t htg K hK d i hi ρ k k' hρ hk hk' env R w hl hR
    obtain ⟨a1, a2⟩ := (b8 _ (z X hX)).2 C κ hA
    have hp := c5 K (b6.trans hK) _ hX C a1.ok R w
    rw [eval_congr (fun r hr => hR r hr) _ w1] at hp
    refine hp.does ?_
    rintro v w' _ ⟨R', r1, r2⟩
    have hR' : ∀ x, x < g.fs.nactvar → R' x = look env x := fun x hx => by rw [r1 x (by rw [hg.free]; exact hx), hR x hx]
    by_cases hv : v.truthy = true
    · rw [if_pos hv] at r2 ⊢
      refine r2 _ _ ?_
      have := a2 K hK d i hi ρ (cut g.fs.nactvar k) g.fs.pc c1.le hρ (fun N hN => hk.cut (by rw [← c2]; exact hN))
      rw [c2] at this
      exact this env R' w' hl hR'
    · rw [if_neg hv] at r2 ⊢
      obtain ⟨j', hj, r2⟩ := r2
      exact r2 _ _ (htg.go hj R' w' _ _ (hk' env R' w' hl hR'))

/-- a goto at `j` -/
theorem goto_does {l : Nat} {js : List Nat} {κ : LMap} {n i j p : Nat} {ρ : LEnv W} (hg : Goes C κ l n js) (hj : j ∈ js) (hp : p ≤ j)
    (hρ : LOK P K C i ρ κ p []) {env : List Val} {R : Regs} {w : W} (hl : env.length = n) (hR : ∀ x, x < n → R x = look env x) :
    Does P K C i (.run j R w) (match ρ l with
      | some (m, k) => k (env.take m) w
      | none => .fin .ub) := by
  obtain ⟨t, a2, a3, a4⟩ := hg
  obtain ⟨m, kc, b1, b2, b3, b4⟩ := hρ l t a2
  rw [b1]
  rcases Nat.lt_or_ge p t.1 with hlt | hge
  · exact (a3.go hj R w) _ _ ((b4 hlt (fun h => nomatch h)).take (by omega) (fun x hx => hR x (by omega)))
  · exact (a3.goS hj (Nat.le_trans hge hp) R w).does (b3.take (by omega) (fun x hx => hR x (by omega)))

theorem claim_testgoto {c : E} {l : Nat} {b rest : S} (h1 : Claim P b) (h2 : Claim P rest) :
    Claim P (.test c (.cons (.goto l) b) rest) := by
  intro u sort g g' esc h hg hwf
  have hst : sort = .part := by cases sort <;> first | rfl | exact hwf.elim
  subst hst
  obtain ⟨w1, ⟨_, w2⟩, w3⟩ : c.ok g.fs.nactvar ∧ (((S.goto l).asLabel.isSome ∨ (S.goto l).wf (Assign.Stable P) .stmt g.fs.nactvar) ∧
    b.wf (Assign.Stable P) .list (g.fs.nactvar + 0)) ∧ rest.wf (Assign.Stable P) .part g.fs.nactvar := hwf
  rw [gs] at h
  obtain ⟨⟨s, js⟩, q1, h⟩ := Res.bind_eq_ok.1 h
  obtain ⟨i0, q2, h⟩ := Res.bind_eq_ok.1 h
  dsimp only at h q2
  obtain ⟨c1, c2, c3, c4, c5⟩ := condGoto_res q1 (Nat.le_of_eq hg.free.symm) w1
  obtain ⟨r1, r2, r3, r4, r5⟩ := gotostat_res q2 ⟨(fun _ h => nomatch h), List.nodup_nil⟩
  have r1 : i0.nact = s.nactvar := r1
  have r2 : i0.labels = [] := r2
  have i0pc : i0.fs.pc = s.pc := r3.pc
  have i0act : i0.fs.nactvar = g.fs.nactvar := by rw [r3.nact]; exact c2
  have i0free : i0.fs.freereg = i0.fs.nactvar := by rw [r3.free, i0act]; show s.freereg = _; rw [c3, hg.free]
  have z0 : ∀ X, GInv g X → GInv (enter s) (js ++ (jms g.gotos ++ X)) := fun X hX => c1.inv _ hX
  have z1 : ∀ X, GInv g X → GInv i0 (jms g.gotos ++ X) := fun X hX => (r5 _ (z0 X hX)).1
  have backs : ∀ X, GInv g X → ∀ C κ, All C κ i0 → Goes C κ l g.fs.nactvar js ∧ OK C s ∧ OK C g.fs := by
    intro X hX C κ hA
    obtain ⟨a1, a2⟩ := (r5 _ (z0 X hX)).2 C κ hA
    have a2 : Goes C κ l s.nactvar js := a2
    rw [c2] at a2
    refine ⟨a2, a1.ok, ?_⟩
    obtain ⟨t, _, a3, _⟩ := a2
    exact c1.back _ hX C _ a1.ok a3
  -- the meaning of the block
  have key : ∀ (T : Nat → Prop) (i1 i g1 : G) (jf : List Nat), Done P false .list b i1 i [] → i1.labels = [] → i1.nact = g.fs.nactvar →
      i1.fs.nactvar = g.fs.nactvar → leave false i g = .ok g1 → s.pc ≤ i1.fs.pc → s.k <+: i1.fs.k →
      (∀ X, GInv g X → GInv i1 (jms g.gotos ++ (jf ++ X))) →
      (∀ X, GInv g X → ∀ C κ, All C κ i1 → ∀ t, T t → Tgt C jf t → All C κ i0 ∧ ∀ K R w, Go P K C (.run s.pc R w) (.run t R w)) →
      g1.nact = g.nact ∧ g1.labels = g.labels ∧ g1.fs.nactvar = g.fs.nactvar ∧ g1.fs.freereg = g.fs.nactvar ∧ g.fs.pc ≤ g1.fs.pc ∧
      g.fs.k <+: g1.fs.k ∧ Sep g1 ∧ (∀ X, GInv g X → GInv g1 (jf ++ X)) ∧
      (∀ X, GInv g X → ∀ C κ, All C κ g1 → ∀ t, T t → Tgt C jf t → All C κ g) ∧
      (∀ X, GInv g X → ∀ C κ, All C κ g1 → ∀ t, T t → Tgt C jf t → ∀ K, g1.fs.k <+: K → ∀ d i, i ≤ d → ∀ ρ k k',
        LOK P K C i ρ κ g.fs.pc [] → Sim P K C i k g1.fs.pc g.fs.nactvar → Sim P K C i k' t g.fs.nactvar →
        Sim P K C i (fun env w => bindR (eval P (look env) c w) fun v w =>
          if v.truthy then scope d (.cons (.goto l) b) ρ (sem P d false g.fs.nactvar g.fs.nactvar (.cons (.goto l) b))
            (cut g.fs.nactvar k) env w
          else k' env w) g.fs.pc g.fs.nactvar) := by
    intro T i1 i g1 jf hD hlab hna hact hlv hpc hk inv back
    obtain ⟨l1, l2, l3, l4, l5, l6, l7, l8⟩ := leave_res hlv hD.sep hg.sep
    have zi : ∀ X, GInv g X → GInv i (jms g.gotos ++ (jf ++ X)) := fun X hX => hD.inv _ (inv X hX)
    have bk : ∀ X, GInv g X → ∀ C κ, All C κ g1 → All C (inner i.labels κ) i ∧ All C (inner i.labels κ) i1 ∧ Gts C κ g.gotos ∧ Lbs κ g.labels := by
      intro X hX C κ hA
      obtain ⟨a1, a2, a3⟩ := (l8 _ (zi X hX)).2 C κ hA
      rw [atbrk_false] at a1
      exact ⟨a1, hD.back _ (inv X hX) C _ 0 a1 Tgt.nil, a2, a3⟩
    refine ⟨l1, l2, by rw [l5, hD.nact, hna], by rw [l6, hD.nact, hna], ?_, ?_, l7, ?_, ?_, ?_⟩
    · rw [l3]
      exact Nat.le_trans c1.le (Nat.le_trans hpc hD.le)
    · rw [l4]
      exact c1.k.trans (hk.trans hD.k)
    · exact fun X hX => (l8 _ (zi X hX)).1
    · intro X hX C κ hA t hT ht
      obtain ⟨_, a2, a3, a4⟩ := bk X hX C κ hA
      exact ⟨(backs X hX C _ (back X hX C _ a2 t hT ht).1).2.2, a3, a4⟩
    · intro X hX C κ hA t hT ht K hK d ii hi ρ k k' hρ hk' hk'' env R w hl hR
      obtain ⟨a1, a2, a3, a4⟩ := bk X hX C κ hA
      obtain ⟨a5, a6⟩ := back X hX C _ a2 t hT ht
      obtain ⟨a7, a8, a9⟩ := backs X hX C _ a5
      have hK1 : i.fs.k <+: K := by rw [← l4]; exact hK
      have hp := c5 K ((hk.trans hD.k).trans hK1) _ hX C a8 R w
      rw [eval_congr (fun r hr => hR r hr) _ w1] at hp
      refine hp.does ?_
      rintro v w' _ ⟨R', r1, r2⟩
      have hR' : ∀ x, x < g.fs.nactvar → R' x = look env x := fun x hx => by rw [r1 x (by rw [hg.free]; exact hx), hR x hx]
      rw [l3] at hk'
      by_cases hv : v.truthy = true
      · rw [if_neg (by rw [hv]; exact fun h => nomatch h)] at r2
        rw [if_pos hv]
        obtain ⟨j', hj, r2⟩ := r2
        refine r2 _ _ ?_
        have hsc := (scope_sim (K := K) hD hlab hK1 (inv X hX) a1 hi (Nat.le_trans c1.le hpc) hρ
          (k := cut g.fs.nactvar k) (hk'.cut (by rw [hD.act, hact]; exact Nat.le_add_right _ _))
          (fun _ => hk'.cut (by rw [hna]; exact Nat.le_refl _)) rfl).2
        rw [hna, hact] at hsc
        have := goto_does a7 hj (c4 j' hj) hsc (w := w') hl hR'
        exact this
      · rw [if_pos (by simpa using hv)] at r2
        rw [if_neg hv]
        exact r2 _ _ (a6 K R' w' _ _ (hk'' env R' w' hl hR'))
  split at h
  · rename_i hnil
    have hb : b = .nil := by cases b <;> first | rfl | cases hnil
    obtain ⟨g1, q3', hfin⟩ := Res.bind_eq_ok.1 h
    subst hb
    have hD : Done P false .list .nil i0 i0 [] := claim_nil false .list i0 i0 [] (by rw [gs])
      ⟨i0free, by rw [r1, i0act, c2]; exact Nat.le_refl _, r4, fun h => nomatch h⟩ trivial
    have hpc := (leave_res q3' r4 hg.sep).2.2.1
    obtain ⟨k1, k2, k3, k4, k5, k6, k7, k8, k9, k10⟩ := key (· = g1.fs.pc) i0 i0 g1 [] hD r2 (by rw [r1, c2]) i0act q3'
      (by rw [i0pc]; exact Nat.le_refl _) (by rw [r3.k]; exact List.prefix_refl _) z1 (fun X hX C κ hA t hT ht =>
        ⟨hA, fun K R w => by rw [hT, hpc, i0pc]; exact Go.refl _⟩)
    have hg2 : Good .part g1 := ⟨by rw [k4, k3], by rw [k1, k3]; exact hg.nact, k7, fun h => nomatch h⟩
    have hR := h2 false .part _ _ _ hfin hg2 (by rw [k3]; exact w3)
    have hnm : rest.names = [] ∧ rest.nloc = 0 := by cases rest <;> first | exact ⟨rfl, rfl⟩ | exact w3.elim
    obtain ⟨ls, p1, p2⟩ := hR.labels
    rw [hnm.1] at p2
    rw [List.map_eq_nil_iff.1 p2] at p1
    refine ⟨by rw [hR.nact, k1], by rw [hR.act, hnm.2, k3]; rfl, ⟨[], by rw [p1, k2], rfl⟩, hR.free, fun h => absurd rfl h,
      Nat.le_trans k5 hR.le, k6.trans hR.k, hR.sep, fun X hX => hR.inv _ (k8 X hX), ?_, ?_⟩
    · intro X hX C κ t hA ht
      exact k9 X hX C κ (hR.back _ (k8 X hX) C κ t hA ht) _ rfl Tgt.nil
    · intro K hK X hX C κ hA ht d i hi n0 ρ k _ hρ hk _
      have hρ : LOK P K C i ρ κ g.fs.pc [] := hρ
      have hr2 := (hR.sim K hK _ (k8 X hX) C κ hA ht d i hi g.fs.nactvar ρ k
        (fun h => nomatch h) (by rw [hnm.1]; exact hρ.mono (Nat.le_refl _) k5 (fun _ h => h)) hk (fun h => nomatch h)).1
      rw [k3] at hr2
      have := k10 X hX C κ (hR.back _ (k8 X hX) C κ _ hA ht) _ rfl Tgt.nil K (hR.k.trans hK) d i hi ρ _ _ hρ hr2 hr2
      rw [sem]
      exact ⟨this, ents_nil⟩
  · rename_i hnil
    obtain ⟨⟨i, e0⟩, q3, h⟩ := Res.bind_eq_ok.1 h
    obtain ⟨g1, q4, h⟩ := Res.bind_eq_ok.1 h
    dsimp only at h q3 q4
    cases ht : testend rest.isFi (jump i0.fs).2 g1 with
    | mk g2 j =>
    rw [ht] at h
    dsimp only at h
    obtain ⟨⟨g3, esc'⟩, q5, h⟩ := Res.bind_eq_ok.1 h
    cases h
    have hj := jump_tr i0.fs
    have hg1 : Good .list { i0 with fs := (jump i0.fs).1 } := ⟨i0free, by
      show i0.nact ≤ i0.fs.nactvar
      rw [r1, i0act, c2]; exact Nat.le_refl _, ⟨r4.gl, r4.nodup⟩, fun h => nomatch h⟩
    have hD := h1 false .list _ _ _ q3 hg1 (by show b.wf (Assign.Stable P) .list i0.fs.nactvar; rw [i0act]; exact w2)
    have he := hD.noesc (fun h => nomatch h)
    subst he
    have inv1 : ∀ X, GInv g X → GInv { i0 with fs := (jump i0.fs).1 } (jms g.gotos ++ ((jump i0.fs).2 ++ X)) := by
      intro X hX
      have a := hj.inv _ (z1 X hX)
      exact a.perm ((perm3 ..).trans (List.Perm.append_left _ (List.Perm.append_left _ (perm2 ..))))
    obtain ⟨k1, k2, k3, k4, k5, k6, k7, k8, k9, k10⟩ := key (fun _ => True) _ i g1 (jump i0.fs).2 hD r2 (by show i0.nact = _; rw [r1, c2]) i0act q4
      (by rw [← i0pc]; exact hj.le) (by rw [← show i0.fs.k = s.k from r3.k]; exact hj.k) inv1 (fun X hX C κ hA t _ ht => by
        refine ⟨⟨hj.back _ (z1 X hX) C t hA.ok ht, hA.gts, hA.lbs⟩, fun K R w => ?_⟩
        rw [← i0pc]
        exact ht.go (List.mem_cons_self ..) R w)
    exact rest_done h2 hg w3 k1 k2 k3 k4 k5 k6 k7 ht q5 k8 (fun X hX C κ hA t => k9 X hX C κ hA t trivial) (fun X hX C κ hA t => k10 X hX C κ hA t trivial)

theorem claim_all2 (s : S) : Claim P s ∧ ∀ l b, s = .cons (.goto l) b → Claim P b := by
  induction s with
  | loc n es => exact ⟨claim_loc n es, fun _ _ h => nomatch h⟩
  | assign vs es e => exact ⟨claim_assign vs es e, fun _ _ h => nomatch h⟩
  | locc n as => exact ⟨claim_locc n as, fun _ _ h => nomatch h⟩
  | assignc vs as => exact ⟨claim_assignc vs as, fun _ _ h => nomatch h⟩
  | retc as => exact ⟨claim_retc as, fun _ _ h => nomatch h⟩
  | goto l => exact ⟨claim_goto l, fun _ _ h => nomatch h⟩
  | label l => exact ⟨claim_label l, fun _ _ h => nomatch h⟩
  | do_ b ih => exact ⟨claim_do ih.1, fun _ _ h => nomatch h⟩
  | while_ c b ih => exact ⟨claim_while ih.1, fun _ _ h => nomatch h⟩
  | repeat_ b c ih => exact ⟨claim_repeat ih.1, fun _ _ h => nomatch h⟩
  | if_ p ih => exact ⟨claim_if ih.1, fun _ _ h => nomatch h⟩
  | for_ e1 e2 e3 b ih => exact ⟨claim_for ih.1, fun _ _ h => nomatch h⟩
  | forin m b ih => exact ⟨claim_forin ih.1, fun _ _ h => nomatch h⟩
  | ret es => exact ⟨claim_ret es, fun _ _ h => nomatch h⟩
  | nil => exact ⟨claim_nil, fun _ _ h => nomatch h⟩
  | cons s rest ih1 ih2 => exact ⟨claim_cons ih1.1 ih2.1, fun _ _ h => by cases h; exact ih2.1⟩
  | test c b rest ih1 ih2 =>
    refine ⟨?_, fun _ _ h => nomatch h⟩
    by_cases hb : ∃ l b', b = .cons (.goto l) b'
    · obtain ⟨l, b', rfl⟩ := hb
      exact claim_testgoto (ih1.2 l b' rfl) ih2.1
    · exact claim_test (fun l b' h => hb ⟨l, b', h⟩) ih1.1 ih2.1
  | els b ih => exact ⟨claim_els ih.1, fun _ _ h => nomatch h⟩
  | fi => exact ⟨claim_fi, fun _ _ h => nomatch h⟩

theorem claim_all (s : S) : Claim P s := (claim_all2 s).1

/-- a function -/
theorem func_does {n : Nat} {b : S} (h : genFunc P.F true n b = .ok (C, K)) (hw : b.wf (Assign.Stable P) .list n) {args : List Val} (ha : args.length = n)
    {d i : Nat} (hi : i ≤ d) (R : Regs) (hR : ∀ x, x < n → R x = look args x) (w : W) :
    Does P K C i (.run 0 R w) (semFunc P d b args w) := by
  unfold genFunc at h
  obtain ⟨⟨g, esc⟩, q1, h⟩ := Res.bind_eq_ok.1 h
  dsimp only at h
  split at h
  · rename_i hgt
    cases h
    have hD := claim_all (P := P) b false .list _ _ _ q1 ⟨rfl, Nat.zero_le _, ⟨(fun _ h => nomatch h), List.nodup_nil⟩, fun h => nomatch h⟩ hw
    have he := hD.noesc (fun h => nomatch h)
    subst he
    have hinv : GInv { fs := FS.start n [], nact := 0, labels := [], gotos := [] } [] :=
      ⟨List.nodup_nil, (fun _ h => nomatch h), (fun i _ _ _ h => by simp [FS.start] at h), (fun _ _ _ h => by simp [FS.start] at h)⟩
    have hem : Tr g.fs (emit g.fs (.ret 0 0)) [] := emit_tr g.fs (fun _ _ _ e => nomatch e)
    have hok : OK (emit g.fs (.ret 0 0)).code (emit g.fs (.ret 0 0)) := ⟨Patched.refl _, Tgt.nil⟩
    have hA : All (emit g.fs (.ret 0 0)).code (inner g.labels (fun _ => none)) g :=
      ⟨hem.back0 (hD.inv _ hinv) hok, by rw [hgt]; exact fun _ h => (nomatch h), inner_lbs hD.sep.nodup⟩
    have hk : Sim P (emit g.fs (.ret 0 0)).k (emit g.fs (.ret 0 0)).code i (fun _ w => .fin (.ok ([], w))) g.fs.pc 0 := by
      intro env R w _ _
      refine ⟨1, ?_⟩
      have hat := emit_at hok (fun e => nomatch e) (fun _ _ e => nomatch e)
      show mstep P _ _ g.fs.pc R w = _
      unfold mstep
      rw [hat]
      rfl
    have := (scope_sim (K := (emit g.fs (.ret 0 0)).k) hD rfl hem.k hinv hA hi (Nat.le_refl _) (ρ := fun _ => none)
      (fun l t h => nomatch h) (k := fun _ w => .fin (.ok ([], w))) (fun env R w _ _ => hk [] R w rfl (fun _ h => nomatch h))
      (fun _ => hk) rfl).1
    have := this args R w ha hR
    rw [semFunc, ha]
    exact this
  · cases h

end Verif.Stat
