import Verif.Stat.Sim
/-! Lists of statements and blocks. -/
namespace Verif.Stat
open Verif.ExpCode
variable {W : Type} {P : Ops W} {K : List Val} {C : List Instr}

theorem GInv.perm {g : G} {X Y : List Nat} (h : GInv g X) (hp : X.Perm Y) : GInv g Y :=
  Inv.perm h (List.Perm.append_left _ (List.Perm.append_left _ hp))

theorem GInv.inv3 {g : G} {a X : List Nat} (h : GInv g (a ++ X)) : Inv g.fs.code (g.fs.jpc ++ (a ++ (jms g.gotos ++ X))) :=
  Inv.perm h (perm3 ..)

theorem perm2 (a b c : List Nat) : (a ++ (b ++ c)).Perm (b ++ (a ++ c)) := by
  rw [← List.append_assoc, ← List.append_assoc]
  exact List.Perm.append_right c List.perm_append_comm

theorem atbrk_false (t : Nat × Nat) (κ : LMap) : atbrk false t κ = κ := by
  funext l
  unfold atbrk
  rw [if_neg (fun h => nomatch h.1)]

/-! ### lists -/

theorem claim_nil : Claim P .nil := by
  intro u sort g g' esc h hg hwf
  rw [gs] at h
  cases h
  have hst : sort = .list := by cases sort <;> first | rfl | exact hwf.elim
  subst hst
  refine ⟨rfl, rfl, ⟨[], (List.append_nil _).symm, rfl⟩, fun _ => hg.free, fun _ => rfl, Nat.le_refl _, List.prefix_refl _, hg.sep,
    fun X hX => hX, fun X hX C κ t hA _ => hA, ?_⟩
  intro K hK X hX C κ hA _ d i _ n0 ρ k _ _ hk _
  exact ⟨hk, fun _ h => nomatch h⟩

theorem asLabel_some {s : S} {l : Nat} (h : s.asLabel = some l) : s = .label l := by
  cases s <;> first | (cases h; rfl) | cases h

theorem names_stmt {s : S} {n : Nat} (h : s.wf (Assign.Stable P) .stmt n) : s.names = [] := by
  cases s <;> first | rfl | exact h.elim

theorem onlyLabels_res {u : Bool} : ∀ (rest : S) {g g' : G} {esc : List Nat}, rest.onlyLabels = true →
    gs P.F true u rest g = .ok (g', esc) → Sep g →
    g'.fs.pc = g.fs.pc ∧ (∀ d n0 n (ρ : LEnv W) k, (sem P d u n0 n rest ρ k).1 = k) := by
  intro rest
  induction rest with
  | nil => intro g g' esc _ h _; rw [gs] at h; cases h; exact ⟨rfl, fun _ _ _ _ _ => rfl⟩
  | cons s rest _ ih =>
    intro g g' esc ho h hs
    rw [S.onlyLabels, Bool.and_eq_true] at ho
    obtain ⟨l, hl⟩ := Option.isSome_iff_exists.1 ho.1
    rw [gs, hl] at h
    dsimp only at h
    obtain ⟨g1, e1, h⟩ := Res.bind_eq_ok.1 h
    obtain ⟨_, _, r3, r4, _⟩ := labelstat_res e1 hs
    obtain ⟨i1, i2⟩ := ih ho.2 h r4
    refine ⟨i1.trans r3.pc, fun d n0 n ρ k => ?_⟩
    rw [sem, hl]
    exact i2 ..
  | _ => intro g g' esc ho; cases ho

theorem claim_cons {s rest : S} (h1 : Claim P s) (h2 : Claim P rest) : Claim P (.cons s rest) := by
  intro u sort g g' esc h hg hwf
  have hst : sort = .list := by cases sort <;> first | rfl | exact hwf.elim
  subst hst
  obtain ⟨w1, w2⟩ : (s.asLabel.isSome ∨ s.wf (Assign.Stable P) .stmt g.fs.nactvar) ∧ rest.wf (Assign.Stable P) .list (g.fs.nactvar + s.nloc) := hwf
  rw [gs] at h
  cases hl : s.asLabel with
  | some l =>
    have hs := asLabel_some hl
    subst hs
    rw [hl] at h
    dsimp only at h
    obtain ⟨g1, e1, h⟩ := Res.bind_eq_ok.1 h
    obtain ⟨r1, r2, r3, r4, r5⟩ := labelstat_res e1 hg.sep
    have hg1 : Good .list g1 := ⟨by rw [r3.free, r3.nact]; exact hg.free, by rw [r1, r3.nact]; exact hg.nact, r4, fun h => nomatch h⟩
    have hD := h2 u .list g1 g' esc h hg1 (by rw [r3.nact]; exact w2)
    obtain ⟨ls, q1, q2⟩ := hD.labels
    refine ⟨hD.nact.trans r1, ?_, ⟨⟨l, if (!u && rest.onlyLabels) = true then g.nact else g.fs.nactvar, g.fs.pc⟩ :: ls, ?_, ?_⟩, hD.free, hD.noesc, ?_, ?_, hD.sep, ?_, ?_, ?_⟩
    · rw [hD.act, r3.nact]
      show _ = _ + (0 + rest.nloc)
      omega
    · rw [q1, r2, List.append_assoc]; rfl
    · rw [List.map_cons, q2]; rfl
    · rw [← r3.pc]; exact hD.le
    · rw [← r3.k]; exact hD.k
    · exact fun X hX => hD.inv X (r5 X hX).1
    · intro X hX C κ t hA ht
      exact (r5 X hX).2 C κ (hD.back X (r5 X hX).1 C κ t hA ht)
    · intro K hK X hX C κ hA ht d i hi n0 ρ k hn0 hρ hk hk0
      have hA1 := hD.back X (r5 X hX).1 C κ _ hA ht
      have hκ := hA1.lbs ⟨l, if (!u && rest.onlyLabels) = true then g.nact else g.fs.nactvar, g.fs.pc⟩ (by
        rw [r2]; exact List.mem_append_right _ (List.mem_singleton.2 rfl))
      dsimp only at hκ
      have hρ1 : LOK P K C i ρ κ g1.fs.pc rest.names := by
        intro l' t ht'
        obtain ⟨m, kc, a1, a2, a3, a4⟩ := hρ l' t ht'
        refine ⟨m, kc, a1, a2, a3, fun b1 b2 => a4 (by rw [← r3.pc]; exact b1) ?_⟩
        intro hm
        rcases List.mem_cons.1 hm with rfl | hm
        · rw [hκ] at ht'
          cases ht'
          rw [r3.pc] at b1
          exact absurd b1 (Nat.lt_irrefl _)
        · exact b2 hm
      obtain ⟨c1, c2⟩ := hD.sim K hK X (r5 X hX).1 C κ hA ht d i hi n0 ρ k (fun h => by rw [r1]; exact hn0 h) hρ1 hk hk0
      rw [r3.pc, r3.nact] at c1
      rw [r3.nact] at c2
      rw [sem, hl]
      dsimp only
      refine ⟨c1, ?_⟩
      intro e he
      rcases List.mem_cons.1 he with rfl | he
      · refine ⟨_, hκ, ?_, ?_⟩
        · dsimp only
          rw [hn0 rfl]
          exact Nat.le_refl _
        · dsimp only
          cases hlast : (!u && rest.onlyLabels) with
          | false => exact c1
          | true =>
            rw [Bool.and_eq_true] at hlast
            obtain ⟨o1, o2⟩ := onlyLabels_res rest hlast.2 h r4
            rw [o2]
            have := hk0 rfl (by simpa using hlast.1)
            rw [o1, r3.pc] at this
            exact this
      · exact c2 e he
  | none =>
    have w1 : s.wf (Assign.Stable P) .stmt g.fs.nactvar := by
      rcases w1 with w1 | w1
      · rw [hl] at w1; cases w1
      · exact w1
    rw [hl] at h
    dsimp only at h
    obtain ⟨⟨g1, e0⟩, e1, h⟩ := Res.bind_eq_ok.1 h
    have hg0 : Good .stmt { g with fs := getlabel g.fs } := ⟨hg.free, hg.nact, ⟨hg.sep.gl, hg.sep.nodup⟩, fun _ => rfl⟩
    have hD1 := h1 false .stmt _ g1 e0 e1 hg0 w1
    have he0 := hD1.noesc (fun h => nomatch h)
    subst he0
    have hact : g1.fs.nactvar = g.fs.nactvar + s.nloc := hD1.act
    have hg2 : Good .list (endstat g1) := ⟨rfl, by
      show g1.nact ≤ g1.fs.nactvar
      rw [hD1.nact, hact]
      have := hg.nact
      show g.nact ≤ _
      omega, ⟨hD1.sep.gl, hD1.sep.nodup⟩, fun h => nomatch h⟩
    have hD2 := h2 u .list (endstat g1) g' esc h hg2 (by show rest.wf (Assign.Stable P) .list g1.fs.nactvar; rw [hact]; exact w2)
    obtain ⟨ls1, q1, q2⟩ := hD1.labels
    rw [names_stmt w1] at q2
    rw [List.map_eq_nil_iff.1 q2, List.append_nil] at q1
    obtain ⟨ls, q3, q4⟩ := hD2.labels
    have hinv : ∀ X, GInv g X → GInv (endstat g1) X := fun X hX => hD1.inv X hX
    have hend : ∀ C κ, All C κ (endstat g1) → All C κ g1 := fun C κ h => ⟨h.ok, h.gts, h.lbs⟩
    refine ⟨hD2.nact.trans hD1.nact, ?_, ⟨ls, ?_, ?_⟩, hD2.free, hD2.noesc, Nat.le_trans hD1.le hD2.le, hD1.k.trans hD2.k, hD2.sep, ?_, ?_, ?_⟩
    · rw [hD2.act]
      show g1.fs.nactvar + _ = _ + (s.nloc + rest.nloc)
      rw [hact]; omega
    · rw [q3]
      show g1.labels ++ ls = _
      rw [q1]
    · rw [q4, S.names, hl]; rfl
    · exact fun X hX => hD2.inv X (hinv X hX)
    · intro X hX C κ t hA ht
      have a := hD1.back X hX C κ t (hend C κ (hD2.back X (hinv X hX) C κ t hA ht)) Tgt.nil
      exact ⟨a.ok, a.gts, a.lbs⟩
    · intro K hK X hX C κ hA ht d i hi n0 ρ k hn0 hρ hk hk0
      have hA1 := hend C κ (hD2.back X (hinv X hX) C κ _ hA ht)
      have hnm : (S.cons s rest).names = rest.names := by rw [S.names, hl]; rfl
      rw [hnm] at hρ
      obtain ⟨c1, c2⟩ := hD2.sim K hK X (hinv X hX) C κ hA ht d i hi n0 ρ k (fun h => by
        show n0 = g1.nact
        rw [hD1.nact]; exact hn0 h) (hρ.mono (Nat.le_refl _) hD1.le (fun _ h => h)) hk hk0
      have c1 : Sim P K C i (sem P d u n0 g1.fs.nactvar rest ρ k).1 g1.fs.pc g1.fs.nactvar := c1
      have c2 : Ents P K C i κ (sem P d u n0 g1.fs.nactvar rest ρ k).2 := c2
      rw [hact] at c2
      rw [sem, hl]
      dsimp only
      refine ⟨?_, c2⟩
      rw [show (sem P d u n0 (g.fs.nactvar + s.nloc) rest ρ k).1 = (sem P d u n0 g1.fs.nactvar rest ρ k).1 by rw [hact]]
      have := (hD1.sim K (hD2.k.trans hK) X hX C κ hA1 Tgt.nil d i hi g.fs.nactvar
        (extend ρ (sem P d u n0 (g.fs.nactvar + s.nloc) rest ρ k).2) _ (fun h => nomatch h) (by
          rw [names_stmt w1]
          exact extend_lok hρ (fun l hl => by rw [sem_names]; exact hl) c2) c1 (fun h => nomatch h)).1
      exact this

/-! ### the labels of a block -/

theorem inner_mem {ls : List Lab} {κ : LMap} {l : Nat} (h : l ∈ ls.map (·.name)) : ∃ t, inner ls κ l = some t := by
  obtain ⟨b, hb, hn⟩ := List.mem_map.1 h
  unfold inner
  cases hf : ls.find? (·.name = l) with
  | some lb => exact ⟨_, rfl⟩
  | none => exact absurd (decide_eq_true hn) (List.find?_eq_none.1 hf b hb)

theorem inner_not {ls : List Lab} {κ : LMap} {l : Nat} (h : l ∉ ls.map (·.name)) : inner ls κ l = κ l :=
  inner_of_not (fun _ hb e => h (e ▸ List.mem_map_of_mem hb))

theorem extend_not {ρ : LEnv W} {r : List (Nat × Nat × Kont W)} {l : Nat} (h : l ∉ r.map (·.1)) : extend ρ r l = ρ l := by
  unfold extend
  have : r.find? (·.1 = l) = none := List.find?_eq_none.2 (fun e he hn => h (by
    have hn : e.1 = l := by simpa using hn
    exact hn ▸ List.mem_map_of_mem he))
  rw [this]

theorem extend_mem {ρ : LEnv W} {r : List (Nat × Nat × Kont W)} {l : Nat} (h : l ∈ r.map (·.1)) :
    ∃ e ∈ r, e.1 = l ∧ extend ρ r l = some e.2 := by
  obtain ⟨e, he, hn⟩ := List.mem_map.1 h
  unfold extend
  cases hf : r.find? (·.1 = l) with
  | some e' => exact ⟨e', List.mem_of_find?_eq_some hf, by simpa using List.find?_some hf, rfl⟩
  | none => exact absurd (decide_eq_true hn) (List.find?_eq_none.1 hf e he)

theorem tie_not {ρ : LEnv W} {names : List Nat} {f : LEnv W → List (Nat × Nat × Kont W)} (hf : ∀ ρ, (f ρ).map (·.1) = names)
    {l : Nat} (h : l ∉ names) : ∀ j, tie ρ names f j l = ρ l := by
  intro j
  cases j with
  | zero =>
    rw [tie]
    exact extend_not (by rw [List.map_map]; simpa using h)
  | succ j =>
    rw [tie]
    exact extend_not (by rw [hf]; exact h)

theorem scope_sim {u : Bool} {b : S} {g0 g1 : G} {esc : List Nat} (hD : Done P u .list b g0 g1 esc) (h0 : g0.labels = [])
    (hK : g1.fs.k <+: K) {X : List Nat} (hX : GInv g0 X) {κ : LMap} (hA : All C (inner g1.labels κ) g1) {d i : Nat} (hi : i ≤ d)
    {ρ : LEnv W} {k : Kont W} {p : Nat} (hp : p ≤ g0.fs.pc) (hρ : LOK P K C i ρ κ p [])
    (hk : Sim P K C i k g1.fs.pc g1.fs.nactvar) (hk0 : u = false → Sim P K C i k g1.fs.pc g0.nact)
    {T : LEnv W} (hT : T = tie ρ b.names (fun ρ => (sem P d u g0.nact g0.fs.nactvar b ρ k).2) d) :
    Sim P K C i (sem P d u g0.nact g0.fs.nactvar b T k).1 g0.fs.pc g0.fs.nactvar ∧
    LOK P K C i (extend T (sem P d u g0.nact g0.fs.nactvar b T k).2) (inner g1.labels κ) p [] := by
  have he := hD.noesc (fun h => nomatch h)
  subst he
  obtain ⟨ls, q1, q2⟩ := hD.labels
  rw [h0, List.nil_append] at q1
  rw [← q1] at q2
  have hnm : ∀ ρ, (sem P d u g0.nact g0.fs.nactvar b ρ k).2.map (·.1) = b.names := fun ρ => sem_names ..
  -- labels of the block
  have lt : ∀ j, ∀ l ∈ b.names, ∃ t m k', inner g1.labels κ l = some t ∧
      tie ρ b.names (fun ρ => (sem P d u g0.nact g0.fs.nactvar b ρ k).2) j l = some (m, k') ∧ m ≤ t.2 ∧
      ∀ i', i' ≤ j → i' ≤ i → Sim P K C i' k' t.1 m := by
    intro j
    have lok : ∀ j, (∀ l ∈ b.names, ∃ t m k', inner g1.labels κ l = some t ∧
        tie ρ b.names (fun ρ => (sem P d u g0.nact g0.fs.nactvar b ρ k).2) j l = some (m, k') ∧ m ≤ t.2 ∧
        ∀ i', i' ≤ j → i' ≤ i → Sim P K C i' k' t.1 m) → ∀ i', i' ≤ j + 1 → i' ≤ i →
        LOK P K C i' (tie ρ b.names (fun ρ => (sem P d u g0.nact g0.fs.nactvar b ρ k).2) j) (inner g1.labels κ) g0.fs.pc b.names := by
      intro j h i' h1 h2 l t ht
      by_cases hl : l ∈ b.names
      · obtain ⟨t', m, k', a1, a2, a3, a4⟩ := h l hl
        rw [ht] at a1
        cases a1
        exact ⟨m, k', a2, a3, a4 _ (by omega) (by omega), fun _ hn => absurd hl hn⟩
      · rw [inner_not (by rw [q2]; exact hl)] at ht
        obtain ⟨m, k', a1, a2, a3, a4⟩ := hρ.mono h2 hp (fun _ h => h) l t ht
        exact ⟨m, k', by rw [tie_not hnm hl]; exact a1, a2, a3, fun b1 _ => a4 b1 (fun h => nomatch h)⟩
    induction j with
    | zero =>
      intro l hl
      obtain ⟨t, ht⟩ := inner_mem (ls := g1.labels) (κ := κ) (by rw [q2]; exact hl)
      obtain ⟨e, e1, e2, e3⟩ := extend_mem (ρ := ρ) (r := b.names.map fun l => (l, 0, (bot : Kont W))) (l := l) (by
        rw [List.map_map]; simpa using hl)
      obtain ⟨l', _, rfl⟩ := List.mem_map.1 e1
      refine ⟨t, 0, bot, ht, e3, Nat.zero_le _, fun i' h _ => ?_⟩
      rw [Nat.le_zero.1 h]
      exact Sim.bot
    | succ j ih =>
      intro l hl
      obtain ⟨t, ht⟩ := inner_mem (ls := g1.labels) (κ := κ) (by rw [q2]; exact hl)
      obtain ⟨e, e1, e2, e3⟩ := extend_mem (ρ := ρ) (r := (sem P d u g0.nact g0.fs.nactvar b
        (tie ρ b.names (fun ρ => (sem P d u g0.nact g0.fs.nactvar b ρ k).2) j) k).2) (l := l) (by rw [hnm]; exact hl)
      have key : ∀ i', i' ≤ j + 1 → i' ≤ i → e.2.1 ≤ t.2 ∧ Sim P K C i' e.2.2 t.1 e.2.1 := by
        intro i' b1 b2
        obtain ⟨_, c2⟩ := hD.sim K hK X hX C _ hA Tgt.nil d i' (by omega) g0.nact _ k (fun _ => rfl) (lok j ih i' b1 b2)
          (hk.mono b2) (fun _ hu => (hk0 hu).mono b2)
        obtain ⟨t', d1, d2, d3⟩ := c2 e e1
        rw [e2, ht] at d1
        cases d1
        exact ⟨d2, d3⟩
      exact ⟨t, e.2.1, e.2.2, ht, e3, (key 0 (Nat.zero_le _) (Nat.zero_le _)).1, fun i' b1 b2 => (key i' b1 b2).2⟩
  have lokd : LOK P K C i T (inner g1.labels κ) g0.fs.pc b.names := by
    subst hT
    intro l t ht
    by_cases hl : l ∈ b.names
    · obtain ⟨t', m, k', a1, a2, a3, a4⟩ := lt d l hl
      rw [ht] at a1
      cases a1
      exact ⟨m, k', a2, a3, a4 _ (by omega) (by omega), fun _ hn => absurd hl hn⟩
    · rw [inner_not (by rw [q2]; exact hl)] at ht
      obtain ⟨m, k', a1, a2, a3, a4⟩ := hρ.mono (Nat.le_refl _) hp (fun _ h => h) l t ht
      exact ⟨m, k', by rw [tie_not hnm hl]; exact a1, a2, a3, fun b1 _ => a4 b1 (fun h => nomatch h)⟩
  obtain ⟨c1, c2⟩ := hD.sim K hK X hX C _ hA Tgt.nil d i hi g0.nact T k (fun _ => rfl) lokd hk (fun _ => hk0)
  refine ⟨c1, ?_⟩
  intro l t ht
  by_cases hl : l ∈ b.names
  · obtain ⟨e, e1, e2, e3⟩ := extend_mem (ρ := T) (r := (sem P d u g0.nact g0.fs.nactvar b T k).2) (l := l) (by
      rw [hnm]; exact hl)
    obtain ⟨t', d1, d2, d3⟩ := c2 e e1
    rw [e2, ht] at d1
    cases d1
    exact ⟨e.2.1, e.2.2, e3, d2, d3.mono (by omega), fun _ _ => d3⟩
  · rw [inner_not (by rw [q2]; exact hl)] at ht
    obtain ⟨m, k', a1, a2, a3, a4⟩ := hρ l t ht
    refine ⟨m, k', ?_, a2, a3, a4⟩
    rw [extend_not (by rw [hnm]; exact hl), hT, tie_not hnm hl]
    exact a1

theorem enter_good {s : FS} (h : s.freereg = s.nactvar) : Good .list (enter s) :=
  ⟨h, Nat.le_refl _, ⟨(fun _ h => nomatch h), List.nodup_nil⟩, (fun h => nomatch h)⟩

/-- a block -/
theorem block {b : S} (hc : Claim P b) {s : FS} {o o' i : G} {esc : List Nat} (h : gs P.F true false b (enter s) = .ok (i, esc))
    (hl : leave false i o = .ok o') (hfree : s.freereg = s.nactvar) (ho : Sep o) (hwf : b.wf (Assign.Stable P) .list s.nactvar) :
    o'.nact = o.nact ∧ o'.labels = o.labels ∧ o'.fs.nactvar = s.nactvar ∧ o'.fs.freereg = s.nactvar ∧ s.pc ≤ o'.fs.pc ∧
    s.k <+: o'.fs.k ∧ Sep o' ∧
    ∀ X, Inv s.code (s.jpc ++ (jms o.gotos ++ X)) → GInv o' X ∧
      ∀ C κ, All C κ o' → All C κ { o with fs := s } ∧
        ∀ K, o'.fs.k <+: K → ∀ d i, i ≤ d → ∀ ρ k p, p ≤ s.pc → LOK P K C i ρ κ p [] →
          (∀ N, s.nactvar ≤ N → Sim P K C i k o'.fs.pc N) →
          Sim P K C i (scope d b ρ (sem P d false s.nactvar s.nactvar b) k) s.pc s.nactvar := by
  have hD := hc false .list _ _ _ h (enter_good hfree) hwf
  have he := hD.noesc (fun h => nomatch h)
  subst he
  obtain ⟨l1, l2, l3, l4, l5, l6, l7, l8⟩ := leave_res hl hD.sep ho
  have hin : i.nact = s.nactvar := hD.nact
  refine ⟨l1, l2, by rw [l5]; exact hin, by rw [l6]; exact hin, by rw [l3]; exact hD.le, by rw [l4]; exact hD.k, l7, fun X hX => ?_⟩
  have hX0 : GInv (enter s) (jms o.gotos ++ X) := hX
  have hXi : GInv i (jms o.gotos ++ X) := hD.inv _ hX0
  obtain ⟨m1, m2⟩ := l8 X hXi
  refine ⟨m1, fun C κ hA => ?_⟩
  obtain ⟨n1, n2, n3⟩ := m2 C κ hA
  rw [atbrk_false] at n1
  refine ⟨⟨(hD.back _ hX0 C _ 0 n1 Tgt.nil).ok, n2, n3⟩, ?_⟩
  intro K hK d ii hi ρ k p hp hρ hk
  rw [l3] at hk
  have hle : s.nactvar ≤ i.fs.nactvar := by rw [hD.act]; exact Nat.le_add_right _ _
  exact (scope_sim (K := K) hD rfl (by rw [← l4]; exact hK) hX0 n1 hi hp hρ (hk _ hle)
    (fun _ => hk _ (Nat.le_refl _)) rfl).1

end Verif.Stat
