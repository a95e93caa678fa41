import Verif.Typed.Expr

/-! # Soundness of declarations, assignments and the debug interface -/
namespace Verif.Typed

/-- An initialiser that is changed to a typed array is the constructor itself. -/
def goodPatch (G : Env) (c : Decl) (e : E) : Bool :=
  match st G e with
  | none => true
  | some d => typecheck c d != some .patch || isCons e

/-- Initialisers of `local`; no variable with a type gets its value from a `...` in front of it. -/
def goodInit (G : Env) : List Decl → List E → Bool
  | _, [] => true
  | [], e :: es => goodE G e && goodInit G [] es
  | d :: ds, [e] => goodE G e && goodPatch G d e && (match st G e with | some de => de.k != .dots || ds.all (·.isNone) | none => true)
  | d :: ds, e :: es => goodE G e && goodPatch G d e && goodInit G ds es

/-- The right-hand side of an assignment to a variable with a type has no pending jumps around a typed move. -/
def goodAssign (G : Env) (n : Nat) (e : E) : Bool :=
  match st G e with
  | none => true
  | some d => !(d.k.isNonreloc && d.hasjumps) || G.loc[n]? == some none

/-- Statements without the patterns that the compiler does not check. -/
def goodS (G : Env) : S → Bool
  | .skip => true
  | .seq a b => goodS G a && goodS (after G a) b
  | .local_ ds es => goodInit G ds es
  | .assign n e => goodE G e && goodAssign G n e
  | .assignUp _ e => goodE G e
  | .assignIdx t k e => goodE G (.index t k) && goodE G e
  | .assignAny _ e => goodE G e
  | .ite c a b => goodE G c && goodS G a && goodS G b
  | .while_ c a => goodE G c && goodS G a
  | .block a => goodS G a
  | .expr e => goodE G e

/-- The values of a declaration have the declared types. -/
def Fits (ds : List Decl) (vs : List Val) : Prop :=
  vs.length = ds.length ∧ ∀ (n : Nat) (t : Decl), ds[n]? = some t → ∃ v, vs[n]? = some v ∧ has (declTm t) v = true

theorem Fits.nil : Fits [] [] := ⟨rfl, fun n t h => by simp at h⟩

theorem Fits.cons {d : Decl} {ds : List Decl} {v : Val} {vs : List Val} (h : has (declTm d) v = true) (hs : Fits ds vs) :
    Fits (d :: ds) (v :: vs) := by
  refine ⟨by simp [hs.1], fun n t ht => ?_⟩
  cases n with
  | zero =>
    simp only [List.getElem?_cons_zero, Option.some.injEq] at ht
    subst ht
    exact ⟨v, by simp, h⟩
  | succ n =>
    simp only [List.getElem?_cons_succ] at ht ⊢
    exact hs.2 n t ht

theorem append_ok {α : Type} {P : α → Val → Prop} {as bs : List α} {vs ws : List Val} (hl : vs.length = as.length)
    (h1 : ∀ (n : Nat) (t : α), as[n]? = some t → ∃ v, vs[n]? = some v ∧ P t v)
    (h2 : ∀ (n : Nat) (t : α), bs[n]? = some t → ∃ v, ws[n]? = some v ∧ P t v) :
    ∀ (n : Nat) (t : α), (as ++ bs)[n]? = some t → ∃ v, (vs ++ ws)[n]? = some v ∧ P t v := by
  intro n t ht
  by_cases hn : n < as.length
  · rw [List.getElem?_append_left hn] at ht
    rw [List.getElem?_append_left (by omega)]
    exact h1 n t ht
  · rw [List.getElem?_append_right (by omega)] at ht
    rw [List.getElem?_append_right (by omega), hl]
    exact h2 _ t ht

theorem append_wt {G : Env} {s : St} {ds : List Decl} {vs : List Val} (h : WT G s) (hv : Fits ds vs) :
    WT { G with loc := G.loc ++ ds } { s with regs := s.regs ++ vs } := by
  refine ⟨by simp [h.ll, hv.1], ?_, h.ul, h.uv⟩
  exact append_ok (P := fun t v => has (declTm t) v = true) h.ll h.lv hv.2

theorem after_ext (G : Env) : ∀ S : S, ∃ ds, (after G S).loc = G.loc ++ ds ∧ (after G S).up = G.up := by
  intro S
  induction S generalizing G with
  | seq a b iha ihb =>
    obtain ⟨d1, h1, u1⟩ := iha G
    obtain ⟨d2, h2, u2⟩ := ihb (after G a)
    exact ⟨d1 ++ d2, by simp only [after, h2, h1, List.append_assoc], by simp only [after, u2, u1]⟩
  | local_ ds es => exact ⟨ds, rfl, rfl⟩
  | _ => exact ⟨[], by simp [after], rfl⟩

theorem leave_wt {G : Env} {S : S} {s : St} (h : WT (after G S) s) : WT G (leave G s) := by
  obtain ⟨ds, hl, hu⟩ := after_ext G S
  have hlen : s.regs.length = G.loc.length + ds.length := by rw [h.ll, hl, List.length_append]
  refine ⟨by simp [leave, hlen], fun n t ht => ?_, by rw [← hu]; exact h.ul, by rw [← hu]; exact h.uv⟩
  have hn : n < G.loc.length := by
    rcases Nat.lt_or_ge n G.loc.length with hh | hh
    · exact hh
    · rw [List.getElem?_eq_none hh] at ht; cases ht
  obtain ⟨v, hv, hh⟩ := h.lv n t (by rw [hl, List.getElem?_append_left hn]; exact ht)
  refine ⟨v, ?_, hh⟩
  simp only [leave]
  rw [List.getElem?_take_of_lt hn]
  exact hv

theorem ex_sub {d : D} {t : TM} (h : sub (exTm d) t = true) {v : Val} (hv : has (disch d).tm v = true) : has t v = true := by
  obtain ⟨k, tm, ut, pc, jt, jf⟩ := d
  cases k with
  | indexed a b c =>
    simp only [exTm] at h
    simp only [disch] at hv
    split at h
    · rename_i e; subst e
      exact sub_has h (by rwa [show idxTm tIARR = tINT by decide] at hv)
    · split at h
      · rename_i e; subst e
        exact sub_has h (by rwa [show idxTm tFARR = tFLT by decide] at hv)
      · exact sub_has h (has_any v)
  | _ => exact sub_has h hv

theorem dflts_post {W : World} : ∀ ds : List Decl, Post (dflts W ds) (Fits ds)
  | [] => Fits.nil
  | d :: ds => by
    simp only [dflts]
    have hd : Post (dflt W d) fun v => has (declTm d) v = true := by
      cases d with
      | none => exact has_any _
      | some c => cases c <;> first | trivial | exact hii 0 | exact hff _ | simp [dflt, Post, declTm, Ann.tm, has, Val.ti, tUDN, tNIL]
    refine hd.bind fun v hv => (dflts_post ds).bind fun vs hvs => ?_
    exact Fits.cons hv hvs

theorem rest_call {W : World} : ∀ (ds : List Decl) (vs : List Val), Post (rest W true ds vs) (Fits ds)
  | [], _ => Fits.nil
  | d :: ds, vs => by
    simp only [rest, if_true]
    refine (moveTo_post d (vs.headD .nil)).bind fun v hv => (rest_call ds vs.tail).bind fun ws hws => ?_
    exact Fits.cons hv hws

theorem rest_dots {W : World} : ∀ (ds : List Decl) (vs : List Val), ds.all (·.isNone) = true → Post (rest W false ds vs) (Fits ds)
  | [], _, _ => Fits.nil
  | d :: ds, vs, h => by
    simp only [List.all_cons, Bool.and_eq_true] at h
    cases d with
    | some c => exact absurd h.1 (by simp)
    | none =>
      change Post (rest W false ds vs.tail >>= fun ws => pure (vs.headD .nil :: ws)) _
      refine (rest_dots ds vs.tail h.2).bind fun ws hws => ?_
      exact Fits.cons (has_any _) hws

theorem initOne_post {G : Env} {W : World} (hW : ∀ n, W.numbit n = none) {s : St} (hs : WT G s) {c : Decl} {e : E} (hg : goodE G e = true)
    (hp : goodPatch G c e = true) : Post (initOne G W c e s) fun r => WT G r.2 ∧ has (declTm c) r.1 = true := by
  unfold initOne
  cases hd : st G e with
  | none => simp only [stR, hd]; trivial
  | some d =>
    simp only [st_ok hd, Res.bind_ok]
    cases ht : typecheck c d with
    | none => trivial
    | some t =>
      dsimp only
      cases t with
      | patch =>
        simp only [goodPatch, hd, ht] at hp
        have hp : isCons e = true := by simpa using hp
        rw [cons_st hp] at hd
        cases hd
        cases c with
        | none => cases ht
        | some c =>
          have hc : c = .iarr ∨ c = .farr := by
            cases c with
            | iarr => exact .inl rfl
            | farr => exact .inr rfl
            | typ u => exact absurd ht (by simp [typecheck, exTm, sub, Ann.tm, tTAB, tUDN, tUD, tNIL])
            | _ => exact absurd ht (by decide)
          simp only [cons_ev _ _ hp, Res.bind_ok, if_true]
          rcases hc with rfl | rfl
          · exact ⟨tick_wt hs _, by simp [has, declTm, Ann.tm, tIARR, Val.ti, arrOf]⟩
          · exact ⟨tick_wt hs _, by simp [has, declTm, Ann.tm, tFARR, Val.ti, arrOf]⟩
      | pass =>
        simp only [show (TAct.pass = TAct.patch) = False by simp, if_false]
        refine (ev_sound hW e d s hg hd hs).bind fun r hr => ?_
        refine (settle_post hr.1 hr.2).bind fun u hu => ?_
        refine ⟨hu.1, ?_⟩
        cases c with
        | none => exact has_any _
        | some c =>
          simp only [typecheck] at ht
          split at ht
          · rename_i h; exact ex_sub h hu.2
          · split at ht
            · split at ht <;> cases ht
            · split at ht
              · cases ht
              · split at ht <;> first | (cases ht; done) | (split at ht <;> cases ht)
      | inCall =>
        simp only [show (TAct.inCall = TAct.patch) = False by simp, if_false]
        refine (ev_sound hW e d s hg hd hs).bind fun r hr => ?_
        refine (settle_post hr.1 hr.2).bind fun u hu => ?_
        refine (moveTo_post c u.1).bind fun v hv => ?_
        exact ⟨hu.1, hv⟩
      | conv =>
        simp only [show (TAct.conv = TAct.patch) = False by simp, if_false]
        refine (ev_sound hW e d s hg hd hs).bind fun r hr => ?_
        refine (settle_post hr.1 hr.2).bind fun u hu => ?_
        refine (moveTo_post c u.1).bind fun v hv => ?_
        exact ⟨hu.1, hv⟩

theorem disch_kind (d : D) : (disch d).k ≠ .call ∧ (disch d).k ≠ .dots := by
  obtain ⟨k, tm, ut, pc, jt, jf⟩ := d
  cases k <;> simp [disch]

/-- Only calls and `...` themselves have these kinds. -/
theorem kind_any {G : Env} {x : E} {d : D} (h : st G x = some d) (hk : d.k = .call ∨ d.k = .dots) : d.tm = tANY := by
  cases x with
  | call => cases h; rfl
  | dots => cases h; rfl
  | paren a =>
    simp only [st, Option.map_eq_some_iff] at h
    obtain ⟨da, -, rfl⟩ := h
    rcases hk with hk | hk
    · exact absurd hk (disch_kind da).1
    · exact absurd hk (disch_kind da).2
  | loc n =>
    simp only [st, Option.map_eq_some_iff] at h
    obtain ⟨c, -, rfl⟩ := h
    rcases hk with hk | hk <;> cases hk
  | up n =>
    simp only [st, Option.map_eq_some_iff] at h
    obtain ⟨c, -, rfl⟩ := h
    rcases hk with hk | hk <;> cases hk
  | index t k =>
    simp only [st] at h
    split at h
    · cases h
      rcases hk with hk | hk <;> cases hk
    · cases h
  | bin o a b =>
    simp only [st] at h
    split at h
    · cases h
      rcases hk with hk | hk <;> cases hk
    · cases h
  | cmp o a b =>
    simp only [st] at h
    split at h
    · cases h
      rcases hk with hk | hk <;> cases hk
    · cases h
  | and a b =>
    simp only [st] at h
    split at h
    · rename_i da db _ _
      cases h
      rcases hk with hk | hk
      · exact absurd hk (disch_kind db).1
      · exact absurd hk (disch_kind db).2
    · cases h
  | or a b =>
    simp only [st] at h
    split at h
    · rename_i da db _ _
      cases h
      rcases hk with hk | hk
      · exact absurd hk (disch_kind db).1
      · exact absurd hk (disch_kind db).2
    · cases h
  | not a =>
    simp only [st, Option.map_eq_some_iff] at h
    obtain ⟨da, -, rfl⟩ := h
    simp only [notD] at hk
    split at hk <;> rcases hk with hk | hk <;> cases hk
  | un o a =>
    simp only [st, Option.map_eq_some_iff] at h
    obtain ⟨da, -, rfl⟩ := h
    dsimp only at hk
    split at hk <;> rcases hk with hk | hk <;> cases hk
  | cast c a =>
    simp only [st] at h
    split at h
    · rename_i da _
      split at h
      · cases h
      · cases h
        have : (castD c da).k = .nonreloc none ∨ (castD c da).k = (disch da).k := by
          simp only [castD]
          cases castAct c da <;> dsimp only <;> split <;> first | exact .inl rfl | exact .inr rfl
        rcases this with e | e <;> rw [e] at hk
        · rcases hk with hk | hk <;> cases hk
        · rcases hk with hk | hk
          · exact absurd hk (disch_kind da).1
          · exact absurd hk (disch_kind da).2
    · cases h
  | _ => cases h; rcases hk with hk | hk <;> cases hk

theorem any_not_sub (c : Ann) : sub tANY c.tm = false := by
  rw [Bool.eq_false_iff]
  intro h
  have hb := sub_bit h (i := 11) (by decide) (by simp [tANY])
  cases c <;> simp [Ann.tm, tINT, tFLT, tIARR, tFARR, tTAB, tSTRN, tSTR, tFUNN, tFUN, tUDN, tUD, tNIL] at hb

theorem multi_pass {G : Env} {x : E} {d : D} {c : Ann} (h : st G x = some d) (hk : d.k = .call ∨ d.k = .dots)
    (ht : typecheck (some c) d = some .pass) : False := by
  have hex : exTm d = tANY := by
    rw [← kind_any h hk]
    unfold exTm
    rcases hk with e | e <;> rw [e]
  simp only [typecheck, hex, any_not_sub] at ht
  simp only [Bool.false_eq_true, if_false] at ht
  split at ht
  · split at ht <;> cases ht
  · split at ht
    · cases ht
    · split at ht <;> first | (cases ht; done) | (split at ht <;> cases ht)

theorem inCall_kind {c : Decl} {d : D} (ht : typecheck c d = some .inCall) : d.k = .call := by
  cases c with
  | none => cases ht
  | some c =>
    simp only [typecheck] at ht
    split at ht
    · cases ht
    · split at ht
      · split at ht <;> cases ht
      · split at ht
        · assumption
        · split at ht <;> first | (cases ht; done) | (split at ht <;> cases ht)

theorem initAll_post {G : Env} {W : World} (hW : ∀ n, W.numbit n = none) : ∀ (ds : List Decl) (es : List E) (s : St), WT G s →
    goodInit G ds es = true → Post (initAll G W ds es s) fun r => WT G r.2 ∧ Fits ds r.1
  | ds, [], s, hs, _ => by
    simp only [initAll]
    exact (dflts_post ds).bind fun ws hws => ⟨hs, hws⟩
  | [], e :: es, s, hs, hg => by
    simp only [goodInit, Bool.and_eq_true] at hg
    simp only [initAll]
    refine (initOne_post hW hs hg.1 (c := none) ?_).bind fun r hr => ?_
    · simp only [goodPatch]
      split
      · rfl
      · simp [typecheck]
    · exact initAll_post hW [] es r.2 hr.1 hg.2
  | d :: ds, [e], s, hs, hg => by
    simp only [goodInit, Bool.and_eq_true] at hg
    simp only [initAll]
    cases hd : st G e with
    | none => simp only [stR, hd]; trivial
    | some de =>
      simp only [st_ok hd, Res.bind_ok]
      cases ht : typecheck d de with
      | none => trivial
      | some t =>
        dsimp only
        split
        · rename_i hm
          split
          · unfold callR
            cases W.res s.n with
            | none => trivial
            | some vs =>
              simp only [Res.bind_ok]
              refine Post.bind (P := fun v => has (declTm d) v = true) ?_ fun v hv => ?_
              · by_cases hi : t = .inCall
                · rw [if_pos hi]; exact moveTo_post d _
                · rw [if_neg hi]
                  have : d = none := by
                    cases d with
                    | none => rfl
                    | some c =>
                      exfalso
                      rename_i hk
                      simp only [multi, hk, Bool.and_eq_true, Bool.or_eq_true, decide_eq_true_eq] at hm
                      have htp : t = .pass := by
                        rcases hm.2 with h | h
                        · exact h
                        · exact absurd h hi
                      subst htp
                      exact multi_pass hd (.inl hk) ht
                  subst this
                  exact has_any _
              · refine (rest_call ds vs.tail).bind fun ws hws => ?_
                exact ⟨other_wt hs, Fits.cons hv hws⟩
          · rename_i hk
            have hkd : de.k = .dots := by
              simp only [multi, hk, Bool.and_eq_true, Bool.or_eq_true, decide_eq_true_eq] at hm
              rcases hm.1 with h | h
              · exact h.elim
              · exact h
            have htp : t = .pass := by
              simp only [multi, Bool.and_eq_true, Bool.or_eq_true, decide_eq_true_eq] at hm
              rcases hm.2 with h | h
              · exact h
              · subst h
                exact absurd (inCall_kind ht) hk
            subst htp
            have hn : d = none := by
              cases d with
              | none => rfl
              | some c => exact (multi_pass hd (.inr hkd) ht).elim
            subst hn
            have ha : ds.all (·.isNone) = true := by
              have := hg.2
              simpa [hd, hkd] using this
            refine (rest_dots ds _ ha).bind fun ws hws => ?_
            exact ⟨hs, Fits.cons (has_any _) hws⟩
        · refine (initOne_post hW hs hg.1.1 hg.1.2).bind fun r hr => ?_
          refine (dflts_post ds).bind fun ws hws => ?_
          exact ⟨hr.1, Fits.cons hr.2 hws⟩
  | d :: ds, e :: e' :: es, s, hs, hg => by
    simp only [goodInit, Bool.and_eq_true] at hg
    simp only [initAll]
    refine (initOne_post hW hs hg.1.1 hg.1.2).bind fun r hr => ?_
    refine (initAll_post hW ds (e' :: es) r.2 hr.1 hg.2).bind fun q hq => ?_
    exact ⟨hq.1, Fits.cons hr.2 hq.2⟩

/-! ## Assignments -/

theorem storeAct_direct {c : Ann} {d : D} (h : storeAct (some c) d = some .direct) (hk : d.k.isNonreloc = false) : sub (exTm d) c.tm = true := by
  have refl : ∀ t : TM, sub t t = true := by intro t; simp [sub]
  simp only [storeAct, hk] at h
  cases c <;> simp only [Bool.false_eq_true, if_false] at h <;> (split at h)
  all_goals first
    | (rename_i e; rw [e]; exact refl _)
    | (rename_i e; exact e)
    | (rename_i e; exact e.1)
    | (split at h <;> cases h)

theorem toLocal_post {G : Env} {W : World} {s : St} {n : Nat} {c : Decl} {d : D} {f : Flow} (hs : WT G s) (hn : G.loc[n]? = some c) (h : OkF G s d f)
    (hk : d.k.isNonreloc = true → d.hasjumps = true → c = none)
    (ht : d.k.isNonreloc = false → ∀ v, has (disch d).tm v = true → has (declTm c) v = true) :
    Post (toLocal G W n c d f s) (WT G) := by
  have w : ∀ {s : St} {v : Val}, WT G s → has (declTm c) v = true → WT G (wr s n v) := by
    intro s v hs hv
    refine wr_wt hs fun t htt => ?_
    rw [hn] at htt
    cases htt
    exact hv
  cases f with
  | out b v =>
    have hv : has (declTm c) (outVal b v) = true := by
      by_cases hnr : d.k.isNonreloc = true
      · rw [hk hnr]
        · exact has_any _
        · have := h.2.2
          cases b <;> simp_all [D.hasjumps]
      · exact ht (by simpa using hnr) _ h.1
    cases v with
    | none => exact w hs hv
    | some v => exact w hs hv
  | thru o =>
    unfold toLocal
    refine (dischR_post hs h).bind fun r hr => ?_
    have hrd := okO_reads hr.1 hr.2 (disch_not_indexed d)
    obtain ⟨o1, s1⟩ := r
    dsimp only at hr hrd ⊢
    by_cases hnr : (disch d).k.isNonreloc = true
    · rw [if_pos hnr]
      split
      · exact hr.1
      · refine rd_bind hrd fun v hv => ?_
        refine (moveTo_post c v).bind fun v' hv' => ?_
        exact w hr.1 hv'
    · rw [if_neg hnr]
      refine rd_bind hrd fun v hv => ?_
      refine w hr.1 (ht ?_ v hv)
      rw [Bool.eq_false_iff]
      intro hc
      apply hnr
      obtain ⟨k, tm, ut, pc, jt, jf⟩ := d
      cases k <;> first | exact hc | cases hc

theorem Post.and {α : Type} {r : Res α} {P Q : α → Prop} (h : Post r P) (g : Post r Q) : Post r fun a => P a ∧ Q a := by
  cases r with
  | ok a => exact ⟨h, g⟩
  | err m => trivial
  | ub => exact h.elim

/-- An operand that is the register of a variable comes from that variable. -/
theorem rkR_loc {G : Env} {W : World} {s : St} {d : D} {f : Flow} (hs : WT G s) (h : OkF G s d f) (hnr : d.k.isNonreloc = false) :
    Post (rkR G W d f s) fun r => ∀ m, r.1 = .loc m → ∃ c, G.loc[m]? = some c ∧ exTm d = declTm c := by
  unfold rkR
  split
  · refine (settle_post hs h).bind fun r hr => ?_
    exact fun m e => nomatch e
  · rename_i hj
    cases f with
    | out b v =>
      exfalso
      apply hj
      simp only [D.hasjumps]
      have := h.2.2
      cases b <;> simp_all
    | thru o =>
      dsimp only
      refine ((dischR_post hs h).and (Q := fun r => (∀ m, r.1 = .loc m → ∃ c, G.loc[m]? = some c ∧ exTm d = declTm c)) ?_).mono fun r hr => hr.2
      have hp := dischR_post (W := W) hs h
      have ho : OkO G s d o := h
      obtain ⟨k, tm, ut, pc, jt, jf⟩ := d
      cases k with
      | loc n =>
        obtain ⟨rfl, c, hc, e⟩ := ho
        exact fun m e' => by cases e'; exact ⟨c, hc, e⟩
      | nonreloc l => cases hnr
      | indexed a b c => exact hp.mono fun r hr m e => by obtain ⟨v, e', _⟩ := hr.2; rw [e'] at e; cases e
      | up n => exact hp.mono fun r hr m e => by obtain ⟨v, e', _⟩ := hr.2; rw [e'] at e; cases e
      | jmp => exact hp.mono fun r hr m e => by obtain ⟨v, e', _⟩ := hr.2; rw [e'] at e; cases e
      | reloc b => exact hp.mono fun r hr m e => by cases b <;> (obtain ⟨v, e', _⟩ := hr.2; rw [e'] at e; cases e)
      | nil => exact hp.mono fun r hr m e => by obtain ⟨e', _⟩ := hr.2; rw [e'] at e; cases e
      | fls => exact hp.mono fun r hr m e => by obtain ⟨e', _⟩ := hr.2; rw [e'] at e; cases e
      | _ => exact hp.mono fun r hr m e => by obtain ⟨v, e', _⟩ := hr.2; rw [e'] at e; cases e

theorem storeLocal_post {G : Env} {W : World} {s : St} {n : Nat} {c : Decl} {d : D} {f : Flow} (hs : WT G s) (hn : G.loc[n]? = some c) (h : OkF G s d f)
    (hk : d.k.isNonreloc = true → d.hasjumps = true → c = none) : Post (storeLocal G W n c d f s) (WT G) := by
  unfold storeLocal
  cases ha : storeAct c d with
  | none => trivial
  | some a =>
    cases a with
    | direct =>
      refine toLocal_post hs hn h hk fun hnr v hv => ?_
      cases c with
      | none => exact has_any _
      | some c => exact ex_sub (storeAct_direct ha hnr) hv
    | conv =>
      cases c with
      | none => cases ha
      | some a =>
        dsimp only
        have hnr : d.k.isNonreloc = false := by
          rw [Bool.eq_false_iff]
          intro hc
          simp only [storeAct, hc, if_true] at ha
          cases ha
        have hany : exTm d = tANY := by
          simp only [storeAct, hnr] at ha
          cases a <;> simp only [Bool.false_eq_true, if_false] at ha <;> (split at ha) <;>
            first | (cases ha; done) | (split at ha <;> first | assumption | cases ha)
        have fin : ∀ (o : Opd) (s : St), WT G s → Reads s a.tm o → ((∃ m, o = .loc m) ∨ ∃ v, o = .val v) →
            Post (toLocal G W n (some a) ⟨.nonreloc (match o with | .loc m => some m | _ => none), a.tm, none, .none, false, false⟩ (.thru o) s) (WT G) := by
          intro o s hs hr ho
          refine toLocal_post hs hn ?_ (fun _ h => nomatch h) (fun h => nomatch h)
          rcases ho with ⟨m, rfl⟩ | ⟨v, rfl⟩
          · exact ⟨rfl, hr⟩
          · obtain ⟨w, e, hw⟩ := hr
            cases e
            exact ⟨v, rfl, hw⟩
        refine ((rkR_post hs h).and (rkR_loc hs h hnr)).bind fun r hrr => ?_
        obtain ⟨hr, hloc⟩ := hrr
        obtain ⟨o, s1⟩ := r
        dsimp only at hr hloc ⊢
        cases o with
        | loc m =>
          have hm : compat G a (.nonreloc (some m)) = true := by
            obtain ⟨c', hc', e⟩ := hloc m rfl
            rw [hany] at e
            cases c' with
            | none => simp only [compat, hc']
            | some x => exact absurd e.symm (ann_ne_any x)
          refine (convIn_loc hr.1 hr.2.1 hm).bind fun q hq => ?_
          refine fin q.1 q.2 hq.1 ?_ (.inl ⟨m, hq.2.1⟩)
          rw [hq.2.1]
          exact hq.2.2
        | _ =>
          refine (convIn_val hr.1 hr.2.1 (fun n e => nomatch e)).bind fun q hq => ?_
          obtain ⟨v, e, hv⟩ := hq.2
          refine fin q.1 q.2 hq.1 ?_ (.inr ⟨v, e⟩)
          rw [e]
          exact ⟨v, rfl, hv⟩

theorem storeUp_post {G : Env} {W : World} {s : St} {n : Nat} {c : Decl} {d : D} {f : Flow} (hs : WT G s) (hn : G.up[n]? = some c) (h : OkF G s d f) :
    Post (storeUp G W n c d f s) (WT G) := by
  have w : ∀ {s : St} {v : Val}, WT G s → has (declTm c) v = true → WT G { s with ups := s.ups.set n v } := by
    intro s v hs hv
    refine setup_wt hs fun t htt => ?_
    rw [hn] at htt
    cases htt
    exact hv
  unfold storeUp
  refine (settle_post hs h).bind fun r hr => ?_
  cases c with
  | none => exact w hr.1 (has_any _)
  | some a =>
    dsimp only
    split
    · rename_i hsub
      rw [anyreg_tm] at hsub
      exact w hr.1 (sub_has hsub hr.2)
    · refine (conv_post a r.1).bind fun v hv => ?_
      exact w hr.1 hv

theorem setOp_post {G : Env} {W : World} {s : St} (hs : WT G s) {isup : Bool} {ktm ttm vtm : TM} {t k v : Val} (ht : has ttm t = true)
    (hk : has ktm k = true) (hv : has vtm v = true) : Post (setOp G W isup ktm ttm vtm t k v s) (WT G) := by
  have a : Post ((ask G W s).map' (·.2)) (WT G) := Post.map ((ask_post hs).mono fun _ h => h)
  unfold setOp
  split
  · exact a
  · split
    · rename_i e
      subst e
      obtain ⟨i, hi⟩ := ivalue_post hk
      rw [hi, Res.bind_ok]
      split
      · rename_i e
        subst e
        obtain ⟨x, rfl⟩ := has_farr ht
        dsimp only
        unfold setF
        split
        · rename_i e
          subst e
          obtain ⟨y, rfl⟩ := has_flt hv
          exact hs
        · split <;> first | exact hs | trivial
      · split
        · rename_i e
          subst e
          obtain ⟨x, rfl⟩ := has_iarr ht
          dsimp only
          unfold setI
          split
          · rename_i e
            subst e
            obtain ⟨y, rfl⟩ := has_int hv
            exact hs
          · split <;> first | exact hs | trivial
        · exact a
    · exact a

theorem condR_post {G : Env} {W : World} (hW : ∀ n, W.numbit n = none) {e : E} {s : St} (hg : goodE G e = true) (hs : WT G s) :
    Post (condR G W e s) fun r => WT G r.2 := by
  unfold condR
  cases hd : st G e with
  | none => simp only [stR, hd]; trivial
  | some d =>
    simp only [st_ok hd, Res.bind_ok]
    refine (ev_sound hW e d s hg hd hs).bind fun r hr => ?_
    refine (dischF_post hr.1 hr.2).bind fun u hu => ?_
    refine (gtR_post hu.1 (disch_idem d) hu.2).bind fun f hf => ?_
    cases f <;> exact hu.1

theorem run_sound {W : World} (hW : ∀ n, W.numbit n = none) : ∀ (fuel : Nat) (G : Env) (S : S) (s : St), goodS G S = true → WT G s →
    Post (run W fuel G S s) (WT (after G S)) := by
  intro fuel
  induction fuel with
  | zero => intro G S s hg hs; trivial
  | succ fuel ih =>
    intro G S s hg hs
    cases S with
    | skip => exact hs
    | seq a b =>
      simp only [goodS, Bool.and_eq_true] at hg
      simp only [run]
      exact (ih G a s hg.1 hs).bind fun s1 h1 => ih (after G a) b s1 hg.2 h1
    | local_ ds es =>
      simp only [run]
      refine (initAll_post hW ds es s hs hg).bind fun r hr => ?_
      exact append_wt hr.1 hr.2
    | assign n e =>
      simp only [goodS, Bool.and_eq_true] at hg
      simp only [run]
      cases hd : st G e with
      | none => simp only [stR, hd]; trivial
      | some d =>
        simp only [st_ok hd, Res.bind_ok]
        cases hc : G.loc[n]? with
        | none => trivial
        | some c =>
          dsimp only
          refine (ev_sound hW e d s hg.1 hd hs).bind fun r hr => ?_
          refine storeLocal_post hr.1 hc hr.2 fun h1 h2 => ?_
          have := hg.2
          simp only [goodAssign, hd, h1, h2, hc] at this
          simpa using this
    | assignUp n e =>
      simp only [run]
      cases hd : st G e with
      | none => simp only [stR, hd]; trivial
      | some d =>
        simp only [st_ok hd, Res.bind_ok]
        cases hc : G.up[n]? with
        | none => trivial
        | some c =>
          dsimp only
          refine (ev_sound hW e d s hg hd hs).bind fun r hr => ?_
          exact storeUp_post hr.1 hc hr.2
    | assignIdx t k e =>
      simp only [goodS, Bool.and_eq_true] at hg
      simp only [run]
      cases hi : st G (.index t k) with
      | none => simp only [stR, hi]; trivial
      | some di =>
        cases hd : st G e with
        | none => simp only [st_ok hi, Res.bind_ok]; simp only [stR, hd]; trivial
        | some d =>
          simp only [st_ok hi, st_ok hd, Res.bind_ok]
          refine (ev_sound hW _ di s hg.1 hi hs).bind fun r hr => ?_
          refine (ev_sound hW e d r.2 hg.2 hd hr.1).bind fun u hu => ?_
          refine (rkR_post hu.1 hu.2).bind fun w hw => ?_
          have hk : ∃ x y z, di.k = .indexed x y z := by
            simp only [st] at hi
            split at hi
            · cases hi; exact ⟨_, _, _, rfl⟩
            · cases hi
          obtain ⟨x, y, z, hk⟩ := hk
          have hF := hr.2
          obtain ⟨fi, s1⟩ := r
          cases fi with
          | out b v =>
            exfalso
            have := hF.2.2
            simp only [st] at hi
            split at hi
            · cases hi; cases b <;> cases this
            · cases hi
          | thru o =>
            obtain ⟨dk, tm, ut, pc, jt, jf⟩ := di
            cases hk
            obtain ⟨ot, ok, rfl, h1, h2⟩ := hF
            dsimp only
            refine rd_bind (h1 _ hw.1) fun vt hvt => rd_bind (h2 _ hw.1) fun vk hvk => rd_bind hw.2.1 fun v hv => ?_
            refine setOp_post hw.1 hvt hvk ?_
            rw [exp2rk_tm]
            exact hv
    | assignAny n e =>
      simp only [run]
      cases hd : st G e with
      | none => simp only [stR, hd]; trivial
      | some d =>
        simp only [st_ok hd, Res.bind_ok]
        cases hc : G.loc[n]? with
        | none => trivial
        | some c =>
          dsimp only
          refine (ev_sound hW e d s hg hd hs).bind fun r hr => ?_
          refine (settle_post hr.1 hr.2).bind fun u hu => ?_
          exact storeLocal_post hu.1 hc ⟨_, rfl, has_any _⟩ fun _ h => nomatch h
    | ite c a b =>
      simp only [goodS, Bool.and_eq_true] at hg
      simp only [run]
      refine (condR_post hW hg.1.1 hs).bind fun r hr => ?_
      split
      · exact (ih G a r.2 hg.1.2 hr).bind fun s1 h1 => leave_wt h1
      · exact (ih G b r.2 hg.2 hr).bind fun s1 h1 => leave_wt h1
    | while_ c a =>
      have hg' := hg
      simp only [goodS, Bool.and_eq_true] at hg
      simp only [run]
      refine (condR_post hW hg.1 hs).bind fun r hr => ?_
      split
      · exact (ih G a r.2 hg.2 hr).bind fun s1 h1 => ih G (.while_ c a) _ hg' (leave_wt h1)
      · exact hr
    | block a =>
      simp only [run]
      exact (ih G a s hg hs).bind fun s1 h1 => leave_wt h1
    | expr e =>
      simp only [run]
      cases hd : st G e with
      | none => simp only [stR, hd]; trivial
      | some d =>
        simp only [st_ok hd, Res.bind_ok]
        refine (ev_sound hW e d s hg hd hs).bind fun r hr => ?_
        exact (settle_post hr.1 hr.2).bind fun u hu => hu.1

end Verif.Typed
