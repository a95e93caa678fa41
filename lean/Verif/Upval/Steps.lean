import Verif.Upval.Sim

/-! # Every operation on open upvalues is that on cells -/
namespace Verif.Upval

/-- What closing makes of an upvalue. -/
def shut (s : St) (t : Nat) : Option UV → Option UV
  | some ⟨.stk _ a, n, f⟩ => if n = 0 then none else some ⟨.own (s.stack t a), n, f⟩
  | x => x

theorem close_spec {t level : Nat} : ∀ (l : List Nat) (s : St), (∀ u ∈ l, ∃ a n f, s.upv u = some ⟨.stk t a, n, f⟩) → l.Nodup →
    l.Pairwise (fun u w => adr s.upv w ≤ adr s.upv u) →
    ∃ pre post, l = pre ++ post ∧ (∀ u ∈ pre, level ≤ adr s.upv u) ∧ (∀ u ∈ post, adr s.upv u < level) ∧
      close t level l s = .ok ({ s with upv := fun u => if u ∈ pre then shut s t (s.upv u) else s.upv u }.setOpn t post)
  | [], s, _, _, _ => ⟨[], [], rfl, (fun _ h => nomatch h), (fun _ h => nomatch h), by
      simp only [close, List.not_mem_nil, if_false]⟩
  | u :: us, s, hl, hn, hp => by
    obtain ⟨a, n, f, hu⟩ := hl u (List.mem_cons_self ..)
    have ha : adr s.upv u = a := by unfold adr; rw [hu]
    rw [List.nodup_cons] at hn
    rw [List.pairwise_cons] at hp
    have step : ∀ x : Option UV, x = shut s t (s.upv u) → level ≤ a →
        ∃ pre post, u :: us = pre ++ post ∧ (∀ u ∈ pre, level ≤ adr s.upv u) ∧ (∀ u ∈ post, adr s.upv u < level) ∧
          close t level us (s.put u x) = .ok ({ s with upv := fun u => if u ∈ pre then shut s t (s.upv u) else s.upv u }.setOpn t post) := by
      intro x hx h1
      have hne : ∀ w ∈ us, (s.put u x).upv w = s.upv w := fun w hw => if_neg (show ¬w = u from fun e => hn.1 (e ▸ hw))
      have hadr : ∀ w ∈ us, adr (s.put u x).upv w = adr s.upv w := fun w hw => by unfold adr; rw [hne w hw]
      obtain ⟨pre, post, e, h2, h3, h4⟩ := close_spec (level := level) us (s.put u x)
        (fun w hw => by rw [hne w hw]; exact hl w (List.mem_cons_of_mem _ hw)) hn.2
        (hp.2.imp_of_mem fun {v w} hv hw hh => by rw [hadr v hv, hadr w hw]; exact hh)
      refine ⟨u :: pre, post, by rw [e]; rfl, ?_, ?_, ?_⟩
      · intro w hw
        rcases List.mem_cons.1 hw with rfl | hw
        · rw [ha]; exact h1
        · have hw' : w ∈ us := by rw [e]; exact List.mem_append_left _ hw
          rw [← hadr w hw']; exact h2 w hw
      · intro w hw
        have hw' : w ∈ us := by rw [e]; exact List.mem_append_right _ hw
        rw [← hadr w hw']; exact h3 w hw
      · rw [h4]
        refine congrArg Res.ok (congrArg (fun f => ({ s with upv := f } : St).setOpn t post) (funext fun w => ?_))
        show (if w ∈ pre then shut s t (if w = u then x else s.upv w) else if w = u then x else s.upv w) = _
        by_cases ew : w = u
        · rw [if_pos ew, if_neg, if_pos (by rw [ew]; exact List.mem_cons_self ..), ew, hx]
          intro hw
          exact hn.1 (by rw [e, ← ew]; exact List.mem_append_left _ hw)
        · rw [if_neg ew]
          simp [ew]
    unfold close
    rw [hu]
    dsimp only
    by_cases h1 : level ≤ a
    · rw [if_pos h1]
      by_cases h2 : n = 0
      · rw [if_pos h2]
        exact step none (by rw [hu]; simp [shut, h2]) h1
      · rw [if_neg h2]
        exact step _ (by rw [hu]; simp [shut, h2]) h1
    · rw [if_neg h1]
      refine ⟨[], u :: us, rfl, (fun _ h => nomatch h), ?_, by simp only [List.not_mem_nil, if_false]⟩
      intro w hw
      rcases List.mem_cons.1 hw with rfl | hw
      · omega
      · have := hp.1 w hw
        omega

/-- The cells after closing. -/
def Sp.close (r : Sp) (t level : Nat) : Sp := { r with
  ep := fun t' a => if t' = t ∧ level ≤ a then r.ep t' a + 1 else r.ep t' a
  val := fun x => match x with
    | .stk t' a k => if t' = t ∧ level ≤ a ∧ k = r.ep t' a + 1 then r.val (r.cur t' a) else r.val x
    | _ => r.val x
  cap := fun x => match x with
    | .stk t' a k => if t' = t ∧ level ≤ a ∧ k = r.ep t' a + 1 then false else r.cap x
    | _ => r.cap x }

theorem close_R {γ rl s r} (t level : Nat) (h : RH γ rl s r) : ∃ s', close t level (s.opn t) s = .ok s' ∧ RH γ rl s' (r.close t level) ∧ s'.clos = s.clos ∧ s'.cache = s.cache := by
  obtain ⟨pre, post, e, h1, h2, h3⟩ := close_spec (level := level) (s.opn t) s (fun u hu => (h.opn t u).1 hu) (h.nodup t) (h.sorted t)
  refine ⟨_, h3, ?_, rfl, rfl⟩
  have hpre : ∀ u, u ∈ pre ↔ ∃ a n f, s.upv u = some ⟨.stk t a, n, f⟩ ∧ level ≤ a := by
    intro u
    constructor
    · intro hu
      obtain ⟨a, n, f, hx⟩ := (h.opn t u).1 (by rw [e]; exact List.mem_append_left _ hu)
      have := h1 u hu
      unfold adr at this
      rw [hx] at this
      exact ⟨a, n, f, hx, this⟩
    · rintro ⟨a, n, f, hx, ha⟩
      have hm : u ∈ s.opn t := (h.opn t u).2 ⟨a, n, f, hx⟩
      rw [e] at hm
      rcases List.mem_append.1 hm with hm | hm
      · exact hm
      · have := h2 u hm
        unfold adr at this
        rw [hx] at this
        dsimp only at this
        omega
  have hup : ∀ u, (({ s with upv := fun u => if u ∈ pre then shut s t (s.upv u) else s.upv u } : St).setOpn t post).upv u
      = if u ∈ pre then shut s t (s.upv u) else s.upv u := fun _ => rfl
  have hop : ∀ t', (({ s with upv := fun u => if u ∈ pre then shut s t (s.upv u) else s.upv u } : St).setOpn t post).opn t'
      = if t' = t then post else s.opn t' := fun _ => rfl
  -- what is still open
  have hstk : ∀ u t' a n f, (if u ∈ pre then shut s t (s.upv u) else s.upv u) = some ⟨.stk t' a, n, f⟩ ↔
      s.upv u = some ⟨.stk t' a, n, f⟩ ∧ ¬(t' = t ∧ level ≤ a) := by
    intro u t' a n f
    by_cases hm : u ∈ pre
    · rw [if_pos hm]
      obtain ⟨b, m, g, hx, hb⟩ := (hpre u).1 hm
      rw [hx]
      constructor
      · intro hs
        simp only [shut] at hs
        split at hs
        · exact nomatch hs
        · cases hs
      · rintro ⟨hs, hc⟩
        cases hs
        exact absurd ⟨rfl, hb⟩ hc
    · rw [if_neg hm]
      constructor
      · intro hs
        refine ⟨hs, ?_⟩
        rintro ⟨rfl, ha⟩
        exact hm ((hpre u).2 ⟨a, n, f, hs, ha⟩)
      · exact fun hs => hs.1
  have hsome : ∀ u x, (if u ∈ pre then shut s t (s.upv u) else s.upv u) = some x → ∃ y, s.upv u = some y ∧ y.refc = x.refc ∧ y.flag = x.flag := by
    intro u x hx
    by_cases hm : u ∈ pre
    · rw [if_pos hm] at hx
      obtain ⟨b, m, g, hy, hb⟩ := (hpre u).1 hm
      rw [hy] at hx
      simp only [shut] at hx
      split at hx
      · exact nomatch hx
      · cases hx; exact ⟨_, hy, rfl, rfl⟩
    · rw [if_neg hm] at hx; exact ⟨x, hx, rfl, rfl⟩
  have hadr : ∀ u, u ∉ pre → adr (fun u => if u ∈ pre then shut s t (s.upv u) else s.upv u) u = adr s.upv u := by
    intro u hm
    unfold adr
    dsimp only
    rw [if_neg hm]
  have hdis : ∀ u ∈ post, u ∉ pre := by
    intro u hu hm
    have hn := h.nodup t
    rw [e, List.nodup_append] at hn
    exact hn.2.2 u hm u hu rfl
  have hcur : ∀ t' a, ¬(t' = t ∧ level ≤ a) → (r.close t level).cur t' a = r.cur t' a := by
    intro t' a hc
    unfold Sp.cur Sp.close
    dsimp only
    rw [if_neg hc]
  have hcur' : ∀ a, level ≤ a → (r.close t level).cur t a = .stk t a (r.ep t a + 1) := by
    intro a hc
    unfold Sp.cur Sp.close
    dsimp only
    rw [if_pos ⟨rfl, hc⟩]
  have hvcur : ∀ t' a, (r.close t level).val (r.cur t' a) = r.val (r.cur t' a) := by
    intro t' a
    unfold Sp.close Sp.cur
    dsimp only
    rw [if_neg (fun hh => by omega)]
  refine ⟨?_, ?_, ?_, ?_, ?_, ?_, ?_, ?_, ?_, ?_, ?_, ?_⟩
  · intro t' a
    show s.stack t' a = _
    rw [h.stack]
    by_cases hc : t' = t ∧ level ≤ a
    · obtain ⟨rfl, ha⟩ := hc
      rw [hcur' a ha]
      unfold Sp.close
      dsimp only
      rw [if_pos ⟨rfl, ha, rfl⟩]
    · rw [hcur t' a hc, hvcur]
  · intro t' u
    rw [hop, hup]
    by_cases et : t' = t
    · subst et
      rw [if_pos rfl]
      constructor
      · intro hu
        obtain ⟨a, n, f, hx⟩ := (h.opn t' u).1 (by rw [e]; exact List.mem_append_right _ hu)
        exact ⟨a, n, f, by rw [if_neg (hdis u hu)]; exact hx⟩
      · rintro ⟨a, n, f, hx⟩
        obtain ⟨hx, hc⟩ := (hstk u t' a n f).1 hx
        have hm : u ∈ s.opn t' := (h.opn t' u).2 ⟨a, n, f, hx⟩
        rw [e] at hm
        rcases List.mem_append.1 hm with hm | hm
        · obtain ⟨b, m, g, hy, hb⟩ := (hpre u).1 hm
          rw [hx] at hy
          cases hy
          exact absurd ⟨rfl, hb⟩ hc
        · exact hm
    · rw [if_neg et, h.opn]
      constructor
      · rintro ⟨a, n, f, hx⟩
        exact ⟨a, n, f, (hstk u t' a n f).2 ⟨hx, fun hc => et hc.1⟩⟩
      · rintro ⟨a, n, f, hx⟩
        exact ⟨a, n, f, ((hstk u t' a n f).1 hx).1⟩
  · intro t'
    rw [hop]
    show List.Pairwise (fun u w => adr (fun u => if u ∈ pre then shut s t (s.upv u) else s.upv u) w ≤ adr (fun u => if u ∈ pre then shut s t (s.upv u) else s.upv u) u) _
    by_cases et : t' = t
    · rw [if_pos et]
      have hs := h.sorted t
      rw [e, List.pairwise_append] at hs
      refine hs.2.1.imp_of_mem fun {u w} hu hw hh => ?_
      rw [hadr u (hdis u hu), hadr w (hdis w hw)]; exact hh
    · rw [if_neg et]
      have hd : ∀ u ∈ s.opn t', u ∉ pre := by
        intro u hu hm
        obtain ⟨a, n, f, hx⟩ := (h.opn t' u).1 hu
        obtain ⟨b, m, g, hy, _⟩ := (hpre u).1 hm
        rw [hx] at hy
        cases hy
        exact et rfl
      refine (h.sorted t').imp_of_mem fun {u w} hu hw hh => ?_
      rw [hadr u (hd u hu), hadr w (hd w hw)]; exact hh
  · intro t'
    rw [hop]
    by_cases et : t' = t
    · rw [if_pos et]
      have hs := h.nodup t
      rw [e, List.nodup_append] at hs
      exact hs.2.1
    · rw [if_neg et]; exact h.nodup t'
  · intro u t' a n hx
    rw [hup] at hx
    obtain ⟨hx, hc⟩ := (hstk u t' a n false).1 hx
    rw [hcur t' a hc]
    exact h.cur u t' a n hx
  · intro u v n f hx
    rw [hup] at hx
    by_cases hm : u ∈ pre
    · rw [if_pos hm] at hx
      obtain ⟨b, m, g, hy, hb⟩ := (hpre u).1 hm
      rw [hy] at hx
      simp only [shut] at hx
      split at hx
      · exact nomatch hx
      · rename_i hne
        cases hx
        have hg : f = false := by
          cases hf : f with
          | false => rfl
          | true => exact absurd (h.fl u _ hy hf) hne
        subst hg
        refine ⟨rfl, Nat.pos_of_ne_zero hne, ?_, ?_⟩
        · rw [h.cur u t b n hy, hvcur, h.stack]
        · rw [h.cur u t b n hy]
          show r.ep t b < if t = t ∧ level ≤ b then r.ep t b + 1 else r.ep t b
          rw [if_pos ⟨rfl, hb⟩]
          omega
    · rw [if_neg hm] at hx
      obtain ⟨a1, a2, a3, a4⟩ := h.old u v n f hx
      refine ⟨a1, a2, ?_, ?_⟩
      · rw [← a3]
        cases hg : γ u with
        | own i => rfl
        | stk t' a k =>
          rw [hg] at a4
          have a4 : k < r.ep t' a := a4
          unfold Sp.close
          dsimp only
          rw [if_neg (fun hh => by omega)]
      · cases hg : γ u with
        | own i => rw [hg] at a4; exact a4
        | stk t' a k =>
          rw [hg] at a4
          have a4 : k < r.ep t' a := a4
          show k < if t' = t ∧ level ≤ a then r.ep t' a + 1 else r.ep t' a
          split <;> omega
  · intro u w x y hx hy fx fy
    rw [hup] at hx hy
    obtain ⟨x', hx', _, hf⟩ := hsome u x hx
    obtain ⟨y', hy', _, hf'⟩ := hsome w y hy
    exact h.inj u w x' y' hx' hy' (hf.trans fx) (hf'.trans fy)
  · intro u x hx fx
    rw [hup] at hx
    obtain ⟨x', hx', hn, hf⟩ := hsome u x hx
    rw [← hn]
    exact h.fl u x' hx' (hf.trans fx)
  · intro u x hx
    rw [hup] at hx
    obtain ⟨x', hx', hn, hf⟩ := hsome u x hx
    rw [← hn]
    exact h.cnt u x' hx'
  · intro u hu
    obtain ⟨x, hx⟩ := h.live u hu
    rw [hup]
    by_cases hm : u ∈ pre
    · rw [if_pos hm]
      obtain ⟨b, m, g, hy, hb⟩ := (hpre u).1 hm
      have := h.cnt u _ hy
      dsimp only at this
      have hpos := List.count_pos_iff.2 hu
      rw [hy]
      simp only [shut]
      rw [if_neg (by omega)]
      exact ⟨_, rfl⟩
    · rw [if_neg hm]; exact ⟨x, hx⟩
  · intro u hu
    rw [hup]
    rw [h.fresh u hu]
    split <;> rfl
  · intro t' a
    by_cases hc : t' = t ∧ level ≤ a
    · obtain ⟨rfl, ha⟩ := hc
      rw [hcur' a ha]
      constructor
      · intro hh
        unfold Sp.close at hh
        dsimp only at hh
        rw [if_pos ⟨rfl, ha, rfl⟩] at hh
        exact nomatch hh
      · rintro ⟨u, n, hx⟩
        rw [hup] at hx
        exact absurd ⟨rfl, ha⟩ ((hstk u t' a n false).1 hx).2
    · rw [hcur t' a hc]
      have : (r.close t level).cap (r.cur t' a) = r.cap (r.cur t' a) := by
        unfold Sp.close Sp.cur
        dsimp only
        rw [if_neg (fun hh => by omega)]
      rw [this, h.cap]
      constructor
      · rintro ⟨u, n, hx⟩
        exact ⟨u, n, by rw [hup]; exact (hstk u t' a n false).2 ⟨hx, hc⟩⟩
      · rintro ⟨u, n, hx⟩
        rw [hup] at hx
        exact ⟨u, n, ((hstk u t' a n false).1 hx).1⟩

/-- Assigning to a local variable. -/
theorem slot_R {γ rl s r} (t a : Nat) (v : Val) (h : RH γ rl s r) : RH γ rl (s.setSlot t a v) (r.set (r.cur t a) v) := by
  refine { h with stack := ?_, old := ?_, cur := h.cur, cap := h.cap }
  · intro t' a'
    show (if t' = t ∧ a' = a then v else s.stack t' a') = if r.cur t' a' = r.cur t a then v else r.val (r.cur t' a')
    by_cases e : t' = t ∧ a' = a
    · rw [if_pos e, e.1, e.2, if_pos rfl]
    · rw [if_neg e, if_neg, h.stack]
      intro e'
      injection e' with e1 e2
      exact e ⟨e1, e2⟩
  · intro u w n f hx
    obtain ⟨a1, a2, a3, a4⟩ := h.old u w n f hx
    refine ⟨a1, a2, ?_, a4⟩
    show (if γ u = r.cur t a then v else r.val (γ u)) = w
    rw [if_neg, a3]
    intro e
    rw [e] at a4
    exact absurd a4 (Nat.lt_irrefl _)

/-- Assigning through a function. -/
theorem wr_R {γ rl s r u} (v : Val) (h : RH γ rl s r) (hu : u ∈ rl) : ∃ s', wr s u v = .ok s' ∧ RH γ rl s' (r.set (γ u) v) ∧ s'.clos = s.clos ∧ s'.cache = s.cache := by
  obtain ⟨x, hx⟩ := h.live u hu
  have fx := h.unflag hu hx
  unfold wr
  rcases x with ⟨⟨t, a⟩ | w, n, f⟩ <;> dsimp only at fx <;> subst fx <;> rw [hx]
  · refine ⟨_, rfl, ?_, rfl, rfl⟩
    rw [h.cur u t a n hx]
    exact slot_R t a v h
  · obtain ⟨_, hn, _, ho⟩ := h.old u w n false hx
    refine ⟨_, rfl, ?_, rfl, rfl⟩
    have hup : ∀ i, (s.put u (some ⟨.own v, n, false⟩)).upv i = if i = u then some ⟨.own v, n, false⟩ else s.upv i := fun _ => rfl
    have hadr : adr (s.put u (some ⟨.own v, n, false⟩)).upv = adr s.upv := by
      funext i
      unfold adr
      rw [hup]
      by_cases e : i = u
      · rw [if_pos e, e, hx]
      · rw [if_neg e]
    have hstk : ∀ i t a m f, (s.put u (some ⟨.own v, n, false⟩)).upv i = some ⟨.stk t a, m, f⟩ ↔ s.upv i = some ⟨.stk t a, m, f⟩ := by
      intro i t a m f
      rw [hup]
      by_cases e : i = u
      · rw [if_pos e, e, hx]
        constructor <;> intro e <;> cases e
      · rw [if_neg e]
    have hsome : ∀ i x, (s.put u (some ⟨.own v, n, false⟩)).upv i = some x → ∃ y, s.upv i = some y ∧ y.refc = x.refc ∧ y.flag = x.flag := by
      intro i x hi
      rw [hup] at hi
      by_cases e : i = u
      · rw [if_pos e] at hi; cases hi; rw [e]; exact ⟨_, hx, rfl, rfl⟩
      · rw [if_neg e] at hi; exact ⟨x, hi, rfl, rfl⟩
    have hv : ∀ c, (r.set (γ u) v).val c = if c = γ u then v else r.val c := fun _ => rfl
    have hne : ∀ t a, r.cur t a ≠ γ u := by
      intro t a e
      rw [← e] at ho
      exact absurd ho (Nat.lt_irrefl _)
    refine ⟨?_, ?_, ?_, h.nodup, ?_, ?_, ?_, ?_, ?_, ?_, ?_, ?_⟩
    · intro t a
      rw [hv]
      exact (h.stack t a).trans (if_neg (hne t a)).symm
    · intro t i
      rw [show (s.put u (some ⟨.own v, n, false⟩)).opn = s.opn from rfl, h.opn]
      simp only [hstk]
    · rw [hadr]; exact h.sorted
    · intro i t a m hi
      exact h.cur i t a m ((hstk i t a m false).1 hi)
    · intro i w' m f hi
      rw [hup] at hi
      rw [hv]
      by_cases e : i = u
      · rw [if_pos e] at hi
        cases hi
        rw [e, if_pos rfl]
        exact ⟨rfl, hn, rfl, ho⟩
      · rw [if_neg e] at hi
        obtain ⟨a1, a2, a3, a4⟩ := h.old i w' m f hi
        refine ⟨a1, a2, ?_, a4⟩
        rw [if_neg, a3]
        intro e'
        subst a1
        exact e (h.inj i u _ _ hi hx rfl rfl e')
    · intro i j x y hi hj fx fy
      obtain ⟨x', hx', _, hf⟩ := hsome i x hi
      obtain ⟨y', hy', _, hf'⟩ := hsome j y hj
      exact h.inj i j x' y' hx' hy' (hf.trans fx) (hf'.trans fy)
    · intro i x hi fx
      obtain ⟨x', hx', hn, hf⟩ := hsome i x hi
      rw [← hn]
      exact h.fl i x' hx' (hf.trans fx)
    · intro i x hi
      obtain ⟨x', hx', hn, hf⟩ := hsome i x hi
      rw [← hn]
      exact h.cnt i x' hx'
    · intro i hi
      rw [hup]
      split
      · exact ⟨_, rfl⟩
      · exact h.live i hi
    · intro i hi
      rw [hup, if_neg]
      · exact h.fresh i hi
      · intro e
        have := h.lt hx
        have hi : s.nextu ≤ i := hi
        omega
    · intro t a
      show r.cap (r.cur t a) = true ↔ _
      rw [h.cap]
      simp only [hstk]

theorem rd_R {γ rl s r u} (h : RH γ rl s r) (hu : u ∈ rl) : rd s u = .ok (r.val (γ u)) := by
  obtain ⟨x, hx⟩ := h.live u hu
  have fx := h.unflag hu hx
  unfold rd
  rcases x with ⟨⟨t, a⟩ | w, n, f⟩ <;> dsimp only at fx <;> subst fx <;> rw [hx]
  · dsimp only
    rw [h.cur u t a n hx, h.stack]
  · dsimp only
    rw [(h.old u w n false hx).2.2.1]

theorem decrs_R {γ r} : ∀ (us : List Nat) {rl s}, RH γ (us ++ rl) s r → ∃ s', decrs us s = .ok s' ∧ RH γ rl s' r ∧ s'.clos = s.clos ∧ s'.cache = s.cache
  | [], _, s, h => ⟨s, rfl, h, rfl, rfl⟩
  | u :: us, rl, s, h => by
    obtain ⟨y, e1, h1⟩ := decr_R (rl := us ++ rl) h
    obtain ⟨s', e2, h2, h3, h4⟩ := decrs_R us h1
    exact ⟨s', by unfold decrs; rw [e1]; exact e2, h2, h3, h4⟩

/-- A new closed upvalue. -/
theorem own_R {γ rl s r} (h : RH γ rl s r) : RH (fun i => if i = s.nextu then .own r.nexto else γ i) (s.nextu :: rl)
    { s.put s.nextu (some ⟨.own 0, 1, false⟩) with nextu := s.nextu + 1 }
    { r with nexto := r.nexto + 1, val := fun x => if x = .own r.nexto then 0 else r.val x } := by
  have hnew : s.upv s.nextu = none := h.fresh _ (Nat.le_refl _)
  have hnr : s.nextu ∉ rl := fun hm => by
    obtain ⟨x, hx⟩ := h.live _ hm
    rw [hnew] at hx
    exact nomatch hx
  have hup : ∀ i, ({ s.put s.nextu (some ⟨.own 0, 1, false⟩) with nextu := s.nextu + 1 } : St).upv i = if i = s.nextu then some ⟨.own 0, 1, false⟩ else s.upv i := fun _ => rfl
  have hstk : ∀ i t a m f, (if i = s.nextu then some (UV.mk (.own 0) 1 false) else s.upv i) = some ⟨.stk t a, m, f⟩ ↔ s.upv i = some ⟨.stk t a, m, f⟩ := by
    intro i t a m f
    by_cases e : i = s.nextu
    · rw [if_pos e, e, hnew]
      constructor <;> intro e <;> cases e
    · rw [if_neg e]
  have hold : ∀ w y, s.upv w = some y → y.flag = false → γ w ≠ .own r.nexto := by
    intro w y hy fy e
    rcases y with ⟨⟨t, a⟩ | v, n, f⟩ <;> dsimp only at fy <;> subst fy
    · rw [h.cur w t a n hy] at e; exact nomatch e
    · have := (h.old w v n false hy).2.2.2
      rw [e] at this
      exact absurd this (Nat.lt_irrefl _)
  refine ⟨?_, ?_, ?_, h.nodup, ?_, ?_, ?_, ?_, ?_, ?_, ?_, ?_⟩
  · intro t a
    exact h.stack t a
  · intro t i
    rw [hup]
    show i ∈ s.opn t ↔ _
    rw [h.opn]
    simp only [hstk]
  · intro t
    refine (h.sorted t).imp_of_mem fun {u w} hu hw hh => ?_
    have : ∀ u ∈ s.opn t, adr (fun i => if i = s.nextu then some (UV.mk (.own 0) 1 false) else s.upv i) u = adr s.upv u := by
      intro u hu
      unfold adr
      dsimp only
      rw [if_neg]
      intro e
      obtain ⟨a, n, f, hx⟩ := (h.opn t u).1 hu
      rw [e, hnew] at hx
      exact nomatch hx
    show adr (fun i => if i = s.nextu then some (UV.mk (.own 0) 1 false) else s.upv i) w ≤ adr (fun i => if i = s.nextu then some (UV.mk (.own 0) 1 false) else s.upv i) u
    rw [this u hu, this w hw]
    exact hh
  · intro i t a n hi
    rw [hup, hstk] at hi
    rw [if_neg]
    · exact h.cur i t a n hi
    · intro e; rw [e, hnew] at hi; exact nomatch hi
  · intro i v n f hi
    rw [hup] at hi
    by_cases e : i = s.nextu
    · rw [if_pos e] at hi ⊢
      cases hi
      exact ⟨rfl, Nat.one_pos, if_pos rfl, Nat.lt_succ_self _⟩
    · rw [if_neg e] at hi ⊢
      obtain ⟨a1, a2, a3, a4⟩ := h.old i v n f hi
      refine ⟨a1, a2, ?_, ?_⟩
      · dsimp only
        rw [if_neg (hold i _ hi a1)]; exact a3
      · cases hg : γ i with
        | stk t a k => rw [hg] at a4; exact a4
        | own m => rw [hg] at a4; exact Nat.lt_succ_of_lt a4
  · intro i j x y hi hj fx fy
    rw [hup] at hi hj
    by_cases e : i = s.nextu <;> by_cases e2 : j = s.nextu
    · intro _; rw [e, e2]
    · rw [if_neg e2] at hj ⊢; rw [if_pos e]
      intro hc
      exact absurd hc.symm (hold j y hj fy)
    · rw [if_neg e] at hi ⊢; rw [if_pos e2]
      intro hc
      exact absurd hc (hold i x hi fx)
    · rw [if_neg e] at hi ⊢; rw [if_neg e2] at hj ⊢
      exact h.inj i j x y hi hj fx fy
  · intro i x hi fx
    rw [hup] at hi
    by_cases e : i = s.nextu
    · rw [if_pos e] at hi; cases hi; exact nomatch fx
    · rw [if_neg e] at hi; exact h.fl i x hi fx
  · intro i x hi
    rw [hup] at hi
    by_cases e : i = s.nextu
    · rw [if_pos e] at hi; cases hi
      rw [e, List.count_cons_self, List.count_eq_zero.2 hnr]
    · rw [if_neg e] at hi
      rw [List.count_cons_of_ne (fun e' => e e'.symm)]
      exact h.cnt i x hi
  · intro i hi
    rw [hup]
    by_cases e : i = s.nextu
    · rw [if_pos e]; exact ⟨_, rfl⟩
    · rw [if_neg e]
      exact h.live i ((List.mem_cons.1 hi).resolve_left e)
  · intro i hi
    have hi : s.nextu + 1 ≤ i := hi
    rw [hup, if_neg (by omega)]
    exact h.fresh i (by omega)
  · intro t a
    show r.cap (r.cur t a) = true ↔ _
    rw [h.cap]
    constructor
    · rintro ⟨u, n, hx⟩; exact ⟨u, n, by rw [hup, hstk]; exact hx⟩
    · rintro ⟨u, n, hx⟩; exact ⟨u, n, by rw [hup, hstk] at hx; exact hx⟩

theorem newUps_R : ∀ (n : Nat) {γ rl s r}, RH γ rl s r → ∃ γ', RH γ' ((newUps n s).1 ++ rl) (newUps n s).2
      { r with nexto := r.nexto + n, val := fun x => match x with | .own m => (if r.nexto ≤ m ∧ m < r.nexto + n then 0 else r.val x) | _ => r.val x } ∧
      (newUps n s).1.map γ' = (List.range n).map (fun i => Cell.own (r.nexto + i)) ∧ (∀ w, w < s.nextu → γ' w = γ w) ∧
      (newUps n s).2.clos = s.clos ∧ (newUps n s).2.cache = s.cache
  | 0, γ, rl, s, r, h => by
    refine ⟨γ, ?_, rfl, fun _ _ => rfl, rfl, rfl⟩
    have : (fun x : Cell => match x with | .own m => (if r.nexto ≤ m ∧ m < r.nexto + 0 then 0 else r.val x) | _ => r.val x) = r.val := by
      funext x
      cases x with
      | own m => dsimp only; rw [if_neg (by omega)]
      | stk => rfl
    show RH γ rl s { r with nexto := r.nexto, val := _ }
    rw [this]
    exact h
  | n + 1, γ, rl, s, r, h => by
    have h1 := own_R h
    obtain ⟨γ', h2, e, hw, hc, hk⟩ := newUps_R n h1
    refine ⟨γ', ?_, ?_, fun w hwl => ?_, hc, hk⟩
    · have h3 := h2.congr (rl' := (newUps (n + 1) s).1 ++ rl) (fun w => by simp [newUps, List.count_cons, List.count_append]; omega)
      have hv : ({ ({ r with nexto := r.nexto + 1, val := fun x => if x = .own r.nexto then 0 else r.val x } : Sp) with
            nexto := r.nexto + 1 + n
            val := fun x => match x with
              | .own m => (if r.nexto + 1 ≤ m ∧ m < r.nexto + 1 + n then 0 else if x = .own r.nexto then 0 else r.val x)
              | _ => if x = .own r.nexto then 0 else r.val x } : Sp)
          = { r with nexto := r.nexto + (n + 1), val := fun x => match x with | .own m => (if r.nexto ≤ m ∧ m < r.nexto + (n + 1) then 0 else r.val x) | _ => r.val x } := by
        have : (fun x : Cell => match x with
              | .own m => (if r.nexto + 1 ≤ m ∧ m < r.nexto + 1 + n then 0 else if x = .own r.nexto then 0 else r.val x)
              | _ => if x = .own r.nexto then 0 else r.val x)
            = fun x => match x with | .own m => (if r.nexto ≤ m ∧ m < r.nexto + (n + 1) then 0 else r.val x) | _ => r.val x := by
          funext x
          cases x with
          | stk => dsimp only; rw [if_neg (fun e => nomatch e)]
          | own m =>
            dsimp only
            by_cases em : m = r.nexto
            · rw [if_neg (by omega), if_pos (by rw [em]), if_pos (by omega)]
            · rw [if_neg (c := Cell.own m = Cell.own r.nexto) (fun e => by injection e with e; exact em e)]
              by_cases h : r.nexto + 1 ≤ m ∧ m < r.nexto + 1 + n
              · rw [if_pos h, if_pos (by omega)]
              · rw [if_neg h, if_neg (by omega)]
        dsimp only
        rw [this, Nat.add_assoc, Nat.add_comm 1 n]
      rw [← hv]
      exact h3
    · show γ' s.nextu :: (newUps n _).1.map γ' = _
      rw [e, hw s.nextu (Nat.lt_succ_self _), if_pos rfl, List.range_succ_eq_map]
      simp only [List.map_cons, Nat.add_zero, List.map_map]
      congr 1
      refine List.map_congr_left fun i _ => ?_
      show Cell.own (r.nexto + 1 + i) = Cell.own (r.nexto + (i + 1))
      rw [Nat.add_assoc, Nat.add_comm 1 i]
    · rw [hw w (Nat.lt_succ_of_lt hwl), if_neg (by omega)]

theorem mem_refs {cl : List (Option (List Nat))} {c : Nat} {us : List Nat} (h : cl[c]? = some (some us)) : ∀ u ∈ us, u ∈ refs cl := by
  intro u hu
  unfold refs
  rw [List.mem_flatMap]
  exact ⟨some us, List.mem_of_getElem? h, hu⟩

theorem refs_append (cl : List (Option (List Nat))) (us : List Nat) (w : Nat) : (us ++ refs cl).count w = (refs (cl ++ [some us])).count w := by
  unfold refs
  rw [List.flatMap_append, List.count_append, List.count_append]
  simp [Nat.add_comm]

theorem refs_set : ∀ {cl : List (Option (List Nat))} {c : Nat} {us : List Nat} (o : Option (List Nat)), cl[c]? = some (some us) → ∀ w,
    (refs cl).count w + (o.getD []).count w = us.count w + (refs (cl.set c o)).count w
  | [], _, _, _, h, _ => nomatch h
  | x :: cl, 0, us, o, h, w => by
    simp only [List.getElem?_cons_zero, Option.some.injEq] at h
    subst h
    simp only [refs, List.flatMap_cons, List.set_cons_zero, List.count_append, Option.getD_some]
    omega
  | x :: cl, c + 1, us, o, h, w => by
    have ih := refs_set o (cl := cl) (c := c) (us := us) (by simpa using h) w
    simp only [refs, List.flatMap_cons, List.set_cons_succ, List.count_append] at ih ⊢
    omega

theorem ups_R {P γ s r} (h : RC P γ s r) (c : Nat) : Sim (fun us cs => cs = us.map γ ∧ s.clos[c]? = some (some us)) (s.ups c) (r.ups c) := by
  unfold St.ups Sp.ups
  rw [h.clos, List.getElem?_map]
  rcases hc : s.clos[c]? with _ | _ | us
  · exact .err _
  · exact .err _
  · exact .ok ⟨rfl, rfl⟩

theorem up_R {P γ s r} (h : RC P γ s r) (c i : Nat) :
    Sim (fun u x => x = γ u ∧ ∃ us, s.clos[c]? = some (some us) ∧ us[i]? = some u) (s.up c i) (r.up c i) := by
  unfold St.up Sp.up
  refine (ups_R h c).bind ?_
  rintro us cs ⟨rfl, hc⟩
  rw [List.getElem?_map]
  rcases hi : us[i]? with _ | u
  · exact .err _
  · exact .ok ⟨rfl, us, hc, hi⟩

/-- New upvalues do not touch the functions there are. -/
theorem clos_congr {γ γ' rl s r} (h : RH γ rl s r) {cl : List (Option (List Nat))} (hr : ∀ u ∈ refs cl, u ∈ rl) (hw : ∀ w, w < s.nextu → γ' w = γ w) :
    cl.map (·.map (·.map γ')) = cl.map (·.map (·.map γ)) := by
  refine List.map_congr_left fun o ho => ?_
  rcases o with _ | us
  · rfl
  · refine congrArg some (List.map_congr_left fun u hu => hw u ?_)
    obtain ⟨x, hx⟩ := h.live u (hr u (by unfold refs; rw [List.mem_flatMap]; exact ⟨_, ho, hu⟩))
    exact h.lt hx

theorem RH.cells_frame {γ rl s s' r} (h : RH γ rl s r) (e1 : s'.stack = s.stack) (e2 : s'.opn = s.opn) (e3 : s'.upv = s.upv) (e4 : s'.nextu = s.nextu) : RH γ rl s' r := by
  obtain ⟨a1, a2, a3, a4, a5, a6, a7, a8, a9, a10, a11, a12⟩ := h
  refine ⟨?_, ?_, ?_, ?_, ?_, ?_, ?_, ?_, ?_, ?_, ?_, ?_⟩ <;> simp only [e1, e2, e3, e4] <;> assumption

theorem RH.spec_frame {γ rl s r r'} (h : RH γ rl s r) (e1 : r'.ep = r.ep) (e2 : r'.val = r.val) (e3 : r'.nexto = r.nexto) (e4 : r'.cap = r.cap) : RH γ rl s r' := by
  rcases r with ⟨a, b, c, d, e, f⟩
  rcases r' with ⟨a', b', c', d', e', f'⟩
  dsimp only at e1 e2 e3 e4
  subst e1 e2 e3 e4
  exact ⟨h.stack, h.opn, h.sorted, h.nodup, h.cur, fun u v n f hx => by
    obtain ⟨b1, b2, b3, b4⟩ := h.old u v n f hx
    refine ⟨b1, b2, b3, ?_⟩
    cases hg : γ u with
    | own m => rw [hg] at b4; exact b4
    | stk t a k => rw [hg] at b4; exact b4, h.inj, h.fl, h.cnt, h.live, h.fresh, h.cap⟩

theorem Res.assoc {α β δ : Type} (x : Res α) (f : α → Res β) (g : β → Res δ) : ((x >>= f) >>= g) = (x >>= fun a => f a >>= g) := by
  cases x <;> rfl

/-- Results of related operations. -/
def RO (P : Nat → List Desc) (x : Out × St) (y : Out × Sp) : Prop := x.1 = y.1 ∧ R P x.2 y.2

theorem closure_R {P s r} (h : R P s r) (t base p : Nat) (enc : Option Nat) (black : Bool) :
    Sim (RO P) (step P s (.closure t base p enc black)) (r.step P (.closure t base p enc black)) := by
  obtain ⟨γ, hH, hC⟩ := h
  unfold step Sp.step
  dsimp only
  have key : ∀ es : List Nat, (∀ u ∈ es, u ∈ refs s.clos) →
      Sim (RO P) (closure P s t base es p black >>= fun x => pure (Out.clo x.1, x.2))
        (r.cells t base (es.map γ) (P p) >>= fun cs =>
          r.last p cs >>= fun old =>
          match old with
          | some c => pure (.clo c, r)
          | none => pure (.clo r.clos.length, { r with
              clos := r.clos ++ [some cs]
              cap := fun x => r.cap x || x ∈ locs t base r (P p)
              cache := if black then r.cache else fun q => if q = p then some r.clos.length else r.cache q })) := by
    intro es hes
    -- creating a new function
    have mk : ∀ cs, r.cells t base (es.map γ) (P p) = .ok cs → Sim (RO P)
        ((fill t base es (P p) s >>= fun x =>
          pure (x.2.clos.length, (if black then ({ x.2 with clos := x.2.clos ++ [some x.1] } : St)
            else { x.2 with clos := x.2.clos ++ [some x.1], cache := fun q => if q = p then some x.2.clos.length else x.2.cache q }))) >>= fun x => pure (Out.clo x.1, x.2))
        (pure (.clo r.clos.length, { r with
              clos := r.clos ++ [some cs]
              cap := fun x => r.cap x || x ∈ locs t base r (P p)
              cache := if black then r.cache else fun q => if q = p then some r.clos.length else r.cache q })) := by
      intro cs hcs
      rcases fill_R (t := t) (base := base) (enc := es) (P p) (es.map γ) hH rfl hes with ⟨m, _, e2⟩ | ⟨γ', us, s', e1, e2, h2, hw, hle, hcl, hca, hlen⟩
      · rw [hcs] at e2; exact nomatch e2
      · rw [hcs] at e2
        injection e2 with e2
        subst e2
        rw [e1]
        have hl : r.clos.length = s.clos.length := by rw [hC.clos, List.length_map]
        have hcl' : r.clos ++ [some (us.map γ')] = (s'.clos ++ [some us]).map (·.map (·.map γ')) := by
          rw [hC.clos, hcl, List.map_append, clos_congr hH (fun _ h => h) hw]
          rfl
        have hH' : ∀ st : St, st.stack = s'.stack → st.opn = s'.opn → st.upv = s'.upv → st.nextu = s'.nextu → st.clos = s'.clos ++ [some us] →
            ∀ ca, RH γ' (refs st.clos) st { r with clos := r.clos ++ [some (us.map γ')], cap := fun x => r.cap x || x ∈ locs t base r (P p), cache := ca } := by
          intro st b1 b2 b3 b4 b5 ca
          rw [b5]
          refine ((h2.congr (fun w => ?_)).cells_frame b1 b2 b3 b4).spec_frame rfl rfl rfl rfl
          rw [← refs_append, hcl]
        refine .ok ⟨?_, γ', ?_, ?_⟩
        · show Out.clo s'.clos.length = Out.clo r.clos.length
          rw [hcl, hl]
        · cases black
          · refine hH' _ ?_ ?_ ?_ ?_ ?_ _ <;> rfl
          · refine hH' _ ?_ ?_ ?_ ?_ ?_ _ <;> rfl
        · have old : ∀ q c, s.cache q = some c → ∃ us', (s'.clos ++ [some us])[c]? = some (some us') ∧ us'.length = (P q).length := by
            intro q c hq
            obtain ⟨us', h3, h4⟩ := hC.cok q c hq
            refine ⟨us', ?_, h4⟩
            rw [hcl, List.getElem?_append_left (by
              rcases Nat.lt_or_ge c s.clos.length with h | h
              · exact h
              · rw [List.getElem?_eq_none h] at h3; exact nomatch h3)]
            exact h3
          cases black
          · refine ⟨hcl', ?_, ?_⟩
            · show (fun q => if q = p then some s'.clos.length else s'.cache q) = fun q => if q = p then some r.clos.length else r.cache q
              rw [hcl, hca, hl, hC.cache]
            · intro q c hq
              have hq : (if q = p then some s'.clos.length else s'.cache q) = some c := hq
              by_cases e : q = p
              · rw [if_pos e] at hq
                injection hq with hq
                subst hq
                refine ⟨us, ?_, by rw [e]; exact hlen⟩
                show (s'.clos ++ [some us])[s'.clos.length]? = _
                simp
              · rw [if_neg e, hca] at hq
                exact old q c hq
          · refine ⟨hcl', ?_, ?_⟩
            · show s'.cache = r.cache
              rw [hca, hC.cache]
            · intro q c hq
              have hq : s'.cache q = some c := hq
              rw [hca] at hq
              exact old q c hq
    have mkerr : ∀ m, r.cells t base (es.map γ) (P p) = .err m → fill t base es (P p) s = .err m := by
      intro m hm
      rcases fill_R (t := t) (base := base) (enc := es) (P p) (es.map γ) hH rfl hes with ⟨m', e1, e2⟩ | ⟨γ', us, s', e1, e2, _⟩
      · rw [hm] at e2; cases e2; exact e1
      · rw [hm] at e2; exact nomatch e2
    unfold closure getcached Sp.last
    rw [← hC.cache]
    cases hca : s.cache p with
    | none =>
      dsimp only
      simp only [Res.bind_ok, Res.pure_eq]
      rcases hcs : r.cells t base (es.map γ) (P p) with cs | m | _
      · have := mk cs hcs
        rw [hC.cache]
        simpa only [Res.bind_ok, Res.pure_eq] using this
      · rw [mkerr m hcs]
        exact .err m
      · rcases fill_R (t := t) (base := base) (enc := es) (P p) (es.map γ) hH rfl hes with ⟨m', _, e2⟩ | ⟨γ', us, s', _, e2, _⟩ <;> rw [hcs] at e2 <;> exact nomatch e2
    | some c =>
      dsimp only
      obtain ⟨us, hc, hlen⟩ := hC.cok p c hca
      have e1 : s.ups c = .ok us := by unfold St.ups; rw [hc]
      have e2 : r.ups c = .ok (us.map γ) := by
        unfold Sp.ups; rw [hC.clos, List.getElem?_map, hc]; rfl
      rw [e1]
      simp only [Res.bind_ok]
      rcases sameUps_R (t := t) (base := base) (enc := es) hH hes (P p) us (mem_refs hc) hlen with ⟨m, e3, e4⟩ | ⟨cs, e3, e4⟩
      · rw [e3]
        rcases e4 with e4 | e4
        · rw [e4]; exact .err m
        · rw [e4]
          simp only [Res.bind_ok, Res.pure_eq, Bool.false_eq_true, if_false]
          rw [mkerr m e3]
          exact .err m
      · rw [e3, e4, e2]
        simp only [Res.bind_ok, Res.pure_eq, decide_eq_true_eq]
        by_cases e : us.map γ = cs
        · rw [if_pos e]
          exact .ok ⟨rfl, γ, hH, hC⟩
        · rw [if_neg e]
          have := mk cs e3
          rw [hC.cache]
          simpa only [Res.bind_ok, Res.pure_eq] using this
  cases enc with
  | none => exact key [] (fun _ h => nomatch h)
  | some c =>
    refine (ups_R hC c).bind ?_
    rintro es _ ⟨rfl, hm⟩
    exact key es (mem_refs hm)

theorem step_R {P s r} (h : R P s r) (o : Op) : Sim (RO P) (step P s o) (r.step P o) := by
  obtain ⟨γ, hH, hC⟩ := h
  cases o with
  | set t a v => exact .ok ⟨rfl, γ, slot_R t a v hH, hC.clos, hC.cache, hC.cok⟩
  | get t a =>
    refine .ok ⟨?_, γ, hH, hC⟩
    show Out.val _ = Out.val _
    rw [hH.stack]
  | closure t base p enc black => exact closure_R ⟨γ, hH, hC⟩ t base p enc black
  | load n =>
    obtain ⟨γ', h2, e, hw, hc, hk⟩ := newUps_R n hH
    have hl : r.clos.length = s.clos.length := by rw [hC.clos, List.length_map]
    refine .ok ⟨?_, γ', ?_, ?_, ?_, ?_⟩
    · show Out.clo (newUps n s).2.clos.length = Out.clo r.clos.length
      rw [hc, hl]
    · have h3 := h2.congr (rl' := refs ((newUps n s).2.clos ++ [some (newUps n s).1])) (fun w => by rw [← refs_append, hc])
      refine (h3.cells_frame ?_ ?_ ?_ ?_).spec_frame ?_ ?_ ?_ ?_ <;> rfl
    · show r.clos ++ [some ((List.range n).map fun i => Cell.own (r.nexto + i))] = ((newUps n s).2.clos ++ [some (newUps n s).1]).map (·.map (·.map γ'))
      rw [hc, List.map_append, clos_congr hH (fun _ h => h) hw, ← hC.clos, ← e]
      rfl
    · exact hk.trans hC.cache
    · intro q c hq
      have hq : (newUps n s).2.cache q = some c := hq
      rw [hk] at hq
      obtain ⟨us', h3, h4⟩ := hC.cok q c hq
      refine ⟨us', ?_, h4⟩
      show ((newUps n s).2.clos ++ [some (newUps n s).1])[c]? = _
      rw [hc, List.getElem?_append_left (by
        rcases Nat.lt_or_ge c s.clos.length with h | h
        · exact h
        · rw [List.getElem?_eq_none h] at h3; exact nomatch h3)]
      exact h3
  | getup c i =>
    unfold step Sp.step
    refine (up_R hC c i).bind ?_
    rintro u x ⟨rfl, us, hc, hi⟩
    rw [rd_R hH (mem_refs hc u (List.mem_of_getElem? hi))]
    exact .ok ⟨rfl, γ, hH, hC⟩
  | setup c i v =>
    unfold step Sp.step
    refine (up_R hC c i).bind ?_
    rintro u x ⟨rfl, us, hc, hi⟩
    obtain ⟨s', e, h2, hcl, hca⟩ := wr_R v hH (mem_refs hc u (List.mem_of_getElem? hi))
    rw [e]
    refine .ok ⟨rfl, γ, ?_, ?_, ?_, ?_⟩
    · rw [hcl]; exact h2
    · rw [hcl]; exact hC.clos
    · rw [hca]; exact hC.cache
    · rw [hca, hcl]; exact hC.cok
  | close t level =>
    unfold step Sp.step
    obtain ⟨s', e, h2, hcl, hca⟩ := close_R t level hH
    dsimp only
    rw [e]
    refine .ok ⟨rfl, γ, ?_, ?_, ?_, ?_⟩
    · rw [hcl]; exact h2
    · rw [hcl]; exact hC.clos
    · rw [hca]; exact hC.cache
    · rw [hca, hcl]; exact hC.cok
  | free c =>
    unfold step Sp.step
    refine (ups_R hC c).bind ?_
    rintro us cs ⟨rfl, hc⟩
    obtain ⟨s', e, h2, hcl, hca⟩ := decrs_R us (hH.congr (rl' := us ++ refs (s.clos.set c none)) (fun w => by
      have := refs_set none hc w
      simp only [Option.getD_none, List.count_nil, Nat.add_zero] at this
      rw [this, List.count_append]))
    rw [e]
    refine .ok ⟨rfl, γ, ?_, ?_, ?_, ?_⟩
    · show RH γ (refs (s'.clos.set c none)) _ _
      rw [hcl]
      refine (h2.cells_frame ?_ ?_ ?_ ?_).spec_frame ?_ ?_ ?_ ?_ <;> rfl
    · show r.clos.set c none = (s'.clos.set c none).map _
      rw [hcl, hC.clos, List.map_set]; rfl
    · show (fun q => if s'.cache q = some c then none else s'.cache q) = _
      rw [hca, hC.cache]
    · intro q c' hq
      have hq : (if s'.cache q = some c then none else s'.cache q) = some c' := hq
      show ∃ us, (s'.clos.set c none)[c']? = _ ∧ _
      rw [hca] at hq
      rw [hcl]
      split at hq
      · exact nomatch hq
      · rename_i hne
        obtain ⟨us', h3, h4⟩ := hC.cok q c' hq
        refine ⟨us', ?_, h4⟩
        rw [List.getElem?_set_ne (fun e => hne (by rw [hq, e]))]
        exact h3
  | join c i c' i' =>
    unfold step Sp.step join
    simp only [Res.assoc]
    refine (ups_R hC c).bind ?_
    rintro us cs ⟨rfl, hc⟩
    refine (up_R hC c i).bind ?_
    rintro u x ⟨rfl, us1, hc1, hi⟩
    refine (up_R hC c' i').bind ?_
    rintro w y ⟨rfl, us2, hc2, hi2⟩
    rw [hc] at hc1
    cases hc1
    by_cases e : u = w
    · rw [if_pos e]
      refine .ok ⟨rfl, γ, hH.spec_frame rfl rfl rfl rfl, ?_, hC.cache, hC.cok⟩
      show r.clos.set c (some ((us.map γ).set i (γ w))) = _
      have e1 : us.set i w = us := by
        rw [← e]
        refine List.ext_getElem? fun j => ?_
        rw [List.getElem?_set]
        split
        · rename_i ej
          subst ej
          rw [hi]
          split
          · rfl
          · rename_i hlt
            rw [List.getElem?_eq_none (by omega)] at hi; exact nomatch hi
        · rfl
      rw [← List.map_set, e1, hC.clos]
      refine List.ext_getElem? fun j => ?_
      rw [List.getElem?_set]
      split
      · rename_i ej
        subst ej
        rw [List.getElem?_map, hc]
        split
        · rfl
        · rename_i hlt
          rw [List.length_map] at hlt
          rw [List.getElem?_eq_none (by omega)] at hc; exact nomatch hc
      · rfl
    · rw [if_neg e]
      have hw := mem_refs hc2 w (List.mem_of_getElem? hi2)
      have hu := mem_refs hc u (List.mem_of_getElem? hi)
      have hpos := List.count_pos_iff.2 hu
      have hcount : ∀ z, (refs s.clos).count z = (u :: (refs s.clos).erase u).count z := by
        intro z
        rw [List.count_cons]
        by_cases ez : z = u
        · rw [ez, List.count_erase_self, if_pos (by simp)]; omega
        · rw [List.count_erase_of_ne ez, if_neg (by simpa using fun e => ez e.symm)]; rfl
      obtain ⟨y, e1, h1⟩ := decr_R (hH.congr hcount)
      rw [e1]
      simp only [Res.bind_ok]
      have hsw : (s.put u y).upv w = s.upv w := if_neg (fun e' => e e'.symm)
      obtain ⟨x, hx⟩ := hH.live w hw
      have h1' := h1.cells_frame (s' := { (s.put u y) with clos := (s.put u y).clos.set c (some (us.set i w)) }) rfl rfl rfl rfl
      obtain ⟨z, e2, h2⟩ := incr_R h1' (u := w) (x := x) (hsw.trans hx) (hH.unflag hw hx)
      rw [e2]
      refine .ok ⟨rfl, γ, ?_, ?_, hC.cache, ?_⟩
      · refine (h2.congr (fun v => ?_)).spec_frame rfl rfl rfl rfl
        show _ = (refs (s.clos.set c (some (us.set i w)))).count v
        have h3 := refs_set (some (us.set i w)) hc v
        have h4 : us.count v + (if w = v then 1 else 0) = (us.set i w).count v + (if u = v then 1 else 0) := by
          have hlt : i < us.length := by
            rcases Nat.lt_or_ge i us.length with h | h
            · exact h
            · rw [List.getElem?_eq_none h] at hi; exact nomatch hi
          have hget : us[i] = u := by rw [List.getElem?_eq_getElem hlt] at hi; injection hi
          have := List.count_set (a := w) (b := v) hlt
          rw [hget] at this
          rw [this]
          have hp : u = v → 0 < us.count v := fun e => by rw [← e]; exact List.count_pos_iff.2 (List.mem_of_getElem? hi)
          by_cases a1 : u = v <;> by_cases a2 : w = v <;> simp only [a1, a2, beq_self_eq_true, beq_iff_eq, if_true, if_false] <;> (try have := hp a1) <;> omega
        have h5 := hcount v
        rw [List.count_cons] at h5 ⊢
        simp only [beq_iff_eq] at h5 ⊢
        rw [Option.getD_some] at h3
        omega
      · show r.clos.set c (some ((us.map γ).set i (γ w))) = (s.clos.set c (some (us.set i w))).map _
        rw [hC.clos, List.map_set, Option.map_some, List.map_set]
      · intro q c2 hq
        obtain ⟨us', h3, h4⟩ := hC.cok q c2 hq
        show ∃ us', (s.clos.set c (some (us.set i w)))[c2]? = some (some us') ∧ _
        by_cases ec : c2 = c
        · subst ec
          rw [hc] at h3
          cases h3
          refine ⟨us.set i w, ?_, by rw [List.length_set]; exact h4⟩
          rw [List.getElem?_set, if_pos rfl, if_pos]
          rcases Nat.lt_or_ge c2 s.clos.length with h | h
          · exact h
          · rw [List.getElem?_eq_none h] at hc; exact nomatch hc
        · refine ⟨us', ?_, h4⟩
          rw [List.getElem?_set_ne (fun e => ec e.symm)]
          exact h3
  | upvalueid c i c' i' =>
    unfold step Sp.step
    refine (up_R hC c i).bind ?_
    rintro u x ⟨rfl, us1, hc1, hi⟩
    refine (up_R hC c' i').bind ?_
    rintro w y ⟨rfl, us2, hc2, hi2⟩
    refine .ok ⟨?_, γ, hH, hC⟩
    show Out.bool (decide (u = w)) = Out.bool (decide (γ u = γ w))
    have hu := mem_refs hc1 u (List.mem_of_getElem? hi)
    have hw := mem_refs hc2 w (List.mem_of_getElem? hi2)
    obtain ⟨x, hx⟩ := hH.live u hu
    obtain ⟨y, hy⟩ := hH.live w hw
    refine congrArg Out.bool (decide_eq_decide.2 ⟨fun e => by rw [e], hH.inj u w x y hx hy (hH.unflag hu hx) (hH.unflag hw hy)⟩)
  | defer t a =>
    unfold step Sp.step
    dsimp only
    unfold findupval
    rcases findLoop_spec (upv := s.upv) (level := a) (t := t) (s.opn t) (fun u hu => (hH.opn t u).1 hu) (hH.sorted t) with ⟨u, pre, post, n, e, hu⟩ | ⟨pre, post, e, e2, h3, h4, h5⟩
    · rw [e]
      have hlt := hH.lt hu
      have hcap : r.cap (r.cur t a) = true := (hH.cap t a).2 ⟨u, n, hu⟩
      rw [if_pos hcap]
      simp only [Res.bind_ok, Res.pure_eq]
      rw [if_neg (Nat.ne_of_lt hlt)]
      exact .err _
    · rw [e]
      have hn : ∀ u n, s.upv u ≠ some ⟨.stk t a, n, false⟩ := by
        intro u n hx
        exact h5 u ((hH.opn t u).2 ⟨a, n, false, hx⟩) n hx
      have hcap : ¬r.cap (r.cur t a) = true := by
        rw [hH.cap t a]
        rintro ⟨u, n, hx⟩
        exact hn u n hx
      rw [if_neg hcap]
      simp only [Res.bind_ok, Res.pure_eq]
      rw [if_pos trivial]
      have h6 := insert_R hH e2 h3 h4 hn true
      have hup : (({ (s.put s.nextu (some ⟨.stk t a, 0, false⟩)).setOpn t (pre ++ s.nextu :: post) with nextu := s.nextu + 1 } : St).upv s.nextu) = some ⟨.stk t a, 0, false⟩ := if_pos rfl
      rw [hup]
      dsimp only
      refine .ok ⟨rfl, _, slot_R t a 0 (h6.cells_frame rfl rfl ?_ rfl), ?_, hC.cache, hC.cok⟩
      · funext i
        show (if i = s.nextu then _ else if i = s.nextu then _ else s.upv i) = if i = s.nextu then _ else s.upv i
        split <;> rfl
      · refine hC.clos.trans (clos_congr hH (fun _ h => h) (fun w hw => ?_)).symm
        exact if_neg (by omega)
  | uncache p =>
    have h1 : RH γ (refs s.clos) { s with cache := fun q => if q = p then none else s.cache q } { r with cache := fun q => if q = p then none else r.cache q } := by
      refine (hH.cells_frame ?_ ?_ ?_ ?_).spec_frame ?_ ?_ ?_ ?_ <;> rfl
    refine .ok ⟨rfl, γ, h1, hC.clos, ?_, ?_⟩
    · show (fun q => if q = p then none else s.cache q) = _
      rw [hC.cache]
    · intro q c hq
      have hq : (if q = p then none else s.cache q) = some c := hq
      split at hq
      · exact nomatch hq
      · exact hC.cok q c hq

theorem init_R (P) : R P init .init := by
  refine ⟨fun _ => .own 0, ⟨?_, ?_, ?_, ?_, ?_, ?_, ?_, ?_, ?_, ?_, ?_, ?_⟩, rfl, rfl, fun _ _ h => nomatch h⟩
  · intro t a; rfl
  · intro t u; exact ⟨(fun h => nomatch h), (fun ⟨_, _, _, h⟩ => nomatch h)⟩
  · intro t; exact .nil
  · intro t; exact .nil
  · intro _ _ _ _ h; exact nomatch h
  · intro _ _ _ _ h; exact nomatch h
  · intro _ _ _ _ h; exact nomatch h
  · intro _ _ h; exact nomatch h
  · intro _ _ h; exact nomatch h
  · intro _ h; exact nomatch h
  · intro _ _; rfl
  · intro t a; exact ⟨(fun h => nomatch h), (fun ⟨_, _, h⟩ => nomatch h)⟩

theorem run_R {P} : ∀ (os : List Op) {s r}, R P s r → Sim (fun x y => x.1 = y.1 ∧ R P x.2 y.2) (run P os s) (Sp.run P os r)
  | [], s, r, h => .ok ⟨rfl, h⟩
  | o :: os, s, r, h => by
    unfold run Sp.run
    refine (step_R h o).bind ?_
    rintro ⟨x, s1⟩ ⟨y, r1⟩ ⟨e, h1⟩
    refine (run_R os h1).bind ?_
    rintro ⟨xs, s2⟩ ⟨ys, r2⟩ ⟨e2, h2⟩
    refine .ok ⟨?_, h2⟩
    dsimp only at e e2 ⊢
    rw [e, e2]

end Verif.Upval
