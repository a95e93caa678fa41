import Verif.Upval.Spec

/-! # The lists of open upvalues implement cells -/
namespace Verif.Upval

/-- Related results; nothing is undefined. -/
inductive Sim {α β : Type} (Q : α → β → Prop) : Res α → Res β → Prop
  | ok {a b} (h : Q a b) : Sim Q (.ok a) (.ok b)
  | err (m) : Sim Q (.err m) (.err m)

theorem Sim.bind {α β γ δ : Type} {Q : α → β → Prop} {Q' : γ → δ → Prop} {x : Res α} {y : Res β} {f : α → Res γ} {g : β → Res δ}
    (h : Sim Q x y) (k : ∀ a b, Q a b → Sim Q' (f a) (g b)) : Sim Q' (x >>= f) (y >>= g) := by
  cases h with
  | ok h => exact k _ _ h
  | err m => exact .err m

/-- The slot of an open upvalue. -/
def adr (upv : Nat → Option UV) (u : Nat) : Nat :=
  match upv u with
  | some ⟨.stk _ a, _, _⟩ => a
  | _ => 0

/-- A variable that is not that of a slot any more. -/
def Old (r : Sp) : Cell → Prop
  | .stk t a k => k < r.ep t a
  | .own n => n < r.nexto

/-- The upvalues, of which `rl` are all the references, implement the cells `γ`. -/
structure RH (γ : Nat → Cell) (rl : List Nat) (s : St) (r : Sp) : Prop where
  stack : ∀ t a, s.stack t a = r.val (r.cur t a)
  opn : ∀ t u, u ∈ s.opn t ↔ ∃ a n f, s.upv u = some ⟨.stk t a, n, f⟩
  sorted : ∀ t, (s.opn t).Pairwise (fun u w => adr s.upv w ≤ adr s.upv u)
  nodup : ∀ t, (s.opn t).Nodup
  cur : ∀ u t a n, s.upv u = some ⟨.stk t a, n, false⟩ → γ u = r.cur t a
  old : ∀ u v n f, s.upv u = some ⟨.own v, n, f⟩ → f = false ∧ 0 < n ∧ r.val (γ u) = v ∧ Old r (γ u)
  inj : ∀ u w x y, s.upv u = some x → s.upv w = some y → x.flag = false → y.flag = false → γ u = γ w → u = w
  fl : ∀ u x, s.upv u = some x → x.flag = true → x.refc = 0
  cnt : ∀ u x, s.upv u = some x → x.refc = rl.count u
  live : ∀ u, u ∈ rl → ∃ x, s.upv u = some x
  fresh : ∀ u, s.nextu ≤ u → s.upv u = none
  cap : ∀ t a, r.cap (r.cur t a) = true ↔ ∃ u n, s.upv u = some ⟨.stk t a, n, false⟩

/-- The closures hold the cells of their upvalues. -/
structure RC (P : Nat → List Desc) (γ : Nat → Cell) (s : St) (r : Sp) : Prop where
  clos : r.clos = s.clos.map (·.map (·.map γ))
  cache : s.cache = r.cache
  cok : ∀ p c, s.cache p = some c → ∃ us, s.clos[c]? = some (some us) ∧ us.length = (P p).length

/-- All references. -/
def refs (cl : List (Option (List Nat))) : List Nat := cl.flatMap (·.getD [])

/-- Related states. -/
def R (P : Nat → List Desc) (s : St) (r : Sp) : Prop := ∃ γ, RH γ (refs s.clos) s r ∧ RC P γ s r

/-- Only how often each upvalue is referred to matters. -/
theorem RH.congr {γ rl rl' s r} (h : RH γ rl s r) (e : ∀ u, rl.count u = rl'.count u) : RH γ rl' s r :=
  { h with
    cnt := fun u x hx => (h.cnt u x hx).trans (e u)
    live := fun u hu => h.live u (by
      rw [← List.count_pos_iff, e u]
      exact List.count_pos_iff.2 hu) }

theorem RH.unflag {γ rl s r} (h : RH γ rl s r) {u x} (hu : u ∈ rl) (hx : s.upv u = some x) : x.flag = false := by
  cases hf : x.flag with
  | false => rfl
  | true =>
    have h1 := h.fl u x hx hf
    rw [h.cnt u x hx] at h1
    exact absurd hu (List.count_eq_zero.1 h1)

theorem RH.lt {γ rl s r} (h : RH γ rl s r) {u x} (hx : s.upv u = some x) : u < s.nextu := by
  rcases Nat.lt_or_ge u s.nextu with h1 | h1
  · exact h1
  · rw [h.fresh u h1] at hx
    exact nomatch hx

theorem findLoop_spec {upv : Nat → Option UV} {level t : Nat} : ∀ l : List Nat, (∀ u ∈ l, ∃ a n f, upv u = some ⟨.stk t a, n, f⟩) →
    l.Pairwise (fun u w => adr upv w ≤ adr upv u) →
    (∃ u pre post n, findLoop upv level l = .ok (some u, pre, post) ∧ upv u = some ⟨.stk t level, n, false⟩) ∨
    (∃ pre post, findLoop upv level l = .ok (none, pre, post) ∧ l = pre ++ post ∧ (∀ u ∈ pre, level ≤ adr upv u) ∧ (∀ u ∈ post, adr upv u < level) ∧
      ∀ u ∈ l, ∀ n, upv u ≠ some ⟨.stk t level, n, false⟩)
  | [], _, _ => .inr ⟨[], [], rfl, rfl, (fun _ h => nomatch h), (fun _ h => nomatch h), (fun _ h => nomatch h)⟩
  | u :: us, hl, hp => by
    obtain ⟨a, n, f, hu⟩ := hl u (List.mem_cons_self ..)
    have ha : adr upv u = a := by unfold adr; rw [hu]
    rw [List.pairwise_cons] at hp
    unfold findLoop
    rw [hu]
    dsimp only
    by_cases h1 : level ≤ a
    · rw [if_pos h1]
      by_cases h2 : a = level ∧ f = false
      · rw [if_pos h2]
        obtain ⟨rfl, rfl⟩ := h2
        exact .inl ⟨u, [], us, n, rfl, hu⟩
      · rw [if_neg h2]
        rcases findLoop_spec us (fun w hw => hl w (List.mem_cons_of_mem _ hw)) hp.2 with ⟨w, pre, post, m, e, hw⟩ | ⟨pre, post, e, e2, h3, h4, h5⟩
        · exact .inl ⟨w, u :: pre, post, m, by rw [e]; rfl, hw⟩
        · refine .inr ⟨u :: pre, post, by rw [e]; rfl, by rw [e2]; rfl, ?_, h4, ?_⟩
          · intro w hw
            rcases List.mem_cons.1 hw with rfl | hw
            · rw [ha]; exact h1
            · exact h3 w hw
          · intro w hw m hm
            rcases List.mem_cons.1 hw with rfl | hw
            · rw [hu] at hm
              cases hm
              exact h2 ⟨rfl, rfl⟩
            · exact h5 w hw m hm
    · rw [if_neg h1]
      refine .inr ⟨[], u :: us, rfl, rfl, (fun _ h => nomatch h), ?_, ?_⟩
      · intro w hw
        rcases List.mem_cons.1 hw with rfl | hw
        · omega
        · have := hp.1 w hw
          omega
      · intro w hw m hm
        have hwa : adr upv w = level := by unfold adr; rw [hm]
        rcases List.mem_cons.1 hw with rfl | hw
        · omega
        · have := hp.1 w hw
          omega

/-- A new open upvalue in its place in the list, with one reference or for a deferred function. -/
theorem insert_R {γ rl s r t a pre post} (h : RH γ rl s r) (hl : s.opn t = pre ++ post) (h1 : ∀ u ∈ pre, a ≤ adr s.upv u)
    (h2 : ∀ u ∈ post, adr s.upv u < a) (hn : ∀ u n, s.upv u ≠ some ⟨.stk t a, n, false⟩) (fl : Bool) :
    RH (fun i => if i = s.nextu then r.cur t a else γ i) (if fl then rl else s.nextu :: rl)
      { (s.put s.nextu (some ⟨.stk t a, if fl then 0 else 1, fl⟩)).setOpn t (pre ++ s.nextu :: post) with nextu := s.nextu + 1 }
      (if fl then r else { r with cap := fun x => r.cap x || decide (x = r.cur t a) }) := by
  have hnew : s.upv s.nextu = none := h.fresh _ (Nat.le_refl _)
  have hnr : s.nextu ∉ rl := fun hm => by
    obtain ⟨x, hx⟩ := h.live _ hm
    rw [hnew] at hx
    exact nomatch hx
  have hno : ∀ t', s.nextu ∉ s.opn t' := fun t' hm => by
    obtain ⟨b, n, f, hx⟩ := (h.opn t' _).1 hm
    rw [hnew] at hx
    exact nomatch hx
  have hval : ∀ b : Bool, (if b then r else { r with cap := fun x => r.cap x || decide (x = r.cur t a) }).val = r.val := fun b => by cases b <;> rfl
  have hep : ∀ b : Bool, (if b then r else { r with cap := fun x => r.cap x || decide (x = r.cur t a) }).ep = r.ep := fun b => by cases b <;> rfl
  have hno' : ∀ b : Bool, (if b then r else { r with cap := fun x => r.cap x || decide (x = r.cur t a) }).nexto = r.nexto := fun b => by cases b <;> rfl
  have hcur : ∀ (b : Bool) t' a', (if b then r else { r with cap := fun x => r.cap x || decide (x = r.cur t a) }).cur t' a' = r.cur t' a' := fun b _ _ => by cases b <;> rfl
  have hold : ∀ (b : Bool) c, Old (if b then r else { r with cap := fun x => r.cap x || decide (x = r.cur t a) }) c ↔ Old r c := fun b c => by cases b <;> exact Iff.rfl
  have hup : ∀ u, ({ (s.put s.nextu (some ⟨.stk t a, if fl then 0 else 1, fl⟩)).setOpn t (pre ++ s.nextu :: post) with nextu := s.nextu + 1 } : St).upv u
      = if u = s.nextu then some ⟨.stk t a, if fl then 0 else 1, fl⟩ else s.upv u := fun _ => rfl
  have hop : ∀ t', ({ (s.put s.nextu (some ⟨.stk t a, if fl then 0 else 1, fl⟩)).setOpn t (pre ++ s.nextu :: post) with nextu := s.nextu + 1 } : St).opn t'
      = if t' = t then pre ++ s.nextu :: post else s.opn t' := fun _ => rfl
  have hadr : ∀ u, u ≠ s.nextu → adr (fun u => if u = s.nextu then some ⟨.stk t a, if fl then 0 else 1, fl⟩ else s.upv u) u = adr s.upv u := fun u hu => by
    unfold adr; dsimp only; rw [if_neg hu]
  have hadr' : adr (fun u => if u = s.nextu then some ⟨.stk t a, if fl then 0 else 1, fl⟩ else s.upv u) s.nextu = a := by
    unfold adr; dsimp only; rw [if_pos rfl]
  have hmem : ∀ u, u ∈ pre ++ post → u ≠ s.nextu := fun u hu e => hno t (by rw [hl, ← e]; exact hu)
  refine ⟨?_, ?_, ?_, ?_, ?_, ?_, ?_, ?_, ?_, ?_, ?_, ?_⟩
  · intro t' a'
    rw [hval, hcur]
    exact h.stack t' a'
  · intro t' u
    rw [hop, hup]
    by_cases e : u = s.nextu
    · rw [if_pos e]
      by_cases et : t' = t
      · rw [if_pos et]
        subst et
        constructor
        · intro _; exact ⟨_, _, _, rfl⟩
        · intro _; rw [e]; exact List.mem_append_right _ (List.mem_cons_self ..)
      · rw [if_neg et]
        constructor
        · intro hm; rw [e] at hm; exact absurd hm (hno t')
        · rintro ⟨_, _, _, hx⟩; injection hx with hx; injection hx with hx; injection hx with hx; exact absurd hx.symm et
    · rw [if_neg e, ← h.opn]
      by_cases et : t' = t
      · rw [if_pos et, et, hl]
        simp [e]
      · rw [if_neg et]
  · intro t'
    rw [hop]
    show List.Pairwise (fun u w => adr (fun u => if u = s.nextu then some ⟨.stk t a, if fl then 0 else 1, fl⟩ else s.upv u) w ≤ adr (fun u => if u = s.nextu then some ⟨.stk t a, if fl then 0 else 1, fl⟩ else s.upv u) u) _
    by_cases et : t' = t
    · rw [if_pos et]
      have hs := h.sorted t
      rw [hl, List.pairwise_append] at hs
      rw [List.pairwise_append, List.pairwise_cons]
      have hm1 : ∀ u ∈ pre, u ≠ s.nextu := fun u hu => hmem u (List.mem_append_left _ hu)
      have hm2 : ∀ u ∈ post, u ≠ s.nextu := fun u hu => hmem u (List.mem_append_right _ hu)
      refine ⟨?_, ⟨?_, ?_⟩, ?_⟩
      · refine hs.1.imp_of_mem fun {u w} hu hw hh => ?_
        rw [hadr u (hm1 u hu), hadr w (hm1 w hw)]; exact hh
      · intro w hw
        rw [hadr', hadr w (hm2 w hw)]
        exact Nat.le_of_lt (h2 w hw)
      · refine hs.2.1.imp_of_mem fun {u w} hu hw hh => ?_
        rw [hadr u (hm2 u hu), hadr w (hm2 w hw)]; exact hh
      · intro u hu w hw
        rw [hadr u (hm1 u hu)]
        rcases List.mem_cons.1 hw with rfl | hw
        · rw [hadr']; exact h1 u hu
        · rw [hadr w (hm2 w hw)]; exact hs.2.2 u hu w hw
    · rw [if_neg et]
      refine (h.sorted t').imp_of_mem fun {u w} hu hw hh => ?_
      rw [hadr u (fun e => hno t' (e ▸ hu)), hadr w (fun e => hno t' (e ▸ hw))]; exact hh
  · intro t'
    rw [hop]
    by_cases et : t' = t
    · rw [if_pos et]
      have hs := h.nodup t
      rw [hl] at hs
      rw [List.nodup_append] at hs ⊢
      refine ⟨hs.1, ?_, ?_⟩
      · rw [List.nodup_cons]
        exact ⟨fun hm => hmem _ (List.mem_append_right _ hm) rfl, hs.2.1⟩
      · intro u hu w hw
        rcases List.mem_cons.1 hw with rfl | hw
        · exact hmem u (List.mem_append_left _ hu)
        · exact hs.2.2 u hu w hw
    · rw [if_neg et]; exact h.nodup t'
  · intro u t' a' n hx
    rw [hup] at hx
    rw [hcur]
    by_cases e : u = s.nextu
    · rw [if_pos e] at hx ⊢
      injection hx with hx; injection hx with hx; injection hx with hx hx'
      rw [hx, hx']
    · rw [if_neg e] at hx ⊢; exact h.cur u t' a' n hx
  · intro u v n f hx
    rw [hup] at hx
    rw [hval, hold]
    by_cases e : u = s.nextu
    · rw [if_pos e] at hx; injection hx with hx; injection hx with hx; exact nomatch hx
    · rw [if_neg e] at hx ⊢; exact h.old u v n f hx
  · intro u w x y hx hy fx fy
    rw [hup] at hx hy
    have key : ∀ u w x, u = s.nextu → w ≠ s.nextu → fl = false → s.upv w = some x → x.flag = false → r.cur t a ≠ γ w := by
      intro u w x _ hw _ hx fx hc
      rcases x with ⟨⟨t', a'⟩ | v, n, f⟩
      · cases fx
        have := h.cur w t' a' n hx
        rw [← hc] at this
        injection this with e1 e2
        subst e1 e2
        exact hn w n hx
      · have := (h.old w v n f hx).2.2.2
        rw [← hc] at this
        exact absurd this (Nat.lt_irrefl _)
    by_cases e : u = s.nextu <;> by_cases e2 : w = s.nextu
    · intro _; rw [e, e2]
    · rw [if_pos e] at hx ⊢; rw [if_neg e2] at hy ⊢
      intro hc
      cases hx
      exact absurd hc (key u w y e e2 fx hy fy)
    · rw [if_neg e] at hx ⊢; rw [if_pos e2] at hy ⊢
      intro hc
      cases hy
      exact absurd hc.symm (key w u x e2 e fy hx fx)
    · rw [if_neg e] at hx ⊢; rw [if_neg e2] at hy ⊢
      exact h.inj u w x y hx hy fx fy
  · intro u x hx fx
    rw [hup] at hx
    by_cases e : u = s.nextu
    · rw [if_pos e] at hx
      cases hx
      dsimp only at fx ⊢
      rw [fx]
      rfl
    · rw [if_neg e] at hx; exact h.fl u x hx fx
  · intro u x hx
    rw [hup] at hx
    by_cases e : u = s.nextu
    · rw [if_pos e] at hx
      cases hx
      have h0 : rl.count u = 0 := by rw [e]; exact List.count_eq_zero.2 hnr
      cases fl
      · simp [← e, h0]
      · simp [h0]
    · rw [if_neg e] at hx
      rw [h.cnt u x hx]
      cases fl
      · simp only [Bool.false_eq_true, if_false]; rw [List.count_cons_of_ne (fun e' => e e'.symm)]
      · rfl
  · intro u hu
    rw [hup]
    by_cases e : u = s.nextu
    · rw [if_pos e]; exact ⟨_, rfl⟩
    · rw [if_neg e]
      refine h.live u ?_
      cases fl
      · simp only [Bool.false_eq_true, if_false, List.mem_cons] at hu
        exact hu.resolve_left e
      · exact hu
  · intro u hu
    have hu : s.nextu + 1 ≤ u := hu
    rw [hup, if_neg (by omega)]
    exact h.fresh u (by omega)
  · intro t' a'
    rw [hcur]
    show _ ↔ ∃ u n, (if u = s.nextu then some (UV.mk (.stk t a) (if fl then 0 else 1) fl) else s.upv u) = some ⟨.stk t' a', n, false⟩
    cases fl with
    | true =>
      simp only [if_true]
      rw [h.cap]
      constructor
      · rintro ⟨u, n, hu⟩
        exact ⟨u, n, by rw [if_neg (fun e => by rw [e, hnew] at hu; exact nomatch hu)]; exact hu⟩
      · rintro ⟨u, n, hu⟩
        by_cases e : u = s.nextu
        · rw [if_pos e] at hu; exact nomatch hu
        · rw [if_neg e] at hu; exact ⟨u, n, hu⟩
    | false =>
      simp only [Bool.false_eq_true, if_false, Bool.or_eq_true, decide_eq_true_eq]
      rw [h.cap]
      constructor
      · rintro (⟨u, n, hu⟩ | hc)
        · exact ⟨u, n, by rw [if_neg (fun e => by rw [e, hnew] at hu; exact nomatch hu)]; exact hu⟩
        · injection hc with e1 e2
          exact ⟨s.nextu, 1, by rw [if_pos rfl, e1, e2]⟩
      · rintro ⟨u, n, hu⟩
        by_cases e : u = s.nextu
        · rw [if_pos e] at hu
          injection hu with hu; injection hu with hu; injection hu with e1 e2
          rw [e1, e2]; exact .inr rfl
        · rw [if_neg e] at hu; exact .inl ⟨u, n, hu⟩

/-- Changing the counter or the value of one upvalue. -/
theorem put_R {γ rl rl' s r u x y} (h : RH γ rl s r) (hx : s.upv u = some x) (hl : y.loc = x.loc) (hf : y.flag = x.flag) (hr : y.flag = true → y.refc = 0)
    (ho : (∃ v, y.loc = .own v) → 0 < y.refc)
    (hc : y.refc = rl'.count u) (hc' : ∀ w, w ≠ u → rl'.count w = rl.count w) : RH γ rl' (s.put u (some y)) r := by
  have hup : ∀ w, (s.put u (some y)).upv w = if w = u then some y else s.upv w := fun _ => rfl
  have hadr : adr (s.put u (some y)).upv = adr s.upv := by
    funext w
    unfold adr
    rw [hup]
    by_cases e : w = u
    · rw [if_pos e, e, hx]
      rcases x with ⟨xl, xn, xf⟩
      rcases y with ⟨yl, yn, yf⟩
      dsimp only at hl
      rw [hl]
      cases xl <;> rfl
    · rw [if_neg e]
  have hstk : ∀ w t a f, (∃ n, (s.put u (some y)).upv w = some ⟨.stk t a, n, f⟩) ↔ ∃ n, s.upv w = some ⟨.stk t a, n, f⟩ := by
    intro w t a f
    rw [hup]
    by_cases e : w = u
    · rw [if_pos e, e, hx]
      rcases x with ⟨xl, xn, xf⟩
      rcases y with ⟨yl, yn, yf⟩
      dsimp only at hl hf
      subst hl hf
      constructor
      · rintro ⟨n, e⟩; cases e; exact ⟨_, rfl⟩
      · rintro ⟨n, e⟩; cases e; exact ⟨_, rfl⟩
    · rw [if_neg e]
  refine ⟨h.stack, ?_, ?_, h.nodup, ?_, ?_, ?_, ?_, ?_, ?_, ?_, ?_⟩
  · intro t w
    rw [show (s.put u (some y)).opn = s.opn from rfl, h.opn]
    constructor
    · rintro ⟨a, n, f, e⟩
      obtain ⟨m, e'⟩ := (hstk w t a f).2 ⟨n, e⟩
      exact ⟨a, m, f, e'⟩
    · rintro ⟨a, n, f, e⟩
      obtain ⟨m, e'⟩ := (hstk w t a f).1 ⟨n, e⟩
      exact ⟨a, m, f, e'⟩
  · rw [hadr]; exact h.sorted
  · intro w t a n e
    obtain ⟨m, e'⟩ := (hstk w t a false).1 ⟨n, e⟩
    exact h.cur w t a m e'
  · intro w v n f e
    rw [hup] at e
    by_cases ew : w = u
    · rw [if_pos ew] at e
      cases e
      rcases x with ⟨xl, xn, xf⟩
      dsimp only at hl hf ho
      subst hl hf
      rw [ew]
      obtain ⟨h1, h2, h3⟩ := h.old u v xn f hx
      exact ⟨h1, ho ⟨v, rfl⟩, h3⟩
    · rw [if_neg ew] at e; exact h.old w v n f e
  · intro w w' a b ha hb fa fb
    rw [hup] at ha hb
    have hx' : ∀ w a, (if w = u then some y else s.upv w) = some a → a.flag = false → ∃ a', s.upv w = some a' ∧ a'.flag = false := by
      intro w a ha fa
      by_cases ew : w = u
      · rw [if_pos ew] at ha; cases ha; exact ⟨x, by rw [ew]; exact hx, by rw [← hf]; exact fa⟩
      · rw [if_neg ew] at ha; exact ⟨a, ha, fa⟩
    obtain ⟨a', h1, h2⟩ := hx' w a ha fa
    obtain ⟨b', h3, h4⟩ := hx' w' b hb fb
    exact h.inj w w' a' b' h1 h3 h2 h4
  · intro w a ha fa
    rw [hup] at ha
    by_cases ew : w = u
    · rw [if_pos ew] at ha; cases ha; exact hr fa
    · rw [if_neg ew] at ha; exact h.fl w a ha fa
  · intro w a ha
    rw [hup] at ha
    by_cases ew : w = u
    · rw [if_pos ew] at ha; cases ha; rw [ew]; exact hc
    · rw [if_neg ew] at ha; rw [hc' w ew]; exact h.cnt w a ha
  · intro w hw
    rw [hup]
    by_cases ew : w = u
    · rw [if_pos ew]; exact ⟨_, rfl⟩
    · rw [if_neg ew]
      exact h.live w (by rw [← List.count_pos_iff, ← hc' w ew]; exact List.count_pos_iff.2 hw)
  · intro w hw
    rw [hup, if_neg]
    · exact h.fresh w hw
    · intro e
      have := h.lt hx
      rw [← e] at this
      have hw : s.nextu ≤ w := hw
      omega
  · intro t a
    rw [h.cap]
    constructor
    · rintro ⟨w, n, e⟩
      obtain ⟨m, e'⟩ := (hstk w t a false).2 ⟨n, e⟩
      exact ⟨w, m, e'⟩
    · rintro ⟨w, n, e⟩
      obtain ⟨m, e'⟩ := (hstk w t a false).1 ⟨n, e⟩
      exact ⟨w, m, e'⟩

theorem incr_R {γ rl s r u x} (h : RH γ rl s r) (hx : s.upv u = some x) (hf : x.flag = false) :
    ∃ y, incr s u = .ok (s.put u (some y)) ∧ RH γ (u :: rl) (s.put u (some y)) r := by
  refine ⟨{ x with refc := x.refc + 1 }, by unfold incr; rw [hx], ?_⟩
  refine put_R h hx rfl rfl (fun e => by dsimp only at e; rw [hf] at e; exact nomatch e) (fun _ => Nat.succ_pos _) ?_ ?_
  · dsimp only
    rw [List.count_cons_self, h.cnt u x hx]
  · intro w hw
    exact List.count_cons_of_ne (fun e => hw e.symm)

theorem decr_R {γ rl s r u} (h : RH γ (u :: rl) s r) : ∃ y, decr s u = .ok (s.put u y) ∧ RH γ rl (s.put u y) r := by
  obtain ⟨x, hx⟩ := h.live u (List.mem_cons_self ..)
  have hf := h.unflag (List.mem_cons_self ..) hx
  have hc := h.cnt u x hx
  rw [List.count_cons_self] at hc
  unfold decr
  rw [hx]
  dsimp only
  rw [if_neg (by omega)]
  by_cases h1 : x.refc = 1 ∧ x.loc.isOwn = true
  · rw [if_pos h1]
    refine ⟨none, rfl, ?_⟩
    have h0 : u ∉ rl := List.count_eq_zero.1 (by omega)
    have hup : ∀ w, (s.put u none).upv w = if w = u then none else s.upv w := fun _ => rfl
    have hsome : ∀ w z, (s.put u none).upv w = some z → w ≠ u ∧ s.upv w = some z := by
      intro w z hz
      rw [hup] at hz
      by_cases e : w = u
      · rw [if_pos e] at hz; exact nomatch hz
      · rw [if_neg e] at hz; exact ⟨e, hz⟩
    have hown : ∀ t a n f, s.upv u ≠ some ⟨.stk t a, n, f⟩ := by
      intro t a n f e
      rw [hx] at e
      cases e
      exact nomatch h1.2
    have hne : ∀ w t a n f, s.upv w = some ⟨.stk t a, n, f⟩ → (s.put u none).upv w = some ⟨.stk t a, n, f⟩ := by
      intro w t a n f e
      rw [hup, if_neg]
      · exact e
      · intro e'; rw [e'] at e; exact hown _ _ _ _ e
    have hadr : adr (s.put u none).upv = adr s.upv := by
      funext w
      unfold adr
      rw [hup]
      by_cases e : w = u
      · rw [if_pos e, e, hx]
        rcases x with ⟨xl, xn, xf⟩
        cases xl with
        | own => rfl
        | stk => exact nomatch h1.2
      · rw [if_neg e]
    refine ⟨h.stack, ?_, ?_, h.nodup, ?_, ?_, ?_, ?_, ?_, ?_, ?_, ?_⟩
    · intro t w
      rw [show (s.put u none).opn = s.opn from rfl, h.opn]
      constructor
      · rintro ⟨a, n, f, e⟩; exact ⟨a, n, f, hne _ _ _ _ _ e⟩
      · rintro ⟨a, n, f, e⟩; exact ⟨a, n, f, (hsome _ _ e).2⟩
    · rw [hadr]; exact h.sorted
    · intro w t a n e; exact h.cur w t a n (hsome _ _ e).2
    · intro w v n f e; exact h.old w v n f (hsome _ _ e).2
    · intro w w' a b ha hb; exact h.inj w w' a b (hsome _ _ ha).2 (hsome _ _ hb).2
    · intro w a ha; exact h.fl w a (hsome _ _ ha).2
    · intro w a ha
      rw [h.cnt w a (hsome _ _ ha).2, List.count_cons_of_ne (fun e => (hsome _ _ ha).1 e.symm)]
    · intro w hw
      rw [hup, if_neg (show ¬w = u from fun e => h0 (e ▸ hw))]
      exact h.live w (List.mem_cons_of_mem _ hw)
    · intro w hw
      rw [hup]
      split
      · rfl
      · exact h.fresh w hw
    · intro t a
      rw [h.cap]
      constructor
      · rintro ⟨w, n, e⟩; exact ⟨w, n, hne _ _ _ _ _ e⟩
      · rintro ⟨w, n, e⟩; exact ⟨w, n, (hsome _ _ e).2⟩
  · rw [if_neg h1]
    refine ⟨some { x with refc := x.refc - 1 }, rfl, put_R h hx rfl rfl (fun e => by dsimp only at e; rw [hf] at e; exact nomatch e) ?_ ?_ ?_⟩
    · rintro ⟨v, e⟩
      dsimp only at e ⊢
      have : x.loc.isOwn = true := by rw [e]; rfl
      have : x.refc ≠ 1 := fun e' => h1 ⟨e', this⟩
      omega
    · dsimp only; omega
    · intro w hw
      exact (List.count_cons_of_ne (fun e => hw e.symm)).symm

/-- The upvalue of a slot of the frame. -/
theorem grab_R {γ rl s r} (t a : Nat) (h : RH γ rl s r) : ∃ γ' u s1 s2, findupval s t a = .ok (u, s1) ∧ incr s1 u = .ok s2 ∧
    RH γ' (u :: rl) s2 { r with cap := fun x => r.cap x || decide (x = r.cur t a) } ∧ γ' u = r.cur t a ∧ (∀ w, w < s.nextu → γ' w = γ w) ∧
    s.nextu ≤ s2.nextu ∧ s2.clos = s.clos ∧ s2.cache = s.cache := by
  unfold findupval
  rcases findLoop_spec (upv := s.upv) (level := a) (t := t) (s.opn t) (fun u hu => (h.opn t u).1 hu) (h.sorted t) with ⟨u, pre, post, n, e, hu⟩ | ⟨pre, post, e, e2, h3, h4, h5⟩
  · rw [e]
    obtain ⟨y, hy, hR⟩ := incr_R h hu rfl
    refine ⟨γ, u, s, _, rfl, hy, ?_, h.cur u t a n hu, fun _ _ => rfl, Nat.le_refl _, rfl, rfl⟩
    have hcap : r.cap (r.cur t a) = true := (h.cap t a).2 ⟨u, n, hu⟩
    have : ({ r with cap := fun x => r.cap x || decide (x = r.cur t a) } : Sp) = r := by
      have : (fun x => r.cap x || decide (x = r.cur t a)) = r.cap := by
        funext x
        by_cases ex : x = r.cur t a
        · rw [ex, hcap]; rfl
        · simp [ex]
      rw [this]
    rw [this]
    exact hR
  · rw [e]
    have hn : ∀ u n, s.upv u ≠ some ⟨.stk t a, n, false⟩ := fun u n hu => h5 u ((h.opn t u).2 ⟨_, _, _, hu⟩) n hu
    have hi := insert_R h e2 h3 h4 hn false
    refine ⟨_, s.nextu, _, _, rfl, ?_, hi, if_pos rfl, fun w hw => if_neg (by omega), Nat.le_succ _, rfl, rfl⟩
    simp only [incr, St.put, St.setOpn, if_true]
    congr 1
    congr 1
    funext i
    by_cases ei : i = s.nextu
    · rw [if_pos ei, if_pos ei]; rfl
    · rw [if_neg ei, if_neg ei, if_neg ei]

/-- The references of a new function. -/
theorem fill_R {t base : Nat} {enc : List Nat} : ∀ (ds : List Desc) {γ rl s r} (es : List Cell), RH γ rl s r → es = enc.map γ → (∀ u ∈ enc, u ∈ rl) →
    (∃ m, fill t base enc ds s = .err m ∧ r.cells t base es ds = .err m) ∨
    ∃ γ' us s', fill t base enc ds s = .ok (us, s') ∧ r.cells t base es ds = .ok (us.map γ') ∧
      RH γ' (us ++ rl) s' { r with cap := fun x => r.cap x || x ∈ locs t base r ds } ∧ (∀ w, w < s.nextu → γ' w = γ w) ∧ s.nextu ≤ s'.nextu ∧
      s'.clos = s.clos ∧ s'.cache = s.cache ∧ us.length = ds.length
  | [], γ, rl, s, r, es, h, he, hm => by
    refine .inr ⟨γ, [], s, rfl, rfl, ?_, fun _ _ => rfl, Nat.le_refl _, rfl, rfl, rfl⟩
    simpa [locs] using h
  | .loc i :: ds, γ, rl, s, r, es, h, he, hm => by
    obtain ⟨γ', u, s1, s2, e1, e2, h2, hg, hw, hle, hc, hk⟩ := grab_R t (base + i) h
    have hes : es = enc.map γ' := by
      rw [he]
      refine List.map_congr_left fun w hw' => ?_
      obtain ⟨x, hx⟩ := h.live w (hm w hw')
      exact (hw w (h.lt hx)).symm
    have hcells : ∀ ds, ({ r with cap := fun x => r.cap x || decide (x = r.cur t (base + i)) } : Sp).cells t base es ds = r.cells t base es ds := by
      intro ds
      induction ds with
      | nil => rfl
      | cons d ds ih => cases d <;> simp [Sp.cells, ih] <;> rfl
    unfold fill Sp.cells
    rw [e1, Res.bind_ok]
    dsimp only
    rw [e2, Res.bind_ok]
    rcases fill_R ds es h2 hes (fun w hw' => List.mem_cons_of_mem _ (hm w hw')) with ⟨m, e3, e4⟩ | ⟨γ'', us, s', e3, e4, h3, hw2, hle2, hc2, hk2, hlen⟩
    · rw [hcells] at e4
      exact .inl ⟨m, by rw [e3]; rfl, by rw [e4]; rfl⟩
    · rw [hcells] at e4
      have hu2 : u < s2.nextu := by
        obtain ⟨x, hx⟩ := h2.live u (List.mem_cons_self ..)
        exact h2.lt hx
      refine .inr ⟨γ'', u :: us, s', by rw [e3]; rfl, ?_, ?_, fun w hwl => ?_, Nat.le_trans hle hle2, hc2.trans hc, hk2.trans hk, by simp [hlen]⟩
      · rw [e4, Res.bind_ok, Res.pure_eq, List.map_cons, hw2 u hu2, hg]
      · have hp := h3.congr (rl' := u :: us ++ rl) (fun w => by simp [List.count_cons, List.count_append]; omega)
        have : ({ ({ r with cap := fun x => r.cap x || decide (x = r.cur t (base + i)) } : Sp) with cap := fun x => (r.cap x || decide (x = r.cur t (base + i))) || x ∈ locs t base { r with cap := fun x => r.cap x || decide (x = r.cur t (base + i)) } ds } : Sp)
            = { r with cap := fun x => r.cap x || x ∈ locs t base r (.loc i :: ds) } := by
          refine congrArg (fun c => ({ r with cap := c } : Sp)) (funext fun x => ?_)
          have hlocs : locs t base { r with cap := fun x => r.cap x || decide (x = r.cur t (base + i)) } ds = locs t base r ds := rfl
          rw [hlocs]
          simp [locs, List.filterMap_cons, Bool.or_assoc]
        rw [← this]
        exact hp
      · rw [hw2 w (by omega), hw w hwl]
  | .enc i :: ds, γ, rl, s, r, es, h, he, hm => by
    unfold fill Sp.cells
    have hget : es[i]? = (enc[i]?).map γ := by rw [he, List.getElem?_map]
    cases hi : enc[i]? with
    | none =>
      rw [hi] at hget
      exact .inl ⟨_, rfl, by rw [hget]; rfl⟩
    | some u =>
      rw [hi] at hget
      have hu : u ∈ rl := hm u (List.mem_of_getElem? hi)
      obtain ⟨x, hx⟩ := h.live u hu
      obtain ⟨y, e1, h2⟩ := incr_R h hx (h.unflag hu hx)
      dsimp only
      rw [e1, Res.bind_ok, hget]
      dsimp only [Option.map_some]
      rcases fill_R ds es h2 he (fun w hw' => List.mem_cons_of_mem _ (hm w hw')) with ⟨m, e3, e4⟩ | ⟨γ'', us, s', e3, e4, h3, hw2, hle2, hc2, hk2, hlen⟩
      · exact .inl ⟨m, by rw [e3]; rfl, by rw [e4]; rfl⟩
      · refine .inr ⟨γ'', u :: us, s', by rw [e3]; rfl, ?_, ?_, hw2, hle2, hc2, hk2, by simp [hlen]⟩
        · rw [e4, Res.bind_ok, Res.pure_eq, List.map_cons, hw2 u (h.lt hx)]
        · have hp := h3.congr (rl' := u :: us ++ rl) (fun w => by simp [List.count_cons, List.count_append]; omega)
          have : locs t base r (.enc i :: ds) = locs t base r ds := rfl
          rw [this]
          exact hp

/-- The addresses in the fields `v` are equal when the cells are. -/
theorem ptr_eq {γ rl s r u w} (h : RH γ rl s r) (hu : u ∈ rl) (hw : w ∈ rl) : ∃ p q, ptr s u = .ok p ∧ ptr s w = .ok q ∧ (p = q ↔ γ u = γ w) := by
  obtain ⟨x, hx⟩ := h.live u hu
  obtain ⟨y, hy⟩ := h.live w hw
  have fx := h.unflag hu hx
  have fy := h.unflag hw hy
  rcases x with ⟨⟨t, a⟩ | v, n, f⟩ <;> rcases y with ⟨⟨t', a'⟩ | v', n', f'⟩ <;> dsimp only at fx fy <;> subst fx fy <;> unfold ptr <;> rw [hx, hy]
  · refine ⟨_, _, rfl, rfl, ?_⟩
    rw [h.cur u t a n hx, h.cur w t' a' n' hy]
    constructor
    · intro e; injection e with e1 e2; rw [e1, e2]
    · intro e; injection e with e1 e2; rw [e1, e2]
  · refine ⟨_, _, rfl, rfl, ?_⟩
    rw [h.cur u t a n hx]
    constructor
    · intro e; exact nomatch e
    · intro e
      have := (h.old w v' n' false hy).2.2.2
      rw [← e] at this
      exact absurd this (Nat.lt_irrefl _)
  · refine ⟨_, _, rfl, rfl, ?_⟩
    rw [h.cur w t' a' n' hy]
    constructor
    · intro e; exact nomatch e
    · intro e
      have := (h.old u v n false hx).2.2.2
      rw [e] at this
      exact absurd this (Nat.lt_irrefl _)
  · refine ⟨_, _, rfl, rfl, ?_⟩
    constructor
    · intro e; injection e with e; rw [e]
    · intro e; rw [h.inj u w _ _ hx hy rfl rfl e]

theorem ptr_cur {γ rl s r u} (t a : Nat) (h : RH γ rl s r) (hu : u ∈ rl) : ∃ p, ptr s u = .ok p ∧ (p = .stk t a ↔ γ u = r.cur t a) := by
  obtain ⟨x, hx⟩ := h.live u hu
  have fx := h.unflag hu hx
  rcases x with ⟨⟨t', a'⟩ | v, n, f⟩ <;> dsimp only at fx <;> subst fx <;> unfold ptr <;> rw [hx]
  · refine ⟨_, rfl, ?_⟩
    rw [h.cur u t' a' n hx]
    constructor
    · intro e; injection e with e1 e2; rw [e1, e2]
    · intro e; injection e with e1 e2; rw [e1, e2]
  · refine ⟨_, rfl, ?_⟩
    constructor
    · intro e; exact nomatch e
    · intro e
      have := (h.old u v n false hx).2.2.2
      rw [e] at this
      exact absurd this (Nat.lt_irrefl _)

/-- `getcached` compares addresses; that is comparing variables. -/
theorem sameUps_R {γ rl s r} {t base : Nat} {enc : List Nat} (h : RH γ rl s r) (hm : ∀ u ∈ enc, u ∈ rl) : ∀ (ds : List Desc) (us : List Nat), (∀ u ∈ us, u ∈ rl) →
    us.length = ds.length → (∃ m, r.cells t base (enc.map γ) ds = .err m ∧ (sameUps s t base enc ds us = .err m ∨ sameUps s t base enc ds us = .ok false)) ∨
      ∃ cs, r.cells t base (enc.map γ) ds = .ok cs ∧ sameUps s t base enc ds us = .ok (decide (us.map γ = cs))
  | [], [], _, _ => .inr ⟨[], rfl, rfl⟩
  | [], _ :: _, _, hl => nomatch hl
  | _ :: _, [], _, hl => nomatch hl
  | d :: ds, u :: us, hu, hl => by
    have hu0 := hu u (List.mem_cons_self ..)
    have ih := sameUps_R (t := t) (base := base) h hm ds us (fun w hw => hu w (List.mem_cons_of_mem _ hw)) (by simpa using hl)
    have fin : ∀ (c : Cell) (p q : Ptr), ptr s u = .ok p → (p = q ↔ γ u = c) →
        (∃ m, (do let cs ← r.cells t base (enc.map γ) ds; pure (c :: cs)) = .err m ∧
          ((if p = q then sameUps s t base enc ds us else .ok false) = .err m ∨ (if p = q then sameUps s t base enc ds us else .ok false) = .ok false)) ∨
        ∃ cs, (do let cs ← r.cells t base (enc.map γ) ds; pure (c :: cs)) = .ok cs ∧
          (if p = q then sameUps s t base enc ds us else .ok false) = .ok (decide ((u :: us).map γ = cs)) := by
      intro c p q hp hpq
      rcases ih with ⟨m, e1, e2⟩ | ⟨cs, e1, e2⟩
      · refine .inl ⟨m, by rw [e1]; rfl, ?_⟩
        by_cases e : p = q
        · rw [if_pos e]; exact e2
        · rw [if_neg e]; exact .inr rfl
      · refine .inr ⟨c :: cs, by rw [e1]; rfl, ?_⟩
        by_cases e : p = q
        · rw [if_pos e, e2, List.map_cons, hpq.1 e]; simp
        · rw [if_neg e, List.map_cons]
          have : γ u ≠ c := fun e' => e (hpq.2 e')
          simp [this]
    cases d with
    | loc i =>
      obtain ⟨p, hp, hpq⟩ := ptr_cur t (base + i) h hu0
      unfold sameUps Sp.cells
      simp only [Res.pure_eq, Res.bind_ok, hp]
      exact fin _ _ _ hp hpq
    | enc i =>
      unfold sameUps Sp.cells
      rw [List.getElem?_map]
      cases hi : enc[i]? with
      | none => exact .inl ⟨_, rfl, .inl (by simp only [hi, Res.bind_err])⟩
      | some w =>
        obtain ⟨p, q, hp, hq, hpq⟩ := ptr_eq h hu0 (hm w (List.mem_of_getElem? hi))
        simp only [hi, hq, Res.bind_ok, hp, Option.map_some, Res.pure_eq]
        exact fin _ _ _ hp hpq

end Verif.Upval
