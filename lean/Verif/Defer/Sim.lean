import Verif.Defer.Lists

/-!
# The machine does what it should
-/
namespace Verif.Defer

variable {W : Nat → Bool} {F : Nat → S} {G : Nat → Fn}

/-! ## Blocks and the jumps of `break` -/

/-- The innermost of these blocks that has the register closes. -/
def Cover : List (Nat × Bool) → Nat → Prop
  | [], _ => False
  | (n, u) :: bl, m => if n ≤ m then u = true else Cover bl m

theorem brk_lt {na : Nat} {bl : List (Nat × Bool)} {l : Nat} (h : brkClose na bl = some l) : l < na := by
  induction bl generalizing na with
  | nil => exact nomatch h
  | cons b bl ih =>
    obtain ⟨n, u⟩ := b
    unfold brkClose at h
    split at h
    next hn =>
      split at h
      next l' hl =>
        cases h
        exact Nat.lt_trans (ih hl) hn
      · split at h
        · cases h; exact hn
        · exact nomatch h
    · exact ih h

theorem brk_ge {na : Nat} {bl : List (Nat × Bool)} {l nl : Nat} (hb : ∀ b ∈ bl, nl ≤ b.1) (h : brkClose na bl = some l) : nl ≤ l := by
  induction bl generalizing na with
  | nil => exact nomatch h
  | cons b bl ih =>
    obtain ⟨n, u⟩ := b
    have ih := fun na => ih (na := na) fun b hb' => hb b (List.mem_cons_of_mem _ hb')
    unfold brkClose at h
    split at h
    · split at h
      next l' hl =>
        cases h
        exact ih _ hl
      · split at h
        · cases h; exact hb (l, u) List.mem_cons_self
        · exact nomatch h
    · exact ih _ h

theorem brk_cover {na : Nat} {bl : List (Nat × Bool)} {m : Nat} (hm : m < na) (hc : Cover bl m) : ∃ l, brkClose na bl = some l ∧ l ≤ m := by
  induction bl generalizing na with
  | nil => exact hc.elim
  | cons b bl ih =>
    obtain ⟨n, u⟩ := b
    unfold Cover at hc
    unfold brkClose
    split at hc
    next hn =>
      rw [if_pos (by omega)]
      cases hb : brkClose n bl with
      | some l => exact ⟨l, rfl, by have := brk_lt hb; omega⟩
      | none => exact ⟨n, by simp [hc], hn⟩
    next hn =>
      split
      next hna =>
        obtain ⟨l, hl, hlm⟩ := ih (na := n) (by omega) hc
        exact ⟨l, by rw [hl], hlm⟩
      next hna => exact ih (by omega) hc

/-! ## Static facts -/

theorem decl_len (vs : List Bool) (s : S) : vs.length ≤ (decl vs s).length := by
  induction s generalizing vs with
  | seq a b iha ihb => exact Nat.le_trans (iha vs) (ihb _)
  | _ => simp [decl]

theorem protos_marks {vs : List Bool} {s : S} (h : protos s = false) : marks vs s = [] := by
  induction s generalizing vs with
  | seq a b iha ihb =>
    simp only [protos, Bool.or_eq_false_iff] at h
    simp only [marks, iha h.1, ihb h.2, List.append_nil]
  | ite a b iha ihb =>
    simp only [protos, Bool.or_eq_false_iff] at h
    simp only [marks, iha h.1, ihb h.2, List.filter_nil, List.append_nil]
  | block b ih | while_ b ih | repeat_ b ih => simp only [marks, ih h, List.filter_nil]
  | defer b => exact nomatch h
  | capture k => exact nomatch h
  | _ => rfl

/-- What is known when a statement starts. -/
structure Ok (base : Nat) (vs : List Bool) (p : Bool) (bl : Option (List (Nat × Bool))) (nl : Nat) (t : Bool) (s : S) (L : List Ent) : Prop where
  sorted : Sorted L
  lt : ∀ e ∈ L, e.lvl < base + vs.length
  blk : ∀ l, bl = some l → (∀ b ∈ l, nl ≤ b.1) ∧ (∀ e ∈ L, base + nl ≤ e.lvl → Cover l (e.lvl - base)) ∧ (∀ m ∈ marks vs s, nl ≤ m → Cover l m) ∧ nl ≤ vs.length
  sp : p = false → (∀ e ∈ L, e.lvl < base) ∧ protos s = false
  tbc : t = false → up base (D L) = []

/-- What is known when it ends. `outF`, `outL`: what is to be called at the end of the function, and of the innermost loop. -/
structure Post (W : Nat → Bool) (F : Nat → S) (base n n₁ : Nat) (ms : List Nat) (bl : Option (List (Nat × Bool))) (nl : Nat) (L : List Ent) (outF outL : Pend) (o : Outc) (ds : Pend) (xr : X)
    (o' : Outc) (n' : Nat) (s' : St) : Prop where
  mem : ∀ e ∈ s'.opn, e ∈ L ∨ base ≤ e.lvl
  res : match o with
    | .norm => o' = .norm ∧ n' = n₁ ∧ Rel s' xr ∧ Fin (base + n) L ds s'.opn ∧ (∀ e ∈ s'.opn, e.lvl < base + n') ∧ ∀ e ∈ s'.opn, e ∈ L ∨ ∃ m ∈ ms, e.lvl = base + m
    | .err v => o' = .err v ∧ Rel s' xr ∧ Fin base L (ds ++ outF) s'.opn
    | .ret => ∃ r x, Sem W F (.runN (ds ++ outF)) xr (.fin r) x ∧ Rel s' x ∧
      match r with
      | none => o' = .ret ∧ Fin base L [] s'.opn ∧ ∀ e ∈ s'.opn, e.lvl < base
      | some (v, p) => o' = .err v ∧ Fin base L p s'.opn
    | .brk => bl ≠ none ∧ ∃ r x, Sem W F (.runN (ds ++ outL)) xr (.fin r) x ∧ Rel s' x ∧
      match r with
      | none => o' = .brk ∧ Fin (base + nl) L [] s'.opn ∧ (∀ e ∈ s'.opn, e.lvl < base + nl) ∧ ∀ e ∈ s'.opn, e ∈ L ∨ ∃ m ∈ ms, e.lvl = base + m
      | some (v, p) => o' = .err v ∧ Fin (base + nl) L p s'.opn

/-! ## What is proved, for each part of the machine -/

def ExC (W : Nat → Bool) (F : Nat → S) (G : Nat → Fn) (k : Nat) : Prop :=
  ∀ co base vs p bl nl t a c s x outF outL o' n' s', comp p bl t vs a = some c → Ok base vs p bl nl t a s.opn → Rel s x → Ms (up base (D s.opn)) outF →
    (bl ≠ none → Ms (up (base + nl) (D s.opn)) outL) → ex W G k co base vs.length c s = .ok (o', n', s') →
    ∃ o ds xr, Sem W F (.st a) x (.out o ds) xr ∧ Post W F base vs.length (decl vs a).length (marks vs a) bl nl s.opn outF outL o ds xr o' n' s'

def ScC (W : Nat → Bool) (F : Nat → S) (G : Nat → Fn) (k : Nat) : Prop :=
  ∀ co base vs p bl nl t a c s x outF outL o' n' s', comp p bl t vs a = some c → Ok base vs p bl nl t a s.opn → Rel s x → Ms (up base (D s.opn)) outF →
    (bl ≠ none → Ms (up (base + nl) (D s.opn)) outL) → scope W G k co base vs.length (leave vs a) c s = .ok (o', n', s') →
    n' = vs.length ∧ ∃ o ds xr, Sem W F (.st (.block a)) x (.out o ds) xr ∧
      Post W F base vs.length vs.length ((marks vs a).filter (· < vs.length)) bl nl s.opn outF outL o ds xr o' n' s'

def ClC (W : Nat → Bool) (F : Nat → S) (G : Nat → Fn) (k : Nat) : Prop :=
  ∀ level top s x ds r s', Sorted s.opn → (∀ e ∈ s.opn, e.lvl < top) → Ms (up level (D s.opn)) ds → Rel s x → close W G k level top .ok s = .ok (r, s') →
    ∃ r' x', Sem W F (.runN ds) x (.fin r') x' ∧ Rel s' x' ∧ CloseR top level s.opn r r' s'.opn

def CcC (W : Nat → Bool) (F : Nat → S) (G : Nat → Fn) (k : Nat) : Prop :=
  ∀ level top v s x ds r s', Sorted s.opn → Ms (up level (D s.opn)) ds → Rel s x → close W G k level top (.code v) s = .ok (r, s') →
    ∃ x', Sem W F (.runP v ds) x (.fin none) x' ∧ Rel s' x' ∧ Fin level s.opn [] s'.opn ∧ (∀ e ∈ s'.opn, e.lvl < level) ∧ ∀ e ∈ s'.opn, e ∈ s.opn

def CpC (W : Nat → Bool) (F : Nat → S) (G : Nat → Fn) (k : Nat) : Prop :=
  ∀ level top s x ds r s', Sorted s.opn → Ms (up level (D s.opn)) ds → Rel s x → close W G k level top .protect s = .ok (r, s') →
    ∃ x', Sem W F (.runW ds) x (.fin none) x' ∧ Rel s' x'

def JmC (W : Nat → Bool) (F : Nat → S) (G : Nat → Fn) (k : Nat) : Prop :=
  ∀ base n cl lv s x ds r s', Sorted s.opn → (∀ e ∈ s.opn, e.lvl < base + n) → (∀ l, cl = some l → lv ≤ base + l ∧ l ≤ n) →
    (∀ e ∈ s.opn, lv ≤ e.lvl → ∃ l, cl = some l ∧ base + l ≤ e.lvl) → Ms (up lv (D s.opn)) ds → Rel s x → jmp W G k base n cl s = .ok (r, s') →
    ∃ r' x', Sem W F (.runN ds) x (.fin r') x' ∧ Rel s' x' ∧ CloseR (base + n) lv s.opn r r' s'.opn

def FnC (W : Nat → Bool) (F : Nat → S) (G : Nat → Fn) (k : Nat) : Prop :=
  ∀ co base b f s x r s', compFun b = some f → Sorted s.opn → (∀ e ∈ s.opn, e.lvl < base) → Rel s x → fn W G k co base f s = .ok (r, s') →
    ∃ r' x', Sem W F (.fn b) x (.fin r') x' ∧ Rel s' x' ∧ CloseR base base s.opn r r' s'.opn

/-- Nothing is left of a protected call. -/
structure Keep (L L' : List Ent) : Prop where
  sorted : Sorted L'
  eq : D L' = D L
  mem : ∀ e ∈ L', e ∈ L

/-- The outcome of a protected call. -/
def Caught (W : Nat → Bool) (F : Nat → S) (b : S) (x : X) (x' : X) : Option Nat → Prop
  | none => Sem W F (.fn b) x (.fin none) x'
  | some w => ∃ p x₁, Sem W F (.fn b) x (.fin (some (w, p))) x₁ ∧ Sem W F (.runP w p) x₁ (.fin none) x'

def PrC (W : Nat → Bool) (F : Nat → S) (G : Nat → Fn) (k : Nat) : Prop :=
  ∀ oldtop base b f s x r s', compFun b = some f → Sorted s.opn → (∀ e ∈ s.opn, e.lvl < oldtop) → oldtop ≤ base → Rel s x → prot W G k oldtop base f s = .ok (r, s') →
    ∃ x', Caught W F b x x' r ∧ Rel s' x' ∧ Keep s.opn s'.opn

def ReC (W : Nat → Bool) (F : Nat → S) (G : Nat → Fn) (k : Nat) : Prop :=
  ∀ oldtop f n s x o' n' s', Sorted s.opn → (∀ e ∈ s.opn, e.lvl < oldtop) → Rel s x → recover W G k oldtop (G f) n s = .ok (o', n', s') →
    o' = .norm ∧ n' = n ∧ ∃ x', Sem W F (.st (.pcall f)) x (.out .norm []) x' ∧ Rel s' x' ∧ Keep s.opn s'.opn

structure All (W : Nat → Bool) (F : Nat → S) (G : Nat → Fn) (k : Nat) : Prop where
  ex : ExC W F G k
  sc : ScC W F G k
  cl : ClC W F G k
  cc : CcC W F G k
  cp : CpC W F G k
  jm : JmC W F G k
  fn : FnC W F G k
  pr : PrC W F G k
  re : ReC W F G k

/-! ## Closing -/

theorem Rel.see {s : St} {x : X} (h : Rel s x) (e : Ev) (L : List Ent) : Rel { s.see e with opn := L } (x.see e) :=
  ⟨h.1, h.2.1, by show s.tr ++ [e] = x.tr ++ [e]; rw [h.2.2]⟩

theorem sorted_tail {e : Ent} {es : List Ent} (h : Sorted (e :: es)) : Sorted es ∧ ∀ y ∈ es, y.lvl ≤ e.lvl :=
  ⟨(List.pairwise_cons.1 h).2, (List.pairwise_cons.1 h).1⟩

theorem head_low {level : Nat} {e : Ent} {es : List Ent} (h : Sorted (e :: es)) (hl : ¬level ≤ e.lvl) : ∀ y ∈ e :: es, y.lvl < level := fun y hy => by
  rcases List.mem_cons.1 hy with rfl | hy
  · omega
  · have := (sorted_tail h).2 y hy; omega

theorem low_cons {level : Nat} {e : Ent} {es : List Ent} (hl : level ≤ e.lvl) : dn level (D (e :: es)) = dn level (D es) := by
  cases he : e.d with
  | none => rw [D_cons_none he]
  | some q => rw [D_cons_some he, dn_cons_ge hl]

theorem Fin.cons {level : Nat} {e : Ent} {es L' : List Ent} {p : Pend} (hl : level ≤ e.lvl) (h : Fin level es p L') : Fin level (e :: es) p L' :=
  ⟨h.top, by rw [h.low, low_cons hl], h.sorted⟩

theorem Fin.of_D {level : Nat} {L L₁ L' : List Ent} {p : Pend} (hD : D L₁ = D L) (h : Fin level L₁ p L') : Fin level L p L' :=
  ⟨h.top, by rw [h.low, hD], h.sorted⟩

theorem CloseR.cons {top level : Nat} {e : Ent} {es L₁ L' : List Ent} {r r'} (hl : level ≤ e.lvl) (hD : D L₁ = D es) (hm : ∀ y ∈ L₁, y ∈ es) (h : CloseR top level L₁ r r' L') :
    CloseR top level (e :: es) r r' L' where
  mem y hy := (h.mem y hy).imp (fun h => List.mem_cons_of_mem _ (hm y h)) id
  res := by
    have := h.res
    cases r <;> cases r' <;> simp only at this ⊢
    · exact ⟨(this.1.of_D hD).cons hl, this.2⟩
    · exact ⟨this.1, (this.2.of_D hD).cons hl⟩

theorem cl_step {k : Nat} (ih : All W F G k) : ClC W F G (k + 1) := by
  intro level top s x ds r s' hs hlt hm hr h
  rw [close] at h
  cases hL : s.opn with
  | nil =>
    rw [hL] at h hm
    cases h
    cases hm.nil_left
    exact ⟨none, x, .runNil, hr, fun e he => .inl (hL ▸ he), by rw [hL]; exact ⟨Fin.refl .nil (fun e he => nomatch he), fun e he => nomatch he⟩⟩
  | cons e es =>
    rw [hL] at h hm hs hlt
    dsimp only at h
    have ht := sorted_tail hs
    have hlt' : ∀ y ∈ es, y.lvl < top := fun y hy => hlt y (List.mem_cons_of_mem _ hy)
    split at h
    next hle =>
      cases hd : e.d with
      | none =>
        rw [hd] at h
        rw [D_cons_none hd] at hm
        obtain ⟨r', x', h1, h2, h3⟩ := ih.cl _ _ { s with opn := es } x ds r s' ht.1 hlt' hm hr h
        exact ⟨r', x', h1, h2, h3.cons hle rfl fun _ h => h⟩
      | some q =>
        obtain ⟨i, f⟩ := q
        rw [hd] at h
        dsimp only at h
        rw [D_cons_some hd, up_cons_pos hle] at hm
        cases hm with
        | @cons _ d _ ds hd' hm =>
          obtain ⟨j, b⟩ := d
          obtain ⟨f', e1, hf⟩ := hd'
          rw [hd] at e1
          cases e1
          obtain ⟨⟨r₁, s₁⟩, h1, h2⟩ := Res.bind_eq_ok.1 h
          obtain ⟨r', x₁, c1, c2, c3⟩ := ih.fn _ _ b f _ _ r₁ s₁ hf ht.1 (fun y hy => Nat.lt_succ_of_lt (hlt' y hy)) (hr.see (.run j none) es) h1
          have c4 := c3.res
          have hlt1 : ∀ y ∈ es, y.lvl < top + 1 := fun y hy => Nat.lt_succ_of_lt (hlt' y hy)
          cases r₁ with
          | none =>
            cases r' with
            | some _ => exact c4.elim
            | none =>
              dsimp only at c4 h2
              have hm1 : ∀ y ∈ s₁.opn, y ∈ es := fun y hy => (c3.mem y hy).resolve_right fun h => by have := c4.2 y hy; omega
              have hD : D s₁.opn = D es := c4.1.D_eq hlt1 c4.2
              obtain ⟨r'', x', d1, d2, d3⟩ := ih.cl level top s₁ x₁ ds r s' c4.1.sorted (fun y hy => hlt' y (hm1 y hy)) (by rw [hD]; exact hm) c2 h2
              exact ⟨r'', x', .runOk c1 d1, d2, d3.cons hle hD hm1⟩
          | some v =>
            cases r' with
            | none => exact c4.elim
            | some q =>
              obtain ⟨v', p⟩ := q
              dsimp only at c4
              obtain ⟨rfl, c4⟩ := c4
              cases h2
              have hle' : level ≤ top + 1 := by have := hlt e List.mem_cons_self; omega
              refine ⟨some (v, p ++ ds), x₁, .runErr c1, c2, fun y hy => ?_, rfl, c4.out hle' hm hlt1, ?_, c4.sorted⟩
              · rcases c3.mem y hy with h | h
                · exact .inl (List.mem_cons_of_mem _ h)
                · exact .inr (by omega)
              · rw [dn_congr_mono c4.low hle', low_cons hle]
    next hle =>
      cases h
      have hlow := head_low hs hle
      rw [up_nil fun y hy => hlow y (mem_D.1 hy).1] at hm
      cases hm.nil_left
      refine ⟨none, x, .runNil, hr, fun e he => .inl (hL ▸ he), ?_⟩
      dsimp only
      rw [hL]
      exact ⟨Fin.refl hs hlow, hlow⟩

theorem cc_step {k : Nat} (ih : All W F G k) : CcC W F G (k + 1) := by
  intro level top v s x ds r s' hs hm hr h
  rw [close] at h
  cases hL : s.opn with
  | nil =>
    rw [hL] at h hm
    cases h
    cases hm.nil_left
    refine ⟨x, .protNil, hr, ?_⟩
    rw [hL]
    exact ⟨Fin.refl .nil (fun e he => nomatch he), (fun e he => nomatch he), fun e he => he⟩
  | cons e es =>
    rw [hL] at h hm hs
    dsimp only at h
    have ht := sorted_tail hs
    split at h
    next hle =>
      cases hd : e.d with
      | none =>
        rw [hd] at h
        rw [D_cons_none hd] at hm
        obtain ⟨x', h1, h2, h3, h4, h5⟩ := ih.cc _ _ v { s with opn := es } x ds r s' ht.1 hm hr h
        exact ⟨x', h1, h2, h3.cons hle, h4, fun y hy => List.mem_cons_of_mem _ (h5 y hy)⟩
      | some q =>
        obtain ⟨i, f⟩ := q
        rw [hd] at h
        dsimp only at h
        rw [D_cons_some hd, up_cons_pos hle] at hm
        cases hm with
        | @cons _ d _ ds hd' hm =>
          obtain ⟨j, b⟩ := d
          obtain ⟨f', e1, hf⟩ := hd'
          rw [hd] at e1
          cases e1
          obtain ⟨⟨r₁, s₁⟩, h1, h2⟩ := Res.bind_eq_ok.1 h
          obtain ⟨x₁, c1, c2, c3⟩ := ih.pr _ _ b f _ _ r₁ s₁ hf ht.1 (fun y hy => by have := ht.2 y hy; show y.lvl < e.lvl + 2; omega) (Nat.le_succ _) (hr.see (.run j (some v)) es) h1
          obtain ⟨x', d1, d2, d3, d4, d5⟩ := ih.cc level top v s₁ x₁ ds r s' c3.sorted (by rw [c3.eq]; exact hm) c2 h2
          refine ⟨x', ?_, d2, (d3.of_D c3.eq).cons hle, d4, fun y hy => List.mem_cons_of_mem _ (c3.mem y (d5 y hy))⟩
          cases r₁ with
          | none => exact .protOk c1 d1
          | some w =>
            obtain ⟨p, x₀, g1, g2⟩ := c1
            exact .protErr g1 g2 d1
    next hle =>
      cases h
      have hlow := head_low hs hle
      rw [up_nil fun y hy => hlow y (mem_D.1 hy).1] at hm
      cases hm.nil_left
      refine ⟨x, .protNil, hr, ?_⟩
      rw [hL]
      exact ⟨Fin.refl hs hlow, hlow, fun e he => he⟩

theorem cp_step {k : Nat} (ih : All W F G k) : CpC W F G (k + 1) := by
  intro level top s x ds r s' hs hm hr h
  rw [close] at h
  cases hL : s.opn with
  | nil =>
    rw [hL] at h hm
    cases h
    cases hm.nil_left
    exact ⟨x, .wrapNil, hr⟩
  | cons e es =>
    rw [hL] at h hm hs
    dsimp only at h
    have ht := sorted_tail hs
    split at h
    next hle =>
      cases hd : e.d with
      | none =>
        rw [hd] at h
        rw [D_cons_none hd] at hm
        exact ih.cp _ _ { s with opn := es } x ds r s' ht.1 hm hr h
      | some q =>
        obtain ⟨i, f⟩ := q
        rw [hd] at h
        dsimp only at h
        rw [D_cons_some hd, up_cons_pos hle] at hm
        cases hm with
        | @cons _ d _ ds hd' hm =>
          obtain ⟨j, b⟩ := d
          obtain ⟨f', e1, hf⟩ := hd'
          rw [hd] at e1
          cases e1
          obtain ⟨⟨r₁, s₁⟩, h1, h2⟩ := Res.bind_eq_ok.1 h
          obtain ⟨x₁, c1, c2, c3⟩ := ih.pr _ _ b f _ _ r₁ s₁ hf ht.1 (fun y hy => by have := ht.2 y hy; show y.lvl < e.lvl + 2; omega) (Nat.le_succ _) (hr.see (.run j none) es) h1
          cases r₁ with
          | none =>
            obtain ⟨x', d1, d2⟩ := ih.cp level top s₁ x₁ ds r s' c3.sorted (by rw [c3.eq]; exact hm) c2 h2
            exact ⟨x', .wrapOk c1 d1, d2⟩
          | some w =>
            obtain ⟨p, x₀, g1, g2⟩ := c1
            obtain ⟨x', d1, d2, d3, d4, d5⟩ := ih.cc level top w s₁ x₁ ds r s' c3.sorted (by rw [c3.eq]; exact hm) c2 h2
            exact ⟨x', .wrapFail g1 g2 d1, d2⟩
    next hle =>
      cases h
      have hlow := head_low hs hle
      rw [up_nil fun y hy => hlow y (mem_D.1 hy).1] at hm
      cases hm.nil_left
      exact ⟨x, .wrapNil, hr⟩

theorem jm_step {k : Nat} (ih : All W F G k) : JmC W F G (k + 1) := by
  intro base n cl lv s x ds r s' hs hlt h1 h2 hm hr h
  cases cl with
  | none =>
    rw [jmp] at h
    cases h
    have hlow : ∀ e ∈ s.opn, e.lvl < lv := fun e he => Nat.lt_of_not_le fun h => by obtain ⟨l, h, _⟩ := h2 e he h; exact nomatch h
    rw [up_nil fun y hy => hlow y (mem_D.1 hy).1] at hm
    cases hm.nil_left
    exact ⟨none, x, .runNil, hr, fun e he => .inl he, Fin.refl hs hlow, hlow⟩
  | some l =>
    rw [jmp] at h
    obtain ⟨hl, hln⟩ := h1 l rfl
    have hiff : ∀ e ∈ s.opn, lv ≤ e.lvl ↔ base + l ≤ e.lvl := fun e he => ⟨fun h => by obtain ⟨_, h, h'⟩ := h2 e he h; cases h; exact h', fun h => Nat.le_trans hl h⟩
    rw [up_congr fun e he => hiff e (mem_D.1 he).1] at hm
    obtain ⟨r', x', c1, c2, c3⟩ := ih.cl _ _ s x ds r s' hs hlt hm hr h
    refine ⟨r', x', c1, c2, c3.mem, ?_⟩
    have c4 := c3.res
    have hiff' : ∀ e ∈ s'.opn, lv ≤ e.lvl ↔ base + l ≤ e.lvl := fun e he => by
      rcases c3.mem e he with h | h
      · exact hiff e h
      · omega
    cases r <;> cases r' <;> simp only at c4 ⊢
    · exact ⟨c4.1.level hiff hiff', fun e he => Nat.lt_of_not_le fun h => by have := (hiff' e he).1 h; have := c4.2 e he; omega⟩
    · exact ⟨c4.1, c4.2.level hiff hiff'⟩

/-! ## Calls -/

theorem retClose_ok {base n : Nat} {p : Bool} {L : List Ent} (hp : p = false → ∀ e ∈ L, e.lvl < base) :
    (∀ l, retClose p = some l → base ≤ base + l ∧ l ≤ n) ∧ ∀ e ∈ L, base ≤ e.lvl → ∃ l, retClose p = some l ∧ base + l ≤ e.lvl := by
  cases p with
  | true =>
    refine ⟨fun l h => ?_, fun e _ h => ⟨0, rfl, h⟩⟩
    cases h
    exact ⟨Nat.le_refl _, Nat.zero_le _⟩
  | false => exact ⟨fun l h => (nomatch h), fun e he h => absurd (hp rfl e he) (by omega)⟩

/-- Closing what is above `n` variables keeps what is below. -/
theorem CloseR.free {top top' lv : Nat} {L L' : List Ent} {r r'} (h : CloseR top lv L r r' L') (ht : top' ≤ top) : CloseR top' lv L r r' L' :=
  ⟨fun e he => (h.mem e he).imp id (Nat.le_trans ht), h.res⟩

theorem fn_step {k : Nat} (ih : All W F G k) : FnC W F G (k + 1) := by
  intro co base b f s x r s' hf hs hlt hr h
  unfold compFun at hf
  obtain ⟨c, hc, hf⟩ := Option.map_eq_some_iff.1 hf
  subst hf
  rw [fn] at h
  obtain ⟨⟨o', n', s₁⟩, h1, h2⟩ := Res.bind_eq_ok.1 h
  have hup : up base (D s.opn) = [] := up_nil fun e he => hlt e (mem_D.1 he).1
  have hok : Ok base [] (protos b) none 0 false b s.opn := ⟨hs, hlt, fun l h => (nomatch h), fun h => ⟨hlt, h⟩, fun _ => hup⟩
  obtain ⟨o, ds, xr, q1, q2⟩ := ih.ex co base [] (protos b) none 0 false b c s x [] [] o' n' s₁ hc hok hr (by rw [hup]; exact List.Forall₂.nil) (fun h => absurd rfl h) h1
  have q3 := q2.res
  cases o with
  | brk => exact absurd rfl q3.1
  | err v =>
    obtain ⟨rfl, q4, q5⟩ := q3
    cases h2
    rw [List.append_nil] at q5
    exact ⟨some (v, ds), xr, .fnErr q1, q4, q2.mem, rfl, q5⟩
  | ret =>
    obtain ⟨r', x', q4, q5, q6⟩ := q3
    rw [List.append_nil] at q4
    cases r' with
    | none =>
      obtain ⟨rfl, q6, q7⟩ := q6
      cases h2
      exact ⟨none, x', .fn (.inr rfl) q1 q4, q5, q2.mem, q6, q7⟩
    | some q =>
      obtain ⟨v, p⟩ := q
      obtain ⟨rfl, q6⟩ := q6
      cases h2
      exact ⟨some (v, p), x', .fn (.inr rfl) q1 q4, q5, q2.mem, rfl, q6⟩
  | norm =>
    obtain ⟨rfl, rfl, q4, q5, q6, q7⟩ := q3
    dsimp only at h2
    have hp : protos b = false → ∀ e ∈ s₁.opn, e.lvl < base := fun hp e he => by
      rcases q7 e he with h | ⟨m, hm, _⟩
      · exact hlt e h
      · rw [protos_marks hp] at hm
        exact nomatch hm
    obtain ⟨g1, g2⟩ := retClose_ok (n := (decl [] b).length) hp
    obtain ⟨r', x', c1, c2, c3⟩ := ih.jm base _ (retClose (protos b)) base s₁ xr ds r s' q5.sorted q6 g1 g2 q5.top q4 h2
    refine ⟨r', x', .fn (.inl rfl) q1 c1, c2, fun e he => ?_, ?_⟩
    · rcases c3.mem e he with h | h
      · exact q2.mem e h
      · exact .inr (by omega)
    · have c4 := c3.res
      cases r <;> cases r' <;> simp only at c4 ⊢
      · exact ⟨q5.rebase (Nat.le_refl _) c4.1, c4.2⟩
      · exact ⟨c4.1, q5.rebase (Nat.le_refl _) c4.2⟩

/-- The error of a call in protected mode. -/
theorem caught_err {k : Nat} (ih : All W F G k) {oldtop base w : Nat} {L : List Ent} {p : Pend} {s₁ s' : St} {x₁ : X} {r} (hlt : ∀ e ∈ L, e.lvl < oldtop) (hb : oldtop ≤ base)
    (c2 : Rel s₁ x₁) (c3 : CloseR base base L (some w) (some (w, p)) s₁.opn) (h : close W G k oldtop oldtop (.code w) s₁ = .ok (r, s')) :
    ∃ x', Sem W F (.runP w p) x₁ (.fin none) x' ∧ Rel s' x' ∧ Keep L s'.opn := by
  have c4 := c3.res.2
  have hiff : ∀ e ∈ s₁.opn, oldtop ≤ e.lvl ↔ base ≤ e.lvl := fun e he => by
    rcases c3.mem e he with h | h
    · have := hlt e h; omega
    · omega
  have c5 := c4.level (fun e he => by have := hlt e he; omega) hiff
  obtain ⟨x', d1, d2, d3, d4, d5⟩ := ih.cc oldtop oldtop w s₁ x₁ p r s' c4.sorted c5.top c2 h
  have d6 := c5.rebase (Nat.le_refl _) d3
  exact ⟨x', d1, d2, d6.sorted, d6.D_eq hlt d4, fun e he => (c3.mem e (d5 e he)).resolve_right fun h => by have := d4 e he; omega⟩

theorem caught_ok {base : Nat} {L L' : List Ent} (hlt : ∀ e ∈ L, e.lvl < base) (c3 : CloseR base base L none none L') : Keep L L' :=
  ⟨c3.res.1.sorted, c3.res.1.D_eq hlt c3.res.2, fun e he => (c3.mem e he).resolve_right fun h => by have := c3.res.2 e he; omega⟩

theorem pr_step {k : Nat} (ih : All W F G k) : PrC W F G (k + 1) := by
  intro oldtop base b f s x r s' hf hs hlt hb hr h
  rw [prot] at h
  obtain ⟨⟨r₁, s₁⟩, h1, h2⟩ := Res.bind_eq_ok.1 h
  have hlt' : ∀ e ∈ s.opn, e.lvl < base := fun e he => Nat.lt_of_lt_of_le (hlt e he) hb
  obtain ⟨r', x₁, c1, c2, c3⟩ := ih.fn _ _ b f s x r₁ s₁ hf hs hlt' hr h1
  have c4 := c3.res
  cases r₁ with
  | none =>
    cases r' with
    | some _ => exact c4.elim
    | none =>
      cases h2
      exact ⟨x₁, c1, c2, caught_ok hlt' c3⟩
  | some w =>
    cases r' with
    | none => exact c4.elim
    | some q =>
      obtain ⟨w', p⟩ := q
      obtain ⟨rfl, _⟩ := c4
      dsimp only at h2
      obtain ⟨⟨r₂, s₂⟩, h3, h4⟩ := Res.bind_eq_ok.1 h2
      cases h4
      obtain ⟨x', d1, d2, d3⟩ := caught_err ih hlt hb c2 c3 h3
      exact ⟨x', ⟨p, x₁, c1, d1⟩, d2, d3⟩

theorem re_step {k : Nat} (hG : ∀ f, compFun (F f) = some (G f)) (ih : All W F G k) : ReC W F G (k + 1) := by
  intro oldtop f n s x o' n' s' hs hlt hr h
  rw [recover] at h
  obtain ⟨⟨r₁, s₁⟩, h1, h2⟩ := Res.bind_eq_ok.1 h
  have hlt' : ∀ e ∈ s.opn, e.lvl < oldtop + 1 := fun e he => Nat.lt_succ_of_lt (hlt e he)
  obtain ⟨r', x₁, c1, c2, c3⟩ := ih.fn _ _ (F f) (G f) s x r₁ s₁ (hG f) hs hlt' hr h1
  have c4 := c3.res
  cases r₁ with
  | none =>
    cases r' with
    | some _ => exact c4.elim
    | none =>
      cases h2
      exact ⟨rfl, rfl, x₁, .pcall c1, c2, caught_ok hlt' c3⟩
  | some w =>
    cases r' with
    | none => exact c4.elim
    | some q =>
      obtain ⟨w', p⟩ := q
      obtain ⟨rfl, _⟩ := c4
      dsimp only at h2
      obtain ⟨⟨r₂, s₂⟩, h3, h4⟩ := Res.bind_eq_ok.1 h2
      dsimp only at h4
      split at h4
      · cases h4
        obtain ⟨x', d1, d2, d3⟩ := caught_err ih hlt (Nat.le_succ _) c2 c3 h3
        exact ⟨rfl, rfl, x'.see (.caught w), .pcallErr c1 d1, d2.see _ _, d3⟩
      · exact nomatch h4

/-! ## Blocks -/

theorem ups_false {vs : List Bool} {b : S} (h : ups vs b = false) : ∀ m ∈ marks vs b, m < vs.length := fun m hm =>
  Nat.lt_of_not_le fun h' => by
    unfold ups at h
    rw [List.any_eq_false] at h
    exact h m hm (by simpa using h')

theorem leave_ok {base : Nat} {vs : List Bool} {b : S} {L : List Ent} {n' : Nat} (hn : vs.length ≤ n') (hL : ∀ e ∈ L, e.lvl < base + vs.length ∨ ∃ m ∈ marks vs b, e.lvl = base + m) :
    (∀ l, leave vs b = some l → base + vs.length ≤ base + l ∧ l ≤ n') ∧ ∀ e ∈ L, base + vs.length ≤ e.lvl → ∃ l, leave vs b = some l ∧ base + l ≤ e.lvl := by
  unfold leave
  cases hu : ups vs b with
  | true =>
    refine ⟨fun l h => ?_, fun e _ h => ⟨vs.length, rfl, h⟩⟩
    cases h
    exact ⟨Nat.le_refl _, hn⟩
  | false =>
    refine ⟨fun l h => (nomatch h), fun e he h => ?_⟩
    rcases hL e he with h' | ⟨m, hm, h'⟩
    · omega
    · have := ups_false hu m hm; omega

/-- The end of a block. -/
theorem block_end {k : Nat} (ih : All W F G k) {base : Nat} {vs : List Bool} {b : S} {L : List Ent} {ds : Pend} {s₁ s' : St} {x₁ : X} {r n'} (hlt : ∀ e ∈ L, e.lvl < base + vs.length)
    (hn : vs.length ≤ n') (q4 : Rel s₁ x₁) (q5 : Fin (base + vs.length) L ds s₁.opn) (q6 : ∀ e ∈ s₁.opn, e.lvl < base + n') (q7 : ∀ e ∈ s₁.opn, e ∈ L ∨ ∃ m ∈ marks vs b, e.lvl = base + m)
    (h : jmp W G k base n' (leave vs b) s₁ = .ok (r, s')) :
    ∃ r' x', Sem W F (.runN ds) x₁ (.fin r') x' ∧ Rel s' x' ∧ (∀ e ∈ s'.opn, e ∈ L ∨ base ≤ e.lvl) ∧
      match r, r' with
      | none, none => Fin (base + vs.length) L [] s'.opn ∧ (∀ e ∈ s'.opn, e.lvl < base + vs.length) ∧ ∀ e ∈ s'.opn, e ∈ L ∨ ∃ m ∈ (marks vs b).filter (· < vs.length), e.lvl = base + m
      | some v, some (v', p) => v = v' ∧ Fin (base + vs.length) L p s'.opn
      | _, _ => False := by
  obtain ⟨g1, g2⟩ := leave_ok (base := base) (L := s₁.opn) hn fun e he => (q7 e he).imp (hlt e) id
  obtain ⟨r', x', c1, c2, c3⟩ := ih.jm base n' (leave vs b) (base + vs.length) s₁ x₁ ds r s' q5.sorted q6 g1 g2 q5.top q4 h
  refine ⟨r', x', c1, c2, fun e he => ?_, ?_⟩
  · rcases c3.mem e he with h | h
    · exact (q7 e h).imp id fun ⟨m, _, h⟩ => by omega
    · exact .inr (by omega)
  · have c4 := c3.res
    cases r <;> cases r' <;> simp only at c4 ⊢
    · refine ⟨q5.rebase (Nat.le_refl _) c4.1, c4.2, fun e he => ?_⟩
      have hl := c4.2 e he
      rcases c3.mem e he with h | h
      · rcases q7 e h with h | ⟨m, hm, h⟩
        · exact .inl h
        · exact .inr ⟨m, List.mem_filter.2 ⟨hm, by simp only [decide_eq_true_eq]; omega⟩, h⟩
      · omega
    · exact ⟨c4.1, q5.rebase (Nat.le_refl _) c4.2⟩

theorem sc_step {k : Nat} (ih : All W F G k) : ScC W F G (k + 1) := by
  intro co base vs p bl nl t a c s x outF outL o' n' s' hc hok hr hF hLp h
  rw [scope] at h
  obtain ⟨⟨o₁, n₁, s₁⟩, h1, h2⟩ := Res.bind_eq_ok.1 h
  obtain ⟨o, ds, xr, q1, q2⟩ := ih.ex co base vs p bl nl t a c s x outF outL o₁ n₁ s₁ hc hok hr hF hLp h1
  have q3 := q2.res
  cases o with
  | err v =>
    obtain ⟨rfl, q4, q5⟩ := q3
    cases h2
    exact ⟨rfl, .err v, ds, xr, .blockStop (fun h => nomatch h) q1, q2.mem, rfl, q4, q5⟩
  | ret =>
    obtain ⟨r', x', q4, q5, q6⟩ := q3
    cases r' with
    | none =>
      obtain ⟨rfl, q6, q7⟩ := q6
      cases h2
      exact ⟨rfl, .ret, ds, xr, .blockStop (fun h => nomatch h) q1, q2.mem, none, x', q4, q5, rfl, q6, q7⟩
    | some q =>
      obtain ⟨v, p⟩ := q
      obtain ⟨rfl, q6⟩ := q6
      cases h2
      exact ⟨rfl, .ret, ds, xr, .blockStop (fun h => nomatch h) q1, q2.mem, some (v, p), x', q4, q5, rfl, q6⟩
  | brk =>
    obtain ⟨hbl, r', x', q4, q5, q6⟩ := q3
    cases r' with
    | none =>
      obtain ⟨rfl, q6, q7, q8⟩ := q6
      cases h2
      refine ⟨rfl, .brk, ds, xr, .blockStop (fun h => nomatch h) q1, q2.mem, hbl, none, x', q4, q5, rfl, q6, q7, fun e he => ?_⟩
      obtain ⟨l, hl⟩ := Option.ne_none_iff_exists'.1 hbl
      have hnl := (hok.blk l hl).2.2.2
      rcases q8 e he with h | ⟨m, hm, h⟩
      · exact .inl h
      · have := q7 e he
        exact .inr ⟨m, List.mem_filter.2 ⟨hm, by simp only [decide_eq_true_eq]; omega⟩, h⟩
    | some q =>
      obtain ⟨v, p⟩ := q
      obtain ⟨rfl, q6⟩ := q6
      cases h2
      exact ⟨rfl, .brk, ds, xr, .blockStop (fun h => nomatch h) q1, q2.mem, hbl, some (v, p), x', q4, q5, rfl, q6⟩
  | norm =>
    obtain ⟨rfl, rfl, q4, q5, q6, q7⟩ := q3
    dsimp only at h2
    obtain ⟨⟨r, s₂⟩, h3, h4⟩ := Res.bind_eq_ok.1 h2
    obtain ⟨r', x', c1, c2, c3, c4⟩ := block_end ih hok.lt (decl_len vs a) q4 q5 q6 q7 h3
    have hb := Sem.block q1 c1
    cases r with
    | none =>
      cases r' with
      | some _ => exact c4.elim
      | none =>
        cases h4
        exact ⟨rfl, .norm, [], x', hb, c3, rfl, rfl, c2, c4.1, c4.2.1, c4.2.2⟩
    | some v =>
      cases r' with
      | none => exact c4.elim
      | some q =>
        obtain ⟨v', p⟩ := q
        obtain ⟨rfl, c4⟩ := c4
        cases h4
        exact ⟨rfl, .err v, p, x', hb, c3, rfl, c2, c4.down (Nat.le_add_right _ _) hF hok.lt⟩

end Verif.Defer
