import Verif.Cons.Arr
/-!
C84, C85: what table constructors build.
-/
namespace Verif.Cons
variable {V X W : Type}

/-- C84: the code of a constructor evaluates the fields from left to right, with their errors; if there is none, the new
table has the values of the items (with all values of the last one, if it is a call or `...`) at the integers from 1 on, and
otherwise the record fields, the last one if there are several with the same key.  Only for a record field whose key is the
place of an item, it can be either.  `1000000` is `LUAI_MAXSTACK`. -/
theorem constructor_correct [DecidableEq V] (P : World V X W)
    (inj : ∀ i j, i < 2 ^ 32 → j < 2 ^ 32 → P.idx i = P.idx j → i = j)
    (lim : ∀ x w vs w', P.evm x w = .ok (vs, w') → vs.length ≤ 1000000) (t : Nat) (multi : Bool) (fs : List (Field X))
    (code : List (Instr X)) (h : constructor t fs multi = .ok code) (s : St V W) (hT : s.T = fun _ => P.nil) :
    match values P multi fs s.w with
    | .ok ((vs, rs), w) => ∃ s', run P code s = .ok s' ∧ s'.w = w ∧ Content P s'.T vs rs
    | .err e => run P code s = .err e
    | .ub => run P code s = .ub := by
  have := constructor_spec (P := P) inj lim h s hT
  revert this
  cases values P multi fs s.w with
  | err e => exact id
  | ub => exact id
  | ok r =>
    rintro ⟨s', h1, h2, h3⟩
    exact ⟨s', h1, h2, by simpa using h3.1⟩

/-- C84: if no record field has the place of an item as its key, the table is exactly this one -/
theorem constructor_exact [DecidableEq V] (P : World V X W)
    (inj : ∀ i j, i < 2 ^ 32 → j < 2 ^ 32 → P.idx i = P.idx j → i = j)
    (lim : ∀ x w vs w', P.evm x w = .ok (vs, w') → vs.length ≤ 1000000) (t : Nat) (multi : Bool) (fs : List (Field X))
    (code : List (Instr X)) (h : constructor t fs multi = .ok code) (s : St V W) (hT : s.T = fun _ => P.nil)
    (vs : List V) (rs : List (V × V)) (w : W) (hv : values P multi fs s.w = .ok ((vs, rs), w))
    (hd : ∀ i, i < vs.length → P.idx (i + 1) ∉ rs.map (·.1)) :
    ∃ s', run P code s = .ok s' ∧ s'.w = w ∧ (∀ i v, vs[i]? = some v → s'.T (P.idx (i + 1)) = v) ∧
      ∀ k, (∀ i, i < vs.length → k ≠ P.idx (i + 1)) → s'.T k = lastOf P.nil rs k := by
  have hc := constructor_correct P inj lim t multi fs code h s hT
  have hf := constructor_spec (P := P) inj lim h s hT
  rw [hv] at hc hf
  obtain ⟨s', h1, h2, h3⟩ := hc
  refine ⟨s', h1, h2, ?_, ?_⟩
  · intro i v hi
    obtain ⟨s'', g1, _, _, hb, _⟩ := hf
    simp only [List.nil_append] at hb
    have hlt : i < vs.length := by
      rcases Nat.lt_or_ge i vs.length with h | h
      · exact h
      · rw [List.getElem?_eq_none h] at hi; cases hi
    rcases h3 (P.idx (i + 1)) with ⟨j, u, e1, e2, e3⟩ | ⟨e1, e2⟩
    · have hjlt : j < vs.length := by
        rcases Nat.lt_or_ge j vs.length with h | h
        · exact h
        · rw [List.getElem?_eq_none h] at e1; cases e1
      have : i + 1 = j + 1 := inj _ _ (by omega) (by omega) e2
      have : i = j := by omega
      subst this
      rw [hi] at e1; cases e1; exact e3
    · rcases e2 with e2 | e2
      · exact absurd e2 (hd i hlt)
      · exact absurd rfl (e2 i hlt)
  · intro k hk
    rcases h3 k with ⟨j, u, e1, e2, e3⟩ | ⟨e1, _⟩
    · have hjlt : j < vs.length := by
        rcases Nat.lt_or_ge j vs.length with h | h
        · exact h
        · rw [List.getElem?_eq_none h] at e1; cases e1
      exact absurd e2 (hk j hjlt)
    · exact e1

/-- C84: with fewer than 50 items, they win over record fields with the same keys, wherever these are -/
theorem constructor_items_win [DecidableEq V] (P : World V X W)
    (inj : ∀ i j, i < 2 ^ 32 → j < 2 ^ 32 → P.idx i = P.idx j → i = j)
    (lim : ∀ x w vs w', P.evm x w = .ok (vs, w') → vs.length ≤ 1000000) (t : Nat) (multi : Bool) (fs : List (Field X))
    (code : List (Instr X)) (h : constructor t fs multi = .ok code) (s : St V W) (hT : s.T = fun _ => P.nil)
    (vs : List V) (rs : List (V × V)) (w : W) (hv : values P multi fs s.w = .ok ((vs, rs), w)) (hn : items fs < 50) :
    ∃ s', run P code s = .ok s' ∧ ∀ i v, vs[i]? = some v → s'.T (P.idx (i + 1)) = v := by
  have hf := constructor_spec (P := P) inj lim h s hT
  rw [hv] at hf
  obtain ⟨s', h1, _, _, _, fl, h2, h3, h4⟩ := hf
  obtain ⟨q, rfl⟩ := h2
  have : q = 0 := by omega
  subst this
  exact ⟨s', h1, fun i v hi => h4 i v (by omega) (by simpa using hi)⟩

/-- C84: a constructor compiles if it has at most 838860750 items -/
theorem constructor_compiles (t : Nat) (multi : Bool) (fs : List (Field X)) (h : items fs ≤ 838860750) :
    ∃ code, constructor t fs multi = .ok code := by
  have sl : ∀ (cc : CC X) (n : Nat) (b : Option Nat), n ≤ 838860750 → ∃ c', setlist cc t n b = .ok c' ∧ c'.na = cc.na := by
    intro cc n b hn
    unfold setlist
    dsimp only
    split
    · exact ⟨_, rfl, rfl⟩
    · split
      · exact ⟨_, rfl, rfl⟩
      · simp only [flush, maxC, maxAx] at *; omega
  have fl : ∀ (fs : List (Field X)) (cc : CC X), cc.na + items fs ≤ 838860750 →
      ∃ c', fields t fs cc = .ok c' ∧ c'.na ≤ 838860750 := by
    intro fs
    induction fs with
    | nil => intro cc hc; exact ⟨cc, rfl, by simpa [items] using hc⟩
    | cons f fs ih =>
      intro cc hc
      have hle : cc.na ≤ 838860750 := by omega
      obtain ⟨ca, ha, hna⟩ : ∃ ca, closelistfield t cc = .ok ca ∧ ca.na = cc.na := by
        unfold closelistfield
        split
        · exact ⟨_, rfl, rfl⟩
        · dsimp only
          split
          · obtain ⟨c', h1, h2⟩ := sl
              { cc with code := cc.code ++ [.load cc.freereg _], freereg := cc.freereg + 1, v := none } cc.na
              (some cc.tostore) hle
            rw [h1]
            exact ⟨_, rfl, h2⟩
          · exact ⟨_, rfl, rfl⟩
      simp only [fields, ha, Res.bind_ok]
      apply ih
      cases f with
      | item x => simp [field, items] at hc ⊢; omega
      | pair k v => simp [field, items] at hc ⊢; omega
  obtain ⟨c1, h1, hn⟩ := fl fs { code := [], freereg := t + 1, v := none, na := 0, tostore := 0 } (by simpa using h)
  simp only [constructor, h1, Res.bind_ok]
  unfold lastlistfield
  split
  · exact ⟨_, rfl⟩
  · split
    · obtain ⟨c', h2, _⟩ := sl { c1 with code := c1.code ++ [.loadm c1.freereg _] } c1.na none hn
      rw [h2]; exact ⟨_, rfl⟩
    · obtain ⟨c', h2, _⟩ := sl
        { c1 with code := c1.code ++ [.load c1.freereg _], freereg := c1.freereg + 1 } c1.na (some c1.tostore) hn
      rw [h2]; exact ⟨_, rfl⟩
    · obtain ⟨c', h2, _⟩ := sl c1 c1.na (some c1.tostore) hn
      rw [h2]; exact ⟨_, rfl⟩

/-- the operands of an instruction fit their fields: 8 bits for B and C, 24 for the argument of `OP_EXTRAARG` (lopcodes.h 38-56) -/
def Fits : Instr X → Prop
  | .setlist _ b c ext => b < 2 ^ 8 ∧ c < 2 ^ 8 ∧ ∀ e, ext = some e → e < 2 ^ 24
  | _ => True

/-- C84: however many items a constructor has, no operand of the code for it is too large for its field of the instruction -/
theorem constructor_fits (t : Nat) (multi : Bool) (fs : List (Field X)) (code : List (Instr X))
    (h : constructor t fs multi = .ok code) : ∀ i ∈ code, Fits i := by
  have sl : ∀ (cc c' : CC X) (n : Nat) (b : Option Nat), (∀ i ∈ cc.code, Fits i) → b.getD 0 ≤ 50 → setlist cc t n b = .ok c' →
      (∀ i ∈ c'.code, Fits i) ∧ c'.v = cc.v := by
    intro cc c' n b hc hb hs
    unfold setlist at hs
    dsimp only at hs
    split at hs
    · rename_i hle
      cases hs
      refine ⟨fun i hi => ?_, rfl⟩
      rcases List.mem_append.1 hi with hi | hi
      · exact hc i hi
      · rw [List.mem_singleton.1 hi]
        exact ⟨by omega, by simp only [maxC] at hle; omega, fun e he => nomatch he⟩
    · split at hs
      · rename_i hle
        cases hs
        refine ⟨fun i hi => ?_, rfl⟩
        rcases List.mem_append.1 hi with hi | hi
        · exact hc i hi
        · rw [List.mem_singleton.1 hi]
          exact ⟨by omega, by omega, fun e he => by cases he; simp only [maxAx] at hle; omega⟩
      · cases hs
  have add : ∀ (l : List (Instr X)) (i : Instr X), (∀ i ∈ l, Fits i) → Fits i → ∀ j ∈ l ++ [i], Fits j := by
    intro l i hl hi j hj
    rcases List.mem_append.1 hj with hj | hj
    · exact hl j hj
    · rw [List.mem_singleton.1 hj]; exact hi
  have fl : ∀ (fs : List (Field X)) (cc c' : CC X), (∀ i ∈ cc.code, Fits i) → cc.tostore ≤ 50 → (cc.v = none → cc.tostore < 50) →
      fields t fs cc = .ok c' → (∀ i ∈ c'.code, Fits i) ∧ c'.tostore ≤ 50 := by
    intro fs
    induction fs with
    | nil => intro cc c' h1 h2 h3 h4; cases h4; exact ⟨h1, h2⟩
    | cons f fs ih =>
      intro cc c' h1 h2 h3 h4
      simp only [fields, Res.bind_eq_ok] at h4
      obtain ⟨ca, ha, h4⟩ := h4
      have hca : (∀ i ∈ ca.code, Fits i) ∧ ca.tostore < 50 ∧ ca.v = none := by
        unfold closelistfield at ha
        split at ha
        · rename_i hv
          cases ha
          exact ⟨h1, h3 hv, hv⟩
        · dsimp only at ha
          split at ha
          · rename_i hv
            simp only [Res.bind_eq_ok] at ha
            obtain ⟨cb, hb, ha⟩ := ha
            cases ha
            have := sl _ cb _ _ (add _ _ h1 (by trivial)) (by simpa using h2) hb
            exact ⟨this.1, by dsimp only; omega, this.2⟩
          · rename_i hv
            cases ha
            exact ⟨add _ _ h1 (by trivial), by simp only [flush] at hv; dsimp only; omega, rfl⟩
      cases f with
      | item x =>
        refine ih (field t ca (.item x)) _ hca.1 ?_ ?_ h4
        · simp only [field]; omega
        · intro e; simp [field] at e
      | pair k v =>
        refine ih (field t ca (.pair k v)) _ (add _ _ hca.1 (by trivial)) ?_ (fun _ => hca.2.1) h4
        simp only [field]; omega
  simp only [constructor, Res.bind_eq_ok] at h
  obtain ⟨c1, h1, c2, h2, h3⟩ := h
  cases h3
  obtain ⟨f1, f2⟩ := fl fs _ c1 (by simp) (by simp) (by simp) h1
  unfold lastlistfield at h2
  split at h2
  · cases h2; exact f1
  · split at h2
    · exact (sl _ c2 _ _ (add _ _ f1 (by trivial)) (by simp) h2).1
    · exact (sl _ c2 _ _ (add _ _ f1 (by trivial)) (by simpa using f2) h2).1
    · exact (sl _ c2 _ _ f1 (by simpa using f2) h2).1

/-- 12751 items need the first `OP_EXTRAARG` -/
example : setlist (X := Nat) { code := [], freereg := 1, v := none, na := 12751, tostore := 1 } 0 12751 (some 1) =
    .ok { code := [.setlist 0 1 0 (some 256)], freereg := 1, v := none, na := 12751, tostore := 1 } := rfl

/-- C85: the constructor of a typed array with at most 50 items, the last of which may be a call or `...` with any number of
values, builds the array of their values, converted, in order.

Missing: more items.  Then the claim is false (`array_constructor_over_50`).  Record fields. -/
theorem array_constructor_partial (P : World V X W) (conv : V → Res V)
    (lim : ∀ x w vs w', P.evm x w = .ok (vs, w') → vs.length ≤ 1000000) (t : Nat) (multi : Bool) (xs : List X)
    (hx : xs.length ≤ 50) (code : List (Instr X)) (h : constructor t (xs.map .item) multi = .ok code) (s : StA V W)
    (hA : s.A = []) :
    match values P multi (xs.map .item) s.w with
    | .ok ((vs, _), w) =>
      (match convAll conv vs with
      | .ok A => ∃ s', runA P conv code s = .ok s' ∧ s'.w = w ∧ s'.A = A
      | .err e => runA P conv code s = .err e
      | .ub => runA P conv code s = .ub)
    | .err e => runA P conv code s = .err e
    | .ub => runA P conv code s = .ub := by
  cases xs with
  | nil => cases h; exact ⟨s, rfl, rfl, hA⟩
  | cons x ys =>
    simp only [List.length_cons] at hx
    rw [code_short t x ys (by omega)] at h
    cases multi with
    | false =>
      simp only [Bool.false_eq_true, if_false] at h
      injection h with h
      subst h
      rw [values_false]
      have hl := runA_loads P conv (x :: ys) (t + 1) s
      rw [runA_append]
      cases he : evs P (x :: ys) s.w with
      | err e => rw [he] at hl; simp only at hl; simp [hl]
      | ub => rw [he] at hl; simp only at hl; simp [hl]
      | ok r =>
        obtain ⟨vs, w⟩ := r
        rw [he] at hl
        obtain ⟨k0, R', k1, k2, k3, k4⟩ := hl
        simp only [List.length_cons] at k0
        rw [k1]
        simp only [Res.bind_ok, runA]
        rw [execA_setlist P conv _ t _ 1 vs (by simp [listN, k0]) (by omega) (by simp [hA]) (by omega)
          (fun j v hj => by simp only [hA, List.length_nil, Nat.add_zero]; exact k3 j v hj)]
        cases convAll conv vs with
        | err e => rfl
        | ub => rfl
        | ok A => exact ⟨_, rfl, rfl, by simp [hA]⟩
    | true =>
      simp only [if_true] at h
      injection h with h
      subst h
      rw [values_true]
      have hl := runA_loads P conv (x :: ys).dropLast (t + 1) s
      rw [runA_append]
      cases he : evs P (x :: ys).dropLast s.w with
      | err e => rw [he] at hl; simp only at hl; simp [hl]
      | ub => rw [he] at hl; simp only at hl; simp [hl]
      | ok r =>
        obtain ⟨vs, w⟩ := r
        rw [he] at hl
        obtain ⟨k0, R', k1, k2, k3, k4⟩ := hl
        simp only [List.length_dropLast, List.length_cons, Nat.add_sub_cancel] at k0
        rw [k1]
        simp only [Res.bind_ok, runA, Instr.execA.eq_2]
        cases hm : P.evm ((x :: ys).getLast (by simp)) w with
        | err e => simp
        | ub => simp
        | ok q =>
          obtain ⟨us, w'⟩ := q
          have hus := lim _ _ _ _ hm
          simp only [Res.bind_ok, Res.pure_eq]
          rw [execA_setlist P conv _ t _ 1 (vs ++ us) (by simp [listN]; omega) (by omega) (by simp [hA]) (by simp; omega)
            (fun j v hj => by
              simp only [hA, List.length_nil, Nat.add_zero]
              by_cases hjl : j < vs.length
              · rw [List.getElem?_append_left hjl] at hj
                rw [if_pos (by omega)]
                exact k3 j v hj
              · rw [List.getElem?_append_right (by omega)] at hj
                rw [if_neg (by omega), show t + 1 + j - (t + 1 + ys.length) = j - vs.length by omega,
                  List.getD_eq_getElem?_getD, hj]
                rfl)]
          cases convAll conv (vs ++ us) with
          | err e => rfl
          | ub => rfl
          | ok A => exact ⟨_, rfl, rfl, by simp [hA]⟩

/-- C85 fails: with 51 to 100 items, the elements from the 51st on are not the values of the items.  They are what other
code has left in the registers above those of the constructor. -/
theorem array_constructor_over_50 (P : World V X W) (c : V → V) (t : Nat) (xs : List X) (hx : 50 < xs.length)
    (hx' : xs.length ≤ 100) (code : List (Instr X)) (h : constructor t (xs.map .item) false = .ok code) (s : StA V W)
    (hA : s.A = []) (vs : List V) (rs : List (V × V)) (w : W) (hv : values P false (xs.map .item) s.w = .ok ((vs, rs), w)) :
    ∃ s', runA P (fun v => .ok (c v)) code s = .ok s' ∧ s'.w = w ∧
      s'.A = (vs.take 50).map c ++ (List.range (xs.length - 50)).map fun j => c (P.junk (t + 51 + j) w) := by
  have conv : ∀ l : List V, convAll (fun v => .ok (c v)) l = .ok (l.map c) := by
    intro l
    induction l with
    | nil => rfl
    | cons a l ih => simp [convAll, ih]
  obtain ⟨x, as, y, bs, rfl, ha⟩ : ∃ x as y bs, xs = x :: as ++ y :: bs ∧ as.length = 49 := by
    have e := (List.take_append_drop 50 xs).symm
    have l1 : (xs.take 50).length = 50 := by rw [List.length_take]; omega
    have l2 : 0 < (xs.drop 50).length := by rw [List.length_drop]; omega
    cases h1 : xs.take 50 with
    | nil => rw [h1] at l1; simp at l1
    | cons x as =>
      cases h2 : xs.drop 50 with
      | nil => rw [h2] at l2; simp at l2
      | cons y bs => rw [h1, h2] at e; rw [h1] at l1; exact ⟨x, as, y, bs, e, by simpa using l1⟩
  have hb : bs.length < 50 := by simp at hx'; omega
  rw [code_long t x as y bs ha hb] at h
  injection h with h
  subst h
  rw [values_false] at hv
  obtain ⟨⟨vs', w'⟩, he, hq⟩ := Res.bind_eq_ok.1 hv
  cases hq
  have split : ∀ (l l' : List X) (w : W), evs P (l ++ l') w =
      (evs P l w >>= fun p => evs P l' p.2 >>= fun q => .ok (p.1 ++ q.1, q.2)) := by
    intro l l'
    induction l with
    | nil => intro w; simp only [List.nil_append, evs, Res.bind_ok]; cases evs P l' w <;> rfl
    | cons a l ih =>
      intro w
      simp only [List.cons_append, evs]
      cases P.ev a w with
      | err e => rfl
      | ub => rfl
      | ok p =>
        simp only [Res.bind_ok, ih]
        cases evs P l p.2 with
        | err e => rfl
        | ub => rfl
        | ok q =>
          simp only [Res.bind_ok, Res.pure_eq]
          cases evs P l' q.2 <;> rfl
  rw [split] at he
  obtain ⟨⟨us, w1⟩, he1, he⟩ := Res.bind_eq_ok.1 he
  obtain ⟨⟨us', w2⟩, he2, he⟩ := Res.bind_eq_ok.1 he
  cases he
  dsimp only at he2 ⊢
  have g1 := runA_loads P (fun v => .ok (c v)) (x :: as) (t + 1) s
  rw [he1] at g1
  obtain ⟨m0, R1, m1, m2, m3, m4⟩ := g1
  simp only [List.length_cons, ha] at m0
  have s1 := execA_setlist P (fun v => .ok (c v)) { s with R := R1, w := w1 } t 50 1 us (by simp [listN, m0]) (by omega)
    (by simp [hA]) (by omega) (fun j v hj => by simp only [hA, List.length_nil, Nat.add_zero]; exact m3 j v hj)
  rw [conv] at s1
  simp only [Res.bind_ok] at s1
  rw [show s.A ++ us.map c = us.map c by rw [hA, List.nil_append]] at s1
  have g2 := runA_loads P (fun v => .ok (c v)) (y :: bs) (t + 1) { s with R := R1, w := w1, A := us.map c }
  simp only [he2] at g2
  obtain ⟨n0, R2, n1, n2, n3, n4⟩ := g2
  simp only [List.length_cons] at n0 n4
  have s2 := execA_setlist P (fun v => .ok (c v)) { s with R := R2, w := w2, A := us.map c } t (bs.length + 1) 2
    ((List.range (bs.length + 1)).map fun j => P.junk (t + 51 + j) w2) (by simp [listN]) (by omega) (by simp [m0]) (by simp; omega)
    (fun j v hj => by
      simp only [List.length_map, m0]
      rw [n4 (by simp) _ (by omega)]
      have : j < bs.length + 1 := by
        rcases Nat.lt_or_ge j (bs.length + 1) with h | h
        · exact h
        · rw [List.getElem?_eq_none (by simpa using h)] at hj; cases hj
      simp [this] at hj
      rw [← hj])
  rw [conv] at s2
  simp only [Res.bind_ok] at s2
  refine ⟨{ s with
    R := R2, w := w2, A := us.map c ++ ((List.range (bs.length + 1)).map fun j => P.junk (t + 51 + j) w2).map c }, ?_, rfl, ?_⟩
  · rw [runA_append, runA_append, runA_append, m1]
    simp only [Res.bind_ok, runA, s1, n1, s2]
  · have e : (x :: as ++ y :: bs).length - 50 = bs.length + 1 := by simp; omega
    rw [e]
    rw [List.take_append_of_le_length (by omega), List.take_of_length_le (by omega), List.map_map]
    rfl

/-! ### examples -/

/-- integers and strings of one letter are numbers: `idx n = n`, names are 1000 and above -/
def exWorld : World Nat Nat (List Nat) where
  nil := 0
  idx n := n
  key k := if k = 0 then .err "index is nil" else .ok k
  ev x w := if x = 666 then .err "attempt to call a nil value" else .ok (x, x :: w)
  evm x w := if x = 666 then .err "attempt to call a nil value" else .ok ([x, x + 1, x + 2], x :: w)
  junk i _ := 777000 + i

def exState : St Nat (List Nat) := { R := fun _ => 5, top := 0, T := fun _ => 0, w := [] }
def exStateA : StA Nat (List Nat) := { R := fun _ => 5, top := 0, A := [], w := [] }

/-- `{10, a = 11, 20, f()}` -/
def exFields : List (Field Nat) := [.item 10, .pair 1000 11, .item 20, .item 30]

theorem exWorld_inj : ∀ i j, i < 2 ^ 32 → j < 2 ^ 32 → exWorld.idx i = exWorld.idx j → i = j := fun _ _ _ _ h => h
theorem exWorld_lim : ∀ x w vs w', exWorld.evm x w = .ok (vs, w') → vs.length ≤ 1000000 := by
  intro x w vs w' h
  simp only [exWorld] at h
  split at h
  · cases h
  · cases h; simp

-- the hypotheses of `constructor_correct`, `constructor_exact` and `constructor_items_win`
example : ∃ code, constructor 3 exFields true = .ok code ∧
    values exWorld true exFields exState.w = .ok (([10, 20, 30, 31, 32], [(1000, 11)]), [30, 20, 11, 1000, 10]) ∧
    items exFields < 50 := ⟨_, rfl, rfl, by decide⟩
/-- what the code builds: the elements at 1 … n of a table -/
def exTable (n : Nat) (fs : List (Field Nat)) (multi : Bool) : Res (List Nat) := do
  let code ← constructor 3 fs multi
  let s ← run exWorld code exState
  return (List.range n).map fun i => s.T (i + 1)

/-- what the code builds, for arrays -/
def exArray (xs : List Nat) (multi : Bool) : Res (List Nat) := do
  let code ← constructor 3 (xs.map .item) multi
  let s ← runA exWorld .ok code exStateA
  return s.A

-- 120 items
example : exTable 121 ((List.range 120).map fun i => .item (i + 1)) false = .ok ((List.range 120).map (· + 1) ++ [0]) := by
  decide +kernel
-- an error in a field
example : exTable 2 [.item 1, .item 666] false = .err "attempt to call a nil value" := rfl
-- a record field with the place of an item: the item wins, unless there are 50 items before
example : exTable 2 [.item 10, .item 20, .pair 1 99] false = .ok [10, 20] := by decide +kernel
example : exTable 2 ((List.range 50).map (fun i => .item (i + 1)) ++ [.pair 1 99]) false = .ok [99, 2] := by decide +kernel
-- the hypotheses of `constructor_compiles`
example : items exFields ≤ 838860750 := by decide
-- the hypotheses of `array_constructor_partial`
example : exArray [7, 8, 9] true = .ok [7, 8, 9, 10, 11] := by decide +kernel
-- those of `array_constructor_over_50`
example : exArray (List.range 52) false = .ok (List.range 50 ++ [777054, 777055]) := by decide +kernel

end Verif.Cons
