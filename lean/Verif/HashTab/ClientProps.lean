import Verif.HashTab.Clients
import Verif.HashTab.Props
/-!
C70: the compiler's strings are interned.  C71: the constant table of a function.
-/
namespace Verif.HashTab

open Verif.Float (Dbl)

/-! ### strings -/

theorem stringEqual_iff (a b : SO) : stringEqual a b = true ↔ a.str = b.str ∧ a.hash = b.hash := by
  unfold stringEqual
  by_cases h : a.str = b.str
  · by_cases h' : a.hash = b.hash <;> simp [h, h']
  · split
    · simp [h]
    · simp [h]

theorem string_keys : KeyOK stringEqual stringHash := by
  refine ⟨?_, ?_, ?_⟩
  · intro a b h; rw [stringEqual_iff] at *; exact ⟨h.1.symm, h.2.symm⟩
  · intro a b c h h'; rw [stringEqual_iff] at *; exact ⟨h.1.trans h'.1, h.2.trans h'.2⟩
  · intro a b h; rw [stringEqual_iff] at h; exact h.2

/-- invariant of the string table -/
structure SInv (s : Strings) : Prop where
  inv : Inv stringEqual stringHash s.set
  hash : ∀ x ∈ items s.set, x.1.hash = fnv x.1.str ∧ x.1.id < s.next ∧
    x.1.reserved = reservedOf x.1.str
  ids : ∀ x ∈ items s.set, ∀ y ∈ items s.set, x.1.id = y.1.id → x = y

theorem createString_ok {s : Strings} (hs : SInv s) (hlt : (items s.set).length < 2 ^ 30)
    (input : List UInt8) : ∃ p s', createString s input = .ok (p, s') ∧ SInv s' ∧ p.str = input ∧
      (p, ()) ∈ items s'.set ∧ (∀ x ∈ items s.set, x ∈ items s'.set) ∧
      (items s'.set).length ≤ (items s.set).length + 1 := by
  unfold createString
  dsimp only
  obtain ⟨r, hr, hp⟩ := search_spec hs.inv (fnv input)
    { id := s.next, str := input, hash := fnv input, reserved := none }
  rw [hr]
  cases r with
  | some a =>
    obtain ⟨ha, k', v', ht, he⟩ := hp
    dsimp only
    rw [ht]
    dsimp only
    refine ⟨k', s, rfl, hs, ((stringEqual_iff _ _).1 he).1.symm, ?_, fun x hx => hx, by omega⟩
    exact mem_items.2 ⟨a, ha, _, ht⟩
  | none =>
    dsimp only
    obtain ⟨t', a, h1, h2, h3, h4, h5⟩ := insert_ok string_keys hs.inv hlt
      { id := s.next, str := input, hash := fnv input, reserved := reservedOf input } ()
    have hno : ∀ x ∈ items s.set, stringEqual
        { id := s.next, str := input, hash := fnv input, reserved := reservedOf input } x.1 = false := by
      intro x hx
      obtain ⟨b, hb, hh, htb⟩ := mem_items.1 hx
      have hp : NoMatch stringEqual s.set (stringHash { id := s.next, str := input, hash := fnv input, reserved := none })
          { id := s.next, str := input, hash := fnv input, reserved := none } := hp
      have h := NoMatch.none string_keys hs.inv hp hb htb
      rw [← Bool.not_eq_true, stringEqual_iff] at h ⊢
      exact h
    rw [filter_no hno] at h5
    unfold insert at h1
    change insertPre stringEqual 2 s.set (fnv input) _ () = _ at h1
    rw [h1]
    dsimp only
    refine ⟨_, _, rfl, ⟨h2, ?_, ?_⟩, rfl, ?_, ?_, ?_⟩
    · intro x hx
      rcases List.mem_cons.1 (h5.mem_iff.1 hx) with h | h
      · subst h; exact ⟨rfl, Nat.lt_succ_self _, rfl⟩
      · obtain ⟨g1, g2, g3⟩ := hs.hash x h
        exact ⟨g1, by dsimp only; omega, g3⟩
    · intro x hx y hy hxy
      rcases List.mem_cons.1 (h5.mem_iff.1 hx) with h | h
      · rcases List.mem_cons.1 (h5.mem_iff.1 hy) with h' | h'
        · rw [h, h']
        · subst h
          have := (hs.hash y h').2.1
          dsimp only at hxy
          omega
      · rcases List.mem_cons.1 (h5.mem_iff.1 hy) with h' | h'
        · subst h'
          have := (hs.hash x h).2.1
          dsimp only at hxy
          omega
        · exact hs.ids x h y h' hxy
    · exact h5.mem_iff.2 (by simp)
    · intro x hx
      exact h5.mem_iff.2 (by simp [hx])
    · rw [h5.length_eq]; simp

theorem createAll_ok : ∀ (inputs : List (List UInt8)) (s : Strings), SInv s →
    (items s.set).length + inputs.length < 2 ^ 30 →
    ∃ ps s', createAll s inputs = .ok (ps, s') ∧ SInv s' ∧
      (∀ x ∈ items s.set, x ∈ items s'.set) ∧
      List.Forall₂ (fun i p => p.str = i ∧ (p, ()) ∈ items s'.set) inputs ps := by
  intro inputs
  induction inputs with
  | nil => intro s hs _; exact ⟨[], s, rfl, hs, fun x hx => hx, List.Forall₂.nil⟩
  | cons i l ih =>
    intro s hs hlt
    simp only [List.length_cons] at hlt
    obtain ⟨p, s1, h1, h2, h3, h4, h5, h6⟩ := createString_ok hs (by omega) i
    obtain ⟨ps, s', g1, g2, g3, g4⟩ := ih s1 h2 (by omega)
    refine ⟨p :: ps, s', ?_, g2, fun x hx => g3 x (h5 x hx), ?_⟩
    · unfold createAll; rw [h1]; dsimp only; rw [g1]
    · exact List.Forall₂.cons ⟨h3, g3 _ h4⟩ g4

/-- **C70.** However many strings (fewer than 2^30) a compilation makes, with whatever bytes and in
whatever order: each call returns a string object holding exactly the bytes asked for; two calls
return the same object if and only if they were given the same bytes; and the keyword number recorded
in the object depends on the bytes alone. -/
theorem strings_interned (inputs : List (List UInt8)) (hlt : inputs.length < 2 ^ 30) :
    ∃ ps s, createAll Strings.new inputs = .ok (ps, s) ∧ ps.length = inputs.length ∧
      (∀ (i : Nat) (p : SO) inp, ps[i]? = some p → inputs[i]? = some inp →
        p.str = inp ∧ p.reserved = reservedOf inp) ∧
      (∀ (i j : Nat) (p q : SO) inp inq, ps[i]? = some p → ps[j]? = some q → inputs[i]? = some inp →
        inputs[j]? = some inq → (p.id = q.id ↔ inp = inq)) := by
  obtain ⟨hc, hnil⟩ := create_inv (K := SO) (V := Unit) (eq := stringEqual) (hashf := stringHash)
  have h0 : SInv Strings.new := by
    refine ⟨hc, ?_, ?_⟩
    · intro x hx
      change x ∈ items (create : HT SO Unit) at hx
      rw [hnil] at hx; cases hx
    · intro x hx
      change x ∈ items (create : HT SO Unit) at hx
      rw [hnil] at hx; cases hx
  obtain ⟨ps, s, h1, h2, -, h4⟩ := createAll_ok inputs Strings.new h0 (by
    show (items (create : HT SO Unit)).length + _ < _
    rw [hnil]; simpa using hlt)
  have hlen := h4.length_eq
  have hat : ∀ (i : Nat) (p : SO) inp, ps[i]? = some p → inputs[i]? = some inp →
      p.str = inp ∧ (p, ()) ∈ items s.set := by
    intro i p inp hp hi
    have hi1 := (List.getElem?_eq_some_iff.1 hp)
    have hi2 := (List.getElem?_eq_some_iff.1 hi)
    obtain ⟨a1, a2⟩ := hi1
    obtain ⟨b1, b2⟩ := hi2
    have := List.Forall₂.get h4 b1 a1
    simp only [List.get_eq_getElem] at this
    rw [a2, b2] at this
    exact this
  refine ⟨ps, s, h1, hlen.symm, ?_, ?_⟩
  · intro i p inp hp hi
    obtain ⟨g1, g2⟩ := hat i p inp hp hi
    exact ⟨g1, by rw [(h2.hash _ g2).2.2, g1]⟩
  · intro i j p q inp inq hp hq hi hj
    obtain ⟨g1, g2⟩ := hat i p inp hp hi
    obtain ⟨k1, k2⟩ := hat j q inq hq hj
    constructor
    · intro h
      have := h2.ids _ g2 _ k2 h
      injection this with this
      rw [← g1, ← k1, this]
    · intro h
      have he : stringEqual p q = true := by
        rw [stringEqual_iff]
        refine ⟨by rw [g1, k1, h], ?_⟩
        have e1 := (h2.hash _ g2).1
        have e2 := (h2.hash _ k2).1
        dsimp only at e1 e2
        rw [e1, e2, g1, k1, h]
      have := h2.inv.uniq_items g2 k2 he
      injection this with this
      rw [this]

/-- a string is numbered as a keyword exactly if it is that word, for strings without zero bytes -/
theorem reserved_iff (str : List UInt8) (hz : (0 : UInt8) ∉ str) (i : Nat) :
    reservedOf str = some i ↔ ∃ w, (i, w) ∈ words ∧ bytesOf w = str := by
  have htw : str.takeWhile (· != 0) = str := by
    clear i
    induction str with
    | nil => rfl
    | cons a l ih =>
      rw [List.takeWhile_cons_of_pos, ih (fun h => hz (by simp [h]))]
      simp only [bne_iff_ne, ne_eq]
      intro h; subst h; exact hz (by simp)
  unfold reservedOf
  rw [htw]
  constructor
  · intro h
    simp only [Option.map_eq_some_iff] at h
    obtain ⟨w, hw, he⟩ := h
    subst he
    refine ⟨w.2, List.mem_of_find?_eq_some hw, ?_⟩
    have := List.find?_some hw
    simpa using this
  · rintro ⟨w, hw, rfl⟩
    have h : ∀ x ∈ words, (words.find? (fun y => bytesOf y.2 == bytesOf x.2)).map (·.1) = some x.1 := by
      decide +kernel
    exact h (i, w) hw

/-- A string literal that holds a zero byte after a keyword gets the keyword's number. -/
theorem reserved_zero : reservedOf [97, 110, 100, 0, 120] = some 0 ∧
    ¬ ∃ w, (0, w) ∈ words ∧ bytesOf w = [97, 110, 100, 0, 120] := by
  refine ⟨by decide +kernel, ?_⟩
  rintro ⟨w, hw, he⟩
  have h : ∀ x ∈ words, bytesOf x.2 ≠ [97, 110, 100, 0, 120] := by decide +kernel
  exact h _ hw he

example : (0 : UInt8) ∉ ([97, 110, 100] : List UInt8) := by decide
example : (match createAll Strings.new [[97], [98], [97]] with
    | .ok (ps, _) => ps.map (·.id)
    | _ => []) = [0, 1, 0] := by decide +kernel

/-! ### constants -/

theorem feq_iff (x y : Dbl) : Verif.Float.eq x y = true ↔
    x ≠ .nan ∧ (x = y ∨ ∃ a b, x = .fin a 0 ∧ y = .fin b 0) := by
  cases x with
  | nan => simp [Verif.Float.eq]
  | inf a =>
    cases y with
    | nan => simp [Verif.Float.eq]
    | inf b => simp [Verif.Float.eq]
    | fin b s => simp [Verif.Float.eq]
  | fin a s =>
    cases y with
    | nan => simp [Verif.Float.eq]
    | inf b => simp [Verif.Float.eq]
    | fin b s' =>
      simp only [Verif.Float.eq, ne_eq, reduceCtorEq, not_false_eq_true,
        true_and, Dbl.fin.injEq, Verif.Float.sc]
      cases a <;> cases b <;> simp <;> omega

/-- the two values a comparison of constants does not tell apart -/
def Zeros : CV → CV → Prop
  | .flt (.fin a 0), .flt (.fin b 0) => a ≠ b
  | _, _ => False

theorem compare_iff (a b : Const) : compareConstants a b = true ↔
    a.v ≠ .flt .nan ∧ (a.v = b.v ∨ Zeros a.v b.v) := by
  unfold compareConstants
  cases ha : a.v with
  | int i => cases hb : b.v <;> simp [Zeros]
  | str i => cases hb : b.v <;> simp [Zeros]
  | flt x =>
    cases hb : b.v with
    | int i => simp [Zeros]
    | str i => simp [Zeros]
    | flt y =>
      dsimp only
      rw [feq_iff]
      simp only [ne_eq, CV.flt.injEq]
      refine and_congr_right fun hx => ?_
      constructor
      · rintro (h | ⟨c, d, rfl, rfl⟩)
        · exact Or.inl h
        · by_cases hcd : c = d
          · left; rw [hcd]
          · right; exact hcd
      · rintro (h | h)
        · exact Or.inl h
        · right
          unfold Zeros at h
          split at h
          · rename_i c d e1 e2
            cases e1; cases e2
            exact ⟨_, _, rfl, rfl⟩
          · exact h.elim

theorem const_keys (e : Env) : KeyOK compareConstants (hashConstant e) := by
  refine ⟨?_, ?_, ?_⟩
  · intro a b h
    rw [compare_iff] at *
    rcases h with ⟨h1, h2 | h2⟩
    · exact ⟨h2 ▸ h1, Or.inl h2.symm⟩
    · unfold Zeros at h2
      split at h2
      · rename_i c d e1 e2
        rw [e1, e2]
        exact ⟨by simp, Or.inr (Ne.symm h2)⟩
      · exact h2.elim
  · intro a b c h h'
    rw [compare_iff] at *
    obtain ⟨h1, h2⟩ := h
    obtain ⟨h1', h2'⟩ := h'
    refine ⟨h1, ?_⟩
    rcases h2 with h2 | h2
    · rw [h2]; exact h2'
    · rcases h2' with h2' | h2'
      · rw [← h2']; exact Or.inr h2
      · unfold Zeros at h2 h2'
        split at h2
        · rename_i c1 d1 e1 e2
          split at h2'
          · rename_i c2 d2 e3 e4
            rw [e2] at e3
            rw [e1, e4]
            cases e3
            left
            congr 2
            revert h2 h2'
            cases c1 <;> cases d1 <;> cases d2 <;> simp
          · exact h2'.elim
        · exact h2.elim
  · intro a b h
    rw [compare_iff] at h
    rcases h with ⟨h1, h2 | h2⟩
    · unfold hashConstant; rw [h2]
    · unfold Zeros at h2
      split at h2
      · rename_i c d e1 e2
        unfold hashConstant
        rw [e1, e2]
        have hz : ∀ f, castDefined (.fin f 0) = true := by
          intro f
          cases f
          · simp only [castDefined, Bool.false_eq_true, if_false, decide_eq_true_eq]
            exact Nat.mul_pos (by decide) (by unfold Verif.Float.U; exact Nat.two_pow_pos _)
          · simp only [castDefined, if_true, decide_eq_true_eq]
            unfold Verif.Float.U; exact Nat.two_pow_pos _
        simp only [ucast, hz, if_true]
      · exact h2.elim

/-- which counter a value belongs to -/
def CV.ty : CV → Nat
  | .int _ => 0
  | .flt _ => 1
  | .str _ => 2

/-- number of constants of a type -/
def cnt (n : Nat) (l : List Const) : Nat := (l.filter (fun c => c.v.ty == n)).length

/-- the constants, newest first, are numbered by type -/
def Numbered : List Const → Prop
  | [] => True
  | c :: l => c.index = cnt c.v.ty l % 2 ^ 16 ∧ Numbered l

structure CInv (e : Env) (p : Consts) (l : List Const) : Prop where
  inv : Inv compareConstants (hashConstant e) p.set
  perm : (items p.set).Perm (l.map (fun c => (c, ())))
  num : Numbered l
  cnts : ∀ v : CV, p.count v = cnt v.ty l % 2 ^ 16

theorem bump_count (p : Consts) (v w : CV) (s : HT Const Unit) :
    Consts.count { p.bump v with set := s } w
      = if w.ty = v.ty then (p.count v + 1) % 2 ^ 16 else p.count w := by
  cases v <;> cases w <;> simp [Consts.count, Consts.bump, CV.ty]

theorem addConstant_ok (e : Env) {p : Consts} {l : List Const} (hi : CInv e p l)
    (hlt : l.length < 2 ^ 30) (v : CV) :
    ∃ c p' l', addConstant e p v = .ok (c, p') ∧ CInv e p' l' ∧ c ∈ l' ∧ l <:+ l' ∧
      l'.length ≤ l.length + 1 ∧ (c.v = v ∨ Zeros v c.v) ∧
      ((∀ c' ∈ l, compareConstants { v := v, index := 0 } c' = false) →
        c.index = p.count v ∧ c.v = v ∧ l' = c :: l) ∧
      (∀ c' ∈ l, compareConstants { v := v, index := 0 } c' = true → c = c' ∧ l' = l) := by
  unfold addConstant search
  obtain ⟨r, hr, hp⟩ := search_spec hi.inv (hashConstant e { v := v, index := 0 })
    { v := v, index := 0 }
  rw [hr]
  cases r with
  | some a =>
    obtain ⟨ha, k', v', ht, he⟩ := hp
    dsimp only
    rw [ht]
    dsimp only
    have hm : ((k', v') : Const × Unit) ∈ items p.set := mem_items.2 ⟨a, ha, _, ht⟩
    have hm' : k' ∈ l := by
      have := hi.perm.mem_iff.1 hm
      rw [List.mem_map] at this
      obtain ⟨c, hc, h⟩ := this
      injection h with h _
      rw [← h]; exact hc
    refine ⟨k', p, l, rfl, hi, hm', List.suffix_refl _, by omega, ?_, ?_, ?_⟩
    · rcases ((compare_iff _ _).1 he).2 with h | h
      · exact Or.inl h.symm
      · exact Or.inr h
    · intro h
      rw [h k' hm'] at he
      cases he
    · intro c' hc' hce
      refine ⟨?_, rfl⟩
      have hmc : ((c', ()) : Const × Unit) ∈ items p.set :=
        hi.perm.mem_iff.2 (List.mem_map.2 ⟨c', hc', rfl⟩)
      have := hi.inv.uniq_items hm hmc
        ((const_keys e).trans _ _ _ ((const_keys e).symm _ _ he) hce)
      injection this
  | none =>
    dsimp only
    have hcnt := hi.perm.length_eq
    rw [List.length_map] at hcnt
    obtain ⟨t', a, h1, h2, h3, h4, h5⟩ := insert_ok (const_keys e) hi.inv (by omega)
      { v := v, index := p.count v } ()
    have hno0 : ∀ x ∈ items p.set, compareConstants { v := v, index := 0 } x.1 = false := by
      intro x hx
      obtain ⟨b, hb, hh, htb⟩ := mem_items.1 hx
      exact NoMatch.none (const_keys e) hi.inv hp hb htb
    have hno : ∀ x ∈ items p.set,
        compareConstants { v := v, index := p.count v } x.1 = false := hno0
    rw [filter_no hno] at h5
    rw [h1]
    dsimp only
    refine ⟨_, _, { v := v, index := p.count v } :: l, rfl, ⟨h2, ?_, ⟨hi.cnts v, hi.num⟩, ?_⟩,
      by simp, List.suffix_cons _ _, by simp, Or.inl rfl, fun _ => ⟨rfl, rfl, rfl⟩, ?_⟩
    · simp only [List.map_cons]
      exact h5.trans (List.Perm.cons _ hi.perm)
    · intro w
      rw [bump_count, hi.cnts v, hi.cnts w]
      unfold cnt
      by_cases hw : w.ty = v.ty
      · rw [if_pos hw, List.filter_cons_of_pos (by simp [hw]), hw, List.length_cons]
        omega
      · rw [if_neg hw, List.filter_cons_of_neg (by simp; exact fun h => hw h.symm)]
    · intro c' hc' hce
      have hmc : ((c', ()) : Const × Unit) ∈ items p.set :=
        hi.perm.mem_iff.2 (List.mem_map.2 ⟨c', hc', rfl⟩)
      rw [hno0 _ hmc] at hce
      cases hce

theorem addAll_ok (e : Env) : ∀ (vs : List CV) (p : Consts) (l : List Const), CInv e p l →
    l.length + vs.length < 2 ^ 30 →
    ∃ cs p' l', addAll e p vs = .ok (cs, p') ∧ CInv e p' l' ∧ l <:+ l' ∧
      l'.length ≤ l.length + vs.length ∧
      List.Forall₂ (fun v c => c ∈ l' ∧ (c.v = v ∨ Zeros v c.v)) vs cs ∧
      ∀ c ∈ l', c ∈ l ∨ c.v ∈ vs := by
  intro vs
  induction vs with
  | nil =>
    intro p l hi _
    exact ⟨[], p, l, rfl, hi, List.suffix_refl _, by simp, List.Forall₂.nil, fun c h => Or.inl h⟩
  | cons v vs ih =>
    intro p l hi hlt
    simp only [List.length_cons] at hlt
    obtain ⟨c, p1, l1, h1, h2, h3, h4, h5, h6, h7, h8⟩ := addConstant_ok e hi (by omega) v
    obtain ⟨cs, p', l', g1, g2, g3, g4, g5, g6⟩ := ih p1 l1 h2 (by omega)
    refine ⟨c :: cs, p', l', ?_, g2, h4.trans g3, by simp only [List.length_cons]; omega,
      List.Forall₂.cons ⟨g3.subset h3, h6⟩ g5, ?_⟩
    · unfold addAll; rw [h1]; dsimp only; rw [g1]
    · intro d hd
      rcases g6 d hd with h | h
      · by_cases hex : ∃ c' ∈ l, compareConstants { v := v, index := 0 } c' = true
        · obtain ⟨c', hc', he⟩ := hex
          rw [(h8 c' hc' he).2] at h
          exact Or.inl h
        · have hn : ∀ c' ∈ l, compareConstants { v := v, index := 0 } c' = false := by
            intro c' hc'
            rw [← Bool.not_eq_true]
            exact fun h => hex ⟨c', hc', h⟩
          obtain ⟨-, k2, k3⟩ := h7 hn
          rw [k3] at h
          rcases List.mem_cons.1 h with h | h
          · right; rw [h, k2]; simp
          · exact Or.inl h
      · right; simp [h]

theorem new_inv (e : Env) : CInv e Consts.new [] := by
  obtain ⟨hc, hnil⟩ := create_inv (K := Const) (V := Unit) (eq := compareConstants)
    (hashf := hashConstant e)
  refine ⟨hc, ?_, trivial, ?_⟩
  · show (items (create : HT Const Unit)).Perm _
    rw [hnil]; exact List.Perm.refl _
  · intro v; cases v <;> rfl

theorem numbered_inj : ∀ (l : List Const), Numbered l → (∀ n, cnt n l ≤ 2 ^ 16) →
    ∀ c ∈ l, ∀ d ∈ l, c.v.ty = d.v.ty → c.index = d.index → c = d := by
  intro l
  induction l with
  | nil => intro _ _ c hc; cases hc
  | cons a l ih =>
    intro hn hle c hc d hd hty hix
    have hle' : ∀ n, cnt n l ≤ 2 ^ 16 := by
      intro n
      refine Nat.le_trans ?_ (hle n)
      unfold cnt
      exact ((List.sublist_cons_self a l).filter _).length_le
    have hcl : ∀ (l : List Const), Numbered l → (∀ n, cnt n l ≤ 2 ^ 16) → ∀ x ∈ l,
        x.index < cnt x.v.ty l := by
      intro l
      induction l with
      | nil => intro _ _ x hx; cases hx
      | cons b l ih' =>
        intro hn hle x hx
        have hle' : ∀ n, cnt n l ≤ 2 ^ 16 := by
          intro n
          refine Nat.le_trans ?_ (hle n)
          unfold cnt
          exact ((List.sublist_cons_self b l).filter _).length_le
        rcases List.mem_cons.1 hx with h | h
        · subst h
          have h1 : cnt x.v.ty (x :: l) = cnt x.v.ty l + 1 := by
            unfold cnt; rw [List.filter_cons_of_pos (by simp), List.length_cons]
          have := Nat.mod_le (cnt x.v.ty l) (2 ^ 16)
          rw [h1, hn.1]
          omega
        · have h1 := ih' hn.2 hle' x h
          have h2 : cnt x.v.ty l ≤ cnt x.v.ty (b :: l) := by
            unfold cnt
            exact ((List.sublist_cons_self b l).filter _).length_le
          omega
    have hbig : ∀ x ∈ l, x.v.ty = a.v.ty → x.index ≠ a.index := by
      intro x hx hty' he
      have h1 := hcl l hn.2 hle' x hx
      have h2 : cnt a.v.ty (a :: l) = cnt a.v.ty l + 1 := by
        unfold cnt; rw [List.filter_cons_of_pos (by simp), List.length_cons]
      have h3 := hle a.v.ty
      have h4 := hn.1
      rw [Nat.mod_eq_of_lt (by omega)] at h4
      rw [hty'] at h1
      omega
    rcases List.mem_cons.1 hc with h | h
    · rcases List.mem_cons.1 hd with h' | h'
      · rw [h, h']
      · subst h; exact absurd hix.symm (hbig d h' hty.symm)
    · rcases List.mem_cons.1 hd with h' | h'
      · subst h'; exact absurd hix (hbig c h hty)
      · exact ih hn.2 hle' c h d h' hty hix

/-- **C71, what holds.** For every sequence of at most 65536 literals in which 0.0 and -0.0 do not both
occur, whatever the machine's conversion of doubles to `uint32_t` yields where C leaves it undefined:
the constant recorded for each literal has exactly that literal's type and value, two literals share a
slot (type and index) only if they are the same, and equal literals other than NaN share one.
Missing from the full claim: both zeros in one function, and more than 65536 literals (see below). -/
theorem constants_faithful_partial (e : Env) (vs : List CV) (hlen : vs.length ≤ 2 ^ 16)
    (hz : ∀ v ∈ vs, ∀ w ∈ vs, ¬ Zeros v w) :
    ∃ cs p, addAll e Consts.new vs = .ok (cs, p) ∧ cs.map (·.v) = vs ∧
      ∀ c ∈ cs, ∀ d ∈ cs, (c.v.ty = d.v.ty ∧ c.index = d.index → c.v = d.v) ∧
        (c.v = d.v → c.v ≠ .flt .nan → c.index = d.index) := by
  obtain ⟨cs, p, l, h1, h2, -, h4, h5, h6⟩ := addAll_ok e vs Consts.new [] (new_inv e) (by
    simp only [List.length_nil]; omega)
  have hv : List.Forall₂ (fun v c => c ∈ l ∧ c.v = v) vs cs := by
    have hall : ∀ (vs' : List CV) (cs' : List Const), (∀ v ∈ vs', v ∈ vs) →
        List.Forall₂ (fun v c => c ∈ l ∧ (c.v = v ∨ Zeros v c.v)) vs' cs' →
        List.Forall₂ (fun v c => c ∈ l ∧ c.v = v) vs' cs' := by
      intro vs' cs' hsub hf
      induction hf with
      | nil => exact List.Forall₂.nil
      | cons h _ ih =>
        refine List.Forall₂.cons ⟨h.1, ?_⟩ (ih (fun v hv => hsub v (by simp [hv])))
        rcases h.2 with h' | h'
        · exact h'
        · rcases h6 _ h.1 with h7 | h7
          · cases h7
          · exact absurd h' (hz _ (hsub _ (by simp)) _ h7)
    exact hall vs cs (fun v h => h) h5
  have hmem : ∀ c ∈ cs, c ∈ l := by
    have : ∀ (vs' : List CV) (cs' : List Const),
        List.Forall₂ (fun v c => c ∈ l ∧ c.v = v) vs' cs' → ∀ c ∈ cs', c ∈ l := by
      intro vs' cs' hf
      induction hf with
      | nil => intro c hc; cases hc
      | cons h _ ih =>
        intro c hc
        rcases List.mem_cons.1 hc with h' | h'
        · subst h'; exact h.1
        · exact ih c h'
    exact this vs cs hv
  refine ⟨cs, p, h1, ?_, ?_⟩
  · clear h1 h2 h4 h5 h6 hmem hlen hz
    induction hv with
    | nil => rfl
    | cons h _ ih => rw [List.map_cons, ih, h.2]
  · intro c hc d hd
    constructor
    · rintro ⟨hty, hix⟩
      rw [numbered_inj l h2.num (by
        intro n
        refine Nat.le_trans (List.length_filter_le _ _) ?_
        simp only [List.length_nil] at h4
        omega) c (hmem c hc) d (hmem d hd) hty hix]
    · intro hcd hnan
      have h7 : compareConstants c d = true := (compare_iff _ _).2 ⟨hnan, Or.inl hcd⟩
      have h8 := h2.inv.uniq_items (x := (c, ())) (y := (d, ()))
        (h2.perm.mem_iff.2 (List.mem_map.2 ⟨c, hmem c hc, rfl⟩))
        (h2.perm.mem_iff.2 (List.mem_map.2 ⟨d, hmem d hd, rfl⟩)) h7
      injection h8 with h8
      rw [h8]

example : ∀ v ∈ [CV.int 1, .flt (.fin false Verif.Float.U), .flt .nan, .str 3, .int 1],
    ∀ w ∈ [CV.int 1, .flt (.fin false Verif.Float.U), .flt .nan, .str 3, .int 1],
    ¬ Zeros v w := by
  have hU : Verif.Float.U ≠ 0 := by unfold Verif.Float.U; exact Nat.pos_iff_ne_zero.1 (Nat.two_pow_pos _)
  intro v hv w hw hz
  unfold Zeros at hz
  split at hz
  · simp [Ne.symm hU] at hv
  · exact hz

/-- **C71 fails for the two zeros:** the literal -0.0 after 0.0 is recorded as 0.0, on every machine. -/
theorem constants_zero_merged (e : Env) : ∃ c p,
    addAll e Consts.new [.flt (.fin false 0), .flt (.fin true 0)] = .ok ([c, c], p) ∧
      c.v = .flt (.fin false 0) := by
  obtain ⟨c, p1, l1, h1, h2, h3, -, h5, -, h7, -⟩ :=
    addConstant_ok e (new_inv e) (by decide) (.flt (.fin false 0))
  obtain ⟨-, h8, h9⟩ := h7 (fun c' h => by cases h)
  obtain ⟨d, p2, l2, g1, -, -, -, -, -, -, g8⟩ :=
    addConstant_ok e h2 (by simp only [List.length_nil] at h5; omega) (.flt (.fin true 0))
  obtain ⟨g9, -⟩ := g8 c h3 (by
    rw [compare_iff]
    dsimp only
    rw [h8]
    exact ⟨by simp, Or.inr (by simp [Zeros])⟩)
  subst g9
  refine ⟨d, p2, ?_, h8⟩
  unfold addAll
  rw [h1]; dsimp only
  unfold addAll
  rw [g1]; dsimp only
  unfold addAll
  rfl

theorem addAll_strs (e : Env) : ∀ (n i : Nat) (p : Consts) (l : List Const), CInv e p l →
    (∀ c ∈ l, ∃ j, j < i ∧ c.v = .str j) → l.length = i → i + n < 2 ^ 30 →
    ∃ cs p', addAll e p ((List.range' i n).map CV.str) = .ok (cs, p') ∧
      cs = (List.range' i n).map (fun j => { v := .str j, index := j % 2 ^ 16 }) := by
  intro n
  induction n with
  | zero => intro i p l _ _ _ _; exact ⟨[], p, rfl, rfl⟩
  | succ n ih =>
    intro i p l hi hl hlen hlt
    obtain ⟨c, p1, l1, h1, h2, -, -, -, -, h7, -⟩ := addConstant_ok e hi (by omega) (.str i)
    have hn : ∀ c' ∈ l, compareConstants { v := .str i, index := 0 } c' = false := by
      intro c' hc'
      obtain ⟨j, hj, hv⟩ := hl c' hc'
      unfold compareConstants
      rw [hv]
      simp
      omega
    obtain ⟨h8, h9, h10⟩ := h7 hn
    have hcnt : p.count (.str i) = i % 2 ^ 16 := by
      rw [hi.cnts]
      congr 1
      unfold cnt
      rw [List.filter_eq_self.2, hlen]
      intro c hc
      obtain ⟨j, hj, hv⟩ := hl c hc
      rw [hv]; rfl
    obtain ⟨cs, p', g1, g2⟩ := ih (i + 1) p1 l1 h2 (by
      intro d hd
      rw [h10] at hd
      rcases List.mem_cons.1 hd with h | h
      · exact ⟨i, by omega, by rw [h, h9]⟩
      · obtain ⟨j, hj, hv⟩ := hl d h
        exact ⟨j, by omega, hv⟩) (by rw [h10, List.length_cons, hlen]) (by omega)
    refine ⟨c :: cs, p', ?_, ?_⟩
    · simp only [List.range'_succ, List.map_cons]
      unfold addAll
      rw [h1]; dsimp only
      rw [g1]
    · simp only [List.range'_succ, List.map_cons]
      rw [g2, ← h9, ← hcnt, ← h8]

/-- **C71 fails beyond 65536 strings:** the 65537th different string literal of a function gets the slot
of the first. -/
theorem constants_index_wraps (e : Env) : ∃ cs p,
    addAll e Consts.new ((List.range' 0 65537).map CV.str) = .ok (cs, p) ∧
      ∃ c d, cs[0]? = some c ∧ cs[65536]? = some d ∧ c.v = .str 0 ∧ d.v = .str 65536 ∧
        c.index = d.index := by
  obtain ⟨cs, p, h1, h2⟩ := addAll_strs e 65537 0 Consts.new [] (new_inv e)
    (fun c h => by cases h) rfl (by decide)
  refine ⟨cs, p, h1, ⟨.str 0, 0⟩, ⟨.str 65536, 0⟩, ?_, ?_, rfl, rfl, rfl⟩
  · rw [h2, List.getElem?_map, List.getElem?_range' (by decide)]; rfl
  · rw [h2, List.getElem?_map, List.getElem?_range' (by decide)]; rfl

/-- `hash_constant` converts -1.0 and 4294967296.0 to `uint32_t`, which C leaves undefined. -/
theorem hash_constant_undefined : castDefined (.fin true Verif.Float.U) = false ∧
    castDefined (.fin false (2 ^ 32 * Verif.Float.U)) = false ∧
    castDefined (.fin false (7 * Verif.Float.U)) = true := by decide +kernel

end Verif.HashTab
