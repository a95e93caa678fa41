import Verif.StrTab.Inv
/-!
Properties C18 (short strings are unique) and C52 (the API string cache returns correct, live strings).
-/
namespace Verif.StrTab

/-- `y` is an allocated string object with the given bytes, not waiting to be freed -/
def IsStr (g : G) (y : Nat) (str : Bytes) : Prop := ∃ o, g.objs y = some o ∧ o.bytes = str ∧ o.dead = false

/-- `y` is an allocated short string with the given bytes -/
def IsShort (g : G) (y : Nat) (str : Bytes) : Prop := ∃ o, g.objs y = some o ∧ o.bytes = str ∧ o.isShort = true

theorem revive_inv {g : G} (h : Inv g) {y : Nat} {o : Obj} (ho : g.objs y = some o) :
    Inv (setObj g y (some { o with dead := false })) := by
  have inv_of : ∀ {x o'}, (if x = y then some { o with dead := false } else g.objs x) = some o' →
      ∃ p, g.objs x = some p ∧ o'.bytes = p.bytes ∧ o'.isShort = p.isShort ∧ o'.hash = p.hash ∧ o'.fixed = p.fixed ∧
        (o'.dead = false ∨ o'.dead = p.dead) := by
    intro x o' hx
    split at hx
    · rename_i e; subst e; cases hx; exact ⟨o, ho, rfl, rfl, rfl, rfl, .inl rfl⟩
    · exact ⟨o', hx, rfl, rfl, rfl, rfl, .inr rfl⟩
  have to_new : ∀ {x p}, g.objs x = some p → ∃ o', (if x = y then some { o with dead := false } else g.objs x) = some o' ∧
      o'.bytes = p.bytes ∧ o'.isShort = p.isShort ∧ o'.hash = p.hash ∧ o'.fixed = p.fixed ∧ (p.dead = false → o'.dead = false) := by
    intro x p hp
    split
    · rename_i e; subst e; rw [ho] at hp; cases hp; exact ⟨_, rfl, rfl, rfl, rfl, rfl, fun _ => rfl⟩
    · exact ⟨p, hp, rfl, rfl, rfl, rfl, id⟩
  constructor
  · exact h.pos
  · exact h.nodup
  · intro x
    refine (h.mem x).trans ?_
    constructor
    · rintro ⟨p, h1, h2⟩; obtain ⟨o', e1, _, e3, _⟩ := to_new h1; exact ⟨o', e1, e3.trans h2⟩
    · rintro ⟨p, h1, h2⟩; obtain ⟨o', e1, _, e3, _⟩ := inv_of h1; exact ⟨o', e1, e3.symm.trans h2⟩
  · intro j x hA
    obtain ⟨p, h1, h2⟩ := h.place j x hA
    obtain ⟨o', e1, _, _, e4, _⟩ := to_new h1
    exact ⟨o', e1, by rw [e4]; exact h2⟩
  · intro x p h1 h2
    obtain ⟨o', e1, e2, e3, e4, _⟩ := inv_of h1
    rw [e2, e4]; exact h.hashok x o' e1 (e3.symm.trans h2)
  · intro x z o1 o2 h1 h2 h3 h4 h5
    obtain ⟨p1, a1, a2, a3, _⟩ := inv_of h1
    obtain ⟨p2, b1, b2, b3, _⟩ := inv_of h2
    exact h.uniq x z p1 p2 a1 b1 (a3.symm.trans h3) (b3.symm.trans h4) (by rw [← a2, ← b2]; exact h5)
  · intro x p h1
    obtain ⟨o', e1, e2, e3, _⟩ := inv_of h1
    rw [e2, e3]; exact h.short x o' e1
  · exact h.nuse
  · exact h.cacheLen
  · exact h.rowLen
  · intro row hr x hx
    obtain ⟨p, h1, h2, h3⟩ := h.cacheOk row hr x hx
    obtain ⟨o', e1, e2, _, _, _, e6⟩ := to_new h1
    exact ⟨o', e1, e6 h2, by rw [e2]; exact h3⟩
  · obtain ⟨p, h1, h2, h3⟩ := h.memerr
    obtain ⟨o', e1, e2, _, _, e5, _⟩ := to_new h1
    exact ⟨o', e1, e5.trans h2, by rw [e2]; exact h3⟩
  · intro x p h1 h2
    obtain ⟨o', e1, _, _, _, e5, e6⟩ := inv_of h1
    rcases e6 with e6 | e6
    · exact e6
    · rw [e6]; exact h.fixedLive x o' e1 (e5.symm.trans h2)

/-- adding a new object at an unused address -/
theorem add_inv {g : G} (h : Inv g) {x : Nat} (hx : g.objs x = none) {o : Obj} (hd : o.dead = false)
    {b : List (List Nat)} {nuse : Nat} (hb : b.length = g.buckets.length)
    (hsh : o.isShort = true ↔ o.bytes.length ≤ maxShort)
    (hcase : (o.isShort = false ∧ b = g.buckets ∧ nuse = g.nuse) ∨
      (o.isShort = true ∧ hash o.bytes g.seed = .ok o.hash ∧ (∀ y, ¬ IsShort g y o.bytes) ∧ nuse = g.nuse + 1 ∧
        (b.flatten).Perm (x :: g.buckets.flatten) ∧
        ∀ j y, At b j y ↔ (j = lmod o.hash g.buckets.length ∧ y = x) ∨ At g.buckets j y)) :
    Inv { setObj g x (some o) with buckets := b, nuse := nuse } := by
  have to_new : ∀ {y p}, g.objs y = some p → (if y = x then some o else g.objs y) = some p := by
    intro y p hp
    rw [if_neg]
    · exact hp
    · rintro rfl; rw [hx] at hp; cases hp
  have inv_of : ∀ {y p}, (if y = x then some o else g.objs y) = some p → (y = x ∧ p = o) ∨ (y ≠ x ∧ g.objs y = some p) := by
    intro y p hp
    split at hp
    · cases hp; exact .inl ⟨by assumption, rfl⟩
    · exact .inr ⟨by assumption, hp⟩
  have hxin : x ∉ g.buckets.flatten := by
    intro hc
    obtain ⟨p, h1, _⟩ := (h.mem x).1 hc
    rw [hx] at h1; cases h1
  constructor
  · show 0 < b.length
    rw [hb]; exact h.pos
  · show b.flatten.Nodup
    rcases hcase with ⟨_, rfl, _⟩ | ⟨_, _, _, _, hp, _⟩
    · exact h.nodup
    · rw [hp.nodup_iff, List.nodup_cons]; exact ⟨hxin, h.nodup⟩
  · intro y
    show y ∈ b.flatten ↔ _
    rcases hcase with ⟨h1, rfl, _⟩ | ⟨h1, _, _, _, hp, _⟩
    · rw [h.mem]
      constructor
      · rintro ⟨p, a, c⟩; exact ⟨p, to_new a, c⟩
      · rintro ⟨p, a, c⟩
        rcases inv_of a with ⟨rfl, rfl⟩ | ⟨_, a⟩
        · rw [h1] at c; cases c
        · exact ⟨p, a, c⟩
    · rw [hp.mem_iff, List.mem_cons, h.mem]
      constructor
      · rintro (rfl | ⟨p, a, c⟩)
        · exact ⟨o, by simp [setObj], h1⟩
        · exact ⟨p, to_new a, c⟩
      · rintro ⟨p, a, c⟩
        rcases inv_of a with ⟨rfl, _⟩ | ⟨_, a⟩
        · exact .inl rfl
        · exact .inr ⟨p, a, c⟩
  · intro j y hA
    show NewPos _ b.length j y
    rw [hb]
    rcases hcase with ⟨h1, rfl, _⟩ | ⟨h1, _, _, _, _, hAt⟩
    · obtain ⟨p, a, c⟩ := h.place j y hA
      exact ⟨p, to_new a, c⟩
    · rcases (hAt j y).1 hA with ⟨rfl, rfl⟩ | hA
      · exact ⟨o, by simp [setObj], rfl⟩
      · obtain ⟨p, a, c⟩ := h.place j y hA
        exact ⟨p, to_new a, c⟩
  · intro y p hp hs
    rcases inv_of hp with ⟨rfl, rfl⟩ | ⟨_, a⟩
    · rcases hcase with ⟨h1, _⟩ | ⟨_, h2, _⟩
      · rw [h1] at hs; cases hs
      · exact h2
    · exact h.hashok y p a hs
  · intro y z p q hp hq sp sq hb
    have nodup : ∀ {w r}, g.objs w = some r → r.isShort = true → r.bytes = o.bytes → o.isShort = true → False := by
      intro w r e1 e2 e3 e4
      rcases hcase with ⟨h1, _⟩ | ⟨_, _, h3, _⟩
      · rw [h1] at e4; cases e4
      · exact h3 w ⟨r, e1, e3, e2⟩
    rcases inv_of hp with ⟨rfl, rfl⟩ | ⟨_, a⟩
    · rcases inv_of hq with ⟨rfl, rfl⟩ | ⟨_, c⟩
      · rfl
      · exact absurd (nodup c sq hb.symm sp) id
    · rcases inv_of hq with ⟨rfl, rfl⟩ | ⟨_, c⟩
      · exact absurd (nodup a sp hb sq) id
      · exact h.uniq y z p q a c sp sq hb
  · intro y p hp
    rcases inv_of hp with ⟨rfl, rfl⟩ | ⟨_, a⟩
    · exact hsh
    · exact h.short y p a
  · show nuse = b.flatten.length
    rcases hcase with ⟨_, rfl, rfl⟩ | ⟨_, _, _, rfl, hp, _⟩
    · exact h.nuse
    · rw [hp.length_eq, List.length_cons, h.nuse]
  · exact h.cacheLen
  · exact h.rowLen
  · intro row hr y hy
    obtain ⟨p, a, c⟩ := h.cacheOk row hr y hy
    exact ⟨p, to_new a, c⟩
  · obtain ⟨p, a, c⟩ := h.memerr
    exact ⟨p, to_new a, c⟩
  · intro y p hp hf
    rcases inv_of hp with ⟨rfl, rfl⟩ | ⟨_, a⟩
    · exact hd
    · exact h.fixedLive y p a hf

theorem bucket_find {g : G} (hi : Inv g) (str : Bytes) {h : BitVec 32} (hh : hash str g.seed = .ok h) :
    ∃ l r, bucket g h = .ok l ∧ find g str l = .ok r ∧ (∀ y, r = some y → IsShort g y str) ∧
      (r = none → ∀ y, ¬ IsShort g y str) := by
  have hlt := lmod_lt h hi.pos
  have hg := List.getElem?_eq_getElem hlt
  have halloc : Alloc g g.buckets[lmod h g.buckets.length] := by
    intro x hx
    obtain ⟨o, h1, _⟩ := (hi.mem x).1 ((mem_flatten_iff _ _).2 ⟨_, _, hg, hx⟩)
    exact ⟨o, h1⟩
  obtain ⟨r, e1, e2, e3⟩ := find_spec (str := str) halloc
  refine ⟨_, r, by simp only [bucket, hg], e1, ?_, ?_⟩
  · intro y hy
    obtain ⟨a, o, b, c⟩ := e2 y hy
    obtain ⟨o', d1, d2⟩ := (hi.mem y).1 ((mem_flatten_iff _ _).2 ⟨_, _, hg, a⟩)
    rw [b] at d1; cases d1
    exact ⟨o, b, c, d2⟩
  · intro hr y ⟨o, a, b, c⟩
    obtain ⟨j, hA⟩ := (mem_flatten_iff _ _).1 ((hi.mem y).2 ⟨o, a, c⟩)
    obtain ⟨o', d1, d2⟩ := hi.place j y hA
    rw [a] at d1; cases d1
    have := hi.hashok y o a c
    rw [b, hh] at this
    cases this
    subst d2
    obtain ⟨l, hl, hx⟩ := hA
    rw [hg] at hl; cases hl
    exact e3 hr y hx o a b

theorem intern_inv {g : G} (hi : Inv g) {str : Bytes} (hs : str.length ≤ maxShort) (gc1 gc2 : List GcOp) (x : Nat) :
    (∃ g' y, intern g str gc1 gc2 x = .ok (g', y) ∧ Inv g' ∧ IsStr g' y str ∧ IsShort g' y str ∧
      (∀ z, IsShort g z str → y = z) ∧ ((∀ z, ¬ IsShort g z str) → y = x ∧ ∃ g1, Kept g g1 ∧ g1.objs x = none ∧ ∀ z, z ≠ x → g'.objs z = g1.objs z)) ∨
    (intern g str gc1 gc2 x = .err "not enough memory" ∧ ∀ z, ¬ IsShort g z str) := by
  obtain ⟨h, hh⟩ := hash_ok str g.seed
  obtain ⟨l, r, e1, e2, e3, e4⟩ := bucket_find hi str hh
  cases r with
  | some y =>
    left
    obtain ⟨o, a, b, c⟩ := e3 y rfl
    refine ⟨_, y, by simp only [intern, hh, e1, e2, Res.bind_ok, getObj, a]; rfl, revive_inv hi a, ?_, ?_, ?_, ?_⟩
    · exact ⟨{ o with dead := false }, by simp [setObj], b, rfl⟩
    · exact ⟨{ o with dead := false }, by simp [setObj], b, c⟩
    · rintro z ⟨o', a', b', c'⟩
      exact hi.uniq y z o o' a a' c c' (b.trans b'.symm)
    · intro hno; exact absurd ⟨o, a, b, c⟩ (hno y)
  | none =>
    have hno := e4 rfl
    -- state after the possible resize
    obtain ⟨g1, f1, f2, f3⟩ : ∃ g1, growIfFull g gc1 = .ok g1 ∧ Inv g1 ∧ Kept g g1 := by
      unfold growIfFull
      split
      · obtain ⟨g1, a1, a2, a3⟩ := gc_inv gc1 hi
        obtain ⟨b, b1, b2, b3⟩ := resize_inv a2 (newsize := g1.buckets.length * 2) (by have := a2.pos; omega)
        exact ⟨_, by rw [a1, Res.bind_ok, b1], b3, a3⟩
      · exact ⟨g, rfl, hi, Kept.refl g⟩
    obtain ⟨g2, k1, k2, k3⟩ := gc_inv gc2 f2
    have kk := f3.trans k3
    have hno2 : ∀ y, ¬ IsShort g2 y str := by
      rintro y ⟨o, a, b, c⟩
      obtain ⟨o', a', b', c', _⟩ := kk.1 y o a
      exact hno y ⟨o', a', b'.symm.trans b, c'.symm.trans c⟩
    have key : intern g str gc1 gc2 x = (if (g2.objs x).isSome then .err "not enough memory" else do
        let g := setObj g2 x (some ⟨str, true, false, false, h⟩)
        let b ← push g.buckets (lmod h g.buckets.length) x
        return ({ g with buckets := b, nuse := g.nuse + 1 }, x)) := by
      simp only [intern, hh, e1, e2, Res.bind_ok, f1, k1]
    rw [key]
    cases hx : g2.objs x with
    | some o => right; exact ⟨by simp, hno⟩
    | none =>
      left
      have hlt := lmod_lt h k2.pos
      obtain ⟨b, p1, p2, p3, p4⟩ := push_ok (x := x) hlt
      refine ⟨_, x, by
        simp only [Option.isSome_none, Bool.false_eq_true, if_false]
        rw [show (setObj g2 x (some ⟨str, true, false, false, h⟩)).buckets = g2.buckets from rfl, p1]; rfl, ?_, ?_, ?_, ?_, ?_⟩
      · refine add_inv k2 hx rfl p2 ?_ (.inr ⟨rfl, ?_, hno2, rfl, p3, p4⟩)
        · simp [hs]
        · rw [kk.2]; exact hh
      · exact ⟨⟨str, true, false, false, h⟩, by simp [setObj], rfl, rfl⟩
      · exact ⟨⟨str, true, false, false, h⟩, by simp [setObj], rfl, rfl⟩
      · intro z hz; exact absurd hz (hno z)
      · intro _; exact ⟨rfl, g2, kk, hx, fun z hz => by simp [setObj, hz]⟩

theorem newlstr_inv {g : G} (hi : Inv g) (str : Bytes) (gc1 gc2 : List GcOp) (x : Nat) :
    (∃ g' y, newlstr g str gc1 gc2 x = .ok (g', y) ∧ Inv g' ∧ IsStr g' y str) ∨ (∃ m, newlstr g str gc1 gc2 x = .err m) := by
  unfold newlstr
  by_cases h1 : str.length ≤ maxShort
  · rw [if_pos h1]
    rcases intern_inv hi h1 gc1 gc2 x with ⟨g', y, a, b, c, _⟩ | ⟨a, _⟩
    · exact .inl ⟨g', y, a, b, c⟩
    · exact .inr ⟨_, a⟩
  · rw [if_neg h1]
    by_cases h2 : maxLen ≤ str.length
    · rw [if_pos h2]; exact .inr ⟨_, rfl⟩
    · rw [if_neg h2]
      obtain ⟨g1, a1, a2, a3⟩ := gc_inv gc2 hi
      rw [a1, Res.bind_ok]
      cases hx : g1.objs x with
      | some o => right; exact ⟨_, by simp; rfl⟩
      | none =>
        left
        refine ⟨setObj g1 x (some ⟨str, false, false, false, g1.seed⟩), x, by simp, ?_, ?_⟩
        · exact add_inv a2 hx rfl rfl (by simpa using h1) (.inl ⟨rfl, rfl, rfl⟩)
        · exact ⟨⟨str, false, false, false, g1.seed⟩, by simp [setObj], rfl, rfl⟩

theorem cstr_noNul : ∀ {s : Bytes}, (0 : UInt8) ∉ cstr s
  | [] => by simp [cstr]
  | b :: s => by
    have ih := cstr_noNul (s := s)
    unfold cstr at ih ⊢
    rw [List.takeWhile_cons]
    split
    · rename_i h
      simp only [ne_eq, decide_not, Bool.not_eq_eq_eq_not, Bool.not_true, decide_eq_false_iff_not] at h
      rw [List.mem_cons]
      rintro (h' | h')
      · exact h h'.symm
      · exact ih h'
    · simp

theorem cstr_self : ∀ {s : Bytes}, (0 : UInt8) ∉ s → cstr s = s
  | [], _ => rfl
  | b :: s, h => by
    rw [List.mem_cons, not_or] at h
    have ih := cstr_self h.2
    unfold cstr at ih ⊢
    rw [List.takeWhile_cons, if_pos (by simpa using fun e => h.1 e.symm), ih]

theorem findCache_spec {g : G} {str : Bytes} : ∀ {l : List Nat},
    (∀ x ∈ l, ∃ o, g.objs x = some o ∧ o.dead = false ∧ (0 : UInt8) ∉ o.bytes) →
    ∃ r, findCache g str l = .ok r ∧ ∀ y, r = some y → IsStr g y (cstr str)
  | [], _ => ⟨none, rfl, by simp⟩
  | x :: l, ha => by
    obtain ⟨o, ho, hd, hz⟩ := ha x (by simp)
    simp only [findCache, getObj, ho, Res.bind_ok]
    by_cases h : cstr str = cstr o.bytes
    · refine ⟨some x, by rw [if_pos h]; rfl, ?_⟩
      intro y hy; cases hy
      exact ⟨o, ho, by rw [h, cstr_self hz], hd⟩
    · obtain ⟨r, e1, e2⟩ := findCache_spec (str := str) (fun y hy => ha y (List.mem_cons_of_mem _ hy))
      exact ⟨r, by rw [if_neg h]; exact e1, e2⟩

theorem setCache_inv {g : G} (hi : Inv g) {slot : Nat} {row : List Nat} (hl : row.length = 2)
    (hr : ∀ x ∈ row, ∃ o, g.objs x = some o ∧ o.dead = false ∧ (0 : UInt8) ∉ o.bytes) :
    Inv { g with cache := g.cache.set slot row } where
  pos := hi.pos
  nodup := hi.nodup
  mem := hi.mem
  place := hi.place
  hashok := hi.hashok
  uniq := hi.uniq
  short := hi.short
  nuse := hi.nuse
  cacheLen := by simp only [List.length_set]; exact hi.cacheLen
  rowLen := by
    intro r h
    rcases List.mem_or_eq_of_mem_set h with h | rfl
    · exact hi.rowLen r h
    · exact hl
  cacheOk := by
    intro r h
    rcases List.mem_or_eq_of_mem_set h with h | rfl
    · exact hi.cacheOk r h
    · exact hr
  memerr := hi.memerr
  fixedLive := hi.fixedLive

theorem new_inv {g : G} (hi : Inv g) {slot : Nat} (hslot : slot < cacheN) (str : Bytes) (gc1 gc2 : List GcOp) (x : Nat) :
    (∃ g' y, new g slot str gc1 gc2 x = .ok (g', y) ∧ Inv g' ∧ IsStr g' y (cstr str)) ∨ (∃ m, new g slot str gc1 gc2 x = .err m) := by
  have hlt : slot < g.cache.length := by rw [hi.cacheLen]; exact hslot
  have hg := List.getElem?_eq_getElem hlt
  have hmem : g.cache[slot] ∈ g.cache := List.getElem_mem hlt
  have hl := hi.rowLen _ hmem
  have hrow := hi.cacheOk _ hmem
  generalize g.cache[slot] = row at *
  obtain ⟨r, e1, e2⟩ := findCache_spec (str := str) hrow
  unfold new
  simp only [hg, e1, Res.bind_ok]
  cases r with
  | some y => exact .inl ⟨g, y, rfl, hi, e2 y rfl⟩
  | none =>
    match row, hl with
    | [p, q], _ =>
      have hi1 : Inv { g with cache := g.cache.set slot [p, p] } :=
        setCache_inv hi rfl (by intro z hz; apply hrow; simp at hz; simp [hz])
      simp only [List.take_succ_cons, List.take_zero, List.dropLast_cons_cons, List.dropLast_singleton, List.cons_append, List.nil_append]
      rcases newlstr_inv hi1 (cstr str) gc1 gc2 x with ⟨g', y, a, b, c⟩ | ⟨m, a⟩
      · left
        rw [a, Res.bind_ok]
        have hlt' : slot < g'.cache.length := by rw [b.cacheLen]; exact hslot
        have hg' := List.getElem?_eq_getElem hlt'
        have hmem' : g'.cache[slot] ∈ g'.cache := List.getElem_mem hlt'
        have hl' := b.rowLen _ hmem'
        have hrow' := b.cacheOk _ hmem'
        dsimp only
        rw [hg']
        generalize g'.cache[slot] = row' at *
        match row', hl' with
        | [p', q'], _ =>
          refine ⟨_, y, rfl, setCache_inv b rfl ?_, c⟩
          intro z hz
          simp only [List.tail_cons, List.mem_cons, List.not_mem_nil, or_false] at hz
          rcases hz with rfl | rfl
          · obtain ⟨o, c1, c2, c3⟩ := c
            exact ⟨o, c1, c3, by rw [c2]; exact cstr_noNul⟩
          · exact hrow' _ (by simp)
      · right; exact ⟨m, by rw [a]; rfl⟩

theorem step_inv {g : G} (hi : Inv g) (op : Op) : ∃ g', step g op = .ok g' ∧ Inv g' := by
  cases op with
  | newlstr str gc1 gc2 x =>
    simp only [step]
    rcases newlstr_inv hi str gc1 gc2 x with ⟨g', y, a, b, _⟩ | ⟨m, a⟩
    · exact ⟨g', by rw [a], b⟩
    · exact ⟨g, by rw [a], hi⟩
  | new slot str gc1 gc2 x =>
    simp only [step]
    rcases new_inv hi (Nat.mod_lt slot (by decide : 0 < cacheN)) str gc1 gc2 x with ⟨g', y, a, b, _⟩ | ⟨m, a⟩
    · exact ⟨g', by rw [a], b⟩
    · exact ⟨g, by rw [a], hi⟩
  | gc op =>
    obtain ⟨g', a, b, _⟩ := gcStep_inv hi op
    exact ⟨g', a, b⟩
  | checkSizes =>
    simp only [step, checkSizes]
    split
    · rename_i h
      obtain ⟨b, a, _, c⟩ := resize_inv hi (newsize := g.buckets.length / 2) (by omega)
      exact ⟨_, a, c⟩
    · exact ⟨g, rfl, hi⟩

theorem steps_inv : ∀ (ops : List Op) {g : G}, Inv g → ∃ g', steps ops g = .ok g' ∧ Inv g'
  | [], g, h => ⟨g, rfl, h⟩
  | op :: ops, g, h => by
    obtain ⟨g1, a, b⟩ := step_inv h op
    obtain ⟨g2, c, d⟩ := steps_inv ops b
    exact ⟨g2, by simp only [steps, a, Res.bind_ok, c], d⟩

theorem flatten_replicate_nil (n : Nat) : (List.replicate n ([] : List Nat)).flatten = [] := by
  induction n with
  | zero => rfl
  | succ n ih => rw [List.replicate_succ, List.flatten_cons, ih]; rfl

theorem init_inv (seed : BitVec 32) : ∃ g, init seed = .ok g ∧ Inv g := by
  obtain ⟨h, hh⟩ := hash_ok memerrBytes seed
  have hm : memerrBytes.length ≤ maxShort := by decide
  have hz : (0 : UInt8) ∉ memerrBytes := by decide
  have hlt := lmod_lt h (size := 128) (by decide)
  obtain ⟨b, p1, p2, p3, p4⟩ := push_ok (b := List.replicate 128 ([] : List Nat)) (i := lmod h 128) (x := 0) (by simpa using hlt)
  rw [flatten_replicate_nil] at p3
  have hAt : ∀ j y, ¬ At (List.replicate 128 ([] : List Nat)) j y := by
    intro j y hA
    have := (mem_flatten_iff _ _).2 ⟨j, hA⟩
    rw [flatten_replicate_nil] at this
    simp at this
  let o : Obj := ⟨memerrBytes, true, false, true, h⟩
  have key : init seed = .ok ⟨fun y => if y = 0 then some o else none, b, 1, seed, List.replicate cacheN [0, 0], 0⟩ := by
    simp only [init, newlstr, hm, if_true, intern, hh, Res.bind_ok, bucket, List.length_replicate]
    rw [List.getElem?_replicate, if_pos hlt]
    simp only [find, Res.bind_ok, growIfFull, List.length_replicate]
    rw [if_neg (by omega)]
    simp only [Res.bind_ok, gc, Option.isSome_none, Bool.false_eq_true, if_false, setObj, List.length_replicate, p1,
      getObj, Res.pure_eq, if_true]
    refine congrArg Res.ok ?_
    congr 1
    funext y
    split <;> rfl
  refine ⟨_, key, ?_⟩
  have inv_of : ∀ {y p}, (if y = 0 then some o else none) = some p → y = 0 ∧ p = o := by
    intro y p hp
    split at hp
    · cases hp; exact ⟨by assumption, rfl⟩
    · cases hp
  have hbl : b.length = 128 := by rw [p2]; simp
  constructor
  · show 0 < b.length
    omega
  · rw [p3.nodup_iff]; simp
  · intro y
    rw [p3.mem_iff]
    constructor
    · intro hy
      simp only [List.mem_cons, List.not_mem_nil, or_false] at hy
      subst hy
      exact ⟨o, by simp, rfl⟩
    · rintro ⟨p, a, _⟩
      simp [(inv_of a).1]
  · intro j y hA
    rcases (p4 j y).1 hA with ⟨rfl, rfl⟩ | hA
    · refine ⟨o, by simp, ?_⟩
      show lmod h b.length = _
      rw [hbl]
    · exact absurd hA (hAt j y)
  · intro y p hp _
    obtain ⟨_, rfl⟩ := inv_of hp
    exact hh
  · intro y z p q hp hq _ _ _
    rw [(inv_of hp).1, (inv_of hq).1]
  · intro y p hp
    obtain ⟨_, rfl⟩ := inv_of hp
    simp [o, hm]
  · show 1 = b.flatten.length
    rw [p3.length_eq]; rfl
  · simp
  · intro row hr
    rw [List.mem_replicate] at hr
    rw [hr.2]; rfl
  · intro row hr y hy
    rw [List.mem_replicate] at hr
    rw [hr.2] at hy
    have : y = 0 := by simpa using hy
    subst this
    exact ⟨o, by simp, rfl, hz⟩
  · exact ⟨o, by simp, rfl, hz⟩
  · intro y p hp _
    obtain ⟨_, rfl⟩ := inv_of hp
    rfl

/-- a state reached from a fresh `lua_State` by any history of string creations, collector actions and table shrinking -/
def Reachable (g : G) : Prop := ∃ seed ops, (init seed >>= steps ops) = .ok g

theorem Reachable.inv {g : G} (h : Reachable g) : Inv g := by
  obtain ⟨seed, ops, h⟩ := h
  obtain ⟨g0, a, b⟩ := init_inv seed
  obtain ⟨g1, c, d⟩ := steps_inv ops b
  rw [a, Res.bind_ok, c] at h
  cases h; exact d

/-- **C18.** No history of the string table runs into undefined behaviour (dangling pointers, walking off a bucket list,
indexing outside the table or the string). -/
theorem string_table_safe (seed : BitVec 32) (ops : List Op) : ∃ g, (init seed >>= steps ops) = .ok g := by
  obtain ⟨g0, a, b⟩ := init_inv seed
  obtain ⟨g1, c, _⟩ := steps_inv ops b
  exact ⟨g1, by rw [a, Res.bind_ok, c]⟩

/-- **C18.** Two short strings in existence have the same bytes iff they are the same object. -/
theorem short_strings_unique {g : G} (h : Reachable g) {x y : Nat} {ox oy : Obj} (hx : g.objs x = some ox) (hy : g.objs y = some oy)
    (sx : ox.bytes.length ≤ 40) (sy : oy.bytes.length ≤ 40) : ox.bytes = oy.bytes ↔ x = y := by
  have hi := h.inv
  constructor
  · intro e
    exact hi.uniq x y ox oy hx hy ((hi.short x ox hx).2 sx) ((hi.short y oy hy).2 sy) e
  · rintro rfl; rw [hx] at hy; cases hy; rfl

/-- **C18.** Creating a string of at most 40 bytes returns a live object with exactly these bytes.  It is the existing one if one exists
(even one waiting to be swept, which comes back to life), and then nothing else changes; otherwise it is a new object, or the allocator
has no memory.  No other string changes its contents (the collector runs `gc1`, `gc2` may free some). -/
theorem intern_spec {g : G} (h : Reachable g) {str : Bytes} (hs : str.length ≤ 40) (gc1 gc2 : List GcOp) (x : Nat) :
    (∃ y o, g.objs y = some o ∧ o.bytes = str ∧ ∃ g', newlstr g str gc1 gc2 x = .ok (g', y) ∧ IsStr g' y str ∧
      ∀ z, z ≠ y → g'.objs z = g.objs z) ∨
    ((∀ y o, g.objs y = some o → o.bytes ≠ str) ∧
      ((∃ g', newlstr g str gc1 gc2 x = .ok (g', x) ∧ IsStr g' x str ∧
        ∀ z o', z ≠ x → g'.objs z = some o' → ∃ o, g.objs z = some o ∧ o'.bytes = o.bytes) ∨ newlstr g str gc1 gc2 x = .err "not enough memory")) := by
  have hi := h.inv
  have e : newlstr g str gc1 gc2 x = intern g str gc1 gc2 x := by unfold newlstr; rw [if_pos (show str.length ≤ maxShort from hs)]
  rw [e]
  by_cases hex : ∃ y, IsShort g y str
  · obtain ⟨y, o, a, b, c⟩ := hex
    left
    refine ⟨y, o, a, b, ?_⟩
    obtain ⟨hv, hh⟩ := hash_ok str g.seed
    obtain ⟨l, r, e1, e2, e3, e4⟩ := bucket_find hi str hh
    cases r with
    | none => exact absurd ⟨o, a, b, c⟩ (e4 rfl y)
    | some z =>
      obtain ⟨o', a', b', c'⟩ := e3 z rfl
      have : z = y := hi.uniq z y o' o a' a c' c (b'.trans b.symm)
      subst this
      refine ⟨setObj g z (some { o' with dead := false }), by simp only [intern, hh, e1, e2, Res.bind_ok, getObj, a']; rfl,
        ⟨{ o' with dead := false }, by simp [setObj], b', rfl⟩, ?_⟩
      intro w hw
      simp [setObj, hw]
  · right
    refine ⟨?_, ?_⟩
    · intro y o a b
      exact hex ⟨y, o, a, b, (hi.short y o a).2 (by rw [b]; exact hs)⟩
    · rcases intern_inv hi hs gc1 gc2 x with ⟨g', y, a, _, c, _, _, f⟩ | ⟨a, _⟩
      · obtain ⟨rfl, g1, k1, _, k3⟩ := f (fun z hz => hex ⟨z, hz⟩)
        refine .inl ⟨g', a, c, ?_⟩
        intro z o' hz ho'
        rw [k3 z hz] at ho'
        obtain ⟨o, d1, d2, _⟩ := k1.1 z o' ho'
        exact ⟨o, d1, d2⟩
      · exact .inr a

/-- **C52.** `luaS_new` (behind `lua_pushstring` and friends) returns a live string whose bytes are exactly the C string it was given,
whatever the state of its address-indexed cache and whatever the collector did before; or it raises an error. -/
theorem cache_correct {g : G} (h : Reachable g) {slot : Nat} (hs : slot < 53) (str : Bytes) (gc1 gc2 : List GcOp) (x : Nat) :
    (∃ g' y, new g slot str gc1 gc2 x = .ok (g', y) ∧ IsStr g' y (str.takeWhile (· ≠ 0))) ∨
    (∃ m, new g slot str gc1 gc2 x = .err m) := by
  rcases new_inv h.inv hs str gc1 gc2 x with ⟨g', y, a, _, c⟩ | ⟨m, a⟩
  · exact .inl ⟨g', y, a, c⟩
  · exact .inr ⟨m, a⟩

/-- a history that creates "ab", lets it die, revives it by creating it again, and sweeps: the object is still there -/
example : ∃ g, (init 7 >>= steps [.newlstr [97, 98] [] [] 5, .gc (.atomic fun x => x == 5), .newlstr [97, 98] [] [] 6, .gc (.sweep 5),
    .new 3 [97, 98, 0, 99] [] [] 9]) = .ok g ∧ IsStr g 5 [97, 98] ∧ g.objs 6 = none ∧ g.objs 9 = none := by
  have e : (match (init 7 >>= steps [.newlstr [97, 98] [] [] 5, .gc (.atomic fun x => x == 5), .newlstr [97, 98] [] [] 6, .gc (.sweep 5),
      .new 3 [97, 98, 0, 99] [] [] 9]) with
    | .ok g => decide ((g.objs 5).map (fun o => (o.bytes, o.dead)) = some ([97, 98], false) ∧ (g.objs 6).isNone ∧ (g.objs 9).isNone)
    | _ => false) = true := by decide +kernel
  split at e
  · rename_i g hg
    simp only [decide_eq_true_eq] at e
    obtain ⟨e1, e2, e3⟩ := e
    rw [Option.map_eq_some_iff] at e1
    obtain ⟨o, h1, h2⟩ := e1
    simp only [Prod.mk.injEq] at h2
    exact ⟨g, hg, ⟨o, h1, h2.1, h2.2⟩, by simpa using e2, by simpa using e3⟩
  · cases e

end Verif.StrTab
