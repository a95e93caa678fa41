import Verif.RArray.Spec
/-! The implementation simulates the specification. -/
namespace Verif.RArray
open Verif.Arith (LInt)
variable {E : Type}

structure OK (h : Heap E) (s : Abs E) (a : Arr) (o : AObj) (k : Block E) : Prop where
  llen : o.cells.length = a.len
  pos : 1 ≤ a.len
  lesz : a.len ≤ a.size
  sz : a.size < 2 ^ 32
  sl : o.sliceable = a.fixed
  sf : a.slice = true → a.fixed = true ∧ a.len = a.size
  par : o.parent = a.parent
  cap : a.fixed = true → o.cap = a.size
  dyn : a.fixed = false → o.cap = dynCap ∧ a.size % 10 = 3
  nons : a.slice = false → a.off = 0 ∧ k.size = a.size ∧ a.parent = none
  blk : h.blocks a.blk = some k
  bsz : a.off + a.size ≤ k.size
  mem : ∀ i c, o.cells[i]? = some c → k.data (a.off + i) = some (s.cell c)

structure Rel (h : Heap E) (s : Abs E) : Prop where
  nobj : h.nobj = s.nobj
  dom : ∀ x, h.objs x = none ↔ s.objs x = none
  lt : ∀ x a, h.objs x = some a → x < h.nobj
  obj : ∀ x a o, h.objs x = some a → s.objs x = some o → ∃ k, OK h s a o k
  loc : ∀ x y a b o o' i j c c', h.objs x = some a → h.objs y = some b → s.objs x = some o → s.objs y = some o' →
    o.cells[i]? = some c → o'.cells[j]? = some c' → (c = c' ↔ a.blk = b.blk ∧ a.off + i = b.off + j)
  inRoot : ∀ x y a b, h.objs x = some a → h.objs y = some b → a.slice = false → a.blk = b.blk →
    x = y ∨ (a.fixed = true ∧ b.slice = true ∧ b.off + b.len ≤ a.len)
  par : ∀ y b, h.objs y = some b → b.slice = true →
    ∃ p a, b.parent = some p ∧ p < y ∧ h.objs p = some a ∧ a.blk = b.blk
  fresh : ∀ x a, h.objs x = some a → a.blk < h.nblk
  cfresh : ∀ x o c, s.objs x = some o → c ∈ o.cells → c < s.ncell

theorem Rel.init (z : E) : Rel (empty : Heap E) (Abs.empty z) := by
  constructor <;> simp [empty, Abs.empty]

theorem Rel.get {h : Heap E} {s : Abs E} (r : Rel h s) {x : Nat} (hx : s.objs x ≠ none) :
    ∃ a o k, h.objs x = some a ∧ s.objs x = some o ∧ OK h s a o k := by
  obtain ⟨o, ho⟩ := Option.ne_none_iff_exists'.1 hx
  have : h.objs x ≠ none := fun e => hx ((r.dom x).1 e)
  obtain ⟨a, ha⟩ := Option.ne_none_iff_exists'.1 this
  obtain ⟨k, hk⟩ := r.obj x a o ha ho
  exact ⟨a, o, k, ha, ho, hk⟩

theorem OK.cell_some {h : Heap E} {s : Abs E} {a : Arr} {o : AObj} {k : Block E} (ok : OK h s a o k) {i : Nat}
    (hi : i < a.len) : ∃ c, o.cells[i]? = some c := by
  rw [← ok.llen] at hi
  exact ⟨_, List.getElem?_eq_getElem hi⟩

theorem OK.load {h : Heap E} {s : Abs E} {a : Arr} {o : AObj} {k : Block E} (ok : OK h s a o k) {i : Nat} {c : Nat}
    (hc : o.cells[i]? = some c) : RArray.load h a.blk (a.off + i) = .ok (s.cell c) := by
  have hi : i < o.cells.length := (List.getElem?_eq_some_iff.1 hc).1
  have := ok.bsz; have := ok.llen; have := ok.lesz
  unfold RArray.load
  rw [ok.blk]
  dsimp only
  rw [if_pos (by omega), ok.mem i c hc]

theorem sim_get {h : Heap E} {s : Abs E} {a : Arr} {o : AObj} {k : Block E} (ok : OK h s a o k) (i : LInt) :
    get h a i = aget actual s o i := by
  unfold RArray.get aget actual ukey
  dsimp only
  by_cases hi : i.toNat % 2 ^ 32 < a.len
  · rw [if_pos hi]
    obtain ⟨c, hc⟩ := ok.cell_some hi
    rw [ok.load hc, hc]
  · rw [if_neg hi, List.getElem?_eq_none (by rw [ok.llen]; omega)]

/-- storing to an existing cell -/
theorem write {h : Heap E} {s : Abs E} (r : Rel h s) {x u c : Nat} {a : Arr} {o : AObj} (hx : h.objs x = some a)
    (ho : s.objs x = some o) (hc : o.cells[u]? = some c) (v : E) :
    ∃ h', fill h a.blk (a.off + u) 1 v = .ok h' ∧ Rel h' { s with cell := upd s.cell c v } ∧ h'.objs = h.objs := by
  obtain ⟨k, ok⟩ := r.obj x a o hx ho
  have hi : u < o.cells.length := (List.getElem?_eq_some_iff.1 hc).1
  have e1 := ok.bsz; have e2 := ok.llen; have e3 := ok.lesz
  unfold fill
  rw [ok.blk]
  dsimp only
  rw [if_pos (by omega)]
  refine ⟨_, rfl, ?_, rfl⟩
  constructor
  · exact r.nobj
  · exact r.dom
  · exact r.lt
  · intro y b o' hy hoy
    dsimp only at hy hoy ⊢
    obtain ⟨k', ok'⟩ := r.obj y b o' hy hoy
    by_cases hb : b.blk = a.blk
    · have hkk : k' = k := by have := ok'.blk; rw [hb, ok.blk] at this; cases this; rfl
      subst hkk
      refine ⟨⟨k'.size, fun j => if a.off + u ≤ j ∧ j < a.off + u + 1 then some v else k'.data j⟩, ?_⟩
      constructor
      · exact ok'.llen
      · exact ok'.pos
      · exact ok'.lesz
      · exact ok'.sz
      · exact ok'.sl
      · exact ok'.sf
      · exact ok'.par
      · exact ok'.cap
      · exact ok'.dyn
      · exact ok'.nons
      · simp [upd, hb]
      · exact ok'.bsz
      · intro j c' hc'
        dsimp only
        have hl := r.loc x y a b o o' u j c c' hx hy ho hoy hc hc'
        by_cases e : c = c'
        · have := (hl.1 e).2
          rw [if_pos (by omega), ← e]
          simp [upd]
        · have : ¬ (a.off + u = b.off + j) := fun e' => e (hl.2 ⟨hb.symm, e'⟩)
          rw [if_neg (by omega), ok'.mem j c' hc']
          simp only [upd]
          rw [if_neg (fun e' => e e'.symm)]
    · refine ⟨k', ok'.llen, ok'.pos, ok'.lesz, ok'.sz, ok'.sl, ok'.sf, ok'.par, ok'.cap, ok'.dyn, ok'.nons, ?_, ok'.bsz, ?_⟩
      · simp only [upd]; rw [if_neg hb]; exact ok'.blk
      · intro j c' hc'
        have hl := r.loc x y a b o o' u j c c' hx hy ho hoy hc hc'
        have : c' ≠ c := fun e => hb (hl.1 e.symm).1.symm
        simp only [upd]
        rw [if_neg this]; exact ok'.mem j c' hc'
  · exact r.loc
  · exact r.inRoot
  · exact r.par
  · exact r.fresh
  · exact r.cfresh

/-- appending inside the capacity -/
theorem append {h : Heap E} {s : Abs E} (r : Rel h s) {x : Nat} {a : Arr} {o : AObj} (hx : h.objs x = some a)
    (ho : s.objs x = some o) (hlt : a.len < a.size) (v : E) :
    ∃ h', fill h a.blk (a.off + a.len) 1 v = .ok h' ∧
      Rel (setObj h' x { a with len := a.len + 1 })
        { s with objs := upd s.objs x (some { o with cells := o.cells ++ [s.ncell] })
                 cell := upd s.cell s.ncell v, ncell := s.ncell + 1 } := by
  obtain ⟨k, ok⟩ := r.obj x a o hx ho
  have e1 := ok.bsz; have e2 := ok.llen; have e3 := ok.lesz
  have hns : a.slice = false := by
    cases hs : a.slice with
    | false => rfl
    | true => have := (ok.sf hs).2; omega
  obtain ⟨n1, n2, n3⟩ := ok.nons hns
  -- cells of other objects are elsewhere
  have hoth : ∀ y b o' j c', y ≠ x → h.objs y = some b → s.objs y = some o' → o'.cells[j]? = some c' →
      b.blk = a.blk → b.off + j ≠ a.off + a.len := by
    intro y b o' j c' hne hy hoy hc' hb
    rcases r.inRoot x y a b hx hy hns hb.symm with e | ⟨_, _, e⟩
    · exact absurd e.symm hne
    · obtain ⟨k', ok'⟩ := r.obj y b o' hy hoy
      have := (List.getElem?_eq_some_iff.1 hc').1
      have := ok'.llen
      omega
  have hself : ∀ j c', o.cells[j]? = some c' → j < a.len := by
    intro j c' hc'
    have := (List.getElem?_eq_some_iff.1 hc').1
    omega
  have hcf : ∀ (y : Nat) (o' : AObj) (j c' : Nat), s.objs y = some o' → o'.cells[j]? = some c' → c' ≠ s.ncell := by
    intro y o' j c' hoy hc'
    have := r.cfresh y o' c' hoy (List.mem_of_getElem? hc')
    omega
  have happ : ∀ j c', (o.cells ++ [s.ncell])[j]? = some c' →
      (o.cells[j]? = some c' ∧ j < a.len) ∨ (j = a.len ∧ c' = s.ncell) := by
    intro j c' hc'
    by_cases hj : j < o.cells.length
    · rw [List.getElem?_append_left hj] at hc'
      exact .inl ⟨hc', by omega⟩
    · rw [List.getElem?_append_right (by omega)] at hc'
      have := (List.getElem?_eq_some_iff.1 hc')
      obtain ⟨h1, h2⟩ := this
      simp at h1
      right
      refine ⟨by omega, ?_⟩
      have h3 : j - o.cells.length = 0 := by omega
      simp [h3] at h2
      exact h2.symm
  unfold fill
  rw [ok.blk]
  dsimp only
  rw [if_pos (by omega)]
  refine ⟨_, rfl, ?_⟩
  constructor
  · exact r.nobj
  · intro y
    simp only [setObj, upd]
    split
    · simp
    · exact r.dom y
  · intro y b hy
    simp only [setObj, upd] at hy ⊢
    split at hy
    · rename_i e; subst e; exact r.lt y a hx
    · exact r.lt y b hy
  · intro y b o' hy hoy
    simp only [setObj, upd] at hy hoy ⊢
    by_cases e : y = x
    · subst e
      rw [if_pos rfl] at hy hoy
      cases hy; cases hoy
      refine ⟨⟨k.size, fun j => if a.off + a.len ≤ j ∧ j < a.off + a.len + 1 then some v else k.data j⟩,
        ?_, ?_, ?_, ok.sz, ok.sl, ?_, ok.par, ok.cap, ok.dyn, ?_, ?_, ?_, ?_⟩
      · simp [ok.llen]
      · dsimp only; omega
      · dsimp only; omega
      · dsimp only; intro hs; rw [hns] at hs; cases hs
      · exact ok.nons
      · simp [upd]
      · exact ok.bsz
      · intro j c' hc'
        dsimp only
        rcases happ j c' hc' with ⟨g1, g2⟩ | ⟨g1, g2⟩
        · rw [if_neg (by omega), ok.mem j c' g1]
          simp only [upd]
          rw [if_neg (hcf y o j c' ho g1)]
        · simp only [upd]
          rw [if_pos (by omega), if_pos g2]
    · rw [if_neg e] at hy hoy
      obtain ⟨k', ok'⟩ := r.obj y b o' hy hoy
      by_cases hb : b.blk = a.blk
      · have hkk : k' = k := by have := ok'.blk; rw [hb, ok.blk] at this; cases this; rfl
        subst hkk
        refine ⟨⟨k'.size, fun j => if a.off + a.len ≤ j ∧ j < a.off + a.len + 1 then some v else k'.data j⟩,
          ok'.llen, ok'.pos, ok'.lesz, ok'.sz, ok'.sl, ok'.sf, ok'.par, ok'.cap, ok'.dyn, ok'.nons, ?_, ok'.bsz, ?_⟩
        · simp [upd, hb]
        · intro j c' hc'
          dsimp only
          have := hoth y b o' j c' e hy hoy hc' hb
          rw [if_neg (by omega), ok'.mem j c' hc']; simp only [upd]; rw [if_neg (hcf y o' j c' hoy hc')]
      · refine ⟨k', ok'.llen, ok'.pos, ok'.lesz, ok'.sz, ok'.sl, ok'.sf, ok'.par, ok'.cap, ok'.dyn, ok'.nons, ?_, ok'.bsz, ?_⟩
        · simp only [upd]; rw [if_neg hb]; exact ok'.blk
        · intro j c' hc'
          dsimp only
          rw [ok'.mem j c' hc']; simp only [upd]; rw [if_neg (hcf y o' j c' hoy hc')]
  · intro x1 y1 a1 b1 o1 o1' i j c c' h1 h2 h3 h4 h5 h6
    simp only [setObj, upd] at h1 h2 h3 h4
    by_cases e : x1 = x
    · subst e
      rw [if_pos rfl] at h1 h3
      cases h1; cases h3
      dsimp only at h5 ⊢
      by_cases e' : y1 = x1
      · subst e'
        rw [if_pos rfl] at h2 h4
        cases h2; cases h4
        dsimp only at h6 ⊢
        rcases happ i c h5 with ⟨g1, g2⟩ | ⟨g1, g2⟩
        · rcases happ j c' h6 with ⟨g3, g4⟩ | ⟨g3, g4⟩
          · exact r.loc y1 y1 a a o o i j c c' hx hx ho ho g1 g3
          · have := hcf y1 o i c ho g1
            constructor
            · intro e; omega
            · intro e; omega
        · rcases happ j c' h6 with ⟨g3, g4⟩ | ⟨g3, g4⟩
          · have := hcf y1 o j c' ho g3
            constructor
            · intro e; omega
            · intro e; omega
          · constructor
            · intro _; exact ⟨rfl, by omega⟩
            · intro _; omega
      · rw [if_neg e'] at h2 h4
        rcases happ i c h5 with ⟨g1, g2⟩ | ⟨g1, g2⟩
        · exact r.loc x1 y1 a b1 o o1' i j c c' hx h2 ho h4 g1 h6
        · have := hcf y1 o1' j c' h4 h6
          constructor
          · intro e; omega
          · rintro ⟨q1, q2⟩
            have := hoth y1 b1 o1' j c' e' h2 h4 h6 q1.symm
            omega
    · rw [if_neg e] at h1 h3
      by_cases e' : y1 = x
      · subst e'
        rw [if_pos rfl] at h2 h4
        cases h2; cases h4
        dsimp only at h6 ⊢
        rcases happ j c' h6 with ⟨g1, g2⟩ | ⟨g1, g2⟩
        · exact r.loc x1 y1 a1 a o1 o i j c c' h1 hx h3 ho h5 g1
        · have := hcf x1 o1 i c h3 h5
          constructor
          · intro e; omega
          · rintro ⟨q1, q2⟩
            have := hoth x1 a1 o1 i c e h1 h3 h5 q1
            omega
      · rw [if_neg e'] at h2 h4
        exact r.loc x1 y1 a1 b1 o1 o1' i j c c' h1 h2 h3 h4 h5 h6
  · intro x1 y1 a1 b1 h1 h2 h3 h4
    simp only [setObj, upd] at h1 h2
    by_cases e : x1 = x
    · subst e
      rw [if_pos rfl] at h1
      cases h1
      by_cases e' : y1 = x1
      · exact .inl e'.symm
      · rw [if_neg e'] at h2
        rcases r.inRoot x1 y1 a b1 hx h2 hns h4 with q | ⟨q1, q2, q3⟩
        · exact .inl q
        · exact .inr ⟨q1, q2, by dsimp only; omega⟩
    · rw [if_neg e] at h1
      by_cases e' : y1 = x
      · subst e'
        rw [if_pos rfl] at h2
        cases h2
        rcases r.inRoot x1 y1 a1 a h1 hx h3 h4 with q | ⟨_, q2, _⟩
        · exact .inl q
        · rw [hns] at q2; cases q2
      · rw [if_neg e'] at h2
        exact r.inRoot x1 y1 a1 b1 h1 h2 h3 h4
  · intro y b hy hs
    simp only [setObj, upd] at hy ⊢
    by_cases e : y = x
    · subst e
      rw [if_pos rfl] at hy
      cases hy
      dsimp only at hs
      rw [hns] at hs; cases hs
    · rw [if_neg e] at hy
      obtain ⟨p, b', q1, q2, q3, q4⟩ := r.par y b hy hs
      by_cases e' : p = x
      · subst e'
        rw [hx] at q3; cases q3
        exact ⟨p, { a with len := a.len + 1 }, q1, q2, by simp, q4⟩
      · exact ⟨p, b', q1, q2, by rw [if_neg e']; exact q3, q4⟩
  · intro y b hy
    simp only [setObj, upd] at hy ⊢
    split at hy
    · cases hy; exact r.fresh x a hx
    · exact r.fresh y b hy
  · intro y o' c hoy hc
    simp only [upd] at hoy ⊢
    split at hoy
    · cases hoy
      simp only [List.mem_append, List.mem_singleton] at hc
      rcases hc with hc | hc
      · have := r.cfresh x o c ho hc; omega
      · omega
    · have := r.cfresh y o' c hoy hc; omega

/-- `resizeArray` with everything computed -/
theorem resizeArray_eq (z : E) (h : Heap E) (x : Nat) (a : Arr) (k : Block E) (n size : Nat) (init : Bool)
    (hn : newSize a n = some size) (hb : h.blocks a.blk = some k) (hlt : a.blk < h.nblk) (hk : a.size ≤ k.size)
    (hs : a.size < size) (hl : a.len ≤ a.size) :
    ∃ h', resizeArray z h x a n init = .ok (some (h', { a with size := size, alloc := true, blk := h.nblk })) ∧
      h'.objs = upd h.objs x (some { a with size := size, alloc := true, blk := h.nblk }) ∧ h'.nobj = h.nobj ∧
      h'.nblk = h.nblk + 1 ∧
      h'.blocks h.nblk = some ⟨size, fun j => if init = true ∧ a.len ≤ j ∧ j < a.len + (size - a.size) then some z
        else if j < a.size then k.data j else none⟩ ∧
      (∀ b, b ≠ h.nblk → b ≠ a.blk → h'.blocks b = h.blocks b) := by
  have hne : a.blk ≠ h.nblk := by omega
  have hne' : h.nblk ≠ a.blk := fun e => hne e.symm
  unfold resizeArray
  rw [hn]
  dsimp only [alloc, copy]
  simp only [upd, if_neg hne, hb, if_true]
  rw [if_pos ⟨hk, by omega⟩]
  simp only [Res.bind_ok]
  cases ha : a.alloc <;> cases init <;>
    simp [freeBlk, upd, hne, hne', hb, fill, setObj, show a.len + (size - a.size) ≤ size by omega]
  all_goals (intro b h1 h2; simp [h1, h2])

/-- a dynamic array moves to a larger block; nothing changes for the specification -/
theorem grow {h : Heap E} {s : Abs E} (r : Rel h s) {x : Nat} {a : Arr} {o : AObj} (hx : h.objs x = some a)
    (ho : s.objs x = some o) (hfull : a.len = a.size) (hf : a.fixed = false) (z : E) :
    (resizeArray z h x a 0 true = .ok none ∧ ¬ a.len < o.cap) ∨
    ∃ h' a', resizeArray z h x a 0 true = .ok (some (h', a')) ∧ Rel h' s ∧ h'.objs x = some a' ∧ a'.len = a.len ∧
      a'.len < a'.size ∧ a.len < o.cap := by
  obtain ⟨k, ok⟩ := r.obj x a o hx ho
  have hns : a.slice = false := by
    cases hs : a.slice with
    | false => rfl
    | true => have := (ok.sf hs).1; rw [hf] at this; cases this
  obtain ⟨n1, n2, n3⟩ := ok.nons hns
  obtain ⟨d1, d2⟩ := ok.dyn hf
  have hsz := ok.sz
  have hpos := ok.pos
  by_cases hov : a.size + 10 < 2 ^ 32
  · right
    have hn : newSize a 0 = some (a.size + 10) := by
      unfold newSize
      rw [if_neg (by simp [hf, hns])]
      dsimp only
      simp only [show 0 < a.size + 10 by omega, Nat.mod_eq_of_lt hov, if_true, ne_eq, not_true, if_false]
      rw [if_neg (by omega)]
    obtain ⟨h', e1, e2, e3, e4, e5, e6⟩ := resizeArray_eq z h x a k 0 (a.size + 10) true hn ok.blk (r.fresh x a hx)
      (by omega) (by omega) (by omega)
    refine ⟨h', _, e1, ?_, by rw [e2]; simp [upd], rfl, by dsimp only; omega, by rw [d1]; unfold dynCap; omega⟩
    have hlt := r.fresh x a hx
    -- no other object lives in the old block
    have hoth : ∀ y b, y ≠ x → h.objs y = some b → b.blk ≠ a.blk := by
      intro y b hne hy e
      rcases r.inRoot x y a b hx hy hns e.symm with q | ⟨q, _⟩
      · exact hne q.symm
      · rw [hf] at q; cases q
    have hcase : ∀ y b, h'.objs y = some b → (y = x ∧ b = { a with size := a.size + 10, alloc := true, blk := h.nblk }) ∨
        (y ≠ x ∧ h.objs y = some b) := by
      intro y b hy
      rw [e2] at hy
      unfold upd at hy
      split at hy
      · rename_i e; cases hy; exact .inl ⟨e, rfl⟩
      · rename_i e; exact .inr ⟨e, hy⟩
    constructor
    · rw [e3]; exact r.nobj
    · intro y
      rw [e2]
      unfold upd
      split
      · rename_i e; subst e; simp [ho]
      · exact r.dom y
    · intro y b hy
      rw [e3]
      rcases hcase y b hy with ⟨q, _⟩ | ⟨_, q⟩
      · subst q; exact r.lt y a hx
      · exact r.lt y b q
    · intro y b o' hy hoy
      rcases hcase y b hy with ⟨q, qb⟩ | ⟨q1, q2⟩
      · subst q; subst qb
        rw [ho] at hoy; cases hoy
        refine ⟨_, ok.llen, ok.pos, ?_, hov, ok.sl, ?_, ok.par, ?_, ?_, ?_, e5, ?_, ?_⟩
        · dsimp only; omega
        · intro q; dsimp only at q; rw [hns] at q; cases q
        · intro q; dsimp only at q; rw [hf] at q; cases q
        · intro _; exact ⟨d1, by dsimp only; omega⟩
        · intro _; exact ⟨n1, rfl, n3⟩
        · dsimp only; omega
        · intro i c hc
          have := (List.getElem?_eq_some_iff.1 hc).1
          have := ok.llen
          dsimp only
          rw [if_neg (by omega), if_pos (by omega), ok.mem i c hc]
      · obtain ⟨k', ok'⟩ := r.obj y b o' q2 hoy
        refine ⟨k', ok'.llen, ok'.pos, ok'.lesz, ok'.sz, ok'.sl, ok'.sf, ok'.par, ok'.cap, ok'.dyn, ok'.nons, ?_, ok'.bsz, ok'.mem⟩
        rw [e6 b.blk (by have := r.fresh y b q2; omega) (hoth y b q1 q2)]
        exact ok'.blk
    · intro x1 y1 a1 b1 o1 o2 i j c c' h1 h2 h3 h4 h5 h6
      rcases hcase x1 a1 h1 with ⟨q, qb⟩ | ⟨q1, q2⟩
      · subst q; subst qb
        rw [ho] at h3; cases h3
        rcases hcase y1 b1 h2 with ⟨p, pb⟩ | ⟨p1, p2⟩
        · subst p; subst pb
          rw [ho] at h4; cases h4
          have := r.loc y1 y1 a a o o i j c c' hx hx ho ho h5 h6
          rw [this]
          dsimp only
          simp
        · have := r.loc x1 y1 a b1 o o2 i j c c' hx p2 ho h4 h5 h6
          have hn := hoth y1 b1 p1 p2
          have hfr := r.fresh y1 b1 p2
          dsimp only
          constructor
          · intro e; exact absurd (this.1 e).1.symm hn
          · rintro ⟨e, _⟩; omega
      · rcases hcase y1 b1 h2 with ⟨p, pb⟩ | ⟨p1, p2⟩
        · subst p; subst pb
          rw [ho] at h4; cases h4
          have := r.loc x1 y1 a1 a o1 o i j c c' q2 hx h3 ho h5 h6
          have hn := hoth x1 a1 q1 q2
          have hfr := r.fresh x1 a1 q2
          dsimp only
          constructor
          · intro e; exact absurd (this.1 e).1 hn
          · rintro ⟨e, _⟩; omega
        · exact r.loc x1 y1 a1 b1 o1 o2 i j c c' q2 p2 h3 h4 h5 h6
    · intro x1 y1 a1 b1 h1 h2 h3 h4
      rcases hcase x1 a1 h1 with ⟨q, qb⟩ | ⟨q1, q2⟩
      · rcases hcase y1 b1 h2 with ⟨p, pb⟩ | ⟨p1, p2⟩
        · left; omega
        · subst qb
          have hfr := r.fresh y1 b1 p2
          dsimp only at h4
          omega
      · rcases hcase y1 b1 h2 with ⟨p, pb⟩ | ⟨p1, p2⟩
        · subst pb
          have hfr := r.fresh x1 a1 q2
          dsimp only at h4
          omega
        · exact r.inRoot x1 y1 a1 b1 q2 p2 h3 h4
    · intro y b hy hs
      rcases hcase y b hy with ⟨q, qb⟩ | ⟨q1, q2⟩
      · subst qb; dsimp only at hs; rw [hns] at hs; cases hs
      · obtain ⟨p, b', w1, w2, w3, w4⟩ := r.par y b q2 hs
        have : p ≠ x := by
          intro e
          subst e
          rw [hx] at w3; cases w3
          exact hoth y b q1 q2 w4.symm
        exact ⟨p, b', w1, w2, by rw [e2]; unfold upd; rw [if_neg this]; exact w3, w4⟩
    · intro y b hy
      rw [e4]
      rcases hcase y b hy with ⟨q, qb⟩ | ⟨q1, q2⟩
      · subst qb; dsimp only; omega
      · have := r.fresh y b q2; omega
    · exact r.cfresh
  · left
    refine ⟨?_, by rw [d1]; unfold dynCap; omega⟩
    unfold resizeArray newSize
    rw [if_neg (by simp [hf, hns])]
    dsimp only
    have hne : ¬ ((a.size + 10) % 2 ^ 32 = a.size + 10) := by omega
    simp only [show 0 < a.size + 10 by omega, hne, if_true, ne_eq, Nat.zero_le, not_false_eq_true]

theorem sim_set {h : Heap E} {s : Abs E} (r : Rel h s) {x : Nat} {a : Arr} {o : AObj} (hx : h.objs x = some a)
    (ho : s.objs x = some o) (z : E) (i : LInt) (v : E) :
    (∃ m, set z h x a i v = .err m ∧ aset actual s x o i v = .err m) ∨
    ∃ h' s', set z h x a i v = .ok h' ∧ aset actual s x o i v = .ok s' ∧ Rel h' s' := by
  obtain ⟨k, ok⟩ := r.obj x a o hx ho
  unfold RArray.set aset actual ukey
  dsimp only
  generalize i.toNat % 2 ^ 32 = u
  by_cases hu : u < a.len
  · rw [if_pos hu]
    obtain ⟨c, hc⟩ := ok.cell_some hu
    rw [hc]
    obtain ⟨h', w1, w2, _⟩ := write r hx ho hc v
    exact .inr ⟨h', _, w1, rfl, w2⟩
  · rw [if_neg hu, List.getElem?_eq_none (by rw [ok.llen]; omega)]
    dsimp only
    rw [ok.llen]
    by_cases hl : u = a.len
    · rw [if_pos hl, if_pos hl]
      by_cases hs : u < a.size
      · rw [if_pos hs]
        have hcap : u < o.cap := by
          cases hf : a.fixed with
          | true => rw [ok.cap hf]; exact hs
          | false => rw [(ok.dyn hf).1]; have := ok.sz; have := (ok.dyn hf).2; unfold dynCap; omega
        rw [if_pos hcap]
        subst hl
        obtain ⟨h', w1, w2⟩ := append r hx ho hs v
        rw [w1]
        exact .inr ⟨_, _, rfl, rfl, w2⟩
      · rw [if_neg hs]
        have hle := ok.lesz
        have hfull : a.len = a.size := by omega
        cases hf : a.fixed with
        | true =>
          have hcap : ¬ u < o.cap := by rw [ok.cap hf]; exact hs
          rw [if_neg hcap]
          have : resizeArray z h x a 0 true = .ok none := by
            unfold resizeArray newSize
            rw [if_pos (by simp [hf])]
          rw [this]
          exact .inl ⟨_, rfl, rfl⟩
        | false =>
          rcases grow r hx ho hfull hf z with ⟨g1, g2⟩ | ⟨h', a', g1, g2, g3, g4, g5, g6⟩
          · rw [g1, if_neg (by omega)]
            exact .inl ⟨_, rfl, rfl⟩
          · rw [g1, if_pos (by omega)]
            simp only [Res.bind_ok]
            obtain ⟨h2, w1, w2⟩ := append g2 g3 ho g5 v
            rw [show u = a'.len by omega, w1]
            exact .inr ⟨_, _, rfl, rfl, w2⟩
    · rw [if_neg hl, if_neg hl]
      exact .inl ⟨_, rfl, rfl⟩

/-- adding an array with fresh storage and fresh cells -/
theorem addFresh {h h' : Heap E} {s : Abs E} (r : Rel h s) {a : Arr} {o : AObj} {n : Nat} {cell' : Nat → E} {k : Block E}
    (e1 : h'.objs = upd h.objs h.nobj (some a)) (e2 : h'.nobj = h.nobj + 1) (e3 : h.nblk ≤ a.blk) (e4 : a.blk < h'.nblk)
    (e5 : ∀ b, b < h.nblk → h'.blocks b = h.blocks b) (e6 : a.slice = false)
    (ec : ∀ i c, o.cells[i]? = some c → c = s.ncell + i ∧ i < n) (ecell : ∀ c, c < s.ncell → cell' c = s.cell c)
    (ok : ∀ s' : Abs E, s'.cell = cell' → OK h' s' a o k) :
    Rel h' (Abs.add { s with cell := cell', ncell := s.ncell + n } o) := by
  have hcase : ∀ y b, h'.objs y = some b → (y = h.nobj ∧ b = a) ∨ (y ≠ h.nobj ∧ h.objs y = some b) := by
    intro y b hy
    rw [e1] at hy
    unfold upd at hy
    split at hy
    · rename_i e; cases hy; exact .inl ⟨e, rfl⟩
    · rename_i e; exact .inr ⟨e, hy⟩
  have hcase2 : ∀ y o', (Abs.add { s with cell := cell', ncell := s.ncell + n } o).objs y = some o' →
      (y = h.nobj ∧ o' = o) ∨ (y ≠ h.nobj ∧ s.objs y = some o') := by
    intro y o' hy
    simp only [Abs.add, upd, ← r.nobj] at hy
    split at hy
    · rename_i e; cases hy; exact .inl ⟨e, rfl⟩
    · rename_i e; exact .inr ⟨e, hy⟩
  have hold : ∀ y o' j c', s.objs y = some o' → o'.cells[j]? = some c' → c' < s.ncell := fun y o' j c' hoy hc' =>
    r.cfresh y o' c' hoy (List.mem_of_getElem? (i := j) hc')
  have hlen := ok (Abs.add { s with cell := cell', ncell := s.ncell + n } o) rfl
  constructor
  · simp only [Abs.add]; rw [e2, r.nobj]
  · intro y
    rw [e1]
    simp only [Abs.add, upd, ← r.nobj]
    split
    · simp
    · exact r.dom y
  · intro y b hy
    rw [e2]
    rcases hcase y b hy with ⟨q, _⟩ | ⟨_, q⟩
    · omega
    · have := r.lt y b q; omega
  · intro y b o' hy hoy
    rcases hcase y b hy with ⟨q, qb⟩ | ⟨q1, q2⟩
    · rcases hcase2 y o' hoy with ⟨_, p⟩ | ⟨p, _⟩
      · subst qb; subst p; exact ⟨k, hlen⟩
      · exact absurd q p
    · rcases hcase2 y o' hoy with ⟨p, _⟩ | ⟨_, p⟩
      · exact absurd p q1
      · obtain ⟨k', ok'⟩ := r.obj y b o' q2 p
        refine ⟨k', ok'.llen, ok'.pos, ok'.lesz, ok'.sz, ok'.sl, ok'.sf, ok'.par, ok'.cap, ok'.dyn, ok'.nons, ?_, ok'.bsz, ?_⟩
        · rw [e5 _ (r.fresh y b q2)]; exact ok'.blk
        · intro j c' hc'
          simp only [Abs.add]
          rw [ok'.mem j c' hc', ecell c' (hold y o' j c' p hc')]
  · intro x1 y1 a1 b1 o1 o2 i j c c' h1 h2 h3 h4 h5 h6
    rcases hcase x1 a1 h1 with ⟨q, qb⟩ | ⟨q1, q2⟩
    · rcases hcase2 x1 o1 h3 with ⟨_, p⟩ | ⟨p, _⟩
      · subst qb; subst p
        obtain ⟨g1, g2⟩ := ec i c h5
        rcases hcase y1 b1 h2 with ⟨w, wb⟩ | ⟨w1, w2⟩
        · rcases hcase2 y1 o2 h4 with ⟨_, v⟩ | ⟨v, _⟩
          · subst wb; subst v
            obtain ⟨g3, g4⟩ := ec j c' h6
            constructor
            · intro e; exact ⟨rfl, by omega⟩
            · rintro ⟨_, e⟩; omega
          · exact absurd w v
        · rcases hcase2 y1 o2 h4 with ⟨v, _⟩ | ⟨_, v⟩
          · exact absurd v w1
          · have := hold y1 o2 j c' v h6
            have := r.fresh y1 b1 w2
            constructor
            · intro e; omega
            · rintro ⟨e, _⟩; omega
      · exact absurd q p
    · rcases hcase2 x1 o1 h3 with ⟨p, _⟩ | ⟨_, p⟩
      · exact absurd p q1
      · rcases hcase y1 b1 h2 with ⟨w, wb⟩ | ⟨w1, w2⟩
        · rcases hcase2 y1 o2 h4 with ⟨_, v⟩ | ⟨v, _⟩
          · subst wb; subst v
            obtain ⟨g3, g4⟩ := ec j c' h6
            have := hold x1 o1 i c p h5
            have := r.fresh x1 a1 q2
            constructor
            · intro e; omega
            · rintro ⟨e, _⟩; omega
          · exact absurd w v
        · rcases hcase2 y1 o2 h4 with ⟨v, _⟩ | ⟨_, v⟩
          · exact absurd v w1
          · exact r.loc x1 y1 a1 b1 o1 o2 i j c c' q2 w2 p v h5 h6
  · intro x1 y1 a1 b1 h1 h2 h3 h4
    rcases hcase x1 a1 h1 with ⟨q, qb⟩ | ⟨q1, q2⟩
    · rcases hcase y1 b1 h2 with ⟨p, pb⟩ | ⟨p1, p2⟩
      · left; omega
      · subst qb
        have hfr := r.fresh y1 b1 p2
        omega
    · rcases hcase y1 b1 h2 with ⟨p, pb⟩ | ⟨p1, p2⟩
      · subst pb
        have hfr := r.fresh x1 a1 q2
        omega
      · exact r.inRoot x1 y1 a1 b1 q2 p2 h3 h4
  · intro y b hy hs
    rcases hcase y b hy with ⟨q, qb⟩ | ⟨q1, q2⟩
    · subst qb; rw [e6] at hs; cases hs
    · obtain ⟨p, b', w1, w2, w3, w4⟩ := r.par y b q2 hs
      refine ⟨p, b', w1, w2, ?_, w4⟩
      rw [e1]; unfold upd; rw [if_neg (by have := r.lt p b' w3; omega)]; exact w3
  · intro y b hy
    rcases hcase y b hy with ⟨q, qb⟩ | ⟨q1, q2⟩
    · subst qb; exact e4
    · have := r.fresh y b q2; omega
  · intro y o' c hoy hc
    simp only [Abs.add]
    rcases hcase2 y o' hoy with ⟨_, p⟩ | ⟨_, p⟩
    · subst p
      obtain ⟨i, hi⟩ := List.mem_iff_getElem?.1 hc
      have := ec i c hi
      omega
    · have := r.cfresh y o' c p hc
      omega

theorem new_eq (z : E) (h : Heap E) : ∃ h', new z h = .ok (h', h.nobj, ⟨false, false, false, 1, 3, h.nblk, 0, none⟩) ∧
    h'.objs = upd h.objs h.nobj (some ⟨false, false, false, 1, 3, h.nblk, 0, none⟩) ∧ h'.nobj = h.nobj + 1 ∧
    h'.nblk = h.nblk + 1 ∧
    h'.blocks h.nblk = some ⟨3, fun j => if j < 1 then some z else none⟩ ∧
    (∀ b, b ≠ h.nblk → h'.blocks b = h.blocks b) := by
  unfold new
  simp [alloc, fill, upd]
  intro b h1
  simp [h1]

theorem sim_newDyn {h : Heap E} {s : Abs E} (r : Rel h s) (z : E) :
    ∃ h' s' o, step z h .newDyn = .ok (h', o) ∧ astep actual z s .newDyn = .ok (s', o) ∧ Rel h' s' := by
  obtain ⟨h', e1, e2, e3, e4, e5, e6⟩ := new_eq z h
  refine ⟨h', _, .obj h.nobj, ?_, by unfold astep; rw [r.nobj], ?_⟩
  · unfold step; dsimp only; rw [e1]; rfl
  · refine addFresh r (k := ⟨3, fun j => if j < 1 then some z else none⟩) e2 e3 (Nat.le_refl _) (by rw [e4]; exact Nat.lt_succ_self _)
      (fun b hb => e6 b (by omega)) rfl ?_ ?_ ?_
    · intro i c hc
      obtain ⟨h1, h2⟩ := List.getElem?_eq_some_iff.1 hc
      simp at h1
      subst h1
      simp at h2
      omega
    · intro c hc; simp only [upd]; rw [if_neg (by omega)]
    · intro s' hs'
      refine ⟨rfl, Nat.le_refl 1, by dsimp only; omega, by dsimp only; omega, rfl, by simp, rfl, by simp, ?_, ?_, e5, by dsimp only; omega, ?_⟩
      · intro _; exact ⟨rfl, rfl⟩
      · intro _; exact ⟨rfl, rfl, rfl⟩
      · intro i c hc
        obtain ⟨h1, h2⟩ := List.getElem?_eq_some_iff.1 hc
        simp at h1
        subst h1
        simp at h2
        rw [hs', ← h2]
        simp [upd]

theorem sim_newFixed {h : Heap E} {s : Abs E} (r : Rel h s) (z : E) (n : Nat) (hn : n < 2 ^ 32) (v : E) :
    (∃ m, step z h (.newFixed n v) = .err m ∧ astep actual z s (.newFixed n v) = .err m) ∨
    ∃ h' s' o, step z h (.newFixed n v) = .ok (h', o) ∧ astep actual z s (.newFixed n v) = .ok (s', o) ∧ Rel h' s' := by
  obtain ⟨h1, e1, e2, e3, e4, e5, e6⟩ := new_eq z h
  unfold step astep
  dsimp only
  unfold newFixed
  rw [e1]
  simp only [Res.bind_ok]
  by_cases hw : n + 1 = 2 ^ 32
  · left
    rw [if_pos hw, if_pos (by rw [hw]; omega)]
    exact ⟨_, rfl, rfl⟩
  · right
    have hm : (n + 1) % 2 ^ 32 = n + 1 := Nat.mod_eq_of_lt (by omega)
    rw [if_neg hw, hm, if_neg (by omega)]
    have hns : newSize ⟨false, false, false, 1, 3, h.nblk, 0, none⟩ (n + 1) = some (max 13 (n + 1)) := by
      unfold newSize
      simp only [Bool.false_eq_true, or_self, if_false]
      by_cases hc : n + 1 < 13
      · simp only [hc, if_true]; simp; omega
      · simp only [hc, if_false]; rw [if_neg (by omega)]; congr 1; omega
    obtain ⟨h2, f1, f2, f3, f4, f5, f6⟩ := resizeArray_eq z h1 h.nobj ⟨false, false, false, 1, 3, h.nblk, 0, none⟩
      ⟨3, fun j => if j < 1 then some z else none⟩ (n + 1) (max 13 (n + 1)) false hns e5 (by dsimp only; omega)
      (by dsimp only; omega) (by dsimp only; omega) (by dsimp only; omega)
    rw [f1]
    simp only [Res.bind_ok]
    rw [e4] at f5 f6
    have hle : 1 ≤ max 13 (n + 1) := by omega
    have hle2 : 1 + n ≤ max 13 (n + 1) := by omega
    simp only [e4, Nat.add_sub_cancel, fill, f5, Nat.zero_add, hle, if_true, Res.bind_ok, upd, hle2, Res.pure_eq]
    refine ⟨_, _, _, rfl, by rw [r.nobj], ?_⟩
    refine addFresh r (a := ⟨true, false, true, n + 1, max 13 (n + 1), h.nblk + 1, 0, none⟩) (n := n + 1)
      (k := ⟨max 13 (n + 1), fun j => if 1 ≤ j ∧ j < 1 + n then some v else if j < 1 then some z else
        if j < 3 then if j < 1 then some z else none else none⟩) ?_ ?_ ?_ ?_ ?_ rfl ?_ ?_ ?_
    · simp only [setObj, f2, e2]
      funext j
      simp only [upd]
      split <;> rfl
    · simp only [setObj]; rw [f3, e3]
    · dsimp only; omega
    · simp only [setObj]; omega
    · intro b hb
      simp only [setObj, upd]
      rw [if_neg (by omega), if_neg (by omega), f6 b (by omega) (by dsimp only; omega), e6 b (by omega)]
    · intro i c hc
      obtain ⟨g1, g2⟩ := List.getElem?_eq_some_iff.1 hc
      simp at g1 g2
      omega
    · intro c hc; rw [if_pos hc]
    · intro s' hs'
      refine ⟨by simp, by dsimp only; omega, by dsimp only; omega, by dsimp only; omega, rfl, by simp, rfl, fun _ => rfl,
        by simp, fun _ => ⟨rfl, rfl, rfl⟩, ?_, by dsimp only; omega, ?_⟩
      · simp [setObj, upd]
      · intro i c hc
        obtain ⟨g1, g2⟩ := List.getElem?_eq_some_iff.1 hc
        simp at g1 g2
        rw [hs', ← g2]
        dsimp only
        by_cases hi : i = 0
        · subst hi; simp
        · rw [if_pos (by omega), if_neg (by omega), if_neg (by omega)]

theorem sim_newSlice {h : Heap E} {s : Abs E} (r : Rel h s) (z : E) (p start len : Nat) (hp : s.objs p ≠ none)
    (hs : start < 2 ^ 32) (hl : len < 2 ^ 32) :
    (∃ m, step z h (.newSlice p start len) = .err m ∧ astep actual z s (.newSlice p start len) = .err m) ∨
    ∃ h' s' o, step z h (.newSlice p start len) = .ok (h', o) ∧ astep actual z s (.newSlice p start len) = .ok (s', o) ∧
      Rel h' s' := by
  obtain ⟨a, o, k, ha, ho, ok⟩ := r.get hp
  have q1 := ok.sz; have q2 := ok.lesz; have q3 := ok.llen; have q4 := ok.bsz
  unfold step astep
  dsimp only
  unfold newSlice awith
  rw [ha, ho]
  dsimp only
  have hcond : (start < 1 ∨ (start + len) % 2 ^ 32 ≤ start ∨ a.len < (start + len) % 2 ^ 32) ↔
      (start < 1 ∨ len < 1 ∨ o.cells.length < start + len) := by
    by_cases hw : start + len < 2 ^ 32
    · rw [Nat.mod_eq_of_lt hw]; omega
    · omega
  simp only [hcond]
  by_cases hc : start < 1 ∨ len < 1 ∨ o.cells.length < start + len
  · simp only [hc, if_true]; exact .inl ⟨_, rfl, rfl⟩
  · simp only [hc, if_false]
    have hsl := ok.sl
    by_cases hf : a.fixed = false
    · rw [if_pos hf, if_pos (by rw [hsl]; exact hf)]; exact .inl ⟨_, rfl, rfl⟩
    · rw [if_neg hf, if_neg (by rw [hsl]; exact hf)]
      right
      have hf' : a.fixed = true := by simpa using hf
      have hm : (len + 1) % 2 ^ 32 = len + 1 := Nat.mod_eq_of_lt (by omega)
      refine ⟨_, _, _, rfl, by rw [r.nobj], ?_⟩
      rw [hm]
      have hcells : ∀ i c, ((o.cells.drop (start - 1)).take (len + 1))[i]? = some c →
          i < len + 1 ∧ o.cells[start - 1 + i]? = some c := by
        intro i c hc
        rw [List.getElem?_take] at hc
        split at hc
        · rename_i hi; rw [List.getElem?_drop] at hc; exact ⟨hi, hc⟩
        · cases hc
      have hcase : ∀ y b, upd h.objs h.nobj (some (⟨true, true, false, len + 1, len + 1, a.blk, a.off + (start - 1), some p⟩ : Arr)) y = some b →
          (y = h.nobj ∧ b = ⟨true, true, false, len + 1, len + 1, a.blk, a.off + (start - 1), some p⟩) ∨ (y ≠ h.nobj ∧ h.objs y = some b) := by
        intro y b hy
        unfold upd at hy
        split at hy
        · rename_i e; cases hy; exact .inl ⟨e, rfl⟩
        · rename_i e; exact .inr ⟨e, hy⟩
      have hcase2 : ∀ y o', (s.add ⟨(o.cells.drop (start - 1)).take (len + 1), true, len + 1, some p⟩).objs y = some o' →
          (y = h.nobj ∧ o' = ⟨(o.cells.drop (start - 1)).take (len + 1), true, len + 1, some p⟩) ∨ (y ≠ h.nobj ∧ s.objs y = some o') := by
        intro y o' hy
        simp only [Abs.add, upd, ← r.nobj] at hy
        split at hy
        · rename_i e; cases hy; exact .inl ⟨e, rfl⟩
        · rename_i e; exact .inr ⟨e, hy⟩
      have hplt := r.lt p a ha
      constructor
      · simp only [Abs.add]; rw [r.nobj]
      · intro y
        simp only [Abs.add, upd, ← r.nobj]
        split
        · simp
        · exact r.dom y
      · intro y b hy
        dsimp only at hy ⊢
        rcases hcase y b hy with ⟨q, _⟩ | ⟨_, q⟩
        · omega
        · have := r.lt y b q; omega
      · intro y b o' hy hoy
        dsimp only at hy
        rcases hcase y b hy with ⟨q, qb⟩ | ⟨w1, w2⟩
        · rcases hcase2 y o' hoy with ⟨_, w⟩ | ⟨w, _⟩
          · subst qb; subst w
            refine ⟨k, ?_, by dsimp only; omega, Nat.le_refl _, by dsimp only; omega, rfl, fun _ => ⟨rfl, rfl⟩, rfl,
              fun _ => rfl, by simp, by simp, ok.blk, by dsimp only; omega, ?_⟩
            · simp only [List.length_take, List.length_drop]; omega
            · intro i c hc'
              dsimp only at hc' ⊢
              obtain ⟨g1, g2⟩ := hcells i c hc'
              have := ok.mem _ c g2
              simp only [Abs.add]
              rw [← this]; congr 1; omega
          · exact absurd q w
        · rcases hcase2 y o' hoy with ⟨v, _⟩ | ⟨_, v⟩
          · exact absurd v w1
          · obtain ⟨k', ok'⟩ := r.obj y b o' w2 v
            exact ⟨k', ok'.llen, ok'.pos, ok'.lesz, ok'.sz, ok'.sl, ok'.sf, ok'.par, ok'.cap, ok'.dyn, ok'.nons, ok'.blk, ok'.bsz, ok'.mem⟩
      · intro x1 y1 a1 b1 o1 o2 i j c c' h1 h2 h3 h4 h5 h6
        dsimp only at h1 h2
        -- both sides reduce to the parent
        have red : ∀ x a1 o1 i c, upd h.objs h.nobj (some (⟨true, true, false, len + 1, len + 1, a.blk, a.off + (start - 1), some p⟩ : Arr)) x = some a1 →
            (s.add ⟨(o.cells.drop (start - 1)).take (len + 1), true, len + 1, some p⟩).objs x = some o1 → o1.cells[i]? = some c →
            ∃ x' a' o' i', h.objs x' = some a' ∧ s.objs x' = some o' ∧ o'.cells[i']? = some c ∧ a'.blk = a1.blk ∧ a'.off + i' = a1.off + i := by
          intro x a1 o1 i c h1 h3 h5
          rcases hcase x a1 h1 with ⟨q, qb⟩ | ⟨w1, w2⟩
          · rcases hcase2 x o1 h3 with ⟨_, w⟩ | ⟨w, _⟩
            · subst qb; subst w
              obtain ⟨g1, g2⟩ := hcells i c h5
              exact ⟨p, a, o, _, ha, ho, g2, rfl, by dsimp only; omega⟩
            · exact absurd q w
          · rcases hcase2 x o1 h3 with ⟨v, _⟩ | ⟨_, v⟩
            · exact absurd v w1
            · exact ⟨x, a1, o1, i, w2, v, h5, rfl, rfl⟩
        obtain ⟨x', a', o', i', u1, u2, u3, u4, u5⟩ := red x1 a1 o1 i c h1 h3 h5
        obtain ⟨y', b', o'', j', v1, v2, v3, v4, v5⟩ := red y1 b1 o2 j c' h2 h4 h6
        rw [r.loc x' y' a' b' o' o'' i' j' c c' u1 v1 u2 v2 u3 v3, u4, u5, v4, v5]
      · intro x1 y1 a1 b1 h1 h2 h3 h4
        dsimp only at h1 h2
        rcases hcase x1 a1 h1 with ⟨q, qb⟩ | ⟨w1, w2⟩
        · subst qb; cases h3
        · rcases hcase y1 b1 h2 with ⟨q, qb⟩ | ⟨v1, v2⟩
          · subst qb
            dsimp only at h4 ⊢
            right
            rcases r.inRoot x1 p a1 a w2 ha h3 h4 with e | ⟨e1, e2, e3⟩
            · subst e
              rw [ha] at w2; cases w2
              have := (ok.nons h3).1
              exact ⟨hf', rfl, by omega⟩
            · exact ⟨e1, rfl, by omega⟩
          · exact r.inRoot x1 y1 a1 b1 w2 v2 h3 h4
      · intro y b hy hs
        dsimp only at hy ⊢
        rcases hcase y b hy with ⟨q, qb⟩ | ⟨w1, w2⟩
        · subst qb
          exact ⟨p, a, rfl, by omega, by unfold upd; rw [if_neg (by omega)]; exact ha, rfl⟩
        · obtain ⟨p', b', v1, v2, v3, v4⟩ := r.par y b w2 hs
          have := r.lt p' b' v3
          exact ⟨p', b', v1, v2, by unfold upd; rw [if_neg (by omega)]; exact v3, v4⟩
      · intro y b hy
        dsimp only at hy ⊢
        rcases hcase y b hy with ⟨q, qb⟩ | ⟨w1, w2⟩
        · subst qb; exact r.fresh p a ha
        · exact r.fresh y b w2
      · intro y o' c hoy hc
        rcases hcase2 y o' hoy with ⟨_, w⟩ | ⟨_, w⟩
        · subst w
          exact r.cfresh p o c ho (List.mem_of_mem_drop (List.mem_of_mem_take hc))
        · exact r.cfresh y o' c w hc

theorem sim_free {h : Heap E} {s : Abs E} (r : Rel h s) (z : E) (x : Nat) (hx : s.objs x ≠ none)
    (hno : ∀ y o, s.objs y = some o → o.parent ≠ some x) :
    ∃ h' s' o, step z h (.free x) = .ok (h', o) ∧ astep actual z s (.free x) = .ok (s', o) ∧ Rel h' s' := by
  obtain ⟨a, o, k, ha, ho, ok⟩ := r.get hx
  unfold step astep
  dsimp only
  unfold withObj awith free
  rw [ha, ho]
  dsimp only
  -- nothing else lives in the block of an array that is not a slice
  have hother : a.slice = false → ∀ y b, y ≠ x → h.objs y = some b → b.blk ≠ a.blk := by
    intro hns y
    induction y using Nat.strongRecOn with
    | ind y ih =>
      intro b hne hy hb
      rcases r.inRoot x y a b ha hy hns hb.symm with e | ⟨_, e2, _⟩
      · exact hne e.symm
      · obtain ⟨p, b', v1, v2, v3, v4⟩ := r.par y b hy e2
        have hsy : s.objs y ≠ none := fun e => by have := (r.dom y).2 e; rw [hy] at this; cases this
        obtain ⟨b1, o1, k1, t1, t2, t3⟩ := r.get hsy
        rw [hy] at t1; cases t1
        have hpx : p ≠ x := by
          intro e
          apply hno y o1 t2
          rw [t3.par, v1, e]
        exact ih p v2 b' hpx v3 (by rw [v4, hb])
  have core : ∀ h1 : Heap E, h1.objs = h.objs → h1.nobj = h.nobj → h1.nblk = h.nblk →
      (∀ y b, y ≠ x → h.objs y = some b → h1.blocks b.blk = h.blocks b.blk) →
      Rel { h1 with objs := upd h1.objs x none } { s with objs := upd s.objs x none } := by
    intro h1 e1 e2 e3 e4
    have hcase : ∀ y b, upd h1.objs x none y = some b → y ≠ x ∧ h.objs y = some b := by
      intro y b hy
      unfold upd at hy
      split at hy
      · cases hy
      · rename_i e; rw [e1] at hy; exact ⟨e, hy⟩
    have hcase2 : ∀ y b, upd s.objs x none y = some b → y ≠ x ∧ s.objs y = some b := by
      intro y b hy
      unfold upd at hy
      split at hy
      · cases hy
      · rename_i e; exact ⟨e, hy⟩
    constructor
    · dsimp only; rw [e2]; exact r.nobj
    · intro y
      dsimp only
      unfold upd
      rw [e1]
      split
      · simp
      · exact r.dom y
    · intro y b hy; dsimp only; rw [e2]; exact r.lt y b (hcase y b hy).2
    · intro y b o' hy hoy
      obtain ⟨w1, w2⟩ := hcase y b hy
      obtain ⟨k', ok'⟩ := r.obj y b o' w2 (hcase2 y o' hoy).2
      refine ⟨k', ok'.llen, ok'.pos, ok'.lesz, ok'.sz, ok'.sl, ok'.sf, ok'.par, ok'.cap, ok'.dyn, ok'.nons, ?_, ok'.bsz, ok'.mem⟩
      dsimp only
      rw [e4 y b w1 w2]; exact ok'.blk
    · intro x1 y1 a1 b1 o1 o2 i j c c' h1 h2 h3 h4 h5 h6
      exact r.loc x1 y1 a1 b1 o1 o2 i j c c' (hcase _ _ h1).2 (hcase _ _ h2).2 (hcase2 _ _ h3).2 (hcase2 _ _ h4).2 h5 h6
    · intro x1 y1 a1 b1 h1 h2 h3 h4
      exact r.inRoot x1 y1 a1 b1 (hcase _ _ h1).2 (hcase _ _ h2).2 h3 h4
    · intro y b hy hs
      obtain ⟨w1, w2⟩ := hcase y b hy
      obtain ⟨p, b', v1, v2, v3, v4⟩ := r.par y b w2 hs
      refine ⟨p, b', v1, v2, ?_, v4⟩
      have hsy : s.objs y ≠ none := fun e => by have := (r.dom y).2 e; rw [w2] at this; cases this
      obtain ⟨b1, o1, k1, t1, t2, t3⟩ := r.get hsy
      rw [w2] at t1; cases t1
      have hpx : p ≠ x := by
        intro e
        apply hno y o1 t2
        rw [t3.par, v1, e]
      dsimp only
      unfold upd
      rw [if_neg hpx, e1]; exact v3
    · intro y b hy; dsimp only; rw [e3]; exact r.fresh y b (hcase y b hy).2
    · intro y o' c hoy hc; exact r.cfresh y o' c (hcase2 y o' hoy).2 hc
  cases hs : a.slice with
  | true =>
    simp only [if_true, Res.bind_ok, Res.pure_eq]
    exact ⟨_, _, _, rfl, rfl, core h rfl rfl rfl (fun _ _ _ _ => rfl)⟩
  | false =>
    simp only [Bool.false_eq_true, if_false, freeBlk, ok.blk, Res.bind_ok, Res.pure_eq]
    refine ⟨_, _, _, rfl, rfl, core { h with blocks := upd h.blocks a.blk none } rfl rfl rfl ?_⟩
    intro y b hne hy
    simp only [upd]
    rw [if_neg (hother hs y b hne hy)]

/-- one step of the implementation is one step of the specification -/
theorem step_sim {h : Heap E} {s : Abs E} (r : Rel h s) (z : E) (op : Op E) (ha : Allowed s op) :
    (∃ m, step z h op = .err m ∧ astep actual z s op = .err m) ∨
    ∃ h' s' o, step z h op = .ok (h', o) ∧ astep actual z s op = .ok (s', o) ∧ Rel h' s' := by
  have hget : ∀ a o k i, OK h s a o k → (∃ e, get h a i = .ok e ∧ aget actual s o i = .ok e) ∨
      (∃ m, get h a i = .err m ∧ aget actual s o i = .err m) := by
    intro a o k i ok
    rw [sim_get ok i]
    unfold aget actual
    dsimp only
    cases o.cells[i.toNat % 2 ^ 32]? with
    | none => exact .inr ⟨_, rfl, rfl⟩
    | some c => exact .inl ⟨_, rfl, rfl⟩
  cases op with
  | newDyn => exact .inr (sim_newDyn r z)
  | newFixed n v => exact sim_newFixed r z n ha v
  | newSlice p start len => exact sim_newSlice r z p start len ha.1 ha.2.1 ha.2.2
  | get x i =>
    obtain ⟨a, o, k, h1, h2, ok⟩ := r.get ha
    unfold step astep withObj awith
    dsimp only
    rw [h1, h2]
    dsimp only
    rcases hget a o k i ok with ⟨e, g1, g2⟩ | ⟨m, g1, g2⟩
    · rw [g1, g2]; exact .inr ⟨h, s, _, rfl, rfl, r⟩
    · rw [g1, g2]; exact .inl ⟨m, rfl, rfl⟩
  | rawgeti x i =>
    obtain ⟨a, o, k, h1, h2, ok⟩ := r.get ha
    unfold step astep withObj awith
    dsimp only
    rw [h1, h2]
    dsimp only
    unfold rawgeti
    have q1 := ok.pos; have q2 := ok.lesz; have q3 := ok.sz; have q4 := ok.llen
    have hn : (a.len + (2 ^ 32 - 1)) % 2 ^ 32 = o.cells.length - 1 := by omega
    rw [hn]
    by_cases hc : i.toInt ≤ (o.cells.length - 1 : Nat)
    · rw [if_pos hc, if_pos hc]
      rcases hget a o k i ok with ⟨e, g1, g2⟩ | ⟨m, g1, g2⟩
      · rw [g1, g2]; exact .inr ⟨h, s, _, rfl, rfl, r⟩
      · rw [g1, g2]; exact .inl ⟨m, rfl, rfl⟩
    · rw [if_neg hc, if_neg hc]; exact .inr ⟨h, s, _, rfl, rfl, r⟩
  | set x i v =>
    obtain ⟨a, o, k, h1, h2, ok⟩ := r.get ha
    unfold step astep withObj awith
    dsimp only
    rw [h1, h2]
    dsimp only
    rcases sim_set r h1 h2 z i v with ⟨m, g1, g2⟩ | ⟨h', s', g1, g2, g3⟩
    · rw [g1, g2]; exact .inl ⟨m, rfl, rfl⟩
    · rw [g1, g2]; exact .inr ⟨h', s', _, rfl, rfl, g3⟩
  | len x =>
    obtain ⟨a, o, k, h1, h2, ok⟩ := r.get ha
    unfold step astep withObj awith
    dsimp only
    rw [h1, h2]
    dsimp only
    have q1 := ok.pos; have q2 := ok.lesz; have q3 := ok.sz; have q4 := ok.llen
    have hn : (a.len + (2 ^ 32 - 1)) % 2 ^ 32 = o.cells.length - 1 := by omega
    rw [hn]
    exact .inr ⟨h, s, _, rfl, rfl, r⟩
  | next x k =>
    obtain ⟨a, o, kb, h1, h2, ok⟩ := r.get ha.1
    unfold step astep withObj awith
    dsimp only
    rw [h1, h2]
    dsimp only
    have hi : next h a k = if (a.len : Int) ≤ (k.getD 0 + 1).toInt then .ok none
        else (get h a (k.getD 0 + 1) >>= fun e => pure (some (k.getD 0 + 1, e))) := by
      cases k with
      | none => rfl
      | some i =>
        unfold next
        have : Arith.cAddS i 1 = .ok (i + 1) := by
          unfold Arith.cAddS
          rw [if_neg]
          intro hov
          apply ha.2
          congr 1
          simp only [BitVec.saddOverflow, Bool.or_eq_true, decide_eq_true_eq] at hov
          have h1 : (1 : LInt).toInt = 1 := rfl
          rw [h1] at hov
          have := BitVec.toInt_lt (x := i)
          have := BitVec.le_toInt (x := i)
          apply BitVec.eq_of_toInt_eq
          have : (BitVec.intMax 64).toInt = 2 ^ 63 - 1 := by decide
          omega
        dsimp only
        rw [this]
        rfl
    rw [hi]
    rw [ok.llen]
    by_cases hc : (a.len : Int) ≤ (k.getD 0 + 1).toInt
    · rw [if_pos hc, if_pos hc]; exact .inr ⟨h, s, _, rfl, rfl, r⟩
    · rw [if_neg hc, if_neg hc]
      rcases hget a o kb (k.getD 0 + 1) ok with ⟨e, g1, g2⟩ | ⟨m, g1, g2⟩
      · rw [g1, g2]; exact .inr ⟨h, s, _, rfl, rfl, r⟩
      · rw [g1, g2]; exact .inl ⟨m, rfl, rfl⟩
  | free x => exact .inr (sim_free r z x ha.1 ha.2)

end Verif.RArray
