import Verif.Stat.Rep3
/-! Open jumps, and the code that results when all of them have been patched. -/
namespace Verif.Stat
open Verif.ExpCode

/-- what an instruction may become when jumps are patched -/
def PatI (x y : Instr) : Prop :=
  y = x ∨ (x = .jmp none ∧ ∃ t, y = .jmp (some t)) ∨ ∃ b c, x = .testset none b c ∧ y = .test b c

def Patched (c C : List Instr) : Prop := ∀ (i : Nat) (x : Instr), c[i]? = some x → ∃ y, C[i]? = some y ∧ PatI x y

theorem PatI.refl (x : Instr) : PatI x x := Or.inl rfl

theorem PatI.trans {x y z : Instr} (h : PatI x y) (h' : PatI y z) : PatI x z := by
  rcases h with rfl | ⟨rfl, t, rfl⟩ | ⟨b, c, rfl, rfl⟩
  · exact h'
  · rcases h' with rfl | ⟨e, _⟩ | ⟨b, c, e, _⟩
    · exact Or.inr (Or.inl ⟨rfl, t, rfl⟩)
    · cases e
    · cases e
  · rcases h' with rfl | ⟨e, _⟩ | ⟨b, c, e, _⟩
    · exact Or.inr (Or.inr ⟨b, c, rfl, rfl⟩)
    · cases e
    · cases e

theorem PatI.same {x y : Instr} (h : PatI x y) (h1 : x ≠ .jmp none) (h2 : ∀ b c, x ≠ .testset none b c) : y = x := by
  rcases h with h | ⟨h, _⟩ | ⟨b, c, h, _⟩
  · exact h
  · exact absurd h h1
  · exact absurd h (h2 b c)

theorem Patched.refl (c : List Instr) : Patched c c := fun _ x h => ⟨x, h, PatI.refl x⟩

theorem Patched.trans {c d e : List Instr} (h : Patched c d) (h' : Patched d e) : Patched c e := by
  intro i x hx
  obtain ⟨y, hy, p⟩ := h i x hx
  obtain ⟨z, hz, q⟩ := h' i y hy
  exact ⟨z, hz, p.trans q⟩

theorem Patched.append (c d : List Instr) : Patched c (c ++ d) := fun _ x h =>
  ⟨x, by rw [List.getElem?_append_left (getElem?_lt h)]; exact h, PatI.refl x⟩

theorem Patched.jmp {c C : List Instr} (h : Patched c C) {j t : Nat} (hj : c[j]? = some (.jmp (some t))) :
    C[j]? = some (.jmp (some t)) := by
  obtain ⟨y, hy, p⟩ := h j _ hj
  rw [p.same (fun e => nomatch e) (fun _ _ e => nomatch e)] at hy
  exact hy

/-- the jumps `js` go to `m`, or, if there is a jump at `m`, to where that goes -/
def Tgt (C : List Instr) (js : List Nat) (m : Nat) : Prop :=
  ∃ t, (∀ j ∈ js, C[j]? = some (.jmp (some t))) ∧ (t = m ∨ (C[m]? = some (.jmp (some t)) ∧ ∀ j ∈ js, j < m))

theorem Tgt.sub {C : List Instr} {js ks : List Nat} {m : Nat} (h : Tgt C js m) (hs : ∀ j ∈ ks, j ∈ js) : Tgt C ks m := by
  obtain ⟨t, h1, h2⟩ := h
  exact ⟨t, fun j hj => h1 j (hs j hj), h2.imp id (fun h => ⟨h.1, fun j hj => h.2 j (hs j hj)⟩)⟩

theorem Tgt.nil {C : List Instr} {m : Nat} : Tgt C [] m := ⟨m, (fun _ h => nomatch h), Or.inl rfl⟩

/-- the open jumps `p` in the code `c` -/
structure Inv (c : List Instr) (p : List Nat) : Prop where
  nodup : p.Nodup
  jmp : ∀ j ∈ p, c[j]? = some (.jmp none)
  ts : ∀ (i : Nat) (a : Option Nat) (b : Nat) (cc : Bool), c[i]? = some (.testset a b cc) →
    c[i + 1]? = some (.jmp none) → a = none
  last : ∀ (a : Option Nat) (b : Nat) (cc : Bool), c[c.length - 1]? ≠ some (.testset a b cc)

theorem Inv.perm {c : List Instr} {p q : List Nat} (h : Inv c p) (hp : p.Perm q) : Inv c q :=
  ⟨hp.nodup_iff.1 h.nodup, fun j hj => h.jmp j (hp.mem_iff.2 hj), h.ts, h.last⟩

theorem Inv.sub {c : List Instr} {p q : List Nat} (h : Inv c (p ++ q)) : Inv c q :=
  ⟨(List.nodup_append.1 h.nodup).2.1, fun j hj => h.jmp j (List.mem_append_right _ hj), h.ts, h.last⟩

theorem Inv.lt {c : List Instr} {p : List Nat} (h : Inv c p) {j : Nat} (hj : j ∈ p) : j < c.length :=
  getElem?_lt (h.jmp j hj)

theorem patch1_inv {c : List Instr} {j : Nat} {X : List Nat} (h : Inv c (j :: X)) (t : Nat) :
    Inv (patch1 t none t c j) X ∧ Patched c (patch1 t none t c j) ∧ (patch1 t none t c j)[j]? = some (.jmp (some t)) := by
  have hj := h.jmp j (List.mem_cons_self ..)
  obtain ⟨h1, h2, h3⟩ := patch1_get hj t none t
  have ht : target c t t j = t := by unfold target; split <;> rfl
  rw [ht] at h1
  obtain ⟨hn, hX⟩ := List.nodup_cons.1 h.nodup
  have hlen := patch1_length t none t c j
  -- what is at a position
  have pos : ∀ i x, c[i]? = some x → ∃ y, (patch1 t none t c j)[i]? = some y ∧
      ((i ≠ j ∧ y = x) ∨ (i = j ∧ y = .jmp (some t)) ∨ (i + 1 = j ∧ ∃ b cc, x = .testset none b cc ∧ y = .test b cc)) := by
    intro i x hx
    by_cases e1 : i = j
    · exact ⟨_, by rw [e1]; exact h1, Or.inr (Or.inl ⟨e1, rfl⟩)⟩
    · by_cases e2 : i + 1 = j
      · have := h3 i e2
        rw [hx] at this
        cases x with
        | testset a b cc =>
          have ha := h.ts i a b cc hx (by rw [e2]; exact hj)
          subst ha
          exact ⟨_, this, Or.inr (Or.inr ⟨e2, b, cc, rfl, rfl⟩)⟩
        | _ => exact ⟨_, this, Or.inl ⟨e1, rfl⟩⟩
      · exact ⟨x, by rw [h2 i e1 e2]; exact hx, Or.inl ⟨e1, rfl⟩⟩
  have back : ∀ i y, (patch1 t none t c j)[i]? = some y → ∃ x, c[i]? = some x ∧
      ((i ≠ j ∧ y = x) ∨ (i = j ∧ y = .jmp (some t)) ∨ (i + 1 = j ∧ ∃ b cc, x = .testset none b cc ∧ y = .test b cc)) := by
    intro i y hy
    have hl := getElem?_lt hy
    rw [hlen] at hl
    obtain ⟨y', hy', p⟩ := pos i c[i] (List.getElem?_eq_getElem hl)
    rw [hy] at hy'
    cases hy'
    exact ⟨c[i], List.getElem?_eq_getElem hl, p⟩
  refine ⟨⟨hX, ?_, ?_, ?_⟩, ?_, h1⟩
  · intro i hi
    obtain ⟨y, hy, p⟩ := pos i _ (h.jmp i (List.mem_cons_of_mem _ hi))
    rcases p with ⟨_, rfl⟩ | ⟨rfl, _⟩ | ⟨_, b, cc, e, _⟩
    · exact hy
    · exact absurd hi hn
    · cases e
  · intro i a b cc hi hi1
    obtain ⟨x, hx, p⟩ := back i _ hi
    obtain ⟨x1, hx1, p1⟩ := back (i + 1) _ hi1
    rcases p with ⟨_, rfl⟩ | ⟨_, e⟩ | ⟨_, _, _, _, e⟩
    · rcases p1 with ⟨_, rfl⟩ | ⟨_, e⟩ | ⟨_, _, _, _, e⟩
      · exact h.ts i a b cc hx hx1
      · cases e
      · cases e
    · cases e
    · cases e
  · intro a b cc hi
    rw [hlen] at hi
    obtain ⟨x, hx, p⟩ := back _ _ hi
    rcases p with ⟨_, rfl⟩ | ⟨_, e⟩ | ⟨_, _, _, _, e⟩
    · exact h.last a b cc hx
    · cases e
    · cases e
  · intro i x hx
    obtain ⟨y, hy, p⟩ := pos i x hx
    refine ⟨y, hy, ?_⟩
    rcases p with ⟨_, rfl⟩ | ⟨rfl, rfl⟩ | ⟨_, b, cc, rfl, rfl⟩
    · exact PatI.refl _
    · rw [hj] at hx
      cases hx
      exact Or.inr (Or.inl ⟨rfl, t, rfl⟩)
    · exact Or.inr (Or.inr ⟨b, cc, rfl, rfl⟩)

theorem patch_inv {X : List Nat} (t : Nat) : ∀ (l : List Nat) {c : List Instr}, Inv c (l ++ X) →
    Inv (patchlistaux c l t none t) X ∧ Patched c (patchlistaux c l t none t) ∧
    ∀ j ∈ l, (patchlistaux c l t none t)[j]? = some (.jmp (some t)) := by
  intro l
  induction l with
  | nil => intro c h; exact ⟨h, Patched.refl c, (fun _ h => nomatch h)⟩
  | cons j l ih =>
    intro c h
    obtain ⟨h1, h2, h3⟩ := patch1_inv (X := l ++ X) h t
    obtain ⟨g1, g2, g3⟩ := ih h1
    refine ⟨g1, h2.trans g2, ?_⟩
    intro i hi
    rcases List.mem_cons.1 hi with rfl | hi
    · exact g2.jmp h3
    · exact g3 i hi

/-- the final code `C` agrees with the code in `s` -/
def OK (C : List Instr) (s : FS) : Prop := Patched s.code C ∧ Tgt C s.jpc s.pc

/-- from `s` to `s'`, with new open jumps `l` -/
structure Tr (s s' : FS) (l : List Nat) : Prop where
  inv : ∀ X, Inv s.code (s.jpc ++ X) → Inv s'.code (s'.jpc ++ (l ++ X))
  back : ∀ X, Inv s.code (s.jpc ++ X) → ∀ C t, OK C s' → Tgt C l t → OK C s
  le : s.pc ≤ s'.pc
  k : s.k <+: s'.k

theorem Tr.back0 {s s' : FS} (h : Tr s s' []) {X : List Nat} (hi : Inv s.code (s.jpc ++ X)) {C : List Instr} (hC : OK C s') :
    OK C s := h.back X hi C 0 hC Tgt.nil

/-- open jumps `l` are given the target `t` -/
structure Pa (s s' : FS) (l : List Nat) (t : Nat) : Prop where
  inv : ∀ X, Inv s.code (s.jpc ++ (l ++ X)) → Inv s'.code (s'.jpc ++ X)
  back : ∀ X, Inv s.code (s.jpc ++ (l ++ X)) → ∀ C, OK C s' → OK C s ∧ Tgt C l t
  pc : s'.pc = s.pc
  k : s'.k = s.k
  nact : s'.nactvar = s.nactvar
  free : s'.freereg = s.freereg

theorem Tr.same {s s' : FS} (h1 : s'.code = s.code) (h2 : s'.jpc = s.jpc) (h3 : s.k <+: s'.k) : Tr s s' [] := by
  refine ⟨fun X h => by rw [h1, h2]; exact h, fun X _ C t h _ => ?_, Nat.le_of_eq ?_, h3⟩
  · unfold OK FS.pc at h ⊢
    rw [h1, h2] at h
    exact h
  · unfold FS.pc; rw [h1]

theorem Tr.refl (s : FS) : Tr s s [] := Tr.same rfl rfl (List.prefix_refl _)

theorem Tr.trans {s s1 s2 : FS} (h : Tr s s1 []) {l : List Nat} (h' : Tr s1 s2 l) : Tr s s2 l :=
  ⟨fun X hX => h'.inv X (h.inv X hX), fun X hX C t hC ht => h.back0 hX (h'.back X (h.inv X hX) C t hC ht),
    Nat.le_trans h.le h'.le, h.k.trans h'.k⟩

theorem Tr.trans' {s s1 s2 : FS} {l : List Nat} (h : Tr s s1 l) (h' : Tr s1 s2 []) : Tr s s2 l :=
  ⟨fun X hX => h'.inv _ (h.inv X hX), fun X hX C t hC ht => h.back X hX C t (h'.back0 (h.inv X hX) hC) ht,
    Nat.le_trans h.le h'.le, h.k.trans h'.k⟩

theorem emit_code (s : FS) (i : Instr) : (emit s i).code = patchlistaux s.code s.jpc s.pc none s.pc ++ [i] := rfl

theorem emit_get (s : FS) (i : Instr) : (emit s i).code[s.pc]? = some i := by
  rw [emit_code]
  have : s.pc = (patchlistaux s.code s.jpc s.pc none s.pc).length := (patchlistaux_length ..).symm
  rw [List.getElem?_append_right (by omega), ← this]
  simp

/-- one more instruction -/
theorem snoc_inv {c : List Instr} {X : List Nat} (h : Inv c X) {i : Instr} (hi : ∀ a b cc, i ≠ .testset a b cc) :
    Inv (c ++ [i]) X ∧ (i = .jmp none → Inv (c ++ [i]) (c.length :: X)) := by
  have ts : ∀ (p : Nat) (a : Option Nat) (b : Nat) (cc : Bool), (c ++ [i])[p]? = some (.testset a b cc) →
      (c ++ [i])[p + 1]? = some (.jmp none) → a = none := by
    intro p a b cc h1 h2
    have hl := getElem?_lt h2
    rw [List.length_append, List.length_singleton] at hl
    rw [List.getElem?_append_left (by omega)] at h1
    rcases Nat.lt_or_ge (p + 1) c.length with h3 | h3
    · rw [List.getElem?_append_left h3] at h2
      exact h.ts p a b cc h1 h2
    · exact absurd (by rw [show c.length - 1 = p by omega]; exact h1) (h.last a b cc)
  have last : ∀ (a : Option Nat) (b : Nat) (cc : Bool), (c ++ [i])[(c ++ [i]).length - 1]? ≠ some (.testset a b cc) := by
    intro a b cc e
    rw [List.length_append, List.length_singleton, List.getElem?_append_right (by omega)] at e
    rw [show c.length + 1 - 1 - c.length = 0 by omega] at e
    cases e
    exact hi a b cc rfl
  have jm : ∀ j ∈ X, (c ++ [i])[j]? = some (.jmp none) := fun j hj => by
    rw [List.getElem?_append_left (h.lt hj)]; exact h.jmp j hj
  refine ⟨⟨h.nodup, jm, ts, last⟩, fun e => ⟨?_, ?_, ts, last⟩⟩
  · exact List.nodup_cons.2 ⟨fun hm => absurd (h.lt hm) (Nat.lt_irrefl _), h.nodup⟩
  · intro j hj
    rcases List.mem_cons.1 hj with rfl | hj
    · rw [List.getElem?_append_right (Nat.le_refl _)]; simp [e]
    · exact jm j hj

theorem discharge_back {s : FS} {X : List Nat} (h : Inv s.code (s.jpc ++ X)) {C d : List Instr}
    (hC : Patched (patchlistaux s.code s.jpc s.pc none s.pc ++ d) C) : OK C s := by
  obtain ⟨_, h2, h3⟩ := patch_inv s.pc s.jpc h
  have hP := (Patched.append _ d).trans hC
  exact ⟨h2.trans hP, s.pc, fun j hj => hP.jmp (h3 j hj), Or.inl rfl⟩

theorem emit_tr (s : FS) {i : Instr} (hi : ∀ a b cc, i ≠ .testset a b cc) : Tr s (emit s i) [] := by
  refine ⟨fun X h => (snoc_inv (patch_inv s.pc s.jpc h).1 hi).1, fun X h C t hC _ => discharge_back h hC.1, ?_, List.prefix_refl _⟩
  unfold FS.pc
  rw [emit_length]; omega

theorem emitjmp_tr (s : FS) : Tr s (emit s (.jmp none)) [s.pc] := by
  refine ⟨fun X h => ?_, fun X h C t hC _ => discharge_back h hC.1, ?_, List.prefix_refl _⟩
  · have := (snoc_inv (patch_inv s.pc s.jpc h).1 (i := .jmp none) (fun _ _ _ e => nomatch e)).2 rfl
    rw [patchlistaux_length] at this
    exact this
  · unfold FS.pc
    rw [emit_length]; omega

theorem jump_tr (s : FS) : Tr s (jump s).1 (jump s).2 := by
  refine ⟨fun X h => ?_, fun X h C t hC ht => ?_, ?_, List.prefix_refl _⟩
  · exact (snoc_inv h (i := .jmp none) (fun _ _ _ e => nomatch e)).2 rfl
  · obtain ⟨u, h1, _⟩ := ht
    refine ⟨(Patched.append _ _).trans hC.1, u, fun j hj => h1 j (List.mem_cons_of_mem _ hj), Or.inr ⟨h1 _ (List.mem_cons_self ..), ?_⟩⟩
    intro j hj
    exact h.lt (List.mem_append_left _ hj)
  · unfold FS.pc
    rw [jump_length]; omega

theorem patchtohere_pa (s : FS) (l : List Nat) : Pa s (patchtohere s l) l s.pc := by
  refine ⟨fun X h => ?_, fun X h C hC => ?_, rfl, rfl, rfl, rfl⟩
  · show Inv s.code ((s.jpc ++ l) ++ X)
    rw [List.append_assoc]; exact h
  · obtain ⟨h1, h2⟩ := hC
    have h2 : Tgt C (s.jpc ++ l) s.pc := h2
    exact ⟨⟨h1, h2.sub (fun j hj => List.mem_append_left _ hj)⟩, h2.sub (fun j hj => List.mem_append_right _ hj)⟩

theorem patchlist_pa (s : FS) (l : List Nat) (t : Nat) : Pa s (patchlist s l t) l t := by
  unfold patchlist
  split
  · rename_i e; rw [e]; exact patchtohere_pa s l
  · have pm : ∀ X, (s.jpc ++ (l ++ X)).Perm (l ++ (s.jpc ++ X)) := fun X => by
      rw [← List.append_assoc, ← List.append_assoc]
      exact List.Perm.append_right X List.perm_append_comm
    refine ⟨fun X h => (patch_inv t l (h.perm (pm X))).1, fun X h C hC => ?_, patchlistaux_length .., rfl, rfl, rfl⟩
    obtain ⟨_, g2, g3⟩ := patch_inv t l (h.perm (pm X))
    obtain ⟨h1, h2⟩ := hC
    refine ⟨⟨g2.trans h1, ?_⟩, t, fun j hj => Patched.jmp h1 (g3 j hj), Or.inl rfl⟩
    have : ({ s with code := patchlistaux s.code l t none t } : FS).pc = s.pc := patchlistaux_length ..
    rw [this] at h2
    exact h2

theorem Pa.tr {s s' : FS} {l : List Nat} {t : Nat} (h : Pa s s' l t) (h' : l = []) : Tr s s' [] := by
  subst h'
  exact ⟨h.inv, fun X hX C _ hC _ => (h.back X hX C hC).1, Nat.le_of_eq h.pc.symm, by rw [h.k]; exact List.prefix_refl _⟩

/-- a state that differs in registers -/
theorem Pa.setact {s s' : FS} {l : List Nat} {t : Nat} (h : Pa s s' l t) (a b : Nat) :
    Pa { s with nactvar := a, freereg := b } { s' with nactvar := a, freereg := b } l t :=
  ⟨h.inv, h.back, h.pc, h.k, rfl, rfl⟩

end Verif.Stat
