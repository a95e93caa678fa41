import Verif.ExpCode.Model
/-! Running code: appending, patching jumps. -/
namespace Verif.ExpCode
variable {W : Type}

/-- go on after falling through -/
def andThen (o : Res (Out W)) (g : Regs → W → Res (Out W)) : Res (Out W) :=
  match o with
  | .ok (.fall R w) => g R w
  | o => o

/-- some exits become falling through, with a change of registers -/
def handle (h : Nat → Option (Regs → Regs)) (o : Res (Out W)) : Res (Out W) :=
  match o with
  | .ok (.exit j R w) =>
    match h j with
    | some u => .ok (.fall (u R) w)
    | none => .ok (.exit j R w)
  | o => o

/-- one exit is continued -/
def onExit (j : Nat) (h : Regs → W → Res (Out W)) (o : Res (Out W)) : Res (Out W) :=
  match o with
  | .ok (.exit i R w) => if i = j then h R w else .ok (.exit i R w)
  | o => o

theorem andThen_assoc (o : Res (Out W)) (g h : Regs → W → Res (Out W)) :
    andThen (andThen o g) h = andThen o (fun R w => andThen (g R w) h) := by
  rcases o with ⟨_ | _⟩ | _ | _ <;> rfl

theorem andThen_fall (o : Res (Out W)) : andThen o (fun R w => .ok (.fall R w)) = o := by
  rcases o with ⟨_ | _⟩ | _ | _ <;> rfl

/-- the code that a run may assume; `L` bounds the jump targets -/
structure CodeWF (c : List Instr) (L : Nat) : Prop where
  test : ∀ (i : Nat) (x : Instr), c[i]? = some x → x.isTest = true → ∃ t, c[i + 1]? = some (.jmp t)
  skip : ∀ (i a : Nat) (b : Bool), c[i]? = some (.loadbool a b true) →
    ∃ a' b', c[i + 1]? = some (.loadbool a' b' false)
  tgt : ∀ (i t : Nat), c[i]? = some (.jmp (some t)) →
    i < t ∧ t ≤ L ∧ ∀ x, c[t - 1]? = some x → x.isTest = false
  ts : ∀ (i : Nat) (a : Option Nat) (b : Nat) (cc : Bool), c[i]? = some (.testset a b cc) →
    c[i + 1]? = some (.jmp none) → a = none
  le : L ≤ c.length

theorem CodeWF.mono {c : List Instr} {L L' : Nat} (h : CodeWF c L) (h1 : L ≤ L') (h2 : L' ≤ c.length) :
    CodeWF c L' :=
  ⟨h.test, h.skip, fun i t e => ⟨(h.tgt i t e).1, by have := (h.tgt i t e).2.1; omega, (h.tgt i t e).2.2⟩, h.ts, h2⟩

theorem CodeWF.nil : CodeWF [] 0 :=
  ⟨by simp, by simp, by simp, by simp, by simp⟩

variable {P : Ops W} {K : List Val}

theorem run_end (c : List Instr) (R : Regs) (w : W) : run P K c c.length R w = .ok (.fall R w) := by
  rw [run]; simp

theorem run_jmp_none {c : List Instr} {pc : Nat} (h : c[pc]? = some (.jmp none)) (R : Regs) (w : W) :
    run P K c pc R w = .ok (.exit pc R w) := by
  obtain ⟨h1, h2⟩ := List.getElem?_eq_some_iff.1 h
  rw [run, dif_pos h1, h2]

theorem run_jmp_some {c : List Instr} {pc t : Nat} (h : c[pc]? = some (.jmp (some t))) (ht : pc < t)
    (R : Regs) (w : W) : run P K c pc R w = run P K c t R w := by
  obtain ⟨h1, h2⟩ := List.getElem?_eq_some_iff.1 h
  rw [run, dif_pos h1, h2]
  dsimp only
  rw [if_pos ht]

/-- what happens after an instruction that is not a jump -/
def cont (P : Ops W) (K : List Val) (c : List Instr) (pc : Nat) : Res (Nat × Regs × W) → Res (Out W)
  | .ok (n, R, w) => run P K c (pc + 1 + n) R w
  | .err m => .err m
  | .ub => .ub

theorem run_exec {c : List Instr} {pc : Nat} {i : Instr} (h : c[pc]? = some i) (hj : ∀ t, i ≠ .jmp t)
    (R : Regs) (w : W) : run P K c pc R w = cont P K c pc (i.exec P K R w) := by
  obtain ⟨h1, h2⟩ := List.getElem?_eq_some_iff.1 h
  rw [run, dif_pos h1, h2]
  cases i with
  | jmp t => exact absurd rfl (hj t)
  | _ => dsimp only; unfold cont; rfl

theorem exec_next {i : Instr} {R : Regs} {w : W} {n : Nat} {R' : Regs} {w' : W}
    (h : i.exec P K R w = .ok (n, R', w')) :
    n = 0 ∨ (n = 1 ∧ (i.isTest = true ∨ ∃ a b, i = .loadbool a b true)) := by
  cases i with
  | set a x =>
    simp only [Instr.exec] at h
    split at h <;> first | (cases h; exact Or.inl rfl) | cases h
  | loadbool a b sk =>
    simp only [Instr.exec] at h
    cases sk <;> cases h
    · exact Or.inl rfl
    · exact Or.inr ⟨rfl, Or.inr ⟨a, b, rfl⟩⟩
  | loadnil a n => cases h; exact Or.inl rfl
  | rel o a x y =>
    simp only [Instr.exec] at h
    split at h
    · rename_i r _ _
      cases h
      by_cases hr : r = a
      · left; exact if_pos hr
      · right; exact ⟨if_neg hr, Or.inl rfl⟩
    · cases h
    · cases h
  | test a c =>
    simp only [Instr.exec] at h
    cases h
    by_cases hr : (R a).truthy = c
    · left; exact if_pos hr
    · right; exact ⟨if_neg hr, Or.inl rfl⟩
  | testset a b c =>
    simp only [Instr.exec] at h
    by_cases hr : (R b).truthy = c
    · rw [if_pos hr] at h; cases h; exact Or.inl rfl
    · rw [if_neg hr] at h; cases h; exact Or.inr ⟨rfl, Or.inl rfl⟩
  | jmp t => cases h
  | eff x =>
    simp only [Instr.exec] at h
    split at h <;> first | (cases h; exact Or.inl rfl) | cases h
  | forprep a =>
    simp only [Instr.exec] at h
    split at h <;> first | (cases h; exact Or.inl rfl) | cases h
  | forloop a =>
    simp only [Instr.exec] at h
    split at h
    · cases h; exact Or.inl rfl
    · cases h; exact Or.inr ⟨rfl, Or.inl rfl⟩
  | tforcall a m =>
    simp only [Instr.exec] at h
    split at h <;> first | (cases h; exact Or.inl rfl) | cases h
  | tforloop a =>
    simp only [Instr.exec] at h
    split at h
    · cases h; exact Or.inr ⟨rfl, Or.inl rfl⟩
    · cases h; exact Or.inl rfl
  | ret a n => cases h
  | retcall f a n l => cases h
  | self a b c =>
    simp only [Instr.exec] at h
    split at h <;> first | (cases h; exact Or.inl rfl) | cases h
  | call a n l want =>
    simp only [Instr.exec] at h
    split at h <;> first | (cases h; exact Or.inl rfl) | cases h

theorem getElem?_lt {c : List Instr} {i : Nat} {x : Instr} (h : c[i]? = some x) : i < c.length :=
  (List.getElem?_eq_some_iff.1 h).1

theorem CodeWF.next_le {c : List Instr} {L : Nat} (hw : CodeWF c L) {pc : Nat} {i : Instr}
    (h : c[pc]? = some i) {R : Regs} {w : W} {n : Nat} {R' : Regs} {w' : W}
    (he : i.exec P K R w = .ok (n, R', w')) : pc + 1 + n ≤ c.length := by
  have hl := getElem?_lt h
  rcases exec_next he with rfl | ⟨rfl, h1 | ⟨a, b, rfl⟩⟩
  · omega
  · obtain ⟨t, ht⟩ := hw.test pc i h h1
    have := getElem?_lt ht; omega
  · obtain ⟨a', b', ht⟩ := hw.skip pc a b h
    have := getElem?_lt ht; omega

theorem isJmp_or (i : Instr) : i = .jmp none ∨ (∃ t, i = .jmp (some t)) ∨ ∀ t, i ≠ .jmp t := by
  cases i with
  | jmp t => cases t with
    | none => exact Or.inl rfl
    | some t => exact Or.inr (Or.inl ⟨t, rfl⟩)
  | _ => exact Or.inr (Or.inr (fun t h => nomatch h))

theorem run_append {c : List Instr} {L : Nat} (hw : CodeWF c L) (d : List Instr) :
    ∀ (m pc : Nat), c.length - pc ≤ m → pc ≤ c.length → ∀ (R : Regs) (w : W),
      run P K (c ++ d) pc R w
        = andThen (run P K c pc R w) (fun R w => run P K (c ++ d) c.length R w) := by
  intro m
  induction m with
  | zero =>
    intro pc h1 h2 R w
    have : pc = c.length := by omega
    subst this
    rw [run_end]; rfl
  | succ m ih =>
    intro pc h1 h2 R w
    rcases Nat.lt_or_ge pc c.length with hl | hl
    rotate_left
    · have : pc = c.length := by omega
      subst this
      rw [run_end]; rfl
    have hi : c[pc]? = some c[pc] := List.getElem?_eq_getElem hl
    have hi' : (c ++ d)[pc]? = some c[pc] := by rw [List.getElem?_append_left hl]; exact hi
    generalize c[pc] = i at hi hi'
    rcases isJmp_or i with rfl | ⟨t, rfl⟩ | hj
    · rw [run_jmp_none hi, run_jmp_none hi']; rfl
    · obtain ⟨h3, h4, _⟩ := hw.tgt pc t hi
      have := hw.le
      rw [run_jmp_some hi h3, run_jmp_some hi' h3]
      exact ih t (by omega) (by omega) R w
    · rw [run_exec hi hj, run_exec hi' hj]
      cases he : i.exec P K R w with
      | ok r =>
        obtain ⟨n, R', w'⟩ := r
        exact ih _ (by have := hw.next_le hi he; omega) (hw.next_le hi he) R' w'
      | err m => rfl
      | ub => rfl

theorem run_congr {c c' : List Instr} (hlen : c'.length = c.length) :
    ∀ (m pc : Nat), c.length - pc ≤ m → (∀ i, pc ≤ i → c'[i]? = c[i]?) → ∀ (R : Regs) (w : W),
      run P K c' pc R w = run P K c pc R w := by
  intro m
  induction m with
  | zero =>
    intro pc h1 h2 R w
    rw [run, run, dif_neg (by omega), dif_neg (by omega), hlen]
  | succ m ih =>
    intro pc h1 h2 R w
    rcases Nat.lt_or_ge pc c.length with hl | hl
    rotate_left
    · rw [run, run, dif_neg (by omega), dif_neg (by omega), hlen]
    have hi : c[pc]? = some c[pc] := List.getElem?_eq_getElem hl
    have hi' : c'[pc]? = some c[pc] := by rw [h2 pc (by omega)]; exact hi
    generalize c[pc] = i at hi hi'
    rcases isJmp_or i with rfl | ⟨t, rfl⟩ | hj
    · rw [run_jmp_none hi, run_jmp_none hi']
    · rcases Nat.lt_or_ge pc t with ht | ht
      · rw [run_jmp_some hi ht, run_jmp_some hi' ht]
        exact ih t (by omega) (fun i h => h2 i (by omega)) R w
      · obtain ⟨a1, a2⟩ := List.getElem?_eq_some_iff.1 hi
        obtain ⟨b1, b2⟩ := List.getElem?_eq_some_iff.1 hi'
        rw [run, run, dif_pos a1, dif_pos b1, a2, b2]
        dsimp only
        rw [if_neg (by omega), if_neg (by omega)]
    · rw [run_exec hi hj, run_exec hi' hj]
      cases he : i.exec P K R w with
      | ok r =>
        obtain ⟨n, R', w'⟩ := r
        exact ih _ (by omega) (fun i h => h2 i (by omega)) R' w'
      | err m => rfl
      | ub => rfl

theorem run_congr' {c c' : List Instr} (hlen : c'.length = c.length) {pc : Nat}
    (h : ∀ i, pc ≤ i → c'[i]? = c[i]?) (R : Regs) (w : W) : run P K c' pc R w = run P K c pc R w :=
  run_congr hlen _ pc (Nat.le_refl _) h R w

theorem exit_ge {c : List Instr} :
    ∀ (m pc : Nat), c.length - pc ≤ m → ∀ (R : Regs) (w : W) (j : Nat) (R' : Regs) (w' : W),
      run P K c pc R w = .ok (.exit j R' w') → pc ≤ j ∧ c[j]? = some (.jmp none) := by
  intro m
  induction m with
  | zero =>
    intro pc h1 R w j R' w' h
    rw [run, dif_neg (by omega)] at h
    split at h <;> cases h
  | succ m ih =>
    intro pc h1 R w j R' w' h
    rcases Nat.lt_or_ge pc c.length with hl | hl
    rotate_left
    · rw [run, dif_neg (by omega)] at h
      split at h <;> cases h
    have hi : c[pc]? = some c[pc] := List.getElem?_eq_getElem hl
    generalize c[pc] = i at hi
    rcases isJmp_or i with rfl | ⟨t, rfl⟩ | hj
    · rw [run_jmp_none hi] at h; cases h; exact ⟨Nat.le_refl _, hi⟩
    · rcases Nat.lt_or_ge pc t with ht | ht
      · rw [run_jmp_some hi ht] at h
        have := ih t (by omega) R w j R' w' h
        exact ⟨by omega, this.2⟩
      · obtain ⟨a1, a2⟩ := List.getElem?_eq_some_iff.1 hi
        rw [run, dif_pos a1, a2] at h
        dsimp only at h
        rw [if_neg (by omega)] at h
        cases h
    · rw [run_exec hi hj] at h
      cases he : i.exec P K R w with
      | ok r =>
        obtain ⟨n, R1, w1⟩ := r
        rw [he] at h
        have := ih _ (by omega) R1 w1 j R' w' h
        exact ⟨by omega, this.2⟩
      | err m => rw [he] at h; cases h
      | ub => rw [he] at h; cases h

theorem run_exit {c : List Instr} {pc : Nat} {R : Regs} {w : W} {j : Nat} {R' : Regs} {w' : W}
    (h : run P K c pc R w = .ok (.exit j R' w')) : pc ≤ j ∧ c[j]? = some (.jmp none) :=
  exit_ge _ pc (Nat.le_refl _) R w j R' w' h

/-! ### patching -/

/-- the register a `TESTSET` that controls the jump at `j` tests -/
def ctl (c : List Instr) (j : Nat) : Option Nat :=
  match j with
  | 0 => none
  | p + 1 =>
    match c[p]? with
    | some (.testset _ b _) => some b
    | _ => none

/-- registers after a patched jump -/
def upd (c : List Instr) (reg : Option Nat) (j : Nat) (R : Regs) : Regs :=
  match ctl c j, reg with
  | some b, some r => R.set r (R b)
  | _, _ => R

theorem Regs.set_same (R : Regs) (r : Nat) : R.set r (R r) = R := by
  funext x; unfold Regs.set; split
  · rename_i h; rw [h]
  · rfl

theorem patch1_length (vt : Nat) (reg : Option Nat) (dt : Nat) (c : List Instr) (j : Nat) :
    (patch1 vt reg dt c j).length = c.length := by
  unfold patch1
  simp only [List.length_set]
  unfold patchtestreg
  split
  · rfl
  · split <;> simp

/-- the test after patching -/
def newTest (reg : Option Nat) (b : Nat) (cc : Bool) : Instr :=
  match reg with
  | some r => if r = b then .test b cc else .testset (some r) b cc
  | none => .test b cc

theorem newTest_isTest (reg : Option Nat) (b : Nat) (cc : Bool) : (newTest reg b cc).isTest = true := by
  unfold newTest; split
  · split <;> rfl
  · rfl

/-- `patchtestreg` when there is a `TESTSET` -/
theorem patchtestreg_some {c : List Instr} {p : Nat} {a : Option Nat} {b : Nat} {cc : Bool}
    (h : c[p]? = some (.testset a b cc)) (reg : Option Nat) :
    patchtestreg c (p + 1) reg = (c.set p (newTest reg b cc), true) := by
  unfold patchtestreg; dsimp only; rw [h]; rfl

theorem patchtestreg_none {c : List Instr} {j : Nat} (h : ctl c j = none) (reg : Option Nat) :
    patchtestreg c j reg = (c, false) := by
  unfold patchtestreg
  unfold ctl at h
  split
  · rfl
  · dsimp only at h
    split
    · rename_i h2; rw [h2] at h; cases h
    · rfl

theorem ctl_some {c : List Instr} {j b : Nat} (h : ctl c j = some b) :
    ∃ p a cc, j = p + 1 ∧ c[p]? = some (.testset a b cc) := by
  unfold ctl at h
  split at h
  · cases h
  · rename_i p
    split at h
    · rename_i a b' cc h2
      cases h
      exact ⟨p, a, cc, rfl, h2⟩
    · cases h

/-- where a patched jump goes -/
def target (c : List Instr) (vt dt j : Nat) : Nat := if (ctl c j).isSome then vt else dt

theorem patch1_none {c : List Instr} {j : Nat} (h : ctl c j = none) (vt : Nat) (reg : Option Nat) (dt : Nat) :
    patch1 vt reg dt c j = c.set j (.jmp (some dt)) := by
  unfold patch1; rw [patchtestreg_none h]; rfl

theorem patch1_some {c : List Instr} {p : Nat} {a : Option Nat} {b : Nat} {cc : Bool}
    (h : c[p]? = some (.testset a b cc)) (vt : Nat) (reg : Option Nat) (dt : Nat) :
    patch1 vt reg dt c (p + 1) = (c.set p (newTest reg b cc)).set (p + 1) (.jmp (some vt)) := by
  unfold patch1; rw [patchtestreg_some h]; rfl

theorem ctl_of_test {c : List Instr} {p : Nat} {a : Option Nat} {b : Nat} {cc : Bool}
    (h : c[p]? = some (.testset a b cc)) : ctl c (p + 1) = some b := by
  unfold ctl; dsimp only; rw [h]

/-- the patched code, position by position -/
theorem patch1_get {c : List Instr} {j : Nat} (hj : c[j]? = some (.jmp none)) (vt : Nat)
    (reg : Option Nat) (dt : Nat) :
    (patch1 vt reg dt c j)[j]? = some (.jmp (some (target c vt dt j))) ∧
    (∀ i, i ≠ j → i + 1 ≠ j → (patch1 vt reg dt c j)[i]? = c[i]?) ∧
    (∀ p, p + 1 = j → (patch1 vt reg dt c j)[p]? =
      match c[p]? with
      | some (.testset _ b cc) => some (newTest reg b cc)
      | o => o) := by
  have hl := getElem?_lt hj
  cases hc : ctl c j with
  | none =>
    rw [patch1_none hc]
    refine ⟨?_, ?_, ?_⟩
    · rw [List.getElem?_set_self hl]; unfold target; rw [hc]; rfl
    · intro i h1 h2
      exact List.getElem?_set_ne (Ne.symm h1)
    · intro p hp
      subst hp
      rw [List.getElem?_set_ne (by omega)]
      unfold ctl at hc
      dsimp only at hc
      split at hc
      · cases hc
      · rfl
  | some b =>
    obtain ⟨p, a, cc, rfl, h⟩ := ctl_some hc
    rw [patch1_some h]
    have hp := getElem?_lt h
    refine ⟨?_, ?_, ?_⟩
    · rw [List.getElem?_set_self (by rw [List.length_set]; exact hl)]; unfold target; rw [hc]; rfl
    · intro i h1 h2
      rw [List.getElem?_set_ne (Ne.symm h1), List.getElem?_set_ne (by omega)]
    · intro q hq
      have : q = p := by omega
      subst this
      rw [List.getElem?_set_ne (by omega), List.getElem?_set_self hp, h]

/-- a position that is not reached by skipping a test -/
def Land (c : List Instr) (t : Nat) : Prop := ∀ x, c[t - 1]? = some x → x.isTest = false

theorem CodeWF.land_end {c : List Instr} {L : Nat} (h : CodeWF c L) (hp : 0 < c.length) : Land c c.length := by
  intro x hx
  cases ht : x.isTest with
  | false => rfl
  | true =>
    obtain ⟨t, h1⟩ := h.test _ x hx ht
    have := getElem?_lt h1
    omega

theorem newTest_exec (reg : Option Nat) (b : Nat) (cc : Bool) (R : Regs) (w : W) :
    (newTest reg b cc).exec P K R w =
      .ok (if (R b).truthy = cc then
        (0, (match reg with | some r => R.set r (R b) | none => R), w) else (1, R, w)) := by
  unfold newTest
  cases reg with
  | none =>
    simp only [Instr.exec]
    split <;> rfl
  | some r =>
    dsimp only
    split
    · rename_i h
      subst h
      rw [Regs.set_same]
      simp only [Instr.exec]
      split <;> rfl
    · simp only [Instr.exec]
      split <;> rfl

theorem newTest_not_jmp (reg : Option Nat) (b : Nat) (cc : Bool) : ∀ t, newTest reg b cc ≠ .jmp t := by
  intro t h
  have := newTest_isTest reg b cc
  rw [h] at this
  cases this

theorem onExit_gt {c : List Instr} {j pc : Nat} (hp : j < pc) (h : Regs → W → Res (Out W)) (R : Regs) (w : W) :
    onExit j h (run P K c pc R w) = run P K c pc R w := by
  cases hr : run P K c pc R w with
  | ok o =>
    cases o with
    | fall _ _ => rfl
    | exit i R' w' =>
      have := (run_exit hr).1
      show (if i = j then _ else _) = _
      rw [if_neg (by omega)]
  | err m => rfl
  | ub => rfl

theorem patch1_run {c : List Instr} {L : Nat} (hw : CodeWF c L) {j : Nat} (hj : c[j]? = some (.jmp none))
    {vt dt : Nat} (reg : Option Nat) (ht : j < target c vt dt j) :
    ∀ (m pc : Nat), c.length - pc ≤ m → pc ≤ c.length → (pc = j → ctl c j = none) → ∀ (R : Regs) (w : W),
      run P K (patch1 vt reg dt c j) pc R w =
        onExit j (fun R w => run P K c (target c vt dt j) (upd c reg j R) w) (run P K c pc R w) := by
  obtain ⟨g1, g2, g3⟩ := patch1_get hj vt reg dt
  have hlen := patch1_length vt reg dt c j
  generalize hc' : patch1 vt reg dt c j = c' at g1 g2 g3 hlen
  have above : ∀ pc, j < pc → ∀ (R : Regs) (w : W), run P K c' pc R w = run P K c pc R w := by
    intro pc hp R w
    exact run_congr' hlen (fun i hi => g2 i (by omega) (by omega)) R w
  intro m
  induction m with
  | zero =>
    intro pc h1 h2 _ R w
    have : pc = c.length := by omega
    subst this
    rw [onExit_gt (getElem?_lt hj), above _ (getElem?_lt hj)]
  | succ m ih =>
    intro pc h1 h2 h3 R w
    rcases Nat.lt_trichotomy pc j with hlt | heq | hgt
    · have hl : pc < c.length := by have := getElem?_lt hj; omega
      have hi : c[pc]? = some c[pc] := List.getElem?_eq_getElem hl
      generalize c[pc] = i at hi
      by_cases hts : pc + 1 = j ∧ ∃ a b cc, i = .testset a b cc
      · obtain ⟨hp, a, b, cc, rfl⟩ := hts
        subst hp
        have ha := hw.ts pc a b cc hi hj
        subst ha
        have hi' : c'[pc]? = some (newTest reg b cc) := by rw [g3 pc rfl, hi]
        rw [run_exec hi (fun t h => nomatch h), run_exec hi' (newTest_not_jmp reg b cc), newTest_exec]
        simp only [Instr.exec]
        by_cases htr : (R b).truthy = cc
        · rw [if_pos htr, if_pos htr]
          show run P K c' (pc + 1) _ _ = onExit _ _ (run P K c (pc + 1) _ _)
          rw [run_jmp_some g1 ht, run_jmp_none hj, above _ ht]
          show _ = (if pc + 1 = pc + 1 then _ else _)
          rw [if_pos rfl]
          unfold upd
          rw [ctl_of_test hi]
          cases reg <;> rfl
        · rw [if_neg htr, if_neg htr]
          show run P K c' (pc + 1 + 1) _ _ = onExit _ _ (run P K c (pc + 1 + 1) _ _)
          rw [onExit_gt (by omega), above _ (by omega)]
      · have hi' : c'[pc]? = some i := by
          by_cases hp : pc + 1 = j
          · rw [g3 pc hp, hi]
            split
            · rename_i a b cc h; cases h; exact absurd ⟨hp, a, b, cc, rfl⟩ hts
            · rfl
          · rw [g2 pc (by omega) hp, hi]
        rcases isJmp_or i with rfl | ⟨t, rfl⟩ | hjm
        · rw [run_jmp_none hi, run_jmp_none hi']
          show _ = (if pc = j then _ else _)
          rw [if_neg (by omega)]
        · obtain ⟨h4, h5, h6⟩ := hw.tgt pc t hi
          have := hw.le
          rw [run_jmp_some hi h4, run_jmp_some hi' h4]
          refine ih t (by omega) (by omega) ?_ R w
          intro hh
          subst hh
          cases hcc : ctl c t with
          | none => rfl
          | some b =>
            obtain ⟨p, a, cc, hp, h⟩ := ctl_some hcc
            subst hp
            have := h6 _ h
            cases this
        · rw [run_exec hi hjm, run_exec hi' hjm]
          cases he : i.exec P K R w with
          | ok r =>
            obtain ⟨n, R', w'⟩ := r
            refine ih _ (by omega) (hw.next_le hi he) ?_ R' w'
            intro hh
            rcases exec_next he with rfl | ⟨rfl, hn⟩
            · cases hcc : ctl c j with
              | none => rfl
              | some b =>
                obtain ⟨p, a, cc, hp, h⟩ := ctl_some hcc
                have : p = pc := by omega
                subst this
                rw [hi] at h
                cases h
                exact absurd ⟨by omega, a, b, cc, rfl⟩ hts
            · have hnot : ∀ p a b cc, j = p + 1 → c[p]? ≠ some (.testset a b cc) := by
                intro p a b cc hp h
                have : p = pc + 1 := by omega
                subst this
                rcases hn with hn | ⟨a', b', rfl⟩
                · obtain ⟨t, ht⟩ := hw.test pc i hi hn
                  rw [ht] at h; cases h
                · obtain ⟨_, _, ht⟩ := hw.skip pc a' b' hi
                  rw [ht] at h; cases h
              cases hcc : ctl c j with
              | none => rfl
              | some b =>
                obtain ⟨p, a, cc, hp, h⟩ := ctl_some hcc
                exact absurd h (hnot p a b cc hp)
          | err m => rfl
          | ub => rfl
    · subst heq
      rw [run_jmp_some g1 ht, run_jmp_none hj, above _ ht]
      show _ = (if pc = pc then _ else _)
      rw [if_pos rfl]
      unfold upd
      rw [h3 rfl]
    · rw [onExit_gt hgt, above _ hgt]

theorem patch1_wf {c : List Instr} {L : Nat} (hw : CodeWF c L) {j : Nat} (hj : c[j]? = some (.jmp none))
    {vt dt : Nat} (reg : Option Nat) (ht : j < target c vt dt j) (hn : target c vt dt j ≤ c.length)
    (hland : Land c (target c vt dt j)) : CodeWF (patch1 vt reg dt c j) c.length := by
  obtain ⟨g1, g2, g3⟩ := patch1_get hj vt reg dt
  have hlen := patch1_length vt reg dt c j
  generalize hc' : patch1 vt reg dt c j = c' at g1 g2 g3 hlen
  -- every instruction of the new code comes from the old one
  have back : ∀ i x, c'[i]? = some x → (i = j ∧ x = .jmp (some (target c vt dt j))) ∨
      (i + 1 = j ∧ ∃ a b cc, c[i]? = some (.testset a b cc) ∧ x = newTest reg b cc) ∨
      (i ≠ j ∧ c[i]? = some x) := by
    intro i x hx
    by_cases h1 : i = j
    · subst h1; rw [g1] at hx; cases hx; exact Or.inl ⟨rfl, rfl⟩
    · by_cases h2 : i + 1 = j
      · rw [g3 i h2] at hx
        split at hx
        · rename_i a b cc h
          cases hx
          exact Or.inr (Or.inl ⟨h2, a, b, cc, h, rfl⟩)
        · exact Or.inr (Or.inr ⟨h1, hx⟩)
      · rw [g2 i h1 h2] at hx; exact Or.inr (Or.inr ⟨h1, hx⟩)
  have land : ∀ t, Land c t → Land c' t := by
    intro t hl x hx
    rcases back _ x hx with ⟨_, rfl⟩ | ⟨_, a, b, cc, h, _⟩ | ⟨_, h⟩
    · rfl
    · exact absurd (hl _ h) (by simp [Instr.isTest])
    · exact hl _ h
  have fwdJmp : ∀ (i : Nat) (t : Option Nat), c[i]? = some (Instr.jmp t) → ∃ t', c'[i]? = some (Instr.jmp t') := by
    intro i t h
    by_cases h1 : i = j
    · subst h1; exact ⟨_, g1⟩
    · by_cases h2 : i + 1 = j
      · exact ⟨t, by rw [g3 i h2, h]⟩
      · exact ⟨t, by rw [g2 i h1 h2, h]⟩
  refine ⟨?_, ?_, ?_, ?_, by omega⟩
  · intro i x hx hxt
    rcases back i x hx with ⟨_, rfl⟩ | ⟨h1, a, b, cc, h, _⟩ | ⟨_, h⟩
    · cases hxt
    · rw [h1]; exact ⟨_, g1⟩
    · obtain ⟨t, ht⟩ := hw.test i x h hxt
      exact fwdJmp _ t ht
  · intro i a b hx
    rcases back i _ hx with ⟨_, h⟩ | ⟨_, a', b', cc, _, h⟩ | ⟨_, h⟩
    · cases h
    · have := newTest_isTest reg b' cc; rw [← h] at this; cases this
    · obtain ⟨a', b', h'⟩ := hw.skip i a b h
      refine ⟨a', b', ?_⟩
      by_cases h1 : i + 1 = j
      · rw [h1, hj] at h'; cases h'
      · by_cases h2 : i + 1 + 1 = j
        · rw [g3 _ h2, h']
        · rw [g2 _ h1 h2, h']
  · intro i t hx
    rcases back i _ hx with ⟨rfl, h⟩ | ⟨_, a', b', cc, _, h⟩ | ⟨_, h⟩
    · cases h
      exact ⟨ht, hn, land _ hland⟩
    · exact absurd h.symm (newTest_not_jmp reg b' cc _)
    · obtain ⟨h1, h2, h3⟩ := hw.tgt i t h
      exact ⟨h1, by have := hw.le; omega, land _ h3⟩
  · intro i a b cc hx hn
    have hij : i + 1 ≠ j := by
      intro h; rw [h, g1] at hn; cases hn
    rcases back i _ hx with ⟨_, h⟩ | ⟨h1, _⟩ | ⟨h0, h⟩
    · cases h
    · exact absurd h1 hij
    · refine hw.ts i a b cc h ?_
      rcases back _ _ hn with ⟨_, h'⟩ | ⟨_, a', b', cc', _, h'⟩ | ⟨_, h'⟩
      · cases h'
      · exact absurd h'.symm (newTest_not_jmp reg b' cc' _)
      · exact h'

/-- the other pending jumps are not affected by patching one -/
theorem patch1_other {c : List Instr} {j : Nat} (hj : c[j]? = some (.jmp none)) (vt : Nat)
    (reg : Option Nat) (dt : Nat) {i : Nat} (hi : c[i]? = some (.jmp none)) (hne : i ≠ j) :
    (patch1 vt reg dt c j)[i]? = some (.jmp none) ∧ ctl (patch1 vt reg dt c j) i = ctl c i := by
  obtain ⟨g1, g2, g3⟩ := patch1_get hj vt reg dt
  constructor
  · by_cases h2 : i + 1 = j
    · rw [g3 i h2, hi]
    · rw [g2 i hne h2, hi]
  · cases i with
    | zero => rfl
    | succ p =>
      unfold ctl
      dsimp only
      by_cases h1 : p = j
      · subst h1; rw [g1, hj]
      · rw [g2 p h1 (by omega)]

theorem patch1_above {c : List Instr} {j : Nat} (hj : c[j]? = some (.jmp none)) (vt : Nat)
    (reg : Option Nat) (dt : Nat) {i : Nat} (hi : j < i) : (patch1 vt reg dt c j)[i]? = c[i]? :=
  (patch1_get hj vt reg dt).2.1 i (by omega) (by omega)

/-! ### lists of jumps -/

/-- registers after a jump of a patched list: the value of a `TESTSET`, or what the code at the default
target does -/
def listUpd (c : List Instr) (reg : Option Nat) (gd : Regs → Regs) (j : Nat) (R : Regs) : Regs :=
  match ctl c j with
  | some _ => upd c reg j R
  | none => gd R

/-- what the lists need -/
structure Pending (c : List Instr) (l : List Nat) (dt : Nat) : Prop where
  jmp : ∀ j ∈ l, c[j]? = some (Instr.jmp none)
  lt : ∀ j ∈ l, j < dt
  nodup : l.Nodup

theorem handle_congr {h h' : Nat → Option (Regs → Regs)} (e : ∀ j, h j = h' j) (o : Res (Out W)) :
    handle h o = handle h' o := by
  have : h = h' := funext e
  rw [this]

theorem handle_none (o : Res (Out W)) : handle (fun _ => none) o = o := by
  rcases o with ⟨_ | _⟩ | _ | _ <;> rfl

theorem patchlistaux_length (c : List Instr) (l : List Nat) (vt : Nat) (reg : Option Nat) (dt : Nat) :
    (patchlistaux c l vt reg dt).length = c.length := by
  unfold patchlistaux
  induction l generalizing c with
  | nil => rfl
  | cons j l ih => rw [List.foldl_cons, ih, patch1_length]

theorem patchlist_run {c : List Instr} (hw : CodeWF c c.length) {l : List Nat} {dt : Nat}
    (hl : Pending c l dt) (hdt : dt ≤ c.length) (hland : Land c dt) (reg : Option Nat) {gd : Regs → Regs}
    (hgd : ∀ R w, run P K c dt R w = .ok (.fall (gd R) w)) (R : Regs) (w : W) :
    run P K (patchlistaux c l c.length reg dt) 0 R w =
      handle (fun j => if j ∈ l then some (listUpd c reg gd j) else none) (run P K c 0 R w) := by
  unfold patchlistaux
  induction l generalizing c with
  | nil =>
    rw [handle_congr (h' := fun _ => none) (fun j => by simp), handle_none]
    rfl
  | cons j l ih =>
    have hj := hl.jmp j (List.mem_cons_self ..)
    have hjl := hl.lt j (List.mem_cons_self ..)
    have hpos : 0 < c.length := by have := getElem?_lt hj; omega
    have ht : j < target c c.length dt j := by unfold target; split <;> omega
    have hn : target c c.length dt j ≤ c.length := by unfold target; split <;> omega
    have hld : Land c (target c c.length dt j) := by
      unfold target; split
      · exact hw.land_end hpos
      · exact hland
    have hw1 := patch1_wf hw hj reg ht hn hld
    have hlen := patch1_length c.length reg dt c j
    have hnd := List.nodup_cons.1 hl.nodup
    have hab : ∀ pc, j < pc → ∀ R w, run P K (patch1 c.length reg dt c j) pc R w = run P K c pc R w :=
      fun pc hp R w => run_congr' hlen (fun i hi => patch1_above hj _ _ _ (by omega)) R w
    rw [List.foldl_cons]
    have := ih (c := patch1 c.length reg dt c j) (by rw [hlen]; exact hw1)
      ⟨fun i hi => (patch1_other hj _ _ _ (hl.jmp i (List.mem_cons_of_mem _ hi))
          (fun h => hnd.1 (h ▸ hi))).1,
        fun i hi => hl.lt i (List.mem_cons_of_mem _ hi), hnd.2⟩
      (by omega)
      (by
        intro x hx
        obtain ⟨g1, g2, g3⟩ := patch1_get hj c.length reg dt
        by_cases h1 : dt - 1 = j
        · rw [h1, g1] at hx; cases hx; rfl
        · rw [g2 _ h1 (by omega)] at hx; exact hland x hx)
      (fun R w => by rw [hab dt hjl]; exact hgd R w)
    rw [hlen] at this
    rw [this, patch1_run hw hj reg ht _ 0 (Nat.le_refl _) (Nat.zero_le _) (fun h => by subst h; rfl)]
    cases hr : run P K c 0 R w with
    | err m => rfl
    | ub => rfl
    | ok o =>
      cases o with
      | fall R' w' => rfl
      | exit i R' w' =>
        by_cases hij : i = j
        · subst hij
          have h1 : onExit i (fun R w => run P K c (target c c.length dt i) (upd c reg i R) w)
              (Res.ok (Out.exit i R' w')) = .ok (.fall (listUpd c reg gd i R') w') := by
            show (if i = i then _ else _) = _
            rw [if_pos rfl]
            unfold listUpd target
            cases hc : ctl c i with
            | none =>
              show run P K c dt _ _ = _
              have : upd c reg i R' = R' := by unfold upd; rw [hc]
              rw [this, hgd]
            | some b =>
              show run P K c c.length _ _ = _
              rw [run_end]
          rw [h1]
          show _ = handle _ (Res.ok (Out.exit i R' w'))
          unfold handle
          dsimp only
          rw [if_pos (List.mem_cons_self ..)]
        · have h1 : onExit j (fun R w => run P K c (target c c.length dt j) (upd c reg j R) w)
              (Res.ok (Out.exit i R' w')) = .ok (.exit i R' w') := if_neg hij
          rw [h1]
          unfold handle
          dsimp only
          by_cases hil : i ∈ l
          · rw [if_pos hil, if_pos (List.mem_cons_of_mem _ hil)]
            dsimp only
            have hic := (patch1_other hj c.length reg dt (hl.jmp i (List.mem_cons_of_mem _ hil)) hij).2
            unfold listUpd upd
            rw [hic]
          · rw [if_neg hil, if_neg (by simp [hij, hil])]

theorem patchlist_wf {c : List Instr} (hw : CodeWF c c.length) {l : List Nat} {dt : Nat}
    (hl : Pending c l dt) (hdt : dt ≤ c.length) (hland : Land c dt) (reg : Option Nat) :
    CodeWF (patchlistaux c l c.length reg dt) c.length := by
  unfold patchlistaux
  induction l generalizing c with
  | nil => exact hw
  | cons j l ih =>
    have hj := hl.jmp j (List.mem_cons_self ..)
    have hjl := hl.lt j (List.mem_cons_self ..)
    have hpos : 0 < c.length := by have := getElem?_lt hj; omega
    have ht : j < target c c.length dt j := by unfold target; split <;> omega
    have hn : target c c.length dt j ≤ c.length := by unfold target; split <;> omega
    have hld : Land c (target c c.length dt j) := by
      unfold target; split
      · exact hw.land_end hpos
      · exact hland
    have hw1 := patch1_wf hw hj reg ht hn hld
    have hlen := patch1_length c.length reg dt c j
    have hnd := List.nodup_cons.1 hl.nodup
    rw [List.foldl_cons]
    have := ih (c := patch1 c.length reg dt c j) (by rw [hlen]; exact hw1)
      ⟨fun i hi => (patch1_other hj _ _ _ (hl.jmp i (List.mem_cons_of_mem _ hi))
          (fun h => hnd.1 (h ▸ hi))).1,
        fun i hi => hl.lt i (List.mem_cons_of_mem _ hi), hnd.2⟩
      (by omega)
      (by
        intro x hx
        obtain ⟨g1, g2, g3⟩ := patch1_get hj c.length reg dt
        by_cases h1 : dt - 1 = j
        · rw [h1, g1] at hx; cases hx; rfl
        · rw [g2 _ h1 (by omega)] at hx; exact hland x hx)
    rw [hlen] at this
    exact this

/-- jumps outside the list stay as they are -/
theorem patchlist_other {c : List Instr} {l : List Nat} (hl : ∀ j ∈ l, c[j]? = some (Instr.jmp none))
    (hnd : l.Nodup) (vt : Nat) (reg : Option Nat) (dt : Nat) {i : Nat} (hi : c[i]? = some (.jmp none))
    (hne : i ∉ l) :
    (patchlistaux c l vt reg dt)[i]? = some (.jmp none) ∧ ctl (patchlistaux c l vt reg dt) i = ctl c i := by
  unfold patchlistaux
  induction l generalizing c with
  | nil => exact ⟨hi, rfl⟩
  | cons j l ih =>
    have hj := hl j (List.mem_cons_self ..)
    have hij : i ≠ j := fun h => hne (h ▸ List.mem_cons_self ..)
    have hn := List.nodup_cons.1 hnd
    obtain ⟨h1, h2⟩ := patch1_other hj vt reg dt hi hij
    rw [List.foldl_cons]
    have := ih (c := patch1 vt reg dt c j)
      (fun k hk => (patch1_other hj _ _ _ (hl k (List.mem_cons_of_mem _ hk)) (fun h => hn.1 (h ▸ hk))).1)
      hn.2 h1 (fun h => hne (List.mem_cons_of_mem _ h))
    rw [h2] at this
    exact this

theorem patchlist_above {c : List Instr} {l : List Nat} (hl : ∀ j ∈ l, c[j]? = some (Instr.jmp none))
    (hnd : l.Nodup) (vt : Nat) (reg : Option Nat) (dt : Nat) {i : Nat} (hi : ∀ j ∈ l, j < i) :
    (patchlistaux c l vt reg dt)[i]? = c[i]? := by
  unfold patchlistaux
  induction l generalizing c with
  | nil => rfl
  | cons j l ih =>
    have hj := hl j (List.mem_cons_self ..)
    have hn := List.nodup_cons.1 hnd
    rw [List.foldl_cons]
    rw [ih (c := patch1 vt reg dt c j)
      (fun k hk => (patch1_other hj _ _ _ (hl k (List.mem_cons_of_mem _ hk)) (fun h => hn.1 (h ▸ hk))).1)
      hn.2 (fun k hk => hi k (List.mem_cons_of_mem _ hk))]
    exact patch1_above hj _ _ _ (hi j (List.mem_cons_self ..))

end Verif.ExpCode
