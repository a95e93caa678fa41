import Verif.ExpCode.Run
/-! States of the code generator, and how one extends another. -/
namespace Verif.ExpCode
variable {W : Type} {P : Ops W} {K : List Val}

/-- exits of a list become falling through -/
def closing (l : List Nat) : Nat → Option (Regs → Regs) := fun j => if j ∈ l then some id else none

/-- run the code so far; pending "jumps to here" fall through -/
def H (P : Ops W) (K : List Val) (s : FS) (R : Regs) (w : W) : Res (Out W) :=
  handle (closing s.jpc) (run P K s.code 0 R w)

structure WF (s : FS) : Prop where
  code : CodeWF s.code s.lasttarget
  jpc : ∀ j ∈ s.jpc, s.code[j]? = some (Instr.jmp none)
  nodup : s.jpc.Nodup
  here : s.jpc ≠ [] → s.lasttarget = s.code.length

/-- a jump whose destination is open -/
def Pend (s : FS) (j : Nat) : Prop := s.code[j]? = some (Instr.jmp none) ∧ j ∉ s.jpc

theorem Pend.lt {s : FS} {j : Nat} (h : Pend s j) : j < s.code.length := getElem?_lt h.1

/-- `s` continues `s0`, doing `g` after it -/
structure Ext (P : Ops W) (K : List Val) (s0 s : FS) (g : Regs → W → Res (Out W)) : Prop where
  wf : WF s
  step : ∀ R w, H P K s R w = andThen (H P K s0 R w) g
  frame : ∀ j, Pend s0 j → Pend s j ∧ ctl s.code j = ctl s0.code j
  k : s0.k <+: s.k
  nact : s.nactvar = s0.nactvar
  len : s0.code.length ≤ s.code.length

/-- nothing is done -/
def skipG : Regs → W → Res (Out W) := fun R w => .ok (.fall R w)

theorem Ext.refl {s : FS} (h : WF s) : Ext P K s s skipG :=
  ⟨h, fun _ _ => (andThen_fall _).symm, fun _ hj => ⟨hj, rfl⟩, List.prefix_refl _, rfl, Nat.le_refl _⟩

theorem Ext.trans {s0 s1 s2 : FS} {g1 g2 : Regs → W → Res (Out W)} (h1 : Ext P K s0 s1 g1)
    (h2 : Ext P K s1 s2 g2) : Ext P K s0 s2 (fun R w => andThen (g1 R w) g2) := by
  refine ⟨h2.wf, ?_, ?_, h1.k.trans h2.k, h2.nact.trans h1.nact, Nat.le_trans h1.len h2.len⟩
  · intro R w
    rw [h2.step, h1.step, andThen_assoc]
  · intro j hj
    obtain ⟨a, b⟩ := h1.frame j hj
    obtain ⟨c, d⟩ := h2.frame j a
    exact ⟨c, d.trans b⟩

theorem Ext.trans_skip {s0 s1 s2 : FS} {g : Regs → W → Res (Out W)} (h1 : Ext P K s0 s1 g)
    (h2 : Ext P K s1 s2 skipG) : Ext P K s0 s2 g := by
  have := h1.trans h2
  have e : (fun R w => andThen (g R w) skipG) = g := by
    funext R w; exact andThen_fall _
  rwa [e] at this

theorem Ext.skip_trans {s0 s1 s2 : FS} {g : Regs → W → Res (Out W)} (h1 : Ext P K s0 s1 skipG)
    (h2 : Ext P K s1 s2 g) : Ext P K s0 s2 g := h1.trans h2

/-- only registers, and constants, have changed -/
theorem Ext.of_same {s s' : FS} (h : WF s) (h1 : s'.code = s.code) (h2 : s'.jpc = s.jpc)
    (h3 : s'.lasttarget = s.lasttarget) (h4 : s'.nactvar = s.nactvar) (h5 : s.k <+: s'.k) :
    Ext P K s s' skipG := by
  refine ⟨⟨by rw [h1, h3]; exact h.code, by rw [h1, h2]; exact h.jpc, by rw [h2]; exact h.nodup,
    by rw [h1, h2, h3]; exact h.here⟩, ?_, ?_, h5, h4, by rw [h1]; exact Nat.le_refl _⟩
  · intro R w
    unfold H
    rw [h1, h2]
    exact (andThen_fall _).symm
  · intro j hj
    unfold Pend
    rw [h1, h2]
    exact ⟨hj, rfl⟩

theorem H_exit {s : FS} {R : Regs} {w : W} {j : Nat} {R' : Regs} {w' : W}
    (h : H P K s R w = .ok (.exit j R' w')) : Pend s j := by
  unfold H at h
  cases hr : run P K s.code 0 R w with
  | ok o =>
    cases o with
    | fall _ _ => rw [hr] at h; cases h
    | exit i R1 w1 =>
      rw [hr] at h
      unfold handle closing at h
      dsimp only at h
      by_cases hi : i ∈ s.jpc
      · rw [if_pos hi] at h; cases h
      · rw [if_neg hi] at h
        cases h
        exact ⟨(run_exit hr).2, hi⟩
  | err m => rw [hr] at h; cases h
  | ub => rw [hr] at h; cases h

/-- exits that an earlier state cannot have can be handled later -/
theorem handle_andThen {s0 : FS} {h : Nat → Option (Regs → Regs)} (hh : ∀ j, Pend s0 j → h j = none)
    (g : Regs → W → Res (Out W)) (R : Regs) (w : W) :
    handle h (andThen (H P K s0 R w) g) = andThen (H P K s0 R w) (fun R w => handle h (g R w)) := by
  cases hr : H P K s0 R w with
  | ok o =>
    cases o with
    | fall _ _ => rfl
    | exit i R1 w1 =>
      show handle h (.ok (.exit i R1 w1)) = .ok (.exit i R1 w1)
      unfold handle
      dsimp only
      rw [hh i (H_exit hr)]
  | err m => rfl
  | ub => rfl

/-! ### dischargejpc -/

theorem patchlistaux_nil (c : List Instr) (vt : Nat) (reg : Option Nat) (dt : Nat) :
    patchlistaux c [] vt reg dt = c := rfl

theorem listUpd_none_id (c : List Instr) (j : Nat) : listUpd c none id j = id := by
  funext R
  unfold listUpd upd
  cases ctl c j <;> rfl

theorem dischargejpc_length (s : FS) : (dischargejpc s).code.length = s.code.length :=
  patchlistaux_length ..

theorem dischargejpc_ext {s : FS} (h : WF s) : Ext P K s (dischargejpc s) skipG := by
  by_cases hj : s.jpc = []
  · refine Ext.of_same h ?_ hj.symm rfl rfl (List.prefix_refl _)
    show patchlistaux s.code s.jpc _ _ _ = s.code
    rw [hj]; rfl
  have hL := h.here hj
  have hcw : CodeWF s.code s.code.length := by have := h.code; rwa [hL] at this
  have hp : Pending s.code s.jpc s.code.length := ⟨h.jpc, fun j hj => getElem?_lt (h.jpc j hj), h.nodup⟩
  have hpos : 0 < s.code.length := by
    cases hl : s.jpc with
    | nil => exact absurd hl hj
    | cons a l =>
      have := getElem?_lt (h.jpc a (by rw [hl]; exact List.mem_cons_self ..))
      omega
  have hld := hcw.land_end hpos
  refine ⟨⟨?_, (fun j hj => nomatch hj), List.nodup_nil, fun h => absurd rfl h⟩, ?_, ?_, List.prefix_refl _, rfl,
    Nat.le_of_eq (dischargejpc_length s).symm⟩
  · show CodeWF (patchlistaux s.code s.jpc s.code.length none s.code.length) s.lasttarget
    rw [hL]
    exact patchlist_wf hcw hp (Nat.le_refl _) hld none
  · intro R w
    show handle (closing []) (run P K (patchlistaux s.code s.jpc s.code.length none s.code.length) 0 R w)
      = andThen (H P K s R w) skipG
    have : andThen (H P K s R w) skipG = H P K s R w := andThen_fall _
    rw [this]
    rw [patchlist_run hcw hp (Nat.le_refl _) hld none (gd := id) (fun R w => run_end ..)]
    rw [handle_congr (h := closing []) (h' := fun _ => none) (fun j => by simp [closing]), handle_none]
    unfold H closing
    refine handle_congr (fun j => ?_) _
    simp only [listUpd_none_id]
  · intro j hjp
    have := patchlist_other h.jpc h.nodup s.code.length none s.code.length hjp.1 hjp.2
    exact ⟨⟨this.1, (fun h => nomatch h)⟩, this.2⟩

theorem dischargejpc_jpc (s : FS) : (dischargejpc s).jpc = [] := rfl

/-! ### appending code -/

/-- code that can be added at the end -/
structure Block (d : List Instr) : Prop where
  test : ∀ (i : Nat) (x : Instr), d[i]? = some x → x.isTest = true → ∃ t, d[i + 1]? = some (.jmp t)
  skip : ∀ (i a : Nat) (b : Bool), d[i]? = some (.loadbool a b true) →
    ∃ a' b', d[i + 1]? = some (.loadbool a' b' false)
  nojmp : ∀ (i t : Nat), d[i]? ≠ some (.jmp (some t))
  ts : ∀ (i : Nat) (a : Option Nat) (b : Nat) (cc : Bool), d[i]? = some (.testset a b cc) →
    d[i + 1]? = some (.jmp none) → a = none

theorem CodeWF.append {c d : List Instr} {L : Nat} (h : CodeWF c L) (hd : Block d) : CodeWF (c ++ d) L := by
  have left : ∀ {i : Nat} {x : Instr}, c[i]? = some x → (c ++ d)[i]? = some x := by
    intro i x hx
    rw [List.getElem?_append_left (getElem?_lt hx)]; exact hx
  have cs : ∀ {i : Nat} {x : Instr}, (c ++ d)[i]? = some x →
      c[i]? = some x ∨ ∃ p, i = c.length + p ∧ d[p]? = some x := by
    intro i x hx
    rcases Nat.lt_or_ge i c.length with hl | hl
    · rw [List.getElem?_append_left hl] at hx; exact Or.inl hx
    · rw [List.getElem?_append_right hl] at hx
      exact Or.inr ⟨i - c.length, by omega, hx⟩
  have right : ∀ (p : Nat), (c ++ d)[c.length + p]? = d[p]? := by
    intro p
    rw [List.getElem?_append_right (by omega)]
    congr 1; omega
  refine ⟨?_, ?_, ?_, ?_, ?_⟩
  · intro i x hx ht
    rcases cs hx with hx1 | ⟨p, rfl, hx1⟩
    · obtain ⟨t, e⟩ := h.test i x hx1 ht; exact ⟨t, left e⟩
    · obtain ⟨t, e⟩ := hd.test p x hx1 ht
      exact ⟨t, by rw [Nat.add_assoc, right]; exact e⟩
  · intro i a b hx
    rcases cs hx with hx1 | ⟨p, rfl, hx1⟩
    · obtain ⟨a', b', e⟩ := h.skip i a b hx1; exact ⟨a', b', left e⟩
    · obtain ⟨a', b', e⟩ := hd.skip p a b hx1
      exact ⟨a', b', by rw [Nat.add_assoc, right]; exact e⟩
  · intro i t hx
    rcases cs hx with hx1 | ⟨p, rfl, hx1⟩
    · obtain ⟨h1, h2, h3⟩ := h.tgt i t hx1
      refine ⟨h1, h2, ?_⟩
      intro x hx
      have := h.le
      rw [List.getElem?_append_left (by omega)] at hx
      exact h3 x hx
    · exact absurd hx1 (hd.nojmp p t)
  · intro i a b cc hx hn
    rcases cs hx with hx1 | ⟨p, rfl, hx1⟩
    · obtain ⟨t, e⟩ := h.test i _ hx1 rfl
      have := left e
      rw [hn] at this
      cases this
      exact h.ts i a b cc hx1 e
    · rw [Nat.add_assoc, right] at hn
      exact hd.ts p a b cc hx1 hn
  · rw [List.length_append]; have := h.le; omega

theorem ctl_append {c : List Instr} (d : List Instr) {j : Nat} (h : j ≤ c.length) : ctl (c ++ d) j = ctl c j := by
  cases j with
  | zero => rfl
  | succ p => unfold ctl; dsimp only; rw [List.getElem?_append_left (by omega)]

/-- the state with more code -/
def addCode (s : FS) (d : List Instr) : FS := { s with code := s.code ++ d }

theorem addCode_ext {s : FS} (h : WF s) (hj : s.jpc = []) {d : List Instr} (hd : Block d)
    {g : Regs → W → Res (Out W)} (hg : ∀ R w, run P K (s.code ++ d) s.code.length R w = g R w) :
    Ext P K s (addCode s d) g := by
  refine ⟨⟨h.code.append hd, ?_, h.nodup, ?_⟩, ?_, ?_, List.prefix_refl _, rfl, ?_⟩
  · intro j hj'
    have : j ∈ s.jpc := hj'
    rw [hj] at this; cases this
  · intro hne
    exact absurd hj hne
  · intro R w
    unfold H addCode
    dsimp only
    have e : closing [] = fun _ => none := by funext j; simp [closing]
    rw [hj, e, handle_none, handle_none, run_append h.code d _ 0 (Nat.le_refl _) (Nat.zero_le _)]
    congr 1
    funext R w
    exact hg R w
  · intro j hp
    refine ⟨⟨?_, hp.2⟩, ctl_append d (Nat.le_of_lt hp.lt)⟩
    show (s.code ++ d)[j]? = _
    rw [List.getElem?_append_left hp.lt]; exact hp.1
  · unfold addCode; dsimp only; rw [List.length_append]; omega

/-- an instruction that is neither a test nor a jump and does not skip -/
def Instr.plain : Instr → Bool
  | .set .. | .loadnil .. | .loadbool _ _ false | .eff _ | .self .. | .call .. => true
  | _ => false

theorem Block.single {i : Instr} (h : i.plain = true) : Block [i] := by
  refine ⟨?_, ?_, ?_, ?_⟩
  · intro p x hx ht
    cases p with
    | zero => cases hx; cases i <;> simp_all [Instr.plain, Instr.isTest]
    | succ p => cases hx
  · intro p a b hx
    cases p with
    | zero => cases hx; cases h
    | succ p => cases hx
  · intro p t hx
    cases p with
    | zero => cases hx; cases h
    | succ p => cases hx
  · intro p a b cc hx
    cases p with
    | zero => cases hx; cases h
    | succ p => cases hx

/-- run one instruction -/
def execG (P : Ops W) (K : List Val) (i : Instr) (R : Regs) (w : W) : Res (Out W) :=
  match i.exec P K R w with
  | .ok (_, R, w) => .ok (.fall R w)
  | .err m => .err m
  | .ub => .ub

theorem run_last {c : List Instr} {i : Instr} (h : i.plain = true) (R : Regs) (w : W) :
    run P K (c ++ [i]) c.length R w = execG P K i R w := by
  have hi : (c ++ [i])[c.length]? = some i := by simp
  rw [run_exec hi (by intro t e; subst e; cases h)]
  unfold execG
  cases he : i.exec P K R w with
  | ok r =>
    obtain ⟨n, R', w'⟩ := r
    have hn : n = 0 := by
      rcases exec_next he with h0 | ⟨_, h1 | ⟨a, b, rfl⟩⟩
      · exact h0
      · cases i <;> simp_all [Instr.plain, Instr.isTest]
      · cases h
    subst hn
    show run P K (c ++ [i]) (c.length + 1 + 0) R' w' = _
    have : c.length + 1 + 0 = (c ++ [i]).length := by simp
    rw [this, run_end]
  | err m => rfl
  | ub => rfl

theorem emit_eq (s : FS) (i : Instr) : emit s i = addCode (dischargejpc s) [i] := rfl

theorem emit_ext {s : FS} (h : WF s) {i : Instr} (hi : i.plain = true) :
    Ext P K s (emit s i) (execG P K i) := by
  rw [emit_eq]
  exact (dischargejpc_ext h).skip_trans
    (addCode_ext (dischargejpc_ext (P := P) (K := K) h).wf rfl (Block.single hi) (fun R w => run_last hi R w))

theorem Block.cond {i : Instr} (h : i.isTest = true) (hts : ∀ a b cc, i = .testset a b cc → a = none) :
    Block [i, .jmp none] := by
  refine ⟨?_, ?_, ?_, ?_⟩
  · intro p x hx ht
    match p, hx with
    | 0, hx => exact ⟨none, rfl⟩
    | 1, hx => cases hx; cases ht
    | p + 2, hx => cases hx
  · intro p a b hx
    match p, hx with
    | 0, hx => cases hx; cases h
    | 1, hx => cases hx
    | p + 2, hx => cases hx
  · intro p t hx
    match p, hx with
    | 0, hx => cases hx; cases h
    | 1, hx => cases hx
    | p + 2, hx => cases hx
  · intro p a b cc hx hn
    match p, hx with
    | 0, hx => cases hx; exact hts a b cc rfl
    | 1, hx => cases hx
    | p + 2, hx => cases hx

/-- run a test with its jump at `j` -/
def testG (P : Ops W) (K : List Val) (i : Instr) (j : Nat) (R : Regs) (w : W) : Res (Out W) :=
  match i.exec P K R w with
  | .ok (0, R, w) => .ok (.exit j R w)
  | .ok (_, R, w) => .ok (.fall R w)
  | .err m => .err m
  | .ub => .ub

theorem run_cond {c : List Instr} {i : Instr} (h : i.isTest = true) (R : Regs) (w : W) :
    run P K (c ++ [i, .jmp none]) c.length R w = testG P K i (c.length + 1) R w := by
  have hi : (c ++ [i, .jmp none])[c.length]? = some i := by simp
  have hj : (c ++ [i, .jmp none])[c.length + 1]? = some (.jmp none) := by simp
  rw [run_exec hi (by intro t e; subst e; cases h)]
  unfold testG
  cases he : i.exec P K R w with
  | ok r =>
    obtain ⟨n, R', w'⟩ := r
    rcases exec_next he with rfl | ⟨rfl, _⟩
    · show run P K _ (c.length + 1) R' w' = _
      rw [run_jmp_none hj]; rfl
    · show run P K (c ++ [i, .jmp none]) (c.length + 2) R' w' = _
      have : c.length + 2 = (c ++ [i, Instr.jmp none]).length := by simp
      rw [this, run_end]; rfl
  | err m => rfl
  | ub => rfl

theorem condjump_eq (s : FS) (i : Instr) :
    condjump s i = (addCode (dischargejpc s) [i, .jmp none], [s.code.length + 1]) := by
  unfold condjump jump emit addCode FS.pc
  dsimp only
  rw [List.append_assoc, List.length_append, dischargejpc_length]
  rfl

theorem condjump_ext {s : FS} (h : WF s) {i : Instr} (hi : i.isTest = true)
    (hts : ∀ a b cc, i = .testset a b cc → a = none) :
    Ext P K s (condjump s i).1 (testG P K i (s.code.length + 1)) := by
  rw [condjump_eq]
  refine (dischargejpc_ext h).skip_trans
    (addCode_ext (dischargejpc_ext (P := P) (K := K) h).wf rfl (Block.cond hi hts) (fun R w => ?_))
  rw [run_cond hi, dischargejpc_length]

/-! ### labels -/

theorem getlabel_ext {s : FS} (h : WF s) : Ext P K s (getlabel s) skipG := by
  refine ⟨⟨h.code.mono h.code.le (Nat.le_refl _), h.jpc, h.nodup, fun _ => rfl⟩, ?_, ?_, List.prefix_refl _, rfl,
    Nat.le_refl _⟩
  · intro R w
    exact (andThen_fall _).symm
  · intro j hj; exact ⟨hj, rfl⟩

theorem patchtohere_ext {s0 s : FS} {g : Regs → W → Res (Out W)} (h : Ext P K s0 s g) {l : List Nat}
    (hl : ∀ j ∈ l, Pend s j ∧ ¬ Pend s0 j) (hn : l.Nodup) :
    Ext P K s0 (patchtohere s l) (fun R w => handle (closing l) (g R w)) := by
  refine ⟨⟨h.wf.code.mono h.wf.code.le (Nat.le_refl _), ?_, ?_, fun _ => rfl⟩, ?_, ?_, h.k, h.nact, h.len⟩
  · intro j hj
    rcases List.mem_append.1 hj with hj | hj
    · exact h.wf.jpc j hj
    · exact (hl j hj).1.1
  · refine List.nodup_append.2 ⟨h.wf.nodup, hn, ?_⟩
    intro a ha b hb e
    subst e
    exact (hl a hb).1.2 ha
  · intro R w
    rw [← handle_andThen (fun j hj => ?_)]
    · rw [← h.step]
      show handle (closing (s.jpc ++ l)) (run P K s.code 0 R w) = handle (closing l) (handle (closing s.jpc) _)
      rcases run P K s.code 0 R w with ⟨_ | ⟨j, R', w'⟩⟩ | _ | _
      · rfl
      · unfold handle closing
        dsimp only
        by_cases h1 : j ∈ s.jpc
        · rw [if_pos h1, if_pos (List.mem_append_left _ h1)]
        · rw [if_neg h1]
          dsimp only
          by_cases h2 : j ∈ l
          · rw [if_pos h2, if_pos (List.mem_append_right _ h2)]
          · rw [if_neg h2, if_neg (by rw [List.mem_append]; exact fun h => h.elim h1 h2)]
      · rfl
      · rfl
    · unfold closing
      rw [if_neg]
      intro hjl
      exact (hl j hjl).2 hj
  · intro j hj
    obtain ⟨h1, h2⟩ := h.frame j hj
    refine ⟨⟨h1.1, ?_⟩, h2⟩
    intro hm
    rcases List.mem_append.1 hm with hm | hm
    · exact h1.2 hm
    · exact (hl j hm).2 hj

/-! ### constants and registers -/

theorem idxOf?_some {l : List Val} {v : Val} {i : Nat} (h : l.idxOf? v = some i) : l[i]? = some v := by
  unfold List.idxOf? at h
  rw [List.findIdx?_eq_some_iff_getElem] at h
  obtain ⟨h1, h2, _⟩ := h
  rw [List.getElem?_eq_getElem h1]
  simp at h2
  rw [h2]

theorem addK_spec (s : FS) (v : Val) :
    s.k <+: (addK s v).1.k ∧ (addK s v).1.k[(addK s v).2]? = some v := by
  unfold addK
  split
  · rename_i i h
    exact ⟨List.prefix_refl _, idxOf?_some h⟩
  · exact ⟨List.prefix_append .., by simp⟩

theorem addK_same (s : FS) (v : Val) : (addK s v).1.code = s.code ∧ (addK s v).1.jpc = s.jpc ∧
    (addK s v).1.lasttarget = s.lasttarget ∧ (addK s v).1.nactvar = s.nactvar ∧
    (addK s v).1.freereg = s.freereg := by
  unfold addK
  split <;> exact ⟨rfl, rfl, rfl, rfl, rfl⟩

theorem addK_ext {s : FS} (h : WF s) (v : Val) : Ext P K s (addK s v).1 skipG := by
  obtain ⟨h1, h2, h3, h4, _⟩ := addK_same s v
  exact Ext.of_same h h1 h2 h3 h4 (addK_spec s v).1

theorem prefix_getD {k K : List Val} (h : k <+: K) {i : Nat} {v : Val} (hi : k[i]? = some v) :
    K.getD i .nil = v := by
  obtain ⟨t, rfl⟩ := h
  have hl := (List.getElem?_eq_some_iff.1 hi).1
  rw [List.getD_eq_getElem?_getD, List.getElem?_append_left hl, hi]
  rfl

theorem freeReg_ext {s : FS} (h : WF s) (r : Nat) : Ext P K s (freeReg s r) skipG := by
  unfold freeReg
  split
  · exact Ext.of_same h rfl rfl rfl rfl (List.prefix_refl _)
  · exact Ext.refl h

theorem freeexp_ext {s : FS} (h : WF s) (d : D) : Ext P K s (freeexp s d) skipG := by
  unfold freeexp
  split
  · exact freeReg_ext h _
  · exact Ext.refl h

theorem freeRK_ext {s : FS} (h : WF s) (x : RK) : Ext P K s (freeRK s x) skipG := by
  cases x
  · exact freeReg_ext h _
  · exact Ext.refl h

theorem freeexps_ext {s : FS} (h : WF s) (d1 d2 : D) : Ext P K s (freeexps s d1 d2) skipG := by
  unfold freeexps
  split
  · have h1 := freeexp_ext (P := P) (K := K) h d1
    exact h1.trans_skip (freeexp_ext h1.wf d2)
  · have h1 := freeexp_ext (P := P) (K := K) h d2
    exact h1.trans_skip (freeexp_ext h1.wf d1)

theorem reserve_ok {s s' : FS} {n : Nat} (h : reserve s n = .ok s') :
    s' = { s with freereg := s.freereg + n } := by
  unfold reserve at h
  split at h
  · cases h
  · cases h; rfl

theorem reserve_ext {s s' : FS} (hw : WF s) {n : Nat} (h : reserve s n = .ok s') : Ext P K s s' skipG := by
  rw [reserve_ok h]
  exact Ext.of_same hw rfl rfl rfl rfl (List.prefix_refl _)

end Verif.ExpCode
