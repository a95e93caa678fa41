import Verif.Stat.Bland
import Verif.Stat.Sim
/-! Which gotos are accepted: definition of the rules, and the proof that the compiler follows them. -/
namespace Verif.Stat
open Verif.ExpCode
open Verif.Fold (FOps)

/-! ### the rules -/

/-- the visible labels, each with the number of variables in scope there -/
abbrev LV := Nat → Option Nat

/-- more labels -/
def ext (ρ : LV) (ls : List (Nat × Nat)) : LV := fun l =>
  match ls.find? (·.1 = l) with
  | some e => some e.2
  | none => ρ l

/-- the labels that a jump from a place with `n` variables may go to -/
def vis (n : Nat) (ρ : LV) : LV := fun l => (ρ l).filter (· ≤ n)

/-- The labels of a list of statements in a block that began with `n0` variables, where there are `n` now.  Reference manual
3.3.4: the labels at the end of a block are outside the scope of its variables; but not before `until` (`u`), which can use
the variables. -/
def S.labs (u : Bool) (n0 : Nat) : S → Nat → List (Nat × Nat)
  | .cons s rest, n =>
    match s.asLabel with
    | some l => (l, if !u && rest.onlyLabels then n0 else n) :: rest.labs u n0 n
    | none => rest.labs u n0 (n + s.nloc)
  | _, _ => []

/-- a validBlock, given what its statements must be: it has no label twice, and its labels are visible in all of it -/
def validBlock (b : S) (u : Bool) (n0 n : Nat) (v : LV → Nat → Prop) (ρ : LV) : Prop :=
  b.names.Nodup ∧ v (ext (vis n ρ) (b.labs u n0 n)) n

/-- The rule for gotos.  Reference manual 3.3.4: "A label is visible in the entire block where it is defined, except inside
nested blocks where a label with the same name is defined and inside nested functions.  A goto may jump to any visible label
as long as it does not enter into the scope of a local variable."  `break` terminates the innermost loop. -/
def S.valid : S → LV → Nat → Prop
  | .goto l, ρ, n => ∃ m, ρ l = some m ∧ m ≤ n
  | .cons s rest, ρ, n => s.valid ρ n ∧ rest.valid ρ (n + s.nloc)
  | .do_ b, ρ, n => validBlock b false n n b.valid ρ
  | .while_ _ b, ρ, n => validBlock b false n n b.valid (ext (vis n ρ) [(brk, n)])
  | .repeat_ b _, ρ, n => validBlock b true n n b.valid (ext (vis n ρ) [(brk, n)])
  | .for_ _ _ _ b, ρ, n => validBlock b false (n + 4) (n + 4) b.valid (ext (vis n ρ) [(brk, n + 3)])
  | .forin m b, ρ, n => validBlock b false (n + m) (n + m) b.valid (ext (vis n ρ) [(brk, n)])
  | .if_ p, ρ, n => p.valid ρ n
  | .test _ b rest, ρ, n => validBlock b false n n b.valid ρ ∧ rest.valid ρ n
  | .els b, ρ, n => validBlock b false n n b.valid ρ
  | _, _, _ => True

/-- the rule for a function with `n` parameters, whose block begins before them -/
def validFunc (n : Nat) (b : S) : Prop := validBlock b false 0 n b.valid fun _ => none

/-! ### labels -/

def Lab.pair (l : Lab) : Nat × Nat := (l.name, l.nact)

/-- the goto can be resolved -/
def okG (ρ : LV) (p : Gt) : Prop := ∃ m, ρ p.name = some m ∧ m ≤ p.nact

def allG (ρ : LV) (gs : List Gt) : Prop := ∀ p ∈ gs, okG ρ p

theorem ext_nil (ρ : LV) : ext ρ [] = ρ := rfl

theorem ext_app (ρ : LV) (a b : List (Nat × Nat)) : ext ρ (a ++ b) = ext (ext ρ b) a := by
  funext l
  unfold ext
  rw [List.find?_append]
  cases List.find? (fun x => decide (x.1 = l)) a <;> rfl

theorem vis_ext (n m : Nat) (ρ : LV) (l : Nat) (h : m ≤ n) : vis n (ext ρ [(l, m)]) = ext (vis n ρ) [(l, m)] := by
  funext x
  unfold vis ext
  by_cases hx : l = x <;> simp [hx, h]

theorem vis_vis (n m : Nat) (ρ : LV) (h : m ≤ n) : vis n (vis m ρ) = vis m ρ := by
  funext x
  unfold vis
  cases ρ x with
  | none => rfl
  | some y =>
    by_cases hy : y ≤ m
    · simp [Option.filter, hy]; omega
    · simp [Option.filter, hy]

theorem ext_find (ρ : LV) (ls : List Lab) (x : Nat) :
    ext ρ (ls.map Lab.pair) x = match ls.find? (·.name = x) with | some l => some l.nact | none => ρ x := by
  unfold ext
  rw [List.find?_map]
  have : ((fun e : Nat × Nat => decide (e.1 = x)) ∘ Lab.pair) = fun l : Lab => decide (l.name = x) := rfl
  rw [this]
  cases List.find? (fun l : Lab => decide (l.name = x)) ls <;> rfl

@[simp] theorem allG_nil (ρ : LV) : allG ρ [] := fun _ h => by cases h
theorem allG_cons (ρ : LV) (p : Gt) (gs : List Gt) : allG ρ (p :: gs) ↔ okG ρ p ∧ allG ρ gs := List.forall_mem_cons
theorem allG_app (ρ : LV) (a b : List Gt) : allG ρ (a ++ b) ↔ allG ρ a ∧ allG ρ b := by
  unfold allG
  constructor
  · exact fun h => ⟨fun p hp => h p (List.mem_append_left _ hp), fun p hp => h p (List.mem_append_right _ hp)⟩
  · rintro ⟨h1, h2⟩ p hp
    rcases List.mem_append.1 hp with h | h
    · exact h1 p h
    · exact h2 p h

theorem closegoto_cases (s : FS) (p : Gt) (l : Lab) :
    (p.nact < l.nact ∧ ∃ m, closegoto s p l = .err m) ∨
      (l.nact ≤ p.nact ∧ ∃ s', closegoto s p l = .ok s' ∧ s'.nactvar = s.nactvar) := by
  unfold closegoto
  split
  · exact .inl ⟨by assumption, _, rfl⟩
  · exact .inr ⟨by omega, _, rfl, by simp⟩

/-- a list of gotos is resolved with some labels -/
structure Resolves (N : Nat) (x : Res (FS × List Gt)) (gs : List Gt) (f : LV → LV) : Prop where
  ok : ∀ s' gs', x = .ok (s', gs') → s'.nactvar = N ∧ ∀ ρ, allG ρ gs' ↔ allG (f ρ) gs
  bad : ∀ m, x = .err m → ∀ ρ, ¬ allG (f ρ) gs

theorem findgotos_resolves (l : Lab) : ∀ (gs : List Gt) (s : FS),
    Resolves s.nactvar (findgotos l s gs) gs (fun ρ => ext ρ [l.pair]) := by
  intro gs
  induction gs with
  | nil => intro s; exact ⟨(fun s' gs' h => by cases h; exact ⟨rfl, fun ρ => ⟨fun _ => allG_nil _, fun _ => allG_nil _⟩⟩), fun m h => by cases h⟩
  | cons p gs ih =>
    intro s
    simp only [findgotos]
    split
    · rename_i hn
      have hx : ∀ ρ, ext ρ [l.pair] p.name = some l.nact := by
        intro ρ; rw [hn]; unfold ext Lab.pair; simp
      rcases closegoto_cases s p l with ⟨hlt, m, e⟩ | ⟨hle, s', e, hs⟩
      · rw [e]
        refine ⟨(fun s' gs' h => by cases h), fun m h ρ ha => ?_⟩
        obtain ⟨k, hk, hkl⟩ := ((allG_cons _ _ _).1 ha).1
        rw [hx] at hk; cases hk; omega
      · rw [e]
        obtain ⟨h1, h2⟩ := ih s'
        refine ⟨fun s2 gs2 h => ?_, fun m h ρ ha => h2 m h ρ ((allG_cons _ _ _).1 ha).2⟩
        obtain ⟨h3, h4⟩ := h1 s2 gs2 h
        exact ⟨h3.trans hs, fun ρ => (h4 ρ).trans ⟨fun h => (allG_cons _ _ _).2 ⟨⟨_, hx ρ, hle⟩, h⟩, fun h => ((allG_cons _ _ _).1 h).2⟩⟩
    · rename_i hn
      have hx : ∀ ρ, ext ρ [l.pair] p.name = ρ p.name := by
        intro ρ; unfold ext Lab.pair; simp [Ne.symm hn]
      have hx' : ∀ ρ, okG ρ p ↔ okG (ext ρ [l.pair]) p := by intro ρ; unfold okG; rw [hx]
      obtain ⟨h1, h2⟩ := ih s
      cases hf : findgotos l s gs with
      | ok r =>
        obtain ⟨s1, gs1⟩ := r
        obtain ⟨h3, h4⟩ := h1 _ _ hf
        refine ⟨fun s2 gs2 h => ?_, fun m h => by cases h⟩
        cases h
        exact ⟨h3, fun ρ => by rw [allG_cons, allG_cons, h4, hx']⟩
      | err m => exact ⟨(fun s2 gs2 h => by cases h), fun m' h ρ ha => h2 _ hf ρ ((allG_cons _ _ _).1 ha).2⟩
      | ub => exact ⟨(fun s2 gs2 h => by cases h), fun m' h => by cases h⟩

/-- a goto that leaves a block which began with `n` variables -/
def clip (n : Nat) (p : Gt) : Gt := { p with nact := if p.nact > n then n else p.nact }

theorem movegotosout_cons (n : Nat) (ls : List Lab) (s : FS) (p : Gt) (gs : List Gt) :
    movegotosout n ls s (p :: gs) = match ls.find? (·.name = (clip n p).name) with
      | some l => do
        let s ← closegoto s (clip n p) l
        movegotosout n ls s gs
      | none => do
        let (s, gs) ← movegotosout n ls s gs
        return (s, clip n p :: gs) := rfl

theorem movegotosout_resolves (n : Nat) (ls : List Lab) : ∀ (gs : List Gt) (s : FS),
    Resolves s.nactvar (movegotosout n ls s gs) gs (fun ρ => vis n (ext ρ (ls.map Lab.pair))) := by
  intro gs
  induction gs with
  | nil => intro s; exact ⟨(fun s' gs' h => by cases h; exact ⟨rfl, fun ρ => ⟨fun _ => allG_nil _, fun _ => allG_nil _⟩⟩), fun m h => by cases h⟩
  | cons p gs ih =>
    intro s
    rw [movegotosout_cons]
    have key : ∀ ρ : LV, okG (vis n ρ) p ↔ okG ρ (clip n p) := by
      intro ρ
      unfold okG vis clip
      cases ρ p.name with
      | none => simp
      | some y =>
        by_cases hy : y ≤ n
        · by_cases hp : p.nact > n
          · simp [Option.filter, hy, hp]; omega
          · simp [Option.filter, hy, hp]
        · by_cases hp : p.nact > n
          · simp [Option.filter, hy, hp]
          · simp [Option.filter, hy, hp]; omega
    generalize clip n p = q at key ⊢
    have key2 := fun ρ => key (ext ρ (ls.map Lab.pair))
    split
    · rename_i l hl
      have hx : ∀ ρ, ext ρ (ls.map Lab.pair) q.name = some l.nact := by intro ρ; rw [ext_find, hl]
      rcases closegoto_cases s q l with ⟨hlt, m, e⟩ | ⟨hle, s', e, hs⟩
      · rw [e]
        refine ⟨(fun s' gs' h => by cases h), fun m h ρ ha => ?_⟩
        obtain ⟨k, hk, hkl⟩ := (key2 ρ).1 ((allG_cons _ _ _).1 ha).1
        rw [hx] at hk; cases hk; omega
      · rw [e]
        obtain ⟨h1, h2⟩ := ih s'
        refine ⟨fun s2 gs2 h => ?_, fun m h ρ ha => h2 m h ρ ((allG_cons _ _ _).1 ha).2⟩
        obtain ⟨h3, h4⟩ := h1 s2 gs2 h
        exact ⟨h3.trans hs, fun ρ => (h4 ρ).trans ⟨fun h => (allG_cons _ _ _).2 ⟨(key2 ρ).2 ⟨_, hx ρ, hle⟩, h⟩,
          fun h => ((allG_cons _ _ _).1 h).2⟩⟩
    · rename_i hl
      have hx' : ∀ ρ, okG ρ q ↔ okG (vis n (ext ρ (ls.map Lab.pair))) p := by
        intro ρ; rw [key2]; unfold okG; rw [ext_find, hl]
      obtain ⟨h1, h2⟩ := ih s
      cases hf : movegotosout n ls s gs with
      | ok r =>
        obtain ⟨s1, gs1⟩ := r
        obtain ⟨h3, h4⟩ := h1 _ _ hf
        refine ⟨fun s2 gs2 h => ?_, fun m h => by cases h⟩
        cases h
        exact ⟨h3, fun ρ => by rw [allG_cons, allG_cons, h4, hx']⟩
      | err m => exact ⟨(fun s2 gs2 h => by cases h), fun m' h ρ ha => h2 _ hf ρ ((allG_cons _ _ _).1 ha).2⟩
      | ub => exact ⟨(fun s2 gs2 h => by cases h), fun m' h => by cases h⟩

/-- the labels that `leave` adds -/
def brks (isloop : Bool) (n : Nat) : List (Nat × Nat) := if isloop then [(brk, n)] else []

theorem leave_rule (isloop : Bool) (b o : G) :
    (∀ g', leave isloop b o = .ok g' → g'.fs.nactvar = b.nact ∧ g'.nact = o.nact ∧ g'.labels = o.labels ∧
      ∀ ρ, allG ρ g'.gotos ↔
        allG ρ o.gotos ∧ allG (ext (vis b.nact (ext ρ (o.labels.map Lab.pair))) (brks isloop b.fs.nactvar)) b.gotos) ∧
    (∀ m, leave isloop b o = .err m → ∀ ρ,
      ¬ allG (ext (vis b.nact (ext ρ (o.labels.map Lab.pair))) (brks isloop b.fs.nactvar)) b.gotos) := by
  unfold leave
  have hb : Resolves b.fs.nactvar (breaklabel isloop b.fs b.gotos) b.gotos (fun ρ => ext ρ (brks isloop b.fs.nactvar)) := by
    unfold breaklabel brks
    cases isloop
    · refine ⟨fun s' gs' h => ?_, fun m h => by cases h⟩
      cases h
      exact ⟨rfl, fun ρ => Iff.rfl⟩
    · exact findgotos_resolves _ _ _
  cases h1 : breaklabel isloop b.fs b.gotos with
  | err m => exact ⟨(fun g' h => by cases h), fun m' h ρ => hb.bad _ h1 _⟩
  | ub => exact ⟨(fun g' h => by cases h), fun m' h => by cases h⟩
  | ok r =>
    obtain ⟨s, gs⟩ := r
    obtain ⟨_, h2⟩ := hb.ok _ _ h1
    simp only [Res.bind_ok]
    have hm := movegotosout_resolves b.nact o.labels gs { s with nactvar := b.nact, freereg := b.nact }
    cases h3 : movegotosout b.nact o.labels { s with nactvar := b.nact, freereg := b.nact } gs with
    | err m => exact ⟨(fun g' h => by cases h), fun m' h ρ ha => hm.bad _ h3 ρ ((h2 _).2 ha)⟩
    | ub => exact ⟨(fun g' h => by cases h), fun m' h => by cases h⟩
    | ok r =>
      obtain ⟨s', gs'⟩ := r
      obtain ⟨h4, h5⟩ := hm.ok _ _ h3
      refine ⟨fun g' h => ?_, fun m h => by cases h⟩
      cases h
      refine ⟨h4, rfl, rfl, fun ρ => ?_⟩
      show allG ρ (o.gotos ++ gs') ↔ _
      rw [allG_app, h5, h2]

/-! ### statements -/

/-- what the compiler does with a list of statements -/
structure Judges (u : Bool) (s : S) (g : G) (x : Res (G × List Nat)) : Prop where
  ok : ∀ g' es, x = .ok (g', es) → g'.fs.nactvar = g.fs.nactvar + s.nloc ∧ g'.nact = g.nact ∧
    ((g.labels.map Lab.name).Nodup → (g.labels.map Lab.name ++ s.names).Nodup) ∧
    ∀ ρ, allG ρ g'.gotos ↔ allG (ext ρ (s.labs u g.nact g.fs.nactvar)) g.gotos ∧
      s.valid (ext ρ (g.labels.map Lab.pair ++ s.labs u g.nact g.fs.nactvar)) g.fs.nactvar
  bad : ∀ m, x = .err m → labelErr m → ∀ ρ,
    ¬ ((g.labels.map Lab.name ++ s.names).Nodup ∧ allG (ext ρ (s.labs u g.nact g.fs.nactvar)) g.gotos ∧
      s.valid (ext ρ (g.labels.map Lab.pair ++ s.labs u g.nact g.fs.nactvar)) g.fs.nactvar)

/-- what it does with a statement, or the parts of an `if`, after which there are `k` variables, and for which the rule
is `v` -/
structure J (x : Res (G × List Nat)) (k : Nat) (g : G) (v : LV → Prop) : Prop where
  ok : ∀ g' es, x = .ok (g', es) → g'.fs.nactvar = k ∧ g'.nact = g.nact ∧ g'.labels = g.labels ∧
    ∀ ρ, allG ρ g'.gotos ↔ allG ρ g.gotos ∧ v (ext ρ (g.labels.map Lab.pair))
  bad : ∀ m, x = .err m → labelErr m → ∀ ρ, ¬ v (ext ρ (g.labels.map Lab.pair))

theorem labs_names (u : Bool) (n0 : Nat) : ∀ (s : S) (n : Nat), (s.labs u n0 n).map (·.1) = s.names := by
  intro s
  induction s <;> intro n <;> simp only [S.labs, S.names, List.map_nil]
  rename_i s rest _ ih
  cases s.asLabel <;> simp [ih]

theorem J.ub {k : Nat} {g : G} {v : LV → Prop} : J .ub k g v := ⟨(fun g' es h => by cases h), fun m' h => by cases h⟩

/-- first an expression -/
theorem J.expr {α : Type} [HasFS α] {x : Res α} {f : α → Res (G × List Nat)} {k n : Nat} {g : G} {v : LV → Prop}
    (hx : Fine n x) (hf : ∀ a, (HasFS.st a).nactvar = n → J (f a) k g v) : J (x >>= f) k g v := by
  cases hc : x with
  | ok a => exact hf a (hx.act _ hc)
  | err m =>
    refine ⟨(fun g' es h => by cases h), fun m' h hm => ?_⟩
    cases h
    exact absurd hm (hx.bland _ hc)
  | ub => exact J.ub

theorem J.ret {g' g : G} {es : List Nat} {k : Nat} {v : LV → Prop} (h1 : g'.fs.nactvar = k) (h2 : g'.nact = g.nact)
    (h3 : g'.labels = g.labels) (h4 : ∀ ρ, allG ρ g'.gotos ↔ allG ρ g.gotos ∧ v (ext ρ (g.labels.map Lab.pair))) :
    J (Pure.pure (g', es)) k g v :=
  ⟨(fun g2 es2 h => by cases h; exact ⟨h1, h2, h3, h4⟩), fun m h => by cases h⟩

/-- a statement without jumps -/
theorem J.fs {x : Res FS} {k : Nat} {g : G} {v : LV → Prop} (hx : Fine k x) (hv : ∀ ρ, v ρ) :
    J (x >>= fun s => Pure.pure (({ g with fs := s } : G), ([] : List Nat))) k g v :=
  J.expr hx fun s hs => J.ret hs rfl rfl fun ρ => ⟨fun h => ⟨h, hv _⟩, fun h => h.1⟩

theorem gotostat_rule (l : Nat) (js : List Nat) (g : G) :
    (∀ g', gotostat l js g = .ok g' → g'.fs.nactvar = g.fs.nactvar ∧ g'.nact = g.nact ∧ g'.labels = g.labels ∧
      ∀ ρ, allG ρ g'.gotos ↔ allG ρ g.gotos ∧ S.valid (.goto l) (ext ρ (g.labels.map Lab.pair)) g.fs.nactvar) ∧
    (∀ m, gotostat l js g = .err m → ∀ ρ, ¬ S.valid (.goto l) (ext ρ (g.labels.map Lab.pair)) g.fs.nactvar) := by
  unfold gotostat
  dsimp only
  simp only [S.valid, ext_find]
  cases hl : g.labels.find? (·.name = l) with
  | some lb =>
    dsimp only
    rcases closegoto_cases g.fs ⟨l, g.fs.nactvar, js⟩ lb with ⟨hlt, m, e⟩ | ⟨hle, s', e, hs⟩
    · rw [e]
      refine ⟨(fun g' h => by cases h), fun m h ρ ⟨k, hk, hkn⟩ => ?_⟩
      dsimp only at hk hlt
      cases hk; omega
    · rw [e]
      refine ⟨fun g' h => ?_, fun m h => by cases h⟩
      cases h
      exact ⟨hs, rfl, rfl, fun ρ => ⟨fun h => ⟨h, _, rfl, hle⟩, fun h => h.1⟩⟩
  | none =>
    dsimp only
    refine ⟨fun g' h => ?_, fun m h => by cases h⟩
    cases h
    refine ⟨rfl, rfl, rfl, fun ρ => ?_⟩
    show allG ρ (g.gotos ++ [_]) ↔ _
    rw [allG_app, allG_cons]
    unfold okG
    simp

theorem labelstat_rule (l : Nat) (last : Bool) (g : G) :
    (∀ g', labelstat l last g = .ok g' → g'.fs.nactvar = g.fs.nactvar ∧ g'.nact = g.nact ∧
      g'.labels.map Lab.pair = g.labels.map Lab.pair ++ [(l, if last then g.nact else g.fs.nactvar)] ∧
      g'.labels.map Lab.name = g.labels.map Lab.name ++ [l] ∧ l ∉ g.labels.map Lab.name ∧
      ∀ ρ, allG ρ g'.gotos ↔ allG (ext ρ [(l, if last then g.nact else g.fs.nactvar)]) g.gotos) ∧
    (∀ m, labelstat l last g = .err m → l ∈ g.labels.map Lab.name ∨
      ∀ ρ, ¬ allG (ext ρ [(l, if last then g.nact else g.fs.nactvar)]) g.gotos) := by
  unfold labelstat
  split
  · rename_i lb hl
    refine ⟨(fun g' h => by cases h), fun m h => .inl ?_⟩
    have h1 := List.mem_of_find?_eq_some hl
    have h2 := List.find?_some hl
    simp only [decide_eq_true_eq] at h2
    exact h2 ▸ List.mem_map_of_mem h1
  · rename_i hl
    have hnot : l ∉ g.labels.map Lab.name := by
      intro h
      obtain ⟨x, hx, e⟩ := List.mem_map.1 h
      have := List.find?_eq_none.1 hl x hx
      simp [e] at this
    have hf := findgotos_resolves ⟨l, if last then g.nact else (getlabel g.fs).nactvar, (getlabel g.fs).pc⟩ g.gotos
      (getlabel g.fs)
    dsimp only
    cases h1 : findgotos ⟨l, if last then g.nact else (getlabel g.fs).nactvar, (getlabel g.fs).pc⟩ (getlabel g.fs) g.gotos with
    | err m => exact ⟨(fun g' h => by cases h), fun m' h => .inr (hf.bad _ h1)⟩
    | ub => exact ⟨(fun g' h => by cases h), fun m' h => by cases h⟩
    | ok r =>
      obtain ⟨s', gs'⟩ := r
      obtain ⟨h3, h4⟩ := hf.ok _ _ h1
      refine ⟨fun g' h => ?_, fun m h => by cases h⟩
      cases h
      exact ⟨h3, rfl, by simp [Lab.pair], by simp, hnot, h4⟩

/-- the sort of a statement, as in the grammar -/
def S.shape : S → Srt → Prop
  | .nil, .list => True
  | .cons s rest, .list => (s.asLabel.isSome ∨ s.shape .stmt) ∧ rest.shape .list
  | .loc _ _, .stmt | .assign _ _ _, .stmt | .goto _, .stmt | .ret _, .stmt => True
  | .locc _ _, .stmt | .assignc _ _, .stmt | .retc _, .stmt => True
  | .do_ b, .stmt | .while_ _ b, .stmt | .repeat_ b _, .stmt | .for_ _ _ _ b, .stmt | .forin _ b, .stmt => b.shape .list
  | .if_ p, .stmt => p.shape .part
  | .test _ b rest, .part => b.shape .list ∧ rest.shape .part
  | .els b, .part => b.shape .list
  | .fi, .part => True
  | _, _ => False

theorem wf_shape {Q : Nat → Prop} : ∀ (s : S) (t : Srt) (n : Nat), s.wf Q t n → s.shape t := by
  intro s
  induction s <;> intro t n h <;> cases t <;> simp only [S.wf, S.shape] at h ⊢
  case cons.list ih1 ih2 => exact ⟨h.1.imp id (ih1 _ _), ih2 _ _ h.2⟩
  case do_.stmt ih => exact ih _ _ h
  case while_.stmt ih => exact ih _ _ h.2
  case repeat_.stmt ih => exact ih _ _ h.1
  case if_.stmt ih => exact ih _ _ h
  case for_.stmt ih => exact ih _ _ h.2.2.2
  case forin.stmt ih => exact ih _ _ h.2.2
  case test.part ih1 ih2 => exact ⟨ih1 _ _ h.2.1, ih2 _ _ h.2.2⟩
  case els.part ih => exact ih _ _ h

theorem J.goto {l : Nat} {js : List Nat} {i : G} {f : G → Res (G × List Nat)} {k : Nat} {g : G} {v : LV → Prop}
    (hf : ∀ i', i'.fs.nactvar = i.fs.nactvar → i'.nact = i.nact → i'.labels = i.labels →
      (∀ ρ, allG ρ i'.gotos ↔ allG ρ i.gotos ∧ S.valid (.goto l) (ext ρ (i.labels.map Lab.pair)) i.fs.nactvar) → J (f i') k g v)
    (hv : ∀ ρ, v (ext ρ (g.labels.map Lab.pair)) → ∃ ρ, S.valid (.goto l) (ext ρ (i.labels.map Lab.pair)) i.fs.nactvar) :
    J (gotostat l js i >>= f) k g v := by
  obtain ⟨h1, h2⟩ := gotostat_rule l js i
  cases h : gotostat l js i with
  | ok i' =>
    obtain ⟨a, b, c, d⟩ := h1 _ h
    exact hf i' a b c d
  | err m =>
    refine ⟨(fun g' es h => by cases h), fun m' e hm ρ hv' => ?_⟩
    obtain ⟨ρ', h'⟩ := hv ρ hv'
    exact h2 _ h _ h'
  | ub => exact J.ub

theorem J.leave {b : Bool} {i o : G} {f : G → Res (G × List Nat)} {k : Nat} {g : G} {v : LV → Prop}
    (hf : ∀ o', o'.fs.nactvar = i.nact → o'.nact = o.nact → o'.labels = o.labels →
      (∀ ρ, allG ρ o'.gotos ↔ allG ρ o.gotos ∧
        allG (ext (vis i.nact (ext ρ (o.labels.map Lab.pair))) (brks b i.fs.nactvar)) i.gotos) → J (f o') k g v)
    (hv : ∀ ρ, v (ext ρ (g.labels.map Lab.pair)) →
      ∃ ρ, allG (ext (vis i.nact (ext ρ (o.labels.map Lab.pair))) (brks b i.fs.nactvar)) i.gotos) :
    J (leave b i o >>= f) k g v := by
  obtain ⟨h1, h2⟩ := leave_rule b i o
  cases h : Stat.leave b i o with
  | ok i' =>
    obtain ⟨a, b, c, d⟩ := h1 _ h
    exact hf i' a b c d
  | err m =>
    refine ⟨(fun g' es h => by cases h), fun m' e hm ρ hv' => ?_⟩
    obtain ⟨ρ', h'⟩ := hv ρ hv'
    exact h2 _ h _ h'
  | ub => exact J.ub

/-- a block -/
theorem J.block {b : S} {u : Bool} {s : FS} {x : Res (G × List Nat)} {f : G × List Nat → Res (G × List Nat)} {k : Nat} {g : G}
    {v : LV → Prop} (hx : Judges u b (enter s) x)
    (hf : ∀ i es, i.fs.nactvar = s.nactvar + b.nloc → i.nact = s.nactvar →
      (∀ ρ, allG (vis s.nactvar ρ) i.gotos ↔ validBlock b u s.nactvar s.nactvar b.valid ρ) → J (f (i, es)) k g v)
    (hv : ∀ ρ, v (ext ρ (g.labels.map Lab.pair)) → ∃ ρ, validBlock b u s.nactvar s.nactvar b.valid ρ) :
    J (x >>= f) k g v := by
  cases h : x with
  | ok r =>
    obtain ⟨i, es⟩ := r
    obtain ⟨h1, h2, h3, h4⟩ := hx.ok _ _ h
    refine hf i es h1 h2 fun ρ => (h4 _).trans ?_
    unfold validBlock
    exact ⟨fun h => ⟨by simpa [enter] using h3 (by simp [enter]), h.2⟩, fun h => ⟨allG_nil _, h.2⟩⟩
  | err m =>
    refine ⟨(fun g' es h => by cases h), fun m' e hm ρ hv' => ?_⟩
    cases e
    obtain ⟨ρ', h'⟩ := hv ρ hv'
    exact hx.bad _ h hm _ ⟨h'.1, allG_nil _, h'.2⟩
  | ub => exact J.ub

/-- the claim -/
structure Rules (F : FOps) (fixed : Bool) (s : S) : Prop where
  list : s.shape .list → ∀ u g, Judges u s g (gs F fixed u s g)
  other : s.shape .stmt ∨ s.shape .part → ∀ u g, J (gs F fixed u s g) (g.fs.nactvar + s.nloc) g (s.valid · g.fs.nactvar)

theorem brks_false (n : Nat) : brks false n = [] := rfl
theorem brks_true (n : Nat) : brks true n = [(brk, n)] := rfl

/-- a statement that is a block -/
theorem rule_do {F : FOps} {fixed : Bool} {b : S} (hb : b.shape .list) (ih : Rules F fixed b) (g : G) :
    J (do let (i, _) ← gs F fixed false b (enter g.fs); let g ← leave false i g; return (g, [])) g.fs.nactvar g
      (validBlock b false g.fs.nactvar g.fs.nactvar b.valid) := by
  refine J.block (ih.list hb _ _) (fun i es h1 h2 h3 => ?_) (fun ρ h => ⟨_, h⟩)
  refine J.leave (fun o h4 h5 h6 h7 => ?_) (fun ρ h => ⟨ρ, ?_⟩)
  · refine J.ret (h4.trans h2) h5 h6 fun ρ => ?_
    rw [h7, h2, brks_false, ext_nil, h3]
  · rw [h2, brks_false, ext_nil, h3]; exact h

theorem rule_while {F : FOps} {fixed : Bool} {c : E} {b : S} (hb : b.shape .list) (ih : Rules F fixed b) (u : Bool) (g : G) :
    J (gs F fixed u (.while_ c b) g) g.fs.nactvar g (S.valid (.while_ c b) · g.fs.nactvar) := by
  simp only [gs, S.valid]
  refine J.expr (cond_fine F fixed c rfl) (fun a ha => ?_)
  obtain ⟨s, ex⟩ := a
  simp only [st_pair] at ha
  refine J.block (ih.list hb _ _) (fun i es h1 h2 h3 => ?_) (fun ρ h => ⟨_, by simp only [enter, ha]; exact h⟩)
  simp only [enter, ha] at h1 h2 h3
  refine J.leave (fun o h4 h5 h6 h7 => ?_) (fun ρ h => ⟨ext (vis g.fs.nactvar (ext ρ (g.labels.map Lab.pair))) [(brk, g.fs.nactvar)], ?_⟩)
  rotate_left
  · rw [h2, brks_false, ext_nil, h3]; exact h
  simp only [enter, h2, brks_false, ext_nil, List.map_nil, h3, ha] at h4 h5 h6 h7
  refine J.leave (fun o2 h8 h9 h10 h11 => ?_) (fun ρ h => ⟨ρ, ?_⟩)
  rotate_left
  · simp only [na_jumpto, h4, h5, brks_true, h7]
    exact ⟨allG_nil _, h⟩
  simp only [na_jumpto, h4, h5, brks_true] at h8 h11
  refine J.ret (by simpa using h8) h9 h10 fun ρ => ?_
  show allG ρ o2.gotos ↔ _
  rw [h11, h7]
  exact ⟨fun h => ⟨h.1, h.2.2⟩, fun h => ⟨h.1, allG_nil _, h.2⟩⟩

theorem rule_repeat {F : FOps} {fixed : Bool} {c : E} {b : S} (hb : b.shape .list) (ih : Rules F fixed b) (u : Bool) (g : G) :
    J (gs F fixed u (.repeat_ b c) g) g.fs.nactvar g (S.valid (.repeat_ b c) · g.fs.nactvar) := by
  simp only [gs, S.valid]
  refine J.block (ih.list hb _ _) (fun i es h1 h2 h3 => ?_) (fun ρ h => ⟨_, by simp only [enter, na_getlabel]; exact h⟩)
  simp only [enter, na_getlabel] at h1 h2 h3
  refine J.expr (cond_fine F fixed c rfl) (fun a ha => ?_)
  obtain ⟨s, ex⟩ := a
  simp only [st_pair] at ha
  refine J.leave (fun o h4 h5 h6 h7 => ?_) (fun ρ h => ⟨ext (vis g.fs.nactvar (ext ρ (g.labels.map Lab.pair))) [(brk, g.fs.nactvar)], ?_⟩)
  rotate_left
  · rw [h2, brks_false, ext_nil, h3]; exact h
  simp only [enter, h2, brks_false, ext_nil, List.map_nil, h3, ha, na_getlabel] at h4 h5 h6 h7
  refine J.leave (fun o2 h8 h9 h10 h11 => ?_) (fun ρ h => ⟨ρ, ?_⟩)
  rotate_left
  · simp only [na_patchlist, h4, h5, brks_true, h7]
    exact ⟨allG_nil _, h⟩
  simp only [na_patchlist, h4, h5, brks_true] at h8 h11
  refine J.ret (by simpa using h8) h9 h10 fun ρ => ?_
  rw [h11, h7]
  exact ⟨fun h => ⟨h.1, h.2.2⟩, fun h => ⟨h.1, allG_nil _, h.2⟩⟩

theorem rule_for {F : FOps} {fixed : Bool} {e1 e2 e3 : E} {b : S} (hb : b.shape .list) (ih : Rules F fixed b) (u : Bool) (g : G) :
    J (gs F fixed u (.for_ e1 e2 e3 b) g) g.fs.nactvar g (S.valid (.for_ e1 e2 e3 b) · g.fs.nactvar) := by
  simp only [gs, S.valid]
  refine J.expr (forhead_fine F fixed e1 e2 e3 rfl) (fun a ha => ?_)
  obtain ⟨s, prep⟩ := a
  simp only [st_pair] at ha
  refine J.expr (n := g.fs.nactvar + 4) (reserve_fine (by simp only [enter, ha])) (fun s2 hs2 => ?_)
  simp only [st_fs] at hs2
  refine J.block (ih.list hb _ _) (fun i es h1 h2 h3 => ?_) (fun ρ h => ⟨_, by simp only [hs2]; exact h⟩)
  simp only [hs2] at h1 h2 h3
  have hvis : ∀ ρ, vis (g.fs.nactvar + 3) (ext (vis g.fs.nactvar ρ) [(brk, g.fs.nactvar + 3)]) =
      ext (vis g.fs.nactvar ρ) [(brk, g.fs.nactvar + 3)] := by
    intro ρ
    rw [vis_ext _ _ _ _ (Nat.le_refl _), vis_vis _ _ _ (by omega)]
  refine J.leave (fun o h4 h5 h6 h7 => ?_) (fun ρ h => ⟨ext (vis g.fs.nactvar (ext ρ (g.labels.map Lab.pair))) [(brk, g.fs.nactvar + 3)], ?_⟩)
  rotate_left
  · rw [h2, brks_false, ext_nil, h3]; exact h
  simp only [enter, h2, brks_false, ext_nil, List.map_nil, h3, ha] at h4 h5 h6 h7
  refine J.leave (fun o1 k4 k5 k6 k7 => ?_) (fun ρ h => ⟨(ext (vis g.fs.nactvar (ext ρ (g.labels.map Lab.pair))) [(brk, g.fs.nactvar + 3)]), ?_⟩)
  rotate_left
  · simp only [enter, h5, brks_false, ext_nil, h7, List.map_nil, hvis]
    exact ⟨allG_nil _, h⟩
  simp only [enter, h5, brks_false, ext_nil, List.map_nil, h7] at k4 k5 k6 k7
  refine J.leave (fun o2 h8 h9 h10 h11 => ?_) (fun ρ h => ⟨ρ, ?_⟩)
  rotate_left
  · simp only [na_fortail, k4, k5, brks_true, k7, hvis]
    exact ⟨allG_nil _, allG_nil _, h⟩
  simp only [na_fortail, k4, k5, brks_true] at h8 h11
  refine J.ret (by simpa using h8) h9 h10 fun ρ => ?_
  rw [h11, k7, hvis]
  exact ⟨fun h => ⟨h.1, h.2.2.2⟩, fun h => ⟨h.1, allG_nil _, allG_nil _, h.2⟩⟩

theorem rule_forin {F : FOps} {fixed : Bool} {m : Nat} {b : S} (hb : b.shape .list) (ih : Rules F fixed b) (u : Bool) (g : G) :
    J (gs F fixed u (.forin m b) g) g.fs.nactvar g (S.valid (.forin m b) · g.fs.nactvar) := by
  simp only [gs, S.valid]
  refine J.expr (n := g.fs.nactvar) (reserve_fine rfl) (fun _ _ => ?_)
  have ha : (jump g.fs).1.nactvar = g.fs.nactvar := na_jump _
  generalize (jump g.fs).1 = s at ha ⊢
  refine J.expr (n := g.fs.nactvar + m) (reserve_fine (by simp only [enter, ha])) (fun s2 hs2 => ?_)
  simp only [st_fs] at hs2
  refine J.block (ih.list hb _ _) (fun i es h1 h2 h3 => ?_) (fun ρ h => ⟨_, by simp only [hs2]; exact h⟩)
  simp only [hs2] at h1 h2 h3
  have hvis : ∀ ρ, vis g.fs.nactvar (ext (vis g.fs.nactvar ρ) [(brk, g.fs.nactvar)]) =
      ext (vis g.fs.nactvar ρ) [(brk, g.fs.nactvar)] := by
    intro ρ
    rw [vis_ext _ _ _ _ (Nat.le_refl _), vis_vis _ _ _ (by omega)]
  refine J.leave (fun o h4 h5 h6 h7 => ?_) (fun ρ h => ⟨ext (vis g.fs.nactvar (ext ρ (g.labels.map Lab.pair))) [(brk, g.fs.nactvar)], ?_⟩)
  rotate_left
  · rw [h2, brks_false, ext_nil, h3]; exact h
  simp only [enter, h2, brks_false, ext_nil, List.map_nil, h3, ha] at h4 h5 h6 h7
  refine J.leave (fun o1 k4 k5 k6 k7 => ?_) (fun ρ h => ⟨(ext (vis g.fs.nactvar (ext ρ (g.labels.map Lab.pair))) [(brk, g.fs.nactvar)]), ?_⟩)
  rotate_left
  · simp only [enter, h5, brks_false, ext_nil, h7, List.map_nil, hvis]
    exact ⟨allG_nil _, h⟩
  simp only [enter, h5, brks_false, ext_nil, List.map_nil, h7] at k4 k5 k6 k7
  refine J.leave (fun o2 h8 h9 h10 h11 => ?_) (fun ρ h => ⟨ρ, ?_⟩)
  rotate_left
  · simp only [na_forintail, k4, k5, brks_true, k7, hvis]
    exact ⟨allG_nil _, allG_nil _, h⟩
  simp only [na_forintail, k4, k5, brks_true] at h8 h11
  refine J.ret (by simpa using h8) h9 h10 fun ρ => ?_
  rw [h11, k7, hvis]
  exact ⟨fun h => ⟨h.1, h.2.2.2⟩, fun h => ⟨h.1, allG_nil _, allG_nil _, h.2⟩⟩

theorem testend_na (isFi : Bool) (jf : List Nat) (g : G) :
    (testend isFi jf g).1.fs.nactvar = g.fs.nactvar ∧ (testend isFi jf g).1.nact = g.nact ∧
      (testend isFi jf g).1.labels = g.labels ∧ (testend isFi jf g).1.gotos = g.gotos := by
  unfold testend
  split <;> exact ⟨by simp, rfl, rfl, rfl⟩

/-- the end of a part of an `if`, and the other parts -/
theorem rule_rest {F : FOps} {fixed : Bool} {rest : S} (hr : rest.shape .part) (ih : Rules F fixed rest) {i g : G} {isFi : Bool}
    {jf : List Nat} {v : LV → Prop} (hi : i.nact = g.fs.nactvar) (hn : rest.nloc = 0)
    (hv : ∀ ρ, v ρ → allG (vis g.fs.nactvar ρ) i.gotos ∧ rest.valid ρ g.fs.nactvar)
    (hv' : ∀ ρ, allG (vis g.fs.nactvar ρ) i.gotos → rest.valid ρ g.fs.nactvar → v ρ) :
    J (do
      let g ← leave false i g
      let (g, j) := testend isFi jf g
      let (g, esc) ← gs F fixed false rest g
      return (g, j ++ esc)) g.fs.nactvar g v := by
  refine J.leave (fun o h4 h5 h6 h7 => ?_) (fun ρ h => ⟨ρ, ?_⟩)
  rotate_left
  · rw [hi, brks_false, ext_nil]; exact (hv _ h).1
  obtain ⟨t1, t2, t3, t4⟩ := testend_na isFi jf o
  generalize testend isFi jf o = p at t1 t2 t3 t4
  obtain ⟨o1, j⟩ := p
  dsimp only at t1 t2 t3 t4 ⊢
  have hj := ih.other (.inr hr) false o1
  have ho1 : o1.fs.nactvar = g.fs.nactvar := by rw [t1, h4, hi]
  cases h : gs F fixed false rest o1 with
  | ok r =>
    obtain ⟨o2, esc⟩ := r
    obtain ⟨a, b, c, d⟩ := hj.ok _ _ h
    refine J.ret (by rw [a, ho1, hn, Nat.add_zero]) (by rw [b, t2, h5]) (by rw [c, t3, h6]) fun ρ => ?_
    rw [d, t4, h7, t3, h6, ho1, hi, brks_false, ext_nil, and_assoc]
    exact ⟨fun ⟨h1, h2, h3⟩ => ⟨h1, hv' _ h2 h3⟩, fun ⟨h1, h2⟩ => ⟨h1, hv _ h2⟩⟩
  | err m =>
    refine ⟨(fun g' es h => by cases h), fun m' e hm ρ hv1 => ?_⟩
    cases e
    refine hj.bad _ h hm ρ ?_
    rw [t3, h6, ho1]
    exact (hv _ hv1).2
  | ub => exact J.ub

theorem part_nloc {s : S} (h : s.shape .part) : s.nloc = 0 := by
  cases s <;> first | rfl | exact absurd h (by simp [S.shape])

theorem rule_test {F : FOps} {fixed : Bool} {c : E} {b rest : S} (hb : b.shape .list) (hr : rest.shape .part)
    (ihb : Rules F fixed b) (ihb' : ∀ a r, b = .cons a r → Rules F fixed r) (ih : Rules F fixed rest) (u : Bool) (g : G) :
    J (gs F fixed u (.test c b rest) g) g.fs.nactvar g (S.valid (.test c b rest) · g.fs.nactvar) := by
  by_cases hg : ∃ l b', b = .cons (.goto l) b'
  · obtain ⟨l, b', rfl⟩ := hg
    have hb' : b'.shape .list := by simp only [S.shape] at hb; exact hb.2
    have ihb' := ihb' _ _ rfl
    simp only [gs, S.valid]
    refine J.expr (condGoto_fine F fixed c rfl) (fun a ha => ?_)
    obtain ⟨s, js⟩ := a
    simp only [st_pair] at ha
    refine J.goto (fun i h1 h2 h3 h4 => ?_) (fun ρ h => ⟨ext (vis g.fs.nactvar (ext ρ (g.labels.map Lab.pair)))
      (S.labs false g.fs.nactvar (.cons (.goto l) b') g.fs.nactvar), ?_⟩)
    rotate_left
    · have := h.1.2
      simp only [S.valid, enter, ha] at this ⊢
      exact this.1
    simp only [enter, ha, List.map_nil, ext_nil] at h1 h2 h3 h4
    have h4' : ∀ ρ, allG ρ i.gotos ↔ S.valid (.goto l) ρ g.fs.nactvar := fun ρ => (h4 ρ).trans ⟨fun h => h.2, fun h => ⟨allG_nil _, h⟩⟩
    split
    · rename_i hn
      have : b' = .nil := by cases b' <;> simp_all [S.isNil]
      subst this
      refine J.leave (fun o h5 h6 h7 h8 => ?_) (fun ρ h => ⟨ρ, ?_⟩)
      rotate_left
      · rw [h2, brks_false, ext_nil, h4']
        have := h.1.2
        simp only [S.valid, S.labs, S.asLabel, ext_nil] at this ⊢
        exact this.1
      have hj := ih.other (.inr hr) false o
      have ho1 : o.fs.nactvar = g.fs.nactvar := by rw [h5, h2]
      refine ⟨fun o2 esc h => ?_, fun m h hm ρ hv1 => ?_⟩
      · obtain ⟨a, b, c, d⟩ := hj.ok _ _ h
        refine ⟨by rw [a, ho1, part_nloc hr, Nat.add_zero], (by rw [b, h6]), (by rw [c, h7]), fun ρ => ?_⟩
        rw [d, h8, h7, ho1, h2, brks_false, ext_nil, and_assoc, h4']
        simp [S.valid, S.labs, S.asLabel, ext_nil, validBlock, S.names]
      · refine hj.bad _ h hm ρ ?_
        rw [h7, ho1]
        exact hv1.2
    · have hj := ihb'.list hb' false { i with fs := (jump i.fs).1 }
      cases h : gs F fixed false b' { i with fs := (jump i.fs).1 } with
      | ok r =>
        obtain ⟨i2, es⟩ := r
        obtain ⟨a, b, c, d⟩ := hj.ok _ _ h
        simp only [na_jump, h1, h2, h3, List.map_nil, List.nil_append] at a b c d
        have key : ∀ ρ, allG (vis g.fs.nactvar ρ) i2.gotos ↔
            validBlock (.cons (.goto l) b') false g.fs.nactvar g.fs.nactvar (S.valid (.cons (.goto l) b')) ρ := by
          intro ρ
          rw [d, h4']
          simp only [validBlock, S.names, S.asLabel, S.labs, S.valid, S.nloc, Nat.add_zero, Option.toList, List.nil_append]
          exact ⟨fun h => ⟨c List.nodup_nil, h⟩, fun h => h.2⟩
        refine rule_rest hr ih b (part_nloc hr) (fun ρ h => ?_) (fun ρ h h' => ?_)
        · exact ⟨(key _).2 h.1, h.2⟩
        · exact ⟨(key _).1 h, h'⟩
      | err m =>
        refine ⟨(fun g' es h => by cases h), fun m' e hm ρ hv1 => ?_⟩
        cases e
        refine hj.bad _ h hm (vis g.fs.nactvar (ext ρ (g.labels.map Lab.pair))) ?_
        simp only [na_jump, h1, h2, h3, List.map_nil, List.nil_append, h4']
        have := hv1.1
        simp only [validBlock, S.names, S.asLabel, S.labs, S.valid, S.nloc, Nat.add_zero, Option.toList, List.nil_append] at this ⊢
        exact ⟨this.1, this.2.1, this.2.2⟩
      | ub => exact J.ub
  · have e : gs F fixed u (.test c b rest) g = (do
        let (s, jf) ← condIf F fixed c g.fs
        let (i, _) ← gs F fixed false b (enter s)
        let g ← leave false i g
        let (g, j) := testend rest.isFi jf g
        let (g, esc) ← gs F fixed false rest g
        return (g, j ++ esc)) := by
      rw [gs]
      intro l b' e
      exact hg ⟨l, b', e⟩
    rw [e]
    simp only [S.valid]
    refine J.expr (condIf_fine F fixed c rfl) (fun a ha => ?_)
    obtain ⟨s, jf⟩ := a
    simp only [st_pair] at ha
    refine J.block (ihb.list hb _ _) (fun i es h1 h2 h3 => ?_) (fun ρ h => ⟨_, by simp only [ha]; exact h.1⟩)
    rw [ha] at h1 h2 h3
    refine rule_rest hr ih h2 (part_nloc hr) (fun ρ h => ?_) (fun ρ h h' => ?_)
    · exact ⟨(h3 _).2 h.1, h.2⟩
    · exact ⟨(h3 _).1 h, h'⟩

theorem rule_cons {F : FOps} {fixed : Bool} {s rest : S} (hw : (S.cons s rest).shape .list) (ihs : Rules F fixed s)
    (ihr : Rules F fixed rest) (u : Bool) (g : G) : Judges u (.cons s rest) g (gs F fixed u (.cons s rest) g) := by
  simp only [S.shape] at hw
  cases hl : s.asLabel with
  | some l =>
    have hs : s = .label l := by cases s <;> simp_all [S.asLabel]
    subst hs
    simp only [gs, S.asLabel]
    obtain ⟨r1, r2⟩ := labelstat_rule l (!u && rest.onlyLabels) g
    have e : ∀ ρ, ext (ext ρ (rest.labs u g.nact g.fs.nactvar)) [(l, if (!u && rest.onlyLabels) = true then g.nact else g.fs.nactvar)] =
        ext ρ ((S.cons (.label l) rest).labs u g.nact g.fs.nactvar) := by
      intro ρ
      rw [← ext_app]; rfl
    cases h : labelstat l (!u && rest.onlyLabels) g with
    | ok g1 =>
      obtain ⟨a, b, c, d, dd, f⟩ := r1 _ h
      have hj := ihr.list hw.2 u g1
      have e2 : g1.labels.map Lab.pair ++ rest.labs u g.nact g.fs.nactvar =
          g.labels.map Lab.pair ++ (S.cons (.label l) rest).labs u g.nact g.fs.nactvar := by
        rw [c, List.append_assoc]; rfl
      have e3 : g1.labels.map Lab.name ++ rest.names = g.labels.map Lab.name ++ (S.cons (.label l) rest).names := by
        rw [d, List.append_assoc]; rfl
      refine ⟨fun g2 es h2 => ?_, fun m h2 hm ρ hv => ?_⟩
      · obtain ⟨a1, b1, c1, d1⟩ := hj.ok _ _ h2
        rw [a] at a1
        rw [a, b] at d1
        refine ⟨by rw [a1]; simp [S.nloc], b1.trans b, fun hnd => ?_, fun ρ => ?_⟩
        · rw [← e3]
          refine c1 ?_
          rw [d]
          exact List.nodup_append.2 ⟨hnd, by simp, fun x hx y hy => by
            rw [List.mem_singleton.1 hy]; rintro rfl; exact dd hx⟩
        · rw [d1, f, e, e2]
          simp [S.valid, S.nloc]
      · refine hj.bad _ h2 hm ρ ?_
        rw [a, b, e2, e3, f, e]
        exact ⟨hv.1, hv.2.1, by simpa [S.valid, S.nloc] using hv.2.2⟩
    | err m =>
      refine ⟨(fun g' es h => by cases h), fun m' _ hm ρ hv => ?_⟩
      rcases r2 _ h with h1 | h1
      · have := (List.nodup_append.1 hv.1).2.2 l h1 l (by simp [S.names, S.asLabel])
        exact this rfl
      · exact h1 (ext ρ (rest.labs u g.nact g.fs.nactvar)) (by rw [e]; exact hv.2.1)
    | ub => exact ⟨(fun g' es h => by cases h), fun m' h => by cases h⟩
  | none =>
    have hst : s.shape .stmt := hw.1.resolve_left (by simp [hl])
    have hj := ihs.other (.inl hst) false { g with fs := getlabel g.fs }
    have en : (S.cons s rest).names = rest.names := by simp [S.names, hl]
    have el : (S.cons s rest).labs u g.nact g.fs.nactvar = rest.labs u g.nact (g.fs.nactvar + s.nloc) := by simp [S.labs, hl]
    have ev : ∀ ρ, (S.cons s rest).valid ρ g.fs.nactvar ↔ s.valid ρ g.fs.nactvar ∧ rest.valid ρ (g.fs.nactvar + s.nloc) := by
      intro ρ; simp [S.valid]
    have eg : gs F fixed u (.cons s rest) g = (gs F fixed false s { g with fs := getlabel g.fs } >>= fun r =>
        gs F fixed u rest (endstat r.1)) := by simp [gs, hl]
    rw [eg]
    cases h : gs F fixed false s { g with fs := getlabel g.fs } with
    | ok r =>
      obtain ⟨g1, es1⟩ := r
      obtain ⟨a, b, c, d⟩ := hj.ok _ _ h
      simp only [na_getlabel] at a b c d
      have hr := ihr.list hw.2 u (endstat g1)
      simp only [Res.bind_ok]
      have a' : (endstat g1).fs.nactvar = g.fs.nactvar + s.nloc := a
      have b' : (endstat g1).nact = g.nact := b
      have c' : (endstat g1).labels = g.labels := c
      have d' : (endstat g1).gotos = g1.gotos := rfl
      refine ⟨fun g2 es h2 => ?_, fun m h2 hm ρ hv => ?_⟩
      · obtain ⟨a1, b1, c1, d1⟩ := hr.ok _ _ h2
        rw [c'] at c1
        rw [a'] at a1
        refine ⟨by rw [a1, S.nloc, Nat.add_assoc], b1.trans b, by rw [en]; exact c1, fun ρ => ?_⟩
        rw [d1, a', b', c', d', d, ev, el, ← ext_app, and_assoc]
      · refine hr.bad _ h2 hm ρ ?_
        rw [a', b', c', d', d, ← ext_app, and_assoc]
        rw [en, el, ev] at hv
        exact hv
    | err m =>
      refine ⟨(fun g' es h => by cases h), fun m' e hm ρ hv => ?_⟩
      cases e
      refine hj.bad _ h hm (ext ρ (rest.labs u g.nact (g.fs.nactvar + s.nloc))) ?_
      rw [el, ev] at hv
      rw [← ext_app]
      exact hv.2.2.1
    | ub => exact ⟨(fun g' es h => by cases h), fun m' h => by cases h⟩

theorem rules (F : FOps) (fixed : Bool) (s : S) : Rules F fixed s ∧ ∀ a r, s = .cons a r → Rules F fixed r := by
  induction s with
  | nil =>
    refine ⟨⟨fun _ u g => ?_, fun h => absurd h (by simp [S.shape])⟩, fun a r h => by cases h⟩
    refine ⟨fun g' es h => ?_, fun m h => by cases h⟩
    simp only [gs] at h
    cases h
    exact ⟨rfl, rfl, (by simp [S.names]), fun ρ => by simp [S.labs, ext_nil, S.valid]⟩
  | cons s rest ihs ihr =>
    refine ⟨⟨fun hw => rule_cons hw ihs.1 ihr.1, fun h => absurd h (by simp [S.shape])⟩, fun a r h => ?_⟩
    cases h
    exact ihr.1
  | loc n es =>
    refine ⟨⟨fun h => absurd h (by simp [S.shape]), fun _ u g => ?_⟩, fun a r h => by cases h⟩
    simp only [gs, S.nloc, S.valid]
    exact J.fs (localstat_fine F fixed n es rfl) (fun _ => trivial)
  | assign vs es e =>
    refine ⟨⟨fun h => absurd h (by simp [S.shape]), fun _ u g => ?_⟩, fun a r h => by cases h⟩
    simp only [gs, S.nloc, S.valid]
    exact J.fs (assignment_fine F fixed vs es e rfl) (fun _ => trivial)
  | locc n as =>
    refine ⟨⟨fun h => absurd h (by simp [S.shape]), fun _ u g => ?_⟩, fun a r h => by cases h⟩
    simp only [gs, S.nloc, S.valid]
    exact J.fs (localMulti_fine F fixed n as rfl) (fun _ => trivial)
  | assignc vs as =>
    refine ⟨⟨fun h => absurd h (by simp [S.shape]), fun _ u g => ?_⟩, fun a r h => by cases h⟩
    simp only [gs, S.nloc, S.valid]
    exact J.fs (assignMulti_fine F fixed vs as rfl) (fun _ => trivial)
  | retc as =>
    refine ⟨⟨fun h => absurd h (by simp [S.shape]), fun _ u g => ?_⟩, fun a r h => by cases h⟩
    simp only [gs, S.nloc, S.valid]
    exact J.fs (retMulti_fine F fixed as rfl) (fun _ => trivial)
  | ret es =>
    refine ⟨⟨fun h => absurd h (by simp [S.shape]), fun _ u g => ?_⟩, fun a r h => by cases h⟩
    simp only [gs, S.nloc, S.valid]
    exact J.fs (retstat_fine F fixed es rfl) (fun _ => trivial)
  | goto l =>
    refine ⟨⟨fun h => absurd h (by simp [S.shape]), fun _ u g => ?_⟩, fun a r h => by cases h⟩
    simp only [gs, S.nloc]
    refine J.goto (fun i h1 h2 h3 h4 => ?_) (fun ρ h => ⟨ρ, h⟩)
    exact J.ret h1 h2 h3 h4
  | label l => exact ⟨⟨(fun h => absurd h (by simp [S.shape])), (fun h => absurd h (by simp [S.shape]))⟩, fun a r h => by cases h⟩
  | do_ b ih =>
    refine ⟨⟨fun h => absurd h (by simp [S.shape]), fun hw u g => ?_⟩, fun a r h => by cases h⟩
    simp only [gs, S.nloc, S.valid]
    exact rule_do (by simpa [S.shape] using hw) ih.1 g
  | els b ih =>
    refine ⟨⟨fun h => absurd h (by simp [S.shape]), fun hw u g => ?_⟩, fun a r h => by cases h⟩
    simp only [gs, S.nloc, S.valid]
    exact rule_do (by simpa [S.shape] using hw) ih.1 g
  | while_ c b ih =>
    refine ⟨⟨fun h => absurd h (by simp [S.shape]), fun hw u g => ?_⟩, fun a r h => by cases h⟩
    exact rule_while (by simpa [S.shape] using hw) ih.1 u g
  | repeat_ b c ih =>
    refine ⟨⟨fun h => absurd h (by simp [S.shape]), fun hw u g => ?_⟩, fun a r h => by cases h⟩
    exact rule_repeat (by simpa [S.shape] using hw) ih.1 u g
  | for_ e1 e2 e3 b ih =>
    refine ⟨⟨fun h => absurd h (by simp [S.shape]), fun hw u g => ?_⟩, fun a r h => by cases h⟩
    exact rule_for (by simpa [S.shape] using hw) ih.1 u g
  | forin m b ih =>
    refine ⟨⟨fun h => absurd h (by simp [S.shape]), fun hw u g => ?_⟩, fun a r h => by cases h⟩
    exact rule_forin (by simpa [S.shape] using hw) ih.1 u g
  | if_ p ih =>
    refine ⟨⟨fun h => absurd h (by simp [S.shape]), fun hw u g => ?_⟩, fun a r h => by cases h⟩
    have hp : p.shape .part := by simpa [S.shape] using hw
    have hj := ih.1.other (.inr hp) false g
    simp only [gs, S.nloc, S.valid]
    cases h : gs F fixed false p g with
    | ok r =>
      obtain ⟨g1, es⟩ := r
      obtain ⟨a, b, c, d⟩ := hj.ok _ _ h
      exact J.ret (by simpa [part_nloc hp] using a) b c d
    | err m => exact ⟨(fun g' es h => by cases h), fun m' e hm ρ hv => by cases e; exact hj.bad _ h hm ρ hv⟩
    | ub => exact J.ub
  | test c b rest ihb ihr =>
    refine ⟨⟨fun h => absurd h (by simp [S.shape]), fun hw u g => ?_⟩, fun a r h => by cases h⟩
    simp only [S.shape, false_or] at hw
    exact rule_test hw.1 hw.2 ihb.1 ihb.2 ihr.1 u g
  | fi =>
    refine ⟨⟨fun h => absurd h (by simp [S.shape]), fun hw u g => ?_⟩, fun a r h => by cases h⟩
    refine ⟨fun g' es h => ?_, fun m h => by cases h⟩
    simp only [gs] at h
    cases h
    exact ⟨rfl, rfl, rfl, fun ρ => by simp [S.valid]⟩

end Verif.Stat
