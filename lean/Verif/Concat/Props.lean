import Verif.Concat.Model
/-!
Property C46: `a1 .. a2 .. … .. an` is the right-associative fold of the two-operand concatenation.
-/
namespace Verif.Concat

/-- Specification of one `a .. b` (reference manual §3.4.6): two strings or numbers are joined, anything else goes to the metamethod. -/
def cat2 {σ : Type} (tm : Val → Val → σ → Res (Val × σ)) (a b : Val) (st : σ) : Res (Val × σ) :=
  match a, b with
  | .other _, _ => tm a b st
  | _, .other _ => tm a b st
  | .str x, .str y => join x y st
  | .str x, .num y => join x y st
  | .num x, .str y => join x y st
  | .num x, .num y => join x y st
where join (x y : List UInt8) (st : σ) : Res (Val × σ) :=
  if x.length + y.length < maxSize then .ok (.str (x ++ y), st) else .err "string length overflow"

/-- Specification of the whole expression, operands listed from the last to the first: `((b .. ) with the operand before it …)`. -/
def catAll {σ : Type} (tm : Val → Val → σ → Res (Val × σ)) : Val → List Val → σ → Res (Val × σ)
  | b, [], st => .ok (b, st)
  | b, a :: rest, st => do
    let (r, st) ← cat2 tm a b st
    catAll tm r rest st

/-- no string is longer than what the allocator can provide -/
def Small : Val → Prop
  | .str s => s.length < maxSize
  | .num s => s.length < maxSize
  | .other _ => True

/-- the bytes of a string or number -/
def bytes : Val → List UInt8
  | .str s => s
  | .num s => s
  | .other _ => []

theorem cat2_stringable {σ : Type} (tm : Val → Val → σ → Res (Val × σ)) (a b : Val) (st : σ) (ha : a.stringable) (hb : b.stringable) :
    cat2 tm a b st = if (bytes a).length + (bytes b).length < maxSize then .ok (.str (bytes a ++ bytes b), st)
      else .err "string length overflow" := by
  cases a <;> cases b <;> first | rfl | (simp [Val.stringable] at ha hb)

theorem cat2_other {σ : Type} (tm : Val → Val → σ → Res (Val × σ)) (a b : Val) (st : σ) (h : ¬ a.stringable ∨ ¬ b.stringable) :
    cat2 tm a b st = tm a b st := by
  cases a <;> cases b <;> simp [Val.stringable] at h <;> rfl

/-! ### copying -/

theorem at_append (pre post : List Val) (v : Val) : at_ (pre ++ v :: post) (pre.length + 1) = .ok v := by
  simp [at_]

theorem put_append (pre post : List Val) (v w : Val) : put (pre ++ v :: post) (pre.length + 1) w = .ok (pre ++ w :: post) := by
  simp [put]

theorem memcpy_spec (a b c : List UInt8) (s : List UInt8) (h : b.length = s.length) : memcpy (a ++ b ++ c) a.length s = .ok (a ++ s ++ c) := by
  unfold memcpy
  rw [if_pos (by simp; omega)]
  congr 1
  have e : (a ++ b ++ c).drop (a.length + s.length) = c := by
    rw [← h, ← List.length_append, List.drop_left]
  rw [e, List.append_assoc a b c, List.take_left]

/-- concatenation of a list of strings, the last operand first -/
def joinRev : List (List UInt8) → List UInt8
  | [] => []
  | s :: l => joinRev l ++ s

theorem copy2buff_spec (post : List Val) : ∀ (l : List (List UInt8)) (pre buf rest : List UInt8), l ≠ [] →
    buf.length = (joinRev l).length →
    ∀ stk, stk = l.map Val.str ++ post →
    copy2buff stk l.length (pre ++ buf ++ rest) pre.length = .ok (pre ++ joinRev l ++ rest) := by
  suffices H : ∀ (n : Nat) (l : List (List UInt8)), l.length = n → ∀ (above : List (List UInt8)) (pre buf rest : List UInt8), n ≠ 0 →
      buf.length = (joinRev l).length →
      copy2buff ((l ++ above).map Val.str ++ post) n (pre ++ buf ++ rest) pre.length = .ok (pre ++ joinRev l ++ rest) by
    intro l pre buf rest hne hb stk hs
    have := H l.length l rfl [] pre buf rest (by simpa using hne) hb
    rw [List.append_nil] at this
    rw [hs]; exact this
  intro n
  induction n with
  | zero => intro l _ above pre buf rest h; exact absurd rfl h
  | succ n ih =>
    intro l hl above pre buf rest _ hb
    have hne : l ≠ [] := by intro h; simp [h] at hl
    obtain ⟨l', s, rfl⟩ : ∃ l' s, l = l' ++ [s] := ⟨l.dropLast, l.getLast hne, (List.dropLast_concat_getLast hne).symm⟩
    have hn : l'.length = n := by simpa using hl
    have hj : ∀ (l' : List (List UInt8)) (s : List UInt8), joinRev (l' ++ [s]) = s ++ joinRev l' := by
      intro l' s
      induction l' with
      | nil => simp [joinRev]
      | cons a l' ih => simp [joinRev, ih]
    rw [hj] at hb ⊢
    unfold copy2buff
    have e1 : ((l' ++ [s] ++ above).map Val.str ++ post) = l'.map Val.str ++ Val.str s :: (above.map Val.str ++ post) := by simp
    have a1 := at_append (l'.map Val.str) (above.map Val.str ++ post) (Val.str s)
    rw [List.length_map, hn] at a1
    rw [e1, a1, Res.bind_ok]
    simp only [svalue, Res.bind_ok]
    have hb' : s.length ≤ buf.length := by rw [hb]; simp
    have e2 : pre ++ buf ++ rest = pre ++ buf.take s.length ++ (buf.drop s.length ++ rest) := by
      rw [List.append_assoc, List.append_assoc, ← List.append_assoc (buf.take _), List.take_append_drop]
    rw [e2, memcpy_spec pre (buf.take s.length) _ s (by simp [hb']), Res.bind_ok]
    by_cases h0 : 0 < n
    · rw [if_pos h0]
      have := ih l' hn (s :: above) (pre ++ s) (buf.drop s.length) rest (by omega) (by rw [List.length_drop, hb]; simp)
      rw [List.length_append] at this
      have e3 : ((l' ++ s :: above).map Val.str ++ post) = l'.map Val.str ++ Val.str s :: (above.map Val.str ++ post) := by simp
      rw [e3] at this
      rw [← List.append_assoc (pre ++ s), this]
      simp
    · rw [if_neg h0]
      have : l' = [] := List.length_eq_zero_iff.1 (by omega)
      subst this
      have hz : buf.drop s.length = [] := List.length_eq_zero_iff.1 (by rw [List.length_drop, hb]; simp [joinRev])
      simp [joinRev, hz]

theorem build_spec (garbage : Nat → UInt8) (l : List (List UInt8)) (post : List Val) (hne : l ≠ []) :
    build garbage (l.map Val.str ++ post) l.length (joinRev l).length = .ok (joinRev l) := by
  unfold build
  by_cases h : (joinRev l).length ≤ maxShort
  · rw [if_pos h]
    generalize hg : (List.range maxShort).map garbage = g
    have hgl : g.length = maxShort := by rw [← hg]; simp
    have := copy2buff_spec post l [] (g.take (joinRev l).length) (g.drop (joinRev l).length) hne (by simp; omega) _ rfl
    simp only [List.nil_append, List.take_append_drop, List.length_nil] at this
    rw [this, Res.bind_ok, if_pos (by simp)]
    simp
  · rw [if_neg h]
    generalize hg : (List.range (joinRev l).length).map garbage = g
    have hgl : g.length = (joinRev l).length := by rw [← hg]; simp
    have := copy2buff_spec post l [] g [] hne hgl _ rfl
    simpa using this

/-! ### the collecting loop -/

/-- the collecting loop takes a maximal run of strings/numbers, or reports overflow -/
theorem collect_spec (below : List Val) : ∀ (todo : List Val) (done : List (List UInt8)), done ≠ [] → (joinRev done).length < maxSize →
    (∀ v ∈ todo, Small v) →
    (∃ run rest, todo = run ++ rest ∧ (∀ v ∈ run, v.stringable) ∧ (∀ v r, rest = v :: r → ¬ v.stringable) ∧
      (joinRev (done ++ run.map bytes)).length < maxSize ∧
      collect todo.length (done.map Val.str ++ todo ++ below) done.length (joinRev done).length =
        .ok ((done ++ run.map bytes).map Val.str ++ rest ++ below, (done ++ run.map bytes).length, (joinRev (done ++ run.map bytes)).length)) ∨
    (∃ run v rest, todo = run ++ v :: rest ∧ (∀ v ∈ run, v.stringable) ∧ v.stringable ∧
      (joinRev (done ++ run.map bytes)).length < maxSize ∧
      maxSize ≤ (bytes v).length + (joinRev (done ++ run.map bytes)).length ∧
      collect todo.length (done.map Val.str ++ todo ++ below) done.length (joinRev done).length = .err "string length overflow")
  | [], done, hne, hd, hs => by
    left
    exact ⟨[], [], rfl, by simp, by simp, by simpa using hd, by simp [collect]⟩
  | v :: todo, done, hne, hd, hs => by
    have a1 := at_append (done.map Val.str) (todo ++ below) v
    have p1 := put_append (done.map Val.str) (todo ++ below) v
    rw [List.length_map] at a1 p1
    have eL : done.map Val.str ++ v :: todo ++ below = done.map Val.str ++ v :: (todo ++ below) := by simp
    have hj : ∀ (l' : List (List UInt8)) (s : List UInt8), joinRev (l' ++ [s]) = s ++ joinRev l' := by
      intro l' s
      induction l' with
      | nil => simp [joinRev]
      | cons a l' ih => simp [joinRev, ih]
    by_cases hv : v.stringable
    · have ht : tostring v = (.str (bytes v), true) := by cases v <;> first | rfl | simp [Val.stringable] at hv
      by_cases ho : maxSize - (joinRev done).length ≤ (bytes v).length
      · right
        refine ⟨[], v, todo, rfl, by simp, hv, by simpa using hd, by simp; omega, ?_⟩
        rw [List.length_cons, eL]
        unfold collect
        rw [a1, Res.bind_ok]
        simp only [ht, if_true, p1, Res.bind_ok, svalue]
        rw [if_pos ho]
      · have ih := collect_spec below todo (done ++ [bytes v]) (by simp) (by rw [hj]; simp; omega) (fun w hw => hs w (by simp [hw]))
        have step : collect (v :: todo).length (done.map Val.str ++ v :: todo ++ below) done.length (joinRev done).length =
            collect todo.length ((done ++ [bytes v]).map Val.str ++ todo ++ below) (done ++ [bytes v]).length (joinRev (done ++ [bytes v])).length := by
          rw [List.length_cons, eL]
          conv => lhs; unfold collect
          rw [a1, Res.bind_ok]
          simp only [ht, if_true, p1, Res.bind_ok, svalue]
          rw [if_neg ho, hj]
          simp [Nat.add_comm]
        have hrun : ∀ {run : List Val}, (∀ v ∈ run, v.stringable) → ∀ w ∈ v :: run, w.stringable := by
          intro run h1 w hw
          rcases List.mem_cons.1 hw with rfl | hw
          · exact hv
          · exact h1 w hw
        rw [step]
        rcases ih with ⟨run, rest, e, h1, hx, h2, h3⟩ | ⟨run, w, rest, e, h1, h2, h3, h4, h5⟩
        · left
          refine ⟨v :: run, rest, by rw [e]; rfl, hrun h1, hx, ?_, ?_⟩
          · simpa using h2
          · rw [h3]; simp
        · right
          refine ⟨v :: run, w, rest, by rw [e]; rfl, hrun h1, h2, ?_, ?_, h5⟩
          · simpa using h3
          · simpa using h4
    · left
      refine ⟨[], v :: todo, rfl, by simp, fun w r h => by rw [List.cons.injEq] at h; rw [← h.1]; exact hv, by simpa using hd, ?_⟩
      have ht : tostring v = (v, false) := by cases v <;> first | rfl | exact absurd rfl hv
      rw [List.length_cons]
      conv => lhs; rw [eL]; unfold collect
      rw [a1, Res.bind_ok]
      simp only [ht]
      simp

/-! ### specification side -/

theorem joinRev_append (l' : List (List UInt8)) (s : List UInt8) : joinRev (l' ++ [s]) = s ++ joinRev l' := by
  induction l' with
  | nil => simp [joinRev]
  | cons a l' ih => simp [joinRev, ih]

/-- a run of strings/numbers that fits is joined -/
theorem catAll_run {σ : Type} (tm : Val → Val → σ → Res (Val × σ)) (rest : List Val) (st : σ) : ∀ (run : List Val) (done : List (List UInt8)),
    run ≠ [] → (∀ v ∈ run, v.stringable) → (joinRev (done ++ run.map bytes)).length < maxSize → ∀ b : Val, b.stringable → bytes b = joinRev done →
    catAll tm b (run ++ rest) st = catAll tm (.str (joinRev (done ++ run.map bytes))) rest st
  | [], _, h, _, _ => absurd rfl h
  | v :: run, done, _, hr, hl => by
    intro b hb hbb
    have hv : v.stringable := hr v (by simp)
    have e1 : done ++ (v :: run).map bytes = (done ++ [bytes v]) ++ run.map bytes := by simp
    rw [e1] at hl ⊢
    have mono : ∀ (l m : List (List UInt8)), (joinRev l).length ≤ (joinRev (l ++ m)).length := by
      intro l m
      induction l with
      | nil => simp [joinRev]
      | cons a l ih => simp [joinRev]; exact ih
    have hlt : (bytes v).length + (bytes b).length < maxSize := by
      have := mono (done ++ [bytes v]) (run.map bytes)
      rw [joinRev_append, List.length_append, ← hbb] at this
      omega
    rw [List.cons_append, catAll, cat2_stringable tm v b st hv hb, if_pos hlt, Res.bind_ok]
    have e2 : bytes v ++ bytes b = joinRev (done ++ [bytes v]) := by rw [joinRev_append, hbb]
    cases run with
    | nil =>
      simp only [List.nil_append, List.map_nil, List.append_nil]
      rw [e2]
    | cons w run =>
      simp only []
      rw [catAll_run tm rest st (w :: run) (done ++ [bytes v]) (by simp) (fun x hx => hr x (by simp [hx])) hl (.str (bytes v ++ bytes b)) rfl e2]

/-- one iteration of the code is one or more steps of the specification -/
theorem pass_spec {σ : Type} (tm : Val → Val → σ → Res (Val × σ)) (garbage : Nat → UInt8) (st : σ) (b a : Val) (rest below : List Val)
    (hs : ∀ v ∈ b :: a :: rest, Small v) :
    (∃ r rest' st', pass tm garbage st (b :: a :: rest ++ below) (rest.length + 2) = .ok (st', r :: rest' ++ below, rest'.length + 1) ∧
      rest'.length ≤ rest.length ∧ (∀ v ∈ rest', Small v) ∧ (Small r ∨ ∃ s, tm a b s = .ok (r, st')) ∧
      catAll tm b (a :: rest) st = catAll tm r rest' st') ∨
    (∃ m, pass tm garbage st (b :: a :: rest ++ below) (rest.length + 2) = .err m ∧ catAll tm b (a :: rest) st = .err m) ∨
    (pass tm garbage st (b :: a :: rest ++ below) (rest.length + 2) = .ub ∧ catAll tm b (a :: rest) st = .ub) := by
  have a2 : at_ (b :: a :: rest ++ below) 2 = .ok a := rfl
  have a1 : at_ (b :: a :: rest ++ below) 1 = .ok b := rfl
  have p2 : ∀ x y, put (x :: a :: rest ++ below) 2 y = .ok (x :: y :: rest ++ below) := by intro x y; simp [put]
  have p1 : ∀ x, put (b :: a :: rest ++ below) 1 x = .ok (x :: a :: rest ++ below) := by intro x; simp [put]
  unfold pass
  rw [a2, Res.bind_ok, a1, Res.bind_ok]
  by_cases hc : ¬ a.stringable ∨ ¬ b.stringable
  · have hc' : ¬ a.stringable ∨ ¬ (tostring b).2 := by
      rcases hc with h | h
      · exact .inl h
      · right; cases b <;> first | exact absurd rfl h | simp [tostring]
    simp only [hc', if_true]
    have hcat : catAll tm b (a :: rest) st = (tm a b st >>= fun p => catAll tm p.1 rest p.2) := by
      rw [catAll, cat2_other tm a b st hc]
    rw [hcat]
    cases ht : tm a b st with
    | ok p =>
      obtain ⟨r, st'⟩ := p
      left
      refine ⟨r, rest, st', ?_, Nat.le_refl _, fun v hv => hs v (by simp [hv]), .inr ⟨st, ht⟩, ?_⟩
      · simp only [Res.bind_ok, p2, Res.pure_eq]; simp
      · simp
    | err m => right; left; exact ⟨m, rfl, rfl⟩
    | ub => right; right; exact ⟨rfl, rfl⟩
  · have ha : a.stringable := by simpa using (not_or.1 hc).1
    have hb : b.stringable := by simpa using (not_or.1 hc).2
    have hc' : ¬ (¬ a.stringable ∨ ¬ (tostring b).2) := by
      rw [not_or]; refine ⟨by simpa using ha, ?_⟩
      cases b <;> first | (simp [Val.stringable] at hb; done) | simp [tostring]
    have htb : tostring b = (.str (bytes b), true) := by cases b <;> first | rfl | simp [Val.stringable] at hb
    have hta : tostring a = (.str (bytes a), true) := by cases a <;> first | rfl | simp [Val.stringable] at ha
    have hsa : (bytes a).length < maxSize := by
      have := hs a (by simp)
      cases a <;> first | exact this | simp [Val.stringable] at ha
    have hsb : (bytes b).length < maxSize := by
      have := hs b (by simp)
      cases b <;> first | exact this | simp [Val.stringable] at hb
    have hrest : ∀ v ∈ rest, Small v := fun v hv => hs v (by simp [hv])
    rw [htb] at hc' ⊢
    simp only [p1, Res.bind_ok]
    rw [if_neg (show ¬ (¬ a.stringable = true ∨ ¬ True) by simpa using ha)]
    by_cases he1 : isEmptyStr (.str (bytes b)) = true
    · rw [if_pos he1]
      have hbe : bytes b = [] := by
        generalize bytes b = x at he1
        cases x <;> first | rfl | simp [isEmptyStr] at he1
      left
      refine ⟨.str (bytes a), rest, st, ?_, Nat.le_refl _, hrest, .inl hsa, ?_⟩
      · simp only [p2, Res.bind_ok, hta, Res.pure_eq]; simp
      · rw [catAll, cat2_stringable tm a b st ha hb, if_pos (by rw [hbe]; simpa using hsa), Res.bind_ok, hbe]; simp
    · rw [if_neg he1]
      by_cases he2 : isEmptyStr a = true
      · rw [if_pos he2]
        have hae : bytes a = [] := by
          cases a with
          | str x => cases x <;> first | rfl | simp [isEmptyStr] at he2
          | num x => simp [isEmptyStr] at he2
          | other i => simp [isEmptyStr] at he2
        left
        refine ⟨.str (bytes b), rest, st, ?_, Nat.le_refl _, hrest, .inl hsb, ?_⟩
        · simp only [p2, Res.bind_ok, Res.pure_eq]; simp
        · rw [catAll, cat2_stringable tm a b st ha hb, if_pos (by rw [hae]; simpa using hsb), Res.bind_ok, hae]; simp
      · rw [if_neg he2]
        have hm1 : at_ (Val.str (bytes b) :: a :: rest ++ below) 1 = .ok (.str (bytes b)) := rfl
        unfold many
        simp only [hm1, Res.bind_ok, svalue]
        have hcs := collect_spec below (a :: rest) [bytes b] (by simp) (by simpa [joinRev] using hsb) (fun v hv => hs v (by
          rcases List.mem_cons.1 hv with rfl | h
          · simp
          · simp [h]))
        have e0 : rest.length + 2 - 1 = (a :: rest).length := by simp
        have e1 : (joinRev [bytes b]).length = (bytes b).length := by simp [joinRev]
        have e2 : [bytes b].map Val.str ++ a :: rest ++ below = Val.str (bytes b) :: a :: rest ++ below := by simp
        rw [e1, e2, List.length_singleton] at hcs
        rw [e0]
        rcases hcs with ⟨run, rst, e, h1, hx, h2, h3⟩ | ⟨run, v, rst, e, h1, h2, h3, h4, h5⟩
        · left
          generalize hl : [bytes b] ++ run.map bytes = l at h2 h3
          have hlne : l ≠ [] := by rw [← hl]; simp
          have hrun : run ≠ [] := by
            rintro rfl
            exact hx a rest e.symm ha
          rw [h3, Res.bind_ok]
          simp only []
          have eb : l.map Val.str ++ rst ++ below = l.map Val.str ++ (rst ++ below) := by simp
          rw [eb, build_spec garbage l (rst ++ below) hlne, Res.bind_ok]
          obtain ⟨l', x, hlx⟩ : ∃ l' x, l = l' ++ [x] := ⟨l.dropLast, l.getLast hlne, (List.dropLast_concat_getLast hlne).symm⟩
          have pl := put_append (l'.map Val.str) (rst ++ below) (.str x) (.str (joinRev l))
          rw [List.length_map] at pl
          have hll : l.length = l'.length + 1 := by rw [hlx]; simp
          have es : l.map Val.str ++ (rst ++ below) = l'.map Val.str ++ Val.str x :: (rst ++ below) := by rw [hlx]; simp
          rw [es, hll, pl, Res.bind_ok]
          have hlen : l'.length = run.length := by
            have : l.length = 1 + run.length := by rw [← hl]; simp; omega
            omega
          have hrl : run.length + rst.length = rest.length + 1 := by
            have := congrArg List.length e; simp at this; omega
          refine ⟨.str (joinRev l), rst, st, ?_, ?_, ?_, .inl h2, ?_⟩
          · simp only [Res.pure_eq, Res.bind_ok, Nat.add_sub_cancel]
            refine congrArg Res.ok ?_
            refine Prod.ext rfl (Prod.ext ?_ ?_)
            · have := List.drop_left (l₁ := l'.map Val.str) (l₂ := Val.str (joinRev l) :: (rst ++ below))
              rw [List.length_map] at this
              rw [this]; rfl
            · simp only; omega
          · have : 0 < run.length := List.length_pos_iff.2 hrun
            omega
          · intro v hv
            have : v ∈ a :: rest := by rw [e]; simp [hv]
            exact hs v (List.mem_cons_of_mem _ this)
          · rw [e, catAll_run tm rst st run [bytes b] hrun h1 (by rw [hl]; exact h2) b hb (by simp [joinRev]), hl]
        · right; left
          refine ⟨"string length overflow", ?_, ?_⟩
          · rw [h5]; rfl
          · rw [e]
            have last : ∀ (c : Val), c.stringable → bytes c = joinRev ([bytes b] ++ run.map bytes) →
                catAll tm c (v :: rst) st = .err "string length overflow" := by
              intro c hcs hcb
              rw [catAll, cat2_stringable tm v c st h2 hcs, if_neg (by rw [hcb]; omega)]
              rfl
            by_cases hr : run = []
            · subst hr
              exact last b hb (by simp [joinRev])
            · rw [catAll_run tm (v :: rst) st run [bytes b] hr h1 h3 b hb (by simp [joinRev])]
              exact last _ rfl rfl

theorem concatF_spec {σ : Type} (tm : Val → Val → σ → Res (Val × σ)) (garbage : Nat → UInt8)
    (htm : ∀ x y s r s', tm x y s = .ok (r, s') → Small r) (below : List Val) :
    ∀ (fuel : Nat) (st : σ) (b a : Val) (rest : List Val), rest.length + 2 ≤ fuel → (∀ v ∈ b :: a :: rest, Small v) →
    concatF tm garbage fuel st (b :: a :: rest ++ below) (rest.length + 2) =
      (catAll tm b (a :: rest) st >>= fun p => .ok (p.2, p.1 :: below))
  | 0, _, _, _, _, h, _ => by omega
  | fuel + 1, st, b, a, rest, hf, hs => by
    unfold concatF
    rcases pass_spec tm garbage st b a rest below hs with ⟨r, rest', st', h1, h2, h3, h4, h5⟩ | ⟨m, h1, h2⟩ | ⟨h1, h2⟩
    · rw [h1, Res.bind_ok, h5]
      simp only []
      have hr : Small r := by
        rcases h4 with h | ⟨s, h⟩
        · exact h
        · exact htm _ _ _ _ _ h
      cases rest' with
      | nil => simp [catAll]
      | cons c rest' =>
        have e : (c :: rest').length + 1 = rest'.length + 2 := rfl
        rw [e, if_pos (by omega)]
        have := concatF_spec tm garbage htm below fuel st' r c rest' (by simp at h2; omega) (by
          intro v hv
          rcases List.mem_cons.1 hv with rfl | hv
          · exact hr
          · exact h3 v hv)
        exact this
    · rw [h1, h2]; rfl
    · rw [h1, h2]; rfl

/-- **C46.** Concatenating the `n ≥ 2` topmost stack values — `b` on top, then `a`, then `rest` — has exactly the outcome (result, effects of
metamethods in order, error) of the right-associative fold of the binary operation; the values below are untouched; buffers are
never overrun.  `Small` holds of every value the allocator can create. -/
theorem concat_correct {σ : Type} (tm : Val → Val → σ → Res (Val × σ)) (garbage : Nat → UInt8)
    (htm : ∀ x y s r s', tm x y s = .ok (r, s') → Small r)
    (st : σ) (b a : Val) (rest below : List Val) (hs : ∀ v ∈ b :: a :: rest, Small v) :
    concat tm garbage st (b :: a :: rest ++ below) (rest.length + 2) =
      (catAll tm b (a :: rest) st >>= fun p => .ok (p.2, p.1 :: below)) :=
  concatF_spec tm garbage htm below _ st b a rest (Nat.le_refl _) hs

/-- **C46.** Strings and numbers only: the result is the concatenation of all operands in source order (the stack holds the last one on
top), if the total length is below the limit; otherwise it is the error "string length overflow". -/
theorem concat_strings {σ : Type} (tm : Val → Val → σ → Res (Val × σ)) (garbage : Nat → UInt8)
    (htm : ∀ x y s r s', tm x y s = .ok (r, s') → Small r)
    (st : σ) (b a : Val) (rest below : List Val) (hs : ∀ v ∈ b :: a :: rest, Small v) (hstr : ∀ v ∈ b :: a :: rest, v.stringable) :
    concat tm garbage st (b :: a :: rest ++ below) (rest.length + 2) =
      let all := ((b :: a :: rest).reverse.map bytes).flatten
      if all.length < maxSize then .ok (st, .str all :: below) else .err "string length overflow" := by
  rw [concat_correct tm garbage htm st b a rest below hs]
  have hfl : ∀ (l : List Val), (l.reverse.map bytes).flatten = joinRev (l.map bytes) := by
    intro l
    induction l with
    | nil => rfl
    | cons v l ih => simp only [List.reverse_cons, List.map_append, List.flatten_append, List.map_cons, joinRev, ih]; simp
  simp only [hfl]
  -- the specification joins everything
  have main : ∀ (l : List Val) (c : Val), c.stringable → (∀ v ∈ l, v.stringable) → (bytes c).length < maxSize → ∀ (done : List (List UInt8)),
      bytes c = joinRev done → l ≠ [] →
      catAll tm c l st = if (joinRev (done ++ l.map bytes)).length < maxSize then .ok (.str (joinRev (done ++ l.map bytes)), st)
        else .err "string length overflow" := by
    intro l
    induction l with
    | nil => intro c _ _ _ done _ h; exact absurd rfl h
    | cons v l ih =>
      intro c hc hl hlt done hd _
      have mono : ∀ (l m : List (List UInt8)), (joinRev l).length ≤ (joinRev (l ++ m)).length := by
        intro l m
        induction l with
        | nil => simp [joinRev]
        | cons a l ih => simp [joinRev]; exact ih
      have e1 : done ++ (v :: l).map bytes = (done ++ [bytes v]) ++ l.map bytes := by simp
      have e2 : bytes v ++ bytes c = joinRev (done ++ [bytes v]) := by rw [joinRev_append, hd]
      rw [catAll, cat2_stringable tm v c st (hl v (by simp)) hc, e1]
      by_cases h : (bytes v).length + (bytes c).length < maxSize
      · rw [if_pos h, Res.bind_ok]
        cases l with
        | nil =>
          simp only [catAll, List.map_nil, List.append_nil]
          rw [← e2, if_pos (by simpa using h)]
        | cons w l =>
          exact ih (.str (bytes v ++ bytes c)) rfl (fun x hx => hl x (by simp [hx])) (by simpa [bytes] using h) (done ++ [bytes v]) e2 (by simp)
      · rw [if_neg h, if_neg]
        · rfl
        · have := mono (done ++ [bytes v]) (l.map bytes)
          rw [← e2, List.length_append] at this
          omega
  have hb := hstr b (by simp)
  have hsb : (bytes b).length < maxSize := by
    have := hs b (by simp)
    cases b <;> first | exact this | simp [Val.stringable] at hb
  rw [main (a :: rest) b hb (fun v hv => hstr v (by
    rcases List.mem_cons.1 hv with rfl | h
    · simp
    · simp [h])) hsb [bytes b] (by simp [joinRev]) (by simp)]
  have e : [bytes b] ++ (a :: rest).map bytes = (b :: a :: rest).map bytes := by simp
  rw [e]
  split <;> simp

/-- a metamethod that logs its calls and returns a table: `x .. 1 .. "a"` with `x` a table calls it once, with the string `"1a"` -/
example : concat (σ := List (Val × Val)) (fun x y s => .ok (.other 7, (x, y) :: s)) (fun _ => 0) [] [.str [97], .num [49], .other 3, .other 9] 3 =
    .ok ([(.other 3, .str [49, 97])], [.other 7, .other 9]) := by
  exact concat_correct (fun x y s => .ok (.other 7, (x, y) :: s)) _ (by
      intro x y s r s' h; simp only [Res.ok.injEq, Prod.mk.injEq] at h; rw [← h.1]; trivial) [] (.str [97]) (.num [49]) [.other 3] [.other 9]
      (by
        intro v hv
        simp only [List.mem_cons, List.not_mem_nil, or_false] at hv
        rcases hv with rfl | rfl | rfl <;> simp [Small, maxSize])

end Verif.Concat
