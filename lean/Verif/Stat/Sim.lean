import Verif.Stat.Goto
import Verif.Stat.Multi
/-! What the machine does from a place in the code, against the meaning of the statements there. -/
namespace Verif.Stat
open Verif.ExpCode
open Verif.Assign (Lhs)
open Verif.Fold (FOps)
variable {W : Type} {P : Ops W} {K : List Val} {C : List Instr}

/-! ### programs that are well formed -/

/-- statements, lists and the parts of an `if` -/
inductive Srt where
  | stmt | list | part
deriving DecidableEq

/-- What the grammar and the scope rules (C76) ensure, with `n` variables in scope: each construct is at its place, and
the registers in it are those of variables in scope.  The condition of `repeat` is in the scope of the body.  The upvalues
whose fields are assigned have the property `Q`. -/
def S.wf (Q : Nat → Prop) : S → Srt → Nat → Prop
  | .nil, .list, _ => True
  | .cons s rest, .list, n => (s.asLabel.isSome ∨ s.wf Q .stmt n) ∧ rest.wf Q .list (n + s.nloc)
  | .loc _ es, .stmt, n => ∀ e ∈ es, e.ok n
  | .assign vs es e, .stmt, n => (∀ v ∈ vs, v.ok n ∧ v.indexes Q) ∧ ∀ e' ∈ es ++ [e], e'.ok n
  | .locc _ as, .stmt, n => as.ok n
  | .assignc vs as, .stmt, n => (∀ v ∈ vs, v.ok n ∧ v.indexes Q) ∧ as.ok n
  | .goto _, .stmt, _ => True
  | .do_ b, .stmt, n => b.wf Q .list n
  | .while_ c b, .stmt, n => c.ok n ∧ b.wf Q .list n
  | .repeat_ b c, .stmt, n => b.wf Q .list n ∧ c.ok (n + b.nloc)
  | .if_ p, .stmt, n => p.wf Q .part n
  | .for_ e1 e2 e3 b, .stmt, n => e1.ok n ∧ e2.ok n ∧ e3.ok n ∧ b.wf Q .list (n + 4)
  | .forin m b, .stmt, n => 3 ≤ n ∧ 1 ≤ m ∧ b.wf Q .list (n + m)
  | .ret es, .stmt, n => ∀ e ∈ es, e.ok n
  | .retc as, .stmt, n => as.ok n
  | .test c b rest, .part, n => c.ok n ∧ b.wf Q .list n ∧ rest.wf Q .part n
  | .els b, .part, n => b.wf Q .list n
  | .fi, .part, _ => True
  | _, _, _ => False

/-! ### simulation -/

/-- at position `m`, with the `n` variables in their registers, the machine does what `k` says (for `i` steps) -/
def Sim (P : Ops W) (K : List Val) (C : List Instr) (i : Nat) (k : Kont W) (m n : Nat) : Prop :=
  ∀ env R w, env.length = n → (∀ x, x < n → R x = look env x) → Does P K C i (.run m R w) (k env w)

theorem Sim.mono {i j : Nat} {k : Kont W} {m n : Nat} (h : Sim P K C i k m n) (hj : j ≤ i) : Sim P K C j k m n :=
  fun env R w h1 h2 => (h env R w h1 h2).mono hj

theorem look_take {env : List Val} {n x : Nat} (h : x < n) : look (env.take n) x = look env x := by
  unfold look
  rw [List.getD_eq_getElem?_getD, List.getD_eq_getElem?_getD, List.getElem?_take, if_pos h]

theorem Sim.take {i : Nat} {k : Kont W} {m n : Nat} (h : Sim P K C i k m n) {env : List Val} {R : Regs} {w : W}
    (hl : n ≤ env.length) (hR : ∀ x, x < n → R x = look env x) : Does P K C i (.run m R w) (k (env.take n) w) :=
  h _ R w (by rw [List.length_take]; omega) (fun x hx => by rw [look_take hx]; exact hR x hx)

theorem Sim.cut {i : Nat} {k : Kont W} {m n : Nat} (h : Sim P K C i k m n) {N : Nat} (hN : n ≤ N) :
    Sim P K C i (cut n k) m N :=
  fun _ _ _ h1 h2 => h.take (by omega) (fun x hx => h2 x (by omega))

theorem Sim.bot {m n : Nat} : Sim P K C 0 (bot : Kont W) m n := fun _ _ _ _ _ => Does.zero

theorem GoS.does {i : Nat} {st st' : St W} {o : O W} (h : GoS P K C st st') (hd : Does P K C (i - 1) st' o) :
    Does P K C i st o := (h _ _ hd).mono (by omega)

/-- labels: `κ` says where they are, `ρ` what they mean.  A label behind, or in `N`, need only be right for one step
less. -/
def LOK (P : Ops W) (K : List Val) (C : List Instr) (i : Nat) (ρ : LEnv W) (κ : LMap) (pc : Nat) (N : List Nat) : Prop :=
  ∀ l t, κ l = some t → ∃ m k, ρ l = some (m, k) ∧ m ≤ t.2 ∧ Sim P K C (i - 1) k t.1 m ∧
    (pc < t.1 → l ∉ N → Sim P K C i k t.1 m)

theorem LOK.mono {i j : Nat} {ρ : LEnv W} {κ : LMap} {pc pc' : Nat} {N N' : List Nat} (h : LOK P K C i ρ κ pc N) (hj : j ≤ i)
    (hp : pc ≤ pc') (hN : ∀ l ∈ N, l ∈ N') : LOK P K C j ρ κ pc' N' := by
  intro l t ht
  obtain ⟨m, k, h1, h2, h3, h4⟩ := h l t ht
  exact ⟨m, k, h1, h2, h3.mono (by omega), fun a b => (h4 (by omega) (fun c => b (hN l c))).mono hj⟩

/-- the labels of a list -/
def Ents (P : Ops W) (K : List Val) (C : List Instr) (i : Nat) (κ : LMap) (r : List (Nat × Nat × Kont W)) : Prop :=
  ∀ e ∈ r, ∃ t, κ e.1 = some t ∧ e.2.1 ≤ t.2 ∧ Sim P K C i e.2.2 t.1 e.2.1

theorem extend_lok {i : Nat} {ρ : LEnv W} {κ : LMap} {pc : Nat} {N : List Nat} {r : List (Nat × Nat × Kont W)}
    (h : LOK P K C i ρ κ pc N) (hN : ∀ l ∈ N, l ∈ r.map (·.1)) (hr : Ents P K C i κ r) : LOK P K C i (extend ρ r) κ pc [] := by
  intro l t ht
  unfold extend
  cases hf : r.find? (·.1 = l) with
  | some e =>
    have he := List.mem_of_find?_eq_some hf
    have hn : e.1 = l := by simpa using List.find?_some hf
    obtain ⟨t', h1, h2, h3⟩ := hr e he
    rw [hn, ht] at h1
    cases h1
    exact ⟨e.2.1, e.2.2, rfl, h2, h3.mono (by omega), fun _ _ => h3⟩
  | none =>
    obtain ⟨m, k, h1, h2, h3, h4⟩ := h l t ht
    refine ⟨m, k, h1, h2, h3, fun a _ => h4 a (fun hl => ?_)⟩
    obtain ⟨e, he, hn⟩ := List.mem_map.1 (hN l hl)
    exact absurd (decide_eq_true hn) (List.find?_eq_none.1 hf e he)

theorem sem_names (P : Ops W) (d : Nat) : ∀ (s : S) (u : Bool) (n0 n : Nat) (ρ : LEnv W) (k : Kont W),
    (sem P d u n0 n s ρ k).2.map (·.1) = s.names := by
  intro s
  induction s with
  | cons s rest ih1 ih2 =>
    intro u n0 n ρ k
    rw [sem, S.names]
    cases s.asLabel with
    | some l =>
      dsimp only
      rw [List.map_cons, ih2]
      rfl
    | none => exact ih2 ..
  | _ => intros; rfl

/-! ### the claim -/

/-- what is to be shown of the code of `s` -/
structure Done (P : Ops W) (u : Bool) (sort : Srt) (s : S) (g g' : G) (esc : List Nat) : Prop where
  nact : g'.nact = g.nact
  act : g'.fs.nactvar = g.fs.nactvar + s.nloc
  labels : ∃ ls : List Lab, g'.labels = g.labels ++ ls ∧ ls.map (·.name) = s.names
  free : sort ≠ .stmt → g'.fs.freereg = g'.fs.nactvar
  noesc : sort ≠ .part → esc = []
  le : g.fs.pc ≤ g'.fs.pc
  k : g.fs.k <+: g'.fs.k
  sep : Sep g'
  inv : ∀ X, GInv g X → GInv g' (esc ++ X)
  back : ∀ X, GInv g X → ∀ C κ t, All C κ g' → Tgt C esc t → All C κ g
  sim : ∀ K, g'.fs.k <+: K → ∀ X, GInv g X → ∀ C κ, All C κ g' → Tgt C esc g'.fs.pc → ∀ d i, i ≤ d → ∀ n0 ρ k,
    (sort = .list → n0 = g.nact) → LOK P K C i ρ κ g.fs.pc s.names → Sim P K C i k g'.fs.pc g'.fs.nactvar →
    (sort = .list → u = false → Sim P K C i k g'.fs.pc n0) →
    Sim P K C i (sem P d u n0 g.fs.nactvar s ρ k).1 g.fs.pc g.fs.nactvar ∧
    Ents P K C i κ (sem P d u n0 g.fs.nactvar s ρ k).2

/-- before a statement, a list or a part -/
structure Good (sort : Srt) (g : G) : Prop where
  free : g.fs.freereg = g.fs.nactvar
  nact : g.nact ≤ g.fs.nactvar
  sep : Sep g
  last : sort = .stmt → g.fs.lasttarget = g.fs.pc

def Claim (P : Ops W) (s : S) : Prop :=
  ∀ u sort g g' esc, gs P.F true u s g = .ok (g', esc) → Good sort g → s.wf (Assign.Stable P) sort g.fs.nactvar → Done P u sort s g g' esc

theorem Good.wk {sort : Srt} {g : G} (h : Good .stmt g) : Good sort g := ⟨h.free, h.nact, h.sep, fun _ => h.last rfl⟩

/-! ### statements that are not compound -/

theorem done_simple {u : Bool} {sort : Srt} {s : S} {g : G} {s' : FS} (hg : Sep g) (htr : Tr g.fs s' [])
    (hact : s'.nactvar = g.fs.nactvar + s.nloc) (hnm : s.names = []) (hsort : sort = .stmt)
    (hsim : ∀ K, s'.k <+: K → ∀ X, Inv g.fs.code (g.fs.jpc ++ X) → ∀ C, OK C s' → ∀ d i n0 ρ k,
      Sim P K C i k s'.pc s'.nactvar → Sim P K C i (sem P d u n0 g.fs.nactvar s ρ k).1 g.fs.pc g.fs.nactvar) :
    Done P u sort s g { g with fs := s' } [] where
  nact := rfl
  act := hact
  labels := ⟨[], (List.append_nil _).symm, hnm.symm⟩
  free := fun h => absurd hsort h
  noesc := fun _ => rfl
  le := htr.le
  k := htr.k
  sep := ⟨hg.gl, hg.nodup⟩
  inv := fun X hX => htr.inv _ hX
  back := fun X hX C κ t hA _ => ⟨htr.back0 hX hA.ok, hA.gts, hA.lbs⟩
  sim := by
    intro K hK X hX C κ hA _ d i _ n0 ρ k _ _ hk _
    refine ⟨hsim K hK _ hX C hA.ok d i n0 ρ k hk, ?_⟩
    have := sem_names P d s u n0 g.fs.nactvar ρ k
    rw [hnm] at this
    rw [List.map_eq_nil_iff.1 this]
    exact fun _ h => nomatch h

theorem emit_at {s : FS} {i : Instr} (h : OK C (emit s i)) (h1 : i ≠ .jmp none) (h2 : ∀ b c, i ≠ .testset none b c) :
    C[s.pc]? = some i := by
  obtain ⟨y, hy, p⟩ := h.1 _ _ (emit_get s i)
  rw [p.same h1 h2] at hy
  exact hy

/-- the code after an expression, with values for more registers -/
theorem map_range' {R : Regs} {f m : Nat} {vs : List Val} (h : vs = (List.range' f m).map R) {x : Nat} (hx : x < m) :
    vs.getD x .nil = R (f + x) := by
  subst h
  rw [List.getD_eq_getElem?_getD, List.getElem?_map, List.getElem?_range' hx]
  simp

theorem evalList_nils (R : Regs) (m : Nat) (w : W) :
    evalList P R (List.replicate m .nil) w = .ok (List.replicate m .nil, w) := by
  induction m with
  | zero => rfl
  | succ m ih =>
    rw [List.replicate_succ, List.replicate_succ, evalList]
    simp only [eval, Res.bind_ok, Res.pure_eq]
    rw [ih]
    rfl

theorem evalList_append (R : Regs) (as bs : List E) (w : W) :
    evalList P R (as ++ bs) w = (evalList P R as w).bind fun p => (evalList P R bs p.2).bind fun q => .ok (p.1 ++ q.1, q.2) := by
  induction as generalizing w with
  | nil =>
    rw [List.nil_append, evalList]
    show _ = (evalList P R bs w).bind _
    rcases evalList P R bs w with ⟨a, b⟩ | _ | _ <;> rfl
  | cons a as ih =>
    rw [List.cons_append, evalList, evalList]
    rcases eval P R a w with ⟨v, w1⟩ | _ | _
    · simp only [Res.bind_ok]
      rw [ih]
      rcases evalList P R as w1 with ⟨vs, w2⟩ | _ | _
      · simp only [Res.bind_ok, Res.pure_eq]
        show ((evalList P R bs w2).bind _ >>= _) = (evalList P R bs w2).bind _
        rcases evalList P R bs w2 with ⟨us, w3⟩ | _ | _ <;> rfl
      · rfl
      · rfl
    · rfl
    · rfl

theorem claim_loc (n : Nat) (es : List E) : Claim P (.loc n es) := by
  intro u sort g g' esc h hg hwf
  have hst : sort = .stmt := by cases sort <;> first | rfl | exact hwf.elim
  subst hst
  rw [gs] at h
  obtain ⟨s', e1, h⟩ := Res.bind_eq_ok.1 h
  cases h
  unfold localstat at e1
  obtain ⟨s1, e2, e1⟩ := Res.bind_eq_ok.1 e1
  cases e1
  have hok : ∀ e ∈ es ++ List.replicate (n - es.length) E.nil, e.ok g.fs.nactvar := by
    intro e he
    rcases List.mem_append.1 he with he | he
    · exact hwf e he
    · rw [List.eq_of_mem_replicate he]; exact trivial
  obtain ⟨p1, p2, p3, p4⟩ := list_piece e2 (hg.last rfl) (Nat.le_of_eq hg.free.symm) hok
  have htr : Tr s1 { s1 with nactvar := g.fs.nactvar + n, freereg := g.fs.nactvar + n } [] :=
    Tr.same rfl rfl (List.prefix_refl _)
  refine done_simple hg.sep (p1.trans htr) rfl rfl rfl ?_
  intro K hK X hX C hC d i n0 ρ k hk env R w hl hR
  simp only [sem]
  have hp := p4 K hK X hX C hC R w
  rw [evalList_congr (fun r hr => hR r hr) _ hok, evalList_append] at hp
  rcases hev : evalList P (look env) es w with ⟨vs, w1⟩ | m | _
  · rw [hev] at hp
    have e0 : ((.ok (vs, w1) : Res (List Val × W)).bind fun p => (evalList P (look env) (List.replicate (n - es.length) .nil) p.2).bind
        fun q => .ok (p.1 ++ q.1, q.2)) = .ok (vs ++ List.replicate (n - es.length) .nil, w1) := by
      show (evalList P (look env) (List.replicate (n - es.length) .nil) w1).bind _ = _
      rw [evalList_nils]; rfl
    rw [e0] at hp
    obtain ⟨R', h1, h2, h3⟩ := hp
    show Does P K C i _ (k (env ++ adjust n vs) w1)
    refine h3 _ _ (hk _ _ _ ?_ ?_)
    · show (env ++ adjust n vs).length = g.fs.nactvar + n
      unfold adjust
      have hlv : vs.length = es.length := by
        have := congrArg List.length h2
        simp only [List.length_append, List.length_replicate, List.length_map, List.length_range'] at this
        omega
      rw [List.length_append, List.length_take, List.length_append, List.length_replicate]
      omega
    · intro x hx
      have hx : x < g.fs.nactvar + n := hx
      have hlv : vs.length = es.length := by
        have := congrArg List.length h2
        simp only [List.length_append, List.length_replicate, List.length_map, List.length_range'] at this
        omega
      rcases Nat.lt_or_ge x g.fs.nactvar with hx1 | hx1
      · rw [h1 x (by rw [hg.free]; exact hx1), hR x hx1]
        unfold look
        rw [List.getD_eq_getElem?_getD, List.getD_eq_getElem?_getD, List.getElem?_append_left (by omega)]
      · obtain ⟨y, rfl⟩ : ∃ y, x = g.fs.nactvar + y := ⟨x - g.fs.nactvar, by omega⟩
        have hy := map_range' h2 (x := y) (by rw [List.length_append, List.length_replicate]; omega)
        rw [hg.free] at hy
        rw [← hy]
        unfold look adjust
        rw [List.getD_eq_getElem?_getD, List.getD_eq_getElem?_getD, List.getElem?_append_right (l₁ := env) (by omega),
          List.getElem?_take, if_pos (by omega), hlv, hl, show g.fs.nactvar + y - g.fs.nactvar = y by omega]
  · rw [hev] at hp; exact hp
  · rw [hev] at hp; exact hp

theorem look_map {m x : Nat} (L : Nat → Val) (h : x < m) : look ((List.range m).map L) x = L x := by
  unfold look
  rw [List.getD_eq_getElem?_getD, List.getElem?_map, List.getElem?_range h]
  rfl

theorem claim_assign (vs : List Lhs) (es : List E) (e : E) : Claim P (.assign vs es e) := by
  intro u sort g g' esc h hg hwf
  have hst : sort = .stmt := by cases sort <;> first | rfl | exact hwf.elim
  subst hst
  obtain ⟨hv, hok⟩ : (∀ v ∈ vs, v.ok g.fs.nactvar ∧ v.indexes (Assign.Stable P)) ∧ ∀ e' ∈ es ++ [e], e'.ok g.fs.nactvar := hwf
  rw [gs] at h
  obtain ⟨s', e1, h⟩ := Res.bind_eq_ok.1 h
  cases h
  obtain ⟨p1, p2, p3⟩ := assign_piece e1 (hg.last rfl) (Nat.le_of_eq hg.free.symm) (fun v h => (hv v h).1) (fun v h => (hv v h).2) hok
  refine done_simple hg.sep p1 p2 rfl rfl ?_
  intro K hK X hX C hC d i n0 ρ k hk env R w hl hR
  simp only [sem]
  have hp := p3 K hK X hX C hC R (look env) hR w
  refine hp.does ?_
  rintro L w' _ ⟨R', h1, h3⟩
  refine h3 _ _ (hk _ _ _ ?_ ?_)
  · rw [List.length_map, List.length_range, p2]; exact hl
  · intro y hy
    rw [p2] at hy
    rw [look_map L (by omega), h1 y hy]

theorem claim_ret (es : List E) : Claim P (.ret es) := by
  intro u sort g g' esc h hg hwf
  have hst : sort = .stmt := by cases sort <;> first | rfl | exact hwf.elim
  subst hst
  have hok : ∀ e ∈ es, e.ok g.fs.nactvar := hwf
  rw [gs] at h
  obtain ⟨s', e1, h⟩ := Res.bind_eq_ok.1 h
  cases h
  have many : ∀ s1, genList P.F true es g.fs = .ok s1 →
      Done P u .stmt (.ret es) g { g with fs := emit s1 (.ret g.fs.nactvar es.length) } [] := by
    intro s1 e2
    obtain ⟨p1, p2, p3, p4⟩ := list_piece e2 (hg.last rfl) (Nat.le_of_eq hg.free.symm) hok
    have htr : Tr s1 (emit s1 (.ret g.fs.nactvar es.length)) [] := emit_tr s1 (fun _ _ _ e => nomatch e)
    refine done_simple hg.sep (p1.trans htr) p2 rfl rfl ?_
    intro K hK X hX C hC d i n0 ρ k hk env R w hl hR
    simp only [sem]
    have hp := p4 K hK X hX C (htr.back0 (p1.inv _ hX) hC) R w
    rw [evalList_congr (fun r hr => hR r hr) _ hok] at hp
    refine hp.does ?_
    rintro vs w' _ ⟨R', h1, h2, h3⟩
    refine h3 _ _ ⟨1, ?_⟩
    have hat := emit_at hC (fun e => nomatch e) (fun _ _ e => nomatch e)
    show mstep P K C s1.pc R' w' = _
    unfold mstep
    rw [hat, h2, hg.free]
  unfold retstat at e1
  split at e1
  · rename_i e
    obtain ⟨⟨s1, d1⟩, e2, e1⟩ := Res.bind_eq_ok.1 e1
    obtain ⟨⟨s2, d2, r⟩, e3, e1⟩ := Res.bind_eq_ok.1 e1
    cases e1
    have hok := hok e (List.mem_singleton.2 rfl)
    obtain ⟨p1, p2, p3⟩ := any_piece e2 e3 (hg.last rfl) (Nat.le_of_eq hg.free.symm) hok
    have htr : Tr s2 (emit s2 (.ret r 1)) [] := emit_tr s2 (fun _ _ _ e => nomatch e)
    refine done_simple hg.sep (p1.trans htr) p2 rfl rfl ?_
    intro K hK X hX C hC d i n0 ρ k hk env R w hl hR
    simp only [sem]
    have hp := p3 K hK X hX C (htr.back0 (p1.inv _ hX) hC) R w
    rw [eval_congr (fun r hr => hR r hr) _ hok] at hp
    have e0 : bindR (evalList P (look env) [e] w) (fun vs w => O.fin (.ok (vs, w))) =
        bindR (eval P (look env) e w) (fun v w => O.fin (.ok ([v], w))) := by
      simp only [evalList]
      rcases eval P (look env) e w with ⟨v, w1⟩ | _ | _ <;> rfl
    rw [e0]
    refine hp.does ?_
    rintro v w' _ ⟨R', h1, h2, h3⟩
    refine h3 _ _ ⟨1, ?_⟩
    have hat := emit_at hC (fun e => nomatch e) (fun _ _ e => nomatch e)
    show mstep P K C s2.pc R' w' = _
    unfold mstep
    rw [hat]
    simp [List.range', h2]
  · obtain ⟨s1, e2, e1⟩ := Res.bind_eq_ok.1 e1
    cases e1
    exact many s1 e2

theorem claim_locc (n : Nat) (as : E) : Claim P (.locc n as) := by
  intro u sort g g' esc h hg hwf
  have hst : sort = .stmt := by cases sort <;> first | rfl | exact hwf.elim
  subst hst
  have hok : as.ok g.fs.nactvar := hwf
  rw [gs] at h
  obtain ⟨s', e1, h⟩ := Res.bind_eq_ok.1 h
  cases h
  unfold localMulti at e1
  obtain ⟨s1, e2, e1⟩ := Res.bind_eq_ok.1 e1
  cases e1
  obtain ⟨p1, p2, p4⟩ := multi_piece e2 (hg.last rfl) (Nat.le_of_eq hg.free.symm) hok
  have htr : Tr s1 { s1 with nactvar := g.fs.nactvar + n, freereg := g.fs.nactvar + n } [] :=
    Tr.same rfl rfl (List.prefix_refl _)
  refine done_simple hg.sep (p1.trans htr) rfl rfl rfl ?_
  intro K hK X hX C hC d i n0 ρ k hk env R w hl hR
  simp only [sem]
  have hp := p4 K hK X hX C hC R w
  rw [evalArgs_local (fun r hr => hR r hr) _ hok] at hp
  refine hp.does ?_
  rintro vs w' _ ⟨R', h1, h2, h3⟩
  refine h3 _ _ (hk _ _ _ ?_ ?_)
  · rw [List.length_append, show (adjust n vs).length = n from Assign.adjust_length n vs, hl]
  · intro x hx
    have hx : x < g.fs.nactvar + n := hx
    unfold look
    rw [List.getD_eq_getElem?_getD]
    rcases Nat.lt_or_ge x g.fs.nactvar with hx1 | hx1
    · rw [h1 x (by rw [hg.free]; exact hx1), hR x hx1, List.getElem?_append_left (by omega), ← List.getD_eq_getElem?_getD]
      rfl
    · obtain ⟨y, rfl⟩ : ∃ y, x = g.fs.nactvar + y := ⟨x - g.fs.nactvar, by omega⟩
      have h2 := h2 y (by omega)
      rw [hg.free] at h2
      rw [h2, List.getElem?_append_right (by omega), hl, Nat.add_sub_cancel_left,
        show (adjust n vs)[y]? = _ from Assign.adjust_getD (by omega)]
      rfl

theorem claim_assignc (vs : List Lhs) (as : E) : Claim P (.assignc vs as) := by
  intro u sort g g' esc h hg hwf
  have hst : sort = .stmt := by cases sort <;> first | rfl | exact hwf.elim
  subst hst
  obtain ⟨hv, hok⟩ : (∀ v ∈ vs, v.ok g.fs.nactvar ∧ v.indexes (Assign.Stable P)) ∧ as.ok g.fs.nactvar := hwf
  rw [gs] at h
  obtain ⟨s', e1, h⟩ := Res.bind_eq_ok.1 h
  cases h
  obtain ⟨p1, p2, p3⟩ := assignMulti_piece e1 (hg.last rfl) (Nat.le_of_eq hg.free.symm) (fun v h => (hv v h).1) (fun v h => (hv v h).2) hok
  refine done_simple hg.sep p1 p2 rfl rfl ?_
  intro K hK X hX C hC d i n0 ρ k hk env R w hl hR
  simp only [sem]
  have hp := p3 K hK X hX C hC R (look env) hR w
  refine hp.does ?_
  rintro L w' _ ⟨R', h1, h3⟩
  refine h3 _ _ (hk _ _ _ ?_ ?_)
  · rw [List.length_map, List.length_range, p2]; exact hl
  · intro y hy
    rw [p2] at hy
    rw [look_map L (by omega), h1 y hy]

theorem claim_retc (as : E) : Claim P (.retc as) := by
  intro u sort g g' esc h hg hwf
  have hst : sort = .stmt := by cases sort <;> first | rfl | exact hwf.elim
  subst hst
  have hok : as.ok g.fs.nactvar := hwf
  rw [gs] at h
  obtain ⟨s', e1, h⟩ := Res.bind_eq_ok.1 h
  cases h
  unfold retMulti at e1
  obtain ⟨⟨s1, o⟩, e2, e1⟩ := Res.bind_eq_ok.1 e1
  obtain ⟨p1, p2, p4⟩ := args_piece e2 (hg.last rfl) (Nat.le_of_eq hg.free.symm) hok
  cases o with
  | none => cases e1
  | some o =>
  obtain ⟨a, m, l⟩ := o
  cases e1
  have htr : Tr s1 (emit s1 (.retcall g.fs.nactvar a m l)) [] := emit_tr s1 (fun _ _ _ e => nomatch e)
  refine done_simple hg.sep (p1.trans htr) p2 rfl rfl ?_
  intro K hK X hX C hC d i n0 ρ k hk env R w hl hR
  simp only [sem]
  have hp := p4 K hK X hX C (htr.back0 (p1.inv _ hX) hC) R w
  rw [evalArgs_local (fun r hr => hR r hr) _ hok] at hp
  have hat := emit_at hC (fun e => nomatch e) (fun _ _ e => nomatch e)
  rcases hp with ⟨R', w', h1, h2⟩ | ⟨e, h1, h2⟩ | ⟨h1, h2⟩
  · have hst : mrun P K C 1 (.run s1.pc R' w') = mstep P K C s1.pc R' w' := rfl
    unfold mstep at hst
    rw [hat] at hst
    dsimp only at hst
    unfold opened at h2
    dsimp only at h2
    cases hc : callChain P a l R' (a + 1 + m) w' with
    | err e => rw [hc] at h2 hst; rw [show evalArgs P (look env) as w = _ from h2]; exact h1 _ _ ⟨1, hst⟩
    | ub => rw [hc] at h2 hst; rw [show evalArgs P (look env) as w = _ from h2]; exact h1 _ _ ⟨1, hst⟩
    | ok r =>
      obtain ⟨R2, top, w2⟩ := r
      rw [hc] at h2 hst
      rw [show evalArgs P (look env) as w = _ from h2, hg.free]
      exact h1 _ _ ⟨1, hst⟩
  · rw [h1]; exact h2
  · rw [h1]; exact h2

theorem claim_goto (l : Nat) : Claim P (.goto l) := by
  intro u sort g g' esc h hg hwf
  have hst : sort = .stmt := by cases sort <;> first | rfl | exact hwf.elim
  subst hst
  rw [gs] at h
  dsimp only at h
  obtain ⟨g1, e1, h⟩ := Res.bind_eq_ok.1 h
  cases h
  have hj := jump_tr g.fs
  obtain ⟨r1, r2, r3, r4, r5⟩ := gotostat_res e1 ⟨hg.sep.gl, hg.sep.nodup⟩
  have hinv : ∀ X, GInv g X → GInv { g with fs := (jump g.fs).1 } ((jump g.fs).2 ++ X) := by
    intro X hX
    exact (hj.inv _ hX).perm (perm3 ..)
  refine ⟨r1, r3.nact, ⟨[], by rw [r2, List.append_nil], rfl⟩, fun h => absurd rfl h, fun _ => rfl, ?_, ?_, r4, ?_, ?_, ?_⟩
  · rw [r3.pc]; exact hj.le
  · rw [r3.k]; exact hj.k
  · intro X hX
    exact (r5 X (hinv X hX)).1
  · intro X hX C κ t hA _
    obtain ⟨a1, t, a2, a3, a4⟩ := (r5 X (hinv X hX)).2 C κ hA
    exact ⟨hj.back _ hX C _ a1.ok a3, a1.gts, a1.lbs⟩
  · intro K hK X hX C κ hA _ d i _ n0 ρ k _ hρ hk _
    refine ⟨?_, fun _ h => nomatch h⟩
    obtain ⟨a1, t, a2, a3, a4⟩ := (r5 X (hinv X hX)).2 C κ hA
    obtain ⟨m, kc, b1, b2, b3, b4⟩ := hρ l t a2
    intro env R w hl hR
    simp only [sem]
    rw [b1]
    have a4 : t.2 ≤ g.fs.nactvar := a4
    have hmem : g.fs.pc ∈ (jump g.fs).2 := List.mem_cons_self ..
    rcases Nat.lt_or_ge g.fs.pc t.1 with hlt | hge
    · exact (a3.go hmem R w) _ _ ((b4 hlt (fun h => nomatch h)).take (by omega) (fun x hx => hR x (by omega)))
    · exact (a3.goS hmem hge R w).does (b3.take (by omega) (fun x hx => hR x (by omega)))

end Verif.Stat
