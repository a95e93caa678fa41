import Verif.Coro.Lemmas
namespace Verif.Coro
variable {V Fn S W : Type}

/-- a thread that has resumed another one -/
def Waiting (P : World V Fn S W) (main : Bool) (L : Thread V S) (fs : List (Fr V S)) : Prop :=
  ∃ c cis st fv tv old ns, L.ci = c :: cis ∧ c.func = st.length ∧ L.status = .ok ∧ L.stk = st ++ [fv, tv] ∧
    L.native = .await old :: ns ∧ Stk P main ns cis fs st L.nny c.wanted

/-- a thread that has not begun, is suspended or dead -/
def Idle (P : World V Fn S W) (L : Thread V S) : Co V S → Prop
  | .new f => L.ci = [] ∧ L.status = .ok ∧ ∃ b, L.stk = [b, f]
  | .susp fs => L.status = .yield ∧ ∃ c cis st y, L.ci = c :: cis ∧ Det P cis fs st c.wanted ∧ c.extra = st.length ∧ L.stk = st ++ y
  | .active => False
  | .dead => L.status = .error ∨ (L.status = .ok ∧ L.ci = [] ∧ ∃ b, L.stk = [b])

def A.ids (a : A V S W) : List Nat := a.cur :: a.chain.map Prod.fst

structure Rel (P : World V Fn S W) (m : M V S W) (a : A V S W) : Prop where
  n : m.n = a.n
  cur : m.cur = a.cur
  w : m.w = a.w
  fin : m.fin = a.fin
  chain : m.chain = a.chain.map Prod.fst
  nodup : a.ids.Nodup
  last : a.ids.getLast? = some 0
  ev : REv P (decide (a.cur = 0)) (m.ev, m.thr a.cur) a.ev
  active : ∀ i ∈ a.ids, a.co i = .active
  waiting : ∀ p ∈ a.chain, Waiting P (decide (p.1 = 0)) (m.thr p.1) p.2
  idle : ∀ i, i ∉ a.ids → Idle P (m.thr i) (a.co i)
  unused : ∀ i, a.n ≤ i → a.co i = .dead

theorem upd_same {α : Type} (f : Nat → α) (i : Nat) (x : α) : upd f i x i = x := by simp [upd]
theorem upd_ne {α : Type} (f : Nat → α) {i j : Nat} (x : α) (h : j ≠ i) : upd f i x j = f j := by simp [upd, h]

theorem Rel.updCur {P : World V Fn S W} {m : M V S W} {a : A V S W} (h : Rel P m a) (r : Ev V × Thread V S) (e : AEv V S) (w : W)
    (hr : REv P (decide (a.cur = 0)) r e) :
    Rel P { m with thr := upd m.thr m.cur r.2, ev := r.1, w := w } { a with ev := e, w := w } := by
  have hn : a.cur ∉ a.chain.map Prod.fst := (List.nodup_cons.1 h.nodup).1
  refine ⟨h.n, h.cur, rfl, h.fin, h.chain, h.nodup, h.last, ?_, h.active, ?_, ?_, h.unused⟩
  · dsimp only
    rw [h.cur, upd_same]
    exact hr
  · intro p hp
    dsimp only
    have hp' : p.1 ∈ a.chain.map Prod.fst := List.mem_map_of_mem hp
    have hne : p.1 ≠ a.cur := fun e => hn (e ▸ hp')
    rw [h.cur, upd_ne _ _ hne]
    exact h.waiting p hp
  · intro i hi
    dsimp only
    rw [h.cur, upd_ne _ _ (fun e => hi (by rw [e]; simp [A.ids]))]
    exact h.idle i hi

theorem returnC_ok {P : World V Fn S W} {main : Bool} (m : M V S W) (i : Nat) (L : Thread V S) (c : CI S) (cis : List (CI S))
    (fs : List (Fr V S)) (st x vs : List V) (h1 : L.ci = c :: cis) (h2 : c.func = st.length) (h3 : L.stk = st ++ x ++ vs)
    (h4 : L.status = .ok) (h : Stk P main L.native cis fs st L.nny c.wanted) :
    ∃ r, returnC P m i L vs.length = .ok { m with thr := upd m.thr i r.2, cur := i, ev := r.1 } ∧ REv P main r (deliver P fs vs) := by
  obtain ⟨r, hr, hv⟩ := back_ok h { L with stk := st ++ adj P.nil c.wanted vs, ci := cis } vs rfl rfl rfl h4
  refine ⟨r, ?_, hv⟩
  unfold returnC
  rw [poscall_ok P.nil L c cis st x vs h1 h2 h3]
  simp only [Res.bind_ok]
  rw [hr]
  rfl

theorem takeEnd (x vs : List V) : (x ++ vs).take ((x ++ vs).length - vs.length) = x := List.take_left' (by simp)
theorem dropEnd (x vs : List V) : (x ++ vs).drop ((x ++ vs).length - vs.length) = vs := List.drop_left' (by simp)

theorem endResume_ok {P : World V Fn S W} {m : M V S W} {a : A V S W} (h : Rel P m a) (hne : a.chain ≠ []) (co : Thread V S)
    (keep vs : List V) (b : V) (x : Co V S) (hco : co.stk = keep ++ vs) (hx : ∀ old, Idle P { co with stk := keep, nny := old } x) :
    ∃ m', endResume P m co vs.length b = .ok m' ∧ Rel P m' (resumer P a x (b :: vs)) := by
  obtain ⟨aco, an, acur, aev, achain, aw, afin⟩ := a
  dsimp only at hne
  match achain, hne with
  | (i, fs) :: chain, _ =>
  have hnd := h.nodup
  dsimp only [A.ids, List.map_cons] at hnd
  obtain ⟨c, cis, st, fv, tv, old, ns, e1, e2, e3, e4, e5, e6⟩ := h.waiting (i, fs) (by simp)
  dsimp only at e1 e2 e3 e4 e5 e6
  have hci : m.cur = acur := h.cur
  obtain ⟨r, hr, hv⟩ := returnC_ok { m with thr := upd m.thr m.cur { co with stk := keep, nny := old }, chain := chain.map Prod.fst } i
    { m.thr i with stk := st ++ [fv, tv] ++ (b :: vs), native := ns } c cis fs st [fv, tv] (b :: vs) e1 e2 rfl e3 e6
  have hmc : m.chain = i :: chain.map Prod.fst := h.chain
  refine ⟨{ m with
    thr := upd (upd m.thr m.cur { co with stk := keep, nny := old }) i r.2, chain := chain.map Prod.fst, cur := i, ev := r.1 }, ?_, ?_⟩
  · unfold endResume
    rw [hmc]
    dsimp only
    rw [e5]
    dsimp only
    rw [← hr]
    simp only [xmove, e4, hco, List.length_cons, takeEnd, dropEnd]
    congr 2
    simp
  · have hni : i ≠ acur := by
      intro e
      simp [e] at hnd
    refine ⟨h.n, rfl, h.w, h.fin, rfl, (List.nodup_cons.1 hnd).2, ?_, ?_, ?_, ?_, ?_, ?_⟩
    · have := h.last
      simp only [A.ids, List.map_cons, List.getLast?_cons_cons] at this
      exact this
    · dsimp only [resumer]
      rw [upd_same]
      exact hv
    · intro j hj
      dsimp only [resumer]
      have hj' : j ∈ i :: chain.map Prod.fst := hj
      rw [upd_ne _ _ (by rintro rfl; exact (List.nodup_cons.1 hnd).1 hj')]
      exact h.active j (List.mem_cons_of_mem _ hj')
    · intro p hp
      have hp' : p ∈ chain := hp
      have hpm : p.1 ∈ chain.map Prod.fst := List.mem_map_of_mem hp'
      dsimp only
      have hnd2 := (List.nodup_cons.1 hnd).2
      have hne1 : p.1 ≠ i := fun e => (List.nodup_cons.1 hnd2).1 (e ▸ hpm)
      have hne2 : p.1 ≠ acur := fun e => (List.nodup_cons.1 hnd).1 (List.mem_cons_of_mem _ (e ▸ hpm))
      rw [upd_ne _ _ hne1, hci, upd_ne _ _ hne2]
      exact h.waiting p (List.mem_cons_of_mem _ hp')
    · intro j hj
      have hj' : j ∉ i :: chain.map Prod.fst := hj
      dsimp only [resumer]
      rw [upd_ne _ _ (fun e => hj' (by simp [e])), hci]
      by_cases hjc : j = acur
      · subst hjc
        rw [upd_same, upd_same]
        exact hx old
      · rw [upd_ne _ _ hjc, upd_ne _ _ hjc]
        exact h.idle j (fun hm => by
          rcases List.mem_cons.1 hm with e | e
          · exact hjc e
          · exact hj' e)
    · intro j hj
      dsimp only [resumer] at hj ⊢
      have hu := h.unused j hj
      rw [upd_ne _ _ ?_]
      · exact hu
      · rintro rfl
        have := h.active j (by simp [A.ids])
        rw [this] at hu
        cases hu

/-- the first answer of a new coroutine or of a resumed one -/
theorem resume_ok {P : World V Fn S W} {m : M V S W} {a : A V S W} (h : Rel P m a) (co : Nat) (L : Thread V S) (r : Ev V × Thread V S)
    (fs : List (Fr V S)) (e : AEv V S) (hid : co ∉ a.ids) (hlt : a.co co ≠ .dead) (hW : Waiting P (decide (a.cur = 0)) L fs)
    (hr : REv P false r e) :
    Rel P { m with thr := upd (upd m.thr m.cur L) co r.2, cur := co, ev := r.1, chain := m.cur :: m.chain }
      { a with co := upd a.co co .active, cur := co, ev := e, chain := (a.cur, fs) :: a.chain } := by
  have hids : A.ids { a with co := upd a.co co .active, cur := co, ev := e, chain := (a.cur, fs) :: a.chain } = co :: a.ids := rfl
  have h0 : co ≠ 0 := by
    rintro rfl
    exact hid (List.mem_of_getLast? h.last)
  refine ⟨h.n, rfl, h.w, h.fin, ?_, ?_, ?_, ?_, ?_, ?_, ?_, ?_⟩
  · dsimp only
    rw [h.cur, h.chain]
    rfl
  · rw [hids]
    exact List.nodup_cons.2 ⟨hid, h.nodup⟩
  · rw [hids]
    have := h.last
    unfold A.ids at this ⊢
    rw [List.getLast?_cons_cons]
    exact this
  · dsimp only
    rw [upd_same, decide_eq_false h0]
    exact hr
  · intro i hi
    rw [hids] at hi
    dsimp only
    by_cases hic : i = co
    · rw [hic, upd_same]
    · rw [upd_ne _ _ hic]
      exact h.active i ((List.mem_cons.1 hi).resolve_left hic)
  · intro p hp
    dsimp only at hp ⊢
    have hp1 : p.1 ∈ a.ids := by
      rcases List.mem_cons.1 hp with rfl | hp
      · simp [A.ids]
      · exact List.mem_cons_of_mem _ (List.mem_map_of_mem hp)
    have hne : p.1 ≠ co := fun e => hid (e ▸ hp1)
    rw [upd_ne _ _ hne, h.cur]
    rcases List.mem_cons.1 hp with rfl | hp
    · dsimp only
      rw [upd_same]
      exact hW
    · have hp' : p.1 ∈ a.chain.map Prod.fst := List.mem_map_of_mem hp
      have hne : p.1 ≠ a.cur := fun e => (List.nodup_cons.1 h.nodup).1 (e ▸ hp')
      rw [upd_ne _ _ hne]
      exact h.waiting p hp
  · intro i hi
    rw [hids] at hi
    dsimp only
    have hic : i ≠ co := fun e => hi (by simp [e])
    have hi' : i ∉ a.ids := fun e => hi (by simp [e])
    rw [upd_ne _ _ hic, upd_ne _ _ hic, h.cur, upd_ne _ _ (fun e => hi' (by simp [e, A.ids]))]
    exact h.idle i hi'
  · intro i hi
    dsimp only at hi ⊢
    have hu := h.unused i hi
    have hne : i ≠ co := fun e => hlt (e ▸ hu)
    rw [upd_ne _ _ hne]
    exact hu

theorem Idle.congr {P : World V Fn S W} {L : Thread V S} {x : Co V S} (h : Idle P L x) (stk : List V) (hs : stk = L.stk) :
    Idle P { L with stk := stk } x := by
  subst hs
  exact h

theorem step_ok {P : World V Fn S W} {m : M V S W} {a : A V S W} (h : Rel P m a) : ∃ m', step P m = .ok m' ∧ Rel P m' (astep P a) := by
  obtain ⟨thr, n, cur, ev, chain, w, fin⟩ := m
  obtain ⟨aco, an, acur, aev, achain, aw, afin⟩ := a
  obtain rfl : n = an := h.n
  obtain rfl : cur = acur := h.cur
  obtain rfl : w = aw := h.w
  obtain rfl : fin = afin := h.fin
  obtain rfl : chain = achain.map Prod.fst := h.chain
  have hev := h.ev
  cases fin with
  | some x => exact ⟨_, rfl, h⟩
  | none =>
  cases aev with
  | run s fs =>
    obtain ⟨e1, e2⟩ := hev
    dsimp only at e1 e2
    subst e1
    obtain ⟨r, hr, hv⟩ := exec_ok (thr cur) s fs w e2
    have := h.updCur r _ (P.act s w).2 hv
    refine ⟨_, ?_, this⟩
    simp only [step, hr, Res.bind_ok]
    rfl
  | done vs =>
    obtain ⟨e1, e2, e3, b, e4⟩ := hev
    dsimp only at e1 e2 e3 e4
    subst e1
    cases achain with
    | nil =>
      refine ⟨_, rfl, ⟨rfl, rfl, rfl, ?_, rfl, h.nodup, h.last, h.ev, h.active, h.waiting, h.idle, h.unused⟩⟩
      dsimp only [astep, if_true]
      rw [e4]
      rfl
    | cons p l =>
      have hg : gettop (thr cur) = vs.length := by simp [gettop, e2, e4]
      obtain ⟨m', hm, hR⟩ := endResume_ok h (by simp) (thr cur) [b] vs P.tru .dead e4 (fun old => Or.inr ⟨e3, e2, b, rfl⟩)
      refine ⟨m', ?_, hR⟩
      simp only [step, List.map_cons, hg]
      exact hm
  | failed v =>
    obtain ⟨e1, x, e4⟩ := hev
    dsimp only at e1 e4
    subst e1
    cases achain with
    | nil => exact ⟨_, rfl, ⟨rfl, rfl, rfl, rfl, rfl, h.nodup, h.last, h.ev, h.active, h.waiting, h.idle, h.unused⟩⟩
    | cons p l =>
      obtain ⟨m', hm, hR⟩ := endResume_ok h (by simp) { thr cur with status := .error } x [v] P.fls .dead e4 (fun old => Or.inl rfl)
      exact ⟨m', hm, hR⟩
  | yielded vs fs =>
    obtain ⟨e1, e0, e3, c, cis, st, y, e4, e5, e6, e7, e8⟩ := hev
    dsimp only at e0 e1 e3 e4 e7
    subst e1
    cases achain with
    | nil =>
      have := h.last
      simp [A.ids] at this
      simp [this] at e0
    | cons p l =>
      have hg : gettop (thr cur) = vs.length := by
        simp only [gettop, e4, e7, List.length_append] at e8 ⊢
        omega
      obtain ⟨m', hm, hR⟩ := endResume_ok h (by simp) (thr cur) (st ++ y) vs P.tru (.susp fs) e7
        (fun old => ⟨e3, c, cis, st, y, e4, e5, e6, rfl⟩)
      refine ⟨m', ?_, hR⟩
      simp only [step, List.map_cons, hg]
      exact hm
  | create f fs =>
    obtain ⟨e1, args, c, cis, st, fv, e4, e5, e6, e7, e8⟩ := hev
    dsimp only at e1 e4 e6 e7 e8
    subst e1
    have hnn : ∀ i, i ∈ cur :: achain.map Prod.fst → i ≠ n := by
      rintro i hi rfl
      have := h.unused i (Nat.le_refl _)
      rw [h.active i hi] at this
      cases this
    have h' : Rel P { thr := upd thr n { stk := [P.nil, f], ci := [], native := [], nny := 1, status := .ok }, n := n + 1, cur := cur
                      ev := .create f, chain := achain.map Prod.fst, w := w, fin := none }
        { co := upd aco n (.new f), n := n + 1, cur := cur, ev := .create f fs, chain := achain, w := w, fin := none } := by
      refine ⟨rfl, rfl, rfl, rfl, rfl, h.nodup, h.last, ?_, ?_, ?_, ?_, ?_⟩
      · dsimp only
        rw [upd_ne _ _ (hnn cur (by simp))]
        exact h.ev
      · intro i hi
        dsimp only
        rw [upd_ne _ _ (hnn i hi)]
        exact h.active i hi
      · intro p hp
        dsimp only
        have hne := hnn p.1 (List.mem_cons_of_mem _ (List.mem_map_of_mem hp))
        rw [upd_ne _ _ hne]
        exact h.waiting p hp
      · intro i hi
        dsimp only
        by_cases hin : i = n
        · rw [hin, upd_same, upd_same]
          exact ⟨rfl, rfl, P.nil, rfl⟩
        · rw [upd_ne _ _ hin, upd_ne _ _ hin]
          exact h.idle i hi
      · intro i hi
        dsimp only at hi ⊢
        have hne : i ≠ n := by omega
        rw [upd_ne _ _ hne]
        exact h.unused i (by dsimp only; omega)
    obtain ⟨r, hr, hv⟩ := returnC_ok (P := P) (main := decide (cur = 0))
      { thr := upd thr n { stk := [P.nil, f], ci := [], native := [], nny := 1, status := .ok }, n := n + 1, cur := cur
        ev := .create f, chain := achain.map Prod.fst, w := w, fin := none } cur
      { thr cur with stk := (thr cur).stk ++ [P.thr n] } c cis fs st (fv :: args) [P.thr n] e4 e5 (by dsimp only; rw [e7]) e6 e8
    exact ⟨_, hr, h'.updCur r _ _ hv⟩
  | status co fs =>
    obtain ⟨e1, args, c, cis, st, fv, e4, e5, e6, e7, e8⟩ := hev
    dsimp only at e1 e4 e6 e7 e8
    subst e1
    obtain ⟨r, hr, hv⟩ := returnC_ok (P := P) (main := decide (cur = 0))
      { thr := thr, n := n, cur := cur, ev := .status co, chain := achain.map Prod.fst, w := w, fin := none } cur
      { thr cur with stk := (thr cur).stk ++ [P.str (statusOf (thr co) (cur = co))] } c cis fs st (fv :: args)
      [P.str (statusOf (thr co) (cur = co))] e4 e5 (by dsimp only; rw [e7]) e6 e8
    refine ⟨_, hr, ?_⟩
    have hst : statusOf (thr co) (cur = co) = if cur = co then "running" else
        match aco co with
        | .new _ | .susp _ => "suspended"
        | .active => "normal"
        | .dead => "dead" := by
      unfold statusOf
      by_cases hcur : cur = co
      · simp [hcur]
      · simp only [hcur, decide_false, if_false, Bool.false_eq_true]
        by_cases hin : co ∈ cur :: achain.map Prod.fst
        · have ha := h.active co hin
          dsimp only at ha
          rw [ha]
          dsimp only
          have : co ∈ achain.map Prod.fst := (List.mem_cons.1 hin).resolve_left (fun e => hcur e.symm)
          obtain ⟨p, hp, rfl⟩ := List.mem_map.1 this
          obtain ⟨c, cis, st, fv, tv, old, ns, f1, f2, f3, f4, f5, f6⟩ := h.waiting p hp
          dsimp only at f1 f3
          rw [f3]
          simp [f1]
        · have hi := h.idle co hin
          dsimp only at hi
          cases hx : aco co with
          | new f =>
            rw [hx] at hi
            obtain ⟨f1, f2, b, f3⟩ := hi
            simp [f1, f2, f3, gettop]
          | susp gs =>
            rw [hx] at hi
            simp [hi.1]
          | active => rw [hx] at hi; exact hi.elim
          | dead =>
            rw [hx] at hi
            rcases hi with hi | ⟨f1, f2, b, f3⟩
            · simp [hi]
            · simp [f1, f2, f3, gettop]
    rw [hst] at hv
    exact h.updCur r _ w hv
  | resume co args fs =>
    obtain ⟨e1, tv, c, cis, st, fv, e4, e5, e6, e7, e8⟩ := hev
    dsimp only at e1 e4 e6 e7 e8
    subst e1
    have hg : gettop (thr cur) - 1 = args.length := by
      simp only [gettop, e4, e7, e5, List.length_append, List.length_cons]
      omega
    have hgc : gettop (thr cur) ≠ 0 := by
      simp only [gettop, e4, e7, e5, List.length_append, List.length_cons]
      omega
    have htk : (thr cur).stk.take ((thr cur).stk.length - args.length) = st ++ [fv, tv] := by
      rw [e7, show st ++ fv :: tv :: args = (st ++ [fv, tv]) ++ args by simp, takeEnd]
    have hdr : (thr cur).stk.drop ((thr cur).stk.length - args.length) = args := by
      rw [e7, show st ++ fv :: tv :: args = (st ++ [fv, tv]) ++ args by simp, dropEnd]
    -- `resume` fails: the thread `T` is as before
    have hfail : ∀ (thr' : Nat → Thread V S) (msg : String) (x : List V), (∀ i, i ≠ cur → thr' i = thr i) →
        ∃ m', returnC P { thr := thr', n := n, cur := cur, ev := .resume co, chain := achain.map Prod.fst, w := w, fin := none } cur
          { thr cur with stk := st ++ x ++ [P.fls, P.str msg] } 2 = .ok m' ∧
          Rel P m' { co := aco, n := n, cur := cur, ev := deliver P fs [P.fls, P.str msg], chain := achain, w := w, fin := none } := by
      intro thr' msg x ht
      obtain ⟨r, hr, hv⟩ := returnC_ok (P := P) (main := decide (cur = 0))
        { thr := thr', n := n, cur := cur, ev := .resume co, chain := achain.map Prod.fst, w := w, fin := none } cur
        { thr cur with stk := st ++ x ++ [P.fls, P.str msg] } c cis fs st x [P.fls, P.str msg] e4 e5 rfl e6 e8
      refine ⟨_, hr, ?_⟩
      have := h.updCur r _ w hv
      have hu : upd thr' cur r.2 = upd thr cur r.2 := by
        funext i
        by_cases hi : i = cur
        · rw [hi, upd_same, upd_same]
        · rw [upd_ne _ _ hi, upd_ne _ _ hi, ht i hi]
      dsimp only at this ⊢
      rw [hu]
      exact this
    have hgo : ∀ (r : Ev V × Thread V S) (old : Nat) (e : AEv V S), co ∉ cur :: achain.map Prod.fst → aco co ≠ .dead → REv P false r e →
        Rel P { thr := upd (upd thr cur { thr cur with stk := st ++ [fv, tv], native := .await old :: (thr cur).native }) co r.2, n := n
                cur := co, ev := r.1, chain := cur :: achain.map Prod.fst, w := w, fin := none }
          { co := upd aco co .active, n := n, cur := co, ev := e, chain := (cur, fs) :: achain, w := w, fin := none } := by
      intro r old e hid hlt hr
      exact resume_ok h co _ r fs e hid hlt ⟨c, cis, st, fv, tv, old, _, e4, e5, e6, rfl, rfl, e8⟩ hr
    have hfail' : ∀ (msg : String), co ≠ cur → ∃ m', resumeFail P
          { thr := thr, n := n, cur := cur, ev := .resume co, chain := achain.map Prod.fst, w := w, fin := none }
          { thr cur with stk := st ++ [fv, tv] } co { thr co with stk := (thr co).stk ++ args } args.length msg = .ok m' ∧
          Rel P m' { co := aco, n := n, cur := cur, ev := deliver P fs [P.fls, P.str msg], chain := achain, w := w, fin := none } := by
      intro msg hne
      obtain ⟨m', hm, hR⟩ := hfail (upd thr co (thr co)) msg [fv, tv] (fun i _ => by
        by_cases hic : i = co
        · rw [hic, upd_same]
        · rw [upd_ne _ _ hic])
      refine ⟨m', ?_, hR⟩
      rw [← hm]
      have t1 := takeEnd (thr co).stk [P.str msg]
      have t2 := dropEnd (thr co).stk [P.str msg]
      have t3 := takeEnd (st ++ [fv, tv]) [P.str msg]
      have t4 := dropEnd (st ++ [fv, tv]) [P.str msg]
      rw [List.length_singleton] at t1 t2 t3 t4
      simp only [resumeFail, xmove, takeEnd, t1, t2, t3, t4]
      congr 2
      simp
    by_cases hcur : co = cur
    · subst hcur
      have ha := h.active co (by simp [A.ids])
      dsimp only at ha
      obtain ⟨m', hm, hR⟩ := hfail thr "cannot resume non-suspended coroutine" [fv, tv] (fun _ _ => rfl)
      refine ⟨m', ?_, ?_⟩
      · simp only [step]
        rw [if_neg (fun x => hgc x.2), hg, if_pos trivial, htk]
        exact hm
      · simp only [astep, ha]
        exact hR
    · by_cases hin : co ∈ cur :: achain.map Prod.fst
      · have ha := h.active co hin
        dsimp only at ha
        have hin' : co ∈ achain.map Prod.fst := (List.mem_cons.1 hin).resolve_left hcur
        obtain ⟨p, hp, rfl⟩ := List.mem_map.1 hin'
        obtain ⟨c', cis', st', fv', tv', old, ns, f1, f2, f3, f4, f5, f6⟩ := h.waiting p hp
        dsimp only at f1 f3 f4 f5 f6
        have hgp : gettop (thr p.1) ≠ 0 := by
          simp [gettop, f1, f2, f4]
        obtain ⟨m', hm, hR⟩ := hfail' "cannot resume non-suspended coroutine" hcur
        refine ⟨m', ?_, ?_⟩
        · simp only [step, hg]
          rw [if_neg (fun x => hgp x.2), if_neg hcur]
          simp only [xmove, htk, hdr, f3, f1]
          rw [if_pos (by simp), ← hm]
          dsimp only
          rw [f1, f3]
        · simp only [astep, ha]
          exact hR
      · have hi := h.idle co hin
        dsimp only at hi
        cases hx : aco co with
        | new f =>
          rw [hx] at hi
          obtain ⟨f1, f2, b, f3⟩ := hi
          obtain ⟨r, hr, hv⟩ := call_ok (P := P) args f [.resume] [] [] [b] 0 none (.base b rfl) ([b, f] ++ args).length
            { thr co with stk := [b, f] ++ args, nny := 0, native := [.resume] } ⟨f1, rfl, rfl, rfl, f2⟩ (by simp; omega)
          have hR := hgo r (thr co).nny _ hin (by rw [hx]; exact nofun) hv
          refine ⟨_, ?_, by simp only [astep, hx]; exact hR⟩
          · simp only [step, hg]
            rw [if_neg (by simp [gettop, f1, f3]), if_neg hcur]
            simp only [xmove, htk, hdr, f2, f1, f3]
            rw [if_neg (by simp)]
            have hl : ([b, f] ++ args).length - args.length - 1 = [b].length := by
              simp only [List.length_append, List.length_cons, List.length_nil]
              omega
            rw [hl]
            dsimp only at hr
            rw [f1, f2] at hr
            rw [hr]
            rfl
        | susp gs =>
          rw [hx] at hi
          obtain ⟨f0, c', cis', st', y, f1, f2, f3, f4⟩ := hi
          obtain ⟨r, hr, hv⟩ := unroll_ok f2 (cis'.length + 1) { thr co with
            stk := st' ++ adj P.nil c'.wanted args, ci := cis', nny := 0, status := .ok, native := [.unroll] } args rfl rfl rfl rfl rfl
            (by omega)
          have hR := hgo r (thr co).nny _ hin (by rw [hx]; exact nofun) hv
          refine ⟨_, ?_, by simp only [astep, hx]; exact hR⟩
          · simp only [step, hg]
            rw [if_neg (by simp [f0]), if_neg hcur]
            simp only [xmove, htk, hdr, f0, f1, f4]
            have hp := poscall_ok P.nil { thr co with
              stk := st' ++ y ++ args, nny := 0, status := .ok, ci := { c' with func := c'.extra } :: cis', native := [.unroll] }
              { c' with func := c'.extra } cis' st' y args rfl f3 rfl
            rw [hp]
            simp only [Res.bind_ok]
            rw [hr]
            rfl
        | active => rw [hx] at hi; exact hi.elim
        | dead =>
          rw [hx] at hi
          rcases hi with hi | ⟨f1, f2, b, f3⟩
          · obtain ⟨m', hm, hR⟩ := hfail' "cannot resume dead coroutine" hcur
            refine ⟨m', ?_, ?_⟩
            · simp only [step, hg]
              rw [if_neg (by simp [hi]), if_neg hcur]
              simp only [xmove, htk, hdr, hi]
              rw [← hm]
              dsimp only
              rw [hi]
            · simp only [astep, hx]
              exact hR
          · obtain ⟨m', hm, hR⟩ := hfail thr "cannot resume dead coroutine" (fv :: tv :: args) (fun _ _ => rfl)
            refine ⟨m', ?_, ?_⟩
            · simp only [step]
              rw [if_pos ⟨f1, by simp [gettop, f2, f3]⟩, e7]
              exact hm
            · simp only [astep, hx]
              exact hR

end Verif.Coro
