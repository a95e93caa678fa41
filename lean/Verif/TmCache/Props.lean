import Verif.TmCache.Model

/-!
# The cache of absent metamethods: properties (C37)
-/
namespace Verif.TmCache

/-- The same table but for the cache. -/
def TRel (t t' : Tab) : Prop := t.get = t'.get ∧ t.mt = t'.mt

/-- The cache tells the truth. -/
def Sound (t : Tab) : Prop := ∀ e, t.flags e = true → t.get (name e) = .nil

/-- A state with a sound cache, and a state with the same contents. -/
structure Rel (s r : State) : Prop where
  tabs : ∀ h, (s.tabs h = none ∧ r.tabs h = none) ∨ ∃ t t', s.tabs h = some t ∧ r.tabs h = some t' ∧ TRel t t' ∧ Sound t
  next : s.next = r.next
  umt : s.umt = r.umt
  amt : s.amt = r.amt
  bmt : s.bmt = r.bmt

/-- Related results. -/
inductive RR {α β : Type} (R : α → β → Prop) : Res α → Res β → Prop
  | ok {a b} (h : R a b) : RR R (.ok a) (.ok b)
  | err (m) : RR R (.err m) (.err m)
  | ub : RR R .ub .ub

theorem RR.bind {α β γ δ : Type} {R : α → β → Prop} {Q : γ → δ → Prop} {x : Res α} {y : Res β} {f : α → Res γ} {g : β → Res δ}
    (h : RR R x y) (k : ∀ a b, R a b → RR Q (f a) (g b)) : RR Q (x >>= f) (y >>= g) := by
  cases h with
  | ok h => exact k _ _ h
  | err m => exact .err m
  | ub => exact .ub

/-- The same answer and related states. -/
def OR {α : Type} (x y : α × State) : Prop := x.1 = y.1 ∧ Rel x.2 y.2

theorem Rel.tab {s r : State} (h : Rel s r) (i : Nat) : RR (fun t t' => TRel t t' ∧ Sound t) (s.tab i) (r.tab i) := by
  unfold State.tab
  rcases h.tabs i with ⟨a, b⟩ | ⟨t, t', a, b, c, d⟩
  · rw [a, b]; exact .ub
  · rw [a, b]; exact .ok ⟨c, d⟩

theorem Rel.put {s r : State} (h : Rel s r) (i : Nat) {t t' : Tab} (ht : TRel t t') (hs : Sound t) : Rel (s.put i t) (r.put i t') := by
  refine ⟨fun j => ?_, h.next, h.umt, h.amt, h.bmt⟩
  show ((if j = i then some t else s.tabs j) = none ∧ (if j = i then some t' else r.tabs j) = none) ∨ _
  by_cases e : j = i
  · exact .inr ⟨t, t', if_pos e, if_pos e, ht, hs⟩
  · rw [if_neg e, if_neg e]
    rcases h.tabs j with q | ⟨a, a', h1, h2, h3⟩
    · exact .inl q
    · exact .inr ⟨a, a', by show (if j = i then _ else _) = _; rw [if_neg e]; exact h1, by show (if j = i then _ else _) = _; rw [if_neg e]; exact h2, h3⟩

/-- Only the cache of the left state changes. -/
theorem Rel.putL {s r : State} (h : Rel s r) (i : Nat) {t u : Tab} (ht : s.tabs i = some t) (hu : TRel u t) (hs : Sound u) : Rel (s.put i u) r := by
  refine ⟨fun j => ?_, h.next, h.umt, h.amt, h.bmt⟩
  show ((if j = i then some u else s.tabs j) = none ∧ r.tabs j = none) ∨ _
  by_cases e : j = i
  · subst e
    rcases h.tabs j with q | ⟨a, a', h1, h2, h3, _⟩
    · rw [q.1] at ht; exact nomatch ht
    · rw [ht] at h1
      injection h1 with h1
      subst h1
      exact .inr ⟨u, a', if_pos rfl, h2, ⟨hu.1.trans h3.1, hu.2.trans h3.2⟩, hs⟩
  · rw [if_neg e]
    rcases h.tabs j with q | ⟨a, a', h1, h2, h3⟩
    · exact .inl q
    · exact .inr ⟨a, a', by show (if j = i then _ else _) = _; rw [if_neg e]; exact h1, h2, h3⟩

theorem tm_rel {s r : State} (h : Rel s r) (et : Option Nat) (e : Ev) : RR OR (fasttm s et e) (rawtm r et e) := by
  unfold fasttm rawtm
  cases et with
  | none => exact .ok ⟨rfl, h⟩
  | some m =>
    dsimp only
    rcases h.tabs m with ⟨a, b⟩ | ⟨t, t', a, b, c, d⟩
    · unfold State.tab; rw [a, b]; exact .ub
    · have e1 : s.tab m = .ok t := by unfold State.tab; rw [a]
      have e2 : r.tab m = .ok t' := by unfold State.tab; rw [b]
      rw [e1, e2, Res.bind_ok, Res.bind_ok, ← c.1]
      by_cases hf : t.flags e = true
      · rw [if_pos hf, if_pos (d e hf)]
        exact .ok ⟨rfl, h⟩
      · rw [if_neg hf]
        unfold gettm
        rw [e1, Res.bind_ok]
        by_cases hn : t.get (name e) = .nil
        · rw [if_pos hn, if_pos hn]
          refine .ok ⟨rfl, h.putL m a ⟨rfl, rfl⟩ (fun f hf' => ?_)⟩
          have hf' : (if f = e then true else t.flags f) = true := hf'
          show t.get (name f) = .nil
          by_cases q : f = e
          · rw [q]; exact hn
          · rw [if_neg q] at hf'; exact d f hf'
        · rw [if_neg hn, if_neg hn]
          exact .ok ⟨rfl, h⟩

theorem obj_rel {s r : State} (h : Rel s r) (v : Val) (e : Ev) : RR Eq (gettmbyobj s v e) (gettmbyobj r v e) := by
  have fin : ∀ mt : Option Nat, RR Eq (match mt with
      | none => pure Val.nil
      | some m => do
        let t ← s.tab m
        pure (t.get (name e))) (match mt with
      | none => pure Val.nil
      | some m => do
        let t ← r.tab m
        pure (t.get (name e))) := by
    intro mt
    cases mt with
    | none => exact .ok rfl
    | some m => exact (h.tab m).bind fun t t' q => .ok (by rw [q.1.1])
  unfold gettmbyobj
  cases v with
  | tab i =>
    refine (h.tab i).bind fun t t' q => ?_
    rw [q.1.2]
    exact fin _
  | arr a => rw [h.amt]; exact fin _
  | udata u => rw [h.umt]; exact fin _
  | fn n => rw [h.bmt]; exact fin _
  | nil => rw [h.bmt]; exact fin _
  | basic ty n => rw [h.bmt]; exact fin _

theorem get_rel (k : Key) : ∀ (loop : Nat) (s r : State) (t : Val), Rel s r → RR OR (finishget fasttm loop s t k) (finishget rawtm loop r t k) := by
  intro loop
  induction loop with
  | zero => intro s r t h; exact .ok ⟨rfl, h⟩
  | succ loop ih =>
    intro s r t h
    have go : ∀ (s r : State) (m : Val), Rel s r → RR OR (if m.isFn then pure (.call m, s)
        else match m with
          | .tab i => do
            let x ← s.tab i
            if x.get k = .nil then finishget fasttm loop s m k else pure (.val (x.get k), s)
          | .arr _ => .ub
          | _ => finishget fasttm loop s m k) (if m.isFn then pure (.call m, r)
        else match m with
          | .tab i => do
            let x ← r.tab i
            if x.get k = .nil then finishget rawtm loop r m k else pure (.val (x.get k), r)
          | .arr _ => .ub
          | _ => finishget rawtm loop r m k) := by
      intro s r m h
      cases m with
      | fn n => exact .ok ⟨rfl, h⟩
      | tab i =>
        refine (h.tab i).bind fun x x' q => ?_
        rw [← q.1.1]
        split
        · exact ih _ _ _ h
        · exact .ok ⟨rfl, h⟩
      | arr a => exact .ub
      | nil => exact ih _ _ _ h
      | udata u => exact ih _ _ _ h
      | basic ty n => exact ih _ _ _ h
    have obj : ∀ t : Val, RR OR (do
        let m ← gettmbyobj s t .index
        if m = .nil then pure (.error "index", s) else if m.isFn then pure (.call m, s)
        else match m with
          | .tab i => do
            let x ← s.tab i
            if x.get k = .nil then finishget fasttm loop s m k else pure (.val (x.get k), s)
          | .arr _ => .ub
          | _ => finishget fasttm loop s m k) (do
        let m ← gettmbyobj r t .index
        if m = .nil then pure (.error "index", r) else if m.isFn then pure (.call m, r)
        else match m with
          | .tab i => do
            let x ← r.tab i
            if x.get k = .nil then finishget rawtm loop r m k else pure (.val (x.get k), r)
          | .arr _ => .ub
          | _ => finishget rawtm loop r m k) := by
      intro t
      refine (obj_rel h t .index).bind fun m m' q => ?_
      subst q
      split
      · exact .ok ⟨rfl, h⟩
      · exact go s r m h
    unfold finishget
    cases t with
    | tab i =>
      refine (h.tab i).bind fun x x' q => ?_
      rw [q.1.2]
      refine (tm_rel h x'.mt .index).bind fun a b q => ?_
      obtain ⟨m, s1⟩ := a
      obtain ⟨m', r1⟩ := b
      obtain ⟨q1, q2⟩ := q
      dsimp only at q1
      subst q1
      cases m with
      | none => exact .ok ⟨rfl, q2⟩
      | some m => exact go s1 r1 m q2
    | arr a => exact .ub
    | fn n => exact obj _
    | nil => exact obj _
    | udata u => exact obj _
    | basic ty n => exact obj _

theorem store_rel {t t' : Tab} (h : TRel t t') (k : Key) (v : Val) : TRel (t.store k v) (t'.store k v) :=
  ⟨by unfold Tab.store; rw [h.1], h.2⟩

theorem sound_invalidate (t : Tab) : Sound t.invalidate := fun _ h => nomatch h

/-- Overwriting a value that is present, or writing `nil`, needs no invalidation. -/
theorem sound_store {t : Tab} (h : Sound t) {k : Key} {v : Val} (hk : t.get k ≠ .nil ∨ v = .nil ∨ ∀ e, name e ≠ k) : Sound (t.store k v) := by
  intro e he
  have := h e he
  show (if name e = k then v else t.get (name e)) = .nil
  split
  · rename_i q
    rcases hk with hk | hk | hk
    · rw [← q] at hk; exact absurd this hk
    · exact hk
    · exact absurd q (hk e)
  · exact this

theorem set_rel (k : Key) (v : Val) : ∀ (loop : Nat) (s r : State) (t : Val), Rel s r → RR OR (finishset fasttm loop s t k v) (finishset rawtm loop r t k v) := by
  intro loop
  induction loop with
  | zero => intro s r t h; exact .ok ⟨rfl, h⟩
  | succ loop ih =>
    intro s r t h
    have go : ∀ (s r : State) (m : Val), Rel s r → RR OR (if m.isFn then pure (.call m, s)
        else match m with
          | .tab i => do
            let x ← s.tab i
            if x.get k = .nil then finishset fasttm loop s m k v else pure (.done, s.put i (x.store k v))
          | .arr _ => .ub
          | _ => finishset fasttm loop s m k v) (if m.isFn then pure (.call m, r)
        else match m with
          | .tab i => do
            let x ← r.tab i
            if x.get k = .nil then finishset rawtm loop r m k v else pure (.done, r.put i (x.store k v))
          | .arr _ => .ub
          | _ => finishset rawtm loop r m k v) := by
      intro s r m h
      cases m with
      | fn n => exact .ok ⟨rfl, h⟩
      | tab i =>
        refine (h.tab i).bind fun x x' q => ?_
        rw [← q.1.1]
        split
        · exact ih _ _ _ h
        · rename_i hn
          exact .ok ⟨rfl, h.put i (store_rel q.1 k v) (sound_store q.2 (.inl hn))⟩
      | arr a => exact .ub
      | nil => exact ih _ _ _ h
      | udata u => exact ih _ _ _ h
      | basic ty n => exact ih _ _ _ h
    have obj : ∀ t : Val, RR OR (do
        let m ← gettmbyobj s t .newindex
        if m = .nil then pure (.error "index", s) else if m.isFn then pure (.call m, s)
        else match m with
          | .tab i => do
            let x ← s.tab i
            if x.get k = .nil then finishset fasttm loop s m k v else pure (.done, s.put i (x.store k v))
          | .arr _ => .ub
          | _ => finishset fasttm loop s m k v) (do
        let m ← gettmbyobj r t .newindex
        if m = .nil then pure (.error "index", r) else if m.isFn then pure (.call m, r)
        else match m with
          | .tab i => do
            let x ← r.tab i
            if x.get k = .nil then finishset rawtm loop r m k v else pure (.done, r.put i (x.store k v))
          | .arr _ => .ub
          | _ => finishset rawtm loop r m k v) := by
      intro t
      refine (obj_rel h t .newindex).bind fun m m' q => ?_
      subst q
      split
      · exact .ok ⟨rfl, h⟩
      · exact go s r m h
    unfold finishset
    cases t with
    | tab i =>
      refine (h.tab i).bind fun x x' q => ?_
      rw [q.1.2]
      refine (tm_rel h x'.mt .newindex).bind fun a b q => ?_
      obtain ⟨m, s1⟩ := a
      obtain ⟨m', r1⟩ := b
      obtain ⟨q1, q2⟩ := q
      dsimp only at q1
      subst q1
      cases m with
      | none => exact (q2.tab i).bind fun y y' p => .ok ⟨rfl, q2.put i ⟨by unfold Tab.invalidate Tab.store; rw [p.1.1], p.1.2⟩ (sound_invalidate _)⟩
      | some m => exact go s1 r1 m q2
    | arr a => exact .ub
    | fn n => exact obj _
    | nil => exact obj _
    | udata u => exact obj _
    | basic ty n => exact obj _

theorem step_rel (op : Op) {s r : State} (h : Rel s r) : RR OR (step fasttm s op) (step rawtm r op) := by
  cases op with
  | new =>
    unfold step
    rw [← h.next]
    refine .ok ⟨rfl, ?_⟩
    have := h.put s.next (t := ⟨fun _ => .nil, none, fun _ => true⟩) ⟨rfl, rfl⟩ (fun _ _ => rfl)
    exact ⟨this.tabs, rfl, h.umt, h.amt, h.bmt⟩
  | get t k =>
    unfold step gettable
    cases t with
    | tab i =>
      refine (h.tab i).bind fun x x' q => ?_
      rw [← q.1.1]
      split
      · exact get_rel k _ _ _ _ h
      · exact .ok ⟨rfl, h⟩
    | arr a => exact .ok ⟨rfl, h⟩
    | fn n => exact get_rel k _ _ _ _ h
    | nil => exact get_rel k _ _ _ _ h
    | udata u => exact get_rel k _ _ _ _ h
    | basic ty n => exact get_rel k _ _ _ _ h
  | set t k v =>
    unfold step settable
    cases t with
    | tab i =>
      refine (h.tab i).bind fun x x' q => ?_
      rw [← q.1.1]
      split
      · exact set_rel k v _ _ _ _ h
      · rename_i hn
        exact .ok ⟨rfl, h.put i (store_rel q.1 k v) (sound_store q.2 (.inl hn))⟩
    | arr a => exact .ok ⟨rfl, h⟩
    | fn n => exact set_rel k v _ _ _ _ h
    | nil => exact set_rel k v _ _ _ _ h
    | udata u => exact set_rel k v _ _ _ _ h
    | basic ty n => exact set_rel k v _ _ _ _ h
  | rawset i k v => exact (h.tab i).bind fun y y' p => .ok ⟨rfl, h.put i ⟨by unfold Tab.invalidate Tab.store; rw [p.1.1], p.1.2⟩ (sound_invalidate _)⟩
  | rawseti i n v => exact (h.tab i).bind fun y y' p => .ok ⟨rfl, h.put i (store_rel p.1 _ v) (sound_store p.2 (.inr (.inr fun e => by cases e <;> exact (nomatch ·))))⟩
  | rawsetp i n v => exact (h.tab i).bind fun y y' p => .ok ⟨rfl, h.put i (store_rel p.1 _ v) (sound_store p.2 (.inr (.inr fun e => by cases e <;> exact (nomatch ·))))⟩
  | setmt t m =>
    unfold step
    cases t with
    | tab i => exact (h.tab i).bind fun y y' p => .ok ⟨rfl, h.put i ⟨p.1.1, rfl⟩ p.2⟩
    | arr a => exact .ok ⟨rfl, h.tabs, h.next, h.umt, by dsimp only; rw [h.amt], h.bmt⟩
    | udata u => exact .ok ⟨rfl, h.tabs, h.next, by dsimp only; rw [h.umt], h.amt, h.bmt⟩
    | fn n => exact .ok ⟨rfl, h.tabs, h.next, h.umt, h.amt, by dsimp only; rw [h.bmt]⟩
    | nil => exact .ok ⟨rfl, h.tabs, h.next, h.umt, h.amt, by dsimp only; rw [h.bmt]⟩
    | basic ty n => exact .ok ⟨rfl, h.tabs, h.next, h.umt, h.amt, by dsimp only; rw [h.bmt]⟩
  | eq a b =>
    have hmeta : ∀ (s r : State) (v : Val), Rel s r → RR Eq (metaOf s v) (metaOf r v) := by
      intro s r v h
      cases v with
      | tab i => exact (h.tab i).bind fun y y' p => .ok p.1.2
      | udata u => unfold metaOf; rw [h.umt]; exact .ok rfl
      | arr a => exact .ok rfl
      | nil => exact .ok rfl
      | fn n => exact .ok rfl
      | basic ty n => exact .ok rfl
    refine (hmeta s r a h).bind fun m m' q => ?_
    subst q
    refine (tm_rel h m .eq).bind fun x y q => ?_
    obtain ⟨x, s1⟩ := x
    obtain ⟨y, r1⟩ := y
    obtain ⟨q1, q2⟩ := q
    dsimp only at q1
    subst q1
    cases x with
    | some f => exact .ok ⟨rfl, q2⟩
    | none =>
      refine (hmeta s1 r1 b q2).bind fun m m' q => ?_
      subst q
      refine (tm_rel q2 m .eq).bind fun x y q => ?_
      obtain ⟨x, s2⟩ := x
      obtain ⟨y, r2⟩ := y
      obtain ⟨q1, q2⟩ := q
      dsimp only at q1
      subst q1
      cases x with
      | some f => exact .ok ⟨rfl, q2⟩
      | none => exact .ok ⟨rfl, q2⟩
  | len i =>
    refine (h.tab i).bind fun x x' q => ?_
    rw [q.1.2]
    refine (tm_rel h x'.mt .len).bind fun x y q => ?_
    obtain ⟨x, s1⟩ := x
    obtain ⟨y, r1⟩ := y
    obtain ⟨q1, q2⟩ := q
    dsimp only at q1
    subst q1
    cases x with
    | some f => exact .ok ⟨rfl, q2⟩
    | none => exact .ok ⟨rfl, q2⟩
  | mode et =>
    refine (tm_rel h et .mode).bind fun x y q => ?_
    exact .ok ⟨by rw [q.1], q.2⟩
  | fin et =>
    refine (tm_rel h et .gc).bind fun x y q => ?_
    exact .ok ⟨by rw [q.1], q.2⟩
  | clear i k => exact (h.tab i).bind fun y y' p => .ok ⟨rfl, h.put i (store_rel p.1 _ _) (sound_store p.2 (.inr (.inl rfl)))⟩

theorem run_rel (ops : List Op) : ∀ {s r : State}, Rel s r → RR OR (run fasttm s ops) (run rawtm r ops) := by
  induction ops with
  | nil => intro s r h; exact .ok ⟨rfl, h⟩
  | cons op ops ih =>
    intro s r h
    refine (step_rel op h).bind fun x y q => ?_
    refine (ih q.2).bind fun a b p => ?_
    exact .ok ⟨by rw [q.1, p.1], p.2⟩

theorem rel_init : Rel init init := ⟨fun _ => .inl ⟨rfl, rfl⟩, rfl, rfl, rfl, rfl⟩

/-- **The cache of absent metamethods is invisible** (C37): whatever a program does, its results are those it would have without the cache,
and so are the contents of all tables. -/
theorem cache_invisible (ops : List Op) : RR OR (run fasttm init ops) (run rawtm init ops) := run_rel ops rel_init

/-- **A metamethod that is present is found** (C37), after any history: the lookup with the cache gives the raw value of the name. -/
theorem fasttm_raw (ops : List Op) (os : List Out) (s : State) (h : run fasttm init ops = .ok (os, s)) (m : Nat) (t : Tab) (ht : s.tabs m = some t) (e : Ev) :
    ∃ s', fasttm s (some m) e = .ok (if t.get (name e) = .nil then none else some (t.get (name e)), s') := by
  have hr := cache_invisible ops
  rw [h] at hr
  generalize run rawtm init ops = y at hr
  cases hr with
  | ok q =>
    rename_i b
    obtain ⟨_, q⟩ := q
    have ht2 := tm_rel q (some m) e
    rcases q.tabs m with ⟨a, _⟩ | ⟨u, u', a, b', c, d⟩
    · rw [ht] at a; exact nomatch a
    · rw [ht] at a
      injection a with a
      subst a
      unfold rawtm State.tab at ht2
      dsimp only at ht2
      rw [b', Res.bind_ok, Res.pure_eq, ← c.1] at ht2
      generalize fasttm s (some m) e = z at ht2
      cases ht2 with
      | ok p => rename_i a; obtain ⟨p1, p2⟩ := p; exact ⟨a.2, by obtain ⟨a1, a2⟩ := a; dsimp only at p1; rw [p1]⟩

/-- **The documented names** (C37): after any history, reading an absent key of a table whose metatable has a function under `"__index"` calls it;
likewise `"__newindex"` for storing an absent key, `"__len"` and `"__eq"`, and the collector finds the values of `"__mode"` and `"__gc"`. -/
theorem handlers (ops : List Op) (os : List Out) (s : State) (h : run fasttm init ops = .ok (os, s)) (a m : Nat) (x t : Tab)
    (hx : s.tabs a = some x) (hm : x.mt = some m) (ht : s.tabs m = some t) (k : Key) (hk : x.get k = .nil) (f : Nat) :
    (t.get (.str "__index") = .fn f → ∃ s', step fasttm s (.get (.tab a) k) = .ok (.call (.fn f), s')) ∧
    (t.get (.str "__newindex") = .fn f → ∀ v, ∃ s', step fasttm s (.set (.tab a) k v) = .ok (.call (.fn f), s')) ∧
    (t.get (.str "__len") = .fn f → ∃ s', step fasttm s (.len a) = .ok (.call (.fn f), s')) ∧
    (t.get (.str "__eq") = .fn f → ∀ b, ∃ s', step fasttm s (.eq (.tab a) b) = .ok (.call (.fn f), s')) ∧
    (∃ s', step fasttm s (.mode (some m)) = .ok (.val (t.get (.str "__mode")), s')) ∧
    (∃ s', step fasttm s (.fin (some m)) = .ok (.val (t.get (.str "__gc")), s')) := by
  have raw := fun e => fasttm_raw ops os s h m t ht e
  have hs : s.tab a = .ok x := by unfold State.tab; rw [hx]
  refine ⟨fun hf => ?_, fun hf v => ?_, fun hf => ?_, fun hf b => ?_, ?_, ?_⟩
  · obtain ⟨s', h1⟩ := raw .index
    rw [show name .index = .str "__index" from rfl, hf, if_neg (by simp)] at h1
    have hg : ∀ n, finishget fasttm (n + 1) s (.tab a) k = .ok (.call (.fn f), s') := fun n => by simp [finishget, hs, hm, h1, Val.isFn]
    refine ⟨s', ?_⟩
    simp only [step, gettable, hs, Res.bind_ok, hk, if_true]
    exact hg 1999
  · obtain ⟨s', h1⟩ := raw .newindex
    rw [show name .newindex = .str "__newindex" from rfl, hf, if_neg (by simp)] at h1
    have hg : ∀ n, finishset fasttm (n + 1) s (.tab a) k v = .ok (.call (.fn f), s') := fun n => by simp [finishset, hs, hm, h1, Val.isFn]
    refine ⟨s', ?_⟩
    simp only [step, settable, hs, Res.bind_ok, hk, if_true]
    exact hg 1999
  · obtain ⟨s', h1⟩ := raw .len
    rw [show name .len = .str "__len" from rfl, hf, if_neg (by simp)] at h1
    exact ⟨s', by simp [step, hs, hm, h1]⟩
  · obtain ⟨s', h1⟩ := raw .eq
    rw [show name .eq = .str "__eq" from rfl, hf, if_neg (by simp)] at h1
    exact ⟨s', by simp [step, metaOf, hs, hm, h1]⟩
  · obtain ⟨s', h1⟩ := raw .mode
    rw [show name .mode = .str "__mode" from rfl] at h1
    refine ⟨s', ?_⟩
    simp only [step, h1, Res.bind_ok, Res.pure_eq]
    split <;> simp_all
  · obtain ⟨s', h1⟩ := raw .gc
    rw [show name .gc = .str "__gc" from rfl] at h1
    refine ⟨s', ?_⟩
    simp only [step, h1, Res.bind_ok, Res.pure_eq]
    split <;> simp_all

/-- A table as its own prototype: `__index` is looked up before it is set, set, removed and set again by a raw store. -/
def sample : List Op :=
  [.new, .new, .setmt (.tab 0) (some 1), .get (.tab 0) (.str "x"), .set (.tab 1) (.str "__index") (.fn 7), .get (.tab 0) (.str "x"),
   .set (.tab 1) (.str "__index") .nil, .get (.tab 0) (.str "x"), .rawset 1 (.str "__index") (.tab 1), .rawseti 1 1 (.basic 3 5), .get (.tab 0) (.int 1), .eq (.tab 0) (.tab 1)]

example : ∃ s, run fasttm init sample = .ok ([.val (.tab 0), .val (.tab 1), .done, .val .nil, .done, .call (.fn 7), .done, .val .nil, .done, .done, .val (.basic 3 5), .done], s) :=
  ⟨_, rfl⟩

/-- `handlers` applies to the table 0 of the history with the function 7 under `"__newindex"` of its metatable. -/
example : ∃ s x t, run fasttm init [.new, .new, .setmt (.tab 0) (some 1), .set (.tab 0) (.str "y") (.fn 1), .set (.tab 1) (.str "__newindex") (.fn 7)]
      = .ok ([.val (.tab 0), .val (.tab 1), .done, .done, .done], s) ∧ s.tabs 0 = some x ∧ x.mt = some 1 ∧ s.tabs 1 = some t ∧ x.get (.str "x") = .nil
      ∧ t.get (.str "__newindex") = .fn 7 := ⟨_, _, _, rfl, rfl, rfl, rfl, rfl, rfl⟩

/-- A typed array as `__index` is accessed as if it were a table (lvm.c:236, `ttistable` holds for typed arrays): undefined. -/
theorem array_as_index : run fasttm init [.new, .new, .setmt (.tab 0) (some 1), .set (.tab 1) (.str "__index") (.arr 0), .get (.tab 0) (.int 1)] = .ub := rfl

end Verif.TmCache
