import Verif.Scope.Model
/-! The parser's state and the scopes of the program. -/
namespace Verif.Scope

/-- the variable that a descriptor of an upvalue names in the enclosing function -/
def Up.var (u : Up) : Var := if u.instack then .loc u.idx else .upv u.idx

/-- blocks -/
def Blk (cap : List Nat) : List Block → List (List Decl) → Prop
  | [], [] => True
  | b :: bs, l :: ls => b.nactvar = ls.flatten.length ∧ (b.upval = true ↔ ∃ d ∈ l, d.id ∈ cap) ∧ Blk cap bs ls
  | _, _ => False

/-- the upvalues of a function are the variables that their names stand for -/
def Ups (cap : List Nat) (pre : List Decl) (fs : List FS) (as : List AF) (us : List Up) : Prop :=
  ∀ u ∈ us, ∃ d, look u.name as = some d ∧ denotes pre fs u.var = some d ∧ d ∈ cap

/-- functions -/
def Rel (cap : List Nat) : List Decl → List FS → List AF → Prop
  | act, [], [] => act = []
  | act, f :: fs, a :: as =>
    ∃ pre, act = pre ++ (a.vis.reverse ++ a.pending) ∧ f.firstlocal = pre.length ∧ f.nactvar = a.vis.length ∧
      Blk cap f.bls a.blocks ∧ (a.blocks ≠ [] ∧ ∀ d ∈ a.pending, d.id ∉ cap) ∧ Ups cap pre fs as f.ups ∧ (as = [] → ∃ u ∈ f.ups, u.name = env) ∧
      Rel cap pre fs as
  | _, _, _ => False

/-! ### denotation -/

theorem denotes_append (cap : List Nat) : ∀ (fs : List FS) (as : List AF) (act x : List Decl) (v : Var),
    Rel cap act fs as → denotes (act ++ x) fs v = denotes act fs v := by
  intro fs
  induction fs with
  | nil => intro as act x v h; cases v <;> rfl
  | cons f fs ih =>
    intro as act x v h
    cases as with
    | nil => exact h.elim
    | cons a as =>
      obtain ⟨pre, h1, h2, h3, h4, h5, h6, h7, h8⟩ := h
      cases v with
      | void => rfl
      | loc r =>
        simp only [denotes]
        split
        · rename_i hr
          rw [List.getElem?_append_left]
          rw [h1]; simp; omega
        · rfl
      | upv i =>
        simp only [denotes]
        cases hu : f.ups[i]? with
        | none => rfl
        | some u =>
          dsimp only
          rw [h1, List.append_assoc, ih as pre _ _ h8, ih as pre _ _ h8]

/-- functions that have got more upvalues -/
def Ext : List FS → List FS → Prop
  | [], [] => True
  | f :: fs, g :: gs => f.firstlocal = g.firstlocal ∧ f.nactvar = g.nactvar ∧ (∃ x, g.ups = f.ups ++ x) ∧ Ext fs gs
  | _, _ => False

theorem Ext.refl : ∀ fs, Ext fs fs
  | [] => True.intro
  | _ :: fs => ⟨rfl, rfl, ⟨[], by simp⟩, Ext.refl fs⟩

theorem denotes_ext : ∀ {fs gs : List FS} (_ : Ext fs gs) (act : List Decl) (v : Var) (d : Nat),
    denotes act fs v = some d → denotes act gs v = some d := by
  intro fs
  induction fs with
  | nil =>
    intro gs h act v d hd
    cases gs with
    | nil => exact hd
    | cons g gs => exact h.elim
  | cons f fs ih =>
    intro gs h act v d hd
    cases gs with
    | nil => exact h.elim
    | cons g gs =>
      obtain ⟨h1, h2, ⟨x, h3⟩, h4⟩ := h
      cases v with
      | void => cases hd
      | loc r => simp only [denotes] at hd ⊢; rw [← h1, ← h2]; exact hd
      | upv i =>
        simp only [denotes] at hd ⊢
        cases hu : f.ups[i]? with
        | none => rw [hu] at hd; cases hd
        | some u =>
          rw [hu] at hd
          have : g.ups[i]? = some u := by
            rw [h3, List.getElem?_append_left (List.getElem?_eq_some_iff.1 hu).1]; exact hu
          rw [this]
          exact ih h4 act _ d hd

/-! ### searching -/

theorem find_reverse_mem {l : List Decl} {n : Nat} {d : Decl} (h : l.find? (·.name = n) = some d) : d ∈ l ∧ d.name = n :=
  ⟨List.mem_of_find?_eq_some h, by simpa using List.find?_some h⟩

/-- `searchvar` in a list given from its end -/
theorem searchvar_spec (n : Nat) (pre post : List Decl) : ∀ l : List Decl,
    (∀ d, l.find? (·.name = n) = some d → ∃ r, searchvar (pre ++ (l.reverse ++ post)) pre.length n l.length = some r ∧
      r < l.length ∧ l.reverse[r]? = some d) ∧
    (l.find? (·.name = n) = none → searchvar (pre ++ (l.reverse ++ post)) pre.length n l.length = none) := by
  intro l
  induction l generalizing post with
  | nil => exact ⟨(fun d h => nomatch h), fun _ => rfl⟩
  | cons x l ih =>
    have hget : (pre ++ ((x :: l).reverse ++ post))[pre.length + l.length]? = some x := by
      rw [List.getElem?_append_right (by omega)]
      simp
    have hre : pre ++ ((x :: l).reverse ++ post) = pre ++ (l.reverse ++ (x :: post)) := by simp
    constructor
    · intro d hd
      by_cases hx : x.name = n
      · rw [List.find?_cons_of_pos (by simpa using hx)] at hd
        cases hd
        refine ⟨l.length, ?_, by simp, by simp⟩
        simp only [List.length_cons, searchvar, hget, hx, if_true]
      · rw [List.find?_cons_of_neg (by simpa using hx)] at hd
        obtain ⟨r, h1, h2, h3⟩ := (ih (x :: post)).1 d hd
        refine ⟨r, ?_, by simp; omega, ?_⟩
        · simp only [List.length_cons, searchvar, hget, hx, if_false]
          rw [hre]; exact h1
        · rw [List.reverse_cons, List.getElem?_append_left (by simpa using h2)]; exact h3
    · intro hd
      by_cases hx : x.name = n
      · rw [List.find?_cons_of_pos (by simpa using hx)] at hd
        cases hd
      · rw [List.find?_cons_of_neg (by simpa using hx)] at hd
        simp only [List.length_cons, searchvar, hget, hx, if_false]
        rw [hre]; exact (ih (x :: post)).2 hd

theorem searchupvalue_spec (n : Nat) : ∀ us : List Up,
    (∀ i, searchupvalue n us = some i → ∃ u, us[i]? = some u ∧ u.name = n) ∧
    (searchupvalue n us = none → ∀ u ∈ us, u.name ≠ n) := by
  intro us
  induction us with
  | nil => exact ⟨(fun i h => nomatch h), (fun _ u h => nomatch h)⟩
  | cons x us ih =>
    constructor
    · intro i h
      simp only [searchupvalue] at h
      split at h
      · rename_i hx; cases h; exact ⟨x, rfl, hx⟩
      · cases hs : searchupvalue n us with
        | none => rw [hs] at h; cases h
        | some j =>
          rw [hs] at h; cases h
          obtain ⟨u, h1, h2⟩ := ih.1 j hs
          exact ⟨u, by simpa using h1, h2⟩
    · intro h u hu
      simp only [searchupvalue] at h
      split at h
      · cases h
      · rename_i hx
        cases hs : searchupvalue n us with
        | some j => rw [hs] at h; cases h
        | none =>
          rcases List.mem_cons.1 hu with rfl | hu
          · exact hx
          · exact ih.2 hs u hu

/-! ### marks -/

theorem Blk.congr {cap cap' : List Nat} : ∀ {bs : List Block} {ls : List (List Decl)},
    (∀ d ∈ ls.flatten, (d.id ∈ cap ↔ d.id ∈ cap')) → Blk cap bs ls → Blk cap' bs ls := by
  intro bs
  induction bs with
  | nil => intro ls h hb; cases ls with | nil => trivial | cons => exact hb.elim
  | cons b bs ih =>
    intro ls h hb
    cases ls with
    | nil => exact hb.elim
    | cons l ls =>
      obtain ⟨h1, h2, h3⟩ := hb
      refine ⟨h1, ?_, ih (fun d hd => h d (by simp only [List.flatten_cons, List.mem_append]; exact Or.inr hd)) h3⟩
      rw [h2]
      constructor
      · rintro ⟨d, hd, hc⟩
        exact ⟨d, hd, (h d (by simp only [List.flatten_cons, List.mem_append]; exact Or.inl hd)).1 hc⟩
      · rintro ⟨d, hd, hc⟩
        exact ⟨d, hd, (h d (by simp only [List.flatten_cons, List.mem_append]; exact Or.inl hd)).2 hc⟩

theorem Blk.length {cap : List Nat} : ∀ {bs : List Block} {ls : List (List Decl)}, Blk cap bs ls → bs.length = ls.length := by
  intro bs
  induction bs with
  | nil => intro ls hb; cases ls with | nil => rfl | cons => exact hb.elim
  | cons b bs ih =>
    intro ls hb
    cases ls with
    | nil => exact hb.elim
    | cons l ls => simp [ih hb.2.2]

theorem markupval_spec {cap : List Nat} {d : Decl} : ∀ {bs : List Block} {ls : List (List Decl)} {r : Nat},
    Blk cap bs ls → ls.flatten.reverse[r]? = some d → (ls.flatten.map Decl.id).Nodup →
    ∃ bs', markupval r bs = .ok bs' ∧ Blk (d.id :: cap) bs' ls := by
  intro bs
  induction bs with
  | nil =>
    intro ls r hb hr
    cases ls with
    | nil => simp at hr
    | cons => exact hb.elim
  | cons b bs ih =>
    intro ls r hb hr hn
    cases ls with
    | nil => exact hb.elim
    | cons l ls =>
      obtain ⟨h1, h2, h3⟩ := hb
      simp only [List.flatten_cons, List.map_append] at hn
      obtain ⟨hn1, hn2, hn3⟩ := List.nodup_append.1 hn
      have hout : ∀ x ∈ l, ∀ y ∈ ls.flatten, x.id ≠ y.id := fun x hx y hy =>
        hn3 _ (List.mem_map_of_mem hx) _ (List.mem_map_of_mem hy)
      simp only [markupval]
      rw [List.flatten_cons, List.reverse_append] at hr
      by_cases hlt : b.nactvar > r
      · rw [List.getElem?_append_left (by simp only [List.length_reverse]; omega)] at hr
        obtain ⟨bs', e1, e2⟩ := ih h3 hr hn2
        rw [if_pos hlt, e1]
        refine ⟨_, rfl, h1, ?_, e2⟩
        rw [h2]
        have hd : d ∈ ls.flatten := List.mem_reverse.1 (List.mem_of_getElem? hr)
        constructor
        · rintro ⟨x, hx, hc⟩; exact ⟨x, hx, List.mem_cons_of_mem _ hc⟩
        · rintro ⟨x, hx, hc⟩
          rcases List.mem_cons.1 hc with hc | hc
          · exact absurd hc (hout x hx d hd)
          · exact ⟨x, hx, hc⟩
      · rw [List.getElem?_append_right (by simp only [List.length_reverse]; omega)] at hr
        have hd : d ∈ l := List.mem_reverse.1 (List.mem_of_getElem? hr)
        rw [if_neg hlt]
        refine ⟨_, rfl, h1, ?_, ?_⟩
        · simp only [true_iff]
          exact ⟨d, hd, List.mem_cons_self ..⟩
        · refine Blk.congr ?_ h3
          intro x hx
          constructor
          · exact List.mem_cons_of_mem _
          · intro hc
            rcases List.mem_cons.1 hc with hc | hc
            · exact absurd hc.symm (hout d hd x hx)
            · exact hc

/-! ### `singlevaraux` -/

theorem Rel.congr {cap cap' : List Nat} : ∀ {fs : List FS} {as : List AF} {act : List Decl},
    (∀ d ∈ act, (d.id ∈ cap ↔ d.id ∈ cap')) → (∀ x ∈ cap, x ∈ cap') → Rel cap act fs as → Rel cap' act fs as := by
  intro fs
  induction fs with
  | nil => intro as act h _ hr; cases as with | nil => exact hr | cons => exact hr.elim
  | cons f fs ih =>
    intro as act h hm hr
    cases as with
    | nil => exact hr.elim
    | cons a as =>
      obtain ⟨pre, h1, h2, h3, h4, h5, h6, h7, h8⟩ := hr
      refine ⟨pre, h1, h2, h3, ?_, ⟨h5.1, fun d hd hc => h5.2 d hd ((h d (by
        rw [h1]; exact List.mem_append_right _ (List.mem_append_right _ hd))).2 hc)⟩, ?_, h7, ih (fun d hd => h d (by rw [h1]; exact List.mem_append_left _ hd)) hm h8⟩
      · refine Blk.congr ?_ h4
        intro d hd
        exact h d (by rw [h1]; exact List.mem_append_right _ (List.mem_append_left _ (List.mem_reverse.2 hd)))
      · intro u hu
        obtain ⟨d, e1, e2, e3⟩ := h6 u hu
        exact ⟨d, e1, e2, hm d e3⟩

theorem look_mem {cap : List Nat} {n d : Nat} : ∀ {fs : List FS} {as : List AF} {act : List Decl},
    Rel cap act fs as → look n as = some d → d = 0 ∨ ∃ x ∈ act, x.id = d := by
  intro fs
  induction fs with
  | nil =>
    intro as act hr h
    cases as with
    | nil =>
      simp only [look] at h
      split at h
      · cases h; exact Or.inl rfl
      · cases h
    | cons => exact hr.elim
  | cons f fs ih =>
    intro as act hr h
    cases as with
    | nil => exact hr.elim
    | cons a as =>
      obtain ⟨pre, h1, h2, h3, h4, h5, h6, h7, h8⟩ := hr
      simp only [look] at h
      cases hf : a.vis.find? (·.name = n) with
      | some x =>
        rw [hf] at h
        cases h
        refine Or.inr ⟨x, ?_, rfl⟩
        rw [h1]
        exact List.mem_append_right _ (List.mem_append_left _ (List.mem_reverse.2 (find_reverse_mem hf).1))
      | none =>
        rw [hf] at h
        rcases ih h8 h with h | ⟨x, hx, hd⟩
        · exact Or.inl h
        · exact Or.inr ⟨x, by rw [h1]; exact List.mem_append_left _ hx, hd⟩

/-- the variables captured after a use -/
def after (base : Bool) (n : Nat) (as : List AF) (cap : List Nat) : List Nat :=
  match (if base then captures n as else look n as) with
  | some d => d :: cap
  | none => cap

theorem singlevaraux_spec (n : Nat) : ∀ (fs : List FS) (as : List AF) (act x : List Decl) (cap : List Nat) (base : Bool),
    Rel cap act fs as → ((act ++ x).map Decl.id).Nodup → (∀ d ∈ act, d.id ≠ 0) → 0 ∈ cap → (fs ≠ [] ∨ n ≠ env) →
    (look n as = none → singlevaraux (act ++ x) n fs base = .ok (fs, .void)) ∧
    (∀ d, look n as = some d →
      (∃ fs' v, singlevaraux (act ++ x) n fs base = .ok (fs', v) ∧ v ≠ .void ∧ Rel (after base n as cap) act fs' as ∧
        denotes act fs' v = some d ∧ Ext fs fs' ∧
        ((∃ r, v = .loc r) ↔ ∃ a as', as = a :: as' ∧ (a.vis.find? (·.name = n)).isSome = true)) ∨
      (singlevaraux (act ++ x) n fs base = .err "too many upvalues" ∧ ∃ f ∈ fs, 125 ≤ f.ups.length)) := by
  intro fs
  induction fs with
  | nil =>
    intro as act x cap base hr _ _ _ hne
    cases as with
    | cons => exact hr.elim
    | nil =>
      have : n ≠ env := by simpa using hne
      refine ⟨fun _ => rfl, fun d hd => ?_⟩
      simp only [look, this, if_false] at hd
      cases hd
  | cons f fs ih =>
    intro as act x cap base hr hnd h0 hc0 _
    cases as with
    | nil => exact hr.elim
    | cons a as =>
      have hr' := hr
      obtain ⟨pre, h1, h2, h3, h4, h5, h6, h7, h8⟩ := hr
      have hsv := searchvar_spec n pre (a.pending ++ x) a.vis
      have hact : act ++ x = pre ++ (a.vis.reverse ++ (a.pending ++ x)) := by rw [h1]; simp
      have hndv : (a.vis.map Decl.id).Nodup := by
        rw [hact, List.map_append, List.map_append] at hnd
        have := (List.nodup_append.1 (List.nodup_append.1 hnd).2.1).1
        rw [List.map_reverse] at this
        exact (List.pairwise_reverse.1 this).imp Ne.symm
      -- the variables of this function are not among those outside
      have hout : ∀ d, (d = 0 ∨ ∃ y ∈ pre, y.id = d) → ∀ z ∈ a.vis.reverse ++ a.pending, z.id ≠ d := by
        intro d hd z hz
        have hz' : z ∈ a.vis.reverse ++ (a.pending ++ x) := by
          rw [← List.append_assoc]; exact List.mem_append_left _ hz
        rcases hd with rfl | ⟨y, hy, rfl⟩
        · exact h0 z (by rw [h1]; exact List.mem_append_right _ hz)
        · rw [hact, List.map_append] at hnd
          exact ((List.nodup_append.1 hnd).2.2 _ (List.mem_map_of_mem hy) _ (List.mem_map_of_mem hz')).symm
      simp only [singlevaraux, h2, h3]
      rw [hact]
      cases hf : a.vis.find? (·.name = n) with
      | some d0 =>
        obtain ⟨r, e1, e2, e3⟩ := hsv.1 d0 hf
        have hlook : look n (a :: as) = some d0.id := by simp [look, hf]
        rw [e1]
        refine ⟨(fun h => by rw [hlook] at h; cases h), fun d hd => Or.inl ?_⟩
        rw [hlook] at hd
        cases hd
        have hden : ∀ f' : FS, f'.firstlocal = pre.length → f'.nactvar = a.vis.length → ∀ fs', denotes act (f' :: fs') (.loc r) = some d0.id := by
          intro f' q1 q2 fs'
          simp only [denotes, q1, q2, e2, if_true]
          rw [h1, List.getElem?_append_right (by omega), List.getElem?_append_left (by simp; omega)]
          simp only [Nat.add_sub_cancel_left, e3, Option.map_some]
        have hcase : ((∃ r', Var.loc r = .loc r') ↔ ∃ a' as', a :: as = a' :: as' ∧ (a'.vis.find? (·.name = n)).isSome = true) :=
          ⟨fun _ => ⟨a, as, rfl, by rw [hf]; rfl⟩, fun _ => ⟨r, rfl⟩⟩
        cases base with
        | true =>
          refine ⟨f :: fs, .loc r, rfl, (fun e => nomatch e), ?_, hden f h2 h3 fs, Ext.refl _, hcase⟩
          have : after true n (a :: as) cap = cap := by simp [after, captures, hf]
          rw [this]; exact hr'
        | false =>
          have hafter : after false n (a :: as) cap = d0.id :: cap := by simp [after, hlook]
          obtain ⟨bs', m1, m2⟩ := markupval_spec h4 (d := d0) (r := r) e3 hndv
          simp only [Bool.false_eq_true, if_false, m1]
          refine ⟨_, _, rfl, (fun e => nomatch e), ?_, hden _ rfl rfl _, ⟨h2, h3, ⟨[], by simp⟩, Ext.refl _⟩, hcase⟩
          rw [hafter]
          refine ⟨pre, h1, rfl, rfl, m2, ⟨h5.1, ?_⟩, ?_, h7, ?_⟩
          · intro z hz hc
            rcases List.mem_cons.1 hc with hc | hc
            · rw [hact, List.map_append, List.map_append] at hnd
              exact (List.nodup_append.1 (List.nodup_append.1 hnd).2.1).2.2 _
                (List.mem_map_of_mem (List.mem_reverse.2 (find_reverse_mem hf).1)) _
                (List.mem_map_of_mem (List.mem_append_left _ hz)) hc.symm
            · exact h5.2 z hz hc
          · intro u hu
            obtain ⟨d, q1, q2, q3⟩ := h6 u hu
            exact ⟨d, q1, q2, List.mem_cons_of_mem _ q3⟩
          · refine Rel.congr ?_ (fun _ => List.mem_cons_of_mem _) h8
            intro y hy
            constructor
            · exact List.mem_cons_of_mem _
            · intro hc
              rcases List.mem_cons.1 hc with hc | hc
              · exact absurd hc.symm (hout y.id (Or.inr ⟨y, hy, rfl⟩) d0
                  (List.mem_append_left _ (List.mem_reverse.2 (find_reverse_mem hf).1)))
              · exact hc
      | none =>
        rw [hsv.2 hf]
        have hlook : look n (a :: as) = look n as := by simp [look, hf]
        have hcap : captures n (a :: as) = look n as := by simp [captures, hf]
        have hafter : ∀ b, after b n (a :: as) cap = after false n as cap := by
          intro b; cases b <;> simp [after, hlook, hcap]
        rw [hlook, hafter]
        have hcase : ∀ i, ((∃ r', Var.upv i = .loc r') ↔ ∃ a' as', a :: as = a' :: as' ∧ (a'.vis.find? (·.name = n)).isSome = true) := by
          intro i
          constructor
          · rintro ⟨r, h⟩; cases h
          · rintro ⟨a', as', h, h'⟩; cases h; rw [hf] at h'; cases h'
        cases hu : searchupvalue n f.ups with
        | some i =>
          obtain ⟨u, u1, u2⟩ := (searchupvalue_spec n f.ups).1 i hu
          obtain ⟨d, q1, q2, q3⟩ := h6 u (List.mem_of_getElem? u1)
          rw [u2] at q1
          refine ⟨(fun h => by rw [q1] at h; cases h), fun d' hd => Or.inl ?_⟩
          rw [q1] at hd
          cases hd
          refine ⟨f :: fs, .upv i, rfl, (fun e => nomatch e), ?_, ?_, Ext.refl _, hcase i⟩
          · have : after false n as cap = d :: cap := by simp [after, q1]
            rw [this]
            refine Rel.congr ?_ (fun _ => List.mem_cons_of_mem _) hr'
            intro y hy
            constructor
            · exact List.mem_cons_of_mem _
            · intro hc
              rcases List.mem_cons.1 hc with hc | hc
              · rw [hc]; exact q3
              · exact hc
          · simp only [denotes, u1]
            rw [h1]
            have := denotes_append cap fs as pre (a.vis.reverse ++ a.pending) u.var h8
            rw [q2] at this
            exact this
        | none =>
          have hne : fs ≠ [] ∨ n ≠ env := by
            by_cases hfs : fs = []
            · right
              rintro rfl
              subst hfs
              cases as with
              | cons => exact h8.elim
              | nil =>
                obtain ⟨u, q1, q2⟩ := h7 rfl
                exact (searchupvalue_spec env f.ups).2 hu u q1 q2
            · exact Or.inl hfs
          have hpre : ∀ d ∈ pre, d.id ≠ 0 := fun d hd => h0 d (by rw [h1]; exact List.mem_append_left _ hd)
          rw [hact] at hnd
          obtain ⟨i1, i2⟩ := ih as pre (a.vis.reverse ++ (a.pending ++ x)) cap false h8 hnd hpre hc0 hne
          constructor
          · intro hl
            rw [i1 hl]
          · intro d hd
            rcases i2 d hd with ⟨fs', v, j1, j2, j3, j4, j5, _⟩ | ⟨j1, j2⟩
            · rw [j1]
              have hafter' : after false n as cap = d :: cap := by simp [after, hd]
              have hnew : ∀ u : Up, u.name = n → u.var = v →
                  Rel (after false n as cap) act ({ f with ups := f.ups ++ [u] } :: fs') (a :: as) ∧
                  denotes act ({ f with ups := f.ups ++ [u] } :: fs') (.upv f.ups.length) = some d ∧
                  Ext (f :: fs) ({ f with ups := f.ups ++ [u] } :: fs') := by
                intro u un uv
                refine ⟨⟨pre, h1, h2, h3, ?_, ⟨h5.1, ?_⟩, ?_, ?_, j3⟩, ?_, rfl, rfl, ⟨[u], rfl⟩, j5⟩
                · rw [hafter']
                  refine Blk.congr ?_ h4
                  intro y hy
                  constructor
                  · exact List.mem_cons_of_mem _
                  · intro hc
                    rcases List.mem_cons.1 hc with hc | hc
                    · exact absurd hc (hout d (look_mem h8 hd) y (List.mem_append_left _ (List.mem_reverse.2 hy)))
                    · exact hc
                · rw [hafter']
                  intro z hz hc
                  rcases List.mem_cons.1 hc with hc | hc
                  · exact absurd hc (hout d (look_mem h8 hd) z (List.mem_append_right _ hz))
                  · exact h5.2 z hz hc
                · intro w hw
                  rcases List.mem_append.1 hw with hw | hw
                  · obtain ⟨e, q1, q2, q3⟩ := h6 w hw
                    exact ⟨e, q1, denotes_ext j5 _ _ _ q2, by rw [hafter']; exact List.mem_cons_of_mem _ q3⟩
                  · rw [List.mem_singleton.1 hw, un, uv]
                    exact ⟨d, hd, j4, by rw [hafter']; exact List.mem_cons_self ..⟩
                · intro has
                  obtain ⟨w, q1, q2⟩ := h7 has
                  exact ⟨w, List.mem_append_left _ q1, q2⟩
                · simp only [denotes, List.getElem?_concat_length]
                  rw [h1]
                  have := denotes_append _ fs' as pre (a.vis.reverse ++ a.pending) u.var j3
                  rw [uv, j4] at this
                  show denotes _ fs' u.var = _
                  rw [uv]
                  exact this
              cases v with
              | void => exact absurd rfl j2
              | loc r =>
                simp only [newupvalue]
                by_cases hlim : 125 < f.ups.length + 1
                · rw [if_pos hlim]
                  exact Or.inr ⟨rfl, f, List.mem_cons_self .., by omega⟩
                · rw [if_neg hlim]
                  obtain ⟨k1, k2, k3⟩ := hnew ⟨true, r, n⟩ rfl rfl
                  exact Or.inl ⟨_, _, rfl, (fun e => nomatch e), k1, k2, k3, hcase _⟩
              | upv i =>
                simp only [newupvalue]
                by_cases hlim : 125 < f.ups.length + 1
                · rw [if_pos hlim]
                  exact Or.inr ⟨rfl, f, List.mem_cons_self .., by omega⟩
                · rw [if_neg hlim]
                  obtain ⟨k1, k2, k3⟩ := hnew ⟨false, i, n⟩ rfl rfl
                  exact Or.inl ⟨_, _, rfl, (fun e => nomatch e), k1, k2, k3, hcase _⟩
            · rw [j1]
              obtain ⟨g, g1, g2⟩ := j2
              exact Or.inr ⟨rfl, g, List.mem_cons_of_mem _ g1, g2⟩

end Verif.Scope
