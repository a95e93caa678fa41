import Verif.Code.Machine
/-! Every operation keeps the invariant. -/
namespace Verif.Code

def JumpAt (c : List Nat) (j : Nat) : Prop := ∃ i, c[j]? = some i ∧ isJumpOp (getOp i) = true

/-- Only the jumps in `S` change, and they stay jumps. -/
def Frame (S c c' : List Nat) : Prop :=
  ∀ j, JumpAt c j → (j ∉ S → c'[j]? = c[j]?) ∧ JumpAt c' j

theorem Frame.of_onlyBx {S c c' : List Nat} (h : OnlyBx S c c') : Frame S c c' := by
  rintro j ⟨i, hi, ho⟩
  refine ⟨h.2.1 j, ?_⟩
  have := (h.2.2 j).1
  rw [hi] at this
  obtain ⟨i', h1, h2⟩ := Option.map_eq_some_iff.1 this
  exact ⟨i', h1, by rw [h2]; exact ho⟩

theorem Frame.of_patched {le : Bool} {S c c' : List Nat} {v d : Int} {reg : Nat}
    (h : Patched le S v reg d c c') : Frame S c c' := by
  rintro j ⟨i, hi, ho⟩
  by_cases hj : j ∈ S
  · refine ⟨fun hn => absurd hj hn, ?_⟩
    have := h.jumps j hj
    rw [hi] at this
    exact ⟨_, this, by rw [sBx_op]; exact ho⟩
  · have : c'[j]? = c[j]? := by
      apply h.rest j hj
      rintro ⟨_, hv⟩
      have h2 := hv.2
      simp only [Nat.add_sub_cancel, hi, Option.map_some] at h2
      injection h2 with h2
      rw [h2] at ho; revert ho; decide
    exact ⟨fun _ => this, i, by rw [this]; exact hi, ho⟩

theorem Frame.append (c : List Nat) (i : Nat) : Frame [] c (c ++ [i]) := by
  rintro j ⟨k, hk, ho⟩
  have hlt := (List.getElem?_eq_some_iff.1 hk).1
  have : (c ++ [i])[j]? = c[j]? := List.getElem?_append_left hlt
  exact ⟨fun _ => this, k, by rw [this]; exact hk, ho⟩

theorem Frame.trans {S T c c' c'' : List Nat} (h1 : Frame S c c') (h2 : Frame T c' c'')
    (hT : ∀ j ∈ T, j ∈ S) : Frame S c c'' := by
  intro j hj
  have ⟨a1, b1⟩ := h1 j hj
  have ⟨a2, b2⟩ := h2 j b1
  exact ⟨fun hn => by rw [a2 (fun h => hn (hT j h)), a1 hn], b2⟩

theorem Frame.chain {S c c' : List Nat} {l : Int} {js : List Nat} (h : Frame S c c')
    (hj : ∀ j ∈ js, JumpAt c j) (hS : ∀ j ∈ js, j ∉ S) (hc : Chain c l js) : Chain c' l js :=
  chain_congr (fun j hm => getjump_congr (by rw [(h j (hj j hm)).1 (hS j hm)])) hc

theorem Frame.dest {S c c' : List Nat} {j : Nat} (h : Frame S c c') (hj : JumpAt c j)
    (hS : j ∉ S) : dest c' j = dest c j := by
  unfold Code.dest; rw [(h j hj).1 hS]

theorem flatten_take {ls : List (List Nat)} {a : Nat} (h : a < ls.length) :
    ls.flatten.Perm (ls.getD a [] ++ (ls.set a []).flatten) := by
  induction ls generalizing a with
  | nil => simp at h
  | cons l ls ih =>
    cases a with
    | zero => simp
    | succ a =>
      have := ih (a := a) (by simpa using h)
      simp only [List.flatten_cons, List.getD_cons_succ, List.set_cons_succ]
      refine (List.Perm.append_left l this).trans ?_
      rw [← List.append_assoc, ← List.append_assoc]
      exact List.Perm.append_right _ List.perm_append_comm

theorem flatten_move {ls : List (List Nat)} {a b : Nat} (ha : a < ls.length) (hb : b < ls.length)
    (hab : a ≠ b) :
    ((ls.set a (ls.getD a [] ++ ls.getD b [])).set b []).flatten.Perm ls.flatten := by
  have h1 := flatten_take (ls := ls.set a (ls.getD a [] ++ ls.getD b [])) (a := b) (by simpa using hb)
  have h2 := flatten_take (ls := ls.set a (ls.getD a [] ++ ls.getD b [])) (a := a) (by simpa using ha)
  have h3 := flatten_take (ls := ls) ha
  have e1 : (ls.set a (ls.getD a [] ++ ls.getD b [])).getD b [] = ls.getD b [] := by
    simp [List.getD_eq_getElem?_getD, List.getElem?_set_ne hab]
  have e2 : (ls.set a (ls.getD a [] ++ ls.getD b [])).getD a [] = ls.getD a [] ++ ls.getD b [] := by
    simp [List.getD_eq_getElem?_getD, ha]
  rw [e1] at h1
  rw [e2, List.set_set] at h2
  have h4 := h1.symm.trans h2
  refine (List.perm_append_left_iff (ls.getD b [])).1 (h4.trans ?_)
  refine (List.Perm.append_right _ List.perm_append_comm).trans ?_
  rw [List.append_assoc]
  exact List.Perm.append_left _ h3.symm

theorem nodup_parts {g : Ghost} (h : g.all.Nodup) :
    g.pend.Nodup ∧ g.ls.flatten.Nodup ∧ (g.done.map (·.1)).Nodup ∧
    (∀ x ∈ g.pend, ∀ y ∈ g.ls.flatten, x ≠ y) ∧
    (∀ x ∈ g.pend, ∀ y ∈ g.done.map (·.1), x ≠ y) ∧
    (∀ x ∈ g.ls.flatten, ∀ y ∈ g.done.map (·.1), x ≠ y) := by
  unfold Ghost.all at h
  have ⟨h1, h2, h3⟩ := List.nodup_append.1 h
  have ⟨h4, h5, h6⟩ := List.nodup_append.1 h1
  exact ⟨h4, h5, h2, h6, fun x hx y hy => h3 x (by simp [hx]) y hy,
    fun x hx y hy => h3 x (List.mem_append_right _ hx) y hy⟩

theorem mem_flatten_getD {ls : List (List Nat)} {a j : Nat} (h : j ∈ ls.getD a []) :
    j ∈ ls.flatten := by
  by_cases ha : a < ls.length
  · rw [List.getD_eq_getElem?_getD, List.getElem?_eq_getElem ha] at h
    exact List.mem_flatten.2 ⟨ls[a], List.getElem_mem ha, by simpa using h⟩
  · rw [List.getD_eq_getElem?_getD, List.getElem?_eq_none (by omega)] at h; simp at h

theorem disjoint_lists {ls : List (List Nat)} (h : ls.flatten.Nodup) {a b : Nat} (hab : a ≠ b)
    (ha : a < ls.length) : ∀ x ∈ ls.getD a [], ∀ y ∈ ls.getD b [], x ≠ y := by
  have h1 := ((flatten_take ha).nodup_iff).1 h
  intro x hx y hy
  refine (List.nodup_append.1 h1).2.2 x hx y ?_
  have : (ls.set a []).getD b [] = ls.getD b [] := by
    simp [List.getD_eq_getElem?_getD, List.getElem?_set_ne hab]
  exact mem_flatten_getD (this ▸ hy)

theorem nodup_getD {ls : List (List Nat)} (h : ls.flatten.Nodup) (a : Nat) :
    (ls.getD a []).Nodup := by
  by_cases ha : a < ls.length
  · exact (List.nodup_append.1 (((flatten_take ha).nodup_iff).1 h)).1
  · rw [List.getD_eq_getElem?_getD, List.getElem?_eq_none (by omega)]; simp

/-- Emitting an instruction. -/
theorem emit_inv (le : Bool) {st : St} {g : Ghost} (h : Inv st g) (i : Nat)
    (hn : st.fs.code.length ≤ 32768) :
    ∃ c, code le st.fs i = .ok (⟨c, NO_JUMP, st.fs.lasttarget⟩, (st.fs.code.length : Int)) ∧
      Inv ⟨⟨c, NO_JUMP, st.fs.lasttarget⟩, st.hs⟩ (g.emitted st.fs.code.length) ∧
      c.length = st.fs.code.length + 1 ∧ c[st.fs.code.length]? = some i := by
  have ⟨np, nl, nd, d1, d2, d3⟩ := nodup_parts h.nodup
  have hb : ∀ j ∈ g.pend, (st.fs.pc - ((j : Int) + 1)).natAbs ≤ 32768 := by
    intro j hj; have := h.lt (mem_pend hj); unfold FS.pc; omega
  obtain ⟨c1, he, hP⟩ := patchlistaux_spec le st.fs.pc NO_REG st.fs.pc (f := st.fs.code.length + 1)
    h.pend np (fun j hj => h.notTest (mem_pend hj))
    (by have := nodup_len np (fun j hj => h.lt (mem_pend hj)); omega) hb hb
  have hF : Frame g.pend st.fs.code (c1 ++ [i]) :=
    (Frame.of_patched hP).trans (Frame.append _ _) (by simp)
  have hlen : (c1 ++ [i]).length = st.fs.code.length + 1 := by simp [hP.len]
  refine ⟨c1 ++ [i], ?_, ?_, hlen, ?_⟩
  · unfold code dischargejpc
    rw [he]
    simp only [Res.bind_ok, Res.pure_eq, FS.pc, hP.len]
  · have hall : ∀ j, j ∈ (g.emitted st.fs.code.length).all ↔ j ∈ g.all := by
      intro j
      simp only [Ghost.all, Ghost.emitted, List.nil_append, List.map_append, List.map_map,
        List.mem_append, Function.comp_def, List.map_id']
      constructor
      · rintro (h | h | h) <;> simp [h]
      · rintro ((h | h) | h) <;> simp [h]
    refine ⟨rfl, h.len, ?_, ?_, ?_, ?_, by simp [Ghost.emitted]⟩
    · intro a ha
      refine hF.chain (fun j hj => h.isJ j (mem_ls hj)) ?_ (h.lists a ha)
      intro j hj hp
      exact d1 j hp j (mem_flatten_getD hj) rfl
    · have : (g.emitted st.fs.code.length).all.Perm g.all := by
        simp only [Ghost.all, Ghost.emitted, List.nil_append, List.map_append, List.map_map,
          Function.comp_def, List.map_id']
        rw [← List.append_assoc]
        refine List.perm_append_comm.trans ?_
        rw [← List.append_assoc]
      exact (this.nodup_iff).2 h.nodup
    · intro j hj
      exact (hF j (h.isJ j ((hall j).1 hj))).2
    · intro p hp
      simp only [Ghost.emitted, List.mem_append, List.mem_map] at hp
      rcases hp with hp | ⟨j, hj, rfl⟩
      · show dest (c1 ++ [i]) p.1 = _
        rw [hF.dest (h.isJ _ (mem_done hp)) (fun hh => d2 _ hh p.1 (List.mem_map.2 ⟨p, hp, rfl⟩) rfl)]
        exact h.done p hp
      · show dest (c1 ++ [i]) j = _
        have hlt := h.lt (mem_pend hj)
        have hlt1 : j < c1.length := by rw [hP.len]; exact hlt
        unfold dest
        rw [List.getElem?_append_left hlt1, hP.jumps j hj, List.getElem?_eq_getElem hlt]
        simp only [Option.map_some]
        have : (if valued st.fs.code j then st.fs.pc else st.fs.pc) = st.fs.pc := by split <;> rfl
        rw [this, sBx_get le _ (by unfold FS.pc; omega) (by unfold FS.pc; omega)]
        congr 1; unfold FS.pc; omega
  · rw [← hP.len]; simp

/-- Emitting a jump that starts a list. -/
theorem emitJ_inv (le : Bool) {st : St} {g : Ghost} (h : Inv st g) {o a : Nat}
    (ho : isJumpOp o = true) (ha : a ≤ MAXARG_A) (hn : st.fs.code.length ≤ 32768) :
    ∃ c, codeAsBx le st.fs o a NO_JUMP =
        .ok (⟨c, NO_JUMP, st.fs.lasttarget⟩, (st.fs.code.length : Int)) ∧
      Inv ⟨⟨c, NO_JUMP, st.fs.lasttarget⟩, st.hs ++ [(st.fs.code.length : Int)]⟩
        { g.emitted st.fs.code.length with ls := g.ls ++ [[st.fs.code.length]] } ∧
      c.length = st.fs.code.length + 1 := by
  obtain ⟨c, he, hI, hlen, hat⟩ := emit_inv le h
    (createABx o a ((NO_JUMP + MAXARG_sBx) % 4294967296).toNat) hn
  refine ⟨c, he, ?_, hlen⟩
  have ho' : o < 256 := by
    revert ho; unfold isJumpOp; simp; omega
  have hx : ((NO_JUMP + MAXARG_sBx) % 4294967296).toNat = 32767 := by decide
  rw [hx] at hat
  have hget := createABx_get o a 32767 (by omega) ha (by decide)
  have hnew : JumpAt c st.fs.code.length := ⟨_, hat, by rw [hget.1]; exact ho⟩
  have hnotin : st.fs.code.length ∉ (g.emitted st.fs.code.length).all := by
    intro hm
    have : st.fs.code.length ∈ g.all := by
      simp only [Ghost.all, Ghost.emitted, List.nil_append, List.map_append, List.map_map,
        List.mem_append, Function.comp_def, List.map_id'] at hm ⊢
      rcases hm with h | h | h <;> simp [h]
    exact absurd (h.lt this) (by omega)
  have hperm : ({ g.emitted st.fs.code.length with ls := g.ls ++ [[st.fs.code.length]] } : Ghost).all.Perm
      (st.fs.code.length :: (g.emitted st.fs.code.length).all) := by
    simp only [Ghost.all, Ghost.emitted, List.nil_append, List.flatten_append, List.flatten_cons,
      List.flatten_nil, List.append_nil, List.append_assoc, List.singleton_append]
    exact List.perm_middle
  refine ⟨hI.pend, by simp [hI.len, Ghost.emitted], ?_, ?_, ?_, hI.done, hI.last⟩
  · intro b hb
    simp only [List.length_append, List.length_cons, List.length_nil] at hb
    have hl : st.hs.length = g.ls.length := h.len
    by_cases hb' : b < st.hs.length
    · have := hI.lists b hb'
      simp only [List.getD_eq_getElem?_getD, List.getElem?_append_left hb',
        List.getElem?_append_left (hl ▸ hb' : b < g.ls.length)]
      simpa only [List.getD_eq_getElem?_getD, Ghost.emitted] using this
    · have : b = st.hs.length := by omega
      subst this
      simp only [List.getD_eq_getElem?_getD, List.getElem?_append_right (Nat.le_refl _),
        Nat.sub_self]
      rw [hl, List.getElem?_append_right (Nat.le_refl _), Nat.sub_self]
      refine ⟨rfl, NO_JUMP, ?_, rfl⟩
      rw [getjump_some hat, if_pos]
      unfold getsBx; rw [hget.2.2.1]; decide
  · rw [hperm.nodup_iff, List.nodup_cons]
    exact ⟨hnotin, hI.nodup⟩
  · intro j hj
    rcases List.mem_cons.1 (hperm.mem_iff.1 hj) with rfl | hj
    · exact hnew
    · exact hI.isJ j hj

theorem getD_set_self {α : Type} {l : List α} {a : Nat} {x d : α} (h : a < l.length) :
    (l.set a x).getD a d = x := by simp [List.getD_eq_getElem?_getD, h]
theorem getD_set_ne {α : Type} {l : List α} {a b : Nat} {x d : α} (h : a ≠ b) :
    (l.set a x).getD b d = l.getD b d := by
  simp [List.getD_eq_getElem?_getD, List.getElem?_set_ne h]

theorem concat_inv (le : Bool) {st : St} {g : Ghost} (h : Inv st g) {a b : Nat}
    (ha : a < st.hs.length) (hb : b < st.hs.length) (hab : a ≠ b)
    (hn : st.fs.code.length ≤ 32768) :
    ∃ c l, concat le st.fs.code (st.hs.getD a NO_JUMP) (st.hs.getD b NO_JUMP) = .ok (c, l) ∧
      Inv ⟨{ st.fs with code := c }, (st.hs.set a l).set b NO_JUMP⟩
        { g with ls := (g.ls.set a (g.ls.getD a [] ++ g.ls.getD b [])).set b [] } ∧
      c.length = st.fs.code.length := by
  have ⟨np, nl, nd, d1, d2, d3⟩ := nodup_parts h.nodup
  have hla : a < g.ls.length := h.len ▸ ha
  have hlb : b < g.ls.length := h.len ▸ hb
  obtain ⟨c, l, he, hch, hO⟩ := concat_chain le (h.lists a ha) (h.lists b hb)
    (List.nodup_append.2 ⟨nodup_getD nl a, nodup_getD nl b, disjoint_lists nl hab hla⟩)
    (fun j hj k hk => by have := h.lt (mem_ls hj); have := h.lt (mem_ls hk); omega)
  have hF := Frame.of_onlyBx hO
  have hpf := flatten_move hla hlb hab
  have hperm : ({ g with ls := (g.ls.set a (g.ls.getD a [] ++ g.ls.getD b [])).set b [] } :
      Ghost).all.Perm g.all := by
    unfold Ghost.all
    exact List.Perm.append_right _ (List.Perm.append_left _ hpf)
  refine ⟨c, l, he, ⟨?_, ?_, ?_, ?_, ?_, ?_, ?_⟩, hO.1⟩
  · refine hF.chain (fun j hj => h.isJ j (mem_pend hj)) ?_ h.pend
    intro j hj hp
    exact d1 j hj j (mem_flatten_getD hp) rfl
  · simp [h.len]
  · intro m hm
    simp only [List.length_set] at hm
    by_cases hmb : m = b
    · subst hmb
      rw [getD_set_self (by simpa using hb), getD_set_self (by simpa using hlb)]
      exact rfl
    · rw [getD_set_ne (Ne.symm hmb), getD_set_ne (Ne.symm hmb)]
      by_cases hma : m = a
      · subst hma
        rw [getD_set_self ha, getD_set_self hla]
        exact hch
      · rw [getD_set_ne (Ne.symm hma), getD_set_ne (Ne.symm hma)]
        refine hF.chain (fun j hj => h.isJ j (mem_ls hj)) ?_ (h.lists m hm)
        intro j hj hp
        exact disjoint_lists nl (Ne.symm hma) hla j hp j hj rfl
  · exact (hperm.nodup_iff).2 h.nodup
  · intro j hj
    exact (hF j (h.isJ j (hperm.mem_iff.1 hj))).2
  · intro p hp
    show dest c p.1 = _
    rw [hF.dest (h.isJ _ (mem_done hp))
      (fun hh => d3 _ (mem_flatten_getD hh) p.1 (List.mem_map.2 ⟨p, hp, rfl⟩) rfl)]
    exact h.done p hp
  · intro hp
    show st.fs.lasttarget = _
    rw [h.last hp]; simp [hO.1]

theorem patchHere_inv (le : Bool) {st : St} {g : Ghost} (h : Inv st g) {a : Nat}
    (ha : a < st.hs.length) (hn : st.fs.code.length ≤ 32768) :
    ∃ fs, patchtohere le st.fs (st.hs.getD a NO_JUMP) = .ok fs ∧
      Inv ⟨fs, st.hs.set a NO_JUMP⟩
        { g with pend := g.pend ++ g.ls.getD a [], ls := g.ls.set a [] } ∧
      fs.code.length = st.fs.code.length := by
  have ⟨np, nl, nd, d1, d2, d3⟩ := nodup_parts h.nodup
  have hla : a < g.ls.length := h.len ▸ ha
  obtain ⟨c, l, he, hch, hO⟩ := concat_chain le h.pend (h.lists a ha)
    (List.nodup_append.2 ⟨np, nodup_getD nl a, fun x hx y hy => d1 x hx y (mem_flatten_getD hy)⟩)
    (fun j hj k hk => by have := h.lt (mem_pend hj); have := h.lt (mem_ls hk); omega)
  have hF := Frame.of_onlyBx hO
  have hperm : ({ g with pend := g.pend ++ g.ls.getD a [], ls := g.ls.set a [] } :
      Ghost).all.Perm g.all := by
    unfold Ghost.all
    refine List.Perm.append_right _ ?_
    rw [List.append_assoc]
    exact List.Perm.append_left _ (flatten_take hla).symm
  refine ⟨⟨c, l, st.fs.code.length⟩, ?_, ⟨hch, by simp [h.len], ?_, ?_, ?_, ?_, ?_⟩, hO.1⟩
  · unfold patchtohere getlabel
    dsimp only
    rw [he]; rfl
  · intro m hm
    simp only [List.length_set] at hm
    by_cases hma : m = a
    · subst hma
      rw [getD_set_self ha, getD_set_self hla]; exact rfl
    · rw [getD_set_ne (Ne.symm hma), getD_set_ne (Ne.symm hma)]
      refine hF.chain (fun j hj => h.isJ j (mem_ls hj)) ?_ (h.lists m hm)
      intro j hj hp
      exact d1 j hp j (mem_flatten_getD hj) rfl
  · exact (hperm.nodup_iff).2 h.nodup
  · intro j hj
    exact (hF j (h.isJ j (hperm.mem_iff.1 hj))).2
  · intro p hp
    show dest c p.1 = _
    rw [hF.dest (h.isJ _ (mem_done hp))
      (fun hh => d2 _ hh p.1 (List.mem_map.2 ⟨p, hp, rfl⟩) rfl)]
    exact h.done p hp
  · intro _
    show (st.fs.code.length : Int) = _
    simp [hO.1]

theorem patch_inv (le : Bool) {st : St} {g : Ghost} (h : Inv st g) {a t : Nat}
    (ha : a < st.hs.length) (ht : t < st.fs.code.length) (hn : st.fs.code.length ≤ 32768) :
    ∃ fs, patchlist le st.fs (st.hs.getD a NO_JUMP) t = .ok fs ∧
      Inv ⟨fs, st.hs.set a NO_JUMP⟩
        { g with done := g.done ++ (g.ls.getD a []).map (fun j => (j, t)), ls := g.ls.set a [] } ∧
      fs.code.length = st.fs.code.length := by
  have ⟨np, nl, nd, d1, d2, d3⟩ := nodup_parts h.nodup
  have hla : a < g.ls.length := h.len ▸ ha
  have hb : ∀ j ∈ g.ls.getD a [], ((t : Int) - ((j : Int) + 1)).natAbs ≤ 32768 := by
    intro j hj; have := h.lt (mem_ls hj); omega
  obtain ⟨c, he, hP⟩ := patchlistaux_spec le t NO_REG t (f := st.fs.code.length + 1)
    (h.lists a ha) (nodup_getD nl a) (fun j hj => h.notTest (mem_ls hj))
    (by have := nodup_len (nodup_getD nl a) (fun j hj => h.lt (mem_ls hj)); omega) hb hb
  have hF := Frame.of_patched hP
  have hperm : (⟨g.pend, g.ls.set a [], g.done ++ (g.ls.getD a []).map (fun j => (j, t))⟩ :
      Ghost).all.Perm g.all := by
    simp only [Ghost.all, List.map_append, List.map_map, Function.comp_def, List.map_id',
      List.append_assoc]
    refine List.Perm.append_left _ ?_
    have h1 := flatten_take hla
    refine (List.Perm.trans ?_ (List.Perm.append_right _ h1.symm))
    rw [← List.append_assoc]
    refine List.perm_append_comm.trans ?_
    rw [List.append_assoc]
  refine ⟨{ st.fs with code := c }, ?_, ⟨?_, by simp [h.len], ?_, ?_, ?_, ?_, ?_⟩, hP.len⟩
  · unfold patchlist
    rw [if_neg (by unfold FS.pc; omega), he]; rfl
  · refine hF.chain (fun j hj => h.isJ j (mem_pend hj)) ?_ h.pend
    intro j hj hp
    exact d1 j hj j (mem_flatten_getD hp) rfl
  · intro m hm
    simp only [List.length_set] at hm
    by_cases hma : m = a
    · subst hma
      rw [getD_set_self ha, getD_set_self hla]; exact rfl
    · rw [getD_set_ne (Ne.symm hma), getD_set_ne (Ne.symm hma)]
      refine hF.chain (fun j hj => h.isJ j (mem_ls hj)) ?_ (h.lists m hm)
      intro j hj hp
      exact disjoint_lists nl (Ne.symm hma) hla j hp j hj rfl
  · exact (hperm.nodup_iff).2 h.nodup
  · intro j hj
    exact (hF j (h.isJ j (hperm.mem_iff.1 hj))).2
  · intro p hp
    simp only [List.mem_append, List.mem_map] at hp
    show dest c p.1 = _
    rcases hp with hp | ⟨j, hj, rfl⟩
    · rw [hF.dest (h.isJ _ (mem_done hp))
        (fun hh => d3 _ (mem_flatten_getD hh) p.1 (List.mem_map.2 ⟨p, hp, rfl⟩) rfl)]
      exact h.done p hp
    · have hlt := h.lt (mem_ls hj)
      unfold dest
      rw [hP.jumps j hj, List.getElem?_eq_getElem hlt]
      simp only [Option.map_some, ite_self]
      rw [sBx_get le _ (by omega) (by omega)]
      congr 1; omega
  · intro hp
    show st.fs.lasttarget = _
    rw [h.last hp]; simp [hP.len]

theorem append_getD_left {α : Type} {l m : List α} {b : Nat} {d : α} (h : b < l.length) :
    (l ++ m).getD b d = l.getD b d := by
  simp only [List.getD_eq_getElem?_getD, List.getElem?_append_left h]

theorem append_getD_last {α : Type} {l : List α} {x d : α} :
    (l ++ [x]).getD l.length d = x := by
  simp [List.getD_eq_getElem?_getD]

/-- `luaK_jump`: the pending jumps join the list of the new jump. -/
theorem jump_inv (le : Bool) {st : St} {g : Ghost} (h : Inv st g)
    (hn : st.fs.code.length + 1 ≤ 32768) :
    ∃ fs j, jump le st.fs = .ok (fs, j) ∧
      Inv ⟨fs, st.hs ++ [j]⟩
        { g with pend := [], ls := g.ls ++ [st.fs.code.length :: g.pend] } ∧
      fs.code.length = st.fs.code.length + 1 := by
  have hl := h.len
  -- the pending list is first held as one more list
  have h0 : Inv ⟨{ st.fs with jpc := NO_JUMP }, st.hs ++ [st.fs.jpc]⟩
      ⟨[], g.ls ++ [g.pend], g.done⟩ := by
    have hperm : (⟨[], g.ls ++ [g.pend], g.done⟩ : Ghost).all.Perm g.all := by
      simp only [Ghost.all, List.nil_append, List.flatten_append, List.flatten_cons,
        List.flatten_nil, List.append_nil]
      exact List.Perm.append_right _ List.perm_append_comm
    refine ⟨rfl, by simp [hl], ?_, (hperm.nodup_iff).2 h.nodup,
      fun j hj => h.isJ j (hperm.mem_iff.1 hj), h.done, by simp⟩
    intro b hb
    simp only [List.length_append, List.length_cons, List.length_nil] at hb
    by_cases hb' : b < st.hs.length
    · rw [append_getD_left hb', append_getD_left (hl ▸ hb')]
      exact h.lists b hb'
    · have : b = st.hs.length := by omega
      subst this
      have e : (g.ls ++ [g.pend]).getD st.hs.length [] = g.pend := by rw [hl]; exact append_getD_last
      rw [append_getD_last, e]
      exact h.pend
  obtain ⟨c1, he1, hI1, hlen1⟩ := emitJ_inv le h0 (o := OP_JMP) (a := 0) (by decide)
    (by decide) (by show st.fs.code.length ≤ _; omega)
  simp only [Ghost.emitted, List.map_nil, List.append_nil] at he1 hI1
  obtain ⟨c2, l, he2, hI2, hlen2⟩ := concat_inv le hI1 (a := st.hs.length + 1) (b := st.hs.length)
    (by simp) (by simp) (by omega) (by show c1.length ≤ _; rw [hlen1]; exact hn)
  have ea : (st.hs ++ [st.fs.jpc] ++ [(st.fs.code.length : Int)]).getD (st.hs.length + 1) NO_JUMP
      = (st.fs.code.length : Int) := by
    simp
  have eb : (st.hs ++ [st.fs.jpc] ++ [(st.fs.code.length : Int)]).getD st.hs.length NO_JUMP
      = st.fs.jpc := by
    rw [append_getD_left (by simp)]; exact append_getD_last
  rw [ea, eb] at he2
  have ga : (g.ls ++ [g.pend] ++ [[st.fs.code.length]]).getD (st.hs.length + 1) []
      = [st.fs.code.length] := by
    rw [hl]; simp
  have gb : (g.ls ++ [g.pend] ++ [[st.fs.code.length]]).getD st.hs.length [] = g.pend := by
    rw [hl, append_getD_left (by simp)]; exact append_getD_last
  dsimp only at hI2
  rw [ga, gb] at hI2
  have es : (((st.hs ++ [st.fs.jpc] ++ [(st.fs.code.length : Int)]).set (st.hs.length + 1) l).set
      st.hs.length NO_JUMP) = st.hs ++ [NO_JUMP, l] := by
    simp
  have gs : (((g.ls ++ [g.pend] ++ [[st.fs.code.length]]).set (st.hs.length + 1)
      ([st.fs.code.length] ++ g.pend)).set st.hs.length []) =
      g.ls ++ [[], st.fs.code.length :: g.pend] := by
    rw [hl]; simp
  rw [es, gs] at hI2
  refine ⟨⟨c2, NO_JUMP, st.fs.lasttarget⟩, l, ?_, ?_, ?_⟩
  · unfold jump
    dsimp only
    rw [he1]
    simp only [Res.bind_ok]
    rw [he2]; rfl
  · have hall : (⟨[], g.ls ++ [[], st.fs.code.length :: g.pend], g.done⟩ : Ghost).all =
        (⟨[], g.ls ++ [st.fs.code.length :: g.pend], g.done⟩ : Ghost).all := by
      simp [Ghost.all]
    refine ⟨hI2.pend, by simp [hl], ?_, hall ▸ hI2.nodup,
      fun j hj => hI2.isJ j (by rw [hall]; exact hj), hI2.done, by simp⟩
    intro b hb
    simp only [List.length_append, List.length_cons, List.length_nil] at hb
    by_cases hb' : b < st.hs.length
    · have := hI2.lists b (by simp; omega)
      rw [append_getD_left hb', append_getD_left (hl ▸ hb')] at this
      rw [append_getD_left hb', append_getD_left (hl ▸ hb')]
      exact this
    · have : b = st.hs.length := by omega
      subst this
      have := hI2.lists (st.hs.length + 1) (by simp)
      have e1 : (st.hs ++ [NO_JUMP, l]).getD (st.hs.length + 1) NO_JUMP = l := by
        simp [List.getD_eq_getElem?_getD]
      have e2 : (g.ls ++ [[], st.fs.code.length :: g.pend]).getD (st.hs.length + 1) [] =
          st.fs.code.length :: g.pend := by
        rw [hl]; simp [List.getD_eq_getElem?_getD]
      rw [e1, e2] at this
      have e3 : (g.ls ++ [st.fs.code.length :: g.pend]).getD st.hs.length [] =
          st.fs.code.length :: g.pend := by rw [hl]; exact append_getD_last
      rw [append_getD_last, e3]
      exact this
  · show c2.length = _
    rw [hlen2]; exact hlen1

theorem nilMerge_some {le : Bool} {fs : FS} {frm n : Nat} {c : List Nat}
    (h : nilMerge le fs frm n = some c) : fs.pc > fs.lasttarget ∧
      ∃ pre p p', fs.code = pre ++ [p] ∧ c = pre ++ [p'] ∧ getOp p = OP_LOADNIL := by
  unfold nilMerge at h
  split at h
  case isFalse => simp at h
  case isTrue hgt =>
    refine ⟨hgt, ?_⟩
    split at h
    case h_1 => simp at h
    case h_2 p hp =>
      dsimp only at h
      split at h
      case isFalse => simp at h
      case isTrue hop =>
        split at h
        case isFalse => simp at h
        case isTrue =>
          injection h with h
          have hne : fs.code ≠ [] := by rintro he; rw [he] at hp; simp at hp
          have hlast : fs.code.getLast hne = p := by
            rw [List.getLast?_eq_some_getLast hne] at hp; injection hp
          refine ⟨fs.code.dropLast, p, _, ?_, h.symm, hop⟩
          rw [← hlast, List.dropLast_concat_getLast]

/-- `luaK_nil`. -/
theorem nil_inv (le : Bool) {st : St} {g : Ghost} (h : Inv st g) (frm k : Nat)
    (hn : st.fs.code.length ≤ 32768) :
    ∃ fs, nil le st.fs frm k = .ok fs ∧
      Inv ⟨fs, st.hs⟩
        (if fs.code.length = st.fs.code.length then g else g.emitted st.fs.code.length) ∧
      fs.code.length ≤ st.fs.code.length + 1 := by
  unfold nil
  cases hm : nilMerge le st.fs frm k with
  | none =>
    obtain ⟨c, he, hI, hlen, _⟩ := emit_inv le h (createABC OP_LOADNIL frm (k - 1) 0) hn
    refine ⟨⟨c, NO_JUMP, st.fs.lasttarget⟩, ?_, ?_, ?_⟩
    · dsimp only; unfold codeABC; rw [he]; rfl
    · rw [if_neg (by show c.length ≠ _; omega)]; exact hI
    · show c.length ≤ _; omega
  | some c =>
    obtain ⟨hgt, pre, p, p', h1, h2, hop⟩ := nilMerge_some hm
    have hlen : c.length = st.fs.code.length := by rw [h1, h2]; simp
    have hF : Frame [] st.fs.code c := by
      rintro j ⟨i, hi, ho⟩
      have : c[j]? = st.fs.code[j]? := by
        rw [h1] at hi ⊢
        rw [h2]
        have hjl := (List.getElem?_eq_some_iff.1 hi).1
        by_cases hj : j < pre.length
        · rw [List.getElem?_append_left hj, List.getElem?_append_left hj]
        · have : j = pre.length := by simp at hjl; omega
          subst this
          simp at hi
          subst hi
          exact absurd hop (jumpOp_ne_nil ho)
      exact ⟨fun _ => this, i, by rw [this]; exact hi, ho⟩
    refine ⟨{ st.fs with code := c }, rfl, ?_, by show c.length ≤ _; omega⟩
    rw [if_pos hlen]
    refine ⟨hF.chain (fun j hj => h.isJ j (mem_pend hj)) (by simp) h.pend, h.len, ?_, h.nodup,
      fun j hj => (hF j (h.isJ j hj)).2, ?_, ?_⟩
    · intro a ha
      exact hF.chain (fun j hj => h.isJ j (mem_ls hj)) (by simp) (h.lists a ha)
    · intro q hq
      show dest c q.1 = _
      rw [hF.dest (h.isJ _ (mem_done hq)) (by simp)]
      exact h.done q hq
    · intro hp
      show st.fs.lasttarget = (c.length : Int)
      rw [h.last hp, hlen]

/-- One operation: no error, no undefined behaviour, at most one more instruction. -/
theorem step_inv (le : Bool) (op : Op) {st : St} {g : Ghost} (h : Inv st g)
    (hn : st.fs.code.length + 1 ≤ 32768) :
    ∃ st' g', step le op (st, g) = .ok (st', g') ∧ Inv st' g' ∧
      st'.fs.code.length ≤ st.fs.code.length + 1 := by
  have hn' : st.fs.code.length ≤ 32768 := by omega
  cases op with
  | emit i =>
    obtain ⟨c, he, hI, hlen, _⟩ := emit_inv le h i hn'
    refine ⟨_, _, ?_, hI, by show c.length ≤ _; omega⟩
    unfold step; dsimp only; rw [he]; rfl
  | emitJ o a =>
    by_cases hc : isJumpOp o = true ∧ a ≤ MAXARG_A
    · obtain ⟨c, he, hI, hlen⟩ := emitJ_inv le h hc.1 hc.2 hn'
      refine ⟨_, _, ?_, hI, by show c.length ≤ _; omega⟩
      unfold step; dsimp only; rw [if_pos hc, he]; rfl
    · exact ⟨st, g, by unfold step; dsimp only; rw [if_neg hc]; rfl, h, by omega⟩
  | jump =>
    obtain ⟨fs, j, he, hI, hlen⟩ := jump_inv le h hn
    refine ⟨_, _, ?_, hI, by show fs.code.length ≤ _; omega⟩
    unfold step; dsimp only; rw [he]; rfl
  | concat a b =>
    by_cases hc : a < st.hs.length ∧ b < st.hs.length ∧ a ≠ b
    · obtain ⟨c, l, he, hI, hlen⟩ := concat_inv le h hc.1 hc.2.1 hc.2.2 hn'
      refine ⟨_, _, ?_, hI, by show c.length ≤ _; omega⟩
      unfold step; dsimp only; rw [if_pos hc, he]; rfl
    · exact ⟨st, g, by unfold step; dsimp only; rw [if_neg hc]; rfl, h, by omega⟩
  | patch a t =>
    by_cases hc : a < st.hs.length ∧ t ≤ st.fs.code.length
    · by_cases ht : t = st.fs.code.length
      · obtain ⟨fs, he, hI, hlen⟩ := patchHere_inv le h hc.1 hn'
        refine ⟨_, _, ?_, hI, by show fs.code.length ≤ _; omega⟩
        unfold step; dsimp only; rw [if_pos hc, if_pos ht]
        unfold patchlist; rw [if_pos (by unfold FS.pc; omega), he]; rfl
      · obtain ⟨fs, he, hI, hlen⟩ := patch_inv le h hc.1 (t := t) (by omega) hn'
        refine ⟨_, _, ?_, hI, by show fs.code.length ≤ _; omega⟩
        unfold step; dsimp only; rw [if_pos hc, if_neg ht, he]; rfl
    · exact ⟨st, g, by unfold step; dsimp only; rw [if_neg hc]; rfl, h, by omega⟩
  | patchHere a =>
    by_cases hc : a < st.hs.length
    · obtain ⟨fs, he, hI, hlen⟩ := patchHere_inv le h hc hn'
      refine ⟨_, _, ?_, hI, by show fs.code.length ≤ _; omega⟩
      unfold step; dsimp only; rw [if_pos hc, he]; rfl
    · exact ⟨st, g, by unfold step; dsimp only; rw [if_neg hc]; rfl, h, by omega⟩
  | label =>
    refine ⟨_, _, rfl, ⟨h.pend, h.len, h.lists, h.nodup, h.isJ, h.done, fun _ => rfl⟩, ?_⟩
    show st.fs.code.length ≤ _; omega
  | nil frm k =>
    obtain ⟨fs, he, hI, hlen⟩ := nil_inv le h frm k hn'
    refine ⟨_, _, ?_, hI, hlen⟩
    unfold step; dsimp only; rw [he]; rfl

theorem run_inv (le : Bool) (ops : List Op) {st : St} {g : Ghost} (h : Inv st g)
    (hn : st.fs.code.length + ops.length ≤ 32768) :
    ∃ st' g', run le ops (st, g) = .ok (st', g') ∧ Inv st' g' := by
  induction ops generalizing st g with
  | nil => exact ⟨st, g, rfl, h⟩
  | cons op ops ih =>
    simp only [List.length_cons] at hn
    obtain ⟨st1, g1, he, hI, hl⟩ := step_inv le op h (by omega)
    obtain ⟨st2, g2, he2, hI2⟩ := ih hI (by omega)
    exact ⟨st2, g2, by unfold run; rw [he]; exact he2, hI2⟩

theorem init_inv : Inv init.1 init.2 :=
  ⟨rfl, rfl, by intro a ha; simp [init] at ha, by simp [init, Ghost.all],
    by simp [init, Ghost.all], by simp [init], by simp [init]⟩

end Verif.Code
