import Verif.Stat.Expr
/-! Labels, gotos and blocks. -/
namespace Verif.Stat
open Verif.ExpCode

/-- the open jumps of gotos -/
def jms (gs : List Gt) : List Nat := gs.flatMap (·.jumps)

theorem jms_cons (g : Gt) (gs : List Gt) : jms (g :: gs) = g.jumps ++ jms gs := rfl

theorem jms_append (a b : List Gt) : jms (a ++ b) = jms a ++ jms b := List.flatMap_append

/-- for each label that a goto may name: its position and the number of variables there -/
abbrev LMap := Nat → Option (Nat × Nat)

/-- the jumps `js` of a goto go to the label `l` -/
def Goes (C : List Instr) (κ : LMap) (l : Nat) (n : Nat) (js : List Nat) : Prop :=
  ∃ t, κ l = some t ∧ Tgt C js t.1 ∧ t.2 ≤ n

def Gts (C : List Instr) (κ : LMap) (gs : List Gt) : Prop := ∀ g ∈ gs, Goes C κ g.name g.nact g.jumps

def Lbs (κ : LMap) (ls : List Lab) : Prop := ∀ l ∈ ls, κ l.name = some (l.pc, l.nact)

/-- the final code `C`, with labels `κ`, agrees with the state `g` -/
structure All (C : List Instr) (κ : LMap) (g : G) : Prop where
  ok : OK C g.fs
  gts : Gts C κ g.gotos
  lbs : Lbs κ g.labels

/-- the invariant of a state, with other open jumps `X` -/
def GInv (g : G) (X : List Nat) : Prop := Inv g.fs.code (g.fs.jpc ++ (jms g.gotos ++ X))

/-- no goto is open for a label of the block, and labels are distinct -/
structure Sep (g : G) : Prop where
  gl : ∀ a ∈ g.gotos, ∀ l ∈ g.labels, a.name ≠ l.name
  nodup : (g.labels.map (·.name)).Nodup

/-- fields that do not change -/
structure Same (s s' : FS) : Prop where
  pc : s'.pc = s.pc
  k : s'.k = s.k
  nact : s'.nactvar = s.nactvar
  free : s'.freereg = s.freereg

theorem Same.refl (s : FS) : Same s s := ⟨rfl, rfl, rfl, rfl⟩

theorem Same.trans {a b c : FS} (h : Same a b) (h' : Same b c) : Same a c :=
  ⟨h'.pc.trans h.pc, h'.k.trans h.k, h'.nact.trans h.nact, h'.free.trans h.free⟩

theorem Pa.same {s s' : FS} {l : List Nat} {t : Nat} (h : Pa s s' l t) : Same s s' := ⟨h.pc, h.k, h.nact, h.free⟩

theorem closegoto_pa {s s' : FS} {g : Gt} {l : Lab} (h : closegoto s g l = .ok s') : Pa s s' g.jumps l.pc ∧ l.nact ≤ g.nact := by
  unfold closegoto at h
  split at h
  · cases h
  · cases h
    exact ⟨patchlist_pa _ _ _, by omega⟩

theorem perm3 (a b c d : List Nat) : (a ++ (b ++ (c ++ d))).Perm (a ++ (c ++ (b ++ d))) :=
  List.Perm.append_left a (by
    rw [← List.append_assoc, ← List.append_assoc]
    exact List.Perm.append_right d List.perm_append_comm)

theorem findgotos_res (l : Lab) : ∀ (gs : List Gt) {s s' : FS} {gs' : List Gt}, findgotos l s gs = .ok (s', gs') →
    Same s s' ∧ (∀ g ∈ gs', g ∈ gs ∧ g.name ≠ l.name) ∧
    ∀ X, Inv s.code (s.jpc ++ (jms gs ++ X)) → Inv s'.code (s'.jpc ++ (jms gs' ++ X)) ∧
      ∀ C, OK C s' → OK C s ∧ ∀ g ∈ gs, (g.name = l.name ∧ Tgt C g.jumps l.pc ∧ l.nact ≤ g.nact) ∨ g ∈ gs' := by
  intro gs
  induction gs with
  | nil =>
    intro s s' gs' h
    cases h
    exact ⟨Same.refl s, (fun _ h => nomatch h), fun X hX => ⟨hX, fun C hC => ⟨hC, (fun _ h => nomatch h)⟩⟩⟩
  | cons g gs ih =>
    intro s s' gs' h
    rw [findgotos] at h
    split at h
    · rename_i hn
      obtain ⟨s1, e1, h⟩ := Res.bind_eq_ok.1 h
      obtain ⟨p1, p2⟩ := closegoto_pa e1
      obtain ⟨i1, i2, i3⟩ := ih h
      refine ⟨p1.same.trans i1, fun a ha => ⟨List.mem_cons_of_mem _ (i2 a ha).1, (i2 a ha).2⟩, fun X hX => ?_⟩
      rw [jms_cons, List.append_assoc] at hX
      obtain ⟨j1, j2⟩ := i3 X (p1.inv _ hX)
      refine ⟨j1, fun C hC => ?_⟩
      obtain ⟨k1, k2⟩ := j2 C hC
      obtain ⟨k3, k4⟩ := p1.back _ hX C k1
      refine ⟨k3, fun a ha => ?_⟩
      rcases List.mem_cons.1 ha with rfl | ha
      · exact Or.inl ⟨hn, k4, p2⟩
      · exact k2 a ha
    · rename_i hn
      obtain ⟨⟨s1, gs1⟩, e1, h⟩ := Res.bind_eq_ok.1 h
      cases h
      obtain ⟨i1, i2, i3⟩ := ih e1
      refine ⟨i1, fun a ha => ?_, fun X hX => ?_⟩
      · rcases List.mem_cons.1 ha with rfl | ha
        · exact ⟨List.mem_cons_self .., hn⟩
        · exact ⟨List.mem_cons_of_mem _ (i2 a ha).1, (i2 a ha).2⟩
      · rw [jms_cons, List.append_assoc] at hX
        obtain ⟨j1, j2⟩ := i3 (g.jumps ++ X) (hX.perm (perm3 ..))
        refine ⟨?_, fun C hC => ?_⟩
        · rw [jms_cons, List.append_assoc]
          exact j1.perm (perm3 ..)
        · obtain ⟨k1, k2⟩ := j2 C hC
          refine ⟨k1, fun a ha => ?_⟩
          rcases List.mem_cons.1 ha with rfl | ha
          · exact Or.inr (List.mem_cons_self ..)
          · exact (k2 a ha).imp id (List.mem_cons_of_mem _)

theorem movegotosout_res (n : Nat) (ls : List Lab) : ∀ (gs : List Gt) {s s' : FS} {gs' : List Gt},
    movegotosout n ls s gs = .ok (s', gs') →
    Same s s' ∧ (∀ g ∈ gs', ∀ l ∈ ls, g.name ≠ l.name) ∧
    ∀ X, Inv s.code (s.jpc ++ (jms gs ++ X)) → Inv s'.code (s'.jpc ++ (jms gs' ++ X)) ∧
      ∀ C κ, OK C s' → Gts C κ gs' → Lbs κ ls → OK C s ∧ Gts C κ gs := by
  intro gs
  induction gs with
  | nil =>
    intro s s' gs' h
    cases h
    exact ⟨Same.refl s, (fun _ h => nomatch h), fun X hX => ⟨hX, fun C κ hC hg _ => ⟨hC, hg⟩⟩⟩
  | cons g gs ih =>
    intro s s' gs' h
    rw [movegotosout] at h
    dsimp only at h
    cases hf : ls.find? (·.name = g.name) with
    | some l =>
      rw [hf] at h
      dsimp only at h
      have hl := List.mem_of_find?_eq_some hf
      have hn : l.name = g.name := by simpa using List.find?_some hf
      obtain ⟨s1, e1, h⟩ := Res.bind_eq_ok.1 h
      obtain ⟨p1, p2⟩ := closegoto_pa e1
      have p2 : l.nact ≤ if g.nact > n then n else g.nact := p2
      have p1 : Pa s s1 g.jumps l.pc := p1
      obtain ⟨i1, i2, i3⟩ := ih h
      refine ⟨p1.same.trans i1, i2, fun X hX => ?_⟩
      rw [jms_cons, List.append_assoc] at hX
      obtain ⟨j1, j2⟩ := i3 X (p1.inv _ hX)
      refine ⟨j1, fun C κ hC hg hls => ?_⟩
      obtain ⟨k1, k2⟩ := j2 C κ hC hg hls
      obtain ⟨k3, k4⟩ := p1.back _ hX C k1
      refine ⟨k3, fun a ha => ?_⟩
      rcases List.mem_cons.1 ha with rfl | ha
      · refine ⟨_, by rw [← hn]; exact hls l hl, k4, ?_⟩
        split at p2 <;> dsimp only <;> omega
      · exact k2 a ha
    | none =>
      rw [hf] at h
      dsimp only at h
      obtain ⟨⟨s1, gs1⟩, e1, h⟩ := Res.bind_eq_ok.1 h
      cases h
      obtain ⟨i1, i2, i3⟩ := ih e1
      refine ⟨i1, fun a ha => ?_, fun X hX => ?_⟩
      · rcases List.mem_cons.1 ha with rfl | ha
        · intro l hl e
          exact absurd (decide_eq_true e.symm) (List.find?_eq_none.1 hf l hl)
        · exact i2 a ha
      · rw [jms_cons, List.append_assoc] at hX
        obtain ⟨j1, j2⟩ := i3 (g.jumps ++ X) (hX.perm (perm3 ..))
        refine ⟨?_, fun C κ hC hg hls => ?_⟩
        · rw [jms_cons, List.append_assoc]
          exact j1.perm (perm3 ..)
        · obtain ⟨k1, k2⟩ := j2 C κ hC (fun a ha => hg a (List.mem_cons_of_mem _ ha)) hls
          refine ⟨k1, fun a ha => ?_⟩
          rcases List.mem_cons.1 ha with rfl | ha
          · obtain ⟨t, h1, h2, h3⟩ := hg _ (List.mem_cons_self ..)
            refine ⟨t, h1, h2, ?_⟩
            have h3 : t.2 ≤ if a.nact > n then n else a.nact := h3
            split at h3 <;> omega
          · exact k2 a ha

/-- the labels of a block inside -/
def inner (ls : List Lab) (κ : LMap) : LMap := fun l =>
  match ls.find? (·.name = l) with
  | some lb => some (lb.pc, lb.nact)
  | none => κ l

theorem inner_nil (κ : LMap) : inner [] κ = κ := rfl

theorem inner_of_not {ls : List Lab} {κ : LMap} {l : Nat} (h : ∀ b ∈ ls, l ≠ b.name) : inner ls κ l = κ l := by
  unfold inner
  have : ls.find? (·.name = l) = none := List.find?_eq_none.2 (fun b hb e => h b hb (of_decide_eq_true e).symm)
  rw [this]

theorem inner_lbs {ls : List Lab} {κ : LMap} (h : (ls.map (·.name)).Nodup) : Lbs (inner ls κ) ls := by
  intro b hb
  unfold inner
  have : ls.find? (·.name = b.name) = some b := by
    clear κ
    induction ls with
    | nil => cases hb
    | cons a ls ih =>
      rw [List.map_cons] at h
      obtain ⟨h1, h2⟩ := List.nodup_cons.1 h
      rcases List.mem_cons.1 hb with rfl | hb
      · exact List.find?_cons_of_pos (decide_eq_true rfl)
      · have hne : a.name ≠ b.name := fun e => h1 (e ▸ List.mem_map_of_mem hb)
        rw [List.find?_cons_of_neg (by simpa using hne)]
        exact ih h2 hb
  rw [this]

/-- the label at the end of a loop -/
def atbrk (isloop : Bool) (t : Nat × Nat) (κ : LMap) : LMap := fun l =>
  if isloop = true ∧ l = brk then some t else κ l

theorem leave_res {isloop : Bool} {b o g' : G} (h : leave isloop b o = .ok g') (hb : Sep b) (ho : Sep o) :
    g'.nact = o.nact ∧ g'.labels = o.labels ∧ g'.fs.pc = b.fs.pc ∧ g'.fs.k = b.fs.k ∧ g'.fs.nactvar = b.nact ∧
    g'.fs.freereg = b.nact ∧ Sep g' ∧
    ∀ X, GInv b (jms o.gotos ++ X) → GInv g' X ∧
      ∀ C κ, All C κ g' → All C (inner b.labels (atbrk isloop (b.fs.pc, b.fs.nactvar) κ)) b ∧ Gts C κ o.gotos ∧ Lbs κ o.labels := by
  unfold leave at h
  obtain ⟨⟨s1, gs1⟩, e1, h⟩ := Res.bind_eq_ok.1 h
  obtain ⟨⟨s2, gs2⟩, e2, h⟩ := Res.bind_eq_ok.1 h
  cases h
  obtain ⟨m1, m2, m3⟩ := movegotosout_res _ _ _ e2
  have hbk : Same b.fs s1 ∧ (∀ g ∈ gs1, g ∈ b.gotos ∧ (isloop = true → g.name ≠ brk)) ∧
      ∀ X, Inv b.fs.code (b.fs.jpc ++ (jms b.gotos ++ X)) → Inv s1.code (s1.jpc ++ (jms gs1 ++ X)) ∧
        ∀ C, OK C s1 → OK C b.fs ∧ ∀ g ∈ b.gotos, (isloop = true ∧ g.name = brk ∧ Tgt C g.jumps b.fs.pc ∧
          b.fs.nactvar ≤ g.nact) ∨ g ∈ gs1 := by
    unfold breaklabel at e1
    split at e1
    · rename_i hil
      obtain ⟨f1, f2, f3⟩ := findgotos_res _ _ e1
      refine ⟨f1, fun g hg => ⟨(f2 g hg).1, fun _ => (f2 g hg).2⟩, fun X hX => ?_⟩
      obtain ⟨j1, j2⟩ := f3 X hX
      refine ⟨j1, fun C hC => ?_⟩
      obtain ⟨k1, k2⟩ := j2 C hC
      exact ⟨k1, fun g hg => (k2 g hg).imp (fun h => ⟨hil, h⟩) id⟩
    · rename_i hil
      cases e1
      exact ⟨Same.refl _, fun g hg => ⟨hg, fun h => absurd h hil⟩, fun X hX => ⟨hX, fun C hC => ⟨hC, fun g hg => Or.inr hg⟩⟩⟩
  obtain ⟨b1, b2, b3⟩ := hbk
  refine ⟨rfl, rfl, m1.pc.trans b1.pc, m1.k.trans b1.k, m1.nact, m1.free, ⟨?_, ho.nodup⟩, fun X hX => ?_⟩
  · intro a ha l hl
    rcases List.mem_append.1 ha with ha | ha
    · exact ho.gl a ha l hl
    · exact m2 a ha l hl
  · obtain ⟨j1, j2⟩ := b3 _ hX
    obtain ⟨k1, k2⟩ := m3 _ j1
    refine ⟨?_, fun C κ hA => ?_⟩
    · unfold GInv
      dsimp only
      rw [jms_append, List.append_assoc]
      exact k1.perm (perm3 ..)
    · obtain ⟨hC, hg, hlb⟩ := hA
      dsimp only at hC hg hlb
      obtain ⟨q1, q2⟩ := k2 C κ hC (fun a ha => hg a (List.mem_append_right _ ha)) hlb
      obtain ⟨r1, r2⟩ := j2 C q1
      refine ⟨⟨r1, ?_, inner_lbs hb.nodup⟩, fun a ha => hg a (List.mem_append_left _ ha), hlb⟩
      intro a ha
      have hin : ∀ κ', inner b.labels κ' a.name = κ' a.name := fun κ' => inner_of_not (hb.gl a ha)
      rcases r2 a ha with ⟨h1, h2, h3, h4⟩ | h1
      · refine ⟨(b.fs.pc, b.fs.nactvar), ?_, h3, h4⟩
        rw [hin]
        unfold atbrk
        rw [if_pos ⟨h1, h2⟩]
      · obtain ⟨t, t1, t2, t3⟩ := q2 a h1
        refine ⟨t, ?_, t2, t3⟩
        rw [hin]
        unfold atbrk
        rw [if_neg (fun h => (b2 a h1).2 h.1 h.2)]
        exact t1

theorem gotostat_res {l : Nat} {js : List Nat} {g g' : G} (h : gotostat l js g = .ok g') (hg : Sep g) :
    g'.nact = g.nact ∧ g'.labels = g.labels ∧ Same g.fs g'.fs ∧ Sep g' ∧
    ∀ X, GInv g (js ++ X) → GInv g' X ∧ ∀ C κ, All C κ g' → All C κ g ∧ Goes C κ l g.fs.nactvar js := by
  unfold gotostat at h
  dsimp only at h
  cases hf : g.labels.find? (·.name = l) with
  | some lb =>
    rw [hf] at h
    obtain ⟨s1, e1, h⟩ := Res.bind_eq_ok.1 h
    cases h
    have hl := List.mem_of_find?_eq_some hf
    have hn : lb.name = l := by simpa using List.find?_some hf
    obtain ⟨p1, p2⟩ := closegoto_pa e1
    have p1 : Pa g.fs s1 js lb.pc := p1
    refine ⟨rfl, rfl, p1.same, ⟨hg.gl, hg.nodup⟩, fun X hX => ?_⟩
    have hX' := hX.perm (perm3 ..)
    refine ⟨p1.inv _ hX', fun C κ hA => ?_⟩
    obtain ⟨k1, k2⟩ := p1.back _ hX' C hA.ok
    exact ⟨⟨k1, hA.gts, hA.lbs⟩, _, by rw [← hn]; exact hA.lbs lb hl, k2, p2⟩
  | none =>
    rw [hf] at h
    cases h
    refine ⟨rfl, rfl, Same.refl _, ⟨?_, hg.nodup⟩, fun X hX => ?_⟩
    · intro a ha lb hlb
      rcases List.mem_append.1 ha with ha | ha
      · exact hg.gl a ha lb hlb
      · rw [List.mem_singleton.1 ha]
        intro e
        exact absurd (decide_eq_true e.symm) (List.find?_eq_none.1 hf lb hlb)
    · refine ⟨?_, fun C κ hA => ?_⟩
      · unfold GInv
        dsimp only
        rw [jms_append, List.append_assoc]
        simp only [jms, List.flatMap_cons, List.flatMap_nil, List.append_nil]
        exact hX
      · exact ⟨⟨hA.ok, fun a ha => hA.gts a (List.mem_append_left _ ha), hA.lbs⟩,
          hA.gts _ (List.mem_append_right _ (List.mem_singleton.2 rfl))⟩

theorem labelstat_res {l : Nat} {last : Bool} {g g' : G} (h : labelstat l last g = .ok g') (hg : Sep g) :
    g'.nact = g.nact ∧ g'.labels = g.labels ++ [⟨l, if last then g.nact else g.fs.nactvar, g.fs.pc⟩] ∧ Same g.fs g'.fs ∧ Sep g' ∧
    ∀ X, GInv g X → GInv g' X ∧ ∀ C κ, All C κ g' → All C κ g := by
  unfold labelstat at h
  cases hf : g.labels.find? (·.name = l) with
  | some lb => rw [hf] at h; cases h
  | none =>
    rw [hf] at h
    dsimp only at h
    obtain ⟨⟨s1, gs1⟩, e1, h⟩ := Res.bind_eq_ok.1 h
    cases h
    obtain ⟨f1, f2, f3⟩ := findgotos_res _ _ e1
    have hnew : ∀ b ∈ g.labels, b.name ≠ l := fun b hb e => absurd (decide_eq_true e) (List.find?_eq_none.1 hf b hb)
    refine ⟨rfl, rfl, ⟨f1.pc, f1.k, f1.nact, f1.free⟩, ⟨?_, ?_⟩, fun X hX => ?_⟩
    · intro a ha lb hlb
      rcases List.mem_append.1 hlb with hlb | hlb
      · exact hg.gl a (f2 a ha).1 lb hlb
      · rw [List.mem_singleton.1 hlb]
        exact (f2 a ha).2
    · rw [List.map_append]
      refine List.nodup_append.2 ⟨hg.nodup, List.pairwise_singleton _ _, ?_⟩
      intro a ha b hb
      obtain ⟨lb, h1, rfl⟩ := List.mem_map.1 ha
      rw [List.mem_singleton.1 hb]
      exact hnew lb h1
    · obtain ⟨j1, j2⟩ := f3 X hX
      refine ⟨j1, fun C κ hA => ?_⟩
      obtain ⟨k1, k2⟩ := j2 C hA.ok
      refine ⟨k1, fun a ha => ?_, fun b hb => hA.lbs b (List.mem_append_left _ hb)⟩
      rcases k2 a ha with ⟨h1, h2, h3⟩ | h1
      · refine ⟨_, by rw [h1]; exact hA.lbs _ (List.mem_append_right _ (List.mem_singleton.2 rfl)), h2, h3⟩
      · exact hA.gts a h1

end Verif.Stat
