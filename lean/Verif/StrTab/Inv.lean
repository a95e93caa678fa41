import Verif.StrTab.Model
/-!
Invariant of the string table and its preservation.
-/
namespace Verif.StrTab

theorem hashLoop_ok (str : Bytes) (step : Nat) : ∀ (l : Nat) (h : BitVec 32), l ≤ str.length → ∃ r, hashLoop str step l h = .ok r := by
  intro l
  induction l using Nat.strongRecOn with
  | ind l ih =>
    intro h hl
    rw [hashLoop]
    split
    · rename_i hs
      have : l - 1 < str.length := by omega
      rw [List.getElem?_eq_getElem this]
      exact ih (l - step) (by omega) _ (by omega)
    · exact ⟨_, rfl⟩

/-- the hash function never reads outside the string -/
theorem hash_ok (str : Bytes) (seed : BitVec 32) : ∃ h, hash str seed = .ok h := hashLoop_ok str _ _ _ (Nat.le_refl _)

theorem lmod_lt (h : BitVec 32) {size : Nat} (hs : 0 < size) : lmod h size < size := by
  have : h.toNat &&& (size - 1) ≤ size - 1 := Nat.and_le_right
  unfold lmod; omega

/-- `x` is in bucket `j` -/
def At (b : List (List Nat)) (j x : Nat) : Prop := ∃ l, b[j]? = some l ∧ x ∈ l

theorem mem_flatten_iff (b : List (List Nat)) (x : Nat) : x ∈ b.flatten ↔ ∃ j, At b j x := by
  rw [List.mem_flatten]
  constructor
  · rintro ⟨l, h1, h2⟩
    obtain ⟨j, hj, e⟩ := List.mem_iff_getElem.1 h1
    exact ⟨j, l, by rw [List.getElem?_eq_getElem hj, e], h2⟩
  · rintro ⟨j, l, h1, h2⟩
    exact ⟨l, List.mem_of_getElem? h1, h2⟩

theorem flatten_set {b : List (List Nat)} {i : Nat} {l : List Nat} (h : b[i]? = some l) (l' : List Nat) :
    ((b.set i l').flatten).Perm (l' ++ (b.set i []).flatten) := by
  induction b generalizing i with
  | nil => simp at h
  | cons a b ih =>
    cases i with
    | zero => simp
    | succ i =>
      simp only [List.getElem?_cons_succ] at h
      simp only [List.set_cons_succ, List.flatten_cons]
      refine ((ih h).append_left a).trans ?_
      rw [← List.append_assoc, ← List.append_assoc]
      exact (List.perm_append_comm).append_right _

theorem flatten_get {b : List (List Nat)} {i : Nat} {l : List Nat} (h : b[i]? = some l) :
    (b.flatten).Perm (l ++ (b.set i []).flatten) := by
  have := flatten_set h l
  rwa [show b.set i l = b by
    obtain ⟨h1, h2⟩ := List.getElem?_eq_some_iff.1 h
    rw [← h2]; exact List.set_getElem_self h1] at this

theorem At_set {b : List (List Nat)} {i : Nat} (hi : i < b.length) (l' : List Nat) (j x : Nat) :
    At (b.set i l') j x ↔ if j = i then x ∈ l' else At b j x := by
  unfold At
  rw [List.getElem?_set]
  by_cases h : i = j
  · subst h; simp [hi]
  · have : ¬ j = i := fun e => h e.symm
    simp [h, this]

theorem push_ok {b : List (List Nat)} {i x : Nat} (hi : i < b.length) :
    ∃ b', push b i x = .ok b' ∧ b'.length = b.length ∧ (b'.flatten).Perm (x :: b.flatten) ∧
      ∀ j y, At b' j y ↔ (j = i ∧ y = x) ∨ At b j y := by
  have hg := List.getElem?_eq_getElem hi
  refine ⟨b.set i (x :: b[i]), by simp only [push, hg], by simp, ?_, ?_⟩
  · refine (flatten_set hg _).trans ?_
    rw [List.cons_append]
    exact (List.Perm.cons x (flatten_get hg).symm)
  · intro j y
    rw [At_set hi]
    by_cases h : j = i
    · subst h
      have e : At b j y ↔ y ∈ b[j] := by unfold At; simp [hi]
      simp [e]
    · simp [h]

/-- objects of a list of addresses all exist -/
def Alloc (g : G) (l : List Nat) : Prop := ∀ x ∈ l, ∃ o, g.objs x = some o

/-- `x` is where its hash says, for a table of the given size -/
def NewPos (g : G) (newsize j x : Nat) : Prop := ∃ o, g.objs x = some o ∧ lmod o.hash newsize = j

theorem rehashList_spec {g : G} {newsize : Nat} (hn : 0 < newsize) {P : Nat → Nat → Prop} :
    ∀ (p : List Nat) (b : List (List Nat)), newsize ≤ b.length → Alloc g p →
    (∀ j x, At b j x → NewPos g newsize j x ∨ P j x) →
    ∃ b', rehashList g newsize p b = .ok b' ∧ b'.length = b.length ∧ (b'.flatten).Perm (p ++ b.flatten) ∧
      ∀ j x, At b' j x → NewPos g newsize j x ∨ P j x
  | [], b, _, _, hp => ⟨b, rfl, rfl, List.Perm.refl _, hp⟩
  | x :: p, b, hl, ha, hp => by
    obtain ⟨o, ho⟩ := ha x (by simp)
    have hlt := lmod_lt o.hash hn
    obtain ⟨b1, e1, e2, e3, e4⟩ := push_ok (b := b) (i := lmod o.hash newsize) (x := x) (by omega)
    obtain ⟨b', r1, r2, r3, r4⟩ := rehashList_spec hn p b1 (by omega) (fun y hy => ha y (by simp [hy])) (by
      intro j y h
      rcases (e4 j y).1 h with ⟨rfl, rfl⟩ | h
      · exact .inl ⟨o, ho, rfl⟩
      · exact hp j y h)
    refine ⟨b', ?_, by omega, ?_, r4⟩
    · simp only [rehashList, getObj, ho, Res.bind_ok, e1, r1]
    · refine r3.trans ?_
      rw [List.cons_append]
      exact (e3.append_left p).trans List.perm_middle

theorem rehash_spec {g : G} {newsize size : Nat} (hn : 0 < newsize) :
    ∀ (n i : Nat) (b : List (List Nat)), n + i = size → newsize ≤ b.length → size ≤ b.length → Alloc g b.flatten →
    (∀ j x, At b j x → NewPos g newsize j x ∨ (i ≤ j ∧ j < size)) →
    ∃ b', rehash g newsize n i b = .ok b' ∧ b'.length = b.length ∧ (b'.flatten).Perm b.flatten ∧
      ∀ j x, At b' j x → NewPos g newsize j x
  | 0, i, b, hs, _, _, _, hp => ⟨b, rfl, rfl, List.Perm.refl _, fun j x h => by
      rcases hp j x h with h | h
      · exact h
      · omega⟩
  | n + 1, i, b, hs, hl, hl2, ha, hp => by
    have hi : i < b.length := by omega
    have hg := List.getElem?_eq_getElem hi
    have hperm := flatten_get hg
    obtain ⟨b1, e1, e2, e3, e4⟩ := rehashList_spec (g := g) hn (P := fun j _ => i + 1 ≤ j ∧ j < size) b[i] (b.set i []) (by simpa using hl)
      (fun x hx => ha x (hperm.mem_iff.2 (by simp [hx]))) (by
        intro j x h
        rw [At_set hi] at h
        split at h
        · simp at h
        · rcases hp j x h with h | h
          · exact .inl h
          · exact .inr (by omega))
    have hl1 : b1.length = b.length := by rw [e2]; simp
    have hp1 : (b1.flatten).Perm b.flatten := e3.trans hperm.symm
    obtain ⟨b', r1, r2, r3, r4⟩ := rehash_spec hn n (i + 1) b1 (by omega) (by omega) (by omega)
      (fun x hx => ha x (hp1.mem_iff.1 hx)) e4
    refine ⟨b', ?_, by omega, r3.trans hp1, r4⟩
    simp only [rehash, hg, e1, Res.bind_ok, r1]

/-- what is true of the string table at all times -/
structure Inv (g : G) : Prop where
  pos : 0 < g.buckets.length
  nodup : g.buckets.flatten.Nodup
  mem : ∀ x, x ∈ g.buckets.flatten ↔ ∃ o, g.objs x = some o ∧ o.isShort = true
  place : ∀ j x, At g.buckets j x → NewPos g g.buckets.length j x
  hashok : ∀ x o, g.objs x = some o → o.isShort = true → hash o.bytes g.seed = .ok o.hash
  uniq : ∀ x y o o', g.objs x = some o → g.objs y = some o' → o.isShort = true → o'.isShort = true → o.bytes = o'.bytes → x = y
  short : ∀ x o, g.objs x = some o → (o.isShort = true ↔ o.bytes.length ≤ maxShort)
  nuse : g.nuse = g.buckets.flatten.length
  cacheLen : g.cache.length = cacheN
  rowLen : ∀ row ∈ g.cache, row.length = 2
  cacheOk : ∀ row ∈ g.cache, ∀ x ∈ row, ∃ o, g.objs x = some o ∧ o.dead = false ∧ (0 : UInt8) ∉ o.bytes
  memerr : ∃ o, g.objs g.memerr = some o ∧ o.fixed = true ∧ (0 : UInt8) ∉ o.bytes
  fixedLive : ∀ x o, g.objs x = some o → o.fixed = true → o.dead = false

theorem resize_inv {g : G} (h : Inv g) {newsize : Nat} (hn : 0 < newsize) :
    ∃ b, resize g newsize = .ok { g with buckets := b } ∧ b.length = newsize ∧ Inv { g with buckets := b } := by
  have hlen : (g.buckets ++ List.replicate (newsize - g.buckets.length) ([] : List Nat)).length = max g.buckets.length newsize := by
    simp; omega
  have hflat : (g.buckets ++ List.replicate (newsize - g.buckets.length) ([] : List Nat)).flatten = g.buckets.flatten := by
    rw [List.flatten_append]
    have : ∀ n, (List.replicate n ([] : List Nat)).flatten = [] := by
      intro n; induction n with
      | zero => rfl
      | succ n ih => rw [List.replicate_succ, List.flatten_cons, ih]; rfl
    rw [this, List.append_nil]
  have halloc : Alloc g g.buckets.flatten := fun x hx => by obtain ⟨o, h1, _⟩ := (h.mem x).1 hx; exact ⟨o, h1⟩
  obtain ⟨b, e1, e2, e3, e4⟩ := rehash_spec (g := g) hn (size := g.buckets.length) g.buckets.length 0
    (g.buckets ++ List.replicate (newsize - g.buckets.length) []) rfl (by rw [hlen]; omega) (by rw [hlen]; omega)
    (by rw [hflat]; exact halloc) (by
      intro j x hA
      right
      refine ⟨Nat.zero_le _, ?_⟩
      obtain ⟨l, hl, hx⟩ := hA
      rw [List.getElem?_append] at hl
      split at hl
      · assumption
      · rw [List.getElem?_replicate] at hl
        split at hl
        · cases hl; simp at hx
        · cases hl)
  rw [hflat] at e3
  rw [hlen] at e2
  have hdrop : (b.take newsize).flatten = b.flatten := by
    conv => rhs; rw [← List.take_append_drop newsize b, List.flatten_append]
    have : (b.drop newsize).flatten = [] := by
      rw [List.flatten_eq_nil_iff]
      intro l hl
      obtain ⟨j, hj, el⟩ := List.mem_iff_getElem.1 hl
      rw [List.eq_nil_iff_forall_not_mem]
      intro x hx
      rw [List.length_drop] at hj
      have hb : newsize + j < b.length := by omega
      obtain ⟨o, _, ho2⟩ := e4 (newsize + j) x ⟨l, by rw [List.getElem?_eq_getElem hb, ← el, List.getElem_drop], hx⟩
      have := lmod_lt o.hash hn
      omega
    rw [this, List.append_nil]
  have hlt : (b.take newsize).length = newsize := by simp; omega
  refine ⟨b.take newsize, by simp only [resize, e1, Res.bind_ok, Res.pure_eq], hlt, ?_⟩
  have hperm : ((b.take newsize).flatten).Perm g.buckets.flatten := by rw [hdrop]; exact e3
  constructor
  · show 0 < (b.take newsize).length
    rw [hlt]; exact hn
  · exact hperm.nodup_iff.2 h.nodup
  · intro x; exact (hperm.mem_iff).trans (h.mem x)
  · rintro j x ⟨l, hl, hx⟩
    show NewPos g (b.take newsize).length j x
    rw [hlt]
    apply e4
    simp only at hl
    rw [List.getElem?_take] at hl
    split at hl
    · exact ⟨l, hl, hx⟩
    · cases hl
  · exact h.hashok
  · exact h.uniq
  · exact h.short
  · exact h.nuse.trans hperm.length_eq.symm
  · exact h.cacheLen
  · exact h.rowLen
  · exact h.cacheOk
  · exact h.memerr
  · exact h.fixedLive

theorem unlink_ok {x : Nat} : ∀ {l : List Nat}, x ∈ l → unlink x l = .ok (l.erase x)
  | [], h => by simp at h
  | y :: l, h => by
    unfold unlink
    by_cases e : y = x
    · subst e; simp
    · rw [if_neg e, unlink_ok ((List.mem_cons.1 h).resolve_left (fun h => e h.symm))]
      rw [List.erase_cons_tail (by simpa using e)]; rfl

theorem free_inv {g : G} (h : Inv g) {x : Nat} {o : Obj} (ho : g.objs x = some o) (hd : o.dead = true) :
    ∃ g', free g x = .ok g' ∧ Inv g' ∧ g'.objs = (fun y => if y = x then none else g.objs y) ∧ g'.cache = g.cache ∧
      g'.memerr = g.memerr ∧ g'.seed = g.seed := by
  have hcache : ∀ row ∈ g.cache, x ∉ row := by
    intro row hr hx
    obtain ⟨o', h1, h2, _⟩ := h.cacheOk row hr x hx
    rw [ho] at h1; cases h1; rw [hd] at h2; cases h2
  have hmem : x ≠ g.memerr := by
    rintro rfl
    obtain ⟨o', h1, h2, _⟩ := h.memerr
    rw [ho] at h1; cases h1
    have := h.fixedLive _ _ ho h2
    rw [hd] at this; cases this
  have obj_of : ∀ {y o'}, (if y = x then none else g.objs y) = some o' → y ≠ x ∧ g.objs y = some o' := by
    intro y o' hy; split at hy
    · cases hy
    · exact ⟨by assumption, hy⟩
  have c1 : ∀ row ∈ g.cache, ∀ y ∈ row, ∃ o', (if y = x then none else g.objs y) = some o' ∧ o'.dead = false ∧ (0 : UInt8) ∉ o'.bytes := by
    intro row hr y hy
    obtain ⟨o', h1, h2⟩ := h.cacheOk row hr y hy
    have : y ≠ x := by rintro rfl; exact hcache row hr hy
    exact ⟨o', by rw [if_neg this]; exact h1, h2⟩
  have c2 : ∃ o', (if g.memerr = x then none else g.objs g.memerr) = some o' ∧ o'.fixed = true ∧ (0 : UInt8) ∉ o'.bytes := by
    rw [if_neg (fun e => hmem e.symm)]; exact h.memerr
  cases hs : o.isShort with
  | false =>
    refine ⟨setObj g x none, by simp [free, getObj, ho, hs], ?_, rfl, rfl, rfl, rfl⟩
    constructor
    · exact h.pos
    · exact h.nodup
    · intro y
      rw [show (setObj g x none).buckets = g.buckets from rfl, h.mem]
      simp only [setObj]
      constructor
      · rintro ⟨o', h1, h2⟩
        have : y ≠ x := by rintro rfl; rw [ho] at h1; cases h1; rw [hs] at h2; cases h2
        exact ⟨o', by rw [if_neg this]; exact h1, h2⟩
      · rintro ⟨o', h1, h2⟩
        exact ⟨o', (obj_of h1).2, h2⟩
    · intro j y hA
      obtain ⟨o', h1, h2⟩ := h.place j y hA
      have hsh : ∃ o, g.objs y = some o ∧ o.isShort = true := (h.mem y).1 ((mem_flatten_iff _ _).2 ⟨j, hA⟩)
      have : y ≠ x := by
        rintro rfl
        obtain ⟨o'', e1, e2⟩ := hsh
        rw [ho] at e1; cases e1; rw [hs] at e2; cases e2
      exact ⟨o', by simp only [setObj, if_neg this]; exact h1, h2⟩
    · intro y o' h1 h2; exact h.hashok y o' (obj_of h1).2 h2
    · intro y z o1 o2 h1 h2 h3 h4 h5; exact h.uniq y z o1 o2 (obj_of h1).2 (obj_of h2).2 h3 h4 h5
    · intro y o' h1; exact h.short y o' (obj_of h1).2
    · exact h.nuse
    · exact h.cacheLen
    · exact h.rowLen
    · exact c1
    · exact c2
    · intro y o' h1 h2; exact h.fixedLive y o' (obj_of h1).2 h2
  | true =>
    have hin : x ∈ g.buckets.flatten := (h.mem x).2 ⟨o, ho, hs⟩
    obtain ⟨j, l, hl, hxl⟩ := (mem_flatten_iff _ _).1 hin
    obtain ⟨o', e1, e2⟩ := h.place j x ⟨l, hl, hxl⟩
    rw [ho] at e1; cases e1
    have hj : j < g.buckets.length := (List.getElem?_eq_some_iff.1 hl).1
    have hperm := flatten_get hl
    have hset := flatten_set hl (l.erase x)
    have hp2 : (g.buckets.flatten).Perm (x :: (g.buckets.set j (l.erase x)).flatten) := by
      refine hperm.trans ?_
      refine ((List.perm_cons_erase hxl).append_right _).trans ?_
      rw [List.cons_append]
      exact hset.symm.cons x
    have hnd := hp2.nodup_iff.1 h.nodup
    rw [List.nodup_cons] at hnd
    refine ⟨setObj { g with buckets := g.buckets.set j (l.erase x), nuse := g.nuse - 1 } x none, ?_, ?_, rfl, rfl, rfl, rfl⟩
    · simp [free, getObj, ho, hs, remove, e2, hl, unlink_ok hxl]
    · constructor
      · simp only [setObj, List.length_set]; exact h.pos
      · exact hnd.2
      · intro y
        simp only [setObj]
        have hy := h.mem y
        rw [hp2.mem_iff, List.mem_cons] at hy
        by_cases e : y = x
        · subst e
          simp only [if_true, reduceCtorEq, false_and, exists_false, iff_false]
          exact hnd.1
        · simp only [e, false_or, if_false] at hy ⊢
          exact hy
      · intro j' y hA
        simp only [setObj, List.length_set]
        rw [show (setObj { g with buckets := g.buckets.set j (l.erase x), nuse := g.nuse - 1 } x none).buckets
          = g.buckets.set j (l.erase x) from rfl] at hA
        have hyx : y ≠ x := by
          rintro rfl
          exact hnd.1 ((mem_flatten_iff _ _).2 ⟨j', hA⟩)
        have hA' : At g.buckets j' y := by
          rw [At_set hj] at hA
          split at hA
          · rename_i e; subst e
            exact ⟨l, hl, List.mem_of_mem_erase hA⟩
          · exact hA
        obtain ⟨o', h1, h2⟩ := h.place j' y hA'
        exact ⟨o', by simp only [if_neg hyx]; exact h1, h2⟩
      · intro y o' h1 h2; exact h.hashok y o' (obj_of h1).2 h2
      · intro y z o1 o2 h1 h2 h3 h4 h5; exact h.uniq y z o1 o2 (obj_of h1).2 (obj_of h2).2 h3 h4 h5
      · intro y o' h1; exact h.short y o' (obj_of h1).2
      · have := hp2.length_eq
        have hn := h.nuse
        simp only [List.length_cons] at this
        simp only [setObj]; omega
      · exact h.cacheLen
      · exact h.rowLen
      · exact c1
      · exact c2
      · intro y o' h1 h2; exact h.fixedLive y o' (obj_of h1).2 h2

/-- what the collector leaves of an object: nothing, or the same object, possibly dead -/
def Kept (g g' : G) : Prop :=
  (∀ x o', g'.objs x = some o' → ∃ o, g.objs x = some o ∧ o'.bytes = o.bytes ∧ o'.isShort = o.isShort ∧ o'.hash = o.hash) ∧
  g'.seed = g.seed

theorem Kept.refl (g : G) : Kept g g := ⟨fun _ o h => ⟨o, h, rfl, rfl, rfl⟩, rfl⟩

theorem Kept.trans {a b c : G} (h1 : Kept a b) (h2 : Kept b c) : Kept a c := by
  refine ⟨?_, h2.2.trans h1.2⟩
  intro x o hx
  obtain ⟨o1, e1, e2, e3, e4⟩ := h2.1 x o hx
  obtain ⟨o2, f1, f2, f3, f4⟩ := h1.1 x o1 e1
  exact ⟨o2, f1, e2.trans f2, e3.trans f3, e4.trans f4⟩

theorem gcStep_inv {g : G} (h : Inv g) (op : GcOp) : ∃ g', gcStep g op = .ok g' ∧ Inv g' ∧ Kept g g' := by
  cases op with
  | sweep x =>
    simp only [gcStep]
    cases ho : g.objs x with
    | none => exact ⟨g, rfl, h, Kept.refl g⟩
    | some o =>
      dsimp only
      by_cases hd : o.dead = true
      · obtain ⟨g', e1, e2, e3, _, _, e6⟩ := free_inv h ho hd
        refine ⟨g', by rw [if_pos hd, e1], e2, ?_, e6⟩
        intro y o' hy
        rw [e3] at hy
        dsimp only at hy
        split at hy
        · cases hy
        · exact ⟨o', hy, rfl, rfl, rfl⟩
      · exact ⟨g, by rw [if_neg hd], h, Kept.refl g⟩
  | atomic s =>
    simp only [gcStep]
    refine ⟨_, rfl, ?_, ?_⟩
    · -- abbreviations
      generalize hw : whiteSet g s = white
      have hwf : ∀ x o, g.objs x = some o → o.fixed = true → white x = false := by
        intro x o ho hf; rw [← hw]; simp [whiteSet, ho, hf]
      have inv_of : ∀ {x o'}, (Option.map (fun o => if white x = true then { o with dead := true } else o) (g.objs x)) = some o' →
          ∃ o, g.objs x = some o ∧ o'.bytes = o.bytes ∧ o'.isShort = o.isShort ∧ o'.hash = o.hash ∧ o'.fixed = o.fixed ∧
            (white x = false → o'.dead = o.dead) := by
        intro x o' hx
        rw [Option.map_eq_some_iff] at hx
        obtain ⟨o, h1, h2⟩ := hx
        refine ⟨o, h1, ?_⟩
        subst h2
        split <;> simp_all
      have to_new : ∀ {x o}, g.objs x = some o → ∃ o',
          (Option.map (fun o => if white x = true then { o with dead := true } else o) (g.objs x)) = some o' ∧
          o'.bytes = o.bytes ∧ o'.isShort = o.isShort ∧ o'.hash = o.hash ∧ o'.fixed = o.fixed ∧ (white x = false → o'.dead = o.dead) := by
        intro x o hx
        rw [hx]
        refine ⟨_, rfl, ?_⟩
        split <;> simp_all
      constructor
      · exact h.pos
      · exact h.nodup
      · intro x
        refine (h.mem x).trans ?_
        constructor
        · rintro ⟨o, h1, h2⟩
          obtain ⟨o', e1, _, e3, _⟩ := to_new h1
          exact ⟨o', e1, e3.trans h2⟩
        · rintro ⟨o', h1, h2⟩
          obtain ⟨o, e1, _, e3, _⟩ := inv_of h1
          exact ⟨o, e1, e3.symm.trans h2⟩
      · intro j x hA
        obtain ⟨o, h1, h2⟩ := h.place j x hA
        obtain ⟨o', e1, _, _, e4, _⟩ := to_new h1
        exact ⟨o', e1, by rw [e4]; exact h2⟩
      · intro x o' h1 h2
        obtain ⟨o, e1, e2, e3, e4, _⟩ := inv_of h1
        rw [e2, e4]; exact h.hashok x o e1 (e3.symm.trans h2)
      · intro x y o1 o2 h1 h2 h3 h4 h5
        obtain ⟨p1, a1, a2, a3, _⟩ := inv_of h1
        obtain ⟨p2, b1, b2, b3, _⟩ := inv_of h2
        exact h.uniq x y p1 p2 a1 b1 (a3.symm.trans h3) (b3.symm.trans h4) (by rw [← a2, ← b2]; exact h5)
      · intro x o' h1
        obtain ⟨o, e1, e2, e3, _⟩ := inv_of h1
        rw [e2, e3]; exact h.short x o e1
      · exact h.nuse
      · simp only [clearCache, List.length_map]; exact h.cacheLen
      · intro row hr
        simp only [clearCache, List.mem_map] at hr
        obtain ⟨r, hr, rfl⟩ := hr
        rw [List.length_map]; exact h.rowLen r hr
      · intro row hr x hx
        simp only [clearCache, List.mem_map] at hr
        obtain ⟨r, hr, rfl⟩ := hr
        rw [List.mem_map] at hx
        obtain ⟨y, hy, rfl⟩ := hx
        split
        · obtain ⟨o, h1, h2, h3⟩ := h.memerr
          obtain ⟨o', e1, e2, _, _, _, e6⟩ := to_new h1
          exact ⟨o', e1, by rw [e6 (hwf _ _ h1 h2)]; exact h.fixedLive _ _ h1 h2, by rw [e2]; exact h3⟩
        · rename_i hwy
          obtain ⟨o, h1, h2, h3⟩ := h.cacheOk r hr y hy
          obtain ⟨o', e1, e2, _, _, _, e6⟩ := to_new h1
          exact ⟨o', e1, by rw [e6 (by simpa using hwy)]; exact h2, by rw [e2]; exact h3⟩
      · obtain ⟨o, h1, h2, h3⟩ := h.memerr
        obtain ⟨o', e1, e2, _, _, e5, _⟩ := to_new h1
        exact ⟨o', e1, e5.trans h2, by rw [e2]; exact h3⟩
      · intro x o' h1 h2
        obtain ⟨o, e1, _, _, _, e5, e6⟩ := inv_of h1
        rw [e6 (hwf _ _ e1 (e5.symm.trans h2))]
        exact h.fixedLive x o e1 (e5.symm.trans h2)
    · refine ⟨?_, rfl⟩
      intro x o' hx
      simp only [clearCache] at hx
      rw [Option.map_eq_some_iff] at hx
      obtain ⟨o, h1, h2⟩ := hx
      refine ⟨o, h1, ?_⟩
      subst h2
      split <;> simp_all

theorem gc_inv : ∀ (ops : List GcOp) {g : G}, Inv g → ∃ g', gc ops g = .ok g' ∧ Inv g' ∧ Kept g g'
  | [], g, h => ⟨g, rfl, h, Kept.refl g⟩
  | op :: ops, g, h => by
    obtain ⟨g1, e1, e2, e3⟩ := gcStep_inv h op
    obtain ⟨g2, f1, f2, f3⟩ := gc_inv ops e2
    exact ⟨g2, by simp only [gc, e1, Res.bind_ok, f1], f2, e3.trans f3⟩

theorem find_spec {g : G} {str : Bytes} : ∀ {l : List Nat}, Alloc g l →
    ∃ r, find g str l = .ok r ∧ (∀ x, r = some x → x ∈ l ∧ ∃ o, g.objs x = some o ∧ o.bytes = str) ∧
      (r = none → ∀ x ∈ l, ∀ o, g.objs x = some o → o.bytes ≠ str)
  | [], _ => ⟨none, rfl, by simp, by simp⟩
  | x :: l, ha => by
    obtain ⟨o, ho⟩ := ha x (by simp)
    simp only [find, getObj, ho, Res.bind_ok]
    by_cases h : str.length = o.bytes.length ∧ str = o.bytes
    · refine ⟨some x, by rw [if_pos h]; rfl, ?_, by simp⟩
      intro y hy; cases hy
      exact ⟨by simp, o, ho, h.2.symm⟩
    · obtain ⟨r, e1, e2, e3⟩ := find_spec (str := str) (fun y hy => ha y (List.mem_cons_of_mem _ hy))
      refine ⟨r, by rw [if_neg h]; exact e1, ?_, ?_⟩
      · intro y hy; obtain ⟨a, b⟩ := e2 y hy; exact ⟨by simp [a], b⟩
      · intro hr y hy o' ho'
        rw [List.mem_cons] at hy
        rcases hy with rfl | hy
        · rw [ho] at ho'; cases ho'
          intro e; exact h ⟨by rw [e], e.symm⟩
        · exact e3 hr y hy o' ho'

end Verif.StrTab
