import Verif.Table.Next
/-!
Property theorems for tables (C09-C13).  The specification side (`History`, `specOf`, `traverse`) is in
`Verif/Table/Spec.lean`; nothing in the statements refers to nodes, chains or hashing except
`t.asize` in C13, which is the size of the array part that the property is about.
-/
namespace Verif.Table
open Verif.Arith (LInt)
variable {α V : Type} [DecidableEq α]

/-! ### C09 -/

/-- lookup in the specified map; nil and NaN are never keys -/
def specGet (ops : List (Op α V)) (k : RawKey α) : Option V := k.norm.bind (specOf ops)

theorem rawget_maps {H : Hash α} {t : Tbl α V} (wf : WF H t) (k : RawKey α) :
    ∃ r, rawget H t k = .ok r ∧ ∀ v, r = some v ↔ ∃ k', k.norm = some k' ∧ Maps t k' v := by
  cases hn : k.norm with
  | some k' =>
    rw [rawget_norm H t k k' hn]
    obtain ⟨r, h1, h2⟩ := rawget_key wf k' k.obj
    exact ⟨r, h1, fun v => by rw [h2]; simp⟩
  | none =>
    cases k with
    | nil => exact ⟨none, rfl, by simp⟩
    | nan =>
      unfold rawget get
      dsimp only
      obtain ⟨r, h1, h2⟩ := search_spec wf (fun _ => false) (hashmod t.lsize H.nan) (hashmod_lt _ _)
      rw [h1]
      cases r with
      | none => exact ⟨none, rfl, by simp⟩
      | some j => exact absurd h2.2 (by simp)
    | fltInt i => cases hn
    | key k o => cases hn

/-- **C09**: reading any key returns the value of the last assignment to an equal key. -/
theorem table_is_finite_map (H : Hash α) (ops : List (Op α V)) (t : Tbl α V) (h : History H ops t) (k : RawKey α) :
    rawget H t k = .ok (specGet ops k) := by
  obtain ⟨inv, hm⟩ := h.inv
  obtain ⟨r, h1, h2⟩ := rawget_maps inv.wf k
  rw [h1]
  congr 1
  apply Option.ext
  intro v
  rw [h2]
  unfold specGet
  cases hn : k.norm with
  | none => simp
  | some k' => simp [hm]

/-- **C09** (read after write): after `t[k] = v` reading `t[k']` gives `v` if the keys are equal and the
old value otherwise. -/
theorem table_read_after_write (H : Hash α) (ops : List (Op α V)) (t t' : Tbl α V) (h : History H ops t)
    (k : RawKey α) (v : Option V) (ha : Allowed t (.set k v)) (hs : rawset H t k v = .ok t') (k' : RawKey α) :
    rawget H t' k' = if k'.norm = k.norm then .ok v else rawget H t k' := by
  rw [table_is_finite_map H _ t' (h.step (.set k v) ha hs), table_is_finite_map H ops t h]
  obtain ⟨kn, hk, _⟩ := ha
  have : specOf (ops ++ [.set k v]) = specStep (specOf ops) (.set k v) := by
    unfold specOf; rw [List.foldl_append]; rfl
  unfold specGet
  rw [this, hk]
  cases hn : k'.norm with
  | none => simp
  | some kn' => simp only [Option.bind_some, specStep, hk, Option.some.injEq]; split <;> rfl

/-- **C09** (progress): an operation either succeeds or raises the documented "table overflow"
(more than 2^30 hash slots needed). -/
theorem table_step_progress (H : Hash α) (ops : List (Op α V)) (t : Tbl α V) (h : History H ops t)
    (op : Op α V) (ha : Allowed t op) :
    (∃ t', step H t op = .ok t') ∨ step H t op = .err "table overflow" := by
  rcases step_inv h.inv.1 op ha with g | ⟨t', g, _⟩
  · exact .inr g
  · exact .inl ⟨t', g⟩

/-- **C09** (nil and NaN keys): assignment raises an error. -/
theorem table_bad_keys (H : Hash α) (ops : List (Op α V)) (t : Tbl α V) (h : History H ops t) (v : Option V) :
    rawset H t .nil v = .err "table index is nil" ∧ rawset H t .nan v = .err "table index is NaN" := by
  constructor
  · rfl
  · unfold rawset get
    dsimp only
    obtain ⟨r, h1, h2⟩ := search_spec h.inv.1.wf (fun _ => false) (hashmod t.lsize H.nan) (hashmod_lt _ _)
    rw [h1]
    cases r with
    | none => rfl
    | some j => exact absurd h2.2 (by simp)

/-! ### C10 -/

theorem findindex_bound {H : Hash α} {t : Tbl α V} (wf : WF H t) (k : RawKey α) :
    (∃ i, findindex H t k = .ok i ∧ i ≤ total t) ∨ findindex H t k = .err "invalid key to 'next'" := by
  have srch : ∀ p i, i < t.size → (∃ j, search t p (t.size + 1) (i : Int) = .ok (some j) ∧ j < t.size) ∨
      search t p (t.size + 1) (i : Int) = .ok none := by
    intro p i hi
    obtain ⟨r, h1, h2⟩ := search_spec wf p i hi
    cases r with
    | none => exact .inr h1
    | some j => exact .inl ⟨j, h1, h2.1.lt wf.chain hi⟩
  cases k with
  | nil => exact .inl ⟨0, rfl, Nat.zero_le _⟩
  | nan => exact .inr rfl
  | fltInt i =>
    unfold findindex
    dsimp only
    rcases srch (nextMatch (.int i) none) (hashmod t.lsize (H.flt i)) (hashmod_lt _ _) with ⟨j, h1, h2⟩ | h1
    · rw [h1]; exact .inl ⟨_, rfl, by unfold total; omega⟩
    · rw [h1]; exact .inr rfl
  | key k o =>
    unfold findindex
    dsimp only
    by_cases hc : arrayindex k ≠ 0 ∧ arrayindex k ≤ t.asize
    · rw [if_pos hc]; exact .inl ⟨_, rfl, by unfold total; omega⟩
    · rw [if_neg hc]
      rcases srch (nextMatch k o) (mainpos H t.lsize k) (mainpos_lt' H t k) with ⟨j, h1, h2⟩ | h1
      · rw [h1]; exact .inl ⟨_, rfl, by unfold total; omega⟩
      · rw [h1]; exact .inr rfl

/-- **C10**: on every reachable table every operation terminates and never touches memory outside the
array part or the node vector (`ub` is exactly "loops forever or out of bounds" in the model). -/
theorem table_ops_terminate_in_bounds (H : Hash α) (ops : List (Op α V)) (t : Tbl α V) (h : History H ops t) :
    (∀ k, rawget H t k ≠ .ub) ∧ (∀ op, Allowed t op → step H t op ≠ .ub) ∧
    (∀ k, next H t k ≠ .ub) ∧ getn H t ≠ .ub := by
  have inv := h.inv.1
  refine ⟨?_, ?_, ?_, ?_⟩
  · intro k hu
    rw [table_is_finite_map H ops t h] at hu; cases hu
  · intro op ha hu
    rcases table_step_progress H ops t h op ha with ⟨t', g⟩ | g <;> rw [hu] at g <;> cases g
  · intro k hu
    rcases findindex_bound inv.wf k with ⟨i, h1, h2⟩ | h1
    · rcases next_spec inv.wf k i h2 h1 with ⟨g, _⟩ | ⟨p, e, g, _⟩ <;> rw [hu] at g <;> cases g
    · unfold next at hu; rw [h1] at hu; cases hu
  · intro hu
    obtain ⟨j, g, _⟩ := getn_spec inv.wf
    rw [hu] at g; cases g

/-! ### C11 -/

/-- **C11**: a traversal with arbitrary assignments to existing fields and arbitrary collector activity
between the calls of `next` ends normally; it visits no key twice; it visits only keys that were in
the table at the start; and every key that still has a value at the end has been visited. -/
theorem next_visits_each_once (H : Hash α) (ops : List (Op α V)) (t : Tbl α V) (h : History H ops t)
    (mods : Nat → List (Mod α V)) :
    ∃ fuel l tf, traverse H mods fuel 0 t .nil = .ok (l, tf) ∧
      (l.map Prod.fst).Nodup ∧
      (∀ k ∈ l.map Prod.fst, specOf ops k ≠ none) ∧
      (∀ k o v, rawget H tf (.key k o) = .ok (some v) → k ∈ l.map Prod.fst) := by
  obtain ⟨inv, hm⟩ := h.inv
  obtain ⟨l, tf, ps, h1, h2, h3, h4, h5, h6, h7, _⟩ := traverse_spec inv mods (total t + 1) 0 t .nil 0 inv (Sh.refl t)
    rfl (Nat.zero_le _) (by omega)
  refine ⟨_, l, tf, h1, ?_, ?_, ?_⟩
  · have hsome : ∀ p ∈ ps, ∃ e, entryAt t p = some e := by
      intro p hp
      have : (entryAt t p).map (fun e => e.1) ∈ l.map (fun e => some e.1) := by
        rw [h6]; exact List.mem_map.2 ⟨p, hp, rfl⟩
      obtain ⟨e, _, he⟩ := List.mem_map.1 this
      cases hx : entryAt t p with
      | none => rw [hx] at he; cases he
      | some e => exact ⟨e, rfl⟩
    have hnd : (l.map (fun e => some e.1)).Nodup := by
      rw [h6, List.nodup_iff_pairwise_ne, List.pairwise_map]
      refine List.Pairwise.imp_of_mem ?_ h4
      intro p q hp hq hlt e
      obtain ⟨⟨k1, o1, v1⟩, e1⟩ := hsome p hp
      obtain ⟨⟨k2, o2, v2⟩, e2⟩ := hsome q hq
      rw [e1, e2] at e
      simp only [Option.map_some, Option.some.injEq] at e
      subst e
      have := entry_inj inv.wf e1 e2
      omega
    rw [List.nodup_iff_pairwise_ne, List.pairwise_map] at hnd ⊢
    exact hnd.imp (fun h e => h (congrArg some e))
  · intro k hk
    obtain ⟨e, he, hek⟩ := List.mem_map.1 hk
    have : some e.1 ∈ l.map (fun e => some e.1) := List.mem_map.2 ⟨e, he, rfl⟩
    rw [h6] at this
    obtain ⟨p, _, hp⟩ := List.mem_map.1 this
    obtain ⟨⟨k1, o1, v1⟩, g1, g2⟩ := Option.map_eq_some_iff.1 hp
    dsimp only at g2
    have hmaps := (entry_maps inv.wf).2 ⟨p, o1, g1⟩
    rw [hm, g2, hek] at hmaps
    rw [hmaps]; simp
  · intro k o v hg
    obtain ⟨r, g1, g2⟩ := rawget_key h2.wf k o
    rw [hg] at g1
    cases g1
    obtain ⟨p, o', he⟩ := (entry_maps h2.wf).1 ((g2 v).1 rfl)
    have hp := h7 p (Nat.zero_le _) (by rw [he]; rfl)
    obtain ⟨v0, he0⟩ := h3.entry he
    have : (entryAt t p).map (fun e => e.1) ∈ l.map (fun e => some e.1) := by
      rw [h6]; exact List.mem_map.2 ⟨p, hp, rfl⟩
    rw [he0] at this
    obtain ⟨e, he1, he2⟩ := List.mem_map.1 this
    simp only [Option.map_some, Option.some.injEq] at he2
    exact List.mem_map.2 ⟨e, he1, he2⟩

/-- **C11** (quiet traversal): without modifications the visited entries are exactly the map. -/
theorem next_enumerates_map (H : Hash α) (ops : List (Op α V)) (t : Tbl α V) (h : History H ops t) :
    ∃ fuel l, traverse H (fun _ => []) fuel 0 t .nil = .ok (l, t) ∧
      (l.map Prod.fst).Nodup ∧ ∀ k v, (k, v) ∈ l ↔ specOf ops k = some v := by
  obtain ⟨inv, hm⟩ := h.inv
  obtain ⟨fuel, l, tf, h1, h2, h3, h4⟩ := next_visits_each_once H ops t h (fun _ => [])
  have htf : ∀ fuel n t k l tf, traverse H (fun _ => []) fuel n t k = .ok (l, tf) → tf = (t : Tbl α V) ∧
      ∀ e ∈ l, ∃ k o, next H t k = .ok (some (e.1, o, e.2)) := by
    intro fuel
    induction fuel with
    | zero => intro n t k l tf h; cases h
    | succ fuel ih =>
      intro n t k l tf h
      unfold traverse at h
      cases hx : next H t k with
      | ub => rw [hx] at h; cases h
      | err m => rw [hx] at h; cases h
      | ok r =>
        rw [hx] at h
        simp only [Res.bind_ok] at h
        cases r with
        | none => cases h; exact ⟨rfl, by simp⟩
        | some e =>
          obtain ⟨k', o, v⟩ := e
          simp only [applyMods, Res.bind_ok] at h
          cases hy : traverse H (fun _ => []) fuel (n + 1) t (.key k' o) with
          | ub => rw [hy] at h; cases h
          | err m => rw [hy] at h; cases h
          | ok r2 =>
            obtain ⟨l2, tf2⟩ := r2
            rw [hy] at h
            cases h
            obtain ⟨a, b⟩ := ih _ _ _ _ _ hy
            refine ⟨a, ?_⟩
            intro e he
            rcases List.mem_cons.1 he with e1 | e1
            · subst e1; exact ⟨k, o, hx⟩
            · exact b e e1
  obtain ⟨e, hnext⟩ := htf _ _ _ _ _ _ h1
  subst e
  refine ⟨fuel, l, h1, h2, ?_⟩
  have hin : ∀ k v, (k, v) ∈ l → specOf ops k = some v := by
    intro k v hkv
    obtain ⟨k0, o, hn⟩ := hnext _ hkv
    rcases findindex_bound inv.wf k0 with ⟨i, g1, g2⟩ | g1
    · rcases next_spec inv.wf k0 i g2 g1 with ⟨g, _⟩ | ⟨p, e, g, _, _, g3, _⟩
      · rw [hn] at g; cases g
      · rw [hn] at g; cases g
        exact (hm _ _).1 ((entry_maps inv.wf).2 ⟨p, o, g3⟩)
    · unfold next at hn; rw [g1] at hn; cases hn
  intro k v
  refine ⟨hin k v, ?_⟩
  intro hs
  obtain ⟨r, g1, g2⟩ := rawget_key inv.wf k none
  have : r = some v := (g2 v).2 ((hm _ _).2 hs)
  have hk := h4 k none v (by rw [g1, this])
  obtain ⟨⟨k1, v1⟩, g3, g4⟩ := List.mem_map.1 hk
  dsimp only at g4
  subst g4
  have := hin _ _ g3
  rw [hs] at this; cases this; exact g3

/-- **C11** (current values): whatever `next` returns is the present contents of the table. -/
theorem next_returns_current (H : Hash α) (ops : List (Op α V)) (t : Tbl α V) (h : History H ops t)
    (k : RawKey α) (k' : Key α) (o : Obj) (v : V) (hn : next H t k = .ok (some (k', o, v))) :
    specOf ops k' = some v := by
  obtain ⟨inv, hm⟩ := h.inv
  rcases findindex_bound inv.wf k with ⟨i, g1, g2⟩ | g1
  · rcases next_spec inv.wf k i g2 g1 with ⟨g, _⟩ | ⟨p, e, g, _, _, g3, _⟩
    · rw [hn] at g; cases g
    · rw [hn] at g; cases g
      exact (hm _ _).1 ((entry_maps inv.wf).2 ⟨p, o, g3⟩)
  · unfold next at hn; rw [g1] at hn; cases hn

/-! ### C12 -/

/-- **C12**: `#t` is a border. -/
theorem length_is_border (H : Hash α) (ops : List (Op α V)) (t : Tbl α V) (h : History H ops t) :
    ∃ j : LInt, getn H t = .ok j ∧ 0 ≤ j.toInt ∧ j.toInt < 2 ^ 63 - 1 ∧
      (j = 0 ∨ specOf ops (.int j) ≠ none) ∧ specOf ops (.int (j + 1)) = none := by
  obtain ⟨inv, hm⟩ := h.inv
  obtain ⟨j, h1, h2, h3, h4⟩ := getn_spec inv.wf
  have hi : j.toInt = j.toNat := by rw [BitVec.toInt_eq_toNat_cond, if_pos (by omega)]
  refine ⟨j, h1, by omega, by omega, ?_, ?_⟩
  · refine h3.imp id ?_
    rintro ⟨v, hv⟩ e
    rw [hm, e] at hv; cases hv
  · cases hs : specOf ops (.int (j + 1)) with
    | none => rfl
    | some v => exact absurd ⟨v, (hm _ _).2 hs⟩ h4

/-! ### C13 -/

/-- number of integer keys `1..n` in use according to the specified map, counting the key `ek` about to
be inserted -/
def usedUpTo (m : Key α → Option V) (ek : Key α) (n : Nat) : Nat :=
  (List.range n).countP (fun i => (m (.int (BitVec.ofNat 64 (i + 1)))).isSome || decide (ek = .int (BitVec.ofNat 64 (i + 1))))

/-- **C13** (`rehash`): the new array size is 0 or a power of two with more than half of its slots in use,
and no larger power of two (up to 2^31) has that property. -/
theorem rehash_array_size_optimal (H : Hash α) (ops : List (Op α V)) (t t' : Tbl α V) (h : History H ops t)
    (ek : Key α) (hek : specOf ops ek = none) (hr : rehash H t ek = .ok t') :
    (t'.asize = 0 ∨ ∃ k, k < 32 ∧ t'.asize = 2 ^ k ∧ 2 ^ k < 2 * usedUpTo (specOf ops) ek (2 ^ k)) ∧
    (∀ k, k < 32 → 2 ^ k < 2 * usedUpTo (specOf ops) ek (2 ^ k) → 2 ^ k ≤ t'.asize) := by
  obtain ⟨inv, hm⟩ := h.inv
  have hek' : ∀ v, ¬ Maps t ek v := by intro v hv; rw [hm, hek] at hv; cases hv
  have hcnt : ∀ n, n ≤ 2 ^ 31 → keyCount t ek n = usedUpTo (specOf ops) ek n := by
    intro n
    induction n with
    | zero => intro _; rw [keyCount_zero]; simp [usedUpTo]
    | succ n ih =>
      intro hn
      rw [keyCount_step inv.wf ek hek' n (by omega) ((specOf ops (.int (BitVec.ofNat 64 (n + 1)))).isSome ||
        decide (ek = .int (BitVec.ofNat 64 (n + 1)))) (by
          simp only [Bool.or_eq_true, decide_eq_true_eq, Option.isSome_iff_exists, hm]), ih (by omega)]
      unfold usedUpTo
      rw [List.range_succ, List.countP_append]
      simp only [List.countP_cons, List.countP_nil, Nat.zero_add]
  have hpow : ∀ k, k < 32 → 2 ^ k ≤ 2 ^ 31 := fun k hk => Nat.pow_le_pow_right (by omega) (by omega)
  have hhalf : ∀ k c, 2 ^ k / 2 < c ↔ 2 ^ k < 2 * c := by intro k c; omega
  rcases rehash_spec inv.wf ek hek' with g | ⟨t2, g, _, _, _, opt, _⟩
  · rw [hr] at g; cases g
  · rw [hr] at g; cases g
    refine ⟨?_, ?_⟩
    · rcases opt.shape with e | ⟨k, hk, e, hc⟩
      · exact .inl e
      · rw [hcnt _ (hpow k hk), hhalf] at hc
        exact .inr ⟨k, hk, e, hc⟩
    · intro k hk hc
      apply opt.best k hk
      rw [hcnt _ (hpow k hk), hhalf]; exact hc

theorem countP_split (L : List Nat) (a b : Nat) (h : a ≤ b) :
    L.countP (fun x => decide (a < x ∧ x ≤ b)) + L.countP (fun x => decide (x ≤ a)) = L.countP (fun x => decide (x ≤ b)) := by
  induction L with
  | nil => rfl
  | cons x L ih =>
    simp only [List.countP_cons, decide_eq_true_eq]
    split <;> split <;> split <;> omega

/-- **C13** (`computesizes` for any set `L` of candidate integer keys): with `nums` the slice counts of `L`,
the result `(o, n)` is the optimal size and exactly the number of keys in `1..o`. -/
theorem computesizes_optimal (L : List Nat) (hd : L.Nodup) (hL : ∀ x ∈ L, 1 ≤ x ∧ x ≤ 2 ^ 31) :
    ∃ o n, computesizes (fun j => L.countP (fun x => decide (2 ^ j / 2 < x ∧ x ≤ 2 ^ j))) L.length = .ok (o, n) ∧
      n = L.countP (fun x => decide (x ≤ o)) ∧
      (o = 0 ∨ ∃ k, k < 32 ∧ o = 2 ^ k ∧ 2 ^ k < 2 * L.countP (fun x => decide (x ≤ 2 ^ k))) ∧
      (∀ k, k < 32 → 2 ^ k < 2 * L.countP (fun x => decide (x ≤ 2 ^ k)) → 2 ^ k ≤ o) := by
  have hle : ∀ n, L.countP (fun x => decide (x ≤ n)) ≤ n := by
    intro n
    rw [List.countP_eq_length_filter]
    have := pigeonhole (l := (L.filter (fun x => decide (x ≤ n))).map (· - 1)) (n := n) (by
      rw [List.nodup_iff_pairwise_ne, List.pairwise_map]
      have := hd.filter (fun x => decide (x ≤ n))
      refine this.imp_of_mem ?_
      intro a b ha hb hab
      have := hL a (List.mem_filter.1 ha).1
      have := hL b (List.mem_filter.1 hb).1
      omega) (by
      intro x hx
      obtain ⟨y, hy, e⟩ := List.mem_map.1 hx
      have h1 := List.mem_filter.1 hy
      have := hL y h1.1
      have h2 := of_decide_eq_true h1.2
      omega)
    simpa using this
  obtain ⟨o, n, h1, h2⟩ := computesizes_spec (fun j => L.countP (fun x => decide (2 ^ j / 2 < x ∧ x ≤ 2 ^ j)))
    (fun n => L.countP (fun x => decide (x ≤ n))) L.length
    (by intro j _; exact countP_split L _ _ (Nat.div_le_self _ _))
    (by have := hle 0; omega) (fun n _ => List.countP_le_length) (fun n _ => hle n)
  have hhalf : ∀ k c, 2 ^ k / 2 < c ↔ 2 ^ k < 2 * c := by intro k c; omega
  refine ⟨o, n, h1, h2.na, ?_, ?_⟩
  · rcases h2.shape with e | ⟨k, hk, e, hc⟩
    · exact .inl e
    · exact .inr ⟨k, hk, e, (hhalf _ _).1 hc⟩
  · intro k hk hc; exact h2.best k hk ((hhalf _ _).2 hc)

/-! ### a concrete history: every theorem above applies to it

Four colliding keys, an integer key that is later removed, a float key equal to an integer, a
collection; α = strings (with an address), everything hashes to 5. -/

def demoHash : Hash String := ⟨fun _ => .pow2 5, 0, fun _ => 0⟩
def demoOps : List (Op String Nat) :=
  [.set (.key (.oth "a") (some 100)) (some 1), .set (.key (.oth "b") (some 200)) (some 2),
   .set (.key (.int 1) none) (some 3), .set (.fltInt 2) (some 4), .set (.key (.oth "c") (some 300)) (some 5),
   .set (.key (.oth "a") (some 100)) none, .gc (fun _ => true), .grow 3, .set (.key (.int 3) none) (some 6)]

/-- executable form of `Allowed` used for the example -/
def allowedB (t : Tbl α V) : Op α V → Bool
  | .set k _ => match k.norm with
    | none => false
    | some k' => (List.range t.size).all (fun i => match (t.node i).key with
      | .live k'' o => decide (k.obj = none) || decide (o ≠ k.obj) || decide (k'' = k')
      | _ => true)
  | .grow n => decide (n ≤ 2 ^ 31)
  | .gc _ => true

theorem allowedB_sound {t : Tbl α V} {op : Op α V} (h : allowedB t op = true) : Allowed t op := by
  cases op with
  | set k v =>
    unfold allowedB at h
    dsimp only at h
    cases hn : k.norm with
    | none => rw [hn] at h; cases h
    | some k' =>
      rw [hn] at h
      refine ⟨k', hn, ?_⟩
      intro ho i hi k'' hk
      have := List.all_eq_true.1 h i (List.mem_range.2 hi)
      rw [hk] at this
      simpa [ho] using this
  | grow n => unfold allowedB at h; exact of_decide_eq_true (p := n ≤ 2 ^ 31) h
  | gc p => trivial

def runB (H : Hash α) : List (Op α V) → Tbl α V → Option (Tbl α V)
  | [], t => some t
  | op :: ops, t => if allowedB t op then match step H t op with
      | .ok t => runB H ops t
      | _ => none
    else none

theorem runB_sound {H : Hash α} : ∀ (ops ops0 : List (Op α V)) (t t' : Tbl α V), History H ops0 t →
    runB H ops t = some t' → History H (ops0 ++ ops) t' := by
  intro ops
  induction ops with
  | nil => intro ops0 t t' h hr; cases hr; simpa using h
  | cons op ops ih =>
    intro ops0 t t' h hr
    unfold runB at hr
    split at hr
    · rename_i ha
      cases hs : step H t op with
      | ok t1 =>
        rw [hs] at hr
        have := ih (ops0 ++ [op]) t1 t' (h.step op (allowedB_sound ha) hs) hr
        simpa using this
      | err m => rw [hs] at hr; cases hr
      | ub => rw [hs] at hr; cases hr
    · cases hr

example : ∃ t : Tbl String Nat, History demoHash demoOps t ∧
    rawget demoHash t (.key (.int 2) none) = .ok (some 4) ∧ rawget demoHash t (.key (.oth "a") (some 100)) = .ok none ∧
    getn demoHash t = .ok 3 := by
  have h0 : (match resize demoHash (new : Tbl String Nat) 0 0 with
    | .ok t => (runB demoHash demoOps t).isSome && (match (runB demoHash demoOps t) with
      | some t => decide (getn demoHash t = .ok 3)
      | none => false)
    | _ => false) = true := by decide +kernel
  cases hc : resize demoHash (new : Tbl String Nat) 0 0 with
  | ok t0 =>
    rw [hc] at h0
    simp only [Bool.and_eq_true] at h0
    obtain ⟨t, ht⟩ := Option.isSome_iff_exists.1 h0.1
    have hh := runB_sound demoOps [] t0 t (.create 0 0 t0 (by decide) (by decide) hc) ht
    refine ⟨t, hh, ?_, ?_, ?_⟩
    · rw [table_is_finite_map _ _ _ hh]; rfl
    · rw [table_is_finite_map _ _ _ hh]; rfl
    · rw [ht] at h0; simpa using h0.2
  | err m => rw [hc] at h0; cases h0
  | ub => rw [hc] at h0; cases h0

/-- `computesizes_optimal` on the keys 1,2,3,5,9: size 8 would have 4 of 8 (not more than half), so 4. -/
example : computesizes (fun j => [1, 2, 3, 5, 9].countP (fun x => decide (2 ^ j / 2 < x ∧ x ≤ 2 ^ j))) 5 = .ok (4, 3) := by
  decide +kernel

end Verif.Table
