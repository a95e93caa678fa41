import Verif.Ref.Model
/-!
# C34: references from `luaL_ref`
-/
namespace Verif.Ref

/-- `l` is the free list starting at value `v`. -/
def Free (t : Tab) : Val → List Int → Prop
  | v, [] => toInt v = 0
  | v, r :: l => v = .int r ∧ Free t (t r) l

theorem free_congr {t t' : Tab} {v : Val} {l : List Int} (h : ∀ r ∈ l, t' r = t r)
    (hf : Free t v l) : Free t' v l := by
  induction l generalizing v with
  | nil => exact hf
  | cons r l ih => exact ⟨hf.1, by rw [h r (by simp)]; exact ih (fun x hx => h x (by simp [hx])) hf.2⟩

/-- `m` is the highest index in use. -/
structure Inv (t0 : Tab) (k m : Nat) (t : Tab) (live : List (Int × Val)) (fl : List Int) : Prop where
  free : Free t (t 0) fl
  nodup : (live.map (·.1) ++ fl).Nodup
  range : ∀ r ∈ live.map (·.1) ++ fl, (k : Int) < r ∧ r ≤ m
  cover : ∀ r : Int, (k : Int) < r → r ≤ m → r ∈ live.map (·.1) ++ fl
  le : k ≤ m
  above : ∀ r : Int, (m : Int) < r → t r = .nil
  vals : ∀ p ∈ live, t p.1 = p.2 ∧ p.2 ≠ .nil
  frame : ∀ r : Int, r ≠ 0 → r ≤ k → t r = t0 r

theorem set_eq {t : Tab} {k : Int} {v : Val} : set t k v k = v := by simp [set]
theorem set_ne {t : Tab} {k j : Int} {v : Val} (h : j ≠ k) : set t k v j = t j := by simp [set, h]

theorem hist_inv {t0 : Tab} {k n : Nat} {t : Tab} {live : List (Int × Val)} (h0 : Fresh t0 k)
    (h : Hist t0 n t live) (hn : k + n < 2147483648) :
    ∃ m fl, Inv t0 k m t live fl ∧ m ≤ k + n := by
  induction h with
  | start =>
    refine ⟨k, [], ⟨?_, by simp, by simp, ?_, Nat.le_refl _, h0.2.2, by simp, fun _ _ _ => rfl⟩, by omega⟩
    · show toInt (t0 0) = 0
      rw [h0.1]; rfl
    · intro r h1 h2; omega
  | @ref n t live v b hh hb hv ih =>
    obtain ⟨m, fl, I, hm⟩ := ih (by omega)
    unfold ref
    rw [if_neg hv]
    unfold freelist
    cases fl with
    | nil =>
      have hz : toInt (t 0) = 0 := I.free
      rw [hz]
      have hc0 : cast32 0 = 0 := by decide
      rw [hc0]
      simp only [ne_eq, not_true_eq_false, if_false]
      have hbm : b = (m : Int) := by
        obtain ⟨hb0, hb1, hb2⟩ := hb
        have h1 : b ≤ m := by
          rcases hb1 with h | h
          · omega
          · rcases Int.lt_or_le (m : Int) b with h2 | h2
            · exact absurd (I.above b h2) h
            · exact h2
        rcases Int.lt_or_le b (m : Int) with h2 | h2
        · exfalso
          rcases Int.lt_or_le (k : Int) (b + 1) with h3 | h3
          · have := I.cover (b + 1) h3 (by omega)
            simp only [List.append_nil] at this
            obtain ⟨p, hp1, hp2⟩ := List.mem_map.1 this
            have hp := I.vals p hp1
            rw [hp2, hb2] at hp
            exact hp.2 hp.1.symm
          · rw [I.frame (b + 1) (by omega) h3] at hb2
            exact h0.2.1 (b + 1) (by omega) h3 hb2
        · omega
      subst hbm
      have hc : cast32 (cast32 (m : Int) + 1) = (m : Int) + 1 := by unfold cast32; omega
      rw [hc]
      have hnot : ((m : Int) + 1) ∉ live.map (·.1) := fun hmem => by
        have := I.range _ (List.mem_append_left _ hmem); omega
      refine ⟨m + 1, [], ⟨?_, ?_, ?_, ?_, by have := I.le; omega, ?_, ?_, ?_⟩, by omega⟩
      · show toInt (set t _ v 0) = 0
        rw [set_ne (by omega)]; exact hz
      · simp only [List.map_cons, List.append_nil, List.nodup_cons]
        exact ⟨hnot, by simpa using I.nodup⟩
      · intro r hr
        simp only [List.map_cons, List.append_nil, List.mem_cons] at hr
        rcases hr with rfl | hr
        · have := I.le; omega
        · have := I.range r (List.mem_append_left _ hr); omega
      · intro r h1 h2
        simp only [List.map_cons, List.append_nil, List.mem_cons]
        rcases Int.lt_or_le (m : Int) r with h3 | h3
        · left; omega
        · right; simpa using I.cover r h1 h3
      · intro r hr
        show set t _ v r = .nil
        rw [set_ne (by omega)]
        exact I.above r (by omega)
      · intro p hp
        show set t _ v p.1 = p.2 ∧ _
        rcases List.mem_cons.1 hp with rfl | hp
        · exact ⟨set_eq, hv⟩
        · rw [set_ne]
          · exact I.vals p hp
          · intro he
            exact hnot (by rw [← he]; exact List.mem_map.2 ⟨p, hp, rfl⟩)
      · intro r h1 h2
        show set t _ v r = _
        rw [set_ne (by have := I.le; omega)]
        exact I.frame r h1 h2
    | cons r0 fl =>
      have hf := I.free
      have h1 : t 0 = .int r0 := hf.1
      have hr0 := I.range r0 (by simp)
      have hc : cast32 (toInt (t 0)) = r0 := by rw [h1]; unfold toInt cast32; dsimp only; omega
      rw [hc]
      have hne : r0 ≠ 0 := by omega
      rw [if_pos hne]
      have hnd := I.nodup
      rw [List.nodup_append] at hnd
      have hnd2 := List.nodup_cons.1 hnd.2.1
      have hnot : r0 ∉ live.map (·.1) := fun hmem => hnd.2.2 r0 hmem r0 (by simp) rfl
      have hval : ∀ j : Int, j ≠ 0 → j ≠ r0 → set (set t 0 (t r0)) r0 v j = t j := fun j a b => by
        rw [set_ne b, set_ne a]
      refine ⟨m, fl, ⟨?_, ?_, ?_, ?_, I.le, ?_, ?_, ?_⟩, by omega⟩
      · show Free _ (set (set t 0 (t r0)) r0 v 0) fl
        rw [set_ne (Ne.symm hne), set_eq]
        refine free_congr ?_ hf.2
        intro x hx
        apply hval
        · have := I.range x (by simp [hx]); omega
        · rintro rfl; exact hnd2.1 hx
      · simp only [List.map_cons, List.cons_append, List.nodup_cons, List.mem_append, not_or]
        refine ⟨⟨hnot, hnd2.1⟩, List.nodup_append.2 ⟨hnd.1, hnd2.2, ?_⟩⟩
        intro a ha b hb; exact hnd.2.2 a ha b (by simp [hb])
      · intro r hr
        apply I.range r
        simp only [List.map_cons, List.cons_append, List.mem_cons, List.mem_append] at hr ⊢
        rcases hr with h | h | h
        · right; left; exact h
        · left; exact h
        · right; right; exact h
      · intro r ha hb
        have := I.cover r ha hb
        simp only [List.map_cons, List.cons_append, List.mem_cons, List.mem_append] at this ⊢
        rcases this with h | h | h
        · right; left; exact h
        · left; exact h
        · right; right; exact h
      · intro r hr
        show set (set t 0 (t r0)) r0 v r = .nil
        rw [hval r (by omega) (by omega)]
        exact I.above r hr
      · intro p hp
        show set (set t 0 (t r0)) r0 v p.1 = p.2 ∧ _
        rcases List.mem_cons.1 hp with rfl | hp
        · exact ⟨set_eq, hv⟩
        · rw [hval]
          · exact I.vals p hp
          · have := I.range p.1 (List.mem_append_left _ (List.mem_map.2 ⟨p, hp, rfl⟩)); omega
          · intro he
            exact hnot (by rw [← he]; exact List.mem_map.2 ⟨p, hp, rfl⟩)
      · intro r ha hb
        show set (set t 0 (t r0)) r0 v r = _
        rw [hval r ha (by omega)]
        exact I.frame r ha hb
  | refnil b hh ih =>
    obtain ⟨m, fl, I, hm⟩ := ih hn
    refine ⟨m, fl, ?_, hm⟩
    unfold Ref.ref
    rw [if_pos rfl]
    exact I
  | @unref n t live p hh hp ih =>
    obtain ⟨m, fl, I, hm⟩ := ih hn
    refine ⟨m, p.1 :: fl, ?_, hm⟩
    have hpm : p.1 ∈ live.map (·.1) := List.mem_map.2 ⟨p, hp, rfl⟩
    have hr := I.range p.1 (List.mem_append_left _ hpm)
    unfold unref freelist
    rw [if_pos (by omega)]
    dsimp only
    have hne : p.1 ≠ 0 := by omega
    have hnd := List.nodup_append.1 I.nodup
    have hval : ∀ j : Int, j ≠ 0 → j ≠ p.1 → set (set t p.1 (t 0)) 0 (.int p.1) j = t j :=
      fun j a b => by rw [set_ne a, set_ne b]
    have hperm : (p.1 :: (live.erase p).map (·.1)).Perm (live.map (·.1)) :=
      ((List.perm_cons_erase hp).map (fun x : Int × Val => x.1)).symm
    have hperm2 : ((live.erase p).map (·.1) ++ p.1 :: fl).Perm (live.map (·.1) ++ fl) :=
      List.perm_middle.trans (hperm.append_right fl)
    refine ⟨?_, (hperm2.nodup_iff).2 I.nodup, fun r h => I.range r (hperm2.mem_iff.1 h),
      fun r a b => hperm2.mem_iff.2 (I.cover r a b), I.le, ?_, ?_, ?_⟩
    · show Free _ (set (set t p.1 (t 0)) 0 (.int p.1) 0) _
      rw [set_eq]
      refine ⟨rfl, ?_⟩
      rw [set_ne hne, set_eq]
      refine free_congr ?_ I.free
      intro x hx
      apply hval
      · have := I.range x (by simp [hx]); omega
      · rintro rfl; exact hnd.2.2 p.1 hpm p.1 hx rfl
    · intro r h1
      rw [hval r (by omega) (by omega)]
      exact I.above r h1
    · intro q hq
      have hq' := List.mem_of_mem_erase hq
      rw [hval]
      · exact I.vals q hq'
      · have := I.range q.1 (List.mem_append_left _ (List.mem_map.2 ⟨q, hq', rfl⟩)); omega
      · intro he
        have h2 : (p.1 :: (live.erase p).map (·.1)).Nodup := (hperm.nodup_iff).2 hnd.1
        exact (List.nodup_cons.1 h2).1 (by rw [← he]; exact List.mem_map.2 ⟨q, hq, rfl⟩)
    · intro r h1 h2
      rw [hval r h1 (by omega)]
      exact I.frame r h1 h2
  | unrefneg r hh hr ih =>
    obtain ⟨m, fl, I, hm⟩ := ih hn
    refine ⟨m, fl, ?_, hm⟩
    unfold Ref.unref
    rw [if_neg (by omega)]
    exact I

/-- C34. After any history with fewer than `2^31` references: live references are pairwise
distinct, positive and none of the indices in use by others; each still yields the object it
was created for; the entries of others are untouched; and the next reference, for any non-nil
object and whatever border the length operator returns, is not a live one. -/
theorem ref_unique (t0 t : Tab) (k n : Nat) (live : List (Int × Val)) (h0 : Fresh t0 k)
    (h : Hist t0 n t live) (hn : k + n + 1 < 2147483648) :
    (live.map (·.1)).Nodup ∧
    (∀ p ∈ live, (k : Int) < p.1 ∧ t p.1 = p.2) ∧
    (∀ i : Int, 1 ≤ i → i ≤ k → t i = t0 i) ∧
    (∀ i : Int, i < 0 → t i = t0 i) ∧
    (∀ v b, v ≠ .nil → Border t b →
      (ref t v b).2 ∉ live.map (·.1) ∧ (k : Int) < (ref t v b).2 ∧
      (ref t v b).1 (ref t v b).2 = v) := by
  obtain ⟨m, fl, I, hm⟩ := hist_inv h0 h (by omega)
  refine ⟨(List.nodup_append.1 I.nodup).1, ?_, ?_, ?_, ?_⟩
  · intro p hp
    exact ⟨(I.range p.1 (List.mem_append_left _ (List.mem_map.2 ⟨p, hp, rfl⟩))).1, (I.vals p hp).1⟩
  · intro i h1 h2; exact I.frame i (by omega) h2
  · intro i h1; exact I.frame i (by omega) (by omega)
  · intro v b hv hb
    obtain ⟨m', fl', I', _⟩ := hist_inv h0 (Hist.ref v b h hb hv) (by omega)
    have hnd := (List.nodup_append.1 I'.nodup).1
    rw [List.map_cons, List.nodup_cons] at hnd
    exact ⟨hnd.1, (I'.range _ (by simp)).1, (I'.vals _ (List.mem_cons_self ..)).1⟩

/-- Nil always maps to `LUA_REFNIL`, which no other object gets, and changes nothing; releasing
`LUA_REFNIL` or `LUA_NOREF` changes nothing. -/
theorem ref_nil (t : Tab) (b : Int) :
    ref t .nil b = (t, REFNIL) ∧ unref t REFNIL = t ∧ unref t (-2) = t := by
  refine ⟨by unfold ref; rw [if_pos rfl], ?_, ?_⟩ <;> (unfold unref; rw [if_neg (by decide)])

/-- Released references are reused before the table grows: after releasing a live reference, the
next object gets exactly that reference. -/
theorem ref_reuse (t0 t : Tab) (k n : Nat) (live : List (Int × Val)) (h0 : Fresh t0 k)
    (h : Hist t0 n t live) (hn : k + n < 2147483648) (p : Int × Val) (hp : p ∈ live)
    (v : Val) (hv : v ≠ .nil) (b : Int) : (ref (unref t p.1) v b).2 = p.1 := by
  obtain ⟨m, fl, I, hm⟩ := hist_inv h0 h hn
  have hr := I.range p.1 (List.mem_append_left _ (List.mem_map.2 ⟨p, hp, rfl⟩))
  have e : unref t p.1 freelist = .int p.1 := by
    unfold unref; rw [if_pos (by omega)]; simp [set]
  have hc : cast32 (toInt (unref t p.1 freelist)) = p.1 := by
    rw [e]; unfold toInt cast32; dsimp only; omega
  unfold ref
  rw [if_neg hv]
  dsimp only
  rw [hc, if_pos (by omega)]

/-- A registry with two predefined entries. -/
def reg0 : Tab := fun i => if i = 1 ∨ i = 2 then .other 7 else .nil

example : Fresh reg0 2 := by
  refine ⟨rfl, ?_, ?_⟩
  · intro i h1 h2 h3; unfold reg0 at h3; rw [if_pos (by omega)] at h3; cases h3
  · intro i h; unfold reg0; rw [if_neg (by omega)]

-- three references, two released and reused in reverse order
example : let t1 := ref reg0 (.other 10) 2
    let t2 := ref t1.1 (.int 55) 3
    let t3 := ref t2.1 (.other 12) 4
    let t4 := unref (unref t3.1 4) 3
    let t5 := ref t4 (.other 13) 0
    let t6 := ref t5.1 (.other 14) 0
    let t7 := ref t6.1 (.other 15) 5
    (t1.2, t2.2, t3.2, t5.2, t6.2, t7.2) = (3, 4, 5, 3, 4, 6) := by decide +kernel

example : ∃ t, Hist reg0 1 t [(3, .other 10)] ∧ t 3 = .other 10 := by
  have hb : Border reg0 2 := ⟨by omega, .inr (by decide), by decide⟩
  have := Hist.ref (.other 10) 2 (Hist.start (t0 := reg0)) hb (by decide)
  exact ⟨_, this, rfl⟩

end Verif.Ref
