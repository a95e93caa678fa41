import Verif.PtrList.Ops

/-!
The operations that are loops over a list: `remove`, `replace` and `concat`.
-/
namespace Verif.PtrList

theorem contents_length {h : Heap} : ∀ {ps : List Nat}, Okay h ps →
    (contents h ps).length ≤ 7 * ps.length
  | [], _ => by simp
  | p :: ps, H => by
    obtain ⟨n, hn, hok⟩ := H p (by simp)
    have := contents_length (ps := ps) (fun q hq => H q (by simp [hq]))
    have h1 := hok.hi
    rw [contents_cons, List.length_append, ents_some hn, ents_length, List.length_cons]
    omega

theorem Is.length_le {h : Heap} {l : Nat} {ps xs : List Nat} (H : Is h l ps xs) :
    xs.length ≤ 7 * ps.length := by
  rw [← H.xs]; exact contents_length H.ok

theorem iterNext_cons {h : Heap} {l : Nat} {ps xs : List Nat} (H : Is h l ps xs) {it : It}
    {pre post : List Nat} {x : Nat} (ha : At h l ps it pre (x :: post)) (hx : x ≠ 0) {f : Nat}
    (hf : 8 * ps.length < f) :
    ∃ it', iterNext h f it = .ok (x, it') ∧ On h l ps it' pre x post := by
  have := (iterNext_spec H ha hf).1 x post (by simp [hx])
  simpa [hx] using this

theorem iterNext_nil {h : Heap} {l : Nat} {ps xs : List Nat} (H : Is h l ps xs) {it : It}
    {pre : List Nat} (ha : At h l ps it pre []) {f : Nat} (hf : 8 * ps.length < f) :
    ∃ it', iterNext h f it = .ok (0, it') := by
  obtain ⟨it', e, _⟩ := (iterNext_spec H ha hf).2 rfl
  exact ⟨it', e⟩

/-- the list without the first `k` occurrences of `e` -/
def without (e : Nat) : Nat → List Nat → List Nat
  | 0, L => L
  | _ + 1, [] => []
  | k + 1, x :: L => if x = e then without e k L else x :: without e (k + 1) L

/-- the list with `v` for the first `k` occurrences of `e` -/
def replaced (e v : Nat) : Nat → List Nat → List Nat
  | 0, L => L
  | _ + 1, [] => []
  | k + 1, x :: L => if x = e then v :: replaced e v k L else x :: replaced e v (k + 1) L

theorem without_nil (e k : Nat) : without e k [] = [] := by cases k <;> rfl
theorem replaced_nil (e v k : Nat) : replaced e v k [] = [] := by cases k <;> rfl

theorem removeLoop_spec {l : Nat} {ps : List Nat} {e f : Nat} (hf : 8 * ps.length < f) :
    ∀ (g : Nat) (h : Heap) (it : It) (pre post : List Nat) (c : Int), Is h l ps (pre ++ post) →
      0 ∉ post → At h l ps it pre post → post.length < g →
      (0 < c → c ≤ post.count e → ∃ h', removeLoop f e g h it c = .ok (h', 0) ∧
        Is h' l ps (pre ++ without e c.toNat post) ∧ Frame h ps h' ps) ∧
      (c ≤ 0 → ∃ h', removeLoop f e g h it c = .ok (h', c - post.count e) ∧
        Is h' l ps (pre ++ post.filter (· ≠ e)) ∧ Frame h ps h' ps) ∧
      (post.count e < c → removeLoop f e g h it c = .err "assert") := by
  intro g
  induction g with
  | zero => intro h it pre post c _ _ _ hg; omega
  | succ g ih =>
    intro h it pre post c H hz ha hg
    simp only [removeLoop]
    cases post with
    | nil =>
      obtain ⟨it', e1⟩ := iterNext_nil H ha hf
      rw [e1, Res.bind_ok]
      simp only [if_true]
      refine ⟨fun h1 h2 => ?_, fun h1 => ⟨h, ?_, H, Frame.refl ..⟩, fun h1 => ?_⟩
      · simp at h2; omega
      · rw [if_pos h1]; simp
      · rw [if_neg (by simpa using h1)]
    | cons x post =>
      have hx : x ≠ 0 := by rintro rfl; simp at hz
      have hz' : 0 ∉ post := fun hh => hz (by simp [hh])
      obtain ⟨it', e1, ho⟩ := iterNext_cons H ha hx hf
      rw [e1, Res.bind_ok]
      simp only [if_neg hx]
      simp only [List.length_cons] at hg
      by_cases hxe : x = e
      · subst hxe
        obtain ⟨h1, it1, e2, H1, ha1, hfr⟩ := iterRemove_spec H ho hx
        simp only [if_true, e2, Res.bind_ok]
        by_cases hc : c - 1 = 0
        · rw [if_pos hc]
          refine ⟨fun _ _ => ⟨h1, rfl, ?_, hfr⟩, fun _ => by omega, fun h2 => ?_⟩
          · have : c.toNat = 1 := by omega
            rw [this]
            simpa [without] using H1
          · rw [List.count_cons_self] at h2; omega
        · rw [if_neg hc]
          obtain ⟨i1, i2, i3⟩ := ih h1 it1 pre post (c - 1) H1 hz' ha1 (by omega)
          refine ⟨fun h2 h3 => ?_, fun h2 => ?_, fun h2 => ?_⟩
          · rw [List.count_cons_self] at h3
            obtain ⟨h', e3, H', f'⟩ := i1 (by omega) (by omega)
            refine ⟨h', e3, ?_, hfr.trans f'⟩
            have : c.toNat = (c - 1).toNat + 1 := by omega
            rw [this]
            simpa [without] using H'
          · obtain ⟨h', e3, H', f'⟩ := i2 (by omega)
            refine ⟨h', ?_, ?_, hfr.trans f'⟩
            · rw [e3, List.count_cons_self]
              congr 2
              omega
            · rw [List.filter_cons_of_neg (by simp)]; exact H'
          · rw [List.count_cons_self] at h2
            exact i3 (by omega)
      · rw [if_neg hxe]
        have H' : Is h l ps ((pre ++ [x]) ++ post) := by simpa using H
        obtain ⟨i1, i2, i3⟩ := ih h it' (pre ++ [x]) post c H' hz' ho.at (by omega)
        refine ⟨fun h2 h3 => ?_, fun h2 => ?_, fun h2 => ?_⟩
        · rw [List.count_cons_of_ne hxe] at h3
          obtain ⟨h', e3, H', f'⟩ := i1 (by omega) (by omega)
          refine ⟨h', e3, ?_, f'⟩
          have : c.toNat = (c.toNat - 1) + 1 := by omega
          rw [this] at H' ⊢
          rw [without, if_neg hxe]
          simpa using H'
        · obtain ⟨h', e3, H', f'⟩ := i2 (by omega)
          refine ⟨h', ?_, ?_, f'⟩
          · rw [e3, List.count_cons_of_ne hxe]
          · rw [List.filter_cons_of_pos (by simpa using hxe)]; simpa using H'
        · rw [List.count_cons_of_ne hxe] at h2
          exact i3 (by omega)

theorem replaceLoop_spec {l : Nat} {ps : List Nat} {e v f : Nat} (hf : 8 * ps.length < f)
    (hv : v ≠ 0) :
    ∀ (g : Nat) (h : Heap) (it : It) (pre post : List Nat) (c : Int), Is h l ps (pre ++ post) →
      0 ∉ post → At h l ps it pre post → post.length < g →
      (0 < c → c ≤ post.count e → ∃ h', replaceLoop f e v g h it c = .ok (h', 0) ∧
        Is h' l ps (pre ++ replaced e v c.toNat post) ∧ Frame h ps h' ps) ∧
      (c ≤ 0 → ∃ h', replaceLoop f e v g h it c = .ok (h', c - post.count e) ∧
        Is h' l ps (pre ++ post.map (fun x => if x = e then v else x)) ∧ Frame h ps h' ps) ∧
      (post.count e < c → replaceLoop f e v g h it c = .err "assert") := by
  intro g
  induction g with
  | zero => intro h it pre post c _ _ _ hg; omega
  | succ g ih =>
    intro h it pre post c H hz ha hg
    simp only [replaceLoop]
    cases post with
    | nil =>
      obtain ⟨it', e1⟩ := iterNext_nil H ha hf
      rw [e1, Res.bind_ok]
      simp only [if_true]
      refine ⟨fun h1 h2 => ?_, fun h1 => ⟨h, ?_, H, Frame.refl ..⟩, fun h1 => ?_⟩
      · simp at h2; omega
      · rw [if_pos h1]; simp
      · rw [if_neg (by simpa using h1)]
    | cons x post =>
      have hx : x ≠ 0 := by rintro rfl; simp at hz
      have hz' : 0 ∉ post := fun hh => hz (by simp [hh])
      obtain ⟨it', e1, ho⟩ := iterNext_cons H ha hx hf
      rw [e1, Res.bind_ok]
      simp only [if_neg hx]
      simp only [List.length_cons] at hg
      by_cases hxe : x = e
      · subst hxe
        obtain ⟨h1, e2, H1, ho1, hfr⟩ := iterSet_spec H ho hx hv
        simp only [if_true, e2, Res.bind_ok]
        have H1' : Is h1 l ps ((pre ++ [v]) ++ post) := by simpa using H1
        by_cases hc : c - 1 = 0
        · rw [if_pos hc]
          refine ⟨fun _ _ => ⟨h1, rfl, ?_, hfr⟩, fun _ => by omega, fun h2 => ?_⟩
          · have : c.toNat = 1 := by omega
            rw [this]
            simpa [replaced] using H1
          · rw [List.count_cons_self] at h2; omega
        · rw [if_neg hc]
          obtain ⟨i1, i2, i3⟩ := ih h1 it' (pre ++ [v]) post (c - 1) H1' hz' ho1.at (by omega)
          refine ⟨fun h2 h3 => ?_, fun h2 => ?_, fun h2 => ?_⟩
          · rw [List.count_cons_self] at h3
            obtain ⟨h', e3, H', f'⟩ := i1 (by omega) (by omega)
            refine ⟨h', e3, ?_, hfr.trans f'⟩
            have : c.toNat = (c - 1).toNat + 1 := by omega
            rw [this]
            simpa [replaced] using H'
          · obtain ⟨h', e3, H', f'⟩ := i2 (by omega)
            refine ⟨h', ?_, ?_, hfr.trans f'⟩
            · rw [e3, List.count_cons_self]
              congr 2
              omega
            · simpa using H'
          · rw [List.count_cons_self] at h2
            exact i3 (by omega)
      · rw [if_neg hxe]
        have H' : Is h l ps ((pre ++ [x]) ++ post) := by simpa using H
        obtain ⟨i1, i2, i3⟩ := ih h it' (pre ++ [x]) post c H' hz' ho.at (by omega)
        refine ⟨fun h2 h3 => ?_, fun h2 => ?_, fun h2 => ?_⟩
        · rw [List.count_cons_of_ne hxe] at h3
          obtain ⟨h', e3, H', f'⟩ := i1 (by omega) (by omega)
          refine ⟨h', e3, ?_, f'⟩
          have : c.toNat = (c.toNat - 1) + 1 := by omega
          rw [this] at H' ⊢
          rw [replaced, if_neg hxe]
          simpa using H'
        · obtain ⟨h', e3, H', f'⟩ := i2 (by omega)
          refine ⟨h', ?_, ?_, f'⟩
          · rw [e3, List.count_cons_of_ne hxe]
          · simpa [hxe] using H'
        · rw [List.count_cons_of_ne hxe] at h2
          exact i3 (by omega)

/-- a list that has no node in common with the one that changes -/
theorem Frame.apart {h h' : Heap} {ps ps' qs : List Nat} (f : Frame h ps h' ps')
    (hq : Okay h qs) (hd : ∀ q ∈ qs, q ∉ ps) : (∀ q ∈ qs, h' q = h q) ∧ ∀ q ∈ qs, q ∉ ps' := by
  have : ∀ q ∈ qs, q ∉ ps' := by
    intro q hm hm'
    rcases f.new q hm' with hh | hh
    · exact hd q hm hh
    · obtain ⟨n, hn, _⟩ := hq q hm
      rw [hh] at hn; cases hn
  exact ⟨fun q hm => f.other q (hd q hm) (this q hm), this⟩

theorem concatLoop_spec (al : Alloc) {a : Nat} {qs : List Nat} {f : Nat}
    (hf : 8 * qs.length < f) :
    ∀ (g : Nat) (h : Heap) (it : It) (pre post : List Nat) (l : Nat) (ps xs : List Nat), h.Fine →
      Is h a qs (pre ++ post) → 0 ∉ post → At h a qs it pre post → post.length < g →
      Is h l ps xs → (∀ q ∈ qs, q ∉ ps) →
      ∃ h' l' ps', concatLoop al f g h it l = .ok (h', l') ∧ Is h' l' ps' (xs ++ post) ∧
        Is h' a qs (pre ++ post) ∧ Frame h ps h' ps' := by
  intro g
  induction g with
  | zero => intro h it pre post l ps xs _ _ _ _ hg; omega
  | succ g ih =>
    intro h it pre post l ps xs hfine Ha hz hat hg Hl hd
    simp only [concatLoop]
    cases post with
    | nil =>
      obtain ⟨it', e1⟩ := iterNext_nil Ha hat hf
      rw [e1, Res.bind_ok]
      simp only [if_true]
      exact ⟨h, l, ps, rfl, by simpa using Hl, Ha, Frame.refl ..⟩
    | cons x post =>
      have hx : x ≠ 0 := by rintro rfl; simp at hz
      have hz' : 0 ∉ post := fun hh => hz (by simp [hh])
      obtain ⟨it', e1, ho⟩ := iterNext_cons Ha hat hx hf
      rw [e1, Res.bind_ok]
      simp only [if_neg hx]
      simp only [List.length_cons] at hg
      obtain ⟨h1, l1, ps1, p, i, e2, H1, _, _, hfr, _⟩ := add_spec al hfine Hl hx
      rw [e2, Res.bind_ok]
      obtain ⟨hsame, hd1⟩ := hfr.apart Ha.ok hd
      have Ha1 : Is h1 a qs ((pre ++ [x]) ++ post) := by
        have := Ha.frame hsame
        simpa using this
      obtain ⟨h', l', ps', e3, H2, H3, f2⟩ := ih h1 it' (pre ++ [x]) post l1 ps1 (xs ++ [x])
        (hfr.fine hfine Hl.nz H1.nz) Ha1 hz' (ho.at.frame hsame) (by omega) H1 hd1
      refine ⟨h', l', ps', e3, by simpa using H2, by simpa using H3, hfr.trans f2⟩

end Verif.PtrList
