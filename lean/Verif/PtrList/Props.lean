import Verif.PtrList.Loops

/-!
C81: a pointer list of the compiler is a sequence.

`Is h l ps xs` says that in the heap `h` the pointer `l` is a list with the nodes `ps` and the
entries `xs` (`0`, that is `NULL`, is an entry that was marked deleted).  `Frame h ps h' ps'` says
what an operation may change: it gives back the nodes it no longer needs, takes new ones only
from free memory, and leaves everything else alone; so lists without a common node do not
disturb each other (`others_kept`).
-/
namespace Verif.PtrList

/-! ### Looking -/

/-- `FOR_EACH_PTR` sees the elements, each once, in order, and ends -/
theorem for_each {h : Heap} {l : Nat} {ps xs : List Nat} (H : Is h l ps xs) {f : Nat}
    (hf : 8 * ps.length < f) : walk h f f (forward l) = .ok (xs.filter (· ≠ 0)) :=
  walk_at H hf f (forward l) [] xs (forward_at H) (by have := H.length_le; omega)

/-- `FOR_EACH_PTR_REVERSE` sees them in the opposite order -/
theorem for_each_reverse {h : Heap} {l : Nat} {ps xs : List Nat} (H : Is h l ps xs) {f : Nat}
    (hf : 8 * ps.length < f) :
    (do let it ← reverse h l; walkBack h f f it) = .ok ((xs.filter (· ≠ 0)).reverse) := by
  obtain ⟨it, e, hb⟩ := reverse_back H
  rw [e, Res.bind_ok]
  exact walkBack_at H hf f it xs hb (by have := H.length_le; omega)

/-- `raviX_ptrlist_size` is the number of elements -/
theorem size_is {h : Heap} {l : Nat} {ps xs : List Nat} (H : Is h l ps xs) {f : Nat}
    (hf : ps.length ≤ f) : size h f l = .ok (xs.filter (· ≠ 0)).length := by
  have hx := H.xs
  cases ps with
  | nil =>
    have hl : l = 0 := by simpa using H.head.symm
    rw [← hx]; simp [size, hl]
  | cons p B =>
    have hl : p = l := by simpa using H.head
    rw [size, if_neg (H.ne_zero (by simp))]
    subst hl
    rw [sizeLoop_spec H f [] p B 0 rfl (by simp only [List.length_cons] at hf; omega), hx]
    simp

/-- `raviX_ptrlist_nth_entry` is the element at that place, `NULL` past the end -/
theorem nth_is {h : Heap} {l : Nat} {ps xs : List Nat} (H : Is h l ps xs) {f : Nat}
    (hf : ps.length ≤ f) (i : Nat) : nthEntry h f l i = .ok (xs[i]?.getD 0) := by
  have hx := H.xs
  cases ps with
  | nil =>
    have hl : l = 0 := by simpa using H.head.symm
    rw [← hx]; simp [nthEntry, hl]
  | cons p B =>
    have hl : p = l := by simpa using H.head
    rw [nthEntry, if_neg (H.ne_zero (by simp))]
    subst hl
    rw [nthLoop_spec H f [] p B i rfl (by simp only [List.length_cons] at hf; omega), hx]

/-- `raviX_ptrlist_linearize` writes the first elements, as many as there is room for -/
theorem linearize_is {h : Heap} {l : Nat} {ps xs : List Nat} (H : Is h l ps xs) {f : Nat}
    (hf : ps.length ≤ f) (mx : Int) : linearize h f l mx = .ok (xs.take mx.toNat) := by
  have hx := H.xs
  cases ps with
  | nil =>
    have hl : l = 0 := by simpa using H.head.symm
    rw [← hx]; simp [linearize, hl]
  | cons p B =>
    have hl : p = l := by simpa using H.head
    rw [linearize]
    by_cases hm : mx > 0
    · rw [if_pos ⟨H.ne_zero (by simp), hm⟩]
      subst hl
      rw [linearizeLoop_spec H f [] p B mx [] rfl hm
        (by simp only [List.length_cons] at hf; omega), hx]
      rfl
    · rw [if_neg (fun hh => hm hh.2)]
      have : mx.toNat = 0 := by omega
      rw [this]; rfl

/-- `raviX_ptrlist_first` and `raviX_ptrlist_last` of a list without empty nodes -/
theorem first_last {h : Heap} {l : Nat} {ps xs : List Nat} (H : Is h l ps xs) (hp : Packed h ps) :
    first h l = .ok (xs.head?.getD 0) ∧ last h l = .ok (xs.getLast?.getD 0) := by
  have hx := H.xs
  have hpos : ∀ p ∈ ps, ∃ n, h p = some n ∧ n.OK ∧ 0 < n.nr := by
    intro p hpm
    obtain ⟨n, hn, hok⟩ := H.ok p hpm
    refine ⟨n, hn, hok, ?_⟩
    have h1 := hp p hpm
    rw [ents_some hn] at h1
    have h2 : n.ents.length ≠ 0 := fun hh => h1 (List.length_eq_zero_iff.mp hh)
    rw [ents_length] at h2
    omega
  constructor
  · cases ps with
    | nil =>
      have hl : l = 0 := by simpa using H.head.symm
      rw [← hx]; simp [first, hl]
    | cons p B =>
      have hl : p = l := by simpa using H.head
      obtain ⟨n, hn, hok, hnr⟩ := hpos p (by simp)
      rw [first, if_neg (H.ne_zero (by simp)), ← hl, get_some hn, Res.bind_ok,
        rd_ok (by omega) (by omega), ← hx, contents_cons, ents_some hn]
      have := ents_drop (n := n) (i := 0) (by omega) hnr
      simp only [Int.toNat_zero, List.drop_zero] at this
      rw [this]; rfl
  · rcases List.eq_nil_or_concat ps with rfl | ⟨A, e, rfl⟩
    · have hl : l = 0 := by simpa using H.head.symm
      rw [← hx]; simp [last, hl]
    · rw [List.concat_eq_append] at *
      obtain ⟨n, hn, hne⟩ := H.lastOf
      obtain ⟨m, hm, hok, hnr⟩ := hpos e (by simp)
      have hhi := hok.hi
      rw [last, if_neg (H.ne_zero (by simp)), get_some hn, Res.bind_ok, hne, get_some hm,
        Res.bind_ok, rd_ok (by omega) (by omega), ← hx, contents_append, contents_cons,
        contents_nil, List.append_nil, ents_some hm, ents_pred hnr m.slot (fun _ _ => rfl),
        ← List.append_assoc, List.getLast?_concat]
      rfl

/-! ### Changing -/

/-- `raviX_ptrlist_add` puts an element at the end; the result is the address of the element -/
theorem add_appends (al : Alloc) {h : Heap} (hf : h.Fine) {l : Nat} {ps xs : List Nat}
    (H : Is h l ps xs) {v : Nat} (hv : v ≠ 0) :
    ∃ h' l' ps' p i, add al h l v = .ok (h', l', p, i) ∧ Is h' l' ps' (xs ++ [v]) ∧
      (ps ≠ [] → l' = l) ∧ (∃ n, h' p = some n ∧ n.rd i = .ok v) ∧
      Frame h ps h' ps' ∧ (Packed h ps → Packed h' ps') :=
  add_spec al hf H hv

/-- `DELETE_CURRENT_PTR` in a `FOR_EACH_PTR` loop: the current element goes, and the loop goes on
with the one after it -/
theorem delete_current {h : Heap} {l : Nat} {ps xs : List Nat} (H : Is h l ps xs) {it : It}
    {pre post : List Nat} {x : Nat} (ho : On h l ps it pre x post) (hx : x ≠ 0) :
    ∃ h' it', iterRemove h it = .ok (h', it') ∧ Is h' l ps (pre ++ post) ∧
      Frame h ps h' ps ∧
      ∀ f, 8 * ps.length < f → walk h' f f it' = .ok (post.filter (· ≠ 0)) := by
  obtain ⟨h', it', e, H', ha, hfr⟩ := iterRemove_spec H ho hx
  refine ⟨h', it', e, H', hfr, fun f hf => walk_at H' hf f it' pre post ha ?_⟩
  have := H'.length_le
  simp only [List.length_append] at this
  omega

/-- `REPLACE_CURRENT_PTR` -/
theorem replace_current {h : Heap} {l : Nat} {ps xs : List Nat} (H : Is h l ps xs) {it : It}
    {pre post : List Nat} {x v : Nat} (ho : On h l ps it pre x post) (hx : x ≠ 0) (hv : v ≠ 0) :
    ∃ h', iterSet h it v = .ok h' ∧ Is h' l ps (pre ++ v :: post) ∧ Frame h ps h' ps ∧
      ∀ f, 8 * ps.length < f → walk h' f f it = .ok (post.filter (· ≠ 0)) := by
  obtain ⟨h', e, H', ho', hfr⟩ := iterSet_spec H ho hx hv
  refine ⟨h', e, H', hfr, fun f hf => walk_at H' hf f it _ post ho'.at ?_⟩
  have := H'.length_le
  simp only [List.length_append, List.length_cons] at this
  omega

/-- `MARK_CURRENT_DELETED`: the entry stays as `NULL`, which loops skip and the size does not
count -/
theorem mark_deleted {h : Heap} {l : Nat} {ps xs : List Nat} (H : Is h l ps xs) {it : It}
    {pre post : List Nat} {x : Nat} (ho : On h l ps it pre x post) (hx : x ≠ 0) :
    ∃ h', iterMarkDeleted h it = .ok h' ∧ Is h' l ps (pre ++ 0 :: post) ∧ Frame h ps h' ps ∧
      ∀ f, 8 * ps.length < f → walk h' f f it = .ok (post.filter (· ≠ 0)) ∧
        walk h' f f (forward l) = .ok ((pre ++ post).filter (· ≠ 0)) ∧
        size h' f l = .ok ((pre ++ post).filter (· ≠ 0)).length := by
  obtain ⟨h', e, H', ho', hfr⟩ := iterMarkDeleted_spec H ho hx
  have hlen := H'.length_le
  simp only [List.length_append, List.length_cons] at hlen
  have hfil : (pre ++ 0 :: post).filter (· ≠ 0) = (pre ++ post).filter (· ≠ 0) := by
    rw [List.filter_append, List.filter_append, List.filter_cons_of_neg (by simp)]
  refine ⟨h', e, H', hfr, fun f hf => ⟨walk_at H' hf f it _ post ho'.at (by omega), ?_, ?_⟩⟩
  · rw [for_each H' hf, hfil]
  · rw [size_is H' (by omega), hfil]

/-- `INSERT_CURRENT`: the new element comes before the current one; the iterator is on the new
element, so the loop sees the current one again -/
theorem insert_current (al : Alloc) {h : Heap} (hf : h.Fine) {l : Nat} {ps xs : List Nat}
    (H : Is h l ps xs) {it : It} {pre post : List Nat} {x v : Nat} (ho : On h l ps it pre x post)
    (hz : 0 ∉ xs) (hv : v ≠ 0) :
    ∃ h' it' ps', iterInsert al h it v = .ok (h', it') ∧ Is h' l ps' (pre ++ v :: x :: post) ∧
      Frame h ps h' ps' ∧
      ∀ f, 8 * ps'.length < f → walk h' f f it' = .ok ((x :: post).filter (· ≠ 0)) := by
  obtain ⟨h', it', ps', e, H', ho', hfr⟩ := iterInsert_spec al hf H ho hz hv
  refine ⟨h', it', ps', e, H', hfr, fun f hf' => walk_at H' hf' f it' _ _ ho'.at ?_⟩
  have := H'.length_le
  simp only [List.length_append, List.length_cons] at this ⊢
  omega

/-- `raviX_ptrlist_undo_last` takes the last element -/
theorem undo_last {h : Heap} {l : Nat} {ps xs : List Nat} (H : Is h l ps xs) (hz : 0 ∉ xs)
    {f : Nat} (hf : ps.length ≤ f) :
    (xs = [] ∧ undoLast h f l = .ok (h, 0)) ∨
    ∃ ys v h', xs = ys ++ [v] ∧ undoLast h f l = .ok (h', v) ∧ Is h' l ps ys ∧
      Frame h ps h' ps :=
  undoLast_spec H hz hf

/-- `raviX_ptrlist_delete_last` takes the last element of a list without empty nodes -/
theorem delete_last {h : Heap} {l : Nat} {ps xs ys : List Nat} {v : Nat} (H : Is h l ps xs)
    (hp : Packed h ps) (hx : xs = ys ++ [v]) (hv : v ≠ 0) :
    ∃ h' l' ps', deleteLast h l = .ok (h', l', v) ∧ Is h' l' ps' ys ∧ Packed h' ps' ∧
      Frame h ps h' ps' :=
  deleteLast_spec H hp hx hv

/-- `raviX_ptrlist_pack` keeps the elements and leaves no empty node; a list without elements
becomes `NULL` -/
theorem pack_keeps {h : Heap} {l : Nat} {ps xs : List Nat} (H : Is h l ps xs) {f : Nat}
    (hf : ps.length ≤ f) :
    ∃ h' l' ps', pack h f l = .ok (h', l') ∧ Is h' l' ps' xs ∧ Packed h' ps' ∧
      Frame h ps h' ps' ∧ (xs = [] ↔ l' = 0) := by
  obtain ⟨h', l', ps', e, H', hp, hfr⟩ := pack_spec H hf
  refine ⟨h', l', ps', e, H', hp, hfr, ?_⟩
  cases ps' with
  | nil =>
    have h1 := H'.xs
    have h2 := H'.head
    simp at h1 h2
    exact ⟨fun _ => h2.symm, fun _ => h1⟩
  | cons p B =>
    have h1 := hp p (by simp)
    have h2 := H'.ne_zero (by simp)
    refine ⟨fun hh => ?_, fun hh => absurd hh h2⟩
    have h3 := H'.xs
    rw [hh, contents_cons, List.append_eq_nil_iff] at h3
    exact absurd h3.1 h1

/-- `raviX_ptrlist_remove` removes the first `count` occurrences, all of them if `count` is not
positive; that there are as many as asked for is an assertion -/
theorem remove_is {h : Heap} {l : Nat} {ps xs : List Nat} (H : Is h l ps xs) (hz : 0 ∉ xs) {f : Nat}
    (hf : 8 * ps.length < f) (e : Nat) (c : Int) :
    (0 < c → c ≤ xs.count e → ∃ h' l' ps', remove h f l e c = .ok (h', l', 0) ∧
      Is h' l' ps' (without e c.toNat xs) ∧ Packed h' ps' ∧ Frame h ps h' ps') ∧
    (c ≤ 0 → ∃ h' l' ps', remove h f l e c = .ok (h', l', c - xs.count e) ∧
      Is h' l' ps' (xs.filter (· ≠ e)) ∧ Packed h' ps' ∧ Frame h ps h' ps') ∧
    (xs.count e < c → remove h f l e c = .err "assert") := by
  obtain ⟨i1, i2, i3⟩ := removeLoop_spec (e := e) hf f h (forward l) [] xs c (by simpa using H) hz
    (forward_at H) (by have := H.length_le; omega)
  refine ⟨fun h1 h2 => ?_, fun h1 => ?_, fun h1 => ?_⟩
  · obtain ⟨h1, e1, H1, f1⟩ := i1 h1 h2
    obtain ⟨h2, l2, ps2, e2, H2, hp, f2⟩ := pack_spec H1 (f := f) (by omega)
    refine ⟨h2, l2, ps2, ?_, by simpa using H2, hp, f1.trans f2⟩
    rw [remove, e1, Res.bind_ok]
    simp only [e2, Res.bind_ok]
  · obtain ⟨h1, e1, H1, f1⟩ := i2 h1
    obtain ⟨h2, l2, ps2, e2, H2, hp, f2⟩ := pack_spec H1 (f := f) (by omega)
    refine ⟨h2, l2, ps2, ?_, by simpa using H2, hp, f1.trans f2⟩
    rw [remove, e1, Res.bind_ok]
    simp only [e2, Res.bind_ok]
  · rw [remove, i3 h1]; rfl

/-- `raviX_ptrlist_replace`, in the same way -/
theorem replace_is {h : Heap} {l : Nat} {ps xs : List Nat} (H : Is h l ps xs) (hz : 0 ∉ xs)
    {f : Nat} (hf : 8 * ps.length < f) (e : Nat) {v : Nat} (hv : v ≠ 0) (c : Int) :
    (0 < c → c ≤ xs.count e → ∃ h', replace h f l e v c = .ok (h', 0) ∧
      Is h' l ps (replaced e v c.toNat xs) ∧ Frame h ps h' ps) ∧
    (c ≤ 0 → ∃ h', replace h f l e v c = .ok (h', c - xs.count e) ∧
      Is h' l ps (xs.map (fun x => if x = e then v else x)) ∧ Frame h ps h' ps) ∧
    (xs.count e < c → replace h f l e v c = .err "assert") := by
  obtain ⟨i1, i2, i3⟩ := replaceLoop_spec (e := e) hf hv f h (forward l) [] xs c (by simpa using H)
    hz (forward_at H) (by have := H.length_le; omega)
  exact ⟨fun h1 h2 => by simpa [replace] using i1 h1 h2, fun h1 => by simpa [replace] using i2 h1,
    fun h1 => i3 h1⟩

/-- `raviX_ptrlist_concat` puts the elements of another list at the end -/
theorem concat_is (al : Alloc) {h : Heap} (hfine : h.Fine) {a l : Nat} {qs ps ys xs : List Nat}
    (Ha : Is h a qs ys) (hz : 0 ∉ ys) (Hl : Is h l ps xs) (hd : ∀ q ∈ qs, q ∉ ps) {f : Nat}
    (hf : 8 * qs.length < f) :
    ∃ h' l' ps', concat al h f a l = .ok (h', l') ∧ Is h' l' ps' (xs ++ ys) ∧ Is h' a qs ys ∧
      Frame h ps h' ps' := by
  rw [concat]
  by_cases h0 : a = 0 ∧ l = 0
  · rw [if_pos h0]
    have hqs : qs = [] := by
      by_cases hq : qs = []
      · exact hq
      · exact absurd h0.1 (Ha.ne_zero hq)
    have hys : ys = [] := by rw [← Ha.xs, hqs]; rfl
    exact ⟨h, l, ps, rfl, by simpa [hys] using Hl, Ha, Frame.refl ..⟩
  · rw [if_neg h0]
    exact concatLoop_spec al hf f h (forward a) [] ys l ps xs hfine (by simpa using Ha) hz
      (forward_at Ha) (by have := Ha.length_le; omega) Hl hd

/-- `raviX_ptrlist_remove_all` frees every node and nothing else -/
theorem remove_all {h : Heap} {l : Nat} {ps xs : List Nat} (H : Is h l ps xs) {f : Nat}
    (hf : ps.length < f) :
    ∃ h', removeAll h f l = .ok h' ∧ (∀ q, q ∈ ps → h' q = none) ∧ ∀ q, q ∉ ps → h' q = h q := by
  obtain ⟨h', e, hfr⟩ := removeAll_spec H hf
  exact ⟨h', e, fun q hq => hfr.gone q hq (by simp), fun q hq => hfr.other q hq (by simp)⟩

/-- `NULL` is the list without elements -/
theorem empty_list (h : Heap) : Is h 0 [] [] :=
  ⟨rfl, by simp, by simp, trivial, by intro p hp; simp at hp, rfl⟩

/-- an operation on one list does not change a list that shares no node with it, and they still
share none -/
theorem others_kept {h h' : Heap} {ps ps' qs ys : List Nat} {l : Nat} (f : Frame h ps h' ps')
    (H : Is h l qs ys) (hd : ∀ q ∈ qs, q ∉ ps) : Is h' l qs ys ∧ ∀ q ∈ qs, q ∉ ps' := by
  obtain ⟨h1, h2⟩ := f.apart H.ok hd
  exact ⟨H.frame h1, h2⟩

/-- where `FOR_EACH_PTR` is when it has its next element -/
theorem for_each_on {h : Heap} {l : Nat} {ps xs : List Nat} (H : Is h l ps xs) {f : Nat}
    (hf : 8 * ps.length < f) {x : Nat} {post : List Nat} (hx : xs = x :: post) (h0 : x ≠ 0) :
    ∃ it', iterNext h f (forward l) = .ok (x, it') ∧ On h l ps it' [] x post := by
  have ha := forward_at H
  rw [hx] at ha
  exact iterNext_cons (hx ▸ H) ha h0 hf

/-! ### What does not hold

The statement of C81 has limits; each of these is about the code as it is. -/

/-- `INSERT_CURRENT` in the body of a `FOR_EACH_PTR` loop, without condition: `g` is the number of
rounds -/
def insertAll (al : Alloc) (f v : Nat) : Nat → Heap → It → Res Heap
  | 0, _, _ => .err "rounds"
  | g + 1, h, it => do
    let (p, it) ← iterNext h f it
    if p = 0 then .ok h
    else do
      let (h, it) ← iterInsert al h it v
      insertAll al f v g h it

theorem insertAll_on (al : Alloc) (v : Nat) (hv : v ≠ 0) : ∀ (g : Nat) (h : Heap) (l : Nat)
    (ps xs : List Nat) (it : It) (pre : List Nat) (x : Nat) (post : List Nat), h.Fine →
    Is h l ps xs → 0 ∉ xs → At h l ps it pre (x :: post) →
    ∃ F, ∀ f, F ≤ f → insertAll al f v g h it = .err "rounds" := by
  intro g
  induction g with
  | zero => intro h l ps xs it pre x post _ _ _ _; exact ⟨0, fun _ _ => rfl⟩
  | succ g ih =>
    intro h l ps xs it pre x post hfine H hz ha
    have hall := ha.all
    rw [H.xs] at hall
    have hx : x ≠ 0 := by
      rintro rfl
      apply hz
      rw [← hall]; simp
    obtain ⟨it0, _, ho0⟩ := iterNext_cons H ha hx (f := 8 * ps.length + 1) (by omega)
    obtain ⟨h1, it1, ps1, e1, H1, ho1, hfr⟩ := iterInsert_spec al hfine H ho0 hz hv
    have hz1 : 0 ∉ pre ++ v :: x :: post := by
      intro hh
      rw [← hall] at hz
      simp only [List.mem_append, List.mem_cons] at hh hz
      grind
    obtain ⟨F, hF⟩ := ih h1 l ps1 _ it1 (pre ++ [v]) x post (hfr.fine hfine H.nz H1.nz) H1 hz1
      ho1.at
    refine ⟨max F (8 * ps.length + 1), fun f hf => ?_⟩
    obtain ⟨it', e2, ho2⟩ := iterNext_cons H ha hx (f := f) (by omega)
    -- the iterator after `iterNext` is the same for every large `f`
    have hit : it' = it0 := by
      obtain ⟨A, p, B, n, q1, q2, q3, q4, q5, q6, q7, q8, q9⟩ := ho0
      obtain ⟨A', p', B', n', r1, r2, r3, r4, r5, r6, r7, r8, r9⟩ := ho2
      have hlen : A = A' ∧ it0.nr.toNat = it'.nr.toNat := by
        have hl := q8.symm.trans r8
        have hnd := H.nodup
        rw [q1] at r1
        have hc := congrArg List.length hl
        have hk : ∀ (C D : List Nat) (u : Nat) (m : Node) (i j : Nat), h u = some m →
            C ++ u :: D = A ++ p :: B → i < n.nr.toNat → j < m.nr.toNat →
            (contents h A ++ n.ents.take i).length = (contents h C ++ m.ents.take j).length →
            A = C ∧ i = j := by
          intro C D u m i j hu hCD hi hj hlen
          simp only [List.length_append, List.length_take, ents_length] at hlen
          rcases Nat.lt_trichotomy A.length C.length with hlt | heq | hgt
          · exfalso
            have h3 : ∃ E, C = A ++ p :: E := by
              have h4 := congrArg (List.take C.length) hCD
              rw [List.take_left, List.take_append, List.take_of_length_le (by omega)] at h4
              have : C.length - A.length = (C.length - A.length - 1) + 1 := by omega
              rw [this, List.take_succ_cons] at h4
              exact ⟨_, h4⟩
            obtain ⟨E, rfl⟩ := h3
            rw [contents_split, ents_some q2] at hlen
            simp only [List.length_append, ents_length] at hlen
            omega
          · obtain ⟨h5, h6⟩ := List.append_inj hCD heq.symm
            subst h5
            injection h6 with h7 h8
            refine ⟨rfl, ?_⟩
            subst h7
            rw [q2] at hu
            injection hu with hu
            subst hu
            omega
          · exfalso
            have h3 : ∃ E, A = C ++ u :: E := by
              have h4 := congrArg (List.take A.length) hCD
              rw [List.take_left (l₁ := A), List.take_append, List.take_of_length_le (by omega)] at h4
              have : A.length - C.length = (A.length - C.length - 1) + 1 := by omega
              rw [this, List.take_succ_cons] at h4
              exact ⟨_, h4.symm⟩
            obtain ⟨E, rfl⟩ := h3
            rw [contents_split, ents_some hu] at hlen
            simp only [List.length_append, ents_length] at hlen
            omega
        exact hk A' B' p' n' it0.nr.toNat it'.nr.toNat r2 r1.symm (by omega) (by omega) hc
      obtain ⟨rfl, hnr⟩ := hlen
      rw [q1] at r1
      have hp := (List.append_cancel_left r1)
      injection hp with hp _
      cases it'; cases it0
      simp only [It.mk.injEq]
      simp only at q3 q4 r3 r4 hnr q5 r5
      exact ⟨by omega, by omega, by omega⟩
    rw [insertAll, e2, Res.bind_ok]
    simp only [if_neg hx]
    rw [hit, e1, Res.bind_ok]
    exact hF f (by omega)

/-- a loop that inserts an element before every element does not end -/
theorem insert_forever (al : Alloc) {h : Heap} (hfine : h.Fine) {l : Nat} {ps xs : List Nat}
    (H : Is h l ps xs) (hz : 0 ∉ xs) (hne : xs ≠ []) {v : Nat} (hv : v ≠ 0) (g : Nat) :
    ∃ F, ∀ f, F ≤ f → insertAll al f v g h (forward l) = .err "rounds" := by
  cases xs with
  | nil => exact absurd rfl hne
  | cons x post =>
    exact insertAll_on al v hv g h l ps _ (forward l) [] x post hfine H hz (forward_at H)

/-! ### Concrete lists

They meet the hypotheses above, and they show where the interface has edges. -/

/-- a node with the given entries -/
def mkNode (prev next : Nat) (l : List Nat) : Node :=
  ⟨l.length, l.count 0, prev, next, fun i => l.getD i 0⟩

/-- two nodes, with the entries 11, 12 and 13 -/
def two : Heap := fun q =>
  if q = 1 then some (mkNode 2 2 [11, 12]) else if q = 2 then some (mkNode 1 1 [13]) else none

/-- a full node -/
def full : Heap := fun q =>
  if q = 1 then some (mkNode 1 1 [11, 12, 13, 14, 15, 16, 17]) else none

/-- two lists: `two` and, at 5, another one -/
def both : Heap := fun q =>
  if q = 1 then some (mkNode 2 2 [11, 12]) else if q = 2 then some (mkNode 1 1 [13])
  else if q = 5 then some (mkNode 5 5 [21, 22]) else none

/-- three entries in one node -/
def one : Heap := fun q => if q = 1 then some (mkNode 1 1 [11, 12, 13]) else none

/-- a list the last node of which has become empty -/
def hollow : Heap := fun q =>
  if q = 1 then some (mkNode 2 2 [11, 12]) else if q = 2 then some (mkNode 1 1 []) else none

open Classical in
/-- an allocator that takes the address 9 if it can -/
noncomputable def nine : Alloc where
  new h := if (h 9).isNone then 9 else if hq : ∃ q, h q = none ∧ q ≠ 0 then hq.choose else 0
  fresh h hf := by
    obtain ⟨_, b, hb⟩ := hf
    have hq : ∃ q, h q = none ∧ q ≠ 0 := ⟨b + 1, hb _ (by omega), by omega⟩
    by_cases h9 : (h 9).isNone
    · simp only [h9, if_true]
      exact ⟨by simpa using h9, by decide⟩
    · simp only [h9, dif_pos hq]
      exact hq.choose_spec

theorem mkNode_ok (p q : Nat) (l : List Nat) (hl : l.length ≤ 7) : (mkNode p q l).OK := by
  have he : (mkNode p q l).ents = l := by
    apply List.ext_getElem?
    intro i
    simp only [Node.ents, mkNode, Int.toNat_natCast, List.getElem?_map]
    by_cases hi : i < l.length
    · simp [hi]
    · rw [List.getElem?_eq_none (by simpa using hi), List.getElem?_eq_none (by omega)]; rfl
  exact ⟨by simp [mkNode], by simp only [mkNode]; omega, by rw [he]; rfl⟩

theorem two_is : Is two 1 [1, 2] [11, 12, 13] :=
  ⟨rfl, by decide, by decide, ⟨rfl, rfl, rfl, rfl, trivial⟩, by
    intro p hp
    simp only [List.mem_cons, List.not_mem_nil, or_false] at hp
    rcases hp with rfl | rfl
    · exact ⟨_, rfl, mkNode_ok _ _ _ (by decide)⟩
    · exact ⟨_, rfl, mkNode_ok _ _ _ (by decide)⟩, rfl⟩

theorem full_is : Is full 1 [1] [11, 12, 13, 14, 15, 16, 17] :=
  ⟨rfl, by decide, by decide, ⟨rfl, rfl, trivial⟩, by
    intro p hp
    simp only [List.mem_cons, List.not_mem_nil, or_false] at hp
    subst hp
    exact ⟨_, rfl, mkNode_ok _ _ _ (by decide)⟩, rfl⟩

theorem hollow_is : Is hollow 1 [1, 2] [11, 12] :=
  ⟨rfl, by decide, by decide, ⟨rfl, rfl, rfl, rfl, trivial⟩, by
    intro p hp
    simp only [List.mem_cons, List.not_mem_nil, or_false] at hp
    rcases hp with rfl | rfl
    · exact ⟨_, rfl, mkNode_ok _ _ _ (by decide)⟩
    · exact ⟨_, rfl, mkNode_ok _ _ _ (by decide)⟩, rfl⟩

theorem both_one : Is both 1 [1, 2] [11, 12, 13] :=
  ⟨rfl, by decide, by decide, ⟨rfl, rfl, rfl, rfl, trivial⟩, by
    intro p hp
    simp only [List.mem_cons, List.not_mem_nil, or_false] at hp
    rcases hp with rfl | rfl
    · exact ⟨_, rfl, mkNode_ok _ _ _ (by decide)⟩
    · exact ⟨_, rfl, mkNode_ok _ _ _ (by decide)⟩, rfl⟩

theorem both_five : Is both 5 [5] [21, 22] :=
  ⟨rfl, by decide, by decide, ⟨rfl, rfl, trivial⟩, by
    intro p hp
    simp only [List.mem_cons, List.not_mem_nil, or_false] at hp
    subst hp
    exact ⟨_, rfl, mkNode_ok _ _ _ (by decide)⟩, rfl⟩

theorem full_fine : full.Fine := ⟨rfl, 2, fun q hq => if_neg (by omega)⟩
theorem both_fine : both.Fine := ⟨rfl, 6, fun q hq => by
  unfold both
  rw [if_neg (by omega), if_neg (by omega), if_neg (by omega)]⟩

/-- on the 12 of `two` -/
theorem two_on : On two 1 [1, 2] ⟨1, 1, 1⟩ [11] 12 [13] :=
  ⟨[], 1, [2], _, rfl, rfl, rfl, rfl, by decide, by decide, rfl, rfl, rfl⟩

/-- on the 16 of `full` -/
theorem full_on : On full 1 [1] ⟨1, 1, 5⟩ [11, 12, 13, 14, 15] 16 [17] :=
  ⟨[], 1, [], _, rfl, rfl, rfl, rfl, by decide, by decide, rfl, rfl, rfl⟩

example : walk two 17 17 (forward 1) = .ok [11, 12, 13] := for_each two_is (by decide)
example : (do let it ← reverse two 1; walkBack two 17 17 it) = .ok [13, 12, 11] :=
  for_each_reverse two_is (by decide)
example : size two 2 1 = .ok 3 := size_is two_is (by decide)
example : nthEntry two 2 1 2 = .ok 13 := nth_is two_is (by decide) 2
example : linearize two 2 1 2 = .ok [11, 12] := linearize_is two_is (by decide) 2
example : Packed two [1, 2] := by
  intro p hp
  simp only [List.mem_cons, List.not_mem_nil, or_false] at hp
  rcases hp with rfl | rfl <;> decide
example : ∃ h' it', iterRemove two ⟨1, 1, 1⟩ = .ok (h', it') ∧ Is h' 1 [1, 2] [11, 13] :=
  let ⟨h', it', e, H, _⟩ := delete_current two_is two_on (by decide); ⟨h', it', e, H⟩
example : ∃ h', iterSet two ⟨1, 1, 1⟩ 7 = .ok h' ∧ Is h' 1 [1, 2] [11, 7, 13] :=
  let ⟨h', e, H, _⟩ := replace_current (v := 7) two_is two_on (by decide) (by decide); ⟨h', e, H⟩
example : ∃ h', iterMarkDeleted two ⟨1, 1, 1⟩ = .ok h' ∧ Is h' 1 [1, 2] [11, 0, 13] :=
  let ⟨h', e, H, _⟩ := mark_deleted two_is two_on (by decide); ⟨h', e, H⟩
example : ∃ h' it' ps', iterInsert nine full ⟨1, 1, 5⟩ 7 = .ok (h', it') ∧
    Is h' 1 ps' [11, 12, 13, 14, 15, 7, 16, 17] :=
  let ⟨h', it', ps', e, H, _⟩ :=
    insert_current nine full_fine full_is (v := 7) full_on (by decide) (by decide)
  ⟨h', it', ps', e, H⟩
example : ∃ h' l' ps' p i, add nine full 1 18 = .ok (h', l', p, i) ∧
    Is h' l' ps' [11, 12, 13, 14, 15, 16, 17, 18] :=
  let ⟨h', l', ps', p, i, e, H, _⟩ := add_appends nine full_fine full_is (v := 18) (by decide)
  ⟨h', l', ps', p, i, e, H⟩
example : ∃ h' l' ps', remove two 17 1 12 1 = .ok (h', l', 0) ∧ Is h' l' ps' [11, 13] :=
  let ⟨h', l', ps', e, H, _⟩ :=
    (remove_is two_is (by decide) (f := 17) (by decide) 12 1).1 (by decide) (by decide)
  ⟨h', l', ps', e, H⟩
example : remove two 17 1 14 1 = .err "assert" :=
  (remove_is two_is (by decide) (f := 17) (by decide) 14 1).2.2 (by decide)
example : ∃ h' l' ps', concat nine both 9 5 1 = .ok (h', l') ∧
    Is h' l' ps' [11, 12, 13, 21, 22] ∧ Is h' 5 [5] [21, 22] :=
  let ⟨h', l', ps', e, H1, H2, _⟩ :=
    concat_is nine both_fine both_five (by decide) both_one (by decide) (f := 9) (by decide)
  ⟨h', l', ps', e, H1, H2⟩
example : ∃ h' l' ps', pack hollow 2 1 = .ok (h', l') ∧ Is h' l' ps' [11, 12] ∧ Packed h' ps' :=
  let ⟨h', l', ps', e, H, hp, _⟩ := pack_keeps hollow_is (f := 2) (by decide)
  ⟨h', l', ps', e, H, hp⟩

/-- `DELETE_CURRENT_PTR` in a `FOR_EACH_PTR_REVERSE` loop passes over the element before: after 13
is deleted from 11, 12, 13, the next one is 11 -/
theorem delete_reverse_skips : Is one 1 [1] [11, 12, 13] ∧
    (do let it ← reverse one 1
        let (p, it) ← iterPrev one 9 it
        let (h, it) ← iterRemove one it
        let (q, _) ← iterPrev h 9 it
        .ok (p, q)) = .ok (13, 11) :=
  ⟨⟨rfl, by decide, by decide, ⟨rfl, rfl, trivial⟩, by
    intro p hp
    simp only [List.mem_cons, List.not_mem_nil, or_false] at hp
    subst hp
    exact ⟨_, rfl, mkNode_ok _ _ _ (by decide)⟩, rfl⟩, rfl⟩

/-- `RECURSE_PTR_REVERSE` from the iterator of a `FOR_EACH_PTR` loop: at 13, in the second node, it
sees nothing, though 12 and 11 come before; at 11, the first element, it sees 13 -/
theorem recurse_reverse_wrong :
    (do let (_, it) ← iterNext two 9 (forward 1)
        walkBack two 9 9 it) = .ok [13] ∧
    (do let (_, it) ← iterNext two 9 (forward 1)
        let (_, it) ← iterNext two 9 it
        let (p, it) ← iterNext two 9 it
        let r ← walkBack two 9 9 it
        .ok (p, r)) = .ok (13, []) := ⟨rfl, rfl⟩

/-- with an empty node, which `DELETE_CURRENT_PTR` and `raviX_ptrlist_undo_last` leave behind,
`raviX_ptrlist_last` reads outside the node, and `raviX_ptrlist_delete_last` takes no element -/
theorem empty_node_last : Is hollow 1 [1, 2] [11, 12] ∧ last hollow 1 = .ub ∧
    ∃ h', deleteLast hollow 1 = .ok (h', 1, 0) ∧ Is h' 1 [1] [11, 12] := by
  refine ⟨hollow_is, rfl, _, rfl, ⟨rfl, by decide, by decide, ⟨rfl, rfl, trivial⟩, ?_, rfl⟩⟩
  intro p hp
  simp only [List.mem_cons, List.not_mem_nil, or_false] at hp
  subst hp
  exact ⟨_, rfl, mkNode_ok 1 1 [11, 12] (by decide)⟩

/-- how the empty node comes about: `raviX_ptrlist_undo_last` on 11, 12, 13, and then
`raviX_ptrlist_last` -/
theorem undo_then_last :
    (do let (h, v) ← undoLast two 9 1
        let w ← last h 1
        .ok (v, w)) = .ub := rfl

/-- an element marked deleted, then an insertion that splits its node: the loop ends at the
`NULL`, and 17 is not seen -/
theorem mark_then_insert_loses :
    (do let h ← iterMarkDeleted full ⟨1, 1, 5⟩
        let (h, _) ← iterInsert nine h ⟨1, 1, 0⟩ 7
        walk h 17 17 (forward 1)) = .ok [7, 11, 12, 13, 14, 15] := rfl

/-- an insertion in a `FOR_EACH_PTR_REVERSE` loop that splits the last node: 14 to 11 are not
seen -/
theorem insert_reverse_stops :
    (do let it ← reverse full 1
        let (p, it) ← iterPrev full 17 it
        let (h, it) ← iterInsert nine full it 7
        let r ← walkBack h 17 17 it
        .ok (p, r)) = .ok (17, [16, 15]) := rfl

/-- an element marked deleted twice is counted twice -/
theorem mark_twice_size :
    (do let h ← iterMarkDeleted two ⟨1, 1, 1⟩
        let h ← iterMarkDeleted h ⟨1, 1, 1⟩
        let n ← size h 9 1
        let r ← walk h 17 17 (forward 1)
        .ok (n, r)) = .ok (1, [11, 13]) := rfl

/-- the iterator of `raviX_ptrlist_iter_insert` has to be on an element: before the first it is an
assertion -/
theorem insert_before_first (al : Alloc) (h : Heap) (l v : Nat) :
    iterInsert al h (forward l) v = .err "assert" := rfl

end Verif.PtrList
