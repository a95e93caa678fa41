import Verif.Table.Ops
import Verif.Arith.Fb
/-! `luaH_resize` keeps the contents of a table. -/
namespace Verif.Table
open Verif.Arith (LInt)
variable {α V : Type}

theorem fresh_wf (H : Hash α) (asize : Nat) (arr : Nat → Option V) (ls : Nat) (lf : Option Nat)
    (ha : asize ≤ 2 ^ 31) (hl : ls ≤ 30) (hlf : lf = some (2 ^ ls) ∨ (lf = none ∧ ls = 0)) :
    WF H (⟨asize, arr, ls, fun _ => ⟨.nil, none, 0⟩, lf⟩ : Tbl α V) := by
  refine ⟨ha, hl, ?_, ?_, ?_, ?_, ?_, ?_, ?_⟩
  · intro l h
    simp at h
    rcases hlf with h2 | h2
    · rw [h2] at h; cases h
      exact ⟨Nat.le_refl _, fun i h1 h2 => by unfold Tbl.size at h2; simp only at h2; omega⟩
    · rw [h2.1] at h; cases h
  · intro h
    simp only at h
    rcases hlf with h2 | h2
    · rw [h2] at h; cases h
    · exact ⟨h2.2, rfl⟩
  · intro i _; simp
  · refine ⟨?_, ?_, ?_, ⟨fun _ => 0, ?_⟩, ?_, ?_, ?_⟩ <;> intros <;> simp_all [nxOf, hpOf, NKey.key?]
  · intro i j _ _ k o o' h; simp at h
  · intros; rfl
  · intro i _ k o h; simp at h

theorem fresh_nk (asize : Nat) (arr : Nat → Option V) (ls : Nat) (lf : Option Nat) :
    nk (⟨asize, arr, ls, fun _ => ⟨.nil, none, 0⟩, lf⟩ : Tbl α V) = 0 := by
  unfold nk; simp [NKey.isNil]

theorem arrIdx_ofNat {na x : Nat} (hx : x < 2 ^ 31) :
    arrIdx na (BitVec.ofNat 64 (x + 1)) = if x < na then some x else none := by
  have : (BitVec.ofNat 64 (x + 1) - 1).toNat = x := by
    rw [BitVec.toNat_sub]; simp; omega
  unfold arrIdx; rw [this]

variable [DecidableEq α]

def cntArr (arr : Nat → Option V) (i cnt : Nat) : Nat :=
  (List.range' i cnt).countP (fun i => (arr i).isSome)

theorem reinsertArr_spec {H : Hash α} (arr : Nat → Option V) (na : Nat) : ∀ (cnt i : Nat) (t : Tbl α V),
    WF H t → t.asize = na → na ≤ i → i + cnt ≤ 2 ^ 31 →
    (cntArr arr i cnt = 0 ∨ (t.lastfree ≠ none ∧ nk t + cntArr arr i cnt ≤ t.size)) →
    ∃ t', reinsertArr H arr cnt i t = .ok t' ∧ WF H t' ∧ t'.asize = t.asize ∧ t'.lsize = t.lsize ∧
      (t.lastfree ≠ none → t'.lastfree ≠ none) ∧ nk t' ≤ nk t + cntArr arr i cnt ∧
      (∀ Q : NKey α → Prop, (∀ i, Q (.live (.int i) none)) → (∀ i, i < t.size → Q (t.node i).key) →
        ∀ i, i < t'.size → Q (t'.node i).key) ∧
      ∀ k v, Maps t' k v ↔
        (∃ x, i ≤ x ∧ x < i + cnt ∧ k = .int (BitVec.ofNat 64 (x + 1)) ∧ arr x = some v) ∨
        (Maps t k v ∧ ¬ ∃ x, i ≤ x ∧ x < i + cnt ∧ k = .int (BitVec.ofNat 64 (x + 1)) ∧ (arr x).isSome) := by
  intro cnt
  induction cnt with
  | zero =>
    intro i t wf _ _ _ _
    refine ⟨t, rfl, wf, rfl, rfl, id, by simp [cntArr], fun Q _ h => h, ?_⟩
    intro k v
    constructor
    · intro h; exact .inr ⟨h, by rintro ⟨x, h1, h2, _⟩; omega⟩
    · rintro (⟨x, h1, h2, _⟩ | ⟨h, _⟩)
      · omega
      · exact h
  | succ cnt ih =>
    intro i t wf has hi hb hroom
    have hc : cntArr arr i (cnt + 1) = (if (arr i).isSome then 1 else 0) + cntArr arr (i + 1) cnt := by
      unfold cntArr; rw [List.range'_succ, List.countP_cons]; omega
    unfold reinsertArr
    cases hv : arr i with
    | none =>
      simp only [hv, Option.isSome_none, Bool.false_eq_true, if_false, Nat.zero_add] at hc
      rw [hc] at hroom ⊢
      obtain ⟨t', h1, h2, h3, h4, h5, h6, hQ, h7⟩ := ih (i + 1) t wf has (by omega) (by omega) hroom
      refine ⟨t', by simp only []; exact h1, h2, h3, h4, h5, h6, hQ, ?_⟩
      intro k v
      rw [h7]
      have key : ∀ P : Nat → Prop, (P i → False) → ((∃ x, i + 1 ≤ x ∧ x < i + 1 + cnt ∧ P x) ↔
          (∃ x, i ≤ x ∧ x < i + (cnt + 1) ∧ P x)) := by
        intro P hP
        constructor
        · rintro ⟨x, a, b, c⟩; exact ⟨x, by omega, by omega, c⟩
        · rintro ⟨x, a, b, c⟩
          have : x ≠ i := by intro e; rw [e] at c; exact hP c
          exact ⟨x, by omega, by omega, c⟩
      rw [key (fun x => k = .int (BitVec.ofNat 64 (x + 1)) ∧ arr x = some v) (by rintro ⟨_, h⟩; rw [hv] at h; cases h),
        key (fun x => k = .int (BitVec.ofNat 64 (x + 1)) ∧ (arr x).isSome) (by rintro ⟨_, h⟩; rw [hv] at h; cases h)]
    | some w =>
      simp only []
      simp only [hv, Option.isSome_some, if_true] at hc
      have hroom' : t.lastfree ≠ none ∧ nk t + cntArr arr i (cnt + 1) ≤ t.size := by
        rcases hroom with h | h
        · omega
        · exact h
      obtain ⟨t1, g1, g2, g3, g4, g5, gQ⟩ := setNoRehash_spec wf (.int (BitVec.ofNat 64 (i + 1))) none (some w)
        (.inr ⟨hroom'.1, by omega⟩)
      rw [g1]; simp only [Res.bind_ok]
      have hsz : t1.size = t.size := by unfold Tbl.size; rw [g2.lsz]
      obtain ⟨t', h1, h2, h3, h4, h5, h6, hQ, h7⟩ := ih (i + 1) t1 g2.wf (by rw [g2.asz, has]) (by omega) (by omega)
        (.inr ⟨g5 hroom'.1, by omega⟩)
      refine ⟨t', h1, h2, by rw [h3, g2.asz], by rw [h4, g2.lsz], fun h => h5 (g5 h), by omega, fun Q q1 q2 => hQ Q q1 (gQ Q (q1 _) q2), ?_⟩
      intro k v
      rw [h7, g2.maps]
      have inj : ∀ x, x < 2 ^ 31 → (BitVec.ofNat 64 (x + 1) = BitVec.ofNat 64 (i + 1)) → x = i := by
        intro x hx e
        have := congrArg BitVec.toNat e
        simp at this; omega
      constructor
      · rintro (⟨x, a, b, c, d⟩ | ⟨⟨e, f⟩ | ⟨e, f⟩, hn⟩)
        · exact .inl ⟨x, by omega, by omega, c, d⟩
        · cases f; exact .inl ⟨i, by omega, by omega, e, hv⟩
        · refine .inr ⟨f, ?_⟩
          rintro ⟨x, a, b, c, d⟩
          by_cases hx : x = i
          · subst hx; exact e c
          · exact hn ⟨x, by omega, by omega, c, d⟩
      · rintro (⟨x, a, b, c, d⟩ | ⟨f, hn⟩)
        · by_cases hx : x = i
          · subst hx
            right
            refine ⟨.inl ⟨c, by rw [hv] at d; exact d⟩, ?_⟩
            rintro ⟨y, a', b', c', d'⟩
            rw [c] at c'
            simp only [Key.int.injEq] at c'
            have := congrArg BitVec.toNat c'
            simp at this; omega
          · exact .inl ⟨x, by omega, by omega, c, d⟩
        · right
          refine ⟨.inr ⟨?_, f⟩, ?_⟩
          · intro e; exact hn ⟨i, by omega, by omega, e, by rw [hv]; rfl⟩
          · rintro ⟨x, a, b, c, d⟩; exact hn ⟨x, by omega, by omega, c, d⟩

/-- does a node key live in an array part of size `na`? -/
def keyInArr (na : Nat) : NKey α → Bool
  | .live (.int i) _ => (arrIdx na i).isSome
  | _ => false

/-- old nodes that will need a node in the new hash part -/
def needNode (na : Nat) (n : Node α V) : Bool := n.val.isSome && !keyInArr na n.key

theorem reinsertNodes_spec {H : Hash α} (old : Nat → Node α V) (na N : Nat)
    (hlive : ∀ x, x < N → (old x).val.isSome → ∃ k o, (old x).key = .live k o)
    (huniq : ∀ i j, i < N → j < N → ∀ k o o', (old i).key = .live k o → (old j).key = .live k o' → i = j) :
    ∀ (j : Nat) (t : Tbl α V), j ≤ N → WF H t → t.asize = na →
    ((List.range j).countP (fun x => needNode na (old x)) = 0 ∨
      (t.lastfree ≠ none ∧ nk t + (List.range j).countP (fun x => needNode na (old x)) ≤ t.size)) →
    ∃ t', reinsertNodes H old j t = .ok t' ∧ WF H t' ∧ t'.asize = t.asize ∧ t'.lsize = t.lsize ∧
      (t.lastfree ≠ none → t'.lastfree ≠ none) ∧
      nk t' ≤ nk t + (List.range j).countP (fun x => needNode na (old x)) ∧
      (∀ Q : NKey α → Prop, (∀ i, i < N → (old i).val.isSome → Q (old i).key) → (∀ i, i < t.size → Q (t.node i).key) →
        ∀ i, i < t'.size → Q (t'.node i).key) ∧
      ∀ k v, Maps t' k v ↔
        (∃ x o, x < j ∧ (old x).key = .live k o ∧ (old x).val = some v) ∨
        (Maps t k v ∧ ¬ ∃ x o, x < j ∧ (old x).key = .live k o ∧ (old x).val.isSome) := by
  intro j
  induction j with
  | zero =>
    intro t _ wf _ _
    refine ⟨t, rfl, wf, rfl, rfl, id, by simp, fun Q _ h => h, ?_⟩
    intro k v
    constructor
    · intro h; exact .inr ⟨h, by rintro ⟨x, _, h2, _⟩; omega⟩
    · rintro (⟨x, _, h2, _⟩ | ⟨h, _⟩)
      · omega
      · exact h
  | succ j ih =>
    intro t hj wf has hroom
    have hc : (List.range (j + 1)).countP (fun x => needNode na (old x)) =
        (List.range j).countP (fun x => needNode na (old x)) + (if needNode na (old j) then 1 else 0) := by
      rw [List.range_succ, List.countP_append]; simp [List.countP_cons]
    rw [hc] at hroom ⊢
    unfold reinsertNodes
    cases hv : (old j).val with
    | none =>
      have hz : needNode na (old j) = false := by simp [needNode, hv]
      simp only [hz, Bool.false_eq_true, if_false, Nat.add_zero] at hroom ⊢
      obtain ⟨t', h1, h2, h3, h4, h5, h6, hQ, h7⟩ := ih t (by omega) wf has hroom
      refine ⟨t', h1, h2, h3, h4, h5, h6, hQ, ?_⟩
      intro k v
      rw [h7]
      have key : ∀ P : Nat → Prop, (P j → False) → ((∃ x, x < j ∧ P x) ↔ (∃ x, x < j + 1 ∧ P x)) := by
        intro P hP
        constructor
        · rintro ⟨x, a, c⟩; exact ⟨x, by omega, c⟩
        · rintro ⟨x, a, c⟩
          have : x ≠ j := by intro e; rw [e] at c; exact hP c
          exact ⟨x, by omega, c⟩
      have k1 := key (fun x => ∃ o, (old x).key = .live k o ∧ (old x).val = some v)
        (by rintro ⟨_, _, h⟩; rw [hv] at h; cases h)
      have k2 := key (fun x => ∃ o, (old x).key = .live k o ∧ (old x).val.isSome)
        (by rintro ⟨_, _, h⟩; rw [hv] at h; cases h)
      have c1 : ∀ (n : Nat) (Q : Nat → Obj → Prop), (∃ x o, x < n ∧ Q x o) ↔ (∃ x, x < n ∧ ∃ o, Q x o) := by
        intro n Q
        exact ⟨fun ⟨x, o, a, b⟩ => ⟨x, a, o, b⟩, fun ⟨x, a, o, b⟩ => ⟨x, o, a, b⟩⟩
      simp only [c1, k1, k2]
    | some w =>
      simp only []
      obtain ⟨k0, o0, hk0⟩ := hlive j (by omega) (by rw [hv]; rfl)
      rw [hk0]
      simp only []
      have hroom1 : (∃ i y, k0 = .int i ∧ arrIdx t.asize i = some y) ∨ (t.lastfree ≠ none ∧ nk t < t.size) := by
        cases hn : needNode na (old j) with
        | true =>
          rw [hn] at hroom
          right
          rcases hroom with h | h
          · simp at h
          · refine ⟨h.1, ?_⟩
            have := h.2; simp at this; omega
        | false =>
          left
          simp only [needNode, hv, hk0, Option.isSome_some, Bool.true_and, Bool.not_eq_false'] at hn
          cases k0 with
          | oth x => simp [keyInArr] at hn
          | int i =>
            simp only [keyInArr] at hn
            obtain ⟨y, hy⟩ := Option.isSome_iff_exists.1 hn
            exact ⟨i, y, rfl, by rw [has]; exact hy⟩
      obtain ⟨t1, g1, g2, g3, g4, g5, gQ⟩ := setNoRehash_spec wf k0 o0 (some w) hroom1
      rw [g1]; simp only [Res.bind_ok]
      have hsz : t1.size = t.size := by unfold Tbl.size; rw [g2.lsz]
      have hnk1 : nk t1 ≤ nk t + (if needNode na (old j) then 1 else 0) := by
        cases hn : needNode na (old j) with
        | true => simpa using g4
        | false =>
          simp only [needNode, hv, hk0, Option.isSome_some, Bool.true_and, Bool.not_eq_false'] at hn
          cases k0 with
          | oth x => simp [keyInArr] at hn
          | int i =>
            simp only [keyInArr] at hn
            obtain ⟨y, hy⟩ := Option.isSome_iff_exists.1 hn
            have := (g3 ⟨i, y, rfl, by rw [has]; exact hy⟩).1
            simp [this]
      have hroom2 : (List.range j).countP (fun x => needNode na (old x)) = 0 ∨
          (t1.lastfree ≠ none ∧ nk t1 + (List.range j).countP (fun x => needNode na (old x)) ≤ t1.size) := by
        rcases hroom with h | h
        · left; omega
        · right; exact ⟨g5 h.1, by omega⟩
      obtain ⟨t', h1, h2, h3, h4, h5, h6, hQ, h7⟩ := ih t1 (by omega) g2.wf (by rw [g2.asz, has]) hroom2
      refine ⟨t', h1, h2, by rw [h3, g2.asz], by rw [h4, g2.lsz], fun h => h5 (g5 h), by omega, fun Q q1 q2 => hQ Q q1 (gQ Q (by rw [← hk0]; exact q1 j (by omega) (by rw [hv]; rfl)) q2), ?_⟩
      intro k v
      rw [h7, g2.maps]
      constructor
      · rintro (⟨x, o, a, c, d⟩ | ⟨⟨e, f⟩ | ⟨e, f⟩, hn⟩)
        · exact .inl ⟨x, o, by omega, c, d⟩
        · cases f; subst e; exact .inl ⟨j, o0, by omega, hk0, hv⟩
        · refine .inr ⟨f, ?_⟩
          rintro ⟨x, o, a, c, d⟩
          by_cases hx : x = j
          · subst hx; rw [hk0] at c; cases c; exact e rfl
          · exact hn ⟨x, o, by omega, c, d⟩
      · rintro (⟨x, o, a, c, d⟩ | ⟨f, hn⟩)
        · by_cases hx : x = j
          · subst hx
            rw [hk0] at c; cases c
            right
            refine ⟨.inl ⟨rfl, by rw [hv] at d; exact d⟩, ?_⟩
            rintro ⟨y, o', a', c', d'⟩
            have := huniq x y (by omega) (by omega) k0 o0 o' hk0 c'
            omega
          · exact .inl ⟨x, o, by omega, c, d⟩
        · right
          refine ⟨.inr ⟨?_, f⟩, ?_⟩
          · intro e; subst e; exact hn ⟨j, o0, by omega, hk0, by rw [hv]; rfl⟩
          · rintro ⟨x, o, a, c, d⟩; exact hn ⟨x, o, by omega, c, d⟩

/-- entries of `t` that need a hash node when the array part gets size `na` -/
def need (t : Tbl α V) (na : Nat) : Nat :=
  cntArr t.arr na (t.asize - na) + (List.range t.size).countP (fun x => needNode na (t.node x))

theorem resize_eq (H : Hash α) (t : Tbl α V) (na nh : Nat) :
    resize H t na nh =
      (setnodevector (if na > t.asize then
        ({ t with asize := na, arr := fun i => if i < t.asize then t.arr i else none } : Tbl α V) else t) nh >>=
      fun t2 => (if na < t.asize then
          reinsertArr H t2.arr (t.asize - na) na { t2 with asize := na }
        else .ok t2) >>= fun t3 => reinsertNodes H t.node (if t.lastfree = none then 0 else t.size) t3) := by
  unfold resize
  dsimp only
  congr 1
  funext t2
  split <;> rfl

theorem resize_spec {H : Hash α} {t : Tbl α V} (wf : WF H t) (na nh : Nat) (hna : na ≤ 2 ^ 31)
    (hnh : nh < 2 ^ 32) (hneed : need t na ≤ nh) :
    (2 ^ 30 < nh ∧ resize H t na nh = .err "table overflow") ∨
    (nh ≤ 2 ^ 30 ∧ ∃ t', resize H t na nh = .ok t' ∧ WF H t' ∧ t'.asize = na ∧
      (nh ≠ 0 → t'.lastfree ≠ none ∧ nh ≤ t'.size) ∧ nk t' ≤ need t na ∧
      (∀ Q : NKey α → Prop, Q .nil → (∀ i, Q (.live (.int i) none)) →
        (∀ i, i < t.size → (t.node i).val.isSome → Q (t.node i).key) → ∀ i, i < t'.size → Q (t'.node i).key) ∧
      ∀ k v, Maps t' k v ↔ Maps t k v) := by
  rw [resize_eq]
  generalize ht1 : (if na > t.asize then
      ({ t with asize := na, arr := fun i => if i < t.asize then t.arr i else none } : Tbl α V) else t) = t1
  have h1n : t1.asize = max na t.asize ∧ (∀ i, i < t.asize → t1.arr i = t.arr i) ∧
      (∀ i, t.asize ≤ i → i < t1.asize → t1.arr i = none) := by
    subst ht1
    split
    · refine ⟨by simp only []; omega, ?_, ?_⟩
      · intro i hi; simp only [hi, if_true]
      · intro i hi _
        have : ¬ i < t.asize := by omega
        simp only [this, if_false]
    · exact ⟨by omega, fun _ _ => rfl, fun i a b => by omega⟩
  obtain ⟨hn1, hn2, hn3⟩ := h1n
  -- node vector
  have hvec : (2 ^ 30 < nh ∧ setnodevector t1 nh = .err "table overflow") ∨
      (nh ≤ 2 ^ 30 ∧ ∃ ls lf, setnodevector t1 nh = .ok ⟨t1.asize, t1.arr, ls, fun _ => ⟨.nil, none, 0⟩, lf⟩ ∧
        ls ≤ 30 ∧ (lf = some (2 ^ ls) ∨ (lf = none ∧ ls = 0)) ∧ (nh ≠ 0 → lf = some (2 ^ ls) ∧ nh ≤ 2 ^ ls)) := by
    unfold setnodevector
    by_cases h0 : nh = 0
    · right
      refine ⟨by omega, 0, none, by rw [if_pos h0]; rfl, by omega, .inr ⟨rfl, rfl⟩, fun h => absurd h0 h⟩
    · rw [if_neg h0]
      obtain ⟨k, hk1, hk2⟩ := Arith.ceillog2_least nh (by omega) hnh
      rw [hk1]; simp only []
      by_cases h30 : 30 < k
      · left
        refine ⟨?_, by rw [if_pos h30]⟩
        rcases Nat.lt_or_ge (2 ^ 30) nh with h | h
        · exact h
        · have := (hk2 30).1 h; omega
      · right
        refine ⟨(hk2 30).2 (by omega), k, some (2 ^ k), by rw [if_neg h30], by omega, .inl rfl, ?_⟩
        intro _; exact ⟨rfl, (hk2 k).2 (Nat.le_refl _)⟩
  rcases hvec with ⟨hbig, hm⟩ | ⟨hsm, ls, lf, hv, hls, hlf, hnz⟩
  · left
    exact ⟨hbig, by rw [hm]; rfl⟩
  · right
    refine ⟨hsm, ?_⟩
    rw [hv]
    simp only [Res.bind_ok]
    -- shrinking phase
    have hroomA : cntArr t.arr na (t.asize - na) = 0 ∨ (lf ≠ none ∧ cntArr t.arr na (t.asize - na) ≤ 2 ^ ls) := by
      by_cases h0 : nh = 0
      · left; unfold need at hneed; omega
      · right
        obtain ⟨a, b⟩ := hnz h0
        refine ⟨by rw [a]; simp, ?_⟩
        unfold need at hneed; omega
    have hphase : ∃ t3, (if na < t.asize then
        reinsertArr H t1.arr (t.asize - na) na
          (⟨na, t1.arr, ls, fun _ => ⟨.nil, none, 0⟩, lf⟩ : Tbl α V)
        else .ok ⟨t1.asize, t1.arr, ls, fun _ => ⟨.nil, none, 0⟩, lf⟩) = .ok t3 ∧ WF H t3 ∧ t3.asize = na ∧
        t3.lsize = ls ∧ (lf ≠ none → t3.lastfree ≠ none) ∧
        nk t3 ≤ cntArr t.arr na (t.asize - na) ∧
        (∀ Q : NKey α → Prop, Q .nil → (∀ i, Q (.live (.int i) none)) → ∀ i, i < t3.size → Q (t3.node i).key) ∧
        ∀ k v, Maps t3 k v ↔ ∃ x, x < t.asize ∧ k = .int (BitVec.ofNat 64 (x + 1)) ∧ t.arr x = some v := by
      have fresh_maps : ∀ (a : Nat), (∀ x, x < a → x < 2 ^ 31) → ∀ k v,
          Maps (⟨a, t1.arr, ls, fun _ => ⟨.nil, none, 0⟩, lf⟩ : Tbl α V) k v ↔
          ∃ x, x < a ∧ k = .int (BitVec.ofNat 64 (x + 1)) ∧ t1.arr x = some v := by
        intro a ha k v
        constructor
        · rintro (⟨i, j, e, h1, h2⟩ | ⟨j, o, hj, h1, h2⟩)
          · obtain ⟨h3, h4⟩ := arrIdx_lt h1
            refine ⟨j, h3, ?_, h2⟩
            rw [e]; congr 1
            apply arrIdx_inj h1
            rw [arrIdx_ofNat (ha j h3)]; exact if_pos h3
          · simp at h1
        · rintro ⟨x, hx, e, h⟩
          exact .inl ⟨_, x, e, by rw [arrIdx_ofNat (ha x hx)]; exact if_pos hx, h⟩
      have hw := wf.asz
      by_cases hlt : na < t.asize
      · rw [if_pos hlt]
        have ht1a : t1.arr = t.arr := by subst ht1; rw [if_neg (by omega)]
        have hroomB : cntArr t1.arr na (t.asize - na) = 0 ∨
            ((⟨na, t1.arr, ls, fun _ => ⟨.nil, none, 0⟩, lf⟩ : Tbl α V).lastfree ≠ none ∧
            nk (⟨na, t1.arr, ls, fun _ => ⟨.nil, none, 0⟩, lf⟩ : Tbl α V) + cntArr t1.arr na (t.asize - na) ≤
              (⟨na, t1.arr, ls, fun _ => ⟨.nil, none, 0⟩, lf⟩ : Tbl α V).size) := by
          rw [fresh_nk, ht1a]
          rcases hroomA with h | h
          · exact .inl h
          · exact .inr ⟨h.1, by simp only [Tbl.size]; omega⟩
        obtain ⟨t3, r1, r2, r3, r4, r5, r6, rQ, r7⟩ := reinsertArr_spec t1.arr na (t.asize - na) na _
          (fresh_wf H na t1.arr ls lf hna hls hlf) rfl (Nat.le_refl _) (by omega) hroomB
        rw [fresh_nk, Nat.zero_add, ht1a] at r6
        refine ⟨t3, r1, r2, r3, r4, r5, r6, fun Q a b => rQ Q b (fun _ _ => a), ?_⟩
        intro k v
        rw [r7, fresh_maps na (by intro x hx; omega)]
        constructor
        · rintro (⟨x, a, b, c, d⟩ | ⟨⟨x, a, c, d⟩, _⟩)
          · exact ⟨x, by omega, c, by rw [← ht1a]; exact d⟩
          · exact ⟨x, by omega, c, by rw [← ht1a]; exact d⟩
        · rintro ⟨x, a, c, d⟩
          rw [← ht1a] at d
          by_cases hx : x < na
          · right
            refine ⟨⟨x, hx, c, d⟩, ?_⟩
            rintro ⟨y, a', b', c', d'⟩
            rw [c] at c'
            simp only [Key.int.injEq] at c'
            have := congrArg BitVec.toNat c'
            simp at this; omega
          · exact .inl ⟨x, by omega, by omega, c, d⟩
      · rw [if_neg hlt]
        have hasz : t1.asize = na := by omega
        refine ⟨_, rfl, ?_, hasz, rfl, id, ?_, fun Q a b _ _ => a, ?_⟩
        · rw [hasz]; exact fresh_wf H na t1.arr ls lf hna hls hlf
        · rw [fresh_nk]; omega
        · intro k v
          rw [hasz, fresh_maps na (by intro x hx; omega)]
          constructor
          · rintro ⟨x, a, c, d⟩
            have hx : x < t.asize := by
              rcases Nat.lt_or_ge x t.asize with h | h
              · exact h
              · rw [hn3 x h (by omega)] at d; cases d
            exact ⟨x, hx, c, by rw [← hn2 x hx]; exact d⟩
          · rintro ⟨x, a, c, d⟩
            exact ⟨x, by omega, c, by rw [hn2 x a]; exact d⟩
    obtain ⟨t3, q1, q2, q3, q4, q5, q6, qQ, q7⟩ := hphase
    rw [q1]
    simp only [Res.bind_ok]
    -- reinsertion of the nodes
    have hdum : t.lastfree = none → ∀ x, x < t.size → (t.node x).val = none := by
      intro h x hx
      obtain ⟨a, b⟩ := wf.dummy h
      have : x = 0 := by unfold Tbl.size at hx; rw [a] at hx; omega
      subst this
      exact wf.vnil 0 hx (by intro k o h; rw [b] at h; cases h)
    have hlive : ∀ x, x < t.size → (t.node x).val.isSome → ∃ k o, (t.node x).key = .live k o := by
      intro x hx h
      apply Classical.byContradiction
      intro hn
      rw [wf.vnil x hx (by intro k o e; exact hn ⟨k, o, e⟩)] at h; cases h
    generalize hN : (if t.lastfree = none then 0 else t.size) = N
    have hNle : N ≤ t.size := by subst hN; split <;> omega
    have hNout : ∀ x, N ≤ x → x < t.size → (t.node x).val = none := by
      intro x h1 h2
      subst hN
      split at h1
      · rename_i h; exact hdum h x h2
      · omega
    have hcN : (List.range N).countP (fun x => needNode na (t.node x)) ≤
        (List.range t.size).countP (fun x => needNode na (t.node x)) := by
      have hsub : List.Sublist (List.range N) (List.range t.size) := by
        rw [List.range_sublist]; exact hNle
      exact hsub.countP_le
    have hts : t3.size = 2 ^ ls := by unfold Tbl.size; rw [q4]
    have hroomN : (List.range N).countP (fun x => needNode na (t.node x)) = 0 ∨
        (t3.lastfree ≠ none ∧ nk t3 + (List.range N).countP (fun x => needNode na (t.node x)) ≤ t3.size) := by
      unfold need at hneed
      by_cases h0 : nh = 0
      · left; omega
      · right
        obtain ⟨a, b⟩ := hnz h0
        exact ⟨q5 (by rw [a]; simp), by omega⟩
    obtain ⟨t', r1, r2, r3, r4, r5, r6, rQ, r7⟩ := reinsertNodes_spec (H := H) t.node na N
      (fun x hx => hlive x (by omega)) (fun i j hi hj => wf.uniq i j (by omega) (by omega)) N t3
      (Nat.le_refl _) q2 q3 hroomN
    refine ⟨t', r1, r2, by rw [r3, q3], ?_, by unfold need; omega,
      fun Q a b c => rQ Q (fun i hi => c i (by omega)) (qQ Q a b), ?_⟩
    · intro h0
      obtain ⟨a, b⟩ := hnz h0
      refine ⟨r5 (q5 (by rw [a]; simp)), ?_⟩
      unfold Tbl.size; rw [r4, q4]; exact b
    · intro k v
      have hw := wf.asz
      rw [r7, q7]
      constructor
      · rintro (⟨x, o, a, c, d⟩ | ⟨⟨x, a, c, d⟩, _⟩)
        · exact .inr ⟨x, o, by omega, c, d⟩
        · exact .inl ⟨_, x, c, by rw [arrIdx_ofNat (by omega)]; exact if_pos a, d⟩
      · rintro (⟨i, j, e, g1, g2⟩ | ⟨j, o, hj, g1, g2⟩)
        · obtain ⟨g3, g4⟩ := arrIdx_lt g1
          have ei : i = BitVec.ofNat 64 (j + 1) := by
            apply arrIdx_inj g1
            rw [arrIdx_ofNat (by omega)]; exact if_pos g3
          right
          refine ⟨⟨j, g3, by rw [e, ei], g2⟩, ?_⟩
          rintro ⟨x, o, a, c, d⟩
          rw [e] at c
          have := wf.disj x (by omega) _ _ c
          rw [g1] at this; cases this
        · left
          refine ⟨j, o, ?_, g1, g2⟩
          rcases Nat.lt_or_ge j N with h | h
          · exact h
          · rw [hNout j h hj] at g2; cases g2

end Verif.Table
