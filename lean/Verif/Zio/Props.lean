import Verif.Zio.Model

/-!
# C98: what is read does not depend on the pieces that the reader returns
-/
namespace Verif.Zio

/-- The bytes up to the first piece without bytes. -/
def bytes : List (List Nat) → List Nat
  | [] => []
  | [] :: _ => []
  | p :: ps => p ++ bytes ps

/-- What a program sees of a stream that is nothing but a list of bytes. -/
def spec : List Op → List Nat → List (List Nat × Nat)
  | [], _ => []
  | .getc :: _, [] => [([], 1)]
  | .getc :: os, c :: s => ([c], 0) :: spec os s
  | .read k :: os, s =>
    if k ≤ s.length then (s.take k, 0) :: spec os (s.drop k) else [(s, k - s.length)]

/-- The pieces are blocks of memory, so their sizes are below 2^64. -/
def Sized (ps : List (List Nat)) : Prop := ∀ p ∈ ps, p.length < 18446744073709551616

/-- The state between uses: `n` is what is left of the piece. -/
def Wf (z : Zio) : Prop := z.n = z.cur.length ∧ z.n < 18446744073709551616 ∧ Sized z.pieces

def content (z : Zio) : List Nat := z.cur ++ bytes z.pieces

theorem Sized.tail {p ps} (h : Sized (p :: ps)) : Sized ps := fun q hq => h q (by simp [hq])

/-- `luaZ_fill` on a stream whose piece is used up. -/
theorem fill_spec (z : Zio) (hz : Sized z.pieces) (hc : z.cur = []) :
    (content z = [] ∧ (fill z).1 = none ∧ (z.n = 0 → Wf (fill z).2)) ∨
    ∃ c s, content z = c :: s ∧ (fill z).1 = some c ∧ Wf (fill z).2 ∧ content (fill z).2 = s ∧
      (fill z).2.n + 1 < 18446744073709551616 := by
  obtain ⟨n, cur, ps⟩ := z
  simp only at hc hz
  subst hc
  match ps, hz with
  | [], hz => exact .inl ⟨rfl, rfl, fun h => ⟨h, by simp only at h; simp [fill, h], hz⟩⟩
  | [] :: ps, hz => exact .inl ⟨rfl, rfl, fun h => ⟨h, by simp only at h; simp [fill, h], hz.tail⟩⟩
  | (c :: p) :: ps, hz =>
    have hl := hz (c :: p) (by simp)
    simp only [List.length_cons] at hl
    refine .inr ⟨c, p ++ bytes ps, rfl, rfl, ⟨?_, ?_, hz.tail⟩, rfl, ?_⟩
    · simp [fill]
    · simp only [fill, List.length_cons]; omega
    · simp only [fill, List.length_cons]; omega

theorem getc_spec (z : Zio) (hz : Wf z) :
    (content z = [] ∧ ∃ z', getc z = .ok (none, z')) ∨
    ∃ c s z', content z = c :: s ∧ getc z = .ok (some c, z') ∧ Wf z' ∧ content z' = s := by
  obtain ⟨n, cur, ps⟩ := z
  obtain ⟨h1, h2, h3⟩ := hz
  simp only at h1 h2 h3
  cases cur with
  | nil =>
    simp only [List.length_nil] at h1
    subst h1
    unfold getc
    simp only [Nat.lt_irrefl, if_false, gt_iff_lt]
    rcases fill_spec ⟨uw (0 + (2 ^ 64 - 1)), [], ps⟩ h3 rfl with ⟨k1, k2, _⟩ | ⟨c, s, k1, k2, k3, k4, _⟩
    · exact .inl ⟨k1, _, by rw [← k2]⟩
    · exact .inr ⟨c, s, _, k1, by rw [← k2], k3, k4⟩
  | cons c r =>
    simp only [List.length_cons] at h1
    refine .inr ⟨c, r ++ bytes ps, ⟨uw (n + (2 ^ 64 - 1)), r, ps⟩, rfl, ?_, ⟨?_, ?_, h3⟩, rfl⟩
    · unfold getc
      simp only
      rw [if_pos (by omega)]
    · simp only [uw]; omega
    · simp only [uw]; omega

theorem copy_ok (z : Zio) (m : Nat) (hz : Wf z) (hm : m ≤ z.n) :
    ∃ z', copy z m = .ok ((content z).take m, z') ∧ Wf z' ∧ content z' = (content z).drop m := by
  obtain ⟨h1, h2, h3⟩ := hz
  have hl : m ≤ z.cur.length := by omega
  refine ⟨⟨z.n - m, z.cur.drop m, z.pieces⟩, ?_, ⟨?_, ?_, h3⟩, ?_⟩
  · unfold copy
    rw [if_pos hl]
    unfold content
    rw [List.take_append_of_le_length hl]
  · simp only [List.length_drop]; omega
  · simp only; omega
  · unfold content
    rw [List.drop_append_of_le_length hl]

theorem readLoop_spec (f k : Nat) (z : Zio) (hz : Wf z) (hf : k ≤ f) :
    ∃ z', readLoop f k z = .ok ((content z).take k, k - (content z).length, z') ∧ Wf z' ∧
      (k ≤ (content z).length → content z' = (content z).drop k) := by
  induction f generalizing k z with
  | zero =>
    obtain rfl : k = 0 := by omega
    exact ⟨z, by simp [readLoop], hz, fun _ => by simp⟩
  | succ f ih =>
    cases k with
    | zero => exact ⟨z, by simp [readLoop], hz, fun _ => by simp⟩
    | succ k =>
      have go : ∀ y : Zio, Wf y → 0 < y.n → content y = content z →
          ∃ z', (do
              let m := if k + 1 ≤ y.n then k + 1 else y.n
              let (s, z) ← copy y m
              let (s', j, z) ← readLoop f (k + 1 - m) z
              .ok (s ++ s', j, z) : Res (List Nat × Nat × Zio)) =
            .ok ((content z).take (k + 1), k + 1 - (content z).length, z') ∧ Wf z' ∧
            (k + 1 ≤ (content z).length → content z' = (content z).drop (k + 1)) := by
        intro y hy hn hc
        obtain ⟨m, hm⟩ : ∃ m, m = if k + 1 ≤ y.n then k + 1 else y.n := ⟨_, rfl⟩
        have m1 : m ≤ y.n := by rw [hm]; split <;> omega
        have m2 : 0 < m := by rw [hm]; split <;> omega
        have m3 : m ≤ k + 1 := by rw [hm]; split <;> omega
        obtain ⟨x, c1, c2, c3⟩ := copy_ok y m hy m1
        obtain ⟨w, r1, rw', r2⟩ := ih (k + 1 - m) x c2 (by omega)
        have hlen : m ≤ (content z).length := by
          rw [← hc]
          unfold content
          rw [List.length_append, ← hy.1]
          omega
        rw [c3, hc] at r1 r2
        refine ⟨w, ?_, rw', ?_⟩
        · simp only [← hm, c1, Res.bind_ok, r1, hc]
          have e1 : (content z).take m ++ ((content z).drop m).take (k + 1 - m) =
              (content z).take (k + 1) := by
            rw [← List.take_add]
            congr 1
            omega
          have e2 : k + 1 - m - ((content z).drop m).length = k + 1 - (content z).length := by
            rw [List.length_drop]; omega
          rw [e1, e2]
        · intro h
          rw [r2 (by rw [List.length_drop]; omega), List.drop_drop]
          congr 1
          omega
      by_cases h0 : z.n = 0
      · have hc : z.cur = [] := List.eq_nil_of_length_eq_zero (by rw [← hz.1, h0])
        rcases fill_spec z hz.2.2 hc with ⟨k1, k2, kw⟩ | ⟨c, s, k1, k2, k3, k4, k5⟩
        · refine ⟨(fill z).2, ?_, kw h0, ?_⟩
          · simp only [readLoop, h0, if_true, k1]
            rw [show fill z = (none, (fill z).2) from by rw [← k2]]
            simp
          · rw [k1]; simp
        · have := go ⟨(fill z).2.n + 1, c :: (fill z).2.cur, (fill z).2.pieces⟩
            ⟨by simp [k3.1], k5, k3.2.2⟩ (by simp) (by
              rw [k1, ← k4]; rfl)
          obtain ⟨w, w1, w2⟩ := this
          refine ⟨w, ?_, w2⟩
          simp only [readLoop, h0, if_true]
          rw [show fill z = (some c, (fill z).2) from by rw [← k2]]
          exact w1
      · obtain ⟨w, w1, w2⟩ := go z hz (by omega) rfl
        refine ⟨w, ?_, w2⟩
        simp only [readLoop, h0, if_false]
        exact w1

theorem run_spec (os : List Op) (z : Zio) (hz : Wf z) : run os z = .ok (spec os (content z)) := by
  induction os generalizing z with
  | nil => rfl
  | cons o os ih =>
    cases o with
    | getc =>
      rcases getc_spec z hz with ⟨h1, z', h2⟩ | ⟨c, s, z', h1, h2, h3, h4⟩
      · simp only [run, h2, Res.bind_ok, h1, spec]
      · simp only [run, h2, Res.bind_ok, h1, spec, ih z' h3, h4]
    | read k =>
      obtain ⟨z', h1, h3, h2⟩ := readLoop_spec k k z hz (Nat.le_refl _)
      simp only [run, read, h1, Res.bind_ok, spec]
      by_cases h : k ≤ (content z).length
      · have h4 := h2 h
        rw [if_pos (by omega), if_pos h, ih z' h3, h4]
        rfl
      · rw [if_neg (by omega), if_neg h, List.take_of_length_le (by omega)]

/-- A program that reads a stream by `zgetc` and `luaZ_read`, up to the end of the stream, sees
exactly the bytes that the reader returned, in order; it never reads outside of a piece. -/
theorem reads_bytes (os : List Op) (ps : List (List Nat)) (h : Sized ps) :
    run os (init ps) = .ok (spec os (bytes ps)) :=
  run_spec os (init ps) ⟨rfl, by simp [init], h⟩

/-- Two readers that return the same bytes in other pieces cannot be told apart. -/
theorem pieces_do_not_matter (os : List Op) (ps qs : List (List Nat)) (hp : Sized ps) (hq : Sized qs)
    (np : ∀ p ∈ ps, p ≠ []) (nq : ∀ q ∈ qs, q ≠ []) (h : ps.flatten = qs.flatten) :
    run os (init ps) = run os (init qs) := by
  have e : ∀ l : List (List Nat), (∀ p ∈ l, p ≠ []) → bytes l = l.flatten := by
    intro l hl
    induction l with
    | nil => rfl
    | cons p l ih =>
      cases p with
      | nil => exact absurd rfl (hl [] (by simp))
      | cons c p => simp [bytes, ih fun q hq => hl q (by simp [hq])]
  rw [reads_bytes os ps hp, reads_bytes os qs hq, e ps np, e qs nq, h]

/-- `zgetc` must not be used after it returned `EOZ`: its counter has wrapped, and it reads where
there is nothing. -/
theorem getc_after_end_ub (z z' : Zio) (hz : Wf z) (h : getc z = .ok (none, z')) : getc z' = .ub := by
  obtain ⟨n, cur, ps⟩ := z
  obtain ⟨h1, h2, h3⟩ := hz
  simp only at h1 h2 h3
  cases cur with
  | cons c r =>
    unfold getc at h
    simp only [List.length_cons] at h1
    simp only at h
    rw [if_pos (by omega)] at h
    cases h
  | nil =>
    simp only [List.length_nil] at h1
    subst h1
    unfold getc at h
    simp only [Nat.lt_irrefl, if_false, gt_iff_lt] at h
    match ps, h with
    | [], h => cases h; rfl
    | [] :: ps, h => cases h; rfl

/-- Reads of given sizes, one after another, whether they come short or not. -/
def readAll : List Nat → Zio → Res Zio
  | [], z => .ok z
  | k :: ks, z => do
    let (_, _, z) ← read k z
    readAll ks z

/-- `luaZ_read` may be used again after it came short: whatever sizes are asked for one after
another, no read is undefined. -/
theorem read_again (ks : List Nat) (ps : List (List Nat)) (h : Sized ps) :
    ∃ z : Zio, readAll ks (init ps) = .ok z := by
  have hz : Wf (init ps) := ⟨rfl, by simp [init], h⟩
  generalize init ps = y at hz
  induction ks generalizing y with
  | nil => exact ⟨y, rfl⟩
  | cons k ks ih =>
    obtain ⟨z, h1, h2, _⟩ := readLoop_spec k k y hz (Nat.le_refl _)
    obtain ⟨w, hw⟩ := ih z h2
    refine ⟨w, ?_⟩
    simp only [readAll, read, h1, Res.bind_ok, hw]

example : Sized [[1, 2], [3], [4, 5, 6]] := by simp [Sized]

/-- A read across three pieces, after a character and before the end. -/
example : run [.getc, .read 4, .getc, .read 3] (init [[1, 2], [3], [4, 5, 6], [7]]) =
    .ok [([1], 0), ([2, 3, 4, 5], 0), ([6], 0), ([7], 2)] := by decide +kernel

end Verif.Zio
