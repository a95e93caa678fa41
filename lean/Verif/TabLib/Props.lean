import Verif.TabLib.Model
/-!
Properties C28 (`table.insert`, `table.remove`), C29 (`table.move`) and C53 (`table.concat`, `table.pack`, `table.unpack`).
-/
namespace Verif.TabLib
variable {V : Type}

/-! ### C28 -/

theorem moveUp_spec : ∀ (fuel : Nat) (t : Tab V) (i pos : Int), pos ≤ i → (i - pos).toNat < fuel →
    moveUp fuel t i pos = ((fun k => if pos < k ∧ k ≤ i then t (k - 1) else t k), .ok ())
  | 0, _, _, _, _, h => by omega
  | fuel + 1, t, i, pos, hp, hf => by
    unfold moveUp
    by_cases h : i > pos
    · rw [if_pos h, moveUp_spec fuel _ (i - 1) pos (by omega) (by omega)]
      refine Prod.ext (funext fun k => ?_) rfl
      simp only [Tab.set]
      by_cases h1 : pos < k ∧ k ≤ i - 1
      · rw [if_pos h1, if_neg (by omega), if_pos (by omega)]
      · rw [if_neg h1]
        by_cases h2 : k = i
        · rw [if_pos h2, if_pos (by omega), h2]
        · rw [if_neg h2, if_neg (by omega)]
    · rw [if_neg h]
      refine Prod.ext (funext fun k => ?_) rfl
      dsimp only
      rw [if_neg (by omega)]

/-- **C28.** `table.insert(t, pos, v)` with `1 ≤ pos ≤ #t + 1`: position `pos` holds `v`, the elements `pos..#t` move up by one, every other
key keeps its value.  A position out of that range raises an error and changes nothing. -/
theorem insert_correct (t : Tab V) (n : Int) (pos : Int) (v : V) (h0 : 0 ≤ n) (hmax : n < maxI) :
    ((1 ≤ pos ∧ pos ≤ n + 1) → ∃ t', tinsert t n (some pos) v = (t', .ok ()) ∧
      t' pos = v ∧ (∀ k, pos ≤ k → k ≤ n → t' (k + 1) = t k) ∧ (∀ k, k < pos ∨ n + 1 < k → t' k = t k)) ∧
    (¬ (1 ≤ pos ∧ pos ≤ n + 1) → ∃ m, tinsert t n (some pos) v = (t, .err m)) := by
  unfold maxI at hmax
  have hs : sres (n + 1) = .ok (n + 1) := sres_ok (by unfold InI; omega)
  unfold tinsert
  rw [hs]
  dsimp only
  constructor
  · intro hp
    rw [if_pos hp, moveUp_spec _ t (n + 1) pos hp.2 (by omega)]
    refine ⟨_, rfl, ?_, fun k h1 h2 => ?_, fun k hk => ?_⟩
    · simp [Tab.set]
    · simp only [Tab.set]
      rw [if_neg (by omega), if_pos (by omega)]
      congr 1; omega
    · simp only [Tab.set]
      rw [if_neg (by omega), if_neg (by omega)]
  · intro hp
    rw [if_neg hp]
    exact ⟨_, rfl⟩

/-- **C28.** `table.insert(t, v)` stores `v` after the last element and changes nothing else. -/
theorem append_correct (t : Tab V) (n : Int) (v : V) (h0 : 0 ≤ n) (hmax : n < maxI) :
    tinsert t n none v = ((fun k => if k = n + 1 then v else t k), .ok ()) := by
  unfold maxI at hmax
  have hs : sres (n + 1) = .ok (n + 1) := sres_ok (by unfold InI; omega)
  unfold tinsert
  rw [hs]
  rfl

/-- a table whose length is the largest integer (possible through `__len`) makes the C code compute `maxinteger + 1` -/
theorem insert_ub_at_maxint (t : Tab V) (pos : Option Int) (v : V) : (tinsert t maxI pos v).2 = .ub := by
  have : sres (maxI + 1) = .ub := by decide
  unfold tinsert
  rw [this]

theorem moveDown_spec : ∀ (fuel : Nat) (t : Tab V) (pos size : Int), (size - pos).toNat < fuel →
    moveDown fuel t pos size = ((fun k => if pos ≤ k ∧ k < size then t (k + 1) else t k), .ok (max pos size))
  | 0, _, _, _, h => by omega
  | fuel + 1, t, pos, size, hf => by
    unfold moveDown
    by_cases h : pos < size
    · rw [if_pos h, moveDown_spec fuel _ (pos + 1) size (by omega)]
      refine Prod.ext (funext fun k => ?_) (by dsimp only; congr 1; omega)
      simp only [Tab.set]
      by_cases h1 : pos + 1 ≤ k ∧ k < size
      · rw [if_pos h1, if_neg (by omega), if_pos (by omega)]
      · rw [if_neg h1]
        by_cases h2 : k = pos
        · rw [if_pos h2, if_pos (by omega), h2]
        · rw [if_neg h2, if_neg (by omega)]
    · rw [if_neg h]
      refine Prod.ext (funext fun k => ?_) (by dsimp only; congr 1; omega)
      dsimp only
      rw [if_neg (by omega)]

/-- **C28.** `table.remove(t, pos)` with `1 ≤ pos ≤ #t`: returns the element at `pos`, the elements after it move down by one, the last
position becomes nil, every other key keeps its value.  The default position is `#t`. -/
theorem remove_correct (nil : V) (t : Tab V) (n pos : Int) (hp : 1 ≤ pos ∧ pos ≤ n) (hmax : n < maxI) (arg : Option Int)
    (harg : arg = some pos ∨ (arg = none ∧ pos = n)) :
    ∃ t', tremove nil t n arg = (t', .ok (t pos)) ∧
      (∀ k, pos ≤ k → k < n → t' k = t (k + 1)) ∧ t' n = nil ∧ (∀ k, k < pos ∨ n < k → t' k = t k) := by
  unfold maxI at hmax
  have hs : sres (n + 1) = .ok (n + 1) := sres_ok (by unfold InI; omega)
  have hgd : arg.getD n = pos := by
    rcases harg with rfl | ⟨rfl, rfl⟩ <;> rfl
  unfold tremove
  simp only [hgd, hs]
  rw [moveDown_spec _ t pos n (by omega)]
  have hmaxe : max pos n = n := by omega
  simp only [hmaxe]
  refine ⟨Tab.set (fun k => if pos ≤ k ∧ k < n then t (k + 1) else t k) n nil, ?_, ?_⟩
  · split
    · rw [if_pos (by omega), if_pos (by omega)]
    · rfl
  · refine ⟨fun k h1 h2 => ?_, ?_, fun k hk => ?_⟩
    · simp only [Tab.set]
      rw [if_neg (by omega), if_pos (by omega)]
    · simp [Tab.set]
    · simp only [Tab.set]
      rw [if_neg (by omega), if_neg (by omega)]

/-- **C28.** `table.remove(t, #t + 1)`, and `table.remove(t)` or `table.remove(t, 0)` on an empty sequence: returns the value stored there and clears it;
nothing else changes. -/
theorem remove_past_end (nil : V) (t : Tab V) (n pos : Int) (h0 : 0 ≤ n) (hmax : n < maxI) (arg : Option Int) 
    (h : (arg = some pos ∧ pos = n + 1) ∨ (n = 0 ∧ pos = 0 ∧ (arg = none ∨ arg = some 0))) :
    ∃ t', tremove nil t n arg = (t', .ok (t pos)) ∧ t' pos = nil ∧ ∀ k, k ≠ pos → t' k = t k := by
  unfold maxI at hmax
  have hs : sres (n + 1) = .ok (n + 1) := sres_ok (by unfold InI; omega)
  have hgd : arg.getD n = pos := by
    rcases h with ⟨rfl, rfl⟩ | ⟨rfl, rfl, rfl | rfl⟩ <;> rfl
  have hpos : pos = n + 1 ∨ (n = 0 ∧ pos = 0) := by
    rcases h with ⟨_, h⟩ | ⟨h1, h2, _⟩
    · exact .inl h
    · exact .inr ⟨h1, h2⟩
  unfold tremove
  simp only [hgd, hs]
  have hm : moveDown ((n - pos).toNat + 1) t pos n = (t, .ok pos) := by
    unfold moveDown
    rw [if_neg (by omega)]
  simp only [hm]
  refine ⟨t.set pos nil, ?_, by simp [Tab.set], fun k hk => by simp [Tab.set, hk]⟩
  split
  · rw [if_pos (by omega), if_pos (by omega)]
  · rfl

/-- **C28.** Removing at a position outside `1..#t+1` (other than `#t` itself) raises an error and changes nothing. -/
theorem remove_out_of_range (nil : V) (t : Tab V) (n pos : Int) (hne : pos ≠ n) (hp : ¬ (1 ≤ pos ∧ pos ≤ n + 1)) (hmax : n < maxI) (h0 : 0 ≤ n) :
    ∃ m, tremove nil t n (some pos) = (t, .err m) := by
  unfold maxI at hmax
  have hs : sres (n + 1) = .ok (n + 1) := sres_ok (by unfold InI; omega)
  unfold tremove
  simp only [Option.getD_some, hs]
  rw [if_pos hne]
  by_cases h1 : 1 ≤ pos
  · rw [if_pos h1, if_neg (by omega)]
    exact ⟨_, rfl⟩
  · rw [if_neg h1]
    exact ⟨_, rfl⟩

/-- **C28.** Removing what was just inserted restores the table (for a sequence: the key after the last holds nil) and returns the inserted value. -/
theorem remove_insert (nil : V) (t : Tab V) (n pos : Int) (v : V) (h0 : 0 ≤ n) (hmax : n + 1 < maxI) (hp : 1 ≤ pos ∧ pos ≤ n + 1)
    (hnil : t (n + 1) = nil) :
    ∃ t', tinsert t n (some pos) v = (t', .ok ()) ∧ tremove nil t' (n + 1) (some pos) = (t, .ok v) := by
  obtain ⟨t', h1, h2, h3, h4⟩ := (insert_correct t n pos v h0 (by unfold maxI at *; omega)).1 hp
  obtain ⟨t'', g1, g2, g3, g4⟩ := remove_correct nil t' (n + 1) pos hp hmax (some pos) (.inl rfl)
  refine ⟨t', h1, ?_⟩
  rw [g1, h2]
  refine Prod.ext (funext fun k => ?_) rfl
  dsimp only
  by_cases hk : k < pos ∨ n + 1 < k
  · rw [g4 k hk, h4 k hk]
  · by_cases hk2 : k = n + 1
    · rw [hk2, g3, hnil]
    · rw [g2 k (by omega) (by omega), h3 k (by omega) (by omega)]

/-- **C28.** In terms of sequences: if positions `1..#xs` hold `xs`, then after `table.insert(t, pos, v)` positions `1..#xs+1` hold `xs` with `v`
inserted. -/
theorem insert_list (t : Tab V) (xs : List V) (pos : Nat) (v : V) (hx : ∀ i (h : i < xs.length), t ((i : Int) + 1) = xs[i])
    (hp : 1 ≤ pos ∧ pos ≤ xs.length + 1) (hmax : (xs.length : Int) < maxI) :
    ∃ t', tinsert t xs.length (some pos) v = (t', .ok ()) ∧
      ∀ i (h : i < (xs.insertIdx (pos - 1) v).length), t' ((i : Int) + 1) = (xs.insertIdx (pos - 1) v)[i] := by
  obtain ⟨t', h1, h2, h3, h4⟩ := (insert_correct t xs.length pos v (by omega) hmax).1 (by omega)
  refine ⟨t', h1, fun i h => ?_⟩
  rw [List.length_insertIdx, if_pos (by omega)] at h
  rw [List.getElem_insertIdx]
  split
  · rw [h4 _ (by omega), hx i (by omega)]
  · split
    · have e : ((i : Int) + 1) = (pos : Int) := by omega
      rw [e, h2]
    · have := h3 (i : Int) (by omega) (by omega)
      have e : (i : Int) = ((i - 1 : Nat) : Int) + 1 := by omega
      rw [this, ← hx (i - 1) (by omega), ← e]

/-! ### C29 -/

/-- Specification: all elements are copied at once. -/
def moved (h : Heap V) (a : Nat) (f e t : Int) (b : Nat) : Heap V :=
  fun x k => if x = b ∧ t ≤ k ∧ k ≤ t + (e - f) then h a (f + (k - t)) else h x k

theorem copyUp_spec (a b : Nat) (f t n : Int) (hf : InI f) (hfn : InI (f + (n - 1))) (ht : InI t) (htn : InI (t + (n - 1)))
    (h0 : Heap V) (hov : a = b → (t ≤ f ∨ f + n ≤ t)) :
    ∀ (fuel : Nat) (h : Heap V) (i : Int), 0 ≤ i → i ≤ n → (n - i).toNat < fuel →
      (∀ x k, h x k = if x = b ∧ t ≤ k ∧ k < t + i then h0 a (f + (k - t)) else h0 x k) →
      copyUp a b f t n fuel h i = ((fun x k => if x = b ∧ t ≤ k ∧ k < t + n then h0 a (f + (k - t)) else h0 x k), .ok ())
  | 0, _, _, _, _, hfu, _ => by omega
  | fuel + 1, h, i, hi0, hin, hfu, hinv => by
    unfold copyUp
    by_cases hlt : i < n
    · unfold InI at hf hfn ht htn
      rw [if_pos hlt, sres_ok (show InI (f + i) by unfold InI; omega), sres_ok (show InI (t + i) by unfold InI; omega)]
      dsimp only
      refine copyUp_spec a b f t n (by unfold InI; omega) (by unfold InI; omega) (by unfold InI; omega) (by unfold InI; omega) h0 hov fuel _ (i + 1)
        (by omega) (by omega) (by omega) ?_
      intro x k
      have hsrc : h a (f + i) = h0 a (f + i) := by
        rw [hinv]
        by_cases hab : a = b
        · rcases hov hab with hh | hh
          · rw [if_neg (by omega)]
          · rw [if_neg (by omega)]
        · rw [if_neg (fun hc => hab hc.1)]
      simp only [Heap.set]
      by_cases hx : x = b
      · rw [if_pos hx]
        simp only [Tab.set]
        by_cases hk : k = t + i
        · rw [if_pos hk, if_pos ⟨hx, by omega, by omega⟩, hsrc, hk]
          congr 1; omega
        · rw [if_neg hk, hinv]
          subst hx
          by_cases hc : t ≤ k ∧ k < t + i
          · rw [if_pos ⟨rfl, hc.1, hc.2⟩, if_pos ⟨rfl, by omega, by omega⟩]
          · rw [if_neg (fun h => hc h.2), if_neg (fun h => hc (by omega))]
      · rw [if_neg hx, hinv, if_neg (fun h => hx h.1), if_neg (fun h => hx h.1)]
    · rw [if_neg hlt]
      have : i = n := by omega
      subst this
      refine Prod.ext (funext fun x => funext fun k => ?_) rfl
      exact hinv x k

theorem copyDown_spec (a b : Nat) (f t n : Int) (hf : InI f) (hfn : InI (f + (n - 1))) (ht : InI t) (htn : InI (t + (n - 1)))
    (h0 : Heap V) (hov : a = b → f ≤ t) :
    ∀ (fuel : Nat) (h : Heap V) (i : Int), -1 ≤ i → i < n → (i + 1).toNat < fuel →
      (∀ x k, h x k = if x = b ∧ t + i < k ∧ k < t + n then h0 a (f + (k - t)) else h0 x k) →
      copyDown a b f t fuel h i = ((fun x k => if x = b ∧ t ≤ k ∧ k < t + n then h0 a (f + (k - t)) else h0 x k), .ok ())
  | 0, _, _, _, _, hfu, _ => by omega
  | fuel + 1, h, i, hi0, hin, hfu, hinv => by
    unfold copyDown
    by_cases hlt : i ≥ 0
    · unfold InI at hf hfn ht htn
      rw [if_pos hlt, sres_ok (show InI (f + i) by unfold InI; omega), sres_ok (show InI (t + i) by unfold InI; omega)]
      dsimp only
      refine copyDown_spec a b f t n (by unfold InI; omega) (by unfold InI; omega) (by unfold InI; omega) (by unfold InI; omega) h0 hov fuel _ (i - 1)
        (by omega) (by omega) (by omega) ?_
      intro x k
      have hsrc : h a (f + i) = h0 a (f + i) := by
        rw [hinv]
        by_cases hab : a = b
        · have hh := hov hab
          rw [if_neg (by omega)]
        · rw [if_neg (fun hc => hab hc.1)]
      simp only [Heap.set]
      by_cases hx : x = b
      · rw [if_pos hx]
        simp only [Tab.set]
        by_cases hk : k = t + i
        · rw [if_pos hk, if_pos ⟨hx, by omega, by omega⟩, hsrc, hk]
          congr 1; omega
        · rw [if_neg hk, hinv]
          subst hx
          by_cases hc : t + i < k ∧ k < t + n
          · rw [if_pos ⟨rfl, hc.1, hc.2⟩, if_pos ⟨rfl, by omega, by omega⟩]
          · rw [if_neg (fun h => hc h.2), if_neg (fun h => hc (by omega))]
      · rw [if_neg hx, hinv, if_neg (fun h => hx h.1), if_neg (fun h => hx h.1)]
    · rw [if_neg hlt]
      have : i = -1 := by omega
      subst this
      refine Prod.ext (funext fun x => funext fun k => ?_) rfl
      dsimp only
      rw [hinv]
      by_cases hc : x = b ∧ t ≤ k ∧ k < t + n
      · rw [if_pos hc, if_pos ⟨hc.1, by omega, by omega⟩]
      · rw [if_neg hc, if_neg (fun h => hc ⟨h.1, by omega, by omega⟩)]

/-- **C29.** For all 64-bit `f`, `e`, `t` and any tables (`b` the optional fifth argument; the comparison answers "equal" at least when they are the same table):
if the ranges fit, `table.move` copies `a[f..e]` to `b[t..]` as if all reads came before all writes and changes nothing else; otherwise
it raises an error and changes nothing.  No signed overflow occurs in either case. -/
theorem move_correct (h : Heap V) (a : Nat) (f e t : Int) (b : Option Nat) (eq : Bool) (hf : InI f) (he : InI e) (ht : InI t)
    (heq : b = some a → eq = true) :
    ((e - f + 1 ≤ maxI ∧ t + (e - f) ≤ maxI ∨ e < f) → tmove h a f e t b eq = (moved h a f e t (b.getD a), .ok ())) ∧
    (f ≤ e → ¬ (e - f + 1 ≤ maxI ∧ t + (e - f) ≤ maxI) → ∃ m, tmove h a f e t b eq = (h, .err m)) := by
  unfold InI at hf he ht
  unfold maxI
  unfold tmove
  dsimp only
  by_cases hef : e ≥ f
  · rw [if_pos hef]
    have hc : (f > 0 ∨ e < maxI + f) ↔ e - f + 1 ≤ 9223372036854775807 := by unfold maxI; omega
    by_cases hn : e - f + 1 ≤ 9223372036854775807
    · rw [if_pos (hc.2 hn)]
      simp only [sres_ok (show InI (e - f) by unfold InI; omega), sres_ok (show InI (e - f + 1) by unfold InI; omega),
        sres_ok (show InI (maxI - (e - f + 1)) by unfold InI maxI; omega), sres_ok (show InI (maxI - (e - f + 1) + 1) by unfold InI maxI; omega)]
      by_cases hd : t ≤ maxI - (e - f + 1) + 1
      · rw [if_pos hd]
        have hd' : t + (e - f) ≤ 9223372036854775807 := by unfold maxI at hd; omega
        refine ⟨fun _ => ?_, fun _ hno => absurd ⟨hn, hd'⟩ hno⟩
        have hres : ∀ b', (fun x k => if x = b' ∧ t ≤ k ∧ k < t + (e - f + 1) then h a (f + (k - t)) else h x k) = moved h a f e t b' := by
          intro b'
          funext x k
          unfold moved
          by_cases hc : x = b' ∧ t ≤ k ∧ k ≤ t + (e - f)
          · rw [if_pos hc, if_pos ⟨hc.1, by omega, by omega⟩]
          · rw [if_neg hc, if_neg (fun h => hc ⟨h.1, by omega, by omega⟩)]
        by_cases hup : t > e ∨ t ≤ f ∨ (b.isSome ∧ eq = false)
        · rw [if_pos hup, copyUp_spec a (b.getD a) f t (e - f + 1) (by unfold InI; omega) (by unfold InI; omega) (by unfold InI; omega)
            (by unfold InI; omega) h ?_ _ h 0 (by omega) (by omega) (by omega) ?_, hres]
          · intro hab
            rcases hup with hh | hh | ⟨hs, hh⟩
            · right; omega
            · left; exact hh
            · exfalso
              obtain ⟨b', rfl⟩ := Option.isSome_iff_exists.1 hs
              simp only [Option.getD_some] at hab
              rw [heq (by rw [hab])] at hh
              exact absurd hh (by decide)
          · intro x k
            rw [if_neg (by omega)]
        · rw [if_neg hup, copyDown_spec a (b.getD a) f t (e - f + 1) (by unfold InI; omega) (by unfold InI; omega) (by unfold InI; omega)
            (by unfold InI; omega) h ?_ _ h (e - f + 1 - 1) (by omega) (by omega) (by omega) ?_, hres]
          · intro _; omega
          · intro x k
            rw [if_neg (by omega)]
      · rw [if_neg hd]
        refine ⟨fun hh => ?_, fun _ _ => ⟨_, rfl⟩⟩
        unfold maxI at hd
        omega
    · rw [if_neg (fun hh => hn (hc.1 hh))]
      exact ⟨fun hh => by omega, fun _ _ => ⟨_, rfl⟩⟩
  · rw [if_neg hef]
    refine ⟨fun _ => Prod.ext (funext fun x => funext fun k => ?_) rfl, fun hh => by omega⟩
    unfold moved
    dsimp only
    rw [if_neg (by omega)]

/-! ### C53 -/

/-- the values at positions `i`, `i+1`, … (`n` of them) -/
def run (t : Tab V) (i : Int) : Nat → List V
  | 0 => []
  | n + 1 => t i :: run t (i + 1) n

theorem concatLoop_ok (str : V → Option (List UInt8)) (t : Tab V) (sep : List UInt8) (last : Int) :
    ∀ (n : Nat) (i : Int) (b : List UInt8) (ss : List (List UInt8)), (last + 1 - i).toNat = n → (i ≤ last + 1) →
      (run t i n).map str = ss.map some → ∀ fuel, (last - i).toNat < fuel →
      concatLoop str t sep last fuel i b = .ok (b ++ (List.intersperse sep ss).flatten)
  | 0, i, b, ss, hn, hi, hss, fuel, hf => by
    obtain ⟨fuel, rfl⟩ : ∃ k, fuel = k + 1 := ⟨fuel - 1, by omega⟩
    unfold concatLoop
    rw [if_neg (by omega), if_neg (by omega)]
    cases ss with
    | nil => simp
    | cons => simp [run] at hss
  | n + 1, i, b, ss, hn, hi, hss, fuel, hf => by
    obtain ⟨fuel, rfl⟩ : ∃ k, fuel = k + 1 := ⟨fuel - 1, by omega⟩
    cases ss with
    | nil => simp [run] at hss
    | cons s ss =>
      simp only [run, List.map_cons, List.cons.injEq] at hss
      unfold concatLoop
      by_cases h : i < last
      · rw [if_pos h, hss.1]
        dsimp only
        rw [concatLoop_ok str t sep last n (i + 1) _ ss (by omega) (by omega) hss.2 fuel (by omega)]
        cases ss with
        | nil =>
          exfalso
          obtain ⟨k, rfl⟩ : ∃ k, n = k + 1 := ⟨n - 1, by omega⟩
          simp [run] at hss
        | cons s2 ss => simp [List.append_assoc]
      · rw [if_neg h, if_pos (by omega), hss.1]
        have : n = 0 := by omega
        subst this
        cases ss with
        | nil => simp
        | cons => simp [run] at hss

theorem concatLoop_err (str : V → Option (List UInt8)) (t : Tab V) (sep : List UInt8) (last : Int) :
    ∀ (n : Nat) (i : Int) (b : List UInt8), (last + 1 - i).toNat = n → none ∈ (run t i n).map str → ∀ fuel, (last - i).toNat < fuel →
      ∃ m, concatLoop str t sep last fuel i b = .err m
  | 0, i, b, hn, hss, fuel, hf => by simp [run] at hss
  | n + 1, i, b, hn, hss, fuel, hf => by
    obtain ⟨fuel, rfl⟩ : ∃ k, fuel = k + 1 := ⟨fuel - 1, by omega⟩
    unfold concatLoop
    cases hs : str (t i) with
    | none =>
      dsimp only
      by_cases h : i < last
      · rw [if_pos h]; exact ⟨_, rfl⟩
      · rw [if_neg h, if_pos (by omega)]; exact ⟨_, rfl⟩
    | some s =>
      simp only [run, List.map_cons, List.mem_cons, hs] at hss
      have hss' : none ∈ (run t (i + 1) n).map str := by
        rcases hss with h | h
        · exact absurd h (by simp)
        · exact h
      by_cases h : i < last
      · rw [if_pos h]
        exact concatLoop_err str t sep last n (i + 1) _ (by omega) hss' fuel (by omega)
      · exfalso
        have : n = 0 := by omega
        subst this
        simp [run] at hss'

/-- **C53.** `table.concat(t, sep, i, j)`: if all values at `i..j` are strings or numbers the result is their string forms separated by `sep`;
otherwise an error is raised.  For an empty range the result is empty. -/
theorem concat_correct (str : V → Option (List UInt8)) (t : Tab V) (sep : List UInt8) (i j : Int) (hij : i ≤ j + 1) :
    (∀ ss : List (List UInt8), (run t i (j + 1 - i).toNat).map str = ss.map some →
      tconcat str t sep i j = .ok (List.intersperse sep ss).flatten) ∧
    (none ∈ (run t i (j + 1 - i).toNat).map str → ∃ m, tconcat str t sep i j = .err m) := by
  constructor
  · intro ss hss
    have := concatLoop_ok str t sep j _ i [] ss rfl hij hss ((j - i).toNat + 1) (by omega)
    simpa [tconcat] using this
  · intro h
    exact concatLoop_err str t sep j _ i [] rfl h _ (by omega)

theorem unpackLoop_spec (t : Tab V) (e : Int) : ∀ (n : Nat) (i : Int), i ≤ e → (e - i).toNat = n → ∀ fuel, n < fuel →
    unpackLoop t e fuel i = .ok (run t i (n + 1))
  | n, i, hi, hn, 0, hf => by omega
  | 0, i, hi, hn, fuel + 1, hf => by
    unfold unpackLoop
    have : i = e := by omega
    rw [if_neg (by omega), this]; rfl
  | n + 1, i, hi, hn, fuel + 1, hf => by
    unfold unpackLoop
    rw [if_pos (by omega), unpackLoop_spec t e n (i + 1) (by omega) (by omega) fuel (by omega)]
    rfl

/-- **C53.** `table.unpack(t, i, j)` returns the values at `i..j` in order for all 64-bit `i`, `j`, or raises an error when there are more
than fit on the stack (or `INT_MAX`). -/
theorem unpack_correct (room : Nat) (t : Tab V) (i e : Int) (hi : InI i) (he : InI e) :
    ((e - i + 1 ≤ room ∧ e - i + 1 ≤ 2147483647) → unpack room t i e = .ok (run t i (e + 1 - i).toNat)) ∧
    (¬ (e - i + 1 ≤ room ∧ e - i + 1 ≤ 2147483647) → i ≤ e → ∃ m, unpack room t i e = .err m) := by
  unfold InI at hi he
  unfold unpack
  by_cases hie : i > e
  · rw [if_pos hie]
    refine ⟨fun _ => ?_, fun _ h => by omega⟩
    rw [show (e + 1 - i).toNat = 0 by omega]; rfl
  · rw [if_neg hie]
    dsimp only
    have hn : toU ((toU e : Int) - i) = (e - i).toNat := by unfold toU; omega
    rw [hn]
    constructor
    · intro h
      rw [if_neg (by omega), unpackLoop_spec t e _ i (by omega) rfl _ (by omega)]
      congr 2; omega
    · intro h _
      rw [if_pos (by omega)]
      exact ⟨_, rfl⟩

theorem packLoop_spec (t0 : Tab V) : ∀ (args done : List V) (t : Tab V),
    (∀ k : Int, t k = if (args.length : Int) < k ∧ k ≤ args.length + done.length then (done[(k - args.length - 1).toNat]?).getD (t0 k) else t0 k) →
    ∀ k : Int, packLoop args.reverse args.length t k = if 0 < k ∧ k ≤ args.length + done.length then ((args ++ done)[(k - 1).toNat]?).getD (t0 k) else t0 k := by
  intro args
  generalize hn : args.length = n
  induction n generalizing args with
  | zero =>
    intro done t h k
    have : args = [] := List.length_eq_zero_iff.1 hn
    subst this
    have := h k
    simpa [packLoop] using this
  | succ n ih =>
    intro done t h k
    have hne : args ≠ [] := by intro h; simp [h] at hn
    obtain ⟨as, v, rfl⟩ : ∃ as v, args = as ++ [v] := ⟨args.dropLast, args.getLast hne, (List.dropLast_concat_getLast hne).symm⟩
    have hl : as.length = n := by simpa using hn
    rw [List.reverse_append, List.reverse_singleton, List.singleton_append]
    unfold packLoop
    rw [Nat.add_sub_cancel]
    have := ih as hl (v :: done) (t.set ((n + 1 : Nat) : Int) v) ?_ k
    · rw [this, List.append_assoc, List.singleton_append, List.length_cons]
      rw [show ((n + 1 : Nat) : Int) + (done.length : Nat) = (n : Int) + ((done.length + 1 : Nat) : Int) by omega]
    · intro k
      simp only [Tab.set, List.length_cons]
      by_cases hk : k = ((n + 1 : Nat) : Int)
      · rw [if_pos hk, if_pos (by omega), show (k - (n : Int) - 1).toNat = 0 by omega]
        simp
      · rw [if_neg hk, h k]
        by_cases hc : ((n + 1 : Nat) : Int) < k ∧ k ≤ ((n + 1 : Nat) : Int) + done.length
        · rw [if_pos hc, if_pos (by omega), show (k - (n : Int) - 1).toNat = (k - ((n + 1 : Nat) : Int) - 1).toNat + 1 by omega]
          simp
        · rw [if_neg hc, if_neg (by omega)]

/-- **C53.** `table.unpack(table.pack(...), 1, n)` gives the arguments back. -/
theorem pack_unpack (nil : V) (room : Nat) (args : List V) (hroom : args.length ≤ room) (hint : args.length ≤ 2147483647) :
    unpack room (pack nil args).1 1 (pack nil args).2 = .ok args := by
  have hp : ∀ k : Int, (pack nil args).1 k = if 0 < k ∧ k ≤ args.length then (args[(k - 1).toNat]?).getD nil else nil := by
    intro k
    have := packLoop_spec (fun _ => nil) args [] (fun _ => nil) (by intro k; simp) k
    simpa [pack] using this
  have hlen : (pack nil args).2 = args.length := rfl
  rw [hlen, (unpack_correct room _ 1 args.length (by decide) (by unfold InI; omega)).1 (by omega)]
  congr 1
  have hrun : ∀ (n : Nat) (t : Tab V) (i : Int), (run t i n).length = n ∧ ∀ j (h : j < (run t i n).length), (run t i n)[j] = t (i + j) := by
    intro n
    induction n with
    | zero => intro t i; exact ⟨rfl, by intro j h; simp [run] at h⟩
    | succ n ih =>
      intro t i
      refine ⟨by simp [run, (ih t (i + 1)).1], fun j h => ?_⟩
      cases j with
      | zero => simp [run]
      | succ j =>
        simp only [run, List.getElem_cons_succ]
        rw [(ih t (i + 1)).2]
        congr 1; omega
  apply List.ext_getElem
  · rw [(hrun _ _ _).1]; omega
  · intro j h1 h2
    rw [(hrun _ _ _).2 j h1, hp, if_pos (by omega), show (1 + (j : Int) - 1).toNat = j by omega, List.getElem?_eq_getElem h2]
    rfl

/-! ### concrete instances -/

/-- an overlapping move to the right inside one table -/
example : (tmove (fun _ k => k * 10) 0 1 3 2 none false).2 = .ok () ∧ (tmove (fun _ k => k * 10) 0 1 3 2 none false).1 0 4 = 30 := by
  rw [(move_correct (fun _ k => k * 10) 0 1 3 2 none false (by decide) (by decide) (by decide) (by simp)).1 (by decide)]
  decide

example : ∃ t', tinsert (fun k => k) 3 (some 2) 99 = (t', .ok ()) ∧ t' 2 = 99 ∧ (∀ k : Int, 2 ≤ k → k ≤ 3 → t' (k + 1) = k) ∧ (∀ k : Int, k < 2 ∨ 3 + 1 < k → t' k = k) :=
  (insert_correct (fun k => k) 3 2 99 (by decide) (by decide)).1 (by decide)

example : ∃ t', tremove 0 (fun k => k) 5 none = (t', .ok 5) ∧ (∀ k : Int, 5 ≤ k → k < 5 → t' k = k + 1) ∧ t' 5 = 0 ∧ (∀ k : Int, k < 5 ∨ 5 < k → t' k = k) :=
  remove_correct 0 (fun k => k) 5 5 (by decide) (by decide) none (.inr ⟨rfl, rfl⟩)

example : tconcat (fun (s : List UInt8) => some s) (fun k => if k = 1 then [97] else [98]) [44] 1 3 = .ok [97, 44, 98, 44, 98] :=
  (concat_correct _ _ _ 1 3 (by decide)).1 [[97], [98], [98]] rfl

end Verif.TabLib
