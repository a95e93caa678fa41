import Verif.Call.Model
/-!
# C47, C48, C57: results and arguments arrive
-/
namespace Verif.Call

variable {V : Type}

theorem put_same (st : Stk V) (i : Nat) (v : V) : put st i v i = v := by simp [put]
theorem put_ne (st : Stk V) {i j : Nat} (v : V) (h : j ≠ i) : put st i v j = st j := by
  simp [put, h]

/-- An ascending copy to a position not above its source moves every value, whatever the overlap. -/
theorem copyUp_spec (st : Stk V) (dst src : Nat) (h : dst ≤ src) (k : Nat) (j : Nat) :
    copyUp st dst src k j = if dst ≤ j ∧ j < dst + k then st (src + (j - dst)) else st j := by
  induction k generalizing j with
  | zero => rw [if_neg (by omega)]; rfl
  | succ k ih =>
    show put (copyUp st dst src k) (dst + k) (copyUp st dst src k (src + k)) j = _
    by_cases hj : j = dst + k
    · subst hj
      rw [put_same, ih, if_neg (by omega), if_pos (by omega)]
      congr 1; omega
    · rw [put_ne _ _ hj, ih]
      by_cases hc : dst ≤ j ∧ j < dst + k
      · rw [if_pos hc, if_pos (by omega)]
      · rw [if_neg hc, if_neg (by omega)]

/-- The same when source and destination do not overlap. -/
theorem copyUp_disj (st : Stk V) (dst src : Nat) (k : Nat) (h : src + k ≤ dst) (j : Nat) :
    copyUp st dst src k j = if dst ≤ j ∧ j < dst + k then st (src + (j - dst)) else st j := by
  induction k generalizing j with
  | zero => rw [if_neg (by omega)]; rfl
  | succ k ih =>
    show put (copyUp st dst src k) (dst + k) (copyUp st dst src k (src + k)) j = _
    by_cases hj : j = dst + k
    · subst hj
      rw [put_same, ih (by omega), if_neg (by omega), if_pos (by omega)]
      congr 1; omega
    · rw [put_ne _ _ hj, ih (by omega)]
      by_cases hc : dst ≤ j ∧ j < dst + k
      · rw [if_pos hc, if_pos (by omega)]
      · rw [if_neg hc, if_neg (by omega)]

theorem nilFill_spec (nil : V) (st : Stk V) (dst k j : Nat) :
    nilFill nil st dst k j = if dst ≤ j ∧ j < dst + k then nil else st j := by
  induction k with
  | zero => rw [if_neg (by omega)]; rfl
  | succ k ih =>
    show put (nilFill nil st dst k) (dst + k) nil j = _
    by_cases hj : j = dst + k
    · subst hj; rw [put_same, if_pos (by omega)]
    · rw [put_ne _ _ hj, ih]
      by_cases hc : dst ≤ j ∧ j < dst + k
      · rw [if_pos hc, if_pos (by omega)]
      · rw [if_neg hc, if_neg (by omega)]

/-- C47, fixed number of results, for Lua functions and ordinary C functions (the whole claim would
also cover fast C functions, for which it fails: `fastcall_wrong`).  Whenever the results lie at or above the place they go to
(always so: the function slot is below its own frame), the caller sees exactly the first results,
completed with nils; the slots below are untouched and the top follows the last result. -/
theorem results_fixed_partial (nil : V) (st : Stk V) (first res nres w : Nat) (h : res ≤ first) :
    ∃ st', moveresults nil st first res nres (w : Int) = (st', res + w, true) ∧
      (∀ i, i < w → st' (res + i) = if i < nres then st (first + i) else nil) ∧
      (∀ j, j < res → st' j = st j) := by
  unfold moveresults
  by_cases h0 : (w : Int) = 0
  · have : w = 0 := by omega
    subst this
    rw [if_pos h0]; exact ⟨_, rfl, fun i hi => by omega, fun _ _ => rfl⟩
  rw [if_neg h0]
  by_cases h1 : (w : Int) = 1
  · have : w = 1 := by omega
    subst this
    rw [if_pos h1]
    refine ⟨_, rfl, ?_, ?_⟩
    · intro i hi
      have : i = 0 := by omega
      subst this
      rw [Nat.add_zero, put_same]
      by_cases hn : nres = 0
      · rw [if_pos hn, if_neg (by omega)]
      · rw [if_neg hn, if_pos (by omega), Nat.add_zero]
    · intro j hj; exact put_ne _ _ (by omega)
  rw [if_neg h1, if_neg (by omega)]
  dsimp only
  rw [Int.toNat_natCast]
  by_cases hw : w ≤ nres
  · rw [if_pos hw]
    refine ⟨_, rfl, ?_, ?_⟩
    · intro i hi
      rw [copyUp_spec _ _ _ h, if_pos (by omega), if_pos (by omega)]
      congr 1; omega
    · intro j hj; rw [copyUp_spec _ _ _ h, if_neg (by omega)]
  · rw [if_neg hw]
    refine ⟨_, rfl, ?_, ?_⟩
    · intro i hi
      rw [nilFill_spec]
      by_cases hi' : i < nres
      · rw [if_neg (by omega), copyUp_spec _ _ _ h, if_pos (by omega), if_pos hi']
        congr 1; omega
      · rw [if_pos (by omega), if_neg hi']
    · intro j hj
      rw [nilFill_spec, if_neg (by omega), copyUp_spec _ _ _ h, if_neg (by omega)]

/-- C47, multiple results: all of them, in order, and the top follows them. -/
theorem results_multi (nil : V) (st : Stk V) (first res nres : Nat) (h : res ≤ first) :
    ∃ st', moveresults nil st first res nres (-1) = (st', res + nres, false) ∧
      (∀ i, i < nres → st' (res + i) = st (first + i)) ∧ (∀ j, j < res → st' j = st j) := by
  refine ⟨copyUp st res first nres, rfl, ?_, ?_⟩
  · intro i hi
    rw [copyUp_spec _ _ _ h, if_pos (by omega)]
    congr 1; omega
  · intro j hj; rw [copyUp_spec _ _ _ h, if_neg (by omega)]

theorem moveFixed_spec (nil : V) (st : Stk V) (top fixed k : Nat) (h : fixed + k ≤ top) (j : Nat) :
    moveFixed nil st top fixed k j =
      if top ≤ j ∧ j < top + k then st (fixed + (j - top))
      else if fixed ≤ j ∧ j < fixed + k then nil else st j := by
  induction k generalizing j with
  | zero => rw [if_neg (by omega), if_neg (by omega)]; rfl
  | succ k ih =>
    show put (put (moveFixed nil st top fixed k) (top + k) (moveFixed nil st top fixed k (fixed + k)))
      (fixed + k) nil j = _
    by_cases hj : j = fixed + k
    · subst hj; rw [put_same, if_neg (by omega), if_pos (by omega)]
    · rw [put_ne _ _ hj]
      by_cases hj2 : j = top + k
      · subst hj2
        rw [put_same, ih (by omega), if_neg (by omega), if_neg (by omega), if_pos (by omega)]
        congr 1; omega
      · rw [put_ne _ _ hj2, ih (by omega)]
        by_cases hc : top ≤ j ∧ j < top + k
        · rw [if_pos hc, if_pos (by omega)]
        · rw [if_neg hc, if_neg (by omega : ¬ (top ≤ j ∧ j < top + (k + 1)))]
          by_cases hd : fixed ≤ j ∧ j < fixed + k
          · rw [if_pos hd, if_pos (by omega)]
          · rw [if_neg hd, if_neg (by omega)]

/-- The frame of a call: the function's parameters are `args` completed with nils, and, for a
vararg function, the extra arguments sit just below `base`. -/
def Frame (nil : V) (st : Stk V) (func base : Nat) (p : Proto) (args : Nat → V) (n : Nat) : Prop :=
  func < base ∧
  (∀ i, i < p.numparams → st (base + i) = if i < n then args i else nil) ∧
  (p.vararg = true → base = func + 1 + n ∧
    ∀ i, p.numparams ≤ i → i < n → st (func + 1 + i) = args i)

/-- C48, entry.  For any number of arguments, the parameters are the first arguments completed with
nils, the function and all slots below are unchanged, and the frame fits below the new top when the
parameters fit the frame size. -/
theorem enter_frame (nil : V) (st : Stk V) (func n : Nat) (p : Proto) :
    ∃ st' base, enter nil st func (func + 1 + n) p = (st', base, base + p.maxstacksize) ∧
      Frame nil st' func base p (fun i => st (func + 1 + i)) n ∧
      (∀ j, j ≤ func → st' j = st j) := by
  have e : func + 1 + n - func - 1 = n := by omega
  unfold enter
  dsimp only
  rw [e]
  cases hv : p.vararg with
  | false =>
    refine ⟨_, func + 1, rfl, ⟨by omega, ?_, fun h => by rw [hv] at h; cases h⟩, ?_⟩
    · intro i hi
      rw [nilFill_spec]
      by_cases hn : i < n
      · rw [if_neg (by omega), if_pos hn]
      · rw [if_pos (by omega), if_neg hn]
    · intro j hj; rw [nilFill_spec, if_neg (by omega)]
  | true =>
    unfold adjustVarargs
    dsimp only
    have e2 : func + 1 + n - n = func + 1 := by omega
    rw [e2]
    refine ⟨_, func + 1 + n, rfl, ⟨by omega, ?_, fun _ => ⟨rfl, ?_⟩⟩, ?_⟩
    · intro i hi
      rw [nilFill_spec]
      by_cases hn : i < n
      · rw [if_neg (by omega), if_pos hn, moveFixed_spec _ _ _ _ _ (by omega), if_pos (by omega)]
        congr 1; omega
      · rw [if_pos (by omega), if_neg hn]
    · intro i hi hn
      rw [nilFill_spec, if_neg (by omega), moveFixed_spec _ _ _ _ _ (by omega), if_neg (by omega),
        if_neg (by omega)]
    · intro j hj
      rw [nilFill_spec, if_neg (by omega), moveFixed_spec _ _ _ _ _ (by omega), if_neg (by omega),
        if_neg (by omega)]

/-- C48, `...`.  In any later state of a vararg frame in which the slots below `base` are as they
were (the body only writes registers), the vararg instruction delivers the extra arguments in
order: all of them when `b = 0`, else exactly `b - 1` values completed with nils.  No other slot
changes. -/
theorem vararg_values (nil : V) (st : Stk V) (func base : Nat) (p : Proto) (args : Nat → V) (n : Nat)
    (hv : p.vararg = true) (hF : Frame nil st func base p args n)
    (st2 : Stk V) (hst2 : ∀ j, j < base → st2 j = st j) (a b : Nat) :
    ∃ st', opVararg nil st2 func base p.numparams a b =
        (st', if b = 0 then some (base + a + (n - p.numparams)) else none) ∧
      (∀ j, j < (if b = 0 then n - p.numparams else b - 1) →
        st' (base + a + j) = if p.numparams + j < n then args (p.numparams + j) else nil) ∧
      (∀ j, j < base + a ∨ base + a + (if b = 0 then n - p.numparams else b - 1) ≤ j →
        st' j = st2 j) := by
  obtain ⟨_, _, h3⟩ := hF
  obtain ⟨hb, hx⟩ := h3 hv
  have hn : ((base : Int) - func - p.numparams - 1).toNat = n - p.numparams := by omega
  unfold opVararg
  dsimp only
  rw [hn]
  generalize hB : (if b = 0 then n - p.numparams else b - 1) = B
  refine ⟨_, rfl, ?_, ?_⟩
  · intro j hj
    rw [nilFill_spec]
    by_cases hc : p.numparams + j < n
    · rw [if_neg (by omega), if_pos hc, copyUp_disj _ _ _ _ (by omega), if_pos (by omega),
        hst2 _ (by omega), ← hx _ (by omega) hc]
      congr 1; omega
    · rw [if_pos (by omega), if_neg hc]
  · intro j hj
    rw [nilFill_spec, if_neg (by omega), copyUp_disj _ _ _ _ (by omega), if_neg (by omega)]

/-- C57.  A tail call leaves, in the caller's place, exactly the frame an ordinary call would have
made: same function, same parameters, same extra arguments; nothing below changes. -/
theorem tailcall_frame (nil : V) (st : Stk V) (func ofunc n : Nat) (p : Proto) (ho : ofunc ≤ func) :
    ∃ st1 base top st2 base2, enter nil st func (func + 1 + n) p = (st1, base, top) ∧
      tailMove st1 func base top ofunc p.numparams = (st2, base2, base2 + p.maxstacksize) ∧
      Frame nil st2 ofunc base2 p (fun i => st (func + 1 + i)) n ∧
      st2 ofunc = st func ∧ (∀ j, j < ofunc → st2 j = st j) := by
  obtain ⟨st1, base, he, ⟨hb, hp, hv⟩, hlow⟩ := enter_frame nil st func n p
  have key : ∀ j, copyUp st1 ofunc func (base + p.numparams - func) j =
      if ofunc ≤ j ∧ j < ofunc + (base + p.numparams - func) then st1 (func + (j - ofunc))
      else st1 j := copyUp_spec st1 ofunc func ho _
  refine ⟨st1, base, base + p.maxstacksize, copyUp st1 ofunc func (base + p.numparams - func),
    ofunc + (base - func), he, ?_, ⟨by omega, ?_, ?_⟩, ?_, ?_⟩
  · unfold tailMove
    have : ofunc + (base + p.maxstacksize - func) = ofunc + (base - func) + p.maxstacksize := by
      omega
    dsimp only
    rw [this]
  · intro i hi
    rw [key, if_pos (by omega), ← hp i hi]
    congr 1; omega
  · intro h
    obtain ⟨h1, h2⟩ := hv h
    refine ⟨by omega, ?_⟩
    intro i hi hn
    rw [key, if_pos (by omega), ← h2 i hi hn]
    congr 1; omega
  · rw [key, if_pos (by omega), ← hlow func (by omega)]
    congr 1; omega
  · intro j hj
    rw [key, if_neg (by omega), hlow j (by omega)]

theorem shiftUp_spec (st : Stk V) (top k : Nat) (hk : k ≤ top) (j : Nat) :
    shiftUp st top k j = if top - k < j ∧ j ≤ top then st (j - 1) else st j := by
  induction k generalizing j with
  | zero => rw [if_neg (by omega)]; rfl
  | succ k ih =>
    show put (shiftUp st top k) (top - k) (shiftUp st top k (top - k - 1)) j = _
    by_cases hj : j = top - k
    · subst hj
      rw [put_same, ih (by omega), if_neg (by omega), if_pos (by omega)]
    · rw [put_ne _ _ hj, ih (by omega)]
      by_cases hc : top - k < j ∧ j ≤ top
      · rw [if_pos hc, if_pos (by omega)]
      · rw [if_neg hc, if_neg (by omega)]

/-- C57.  Calling a value through its `__call` metamethod calls the metamethod with the value
itself as first argument, followed by the original arguments. -/
theorem callmeta_args (st : Stk V) (func n : Nat) (tm : V) :
    ∃ st', tryfuncTM st func (func + 1 + n) tm = (st', func + 1 + (n + 1)) ∧
      st' func = tm ∧ st' (func + 1) = st func ∧
      (∀ i, i < n → st' (func + 1 + (i + 1)) = st (func + 1 + i)) ∧
      (∀ j, j < func → st' j = st j) := by
  unfold tryfuncTM
  refine ⟨_, rfl, put_same _ _ _, ?_, ?_, ?_⟩
  · rw [put_ne _ _ (by omega), shiftUp_spec _ _ _ (by omega), if_pos (by omega)]
    congr 1
  · intro i hi
    rw [put_ne _ _ (by omega), shiftUp_spec _ _ _ (by omega), if_pos (by omega)]
    congr 1
  · intro j hj
    rw [put_ne _ _ (by omega), shiftUp_spec _ _ _ (by omega), if_neg (by omega)]

/-- C47 fails for fast C functions when more than one result is wanted: the second value the caller
sees is the argument it passed, not nil (`local a, b = ravi.exp(x)` sets `b` to `x`), whatever the
stack. -/
theorem fastcall_wrong (nil : V) (st : Stk V) (func : Nat) (v : V) (hx : st (func + 1) ≠ nil) :
    (fastcall st func v).1 (func + 1) = st (func + 1) ∧ (fastcall st func v).1 (func + 1) ≠ nil := by
  have : (fastcall st func v).1 (func + 1) = st (func + 1) := put_ne _ _ (by omega)
  exact ⟨this, by rw [this]; exact hx⟩

/-- With one result or multiple results wanted, fast C functions behave like the others. -/
theorem fastcall_single (nil : V) (st : Stk V) (func first : Nat) (v : V) (w : Int)
    (hw : w = 1 ∨ w = -1) (hf : func ≤ first) (hv : st first = v) :
    (∀ j, j ≤ func → (fastcall st func v).1 j = (moveresults nil st first func 1 w).1 j) ∧
      (fastcall st func v).2 = (moveresults nil st first func 1 w).2.1 := by
  rcases hw with rfl | rfl
  · obtain ⟨st', he, h1, h2⟩ := results_fixed_partial nil st first func 1 1 hf
    have he' : moveresults nil st first func 1 1 = (st', func + 1, true) := he
    rw [he']
    refine ⟨fun j hj => ?_, rfl⟩
    by_cases hjf : j = func
    · subst hjf
      have := h1 0 (by omega)
      rw [if_pos (by omega), Nat.add_zero, Nat.add_zero] at this
      show put st j v j = st' j
      rw [this, put_same, hv]
    · show put st func v j = st' j
      rw [put_ne _ _ hjf, h2 j (by omega)]
  · obtain ⟨st', he, h1, h2⟩ := results_multi nil st first func 1 hf
    rw [he]
    refine ⟨fun j hj => ?_, rfl⟩
    by_cases hjf : j = func
    · subst hjf
      have := h1 0 (by omega)
      rw [Nat.add_zero, Nat.add_zero] at this
      show put st j v j = st' j
      rw [this, put_same, hv]
    · show put st func v j = st' j
      rw [put_ne _ _ hjf, h2 j (by omega)]

-- a call of `ravi.exp(7)` at slot 5 wanting two results
example : (fastcall (fun j => if j = 6 then 7 else 0) 5 1096).1 6 = 7 := by decide

-- f(10, 11, 12) with two fixed parameters: slots 5 (function) to 8
example : (let (s, b, _) := enter 0 (fun j => if j ≤ 8 then j + 4 else 99) 5 9 ⟨2, true, 7⟩
    (b, s 9, s 10, s 6, s 7, s 8)) = (9, 10, 11, 0, 0, 12) := by decide
example : (let (s, b, _) := enter 0 (fun j => if j ≤ 8 then j + 4 else 99) 5 9 ⟨2, true, 7⟩
    let (s, t) := opVararg 0 s 5 b 2 3 4; (s 12, s 13, s 14, t)) = (12, 0, 0, none) := by decide
example : (let (s, t, r) := moveresults 0 (fun j => j) 7 5 2 3; (s 5, s 6, s 7, t, r)) =
    (7, 8, 0, 8, true) := by decide

end Verif.Call
