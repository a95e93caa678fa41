import Verif.BitSet.Model

/-! Word-level facts used by the theorems about bit sets. -/
namespace Verif.BitSet

/-- Word `i` of the storage, 0 outside. -/
def wd (v : List Nat) (i : Nat) : Nat := (v[i]?).getD 0

theorem get_ok {v : List Nat} {i : Nat} (h : i < v.length) : get v i = .ok (wd v i) := by
  unfold get wd
  rw [List.getElem?_eq_getElem h]; rfl

theorem put_ok {v : List Nat} {i : Nat} (w : Nat) (h : i < v.length) : put v i w = .ok (v.set i w) := by
  unfold put; rw [if_pos h]

theorem wd_set {v : List Nat} {i j w : Nat} (h : i < v.length) :
    wd (v.set i w) j = if j = i then w else wd v j := by
  unfold wd
  rw [List.getElem?_set]
  by_cases e : i = j
  · subst e; simp [h]
  · rw [if_neg e, if_neg (fun e' => e e'.symm)]

theorem wd_append_zeros {v : List Nat} {k i : Nat} : wd (v ++ List.replicate k 0) i = wd v i := by
  unfold wd
  by_cases h : i < v.length
  · rw [List.getElem?_append_left h]
  · rw [List.getElem?_append_right (by omega), List.getElem?_eq_none (by omega : v.length ≤ i)]
    by_cases h2 : i - v.length < k
    · rw [List.getElem?_replicate, if_pos h2]; rfl
    · rw [List.getElem?_replicate, if_neg h2]

theorem wd_lt {v : List Nat} (h : ∀ w ∈ v, w < 2 ^ 64) (i : Nat) : wd v i < 2 ^ 64 := by
  unfold wd
  by_cases hi : i < v.length
  · rw [List.getElem?_eq_getElem hi]
    exact h _ (List.getElem_mem hi)
  · rw [List.getElem?_eq_none (by omega)]; decide

theorem mem_set_lt {v : List Nat} {i w : Nat} (h : ∀ w ∈ v, w < 2 ^ 64) (hw : w < 2 ^ 64) :
    ∀ x ∈ v.set i w, x < 2 ^ 64 := by
  intro x hx
  rcases List.mem_or_eq_of_mem_set hx with h1 | h1
  · exact h x h1
  · exact h1 ▸ hw

theorem bit_test (w s : Nat) : ((w >>> s) &&& 1 != 0) = w.testBit s := by
  unfold Nat.testBit
  rw [Nat.and_comm]

theorem bit_test' (w s : Nat) : ((w >>> s) &&& 1 == 0) = !w.testBit s := by
  rw [← bit_test]; simp [bne]

theorem testBit_wnot {x i : Nat} (hx : x < 2 ^ 64) : (wnot x).testBit i = (decide (i < 64) && !x.testBit i) := by
  unfold wnot
  exact Nat.testBit_two_pow_sub_succ hx i

theorem wnot_lt (x : Nat) : wnot x < 2 ^ 64 := by unfold wnot; omega

theorem testBit_one_shl (s i : Nat) : (1 <<< s).testBit i = decide (i = s) := by
  rw [Nat.one_shiftLeft, Nat.testBit_two_pow]
  by_cases h : i = s
  · subst h; simp
  · simp [h]; omega

theorem testBit_big {w i : Nat} (h : w < 2 ^ 64) (hi : 64 ≤ i) : w.testBit i = false :=
  Nat.testBit_lt_two_pow (Nat.lt_of_lt_of_le h (Nat.pow_le_pow_right (by decide) hi))

theorem testBit_mask {lsh rsh i : Nat} (h : rsh + lsh < 64) :
    (rangeMask lsh rsh).testBit i = (decide (lsh ≤ i) && decide (i < 64 - rsh)) := by
  unfold rangeMask
  rw [Nat.testBit_mod_two_pow, Nat.testBit_shiftLeft, Nat.testBit_shiftRight, testBit_wnot (by decide)]
  by_cases h1 : lsh ≤ i
  · simp [h1]
    by_cases h2 : i < 64 - rsh
    · have : i < 64 := by omega
      have h3 : rsh + lsh + (i - lsh) < 64 := by omega
      simp [h2, this, h3]
    · have h3 : ¬ rsh + lsh + (i - lsh) < 64 := by omega
      simp [h2, h3]
  · simp [h1]

theorem mask_lt (lsh rsh : Nat) : rangeMask lsh rsh < 2 ^ 64 := Nat.mod_lt _ (by decide)

/-- A word is zero iff it has no bit. -/
theorem word_zero {w : Nat} (hw : w < 2 ^ 64) : w = 0 ↔ ∀ i, i < 64 → w.testBit i = false := by
  constructor
  · intro h i _; subst h; exact Nat.zero_testBit i
  · intro h
    apply Nat.eq_of_testBit_eq
    intro i
    rw [Nat.zero_testBit]
    rcases Nat.lt_or_ge i 64 with hi | hi
    · exact h i hi
    · exact testBit_big hw hi

theorem word_eq {a b : Nat} (ha : a < 2 ^ 64) (hb : b < 2 ^ 64) :
    a = b ↔ ∀ i, i < 64 → a.testBit i = b.testBit i := by
  constructor
  · intro h i _; rw [h]
  · intro h
    apply Nat.eq_of_testBit_eq
    intro i
    rcases Nat.lt_or_ge i 64 with hi | hi
    · exact h i hi
    · rw [testBit_big ha hi, testBit_big hb hi]

/-- Well-formed: the logical length is inside the storage and the words are 64 bits. -/
def WF (bm : BS) : Prop := bm.els ≤ bm.varr.length ∧ ∀ w ∈ bm.varr, w < 2 ^ 64

/-- The set denoted: bit `n` is a member. -/
def bit (bm : BS) (n : Nat) : Bool := decide (n / 64 < bm.els) && (wd bm.varr (n / 64)).testBit (n % 64)

/-- Words beyond the logical length are zero. -/
def Clean (bm : BS) : Prop := ∀ i, bm.els ≤ i → wd bm.varr i = 0

theorem expand_spec {bm : BS} (nb : Nat) (h : WF bm) :
    WF (expand bm nb) ∧ nb ≤ 64 * (expand bm nb).els ∧ bm.els ≤ (expand bm nb).els ∧
    ((expand bm nb).els = bm.els ∨ (expand bm nb).els = (nb + 63) / 64) ∧
    (∀ i, wd (expand bm nb).varr i = wd bm.varr i) ∧ (Clean bm → Clean (expand bm nb)) := by
  unfold expand
  dsimp only
  split
  · rename_i h1
    split
    · rename_i h2
      refine ⟨⟨?_, ?_⟩, ?_, ?_, Or.inr rfl, ?_, ?_⟩
      · simp; omega
      · intro w hw
        rcases List.mem_append.1 hw with hw | hw
        · exact h.2 w hw
        · rw [(List.mem_replicate.1 hw).2]; decide
      · dsimp only; omega
      · dsimp only; omega
      · intro i; exact wd_append_zeros
      · intro hc i hi
        show wd (bm.varr ++ _) i = 0
        rw [wd_append_zeros]
        apply hc
        simp only at hi; omega
    · rename_i h2
      refine ⟨⟨?_, h.2⟩, ?_, ?_, Or.inr rfl, fun _ => rfl, ?_⟩
      · dsimp only; omega
      · dsimp only; omega
      · dsimp only; omega
      · intro hc i hi
        apply hc
        simp only at hi; omega
  · rename_i h1
    exact ⟨h, by omega, Nat.le_refl _, Or.inl rfl, fun _ => rfl, fun hc => hc⟩

/-- On clean sets, membership is the bit of the storage. -/
theorem bit_clean {bm : BS} (h : Clean bm) (n : Nat) : bit bm n = (wd bm.varr (n / 64)).testBit (n % 64) := by
  unfold bit
  by_cases hn : n / 64 < bm.els
  · simp [hn]
  · rw [h (n / 64) (by omega)]; simp

theorem divmod_eq {m n : Nat} (h1 : m / 64 = n / 64) (h2 : m % 64 = n % 64) : m = n := by omega

end Verif.BitSet
