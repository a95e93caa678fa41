import Verif.Code.Jump
/-! Lemmas about `patchlistaux`. -/
namespace Verif.Code

/-- The jump at `j` follows an `OP_TESTSET`. -/
def valued (code : List Nat) (j : Nat) : Prop :=
  1 ≤ j ∧ code[j - 1]?.map getOp = some OP_TESTSET

instance (code : List Nat) (j : Nat) : Decidable (valued code j) := by
  unfold valued; infer_instance

/-- What a patched `OP_TESTSET` becomes. -/
def patchReg (le : Bool) (reg : Nat) (i : Nat) : Nat :=
  if reg ≠ NO_REG ∧ reg ≠ getB i then setA le i reg else createABC OP_TEST (getB i) 0 (getC i)

/-- The instruction at `j` is not a test. -/
def NotTest (code : List Nat) (j : Nat) : Prop := ∃ i, code[j]? = some i ∧ tMode (getOp i) = false

theorem patchtestreg_spec (le : Bool) {code : List Nat} {j : Nat} (reg : Nat)
    (h : NotTest code j) :
    (valued code j → ∃ p, code[j - 1]? = some p ∧
      patchtestreg le code j reg = .ok (code.set (j - 1) (patchReg le reg p), true)) ∧
    (¬ valued code j → patchtestreg le code j reg = .ok (code, false)) := by
  obtain ⟨i, hi, ht⟩ := h
  have hop : getOp i ≠ OP_TESTSET := by
    intro he; rw [he] at ht; revert ht; decide
  have hlt := (List.getElem?_eq_some_iff.1 hi).1
  constructor
  · rintro ⟨h1, h2⟩
    obtain ⟨p, hp, hpo⟩ := Option.map_eq_some_iff.1 h2
    refine ⟨p, hp, ?_⟩
    have hj : ((j : Int) - 1) = ((j - 1 : Nat) : Int) := by omega
    unfold patchtestreg getjumpcontrol
    rw [if_pos (by omega), hj, rd_some hp]
    simp only [Res.bind_ok]
    rw [if_pos (by rw [hpo]; decide)]
    simp only [Res.pure_eq, Res.bind_ok]
    rw [rd_some hp]
    simp only [Res.bind_ok]
    rw [if_neg (by simp [hpo])]
    unfold patchReg
    by_cases hc : reg ≠ NO_REG ∧ reg ≠ getB p
    · rw [if_pos hc, if_pos hc, wr_nat (by omega)]; rfl
    · rw [if_neg hc, if_neg hc, wr_nat (by omega)]; rfl
  · intro hv
    unfold patchtestreg getjumpcontrol
    by_cases h1 : 1 ≤ j
    · have hj : ((j : Int) - 1) = ((j - 1 : Nat) : Int) := by omega
      rw [if_pos (by omega), hj]
      obtain ⟨p, hp⟩ : ∃ p, code[j - 1]? = some p :=
        ⟨code[j - 1], List.getElem?_eq_some_iff.2 ⟨by omega, rfl⟩⟩
      rw [rd_some hp]
      simp only [Res.bind_ok]
      by_cases hm : tMode (getOp p) = true
      · rw [if_pos hm]
        simp only [Res.pure_eq, Res.bind_ok]
        rw [rd_some hp]
        simp only [Res.bind_ok]
        rw [if_pos]
        intro he; exact hv ⟨h1, by rw [hp, Option.map_some, he]⟩
      · rw [if_neg hm]
        simp only [Res.pure_eq, Res.bind_ok]
        rw [rd_some hi]
        simp only [Res.bind_ok]
        rw [if_pos hop]
    · rw [if_neg (by omega)]
      simp only [Res.pure_eq, Res.bind_ok]
      rw [rd_some hi]
      simp only [Res.bind_ok]
      rw [if_pos hop]

/-- The code after patching the jumps `js`. -/
structure Patched (le : Bool) (js : List Nat) (v : Int) (reg : Nat) (d : Int) (c c' : List Nat) :
    Prop where
  len : c'.length = c.length
  jumps : ∀ j ∈ js, c'[j]? =
    c[j]?.map fun i => setsBx le i ((if valued c j then v else d) - ((j : Int) + 1))
  ctl : ∀ k : Nat, k ∉ js → k + 1 ∈ js → valued c (k + 1) → c'[k]? = c[k]?.map (patchReg le reg)
  rest : ∀ k : Nat, k ∉ js → ¬ (k + 1 ∈ js ∧ valued c (k + 1)) → c'[k]? = c[k]?

theorem tmode_testset : tMode OP_TESTSET = true := by decide

theorem patchlistaux_spec (le : Bool) (v : Int) (reg : Nat) (d : Int) {js : List Nat} {f : Nat}
    {c : List Nat} {l : Int} (hc : Chain c l js) (hnd : js.Nodup)
    (hnt : ∀ j ∈ js, NotTest c j) (hf : js.length ≤ f)
    (hv : ∀ j ∈ js, (v - ((j : Int) + 1)).natAbs ≤ 32768)
    (hd : ∀ j ∈ js, (d - ((j : Int) + 1)).natAbs ≤ 32768) :
    ∃ c', patchlistaux le f c l v reg d = .ok c' ∧ Patched le js v reg d c c' := by
  induction js generalizing f c l with
  | nil =>
    have hl : l = NO_JUMP := hc
    unfold patchlistaux; rw [if_pos hl]
    exact ⟨c, rfl, rfl, by simp, by simp, by simp⟩
  | cons j js ih =>
    obtain ⟨f, rfl⟩ : ∃ g, f = g + 1 := ⟨f - 1, by simp at hf; omega⟩
    obtain ⟨hl, n, hn, hrest⟩ := hc
    subst hl
    unfold patchlistaux
    rw [if_neg (by unfold NO_JUMP; omega)]
    dsimp only
    rw [hn]
    simp only [Res.bind_ok]
    have hnotin := (List.nodup_cons.1 hnd).1
    obtain ⟨i, hi, hti⟩ := hnt j (by simp)
    have hjlt := (List.getElem?_eq_some_iff.1 hi).1
    -- one step
    have step : ∃ c1 b, patchtestreg le c j reg = .ok (c1, b) ∧ (b = true ↔ valued c j) ∧
        c1.length = c.length ∧
        (∀ k : Nat, ¬ (k + 1 = j ∧ valued c j) → c1[k]? = c[k]?) ∧
        (∀ k : Nat, (k + 1 = j ∧ valued c j) → c1[k]? = c[k]?.map (patchReg le reg)) := by
      have hs := patchtestreg_spec le reg (hnt j (by simp))
      by_cases hval : valued c j
      · obtain ⟨p, hp, he⟩ := hs.1 hval
        refine ⟨_, _, he, by simp [hval], by simp, ?_, ?_⟩
        · intro k hk
          rw [List.getElem?_set_ne]
          intro hh; exact hk ⟨by have := hval.1; omega, hval⟩
        · rintro k ⟨hk, _⟩
          have : j - 1 = k := by omega
          rw [this, List.getElem?_set_self (by omega), ← this, hp]; rfl
      · refine ⟨_, _, hs.2 hval, by simp [hval], rfl, fun k _ => rfl, ?_⟩
        rintro k ⟨_, hk⟩; exact absurd hk hval
    obtain ⟨c1, b, hp1, hb, hl1, hsame1, hpat1⟩ := step
    rw [hp1]
    simp only [Res.bind_ok]
    have hi1 : c1[j]? = some i := by rw [hsame1 j (by omega)]; exact hi
    have htgt : (if b = true then v else d) = if valued c j then v else d := by
      by_cases hval : valued c j
      · rw [if_pos (hb.2 hval), if_pos hval]
      · rw [if_neg (fun h => hval (hb.1 h)), if_neg hval]
    rw [htgt]
    generalize ht : (if valued c j then v else d) = t
    have htb : (t - ((j : Int) + 1)).natAbs ≤ 32768 := by
      rw [← ht]; split
      · exact hv j (by simp)
      · exact hd j (by simp)
    rw [fixjump_ok le hi1 htb]
    simp only [Res.bind_ok]
    generalize hc2 : c1.set j (setsBx le i (t - ((j : Int) + 1))) = c2
    have hat : c2[j]? = some (setsBx le i (t - ((j : Int) + 1))) := by
      rw [← hc2, List.getElem?_set_self (by omega)]
    have hne2 : ∀ k : Nat, k ≠ j → c2[k]? = c1[k]? := by
      intro k hk; rw [← hc2, List.getElem?_set_ne (Ne.symm hk)]
    -- members of the rest are unchanged
    have hmem : ∀ m ∈ js, c2[m]? = c[m]? := by
      intro m hm
      have hmj : m ≠ j := fun h => hnotin (h ▸ hm)
      rw [hne2 m hmj, hsame1 m]
      rintro ⟨hm1, hval⟩
      obtain ⟨q, hq, htq⟩ := hnt m (by simp [hm])
      have h2 := hval.2
      have : j - 1 = m := by omega
      rw [this, hq] at h2
      have : getOp q = OP_TESTSET := by simpa using h2
      rw [this] at htq; revert htq; decide
    -- test-and-set control of the rest is unchanged
    have hval2 : ∀ m ∈ js, (valued c2 m ↔ valued c m) := by
      intro m hm
      have hmj : m ≠ j := fun h => hnotin (h ▸ hm)
      unfold valued
      by_cases h1 : 1 ≤ m
      · have : c2[m - 1]?.map getOp = c[m - 1]?.map getOp := by
          by_cases h2 : m - 1 = j
          · rw [h2, hat, hi]; simp [sBx_op]
          · rw [hne2 _ h2, hsame1 (m - 1) (by omega)]
        rw [this]
      · simp [h1]
    obtain ⟨c', he, hP⟩ := ih (f := f) (c := c2) (l := n)
      (chain_congr (fun m hm => getjump_congr (by rw [hmem m hm])) hrest)
      (List.nodup_cons.1 hnd).2
      (fun m hm => by
        obtain ⟨q, hq, hr⟩ := hnt m (by simp [hm])
        exact ⟨q, by rw [hmem m hm]; exact hq, hr⟩)
      (by simp at hf; omega) (fun m hm => hv m (by simp [hm])) (fun m hm => hd m (by simp [hm]))
    refine ⟨c', he, ?_, ?_, ?_, ?_⟩
    · rw [hP.len, ← hc2, List.length_set, hl1]
    · intro m hm
      rcases List.mem_cons.1 hm with rfl | hm
      · have h1 : ¬ (m + 1 ∈ js ∧ valued c2 (m + 1)) := by
          rintro ⟨_, h3⟩
          have h4 := h3.2
          simp only [Nat.add_sub_cancel, hat, Option.map_some, sBx_op] at h4
          injection h4 with h4
          rw [h4] at hti; revert hti; decide
        rw [hP.rest m hnotin h1, hat, hi, ht]; rfl
      · rw [hP.jumps m hm, hmem m hm]
        by_cases hx : valued c m
        · simp only [if_pos hx, if_pos ((hval2 m hm).2 hx)]
        · simp only [if_neg hx, if_neg (fun h => hx ((hval2 m hm).1 h))]
    · intro k hk1 hk2 hk3
      have hkj : k ≠ j := fun h => hk1 (by simp [h])
      have hkjs : k ∉ js := fun h => hk1 (by simp [h])
      rcases List.mem_cons.1 hk2 with he2 | hk2
      · have : ¬ (k + 1 ∈ js ∧ valued c2 (k + 1)) := by
          rintro ⟨h3, _⟩; rw [he2] at h3; exact hnotin h3
        rw [hP.rest k hkjs this, hne2 k hkj, hpat1 k ⟨he2, he2 ▸ hk3⟩]
      · rw [hP.ctl k hkjs hk2 ((hval2 _ hk2).2 hk3), hne2 k hkj, hsame1 k]
        rintro ⟨h3, _⟩; rw [h3] at hk2; exact hnotin hk2
    · intro k hk1 hk2
      have hkj : k ≠ j := fun h => hk1 (by simp [h])
      have hkjs : k ∉ js := fun h => hk1 (by simp [h])
      have : ¬ (k + 1 ∈ js ∧ valued c2 (k + 1)) := by
        rintro ⟨h3, h4⟩
        exact hk2 ⟨by simp [h3], (hval2 _ h3).1 h4⟩
      rw [hP.rest k hkjs this, hne2 k hkj, hsame1 k]
      rintro ⟨h3, h4⟩
      exact hk2 ⟨by simp [h3], h3 ▸ h4⟩

end Verif.Code
