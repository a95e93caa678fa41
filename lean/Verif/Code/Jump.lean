import Verif.Code.Props
/-! Lemmas about jump lists. -/
namespace Verif.Code

/-- The destination of the jump at `j`: where the virtual machine continues when it takes it
(`ci->u.l.savedpc += GETARG_sBx(i)`, after the increment of the fetch). -/
def dest (code : List Nat) (j : Nat) : Option Int :=
  code[j]?.map fun i => (j : Int) + 1 + getsBx i

/-- The list of jumps `l` threads exactly the positions `js`, in order. -/
def Chain (code : List Nat) : Int → List Nat → Prop
  | l, [] => l = NO_JUMP
  | l, j :: js => l = (j : Int) ∧ ∃ n, getjump code j = .ok n ∧ Chain code n js

theorem rd_nat (code : List Nat) (k : Nat) : rd code (k : Int) = match code[k]? with
    | some i => .ok i
    | none => .ub := by
  unfold rd; rw [if_neg (by omega)]; simp only [Int.toNat_natCast]
  cases code[k]? <;> rfl

theorem rd_some {code : List Nat} {k i : Nat} (h : code[k]? = some i) :
    rd code (k : Int) = .ok i := by rw [rd_nat, h]

theorem rd_ok {code : List Nat} {k i : Nat} : rd code (k : Int) = .ok i ↔ code[k]? = some i := by
  rw [rd_nat]; cases code[k]? <;> simp

theorem wr_nat {code : List Nat} {k i : Nat} (h : k < code.length) :
    wr code (k : Int) i = .ok (code.set k i) := by
  unfold wr; rw [if_neg (by omega)]; simp [h]

theorem getjump_some {code : List Nat} {k i : Nat} (h : code[k]? = some i) :
    getjump code k = .ok (if getsBx i = NO_JUMP then NO_JUMP else (k : Int) + 1 + getsBx i) := by
  unfold getjump; rw [rd_some h]; simp only [Res.bind_ok]; split <;> rfl

theorem getjump_congr {c c' : List Nat} {k : Nat}
    (h : c'[k]?.map getsBx = c[k]?.map getsBx) : getjump c' k = getjump c k := by
  unfold getjump; rw [rd_nat, rd_nat]
  revert h
  cases c[k]? <;> cases c'[k]? <;> simp
  intro h; rw [h]

theorem chain_congr {c c' : List Nat} {js : List Nat} {l : Int}
    (h : ∀ j ∈ js, getjump c' j = getjump c j) (hc : Chain c l js) : Chain c' l js := by
  induction js generalizing l with
  | nil => exact hc
  | cons j js ih =>
    obtain ⟨h1, n, h2, h3⟩ := hc
    exact ⟨h1, n, by rw [h j (by simp)]; exact h2, ih (fun k hk => h k (by simp [hk])) h3⟩

theorem fixjump_ok (le : Bool) {code : List Nat} {k i : Nat} {d : Int} (h : code[k]? = some i)
    (h1 : (d - ((k : Int) + 1)).natAbs ≤ 32768) :
    fixjump le code k d = .ok (code.set k (setsBx le i (d - ((k : Int) + 1)))) := by
  unfold fixjump; rw [rd_some h]; simp only [Res.bind_ok]
  rw [if_neg (by unfold MAXARG_sBx; omega)]
  exact wr_nat (by rw [List.getElem?_eq_some_iff] at h; exact h.1)

theorem fixjump_err (le : Bool) {code : List Nat} {k i : Nat} {d : Int} (h : code[k]? = some i)
    (h1 : (d - ((k : Int) + 1)).natAbs > 32768) :
    fixjump le code k d = .err "control structure too long" := by
  unfold fixjump; rw [rd_some h]; simp only [Res.bind_ok]
  rw [if_pos (by unfold MAXARG_sBx; omega)]

theorem sBx_get (le : Bool) (i : Nat) {x : Int} (h1 : -32768 ≤ x) (h2 : x ≤ 32767) :
    getsBx (setsBx le i x) = x := (sBx_roundtrip le i x).1.2 ⟨h1, h2⟩
theorem sBx_op (le : Bool) (i : Nat) (x : Int) : getOp (setsBx le i x) = getOp i :=
  (sBx_roundtrip le i x).2.1
theorem sBx_A (le : Bool) (i : Nat) (x : Int) : getA (setsBx le i x) = getA i :=
  (sBx_roundtrip le i x).2.2

theorem chain_lt {code : List Nat} {js : List Nat} {l : Int} (hc : Chain code l js) :
    ∀ j ∈ js, j < code.length := by
  induction js generalizing l with
  | nil => simp
  | cons j js ih =>
    obtain ⟨_, n, h2, h3⟩ := hc
    intro k hk
    rcases List.mem_cons.1 hk with rfl | hk
    · unfold getjump at h2; rw [rd_nat] at h2
      cases h : code[k]? with
      | none => rw [h] at h2; simp at h2
      | some i => exact (List.getElem?_eq_some_iff.1 h).1
    · exact ih h3 k hk

theorem nodup_len {js : List Nat} {n : Nat} (h : js.Nodup) (hl : ∀ j ∈ js, j < n) :
    js.length ≤ n := by
  induction n generalizing js with
  | zero =>
    cases js with
    | nil => simp
    | cons j js => exact absurd (hl j (by simp)) (by omega)
  | succ n ih =>
    have h1 : (js.erase n).length ≤ n := ih (h.erase n) (fun j hj => by
      have := hl j (List.mem_of_mem_erase hj)
      have hne : j ≠ n := fun he => (List.Nodup.not_mem_erase h) (he ▸ hj)
      omega)
    have h2 : js.length ≤ (js.erase n).length + 1 := by
      rw [List.length_erase]; split <;> omega
    omega

/-- The last element is found. -/
theorem lastOf_chain {code : List Nat} {js : List Nat} {j : Nat} {f : Nat}
    (hc : Chain code j (j :: js)) (hf : js.length < f) :
    lastOf code f j = .ok (((j :: js).getLast (by simp) : Nat) : Int) := by
  induction js generalizing j f with
  | nil =>
    obtain ⟨f, rfl⟩ : ∃ g, f = g + 1 := ⟨f - 1, by omega⟩
    obtain ⟨_, n, h2, h3⟩ := hc
    unfold lastOf; rw [h2]; simp only [Res.bind_ok]
    have h3' : n = NO_JUMP := h3
    rw [if_pos h3']; rfl
  | cons k js ih =>
    obtain ⟨f, rfl⟩ : ∃ g, f = g + 1 := ⟨f - 1, by omega⟩
    obtain ⟨_, n, h2, h3⟩ := hc
    have hn : n = (k : Int) := h3.1
    subst hn
    unfold lastOf; rw [h2]; simp only [Res.bind_ok]
    rw [if_neg (by unfold NO_JUMP; omega), ih h3 (by simpa using hf)]
    rfl

theorem chain_nil_inv {code : List Nat} {l : Int} {js : List Nat} (hc : Chain code l js)
    (h : l = NO_JUMP) : js = [] := by
  cases js with
  | nil => rfl
  | cons j js => have := hc.1; unfold NO_JUMP at h; omega

theorem chain_append {c c' : List Nat} {js1 js2 : List Nat} {j : Nat} {l2 : Int}
    (hc : Chain c j (j :: js1)) (hc2 : Chain c' l2 js2)
    (hlast : getjump c' (((j :: js1).getLast (by simp) : Nat) : Int) = .ok l2)
    (hnd : (j :: js1).Nodup)
    (hsame : ∀ k ∈ j :: js1, k ≠ (j :: js1).getLast (by simp) → getjump c' k = getjump c k) :
    Chain c' j (j :: js1 ++ js2) := by
  induction js1 generalizing j with
  | nil => exact ⟨rfl, l2, hlast, hc2⟩
  | cons k js ih =>
    obtain ⟨_, n, h2, h3⟩ := hc
    have hn : n = (k : Int) := h3.1
    subst hn
    refine ⟨rfl, k, ?_, ?_⟩
    · rw [hsame j (by simp) ?_]; exact h2
      intro he
      have : j ∈ k :: js := by rw [he]; exact List.getLast_mem (by simp)
      exact (List.nodup_cons.1 hnd).1 this
    · exact ih h3 hlast (List.nodup_cons.1 hnd).2
        (fun m hm hne => hsame m (by simp [List.mem_cons.1 hm]) hne)

/-- Positions other than those of the list keep their word; those of the list keep opcode
and `A`. -/
def OnlyBx (js : List Nat) (c c' : List Nat) : Prop :=
  c'.length = c.length ∧ (∀ k : Nat, k ∉ js → c'[k]? = c[k]?) ∧
  (∀ k : Nat, c'[k]?.map getOp = c[k]?.map getOp ∧ c'[k]?.map getA = c[k]?.map getA)

theorem OnlyBx.refl (js c : List Nat) : OnlyBx js c c := ⟨rfl, fun _ _ => rfl, fun _ => ⟨rfl, rfl⟩⟩

theorem onlyBx_set (le : Bool) {js c : List Nat} {k i : Nat} {x : Int} (hi : c[k]? = some i)
    (hk : k ∈ js) : OnlyBx js c (c.set k (setsBx le i x)) := by
  have hlt := (List.getElem?_eq_some_iff.1 hi).1
  refine ⟨by simp, fun m hm => ?_, fun m => ?_⟩
  · rw [List.getElem?_set_ne]; intro h; exact hm (h ▸ hk)
  · by_cases h : k = m
    · subst h
      rw [List.getElem?_set_self hlt, hi]
      simp [sBx_op, sBx_A]
    · rw [List.getElem?_set_ne h]; exact ⟨rfl, rfl⟩

theorem concat_chain (le : Bool) {c : List Nat} {l1 l2 : Int} {js1 js2 : List Nat}
    (h1 : Chain c l1 js1) (h2 : Chain c l2 js2) (hnd : (js1 ++ js2).Nodup)
    (hr : ∀ j ∈ js1, ∀ k ∈ js2, -32768 ≤ (k : Int) - ((j : Int) + 1) ∧
      (k : Int) - ((j : Int) + 1) ≤ 32767) :
    ∃ c' l, concat le c l1 l2 = .ok (c', l) ∧ Chain c' l (js1 ++ js2) ∧ OnlyBx js1 c c' := by
  unfold concat
  cases js2 with
  | nil =>
    have : l2 = NO_JUMP := h2
    rw [if_pos this]
    exact ⟨c, l1, rfl, by simpa using h1, OnlyBx.refl _ _⟩
  | cons k js2 =>
    have hk : l2 = (k : Int) := h2.1
    rw [if_neg (by unfold NO_JUMP; omega)]
    cases js1 with
    | nil =>
      have : l1 = NO_JUMP := h1
      rw [if_pos this]
      exact ⟨c, l2, rfl, by simpa using h2, OnlyBx.refl _ _⟩
    | cons j js1 =>
      have hj : l1 = (j : Int) := h1.1
      rw [if_neg (by unfold NO_JUMP; omega)]
      subst hj
      have hnd1 : (j :: js1).Nodup := (List.nodup_append.1 hnd).1
      have hdis : ∀ a ∈ j :: js1, ∀ b ∈ k :: js2, a ≠ b := (List.nodup_append.1 hnd).2.2
      have hlen := nodup_len hnd1 (chain_lt h1)
      rw [lastOf_chain h1 (by simp at hlen; omega)]
      simp only [Res.bind_ok]
      generalize hz : (j :: js1).getLast (by simp) = z
      have hzm : z ∈ j :: js1 := by rw [← hz]; exact List.getLast_mem _
      have hzl := chain_lt h1 z hzm
      obtain ⟨i, hi⟩ : ∃ i, c[z]? = some i := ⟨c[z], List.getElem?_eq_some_iff.2 ⟨hzl, rfl⟩⟩
      have hb := hr z hzm k (by simp)
      subst hk
      rw [fixjump_ok le hi (by omega)]
      simp only [Res.bind_ok]
      refine ⟨_, _, rfl, ?_, onlyBx_set le hi hzm⟩
      refine chain_append (l2 := (k : Int)) h1 ?_ ?_ hnd1 ?_
      · refine chain_congr ?_ h2
        intro m hm
        exact getjump_congr (by rw [List.getElem?_set_ne (hdis z hzm m hm)])
      · rw [hz, getjump_some (List.getElem?_set_self hzl), sBx_get le i hb.1 hb.2]
        have : z ≠ k := hdis z hzm k (by simp)
        rw [if_neg (by unfold NO_JUMP; omega)]
        congr 1; omega
      · rw [hz]; intro m _ hne
        exact getjump_congr (by rw [List.getElem?_set_ne (Ne.symm hne)])

end Verif.Code
