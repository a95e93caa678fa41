import Verif.Code.Bits
/-!
# C30: instruction fields

Every field of an instruction word can be read back, on both byte orders.
-/
namespace Verif.Code

/-- `CREATE_ABC` puts every in-range operand where the accessors find it. -/
theorem createABC_get (o a b c : Nat) (ho : o ≤ 255) (ha : a ≤ MAXARG_A) (hb : b ≤ MAXARG_B)
    (hc : c ≤ MAXARG_C) :
    getOp (createABC o a b c) = o ∧ getA (createABC o a b c) = a ∧
    getB (createABC o a b c) = b ∧ getC (createABC o a b c) = c ∧
    createABC o a b c < 2 ^ 32 := by
  unfold MAXARG_A at ha; unfold MAXARG_B at hb; unfold MAXARG_C at hc
  rw [createABC_eq (by omega) (by omega) (by omega) (by omega), getOp_eq, getA_eq, getB_eq, getC_eq]
  refine ⟨?_, ?_, ?_, ?_, ?_⟩ <;> omega

/-- `CREATE_ABx`. -/
theorem createABx_get (o a b : Nat) (ho : o ≤ 255) (ha : a ≤ MAXARG_A) (hb : b ≤ MAXARG_Bx) :
    getOp (createABx o a b) = o ∧ getA (createABx o a b) = a ∧
    getBx (createABx o a b) = b ∧ createABx o a b < 2 ^ 32 := by
  unfold MAXARG_A at ha; unfold MAXARG_Bx at hb
  rw [createABx_eq (by omega) (by omega) (by omega), getOp_eq, getA_eq, getBx_eq]
  refine ⟨?_, ?_, ?_, ?_⟩ <;> omega

/-- `CREATE_Ax`. -/
theorem createAx_get (o a : Nat) (ho : o ≤ 255) (ha : a ≤ MAXARG_Ax) :
    getOp (createAx o a) = o ∧ getAx (createAx o a) = a ∧ createAx o a < 2 ^ 32 := by
  unfold MAXARG_Ax at ha
  rw [createAx_eq (by omega) (by omega), getOp_eq, getAx_eq]
  refine ⟨?_, ?_, ?_⟩ <;> omega

/-- A store into one field of any word, on either byte order, is read back and changes no
other field. (`SETARG_A` also clears the unused bit 15.) -/
theorem set_get (le : Bool) (i x : Nat) (hi : i < 2 ^ 32) :
    (x ≤ 255 → getOp (setOp le i x) = x ∧ getA (setOp le i x) = getA i ∧
        getB (setOp le i x) = getB i ∧ getC (setOp le i x) = getC i ∧
        getBx (setOp le i x) = getBx i ∧ getAx (setOp le i x) = getAx i ∧ setOp le i x < 2 ^ 32) ∧
    (x ≤ MAXARG_A → getA (setA le i x) = x ∧ getOp (setA le i x) = getOp i ∧
        getB (setA le i x) = getB i ∧ getC (setA le i x) = getC i ∧
        getBx (setA le i x) = getBx i ∧ setA le i x < 2 ^ 32) ∧
    (x ≤ MAXARG_B → getB (setB le i x) = x ∧ getOp (setB le i x) = getOp i ∧
        getA (setB le i x) = getA i ∧ getC (setB le i x) = getC i ∧ setB le i x < 2 ^ 32) ∧
    (x ≤ MAXARG_C → getC (setC le i x) = x ∧ getOp (setC le i x) = getOp i ∧
        getA (setC le i x) = getA i ∧ getB (setC le i x) = getB i ∧ setC le i x < 2 ^ 32) ∧
    (x ≤ MAXARG_Bx → getBx (setBx le i x) = x ∧ getOp (setBx le i x) = getOp i ∧
        getA (setBx le i x) = getA i ∧ setBx le i x < 2 ^ 32) ∧
    (x ≤ MAXARG_Ax → getAx (setAx i x) = x ∧ getOp (setAx i x) = getOp i ∧
        setAx i x < 2 ^ 32) := by
  have hi' : i < 4294967296 := by omega
  unfold setOp setB setC
  rw [setA_eq le i x hi', setBx_eq, setByte0 le i x hi', setByte3 le i x, setByte2 le i x hi']
  simp only [getOp_eq, getA_eq, getB_eq, getC_eq, getBx_eq, getAx_eq, MAXARG_A, MAXARG_B, MAXARG_C,
    MAXARG_Bx, MAXARG_Ax]
  refine ⟨fun h => ?_, fun h => ?_, fun h => ?_, fun h => ?_, fun h => ?_, fun h => ?_⟩
  · refine ⟨?_, ?_, ?_, ?_, ?_, ?_, ?_⟩ <;> omega
  · refine ⟨?_, ?_, ?_, ?_, ?_, ?_⟩ <;> omega
  · refine ⟨?_, ?_, ?_, ?_, ?_⟩ <;> omega
  · refine ⟨?_, ?_, ?_, ?_, ?_⟩ <;> omega
  · refine ⟨?_, ?_, ?_, ?_⟩ <;> omega
  · rw [setAx_eq (by omega)]
    refine ⟨?_, ?_, ?_⟩ <;> omega

/-- The two byte orders give the same word. -/
theorem set_endian (i x : Nat) (hi : i < 2 ^ 32) :
    setOp true i x = setOp false i x ∧ setA true i x = setA false i x ∧
    setB true i x = setB false i x ∧ setC true i x = setC false i x ∧
    setBx true i x = setBx false i x := by
  have hi' : i < 4294967296 := by omega
  unfold setOp setB setC
  refine ⟨?_, ?_, ?_, ?_, ?_⟩
  · rw [setByte0 _ i x hi', setByte0 _ i x hi']
  · rw [setA_eq _ i x hi', setA_eq _ i x hi']
  · rw [setByte3, setByte3]
  · rw [setByte2 _ i x hi', setByte2 _ i x hi']
  · rw [setBx_eq, setBx_eq]

/-- A signed jump offset is read back exactly when it is between -32768 and 32767; opcode and
`A` are kept. -/
theorem sBx_roundtrip (le : Bool) (i : Nat) (x : Int) :
    (getsBx (setsBx le i x) = x ↔ -32768 ≤ x ∧ x ≤ 32767) ∧
    getOp (setsBx le i x) = getOp i ∧ getA (setsBx le i x) = getA i := by
  unfold getsBx setsBx MAXARG_sBx
  rw [setBx_eq, getBx_eq, getOp_eq, getOp_eq, getA_eq, getA_eq]
  refine ⟨?_, ?_, ?_⟩ <;> omega

/-- No instruction word has a signed operand of `MAXARG_sBx` or more. -/
theorem sBx_range (i : Nat) (hi : i < 2 ^ 32) : -32768 ≤ getsBx i ∧ getsBx i ≤ 32767 := by
  unfold getsBx MAXARG_sBx; rw [getBx_eq]; omega

/-- Registers (up to `MAXARG_A`) and constants (up to `MAXINDEXRK`) share the eight bits of
an RK operand without collision, and each is read back. -/
theorem rk_correct (x : Nat) (hx : x ≤ MAXINDEXRK) :
    isK x = false ∧ isK (rkAsK x) = true ∧ indexK (rkAsK x) = x ∧ rkAsK x ≤ MAXARG_B := by
  have h : ∀ n : Fin 128, isK n.val = false ∧ isK (rkAsK n.val) = true ∧
      indexK (rkAsK n.val) = n.val ∧ rkAsK n.val ≤ MAXARG_B := by decide +kernel
  exact h ⟨x, by unfold MAXINDEXRK BITRK at hx; omega⟩

/-- Conversely every eight-bit operand is one or the other. -/
theorem rk_total (y : Nat) (hy : y ≤ MAXARG_B) :
    (isK y = false ∧ y ≤ MAXARG_A) ∨ (∃ k, k ≤ MAXINDEXRK ∧ y = rkAsK k) := by
  have h : ∀ n : Fin 256, (isK n.val = false ∧ n.val ≤ MAXARG_A) ∨
      (indexK n.val ≤ MAXINDEXRK ∧ n.val = rkAsK (indexK n.val)) := by decide +kernel
  rcases h ⟨y, by unfold MAXARG_B at hy; omega⟩ with h | ⟨h1, h2⟩
  · exact .inl h
  · exact .inr ⟨_, h1, h2⟩

example : getOp (createABC 13 5 200 130) = 13 ∧ getB (createABC 13 5 200 130) = 200 := by
  decide
example : getsBx (setsBx false (createABC 30 3 0 0) (-32768)) = -32768 ∧
    getsBx (setsBx true 0xffffffff 32767) = 32767 := by decide
example : getsBx (setsBx true 30 32768) = -32768 := by decide
example : isK 127 = false ∧ isK (rkAsK 127) = true ∧ indexK (rkAsK 127) = 127 := by decide

end Verif.Code
