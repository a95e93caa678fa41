import Verif.Dump.Model

/-! Lemmas about loaders: sequencing, consumption of input, fuel. -/
namespace Verif.Dump

/-! ## Running loaders -/

theorem L.bind_def {α β : Type} (p : L α) (f : α → L β) : (p >>= f) = L.bind p f := rfl
theorem L.pure_def {α : Type} (a : α) : (pure a : L α) = .ret a := rfl

@[simp] theorem run_pure {α : Type} (a : α) (bs : List Byte) :
    (pure a : L α).run bs = .ok (a, bs) := rfl

theorem run_bind {α β : Type} (p : L α) (f : α → L β) (bs : List Byte) :
    (p >>= f).run bs = (p.run bs >>= fun x => (f x.1).run x.2) := by
  rw [L.bind_def]
  induction p generalizing bs with
  | ret a => rfl
  | fail m => rfl
  | ub => rfl
  | read n k ih =>
    simp only [L.bind, L.run]
    split
    · exact ih _ _
    · rfl

theorem run_len {α : Type} (p : L α) {bs : List Byte} {a : α} {r : List Byte}
    (h : p.run bs = .ok (a, r)) : r.length ≤ bs.length := by
  induction p generalizing bs with
  | ret a =>
    simp only [L.run, Res.ok.injEq, Prod.mk.injEq] at h
    rw [h.2]; exact Nat.le_refl _
  | fail m => exact nomatch h
  | ub => exact nomatch h
  | read n k ih =>
    simp only [L.run] at h
    split at h
    · have := ih _ h
      rw [List.length_drop] at this
      omega
    · exact nomatch h

theorem run_bind_congr {α β : Type} {p : L α} {f g : α → L β} {bs : List Byte}
    (h : ∀ a r, p.run bs = .ok (a, r) → (f a).run r = (g a).run r) :
    (p >>= f).run bs = (p >>= g).run bs := by
  rw [run_bind, run_bind]
  cases hp : p.run bs with
  | ok x => exact h x.1 x.2 (by rw [hp])
  | err m => rfl
  | ub => rfl

theorem rep_congr {α : Type} {m m' : L α} {N : Nat}
    (h : ∀ bs : List Byte, bs.length ≤ N → m.run bs = m'.run bs) (n : Nat) :
    ∀ bs : List Byte, bs.length ≤ N → (rep m n).run bs = (rep m' n).run bs := by
  induction n with
  | zero => intros; rfl
  | succ n ih =>
    intro bs hb
    simp only [rep]
    rw [run_bind, run_bind, h bs hb]
    cases hp : m'.run bs with
    | ok x =>
      have := run_len m' (a := x.1) (r := x.2) hp
      simp only [Res.bind_ok]
      rw [run_bind, run_bind, ih x.2 (by omega)]
    | err m => rfl
    | ub => rfl

/-- a strict prefix of what a loader consumes is reported as truncated -/
theorem run_prefix {α : Type} (p : L α) {c x : List Byte} {a : α} (hx : x ≠ [])
    (h : p.run (c ++ x) = .ok (a, [])) : p.run c = .err "truncated" := by
  induction p generalizing c with
  | ret a =>
    simp only [L.run, Res.ok.injEq, Prod.mk.injEq, List.append_eq_nil_iff] at h
    exact absurd h.2.2 hx
  | fail m => exact nomatch h
  | ub => exact nomatch h
  | read n k ih =>
    simp only [L.run] at h ⊢
    by_cases hn : n ≤ c.length
    · rw [if_pos (by rw [List.length_append]; omega), List.take_append_of_le_length hn,
        List.drop_append_of_le_length hn] at h
      rw [if_pos hn]
      exact ih _ h
    · rw [if_neg hn]

/-- `p` consumes exactly `bs` and returns `a`, whatever follows -/
def Runs {α : Type} (p : L α) (bs : List Byte) (a : α) : Prop :=
  ∀ r, p.run (bs ++ r) = .ok (a, r)

theorem Runs.pure {α : Type} (a : α) : Runs (pure a : L α) [] a := fun _ => rfl

theorem Runs.bind {α β : Type} {p : L α} {f : α → L β} {x y : List Byte} {a : α} {b : β}
    (h : Runs p x a) (h' : Runs (f a) y b) : Runs (p >>= f) (x ++ y) b := by
  intro r
  rw [run_bind, List.append_assoc, h]
  exact h' r

/-- the last step of a loader -/
theorem Runs.map {α β : Type} {p : L α} {f : α → β} {x : List Byte} {a : α}
    (h : Runs p x a) : Runs (p >>= fun a => Pure.pure (f a)) x (f a) := by
  have := Runs.bind (f := fun a => Pure.pure (f a)) h (Runs.pure (f a))
  rwa [List.append_nil] at this

theorem runs_block (b : List Byte) (n : Nat) (h : n = b.length) : Runs (LoadBlock n) b b := by
  intro r
  subst h
  simp [LoadBlock, L.run]

/-! ## Numbers -/

theorem le_length (k v : Nat) : (le k v).length = k := by
  induction k generalizing v with
  | zero => rfl
  | succ k ih => simp only [le, List.length_cons, ih]

theorem unle_le (k v : Nat) : unle (le k v) = v % 256 ^ k := by
  induction k generalizing v with
  | zero => simp [le, unle, Nat.mod_one]
  | succ k ih =>
    simp only [le, unle, ih, Nat.pow_succ]
    rw [Nat.mul_comm (256 ^ k) 256, Nat.mod_mul]
    congr 1

theorem runs_byte (y : Nat) : Runs LoadByte (DumpByte y).flatten (UInt8.ofNat y) := by
  have h := (runs_block [UInt8.ofNat y] 1 rfl).map (f := fun b => UInt8.ofNat (unle b))
  have e : UInt8.ofNat (unle [UInt8.ofNat y]) = UInt8.ofNat y := by
    apply UInt8.toNat_inj.mp
    simp [unle]
  rw [e] at h
  exact h

theorem runs_byte' (b : Byte) : Runs LoadByte (DumpByte b.toNat).flatten b := by
  have := runs_byte b.toNat
  rwa [UInt8.ofNat_toNat] at this

theorem runs_int (x : I32) : Runs LoadInt (DumpInt x).flatten x := by
  have h := (runs_block (le 4 x.toNat) 4 (le_length _ _).symm).map
    (f := fun b => BitVec.ofNat 32 (unle b))
  have e : BitVec.ofNat 32 (unle (le 4 x.toNat)) = x := by
    rw [unle_le]
    apply BitVec.eq_of_toNat_eq
    have := x.isLt
    rw [BitVec.toNat_ofNat]
    omega
  rw [e] at h
  rw [show (DumpInt x).flatten = le 4 x.toNat by simp [DumpInt]]
  exact h

theorem runs_64 (x : I64) : Runs Load64 (Dump64 x).flatten x := by
  have h := (runs_block (le 8 x.toNat) 8 (le_length _ _).symm).map
    (f := fun b => BitVec.ofNat 64 (unle b))
  have e : BitVec.ofNat 64 (unle (le 8 x.toNat)) = x := by
    rw [unle_le]
    apply BitVec.eq_of_toNat_eq
    have := x.isLt
    rw [BitVec.toNat_ofNat]
    omega
  rw [e] at h
  rw [show (Dump64 x).flatten = le 8 x.toNat by simp [Dump64]]
  exact h

theorem msb_ofNat {n : Nat} (h : n < 2 ^ 31) : (BitVec.ofNat 32 n).msb = false := by
  rw [BitVec.msb_eq_decide]
  simp only [BitVec.toNat_ofNat, decide_eq_false_iff_not]
  omega

theorem runs_count {n : Nat} (h : n < 2 ^ 31) : Runs LoadCount (DumpCount n).flatten n := by
  have := Runs.bind (f := fun n : I32 => if n.msb then L.fail "not enough memory"
    else Pure.pure n.toNat) (runs_int (BitVec.ofNat 32 n)) (y := []) (b := n) (by
      intro r
      simp only [msb_ofNat h]
      rw [if_neg (by simp)]
      simp only [List.nil_append, run_pure, BitVec.toNat_ofNat]
      rw [Nat.mod_eq_of_lt (by omega)])
  rw [List.append_nil] at this
  exact this

/-! ## Strings and vectors -/

theorem runs_size_short {n : Nat} (h : n < 0xFF) : Runs LoadSize (DumpByte n).flatten n := by
  have := Runs.bind (f := fun size : Byte => if size = 0xFF then (do
    let b ← LoadBlock 8
    return unle b) else Pure.pure size.toNat) (runs_byte n) (y := []) (b := n) (by
      intro r
      have e : (UInt8.ofNat n).toNat = n := by
        rw [UInt8.toNat_ofNat']; omega
      have ne : UInt8.ofNat n ≠ 0xFF := by
        intro hc
        have := congrArg UInt8.toNat hc
        rw [e] at this
        simp at this
        omega
      rw [if_neg ne, e]
      rfl)
  rw [List.append_nil] at this
  exact this

theorem runs_size_long {n : Nat} (h : n < 2 ^ 64) :
    Runs LoadSize (DumpByte 0xFF ++ [le 8 n]).flatten n := by
  have h8 := (runs_block (le 8 n) 8 (le_length _ _).symm).map (f := unle)
  have e : unle (le 8 n) = n := by rw [unle_le]; omega
  rw [e] at h8
  have := Runs.bind (f := fun size : Byte => if size = 0xFF then (do
    let b ← LoadBlock 8
    return unle b) else Pure.pure size.toNat) (runs_byte 0xFF) (y := le 8 n) (b := n) (by
      intro r
      rw [if_pos (by decide)]
      exact h8 r)
  rw [show (DumpByte 0xFF ++ [le 8 n]).flatten = (DumpByte 0xFF).flatten ++ le 8 n by simp]
  exact this

/-- lengths of strings that fit in memory -/
def StrOk (s : Option Str) : Prop := ∀ x, s = some x → x.length + 25 < 2 ^ 64

theorem runs_string (s : Option Str) (h : StrOk s) : Runs LoadString (DumpString s).flatten s := by
  cases s with
  | none =>
    intro r
    have := runs_size_short (n := 0) (by omega) r
    show (LoadSize >>= _).run _ = _
    rw [run_bind, DumpString, this]
    rfl
  | some s =>
    have hl := h s rfl
    intro r
    have hs : ∀ r', LoadSize.run ((if s.length + 1 < 0xFF then DumpByte (s.length + 1)
        else DumpByte 0xFF ++ [le 8 (s.length + 1)]).flatten ++ r') = .ok (s.length + 1, r') := by
      intro r'
      split
      · exact runs_size_short (by omega) r'
      · exact runs_size_long (by omega) r'
    show (LoadSize >>= _).run _ = _
    rw [run_bind]
    simp only [DumpString, List.flatten_append, List.append_assoc]
    rw [hs, Res.bind_ok]
    dsimp only
    rw [if_neg (by omega), if_neg (by omega)]
    have := (runs_block s (s.length + 1 - 1) (by omega)).map (f := some) r
    simpa using this

theorem words_le (v : List I32) : words v.length (v.flatMap fun x => le 4 x.toNat) = v := by
  induction v with
  | nil => rfl
  | cons x v ih =>
    simp only [List.length_cons, words, List.flatMap_cons]
    rw [List.take_left' (le_length _ _), List.drop_left' (le_length _ _), ih, unle_le]
    congr 1
    apply BitVec.eq_of_toNat_eq
    have := x.isLt
    rw [BitVec.toNat_ofNat]
    omega

theorem runs_vector (v : List I32) : Runs (LoadVector v.length) (DumpVector v).flatten v := by
  have hl : v.length * 4 = (v.flatMap fun x => le 4 x.toNat).length := by
    induction v with
    | nil => rfl
    | cons x v ih =>
      simp only [List.length_cons, List.flatMap_cons, List.length_append, le_length, ← ih]
      omega
  have := (runs_block _ _ hl).map (f := words v.length)
  rw [words_le] at this
  rw [show (DumpVector v).flatten = v.flatMap fun x => le 4 x.toNat by simp [DumpVector]]
  exact this

/-- a loop of loaders reads a list of dumped things -/
theorem runs_rep {α : Type} {m : L α} {d : α → Blocks} (v : List α)
    (h : ∀ a ∈ v, Runs m (d a).flatten a) : Runs (rep m v.length) (v.flatMap d).flatten v := by
  induction v with
  | nil => exact Runs.pure []
  | cons a v ih =>
    simp only [List.length_cons, rep, List.flatMap_cons, List.flatten_append]
    exact (h a (by simp)).bind ((ih fun b hb => h b (by simp [hb])).map (f := fun as => a :: as))

/-- the same when the loader returns something else than what was dumped -/
theorem runs_rep_map {α β : Type} {m : L β} {d : α → Blocks} {g : α → β} (v : List α)
    (h : ∀ a ∈ v, Runs m (d a).flatten (g a)) :
    Runs (rep m v.length) (v.flatMap d).flatten (v.map g) := by
  induction v with
  | nil => exact Runs.pure []
  | cons a v ih =>
    simp only [List.length_cons, rep, List.flatMap_cons, List.flatten_append, List.map_cons]
    exact (h a (by simp)).bind ((ih fun b hb => h b (by simp [hb])).map (f := fun as => g a :: as))

/-! ## Fuel -/

theorem loadString_len {bs r : List Byte} {s : Option Str} (h : LoadString.run bs = .ok (s, r)) :
    r.length < bs.length := by
  have h0 : LoadString.run bs = ((LoadSize >>= fun size => if size = 0 then Pure.pure none
    else if 2 ^ 64 ≤ size - 1 + 25 then L.ub else do
      let b ← LoadBlock (size - 1)
      return some b) : L (Option Str)).run bs := rfl
  rw [h0, run_bind, Res.bind_eq_ok] at h
  obtain ⟨⟨size, r1⟩, h1, h2⟩ := h
  have l2 := run_len _ h2
  have h3 : LoadSize.run bs = (LoadByte >>= fun size => if size = 0xFF then (do
    let b ← LoadBlock 8
    return unle b) else Pure.pure size.toNat : L Nat).run bs := rfl
  rw [h3, run_bind, Res.bind_eq_ok] at h1
  obtain ⟨⟨b, r2⟩, h4, h5⟩ := h1
  have l1 := run_len _ h5
  have h6 : LoadByte.run bs = (LoadBlock 1 >>= fun b => Pure.pure (UInt8.ofNat (unle b))
    : L Byte).run bs := rfl
  rw [h6, run_bind, Res.bind_eq_ok] at h4
  obtain ⟨⟨b', r3⟩, h7, h8⟩ := h4
  have l3 := run_len _ h8
  simp only [LoadBlock, L.run] at h7
  split at h7
  · simp only [Res.ok.injEq, Prod.mk.injEq] at h7
    have := congrArg List.length h7.2
    rw [List.length_drop] at this
    simp only at l1 l2 l3
    omega
  · exact nomatch h7

theorem fuel_irrelevant (version : Byte) (k k' : Nat) (ps : Option Str) (bs : List Byte)
    (h : bs.length < k) (h' : bs.length < k') :
    (LoadFunction version k ps).run bs = (LoadFunction version k' ps).run bs := by
  induction k generalizing k' ps bs with
  | zero => omega
  | succ k ih =>
    cases k' with
    | zero => omega
    | succ k' =>
      simp only [LoadFunction]
      apply run_bind_congr; intro s r0 e; have l0 := loadString_len e
      apply run_bind_congr; intro _ r1 e; have l1 := run_len _ e
      apply run_bind_congr; intro _ r2 e; have l2 := run_len _ e
      apply run_bind_congr; intro _ r3 e; have l3 := run_len _ e
      apply run_bind_congr; intro _ r4 e; have l4 := run_len _ e
      apply run_bind_congr; intro _ r5 e; have l5 := run_len _ e
      apply run_bind_congr; intro _ r6 e; have l6 := run_len _ e
      apply run_bind_congr; intro _ r7 e; have l7 := run_len _ e
      apply run_bind_congr; intro _ r8 e; have l8 := run_len _ e
      apply run_bind_congr; intro n r9 e; have l9 := run_len _ e
      rw [run_bind, run_bind]
      rw [rep_congr (N := r9.length) (fun bs hb => ih k' _ bs (by omega) (by omega)) n r9
        (Nat.le_refl _)]

end Verif.Dump
