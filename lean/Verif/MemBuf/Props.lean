import Verif.MemBuf.Model

/-!
# C97: a text buffer holds the text that was added to it
-/
namespace Verif.MemBuf

/-- The C string at the start of a block; `none` if it is read past its end, or where nothing was
written. -/
def cstr : List (Option Nat) → Option (List Nat)
  | [] => none
  | none :: _ => none
  | some c :: m => if c = 0 then some [] else (cstr m).map (c :: ·)

/-- The text of a call. -/
def Op.text : Op → List Nat
  | .str s | .fmt s | .dbl s => s

/-- The bytes of the text are not 0; a formatted text is shorter than 2^31 - 1 bytes, and that of a
number has at most 25 (as its function says). -/
def Op.Fine : Op → Prop
  | .str s => ∀ c ∈ s, c ≠ 0
  | .fmt s => (∀ c ∈ s, c ≠ 0) ∧ s.length < 2147483647
  | .dbl s => (∀ c ∈ s, c ≠ 0) ∧ s.length ≤ 25

/-- The buffer holds the text, and a zero after it. -/
def Holds (b : Buf) (t : List Nat) : Prop :=
  b.pos = t.length ∧ ∃ r, b.mem = t.map some ++ some 0 :: r

/-- The buffer holds the text; the zero is missing if it is quite empty. -/
def Pre (b : Buf) (t : List Nat) : Prop := b.pos = t.length ∧ ∃ r, b.mem = t.map some ++ r

theorem Holds.pre {b t} (h : Holds b t) : Pre b t := ⟨h.1, _, h.2.choose_spec⟩

theorem store_append (p q r : List (Option Nat)) (s : List Nat) (h : q.length = s.length) (i : Nat)
    (hi : i = p.length) : store (p ++ q ++ r) i s = .ok (p ++ s.map some ++ r) := by
  subst hi
  unfold store
  rw [if_pos (by simp only [List.length_append]; omega), ← h, ← List.length_append,
    List.drop_left, List.append_assoc p q r, List.take_left]

theorem resize_pre {b t n} (h : Pre b t) : Pre (resize b n) t ∧ n ≤ (resize b n).mem.length ∧
    b.mem.length ≤ (resize b n).mem.length := by
  obtain ⟨h1, r, h2⟩ := h
  unfold resize
  split
  · exact ⟨⟨h1, r, h2⟩, by assumption, Nat.le_refl _⟩
  · refine ⟨⟨h1, r ++ List.replicate (n - b.mem.length) none, ?_⟩, ?_, ?_⟩
    · dsimp only
      rw [h2, List.append_assoc]
    · simp only [List.length_append, List.length_replicate]; omega
    · simp

/-- A store of a text and a zero after what the buffer holds. -/
theorem store_zero {b : Buf} {t s : List Nat} (h : Pre b t) (hl : b.pos + s.length < b.mem.length) :
    ∃ r, store b.mem b.pos (s ++ [0]) = .ok (t.map some ++ s.map some ++ some 0 :: r) := by
  obtain ⟨h1, r, h2⟩ := h
  have hr : s.length + 1 ≤ r.length := by
    rw [h2] at hl
    simp only [List.length_append, List.length_map] at hl
    omega
  refine ⟨r.drop (s.length + 1), ?_⟩
  have := store_append (t.map some) (r.take (s.length + 1)) (r.drop (s.length + 1)) (s ++ [0])
    (by simp [hr]) b.pos (by simp [h1])
  rw [List.append_assoc, List.take_append_drop, ← h2] at this
  rw [this]
  simp

theorem addString_holds {b t} (s : List Nat) (h : Pre b t) :
    ∃ b', addString b s = .ok b' ∧ Holds b' (t ++ s) := by
  obtain ⟨⟨h1, r, h2⟩, h3, _⟩ := resize_pre (n := b.pos + s.length + 1) h
  have hp : (resize b (b.pos + s.length + 1)).pos = b.pos := by
    unfold resize; split <;> rfl
  unfold addString
  dsimp only
  generalize resize b (b.pos + s.length + 1) = c at h1 h2 h3 hp ⊢
  have hlen : c.mem.length = t.length + r.length := by rw [h2]; simp
  have hr : s.length + 1 ≤ r.length := by omega
  rw [if_pos (by omega)]
  have hn : c.mem.length - c.pos = r.length := by omega
  rw [hn]
  unfold stringCopy
  rw [if_neg (by omega)]
  obtain ⟨k, hk⟩ := Nat.exists_eq_add_of_le hr
  have htake : (s ++ List.replicate r.length 0).take r.length =
      s ++ List.replicate k 0 ++ [0] := by
    rw [List.take_append, List.take_of_length_le (by omega), List.take_replicate,
      List.append_assoc, ← List.replicate_succ']
    congr 2
    omega
  have e1 : store c.mem c.pos ((s ++ List.replicate r.length 0).take r.length) =
      .ok (t.map some ++ (s ++ List.replicate k 0 ++ [0]).map some ++ []) := by
    rw [htake]
    have := store_append (t.map some) r [] (s ++ List.replicate k 0 ++ [0])
      (by simp; omega) c.pos (by simp [h1])
    rwa [List.append_nil, ← h2] at this
  rw [e1]
  simp only [Res.bind_ok]
  have e2 := store_append (t.map some ++ (s ++ List.replicate k 0).map some) [some 0] [] [0] rfl
    (c.pos + (r.length - 1)) (by simp; omega)
  have e3 : t.map some ++ (s ++ List.replicate k 0 ++ [0]).map some ++ [] =
      t.map some ++ (s ++ List.replicate k 0).map some ++ [some 0] ++ [] := by simp
  rw [e3, e2]
  refine ⟨_, rfl, by simp [h1], (List.replicate k 0).map some, ?_⟩
  simp only [List.map_append, List.append_nil, List.append_assoc]
  congr 2
  simp only [List.map_cons, List.map_nil, List.map_replicate]
  rw [← List.replicate_succ', List.replicate_succ]

theorem reserve_pre {b t} (n : Nat) (hn : 0 < n) (h : Pre b t) :
    ∃ b', reserve b n = .ok b' ∧ Pre b' t ∧ b'.pos + n ≤ b'.mem.length := by
  unfold reserve
  split
  · obtain ⟨h1, h3, _⟩ := resize_pre (n := ((b.pos + n) * 3 + 30) / 2 / 16 * 16) h
    have hp : (resize b (((b.pos + n) * 3 + 30) / 2 / 16 * 16)).pos = b.pos := by
      unfold resize; split <;> rfl
    dsimp only
    generalize resize b (((b.pos + n) * 3 + 30) / 2 / 16 * 16) = c at h1 h3 hp ⊢
    have : c.mem.length > c.pos + n := by omega
    rw [if_pos this]
    exact ⟨c, rfl, h1, by omega⟩
  · exact ⟨b, rfl, h, by omega⟩

theorem fmtLoop_fits {b t s} (k est : Nat) (h : Pre b t) (hs : s.length < 2147483647)
    (he : s.length < est) : ∃ b', fmtLoop (k + 1) est b s = .ok b' ∧ Holds b' (t ++ s) := by
  obtain ⟨c, h1, h2, h3⟩ := reserve_pre est (by omega) h
  obtain ⟨r, h4⟩ := store_zero (s := s) h2 (by omega)
  simp only [fmtLoop, h1, Res.bind_ok, vsnprintf]
  rw [List.take_of_length_le (by omega), h4]
  simp only [Res.bind_ok]
  rw [if_neg (by omega), if_neg (by omega)]
  exact ⟨_, rfl, by simp [h2.1], r, by simp⟩

theorem addFstring_holds {b t} (s : List Nat) (h : Pre b t) (hs : s.length < 2147483647) :
    ∃ b', addFstring b s = .ok b' ∧ Holds b' (t ++ s) := by
  by_cases he : s.length < 128
  · exact fmtLoop_fits 1 128 h hs he
  · obtain ⟨c, h1, h2, h3⟩ := reserve_pre 128 (by omega) h
    have hl : (s.take 127).length = 127 := by rw [List.length_take]; omega
    obtain ⟨r, h4⟩ := store_zero (s := s.take 127) h2 (by omega)
    unfold addFstring fmtLoop
    simp only [h1, Res.bind_ok, vsnprintf]
    rw [h4]
    simp only [Res.bind_ok]
    rw [if_neg (by omega), if_pos (by omega), if_neg (by omega)]
    exact fmtLoop_fits 0 _ ⟨h2.1, _, by rw [List.append_assoc]⟩ hs (by omega)

theorem addDouble_holds {b t} (s : List Nat) (h : Pre b t) (hs : s.length ≤ 25) :
    ∃ b', addDouble b s = .ok b' ∧ Holds b' (t ++ s) := by
  obtain ⟨c, h1, ⟨h2, r, h3⟩, h4⟩ := reserve_pre 32 (by omega) h
  have hlen : c.mem.length = t.length + r.length := by rw [h3]; simp
  unfold addDouble
  simp only [h1, Res.bind_ok]
  have e1 := store_append (t.map some) (r.take s.length) (r.drop s.length) s
    (by rw [List.length_take]; omega) c.pos (by simp [h2])
  rw [List.append_assoc, List.take_append_drop, ← h3] at e1
  rw [e1]
  simp only [Res.bind_ok]
  obtain ⟨x, r', hx⟩ : ∃ x r', r.drop s.length = x :: r' := by
    cases hd : r.drop s.length with
    | nil =>
      have := List.length_drop (l := r) (i := s.length)
      rw [hd, List.length_nil] at this
      omega
    | cons x r' => exact ⟨x, r', rfl⟩
  have e2 := store_append (t.map some ++ s.map some) [x] r' [0] rfl (c.pos + s.length) (by simp [h2])
  rw [hx, show t.map some ++ s.map some ++ x :: r' = t.map some ++ s.map some ++ [x] ++ r' by simp, e2]
  exact ⟨_, rfl, by simp [h2], r', by simp⟩

theorem run_holds {b t} (o : Op) (ho : o.Fine) (h : Pre b t) :
    ∃ b', o.run b = .ok b' ∧ Holds b' (t ++ o.text) := by
  cases o with
  | str s => exact addString_holds s h
  | fmt s => exact addFstring_holds s h ho.2
  | dbl s => exact addDouble_holds s h ho.2

theorem runAll_holds (os : List Op) {b t} (ho : ∀ o ∈ os, o.Fine) (h : Holds b t) :
    ∃ b', runAll b os = .ok b' ∧ Holds b' (t ++ os.flatMap Op.text) := by
  induction os generalizing b t with
  | nil => exact ⟨b, rfl, by simpa using h⟩
  | cons o os ih =>
    obtain ⟨c, h1, h2⟩ := run_holds o (ho o (by simp)) h.pre
    obtain ⟨d, h3, h4⟩ := ih (fun o' h' => ho o' (by simp [h'])) h2
    exact ⟨d, by simp only [runAll, h1, Res.bind_ok, h3], by simpa using h4⟩

theorem cstr_holds {b t} (h : Holds b t) (ht : ∀ c ∈ t, c ≠ 0) : cstr b.mem = some t := by
  obtain ⟨h1, r, h2⟩ := h
  rw [h2]
  clear h1 h2
  induction t with
  | nil => simp [cstr]
  | cons c t ih =>
    simp only [List.map_cons, List.cons_append, cstr, if_neg (ht c (by simp))]
    rw [ih fun c hc => ht c (by simp [hc])]
    rfl

theorem fine_text {o : Op} (h : o.Fine) : ∀ c ∈ o.text, c ≠ 0 := by
  cases o with
  | str s => exact h
  | fmt s => exact h.1
  | dbl s => exact h.1

/-- The compiler library: any calls on a new buffer of any size end without an assertion that fails
and without a store outside of the buffer; the buffer then holds, as a C string, all the texts one
after another, and its position is their length.  (A new buffer of size 0 has no string before the
first call.) -/
theorem buffer_text (n : Nat) (os : List Op) (ho : ∀ o ∈ os, o.Fine) (hn : 0 < n ∨ os ≠ []) :
    ∃ b, runAll (init n) os = .ok b ∧ cstr b.mem = some (os.flatMap Op.text) ∧
      b.pos = (os.flatMap Op.text).length := by
  have ht : ∀ c ∈ os.flatMap Op.text, c ≠ 0 := by
    intro c hc
    obtain ⟨o, h1, h2⟩ := List.mem_flatMap.1 hc
    exact fine_text (ho o h1) c h2
  have key : ∃ b, runAll (init n) os = .ok b ∧ Holds b (os.flatMap Op.text) := by
    cases os with
    | nil =>
      obtain ⟨k, rfl⟩ : ∃ k, n = k + 1 := ⟨n - 1, by simp at hn; omega⟩
      exact ⟨_, rfl, rfl, List.replicate k (some 0), by simp [init, List.replicate_succ]⟩
    | cons o os =>
      obtain ⟨c, h1, h2⟩ := run_holds (b := init n) (t := []) o (ho o (by simp)) ⟨rfl, _, rfl⟩
      obtain ⟨d, h3, h4⟩ := runAll_holds os (fun o' h' => ho o' (by simp [h'])) h2
      exact ⟨d, by simp only [runAll, h1, Res.bind_ok, h3], by simpa using h4⟩
  obtain ⟨b, h1, h2⟩ := key
  exact ⟨b, h1, cstr_holds h2 ht, h2.1⟩

/-- A call on an empty buffer without memory, then one that does not fit the first guess. -/
example : (match runAll (init 0) [.str [104, 105], .fmt (List.replicate 300 97), .dbl [49, 69, 48]] with
    | .ok b => b.pos == 305 && b.mem[304]? == some (some 48) && b.mem[305]? == some (some 0)
    | _ => false) = true := by decide +kernel

/-- The buffers of src/ravi_membuf.c: the same, if no formatted text is longer than 1023 bytes. -/
theorem membuff_text_partial (n : Nat) (os : List Op) (ho : ∀ o ∈ os, o.Fine)
    (hf : ∀ o ∈ os, (∃ s, o = .str s) ∨ ∃ s, o = .fmt s ∧ s.length ≤ 1023) (hn : os ≠ []) :
    ∃ b, mbRunAll (init n) os = .ok b ∧ cstr b.mem = some (os.flatMap Op.text) ∧
      b.pos = (os.flatMap Op.text).length := by
  have e : mbRunAll (init n) os = runAll (init n) (os.map fun o => .str o.text) := by
    generalize init n = b
    clear hn ho
    induction os generalizing b with
    | nil => rfl
    | cons o os ih =>
      have ho : o.mbRun b = (Op.str o.text).run b := by
        rcases hf o (by simp) with ⟨s, rfl⟩ | ⟨s, rfl, h⟩
        · rfl
        · simp only [Op.mbRun, mbAddFstring, Op.run, Op.text]
          rw [if_neg (by omega), List.take_of_length_le h]
      simp only [mbRunAll, List.map_cons, runAll, ho]
      congr 1
      funext c
      exact ih (fun o' h' => hf o' (by simp [h'])) c
  have et : (os.map fun o => Op.str o.text).flatMap Op.text = os.flatMap Op.text := by
    rw [List.flatMap_map]
    rfl
  rw [e, ← et]
  refine buffer_text n _ ?_ (Or.inr (by simpa using hn))
  intro o h
  obtain ⟨o', h1, rfl⟩ := List.mem_map.1 h
  exact fine_text (ho o' h1)

/-- A longer text is cut, without an error. -/
theorem membuff_cuts (n : Nat) (s : List Nat) (hs : ∀ c ∈ s, c ≠ 0) (h1 : 1023 < s.length)
    (h2 : s.length < 2147483647) :
    ∃ b, mbRunAll (init n) [.fmt s] = .ok b ∧ cstr b.mem = some (s.take 1023) ∧ s.take 1023 ≠ s := by
  obtain ⟨b, k1, k2⟩ := addString_holds (b := init n) (t := []) (s.take 1023) ⟨rfl, _, rfl⟩
  refine ⟨b, ?_, cstr_holds k2 ?_, ?_⟩
  · simp only [mbRunAll, Op.mbRun, mbAddFstring]
    rw [if_neg (by omega), k1]
    rfl
  · intro c hc
    exact hs c (List.mem_of_mem_take (by simpa using hc))
  · intro h
    have := congrArg List.length h
    rw [List.length_take] at this
    omega

example : (∀ c ∈ List.replicate 2000 97, c ≠ 0) ∧ 1023 < (List.replicate 2000 97).length := by
  constructor
  · intro c hc; rw [List.eq_of_mem_replicate hc]; decide
  · rw [List.length_replicate]; decide

end Verif.MemBuf
