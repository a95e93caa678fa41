import Verif.ChunkId.Model
/-!
# C49: chunk identifiers fit their buffer
-/
namespace Verif.ChunkId

/-- The C string in a buffer: the bytes before the first terminator, if they were all written. -/
def cstr : List (Option UInt8) → Option Bytes
  | some b :: r => if b = 0 then some [] else (cstr r).map (b :: ·)
  | _ => none

theorem cstr_append (s : Bytes) (hs : (0 : UInt8) ∉ s) (r : List (Option UInt8)) :
    cstr (s.map some ++ some 0 :: r) = some s := by
  induction s with
  | nil => rfl
  | cons b s ih =>
    have hb : b ≠ 0 := fun h => hs (by simp [h])
    have := ih (fun h => hs (by simp [h]))
    show (if b = 0 then some [] else (cstr (s.map some ++ some 0 :: r)).map (b :: ·)) = _
    rw [if_neg hb, this]; rfl

/-- The text produced for a source. -/
def spec (source : Bytes) (bufflen : Nat) : Bytes :=
  if source.head? = some 0x3d then source.tail.take (bufflen - 1)
  else if source.head? = some 0x40 then
    if source.tail.length < bufflen then source.tail
    else RETS ++ source.tail.drop (source.tail.length - (bufflen - 4))
  else if source.length < bufflen - 15 ∧ 0x0a ∉ source then PRE ++ source ++ POS
  else PRE ++ (source.takeWhile (· != 0x0a)).take (bufflen - 15) ++ RETS ++ POS

/-- Everything written so far is `s`, and the pointer is after it. -/
def At (o : Out) (s : Bytes) (cap : Nat) : Prop :=
  o.pos = s.length ∧ o.mem.take s.length = s.map some ∧ o.mem.length = cap

theorem memcpy_spec {o : Out} {s : Bytes} {cap : Nat} (h : At o s cap) (src : Bytes) (off l : Nat)
    (h1 : off + l ≤ src.length + 1) (h2 : s.length + l ≤ cap) :
    ∃ o', memcpy o src off l = .ok o' ∧ o'.pos = s.length ∧ o'.mem.length = cap ∧
      o'.mem.take (s.length + l) = (s ++ ((src ++ [0]).drop off).take l).map some := by
  obtain ⟨hp, ht, hl⟩ := h
  have hlen : (((src ++ [0]).drop off).take l).length = l := by
    rw [List.length_take, List.length_drop, List.length_append, List.length_singleton]; omega
  unfold memcpy
  rw [if_pos ⟨h1, by omega⟩]
  refine ⟨_, rfl, hp, ?_, ?_⟩
  · simp only [List.length_append, List.length_take, List.length_map, List.length_drop, hlen] at hlen ⊢
    omega
  · dsimp only
    rw [hp, ht]
    have e : s.length + l = (s.map some ++ (((src ++ [0]).drop off).take l).map some).length := by
      rw [List.length_append, List.length_map, List.length_map, hlen]
    rw [e, List.take_left, List.map_append]

theorem addstr_spec {o : Out} {s : Bytes} {cap : Nat} (h : At o s cap) (src : Bytes) (off l : Nat)
    (h1 : off + l ≤ src.length) (h2 : s.length + l ≤ cap) :
    ∃ o', addstr o src off l = .ok o' ∧ At o' (s ++ (src.drop off).take l) cap := by
  obtain ⟨o', he, hp, hl, ht⟩ := memcpy_spec h src off l (by omega) h2
  have e : ((src ++ [0]).drop off).take l = (src.drop off).take l := by
    rw [List.drop_append_of_le_length (by omega), List.take_append_of_le_length (by
      rw [List.length_drop]; omega)]
  have hlen : (s ++ (src.drop off).take l).length = s.length + l := by
    rw [List.length_append, List.length_take, List.length_drop]; omega
  unfold addstr
  rw [he]; simp only [Res.bind_ok]
  refine ⟨_, rfl, ?_, ?_, hl⟩
  · show o'.pos + l = _; rw [hlen, hp]
  · show o'.mem.take _ = _; rw [hlen, ht, e]

/-- A final copy that includes the terminator leaves a C string. -/
theorem finish {o : Out} {s : Bytes} {cap : Nat} (h : At o s cap) (src : Bytes) (off l : Nat)
    (h1 : off + l = src.length + 1) (hl : 0 < l) (h2 : s.length + l ≤ cap)
    (hz : (0 : UInt8) ∉ s) (hz2 : (0 : UInt8) ∉ src) :
    ∃ o', memcpy o src off l = .ok o' ∧ o'.mem.length = cap ∧
      cstr o'.mem = some (s ++ src.drop off) := by
  obtain ⟨o', he, hp, hl', ht⟩ := memcpy_spec h src off l (by omega) h2
  refine ⟨o', he, hl', ?_⟩
  have e : ((src ++ [0]).drop off).take l = src.drop off ++ [0] := by
    rw [List.drop_append_of_le_length (by omega)]
    apply List.take_of_length_le
    rw [List.length_append, List.length_drop, List.length_singleton]; omega
  rw [e] at ht
  rw [← List.take_append_drop (s.length + l) o'.mem, ht]
  have : (s ++ (src.drop off ++ [0])).map some ++ o'.mem.drop (s.length + l) =
      (s ++ src.drop off).map some ++ some 0 :: o'.mem.drop (s.length + l) := by simp
  rw [this]
  apply cstr_append
  intro hm
  rcases List.mem_append.1 hm with hm | hm
  · exact hz hm
  · exact hz2 (List.mem_of_mem_drop hm)

theorem newline_none {s : Bytes} : newline s = none ↔ 0x0a ∉ s := by
  unfold newline
  rw [List.findIdx?_eq_none_iff]
  constructor
  · intro h hm; have := h _ hm; simp at this
  · intro h x hx
    by_cases hx' : x = 0x0a
    · subst hx'; exact absurd hx h
    · simp [hx']

theorem newline_some {s : Bytes} {k : Nat} (h : newline s = some k) :
    k < s.length ∧ s.take k = s.takeWhile (· != 0x0a) := by
  unfold newline at h
  induction s generalizing k with
  | nil => simp at h
  | cons b s ih =>
    rw [List.findIdx?_cons] at h
    by_cases hb : (b == 0x0a) = true
    · rw [if_pos hb] at h
      injection h with h; subst h
      simp only [List.take_zero, List.takeWhile_cons]
      have : (b != 0x0a) = false := by simp [bne, hb]
      rw [this]; simp
    · rw [if_neg hb] at h
      obtain ⟨m, hm, rfl⟩ := Option.map_eq_some_iff.1 h
      have := ih hm
      have hb' : (b != 0x0a) = true := by simp [bne, hb]
      simp only [List.takeWhile_cons, hb', if_true, List.take_succ_cons, this.2,
        List.length_cons]
      exact ⟨by omega, trivial⟩

theorem takeWhile_all {s : Bytes} (h : 0x0a ∉ s) : s.takeWhile (· != 0x0a) = s := by
  induction s with
  | nil => rfl
  | cons b s ih =>
    have hb : (b != 0x0a) = true := by
      simp; intro he; exact h (by simp [he])
    rw [List.takeWhile_cons, if_pos hb, ih (fun hm => h (by simp [hm]))]

theorem usub_le {a b : Nat} (h : b ≤ a) (ha : a < 18446744073709551616) : usub a b = a - b := by
  unfold usub uw; omega

attribute [local irreducible] usub in
/-- C49. For every source without zero bytes and every buffer of at least 15 bytes, the function
writes only inside the buffer, reads only inside the source, and leaves a terminated string:
the specified abbreviation of the source. -/
theorem chunkid_correct (source : Bytes) (hz : (0 : UInt8) ∉ source) (bufflen : Nat)
    (hb : 15 ≤ bufflen) (hb64 : bufflen < 18446744073709551616) 
    (mem : List (Option UInt8)) (hmem : mem.length = bufflen) :
    ∃ o, chunkid ⟨mem, 0⟩ source bufflen = .ok o ∧ o.mem.length = bufflen ∧
      cstr o.mem = some (spec source bufflen) := by
  have h0 : At ⟨mem, 0⟩ [] bufflen := ⟨rfl, by simp, hmem⟩
  unfold chunkid
  dsimp only
  by_cases h1 : source.head? = some 0x3d
  · rw [if_pos h1]
    obtain ⟨x, rfl⟩ : ∃ x, source = 0x3d :: x := by
      cases source with
      | nil => simp at h1
      | cons a x => simp at h1; exact ⟨x, by rw [h1]⟩
    have hsp : spec (0x3d :: x) bufflen = x.take (bufflen - 1) := by
      unfold spec; rw [if_pos h1]; rfl
    rw [hsp]
    by_cases h2 : (0x3d :: x : Bytes).length ≤ bufflen
    · rw [if_pos h2]
      obtain ⟨o, he, hl, hc⟩ := finish h0 (0x3d :: x) 1 (0x3d :: x : Bytes).length (by omega)
        (by simp) (by simpa using h2) (by simp) hz
      refine ⟨o, he, hl, ?_⟩
      rw [hc]
      simp only [List.length_cons] at h2
      rw [List.take_of_length_le (by omega)]; simp
    · rw [if_neg h2, usub_le (by omega) hb64]
      simp only [List.length_cons] at h2
      obtain ⟨o, he, hA⟩ := addstr_spec h0 (0x3d :: x) 1 (bufflen - 1)
        (by simp only [List.length_cons]; omega) (by simp)
      rw [he]; simp only [Res.bind_ok]
      simp only [List.nil_append, List.drop_succ_cons, List.drop_zero] at hA
      obtain ⟨o2, he2, hl2, hc2⟩ := finish hA [] 0 1 rfl (by omega)
        (by rw [List.length_take]; omega)
        (fun hm => hz (List.mem_cons_of_mem _ (List.mem_of_mem_take hm))) (by simp)
      refine ⟨o2, he2, hl2, ?_⟩
      rw [hc2]; simp
  · rw [if_neg h1]
    by_cases h1' : source.head? = some 0x40
    · rw [if_pos h1']
      obtain ⟨x, rfl⟩ : ∃ x, source = 0x40 :: x := by
        cases source with
        | nil => simp at h1'
        | cons a x => simp at h1'; exact ⟨x, by rw [h1']⟩
      have hsp : spec (0x40 :: x) bufflen =
        if x.length < bufflen then x else RETS ++ x.drop (x.length - (bufflen - 4)) := by
        unfold spec; rw [if_neg h1, if_pos h1']; rfl
      rw [hsp]
      by_cases h2 : (0x40 :: x : Bytes).length ≤ bufflen
      · rw [if_pos h2]
        obtain ⟨o, he, hl, hc⟩ := finish h0 (0x40 :: x) 1 (0x40 :: x : Bytes).length (by omega)
          (by simp) (by simpa using h2) (by simp) hz
        refine ⟨o, he, hl, ?_⟩
        simp only [List.length_cons] at h2
        rw [hc, if_pos (by omega)]; simp
      · rw [if_neg h2]
        simp only [List.length_cons] at h2
        obtain ⟨o, he, hA⟩ := addstr_spec h0 RETS 0 3 (by decide) (by simp; omega)
        rw [he, Res.bind_ok]
        show ∃ o', memcpy o (64 :: x) (1 + (64 :: x : Bytes).length - usub bufflen 3)
          (usub bufflen 3) = _ ∧ _
        rw [usub_le (by omega) hb64]
        have hA' : At o RETS bufflen := hA
        obtain ⟨o2, he2, hl2, hc2⟩ := finish hA' (0x40 :: x)
          (1 + (0x40 :: x : Bytes).length - (bufflen - 3)) (bufflen - 3)
          (by simp only [List.length_cons]; omega) (by omega)
          (by show 3 + _ ≤ _; omega) (by decide) hz
        refine ⟨o2, he2, hl2, ?_⟩
        rw [hc2, if_neg (by omega)]
        have : 1 + (0x40 :: x : Bytes).length - (bufflen - 3) = x.length - (bufflen - 4) + 1 := by
          simp only [List.length_cons]; omega
        rw [this, List.drop_succ_cons]
    · rw [if_neg h1']
      have hsp : spec source bufflen =
          if source.length < bufflen - 15 ∧ 0x0a ∉ source then PRE ++ source ++ POS
          else PRE ++ (source.takeWhile (· != 0x0a)).take (bufflen - 15) ++ RETS ++ POS := by
        unfold spec; rw [if_neg h1, if_neg h1']
      rw [hsp]
      obtain ⟨o, he, hA⟩ := addstr_spec h0 PRE 0 9 (by decide) (by simp; omega)
      rw [he, Res.bind_ok]
      show ∃ o', (chunkid.middle o source source.length (newline source) (usub bufflen 15) >>=
        fun o => memcpy o POS 0 3) = _ ∧ _
      rw [usub_le (by omega) hb64]
      have hA' : At o PRE bufflen := hA
      unfold chunkid.middle
      by_cases h2 : source.length < bufflen - 15 ∧ newline source = none
      · rw [if_pos h2]
        obtain ⟨o2, he2, hA2⟩ := addstr_spec hA' source 0 source.length (by omega)
          (by show 9 + _ ≤ _; omega)
        rw [he2]; simp only [Res.bind_ok]
        simp only [List.drop_zero, List.take_length] at hA2
        obtain ⟨o3, he3, hl3, hc3⟩ := finish hA2 POS 0 3 rfl (by omega)
          (by rw [List.length_append]; show 9 + _ + 3 ≤ _; omega)
          (fun hm => by
            rcases List.mem_append.1 hm with hm | hm
            · revert hm; decide
            · exact hz hm) (by decide)
        refine ⟨o3, he3, hl3, ?_⟩
        rw [hc3, if_pos ⟨h2.1, newline_none.1 h2.2⟩]; rfl
      · rw [if_neg h2, if_neg (fun hh => h2 ⟨hh.1, newline_none.2 hh.2⟩)]
        -- the line shown
        have hk : ∃ k, (newline source).getD source.length = k ∧ k ≤ source.length ∧
            source.take k = source.takeWhile (· != 0x0a) := by
          cases hn : newline source with
          | none =>
            exact ⟨_, rfl, Nat.le_refl _, by
              rw [Option.getD_none, List.take_length, takeWhile_all (newline_none.1 hn)]⟩
          | some k => exact ⟨_, rfl, by
              rw [Option.getD_some]; exact Nat.le_of_lt (newline_some hn).1, (newline_some hn).2⟩
        obtain ⟨k, hk1, hk2, hk3⟩ := hk
        rw [hk1]
        generalize hm : (if k > bufflen - 15 then bufflen - 15 else k) = m
        have hmk : m = min (bufflen - 15) k := by rw [← hm]; split <;> omega
        obtain ⟨o2, he2, hA2⟩ := addstr_spec hA' source 0 m (by omega)
          (by show 9 + _ ≤ _; omega)
        dsimp only
        rw [hm, he2]; simp only [Res.bind_ok]
        have htk : source.take m = (source.takeWhile (· != 0x0a)).take (bufflen - 15) := by
          rw [← hk3, List.take_take, hmk]
        rw [List.drop_zero, htk] at hA2
        have hlen : ((source.takeWhile (· != 0x0a)).take (bufflen - 15)).length ≤ bufflen - 15 := by
          rw [List.length_take]; omega
        obtain ⟨o3, he3, hA3⟩ := addstr_spec hA2 RETS 0 3 (by decide)
          (by rw [List.length_append]; show 9 + _ + 3 ≤ _; omega)
        rw [he3]; simp only [Res.bind_ok]
        obtain ⟨o4, he4, hl4, hc4⟩ := finish hA3 POS 0 3 rfl (by omega)
          (by rw [List.length_append, List.length_append]; show 9 + _ + 3 + 3 ≤ _; omega)
          (fun hm' => by
            rcases List.mem_append.1 hm' with hm' | hm'
            · rcases List.mem_append.1 hm' with hm' | hm'
              · revert hm'; decide
              · exact hz ((List.takeWhile_sublist _).mem (List.mem_of_mem_take hm'))
            · revert hm'; decide) (by decide)
        exact ⟨o4, he4, hl4, by rw [hc4]; rfl⟩

/-- The identifier is shorter than the buffer, so the terminator is inside it. -/
theorem chunkid_short (source : Bytes) (bufflen : Nat) (hb : 15 ≤ bufflen) :
    (spec source bufflen).length < bufflen := by
  unfold spec
  split
  · rw [List.length_take]; omega
  · split
    · split
      · assumption
      · rw [List.length_append, List.length_drop]; show 3 + _ < _; omega
    · split
      · rw [List.length_append, List.length_append]; show 9 + _ + 2 < _; omega
      · simp only [List.length_append, List.length_take]
        show 9 + min _ _ + 3 + 2 < _; omega

/-- The value of `LUA_IDSIZE` — luaconf.h:773 — meets the hypothesis. -/
example : 15 ≤ 60 := by decide
-- `=stdin`, `@f.lua` and a two-line string
example : spec [0x3d, 0x61] 60 = [0x61] := by decide
example : spec (0x40 :: List.replicate 20 0x61) 16 = RETS ++ List.replicate 12 0x61 := by decide
example : spec [0x78, 0x0a, 0x79] 60 = PRE ++ [0x78] ++ RETS ++ POS := by decide
example : (match chunkid ⟨List.replicate 20 none, 0⟩ [0x78, 0x79] 20 with
    | .ok o => cstr o.mem | _ => none) = some (PRE ++ [0x78, 0x79] ++ POS) := by decide +kernel

end Verif.ChunkId
