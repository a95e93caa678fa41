import Verif.Pat.Find

/-!
# `string.gmatch` and `string.gsub`
-/
namespace Verif.Pat
open Verif.StrLib (mem rd rdN)

/-- The successive matches from a position, when the last one ended at `last`: the preferred match at the position unless it ends where
the last one did; otherwise from the next position. -/
inductive Scan (src : List UInt8) (its : List Item) : Nat → Option Nat → List (Nat × Nat × List Cap) → Prop
  | take {s last e c ms} : first src its s = some (e, c) → last ≠ some e → Scan src its e (some e) ms → Scan src its s last ((s, e, c) :: ms)
  | skip {s last ms} : (∀ e c, first src its s = some (e, c) → last = some e) → s < src.length → Scan src its (s + 1) last ms → Scan src its s last ms
  | stop {s last} : (∀ e c, first src its s = some (e, c) → last = some e) → src.length ≤ s → Scan src its s last []

theorem Scan.det {src its s last ms ms'} (h : Scan src its s last ms) (h' : Scan src its s last ms') : ms = ms' := by
  induction h generalizing ms' with
  | take h1 h2 h3 ih =>
    cases h' with
    | take k1 k2 k3 =>
      rw [h1] at k1
      injection k1 with k1
      injection k1 with k1 k4
      subst k1 k4
      rw [ih k3]
    | skip k1 k2 k3 => exact absurd (k1 _ _ h1) h2
    | stop k1 k2 => exact absurd (k1 _ _ h1) h2
  | skip h1 h2 h3 ih =>
    cases h' with
    | take k1 k2 k3 => exact absurd (h1 _ _ k1) k2
    | skip k1 k2 k3 => exact ih k3
    | stop k1 k2 => omega
  | stop h1 h2 =>
    cases h' with
    | take k1 k2 k3 => exact absurd (h1 _ _ k1) k2
    | skip k1 k2 k3 => omega
    | stop k1 k2 => rfl

/-- What is left to scan; it goes down with each step. -/
def left (src : List UInt8) (s : Nat) (last : Option Nat) : Nat := 2 * (src.length - s) + (if last = some s then 0 else 1)

theorem left_skip {src : List UInt8} {s : Nat} {last : Option Nat} (h : s < src.length) : left src (s + 1) last < left src s last := by
  unfold left; split <;> split <;> omega

theorem left_take {src : List UInt8} {s e : Nat} {last : Option Nat} (h1 : s ≤ e) (h2 : last ≠ some e) (h3 : e ≤ src.length) :
    left src e (some e) < left src s last := by
  unfold left
  rw [if_pos rfl]
  by_cases h : s = e
  · subst h; rw [if_neg h2]; omega
  · omega

/-- There is always such a list: **scanning ends** (C68). -/
theorem scan_total {src pat its} (hw : Wf pat its) : ∀ (n s : Nat) (last : Option Nat), left src s last < n → s ≤ src.length →
    ∃ ms, Scan src its s last ms := by
  intro n
  induction n with
  | zero => intro s last h; omega
  | succ n ih =>
    intro s last hn hs
    have other : (∀ e c, first src its s = some (e, c) → last = some e) → ∃ ms, Scan src its s last ms := by
      intro h
      by_cases hl : s < src.length
      · obtain ⟨ms, hm⟩ := ih (s + 1) last (by have := left_skip (last := last) hl; omega) hl
        exact ⟨ms, .skip h hl hm⟩
      · exact ⟨[], .stop h (by omega)⟩
    cases hf : first src its s with
    | none => exact other (fun e c q => by rw [hf] at q; exact nomatch q)
    | some q =>
      obtain ⟨e, c⟩ := q
      by_cases h : last = some e
      · exact other (fun e' c' q => by rw [hf] at q; injection q with q; injection q with q _; rw [h, q])
      · obtain ⟨h1, h2, _⟩ := first_inv hw hs hf
        obtain ⟨ms, hm⟩ := ih e (some e) (by have := left_take h1 h h2.1; omega) h2.1
        exact ⟨_, .take hf h hm⟩

/-- The matches come from left to right without overlap, and no two end at the same place. -/
theorem scan_ordered {src pat its s last ms} (hw : Wf pat its) (h : Scan src its s last ms) (hs : s ≤ src.length) (hl : ∀ l, last = some l → l ≤ s) :
    (∀ m ∈ ms, s ≤ m.1 ∧ m.1 ≤ m.2.1 ∧ m.2.1 ≤ src.length ∧ Sem src its m.1 [] m.2.1 m.2.2 ∧ ∀ l, last = some l → l < m.2.1) ∧
    ms.Pairwise (fun a b => a.2.1 ≤ b.1 ∧ a.2.1 < b.2.1) := by
  induction h with
  | @take s last e c ms h1 h2 h3 ih =>
    obtain ⟨k1, k2, _⟩ := first_inv hw hs h1
    obtain ⟨i1, i2⟩ := ih k2.1 (fun l q => by injection q with q; omega)
    have hle : ∀ l, last = some l → l < e := by
      intro l q
      have := hl l q
      have : l ≠ e := fun q' => h2 (by rw [q, q'])
      omega
    refine ⟨fun m hm => ?_, List.pairwise_cons.2 ⟨fun b hb => ?_, i2⟩⟩
    · rcases List.mem_cons.1 hm with e' | e'
      · subst e'; exact ⟨Nat.le_refl _, k1, k2.1, first_sem h1, hle⟩
      · obtain ⟨a1, a2, a3, a4, a5⟩ := i1 m e'
        refine ⟨by omega, a2, a3, a4, fun l q => ?_⟩
        have := hle l q
        have := a5 e rfl
        omega
    · obtain ⟨a1, a2, _, _, a5⟩ := i1 b hb
      exact ⟨a1, a5 e rfl⟩
  | skip h1 h2 h3 ih =>
    obtain ⟨i1, i2⟩ := ih h2 (fun l q => by have := hl l q; omega)
    exact ⟨fun m hm => ⟨by have := (i1 m hm).1; omega, (i1 m hm).2⟩, i2⟩
  | stop h1 h2 => exact ⟨(fun m hm => nomatch hm), List.Pairwise.nil⟩

/-! ## `gmatch` -/

/-- The values of the first of some matches and where it ends. -/
def nextOf (src : List UInt8) : List (Nat × Nat × List Cap) → Option (List CapVal × Nat)
  | [] => none
  | (a, e, c) :: _ => some (values src c a e, e)

theorem gmatchLoop_eq {src pat its s last ms} (hsz : src.length < 2 ^ 63) (hw : Wf pat its) (h : Scan src its s last ms) : ∀ fuel, s ≤ src.length →
    src.length + 2 ≤ fuel + s → gmatchLoop src (mem pat) MAXCCALLS last fuel s =
      .ok (nextOf src ms) := by
  induction h with
  | @take s last e c ms h1 h2 h3 ih =>
    intro fuel hs hf
    cases fuel with
    | zero => omega
    | succ fuel =>
      unfold gmatchLoop
      obtain ⟨k1, k2, k3⟩ := first_inv hw hs h1
      rw [if_pos hs, match_first hsz hw hs, h1, Res.bind_ok]
      dsimp only
      rw [if_pos (fun q => h2 q.symm), pushCaptures_eq k2 k3 k1]
      rfl
  | @skip s last ms h1 h2 h3 ih =>
    intro fuel hs hf
    cases fuel with
    | zero => omega
    | succ fuel =>
      unfold gmatchLoop
      rw [if_pos hs, match_first hsz hw hs, Res.bind_ok]
      cases hq : first src its s with
      | none => exact ih fuel (by omega) (by omega)
      | some q =>
        dsimp only
        rw [if_neg (by rw [h1 q.1 q.2 hq]; simp)]
        exact ih fuel (by omega) (by omega)
  | @stop s last h1 h2 =>
    intro fuel hs hf
    cases fuel with
    | zero => omega
    | succ fuel =>
      have out : gmatchLoop src (mem pat) MAXCCALLS last fuel (s + 1) = .ok none := by
        cases fuel with
        | zero => omega
        | succ fuel => unfold gmatchLoop; rw [if_neg (by omega)]; rfl
      unfold gmatchLoop
      rw [if_pos hs, match_first hsz hw hs, Res.bind_ok]
      cases hq : first src its s with
      | none => exact out
      | some q =>
        dsimp only
        rw [if_neg (by rw [h1 q.1 q.2 hq]; simp)]
        exact out

/-- A generic `for` loop over the iterator: the values of all iterations. -/
def drain (src pat : List UInt8) : Nat → GM → Res (List (List CapVal))
  | 0, _ => .ub
  | fuel + 1, g => do
    match ← gmatchNext src pat g with
    | none => pure []
    | some (vs, g) => do
      let r ← drain src pat fuel g
      pure (vs :: r)

theorem Scan.next {src its s last a e c ms} (h : Scan src its s last ((a, e, c) :: ms)) : Scan src its e (some e) ms := by
  generalize hm : (a, e, c) :: ms = l at h
  induction h with
  | take h1 h2 h3 ih => injection hm with h4 h5; injection h4 with h4 h6; injection h6 with h6 h7; subst h4 h6 h7 h5; exact h3
  | skip h1 h2 h3 ih => exact ih hm
  | stop h1 h2 => exact nomatch hm

theorem drain_eq {src pat its} (hsz : src.length < 2 ^ 63) (hw : Wf pat its) : ∀ (ms : List (Nat × Nat × List Cap)) (fuel s : Nat) (last : Option Nat),
    Scan src its s last ms → s ≤ src.length → (∀ l, last = some l → l ≤ s) → ms.length < fuel →
      drain src pat fuel ⟨s, last, MAXCCALLS⟩ = .ok (ms.map (fun m => values src m.2.2 m.1 m.2.1)) := by
  intro ms
  induction ms with
  | nil =>
    intro fuel s last h hs _ hf
    cases fuel with
    | zero => omega
    | succ fuel =>
      unfold drain gmatchNext
      dsimp only
      rw [gmatchLoop_eq hsz hw h _ hs (by omega)]
      rfl
  | cons m ms ih =>
    intro fuel s last h hs hl hf
    obtain ⟨a, e, c⟩ := m
    cases fuel with
    | zero => omega
    | succ fuel =>
      unfold drain gmatchNext
      dsimp only
      rw [gmatchLoop_eq hsz hw h _ hs (by omega)]
      have := ((scan_ordered hw h hs hl).1 _ (List.mem_cons_self ..)).2.2.1
      have := ih fuel e (some e) h.next this (fun l q => by injection q with q; omega) (by simpa using hf)
      simp only [nextOf, Res.bind_ok, Res.pure_eq, this]
      rfl

/-! ## `gsub` -/

/-- The text of a replacement string: `%%`, `%0`, `%1` to `%9`. -/
def expand (src : List UInt8) (caps : List Cap) (s e : Nat) : List UInt8 → Res (List UInt8)
  | [] => .ok []
  | c :: r =>
    if c = 37 then
      match r with
      | [] => .err "invalid use of '%' in replacement string"
      | d :: r =>
        if d = 37 then do
          let u ← expand src caps s e r
          pure (37 :: u)
        else if d = 48 then do
          let u ← expand src caps s e r
          pure ((src.drop s).take (e - s) ++ u)
        else if 48 < d ∧ d ≤ 57 then
          match (values src caps s e)[d.toNat - 49]? with
          | none => .err "invalid capture index"
          | some (.pos i) => do
            let u ← expand src caps s e r
            pure (natText i.toNat ++ u)
          | some (.str t) => do
            let u ← expand src caps s e r
            pure (t ++ u)
        else .err "invalid use of '%' in replacement string"
    else do
      let u ← expand src caps s e r
      pure (c :: u)

/-- The text put for a match: `nil` or `false` keeps the text matched. -/
def replText (src : List UInt8) (r : Repl) (n : Nat) (m : Nat × Nat × List Cap) : Res (List UInt8) :=
  match r with
  | .str news => expand src m.2.2 m.1 m.2.1 news
  | .fn f => do
    let v ← f n (values src m.2.2 m.1 m.2.1)
    pure (v.getD ((src.drop m.1).take (m.2.1 - m.1)))
  | .tab f => do
    let v ← f n ((values src m.2.2 m.1 m.2.1).headD (.pos 0))
    pure (v.getD ((src.drop m.1).take (m.2.1 - m.1)))

/-- The subject from `s` on with the matches replaced. -/
def splice (src : List UInt8) (r : Repl) : Nat → Nat → List (Nat × Nat × List Cap) → Res (List UInt8)
  | _, s, [] => .ok (src.drop s)
  | n, s, m :: ms => do
    let t ← replText src r n m
    let u ← splice src r (n + 1) m.2.1 ms
    pure ((src.drop s).take (m.1 - s) ++ t ++ u)

theorem splitEsc_none : ∀ (l : List UInt8), splitEsc l = none → ∀ (src caps s e), expand src caps s e l = .ok l := by
  intro l
  induction l with
  | nil => intro _ _ _ _ _; rfl
  | cons c r ih =>
    intro h src caps s e
    unfold splitEsc at h
    by_cases hc : c = 37
    · rw [if_pos hc] at h; exact nomatch h
    · rw [if_neg hc] at h
      unfold expand
      rw [if_neg hc, ih]
      · rfl
      · cases hs : splitEsc r with
        | none => rfl
        | some q => rw [hs] at h; exact nomatch h

theorem splitEsc_some : ∀ (l a rest : List UInt8), splitEsc l = some (a, rest) →
    rest.length < l.length ∧ ∀ (src caps s e), expand src caps s e l = (expand src caps s e (37 :: rest) >>= fun u => pure (a ++ u)) := by
  intro l
  induction l with
  | nil => intro _ _ h; exact nomatch h
  | cons c r ih =>
    intro a rest h
    unfold splitEsc at h
    by_cases hc : c = 37
    · rw [if_pos hc] at h
      injection h with h
      injection h with h1 h2
      subst h1 h2 hc
      refine ⟨by simp, fun src caps s e => ?_⟩
      cases expand src caps s e (37 :: r) <;> rfl
    · rw [if_neg hc] at h
      cases hs : splitEsc r with
      | none => rw [hs] at h; exact nomatch h
      | some q =>
        obtain ⟨a', b'⟩ := q
        rw [hs] at h
        injection h with h
        injection h with h1 h2
        subst h1 h2
        obtain ⟨i1, i2⟩ := ih a' b' hs
        refine ⟨by simp; omega, fun src caps s e => ?_⟩
        rw [expand.eq_def]
        dsimp only
        rw [if_neg hc, i2]
        cases expand src caps s e (37 :: b') <;> rfl

theorem getOne_values {src : List UInt8} {caps : List Cap} {s e : Nat} (hi : Inv src e caps) (hc : ∀ c ∈ caps, c.2 ≠ UNFIN) (hs : s ≤ e) (i : Nat) :
    getOne src caps i s e = match (values src caps s e)[i]? with | none => .err "invalid capture index" | some v => .ok v := by
  cases h : caps[i]? with
  | some c =>
    rw [getOne_eq hi hc i s e c h]
    have hne : caps ≠ [] := by intro q; rw [q] at h; exact nomatch h
    unfold values
    rw [if_neg hne, List.getElem?_map, h]
    rfl
  | none =>
    unfold getOne values
    rw [h]
    dsimp only
    by_cases hne : caps = []
    · rw [if_pos hne]
      by_cases h0 : i = 0
      · subst h0
        have := hi.1
        rw [if_neg (by simp), if_pos hs, take_mem (by omega)]
        rfl
      · rw [if_pos h0, List.getElem?_eq_none (by simp; omega)]
    · rw [if_neg hne, if_pos, List.getElem?_map, h]
      · rfl
      · intro q
        subst q
        cases caps with
        | nil => exact hne rfl
        | cons a b => exact nomatch h

theorem addS_eq {src : List UInt8} {caps : List Cap} {s e : Nat} (hi : Inv src e caps) (hc : ∀ c ∈ caps, c.2 ≠ UNFIN) (hs : s ≤ e) :
    ∀ (fuel : Nat) (news : List UInt8), news.length < fuel → addS src caps s e fuel news = expand src caps s e news := by
  intro fuel
  induction fuel with
  | zero => intro news h; omega
  | succ fuel ih =>
    intro news hf
    unfold addS
    cases h : splitEsc news with
    | none => rw [splitEsc_none news h]
    | some q =>
      obtain ⟨a, rest⟩ := q
      obtain ⟨h1, h2⟩ := splitEsc_some news a rest h
      rw [h2]
      dsimp only
      cases rest with
      | nil => rfl
      | cons d r =>
        have hr := ih r (by simp at h1; omega)
        unfold expand
        rw [if_pos rfl]
        dsimp only
        rw [drop1, hr]
        by_cases d1 : d = 37
        · rw [if_pos d1, if_pos d1]
          simp only [Res.pure_eq, Res.bind_ok]
          cases expand src caps s e r <;> simp [Res.bind_ok, Res.bind_err, Res.bind_ub]
        · rw [if_neg d1, if_neg d1]
          by_cases d2 : d = 48
          · have := hi.1
            rw [if_pos d2, if_pos d2, if_pos hs, take_mem (by omega)]
            cases expand src caps s e r <;> simp [Res.bind_ok, Res.bind_err, Res.bind_ub, Res.pure_eq]
          · rw [if_neg d2, if_neg d2]
            have hdg : isdigit d = true ↔ 48 < d ∧ d ≤ 57 := by
              rw [digit_iff]
              constructor
              · intro q; exact ⟨UInt8.lt_of_le_of_ne q.1 (fun w => d2 w.symm), q.2⟩
              · intro q; exact ⟨UInt8.le_of_lt q.1, q.2⟩
            by_cases d3 : isdigit d = true
            · rw [if_pos d3, if_pos (hdg.1 d3), getOne_values hi hc hs]
              cases (values src caps s e)[d.toNat - 49]? with
              | none => rfl
              | some v =>
                cases v with
                | pos i => cases expand src caps s e r <;> simp [Res.bind_ok, Res.bind_err, Res.bind_ub, Res.pure_eq]
                | str t => cases expand src caps s e r <;> simp [Res.bind_ok, Res.bind_err, Res.bind_ub, Res.pure_eq]
            · rw [if_neg d3, if_neg (fun q => d3 (hdg.2 q))]
              rfl

theorem addValue_eq {src : List UInt8} {caps : List Cap} {s e : Nat} (hi : Inv src e caps) (hc : ∀ c ∈ caps, c.2 ≠ UNFIN) (hs : s ≤ e) (r : Repl) (n : Nat) :
    match replText src r n (s, e, caps) with
    | .ok t => ∃ ch, addValue src r n caps s e = .ok (t, ch) ∧ (ch = false → t = (src.drop s).take (e - s))
    | .err m => addValue src r n caps s e = .err m
    | .ub => addValue src r n caps s e = .ub := by
  have := hi.1
  have fin : ∀ v : Option (List UInt8), ∃ ch, (match v with
      | some t => pure (t, true)
      | none => if s ≤ e then do
          let b ← rdN (mem src) s (e - s)
          pure (b, false)
        else .ub : Res (List UInt8 × Bool)) = .ok (v.getD ((src.drop s).take (e - s)), ch) ∧
        (ch = false → v.getD ((src.drop s).take (e - s)) = (src.drop s).take (e - s)) := by
    intro v
    cases v with
    | some t => exact ⟨true, rfl, fun q => nomatch q⟩
    | none =>
      dsimp only
      rw [if_pos hs, take_mem (by omega)]
      exact ⟨false, rfl, fun _ => rfl⟩
  cases r with
  | str news =>
    unfold replText addValue
    dsimp only
    rw [addS_eq hi hc hs _ _ (Nat.lt_succ_self _)]
    cases expand src caps s e news with
    | ok t => exact ⟨true, rfl, fun q => nomatch q⟩
    | err m => rfl
    | ub => rfl
  | fn f =>
    unfold replText addValue
    dsimp only
    rw [pushCaptures_eq hi hc hs, Res.bind_ok]
    cases f n (values src caps s e) with
    | ok v => exact fin v
    | err m => rfl
    | ub => rfl
  | tab f =>
    unfold replText addValue
    dsimp only
    rw [getOne_values hi hc hs]
    have hv : ∃ v t, values src caps s e = v :: t := by
      unfold values
      cases caps with
      | nil => exact ⟨_, _, if_pos rfl⟩
      | cons a b => exact ⟨_, _, if_neg (by simp)⟩
    obtain ⟨v, t, hv⟩ := hv
    rw [hv]
    dsimp only [List.getElem?_cons_zero, List.headD_cons]
    rw [Res.bind_ok]
    cases f n v with
    | ok v => exact fin v
    | err m => rfl
    | ub => rfl

theorem drop_take_step {src : List UInt8} {s a : Nat} (h : s < a) (hs : s < src.length) :
    (src.drop s).take (a - s) = src[s] :: (src.drop (s + 1)).take (a - (s + 1)) := by
  rw [List.drop_eq_getElem_cons hs, show a - s = (a - (s + 1)) + 1 by omega, List.take_succ_cons]

theorem splice_skip (src : List UInt8) (r : Repl) (n s : Nat) (ms : List (Nat × Nat × List Cap)) (hs : s < src.length) (h : ∀ m ∈ ms, s < m.1) :
    splice src r n s ms = (splice src r n (s + 1) ms >>= fun u => .ok (src[s] :: u)) := by
  cases ms with
  | nil => unfold splice; rw [Res.bind_ok, List.drop_eq_getElem_cons hs]
  | cons m ms =>
    unfold splice
    rw [drop_take_step (h m (List.mem_cons_self ..)) hs]
    cases replText src r n m with
    | ok t => cases splice src r (n + 1) m.2.1 ms <;> simp [Res.bind_ok, Res.bind_err, Res.bind_ub, Res.pure_eq]
    | err m => rfl
    | ub => rfl

theorem gsubLoop_eq {src pat its} (hsz : src.length < 2 ^ 63) (hw : Wf pat its) (r : Repl) (max : Int) : ∀ (s : Nat) (last : Option Nat)
    (ms : List (Nat × Nat × List Cap)), Scan src its s last ms → ∀ (fuel n : Nat) (out : List UInt8) (ch : Bool), s ≤ src.length →
    (∀ l, last = some l → l ≤ s) → left src s last < fuel →
    match splice src r n s (ms.take (max - n).toNat) with
    | .ok u => ∃ g, gsubLoop src (mem pat) r max false fuel ⟨s, last, n, out, ch⟩ = .ok g ∧ g.out ++ src.drop g.s = out ++ u ∧
        g.n = n + (ms.take (max - n).toNat).length ∧ g.s ≤ src.length ∧ (g.changed = false → ch = false ∧ (out = src.take s → g.out = src.take g.s))
    | .err m => gsubLoop src (mem pat) r max false fuel ⟨s, last, n, out, ch⟩ = .err m
    | .ub => gsubLoop src (mem pat) r max false fuel ⟨s, last, n, out, ch⟩ = .ub := by
  intro s last ms h
  induction h with
  | @take s last e c ms h1 h2 h3 ih =>
    intro fuel n out ch hs hl hf
    cases fuel with
    | zero => omega
    | succ fuel =>
      unfold gsubLoop
      by_cases hn : (n : Int) < max
      · obtain ⟨k1, k2, k3⟩ := first_inv hw hs h1
        have ht : (max - n).toNat = (max - (n + 1 : Nat)).toNat + 1 := by omega
        rw [if_pos hn, match_first hsz hw hs, h1, Res.bind_ok, ht, List.take_succ_cons]
        unfold splice
        dsimp only
        rw [if_pos (fun q => h2 q.symm)]
        have hv := addValue_eq k2 k3 k1 r n
        cases hr : replText src r n (s, e, c) with
        | err m => rw [hr] at hv; dsimp only at hv; rw [hv]; rfl
        | ub => rw [hr] at hv; dsimp only at hv; rw [hv]; rfl
        | ok t =>
          rw [hr] at hv
          obtain ⟨ch', v1, v2⟩ := hv
          rw [v1, Res.bind_ok, Res.bind_ok]
          dsimp only
          rw [if_neg (by simp)]
          have hi := ih fuel (n + 1) (out ++ t) (ch' || ch) k2.1 (fun l q => by injection q with q; omega)
            (by have := left_take k1 h2 k2.1; omega)
          cases hsp : splice src r (n + 1) e (ms.take (max - (n + 1 : Nat)).toNat) with
          | err m => rw [hsp] at hi; exact hi
          | ub => rw [hsp] at hi; exact hi
          | ok u =>
            rw [hsp] at hi
            obtain ⟨g, g1, g2, g3, g4, g5⟩ := hi
            rw [Res.bind_ok]
            refine ⟨g, g1, ?_, ?_, g4, fun q => ?_⟩
            · rw [g2, Nat.sub_self, List.take_zero, List.nil_append, List.append_assoc]
            · rw [g3, List.length_cons]; omega
            · obtain ⟨q1, q2⟩ := g5 q
              rw [Bool.or_eq_false_iff] at q1
              refine ⟨q1.2, fun ho => q2 ?_⟩
              rw [v2 q1.1, ho]
              have := List.take_add (l := src) (i := s) (j := e - s)
              rw [show s + (e - s) = e by omega] at this
              rw [this]
      · rw [if_neg hn, show (max - (n : Int)).toNat = 0 by omega, List.take_zero]
        exact ⟨_, rfl, rfl, rfl, hs, fun q => ⟨q, fun o => o⟩⟩
  | @skip s last ms h1 h2 h3 ih =>
    intro fuel n out ch hs hl hf
    cases fuel with
    | zero => omega
    | succ fuel =>
      unfold gsubLoop
      by_cases hn : (n : Int) < max
      · have hi := ih fuel n (out ++ [src[s]]) ch (by omega) (fun l q => by have := hl l q; omega)
            (by have := left_skip (last := last) h2; omega)
        have hgt : ∀ m ∈ ms.take (max - n).toNat, s < m.1 := by
          intro m hm
          have := ((scan_ordered hw h3 (by omega) (fun l q => by have := hl l q; omega)).1 m (List.mem_of_mem_take hm)).1
          omega
        rw [if_pos hn, match_first hsz hw hs, Res.bind_ok, splice_skip src r n s _ h2 hgt]
        have body : ∀ (x : Res GS), x = gsubLoop src (mem pat) r max false fuel ⟨s + 1, last, n, out ++ [src[s]], ch⟩ →
            match (splice src r n (s + 1) (ms.take (max - n).toNat) >>= fun u => .ok (src[s] :: u) : Res (List UInt8)) with
            | .ok u => ∃ g, x = .ok g ∧ g.out ++ src.drop g.s = out ++ u ∧
                g.n = n + (ms.take (max - n).toNat).length ∧ g.s ≤ src.length ∧ (g.changed = false → ch = false ∧ (out = src.take s → g.out = src.take g.s))
            | .err m => x = .err m
            | .ub => x = .ub := by
          intro x hx
          rw [← hx] at hi
          cases hsp : splice src r n (s + 1) (ms.take (max - n).toNat) with
          | err m => rw [hsp] at hi; exact hi
          | ub => rw [hsp] at hi; exact hi
          | ok u =>
            rw [hsp] at hi
            obtain ⟨g, g1, g2, g3, g4, g5⟩ := hi
            refine ⟨g, g1, ?_, g3, g4, fun q => ?_⟩
            · rw [g2, List.append_assoc]; rfl
            · obtain ⟨q1, q2⟩ := g5 q
              refine ⟨q1, fun ho => q2 ?_⟩
              rw [ho, List.take_add_one, List.getElem?_eq_getElem h2]; rfl
        cases hq : first src its s with
        | none =>
          dsimp only
          rw [if_pos h2, rd_src h2, Res.bind_ok]
          exact body _ rfl
        | some q =>
          dsimp only
          rw [if_neg (by rw [h1 q.1 q.2 hq]; simp), if_pos h2, rd_src h2, Res.bind_ok]
          exact body _ rfl
      · rw [if_neg hn, show (max - (n : Int)).toNat = 0 by omega, List.take_zero]
        exact ⟨_, rfl, rfl, rfl, hs, fun q => ⟨q, fun o => o⟩⟩
  | @stop s last h1 h2 =>
    intro fuel n out ch hs hl hf
    cases fuel with
    | zero => omega
    | succ fuel =>
      unfold gsubLoop
      rw [List.take_nil]
      by_cases hn : (n : Int) < max
      · rw [if_pos hn, match_first hsz hw hs, Res.bind_ok]
        cases hq : first src its s with
        | none =>
          dsimp only
          rw [if_neg (by omega)]
          exact ⟨_, rfl, rfl, rfl, hs, fun q => ⟨q, fun o => o⟩⟩
        | some q =>
          dsimp only
          rw [if_neg (by rw [h1 q.1 q.2 hq]; simp), if_neg (by omega)]
          exact ⟨_, rfl, rfl, rfl, hs, fun q => ⟨q, fun o => o⟩⟩
      · rw [if_neg hn]
        exact ⟨_, rfl, rfl, rfl, hs, fun q => ⟨q, fun o => o⟩⟩

/-- The matches that `gsub` replaces: all of them, or with an anchor the one at the beginning; at most `max`. -/
def Replaced (src pat : List UInt8) (its : List Item) (max : Option Int) (ms : List (Nat × Nat × List Cap)) : Prop :=
  ∃ l, (if anchored pat then l = ((first src its 0).map (fun q => (0, q.1, q.2))).toList else Scan src its 0 none l) ∧
    ms = l.take ((max.getD (src.length + 1)).toNat)

/-- `str_gsub` from the end of its loop on. -/
def finish (src : List UInt8) (g : GS) : Res (List UInt8 × Nat) :=
  if g.changed then
    if g.s ≤ src.length then do
      let b ← rdN (mem src) g.s (src.length - g.s)
      pure (g.out ++ b, g.n)
    else .ub
  else pure (src, g.n)

theorem gsub_unfold (src pat : List UInt8) (r : Repl) (max : Option Int) :
    gsub src pat r max = (gsubLoop src (mem (body pat)) r (max.getD (src.length + 1)) (anchored pat) (2 * src.length + 4) ⟨0, none, 0, [], false⟩ >>= finish src) := by
  unfold gsub
  obtain ⟨c, hc, ha⟩ := at0_anchor pat
  rw [hc, Res.bind_ok]
  unfold body
  cases h : anchored pat with
  | true =>
    have h94 := ha.2 h
    simp only [h94, if_true, decide_true, mem_tail h]
    rfl
  | false =>
    have h94 : ¬ c = 94 := fun q => by rw [ha.1 q] at h; exact nomatch h
    simp only [h94, decide_false]
    rfl

theorem finish_eq {src : List UInt8} {g : GS} {u : List UInt8} (h1 : g.out ++ src.drop g.s = u) (h2 : g.s ≤ src.length)
    (h3 : g.changed = false → g.out = src.take g.s) : finish src g = .ok (u, g.n) := by
  unfold finish
  cases hc : g.changed with
  | true =>
    rw [if_pos rfl, if_pos h2, take_mem (by omega), ← h1]
    rw [List.take_of_length_le (by rw [List.length_drop]; omega)]
    rfl
  | false =>
    rw [if_neg (by simp), ← h1, h3 hc, List.take_append_drop]
    rfl

/-- **`gsub` replaces the successive matches and keeps the rest of the subject** (C68). -/
theorem gsub_exact (src pat : List UInt8) (its : List Item) (r : Repl) (max : Option Int) (ms : List (Nat × Nat × List Cap)) (hsz : src.length < 2 ^ 63)
    (hw : Wf (body pat) its) (hm : Replaced src pat its max ms) :
    gsub src pat r max = (splice src r 0 0 ms >>= fun u => .ok (u, ms.length)) := by
  obtain ⟨l, hl, e⟩ := hm
  subst e
  rw [gsub_unfold]
  cases ha : anchored pat with
  | false =>
    rw [ha, if_neg (by simp)] at hl
    have h := gsubLoop_eq hsz hw r (max.getD (src.length + 1)) 0 none l hl (2 * src.length + 4) 0 [] false (by omega) (fun _ q => nomatch q)
      (by unfold left; split <;> omega)
    rw [show (max.getD (src.length + 1)) - ((0 : Nat) : Int) = max.getD (src.length + 1) by omega] at h
    cases hs : splice src r 0 0 (l.take (max.getD (src.length + 1)).toNat) with
    | err m => rw [hs] at h; dsimp only at h; rw [h]; rfl
    | ub => rw [hs] at h; dsimp only at h; rw [h]; rfl
    | ok u =>
      rw [hs] at h
      obtain ⟨g, g1, g2, g3, g4, g5⟩ := h
      rw [g1, Res.bind_ok, Res.bind_ok, finish_eq g2 g4 (fun q => (g5 q).2 rfl), g3, Nat.zero_add]
      rfl
  | true =>
    rw [ha, if_pos rfl] at hl
    subst hl
    unfold gsubLoop
    dsimp only
    by_cases hn : ((0 : Nat) : Int) < max.getD (src.length + 1)
    · rw [if_pos hn, match_first hsz hw (by omega), Res.bind_ok]
      have ht : (max.getD (src.length + 1)).toNat = (max.getD (src.length + 1) - 1).toNat + 1 := by omega
      rw [ht]
      cases hq : first src its 0 with
      | none =>
        dsimp only [Option.map_none, Option.toList, List.take_nil, splice]
        by_cases h0 : 0 < src.length
        · rw [if_pos h0, rd_src h0, Res.bind_ok, if_pos rfl, Res.pure_eq, Res.bind_ok]
          rw [finish_eq (u := src) _ (by show 0 + 1 ≤ _; omega) (fun _ => ?_)]
          · rfl
          · show [] ++ [src[0]] ++ src.drop (0 + 1) = src
            rw [List.nil_append, List.singleton_append, ← List.drop_eq_getElem_cons h0]; rfl
          · show [] ++ [src[0]] = src.take (0 + 1)
            rw [List.take_add_one, List.getElem?_eq_getElem h0]; rfl
        · rw [if_neg h0, Res.pure_eq, Res.bind_ok, finish_eq (u := src) rfl (by show 0 ≤ _; omega) (fun _ => rfl)]
          rfl
      | some q =>
        obtain ⟨e, c⟩ := q
        dsimp only [Option.map_some, Option.toList]
        rw [if_pos (by simp), List.take_succ_cons, List.take_nil]
        obtain ⟨k1, k2, k3⟩ := first_inv hw (Nat.zero_le _) hq
        unfold splice
        have hv := addValue_eq k2 k3 k1 r 0
        cases hr : replText src r 0 (0, e, c) with
        | err m => rw [hr] at hv; dsimp only at hv; rw [hv]; rfl
        | ub => rw [hr] at hv; dsimp only at hv; rw [hv]; rfl
        | ok t =>
          rw [hr] at hv
          obtain ⟨ch', v1, v2⟩ := hv
          rw [v1, Res.bind_ok, Res.bind_ok]
          dsimp only [splice]
          rw [if_pos rfl, Res.pure_eq, Res.bind_ok, finish_eq (u := t ++ src.drop e) rfl k2.1 (fun q => ?_)]
          · rfl
          · dsimp only at q ⊢
            rw [Bool.or_false] at q
            rw [v2 q]; rfl
    · rw [if_neg hn, show (max.getD (src.length + 1)).toNat = 0 by omega, List.take_zero, Res.pure_eq, Res.bind_ok,
        finish_eq (u := src) rfl (by show 0 ≤ _; omega) (fun _ => rfl)]
      rfl

end Verif.Pat
