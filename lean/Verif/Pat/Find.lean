import Verif.Pat.Safe
import Verif.StrLib.Props

/-!
# `string.find` and `string.match`
-/
namespace Verif.Pat
open Verif.StrLib (mem rd rdN memeq posrelatI lmemfind findPlain Occurs occurs_iff tr IsStr)

/-- A pattern without anchor is well-formed: it parses, uses captures properly, leaves none open and has at
most 199 captures and repetitions. -/
structure Wf (pat : List UInt8) (its : List Item) : Prop where
  parses : items pat = some its
  captures : check its [] = true
  closed : ∀ b ∈ finalSt its [], b = false
  shallow : cost its ≤ 199

/-- The preferred match at a position. -/
def first (src : List UInt8) (its : List Item) (s : Nat) : Option (Nat × List Cap) := (all src its s []).head?

theorem inv_nil {src : List UInt8} {s : Nat} (h : s ≤ src.length) : Inv src s [] := ⟨h, fun _ h => nomatch h⟩

/-- **At each position the matcher finds the preferred match** (C25). -/
theorem match_exact (src pat : List UInt8) (its : List Item) (s : Nat) (d : Int) (hsz : src.length < 2 ^ 63) (h : items pat = some its)
    (hc : check its [] = true) (hd : (cost its : Int) < d ∨ d < 0) (hs : s ≤ src.length) :
    matchAt src d (mem pat) s = .ok (result (all src its s []) []) := by
  unfold matchAt mem
  rw [if_neg (by omega)]
  rcases doMatch_good src hsz _ pat its h (pat ++ [0]).length (d - 1) s [] hc (inv_nil hs) (by rw [len_snoc]; omega) with q | q
  · exact q
  · exact absurd (show Deep (d - 1) its by unfold Deep; omega) q.2

theorem match_first {src pat : List UInt8} {its : List Item} {s : Nat} (hsz : src.length < 2 ^ 63) (hw : Wf pat its) (hs : s ≤ src.length) :
    matchAt src MAXCCALLS (mem pat) s = .ok (match first src its s with | none => (none, []) | some (e, c) => (some e, c)) := by
  rw [match_exact src pat its s MAXCCALLS hsz hw.parses hw.captures (.inl (by have := hw.shallow; unfold MAXCCALLS; omega)) hs]
  unfold first result
  cases all src its s [] with
  | nil => rfl
  | cons q t => rfl

theorem first_none {src its s} : first src its s = none ↔ ∀ e c, ¬ Sem src its s [] e c := by
  unfold first
  rw [List.head?_eq_none_iff]
  constructor
  · intro h e c q
    have := (mem_all src its s [] e c).2 q
    rw [h] at this
    exact nomatch this
  · intro h
    cases hl : all src its s [] with
    | nil => rfl
    | cons q t => exact absurd ((mem_all src its s [] q.1 q.2).1 (by rw [hl]; exact List.mem_cons_self ..)) (h _ _)

theorem first_sem {src its s e c} (h : first src its s = some (e, c)) : Sem src its s [] e c :=
  (mem_all src its s [] e c).1 (List.mem_of_mem_head? (Option.mem_def.2 h))

/-! ## Values of captures -/

/-- The value of a closed capture. -/
def capVal (src : List UInt8) (c : Cap) : CapVal := if c.2 = POSN then .pos ((c.1 : Int) + 1) else .str ((src.drop c.1).take c.2.toNat)

/-- The captures, or the whole match if there are none. -/
def values (src : List UInt8) (caps : List Cap) (s e : Nat) : List CapVal :=
  if caps = [] then [.str ((src.drop s).take (e - s))] else caps.map (capVal src)

theorem getOne_eq {src : List UInt8} {caps : List Cap} {e : Nat} (hi : Inv src e caps) (hc : ∀ c ∈ caps, c.2 ≠ UNFIN) (i s e' : Nat) (c : Cap)
    (h : caps[i]? = some c) : getOne src caps i s e' = .ok (capVal src c) := by
  unfold getOne capVal
  have hm := List.mem_of_getElem? h
  rw [h]
  dsimp only
  rw [if_neg (hc c hm)]
  obtain ⟨h1, h2⟩ := hi.2 c hm
  by_cases hp : c.2 = POSN
  · rw [if_pos hp, if_pos hp]
  · rw [if_neg hp, if_neg hp]
    rcases h2 with h2 | h2 | h2
    · exact absurd h2 (hc c hm)
    · exact absurd h2 hp
    · have := hi.1
      rw [if_neg (by omega), take_mem (by omega)]
      rfl

theorem pushLoop_eq {src : List UInt8} {caps : List Cap} {e : Nat} (hi : Inv src e caps) (hc : ∀ c ∈ caps, c.2 ≠ UNFIN) (s e' : Nat) :
    ∀ (n i : Nat), i + n = caps.length → pushLoop src caps s e' i n = .ok ((caps.drop i).map (capVal src)) := by
  intro n
  induction n with
  | zero => intro i h; rw [List.drop_of_length_le (by omega)]; rfl
  | succ n ih =>
    intro i h
    unfold pushLoop
    have hl : i < caps.length := by omega
    rw [getOne_eq hi hc i s e' caps[i] (List.getElem?_eq_getElem hl), Res.bind_ok, ih (i + 1) (by omega), Res.bind_ok, List.drop_eq_getElem_cons hl]
    rfl

theorem pushCaptures_eq {src : List UInt8} {caps : List Cap} {s e : Nat} (hi : Inv src e caps) (hc : ∀ c ∈ caps, c.2 ≠ UNFIN) (hs : s ≤ e) :
    pushCaptures src caps true s e = .ok (values src caps s e) := by
  unfold pushCaptures values
  by_cases h : caps = []
  · subst h
    rw [if_pos ⟨rfl, rfl⟩, if_pos rfl]
    have := hi.1
    unfold pushLoop
    unfold getOne
    rw [List.getElem?_nil]
    dsimp only
    rw [if_neg (by simp), if_pos hs, take_mem (by omega)]
    rfl
  · rw [if_neg (fun q => h (List.length_eq_zero_iff.1 q.1)), if_neg h, pushLoop_eq hi hc s e _ 0 (by omega)]
    rfl

theorem pushCaptures_find {src : List UInt8} {caps : List Cap} {e : Nat} (hi : Inv src e caps) (hc : ∀ c ∈ caps, c.2 ≠ UNFIN) :
    pushCaptures src caps false 0 0 = .ok (caps.map (capVal src)) := by
  unfold pushCaptures
  rw [if_neg (fun q => nomatch q.2), pushLoop_eq hi hc 0 0 _ 0 (by omega)]
  rfl

/-- What a match found at `s` is like. -/
theorem first_inv {src pat its s e c} (hw : Wf pat its) (hs : s ≤ src.length) (h : first src its s = some (e, c)) :
    s ≤ e ∧ Inv src e c ∧ ∀ x ∈ c, x.2 ≠ UNFIN := by
  obtain ⟨h1, h2, h3⟩ := sem_inv src its s [] e c (first_sem h) (inv_nil hs) hw.captures
  refine ⟨h1, h2, fun x hx q => ?_⟩
  have hm : isOpen x ∈ c.map isOpen := List.mem_map_of_mem hx
  rw [h3] at hm
  have := hw.closed _ hm
  rw [show isOpen x = true by unfold isOpen; rw [q]; rfl] at this
  exact nomatch this

/-- The answer of `string.find` or `string.match` for a match. -/
def answer (src : List UInt8) (find : Bool) (s e : Nat) (caps : List Cap) : Found :=
  if find then .found ((s : Int) + 1) e (caps.map (capVal src)) else .matched (values src caps s e)

theorem deliver_eq {src pat its s e c} (find : Bool) (hw : Wf pat its) (hs : s ≤ src.length) (h : first src its s = some (e, c)) :
    deliver src find s e c = .ok (answer src find s e c) := by
  obtain ⟨h1, h2, h3⟩ := first_inv hw hs h
  unfold deliver answer
  cases find with
  | true => rw [if_pos rfl, if_pos rfl, pushCaptures_find h2 h3]; rfl
  | false => rw [if_neg (by simp), if_neg (by simp), pushCaptures_eq h2 h3 h1]; rfl

theorem findLoop_eq {src pat its} (find anchor : Bool) (hsz : src.length < 2 ^ 63) (hw : Wf pat its) : ∀ (fuel s1 : Nat), s1 ≤ src.length →
    src.length + 1 ≤ fuel + s1 →
    (∃ s e c, findLoop src (mem pat) find anchor fuel s1 = .ok (answer src find s e c) ∧ s1 ≤ s ∧ s ≤ src.length ∧ (anchor = true → s = s1) ∧
      first src its s = some (e, c) ∧ ∀ t, s1 ≤ t → t < s → first src its t = none) ∨
    (findLoop src (mem pat) find anchor fuel s1 = .ok .fail ∧ ∀ t, s1 ≤ t → t ≤ src.length → (anchor = true → t = s1) → first src its t = none) := by
  intro fuel
  induction fuel with
  | zero => intro s1 h1 h2; omega
  | succ n ih =>
    intro s1 h1 h2
    unfold findLoop
    rw [match_first hsz hw h1]
    cases hf : first src its s1 with
    | some q =>
      obtain ⟨e, c⟩ := q
      left
      refine ⟨s1, e, c, ?_, Nat.le_refl _, h1, fun _ => rfl, hf, fun t h3 h4 => by omega⟩
      exact deliver_eq find hw h1 hf
    | none =>
      rw [Res.bind_ok]
      dsimp only
      by_cases hl : s1 < src.length ∧ anchor = false
      · rw [if_pos hl]
        rcases ih (s1 + 1) (by omega) (by omega) with ⟨s, e, c, a1, a2, a3, a4, a5, a6⟩ | ⟨a1, a2⟩
        · left
          refine ⟨s, e, c, a1, by omega, a3, (fun q => by rw [hl.2] at q; exact nomatch q), a5, fun t h3 h4 => ?_⟩
          by_cases ht : t = s1
          · rw [ht]; exact hf
          · exact a6 t (by omega) h4
        · right
          refine ⟨a1, fun t h3 h4 _ => ?_⟩
          by_cases ht : t = s1
          · rw [ht]; exact hf
          · exact a2 t (by omega) h4 (fun q => by rw [hl.2] at q; exact nomatch q)
      · rw [if_neg hl]
        right
        refine ⟨rfl, fun t h3 h4 h5 => ?_⟩
        have : t = s1 := by
          cases anchor with
          | true => exact h5 rfl
          | false => simp at hl; omega
        rw [this]; exact hf

/-- Whether a pattern starts with `^`, and what follows it. -/
def anchored (pat : List UInt8) : Bool := pat.head? == some 94
def body (pat : List UInt8) : List UInt8 := if anchored pat then pat.tail else pat

theorem mem_tail {pat : List UInt8} (h : anchored pat = true) : (mem pat).drop 1 = mem pat.tail := by
  unfold anchored at h
  cases pat with
  | nil => exact nomatch h
  | cons c r => rfl

theorem at0_anchor (pat : List UInt8) : ∃ c, at0 (mem pat) = .ok c ∧ (c = 94 ↔ anchored pat = true) := by
  cases pat with
  | nil => exact ⟨0, rfl, by decide⟩
  | cons c r => exact ⟨c, rfl, by simp [anchored]⟩

/-- **A search returns the leftmost match** (C67): the first position from `init` on where the pattern has a match, with the preferred
match there; `nil` only if the pattern matches nowhere. -/
theorem patFind_exact (src pat : List UInt8) (its : List Item) (find : Bool) (init : Nat) (hsz : src.length < 2 ^ 63)
    (hw : Wf (body pat) its) (hi : init ≤ src.length) :
    (∃ s e c, patFind src pat find init = .ok (answer src find s e c) ∧ init ≤ s ∧ s ≤ src.length ∧ (anchored pat = true → s = init) ∧
      first src its s = some (e, c) ∧ ∀ t, init ≤ t → t < s → ∀ e c, ¬ Sem src its t [] e c) ∨
    (patFind src pat find init = .ok .fail ∧
      ∀ t, init ≤ t → t ≤ src.length → (anchored pat = true → t = init) → ∀ e c, ¬ Sem src its t [] e c) := by
  have key : patFind src pat find init = findLoop src (mem (body pat)) find (anchored pat) (src.length + 2) init := by
    unfold patFind body
    obtain ⟨c, hc, ha⟩ := at0_anchor pat
    rw [hc, Res.bind_ok]
    cases h : anchored pat with
    | true => rw [if_pos (ha.2 h), if_pos rfl, mem_tail h]
    | false => rw [if_neg (fun q => by rw [ha.1 q] at h; exact nomatch h), if_neg (by simp)]
  rw [key]
  rcases findLoop_eq find (anchored pat) hsz hw (src.length + 2) init hi (by omega) with ⟨s, e, c, a1, a2, a3, a4, a5, a6⟩ | ⟨a1, a2⟩
  · exact .inl ⟨s, e, c, a1, a2, a3, a4, a5, fun t h1 h2 => first_none.1 (a6 t h1 h2)⟩
  · exact .inr ⟨a1, fun t h1 h2 h3 => first_none.1 (a2 t h1 h2 h3)⟩

/-! ## Definedness -/

theorem getOne_safe {src : List UInt8} {caps : List Cap} {e : Nat} (hi : Inv src e caps) (i s e' : Nat) (h : s ≤ e') (he : e' ≤ src.length) :
    Sat (getOne src caps i s e') (fun _ => True) := by
  unfold getOne
  cases hc : caps[i]? with
  | none =>
    dsimp only
    split
    · trivial
    · rw [take_mem (by omega)]; trivial
  | some c =>
    dsimp only
    obtain ⟨h1, h2⟩ := hi.2 c (List.mem_of_getElem? hc)
    have := hi.1
    split
    · trivial
    · rename_i h3
      split
      · trivial
      · rename_i h4
        have : 0 ≤ c.2 ∧ (c.1 : Int) + c.2 ≤ e := by
          rcases h2 with h2 | h2 | h2
          · exact absurd h2 h3
          · exact absurd h2 h4
          · exact h2
        rw [if_neg (by omega), take_mem (by omega)]
        trivial

theorem pushLoop_safe {src : List UInt8} {caps : List Cap} {e : Nat} (hi : Inv src e caps) (s e' : Nat) (h : s ≤ e') (he : e' ≤ src.length) :
    ∀ (n i : Nat), Sat (pushLoop src caps s e' i n) (fun _ => True) := by
  intro n
  induction n with
  | zero => intro i; trivial
  | succ n ih =>
    intro i
    unfold pushLoop
    exact (getOne_safe hi i s e' h he).bind fun _ _ => (ih (i + 1)).bind fun _ _ => trivial

theorem matchAt_safe (src pat : List UInt8) (d : Int) (s : Nat) (hsz : src.length < 2 ^ 63) (hs : s ≤ src.length) :
    Sat (matchAt src d (mem pat) s) (Post src s []) := by
  unfold matchAt mem
  split
  · trivial
  · exact doMatch_safe src hsz _ _ _ _ _ (inv_nil hs) (by rw [len_snoc]; omega)

theorem findLoop_safe (src pat : List UInt8) (find anchor : Bool) (hsz : src.length < 2 ^ 63) : ∀ (fuel s1 : Nat), s1 ≤ src.length →
    src.length + 1 ≤ fuel + s1 → Sat (findLoop src (mem pat) find anchor fuel s1) (fun _ => True) := by
  intro fuel
  induction fuel with
  | zero => intro s1 h1 h2; omega
  | succ n ih =>
    intro s1 h1 h2
    unfold findLoop
    refine (matchAt_safe src pat _ s1 hsz h1).bind fun q hq => ?_
    obtain ⟨r, c⟩ := q
    cases r with
    | none =>
      dsimp only
      split
      · exact ih _ (by omega) (by omega)
      · trivial
    | some e =>
      obtain ⟨h3, h4⟩ := hq
      dsimp only [deliver]
      split
      · exact (pushLoop_safe h4 0 0 (Nat.le_refl _) (by omega) _ 0).bind fun _ _ => trivial
      · exact (pushLoop_safe h4 s1 e h3 h4.1 _ 0).bind fun _ _ => trivial

theorem patFind_safe (src pat : List UInt8) (find : Bool) (init : Nat) (hsz : src.length < 2 ^ 63) (hi : init ≤ src.length) :
    Sat (patFind src pat find init) (fun _ => True) := by
  unfold patFind
  obtain ⟨c, hc, ha⟩ := at0_anchor pat
  rw [hc, Res.bind_ok]
  split
  · rename_i h
    rw [mem_tail (ha.1 h)]
    exact findLoop_safe src _ find true hsz _ _ hi (by omega)
  · exact findLoop_safe src _ find false hsz _ _ hi (by omega)

/-! ## Patterns without special characters -/

def special (c : UInt8) : Bool := c ∈ ("^$*+?.([%-".toUTF8.toList)

theorem special_eq (c : UInt8) : [94, 36, 42, 43, 63, 46, 40, 91, 37, 45].contains c = special c := by
  have : "^$*+?.([%-".toUTF8.toList = [94, 36, 42, 43, 63, 46, 40, 91, 37, 45] := by decide +kernel
  unfold special
  rw [this, List.contains_eq_mem]

theorem strpbrk_eq (l : List UInt8) : strpbrk (l ++ [0]) = .ok ((l.takeWhile (· != 0)).any special) := by
  induction l with
  | nil => rfl
  | cons c r ih =>
    unfold strpbrk
    rw [List.cons_append]
    dsimp only
    by_cases h : c = 0
    · subst h; rfl
    · rw [if_neg h, special_eq, List.takeWhile_cons, if_pos (c := (c != 0) = true) (by simpa using h), List.any_cons, ih]
      cases special c <;> rfl

theorem strlen_eq (l : List UInt8) : strlen (l ++ [0]) = .ok (l.takeWhile (· != 0)).length := by
  induction l with
  | nil => rfl
  | cons c r ih =>
    unfold strlen
    rw [List.cons_append]
    dsimp only
    by_cases h : c = 0
    · subst h; rfl
    · rw [if_neg h, ih, List.takeWhile_cons, if_pos (by simpa using h)]; rfl

theorem split_zero (l : List UInt8) : (l.takeWhile (· != 0)).length < l.length →
    l = l.takeWhile (· != 0) ++ 0 :: l.drop ((l.takeWhile (· != 0)).length + 1) := by
  induction l with
  | nil => intro h; exact absurd h (by simp)
  | cons c r ih =>
    intro h
    by_cases hc : c = 0
    · subst hc; rfl
    · rw [List.takeWhile_cons, if_pos (by simpa using hc)] at h ⊢
      rw [List.cons_append, List.length_cons, List.drop_succ_cons, ← ih (by simpa using h)]

/-- **`nospecials` looks at the whole pattern, zeros included** (C67). -/
theorem nospecials_eq (pat : List UInt8) : ∀ (fuel upto : Nat), upto ≤ pat.length → pat.length + 1 ≤ fuel + upto →
    nospecials (mem pat) pat.length fuel upto = .ok (!(pat.drop upto).any special) := by
  intro fuel
  induction fuel with
  | zero => intro upto h1 h2; omega
  | succ n ih =>
    intro upto h1 h2
    unfold nospecials
    have e : (mem pat).drop upto = pat.drop upto ++ [0] := by
      unfold mem
      rw [List.drop_append_of_le_length h1]
    rw [e, strpbrk_eq, Res.bind_ok, strlen_eq, Res.bind_ok]
    generalize hl : pat.drop upto = l
    have hlen : l.length = pat.length - upto := by rw [← hl, List.length_drop]
    by_cases hz : (l.takeWhile (· != 0)).length < l.length
    · have hs := split_zero l hz
      have ha : l.any special = ((l.takeWhile (· != 0)).any special || (l.drop ((l.takeWhile (· != 0)).length + 1)).any special) := by
        conv => lhs; rw [hs]
        rw [List.any_append, List.any_cons, show special 0 = false by rw [← special_eq]; rfl, Bool.false_or]
      rw [ha]
      cases h3 : (l.takeWhile (· != 0)).any special with
      | true => rfl
      | false =>
        rw [if_neg (by simp), if_pos (by omega), ih _ (by omega) (by omega), ← hl, List.drop_drop, hl, Bool.false_or, Nat.add_assoc]
    · have hle := (List.takeWhile_sublist (l := l) (· != 0)).length_le
      have he : l.takeWhile (· != 0) = l := (List.takeWhile_sublist _).eq_of_length (by omega)
      rw [he]
      cases h3 : l.any special with
      | true => rfl
      | false => rw [if_neg (by simp), if_neg (by omega)]; rfl

theorem literal_items (l : List UInt8) (h : l.any special = false) (h2 : (41 : UInt8) ∉ l) :
    ∀ f, l.length < f → parse f l = some (l.map (fun c => Item.single (.chr c) .one)) := by
  induction l with
  | nil => intro f hf; cases f with
    | zero => omega
    | succ f => rfl
  | cons c r ih =>
    intro f hf
    cases f with
    | zero => omega
    | succ f =>
      rw [List.any_cons, Bool.or_eq_false_iff] at h
      obtain ⟨h, hr⟩ := h
      rw [← special_eq] at h
      have h : c ∉ [94, 36, 42, 43, 63, 46, 40, 91, 37, 45] := by simpa using h
      simp only [List.mem_cons, not_or] at h
      obtain ⟨_, q36, q42, q43, q63, q46, q40, q91, q37, q45, _⟩ := h
      have q41 : c ≠ 41 := fun q => h2 (by rw [q]; exact List.mem_cons_self ..)
      unfold parse
      rw [if_neg q40, if_neg q41, if_neg (fun q => q36 q.1), if_neg (fun q => q37 q.1), if_neg (fun q => q37 q.1), if_neg (fun q => q37 q.1)]
      have e : parseSingle (c :: r) = some (.chr c, r) := by
        unfold parseSingle
        dsimp only
        rw [if_neg q46, if_neg q37, if_neg q91]
      rw [e]
      dsimp only
      have es : suffix r = (.one, r) := by
        cases r with
        | nil => rfl
        | cons d t =>
          rw [List.any_cons, Bool.or_eq_false_iff] at hr
          have h := hr.1
          rw [← special_eq] at h
          have h : d ∉ [94, 36, 42, 43, 63, 46, 40, 91, 37, 45] := by simpa using h
          simp only [List.mem_cons, not_or] at h
          obtain ⟨_, _, p42, p43, p63, _, _, _, _, p45, _⟩ := h
          unfold suffix
          dsimp only
          rw [if_neg p63, if_neg p42, if_neg p43, if_neg p45]
      rw [es]
      dsimp only
      rw [ih hr (fun q => h2 (List.mem_cons_of_mem _ q)) f (by simpa using hf)]
      rfl

theorem literal_sem (src : List UInt8) : ∀ (l : List UInt8) (s : Nat) (caps : List Cap), s ≤ src.length →
    all src (l.map (fun c => Item.single (.chr c) .one)) s caps = if l <+: src.drop s then [(s + l.length, caps)] else [] := by
  intro l
  induction l with
  | nil => intro s caps _; rw [if_pos List.nil_prefix]; rfl
  | cons c r ih =>
    intro s caps hs
    rw [List.map_cons]
    unfold all
    by_cases hl : s < src.length
    · have hh : hit src (.chr c) s = (c == src[s]) := by
        unfold hit
        rw [List.getElem?_eq_getElem hl]
        rfl
      rw [hh, List.drop_eq_getElem_cons hl, ih _ _ (by omega)]
      simp only [List.cons_prefix_cons]
      by_cases hc : c = src[s]
      · rw [if_pos (c := (c == src[s]) = true) (by simpa using hc)]
        by_cases hp : r <+: src.drop (s + 1)
        · rw [if_pos hp, if_pos ⟨hc, hp⟩, List.length_cons, Nat.add_assoc, Nat.add_comm 1]
        · rw [if_neg hp, if_neg (fun q => hp q.2)]
      · rw [if_neg (c := (c == src[s]) = true) (by simpa using hc), if_neg (fun q => hc q.1)]
    · rw [show hit src (.chr c) s = false by unfold hit; rw [List.getElem?_eq_none (by omega)], List.drop_of_length_le (by omega), if_neg (by simp), if_neg (by simp)]

theorem prefix_occurs (src l : List UInt8) (s : Nat) (hs : s ≤ src.length) : l <+: src.drop s ↔ Occurs src l s := by
  rw [occurs_iff, List.prefix_iff_eq_take]
  constructor
  · intro h
    have := congrArg List.length h
    rw [List.length_take, List.length_drop] at this
    exact ⟨by omega, h.symm⟩
  · intro h; exact h.2.symm

/-- `plainFind` is the search of `findPlain` (C21) with another form of result. -/
theorem plainFind_of (src pat : List UInt8) (init : Nat) (r) (hsz : src.length + 1 < 2 ^ 63) (hi : init ≤ src.length)
    (hr : findPlain src pat ((init : Int) + 1) = .ok r) : plainFind src pat init = .ok (match r with | none => .fail | some (a, b) => .found a b []) := by
  unfold findPlain at hr
  have e : posrelatI ((init : Int) + 1) src.length - 1 = init := by
    unfold posrelatI toU
    rw [if_pos (by omega)]
    omega
  dsimp only at hr
  rw [e, if_neg (by omega)] at hr
  unfold plainFind
  cases hm : lmemfind (mem src) init (src.length - init) (mem pat) pat.length with
  | err m => rw [hm] at hr; exact nomatch hr
  | ub => rw [hm] at hr; exact nomatch hr
  | ok x =>
    rw [hm, Res.bind_ok] at hr
    rw [Res.bind_ok]
    cases x with
    | none => injection hr with hr; subst hr; rfl
    | some k => injection hr with hr; subst hr; rfl

/-- **The shortcut for patterns without special characters changes nothing** (C67): unless the text has a `)`, searching it as a pattern
and searching it literally give the same answer. -/
theorem plain_eq_pattern (src pat : List UInt8) (init : Nat) (hsz : src.length + 1 < 2 ^ 63) (hi : init ≤ src.length)
    (h : pat.any special = false) (h2 : (41 : UInt8) ∉ pat) : plainFind src pat init = patFind src pat true init := by
  have hw : Wf (body pat) (pat.map (fun c => Item.single (.chr c) .one)) := by
    have hb : body pat = pat := by
      unfold body
      rw [if_neg]
      intro q
      unfold anchored at q
      cases pat with
      | nil => exact nomatch q
      | cons c r =>
        have : c = 94 := by simpa using q
        subst this
        rw [List.any_cons, Bool.or_eq_false_iff, ← special_eq] at h
        exact absurd h.1 (by decide)
    rw [hb]
    have hc : ∀ l : List UInt8, ∀ st, check (l.map (fun c => Item.single (.chr c) .one)) st = true := by
      intro l
      induction l with
      | nil => intro st; rfl
      | cons c r ih => intro st; rw [List.map_cons]; unfold check; exact ih st
    have hf : ∀ l : List UInt8, ∀ st, finalSt (l.map (fun c => Item.single (.chr c) .one)) st = st := by
      intro l
      induction l with
      | nil => intro st; rfl
      | cons c r ih => intro st; rw [List.map_cons]; unfold finalSt; exact ih st
    have hk : ∀ l : List UInt8, cost (l.map (fun c => Item.single (.chr c) .one)) = 0 := by
      intro l
      induction l with
      | nil => rfl
      | cons c r ih => unfold cost at *; rw [List.map_cons, List.map_cons, List.sum_cons, ih]; rfl
    exact ⟨literal_items pat h h2 _ (Nat.lt_succ_self _), hc pat [], (by rw [hf]; intro b hb; exact nomatch hb), (by rw [hk]; omega)⟩
  have fst : ∀ s, s ≤ src.length → first src (pat.map (fun c => Item.single (.chr c) .one)) s = if pat <+: src.drop s then some (s + pat.length, []) else none := by
    intro s hs
    unfold first
    rw [literal_sem src pat s [] hs]
    split <;> rfl
  have hp := fun r => plainFind_of src pat init r hsz hi
  have htr : tr src.length ((init : Int) + 1) = (init : Int) + 1 := by
    unfold tr
    rw [if_neg (by omega)]
  rcases patFind_exact src pat _ true init (by omega) hw hi with ⟨s, e, c, a1, a2, a3, a4, a5, a6⟩ | ⟨a1, a2⟩
  · rw [a1]
    rw [fst s a3] at a5
    split at a5
    · rename_i hocc
      injection a5 with a5
      injection a5 with a5 a7
      subst a5 a7
      rcases Verif.StrLib.findPlain_correct src pat ((init : Int) + 1) (by unfold InI; omega) (by unfold IsStr; omega) with ⟨k, b1, b2, b3, b4⟩ | ⟨b1, b2⟩
      · rw [hp _ b1]
        rw [htr] at b3 b4
        have hk : k = s := by
          have h1 := b4 s (by omega) ((prefix_occurs src pat s a3).1 hocc)
          by_cases hlt : k < s
          · exfalso
            have hks : k ≤ src.length := by omega
            have := fst k hks
            rw [if_pos ((prefix_occurs src pat k hks).2 b2)] at this
            exact a6 k (by omega) hlt _ _ (first_sem this)
          · omega
        subst hk
        rfl
      · rw [htr] at b2
        exact absurd ((prefix_occurs src pat s a3).1 hocc) (b2 s (by omega))
    · exact nomatch a5
  · rw [a1]
    rcases Verif.StrLib.findPlain_correct src pat ((init : Int) + 1) (by unfold InI; omega) (by unfold IsStr; omega) with ⟨k, b1, b2, b3, b4⟩ | ⟨b1, b2⟩
    · rw [htr] at b3
      have hks : k ≤ src.length := by have := ((occurs_iff _ _ _).1 b2).1; omega
      have := fst k hks
      rw [if_pos ((prefix_occurs src pat k hks).2 b2)] at this
      refine absurd (first_sem this) (a2 k (by omega) hks (fun q => ?_) _ _)
      unfold anchored at q
      cases pat with
      | nil => exact nomatch q
      | cons c r =>
        have : c = 94 := by simpa using q
        subst this
        rw [List.any_cons, Bool.or_eq_false_iff, ← special_eq] at h
        exact absurd h.1 (by decide)
    · rw [hp _ b1]

end Verif.Pat
