import Verif.Pat.Subst

/-!
# Pattern matching: properties

C25 (the matcher), C67 (`find`, `match`), C68 (`gmatch`, `gsub`).
-/
namespace Verif.Pat
open Verif.StrLib (mem rd rdN posrelatI lmemfind tr posrelatI_eq)

/-- "text" as bytes -/
def bytes (s : String) : List UInt8 := s.toUTF8.toList

/-- The hypothesis `Wf` can be decided: for use in the examples. -/
def wfB (pat : List UInt8) : Bool :=
  match items pat with
  | some its => check its [] && (finalSt its []).all (fun b => !b) && decide (cost its ≤ 199)
  | none => false

theorem wf_of {pat : List UInt8} (h : wfB pat = true) : Wf pat ((items pat).getD []) := by
  unfold wfB at h
  split at h
  · rename_i its hi
    simp only [Bool.and_eq_true, List.all_eq_true, Bool.not_eq_true', decide_eq_true_eq] at h
    rw [hi]
    exact ⟨hi, h.1.1, h.1.2, h.2⟩
  · exact nomatch h

/-! ## C25 -/

/-- **The matcher agrees with the meaning of patterns** (C25).  For a well-formed pattern it returns `NULL` exactly if the items match in
no way at the position; a returned match is one of the matches, and the first in order of preference. -/
theorem matcher_exact (src pat : List UInt8) (its : List Item) (s : Nat) (hsz : src.length < 2 ^ 63) (hw : Wf pat its) (hs : s ≤ src.length) :
    (matchAt src MAXCCALLS (mem pat) s = .ok (none, []) ∧ ∀ e c, ¬ Sem src its s [] e c) ∨
    (∃ e c, matchAt src MAXCCALLS (mem pat) s = .ok (some e, c) ∧ Sem src its s [] e c ∧ (all src its s []).head? = some (e, c) ∧
      s ≤ e ∧ e ≤ src.length ∧ ∀ x ∈ c, x.1 ≤ e ∧ (x.2 = POSN ∨ (0 ≤ x.2 ∧ (x.1 : Int) + x.2 ≤ e))) := by
  rw [match_first hsz hw hs]
  cases h : first src its s with
  | none => exact .inl ⟨rfl, first_none.1 h⟩
  | some q =>
    obtain ⟨e, c⟩ := q
    obtain ⟨h1, h2, h3⟩ := first_inv hw hs h
    refine .inr ⟨e, c, rfl, first_sem h, h, h1, h2.1, fun x hx => ⟨(h2.2 x hx).1, ?_⟩⟩
    rcases (h2.2 x hx).2 with q | q | q
    · exact absurd q (h3 x hx)
    · exact .inl q
    · exact .inr q

/-- `(%a+)-()%d*` on `x-12`: both the hypotheses and a match with captures. -/
example : ∃ its, Wf (bytes "(%a+)%-()%d*") its ∧ first (bytes "x-12") its 0 = some (4, [(0, 1), (2, POSN)]) :=
  ⟨_, wf_of (by decide +kernel), by decide +kernel⟩

/-- **No pattern and no subject leads to an access outside them** (C25), nor to an endless loop. -/
theorem matcher_defined (src pat : List UInt8) (d : Int) (s : Nat) (hsz : src.length < 2 ^ 63) (hs : s ≤ src.length) :
    matchAt src d (mem pat) s ≠ .ub := (matchAt_safe src pat d s hsz hs).ne

example : matchAt (bytes "ab") MAXCCALLS (mem (bytes "[a-%")) 0 = .err "malformed pattern (missing ']')" := by decide +kernel

/-! ## C67 -/

/-- **`string.match` returns the captures of the leftmost match** (C67); `init` counts as in the manual. -/
theorem match_leftmost (src pat : List UInt8) (its : List Item) (i : Int) (plain : Bool) (hin : InI i) (hsz : src.length < 2 ^ 63) (hw : Wf (body pat) its) :
    (∃ s e c, strFindAux false src pat i plain = .ok (.matched (values src c s e)) ∧ max (tr src.length i) 1 ≤ (s : Int) + 1 ∧ s ≤ src.length ∧
      (anchored pat = true → (s : Int) + 1 = max (tr src.length i) 1) ∧ first src its s = some (e, c) ∧
      ∀ t : Nat, max (tr src.length i) 1 ≤ (t : Int) + 1 → t < s → ∀ e c, ¬ Sem src its t [] e c) ∨
    (strFindAux false src pat i plain = .ok .fail ∧ ∀ t : Nat, max (tr src.length i) 1 ≤ (t : Int) + 1 → t ≤ src.length →
      (anchored pat = true → (t : Int) + 1 = max (tr src.length i) 1) → ∀ e c, ¬ Sem src its t [] e c) := by
  have hp := posrelatI_eq i src.length hin (by omega)
  unfold strFindAux
  dsimp only
  by_cases h : posrelatI i src.length - 1 > src.length
  · rw [if_pos h]
    exact .inr ⟨rfl, fun t h1 h2 => by omega⟩
  · rw [if_neg h, if_neg (by simp)]
    rcases patFind_exact src pat its false (posrelatI i src.length - 1) hsz hw (by omega) with ⟨s, e, c, a1, a2, a3, a4, a5, a6⟩ | ⟨a1, a2⟩
    · exact .inl ⟨s, e, c, a1, by omega, a3, fun q => by have := a4 q; omega, a5, fun t h1 h2 => a6 t (by omega) h2⟩
    · exact .inr ⟨a1, fun t h1 h2 h3 => a2 t (by omega) h2 (fun q => by have := h3 q; omega)⟩

/-- **`string.find` returns the place and the captures of the leftmost match** (C67), whether or not it takes the shortcut for patterns
without special characters. -/
theorem find_leftmost (src pat : List UInt8) (its : List Item) (i : Int) (hin : InI i) (hsz : src.length + 1 < 2 ^ 63) (hw : Wf (body pat) its) :
    (∃ (s e : Nat) (c : List Cap), strFindAux true src pat i false = .ok (.found ((s : Int) + 1) e (c.map (capVal src))) ∧ max (tr src.length i) 1 ≤ (s : Int) + 1 ∧
      s ≤ src.length ∧ (anchored pat = true → (s : Int) + 1 = max (tr src.length i) 1) ∧ first src its s = some (e, c) ∧
      ∀ t : Nat, max (tr src.length i) 1 ≤ (t : Int) + 1 → t < s → ∀ e c, ¬ Sem src its t [] e c) ∨
    (strFindAux true src pat i false = .ok .fail ∧ ∀ t : Nat, max (tr src.length i) 1 ≤ (t : Int) + 1 → t ≤ src.length →
      (anchored pat = true → (t : Int) + 1 = max (tr src.length i) 1) → ∀ e c, ¬ Sem src its t [] e c) := by
  have hp := posrelatI_eq i src.length hin (by omega)
  unfold strFindAux
  dsimp only
  by_cases h : posrelatI i src.length - 1 > src.length
  · rw [if_pos h]
    exact .inr ⟨rfl, fun t h1 h2 => by omega⟩
  · have key : (nospecials (mem pat) pat.length (pat.length + 2) 0 >>= fun ns => if ns then plainFind src pat (posrelatI i src.length - 1)
        else patFind src pat true (posrelatI i src.length - 1)) = patFind src pat true (posrelatI i src.length - 1) := by
      rw [nospecials_eq pat _ 0 (by omega) (by omega), Res.bind_ok, List.drop_zero]
      cases hs : pat.any special with
      | true => rfl
      | false =>
        rw [if_pos (by rfl)]
        refine plain_eq_pattern src pat _ hsz (by omega) hs (fun h41 => ?_)
        -- an unmatched `)` is not well-formed
        have hb : body pat = pat := by
          unfold body
          rw [if_neg]
          intro q
          unfold anchored at q
          cases pat with
          | nil => exact nomatch q
          | cons c r =>
            have : c = 94 := by simpa using q
            subst this
            rw [List.any_cons, Bool.or_eq_false_iff, ← special_eq] at hs
            exact absurd hs.1 (by decide)
        rw [hb] at hw
        have bad : ∀ (l : List UInt8) (f : Nat) (its : List Item), l.any special = false → (41 : UInt8) ∈ l → parse f l = some its → check its [] = false := by
          intro l
          induction l with
          | nil => intro f its _ h; exact nomatch h
          | cons c r ih =>
            intro f its hs h41 hp
            rw [List.any_cons, Bool.or_eq_false_iff] at hs
            obtain ⟨h, hr⟩ := hs
            cases f with
            | zero => exact nomatch hp
            | succ f =>
              by_cases q41 : c = 41
              · unfold parse at hp
                rw [if_neg (by rw [q41]; decide), if_pos q41] at hp
                obtain ⟨t, _, e⟩ := map_some hp
                subst e
                rfl
              · rw [← special_eq] at h
                have h : c ∉ [94, 36, 42, 43, 63, 46, 40, 91, 37, 45] := by simpa using h
                simp only [List.mem_cons, not_or] at h
                obtain ⟨_, q36, q42, q43, q63, q46, q40, q91, q37, q45, _⟩ := h
                unfold parse at hp
                rw [if_neg q40, if_neg q41, if_neg (fun q => q36 q.1), if_neg (fun q => q37 q.1), if_neg (fun q => q37 q.1), if_neg (fun q => q37 q.1)] at hp
                have e : parseSingle (c :: r) = some (.chr c, r) := by
                  unfold parseSingle
                  dsimp only
                  rw [if_neg q46, if_neg q37, if_neg q91]
                rw [e] at hp
                dsimp only at hp
                have es : suffix r = (.one, r) := by
                  cases r with
                  | nil => rfl
                  | cons d t =>
                    rw [List.any_cons, Bool.or_eq_false_iff] at hr
                    have h := hr.1
                    rw [← special_eq] at h
                    have h : d ∉ [94, 36, 42, 43, 63, 46, 40, 91, 37, 45] := by simpa using h
                    simp only [List.mem_cons, not_or] at h
                    obtain ⟨_, _, p42, p43, p63, _, _, _, _, p45, _⟩ := h
                    unfold suffix
                    dsimp only
                    rw [if_neg p63, if_neg p42, if_neg p43, if_neg p45]
                rw [es] at hp
                obtain ⟨t, ht, e⟩ := map_some hp
                subst e
                unfold check
                refine ih f t hr ?_ ht
                rcases List.mem_cons.1 h41 with q | q
                · exact absurd q.symm q41
                · exact q
        have := bad pat _ its hs h41 hw.parses
        rw [hw.captures] at this
        exact nomatch this
    rw [if_neg h, if_pos rfl, if_neg (by simp), key]
    rcases patFind_exact src pat its true (posrelatI i src.length - 1) (by omega) hw (by omega) with ⟨s, e, c, a1, a2, a3, a4, a5, a6⟩ | ⟨a1, a2⟩
    · exact .inl ⟨s, e, c, a1, by omega, a3, fun q => by have := a4 q; omega, a5, fun t h1 h2 => a6 t (by omega) h2⟩
    · exact .inr ⟨a1, fun t h1 h2 h3 => a2 t (by omega) h2 (fun q => by have := h3 q; omega)⟩

/-- `string.find("key = value", "(%w+)%s*$")` -/
example : (∃ its, Wf (body (bytes "(%w+)%s*$")) its) ∧
    strFindAux true (bytes "key = value ") (bytes "(%w+)%s*$") 1 false = .ok (.found 7 12 [.str (bytes "value")]) :=
  ⟨⟨_, wf_of (by decide +kernel)⟩, by decide +kernel⟩

/-- **`find` and `match` are defined for every pattern** (C67), malformed or not. -/
theorem find_defined (find : Bool) (src pat : List UInt8) (i : Int) (plain : Bool) (hin : InI i) (hsz : src.length + 1 < 2 ^ 63) :
    strFindAux find src pat i plain ≠ .ub := by
  have hp := posrelatI_eq i src.length hin (by omega)
  unfold strFindAux
  dsimp only
  by_cases h : posrelatI i src.length - 1 > src.length
  · rw [if_pos h]; simp
  · rw [if_neg h]
    have hd := (patFind_safe src pat find (posrelatI i src.length - 1) (by omega) (by omega)).ne
    have hl : plainFind src pat (posrelatI i src.length - 1) ≠ .ub := by
      rcases Verif.StrLib.findPlain_correct src pat (((posrelatI i src.length - 1 : Nat) : Int) + 1) (by unfold InI; omega)
        (by unfold Verif.StrLib.IsStr; omega) with ⟨k, b1, _⟩ | ⟨b1, _⟩ <;>
      · rw [plainFind_of src pat _ _ hsz (by omega) b1]; simp
    cases find with
    | false => exact hd
    | true =>
      rw [if_pos rfl]
      cases plain with
      | true => rw [if_pos rfl, Res.pure_eq, Res.bind_ok, if_pos rfl]; exact hl
      | false =>
        rw [if_neg (by simp), nospecials_eq pat _ 0 (by omega) (by omega), Res.bind_ok]
        split
        · exact hl
        · exact hd

example : strFindAux false (bytes "ab") (bytes "%b") 1 false = .err "malformed pattern (missing arguments to '%b')" := by decide +kernel

/-- A text with `)` and no other special character is searched literally by `find`, while `match` rejects it: the
list of special characters (lstrlib.c:378) has no `)`. -/
theorem find_accepts_close : strFindAux true (bytes "f(x)") (bytes "x)") 1 false = .ok (.found 3 4 []) ∧
    strFindAux false (bytes "f(x)") (bytes "x)") 1 false = .err "invalid pattern capture" := by decide +kernel

/-! ## C68 -/

/-- **`gmatch` goes through the successive matches and ends** (C68): a `for` loop over the iterator sees exactly the matches of `Scan`,
of which there is one list. -/
theorem gmatch_exact (src pat : List UInt8) (its : List Item) (i : Int) (hin : InI i) (hsz : src.length < 2 ^ 63) (hw : Wf pat its)
    (hi : max (tr src.length i) 1 ≤ (src.length : Int) + 1) :
    ∃ ms, Scan src its (gmatchInit src i).pos none ms ∧ ((gmatchInit src i).pos : Int) + 1 = max (tr src.length i) 1 ∧
      ∀ fuel, src.length + 2 ≤ fuel → drain src pat fuel (gmatchInit src i) = .ok (ms.map (fun m => values src m.2.2 m.1 m.2.1)) := by
  have hp := posrelatI_eq i src.length hin (by omega)
  have e : gmatchInit src i = ⟨posrelatI i src.length - 1, none, MAXCCALLS⟩ := by
    unfold gmatchInit
    dsimp only
    rw [if_neg (by omega)]
  rw [e]
  dsimp only
  have hs : posrelatI i src.length - 1 ≤ src.length := by omega
  obtain ⟨ms, hm⟩ := scan_total (src := src) hw _ (posrelatI i src.length - 1) none (Nat.lt_succ_self _) hs
  refine ⟨ms, hm, by omega, fun fuel hf => drain_eq hsz hw ms fuel _ _ hm hs (fun _ q => nomatch q) ?_⟩
  -- distinct ends, all within the subject
  obtain ⟨o1, o2⟩ := scan_ordered hw hm hs (fun _ q => nomatch q)
  have len : ∀ (ms : List (Nat × Nat × List Cap)) (k : Nat), (∀ m ∈ ms, m.2.1 ≤ src.length ∧ k ≤ m.2.1) → ms.Pairwise (fun a b => a.2.1 ≤ b.1 ∧ a.2.1 < b.2.1) →
      k ≤ src.length + 1 → ms.length + k ≤ src.length + 1 := by
    intro ms
    induction ms with
    | nil => intro k _ _ hk; simpa using hk
    | cons m ms ih =>
      intro k h1 h2 hk
      rw [List.pairwise_cons] at h2
      have := h1 m (List.mem_cons_self ..)
      have := ih (m.2.1 + 1) (fun x hx => ⟨(h1 x (List.mem_cons_of_mem _ hx)).1, (h2.1 x hx).2⟩) h2.2 (by omega)
      rw [List.length_cons]
      omega
  have := len ms 0 (fun m hm => ⟨(o1 m hm).2.2.1, Nat.zero_le _⟩) o2 (by omega)
  omega

example : (∃ its, Wf (bytes "%a*") its) ∧ drain (bytes "ab c") (bytes "%a*") 7 (gmatchInit (bytes "ab c") 1) =
    .ok [[.str (bytes "ab")], [.str (bytes "c")]] :=
  ⟨⟨_, wf_of (by decide +kernel)⟩, by decide +kernel⟩

/-- The list of replaced matches exists and is unique. -/
theorem replaced_unique (src pat : List UInt8) (its : List Item) (max : Option Int) (hw : Wf (body pat) its) :
    ∃ ms, Replaced src pat its max ms ∧ ∀ ms', Replaced src pat its max ms' → ms' = ms := by
  unfold Replaced
  cases h : anchored pat with
  | true =>
    refine ⟨_, ⟨_, rfl, rfl⟩, fun ms' ⟨l, h1, h2⟩ => ?_⟩
    rw [if_pos rfl] at h1
    rw [h2, h1]
  | false =>
    obtain ⟨l, hl⟩ := scan_total (src := src) hw _ 0 none (Nat.lt_succ_self _) (Nat.zero_le _)
    refine ⟨_, ⟨l, by rw [if_neg (by simp)]; exact hl, rfl⟩, fun ms' ⟨l', h1, h2⟩ => ?_⟩
    rw [if_neg (by simp)] at h1
    rw [h2, h1.det hl]

example : (∃ its, Wf (body (bytes "(%a)(%a)")) its) ∧
    gsub (bytes "abcd-ef") (bytes "(%a)(%a)") (.str (bytes "%2%1.")) none = .ok (bytes "ba.dc.-fe.", 3) :=
  ⟨⟨_, wf_of (by decide +kernel)⟩, by decide +kernel⟩

/-- Matches in order, as `splice` needs them, when every text put back is the one matched. -/
theorem splice_same {src : List UInt8} {r : Repl} (hr : ∀ n m, replText src r n m = .ok ((src.drop m.1).take (m.2.1 - m.1))) :
    ∀ (ms : List (Nat × Nat × List Cap)) (n s : Nat), s ≤ src.length → (∀ m ∈ ms, s ≤ m.1 ∧ m.1 ≤ m.2.1 ∧ m.2.1 ≤ src.length) →
      ms.Pairwise (fun a b => a.2.1 ≤ b.1) → splice src r n s ms = .ok (src.drop s) := by
  intro ms
  induction ms with
  | nil => intro n s _ _ _; rfl
  | cons m ms ih =>
    intro n s hs h1 h2
    rw [List.pairwise_cons] at h2
    obtain ⟨a1, a2, a3⟩ := h1 m (List.mem_cons_self ..)
    unfold splice
    rw [hr, Res.bind_ok, ih (n + 1) m.2.1 a3 (fun x hx => ⟨h2.1 x hx, (h1 x (List.mem_cons_of_mem _ hx)).2⟩) h2.2, Res.bind_ok, Res.pure_eq]
    congr 1
    have e1 : src.drop m.1 = (src.drop m.1).take (m.2.1 - m.1) ++ src.drop m.2.1 := by
      conv => lhs; rw [← List.take_append_drop (m.2.1 - m.1) (src.drop m.1)]
      rw [List.drop_drop, show m.1 + (m.2.1 - m.1) = m.2.1 by omega]
    have e2 : src.drop s = (src.drop s).take (m.1 - s) ++ src.drop m.1 := by
      conv => lhs; rw [← List.take_append_drop (m.1 - s) (src.drop s)]
      rw [List.drop_drop, show s + (m.1 - s) = m.1 by omega]
    rw [List.append_assoc, ← e1, ← e2]

theorem replaced_ordered {src pat its max ms} (hw : Wf (body pat) its) (h : Replaced src pat its max ms) :
    (∀ m ∈ ms, m.1 ≤ m.2.1 ∧ m.2.1 ≤ src.length ∧ Sem src its m.1 [] m.2.1 m.2.2) ∧ ms.Pairwise (fun a b => a.2.1 ≤ b.1) := by
  obtain ⟨l, h1, h2⟩ := h
  subst h2
  have key : (∀ m ∈ l, m.1 ≤ m.2.1 ∧ m.2.1 ≤ src.length ∧ Sem src its m.1 [] m.2.1 m.2.2) ∧ l.Pairwise (fun a b => a.2.1 ≤ b.1) := by
    cases ha : anchored pat with
    | true =>
      rw [ha, if_pos rfl] at h1
      subst h1
      cases hf : first src its 0 with
      | none => exact ⟨(fun m hm => nomatch hm), List.Pairwise.nil⟩
      | some q =>
        obtain ⟨e, c⟩ := q
        obtain ⟨k1, k2, _⟩ := first_inv hw (Nat.zero_le _) hf
        refine ⟨fun m hm => ?_, List.pairwise_singleton ..⟩
        rcases List.mem_singleton.1 hm with rfl
        exact ⟨k1, k2.1, first_sem hf⟩
    | false =>
      rw [ha, if_neg (by simp)] at h1
      obtain ⟨o1, o2⟩ := scan_ordered hw h1 (Nat.zero_le _) (fun _ q => nomatch q)
      exact ⟨fun m hm => ⟨(o1 m hm).2.1, (o1 m hm).2.2.1, (o1 m hm).2.2.2.1⟩, o2.imp fun q => q.1⟩
  exact ⟨fun m hm => key.1 m (List.mem_of_mem_take hm), key.2.sublist (List.take_sublist ..)⟩

/-- **Replacing each match by itself gives back the subject** (C68): with `"%0"`, and with a function or table that gives `nil`. -/
theorem gsub_identity (src pat : List UInt8) (its : List Item) (max : Option Int) (r : Repl) (hsz : src.length < 2 ^ 63) (hw : Wf (body pat) its)
    (hr : r = .str (bytes "%0") ∨ r = .fn (fun _ _ => .ok none) ∨ r = .tab (fun _ _ => .ok none)) :
    ∃ n, gsub src pat r max = .ok (src, n) := by
  obtain ⟨ms, hm, _⟩ := replaced_unique src pat its max hw
  obtain ⟨o1, o2⟩ := replaced_ordered hw hm
  refine ⟨ms.length, ?_⟩
  rw [gsub_exact src pat its r max ms hsz hw hm, splice_same _ ms 0 0 (Nat.zero_le _) (fun m h => ⟨Nat.zero_le _, (o1 m h).1, (o1 m h).2.1⟩) o2]
  · rfl
  · intro n m
    rcases hr with q | q | q
    · subst q
      have : bytes "%0" = [37, 48] := by decide +kernel
      unfold replText
      rw [this]
      simp [expand, Res.bind_ok, Res.pure_eq]
    · subst q; rfl
    · subst q; rfl

/-- **`gsub` makes as many replacements as `gmatch` has iterations** (C68), for a pattern without anchor. -/
theorem gsub_count (src pat : List UInt8) (its : List Item) (f : Nat → List CapVal → Option (List UInt8)) (hsz : src.length < 2 ^ 63) (hw : Wf pat its)
    (ha : anchored pat = false) : ∃ vs t, drain src pat (src.length + 2) (gmatchInit src 1) = .ok vs ∧
      gsub src pat (.fn (fun n v => .ok (f n v))) none = .ok (t, vs.length) := by
  have htr : tr src.length 1 = 1 := by unfold tr; rw [if_neg (by omega)]
  obtain ⟨ms, h1, h2, h3⟩ := gmatch_exact src pat its 1 (by unfold InI; omega) hsz hw (by rw [htr]; omega)
  have hb : body pat = pat := by unfold body; rw [ha]; rfl
  rw [htr] at h2
  rw [show (gmatchInit src 1).pos = 0 by omega] at h1
  obtain ⟨o1, o2⟩ := scan_ordered hw h1 (Nat.zero_le _) (fun _ q => nomatch q)
  have len : ∀ (ms : List (Nat × Nat × List Cap)) (k : Nat), (∀ m ∈ ms, m.2.1 ≤ src.length ∧ k ≤ m.2.1) → ms.Pairwise (fun a b => a.2.1 ≤ b.1 ∧ a.2.1 < b.2.1) →
      k ≤ src.length + 1 → ms.length + k ≤ src.length + 1 := by
    intro ms
    induction ms with
    | nil => intro k _ _ hk; simpa using hk
    | cons m ms ih =>
      intro k h1 h2 hk
      rw [List.pairwise_cons] at h2
      have := h1 m (List.mem_cons_self ..)
      have := ih (m.2.1 + 1) (fun x hx => ⟨(h1 x (List.mem_cons_of_mem _ hx)).1, (h2.1 x hx).2⟩) h2.2 (by omega)
      rw [List.length_cons]
      omega
  have hlen := len ms 0 (fun m hm => ⟨(o1 m hm).2.2.1, Nat.zero_le _⟩) o2 (by omega)
  have htk : ms.take ((none : Option Int).getD (src.length + 1)).toNat = ms := List.take_of_length_le (by show _ ≤ (((src.length : Int) + 1)).toNat; omega)
  have hrep : Replaced src pat its none ms := ⟨ms, by rw [ha, if_neg (by simp)]; exact h1, htk.symm⟩
  have hsp : ∀ (ms : List (Nat × Nat × List Cap)) (n s : Nat), ∃ t, splice src (.fn (fun n v => .ok (f n v))) n s ms = .ok t := by
    intro ms
    induction ms with
    | nil => intro n s; exact ⟨_, rfl⟩
    | cons m ms ih =>
      intro n s
      obtain ⟨t, ht⟩ := ih (n + 1) m.2.1
      unfold splice replText
      dsimp only
      rw [Res.bind_ok, Res.pure_eq, Res.bind_ok, ht, Res.bind_ok]
      exact ⟨_, rfl⟩
  obtain ⟨t, ht⟩ := hsp ms 0 0
  refine ⟨_, t, h3 _ (Nat.le_refl _), ?_⟩
  rw [gsub_exact src pat its _ none ms hsz (by rw [hb]; exact hw) hrep, ht, Res.bind_ok, List.length_map]

example : gsub (bytes "hello world") (bytes "o") (.fn fun n _ => .ok (if n = 0 then some (bytes "0") else none)) none = .ok (bytes "hell0 world", 2) ∧
    drain (bytes "hello world") (bytes "o") 13 (gmatchInit (bytes "hello world") 1) = .ok [[.str (bytes "o")], [.str (bytes "o")]] := by decide +kernel

/-- The calls and lookups of a replacement are themselves defined. -/
def Repl.Defined : Repl → Prop
  | .str _ => True
  | .fn f => ∀ n v, f n v ≠ .ub
  | .tab f => ∀ n v, f n v ≠ .ub

/-- **`gsub` is defined for every pattern and ends** (C68), as long as the calls it makes are. -/
theorem gsub_defined (src pat : List UInt8) (r : Repl) (max : Option Int) (hsz : src.length < 2 ^ 63)
    (hr : r.Defined) : gsub src pat r max ≠ .ub := by
  have notub : ∀ {α : Type} {x : Res α}, x ≠ .ub → Sat x (fun _ => True) := by
    intro α x h
    cases x with
    | ok a => trivial
    | err m => trivial
    | ub => exact absurd rfl h
  have adds : ∀ {caps : List Cap} {s e : Nat}, Inv src e caps → s ≤ e → ∀ (fuel : Nat) (news : List UInt8), news.length < fuel →
      Sat (addS src caps s e fuel news) (fun _ => True) := by
    intro caps s e hi hs fuel
    induction fuel with
    | zero => intro news h; omega
    | succ fuel ih =>
      intro news hf
      unfold addS
      cases h : splitEsc news with
      | none => trivial
      | some q =>
        obtain ⟨a, rest⟩ := q
        obtain ⟨h1, _⟩ := splitEsc_some news a rest h
        dsimp only
        have go : ∀ t : List UInt8, Sat (addS src caps s e fuel (rest.drop 1) >>= fun u => pure (a ++ t ++ u)) (fun _ => True) :=
          fun t => (ih (rest.drop 1) (by rw [List.length_drop]; omega)).bind fun _ _ => trivial
        cases rest with
        | nil => trivial
        | cons d rr =>
          dsimp only
          have := hi.1
          split
          · exact go _
          · split
            · rw [take_mem (by omega)]; exact go _
            · split
              · refine (getOne_safe hi _ s e hs hi.1).bind fun v _ => ?_
                cases v <;> exact go _
              · trivial
  have addv : ∀ {caps : List Cap} {s e : Nat} (n : Nat), Inv src e caps → s ≤ e → Sat (addValue src r n caps s e) (fun _ => True) := by
    intro caps s e n hi hs
    have := hi.1
    have fin : ∀ v : Option (List UInt8), Sat (match v with
        | some t => pure (t, true)
        | none => if s ≤ e then do
            let b ← rdN (mem src) s (e - s)
            pure (b, false)
          else .ub : Res (List UInt8 × Bool)) (fun _ => True) := by
      intro v
      cases v with
      | some t => trivial
      | none => dsimp only; rw [if_pos hs, take_mem (by omega)]; trivial
    unfold addValue
    cases r with
    | str news => exact (adds hi hs _ _ (Nat.lt_succ_self _)).bind fun _ _ => trivial
    | fn f => exact (pushLoop_safe hi s e hs hi.1 _ 0).bind fun vs _ => (notub (hr n vs)).bind fun v _ => fin v
    | tab f => exact (getOne_safe hi 0 s e hs hi.1).bind fun c _ => (notub (hr n c)).bind fun v _ => fin v
  have loop : ∀ (p : List UInt8) (mx : Int) (an : Bool) (fuel : Nat) (g : GS), g.s ≤ src.length → left src g.s g.last < fuel →
      Sat (gsubLoop src (mem p) r mx an fuel g) (fun g' => g'.s ≤ src.length) := by
    intro p mx an fuel
    induction fuel with
    | zero => intro g _ h; omega
    | succ fuel ih =>
      intro g hs hf
      unfold gsubLoop
      split
      · refine (matchAt_safe src p _ g.s hsz hs).bind fun q hq => ?_
        have skip : Sat (if g.s < src.length then do
            let c ← rd (mem src) g.s
            let g := { g with s := g.s + 1, out := g.out ++ [c] }
            if an then pure g else gsubLoop src (mem p) r mx an fuel g
          else pure g : Res GS) (fun g' => g'.s ≤ src.length) := by
          split
          · rename_i hl
            rw [rd_src hl, Res.bind_ok]
            dsimp only
            split
            · show g.s + 1 ≤ src.length; omega
            · exact ih _ (by show g.s + 1 ≤ src.length; omega) (by show left src (g.s + 1) g.last < fuel; have := left_skip (last := g.last) hl; omega)
          · exact hs
        obtain ⟨m, caps⟩ := q
        cases m with
        | none => exact skip
        | some e =>
          dsimp only
          split
          · rename_i hne
            obtain ⟨h1, h2⟩ := hq
            refine (addv g.n h2 h1).bind fun t _ => ?_
            obtain ⟨t, ch⟩ := t
            dsimp only
            split
            · exact h2.1
            · exact ih _ h2.1 (by show left src e (some e) < fuel; have := left_take (last := g.last) h1 (fun q => hne q.symm) h2.1; omega)
          · exact skip
      · exact hs
  rw [gsub_unfold]
  refine Sat.ne (P := fun _ => True) ((loop _ _ _ _ _ (Nat.zero_le _) (by show left src 0 none < _; unfold left; split <;> omega)).bind fun g hg => ?_)
  unfold finish
  split
  · rw [take_mem (by omega)]; trivial
  · trivial

example : gsub (bytes "abc") (bytes "%") (.str (bytes "x")) none = .err "malformed pattern (ends with '%')" := by decide +kernel

/-! ## The depth of an iterator after an error -/

/-- The iterator's state after "pattern too complex": `match` has counted `matchdepth` down past zero (lstrlib.c:568-569), the error left it
there, and `reprepstate` does not set it again (lstrlib.c:764-767, where only an assertion looks at it). -/
def afterTooComplex (g : GM) : GM := { g with depth := -1 }

/-- **After one "pattern too complex" an iterator of `gmatch` has no limit on the recursion any more** (C68, a defect): the next call goes
through whatever the depth. -/
theorem gmatch_limit_gone (src pat : List UInt8) (its : List Item) (g : GM) (hsz : src.length < 2 ^ 63) (h1 : items pat = some its)
    (h2 : check its [] = true) (h3 : ∀ b ∈ finalSt its [], b = false) : ∃ r, gmatchNext src pat (afterTooComplex g) = .ok r := by
  have key : ∀ (fuel s : Nat), src.length + 1 < fuel + s → 0 < fuel → ∃ r, gmatchLoop src (mem pat) (-1) g.last fuel s = .ok r := by
    intro fuel
    induction fuel with
    | zero => intro s _ h; omega
    | succ fuel ih =>
      intro s hf _
      unfold gmatchLoop
      by_cases hs : s ≤ src.length
      · rw [if_pos hs, match_exact src pat its s (-1) hsz h1 h2 (.inr (by omega)) hs, Res.bind_ok]
        cases ha : all src its s [] with
        | nil => exact ih (s + 1) (by omega) (by omega)
        | cons q t =>
          obtain ⟨e, c⟩ := q
          dsimp only [result]
          split
          · have hsem := (mem_all src its s [] e c).1 (by rw [ha]; exact List.mem_cons_self ..)
            obtain ⟨k1, k2, k3⟩ := sem_inv src its s [] e c hsem (inv_nil hs) h2
            have k4 : ∀ x ∈ c, x.2 ≠ UNFIN := by
              intro x hx q
              have hm : isOpen x ∈ c.map isOpen := List.mem_map_of_mem hx
              rw [k3] at hm
              have := h3 _ hm
              rw [show isOpen x = true by unfold isOpen; rw [q]; rfl] at this
              exact nomatch this
            rw [pushCaptures_eq k2 k4 k1, Res.bind_ok]
            exact ⟨_, rfl⟩
          · exact ih (s + 1) (by omega) (by omega)
      · rw [if_neg hs]; exact ⟨_, rfl⟩
  obtain ⟨r, hr⟩ := key (src.length + 2) g.pos (by omega) (by omega)
  unfold gmatchNext afterTooComplex
  dsimp only
  rw [hr, Res.bind_ok]
  cases r with
  | none => exact ⟨_, rfl⟩
  | some q => exact ⟨_, rfl⟩

/-- 200 times `.-` is too complex at first, and goes through on the next call. -/
example : gmatchNext (bytes "x") ((List.replicate 200 (bytes ".-")).flatten) (gmatchInit (bytes "x") 1) = .err "pattern too complex" ∧
    (∃ r, gmatchNext (bytes "x") ((List.replicate 200 (bytes ".-")).flatten) (afterTooComplex (gmatchInit (bytes "x") 1)) = .ok r) := by
  refine ⟨by decide +kernel, gmatch_limit_gone _ _ ((items ((List.replicate 200 (bytes ".-")).flatten)).getD []) _ ?_ ?_ ?_ ?_⟩ <;> decide +kernel

end Verif.Pat
