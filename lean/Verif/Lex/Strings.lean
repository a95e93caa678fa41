import Verif.Lex.Safe

/-!
# C43, C63 — string literals

What `read_string` accepts and delivers is described by a grammar of pieces; the lexer accepts exactly
the literals of the grammar and delivers exactly their value.  Quoted strings are such literals.
-/
namespace Verif.Lex
open Verif.Num (isDigit isSpace isXdigit hexavalue testprop str2int)

/-- The letters and signs that stand for one byte after a backslash. -/
def letters : List (UInt8 × UInt8) :=
  [(97, 7), (98, 8), (102, 12), (110, 10), (114, 13), (116, 9), (118, 11), (92, 92), (34, 34), (39, 39)]

/-- Value of hexadecimal and of decimal digits. -/
def hexVal (r : Nat) (ds : List UInt8) : Nat := ds.foldl (fun r d => r * 16 + hexavalue d) r
def decVal (r : Nat) (ds : List UInt8) : Nat := ds.foldl (fun r d => 10 * r + (d.toNat - 48)) r

/-- The text does not start with a byte of the class. -/
def NotAt (p : UInt8 → Bool) (cs : List UInt8) : Prop := ∀ c rest, cs = c :: rest → p c = false

/-- One piece of a literal with delimiter `del`: the text, the bytes it stands for, the text after it. -/
inductive Piece (del : UInt8) : List UInt8 → List UInt8 → List UInt8 → Prop
  | plain (c : UInt8) (cs : List UInt8) : c ≠ del → c ≠ 92 → isNl c = false → Piece del (c :: cs) [c] cs
  | letter (e v : UInt8) (cs : List UInt8) : (e, v) ∈ letters → Piece del (92 :: e :: cs) [v] cs
  | hex (a b : UInt8) (cs : List UInt8) : isXdigit a = true → isXdigit b = true →
      Piece del (92 :: 120 :: a :: b :: cs) [UInt8.ofNat (hexVal 0 [a, b])] cs
  | dec (ds cs : List UInt8) : ds ≠ [] → (∀ d ∈ ds, isDigit d = true) → ds.length ≤ 3 → (ds.length < 3 → NotAt isDigit cs) →
      decVal 0 ds ≤ 255 → Piece del (92 :: (ds ++ cs)) [UInt8.ofNat (decVal 0 ds)] cs
  | utf8 (ds cs : List UInt8) : ds ≠ [] → (∀ d ∈ ds, isXdigit d = true) → hexVal 0 ds < 2 ^ 31 →
      Piece del (92 :: 117 :: 123 :: (ds ++ 125 :: cs)) (Utf8.enc (hexVal 0 ds)) cs
  | newline (c : UInt8) (cs : List UInt8) : isNl c = true → Piece del (92 :: c :: cs) [10] (afterNl c cs)
  | zap (ws cs : List UInt8) : (∀ w ∈ ws, isSpace w = true) → NotAt isSpace cs → Piece del (92 :: 122 :: (ws ++ cs)) [] cs

/-- A literal after its opening delimiter: the text, its value, the text after the closing delimiter. -/
inductive Lit (del : UInt8) : List UInt8 → List UInt8 → List UInt8 → Prop
  | close (rest : List UInt8) : Lit del (del :: rest) [] rest
  | more {inp v mid w rest : List UInt8} : Piece del inp v mid → Lit del mid w rest → Lit del inp (v ++ w) rest

theorem saveNext_cons (c : UInt8) (cs b : List UInt8) (n : Nat) : LS.saveNext ⟨c :: cs, b, n⟩ = ⟨cs, b ++ [c], n⟩ := rfl

theorem remove_tail (i b x : List UInt8) (n k : Nat) (h : x.length = k) : LS.remove ⟨i, b ++ x, n⟩ k = .ok ⟨i, b, n⟩ := by
  rw [remove_ok (by show k ≤ (b ++ x).length; rw [List.length_append]; omega)]
  show Res.ok (⟨i, (b ++ x).take ((b ++ x).length - k), n⟩ : LS) = _
  rw [List.length_append, h, Nat.add_sub_cancel, List.take_left]

theorem onlySave_eq (i b : List UInt8) (x : UInt8) (n v : Nat) : onlySave ⟨i, b ++ [x], n⟩ v = .ok ⟨i, b ++ [UInt8.ofNat v], n⟩ := by
  unfold onlySave
  rw [remove_tail _ _ _ _ 1 rfl, Res.bind_ok]
  rfl

theorem split_class (p : UInt8 → Bool) (inp : List UInt8) :
    ∃ ds cs, inp = ds ++ cs ∧ (∀ d ∈ ds, p d = true) ∧ NotAt p cs := by
  induction inp with
  | nil => exact ⟨[], [], rfl, nofun, nofun⟩
  | cons c cs ih =>
    by_cases h : p c = true
    · obtain ⟨ds, rest, e, h1, h2⟩ := ih
      refine ⟨c :: ds, rest, by rw [e]; rfl, ?_, h2⟩
      intro d hd
      rcases List.mem_cons.1 hd with q | q
      · rw [q]; exact h
      · exact h1 d q
    · refine ⟨[], c :: cs, rfl, nofun, ?_⟩
      intro d rest e
      injection e with e1 e2
      rw [← e1]; simpa using h

/-- The leading bytes of a class, `k` at most. -/
theorem split_max (p : UInt8 → Bool) : ∀ (k : Nat) (inp : List UInt8),
    ∃ ds cs, inp = ds ++ cs ∧ (∀ d ∈ ds, p d = true) ∧ ds.length ≤ k ∧ (ds.length < k → NotAt p cs) := by
  intro k
  induction k with
  | zero => intro inp; exact ⟨[], inp, rfl, nofun, Nat.le_refl _, fun h => by simp at h⟩
  | succ k ih =>
    intro inp
    cases inp with
    | nil => exact ⟨[], [], rfl, nofun, Nat.zero_le _, fun _ => nofun⟩
    | cons c cs =>
      by_cases h : p c = true
      · obtain ⟨ds, rest, e, h1, h2, h3⟩ := ih cs
        refine ⟨c :: ds, rest, by rw [e]; rfl, ?_, by simp; omega, fun q => h3 (by simp at q; omega)⟩
        intro d hd
        rcases List.mem_cons.1 hd with q | q
        · rw [q]; exact h
        · exact h1 d q
      · refine ⟨[], c :: cs, rfl, nofun, Nat.zero_le _, ?_⟩
        intro _ d rest e
        injection e with e1 e2
        rw [← e1]; simpa using h

theorem hexVal_le (ds : List UInt8) : ∀ r, r ≤ hexVal r ds := by
  induction ds with
  | nil => intro r; exact Nat.le_refl _
  | cons d ds ih =>
    intro r
    have := ih (r * 16 + hexavalue d)
    show r ≤ hexVal (r * 16 + hexavalue d) ds
    omega

theorem hexavalue_lt {c : UInt8} (h : isXdigit c = true) : hexavalue c < 16 :=
  (Utf8.u8_forall (p := fun c => isXdigit c = true → hexavalue c < 16) (by decide +kernel) c) h

theorem uLoop_eq (ds : List UInt8) : ∀ (fuel : Nat) (d : UInt8) (cs b : List UInt8) (n r i : Nat), ds.length < fuel →
    (∀ d ∈ ds, isXdigit d = true) → NotAt isXdigit cs → r < 2 ^ 31 →
    (hexVal r ds < 2 ^ 31 → uLoop fuel ⟨d :: (ds ++ cs), b, n⟩ r i = .ok (hexVal r ds, i + ds.length, ⟨cs, b ++ (d :: ds), n⟩)) ∧
    (¬ hexVal r ds < 2 ^ 31 → ∃ e, uLoop fuel ⟨d :: (ds ++ cs), b, n⟩ r i = .err e) := by
  induction ds with
  | nil =>
    intro fuel d cs b n r i hf hd hn hr
    cases fuel with
    | zero => simp at hf
    | succ fuel =>
      refine ⟨fun _ => ?_, fun q => absurd hr q⟩
      unfold uLoop
      rw [saveNext_cons]
      dsimp only [List.nil_append]
      cases cs with
      | nil => rfl
      | cons c cs => dsimp only; rw [hn c cs rfl]; rfl
  | cons x ds ih =>
    intro fuel d cs b n r i hf hd hn hr
    cases fuel with
    | zero => simp at hf
    | succ fuel =>
      have hx := hd x (by simp)
      have hlt := hexavalue_lt hx
      unfold uLoop
      rw [saveNext_cons]
      dsimp only [List.cons_append]
      rw [if_pos hx]
      by_cases hle : r ≤ 0x7FFFFFFF / 16
      · rw [if_pos hle]
        obtain ⟨h1, h2⟩ := ih fuel x cs (b ++ [d]) n (r * 16 + hexavalue x) (i + 1) (by simp at hf; omega)
          (fun y hy => hd y (by simp [hy])) hn (by omega)
        refine ⟨fun q => ?_, h2⟩
        rw [h1 q, List.append_assoc, List.length_cons, show i + (ds.length + 1) = i + 1 + ds.length by omega]
        rfl
      · rw [if_neg hle]
        refine ⟨fun q => ?_, fun _ => ⟨_, rfl⟩⟩
        have := hexVal_le ds (r * 16 + hexavalue x)
        have q' : hexVal (r * 16 + hexavalue x) ds < 2 ^ 31 := q
        omega

theorem decLoop_eq (ds : List UInt8) : ∀ (k : Nat) (cs b : List UInt8) (n r i : Nat), ds.length ≤ k → (∀ d ∈ ds, isDigit d = true) →
    (ds.length < k → NotAt isDigit cs) → decLoop k ⟨ds ++ cs, b, n⟩ r i = (decVal r ds, i + ds.length, ⟨cs, b ++ ds, n⟩) := by
  induction ds with
  | nil =>
    intro k cs b n r i _ _ hn
    cases k with
    | zero => simp [decLoop, decVal]
    | succ k =>
      unfold decLoop
      cases cs with
      | nil => simp [decVal]
      | cons c cs => simp [hn (by simp) c cs rfl, decVal]
  | cons x ds ih =>
    intro k cs b n r i hk hd hn
    cases k with
    | zero => simp at hk
    | succ k =>
      unfold decLoop
      dsimp only [List.cons_append]
      rw [if_pos (hd x (by simp)), saveNext_cons, ih k cs (b ++ [x]) n _ _ (by simp at hk; omega) (fun y hy => hd y (by simp [hy]))
        (fun q => hn (by simp; omega)), List.append_assoc, List.length_cons, show i + (ds.length + 1) = i + 1 + ds.length by omega]
      rfl

theorem space_nl : ∀ c : UInt8, isNl c = true → isSpace c = true := Utf8.u8_forall (by decide +kernel)

theorem zap_sound : ∀ (fuel : Nat) (inp b : List UInt8) (n : Nat) (l' : LS), zapLoop fuel ⟨inp, b, n⟩ = .ok l' →
    l'.buff = b ∧ ∃ ws, inp = ws ++ l'.inp ∧ (∀ w ∈ ws, isSpace w = true) ∧ NotAt isSpace l'.inp := by
  intro fuel
  induction fuel with
  | zero => intro _ _ _ _ e; exact nomatch e
  | succ fuel ih =>
    intro inp b n l' e
    unfold zapLoop at e
    cases inp with
    | nil => injection e with e; rw [← e]; exact ⟨rfl, [], rfl, nofun, nofun⟩
    | cons c cs =>
      dsimp only at e
      by_cases hs : isSpace c = true
      · rw [if_pos hs] at e
        by_cases hnl : isNl c = true
        · rw [if_pos hnl, incl_eq] at e
          by_cases hm : n + 1 ≥ MAXINT
          · rw [if_pos hm] at e; exact nomatch e
          · rw [if_neg hm, Res.bind_ok] at e
            obtain ⟨h1, ws, h2, h3, h4⟩ := ih _ _ _ _ e
            have hpre : ∃ p, cs = p ++ afterNl c cs ∧ ∀ w ∈ p, isSpace w = true := by
              unfold afterNl
              cases cs with
              | nil => exact ⟨[], rfl, nofun⟩
              | cons d ds =>
                dsimp only
                by_cases hd : isNl d = true ∧ d ≠ c
                · rw [if_pos hd]
                  refine ⟨[d], rfl, ?_⟩
                  intro w hw
                  rw [List.mem_singleton.1 hw]; exact space_nl d hd.1
                · rw [if_neg hd]; exact ⟨[], rfl, nofun⟩
            obtain ⟨p, hp, hps⟩ := hpre
            refine ⟨h1, c :: (p ++ ws), ?_, ?_, h4⟩
            · rw [List.cons_append, List.append_assoc, ← h2, ← hp]
            · intro w hw
              rcases List.mem_cons.1 hw with q | q
              · rw [q]; exact hs
              · rcases List.mem_append.1 q with q | q
                · exact hps w q
                · exact h3 w q
        · rw [if_neg hnl] at e
          obtain ⟨h1, ws, h2, h3, h4⟩ := ih cs b n l' e
          refine ⟨h1, c :: ws, by rw [h2]; rfl, ?_, h4⟩
          intro w hw
          rcases List.mem_cons.1 hw with q | q
          · rw [q]; exact hs
          · exact h3 w q
      · rw [if_neg hs] at e
        injection e with e
        rw [← e]
        refine ⟨rfl, [], rfl, nofun, ?_⟩
        intro d rest q
        injection q with q1 q2
        rw [← q1]; simpa using hs

theorem zap_complete : ∀ (fuel : Nat) (inp b : List UInt8) (n : Nat), inp.length < fuel → n + breaks inp < MAXINT →
    ∃ l', zapLoop fuel ⟨inp, b, n⟩ = .ok l' := by
  intro fuel
  induction fuel with
  | zero => intro _ _ _ h; omega
  | succ fuel ih =>
    intro inp b n hf hb
    unfold zapLoop
    cases inp with
    | nil => exact ⟨_, rfl⟩
    | cons c cs =>
      dsimp only
      by_cases hs : isSpace c = true
      · rw [if_pos hs]
        by_cases hnl : isNl c = true
        · rw [if_pos hnl, incl_eq]
          rw [breaks_nl cs hnl] at hb
          rw [if_neg (by omega), Res.bind_ok]
          exact ih _ _ _ (by have := afterNl_le c cs; simp at hf; omega) (by omega)
        · rw [if_neg hnl]
          rw [breaks_cons (by simpa using hnl)] at hb
          exact ih cs b n (by simp at hf; omega) hb
      · rw [if_neg hs]; exact ⟨_, rfl⟩

/-- Two splits by a class are the same. -/
theorem split_unique {p : UInt8 → Bool} : ∀ (a : List UInt8) {b c d : List UInt8}, a ++ b = c ++ d → (∀ x ∈ a, p x = true) →
    (∀ x ∈ c, p x = true) → NotAt p b → NotAt p d → b = d := by
  intro a
  induction a with
  | nil =>
    intro b c d e ha hc hb hd
    cases c with
    | nil => exact e
    | cons x c =>
      have := hb x (c ++ d) e
      rw [hc x (by simp)] at this
      exact nomatch this
  | cons y a ih =>
    intro b c d e ha hc hb hd
    cases c with
    | nil =>
      have := hd y (a ++ b) e.symm
      rw [ha y (by simp)] at this
      exact nomatch this
    | cons x c =>
      injection e with _ e
      exact ih e (fun z hz => ha z (by simp [hz])) (fun z hz => hc z (by simp [hz])) hb hd

theorem gethexa_eq (x : UInt8) (inp b : List UInt8) (n : Nat) :
    gethexa ⟨x :: inp, b, n⟩ = match inp with
      | c :: cs => if isXdigit c then .ok (hexavalue c, ⟨c :: cs, b ++ [x], n⟩) else .err "hexadecimal digit expected"
      | [] => .err "hexadecimal digit expected" := by
  cases inp <;> rfl

/-- Reading an escape sequence. -/
theorem escape_sound (del : UInt8) (cs b : List UInt8) (n : Nat) (l' : LS) (h : escape ⟨92 :: cs, b, n⟩ = .ok l') :
    (cs = [] ∧ l'.inp = []) ∨ ∃ v, Piece del (92 :: cs) v l'.inp ∧ l'.buff = b ++ v := by
  unfold escape at h
  rw [saveNext_cons] at h
  cases cs with
  | nil => injection h with h; left; rw [← h]; exact ⟨rfl, rfl⟩
  | cons e es =>
    right
    dsimp only [LS.next, List.tail_cons] at h
    have simple : ∀ v : UInt8, (e, v) ∈ letters → onlySave ⟨es, b ++ [92], n⟩ v.toNat = .ok l' →
        ∃ v, Piece del (92 :: e :: es) v l'.inp ∧ l'.buff = b ++ v := by
      intro v hv h
      rw [onlySave_eq] at h
      injection h with h
      rw [← h]
      refine ⟨[v], .letter e v es hv, ?_⟩
      simp
    by_cases h1 : e = 97
    · rw [if_pos h1] at h; exact simple 7 (by rw [h1]; decide) h
    rw [if_neg h1] at h
    by_cases h1 : e = 98
    · rw [if_pos h1] at h; exact simple 8 (by rw [h1]; decide) h
    rw [if_neg h1] at h
    by_cases h1 : e = 102
    · rw [if_pos h1] at h; exact simple 12 (by rw [h1]; decide) h
    rw [if_neg h1] at h
    by_cases h1 : e = 110
    · rw [if_pos h1] at h; exact simple 10 (by rw [h1]; decide) h
    rw [if_neg h1] at h
    by_cases h1 : e = 114
    · rw [if_pos h1] at h; exact simple 13 (by rw [h1]; decide) h
    rw [if_neg h1] at h
    by_cases h1 : e = 116
    · rw [if_pos h1] at h; exact simple 9 (by rw [h1]; decide) h
    rw [if_neg h1] at h
    by_cases h1 : e = 118
    · rw [if_pos h1] at h; exact simple 11 (by rw [h1]; decide) h
    rw [if_neg h1] at h
    by_cases h1 : e = 120
    · rw [if_pos h1] at h
      subst h1
      obtain ⟨⟨c, l2⟩, hr, h⟩ := Res.bind_eq_ok.1 h
      unfold readhexaesc at hr
      rw [gethexa_eq] at hr
      cases es with
      | nil => exact nomatch hr
      | cons x xs =>
        dsimp only at hr
        by_cases hx : isXdigit x = true
        · rw [if_pos hx, Res.bind_ok] at hr
          dsimp only at hr
          rw [gethexa_eq] at hr
          cases xs with
          | nil => exact nomatch hr
          | cons y ys =>
            dsimp only at hr
            by_cases hy : isXdigit y = true
            · rw [if_pos hy, Res.bind_ok] at hr
              dsimp only at hr
              rw [List.append_assoc, List.append_assoc, ← List.append_assoc b, remove_tail _ _ _ _ 2 rfl, Res.bind_ok] at hr
              injection hr with hr
              injection hr with hr1 hr2
              subst hr1 hr2
              dsimp only [LS.next, List.tail_cons] at h
              rw [onlySave_eq] at h
              injection h with h
              rw [← h]
              refine ⟨_, .hex x y ys hx hy, ?_⟩
              simp [hexVal]
            · rw [if_neg hy] at hr; exact nomatch hr
        · rw [if_neg hx] at hr; exact nomatch hr
    rw [if_neg h1] at h
    by_cases h1 : e = 117
    · rw [if_pos h1] at h
      subst h1
      unfold utf8esc at h
      obtain ⟨⟨x, l2⟩, hr, h⟩ := Res.bind_eq_ok.1 h
      unfold readutf8esc at hr
      rw [saveNext_cons] at hr
      cases es with
      | nil => exact nomatch hr
      | cons o os =>
        by_cases ho : o = 123
        · subst ho
          dsimp only at hr
          rw [if_pos (show LS.cur ⟨123 :: os, b ++ [92] ++ [117], n⟩ 123 = true from rfl), gethexa_eq] at hr
          cases os with
          | nil => exact nomatch hr
          | cons d ds =>
            dsimp only at hr
            by_cases hd : isXdigit d = true
            · rw [if_pos hd, Res.bind_ok] at hr
              dsimp only at hr
              obtain ⟨xs, cs, hxs, hall, hn⟩ := split_class isXdigit ds
              subst hxs
              obtain ⟨u1, u2⟩ := uLoop_eq xs ((d :: (xs ++ cs)).length + 1) d cs (b ++ [92] ++ [117] ++ [123]) n (hexavalue d) 4
                (by simp; omega) hall hn (by have := hexavalue_lt hd; omega)
              by_cases hv : hexVal (hexavalue d) xs < 2 ^ 31
              · rw [u1 hv, Res.bind_ok] at hr
                dsimp only at hr
                cases cs with
                | nil => exact nomatch hr
                | cons q qs =>
                  by_cases hq : q = 125
                  · subst hq
                    rw [if_pos (show LS.cur ⟨125 :: qs, b ++ [92] ++ [117] ++ [123] ++ d :: xs, n⟩ 125 = true from rfl)] at hr
                    have e1 : b ++ [92] ++ [117] ++ [123] ++ d :: xs = b ++ (92 :: 117 :: 123 :: d :: xs) := by simp
                    rw [e1] at hr
                    change (LS.remove ⟨qs, b ++ (92 :: 117 :: 123 :: d :: xs), n⟩ (4 + xs.length) >>= _) = _ at hr
                    rw [remove_tail _ _ _ _ _ (by simp; omega), Res.bind_ok] at hr
                    injection hr with hr
                    injection hr with hr1 hr2
                    subst hr1 hr2
                    dsimp only at h
                    rw [Utf8.char_enc _ (by simp) _ hv, Res.bind_ok] at h
                    injection h with h
                    rw [← h]
                    refine ⟨_, ?_, rfl⟩
                    have hz : hexVal 0 (d :: xs) = hexVal (hexavalue d) xs := by
                      show hexVal (0 * 16 + hexavalue d) xs = _
                      rw [Nat.zero_mul, Nat.zero_add]
                    have := Piece.utf8 (del := del) (d :: xs) qs nofun (fun y hy => by
                      rcases List.mem_cons.1 hy with q | q
                      · rw [q]; exact hd
                      · exact hall y q) (by rw [hz]; exact hv)
                    rw [hz] at this
                    exact this
                  · rw [if_neg (by
                      unfold LS.cur; simpa using hq)] at hr
                    exact nomatch hr
              · obtain ⟨er, u2⟩ := u2 hv
                rw [u2] at hr; exact nomatch hr
            · rw [if_neg hd] at hr; exact nomatch hr
        · rw [if_neg (by unfold LS.cur; simpa using ho)] at hr
          exact nomatch hr
    rw [if_neg h1] at h
    by_cases h1 : isNl e = true
    · rw [if_pos h1, incl_eq] at h
      by_cases hm : n + 1 ≥ MAXINT
      · rw [if_pos hm] at h; exact nomatch h
      · rw [if_neg hm, Res.bind_ok, onlySave_eq] at h
        injection h with h
        rw [← h]
        exact ⟨_, .newline e es h1, rfl⟩
    rw [if_neg h1] at h
    by_cases h1 : e = 92 ∨ e = 34 ∨ e = 39
    · rw [if_pos h1] at h
      exact simple e (by rcases h1 with q | q | q <;> rw [q] <;> decide) h
    rw [if_neg h1] at h
    by_cases h1 : e = 122
    · rw [if_pos h1] at h
      subst h1
      rw [remove_tail _ _ _ _ 1 rfl, Res.bind_ok] at h
      obtain ⟨hb, ws, hi, hw, hn⟩ := zap_sound _ es b n l' h
      refine ⟨[], ?_, by rw [hb]; simp⟩
      rw [hi]
      exact .zap ws l'.inp hw hn
    rw [if_neg h1] at h
    by_cases h1 : isDigit e = true
    · rw [if_pos h1] at h
      obtain ⟨⟨c, l2⟩, hr, h⟩ := Res.bind_eq_ok.1 h
      unfold readdecesc at hr
      obtain ⟨ds, cs, hds, hall, hlen, hn⟩ := split_max isDigit 3 (e :: es)
      rw [hds, decLoop_eq ds 3 cs (b ++ [92]) n 0 0 hlen hall hn] at hr
      dsimp only at hr
      by_cases hv : decVal 0 ds ≤ 255
      · rw [if_pos hv, remove_tail _ _ _ _ _ (by omega), Res.bind_ok] at hr
        injection hr with hr
        injection hr with hr1 hr2
        subst hr1 hr2
        dsimp only at h
        rw [onlySave_eq] at h
        injection h with h
        rw [← h, hds]
        refine ⟨_, .dec ds cs ?_ hall hlen hn hv, rfl⟩
        rintro rfl
        have := hn (by simp) e es hds.symm
        rw [h1] at this
        exact nomatch this
      · rw [if_neg hv] at hr; exact nomatch hr
    rw [if_neg h1] at h
    exact nomatch h

/-- Every escape sequence of the grammar is read. -/
theorem escape_complete (del : UInt8) (cs b : List UInt8) (n : Nat) (v rest : List UInt8) (hp : Piece del (92 :: cs) v rest)
    (hb : n + breaks (92 :: cs) < MAXINT) : ∃ n', escape ⟨92 :: cs, b, n⟩ = .ok ⟨rest, b ++ v, n'⟩ := by
  rw [breaks_cons rfl] at hb
  unfold escape
  rw [saveNext_cons]
  cases hp with
  | plain _ _ _ h _ => exact absurd rfl h
  | letter e v es hv =>
    dsimp only [LS.next, List.tail_cons]
    simp only [letters, List.mem_cons, Prod.mk.injEq, List.not_mem_nil, or_false] at hv
    rcases hv with ⟨rfl, rfl⟩ | ⟨rfl, rfl⟩ | ⟨rfl, rfl⟩ | ⟨rfl, rfl⟩ | ⟨rfl, rfl⟩ | ⟨rfl, rfl⟩ | ⟨rfl, rfl⟩ | ⟨rfl, rfl⟩ | ⟨rfl, rfl⟩ | ⟨rfl, rfl⟩ <;>
      exact ⟨n, onlySave_eq _ _ _ _ _⟩
  | hex x y ys hx hy =>
    refine ⟨n, ?_⟩
    show (readhexaesc ⟨120 :: x :: y :: rest, b ++ [92], n⟩ >>= _) = _
    unfold readhexaesc
    rw [gethexa_eq]
    dsimp only
    rw [if_pos hx, Res.bind_ok]
    dsimp only
    rw [gethexa_eq]
    dsimp only
    rw [if_pos hy, Res.bind_ok]
    dsimp only
    rw [List.append_assoc, List.append_assoc, ← List.append_assoc b, remove_tail _ _ _ _ 2 rfl, Res.bind_ok]
    show onlySave ⟨rest, b ++ [92], n⟩ _ = _
    rw [onlySave_eq]
    simp [hexVal]
  | dec ds cs' hne hall hlen hn hv =>
    cases ds with
    | nil => exact absurd rfl hne
    | cons e es =>
      have he := hall e (by simp)
      have hd : ∀ c : UInt8, isDigit c = true → c ≠ 97 ∧ c ≠ 98 ∧ c ≠ 102 ∧ c ≠ 110 ∧ c ≠ 114 ∧ c ≠ 116 ∧ c ≠ 118 ∧ c ≠ 120 ∧ c ≠ 117 ∧
          isNl c = false ∧ ¬ (c = 92 ∨ c = 34 ∨ c = 39) ∧ c ≠ 122 := Utf8.u8_forall (by decide +kernel)
      obtain ⟨d1, d2, d3, d4, d5, d6, d7, d8, d9, d10, d11, d12⟩ := hd e he
      dsimp only [List.cons_append]
      rw [if_neg d1, if_neg d2, if_neg d3, if_neg d4, if_neg d5, if_neg d6, if_neg d7, if_neg d8, if_neg d9, d10, if_neg (by simp),
        if_neg d11, if_neg d12, if_pos he]
      refine ⟨n, ?_⟩
      unfold readdecesc
      have := decLoop_eq (e :: es) 3 rest (b ++ [92]) n 0 0 hlen hall hn
      rw [List.cons_append] at this
      rw [this]
      dsimp only
      rw [if_pos hv, remove_tail _ _ _ _ _ (by simp), Res.bind_ok, pure, Res.instMonad]
      show onlySave ⟨rest, b ++ [92], n⟩ _ = _
      rw [onlySave_eq]
  | utf8 ds cs' hne hall hv =>
    cases ds with
    | nil => exact absurd rfl hne
    | cons d xs =>
      refine ⟨n, ?_⟩
      show utf8esc ⟨117 :: 123 :: (d :: xs ++ 125 :: rest), b ++ [92], n⟩ = _
      unfold utf8esc readutf8esc
      rw [saveNext_cons]
      dsimp only
      rw [if_pos (show LS.cur ⟨123 :: (d :: xs ++ 125 :: rest), b ++ [92] ++ [117], n⟩ 123 = true from rfl), gethexa_eq]
      have hd := hall d (by simp)
      dsimp only [List.cons_append]
      rw [if_pos hd, Res.bind_ok]
      dsimp only
      have hz : hexVal 0 (d :: xs) = hexVal (hexavalue d) xs := by
        show hexVal (0 * 16 + hexavalue d) xs = _
        rw [Nat.zero_mul, Nat.zero_add]
      rw [hz] at hv ⊢
      have hn125 : NotAt isXdigit (125 :: rest) := by
        intro c r e
        injection e with e1 e2
        rw [← e1]; rfl
      obtain ⟨u1, _⟩ := uLoop_eq xs ((d :: (xs ++ 125 :: rest)).length + 1) d (125 :: rest) (b ++ [92] ++ [117] ++ [123]) n (hexavalue d) 4
        (by simp; omega) (fun y hy => hall y (by simp [hy])) hn125 (by have := hexavalue_lt hd; omega)
      rw [u1 hv, Res.bind_ok]
      dsimp only
      rw [if_pos (show LS.cur ⟨125 :: rest, b ++ [92] ++ [117] ++ [123] ++ d :: xs, n⟩ 125 = true from rfl)]
      have e1 : b ++ [92] ++ [117] ++ [123] ++ d :: xs = b ++ (92 :: 117 :: 123 :: d :: xs) := by simp
      rw [e1]
      have hr : LS.remove (LS.next ⟨125 :: rest, b ++ (92 :: 117 :: 123 :: d :: xs), n⟩) (4 + xs.length) = .ok ⟨rest, b, n⟩ :=
        remove_tail rest b (92 :: 117 :: 123 :: d :: xs) n (4 + xs.length) (by simp; omega)
      rw [hr, Res.bind_ok]
      show (Utf8.charBytes (List.replicate 8 0xA5) (hexVal (hexavalue d) xs) >>= _) = _
      rw [Utf8.char_enc _ (by simp) _ hv, Res.bind_ok]
      rfl
  | newline e es h1 =>
    have hne : ∀ c : UInt8, isNl c = true → c ≠ 97 ∧ c ≠ 98 ∧ c ≠ 102 ∧ c ≠ 110 ∧ c ≠ 114 ∧ c ≠ 116 ∧ c ≠ 118 ∧ c ≠ 120 ∧ c ≠ 117 :=
      Utf8.u8_forall (by decide +kernel)
    obtain ⟨d1, d2, d3, d4, d5, d6, d7, d8, d9⟩ := hne e h1
    dsimp only
    rw [breaks_nl es h1] at hb
    rw [if_neg d1, if_neg d2, if_neg d3, if_neg d4, if_neg d5, if_neg d6, if_neg d7, if_neg d8, if_neg d9, if_pos h1, incl_eq,
      if_neg (by omega), Res.bind_ok]
    exact ⟨n + 1, onlySave_eq _ _ _ _ _⟩
  | zap ws cs' hw hn =>
    show ∃ n', (LS.remove ⟨122 :: (ws ++ rest), b ++ [92], n⟩ 1 >>= fun l => zapLoop (l.inp.length + 1) l.next) = _
    rw [remove_tail _ _ _ _ 1 rfl, Res.bind_ok]
    rw [breaks_cons rfl] at hb
    show ∃ n', zapLoop _ ⟨ws ++ rest, b, n⟩ = _
    obtain ⟨l', h⟩ := zap_complete ((122 :: (ws ++ rest)).length + 1) (ws ++ rest) b n (by simp; omega) hb
    obtain ⟨h1, ws', h2, h3, h4⟩ := zap_sound _ _ _ _ _ h
    have h5 := split_unique ws h2 hw h3 hn h4
    refine ⟨l'.line, ?_⟩
    rw [List.append_nil]
    rw [h, h5, ← h1]

theorem strLoop_sound (del : UInt8) : ∀ (fuel : Nat) (inp b : List UInt8) (n : Nat) (l' : LS),
    strLoop del fuel ⟨inp, b, n⟩ = .ok l' → ∃ val rest, l'.inp = del :: rest ∧ l'.buff = b ++ val ∧ Lit del inp val rest := by
  intro fuel
  induction fuel with
  | zero => intro _ _ _ _ e; exact nomatch e
  | succ fuel ih =>
    intro inp b n l' e
    unfold strLoop at e
    cases inp with
    | nil => exact nomatch e
    | cons c cs =>
      dsimp only at e
      by_cases h1 : c = del
      · rw [if_pos h1] at e
        injection e with e
        rw [← e, h1]
        exact ⟨[], cs, rfl, by simp, .close cs⟩
      rw [if_neg h1] at e
      by_cases h2 : isNl c = true
      · rw [if_pos h2] at e; exact nomatch e
      rw [if_neg h2] at e
      by_cases h3 : c = 92
      · rw [if_pos h3] at e
        obtain ⟨l2, he, e⟩ := Res.bind_eq_ok.1 e
        subst h3
        rcases escape_sound del cs b n l2 he with ⟨_, hi⟩ | ⟨v, hp, hbuf⟩
        · obtain ⟨i2, b2, n2⟩ := l2
          dsimp only at hi
          subst hi
          cases fuel with
          | zero => exact nomatch e
          | succ fuel => exact nomatch e
        · obtain ⟨i2, b2, n2⟩ := l2
          obtain ⟨val, rest, q1, q2, q3⟩ := ih _ _ _ _ e
          dsimp only at hbuf hp
          refine ⟨v ++ val, rest, q1, ?_, .more hp q3⟩
          rw [q2, hbuf, List.append_assoc]
      · rw [if_neg h3, saveNext_cons] at e
        obtain ⟨val, rest, q1, q2, q3⟩ := ih _ _ _ _ e
        refine ⟨[c] ++ val, rest, q1, by rw [q2, List.append_assoc], .more (.plain c cs h1 h3 (by simpa using h2)) q3⟩

theorem piece_shorter {del : UInt8} {inp v mid : List UInt8} (h : Piece del inp v mid) : mid.length < inp.length := by
  cases h with
  | plain => simp
  | letter => simp; omega
  | hex => simp; omega
  | dec ds cs hne _ _ _ _ => simp; omega
  | utf8 => simp; omega
  | newline c cs h => have := afterNl_le c cs; simp; omega
  | zap => simp; omega

theorem strLoop_complete (del : UInt8) (hd : del ≠ 92) (inp val rest : List UInt8) (h : Lit del inp val rest) :
    ∀ (fuel : Nat) (b : List UInt8) (n : Nat), inp.length < fuel → n + breaks inp < MAXINT →
    ∃ n', strLoop del fuel ⟨inp, b, n⟩ = .ok ⟨del :: rest, b ++ val, n'⟩ := by
  induction h with
  | close rest =>
    intro fuel b n hf hb
    cases fuel with
    | zero => omega
    | succ fuel =>
      refine ⟨n, ?_⟩
      unfold strLoop
      dsimp only
      rw [if_pos rfl, List.append_nil]
  | more hp hl ih =>
    rename_i inp v mid w rest
    intro fuel b n hf hb
    cases fuel with
    | zero => omega
    | succ fuel =>
      have hsh := piece_shorter hp
      cases inp with
      | nil => simp at hsh
      | cons c cs =>
        unfold strLoop
        dsimp only
        by_cases h3 : c = 92
        · subst h3
          obtain ⟨n', he⟩ := escape_complete del cs b n v mid hp hb
          have hstep := step_escape (l := ⟨92 :: cs, b, n⟩) rfl
          rw [he] at hstep
          rw [if_neg (Ne.symm hd), if_neg (by decide), if_pos rfl, he, Res.bind_ok]
          obtain ⟨n2, q⟩ := ih fuel (b ++ v) n' (by omega) (by
            have := hstep.1.1
            dsimp only at this
            omega)
          exact ⟨n2, by rw [q, List.append_assoc]⟩
        · cases hp with
          | plain _ _ h1 h2 h4 =>
            rw [if_neg h1, h4, if_neg (by simp), if_neg h3, saveNext_cons]
            rw [breaks_cons h4] at hb
            obtain ⟨n2, q⟩ := ih fuel (b ++ [c]) n (by omega) hb
            exact ⟨n2, by rw [q, List.append_assoc]⟩
          | letter | hex | dec | utf8 | newline | zap => exact absurd rfl h3

/-- Short literals: with either delimiter, the lexer accepts exactly the literals of the grammar, and
delivers their value and the text after them (a text with too many lines apart). -/
theorem string_exact (del : UInt8) (hd : del = 34 ∨ del = 39) (inp : List UInt8) (n : Nat) (hb : n + breaks inp < MAXINT)
    (val rest : List UInt8) :
    (∃ l', readString del ⟨del :: inp, [], n⟩ = .ok (val, l') ∧ l'.inp = rest) ↔ Lit del inp val rest := by
  have hd92 : del ≠ 92 := by rcases hd with q | q <;> rw [q] <;> decide
  unfold readString
  rw [saveNext_cons]
  dsimp only [List.nil_append]
  have finish : ∀ (val rest : List UInt8) (n' : Nat), (LS.saveNext ⟨del :: rest, [del] ++ val, n'⟩).inp = rest ∧
      (if 2 ≤ (LS.saveNext ⟨del :: rest, [del] ++ val, n'⟩).buff.length
        then (pure ((((LS.saveNext ⟨del :: rest, [del] ++ val, n'⟩).buff.drop 1).take
          ((LS.saveNext ⟨del :: rest, [del] ++ val, n'⟩).buff.length - 2)), LS.saveNext ⟨del :: rest, [del] ++ val, n'⟩) : Res (List UInt8 × LS))
        else .ub) = .ok (val, LS.saveNext ⟨del :: rest, [del] ++ val, n'⟩) := by
    intro val rest n'
    rw [saveNext_cons]
    refine ⟨rfl, ?_⟩
    rw [if_pos (by simp)]
    show Res.ok _ = _
    congr 2
    have : ([del] ++ val ++ [del]).length - 2 = val.length := by simp
    dsimp only
    rw [this]
    simp
  constructor
  · rintro ⟨l', e, hi⟩
    obtain ⟨l2, hs, e⟩ := Res.bind_eq_ok.1 e
    obtain ⟨v, r, h1, h2, h3⟩ := strLoop_sound del _ _ _ _ _ hs
    obtain ⟨i2, b2, n2⟩ := l2
    dsimp only at h1 h2
    subst h1 h2
    rw [(finish v r n2).2] at e
    injection e with e
    injection e with e1 e2
    rw [← e2, (finish v r n2).1] at hi
    rw [← e1, ← hi]; exact h3
  · intro h
    obtain ⟨n', hs⟩ := strLoop_complete del hd92 inp val rest h (inp.length + 1) [del] n (Nat.lt_succ_self _) hb
    refine ⟨LS.saveNext ⟨del :: rest, [del] ++ val, n'⟩, ?_, (finish val rest n').1⟩
    rw [hs, Res.bind_ok]
    exact (finish val rest n').2

theorem decimal_spec : ∀ c : UInt8, iscntrl c = true → ∀ pad : Bool,
    decimal pad c ≠ [] ∧ (∀ d ∈ decimal pad c, isDigit d = true) ∧ (decimal pad c).length ≤ 3 ∧ decVal 0 (decimal pad c) = c.toNat ∧
    (pad = true → (decimal pad c).length = 3) := Utf8.u8_forall (by decide +kernel)

theorem quote_head (s rest : List UInt8) : ∃ c cs, quoteLoop s ++ 34 :: rest = c :: cs ∧ isNl c = false ∧
    (isDigit c = true → isDigit (s.head?.getD 0) = true) := by
  cases s with
  | nil => exact ⟨34, rest, rfl, rfl, fun h => nomatch h⟩
  | cons c cs =>
    unfold quoteLoop
    by_cases h1 : c = 34 ∨ c = 92 ∨ c = 10
    · rw [if_pos h1]
      exact ⟨92, c :: (quoteLoop cs ++ 34 :: rest), by simp, rfl, fun h => nomatch h⟩
    · rw [if_neg h1]
      by_cases h2 : iscntrl c = true
      · rw [if_pos h2]
        exact ⟨92, _, by rw [List.append_assoc, List.cons_append], rfl, fun h => nomatch h⟩
      · rw [if_neg h2]
        refine ⟨c, quoteLoop cs ++ 34 :: rest, by simp, ?_, fun h => h⟩
        have : ∀ c : UInt8, iscntrl c = false → isNl c = false := Utf8.u8_forall (by decide +kernel)
        exact this c (by simpa using h2)

theorem quote_lit (s rest : List UInt8) : Lit 34 (quoteLoop s ++ 34 :: rest) s rest := by
  induction s with
  | nil => exact .close rest
  | cons c cs ih =>
    obtain ⟨x, xs, hx, hnl, hdig⟩ := quote_head cs rest
    have e0 : c :: cs = [c] ++ cs := rfl
    have eq : quoteLoop (c :: cs) = (if c = 34 ∨ c = 92 ∨ c = 10 then [92, c]
        else if iscntrl c = true then 92 :: decimal (isDigit (cs.head?.getD 0)) c else [c]) ++ quoteLoop cs := rfl
    rw [eq, List.append_assoc, e0]
    by_cases h1 : c = 34 ∨ c = 92 ∨ c = 10
    · rw [if_pos h1]
      rcases h1 with h1 | h1 | h1
      · subst h1
        exact .more (.letter 34 34 _ (by decide)) ih
      · subst h1
        exact .more (.letter 92 92 _ (by decide)) ih
      · subst h1
        have hp := Piece.newline (del := 34) 10 (quoteLoop cs ++ 34 :: rest) rfl
        have ha : afterNl 10 (quoteLoop cs ++ 34 :: rest) = quoteLoop cs ++ 34 :: rest := by
          rw [hx]
          unfold afterNl
          dsimp only
          rw [if_neg (by rw [hnl]; simp)]
        rw [ha] at hp
        exact .more hp ih
    · rw [if_neg h1]
      by_cases h2 : iscntrl c = true
      · rw [if_pos h2]
        obtain ⟨d1, d2, d3, d4, d5⟩ := decimal_spec c h2 (isDigit (cs.head?.getD 0))
        have hp := Piece.dec (del := 34) (decimal (isDigit (cs.head?.getD 0)) c) (quoteLoop cs ++ 34 :: rest) d1 d2 d3 (by
          intro hlt y ys hy
          rw [hx] at hy
          injection hy with hy _
          rw [← hy]
          cases hq : isDigit x with
          | false => rfl
          | true =>
            have := d5 (hdig hq)
            omega) (by rw [d4]; have := c.toNat_lt; omega)
        rw [d4] at hp
        have hc : UInt8.ofNat c.toNat = c := by simp
        rw [hc] at hp
        exact .more hp ih
      · rw [if_neg h2]
        have hq : ∀ c : UInt8, iscntrl c = false → isNl c = false := Utf8.u8_forall (by decide +kernel)
        exact .more (.plain c _ (fun q => h1 (Or.inl q)) (fun q => h1 (Or.inr (Or.inl q))) (hq c (by simpa using h2))) ih

/-- Quoted strings read back: for every byte string, whatever follows it in the text, the lexer reads
what `%q` wrote as the string. -/
theorem quote_roundtrip (s rest : List UInt8) (n : Nat) (hb : n + breaks (quoteLoop s ++ 34 :: rest) < MAXINT) :
    ∃ l', readString 34 ⟨quote s ++ rest, [], n⟩ = .ok (s, l') ∧ l'.inp = rest := by
  have h := (string_exact 34 (Or.inl rfl) (quoteLoop s ++ 34 :: rest) n hb s rest).2 (quote_lit s rest)
  have e : quote s ++ rest = 34 :: (quoteLoop s ++ 34 :: rest) := by unfold quote; simp
  rw [e]; exact h

/-- A zero before a digit, a carriage return, a newline, a quote and a backslash. -/
example : quote [0, 49, 13, 10, 34, 92] = [34, 92, 48, 48, 48, 49, 92, 49, 51, 92, 10, 92, 34, 92, 92, 34] ∧
    1 + breaks (quoteLoop [0, 49, 13, 10, 34, 92] ++ 34 :: []) < MAXINT := by decide +kernel

end Verif.Lex
