import Verif.Lex.Strings

/-!
# C65, C66 — long brackets, and the casts
-/
namespace Verif.Lex
open Verif.Num (isDigit isSpace isXdigit hexavalue testprop str2int)

/-- The closing bracket of level `k`. -/
def close (k : Nat) : List UInt8 := 93 :: (List.replicate k 61 ++ [93])

/-- The text with each line break (`\n`, `\r`, `\r\n`, `\n\r`) replaced by `\n`. -/
def norm : List UInt8 → List UInt8
  | [] => []
  | [c] => if isNl c then [10] else [c]
  | c :: d :: cs =>
    if isNl c then
      if isNl d ∧ d ≠ c then 10 :: norm cs else 10 :: norm (d :: cs)
    else c :: norm (d :: cs)

/-- `body` is what comes before the first closing bracket of level `k`, `rest` what comes after it. -/
def First (k : Nat) (inp body rest : List UInt8) : Prop :=
  inp = body ++ (close k ++ rest) ∧ ∀ b r, inp = b ++ (close k ++ r) → body.length ≤ b.length

/-- The text without a line break at its start. -/
def dropFirst (inp : List UInt8) : List UInt8 :=
  match inp with
  | [] => []
  | c :: cs => if isNl c then afterNl c cs else c :: cs

theorem norm_cons {c : UInt8} {cs : List UInt8} (h : isNl c = false) : norm (c :: cs) = c :: norm cs := by
  cases cs with
  | nil => simp [norm, h]
  | cons d ds => simp [norm, h]

theorem norm_nl {c : UInt8} (cs : List UInt8) (hc : isNl c = true) : norm (c :: cs) = 10 :: norm (afterNl c cs) := by
  cases cs with
  | nil => simp [norm, afterNl, hc]
  | cons d ds =>
    unfold afterNl
    dsimp only
    rw [norm, if_pos hc]
    split <;> rfl

theorem norm_eqs (j : Nat) (cs : List UInt8) : norm (List.replicate j 61 ++ cs) = List.replicate j 61 ++ norm cs := by
  induction j with
  | zero => rfl
  | succ j ih =>
    rw [List.replicate_succ, List.cons_append, norm_cons rfl, ih, List.cons_append]

theorem first_shift {k : Nat} (p : List UInt8) {inp body rest : List UInt8} (h : First k (p ++ inp) (p ++ body) rest) : First k inp body rest := by
  obtain ⟨h1, h2⟩ := h
  refine ⟨?_, ?_⟩
  · rw [List.append_assoc] at h1
    exact List.append_cancel_left h1
  · intro b r e
    have := h2 (p ++ b) r (by rw [e, List.append_assoc])
    simpa using this

theorem sepLoop_eq (j : Nat) : ∀ (fuel : Nat) (cs b : List UInt8) (n count : Nat), j < fuel → NotAt (· == 61) cs →
    sepLoop fuel ⟨List.replicate j 61 ++ cs, b, n⟩ count = .ok (count + j, ⟨cs, b ++ List.replicate j 61, n⟩) := by
  induction j with
  | zero =>
    intro fuel cs b n count hf hn
    cases fuel with
    | zero => omega
    | succ fuel =>
      unfold sepLoop
      rw [if_neg]
      · simp
      · cases cs with
        | nil => simp [LS.cur]
        | cons c cs => have := hn c cs rfl; simpa [LS.cur] using this
  | succ j ih =>
    intro fuel cs b n count hf hn
    cases fuel with
    | zero => omega
    | succ fuel =>
      unfold sepLoop
      rw [if_pos (by simp [LS.cur, List.replicate_succ]), List.replicate_succ, List.cons_append, saveNext_cons,
        ih fuel cs _ n _ (by omega) hn, List.append_assoc]
      simp; omega

theorem skipSep_eq (c : UInt8) (j : Nat) (cs b : List UInt8) (n : Nat) (hn : NotAt (· == 61) cs) :
    skipSep ⟨c :: (List.replicate j 61 ++ cs), b, n⟩ =
      .ok (if cs.head? = some c then j + 2 else if j = 0 then 1 else 0, ⟨cs, b ++ (c :: List.replicate j 61), n⟩) := by
  unfold skipSep
  rw [saveNext_cons]
  dsimp only
  rw [sepLoop_eq j _ cs _ n 0 (by simp; omega) hn, Res.bind_ok]
  rw [Nat.zero_add, List.append_assoc]
  rfl

theorem skipSep_open (k : Nat) (inp b : List UInt8) (n : Nat) :
    skipSep ⟨91 :: (List.replicate k 61 ++ 91 :: inp), b, n⟩ = .ok (k + 2, ⟨91 :: inp, b ++ (91 :: List.replicate k 61), n⟩) := by
  rw [skipSep_eq 91 k (91 :: inp) b n (by intro c r e; injection e with e1 e2; rw [← e1]; rfl)]
  rfl

theorem eqs_split (cs : List UInt8) : ∃ j ds, cs = List.replicate j 61 ++ ds ∧ NotAt (· == 61) ds := by
  obtain ⟨es, ds, e, h1, h2⟩ := split_class (· == 61) cs
  refine ⟨es.length, ds, ?_, h2⟩
  rw [e]
  congr 1
  exact List.eq_replicate_iff.2 ⟨rfl, fun x hx => by simpa using h1 x hx⟩

theorem eqs_unique {j k : Nat} {xs ys : List UInt8} (e : List.replicate j 61 ++ xs = List.replicate k 61 ++ ys) (h1 : NotAt (· == 61) xs)
    (h2 : NotAt (· == 61) ys) : j = k ∧ xs = ys := by
  induction j generalizing k with
  | zero =>
    cases k with
    | zero => exact ⟨rfl, e⟩
    | succ k =>
      have := h1 61 (List.replicate k 61 ++ ys) (by simpa [List.replicate_succ] using e)
      simp at this
  | succ j ih =>
    cases k with
    | zero =>
      have := h2 61 (List.replicate j 61 ++ xs) (by simpa [List.replicate_succ] using e.symm)
      simp at this
    | succ k =>
      rw [List.replicate_succ, List.replicate_succ, List.cons_append, List.cons_append] at e
      injection e with _ e
      obtain ⟨q1, q2⟩ := ih e
      exact ⟨by omega, q2⟩

theorem afterNl_append (c : UInt8) (bs : List UInt8) (x : UInt8) (xs : List UInt8) (h : isNl x = false) :
    afterNl c (bs ++ x :: xs) = afterNl c bs ++ x :: xs := by
  cases bs with
  | nil =>
    show afterNl c (x :: xs) = x :: xs
    unfold afterNl
    dsimp only
    rw [if_neg (by rw [h]; simp)]
  | cons d ds =>
    show afterNl c (d :: (ds ++ x :: xs)) = _
    unfold afterNl
    dsimp only
    split <;> rfl

theorem afterNl_suffix (c : UInt8) (cs : List UInt8) : ∃ p, cs = p ++ afterNl c cs := by
  cases cs with
  | nil => exact ⟨[], rfl⟩
  | cons d ds =>
    unfold afterNl
    dsimp only
    split
    · exact ⟨[d], rfl⟩
    · exact ⟨[], rfl⟩

theorem longLoop_eq (str : Bool) (k : Nat) : ∀ (fuel : Nat) (inp b : List UInt8) (n : Nat), inp.length < fuel → n + breaks inp < MAXINT →
    (∀ body rest, First k inp body rest → ∃ b' n', longLoop str (k + 2) fuel ⟨inp, b, n⟩ = .ok ⟨rest, b', n'⟩ ∧
      (str = true → b' = b ++ norm body ++ close k)) ∧
    ((∀ p r, inp ≠ p ++ (close k ++ r)) → ∃ e, longLoop str (k + 2) fuel ⟨inp, b, n⟩ = .err e) := by
  intro fuel
  induction fuel with
  | zero => intro inp b n h; omega
  | succ fuel ih =>
    intro inp b n hf hb
    cases inp with
    | nil =>
      refine ⟨fun body rest h => ?_, fun _ => ⟨_, rfl⟩⟩
      have := congrArg List.length h.1
      simp [close] at this
    | cons c cs =>
      by_cases hc : c = 93
      · subst hc
        obtain ⟨j, ds, rfl, hn⟩ := eqs_split cs
        have e0 : longLoop str (k + 2) (fuel + 1) ⟨93 :: (List.replicate j 61 ++ ds), b, n⟩ =
            (if (if ds.head? = some 93 then j + 2 else if j = 0 then 1 else 0) = k + 2
              then .ok (LS.saveNext ⟨ds, b ++ (93 :: List.replicate j 61), n⟩)
              else longLoop str (k + 2) fuel ⟨ds, b ++ (93 :: List.replicate j 61), n⟩) := by
          rw [longLoop]
          dsimp only
          rw [if_pos rfl, skipSep_eq _ _ _ _ _ hn, Res.bind_ok]
        rw [e0]
        by_cases hm : ds.head? = some 93 ∧ j = k
        · obtain ⟨hd, rfl⟩ := hm
          cases ds with
          | nil => exact nomatch hd
          | cons d ds =>
            injection hd with hd
            subst hd
            have e1 : (93 : UInt8) :: (List.replicate j 61 ++ 93 :: ds) = [] ++ (close j ++ ds) := by simp [close]
            rw [if_pos (show (if List.head? (93 :: ds) = some (93 : UInt8) then j + 2 else if j = 0 then 1 else 0) = j + 2 from if_pos rfl), saveNext_cons]
            constructor
            · intro body rest h
              have hz := h.2 [] ds e1
              have hb0 : body = [] := List.length_eq_zero_iff.1 (by simpa using hz)
              subst hb0
              have h1 := h.1
              rw [e1, List.nil_append, List.nil_append] at h1
              have := List.append_cancel_left h1
              subst this
              exact ⟨_, _, rfl, fun _ => by simp [close, norm]⟩
            · intro h
              exact absurd e1 (h _ _)
        · have hv : ¬ (if ds.head? = some 93 then j + 2 else if j = 0 then 1 else 0) = k + 2 := by
            intro q
            split at q
            · rename_i hd; exact hm ⟨hd, by omega⟩
            · split at q <;> omega
          rw [if_neg hv]
          have hbr : breaks (93 :: (List.replicate j 61 ++ ds)) = breaks ds := by
            rw [breaks_cons rfl]
            clear hv hm e0 hb hf hn
            induction j with
            | zero => rfl
            | succ j ih => rw [List.replicate_succ, List.cons_append, breaks_cons rfl, ih]
          obtain ⟨i1, i2⟩ := ih ds (b ++ (93 :: List.replicate j 61)) n (by simp at hf; omega) (by rw [← hbr]; exact hb)
          constructor
          · intro body rest h
            have key : ∃ body', body = (93 :: List.replicate j 61) ++ body' := by
              cases body with
              | nil =>
                exfalso
                have h1 := h.1
                rw [List.nil_append] at h1
                simp only [close, List.cons_append, List.append_assoc, List.nil_append] at h1
                injection h1 with _ h1
                obtain ⟨q1, q2⟩ := eqs_unique h1 hn (by
                  intro c r e; injection e with e1 e2; rw [← e1]; rfl)
                exact hm ⟨by rw [q2]; rfl, q1⟩
              | cons x bs =>
                have h1 := h.1
                rw [List.cons_append] at h1
                injection h1 with hx h1
                subst hx
                rcases List.append_eq_append_iff.1 h1 with ⟨a, q1, q2⟩ | ⟨a, q1, q2⟩
                · exact ⟨a, by rw [q1]; rfl⟩
                · cases a with
                  | nil => exact ⟨[], by rw [q1]; simp⟩
                  | cons y ys =>
                    exfalso
                    rw [close, List.cons_append, List.cons_append] at q2
                    injection q2 with q2 _
                    have : y ∈ List.replicate j (61 : UInt8) := by rw [q1]; simp
                    rw [List.mem_replicate] at this
                    rw [this.2] at q2
                    exact nomatch q2
            obtain ⟨body', rfl⟩ := key
            obtain ⟨b', n', e, hb'⟩ := i1 body' rest (first_shift (93 :: List.replicate j 61) h)
            refine ⟨b', n', e, fun q => ?_⟩
            rw [hb' q]
            have : norm (93 :: List.replicate j 61 ++ body') = 93 :: List.replicate j 61 ++ norm body' := by
              rw [List.cons_append, norm_cons rfl, norm_eqs]; rfl
            rw [this]
            simp
          · intro h
            exact i2 (fun p r e => h ((93 :: List.replicate j 61) ++ p) r (by rw [e]; simp))
      · have body_cons : ∀ body rest, First k (c :: cs) body rest → ∃ bs, body = c :: bs := by
          intro body rest h
          cases body with
          | nil =>
            have h1 := h.1
            rw [List.nil_append, close, List.cons_append] at h1
            injection h1 with h1 _
            exact absurd h1 hc
          | cons x bs =>
            have h1 := h.1
            rw [List.cons_append] at h1
            injection h1 with h1 _
            exact ⟨bs, by rw [h1]⟩
        rw [longLoop]
        dsimp only
        rw [if_neg hc]
        by_cases hnl : isNl c = true
        · rw [breaks_nl cs hnl] at hb
          have e1 : inclinenumber (LS.save ⟨c :: cs, b, n⟩ 10) = .ok ⟨afterNl c cs, b ++ [10], n + 1⟩ := by
            show inclinenumber ⟨c :: cs, b ++ [10], n⟩ = _
            rw [incl_eq, if_neg (by omega)]
          rw [if_pos hnl, e1, Res.bind_ok]
          have hl := afterNl_le c cs
          obtain ⟨p, hp⟩ := afterNl_suffix c cs
          have hno : (∀ p r, c :: cs ≠ p ++ (close k ++ r)) → ∀ p r, afterNl c cs ≠ p ++ (close k ++ r) := by
            intro h q r e
            apply h (c :: p ++ q) r
            rw [List.append_assoc, ← e, List.cons_append, ← hp]
          have hfi : ∀ bs rest, First k (c :: cs) (c :: bs) rest → First k (afterNl c cs) (afterNl c bs) rest := by
            intro bs rest h
            have h1 : cs = bs ++ (close k ++ rest) := by have := h.1; injection this
            have h2 : afterNl c cs = afterNl c bs ++ (close k ++ rest) := by
              rw [h1]; exact afterNl_append c bs 93 _ rfl
            refine ⟨h2, fun q r e => ?_⟩
            have h3 := h.2 (c :: p ++ q) r (by rw [List.append_assoc, ← e, List.cons_append, ← hp])
            have h4 := congrArg List.length hp
            have h5 := congrArg List.length h1
            have h6 := congrArg List.length h2
            simp at h3 h4 h5 h6
            omega
          have hlen : (afterNl c cs).length < fuel := by simp at hf; omega
          have hbr : n + 1 + breaks (afterNl c cs) < MAXINT := by omega
          cases str with
          | true =>
            obtain ⟨i1, i2⟩ := ih (afterNl c cs) (b ++ [10]) (n + 1) hlen hbr
            constructor
            · intro body rest h
              obtain ⟨bs, rfl⟩ := body_cons body rest h
              obtain ⟨b', n', e, hb'⟩ := i1 _ _ (hfi bs rest h)
              refine ⟨b', n', e, fun q => ?_⟩
              rw [hb' q, norm_nl bs hnl]
              simp
            · intro h; exact i2 (hno h)
          | false =>
            obtain ⟨i1, i2⟩ := ih (afterNl c cs) [] (n + 1) hlen hbr
            constructor
            · intro body rest h
              obtain ⟨bs, rfl⟩ := body_cons body rest h
              obtain ⟨b', n', e, hb'⟩ := i1 _ _ (hfi bs rest h)
              exact ⟨b', n', e, nofun⟩
            · intro h; exact i2 (hno h)
        · have hnl' : isNl c = false := by simpa using hnl
          rw [if_neg hnl]
          rw [breaks_cons hnl'] at hb
          have hlen : cs.length < fuel := by simp at hf; omega
          have hno : (∀ p r, c :: cs ≠ p ++ (close k ++ r)) → ∀ p r, cs ≠ p ++ (close k ++ r) :=
            fun h p r e => h (c :: p) r (by rw [e]; rfl)
          cases str with
          | true =>
            obtain ⟨i1, i2⟩ := ih cs (b ++ [c]) n hlen hb
            constructor
            · intro body rest h
              obtain ⟨bs, rfl⟩ := body_cons body rest h
              obtain ⟨b', n', e, hb'⟩ := i1 _ _ (first_shift [c] h)
              refine ⟨b', n', e, fun q => ?_⟩
              rw [hb' q, norm_cons hnl']
              simp
            · intro h; exact i2 (hno h)
          | false =>
            obtain ⟨i1, i2⟩ := ih cs b n hlen hb
            constructor
            · intro body rest h
              obtain ⟨bs, rfl⟩ := body_cons body rest h
              obtain ⟨b', n', e, hb'⟩ := i1 _ _ (first_shift [c] h)
              exact ⟨b', n', e, nofun⟩
            · intro h; exact i2 (hno h)

/-- `First` is found or there is no closing bracket. -/
theorem first_or (k : Nat) (inp : List UInt8) : (∃ body rest, First k inp body rest) ∨ ∀ p r, inp ≠ p ++ (close k ++ r) := by
  by_cases h : ∃ m p r, inp = p ++ (close k ++ r) ∧ p.length = m
  · left
    obtain ⟨m, hm⟩ := h
    induction m using Nat.strongRecOn with
    | ind m ih =>
      obtain ⟨p, r, e, hl⟩ := hm
      by_cases hs : ∃ m' < m, ∃ p r, inp = p ++ (close k ++ r) ∧ p.length = m'
      · obtain ⟨m', h1, h2⟩ := hs
        exact ih m' h1 h2
      · refine ⟨p, r, e, fun b r' e' => ?_⟩
        rcases Nat.lt_or_ge b.length p.length with q | q
        · exact absurd ⟨b.length, by omega, b, r', e', rfl⟩ hs
        · exact q
  · right
    intro p r e
    exact h ⟨_, p, r, e, rfl⟩

theorem skipFirst_eq (inp b : List UInt8) (n : Nat) (hb : n + breaks inp < MAXINT) :
    ∃ n', skipFirst ⟨inp, b, n⟩ = .ok ⟨dropFirst inp, b, n'⟩ ∧ n' + breaks (dropFirst inp) = n + breaks inp := by
  cases inp with
  | nil => exact ⟨n, rfl, rfl⟩
  | cons c cs =>
    by_cases hc : isNl c = true
    · have e1 : dropFirst (c :: cs) = afterNl c cs := by unfold dropFirst; dsimp only; rw [if_pos hc]
      rw [breaks_nl cs hc] at hb ⊢
      refine ⟨n + 1, ?_, by rw [e1]; omega⟩
      unfold skipFirst
      rw [if_pos (show LS.is ⟨c :: cs, b, n⟩ isNl = true from hc), incl_eq, if_neg (by omega), e1]
    · have e1 : dropFirst (c :: cs) = c :: cs := by unfold dropFirst; dsimp only; rw [if_neg hc]
      refine ⟨n, ?_, by rw [e1]⟩
      unfold skipFirst
      rw [if_neg (show ¬ LS.is ⟨c :: cs, b, n⟩ isNl = true from hc), e1]

theorem readLong_eq (str : Bool) (k : Nat) (inp b : List UInt8) (n : Nat) (hb : n + breaks inp < MAXINT)
    (hbuf : str = true → b = 91 :: List.replicate k 61) :
    (∀ body rest, First k (dropFirst inp) body rest → ∃ l', readLongString str (k + 2) ⟨91 :: inp, b, n⟩ =
      .ok (if str then norm body else [], l') ∧ l'.inp = rest) ∧
    ((∀ p r, dropFirst inp ≠ p ++ (close k ++ r)) → ∃ e, readLongString str (k + 2) ⟨91 :: inp, b, n⟩ = .err e) := by
  unfold readLongString
  rw [saveNext_cons]
  dsimp only
  obtain ⟨n', e1, e2⟩ := skipFirst_eq inp (b ++ [91]) n hb
  rw [e1, Res.bind_ok]
  dsimp only
  obtain ⟨h1, h2⟩ := longLoop_eq str k ((dropFirst inp).length + 1) (dropFirst inp) (b ++ [91]) n' (Nat.lt_succ_self _) (by omega)
  constructor
  · intro body rest h
    obtain ⟨b', n2, e, hb'⟩ := h1 body rest h
    rw [e, Res.bind_ok]
    dsimp only
    cases str with
    | false => exact ⟨_, rfl, rfl⟩
    | true =>
      have hb'' := hb' rfl
      rw [hbuf rfl] at hb''
      have hlen : b'.length = 2 * (k + 2) + (norm body).length := by rw [hb'']; simp [close]; omega
      refine ⟨⟨rest, b', n2⟩, ?_, rfl⟩
      rw [if_pos rfl, if_pos rfl, if_pos (by omega)]
      show Res.ok _ = _
      congr 2
      have hd : b'.length - 2 * (k + 2) = (norm body).length := by omega
      rw [hd, hb'']
      have h3 : (91 :: List.replicate k (61 : UInt8) ++ [91]).length = k + 2 := by simp
      rw [List.append_assoc, List.drop_append_of_le_length (by omega), ← h3, List.drop_length, List.nil_append, List.take_left]
  · intro h
    obtain ⟨e, he⟩ := h2 h
    rw [he]
    exact ⟨e, rfl⟩

theorem token_long (isFlt : List UInt8 → Bool) (k : Nat) (inp b : List UInt8) (n : Nat) :
    token isFlt ⟨91 :: (List.replicate k 61 ++ 91 :: inp), b, n⟩ =
      (readLongString true (k + 2) ⟨91 :: inp, 91 :: List.replicate k 61, n⟩ >>= fun x => .ok (.string x.1, x.2)) := by
  unfold token LS.reset
  dsimp only
  rw [llex]
  dsimp only
  rw [if_neg (by decide), if_neg (by decide), if_neg (by decide), if_pos rfl,
    skipSep_open k inp [] n, Res.bind_ok]
  dsimp only [List.nil_append]
  rw [if_pos (by omega)]
  rfl

/-- Long strings: `[`, `k` times `=`, `[` and a text is a string exactly if a closing bracket of the same
level follows; its value is the text up to the first such bracket, without a line break at its start and
with every line break as `\n`. -/
theorem long_exact (isFlt : List UInt8 → Bool) (k : Nat) (inp b : List UInt8) (n : Nat) (hb : n + breaks inp < MAXINT)
    (val rest : List UInt8) :
    (∃ l', token isFlt ⟨91 :: (List.replicate k 61 ++ 91 :: inp), b, n⟩ = .ok (.string val, l') ∧ l'.inp = rest) ↔
      ∃ body, First k (dropFirst inp) body rest ∧ val = norm body := by
  rw [token_long]
  obtain ⟨h1, h2⟩ := readLong_eq true k inp (91 :: List.replicate k 61) n hb (fun _ => rfl)
  constructor
  · rintro ⟨l', e, hr⟩
    rcases first_or k (dropFirst inp) with ⟨body, rest', hf⟩ | hno
    · obtain ⟨l2, e2, hr2⟩ := h1 body rest' hf
      rw [e2, Res.bind_ok] at e
      injection e with e
      injection e with e3 e4
      injection e3 with e3
      dsimp only at e4
      refine ⟨body, ?_, e3.symm⟩
      have : rest = rest' := by rw [← hr, ← hr2, e4]
      rw [this]; exact hf
    · obtain ⟨er, e2⟩ := h2 hno
      rw [e2] at e
      exact nomatch e
  · rintro ⟨body, hf, rfl⟩
    obtain ⟨l2, e2, hr2⟩ := h1 body rest hf
    exact ⟨l2, by rw [e2]; rfl, hr2⟩

/-- A long bracket that is never closed is an error. -/
theorem long_unfinished (isFlt : List UInt8 → Bool) (k : Nat) (inp b : List UInt8) (n : Nat) (hb : n + breaks inp < MAXINT)
    (h : ∀ p r, inp ≠ p ++ (close k ++ r)) : ∃ e, token isFlt ⟨91 :: (List.replicate k 61 ++ 91 :: inp), b, n⟩ = .err e := by
  rw [token_long]
  obtain ⟨_, h2⟩ := readLong_eq true k inp (91 :: List.replicate k 61) n hb (fun _ => rfl)
  obtain ⟨e, he⟩ := h2 (by
    intro p r q
    cases inp with
    | nil => exact h p r q
    | cons c cs =>
      unfold dropFirst at q
      dsimp only at q
      split at q
      · obtain ⟨p', hp⟩ := afterNl_suffix c cs
        exact h (c :: p' ++ p) r (by rw [List.append_assoc, ← q, List.cons_append, ← hp])
      · exact h p r q)
  exact ⟨e, by rw [he]; rfl⟩

/-- Long comments end at the first closing bracket of their level. -/
theorem comment_exact (k : Nat) (inp b : List UInt8) (n : Nat) (hb : n + breaks inp < MAXINT) (body rest : List UInt8)
    (h : First k (dropFirst inp) body rest) :
    ∃ l', comment ⟨91 :: (List.replicate k 61 ++ 91 :: inp), b, n⟩ = .ok l' ∧ l'.inp = rest := by
  obtain ⟨h1, _⟩ := readLong_eq false k inp [] n hb nofun
  obtain ⟨l', e, hr⟩ := h1 body rest h
  unfold comment
  dsimp only
  rw [if_pos (show LS.cur ⟨91 :: (List.replicate k 61 ++ 91 :: inp), b, n⟩ 91 = true from rfl),
    skipSep_open k inp b n, Res.bind_ok]
  dsimp only
  rw [if_pos (by omega)]
  show ∃ l', (readLongString false (k + 2) ⟨91 :: inp, [], n⟩ >>= _) = _ ∧ _
  rw [e, Res.bind_ok]
  exact ⟨l'.reset, rfl, hr⟩

theorem norm_id (s : List UInt8) (h : (13 : UInt8) ∉ s) : norm s = s := by
  induction s with
  | nil => rfl
  | cons c cs ih =>
    simp only [List.mem_cons, not_or] at h
    by_cases hc : isNl c = true
    · have hc' : c = 10 := by
        rcases (isNl_iff c).1 hc with q | q
        · exact q
        · exact absurd q.symm h.1
      have ha : afterNl c cs = cs := by
        cases cs with
        | nil => rfl
        | cons d ds =>
          unfold afterNl
          dsimp only
          rw [if_neg]
          rintro ⟨q1, q2⟩
          rcases (isNl_iff d).1 q1 with q | q
          · exact q2 (by rw [q, hc'])
          · exact h.2 (by rw [q]; simp)
      rw [norm_nl cs hc, ha, ih h.2, hc']
    · rw [norm_cons (by simpa using hc), ih h.2]

theorem first_of_long (k : Nat) (s rest : List UInt8) (h : s.length ≤ k) : First k (s ++ (close k ++ rest)) s rest := by
  refine ⟨rfl, fun b r e => ?_⟩
  rcases Nat.lt_or_ge b.length s.length with hlt | hge
  · exfalso
    have h1 : (s ++ (close k ++ rest))[s.length]? = some 93 := by
      rw [List.getElem?_append_right (Nat.le_refl _), Nat.sub_self]; rfl
    have h2 : (b ++ (close k ++ r))[s.length]? = some 61 := by
      rw [List.getElem?_append_right (by omega)]
      obtain ⟨m, hm⟩ : ∃ m, s.length - b.length = m + 1 := ⟨s.length - b.length - 1, by omega⟩
      rw [hm, close, List.cons_append, List.getElem?_cons_succ, List.append_assoc, List.getElem?_append_left (by simp; omega)]
      rw [List.getElem?_replicate, if_pos (by omega)]
    rw [e, h2] at h1
    exact nomatch h1
  · exact hge

/-- Every string without carriage returns has a long form that reads back as it. -/
theorem long_roundtrip (isFlt : List UInt8 → Bool) (s : List UInt8) (h : (13 : UInt8) ∉ s) (k : Nat) (hk : s.length ≤ k)
    (rest b : List UInt8) (n : Nat) (hb : n + 1 + breaks (s ++ (close k ++ rest)) < MAXINT) :
    ∃ l', token isFlt ⟨91 :: (List.replicate k 61 ++ 91 :: 10 :: (s ++ (close k ++ rest))), b, n⟩ = .ok (.string s, l') ∧ l'.inp = rest := by
  have ha : afterNl 10 (s ++ (close k ++ rest)) = s ++ (close k ++ rest) := by
    cases s with
    | nil => rfl
    | cons d ds =>
      show afterNl 10 (d :: (ds ++ (close k ++ rest))) = _
      unfold afterNl
      dsimp only
      rw [if_neg]
      · rfl
      · rintro ⟨q1, q2⟩
        rcases (isNl_iff d).1 q1 with q | q
        · exact q2 q
        · exact h (by rw [q]; simp)
  apply (long_exact isFlt k (10 :: (s ++ (close k ++ rest))) b n (by rw [breaks_nl _ rfl, ha]; omega) s rest).2
  refine ⟨s, ?_, (norm_id s h).symm⟩
  show First k (afterNl 10 (s ++ (close k ++ rest))) s rest
  rw [ha]
  exact first_of_long k s rest hk

/-- `[=[` newline `]]` carriage return newline `]=]`. -/
example : token (fun _ => false) ⟨[91, 61, 91, 10, 93, 93, 13, 10, 93, 61, 93, 59], [], 1⟩ =
    .ok (.string [93, 93, 10], ⟨[59], [91, 61, 91, 93, 93, 10, 93, 61, 93], 3⟩) := by decide +kernel

/-! ## Casts -/

/-- Every built-in name after `@` and its token. -/
def casts : List (List UInt8 × Tok) :=
  [(sInteger, .toInteger), (sIntArray, .toIntArray), (sNumber, .toNumber), (sNumArray, .toNumArray), (sTable, .toTable),
   (sString, .toString), (sClosure, .toClosure)]

theorem strncmp_prefix (s t : List UInt8) (hs : (0 : UInt8) ∉ s) : strncmp0 s t = true ↔ s <+: t := by
  induction s generalizing t with
  | nil => simp [strncmp0]
  | cons a as ih =>
    simp only [List.mem_cons, not_or] at hs
    cases t with
    | nil => simp [strncmp0, Ne.symm hs.1]
    | cons b bs =>
      unfold strncmp0
      by_cases hab : a = b
      · subst hab
        rw [if_pos rfl, List.cons_prefix_cons, Bool.or_eq_true, ih bs hs.2]
        simp [Ne.symm hs.1]
      · rw [if_neg hab, List.cons_prefix_cons]
        simp [hab]

/-- What the lexer makes of `@` and a name: the first built-in name of which it is a prefix. -/
theorem casttoken_eq (l : LS) (h0 : (0 : UInt8) ∉ l.buff) :
    ∃ l', casttoken l = .ok ((casts.find? (fun p => l.buff.isPrefixOf p.1)).elim (.at_ (l.buff.drop 1)) (·.2), l') ∧ l'.inp = l.inp ∧ l'.line = l.line := by
  have hp : ∀ t, strncmp0 l.buff t = l.buff.isPrefixOf t := fun t => by
    rw [Bool.eq_iff_iff, strncmp_prefix _ _ h0, List.isPrefixOf_iff_prefix]
  unfold casttoken
  dsimp only
  rw [remove_ok (Nat.le_refl _), Res.bind_ok]
  refine ⟨{ l with buff := l.buff.take (l.buff.length - l.buff.length) }, ?_, rfl, rfl⟩
  simp only [hp, casts, List.find?]
  show Res.ok _ = _
  congr 2
  cases l.buff.isPrefixOf sInteger <;> cases l.buff.isPrefixOf sIntArray <;> cases l.buff.isPrefixOf sNumber <;>
    cases l.buff.isPrefixOf sNumArray <;> cases l.buff.isPrefixOf sTable <;> cases l.buff.isPrefixOf sString <;>
    cases l.buff.isPrefixOf sClosure <;> rfl

theorem alnum_ne0 : lislalnum 0 = false := by decide +kernel

theorem saveWhile_eq (p : UInt8 → Bool) (w : List UInt8) : ∀ (fuel : Nat) (cs b : List UInt8) (n : Nat), w.length < fuel →
    (∀ c ∈ w, p c = true) → NotAt p cs → saveWhile p fuel ⟨w ++ cs, b, n⟩ = .ok ⟨cs, b ++ w, n⟩ := by
  induction w with
  | nil =>
    intro fuel cs b n hf _ hn
    cases fuel with
    | zero => omega
    | succ fuel =>
      unfold saveWhile
      rw [if_neg]
      · simp
      · cases cs with
        | nil => simp [LS.is]
        | cons c cs => have := hn c cs rfl; simp [LS.is, this]
  | cons c w ih =>
    intro fuel cs b n hf hw hn
    cases fuel with
    | zero => simp at hf
    | succ fuel =>
      unfold saveWhile
      rw [if_pos (show LS.is ⟨c :: w ++ cs, b, n⟩ p = true from hw c (by simp)), List.cons_append, saveNext_cons,
        ih fuel cs _ n (by simp at hf; omega) (fun x hx => hw x (by simp [hx])) hn]
      simp

theorem token_at (isFlt : List UInt8 → Bool) (w cs b : List UInt8) (n : Nat) (hw : ∀ c ∈ w, lislalnum c = true)
    (hn : NotAt (fun c => lislalnum c || c == 91 || c == 93) cs) :
    token isFlt ⟨64 :: (w ++ cs), b, n⟩ = casttoken ⟨cs, 64 :: w, n⟩ := by
  unfold token LS.reset
  dsimp only
  rw [llex]
  dsimp only
  rw [if_neg (by decide), if_neg (by decide), if_neg (by decide), if_neg (by decide), if_neg (by decide), if_neg (by decide), if_neg (by decide),
    if_neg (by decide), if_neg (by decide), if_neg (by decide), if_neg (by decide), if_neg (by decide), if_neg (by decide), if_pos rfl, saveNext_cons]
  dsimp only [List.nil_append]
  have hn1 : NotAt lislalnum cs := by
    intro c r e
    have := hn c r e
    simp only [Bool.or_eq_false_iff] at this
    exact this.1.1
  rw [saveWhile_eq lislalnum w _ cs [64] n (by simp; omega) hw hn1, Res.bind_ok]
  have h1 : checkSaveNext1 ⟨cs, [64] ++ w, n⟩ 91 = ⟨cs, [64] ++ w, n⟩ := by
    unfold checkSaveNext1
    rw [if_neg]
    cases cs with
    | nil => simp [LS.cur]
    | cons c r =>
      have := hn c r rfl
      simp only [Bool.or_eq_false_iff] at this
      simpa [LS.cur] using this.1.2
  have h2 : checkSaveNext1 ⟨cs, [64] ++ w, n⟩ 93 = ⟨cs, [64] ++ w, n⟩ := by
    unfold checkSaveNext1
    rw [if_neg]
    cases cs with
    | nil => simp [LS.cur]
    | cons c r =>
      have := hn c r rfl
      simp only [Bool.or_eq_false_iff] at this
      simpa [LS.cur] using this.2
  rw [h1, h2]
  rfl

/-- C66, what holds: `@` and a name that is not the beginning of a built-in name is a user type name; the
built-in names give their own tokens.  Missing: a user name which is a proper prefix of a built-in name
(`cast_prefix_bug`). -/
theorem cast_partial (isFlt : List UInt8 → Bool) (w cs b : List UInt8) (n : Nat) (hw : ∀ c ∈ w, lislalnum c = true)
    (hn : NotAt (fun c => lislalnum c || c == 91 || c == 93) cs) :
    ((∀ p ∈ casts, ¬ (64 :: w) <+: p.1) → ∃ l', token isFlt ⟨64 :: (w ++ cs), b, n⟩ = .ok (.at_ w, l') ∧ l'.inp = cs) ∧
    (∀ t, (64 :: w, t) ∈ casts → ∃ l', token isFlt ⟨64 :: (w ++ cs), b, n⟩ = .ok (t, l') ∧ l'.inp = cs) := by
  rw [token_at isFlt w cs b n hw hn]
  obtain ⟨l', e, hi, _⟩ := casttoken_eq ⟨cs, 64 :: w, n⟩ (by
    intro q
    rcases List.mem_cons.1 q with q | q
    · exact nomatch q
    · have := hw 0 q; rw [alnum_ne0] at this; exact nomatch this)
  rw [e]
  constructor
  · intro h
    refine ⟨l', ?_, hi⟩
    have : casts.find? (fun p => List.isPrefixOf (64 :: w) p.1) = none := by
      rw [List.find?_eq_none]
      intro p hp
      rw [List.isPrefixOf_iff_prefix]
      exact h p hp
    dsimp only
    rw [this]
    rfl
  · intro t ht
    refine ⟨l', ?_, hi⟩
    dsimp only
    have : ∀ p ∈ casts, (casts.find? (fun q => List.isPrefixOf p.1 q.1)) = some p := by decide +kernel
    have := this _ ht
    dsimp only at this
    rw [this]
    rfl

/-- `@integers` is a user type name, `@table` is not. -/
example : (∀ p ∈ casts, ¬ (64 :: "integers".toUTF8.toList) <+: p.1) ∧ (64 :: "table".toUTF8.toList, Tok.toTable) ∈ casts := by decide +kernel

/-- C66 fails: `@s` is read as the cast to string, `@tab` as the cast to table, `@c` as the cast to
closure and `@` alone as the cast to integer; user types of those names cannot be written. -/
theorem cast_prefix_bug :
    token (fun _ => false) ⟨[64, 115, 32], [], 1⟩ = .ok (.toString, ⟨[32], [], 1⟩) ∧
    token (fun _ => false) ⟨[64, 116, 97, 98, 32], [], 1⟩ = .ok (.toTable, ⟨[32], [], 1⟩) ∧
    token (fun _ => false) ⟨[64, 99], [], 1⟩ = .ok (.toClosure, ⟨[], [], 1⟩) ∧
    token (fun _ => false) ⟨[64, 32], [], 1⟩ = .ok (.toInteger, ⟨[32], [], 1⟩) ∧
    token (fun _ => false) ⟨[64, 105, 110, 116, 101, 103, 101, 114, 91, 49], [], 1⟩ = .ok (.toIntArray, ⟨[49], [], 1⟩) := by
  decide +kernel

end Verif.Lex
