import Verif.Pack.Engine

/-!
# C24, C62 — `string.pack` and `string.unpack`

Whatever `pack` accepts, `unpack` with the same format reads back: integers exactly, strings exactly
(padded with zeros for `c`), floats exactly except those stored in single precision; `packsize` is the
length of what `pack` writes; items are aligned as the format asks; no format, arguments or data lead
to undefined behaviour.
-/
namespace Verif.Pack
open Verif.StrLib (rd wr mem rdN posrelatI)

/-- Options that take an argument. -/
def takes : KOption → Bool
  | .padding | .paddalign | .nop => false
  | _ => true

/-- What an argument becomes when written by an option and read back. -/
def back (M : Machine) : KOption × Nat → Val → Val
  | (.float, 4), .flt x => .flt (M.widen (M.narrow x))
  | (.char, n), .str s => .str (s ++ List.replicate (n - s.length) 0)
  | _, v => v

/-- The options of a format that take arguments, in order. -/
def items (native : Bool) : Nat → Header → List UInt8 → List (KOption × Nat)
  | 0, _, _ => []
  | fuel + 1, h, fmt =>
    if fmt = [] then []
    else match getdetails native h 0 fmt with
      | .ok (opt, size, _, h, fmt) => (if takes opt then [(opt, size)] else []) ++ items native fuel h fmt
      | _ => []

/-- The options of a whole format. -/
def options (M : Machine) (fmt : List UInt8) : List (KOption × Nat) :=
  items M.little ((cfmt fmt).length + 1) ⟨M.little, 1⟩ (cfmt fmt)

/-- Values as the machine has them: 64-bit integers and 64-bit float patterns. -/
def Wf : Val → Prop
  | .int i => InI i
  | .flt x => x < 18446744073709551616
  | .str _ => True

/-- Single-precision patterns have 32 bits. -/
def Machine.Ok (M : Machine) : Prop := ∀ x, M.narrow x < 4294967296

/-- One option: the length written and the value read back. -/
theorem item_roundtrip (M : Machine) (hM : M.Ok) (h : Header) (opt : KOption) (size : Nat) (hs : SizeOk opt size)
    (args args' : List Val) (hw : ∀ v ∈ args, Wf v) (b : List UInt8) (hp : packItem M h opt size args = .ok (b, args'))
    (pre post : List UInt8) (hl : (pre ++ b ++ post).length < 18446744073709551616) :
    b.length = grow opt size args ∧ size ≤ b.length ∧
    ((takes opt = true ∧ ∃ v, args = v :: args' ∧
        unpackItem M h opt size (pre ++ b ++ post) pre.length = .ok ([back M (opt, size) v], pre.length + b.length)) ∨
     (takes opt = false ∧ args = args' ∧
        unpackItem M h opt size (pre ++ b ++ post) pre.length = .ok ([], pre.length + b.length))) := by
  unfold packItem at hp
  cases opt with
  | int =>
    dsimp only at hp
    obtain ⟨⟨n, rest⟩, hc, hp⟩ := Res.bind_eq_ok.1 hp
    dsimp only at hp
    cases args with
    | nil => exact nomatch hc
    | cons v vs =>
      cases v with
      | flt _ => exact nomatch hc
      | str _ => exact nomatch hc
      | int i =>
        injection hc with hc; injection hc with h1 h2; subst h1 h2
        have hi : InI i := hw (.int i) (by simp)
        by_cases hlim : size < SZINT ∧ ¬ (-(2 ^ (size * 8 - 1) : Int) ≤ i ∧ i < 2 ^ (size * 8 - 1))
        · rw [if_pos hlim] at hp; exact nomatch hp
        · rw [if_neg hlim] at hp
          have hfit : -(2 ^ (size * 8 - 1) : Int) ≤ i ∧ i < 2 ^ (size * 8 - 1) := by
            by_cases h8 : size < SZINT
            · exact Classical.not_not.1 (fun q => hlim ⟨h8, q⟩)
            · unfold SZINT at h8
              have : (2 : Nat) ^ 63 ≤ 2 ^ (size * 8 - 1) := Nat.pow_le_pow_right (by decide) (by omega)
              have h63 : (2 : Nat) ^ 63 = 9223372036854775808 := by decide
              rw [h63] at this
              have e : ((2 ^ (size * 8 - 1) : Nat) : Int) = (2 : Int) ^ (size * 8 - 1) := by rw [Int.natCast_pow]; rfl
              rw [← e]
              unfold InI at hi
              omega
          obtain ⟨b', e1, e2, e3⟩ := signed_roundtrip i hi size hs.1 h.little hfit (junk size) pre post (by simp [junk])
          rw [e1, Res.bind_ok] at hp
          injection hp with hp; injection hp with h1 h2; subst h1 h2
          refine ⟨e2, by omega, Or.inl ⟨rfl, _, rfl, ?_⟩⟩
          unfold unpackItem
          dsimp only
          rw [e3, Res.bind_ok, e2]
          rfl
  | uint =>
    dsimp only at hp
    obtain ⟨⟨n, rest⟩, hc, hp⟩ := Res.bind_eq_ok.1 hp
    dsimp only at hp
    cases args with
    | nil => exact nomatch hc
    | cons v vs =>
      cases v with
      | flt _ => exact nomatch hc
      | str _ => exact nomatch hc
      | int i =>
        injection hc with hc; injection hc with h1 h2; subst h1 h2
        have hi : InI i := hw (.int i) (by simp)
        by_cases hlim : size < SZINT ∧ ¬ (toU i < 1 <<< (size * 8))
        · rw [if_pos hlim] at hp; exact nomatch hp
        · rw [if_neg hlim] at hp
          have hfit : size < 8 → toU i < 256 ^ size := fun h8 => by
            rw [← shl_pow]; exact Classical.not_not.1 (fun q => hlim ⟨h8, q⟩)
          obtain ⟨b', e1, e2, e3⟩ := unsigned_roundtrip i hi size hs.1 h.little hfit (junk size) pre post (by simp [junk])
          rw [e1, Res.bind_ok] at hp
          injection hp with hp; injection hp with h1 h2; subst h1 h2
          refine ⟨e2, by omega, Or.inl ⟨rfl, _, rfl, ?_⟩⟩
          unfold unpackItem
          dsimp only
          rw [e3, Res.bind_ok, e2]
          rfl
  | float =>
    dsimp only at hp
    obtain ⟨⟨n, rest⟩, hc, hp⟩ := Res.bind_eq_ok.1 hp
    dsimp only at hp
    cases args with
    | nil => exact nomatch hc
    | cons v vs =>
      cases v with
      | int _ => exact nomatch hc
      | str _ => exact nomatch hc
      | flt x =>
        injection hc with hc; injection hc with h1 h2; subst h1 h2
        have hx : x < 18446744073709551616 := hw (.flt x) (by simp)
        injection hp with hp; injection hp with h1 h2; subst h1 h2
        rcases hs with rfl | rfl
        · rw [if_pos rfl] at hl ⊢
          have hbl : (copywithendian M (repr M 4 (M.narrow x)) h.little).length = 4 := by
            rw [copy_length, repr_length]
          refine ⟨hbl, by omega, Or.inl ⟨rfl, _, rfl, ?_⟩⟩
          unfold unpackItem
          dsimp only
          have := rdN_append pre (copywithendian M (repr M 4 (M.narrow x)) h.little) post
          rw [hbl] at this
          rw [this, Res.bind_ok, rev_ofRepr M 4 _ _ (by have := hM x; omega), hbl]
          rfl
        · rw [if_neg (by decide)] at hl ⊢
          have hbl : (copywithendian M (repr M 8 x) h.little).length = 8 := by
            rw [copy_length, repr_length]
          refine ⟨hbl, by omega, Or.inl ⟨rfl, _, rfl, ?_⟩⟩
          unfold unpackItem
          dsimp only
          have := rdN_append pre (copywithendian M (repr M 8 x) h.little) post
          rw [hbl] at this
          rw [this, Res.bind_ok, rev_ofRepr M 8 _ _ (by rw [pow8]; exact hx), hbl]
          rfl
  | char =>
    dsimp only at hp
    obtain ⟨⟨n, rest⟩, hc, hp⟩ := Res.bind_eq_ok.1 hp
    dsimp only at hp
    cases args with
    | nil => exact nomatch hc
    | cons v vs =>
      cases v with
      | flt _ => exact nomatch hc
      | int _ => exact nomatch hc
      | str s =>
        injection hc with hc; injection hc with h1 h2; subst h1 h2
        by_cases hlen : s.length > size
        · rw [if_pos hlen] at hp; exact nomatch hp
        · rw [if_neg hlen] at hp
          injection hp with hp; injection hp with h1 h2; subst h1 h2
          have hbl : (s ++ List.replicate (size - s.length) (0 : UInt8)).length = size := by
            rw [List.length_append, List.length_replicate]; omega
          refine ⟨hbl, by omega, Or.inl ⟨rfl, _, rfl, ?_⟩⟩
          unfold unpackItem
          dsimp only
          have := rdN_append pre (s ++ List.replicate (size - s.length) (0 : UInt8)) post
          rw [hbl] at this
          rw [this, Res.bind_ok, hbl]
          rfl
  | string =>
    dsimp only at hp
    obtain ⟨⟨n, rest⟩, hc, hp⟩ := Res.bind_eq_ok.1 hp
    dsimp only at hp
    cases args with
    | nil => exact nomatch hc
    | cons v vs =>
      cases v with
      | flt _ => exact nomatch hc
      | int _ => exact nomatch hc
      | str s =>
        injection hc with hc; injection hc with h1 h2; subst h1 h2
        by_cases hlim : ¬ (size ≥ 8 ∨ s.length < 1 <<< (size * 8))
        · rw [if_pos hlim] at hp; exact nomatch hp
        · rw [if_neg hlim, packint_spec _ _ _ _ _ hs.1 (by simp [junk]), Res.bind_ok] at hp
          injection hp with hp; injection hp with h1 h2; subst h1 h2
          have hol : (order h.little (packed s.length size false)).length = size := by
            rw [order_length, packed_length]
          have hbl : (order h.little (packed s.length size false) ++ s).length = size + s.length := by
            rw [List.length_append, hol]
          have hsl : s.length < 18446744073709551616 := by
            rw [List.length_append, List.length_append, hbl] at hl; omega
          have hfit : size < 8 → s.length < 256 ^ size := fun h8 => by
            rw [← shl_pow]
            rcases Classical.not_not.1 hlim with q | q
            · omega
            · exact q
          refine ⟨hbl, by omega, Or.inl ⟨rfl, _, rfl, ?_⟩⟩
          have hsplit : pre ++ (order h.little (packed s.length size false) ++ s) ++ post =
              pre ++ order h.little (packed s.length size false) ++ (s ++ post) := by
            simp only [List.append_assoc]
          have hdl : (pre ++ order h.little (packed s.length size false) ++ (s ++ post)).length =
              pre.length + size + s.length + post.length := by
            simp only [List.length_append, hol]; omega
          rw [hsplit] at hl ⊢
          unfold unpackItem
          dsimp only
          rw [unpack_unsigned hs.1 (by rw [hdl]; omega), slice_append _ _ _ _ _ (packed_length ..),
            packed_unsigned hsl hfit, if_pos hsl, Res.bind_ok]
          have htu : toU (toS s.length) = s.length := by
            unfold toU toS; split <;> omega
          rw [htu, szsub_ok (a := (pre ++ order h.little (packed s.length size false) ++ (s ++ post)).length)
            (by rw [hdl]; omega) hl, szsub_ok (by rw [hdl]; omega) (by omega), if_pos (by rw [hdl]; omega)]
          have := rdN_append (pre ++ order h.little (packed s.length size false)) s post
          rw [List.length_append, hol] at this
          rw [← List.append_assoc, this, Res.bind_ok, hbl, show pre.length + s.length + size = pre.length + (size + s.length) by omega]
          rfl
  | zstr =>
    have hs0 : size = 0 := hs
    subst hs0
    dsimp only at hp
    obtain ⟨⟨n, rest⟩, hc, hp⟩ := Res.bind_eq_ok.1 hp
    dsimp only at hp
    cases args with
    | nil => exact nomatch hc
    | cons v vs =>
      cases v with
      | flt _ => exact nomatch hc
      | int _ => exact nomatch hc
      | str s =>
        injection hc with hc; injection hc with h1 h2; subst h1 h2
        by_cases hz : s.contains 0 = true
        · rw [if_pos hz] at hp; exact nomatch hp
        · rw [if_neg hz] at hp
          injection hp with hp; injection hp with h1 h2; subst h1 h2
          have hnz : ∀ x ∈ s, decide (x ≠ 0) = true := by
            intro x hx
            rw [decide_eq_true_eq]
            rintro rfl
            exact hz (List.contains_iff_mem.2 hx)
          refine ⟨by simp [grow], by simp, Or.inl ⟨rfl, _, rfl, ?_⟩⟩
          unfold unpackItem strlen
          dsimp only
          have hlen : (pre ++ (s ++ [0]) ++ post).length = pre.length + s.length + 1 + post.length := by
            simp only [List.length_append, List.length_cons, List.length_nil]; omega
          rw [if_pos (by rw [hlen]; omega), Res.bind_ok]
          have htw : ((pre ++ (s ++ [0]) ++ post).drop pre.length).takeWhile (· ≠ 0) = s := by
            rw [List.append_assoc, List.drop_left, List.append_assoc,
              List.takeWhile_append_of_pos hnz]
            simp
          rw [htw, if_pos (by rw [hlen]; omega)]
          have := rdN_append pre s ([0] ++ post)
          have e : pre ++ (s ++ [0]) ++ post = pre ++ s ++ ([0] ++ post) := by simp only [List.append_assoc]
          rw [e, this, Res.bind_ok]
          simp [back]
          omega
  | padding =>
    have hs0 : size = 1 := hs
    subst hs0
    injection hp with hp; injection hp with h1 h2; subst h1 h2
    exact ⟨rfl, by simp, Or.inr ⟨rfl, rfl, rfl⟩⟩
  | paddalign =>
    have hs0 : size = 0 := hs
    subst hs0
    injection hp with hp; injection hp with h1 h2; subst h1 h2
    exact ⟨rfl, by simp, Or.inr ⟨rfl, rfl, rfl⟩⟩
  | nop =>
    have hs0 : size = 0 := hs
    subst hs0
    injection hp with hp; injection hp with h1 h2; subst h1 h2
    exact ⟨rfl, by simp, Or.inr ⟨rfl, rfl, rfl⟩⟩

/-- What is written stays. -/
theorem packFmt_le (M : Machine) (s : List UInt8) : ∀ (fuel : Nat) (h : Header) (fmt : List UInt8) (args : List Val)
    (total : Nat) (out : List UInt8), packFmt M fuel h fmt args total out = .ok s → out.length ≤ s.length := by
  intro fuel
  induction fuel with
  | zero => intro _ _ _ _ _ e; exact nomatch e
  | succ fuel ih2 =>
    intro h fmt args total out e
    unfold packFmt at e
    by_cases hf : fmt = []
    · rw [if_pos hf] at e; injection e with e; subst e; exact Nat.le_refl _
    · rw [if_neg hf] at e
      obtain ⟨⟨o, z, n, h2, f2⟩, _, e⟩ := Res.bind_eq_ok.1 e
      obtain ⟨⟨b2, a2⟩, _, e⟩ := Res.bind_eq_ok.1 e
      have := ih2 _ _ _ _ _ e
      simp only [List.length_append] at this
      omega

/-- The loop. -/
theorem loop_roundtrip (M : Machine) (hM : M.Ok) (s : List UInt8) (hs : s.length < 18446744073709551616) :
    ∀ (fuel : Nat) (h : Header) (fmt : List UInt8) (args : List Val) (total : Nat) (out : List UInt8), HdrOk h →
      total = out.length → (∀ v ∈ args, Wf v) → packFmt M fuel h fmt args total out = .ok s →
      (∃ t, s = out ++ t) ∧ (items M.little fuel h fmt).length ≤ args.length ∧
      unpackFmt M s fuel h fmt out.length =
        .ok (List.zipWith (back M) (items M.little fuel h fmt) args, s.length + 1) := by
  intro fuel
  induction fuel with
  | zero => intro h fmt args total out _ _ _ e; exact nomatch e
  | succ fuel ih =>
    intro h fmt args total out hh ht hw e
    unfold packFmt at e
    unfold unpackFmt items
    by_cases hf : fmt = []
    · rw [if_pos hf] at e
      injection e with e
      subst e
      rw [if_pos hf, if_pos hf]
      exact ⟨⟨[], by simp⟩, Nat.zero_le _, by simp⟩
    · rw [if_neg hf] at e
      rw [if_neg hf, if_neg hf]
      rcases getdetails_ok M.little h hh fmt hf with ⟨opt, size, h', rest, f, hg, hso, hh', hl⟩ | ⟨er, hg⟩
      · rw [(hg total).1, Res.bind_ok] at e
        dsimp only at e
        obtain ⟨⟨b, args'⟩, hp, e⟩ := Res.bind_eq_ok.1 e
        dsimp only at e
        rw [(hg out.length).1, (hg 0).1, Res.bind_ok]
        dsimp only
        rw [← ht]
        -- the length written
        have hlen : b.length = grow opt size args ∧ (∀ v ∈ args', Wf v) := by
          have hb0 : b.length < 18446744073709551616 := by
            have := packFmt_le M s _ _ _ _ _ _ e
            simp only [List.length_append] at this
            omega
          have it := item_roundtrip M hM h' opt size hso args args' hw b hp [] [] (by simpa using hb0)
          refine ⟨it.1, ?_⟩
          rcases it.2.2 with ⟨_, v, hv2, _⟩ | ⟨_, hv2, _⟩
          · intro w hww; exact hw w (by rw [hv2]; exact List.mem_cons_of_mem _ hww)
          · rw [← hv2]; exact hw
        obtain ⟨hlen, hargs'⟩ := hlen
        have key := ih h' rest args' (total + f total + grow opt size args) (out ++ List.replicate (f total) 0 ++ b) hh'
          (by simp only [List.length_append, List.length_replicate]; omega) hargs' e
        obtain ⟨⟨t, ht2⟩, hcount, hunp⟩ := key
        have hpre : (out ++ List.replicate (f total) (0 : UInt8)).length = total + f total := by
          rw [List.length_append, List.length_replicate, ht]
        have item := item_roundtrip M hM h' opt size hso args args' hw b hp (out ++ List.replicate (f total) 0) t
          (by rw [← ht2]; exact hs)
        rw [← ht2, hpre] at item
        have hsl : s.length = total + f total + b.length + t.length := by
          rw [ht2, List.length_append, List.length_append, hpre]
        have hcheck : f total + size ≤ szsub s.length total := by
          rw [szsub_ok (by omega) hs]
          have := item.2.1
          omega
        refine ⟨⟨List.replicate (f total) 0 ++ b ++ t, by rw [ht2]; simp only [List.append_assoc]⟩, ?_⟩
        rw [if_pos hcheck]
        have hpos : (out ++ List.replicate (f total) (0 : UInt8) ++ b).length = total + f total + b.length := by
          rw [List.length_append, hpre]
        rw [hpos] at hunp
        rcases item.2.2 with ⟨htk, v, hv, hu⟩ | ⟨htk, hv, hu⟩
        · rw [hu, Res.bind_ok, hunp, Res.bind_ok, if_pos htk, hv]
          refine ⟨by rw [List.length_append, List.length_cons, List.length_cons, List.length_nil]; omega, ?_⟩
          rfl
        · rw [hu, Res.bind_ok, hunp, Res.bind_ok, htk, hv]
          exact ⟨by simpa using hcount, rfl⟩
      · rw [hg total] at e; exact nomatch e

/-- Reading back with the format used for writing: every option that takes an argument gives back its
argument, unchanged except for the single-precision floats (rounded) and the fixed-size strings (padded
with zeros); the position returned is one past the end. -/
theorem pack_unpack (M : Machine) (hM : M.Ok) (fmt : List UInt8) (args : List Val) (hw : ∀ v ∈ args, Wf v)
    (s : List UInt8) (hs : s.length < 18446744073709551616) (hp : pack M fmt args = .ok s) :
    (options M fmt).length ≤ args.length ∧
    unpack M fmt s 1 = .ok (List.zipWith (back M) (options M fmt) args, s.length + 1) := by
  have key := loop_roundtrip M hM s hs _ _ _ args 0 [] (by unfold HdrOk; simp) rfl hw hp
  refine ⟨key.2.1, ?_⟩
  have hpos : posrelatI 1 s.length - 1 = 0 := rfl
  unfold unpack
  dsimp only
  rw [hpos, if_pos (Nat.zero_le _)]
  exact key.2.2

/-- `packsize` is the length of what `pack` writes. -/
theorem packsize_length (M : Machine) (hM : M.Ok) (fmt : List UInt8) (args : List Val) (hw : ∀ v ∈ args, Wf v)
    (s : List UInt8) (k : Nat) (hk : packsize M fmt = .ok k) (hp : pack M fmt args = .ok s) : s.length = k := by
  have key : ∀ (fuel : Nat) (h : Header) (fmt : List UInt8) (args : List Val) (total : Nat) (out : List UInt8), HdrOk h →
      total = out.length → (∀ v ∈ args, Wf v) → sizeFmt M.little fuel h fmt total = .ok k →
      packFmt M fuel h fmt args total out = .ok s → s.length = k := by
    intro fuel
    induction fuel with
    | zero => intro _ _ _ _ _ _ _ _ e; exact nomatch e
    | succ fuel ih =>
      intro h fmt args total out hh ht hw e1 e2
      unfold sizeFmt at e1
      unfold packFmt at e2
      by_cases hf : fmt = []
      · rw [if_pos hf] at e1 e2
        injection e1 with e1; injection e2 with e2
        subst e1 e2; exact ht.symm
      · rw [if_neg hf] at e1 e2
        rcases getdetails_ok M.little h hh fmt hf with ⟨opt, size, h', rest, f, hg, hso, hh', hl⟩ | ⟨er, hg⟩
        · rw [(hg total).1, Res.bind_ok] at e1 e2
          dsimp only at e1 e2
          by_cases hv : opt = .string ∨ opt = .zstr
          · rw [if_pos hv] at e1; exact nomatch e1
          · rw [if_neg hv] at e1
            obtain ⟨sz, hsz, e1⟩ := Res.bind_eq_ok.1 e1
            have hsz' : sz = size + f total := by
              unfold int32 at hsz
              split at hsz
              · injection hsz with hsz; exact hsz.symm
              · exact nomatch hsz
            by_cases hm : total ≤ MAXSIZE - sz
            · rw [if_pos hm] at e1
              obtain ⟨⟨b, args'⟩, hp, e2⟩ := Res.bind_eq_ok.1 e2
              dsimp only at e2
              have hb : b.length = size ∧ (∀ v ∈ args', Wf v) := by
                have hgrow : grow opt size args = size := by
                  unfold grow
                  cases opt <;> first | rfl | exact absurd (Or.inl rfl) hv | exact absurd (Or.inr rfl) hv
                have hbl : b.length < 18446744073709551616 → b.length = size ∧ (∀ v ∈ args', Wf v) := by
                  intro hb0
                  have it := item_roundtrip M hM h' opt size hso args args' hw b hp [] [] (by simpa using hb0)
                  refine ⟨it.1.trans hgrow, ?_⟩
                  rcases it.2.2 with ⟨_, v, hv2, _⟩ | ⟨_, hv2, _⟩
                  · intro w hww; exact hw w (by rw [hv2]; exact List.mem_cons_of_mem _ hww)
                  · rw [← hv2]; exact hw
                apply hbl
                have : size ≤ 2147483647 := by
                  cases opt <;> simp only [SizeOk] at hso <;> omega
                unfold packItem at hp
                cases opt <;> dsimp only at hp
                · obtain ⟨⟨n, r⟩, hc, hp⟩ := Res.bind_eq_ok.1 hp
                  dsimp only at hp
                  split at hp
                  · exact nomatch hp
                  · rw [packint_spec _ _ _ _ _ hso.1 (by simp [junk]), Res.bind_ok] at hp
                    injection hp with hp; injection hp with h1 h2
                    rw [← h1, order_length, packed_length]; omega
                · obtain ⟨⟨n, r⟩, hc, hp⟩ := Res.bind_eq_ok.1 hp
                  dsimp only at hp
                  split at hp
                  · exact nomatch hp
                  · rw [packint_spec _ _ _ _ _ hso.1 (by simp [junk]), Res.bind_ok] at hp
                    injection hp with hp; injection hp with h1 h2
                    rw [← h1, order_length, packed_length]; omega
                · obtain ⟨⟨n, r⟩, hc, hp⟩ := Res.bind_eq_ok.1 hp
                  injection hp with hp; injection hp with h1 h2
                  rw [← h1, copy_length]
                  split <;> rw [repr_length] <;> omega
                · obtain ⟨⟨n, r⟩, hc, hp⟩ := Res.bind_eq_ok.1 hp
                  dsimp only at hp
                  split at hp
                  · exact nomatch hp
                  · injection hp with hp; injection hp with h1 h2
                    rw [← h1, List.length_append, List.length_replicate]; omega
                · exact absurd (Or.inl rfl) hv
                · exact absurd (Or.inr rfl) hv
                · injection hp with hp; injection hp with h1 h2
                  rw [← h1]; decide
                · injection hp with hp; injection hp with h1 h2
                  rw [← h1]; decide
                · injection hp with hp; injection hp with h1 h2
                  rw [← h1]; decide
              have hgrow : grow opt size args = size := by
                unfold grow
                cases opt <;> first | rfl | exact absurd (Or.inl rfl) hv | exact absurd (Or.inr rfl) hv
              rw [hgrow, show total + f total + size = total + sz by omega] at e2
              exact ih h' rest args' _ _ hh' (by
                simp only [List.length_append, List.length_replicate, hb.1]; omega) hb.2 e1 e2
            · rw [if_neg hm] at e1; exact nomatch e1
        · rw [hg total] at e1; exact nomatch e1
  exact key _ _ _ args 0 [] (by unfold HdrOk; simp) rfl hw hk hp

/-- Alignment: an option of more than one byte, other than fixed-size strings and `X`, starts at a
multiple of its size or of the maximum alignment in force, whichever is less, after less than that many
bytes of padding. -/
theorem aligned (native : Bool) (h : Header) (hh : 0 < h.maxalign ∧ h.maxalign ≤ 16) (total : Nat) (fmt : List UInt8)
    (opt : KOption) (size n : Nat) (h' : Header) (rest : List UInt8)
    (e : getdetails native h total fmt = .ok (opt, size, n, h', rest)) (ho : opt ≠ .char) (hx : opt ≠ .paddalign)
    (hs : 1 < size) : (total + n) % min size h'.maxalign = 0 ∧ n < min size h'.maxalign := by
  have hf : fmt ≠ [] := by rintro rfl; exact nomatch e
  rcases getdetails_ok native h hh fmt hf with ⟨o, z, h2, r, f, hg, _, _, _⟩ | ⟨er, hg⟩
  · rw [(hg total).1] at e
    injection e with e
    injection e with e1 e; injection e with e2 e; injection e with e3 e; injection e with e4 e5
    subst e1 e2 e3 e4
    exact ((hg total).2.2.2 ho hx hs).symm
  · rw [hg total] at e; exact nomatch e

/-- Which integers `pack` accepts: exactly those of the two's complement range of the size. -/
theorem pack_int_iff (M : Machine) (h : Header) (size : Nat) (hs : 0 < size) (n : Int) (hn : InI n) (args : List Val) :
    (∃ b, packItem M h .int size (.int n :: args) = .ok (b, args)) ↔
      -(2 ^ (size * 8 - 1) : Int) ≤ n ∧ n < 2 ^ (size * 8 - 1) := by
  unfold packItem checkInt
  dsimp only
  rw [Res.bind_ok]
  dsimp only
  by_cases hlim : size < SZINT ∧ ¬ (-(2 ^ (size * 8 - 1) : Int) ≤ n ∧ n < 2 ^ (size * 8 - 1))
  · rw [if_pos hlim]
    exact Iff.intro (fun q => nomatch q.choose_spec) (fun q => absurd q hlim.2)
  · rw [if_neg hlim, packint_spec _ _ _ _ _ hs (by simp [junk]), Res.bind_ok]
    refine ⟨fun _ => ?_, fun _ => ⟨_, rfl⟩⟩
    by_cases h8 : size < SZINT
    · exact Classical.not_not.1 (fun q => hlim ⟨h8, q⟩)
    · unfold SZINT at h8
      have : (2 : Nat) ^ 63 ≤ 2 ^ (size * 8 - 1) := Nat.pow_le_pow_right (by decide) (by omega)
      have h63 : (2 : Nat) ^ 63 = 9223372036854775808 := by decide
      rw [h63] at this
      have e : ((2 ^ (size * 8 - 1) : Nat) : Int) = (2 : Int) ^ (size * 8 - 1) := by rw [Int.natCast_pow]; rfl
      rw [← e]
      unfold InI at hn
      omega

/-- No format and no arguments make `pack` undefined, and it ends. -/
theorem pack_defined (M : Machine) (fmt : List UInt8) (args : List Val) : pack M fmt args ≠ .ub := by
  have chk : ∀ {α : Type} (args : List Val) (f : List Val → Res (α × List Val)) (k : α × List Val → Res (List UInt8 × List Val)),
      f args ≠ .ub → (∀ x, k x ≠ .ub) → (f args >>= k) ≠ .ub := by
    intro α args f k h1 h2
    cases hf : f args with
    | ok x => rw [Res.bind_ok]; exact h2 x
    | err e => nofun
    | ub => exact absurd hf h1
  have ci : ∀ a, checkInt a ≠ .ub := by intro a; unfold checkInt; split <;> nofun
  have cf : ∀ a, checkFlt a ≠ .ub := by intro a; unfold checkFlt; split <;> nofun
  have cs : ∀ a, checkStr a ≠ .ub := by intro a; unfold checkStr; split <;> nofun
  have item : ∀ (h : Header) (opt : KOption) (size : Nat) (args : List Val), SizeOk opt size →
      packItem M h opt size args ≠ .ub := by
    intro h opt size args hso
    unfold packItem
    cases opt <;> dsimp only
    · apply chk _ _ _ (ci _); intro x
      split
      · nofun
      · rw [packint_spec _ _ _ _ _ hso.1 (by simp [junk]), Res.bind_ok]; nofun
    · apply chk _ _ _ (ci _); intro x
      split
      · nofun
      · rw [packint_spec _ _ _ _ _ hso.1 (by simp [junk]), Res.bind_ok]; nofun
    · apply chk _ _ _ (cf _); intro x; nofun
    · apply chk _ _ _ (cs _); intro x
      split <;> nofun
    · apply chk _ _ _ (cs _); intro x
      split
      · nofun
      · rw [packint_spec _ _ _ _ _ hso.1 (by simp [junk]), Res.bind_ok]; nofun
    · apply chk _ _ _ (cs _); intro x
      split <;> nofun
    · nofun
    · nofun
    · nofun
  have key : ∀ (fuel : Nat) (h : Header) (fmt : List UInt8) (args : List Val) (total : Nat) (out : List UInt8), HdrOk h →
      fmt.length < fuel → packFmt M fuel h fmt args total out ≠ .ub := by
    intro fuel
    induction fuel with
    | zero => intro _ _ _ _ _ _ h; omega
    | succ fuel ih =>
      intro h fmt args total out hh hl
      unfold packFmt
      by_cases hf : fmt = []
      · rw [if_pos hf]; nofun
      · rw [if_neg hf]
        rcases getdetails_ok M.little h hh fmt hf with ⟨opt, size, h', rest, f, hg, hso, hh', hl2⟩ | ⟨er, hg⟩
        · rw [(hg total).1, Res.bind_ok]
          dsimp only
          cases hp : packItem M h' opt size args with
          | ok x => rw [Res.bind_ok]; exact ih _ _ _ _ _ hh' (by omega)
          | err e => nofun
          | ub => exact absurd hp (item _ _ _ _ hso)
        · rw [hg total]; nofun
  exact key _ _ _ _ _ _ (by unfold HdrOk; simp) (Nat.lt_succ_self _)

/-- No format makes `packsize` undefined; in particular no sum leaves the range of `int`. -/
theorem packsize_defined (M : Machine) (fmt : List UInt8) : packsize M fmt ≠ .ub := by
  have key : ∀ (fuel : Nat) (h : Header) (fmt : List UInt8) (total : Nat), HdrOk h → fmt.length < fuel →
      sizeFmt M.little fuel h fmt total ≠ .ub := by
    intro fuel
    induction fuel with
    | zero => intro _ _ _ _ h; omega
    | succ fuel ih =>
      intro h fmt total hh hl
      unfold sizeFmt
      by_cases hf : fmt = []
      · rw [if_pos hf]; nofun
      · rw [if_neg hf]
        rcases getdetails_ok M.little h hh fmt hf with ⟨opt, size, h', rest, f, hg, hso, hh', hl2⟩ | ⟨er, hg⟩
        · rw [(hg total).1, Res.bind_ok]
          dsimp only
          split
          · nofun
          · have : size + f total ≤ 2147483647 := by
              have h1 := (hg total).2.1
              have h2 := (hg total).2.2.1
              cases opt <;> simp only [SizeOk] at hso
              case char => have := h2 rfl; omega
              all_goals omega
            unfold int32
            rw [if_pos this, Res.bind_ok]
            split
            · exact ih _ _ _ hh' (by omega)
            · nofun
        · rw [hg total]; nofun
  exact key _ _ _ _ (by unfold HdrOk; simp) (Nat.lt_succ_self _)

/-- No format, data or initial position make `unpack` read outside the data, and it ends. -/
theorem unpack_defined (M : Machine) (fmt data : List UInt8) (init : Int) (hd : data.length < 18446744073709551616) :
    unpack M fmt data init ≠ .ub := by
  have item : ∀ (h : Header) (opt : KOption) (size pos : Nat), SizeOk opt size → pos + size ≤ data.length →
      (∃ vs p, unpackItem M h opt size data pos = .ok (vs, p) ∧ p ≤ data.length) ∨
      (∃ e, unpackItem M h opt size data pos = .err e) := by
    intro h opt size pos hso hp
    unfold unpackItem
    cases opt <;> dsimp only
    · rw [unpack_signed hso.1 hp]
      split
      · exact Or.inl ⟨_, _, rfl, hp⟩
      · exact Or.inr ⟨_, rfl⟩
    · rw [unpack_unsigned hso.1 hp]
      split
      · exact Or.inl ⟨_, _, rfl, hp⟩
      · exact Or.inr ⟨_, rfl⟩
    · rw [rdN_ok hp]; exact Or.inl ⟨_, _, rfl, hp⟩
    · rw [rdN_ok hp]; exact Or.inl ⟨_, _, rfl, hp⟩
    · rw [unpack_unsigned hso.1 hp]
      split
      · rw [Res.bind_ok, szsub_ok (a := data.length) (by omega) hd, szsub_ok (by omega) (by omega)]
        split
        · rename_i hlen
          rw [rdN_ok (by omega)]; exact Or.inl ⟨_, _, rfl, by omega⟩
        · exact Or.inr ⟨_, rfl⟩
      · exact Or.inr ⟨_, rfl⟩
    · unfold strlen
      rw [if_pos (by omega), Res.bind_ok]
      split
      · rename_i hlen
        have hs0 : size = 0 := hso
        rw [rdN_ok (by omega)]
        exact Or.inl ⟨_, _, rfl, by omega⟩
      · exact Or.inr ⟨_, rfl⟩
    · exact Or.inl ⟨_, _, rfl, hp⟩
    · exact Or.inl ⟨_, _, rfl, hp⟩
    · exact Or.inl ⟨_, _, rfl, hp⟩
  have key : ∀ (fuel : Nat) (h : Header) (fmt : List UInt8) (pos : Nat), HdrOk h → fmt.length < fuel →
      pos ≤ data.length → unpackFmt M data fuel h fmt pos ≠ .ub := by
    intro fuel
    induction fuel with
    | zero => intro _ _ _ _ h; omega
    | succ fuel ih =>
      intro h fmt pos hh hl hp
      unfold unpackFmt
      by_cases hf : fmt = []
      · rw [if_pos hf]; nofun
      · rw [if_neg hf]
        rcases getdetails_ok M.little h hh fmt hf with ⟨opt, size, h', rest, f, hg, hso, hh', hl2⟩ | ⟨er, hg⟩
        · rw [(hg pos).1, Res.bind_ok]
          dsimp only
          rw [szsub_ok hp hd]
          split
          · rcases item h' opt size (pos + f pos) hso (by omega) with ⟨vs, p, e, hp2⟩ | ⟨e, he⟩
            · rw [e, Res.bind_ok]
              dsimp only
              have := ih h' rest p hh' (by omega) hp2
              cases hr : unpackFmt M data fuel h' rest p with
              | ok x => nofun
              | err e => nofun
              | ub => exact absurd hr this
            · rw [he]; nofun
          · nofun
        · rw [hg pos]; nofun
  unfold unpack
  dsimp only
  split
  · rename_i hp
    exact key _ _ _ _ (by unfold HdrOk; simp) (Nat.lt_succ_self _) hp
  · nofun

/-- A machine for the examples; its single precision drops the low 32 bits. -/
def M0 : Machine := ⟨true, fun x => x / 4294967296 % 4294967296, fun x => x * 4294967296⟩

theorem M0_ok : M0.Ok := by intro x; simp only [M0]; omega

/-- `!4>i2i4zs2<dc4`. -/
def fmt0 : List UInt8 := [33, 52, 62, 105, 50, 105, 52, 122, 115, 50, 60, 100, 99, 52]

def args0 : List Val := [.int (-2), .int 7, .str [65, 66], .str [67, 0, 68], .flt 4607182418800017408, .str [1, 2]]

/-- The example meets the hypotheses of `pack_unpack`, with padding between the first two integers. -/
example : (∀ v ∈ args0, Wf v) ∧ pack M0 fmt0 args0 = .ok [255, 254, 0, 0, 0, 0, 0, 7, 65, 66, 0, 0, 0, 3, 67, 0, 68,
    0, 0, 0, 0, 0, 0, 0, 0, 0, 240, 63, 1, 2, 0, 0] :=
  ⟨by simp [args0, Wf, InI], by decide +kernel⟩

/-- Floats are written in the byte order the format asks for, least significant byte first if little,
whatever the order of the machine: eight bytes of the pattern, or four of its single-precision form. -/
theorem float_bytes (M : Machine) (h : Header) (x : Nat) (args : List Val) :
    packItem M h .float 8 (.flt x :: args) = .ok (order h.little (bytes 8 x), args) ∧
    packItem M h .float 4 (.flt x :: args) = .ok (order h.little (bytes 4 (M.narrow x)), args) := by
  obtain ⟨hl, ha⟩ := h
  obtain ⟨ml, nw, wd⟩ := M
  constructor <;> cases hl <;> cases ml <;> simp [packItem, checkFlt, copywithendian, repr, order]

/-- 1.0 in both orders. -/
example : packItem M0 ⟨true, 1⟩ .float 8 [.flt 4607182418800017408] = .ok ([0, 0, 0, 0, 0, 0, 240, 63], []) ∧
    packItem M0 ⟨false, 1⟩ .float 8 [.flt 4607182418800017408] = .ok ([63, 240, 0, 0, 0, 0, 0, 0], []) := by decide +kernel

end Verif.Pack
