import Verif.StackMem.Model
import Verif.Call.Model

/-!
The stack that never moves, and the relation between it and the stack in memory.
-/
namespace Verif.StackMem

/-- A frame by positions. -/
structure ACI where
  func : Nat
  top : Nat
  base : Option Nat
deriving DecidableEq, Repr

/-- A stack without addresses and without an end: positions are counted from the bottom; `none` is a slot whose
contents are unspecified. -/
structure AS where
  mem : Nat → Option Val
  top : Nat
  cis : List ACI
  ups : List Nat

/-- largest of `t` and the tops of the frames -/
def alimL (t : Nat) : List ACI → Nat
  | [] => t
  | c :: cs => max c.top (alimL t cs)

/-- first position above everything in use -/
def AS.lim (A : AS) : Nat := alimL A.top A.cis

/-- slots above the part in use are unspecified -/
def AS.cut (A : AS) : AS := { A with mem := fun i => if i < A.lim then A.mem i else none }

/-- top of the current frame -/
def AS.ctop (A : AS) : Nat :=
  match A.cis with
  | [] => 0
  | c :: _ => c.top

/-- The operations on the stack that never moves. -/
def aStep (A : AS) : Op → AS
  | .check _ _ => A
  | .api n _ =>
    { A with cis := match A.cis with
        | [] => []
        | c :: cs => { c with top := max c.top (A.top + n.toNat) } :: cs }
  | .shrink _ => A
  | .push x => { A with mem := Call.put A.mem A.top (some x), top := A.top + 1 }
  | .pop n => { A with top := A.top - n }.cut
  | .set i x => { A with mem := Call.put A.mem i (some x) }
  | .enterC nargs _ _ _ => { A with cis := ⟨A.top - nargs - 1, A.top + 20, none⟩ :: A.cis }
  | .enterLua nargs np fs va _ _ _ =>
    let func := A.top - nargs - 1
    let r := Call.enter (some Val.nil) A.mem func A.top ⟨np, va, fs⟩
    { A with mem := r.1, top := r.2.2, cis := ⟨func, r.2.2, some r.2.1⟩ :: A.cis }.cut
  | .leave nres wanted =>
    match A.cis with
    | [] => A
    | c :: cs =>
      let w : Int := match wanted with
        | none => -1
        | some w => w
      let r := Call.moveresults (some Val.nil) A.mem (A.top - nres) c.func nres w
      { A with mem := r.1, top := r.2.1, cis := cs }.cut
  | .capture i => { A with ups := i :: A.ups }
  | .close i => { A with ups := A.ups.filter (fun u => u < i) }
  | .unwind keep oldtop e =>
    { mem := Call.put A.mem oldtop (some e), top := oldtop + 1,
      cis := A.cis.drop (A.cis.length - keep), ups := A.ups.filter (fun u => u < oldtop) : AS }.cut

/-- position `u` belongs to one of the frames -/
def InFrames (u : Nat) (cis : List ACI) : Prop := ∃ c ∈ cis, u < c.top

/-- What callers of the operations guarantee. -/
def Legal (A : AS) : Op → Prop
  -- the sizes asked for are frame sizes and numbers of values on a stack
  | .check n _ => 0 ≤ n ∧ n ≤ 2146483000
  -- any `int` that is not negative
  | .api n _ => 0 ≤ n ∧ n ≤ 2147483647
  | .shrink _ => True
  -- up to the top of the frame, plus `EXTRA_STACK`
  | .push _ => A.top < A.ctop + 5
  | .pop n => n ≤ A.top
  | .set i _ => i < A.lim
  | .enterC nargs _ _ _ => nargs + 1 ≤ A.top
  -- `maxstacksize` is a byte and counts the parameters
  | .enterLua nargs np fs _ _ _ _ => nargs + 1 ≤ A.top ∧ np ≤ fs ∧ fs ≤ 255
  -- the results lie above the function; a fixed number of them fits into the caller's frame; the variables of
  -- the frame that ends are closed
  | .leave nres wanted =>
    match A.cis with
    | c :: d :: _ => c.func + 1 + nres ≤ A.top ∧ (∀ w, wanted = some w → c.func + w ≤ d.top) ∧
        ∀ u ∈ A.ups, InFrames u A.cis.tail
    | _ => False
  | .capture i => InFrames i A.cis
  | .close _ => True
  | .unwind keep oldtop _ =>
    1 ≤ keep ∧ keep ≤ A.cis.length ∧
      (∃ c ∈ A.cis.drop (A.cis.length - keep), oldtop < c.top + 5) ∧
      ∀ u ∈ A.ups, u < oldtop → InFrames u (A.cis.drop (A.cis.length - keep))

/-- a frame at address `s` -/
def ACI.at (c : ACI) (s : Int) : CI := ⟨s + c.func, s + c.top, c.base.map (fun (b : Nat) => s + (b : Int))⟩

/-- memory agrees with the specified slots -/
def MV (V : List Val) (m : Nat → Option Val) : Prop := ∀ i x, m i = some x → V[i]? = some x

/-- The stack in memory represents the stack that never moves. -/
structure R (L : LS) (A : AS) : Prop where
  size : L.stacksize = L.vals.length
  last : L.last = L.stack + L.stacksize - 5
  bound : L.stacksize ≤ 1000000 ∨ L.stacksize = 1000200
  top : L.top = L.stack + A.top
  topb : (A.top : Int) ≤ L.stacksize
  cis : L.cis = A.cis.map (fun c => c.at L.stack)
  cisb : ∀ c ∈ A.cis, (c.top : Int) + 5 ≤ L.stacksize
  ups : L.ups = A.ups.map (fun (u : Nat) => L.stack + (u : Int))
  mem : MV L.vals A.mem
  memb : ∀ i x, A.mem i = some x → i < A.lim
  upsb : ∀ u ∈ A.ups, InFrames u A.cis
  ne : A.cis ≠ []

theorem le_alimL (t : Nat) : ∀ cs, t ≤ alimL t cs
  | [] => Nat.le_refl _
  | c :: cs => by have := le_alimL t cs; simp only [alimL]; omega

theorem mem_alimL {t : Nat} {c : ACI} : ∀ {cs}, c ∈ cs → c.top ≤ alimL t cs
  | d :: cs, h => by
    simp only [alimL]
    rcases List.mem_cons.mp h with rfl | h
    · omega
    · have := mem_alimL (t := t) h; omega

theorem alimL_le {t B : Nat} : ∀ {cs}, t ≤ B → (∀ c ∈ cs, c.top ≤ B) → alimL t cs ≤ B
  | [], h, _ => h
  | c :: cs, h, h' => by
    have := alimL_le h (fun d hd => h' d (List.mem_cons_of_mem _ hd))
    have := h' c (by simp)
    simp only [alimL]; omega

theorem alimL_mono {t t' : Nat} (h : t ≤ t') : ∀ cs, alimL t cs ≤ alimL t' cs
  | [] => h
  | c :: cs => by have := alimL_mono h cs; simp only [alimL]; omega

theorem limOf_eq (s : Int) : ∀ (cs : List ACI) (t : Nat),
    limOf (s + t) (cs.map (fun c => c.at s)) = s + alimL t cs := by
  have key : ∀ (cs : List ACI) (t u : Nat), alimL (max t u) cs = max u (alimL t cs) := by
    intro cs
    induction cs with
    | nil => intro t u; simp only [alimL]; omega
    | cons c cs ih => intro t u; simp only [alimL, ih]; omega
  intro cs
  induction cs with
  | nil => intro t; simp [limOf, alimL]
  | cons c cs ih =>
    intro t
    simp only [List.map_cons, limOf, alimL]
    show limOf (if s + (t : Int) < s + (c.top : Int) then s + (c.top : Int) else s + (t : Int)) _ = _
    split
    · rename_i h
      rw [ih]
      have := key cs t c.top
      have e : max t c.top = c.top := by omega
      rw [e] at this; rw [this]
    · rename_i h
      rw [ih]
      have := le_alimL t cs
      omega

theorem resize_get {V : List Val} {n i : Nat} {x : Val} (h : V[i]? = some x) (hi : i < n) :
    (resize V n)[i]? = some x := by
  unfold resize
  have hl : i < V.length := by
    rcases Nat.lt_or_ge i V.length with h' | h'
    · exact h'
    · rw [List.getElem?_eq_none h'] at h; exact nomatch h
  rw [List.getElem?_append_left (by rw [List.length_take]; omega), List.getElem?_take, if_pos hi, h]

theorem resize_length (V : List Val) (n : Nat) : (resize V n).length = n := by
  simp only [resize, List.length_append, List.length_take, List.length_replicate]; omega

theorem resize_new {V : List Val} {n i : Nat} (h : V.length ≤ i) (hi : i < n) :
    (resize V n)[i]? = some .nil := by
  unfold resize
  rw [List.getElem?_append_right (by rw [List.length_take]; omega), List.length_take,
    List.getElem?_replicate, if_pos (by omega)]

theorem realloc_R {L : LS} {A : AS} (h : R L A) {n : Int} (a : Int)
    (hb : n ≤ 1000000 ∨ n = 1000200) (ht : (A.top : Int) ≤ n) (hc : ∀ c ∈ A.cis, (c.top : Int) + 5 ≤ n) :
    R (realloc L n a) A := by
  have hl : (A.lim : Int) ≤ n := by
    have : A.lim ≤ n.toNat := alimL_le (by omega) (fun c hc' => by have := hc c hc'; omega)
    omega
  have hn : 0 ≤ n := by omega
  refine ⟨?_, ?_, hb, ?_, ht, ?_, hc, ?_, ?_, h.memb, h.upsb, h.ne⟩
  · show n = ((resize L.vals n.toNat).length : Int)
    rw [resize_length]; omega
  · show a + n - extra = a + n - 5
    rfl
  · show L.top - L.stack + a = a + A.top
    rw [h.top]; omega
  · show L.cis.map (fun c => c.move L.stack a) = _
    rw [h.cis, List.map_map]
    apply List.map_congr_left
    intro c _
    show (c.at L.stack).move L.stack a = c.at a
    simp only [ACI.at, CI.move, Option.map_map, CI.mk.injEq]
    refine ⟨by omega, by omega, ?_⟩
    cases c.base with
    | none => rfl
    | some b => simp only [Option.map_some, Function.comp]; congr 1; omega
  · show L.ups.map (fun u => (u - L.stack) + a) = _
    rw [h.ups, List.map_map]
    apply List.map_congr_left
    intro u _
    show L.stack + (u : Int) - L.stack + a = a + u
    omega
  · intro i x hx
    exact resize_get (h.mem i x hx) (by have := h.memb i x hx; omega)

theorem R.lim_le {L : LS} {A : AS} (h : R L A) : (A.lim : Int) ≤ L.stacksize := by
  have h0 : 0 ≤ L.stacksize := by have := h.topb; omega
  have : A.lim ≤ L.stacksize.toNat :=
    alimL_le (by have := h.topb; omega) (fun c hc' => by have := h.cisb c hc'; omega)
  omega

theorem i32_ok {x : Int} (h1 : -2147483648 ≤ x) (h2 : x ≤ 2147483647) : i32 x = .ok x := if_pos ⟨h1, h2⟩

theorem growstack_R {L : LS} {A : AS} (h : R L A) {n : Int} (h0 : 0 ≤ n) (h1 : n ≤ 2146483000) (a : Option Int) :
    ∃ s L', growstack L n a = .ok (s, L') ∧ R L' A ∧
      (s = .ok → n ≤ L'.last - L'.top) ∧ (s = .overflow → 1000000 < A.top + n + 5) ∧
      (s = .errerr → 1000000 < L.stacksize) ∧ (s = .nomem → a = none ∧ L' = L) ∧
      L.stacksize ≤ L'.stacksize := by
  have hb := h.bound
  have htop := h.topb
  have hdef : L.top - L.stack = A.top := by rw [h.top]; omega
  unfold growstack
  by_cases hs : L.stacksize > maxStack
  · rw [if_pos hs]
    exact ⟨_, _, rfl, h, (fun e => nomatch e), (fun e => nomatch e), fun _ => hs, (fun e => nomatch e), Int.le_refl _⟩
  rw [if_neg hs]
  rw [hdef, i32_ok (by omega) (by omega), Res.bind_ok]
  rw [i32_ok (by omega) (by omega), Res.bind_ok, i32_ok (by omega) (by omega), Res.bind_ok]
  generalize hm : (if 2 * L.stacksize > maxStack then maxStack else 2 * L.stacksize) = m
  have hm1 : L.stacksize ≤ m ∧ m ≤ 1000000 := by
    split at hm <;> omega
  dsimp only
  generalize hk : (if m < (A.top : Int) + n + extra then (A.top : Int) + n + extra else m) = k
  have hk1 : m ≤ k ∧ (A.top : Int) + n + 5 ≤ k ∧ (1000000 < k → k = (A.top : Int) + n + 5) := by
    split at hk <;> omega
  split
  · rename_i hbig
    cases a with
    | none =>
      exact ⟨_, _, rfl, h, (fun e => nomatch e), (fun e => nomatch e), (fun e => nomatch e),
        (fun _ => ⟨rfl, rfl⟩), Int.le_refl _⟩
    | some a =>
      refine ⟨_, _, rfl, realloc_R h a (.inr rfl) (by omega)
        (fun c hc => by have := h.cisb c hc; omega), (fun e => nomatch e), (fun _ => by omega),
        (fun e => nomatch e), (fun e => nomatch e), ?_⟩
      show L.stacksize ≤ 1000000 + 200
      omega
  · rename_i hbig
    cases a with
    | none =>
      exact ⟨_, _, rfl, h, (fun e => nomatch e), (fun e => nomatch e), (fun e => nomatch e),
        (fun _ => ⟨rfl, rfl⟩), Int.le_refl _⟩
    | some a =>
      refine ⟨_, _, rfl, realloc_R h a (.inl (by omega)) (by omega)
        (fun c hc => by have := h.cisb c hc; omega), (fun _ => ?_), (fun e => nomatch e),
        (fun e => nomatch e), (fun e => nomatch e), ?_⟩
      · show n ≤ a + k - extra - (L.top - L.stack + a)
        omega
      · show L.stacksize ≤ k
        omega

theorem shrinkstack_R {L : LS} {A : AS} (h : R L A) (a : Option Int) :
    ∃ s L', shrinkstack L a = (s, L') ∧ R L' A ∧ (s = .ok ∨ s = .nomem) ∧ (s = .nomem → a = none ∧ L' = L) ∧
      L'.stacksize ≤ L.stacksize ∧
      (s = .ok → (A.lim : Int) + 1 ≤ 999995 → L'.stacksize ≤ 1000000) := by
  have hin : stackinuse L = (A.lim : Int) + 1 := by
    unfold stackinuse
    rw [h.top, h.cis, limOf_eq]
    show L.stack + (A.lim : Int) - L.stack + 1 = _
    omega
  have hlim := h.lim_le
  have hd : Int.tdiv ((A.lim : Int) + 1) 8 = ((A.lim : Int) + 1) / 8 := Int.tdiv_eq_ediv_of_nonneg (by omega)
  unfold shrinkstack
  dsimp only
  rw [hin, hd]
  generalize hg : (if (A.lim : Int) + 1 + ((A.lim : Int) + 1) / 8 + 2 * extra > maxStack then maxStack
    else (A.lim : Int) + 1 + ((A.lim : Int) + 1) / 8 + 2 * extra) = g
  have hg1 : g ≤ 1000000 ∧ ((A.lim : Int) + 1 ≤ 999995 → (A.lim : Int) + 6 ≤ g) := by
    split at hg <;> omega
  split
  · rename_i hc
    cases a with
    | none => exact ⟨_, _, rfl, h, .inr rfl, (fun _ => ⟨rfl, rfl⟩), Int.le_refl _, (fun e => nomatch e)⟩
    | some a =>
      have ht : A.top ≤ A.lim := le_alimL _ _
      refine ⟨_, _, rfl, realloc_R h a (.inl (by omega)) (by omega)
        (fun c hc => ?_), .inl rfl, (fun e => nomatch e), ?_, ?_⟩
      · have : c.top ≤ A.lim := mem_alimL hc
        omega
      · show g ≤ L.stacksize
        omega
      · intro _ _
        show g ≤ 1000000
        omega
  · rename_i hc
    refine ⟨_, _, rfl, h, .inl rfl, (fun e => nomatch e), Int.le_refl _, ?_⟩
    intro _ _
    omega

theorem wr_eq {L : LS} {i : Nat} (x : Val) {p : Int} (hp : p = L.stack + i) (h : i < L.vals.length) :
    wr L p x = .ok { L with vals := L.vals.set i x } := by
  unfold wr
  rw [if_pos (by omega)]
  have : (p - L.stack).toNat = i := by omega
  rw [this]

theorem rd_eq {L : LS} {i : Nat} {p : Int} (hp : p = L.stack + i) (h : i < L.vals.length) :
    rd L p = .ok L.vals[i] := by
  unfold rd
  have : (p - L.stack).toNat = i := by omega
  rw [if_pos (by omega), this, List.getElem?_eq_getElem h]

theorem MV.put {V : List Val} {m : Nat → Option Val} (h : MV V m) (i : Nat) (x : Val) (o : Option Val)
    (hi : i < V.length) (ho : ∀ y, o = some y → y = x) : MV (V.set i x) (Call.put m i o) := by
  intro j y hy
  simp only [Call.put] at hy
  split at hy
  · rename_i e
    rw [e, List.getElem?_set_self hi, ho y hy]
  · rename_i e
    rw [List.getElem?_set_ne (by omega)]
    exact h j y hy

theorem push_eq {L : LS} {t : Nat} (x : Val) (hp : L.top = L.stack + t) (h : t < L.vals.length) :
    push L x = .ok { L with vals := L.vals.set t x, top := L.top + 1 } := by
  unfold push
  rw [wr_eq x hp h]; rfl

theorem nils_ok : ∀ (k : Nat) (L : LS) (t : Nat) (m : Nat → Option Val), L.top = L.stack + t →
    t + k ≤ L.vals.length → MV L.vals m →
    ∃ V, nils k L = .ok { L with vals := V, top := L.top + k } ∧ V.length = L.vals.length ∧
      MV V (Call.nilFill (some Val.nil) m t k)
  | 0, L, t, m, _, _, hm => ⟨L.vals, by simp [nils], rfl, hm⟩
  | k + 1, L, t, m, ht, hk, hm => by
    obtain ⟨V, e, hl, hv⟩ := nils_ok k L t m ht (by omega) hm
    refine ⟨V.set (t + k) .nil, ?_, by rw [List.length_set, hl], ?_⟩
    · simp only [nils]
      rw [e, Res.bind_ok, push_eq (t := t + k) .nil (by show L.top + k = _; push_cast; omega) (by show t + k < V.length; omega)]
      simp only [Res.ok.injEq, LS.mk.injEq, true_and]
      simp only [and_true]
      push_cast; omega
    · exact hv.put _ _ _ (by omega) (fun y hy => by cases hy; rfl)

theorem copyVals_ok : ∀ (k : Nat) (L : LS) (d s : Nat) (dp sp : Int) (m : Nat → Option Val),
    dp = L.stack + d → sp = L.stack + s → d + k ≤ L.vals.length → s + k ≤ L.vals.length → MV L.vals m →
    ∃ V, copyVals k L dp sp = .ok { L with vals := V } ∧ V.length = L.vals.length ∧
      MV V (Call.copyUp m d s k)
  | 0, L, d, s, dp, sp, m, _, _, _, _, hm => ⟨L.vals, rfl, rfl, hm⟩
  | k + 1, L, d, s, dp, sp, m, hd, hs, hdk, hsk, hm => by
    obtain ⟨V, e, hl, hv⟩ := copyVals_ok k L d s dp sp m hd hs (by omega) (by omega) hm
    have hsl : s + k < V.length := by omega
    refine ⟨V.set (d + k) V[s + k], ?_, by rw [List.length_set, hl], ?_⟩
    · simp only [copyVals]
      rw [e, Res.bind_ok, rd_eq (i := s + k) (by show sp + k = L.stack + _; push_cast; omega) hsl, Res.bind_ok,
        wr_eq (i := d + k) _ (by show dp + k = L.stack + _; push_cast; omega) (by show d + k < V.length; omega)]
    · refine hv.put _ _ _ (by omega) (fun y hy => ?_)
      have := hv _ _ hy
      rw [List.getElem?_eq_getElem hsl] at this
      exact (Option.some.inj this).symm

theorem moveArgs_ok : ∀ (k : Nat) (L : LS) (t s : Nat) (sp : Int) (m : Nat → Option Val),
    L.top = L.stack + t → sp = L.stack + s → t + k ≤ L.vals.length → s + k ≤ L.vals.length → MV L.vals m →
    ∃ V, moveArgs k L sp = .ok { L with vals := V, top := L.top + k } ∧ V.length = L.vals.length ∧
      MV V (Call.moveFixed (some Val.nil) m t s k)
  | 0, L, t, s, sp, m, _, _, _, _, hm => ⟨L.vals, by simp [moveArgs], rfl, hm⟩
  | k + 1, L, t, s, sp, m, ht, hs, htk, hsk, hm => by
    obtain ⟨V, e, hl, hv⟩ := moveArgs_ok k L t s sp m ht hs (by omega) (by omega) hm
    have hsl : s + k < V.length := by omega
    refine ⟨(V.set (t + k) V[s + k]).set (s + k) .nil, ?_, by rw [List.length_set, List.length_set, hl], ?_⟩
    · simp only [moveArgs]
      rw [e, Res.bind_ok, rd_eq (i := s + k) (by show sp + k = L.stack + _; push_cast; omega) hsl, Res.bind_ok,
        push_eq (t := t + k) _ (by show L.top + k = _; push_cast; omega) (by show t + k < V.length; omega),
        Res.bind_ok,
        wr_eq (i := s + k) _ (by show sp + k = L.stack + _; push_cast; omega)
          (by show s + k < (V.set _ _).length; rw [List.length_set]; omega)]
      simp only [Res.ok.injEq, LS.mk.injEq, true_and, and_self, and_true]
      push_cast; omega
    · simp only [Call.moveFixed]
      refine MV.put (MV.put hv _ _ _ (by omega) (fun y hy => ?_)) _ _ _ (by rw [List.length_set]; omega)
        (fun y hy => by cases hy; rfl)
      have := hv _ _ hy
      rw [List.getElem?_eq_getElem hsl] at this
      exact (Option.some.inj this).symm

theorem MV.cut {V : List Val} {A : AS} (h : MV V A.mem) : MV V A.cut.mem := by
  intro i x hx
  simp only [AS.cut] at hx
  split at hx
  · exact h i x hx
  · exact nomatch hx

theorem cut_memb (A : AS) : ∀ i x, A.cut.mem i = some x → i < A.cut.lim := by
  intro i x hx
  simp only [AS.cut] at hx
  split at hx
  · rename_i h; exact h
  · exact nomatch hx

end Verif.StackMem
