import Verif.StackMem.Lemmas
import Verif.StackMem.CIList

/-!
# C45: the stack in memory behaves like a stack that never moves
-/
namespace Verif.StackMem

theorem init_R (a : Int) : R (init a) ⟨fun i => if i < 1 then some .nil else none, 1, [⟨0, 21, none⟩], []⟩ := by
  refine ⟨?_, ?_, .inl (by simp [init]), ?_, by simp [init], ?_, by simp [init], rfl, ?_, ?_, ?_, by simp⟩
  · simp [init]
  · rfl
  · rfl
  · simp [init, ACI.at]; omega
  · intro i x hx
    dsimp only at hx
    split at hx
    · rename_i h
      have : i = 0 := by omega
      subst this
      rw [← hx]; rfl
    · exact nomatch hx
  · intro i x hx
    dsimp only at hx
    split at hx
    · show i < 21
      omega
    · exact nomatch hx
  · intro u hu; exact nomatch hu

theorem R.lim_eq {A : AS} {c : ACI} {cs : List ACI} (h : A.cis = c :: cs) : A.lim = max c.top (alimL A.top cs) := by
  unfold AS.lim; rw [h]; rfl

theorem ctop_le (A : AS) : A.ctop ≤ A.lim := by
  unfold AS.ctop
  split
  · omega
  · rename_i h
    exact mem_alimL (by rw [h]; simp)

theorem vlen {L : LS} {A : AS} (h : R L A) {i : Nat} (hi : (i : Int) < L.stacksize) : i < L.vals.length := by
  have := h.size; omega

/-- entering a Lua function once there is room -/
theorem enterLuaBody_R {L : LS} {A : AS} (h : R L A) {nargs np fs : Nat} (va : Bool) {func : Int}
    (hf : func = L.stack + (A.top - nargs - 1 : Nat)) (hn : nargs + 1 ≤ A.top) (hnp : np ≤ fs)
    (hroom : (fs : Int) ≤ L.last - L.top) :
    ∃ L', enterLuaBody L func np fs va = .ok L' ∧
      R L' (aStep A (.enterLua nargs np fs va gc a₁ a₂)) := by
  have hlast := h.last
  have htop := h.top
  have hsz := h.size
  have hlim := h.lim_le
  have hn' : L.top - func - 1 = (nargs : Int) := by omega
  have hnn : A.top - (A.top - nargs - 1) - 1 = nargs := by omega
  unfold enterLuaBody
  dsimp only
  rw [hn']
  cases va with
  | true =>
    rw [if_pos rfl]
    have hm : min np ((nargs : Int)).toNat = min np nargs := by rw [Int.toNat_natCast]
    rw [hm]
    obtain ⟨V, e, hl, hv⟩ := moveArgs_ok (min np nargs) L A.top (A.top - nargs) (L.top - nargs) A.mem htop (by omega)
      (by omega) (by omega) h.mem
    rw [e, Res.bind_ok]
    obtain ⟨V', e', hl', hv'⟩ := nils_ok (np - min np nargs)
      { L with vals := V, top := L.top + (min np nargs : Nat) } (A.top + min np nargs) _
      (by show L.top + _ = L.stack + _; push_cast; omega) (by show _ ≤ V.length; omega) hv
    rw [e', Res.bind_ok]
    refine ⟨_, rfl, ?_⟩
    simp only [aStep, Call.enter, Call.adjustVarargs, if_true, hnn]
    generalize hB : ({ mem := _, top := _, cis := _, ups := _ } : AS) = B
    have hB' : MV V' B.mem ∧ B.top = A.top + fs ∧ B.cis = ⟨A.top - nargs - 1, A.top + fs, some A.top⟩ :: A.cis ∧
        B.ups = A.ups := by
      subst hB; exact ⟨hv', rfl, rfl, rfl⟩
    obtain ⟨hBm, hBt, hBc, hBu⟩ := hB'
    refine ⟨?_, hlast, h.bound, ?_, ?_, ?_, ?_, ?_, MV.cut hBm, cut_memb B, ?_, by show B.cis ≠ []; rw [hBc]; simp⟩
    · show L.stacksize = (V'.length : Int)
      have : V'.length = V.length := hl'
      omega
    · show L.top + (fs : Int) = L.stack + (B.top : Nat)
      rw [hBt]; push_cast; omega
    · show (B.top : Int) ≤ L.stacksize
      rw [hBt]; push_cast; omega
    · show _ = B.cis.map (fun c => c.at L.stack)
      rw [hBc, List.map_cons]
      show _ :: L.cis = _
      rw [h.cis]
      congr 1
      simp only [ACI.at, CI.mk.injEq, Option.map_some, Option.some.injEq]
      refine ⟨hf, by push_cast; omega, htop⟩
    · show ∀ c ∈ B.cis, (c.top : Int) + 5 ≤ L.stacksize
      rw [hBc]
      intro c hc
      rcases List.mem_cons.mp hc with rfl | hc
      · show ((A.top + fs : Nat) : Int) + 5 ≤ L.stacksize
        push_cast; omega
      · exact h.cisb c hc
    · show L.ups = B.ups.map (fun (u : Nat) => L.stack + (u : Int))
      rw [hBu]; exact h.ups
    · show ∀ u ∈ B.ups, InFrames u B.cis
      rw [hBu, hBc]
      intro u hu
      obtain ⟨c, hc, h'⟩ := h.upsb u hu
      exact ⟨c, List.mem_cons_of_mem _ hc, h'⟩
  | false =>
    rw [if_neg (by simp)]
    rw [Int.toNat_natCast]
    obtain ⟨V, e, hl, hv⟩ := nils_ok (np - nargs) L A.top A.mem htop (by omega) h.mem
    rw [e, Res.bind_ok]
    refine ⟨_, rfl, ?_⟩
    simp only [aStep, Call.enter, hnn]
    generalize hB : ({ mem := _, top := _, cis := _, ups := _ } : AS) = B
    have hB' : MV V B.mem ∧ B.top = A.top - nargs - 1 + 1 + fs ∧
        B.cis = ⟨A.top - nargs - 1, A.top - nargs - 1 + 1 + fs, some (A.top - nargs - 1 + 1)⟩ :: A.cis ∧
        B.ups = A.ups := by
      subst hB; exact ⟨hv, rfl, rfl, rfl⟩
    obtain ⟨hBm, hBt, hBc, hBu⟩ := hB'
    refine ⟨?_, hlast, h.bound, ?_, ?_, ?_, ?_, ?_, MV.cut hBm, cut_memb B, ?_, by show B.cis ≠ []; rw [hBc]; simp⟩
    · show L.stacksize = (V.length : Int)
      omega
    · show func + 1 + (fs : Int) = L.stack + (B.top : Nat)
      rw [hBt]; push_cast; omega
    · show (B.top : Int) ≤ L.stacksize
      rw [hBt]; push_cast; omega
    · show _ = B.cis.map (fun c => c.at L.stack)
      rw [hBc, List.map_cons]
      show _ :: L.cis = _
      rw [h.cis]
      congr 1
      simp only [ACI.at, CI.mk.injEq, Option.map_some, Option.some.injEq]
      refine ⟨hf, by push_cast; omega, by push_cast; omega⟩
    · show ∀ c ∈ B.cis, (c.top : Int) + 5 ≤ L.stacksize
      rw [hBc]
      intro c hc
      rcases List.mem_cons.mp hc with rfl | hc
      · show ((A.top - nargs - 1 + 1 + fs : Nat) : Int) + 5 ≤ L.stacksize
        push_cast; omega
      · exact h.cisb c hc
    · show L.ups = B.ups.map (fun (u : Nat) => L.stack + (u : Int))
      rw [hBu]; exact h.ups
    · show ∀ u ∈ B.ups, InFrames u B.cis
      rw [hBu, hBc]
      intro u hu
      obtain ⟨c, hc, h'⟩ := h.upsb u hu
      exact ⟨c, List.mem_cons_of_mem _ hc, h'⟩

/-- the check of `luaD_precall` and what follows it -/
theorem checkp_R {L : LS} {A : AS} (h : R L A) {n : Int} (h0 : 0 ≤ n) (h1 : n ≤ 2146483000)
    (gc : Bool) (a₁ a₂ : Option Int) (t : Nat) (k : LS → Int → Res (Status × LS)) (B : AS)
    (hk : ∀ L' : LS, R L' A → n ≤ L'.last - L'.top → ∃ L'', k L' (L'.stack + t) = .ok (.ok, L'') ∧ R L'' B) :
    ∃ s L', (if L.last - L.top ≤ n then do
        let (s, L) := if gc then shrinkstack L a₁ else (.ok, L)
        if s ≠ .ok then pure (s, L) else do
        let (s, L) ← growstack L n a₂
        if s ≠ .ok then pure (s, L) else
        k L (L.stack + t)
      else k L (L.stack + t)) = .ok (s, L') ∧ (s = .ok → R L' B) ∧ (s ≠ .ok → R L' A) := by
  split
  · obtain ⟨s, L₁, e, hR, hs⟩ : ∃ s L₁, (if gc then shrinkstack L a₁ else (.ok, L)) = (s, L₁) ∧ R L₁ A ∧
        (s = .ok ∨ s = .nomem) := by
      cases gc with
      | true =>
        obtain ⟨s, L₁, e, hR, hs, _⟩ := shrinkstack_R h a₁
        exact ⟨s, L₁, e, hR, hs⟩
      | false => exact ⟨.ok, L, rfl, h, .inl rfl⟩
    rw [e]
    dsimp only
    rcases hs with rfl | rfl
    · rw [if_neg (by simp)]
      obtain ⟨s, L₂, e₂, hR₂, hroom, _⟩ := growstack_R hR h0 h1 a₂
      rw [e₂, Res.bind_ok]
      dsimp only
      by_cases hs : s = .ok
      · rw [if_neg (by simp [hs])]
        obtain ⟨L₃, e₃, hR₃⟩ := hk L₂ hR₂ (hroom hs)
        exact ⟨_, _, e₃, fun _ => hR₃, fun hh => absurd rfl hh⟩
      · rw [if_pos hs]
        exact ⟨_, _, rfl, fun hh => absurd hh hs, fun _ => hR₂⟩
    · rw [if_pos (by simp)]
      exact ⟨_, _, rfl, (fun hh => nomatch hh), fun _ => hR⟩
  · obtain ⟨L₃, e₃, hR₃⟩ := hk L h (by omega)
    exact ⟨_, _, e₃, fun _ => hR₃, fun hh => absurd rfl hh⟩

/-- `lua_checkstack`: never an error, and false only when the stack would be too large or memory is exhausted -/
theorem api_R {L : LS} {A : AS} (h : R L A) {n : Int} (h0 : 0 ≤ n) (h1 : n ≤ 2147483647) (a : Option Int) :
    ∃ r L', apiCheckstack L n a = .ok (r, L') ∧
      (r = true → R L' (aStep A (.api n a)) ∧ L'.top + n ≤ L'.last ∧ L'.top + n ≤ ciTop L') ∧
      (r = false → R L' A ∧ (1000000 < A.top + n + 5 ∨ a = none)) := by
  have hlast := h.last
  have htop := h.top
  have hb := h.bound
  have htb := h.topb
  have hsz := h.size
  -- the frame is adjusted after a successful check
  have fin : ∀ L₁ : LS, R L₁ A → n ≤ L₁.last - L₁.top →
      R (apiFrame true L₁ n) (aStep A (.api n a)) ∧ (apiFrame true L₁ n).top + n ≤ (apiFrame true L₁ n).last ∧
        (apiFrame true L₁ n).top + n ≤ ciTop (apiFrame true L₁ n) := by
    intro L₁ hR hroom
    obtain ⟨c, cs, hc⟩ := List.exists_cons_of_ne_nil hR.ne
    have hL : L₁.cis = c.at L₁.stack :: cs.map (fun c => c.at L₁.stack) := by rw [hR.cis, hc]; rfl
    have ht := hR.top
    have hl := hR.last
    have hA : aStep A (.api n a) = { A with cis := { c with top := max c.top (A.top + n.toNat) } :: cs } := by
      simp only [aStep, hc]
    rw [hA]
    have hlim : A.lim ≤ AS.lim { A with cis := { c with top := max c.top (A.top + n.toNat) } :: cs } := by
      unfold AS.lim
      rw [hc]
      simp only [alimL]
      omega
    have hct : ciTop L₁ = L₁.stack + c.top := by unfold ciTop; rw [hL]; rfl
    have hups : ∀ u ∈ A.ups, InFrames u ({ c with top := max c.top (A.top + n.toNat) } :: cs) := by
      intro u hu
      obtain ⟨d, hd, hlt⟩ := hR.upsb u hu
      rw [hc] at hd
      rcases List.mem_cons.mp hd with rfl | hd
      · exact ⟨_, List.mem_cons_self, by show u < max _ _; omega⟩
      · exact ⟨d, List.mem_cons_of_mem _ hd, hlt⟩
    have hcb : ∀ d ∈ ({ c with top := max c.top (A.top + n.toNat) } :: cs : List ACI),
        (d.top : Int) + 5 ≤ L₁.stacksize := by
      intro d hd
      have := hR.cisb c (by rw [hc]; simp)
      rcases List.mem_cons.mp hd with rfl | hd
      · show ((max c.top (A.top + n.toNat) : Nat) : Int) + 5 ≤ _
        omega
      · exact hR.cisb d (by rw [hc]; exact List.mem_cons_of_mem _ hd)
    unfold apiFrame
    split
    · rename_i hlt
      have hlt := hlt.2
      rw [hct] at hlt
      have hmax : max c.top (A.top + n.toNat) = A.top + n.toNat := by omega
      refine ⟨⟨hR.size, hR.last, hR.bound, hR.top, hR.topb, ?_, hcb, hR.ups, hR.mem,
        fun i x hx => Nat.lt_of_lt_of_le (hR.memb i x hx) hlim, hups, by simp⟩, ?_, ?_⟩
      · show (match L₁.cis with
          | [] => []
          | c :: cs => { c with top := L₁.top + n } :: cs) = _
        rw [hL]
        have e : L₁.top + n = L₁.stack + ((A.top + n.toNat : Nat) : Int) := by push_cast; omega
        rw [hmax, e]
        rfl
      · show L₁.top + n ≤ L₁.last
        omega
      · show L₁.top + n ≤ ciTop (setCiTop L₁ (L₁.top + n))
        simp [ciTop, setCiTop, hL]
    · rename_i hlt
      have hlt : L₁.top + n ≤ ciTop L₁ := by
        by_cases hh : ciTop L₁ < L₁.top + n
        · exact absurd ⟨rfl, hh⟩ hlt
        · omega
      have hlt' := hlt
      rw [hct] at hlt'
      have hmax : max c.top (A.top + n.toNat) = c.top := by omega
      refine ⟨⟨hR.size, hR.last, hR.bound, hR.top, hR.topb, ?_, hcb, hR.ups, hR.mem,
        fun i x hx => Nat.lt_of_lt_of_le (hR.memb i x hx) hlim, hups, by simp⟩, by omega, hlt⟩
      show L₁.cis = _
      rw [hL]
      simp only [hmax, List.map_cons]
  unfold apiCheckstack apiGrow
  by_cases hbig : L.last - L.top > n
  · rw [if_pos hbig, Res.bind_ok]
    exact ⟨true, _, rfl, fun _ => fin L h (by omega), (fun hh => nomatch hh)⟩
  · rw [if_neg hbig, i32_ok (by omega) (by omega), Res.bind_ok, i32_ok (by omega) (by omega), Res.bind_ok]
    by_cases hroom : L.top - L.stack + extra > maxStack - n
    · rw [if_pos hroom, Res.pure_eq, Res.bind_ok]
      exact ⟨false, _, rfl, (fun hh => nomatch hh), fun _ => ⟨h, .inl (by omega)⟩⟩
    · rw [if_neg hroom]
      obtain ⟨s, L₁, e, hR, g1, g2, g3, g4, _⟩ := growstack_R h h0 (by omega) a
      rw [e]
      simp only [Res.bind_ok, Res.pure_eq]
      cases s with
      | ok => exact ⟨true, _, rfl, fun _ => fin L₁ hR (g1 rfl), (fun hh => nomatch hh)⟩
      | overflow => exact absurd (g2 rfl) (by omega)
      | errerr => exact absurd (g3 rfl) (by omega)
      | nomem =>
        refine ⟨false, _, rfl, (fun hh => nomatch hh), fun _ => ⟨?_, .inr (g4 rfl).1⟩⟩
        exact hR

theorem leave_R {L : LS} {A : AS} (h : R L A) {nres : Nat} {wanted : Option Nat}
    (hleg : Legal A (.leave nres wanted)) :
    ∃ L', leave L nres wanted = .ok L' ∧ R L' (aStep A (.leave nres wanted)) := by
  have hlast := h.last
  have htop := h.top
  have htb := h.topb
  have hsz := h.size
  have hlim := h.lim_le
  simp only [Legal] at hleg
  split at hleg
  case h_2 => exact hleg.elim
  rename_i c d cs hc
  obtain ⟨h1, h2, h3⟩ := hleg
  have hL : L.cis = c.at L.stack :: (d :: cs).map (fun c => c.at L.stack) := by rw [h.cis, hc]; rfl
  have hcb : ∀ x ∈ d :: cs, (x.top : Int) + 5 ≤ L.stacksize :=
    fun x hx => h.cisb x (by rw [hc]; exact List.mem_cons_of_mem _ hx)
  have hups : ∀ u ∈ A.ups, InFrames u (d :: cs) := by
    intro u hu
    have := h3 u hu
    rw [hc] at this
    exact this
  have fin : ∀ (V : List Val) (m : Nat → Option Val) (t : Nat) (tp : Int), V.length = L.vals.length → MV V m →
      tp = L.stack + t → (t : Int) ≤ L.stacksize →
      R { L with vals := V, top := tp, cis := (d :: cs).map (fun c => c.at L.stack) }
        (AS.cut { A with mem := m, top := t, cis := d :: cs }) := by
    intro V m t tp hl hm ht hb
    refine ⟨?_, hlast, h.bound, ht, hb, rfl, hcb, h.ups, MV.cut hm, cut_memb _, hups, by
      show d :: cs ≠ []; simp⟩
    show L.stacksize = (V.length : Int)
    omega
  unfold leave
  rw [hL]
  simp only [aStep, hc]
  cases wanted with
  | none =>
    dsimp only
    obtain ⟨V, e, hl, hv⟩ := copyVals_ok nres { L with cis := (d :: cs).map (fun c => c.at L.stack) } c.func (A.top - nres)
      (c.at L.stack).func (L.top - nres) A.mem rfl (by show _ = L.stack + _; omega)
      (by show _ ≤ L.vals.length; omega) (by show _ ≤ L.vals.length; omega) h.mem
    rw [e, Res.bind_ok]
    refine ⟨_, rfl, ?_⟩
    have : Call.moveresults (some Val.nil) A.mem (A.top - nres) c.func nres (-1) =
        (Call.copyUp A.mem c.func (A.top - nres) nres, c.func + nres, false) := by
      simp [Call.moveresults]
    rw [this]
    exact fin V _ (c.func + nres) _ hl hv (by show L.stack + (c.func : Int) + nres = _; push_cast; omega) (by push_cast; omega)
  | some w =>
    dsimp only
    have hw := h2 w rfl
    have hdt := hcb d (by simp)
    obtain ⟨V, e, hl, hv⟩ := copyVals_ok (min w nres) { L with cis := (d :: cs).map (fun c => c.at L.stack) } c.func (A.top - nres)
      (c.at L.stack).func (L.top - nres) A.mem rfl (by show _ = L.stack + _; omega)
      (by show _ ≤ L.vals.length; omega) (by show _ ≤ L.vals.length; omega) h.mem
    rw [e, Res.bind_ok]
    obtain ⟨V', e', hl', hv'⟩ := nils_ok (w - min w nres)
      { L with vals := V, top := (c.at L.stack).func + (min w nres : Nat), cis := (d :: cs).map (fun c => c.at L.stack) }
      (c.func + min w nres) _ (by show L.stack + (c.func : Int) + (min w nres : Nat) = L.stack + _; push_cast; omega)
      (by show _ ≤ V.length; rw [hl]; show _ ≤ L.vals.length; omega) hv
    rw [e', Res.bind_ok]
    refine ⟨_, rfl, ?_⟩
    have hmr : (Call.moveresults (some Val.nil) A.mem (A.top - nres) c.func nres (w : Int)).2.1 = c.func + w ∧
        MV V' (Call.moveresults (some Val.nil) A.mem (A.top - nres) c.func nres (w : Int)).1 := by
      unfold Call.moveresults
      by_cases w0 : w = 0
      · subst w0
        have e0 : min 0 nres = 0 := by omega
        rw [e0] at hv'
        exact ⟨rfl, hv'⟩
      rw [if_neg (by omega)]
      by_cases w1 : w = 1
      · subst w1
        rw [if_pos (by rfl)]
        refine ⟨rfl, ?_⟩
        dsimp only
        cases nres with
        | zero => exact hv'
        | succ r =>
          have e0 : min 1 (r + 1) = 1 := by omega
          rw [e0] at hv'
          exact hv'
      rw [if_neg (by omega), if_neg (by omega)]
      dsimp only
      rw [Int.toNat_natCast]
      by_cases hle : w ≤ nres
      · have e0 : min w nres = w := by omega
        rw [if_pos hle]
        rw [e0, Nat.sub_self] at hv'
        exact ⟨rfl, hv'⟩
      · have e0 : min w nres = nres := by omega
        rw [if_neg hle]
        rw [e0] at hv'
        exact ⟨rfl, hv'⟩
    have hl2 : V'.length = L.vals.length := by
      have a : V'.length = V.length := hl'
      have b : V.length = L.vals.length := hl
      omega
    have := fin V' _ (c.func + w) (L.stack + (c.func : Int) + w) hl2 hmr.2 (by push_cast; omega) (by push_cast; omega)
    rw [← hmr.1] at this
    exact this

/-- One operation keeps the stack in memory in agreement with the stack that never moves, and is defined. -/
theorem step_R {L : LS} {A : AS} (h : R L A) (op : Op) (hleg : Legal A op) :
    ∃ s L', step L op = .ok (s, L') ∧ (s = .ok → R L' (aStep A op)) ∧ (s ≠ .ok → R L' A) := by
  have hlast := h.last
  have htop := h.top
  have htb := h.topb
  have hsz := h.size
  have hlim := h.lim_le
  cases op with
  | check n a =>
    simp only [step, checkstack]
    split
    · obtain ⟨s, L', e, hR, _⟩ := growstack_R h hleg.1 hleg.2 a
      exact ⟨s, L', e, fun _ => hR, fun _ => hR⟩
    · exact ⟨_, _, rfl, fun _ => h, fun _ => h⟩
  | api n a =>
    obtain ⟨r, L', e, h1, h2⟩ := api_R h hleg.1 hleg.2 a
    simp only [step]
    rw [e]
    cases r with
    | true => exact ⟨.ok, L', rfl, fun _ => (h1 rfl).1, fun hh => absurd rfl hh⟩
    | false => exact ⟨.overflow, L', rfl, (fun hh => nomatch hh), fun _ => (h2 rfl).1⟩
  | shrink a =>
    obtain ⟨s, L', e, hR, _⟩ := shrinkstack_R h a
    exact ⟨s, L', by simp only [step, e], fun _ => hR, fun _ => hR⟩
  | push x =>
    have hpos : (A.top : Int) < L.stacksize := by
      simp only [Legal, AS.ctop] at hleg
      split at hleg
      · rename_i hh; exact absurd hh h.ne
      · rename_i c cs hh
        have := h.cisb c (by rw [hh]; simp)
        omega
    refine ⟨.ok, _, by simp only [step, push_eq x htop (vlen h hpos)]; rfl, fun _ => ?_, fun hh => absurd rfl hh⟩
    have hl : A.lim ≤ alimL (A.top + 1) A.cis := alimL_mono (by omega) _
    have hl2 : A.top + 1 ≤ alimL (A.top + 1) A.cis := le_alimL _ _
    refine ⟨by show L.stacksize = ((L.vals.set _ _).length : Int); rw [List.length_set]; exact hsz, hlast, h.bound,
      by show L.top + 1 = L.stack + ((A.top + 1 : Nat) : Int); push_cast; omega,
      by show ((A.top + 1 : Nat) : Int) ≤ L.stacksize; push_cast; omega, h.cis, h.cisb, h.ups,
      h.mem.put _ _ _ (vlen h hpos) (fun y hy => by cases hy; rfl), ?_, h.upsb, h.ne⟩
    intro i y hy
    show i < alimL (A.top + 1) A.cis
    simp only [aStep, Call.put] at hy
    split at hy
    · omega
    · have := h.memb i y hy; omega
  | pop n =>
    simp only [Legal] at hleg
    refine ⟨.ok, _, rfl, fun _ => ?_, fun hh => absurd rfl hh⟩
    exact ⟨hsz, hlast, h.bound, by show L.top - n = L.stack + ((A.top - n : Nat) : Int); omega,
      by show ((A.top - n : Nat) : Int) ≤ L.stacksize; omega, h.cis, h.cisb, h.ups,
      MV.cut (A := { A with top := A.top - n }) h.mem, cut_memb _, h.upsb, h.ne⟩
  | set i x =>
    simp only [Legal] at hleg
    have hpos : (i : Int) < L.stacksize := by omega
    refine ⟨.ok, _, by simp only [step, wr_eq x rfl (vlen h hpos)]; rfl, fun _ => ?_, fun hh => absurd rfl hh⟩
    refine ⟨by show L.stacksize = ((L.vals.set _ _).length : Int); rw [List.length_set]; exact hsz, hlast, h.bound,
      htop, htb, h.cis, h.cisb, h.ups,
      h.mem.put _ _ _ (vlen h hpos) (fun y hy => by cases hy; rfl), ?_, h.upsb, h.ne⟩
    intro j y hy
    show j < A.lim
    simp only [aStep, Call.put] at hy
    split at hy
    · omega
    · exact h.memb j y hy
  | enterC nargs gc a₁ a₂ =>
    simp only [Legal] at hleg
    have key := checkp_R h (n := minStack) (by omega) (by omega) gc a₁ a₂ (A.top - nargs - 1)
      (fun L' f => .ok (.ok, { L' with cis := ⟨f, L'.top + minStack, none⟩ :: L'.cis }))
      (aStep A (.enterC nargs gc a₁ a₂)) (by
        intro L' hR hroom
        have ht' := hR.top
        have hl' := hR.last
        refine ⟨_, rfl, ⟨hR.size, hR.last, hR.bound, hR.top, hR.topb, ?_, ?_, hR.ups, hR.mem, ?_, ?_, by simp [aStep]⟩⟩
        · show _ :: L'.cis = _
          rw [hR.cis]
          simp only [aStep, List.map_cons]
          congr 1
          simp only [ACI.at, CI.mk.injEq, Option.map_none, true_and, and_true]
          push_cast; omega
        · intro c hc
          rcases List.mem_cons.mp hc with rfl | hc
          · show ((A.top + 20 : Nat) : Int) + 5 ≤ L'.stacksize
            push_cast; omega
          · exact hR.cisb c hc
        · intro i x hx
          have := hR.memb i x hx
          show i < alimL A.top (_ :: A.cis)
          simp only [alimL]
          unfold AS.lim at this
          omega
        · intro u hu
          obtain ⟨c, hc, hlt⟩ := hR.upsb u hu
          exact ⟨c, List.mem_cons_of_mem _ hc, hlt⟩)
    obtain ⟨s, L', e, k1, k2⟩ := key
    refine ⟨s, L', ?_, k1, k2⟩
    rw [← e]
    simp only [step, enterC]
    have e1 : L.top - (nargs : Int) - 1 = L.stack + ((A.top - nargs - 1 : Nat) : Int) := by omega
    have e2 : L.stack + ((A.top - nargs - 1 : Nat) : Int) - L.stack = ((A.top - nargs - 1 : Nat) : Int) := by omega
    rw [e1, e2]
    rfl
  | enterLua nargs np fs va gc a₁ a₂ =>
    simp only [Legal] at hleg
    obtain ⟨l1, l2, l3⟩ := hleg
    have key := checkp_R h (n := fs) (by omega) (by omega) gc a₁ a₂ (A.top - nargs - 1)
      (fun L' f => do
        let L'' ← enterLuaBody L' f np fs va
        pure (.ok, L''))
      (aStep A (.enterLua nargs np fs va gc a₁ a₂)) (by
        intro L' hR hroom
        obtain ⟨L'', e, hR''⟩ := enterLuaBody_R (gc := gc) (a₁ := a₁) (a₂ := a₂) hR va rfl l1 l2 hroom
        rw [e]
        exact ⟨_, rfl, hR''⟩)
    obtain ⟨s, L', e, k1, k2⟩ := key
    refine ⟨s, L', ?_, k1, k2⟩
    rw [← e]
    simp only [step, enterLua]
    have e1 : L.top - (nargs : Int) - 1 = L.stack + ((A.top - nargs - 1 : Nat) : Int) := by omega
    have e2 : L.stack + ((A.top - nargs - 1 : Nat) : Int) - L.stack = ((A.top - nargs - 1 : Nat) : Int) := by omega
    rw [e1, e2]
  | leave nres wanted =>
    obtain ⟨L', e, hR⟩ := leave_R h hleg
    exact ⟨.ok, L', by simp only [step, e]; rfl, fun _ => hR, fun hh => absurd rfl hh⟩
  | capture i =>
    refine ⟨.ok, _, rfl, fun _ => ?_, fun hh => absurd rfl hh⟩
    refine ⟨hsz, hlast, h.bound, htop, htb, h.cis, h.cisb, ?_, h.mem, h.memb, ?_, h.ne⟩
    · show (L.stack + (i : Int)) :: L.ups = _
      rw [h.ups]; rfl
    · intro u hu
      rcases List.mem_cons.mp hu with rfl | hu
      · exact hleg
      · exact h.upsb u hu
  | close i =>
    refine ⟨.ok, _, rfl, fun _ => ?_, fun hh => absurd rfl hh⟩
    refine ⟨hsz, hlast, h.bound, htop, htb, h.cis, h.cisb, ?_, h.mem, h.memb, ?_, h.ne⟩
    · show L.ups.filter (fun u => u < L.stack + (i : Int)) = (A.ups.filter (fun u => u < i)).map _
      rw [h.ups, List.filter_map]
      congr 1
      apply List.filter_congr
      intro u _
      simp
    · intro u hu
      exact h.upsb u (List.mem_filter.mp hu).1
  | unwind keep oldtop e =>
    obtain ⟨l1, l2, ⟨c, hc, hlt⟩, l4⟩ := hleg
    have hcm : c ∈ A.cis := List.mem_of_mem_drop hc
    have hpos : (oldtop : Int) < L.stacksize := by have := h.cisb c hcm; omega
    have hlen : L.cis.length = A.cis.length := by rw [h.cis, List.length_map]
    refine ⟨.ok, { L with vals := L.vals.set oldtop e, top := L.stack + oldtop + 1,
                          cis := L.cis.drop (L.cis.length - keep),
                          ups := L.ups.filter (fun u => u < L.stack + (oldtop : Int)) }, ?_, fun _ => ?_, fun hh => absurd rfl hh⟩
    · simp only [step, unwind, close]
      rw [wr_eq (i := oldtop) e (by rfl) (by exact vlen h hpos)]
      rfl
    · refine ⟨by show L.stacksize = ((L.vals.set _ _).length : Int); rw [List.length_set]; exact hsz, hlast, h.bound,
        by show L.stack + oldtop + 1 = L.stack + ((oldtop + 1 : Nat) : Int); push_cast; omega,
        by show ((oldtop + 1 : Nat) : Int) ≤ L.stacksize; push_cast; omega, ?_, ?_, ?_,
        MV.cut (A := ⟨_, _, _, _⟩) (h.mem.put _ _ _ (vlen h hpos) (fun y hy => by cases hy; rfl)), cut_memb _, ?_, ?_⟩
      · show L.cis.drop _ = (A.cis.drop _).map _
        rw [hlen, h.cis, List.map_drop]
      · intro d hd
        exact h.cisb d (List.mem_of_mem_drop hd)
      · show L.ups.filter (fun u => u < L.stack + (oldtop : Int)) = (A.ups.filter (fun u => u < oldtop)).map _
        rw [h.ups, List.filter_map]
        congr 1
        apply List.filter_congr
        intro u _
        simp
      · intro u hu
        have hu := List.mem_filter.mp hu
        exact l4 u hu.1 (by simpa using hu.2)
      · intro hh
        have hh : A.cis.drop (A.cis.length - keep) = [] := hh
        rw [hh] at hc
        exact nomatch hc

/-- Histories: a stack in memory started at any address, and beside it the stack that never moves, on which only the
operations that ended normally take place. -/
inductive Run : LS → AS → Prop
  | init (a : Int) : Run (init a) ⟨fun i => if i < 1 then some .nil else none, 1, [⟨0, 21, none⟩], []⟩
  | step {L L' : LS} {A : AS} {op : Op} {s : Status} :
      Run L A → Legal A op → step L op = .ok (s, L') → Run L' (if s = .ok then aStep A op else A)

theorem run_R {L : LS} {A : AS} (h : Run L A) : R L A := by
  induction h with
  | init a => exact init_R a
  | step hr hleg e ih =>
    obtain ⟨s', L'', e', h1, h2⟩ := step_R ih _ hleg
    rw [e] at e'
    cases e'
    split
    · rename_i hs; exact h1 hs
    · rename_i hs; exact h2 hs

/-- **C45.** Whatever the history and wherever the allocator places the stack: no operation is undefined. -/
theorem run_defined {L : LS} {A : AS} (h : Run L A) {op : Op} (hleg : Legal A op) : step L op ≠ .ub := by
  obtain ⟨s, L', e, _⟩ := step_R (run_R h) op hleg
  rw [e]; exact fun hh => nomatch hh

/-- **C45.** After any history every specified slot has its value, and the top, the frames and the open upvalues are at
the same positions as in the stack that never moves. -/
theorem run_same {L : LS} {A : AS} (h : Run L A) :
    (∀ i x, A.mem i = some x → rd L (L.stack + i) = .ok x) ∧
    L.top = L.stack + A.top ∧
    L.cis = A.cis.map (fun c => ⟨L.stack + c.func, L.stack + c.top, c.base.map (fun (b : Nat) => L.stack + (b : Int))⟩) ∧
    L.ups = A.ups.map (fun (u : Nat) => L.stack + (u : Int)) := by
  have hR := run_R h
  refine ⟨?_, hR.top, hR.cis, hR.ups⟩
  intro i x hx
  have hi := hR.memb i x hx
  have hl := hR.lim_le
  have hi : i < L.vals.length := vlen hR (by omega)
  rw [rd_eq rfl hi]
  have := hR.mem i x hx
  rw [List.getElem?_eq_getElem hi] at this
  exact congrArg Res.ok (Option.some.inj this)

/-- **C45.** The stack never exceeds its limit, except for the space reserved for handling an overflow; every frame ends
`EXTRA_STACK` slots before the end of the block, and all open upvalues point into the block. -/
theorem run_bounds {L : LS} {A : AS} (h : Run L A) :
    L.stacksize = L.vals.length ∧ L.last = L.stack + L.stacksize - 5 ∧
    (L.stacksize ≤ 1000000 ∨ L.stacksize = 1000000 + 200) ∧
    L.stack ≤ L.top ∧ L.top ≤ L.stack + L.stacksize ∧
    (∀ c ∈ L.cis, L.stack ≤ c.func ∧ c.top ≤ L.last) ∧
    ∀ u ∈ L.ups, L.stack ≤ u ∧ u < L.last := by
  have hR := run_R h
  have h1 := hR.top
  have h2 := hR.topb
  have h3 := hR.last
  refine ⟨hR.size, h3, hR.bound, by omega, by omega, ?_, ?_⟩
  · intro c hc
    rw [hR.cis] at hc
    obtain ⟨d, hd, rfl⟩ := List.mem_map.mp hc
    have := hR.cisb d hd
    simp only [ACI.at]
    omega
  · intro u hu
    rw [hR.ups] at hu
    obtain ⟨d, hd, rfl⟩ := List.mem_map.mp hu
    obtain ⟨c, hc, hlt⟩ := hR.upsb d hd
    have := hR.cisb c hc
    omega

/-- **C45.** `luaD_checkstack`: it ends with room for `n` more values, or with a stack overflow only if the limit would be
exceeded, or with `LUA_ERRERR` only while an overflow is being handled, or out of memory only if the allocator fails; in
every case the stack keeps its contents. -/
theorem check_result {L : LS} {A : AS} (h : Run L A) {n : Int} (h0 : 0 ≤ n) (h1 : n ≤ 2146483000) (a : Option Int) :
    ∃ s L', step L (.check n a) = .ok (s, L') ∧ Run L' A ∧
      (s = .ok → n ≤ L'.last - L'.top) ∧ (s = .overflow → 1000000 < A.top + n + 5) ∧
      (s = .errerr → L.stacksize = 1000200) ∧ (s = .nomem → a = none ∧ L' = L) := by
  have hR := run_R h
  obtain ⟨s, L', e, _⟩ := step_R hR (.check n a) ⟨h0, h1⟩
  have hrun : Run L' A := by
    have := Run.step h (show Legal A (.check n a) from ⟨h0, h1⟩) e
    simpa [aStep] using this
  refine ⟨s, L', e, hrun, ?_⟩
  simp only [step, checkstack] at e
  split at e
  · obtain ⟨s', L'', e', _, g1, g2, g3, g4, _⟩ := growstack_R hR h0 h1 a
    rw [e] at e'
    cases e'
    have hb := hR.bound
    exact ⟨g1, g2, fun hs => by have := g3 hs; omega, g4⟩
  · cases e
    exact ⟨fun _ => by omega, (fun hh => nomatch hh), (fun hh => nomatch hh), (fun hh => nomatch hh)⟩

/-- **C45.** `lua_checkstack` accepts every non-negative `int`; when it returns true there is room for `n` values up to the
top of the frame, and it returns false only if the limit would be exceeded or the allocator fails. -/
theorem api_result {L : LS} {A : AS} (h : Run L A) {n : Int} (h0 : 0 ≤ n) (h1 : n ≤ 2147483647) (a : Option Int) :
    ∃ r L', apiCheckstack L n a = .ok (r, L') ∧
      (r = true → L'.top + n ≤ ciTop L' ∧ L'.top + n ≤ L'.last) ∧
      (r = false → 1000000 < A.top + n + 5 ∨ a = none) := by
  obtain ⟨r, L', e, g1, g2⟩ := api_R (run_R h) h0 h1 a
  exact ⟨r, L', e, fun hr => ⟨(g1 hr).2.2, (g1 hr).2.1⟩, fun hr => (g2 hr).2⟩

/-- **C45.** The extra space is given back: once the part in use fits, a collection brings the size under the limit. -/
theorem shrink_result {L : LS} {A : AS} (h : Run L A) (hfit : A.lim < 999995) (a : Int) :
    ∃ L', step L (.shrink (some a)) = .ok (.ok, L') ∧ Run L' A ∧ L'.stacksize ≤ 1000000 := by
  obtain ⟨s, L', e, _, g1, g2, _, g4⟩ := shrinkstack_R (run_R h) (some a)
  have hs : s = .ok := by
    rcases g1 with rfl | rfl
    · rfl
    · exact absurd (g2 rfl).1 (by simp)
  subst hs
  have e' : step L (.shrink (some a)) = .ok (.ok, L') := by simp only [step, e]
  refine ⟨L', e', ?_, g4 rfl (by omega)⟩
  have := Run.step h (show Legal A (.shrink (some a)) from trivial) e'
  simpa [aStep] using this

/-- a history that moves the stack twice -/
def exOps : List Op := [.push (.v 7), .capture 1, .check 100 (some 5000), .push (.v 8), .shrink (some 90), .set 1 (.v 9)]

/-- run a list of operations -/
def exRun (L : LS) : List Op → Res LS
  | [] => .ok L
  | o :: os => do
    let (_, L) ← step L o
    exRun L os

example : (exRun (init 1000) exOps) >>= (fun L => rd L (L.ups.headD 0)) = .ok (.v 9) := by decide +kernel

example : (exRun (init 1000) exOps).map' (fun L => (L.stack, L.top, L.stacksize)) = .ok (90, 93, 34) := by decide +kernel

/-! ## The list of `CallInfo`s -/

theorem halve_length : ∀ l : List Nat, (halve l).1.length + (halve l).2 = l.length ∧ (halve l).2 = l.length / 2
  | [] => by simp [halve]
  | [a] => by simp [halve]
  | a :: b :: cs => by
    have := halve_length cs
    simp only [halve, List.length_cons]
    omega

/-- the number of frames in use and the counter -/
theorem cl_inv (ops : List CLOp) : (clRun clInit ops).cur.length = depth ops + 1 ∧
    (clRun clInit ops).nci = ((clRun clInit ops).cur.length - 1 + (clRun clInit ops).free.length) % 65536 := by
  unfold clRun depth
  suffices ∀ (l : CL) (d : Nat), l.cur.length = d + 1 → l.nci = (l.cur.length - 1 + l.free.length) % 65536 →
      (ops.foldl clStep l).cur.length = ops.foldl (fun d o => match o with
        | .call => d + 1
        | .ret => d - 1
        | _ => d) d + 1 ∧
      (ops.foldl clStep l).nci = ((ops.foldl clStep l).cur.length - 1 + (ops.foldl clStep l).free.length) % 65536 by
    exact this clInit 0 rfl rfl
  induction ops with
  | nil => intro l d h1 h2; exact ⟨h1, h2⟩
  | cons o os ih =>
    intro l d h1 h2
    simp only [List.foldl_cons]
    apply ih
    · cases o with
      | call =>
        simp only [clStep, nextCI]
        split <;> simp [extendCI, h1]
      | ret =>
        simp only [clStep, prevCI]
        split
        · rename_i hc; rw [hc] at h1; simp only [List.length_cons] at h1 ⊢; omega
        · rename_i hc
          cases hl : l.cur with
          | nil => rw [hl] at h1; simp at h1
          | cons x xs =>
            cases xs with
            | nil => rw [hl] at h1; simp only [List.length_cons, List.length_nil] at h1 ⊢; omega
            | cons y ys => exact absurd hl (hc x y ys)
      | freeAll => exact h1
      | shrink => exact h1
    · cases o with
      | call =>
        simp only [clStep, nextCI]
        split
        · rename_i hf
          rw [hf] at h2
          simp only [List.length_cons] at h2 ⊢
          rw [h2]; congr 1; omega
        · rename_i hf
          rw [hf] at h2
          simp only [extendCI, List.length_cons, List.length_nil] at h2 ⊢
          omega
      | ret =>
        simp only [clStep, prevCI]
        split
        · rename_i hc
          rw [hc] at h2
          simp only [List.length_cons] at h2 ⊢
          rw [h2]; congr 1; omega
        · exact h2
      | freeAll =>
        simp only [clStep, freeCI, List.length_nil]
        omega
      | shrink =>
        have := halve_length l.free
        simp only [clStep, shrinkCI]
        omega

/-- **C45.** Reuse and freeing of `CallInfo`s never disturbs the frames in use, and `nci` counts the allocated ones
(modulo the size of its type). -/
theorem cl_frames (l : CL) : (shrinkCI l).cur = l.cur ∧ (freeCI l).cur = l.cur ∧
    (shrinkCI l).free.length = (l.free.length + 1) / 2 ∧ (shrinkCI l).free.Sublist l.free := by
  refine ⟨rfl, rfl, ?_, ?_⟩
  · have := halve_length l.free
    show (halve l.free).1.length = _
    omega
  · show (halve l.free).1.Sublist l.free
    generalize l.free = f
    induction f using halve.induct with
    | case1 a b cs ih => exact (ih.cons_cons b).cons a
    | case2 l h =>
      rw [halve]
      · exact List.Sublist.refl _
      · exact h

theorem stacklevel_aux : ∀ (ops : List CLOp) (l : CL) (d f : Nat), .shrink ∉ ops →
    (∀ k, (ops.take k).foldl (fun d o => match o with
        | CLOp.call => d + 1
        | .ret => d - 1
        | _ => d) d < 65536) →
    l.cur = (List.range (d + 1)).reverse → l.free = List.range' (d + 1) f →
    (ops.foldl clStep l).cur = (List.range (ops.foldl (fun d o => match o with
        | CLOp.call => d + 1
        | .ret => d - 1
        | _ => d) d + 1)).reverse
  | [], l, d, f, _, _, h, _ => h
  | o :: os, l, d, f, hns, hb, hc, hf => by
    have hrev : ∀ n, (List.range (n + 1)).reverse = n :: (List.range n).reverse := by
      intro n; rw [List.range_succ, List.reverse_append]; rfl
    have hb' : ∀ k, (os.take k).foldl _ _ < 65536 := fun k => hb (k + 1)
    have hns' : CLOp.shrink ∉ os := fun h => hns (List.mem_cons_of_mem _ h)
    simp only [List.foldl_cons]
    cases o with
    | call =>
      have hd := hb' 0
      simp only [List.take_zero, List.foldl_nil] at hd
      dsimp only at hb' hd ⊢
      cases f with
      | zero =>
        apply stacklevel_aux os _ (d + 1) 0 hns' hb'
        · simp only [clStep, nextCI, hf, List.range'_zero, extendCI, hc]
          rw [hrev (d + 1), hrev d]
          simp only [List.headD_cons]
          rw [Nat.mod_eq_of_lt (by omega)]
        · simp only [clStep, nextCI, hf, List.range'_zero, extendCI]
      | succ f =>
        apply stacklevel_aux os _ (d + 1) f hns' hb'
        · simp only [clStep, nextCI, hf, List.range'_succ, hc]
          rw [hrev (d + 1)]
        · simp only [clStep, nextCI, hf, List.range'_succ]
    | ret =>
      dsimp only at hb' ⊢
      cases d with
      | zero =>
        apply stacklevel_aux os _ 0 f hns' hb'
        · simp only [clStep, prevCI, hc]; exact hc
        · simp only [clStep, prevCI, hc]; exact hf
      | succ d =>
        apply stacklevel_aux os _ d (f + 1) hns' hb'
        · simp only [clStep, prevCI, hc]
          rw [hrev (d + 1), hrev d]
        · simp only [clStep, prevCI, hc]
          rw [hrev (d + 1), hrev d]
          simp only [hf, List.range'_succ]
    | freeAll => exact stacklevel_aux os _ d 0 hns' hb' hc rfl
    | shrink => exact absurd List.mem_cons_self hns

/-- **C45, the level of a frame.** The level reported to the debugger is the depth of the frame as long as the list has not
been shrunk (and the depth fits its type).  Missing: histories with a collection, for which it is false. -/
theorem stacklevel_partial (ops : List CLOp) (h : .shrink ∉ ops) (hd : ∀ k, depth (ops.take k) < 65536) :
    (clRun clInit ops).cur.headD 0 = depth ops := by
  have := stacklevel_aux ops clInit 0 0 h hd rfl rfl
  unfold clRun
  rw [this, List.range_succ, List.reverse_append]
  rfl

example : CLOp.shrink ∉ [CLOp.call, .call, .ret] ∧ ∀ k, depth ([CLOp.call, .call, .ret].take k) < 65536 := by
  refine ⟨by decide, ?_⟩
  intro k
  match k with
  | 0 => decide
  | 1 => decide
  | 2 => decide
  | k + 3 => simp [depth]

/-- **Finding.** After a collection the level reported to the debugger is wrong: two nested calls that have returned,
a collection, and one call: the frame at depth 1 says it is at level 2. -/
theorem stacklevel_wrong : depth [.call, .call, .ret, .ret, .shrink, .call] = 1 ∧
    (clRun clInit [.call, .call, .ret, .ret, .shrink, .call]).cur.headD 0 = 2 := by decide +kernel

end Verif.StackMem
