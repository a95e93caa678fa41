import Verif.Coro.Model
namespace Verif.Coro
variable {V Fn S W : Type}

/-- the CallInfo of a Lua function whose function is at the end of `st` -/
structure IsLua (c : CI S) (st : List V) (want : Option Nat) (s : S) (n : Nat) : Prop where
  func : c.func = st.length
  wanted : c.wanted = want
  kind : c.kind = .lua s n
  k : c.k = false

/-- CallInfos, stack and frames of a suspended coroutine, below the function that yielded -/
inductive Det (P : World V Fn S W) : List (CI S) → List (Fr V S) → List V → Option Nat → Prop
  | base (b : V) : Det P [] [] [b] none
  | lua {cis fs st want c s} {regs : List V} {fv : V} (w : Option Nat) : Det P cis fs st want → IsLua c st want s regs.length →
      Det P (c :: cis) (.lua s regs w :: fs) (st ++ fv :: regs) w
  | pcall {cis fs st c} {fv : V} : Det P cis fs st c.wanted → c.func = st.length → c.kind = .pcall → c.k = true →
      c.extra = st.length + 2 → Det P (c :: cis) (.pcall :: fs) (st ++ [fv, P.tru]) none

/-- the same for a running coroutine, with the native stack and `nny` -/
inductive Stk (P : World V Fn S W) (main : Bool) :
    List (Native S) → List (CI S) → List (Fr V S) → List V → Nat → Option Nat → Prop
  | base (b : V) : main = false → Stk P main [.resume] [] [] [b] 0 none
  | host (b : V) : main = true → Stk P main [.host] [] [] [b] 1 none
  | det {cis fs st want} : main = false → Det P cis fs st want → Stk P main [.unroll] cis fs st 0 want
  | luaF {ns cis fs st nny want c s} {regs : List V} {fv : V} (w : Option Nat) : Stk P main ns cis fs st nny want →
      IsLua c st want s regs.length → c.fresh = true → Stk P main (.exec :: ns) (c :: cis) (.lua s regs w :: fs) (st ++ fv :: regs) nny w
  | luaN {ns cis fs st nny want c s} {regs : List V} {fv : V} (w : Option Nat) : Stk P main (.exec :: ns) cis fs st nny want →
      IsLua c st want s regs.length → c.fresh = false →
      Stk P main (.exec :: ns) (c :: cis) (.lua s regs w :: fs) (st ++ fv :: regs) nny w
  | pcallK {ns cis fs st c} {fv : V} : Stk P main ns cis fs st 0 c.wanted → c.func = st.length → c.kind = .pcall → c.k = true →
      c.extra = st.length + 2 → Stk P main (.pcallK :: ns) (c :: cis) (.pcall :: fs) (st ++ [fv, P.tru]) 0 none
  | pcallS {ns cis fs st c nny} {fv : V} : 0 < nny → Stk P main ns cis fs st nny c.wanted → c.func = st.length → c.k = false →
      Stk P main (.pcallS (c :: cis) (st.length + 2) nny :: ns) (c :: cis) (.pcall :: fs) (st ++ [fv, P.tru]) (nny + 1) none
  | noy {ns cis fs st c nny} {fv : V} : Stk P main ns cis fs st nny c.wanted → c.func = st.length → c.k = false →
      Stk P main (.noy :: ns) (c :: cis) (.noy :: fs) (st ++ [fv]) (nny + 1) none

theorem Stk.zero {P : World V Fn S W} {main : Bool} {ns : List (Native S)} {cis fs st nny want}
    (h : Stk P main ns cis fs st nny want) : nny = 0 → Det P cis fs st want ∧ main = false ∧ fs.any isNoy = false ∧ findS ns = none := by
  induction h with
  | base b h => intro _; exact ⟨.base b, h, rfl, rfl⟩
  | host b h => intro h; cases h
  | det h d =>
    intro _
    refine ⟨d, h, ?_, rfl⟩
    clear h
    induction d with
    | base => rfl
    | lua w _ _ ih => simpa [isNoy] using ih
    | pcall _ _ _ _ _ ih => simpa [isNoy] using ih
  | luaF w _ i _ ih =>
    intro h0
    obtain ⟨a, b, c, d⟩ := ih h0
    exact ⟨.lua w a i, b, by simpa [isNoy] using c, d⟩
  | luaN w _ i _ ih =>
    intro h0
    obtain ⟨a, b, c, d⟩ := ih h0
    exact ⟨.lua w a i, b, by simpa [isNoy] using c, d⟩
  | pcallK _ h1 h2 h3 h4 ih =>
    intro h0
    obtain ⟨a, b, c, d⟩ := ih h0
    exact ⟨.pcall a h1 h2 h3 h4, b, by simpa [isNoy] using c, d⟩
  | pcallS => intro h; cases h
  | noy => intro h; cases h

theorem Stk.pos {P : World V Fn S W} {main : Bool} {ns : List (Native S)} {cis fs st nny want}
    (h : Stk P main ns cis fs st nny want) : 0 < nny → main = true ∨ fs.any isNoy = true := by
  induction h with
  | base b h => intro h; cases h
  | host b h => intro _; exact Or.inl h
  | det h d => intro h; cases h
  | luaF w _ i _ ih => intro h; rcases ih h with h | h <;> simp [h]
  | luaN w _ i _ ih => intro h; rcases ih h with h | h <;> simp [h]
  | pcallK _ h1 h2 h3 h4 ih => intro h; cases h
  | pcallS h _ _ _ ih => intro _; rcases ih h with h | h <;> simp [h]
  | noy => intro _; exact Or.inr (by simp [isNoy])

/-- a Lua function is running, `fs` is below it -/
def Running (P : World V Fn S W) (main : Bool) (L : Thread V S) (s : S) (fs : List (Fr V S)) : Prop :=
  ∃ c cis st ns want n, L.ci = c :: cis ∧ IsLua c st want s n ∧ L.status = .ok ∧ (∃ x rest, L.stk = st ++ x :: rest) ∧
    L.native = .exec :: ns ∧ (if c.fresh then Stk P main ns cis fs st L.nny want else Stk P main (.exec :: ns) cis fs st L.nny want)

/-- a C function is running, with `args` on the stack -/
def InC (P : World V Fn S W) (main : Bool) (L : Thread V S) (args : List V) (fs : List (Fr V S)) : Prop :=
  ∃ c cis st fv, L.ci = c :: cis ∧ c.func = st.length ∧ L.status = .ok ∧ L.stk = st ++ fv :: args ∧
    Stk P main L.native cis fs st L.nny c.wanted

/-- what a thread does next, and the meaning -/
def REv (P : World V Fn S W) (main : Bool) (r : Ev V × Thread V S) : AEv V S → Prop
  | .run s fs => r.1 = .run ∧ Running P main r.2 s fs
  | .done vs => r.1 = .done ∧ r.2.ci = [] ∧ r.2.status = .ok ∧ ∃ b, r.2.stk = b :: vs
  | .failed v => r.1 = .failed v ∧ ∃ x, r.2.stk = x ++ [v]
  | .yielded vs fs => r.1 = .yielded ∧ main = false ∧ r.2.status = .yield ∧ ∃ c cis st y, r.2.ci = c :: cis ∧
      Det P cis fs st c.wanted ∧ c.extra = st.length ∧ r.2.stk = st ++ y ++ vs ∧ c.func + 1 = (st ++ y).length
  | .resume co args fs => r.1 = .resume co ∧ ∃ tv, InC P main r.2 (tv :: args) fs
  | .create f fs => r.1 = .create f ∧ ∃ args, InC P main r.2 args fs
  | .status co fs => r.1 = .status co ∧ ∃ args, InC P main r.2 args fs

theorem adj_none (nil : V) (vs : List V) : adj nil none vs = vs := rfl

theorem poscall_ok (nil : V) (L : Thread V S) (c : CI S) (cis : List (CI S)) (st x vs : List V) (hc : L.ci = c :: cis)
    (hf : c.func = st.length) (hs : L.stk = st ++ x ++ vs) :
    poscall nil L vs.length = .ok { L with stk := st ++ adj nil c.wanted vs, ci := cis } := by
  simp only [poscall, hc, hs, hf]
  congr 2
  rw [List.append_assoc, List.take_left, ← List.append_assoc, List.drop_left']
  simp
  omega

theorem resumeLua_ok (P : World V Fn S W) (L : Thread V S) (c : CI S) (cis : List (CI S)) (st regs vs : List V) (fv : V)
    (want : Option Nat) (s : S) (hc : L.ci = c :: cis) (hi : IsLua c st want s regs.length)
    (hs : L.stk = st ++ fv :: regs ++ vs) :
    resumeLua P L = .ok (.run, { L with ci := { c with kind := .lua (P.next s regs vs) regs.length } :: cis }) := by
  have e1 : L.stk.drop (c.func + 1) = regs ++ vs := by
    rw [hs, hi.func, show st ++ fv :: regs ++ vs = (st ++ [fv]) ++ (regs ++ vs) by simp, List.drop_left' (by simp)]
  have e2 : L.stk.drop (c.func + 1 + regs.length) = vs := by
    rw [← List.drop_drop, e1, List.drop_left]
  simp only [resumeLua, hc, hi.kind, e1, e2, List.take_left]

theorem unroll_ok {P : World V Fn S W} {cis : List (CI S)} {fs : List (Fr V S)} {st : List V} {want : Option Nat}
    (h : Det P cis fs st want) : ∀ (fuel : Nat) (L : Thread V S) (vs : List V), L.ci = cis → L.stk = st ++ adj P.nil want vs →
      L.nny = 0 → L.native = [.unroll] → L.status = .ok → cis.length < fuel →
      ∃ r, unrollLoop P fuel L = .ok r ∧ REv P false r (deliver P fs vs) := by
  induction h with
  | base b =>
    intro fuel L vs h1 h2 h3 h4 h5 h6
    obtain ⟨fuel, rfl⟩ := Nat.exists_eq_add_one_of_ne_zero (by omega : fuel ≠ 0)
    refine ⟨(.done, L), by simp [unrollLoop, h1], rfl, h1, h5, b, ?_⟩
    simpa [adj_none] using h2
  | @lua cis fs st want c s regs fv w d i ih =>
    intro fuel L vs h1 h2 h3 h4 h5 h6
    obtain ⟨fuel, rfl⟩ := Nat.exists_eq_add_one_of_ne_zero (by omega : fuel ≠ 0)
    obtain ⟨cf, cw, ck, ce, ckk, cfr⟩ := c
    obtain ⟨i1, i2, i3, i4⟩ := i
    dsimp only at i1 i2 i3 i4
    subst i3 i4
    have i' : IsLua (V := V) { func := cf, wanted := cw, kind := .lua s regs.length, extra := ce, k := false, fresh := true } st want s
      regs.length := ⟨i1, i2, rfl, rfl⟩
    have i : IsLua (V := V) { func := cf, wanted := cw, kind := .lua s regs.length, extra := ce, k := false, fresh := cfr } st want s
      regs.length := ⟨i1, i2, rfl, rfl⟩
    have hr := resumeLua_ok P { L with
        ci := { func := cf, wanted := cw, kind := .lua s regs.length, extra := ce, k := false, fresh := true } :: cis
        native := .exec :: L.native } _ cis st regs
      (adj P.nil w vs) fv want s rfl i' h2
    refine ⟨_, by simp only [unrollLoop, h1]; exact hr, rfl, ?_⟩
    refine ⟨_, cis, st, [.unroll], want, regs.length, rfl, ⟨i.func, i.wanted, rfl, i.k⟩, h5, ⟨fv, regs ++ adj P.nil w vs, by simp [h2]⟩,
      by simp [h4], ?_⟩
    simp only [if_true]
    rw [h3]
    exact .det rfl d
  | @pcall cis fs st c fv d hf hk hb he ih =>
    intro fuel L vs h1 h2 h3 h4 h5 h6
    obtain ⟨fuel, rfl⟩ := Nat.exists_eq_add_one_of_ne_zero (by omega : fuel ≠ 0)
    simp only [List.length_cons] at h6
    obtain ⟨cf, cw, ck, ce, ckk, cfr⟩ := c
    dsimp only at hf hk hb he d ih
    subst hk hb
    let c : CI S := { func := cf, wanted := cw, kind := .pcall, extra := ce, k := true, fresh := cfr }
    have hf : c.func = st.length := hf
    have hg : gettop { L with ci := { c with k := false } :: cis } = (P.tru :: vs).length := by
      simp only [gettop, h2, adj_none, hf]; simp
    have hp := poscall_ok P.nil { L with ci := { c with k := false } :: cis } _ cis st [fv] (P.tru :: vs) rfl hf
      (by simp [h2, adj_none])
    obtain ⟨r, hr, hv⟩ := ih fuel { L with stk := st ++ adj P.nil c.wanted (P.tru :: vs), ci := cis } (P.tru :: vs) rfl rfl h3 h4 h5
      (by omega)
    refine ⟨r, ?_, hv⟩
    simp only [unrollLoop, h1]
    rw [if_pos ⟨trivial, h3⟩]
    have hg' := hg
    dsimp only [c] at hg' hp
    rw [hg', hp]
    exact hr

theorem back_ok {P : World V Fn S W} {main : Bool} {ns : List (Native S)} {cis : List (CI S)} {fs : List (Fr V S)} {st : List V}
    {nny : Nat} {want : Option Nat} (h : Stk P main ns cis fs st nny want) : ∀ (L : Thread V S) (vs : List V), L.ci = cis →
      L.stk = st ++ adj P.nil want vs → L.nny = nny → L.status = .ok →
      ∃ r, back P ns L = .ok r ∧ REv P main r (deliver P fs vs) := by
  induction h with
  | base b hm =>
    intro L vs h1 h2 h3 h5
    exact ⟨_, rfl, rfl, h1, h5, b, by simpa [adj_none] using h2⟩
  | host b hm =>
    intro L vs h1 h2 h3 h5
    exact ⟨_, rfl, rfl, h1, h5, b, by simpa [adj_none] using h2⟩
  | det hm d =>
    intro L vs h1 h2 h3 h5
    subst hm
    exact unroll_ok d _ { L with native := [.unroll] } vs h1 h2 h3 rfl h5 (by simp [h1])
  | @luaF ns cis fs st nny want c s regs fv w d i hfr ih =>
    intro L vs h1 h2 h3 h5
    have hr := resumeLua_ok P { L with native := .exec :: ns } _ cis st regs (adj P.nil w vs) fv want s h1 i h2
    refine ⟨_, hr, rfl, ?_⟩
    refine ⟨_, cis, st, ns, want, regs.length, rfl, ⟨i.func, i.wanted, rfl, i.k⟩, h5, ⟨fv, regs ++ adj P.nil w vs, by simp [h2]⟩, rfl, ?_⟩
    simp only [hfr, if_true, h3]
    exact d
  | @luaN ns cis fs st nny want c s regs fv w d i hfr ih =>
    intro L vs h1 h2 h3 h5
    have hr := resumeLua_ok P { L with native := .exec :: ns } _ cis st regs (adj P.nil w vs) fv want s h1 i h2
    refine ⟨_, hr, rfl, ?_⟩
    refine ⟨_, cis, st, ns, want, regs.length, rfl, ⟨i.func, i.wanted, rfl, i.k⟩, h5, ⟨fv, regs ++ adj P.nil w vs, by simp [h2]⟩, rfl, ?_⟩
    simp only [hfr, h3]
    exact d
  | @pcallK ns cis fs st c fv d hf hk hb he ih =>
    intro L vs h1 h2 h3 h5
    have hg : gettop { L with ci := { c with k := false } :: cis } = (P.tru :: vs).length := by
      simp only [gettop, h2, adj_none, hf]; simp
    have hp := poscall_ok P.nil { L with ci := { c with k := false } :: cis } _ cis st [fv] (P.tru :: vs) rfl hf
      (by simp [h2, adj_none])
    obtain ⟨r, hr, hv⟩ := ih { L with stk := st ++ adj P.nil c.wanted (P.tru :: vs), ci := cis } (P.tru :: vs) rfl rfl h3 h5
    refine ⟨r, ?_, hv⟩
    simp only [back, h1]
    rw [hg, hp]
    exact hr
  | @pcallS ns cis fs st c nny fv h0 d hf hb ih =>
    intro L vs h1 h2 h3 h5
    have hg : gettop { L with nny := L.nny - 1 } = (P.tru :: vs).length := by
      simp only [gettop, h1, h2, adj_none, hf]; simp
    have hp := poscall_ok P.nil { L with nny := L.nny - 1 } _ cis st [fv] (P.tru :: vs) h1 hf (by simp [h2, adj_none])
    obtain ⟨r, hr, hv⟩ := ih { L with nny := L.nny - 1, stk := st ++ adj P.nil c.wanted (P.tru :: vs), ci := cis } (P.tru :: vs) rfl rfl
      (by simp [h3]) h5
    refine ⟨r, ?_, hv⟩
    simp only [back]
    rw [hg, hp]
    exact hr
  | @noy ns cis fs st c nny fv d hf hb ih =>
    intro L vs h1 h2 h3 h5
    have hg : gettop { L with nny := L.nny - 1 } = vs.length := by
      simp only [gettop, h1, h2, adj_none, hf]; simp
    have hp := poscall_ok P.nil { L with nny := L.nny - 1 } _ cis st [fv] vs h1 hf (by simp [h2, adj_none])
    obtain ⟨r, hr, hv⟩ := ih { L with nny := L.nny - 1, stk := st ++ adj P.nil c.wanted vs, ci := cis } vs rfl rfl
      (by simp [h3]) h5
    refine ⟨r, ?_, hv⟩
    simp only [back]
    rw [hg, hp]
    exact hr

/-- where an error goes, by the CallInfos alone -/
theorem Det.handler {P : World V Fn S W} {cis : List (CI S)} {fs : List (Fr V S)} {st : List V} {want : Option Nat}
    (h : Det P cis fs st want) :
    (∃ c cis' fs' st' y, findpcall cis = some (c, cis') ∧ Det P cis' fs' st' c.wanted ∧ c.func = st'.length ∧ c.kind = .pcall ∧
      c.extra = st'.length + 2 ∧ (∃ fv, st = st' ++ fv :: P.tru :: y) ∧ ∀ v, raise P v fs = deliver P fs' [P.fls, v]) ∨
    (findpcall cis = none ∧ ∀ v, raise P v fs = .failed v) := by
  induction h with
  | base b => exact Or.inr ⟨rfl, fun _ => rfl⟩
  | @lua cis fs st want c s regs fv w d i ih =>
    rcases ih with ⟨c', cis', fs', st', y, h1, h2, h3, h4, h5, ⟨fv', h6⟩, h7⟩ | ⟨h1, h2⟩
    · exact Or.inl ⟨c', cis', fs', st', y ++ fv :: regs, by simp [findpcall, i.k, h1], h2, h3, h4, h5, ⟨fv', by simp [h6]⟩, h7⟩
    · exact Or.inr ⟨by simp [findpcall, i.k, h1], h2⟩
  | @pcall cis fs st c fv d hf hk hb he ih =>
    exact Or.inl ⟨c, cis, fs, st, [], by simp [findpcall, hb], d, hf, hk, he, ⟨fv, by simp⟩, fun _ => rfl⟩

/-- where an error goes -/
theorem Stk.handler {P : World V Fn S W} {main : Bool} {ns : List (Native S)} {cis : List (CI S)} {fs : List (Fr V S)}
    {st : List V} {nny : Nat} {want : Option Nat} (h : Stk P main ns cis fs st nny want) :
    (∃ c cis' fs' st' y ns' nny', findS ns = some (c :: cis', st'.length + 2, nny', ns') ∧ Stk P main ns' cis' fs' st' nny' c.wanted ∧
      c.func = st'.length ∧ (∃ fv, st = st' ++ fv :: P.tru :: y) ∧ ∀ v, raise P v fs = deliver P fs' [P.fls, v]) ∨
    (findS ns = none ∧ main = false ∧ ∃ c cis' fs' st' y, findpcall cis = some (c, cis') ∧ Det P cis' fs' st' c.wanted ∧
      c.func = st'.length ∧ c.kind = .pcall ∧ c.extra = st'.length + 2 ∧ (∃ fv, st = st' ++ fv :: P.tru :: y) ∧
      ∀ v, raise P v fs = deliver P fs' [P.fls, v]) ∨
    (findS ns = none ∧ findpcall cis = none ∧ ∀ v, raise P v fs = .failed v) := by
  induction h with
  | base b hm => exact Or.inr (Or.inr ⟨rfl, rfl, fun _ => rfl⟩)
  | host b hm => exact Or.inr (Or.inr ⟨rfl, rfl, fun _ => rfl⟩)
  | det hm d =>
    rcases d.handler with h | h
    · exact Or.inr (Or.inl ⟨rfl, hm, h⟩)
    · exact Or.inr (Or.inr ⟨rfl, h⟩)
  | @luaF ns cis fs st nny want c s regs fv w d i hfr ih =>
    rcases ih with ⟨c', cis', fs', st', y, ns', nny', h1, h2, h3, ⟨fv', h6⟩, h7⟩ |
      ⟨h0, hm, c', cis', fs', st', y, h1, h2, h3, h4, h5, ⟨fv', h6⟩, h7⟩ | ⟨h1, h2, h3⟩
    · exact Or.inl ⟨c', cis', fs', st', y ++ fv :: regs, ns', nny', h1, h2, h3, ⟨fv', by simp [h6]⟩, h7⟩
    · exact Or.inr (Or.inl ⟨h0, hm, c', cis', fs', st', y ++ fv :: regs, by simp [findpcall, i.k, h1], h2, h3, h4, h5,
        ⟨fv', by simp [h6]⟩, h7⟩)
    · exact Or.inr (Or.inr ⟨h1, by simp [findpcall, i.k, h2], h3⟩)
  | @luaN ns cis fs st nny want c s regs fv w d i hfr ih =>
    rcases ih with ⟨c', cis', fs', st', y, ns', nny', h1, h2, h3, ⟨fv', h6⟩, h7⟩ |
      ⟨h0, hm, c', cis', fs', st', y, h1, h2, h3, h4, h5, ⟨fv', h6⟩, h7⟩ | ⟨h1, h2, h3⟩
    · exact Or.inl ⟨c', cis', fs', st', y ++ fv :: regs, ns', nny', h1, h2, h3, ⟨fv', by simp [h6]⟩, h7⟩
    · exact Or.inr (Or.inl ⟨h0, hm, c', cis', fs', st', y ++ fv :: regs, by simp [findpcall, i.k, h1], h2, h3, h4, h5,
        ⟨fv', by simp [h6]⟩, h7⟩)
    · exact Or.inr (Or.inr ⟨h1, by simp [findpcall, i.k, h2], h3⟩)
  | @pcallK ns cis fs st c fv d hf hk hb he ih =>
    obtain ⟨z1, z2, z3, z4⟩ := d.zero rfl
    exact Or.inr (Or.inl ⟨z4, z2, c, cis, fs, st, [], by simp [findpcall, hb], z1, hf, hk, he, ⟨fv, by simp⟩, fun _ => rfl⟩)
  | @pcallS ns cis fs st c nny fv h0 d hf hb ih =>
    exact Or.inl ⟨c, cis, fs, st, [], ns, nny, rfl, d, hf, ⟨fv, by simp⟩, fun _ => rfl⟩
  | @noy ns cis fs st c nny fv d hf hb ih =>
    rcases ih with ⟨c', cis', fs', st', y, ns', nny', h1, h2, h3, ⟨fv', h6⟩, h7⟩ |
      ⟨h0, hm, c', cis', fs', st', y, h1, h2, h3, h4, h5, ⟨fv', h6⟩, h7⟩ | ⟨h1, h2, h3⟩
    · exact Or.inl ⟨c', cis', fs', st', y ++ [fv], ns', nny', h1, h2, h3, ⟨fv', by simp [h6]⟩, h7⟩
    · exact Or.inr (Or.inl ⟨h0, hm, c', cis', fs', st', y ++ [fv], by simp [findpcall, hb, h1], h2, h3, h4, h5,
        ⟨fv', by simp [h6]⟩, h7⟩)
    · exact Or.inr (Or.inr ⟨h1, by simp [findpcall, hb, h2], h3⟩)

theorem findpcall_skip (l cis : List (CI S)) (h : ∀ c ∈ l, c.k = false) : findpcall (l ++ cis) = findpcall cis := by
  induction l with
  | nil => rfl
  | cons c l ih => simp [findpcall, h c (by simp), ih (fun c hc => h c (by simp [hc]))]

theorem throw_ok {P : World V Fn S W} {main : Bool} {ns : List (Native S)} {cis : List (CI S)} {fs : List (Fr V S)} {st : List V}
    {nny : Nat} {want : Option Nat} (h : Stk P main ns cis fs st nny want) (L : Thread V S) (v : V) (l : List (CI S)) (y : List V)
    (hl : ∀ c ∈ l, c.k = false) (h1 : L.ci = l ++ cis) (h2 : L.stk = st ++ y) (h3 : findS L.native = findS ns) (h4 : L.status = .ok) :
    ∃ r, throwE P L v = .ok r ∧ REv P main r (raise P v fs) := by
  unfold throwE
  rw [h3, h1, findpcall_skip l cis hl]
  rcases h.handler with ⟨c', cis', fs', st', z, ns', nny', e1, e2, e3, ⟨fv, e6⟩, e7⟩ |
    ⟨e0, hm, c', cis', fs', st', z, e1, e2, e3, e4, e5, ⟨fv, e6⟩, e7⟩ | ⟨e1, e2, e3⟩
  · rw [e1, e7]
    dsimp only
    have ht : L.stk.take (st'.length + 2) = st' ++ [fv, P.tru] := by
      rw [h2, e6, show st' ++ fv :: P.tru :: z ++ y = (st' ++ [fv, P.tru]) ++ (z ++ y) by simp, List.take_left' (by simp)]
    have hp := poscall_ok P.nil { L with stk := L.stk.take (st'.length + 2) ++ [v] ++ [P.fls, v], ci := c' :: cis', nny := nny', native := ns' }
      c' cis' st' [fv, P.tru, v] [P.fls, v] rfl e3 (by rw [ht]; simp)
    obtain ⟨r, hr, hv⟩ := back_ok e2 { L with stk := st' ++ adj P.nil c'.wanted [P.fls, v], ci := cis', nny := nny', native := ns' }
      [P.fls, v] rfl rfl rfl h4
    refine ⟨r, ?_, hv⟩
    simp only [List.length_cons, List.length_nil, Nat.zero_add, Nat.reduceAdd] at hp
    rw [hp]
    exact hr
  · rw [e0, e1, e7]
    subst hm
    dsimp only
    have ht : L.stk.take c'.extra = st' ++ [fv, P.tru] := by
      rw [e5, h2, e6, show st' ++ fv :: P.tru :: z ++ y = (st' ++ [fv, P.tru]) ++ (z ++ y) by simp, List.take_left' (by simp)]
    have hp := poscall_ok P.nil { L with
        stk := L.stk.take c'.extra ++ [v] ++ [P.fls, v], ci := { c' with k := false } :: cis', nny := 0, native := [.unroll] }
      { c' with k := false } cis' st' [fv, P.tru, v] [P.fls, v] rfl e3 (by rw [ht]; simp)
    simp only [List.length_cons, List.length_nil, Nat.zero_add, Nat.reduceAdd] at hp
    obtain ⟨r, hr, hv⟩ := unroll_ok e2 (cis'.length + 1) { L with
        stk := st' ++ adj P.nil c'.wanted [P.fls, v], ci := cis', nny := 0, native := [.unroll] }
      [P.fls, v] rfl rfl rfl rfl h4 (by omega)
    refine ⟨r, ?_, hv⟩
    rw [hp]
    exact hr
  · rw [e1, e2, e3]
    exact ⟨_, rfl, rfl, L.stk, rfl⟩

/-- what a call needs of the state -/
structure AtCall (L : Thread V S) (ns : List (Native S)) (cis : List (CI S)) (st : List V) (nny : Nat) (f : V) (args : List V) : Prop where
  ci : L.ci = cis
  stk : L.stk = st ++ f :: args
  native : L.native = ns
  nny : L.nny = nny
  status : L.status = .ok

/-- the claim about calls with these arguments -/
def CallOk (P : World V Fn S W) (main : Bool) (args : List V) : Prop :=
  ∀ (f : V) (ns : List (Native S)) (cis : List (CI S)) (fs : List (Fr V S)) (st : List V) (nny : Nat) (want : Option Nat),
    Stk P main ns cis fs st nny want → ∀ (fuel : Nat) (L : Thread V S), AtCall L ns cis st nny f args →
      args.length < fuel → ∃ r, precall P fuel L st.length want = .ok r ∧ REv P main r (call P main args f fs)

theorem call_step {P : World V Fn S W} {main : Bool} (args : List V) (ih : ∀ g as, args = g :: as → CallOk P main as) :
    CallOk P main args := by
  intro f ns cis fs st nny want h fuel L hL hfu
  obtain ⟨h1, h2, h3, h4, h5⟩ := hL
  obtain ⟨fuel, rfl⟩ := Nat.exists_eq_add_one_of_ne_zero (by omega : fuel ≠ 0)
  have hd : L.stk.drop st.length = f :: args := by rw [h2, List.drop_left]
  have hthrow : ∀ (c : CI S) (v : V), c.k = false → ∃ r, throwE P { L with ci := c :: L.ci } v = .ok r ∧ REv P main r (raise P v fs) :=
    fun c v hc => throw_ok h _ v [c] (f :: args) (by simpa using hc) (by simp [h1]) h2 (by dsimp only; rw [h3]) h5
  unfold precall call
  rw [hd]
  dsimp only
  cases hcal : P.callee f with
  | lua g =>
    dsimp only
    split
    · rename_i ns' hns
      refine ⟨_, rfl, rfl, _, cis, st, ns', want, 0, by rw [h1], ⟨rfl, rfl, rfl, rfl⟩, h5, ⟨f, args, h2⟩, hns, ?_⟩
      rw [h4, ← hns, h3]
      exact h
    · refine ⟨_, rfl, rfl, _, cis, st, ns, want, 0, by rw [h1], ⟨rfl, rfl, rfl, rfl⟩, h5, ⟨f, args, h2⟩, by rw [h3], ?_⟩
      dsimp only
      rw [h4]
      exact h
  | yield d =>
    dsimp only
    by_cases h0 : 0 < L.nny
    · rw [if_pos h0, if_pos (h.pos (h4 ▸ h0))]
      exact hthrow _ _ rfl
    · obtain ⟨z1, z2, z3, _⟩ := h.zero (by omega)
      rw [if_neg h0, if_neg (by simp [z2, z3])]
      refine ⟨_, rfl, rfl, z2, rfl, _, cis, st, f :: args.take d, by rw [h1], z1, rfl, ?_, ?_⟩
      · simp [h2]
      · simp [h2]
        omega
  | pcall =>
    cases args with
    | nil =>
      dsimp only
      rw [if_pos rfl]
      exact hthrow _ _ rfl
    | cons g as =>
      dsimp only
      rw [if_neg (by simp), h4]
      have ht : L.stk.take (st.length + 1) = st ++ [f] := by
        rw [h2, show st ++ f :: g :: as = (st ++ [f]) ++ (g :: as) by simp, List.take_left' (by simp)]
      simp only [List.length_cons] at hfu
      by_cases h0 : 0 < nny
      · rw [if_pos h0]
        have := ih g as rfl g _ _ _ _ _ _ (Stk.pcallS (fv := f)
          (c := { func := st.length, wanted := want, kind := .pcall }) h0 h rfl rfl) fuel
          { L with
            stk := L.stk.take (st.length + 1) ++ [P.tru] ++ g :: as
            ci := { func := st.length, wanted := want, kind := .pcall } :: L.ci
            native := .pcallS ({ func := st.length, wanted := want, kind := .pcall } :: L.ci) (st.length + 2) L.nny :: L.native
            nny := L.nny + 1 } ⟨by simp [h1], by simp [ht], by simp [h1, h4, h3], by simp [h4], h5⟩ (by omega)
        simp only [List.length_append, List.length_cons, List.length_nil, Nat.zero_add, Nat.reduceAdd, h4] at this
        exact this
      · have h0' : nny = 0 := by omega
        subst h0'
        rw [if_neg h0]
        have := ih g as rfl g _ _ _ _ _ _ (Stk.pcallK (fv := f)
          (c := { func := st.length, wanted := want, kind := .pcall, k := true, extra := st.length + 2 }) h rfl rfl rfl rfl) fuel
          { L with
            stk := L.stk.take (st.length + 1) ++ [P.tru] ++ g :: as
            ci := { func := st.length, wanted := want, kind := .pcall, k := true, extra := st.length + 2 } :: L.ci
            native := .pcallK :: L.native
            nny := 0 } ⟨by simp [h1], by simp [ht], by simp [h3], by simp, h5⟩ (by omega)
        simp only [List.length_append, List.length_cons, List.length_nil, Nat.zero_add, Nat.reduceAdd] at this
        exact this
  | noy =>
    cases args with
    | nil =>
      dsimp only
      rw [if_pos rfl]
      exact hthrow _ _ rfl
    | cons g as =>
      dsimp only
      rw [if_neg (by simp)]
      simp only [List.length_cons] at hfu
      have := ih g as rfl g _ _ _ _ _ _ (Stk.noy (fv := f)
        (c := { func := st.length, wanted := want, kind := .c }) h rfl rfl) fuel
        { L with
          ci := { func := st.length, wanted := want, kind := .c } :: L.ci
          native := .noy :: L.native
          nny := L.nny + 1 } ⟨by simp [h1], by simp [h2], by simp [h3], by simp [h4], h5⟩ (by omega)
      simp only [List.length_append, List.length_cons, List.length_nil, Nat.zero_add] at this
      exact this
  | error => exact hthrow _ _ rfl
  | resume =>
    dsimp only
    cases args with
    | nil => exact hthrow _ _ rfl
    | cons a as =>
      dsimp only [List.head?, Option.bind, List.tail]
      cases P.asThr a with
      | none => exact hthrow _ _ rfl
      | some co => exact ⟨_, rfl, rfl, a, _, cis, st, f, by rw [h1], rfl, h5, h2, by dsimp only; rw [h3, h4]; exact h⟩
  | create =>
    cases args with
    | nil => exact hthrow _ _ rfl
    | cons a as =>
      dsimp only
      split
      · exact ⟨_, rfl, rfl, _, _, cis, st, f, by rw [h1], rfl, h5, h2, by dsimp only; rw [h3, h4]; exact h⟩
      · exact hthrow _ _ rfl
  | status =>
    dsimp only
    cases args.head?.bind P.asThr with
    | none => exact hthrow _ _ rfl
    | some co => exact ⟨_, rfl, rfl, _, _, cis, st, f, by rw [h1], rfl, h5, h2, by dsimp only; rw [h3, h4]; exact h⟩
  | none => exact throw_ok h _ _ [] (f :: args) (by simp) (by simp [h1]) h2 (by rw [h3]) h5

theorem call_ok {P : World V Fn S W} {main : Bool} (args : List V) : CallOk P main args := by
  induction args with
  | nil => exact call_step _ (fun _ _ e => nomatch e)
  | cons a as ih => exact call_step _ (fun _ _ e => by cases e; exact ih)

/-- one step of a Lua function -/
theorem exec_ok {P : World V Fn S W} {main : Bool} (L : Thread V S) (s : S) (fs : List (Fr V S)) (w : W)
    (h : Running P main L s fs) : ∃ r, execLua P L w = .ok (r, (P.act s w).2) ∧ REv P main r
      (match (P.act s w).1.2 with
        | .call want f args => call P main args f (.lua s (P.act s w).1.1 want :: fs)
        | .ret vs => deliver P fs vs
        | .throw v => raise P v fs) := by
  obtain ⟨c, cis, st, ns, want, n, h1, hi, h5, ⟨x, rest, h2⟩, h3, hS⟩ := h
  obtain ⟨stk, ci, native, nny, status⟩ := L
  dsimp only at h1 h2 h3 h5 hS
  subst h1 h3 h5
  rcases hact : P.act s w with ⟨⟨regs, a⟩, w'⟩
  simp only [execLua, hi.kind, hact]
  have ht : stk.take (c.func + 1) = st ++ [x] := by
    rw [hi.func, h2, show st ++ x :: rest = (st ++ [x]) ++ rest by simp, List.take_left' (by simp)]
  cases a with
  | call want' f args =>
    dsimp only
    have hS' : Stk P main (.exec :: ns) ({ c with kind := .lua s regs.length } :: cis) (.lua s regs want' :: fs) (st ++ x :: regs) nny want' := by
      have i' : IsLua { c with kind := .lua s regs.length } st want s regs.length := ⟨hi.func, hi.wanted, rfl, hi.k⟩
      by_cases hfr : c.fresh = true
      · rw [if_pos hfr] at hS; exact .luaF want' hS i' hfr
      · rw [if_neg hfr] at hS; exact .luaN want' hS i' (by simpa using hfr)
    obtain ⟨r, hr, hv⟩ := call_ok args f _ _ _ _ _ _ hS' ((st ++ x :: regs ++ f :: args).length) { native := .exec :: ns, nny := nny, status := .ok, stk := st ++ x :: regs ++ f :: args, ci := { c with kind := .lua s regs.length } :: cis } ⟨rfl, rfl, rfl, rfl, rfl⟩ (by simp; omega)
    refine ⟨r, ?_, hv⟩
    have e1 : stk.take (c.func + 1) ++ regs ++ [f] ++ args = st ++ x :: regs ++ f :: args := by rw [ht]; simp
    have e2 : c.func + 1 + regs.length = (st ++ x :: regs).length := by rw [hi.func]; simp; omega
    rw [e1, e2, hr]
    rfl
  | ret vs =>
    dsimp only
    have hp := poscall_ok P.nil { native := .exec :: ns, nny := nny, status := .ok, stk := stk.take (c.func + 1) ++ regs ++ vs, ci := c :: cis } c cis st (x :: regs) vs rfl hi.func
      (by rw [ht]; simp)
    rw [hi.wanted] at hp
    rw [hp]
    simp only [Res.bind_ok]
    cases hfr : c.fresh with
    | true =>
      rw [hfr] at hS
      obtain ⟨r, hr, hv⟩ := back_ok hS { stk := st ++ adj P.nil want vs, ci := cis, native := ns, nny := nny, status := .ok } vs rfl rfl rfl rfl
      refine ⟨r, ?_, hv⟩
      rw [if_pos rfl, hr]
      rfl
    | false =>
      rw [hfr] at hS
      obtain ⟨r, hr, hv⟩ := back_ok hS { native := .exec :: ns, nny := nny, status := .ok, stk := st ++ adj P.nil want vs, ci := cis } vs rfl rfl rfl rfl
      refine ⟨r, ?_, hv⟩
      rw [if_neg (by simp), hr]
      rfl
  | throw v =>
    dsimp only
    have : ∃ ns', Stk P main ns' cis fs st nny want ∧ findS (.exec :: ns) = findS ns' := by
      by_cases hfr : c.fresh = true
      · rw [if_pos hfr] at hS; exact ⟨ns, hS, rfl⟩
      · rw [if_neg hfr] at hS; exact ⟨_, hS, rfl⟩
    obtain ⟨ns', hS', hfs⟩ := this
    obtain ⟨r, hr, hv⟩ := throw_ok hS' { stk := stk.take (c.func + 1) ++ regs, ci := c :: cis, native := .exec :: ns, nny := nny, status := .ok }
      v [c] (x :: regs) (by simpa using hi.k) rfl (by dsimp only; rw [ht]; simp) hfs rfl
    refine ⟨r, ?_, hv⟩
    rw [hr]
    rfl

end Verif.Coro
