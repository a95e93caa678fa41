import Verif.Meta.Model
/-!
C87: `t[k]` and `t[k] = v` follow the chain of `__index` and `__newindex` handlers as section 2.4 of the manual says.

The full claim fails when a handler is a typed array (`index_array_handler`, `newindex_array_handler`, `self_array`): then the code
takes the array for a table.  The theorems with the suffix `_partial` are about chains whose handlers are not typed arrays.
-/
namespace Verif.Meta

section
variable {V T A C : Type} [DecidableEq V] [DecidableEq T] [DecidableEq A]

/-- the metatable of a value -/
def metaOf (S : Sys V T A C) (H : Heap V T A C) (v : V) : Option T :=
  match S.kind v with
  | .tbl t => H.mt t
  | .arr a => H.mtArr a
  | .fn => H.mtVal v
  | .other => H.mtVal v

/-- the handler of a value for an event is `h` -/
def Handler (S : Sys V T A C) (H : Heap V T A C) (e v h : V) : Prop :=
  ∃ m, metaOf S H v = some m ∧ H.get S m e = h ∧ h ≠ S.nil

/-- raw access does not settle `t[k]`: `t` is a table without value for `k`, or it is neither a table nor a typed array -/
def Missing (S : Sys V T A C) (H : Heap V T A C) (t k : V) : Prop :=
  (∃ h, S.kind t = .tbl h ∧ H.get S h k = S.nil) ∨ S.kind t = .fn ∨ S.kind t = .other

/-- `t[k]` is handed over to `t'`, a handler which is not a function -/
def Link (S : Sys V T A C) (H : Heap V T A C) (e k t t' : V) : Prop :=
  Missing S H t k ∧ Handler S H e t t' ∧ S.kind t' ≠ .fn

/-- `n` times -/
inductive Chain (S : Sys V T A C) (H : Heap V T A C) (e k : V) : Nat → V → V → Prop
  | refl (t : V) : Chain S H e k 0 t t
  | step {n : Nat} {t t' u : V} : Link S H e k t t' → Chain S H e k n t' u → Chain S H e k (n + 1) t u

/-- `t[k]` without handing over -/
inductive GetEnd (S : Sys V T A C) (H : Heap V T A C) (t k : V) : Out V V → Prop
  | raw {h : T} {v : V} : S.kind t = .tbl h → H.get S h k = v → v ≠ S.nil → GetEnd S H t k (.done v)
  | absent {h : T} : S.kind t = .tbl h → H.get S h k = S.nil → (∀ f, ¬ Handler S H S.index t f) → GetEnd S H t k (.done S.nil)
  | array {a : A} : S.kind t = .arr a → GetEnd S H t k (S.arrGet (H.arr a) k)
  | call {f : V} : Missing S H t k → Handler S H S.index t f → S.kind f = .fn → GetEnd S H t k (.call f [t, k])
  | bad : (S.kind t = .fn ∨ S.kind t = .other) → (∀ f, ¬ Handler S H S.index t f) → GetEnd S H t k (.typeerr t)

/-- `H'` is `H` with `v` as the value of `k` in the table `h` -/
structure Stored (S : Sys V T A C) (H : Heap V T A C) (h : T) (k v : V) (H' : Heap V T A C) : Prop where
  same : H'.mt = H.mt ∧ H'.mtArr = H.mtArr ∧ H'.mtVal = H.mtVal ∧ H'.arr = H.arr
  new : H'.slot h (S.norm k) = some v
  old : ∀ t' k', (t' ≠ h ∨ k' ≠ S.norm k) → H'.slot t' k' = H.slot t' k'

/-- the outcome of storing into a typed array -/
def arrStore (H : Heap V T A C) (a : A) : Out V C → Out V (Heap V T A C)
  | .done c => .done { H with arr := fun a' => if a' = a then c else H.arr a' }
  | .call f as => .call f as
  | .typeerr x => .typeerr x
  | .toolong => .toolong
  | .err m => .err m
  | .ub => .ub

/-- `t[k] = v` without handing over -/
inductive SetEnd (S : Sys V T A C) (H : Heap V T A C) (t k v : V) : Out V (Heap V T A C) → Prop
  | raw {h : T} {H' : Heap V T A C} : S.kind t = .tbl h → H.get S h k ≠ S.nil → Stored S H h k v H' → SetEnd S H t k v (.done H')
  | new {h : T} {H' : Heap V T A C} : S.kind t = .tbl h → H.get S h k = S.nil → (∀ f, ¬ Handler S H S.newindex t f) →
      S.keyerr k = none → Stored S H h k v H' → SetEnd S H t k v (.done H')
  | badkey {h : T} {m : String} : S.kind t = .tbl h → H.get S h k = S.nil → (∀ f, ¬ Handler S H S.newindex t f) →
      S.keyerr k = some m → SetEnd S H t k v (.err m)
  | array {a : A} : S.kind t = .arr a → SetEnd S H t k v (arrStore H a (S.arrSet (H.arr a) k v))
  | call {f : V} : Missing S H t k → Handler S H S.newindex t f → S.kind f = .fn → SetEnd S H t k v (.call f [t, k, v])
  | bad : (S.kind t = .fn ∨ S.kind t = .other) → (∀ f, ¬ Handler S H S.newindex t f) → SetEnd S H t k v (.typeerr t)

/-- no handler in the chain from `t` is a typed array -/
def NoArr (S : Sys V T A C) (H : Heap V T A C) (e k t : V) : Prop :=
  ∀ n u, Chain S H e k (n + 1) t u → ∀ a, S.kind u ≠ .arr a

/-- slots exist only for keys that tables can have -/
def WF (S : Sys V T A C) (H : Heap V T A C) : Prop :=
  ∀ t k, H.slot t (S.norm k) ≠ none → S.keyerr k = none

omit [DecidableEq V] [DecidableEq T] [DecidableEq A] in
theorem handler_unique {S : Sys V T A C} {H : Heap V T A C} {e t f g : V} (h1 : Handler S H e t f) (h2 : Handler S H e t g) : f = g := by
  obtain ⟨m, a, b, _⟩ := h1
  obtain ⟨m', a', b', _⟩ := h2
  rw [a] at a'
  cases a'
  rw [← b, ← b']

omit [DecidableEq T] [DecidableEq A] in
theorem fasttm_some {S : Sys V T A C} {H : Heap V T A C} {h : T} {e t f : V} (hk : S.kind t = .tbl h)
    (hf : fasttm S H (H.mt h) e = some f) : Handler S H e t f := by
  unfold fasttm at hf
  cases hm : H.mt h with
  | none => rw [hm] at hf; cases hf
  | some m =>
    rw [hm] at hf
    dsimp only at hf
    split at hf
    · cases hf
    · next hn =>
      cases hf
      refine ⟨m, ?_, rfl, hn⟩
      simp only [metaOf, hk, hm]

omit [DecidableEq T] [DecidableEq A] in
theorem fasttm_none {S : Sys V T A C} {H : Heap V T A C} {h : T} {e t : V} (hk : S.kind t = .tbl h)
    (hf : fasttm S H (H.mt h) e = none) (f : V) : ¬ Handler S H e t f := by
  rintro ⟨m, a, b, c⟩
  simp only [metaOf, hk] at a
  unfold fasttm at hf
  rw [a] at hf
  dsimp only at hf
  rw [b, if_neg c] at hf
  cases hf

omit [DecidableEq V] [DecidableEq T] [DecidableEq A] in
theorem gettm_some {S : Sys V T A C} {H : Heap V T A C} {e t : V} (hn : gettmbyobj S H t e ≠ S.nil) :
    Handler S H e t (gettmbyobj S H t e) := by
  unfold gettmbyobj at hn ⊢
  unfold Handler metaOf
  cases hk : S.kind t <;> rw [hk] at hn <;> dsimp only at hn ⊢
  · next h => cases hm : H.mt h <;> rw [hm] at hn <;> simp_all
  · next h => cases hm : H.mtArr h <;> rw [hm] at hn <;> simp_all
  · cases hm : H.mtVal t <;> rw [hm] at hn <;> simp_all
  · cases hm : H.mtVal t <;> rw [hm] at hn <;> simp_all

omit [DecidableEq V] [DecidableEq T] [DecidableEq A] in
theorem gettm_none {S : Sys V T A C} {H : Heap V T A C} {e t : V} (hn : gettmbyobj S H t e = S.nil) (f : V) :
    ¬ Handler S H e t f := by
  rintro ⟨m, a, b, c⟩
  unfold gettmbyobj at hn
  unfold metaOf at a
  cases hk : S.kind t <;> rw [hk] at hn a <;> dsimp only at hn a <;> rw [a] at hn <;> exact c (b ▸ hn)

/-- what `luaV_finishget` gets as `slot` for `t` -/
def SlotOf (S : Sys V T A C) (H : Heap V T A C) (t k : V) : Option T → Prop
  | some h => S.kind t = .tbl h ∧ H.get S h k = S.nil
  | none => S.kind t = .fn ∨ S.kind t = .other

omit [DecidableEq V] [DecidableEq T] [DecidableEq A] in
theorem slotOf_missing {S : Sys V T A C} {H : Heap V T A C} {t k : V} {s : Option T} (h : SlotOf S H t k s) : Missing S H t k := by
  cases s with
  | some x => exact .inl ⟨x, h⟩
  | none => exact .inr h

omit [DecidableEq V] [DecidableEq T] [DecidableEq A] in
theorem noArr_step {S : Sys V T A C} {H : Heap V T A C} {e t t' k : V} (h : NoArr S H e k t) (hl : Link S H e k t t') :
    NoArr S H e k t' :=
  fun n u hc => h (n + 1) u (.step hl hc)

/-- what is shown of `luaV_finishget` and `luaV_gettable` -/
def GetSpec (S : Sys V T A C) (H : Heap V T A C) (k : V) (n : Nat) (t : V) (o : Out V V) : Prop :=
  (∃ m t', m < n ∧ Chain S H S.index k m t t' ∧ GetEnd S H t' k o) ∨
  (∃ t', Chain S H S.index k n t t' ∧ ((∃ h v, S.kind t' = .tbl h ∧ H.get S h k = v ∧ v ≠ S.nil ∧ o = .done v) ∨ o = .toolong))

omit [DecidableEq V] [DecidableEq T] [DecidableEq A] in
theorem getSpec_step {S : Sys V T A C} {H : Heap V T A C} {k t t' : V} {n : Nat} {o : Out V V} (hl : Link S H S.index k t t')
    (h : GetSpec S H k n t' o) : GetSpec S H k (n + 1) t o := by
  rcases h with ⟨m, u, hm, hc, he⟩ | ⟨u, hc, he⟩
  · exact .inl ⟨m + 1, u, by omega, .step hl hc, he⟩
  · exact .inr ⟨u, .step hl hc, he⟩

/-- the handler part of `luaV_finishget` -/
def goGet (S : Sys V T A C) (H : Heap V T A C) (k : V) (n : Nat) (t tm : V) : Out V V :=
  if S.kind tm = .fn then .call tm [t, k]
  else match fastget S H tm k with
    | .ok none => finishget S H k n tm none
    | .ok (some (h, s)) =>
      if s.getD S.nil ≠ S.nil then .done (s.getD S.nil) else finishget S H k n tm (some h)
    | .err m => .err m
    | .ub => .ub

theorem finishget_succ (S : Sys V T A C) (H : Heap V T A C) (k : V) (n : Nat) (t : V) (s : Option T) :
    finishget S H k (n + 1) t s = match s with
      | none => if gettmbyobj S H t S.index = S.nil then .typeerr t else goGet S H k n t (gettmbyobj S H t S.index)
      | some h =>
        match fasttm S H (H.mt h) S.index with
        | none => .done S.nil
        | some tm => goGet S H k n t tm := rfl

theorem goGet_spec {S : Sys V T A C} {H : Heap V T A C} {k : V} {n : Nat}
    (ih : ∀ (t : V) (s : Option T), SlotOf S H t k s → NoArr S H S.index k t → GetSpec S H k n t (finishget S H k n t s))
    {t tm : V} (hm : Missing S H t k) (hh : Handler S H S.index t tm) (ha : NoArr S H S.index k t) :
    GetSpec S H k (n + 1) t (goGet S H k n t tm) := by
  unfold goGet
  split
  · next hf => exact .inl ⟨0, t, by omega, .refl t, .call hm hh hf⟩
  next hf =>
  have hl : Link S H S.index k t tm := ⟨hm, hh, hf⟩
  have hna := ha 0 tm (.step hl (.refl tm))
  have ha' := noArr_step ha hl
  unfold fastget
  cases hk : S.kind tm with
  | fn => exact absurd hk hf
  | arr a => exact absurd hk (hna a)
  | other => exact getSpec_step hl (ih tm none (.inr hk) ha')
  | tbl h =>
    dsimp only
    split
    · next hv =>
      refine getSpec_step hl ?_
      cases n with
      | zero => exact .inr ⟨tm, .refl tm, .inl ⟨h, _, hk, rfl, hv, rfl⟩⟩
      | succ n => exact .inl ⟨0, tm, by omega, .refl tm, .raw hk rfl hv⟩
    · next hv => exact getSpec_step hl (ih tm (some h) ⟨hk, by simpa [Heap.get] using hv⟩ ha')

theorem finishget_spec (S : Sys V T A C) (H : Heap V T A C) (k : V) : ∀ (n : Nat) (t : V) (s : Option T), SlotOf S H t k s →
    NoArr S H S.index k t → GetSpec S H k n t (finishget S H k n t s) := by
  intro n
  induction n with
  | zero => exact fun t s _ _ => .inr ⟨t, .refl t, .inr rfl⟩
  | succ n ih =>
    intro t s hs ha
    rw [finishget_succ]
    have hm := slotOf_missing hs
    cases s with
    | none =>
      dsimp only
      split
      · next hn => exact .inl ⟨0, t, by omega, .refl t, .bad hs (gettm_none hn)⟩
      · next hn => exact goGet_spec ih hm (gettm_some hn) ha
    | some h =>
      dsimp only
      split
      · next hn => exact .inl ⟨0, t, by omega, .refl t, .absent hs.1 hs.2 (fasttm_none hs.1 hn)⟩
      · next tm hn => exact goGet_spec ih hm (fasttm_some hs.1 hn) ha

theorem gettable_spec (S : Sys V T A C) (H : Heap V T A C) (t k : V) (ha : NoArr S H S.index k t) :
    GetSpec S H k 2000 t (gettable S H t k) := by
  unfold gettable
  cases hk : S.kind t with
  | fn => exact finishget_spec S H k 2000 t none (.inl hk) ha
  | other => exact finishget_spec S H k 2000 t none (.inr hk) ha
  | arr a => exact .inl ⟨0, t, by omega, .refl t, .array hk⟩
  | tbl h =>
    dsimp only
    split
    · next hv => exact .inl ⟨0, t, by omega, .refl t, .raw hk rfl hv⟩
    · next hv => exact finishget_spec S H k 2000 t (some h) ⟨hk, by simpa using hv⟩ ha

omit [DecidableEq T] [DecidableEq A] [DecidableEq V] in
/-- where raw access or the handler settles the access, the chain ends -/
theorem getEnd_no_link {S : Sys V T A C} {H : Heap V T A C} {t k : V} {o : Out V V} (he : GetEnd S H t k o) (u : V) :
    ¬ Link S H S.index k t u := by
  rintro ⟨hm, hh, hf⟩
  cases he with
  | raw hk hg hv =>
    rcases hm with ⟨h, a, b⟩ | a | a <;> rw [hk] at a <;> cases a
    exact hv (hg ▸ b)
  | absent hk hg hn => exact hn u hh
  | array hk => rcases hm with ⟨h, a, b⟩ | a | a <;> rw [hk] at a <;> cases a
  | call _ hh' hf' => exact hf (handler_unique hh hh' ▸ hf')
  | bad _ hn => exact hn u hh

omit [DecidableEq T] [DecidableEq A] [DecidableEq V] in
theorem link_unique {S : Sys V T A C} {H : Heap V T A C} {e t k u w : V} (h1 : Link S H e k t u) (h2 : Link S H e k t w) : u = w :=
  handler_unique h1.2.1 h2.2.1

omit [DecidableEq T] [DecidableEq A] [DecidableEq V] in
/-- a chain that ends is the longest, and the only one -/
theorem chain_end {S : Sys V T A C} {H : Heap V T A C} {e k t u w : V} {n m : Nat} (h1 : Chain S H e k n t u)
    (hu : ∀ x, ¬ Link S H e k u x) (h2 : Chain S H e k m t w) : m ≤ n ∧ (m = n → w = u) := by
  induction h1 generalizing m w with
  | refl t =>
    cases h2 with
    | refl => exact ⟨Nat.le_refl _, fun _ => rfl⟩
    | step hl _ => exact absurd hl (hu _)
  | step hl _ ih =>
    cases h2 with
    | refl => exact ⟨Nat.zero_le _, fun h => by omega⟩
    | step hl' hc' =>
      cases link_unique hl hl'
      obtain ⟨a, b⟩ := ih hu hc'
      exact ⟨by omega, fun h => b (by omega)⟩

omit [DecidableEq T] [DecidableEq A] [DecidableEq V] in
theorem getEnd_unique {S : Sys V T A C} {H : Heap V T A C} {t k : V} {o o' : Out V V} (h1 : GetEnd S H t k o) (h2 : GetEnd S H t k o') :
    o = o' := by
  have miss : ∀ {h : T}, S.kind t = .tbl h → Missing S H t k → H.get S h k = S.nil := by
    intro h hk hm
    rcases hm with ⟨h, a, b⟩ | a | a <;> rw [hk] at a <;> cases a
    exact b
  cases h1 with
  | raw hk hg hv =>
    cases h2 with
    | raw hk' hg' hv' => rw [hk] at hk'; cases hk'; rw [← hg, ← hg']
    | absent hk' hg' => rw [hk] at hk'; cases hk'; exact absurd (hg ▸ hg') hv
    | array hk' => rw [hk] at hk'; cases hk'
    | call hm => exact absurd (hg ▸ miss hk hm) hv
    | bad hk' => rw [hk] at hk'; rcases hk' with h | h <;> cases h
  | absent hk hg hn =>
    cases h2 with
    | raw hk' hg' hv' => rw [hk] at hk'; cases hk'; exact absurd (hg' ▸ hg) hv'
    | absent hk' hg' => rfl
    | array hk' => rw [hk] at hk'; cases hk'
    | call _ hh => exact absurd hh (hn _)
    | bad hk' => rw [hk] at hk'; rcases hk' with h | h <;> cases h
  | array hk =>
    cases h2 with
    | raw hk' => rw [hk] at hk'; cases hk'
    | absent hk' => rw [hk] at hk'; cases hk'
    | array hk' => rw [hk] at hk'; cases hk'; rfl
    | call hm => rcases hm with ⟨h, a, b⟩ | a | a <;> rw [hk] at a <;> cases a
    | bad hk' => rw [hk] at hk'; rcases hk' with h | h <;> cases h
  | call hm hh hf =>
    cases h2 with
    | raw hk' hg' hv' => exact absurd (hg' ▸ miss hk' hm) hv'
    | absent _ _ hn => exact absurd hh (hn _)
    | array hk' => rcases hm with ⟨h, a, b⟩ | a | a <;> rw [hk'] at a <;> cases a
    | call _ hh' => rw [handler_unique hh hh']
    | bad _ hn => exact absurd hh (hn _)
  | bad hk hn =>
    cases h2 with
    | raw hk' => rw [hk'] at hk; rcases hk with h | h <;> cases h
    | absent hk' => rw [hk'] at hk; rcases hk with h | h <;> cases h
    | array hk' => rw [hk'] at hk; rcases hk with h | h <;> cases h
    | call _ hh => exact absurd hh (hn _)
    | bad => rfl

/-- **C87** (reading; handlers that are typed arrays are missing).  If `t[k]` is handed over fewer than 2000 times and then settled with
the outcome `o`, that is the outcome of the code.  If the code settles the access, it is so according to the manual, or the chain has 2000
links, and its last table has a value, or the error is "chain too long". -/
theorem index_partial (S : Sys V T A C) (H : Heap V T A C) (t k : V) (ha : NoArr S H S.index k t) :
    (∀ n u o, Chain S H S.index k n t u → GetEnd S H u k o → n < 2000 → gettable S H t k = o) ∧
    ((∃ n u, n < 2000 ∧ Chain S H S.index k n t u ∧ GetEnd S H u k (gettable S H t k)) ∨
     (∃ u, Chain S H S.index k 2000 t u ∧
       ((∃ h v, S.kind u = .tbl h ∧ H.get S h k = v ∧ v ≠ S.nil ∧ gettable S H t k = .done v) ∨ gettable S H t k = .toolong))) := by
  have hs := gettable_spec S H t k ha
  refine ⟨?_, hs⟩
  intro n u o hc he hn
  rcases hs with ⟨m, u', hm, hc', he'⟩ | ⟨u', hc', _⟩
  · have h1 := chain_end hc (getEnd_no_link he) hc'
    have h2 := chain_end hc' (getEnd_no_link he') hc
    have : m = n := by omega
    cases h1.2 this
    exact getEnd_unique he' he
  · have := (chain_end hc (getEnd_no_link he) hc').1
    omega

/-- the variants for keys that are strings do the same, unless the value is a typed array -/
theorem index_string_partial (S : Sys V T A C) (H : Heap V T A C) (t k : V) (ha : ∀ a, S.kind t ≠ .arr a) :
    gettableS S H t k = gettable S H t k ∧ getself S H t k = gettable S H t k := by
  unfold gettableS getself gettable fastget
  cases hk : S.kind t with
  | arr a => exact absurd hk (ha a)
  | tbl h => exact ⟨rfl, rfl⟩
  | fn => exact ⟨rfl, rfl⟩
  | other => exact ⟨rfl, rfl⟩

/-! ### assignment -/

def SlotOf' (S : Sys V T A C) (H : Heap V T A C) (t k : V) : Option (T × Option V) → Prop
  | some (h, s) => S.kind t = .tbl h ∧ H.get S h k = S.nil ∧ s = H.slot h (S.norm k)
  | none => S.kind t = .fn ∨ S.kind t = .other

omit [DecidableEq V] [DecidableEq T] [DecidableEq A] in
theorem slotOf'_missing {S : Sys V T A C} {H : Heap V T A C} {t k : V} {s : Option (T × Option V)} (h : SlotOf' S H t k s) :
    Missing S H t k := by
  cases s with
  | some x => exact .inl ⟨x.1, h.1, h.2.1⟩
  | none => exact .inr h

theorem put_stored (S : Sys V T A C) (H : Heap V T A C) (h : T) (k v : V) : Stored S H h k v (H.put S h k v) := by
  refine ⟨⟨rfl, rfl, rfl, rfl⟩, by simp [Heap.put], fun t' k' hd => ?_⟩
  simp only [Heap.put]
  rw [if_neg]
  rintro ⟨a, b⟩
  rcases hd with hd | hd
  · exact hd a
  · exact hd b

def SetSpec (S : Sys V T A C) (H : Heap V T A C) (k v : V) (n : Nat) (t : V) (o : Out V (Heap V T A C)) : Prop :=
  (∃ m t', m < n ∧ Chain S H S.newindex k m t t' ∧ SetEnd S H t' k v o) ∨
  (∃ t', Chain S H S.newindex k n t t' ∧
    ((∃ h H', S.kind t' = .tbl h ∧ H.get S h k ≠ S.nil ∧ Stored S H h k v H' ∧ o = .done H') ∨ o = .toolong))

omit [DecidableEq V] [DecidableEq T] in
theorem setSpec_step {S : Sys V T A C} {H : Heap V T A C} {k v t t' : V} {n : Nat} {o : Out V (Heap V T A C)}
    (hl : Link S H S.newindex k t t') (h : SetSpec S H k v n t' o) : SetSpec S H k v (n + 1) t o := by
  rcases h with ⟨m, u, hm, hc, he⟩ | ⟨u, hc, he⟩
  · exact .inl ⟨m + 1, u, by omega, .step hl hc, he⟩
  · exact .inr ⟨u, .step hl hc, he⟩

/-- the handler part of `luaV_finishset` -/
def goSet (S : Sys V T A C) (H : Heap V T A C) (k v : V) (n : Nat) (t tm : V) : Out V (Heap V T A C) :=
  if S.kind tm = .fn then .call tm [t, k, v]
  else match fastget S H tm k with
    | .ok none => finishset S H k v n tm none
    | .ok (some (h, s)) =>
      if s.getD S.nil ≠ S.nil then .done (H.put S h k v) else finishset S H k v n tm (some (h, s))
    | .err m => .err m
    | .ub => .ub

theorem finishset_succ (S : Sys V T A C) (H : Heap V T A C) (k v : V) (n : Nat) (t : V) (s : Option (T × Option V)) :
    finishset S H k v (n + 1) t s = match s with
      | some (h, s) =>
        match fasttm S H (H.mt h) S.newindex with
        | none =>
          match s with
          | none =>
            match S.keyerr k with
            | some m => .err m
            | none => .done (H.put S h k v)
          | some _ => .done (H.put S h k v)
        | some tm => goSet S H k v n t tm
      | none => if gettmbyobj S H t S.newindex = S.nil then .typeerr t else goSet S H k v n t (gettmbyobj S H t S.newindex) := rfl

theorem goSet_spec {S : Sys V T A C} {H : Heap V T A C} {k v : V} {n : Nat}
    (ih : ∀ (t : V) (s : Option (T × Option V)), SlotOf' S H t k s → NoArr S H S.newindex k t →
      SetSpec S H k v n t (finishset S H k v n t s))
    {t tm : V} (hm : Missing S H t k) (hh : Handler S H S.newindex t tm) (ha : NoArr S H S.newindex k t) :
    SetSpec S H k v (n + 1) t (goSet S H k v n t tm) := by
  unfold goSet
  split
  · next hf => exact .inl ⟨0, t, by omega, .refl t, .call hm hh hf⟩
  next hf =>
  have hl : Link S H S.newindex k t tm := ⟨hm, hh, hf⟩
  have hna := ha 0 tm (.step hl (.refl tm))
  have ha' := noArr_step ha hl
  unfold fastget
  cases hk : S.kind tm with
  | fn => exact absurd hk hf
  | arr a => exact absurd hk (hna a)
  | other => exact setSpec_step hl (ih tm none (.inr hk) ha')
  | tbl h =>
    dsimp only
    split
    · next hv =>
      refine setSpec_step hl ?_
      cases n with
      | zero => exact .inr ⟨tm, .refl tm, .inl ⟨h, _, hk, hv, put_stored S H h k v, rfl⟩⟩
      | succ n => exact .inl ⟨0, tm, by omega, .refl tm, .raw hk hv (put_stored S H h k v)⟩
    · next hv => exact setSpec_step hl (ih tm (some (h, _)) ⟨hk, by simpa [Heap.get] using hv, rfl⟩ ha')

theorem finishset_spec (S : Sys V T A C) (H : Heap V T A C) (hw : WF S H) (k v : V) : ∀ (n : Nat) (t : V) (s : Option (T × Option V)),
    SlotOf' S H t k s → NoArr S H S.newindex k t → SetSpec S H k v n t (finishset S H k v n t s) := by
  intro n
  induction n with
  | zero => exact fun t s _ _ => .inr ⟨t, .refl t, .inr rfl⟩
  | succ n ih =>
    intro t s hs ha
    rw [finishset_succ]
    have hm := slotOf'_missing hs
    cases s with
    | none =>
      dsimp only
      split
      · next hn => exact .inl ⟨0, t, by omega, .refl t, .bad hs (gettm_none hn)⟩
      · next hn => exact goSet_spec ih hm (gettm_some hn) ha
    | some x =>
      obtain ⟨h, s⟩ := x
      obtain ⟨h1, h2, h3⟩ := hs
      dsimp only
      cases hn : fasttm S H (H.mt h) S.newindex with
      | some tm => exact goSet_spec ih hm (fasttm_some h1 hn) ha
      | none =>
        dsimp only
        have hno := fasttm_none (e := S.newindex) h1 hn
        cases s with
        | some x =>
          exact .inl ⟨0, t, by omega, .refl t, .new h1 h2 hno (hw h k (by rw [← h3]; exact fun e => nomatch e)) (put_stored S H h k v)⟩
        | none =>
          dsimp only
          cases hk : S.keyerr k with
          | none => exact .inl ⟨0, t, by omega, .refl t, .new h1 h2 hno hk (put_stored S H h k v)⟩
          | some m => exact .inl ⟨0, t, by omega, .refl t, .badkey h1 h2 hno hk⟩

theorem settable_spec (S : Sys V T A C) (H : Heap V T A C) (hw : WF S H) (t k v : V) (ha : NoArr S H S.newindex k t) :
    SetSpec S H k v 2000 t (settable S H t k v) := by
  unfold settable
  cases hk : S.kind t with
  | fn => exact finishset_spec S H hw k v 2000 t none (.inl hk) ha
  | other => exact finishset_spec S H hw k v 2000 t none (.inr hk) ha
  | arr a =>
    refine .inl ⟨0, t, by omega, .refl t, ?_⟩
    have h := SetEnd.array (H := H) (k := k) (v := v) hk
    dsimp only
    cases hr : S.arrSet (H.arr a) k v <;> rw [hr] at h <;> exact h
  | tbl h =>
    dsimp only
    split
    · next hv => exact .inl ⟨0, t, by omega, .refl t, .raw hk hv (put_stored S H h k v)⟩
    · next hv => exact finishset_spec S H hw k v 2000 t (some (h, _)) ⟨hk, by simpa using hv, rfl⟩ ha

omit [DecidableEq V] [DecidableEq T] in
theorem setEnd_no_link {S : Sys V T A C} {H : Heap V T A C} {t k v : V} {o : Out V (Heap V T A C)} (he : SetEnd S H t k v o) (u : V) :
    ¬ Link S H S.newindex k t u := by
  rintro ⟨hm, hh, hf⟩
  cases he with
  | raw hk hv =>
    rcases hm with ⟨h, a, b⟩ | a | a <;> rw [hk] at a <;> cases a
    exact hv b
  | new hk hg hn => exact hn u hh
  | badkey hk hg hn => exact hn u hh
  | array hk => rcases hm with ⟨h, a, b⟩ | a | a <;> rw [hk] at a <;> cases a
  | call _ hh' hf' => exact hf (handler_unique hh hh' ▸ hf')
  | bad _ hn => exact hn u hh

omit [DecidableEq A] in
theorem stored_unique {S : Sys V T A C} {H H1 H2 : Heap V T A C} {h : T} {k v : V} (h1 : Stored S H h k v H1) (h2 : Stored S H h k v H2) :
    H1 = H2 := by
  obtain ⟨⟨a1, b1, c1, d1⟩, e1, f1⟩ := h1
  obtain ⟨⟨a2, b2, c2, d2⟩, e2, f2⟩ := h2
  cases H1
  cases H2
  simp only at *
  subst a1 a2 b1 b2 c1 c2 d1 d2
  congr 1
  funext t' k'
  by_cases hd : t' ≠ h ∨ k' ≠ S.norm k
  · rw [f1 t' k' hd, f2 t' k' hd]
  · have ht : t' = h := Decidable.byContradiction fun x => hd (.inl x)
    have hk : k' = S.norm k := Decidable.byContradiction fun x => hd (.inr x)
    subst ht hk
    rw [e1, e2]

theorem setEnd_unique {S : Sys V T A C} {H : Heap V T A C} {t k v : V} {o o' : Out V (Heap V T A C)} (h1 : SetEnd S H t k v o)
    (h2 : SetEnd S H t k v o') : o = o' := by
  have miss : ∀ {h : T}, S.kind t = .tbl h → Missing S H t k → H.get S h k = S.nil := by
    intro h hk hm
    rcases hm with ⟨h, a, b⟩ | a | a <;> rw [hk] at a <;> cases a
    exact b
  cases h1 with
  | raw hk hv hs =>
    cases h2 with
    | raw hk' _ hs' => rw [hk] at hk'; cases hk'; rw [stored_unique hs hs']
    | new hk' hg' => rw [hk] at hk'; cases hk'; exact absurd hg' hv
    | badkey hk' hg' => rw [hk] at hk'; cases hk'; exact absurd hg' hv
    | array hk' => rw [hk] at hk'; cases hk'
    | call hm => exact absurd (miss hk hm) hv
    | bad hk' => rw [hk] at hk'; rcases hk' with h | h <;> cases h
  | new hk hg hn he hs =>
    cases h2 with
    | raw hk' hv' => rw [hk] at hk'; cases hk'; exact absurd hg hv'
    | new hk' _ _ _ hs' => rw [hk] at hk'; cases hk'; rw [stored_unique hs hs']
    | badkey _ _ _ he' => rw [he] at he'; cases he'
    | array hk' => rw [hk] at hk'; cases hk'
    | call _ hh => exact absurd hh (hn _)
    | bad hk' => rw [hk] at hk'; rcases hk' with h | h <;> cases h
  | badkey hk hg hn he =>
    cases h2 with
    | raw hk' hv' => rw [hk] at hk'; cases hk'; exact absurd hg hv'
    | new _ _ _ he' => rw [he] at he'; cases he'
    | badkey _ _ _ he' => rw [he] at he'; cases he'; rfl
    | array hk' => rw [hk] at hk'; cases hk'
    | call _ hh => exact absurd hh (hn _)
    | bad hk' => rw [hk] at hk'; rcases hk' with h | h <;> cases h
  | array hk =>
    cases h2 with
    | raw hk' => rw [hk] at hk'; cases hk'
    | new hk' => rw [hk] at hk'; cases hk'
    | badkey hk' => rw [hk] at hk'; cases hk'
    | array hk' => rw [hk] at hk'; cases hk'; rfl
    | call hm => rcases hm with ⟨h, a, b⟩ | a | a <;> rw [hk] at a <;> cases a
    | bad hk' => rw [hk] at hk'; rcases hk' with h | h <;> cases h
  | call hm hh hf =>
    cases h2 with
    | raw hk' hv' => exact absurd (miss hk' hm) hv'
    | new _ _ hn => exact absurd hh (hn _)
    | badkey _ _ hn => exact absurd hh (hn _)
    | array hk' => rcases hm with ⟨h, a, b⟩ | a | a <;> rw [hk'] at a <;> cases a
    | call _ hh' => rw [handler_unique hh hh']
    | bad _ hn => exact absurd hh (hn _)
  | bad hk hn =>
    cases h2 with
    | raw hk' => rw [hk'] at hk; rcases hk with h | h <;> cases h
    | new hk' => rw [hk'] at hk; rcases hk with h | h <;> cases h
    | badkey hk' => rw [hk'] at hk; rcases hk with h | h <;> cases h
    | array hk' => rw [hk'] at hk; rcases hk with h | h <;> cases h
    | call _ hh => exact absurd hh (hn _)
    | bad => rfl

/-- **C87** (writing; handlers that are typed arrays are missing). -/
theorem newindex_partial (S : Sys V T A C) (H : Heap V T A C) (hw : WF S H) (t k v : V) (ha : NoArr S H S.newindex k t) :
    (∀ n u o, Chain S H S.newindex k n t u → SetEnd S H u k v o → n < 2000 → settable S H t k v = o) ∧
    ((∃ n u, n < 2000 ∧ Chain S H S.newindex k n t u ∧ SetEnd S H u k v (settable S H t k v)) ∨
     (∃ u, Chain S H S.newindex k 2000 t u ∧
       ((∃ h H', S.kind u = .tbl h ∧ H.get S h k ≠ S.nil ∧ Stored S H h k v H' ∧ settable S H t k v = .done H') ∨
        settable S H t k v = .toolong))) := by
  have hs := settable_spec S H hw t k v ha
  refine ⟨?_, hs⟩
  intro n u o hc he hn
  rcases hs with ⟨m, u', hm, hc', he'⟩ | ⟨u', hc', _⟩
  · have h1 := chain_end hc (setEnd_no_link he) hc'
    have h2 := chain_end hc' (setEnd_no_link he') hc
    have : m = n := by omega
    cases h1.2 this
    exact setEnd_unique he' he
  · have := (chain_end hc (setEnd_no_link he) hc').1
    omega

/-- A handler that is a typed array: reading a key which the table does not have uses the array as if it were a table. -/
theorem index_array_handler (S : Sys V T A C) (H : Heap V T A C) (t k f : V) (a : A) (hm : Missing S H t k)
    (hh : Handler S H S.index t f) (hf : S.kind f = .arr a) : gettable S H t k = .ub := by
  have go : ∀ n, goGet S H k n t f = .ub := by
    intro n
    unfold goGet fastget
    rw [hf]
    rfl
  unfold gettable
  rcases hm with ⟨h, hk, hg⟩ | hk | hk <;> rw [hk] <;> dsimp only
  · rw [if_neg (by simpa using hg), show maxTagLoop = 1999 + 1 from rfl, finishget_succ]
    dsimp only
    cases hn : fasttm S H (H.mt h) S.index with
    | none => exact absurd hh (fasttm_none hk hn f)
    | some tm =>
      cases handler_unique hh (fasttm_some hk hn)
      exact go _
  all_goals
    rw [show maxTagLoop = 1999 + 1 from rfl, finishget_succ]
    dsimp only
    by_cases hn : gettmbyobj S H t S.index = S.nil
    · exact absurd hh (gettm_none hn f)
    · rw [if_neg hn, ← handler_unique hh (gettm_some hn)]
      exact go _

/-- the same for writing -/
theorem newindex_array_handler (S : Sys V T A C) (H : Heap V T A C) (t k v f : V) (a : A) (hm : Missing S H t k)
    (hh : Handler S H S.newindex t f) (hf : S.kind f = .arr a) : settable S H t k v = .ub := by
  have go : ∀ n, goSet S H k v n t f = .ub := by
    intro n
    unfold goSet fastget
    rw [hf]
    rfl
  unfold settable
  rcases hm with ⟨h, hk, hg⟩ | hk | hk <;> rw [hk] <;> dsimp only
  · rw [if_neg (by simpa using hg), show maxTagLoop = 1999 + 1 from rfl, finishset_succ]
    dsimp only
    cases hn : fasttm S H (H.mt h) S.newindex with
    | none => exact absurd hh (fasttm_none hk hn f)
    | some tm =>
      cases handler_unique hh (fasttm_some hk hn)
      exact go _
  all_goals
    rw [show maxTagLoop = 1999 + 1 from rfl, finishset_succ]
    dsimp only
    by_cases hn : gettmbyobj S H t S.newindex = S.nil
    · exact absurd hh (gettm_none hn f)
    · rw [if_neg hn, ← handler_unique hh (gettm_some hn)]
      exact go _

/-- `lua_getfield` on a typed array, and `a:name()` with a name of more than 40 bytes, use the array as if it were a table. -/
theorem self_array (S : Sys V T A C) (H : Heap V T A C) (t k : V) (a : A) (hk : S.kind t = .arr a) : getself S H t k = .ub := by
  unfold getself fastget
  rw [hk]

/-- the heap stays well formed -/
theorem settable_wf (S : Sys V T A C) (H H' : Heap V T A C) (hw : WF S H) (hn : ∀ k k', S.norm k = S.norm k' → S.keyerr k = S.keyerr k')
    (t k v : V) (ha : NoArr S H S.newindex k t) (hs : settable S H t k v = .done H') : WF S H' := by
  have key : ∀ h, Stored S H h k v H' → S.keyerr k = none → WF S H' := by
    intro h hst hk t' k' hd
    by_cases hx : t' ≠ h ∨ S.norm k' ≠ S.norm k
    · rw [hst.old t' _ hx] at hd
      exact hw t' k' hd
    · have : S.norm k' = S.norm k := Decidable.byContradiction fun x => hx (.inr x)
      rw [hn k' k this]
      exact hk
  have raw : ∀ h, H.get S h k ≠ S.nil → S.keyerr k = none := by
    intro h hg
    refine hw h k fun e => hg ?_
    simp [Heap.get, e]
  have hsp := settable_spec S H hw t k v ha
  rw [hs] at hsp
  rcases hsp with ⟨m, u, _, _, he⟩ | ⟨u, _, ⟨h, H1, _, hg, hst, e⟩ | e⟩
  · generalize ho : Out.done H' = o at he
    cases he with
    | raw hk hg hst => cases ho; exact key _ hst (raw _ hg)
    | new hk hg _ he hst => cases ho; exact key _ hst he
    | badkey => cases ho
    | call => cases ho
    | bad => cases ho
    | array hk =>
      unfold arrStore at ho
      split at ho <;> cases ho
      exact hw
  · cases e; exact key _ hst (raw _ hg)
  · cases e

end

/-! ### an instance: numbers are values; 0 is nil, 1 and 2 the events, 10, 11, 12 tables, 13 a function, 14 a typed array -/

def exS : Sys Nat Nat Nat Nat where
  kind v := if v = 10 ∨ v = 11 ∨ v = 12 then .tbl v else if v = 13 then .fn else if v = 14 then .arr 14 else .other
  nil := 0
  index := 1
  newindex := 2
  norm v := v
  keyerr v := if v = 0 then some "index is nil" else none
  arrGet c _ := .done c
  arrSet _ _ v := .done v

/-- table 10 has the metatable 12 with `__index = h` and `__newindex = h`; table 11 has 7 at 5 -/
def exH (h : Nat) : Heap Nat Nat Nat Nat where
  slot t k := if t = 12 ∧ (k = 1 ∨ k = 2) then some h else if t = 11 ∧ k = 5 then some 7 else none
  mt t := if t = 10 then some 12 else none
  mtArr _ := none
  mtVal _ := none
  arr _ := 99

theorem exChain : Chain exS (exH 11) 1 5 1 10 11 :=
  .step ⟨.inl ⟨10, rfl, rfl⟩, ⟨12, rfl, rfl, by decide⟩, by decide⟩ (.refl 11)

theorem exEnd : ∀ u, ¬ Link exS (exH 11) 1 5 11 u := by
  rintro u ⟨_, ⟨m, h, _⟩, _⟩
  cases h

/-- the hypotheses of `index_partial` hold for a chain with one link -/
theorem exNoArr : NoArr exS (exH 11) 1 5 10 := by
  intro n u hc a
  have h := chain_end exChain exEnd hc
  have : n = 0 := by omega
  subst this
  rw [h.2 rfl]
  exact fun e => nomatch e

example : gettable exS (exH 11) 10 5 = .done 7 :=
  (index_partial exS (exH 11) 10 5 exNoArr).1 1 11 _ exChain (.raw (h := 11) rfl rfl (by decide)) (by decide)

example : gettable exS (exH 13) 10 5 = .call 13 [10, 5] := rfl

theorem exWF (h : Nat) : WF exS (exH h) := by
  intro t k hk
  simp only [exH, exS] at hk ⊢
  rw [if_neg]
  rintro rfl
  simp at hk

example : settable exS (exH 11) 10 5 8 = .done ((exH 11).put exS 11 5 8) := by
  have hc : Chain exS (exH 11) 2 5 1 10 11 :=
    .step ⟨.inl ⟨10, rfl, rfl⟩, ⟨12, rfl, rfl, by decide⟩, by decide⟩ (.refl 11)
  have he : ∀ u, ¬ Link exS (exH 11) 2 5 11 u := by
    rintro u ⟨_, ⟨m, h, _⟩, _⟩
    cases h
  refine (newindex_partial exS (exH 11) (exWF 11) 10 5 8 ?_).1 1 11 _ hc (.raw (h := 11) rfl (by decide) (put_stored ..)) (by decide)
  intro n u hc' a
  have h := chain_end hc he hc'
  have : n = 0 := by omega
  subst this
  rw [h.2 rfl]
  exact fun e => nomatch e

/-- the full claim is false: the handler of table 10 is a typed array -/
theorem index_array_example : gettable exS (exH 14) 10 5 = .ub ∧ settable exS (exH 14) 10 5 8 = .ub ∧ getself exS (exH 14) 14 5 = .ub :=
  ⟨index_array_handler exS (exH 14) 10 5 14 14 (.inl ⟨10, rfl, rfl⟩) ⟨12, rfl, rfl, by decide⟩ rfl,
   newindex_array_handler exS (exH 14) 10 5 8 14 14 (.inl ⟨10, rfl, rfl⟩) ⟨12, rfl, rfl, by decide⟩ rfl,
   self_array exS (exH 14) 14 5 14 rfl⟩

end Verif.Meta
