import Verif.Defer.Exec

/-!
# C33: deferred functions are called exactly once, in reverse order, however the scope is left
-/
namespace Verif.Defer

variable {W : Nat → Bool} {F : Nat → S} {G : Nat → Fn}

/-! ## The machine does what the source says -/

/-- What is seen of a program is what the source says: the code made by the parser, run by the machine with its list of open upvalues, has exactly the
effects that the statements have when deferred functions are called at the end of the scope. -/
theorem refines (hG : ∀ f, compFun (F f) = some (G f)) (k f : Nat) (r : Option Nat) (s' : St) (h : main W G k f = .ok (r, s')) :
    ∃ x', Caught W F (F f) ⟨0, 0, []⟩ x' r ∧ x'.tr = s'.tr ∧ s'.opn = [] := by
  obtain ⟨x', h1, h2, h3⟩ := (all (W := W) hG k).pr 0 1 (F f) (G f) ⟨[], 0, 0, 0, []⟩ ⟨0, 0, []⟩ r s' (hG f) .nil (fun e he => nomatch he) (Nat.zero_le _) ⟨rfl, rfl, rfl⟩ h
  exact ⟨x', h1, h2.2.2.symm, List.eq_nil_iff_forall_not_mem.2 fun e he => nomatch h3.mem e he⟩

theorem Sem.det {j : Job} {x : X} {R : Rs} {x' : X} (h : Sem W F j x R x') : ∀ R₂ x₂, Sem W F j x R₂ x₂ → R = R₂ ∧ x' = x₂ := by
  induction h <;> intro R₂ x₂ h₂ <;> cases h₂ <;> grind

/-- The source says one thing only. -/
theorem refines_unique (hG : ∀ f, compFun (F f) = some (G f)) {k k' f : Nat} {r r' : Option Nat} {s s' : St} (h : main W G k f = .ok (r, s)) (h' : main W G k' f = .ok (r', s')) :
    r = r' ∧ s.tr = s'.tr := by
  obtain ⟨x, h1, h2, _⟩ := refines hG k f r s h
  obtain ⟨x', h1', h2', _⟩ := refines hG k' f r' s' h'
  have key : r = r' ∧ x = x' := by
    cases r with
    | none =>
      cases r' with
      | none => exact ⟨rfl, (Sem.det h1 _ _ h1').2⟩
      | some v => obtain ⟨p, x₁, g, _⟩ := h1'; exact nomatch (Sem.det h1 _ _ g).1
    | some v =>
      obtain ⟨p, x₁, g, g'⟩ := h1
      cases r' with
      | none => exact nomatch (Sem.det g _ _ h1').1
      | some v' =>
        obtain ⟨p', x₁', q, q'⟩ := h1'
        obtain ⟨e1, e2⟩ := Sem.det g _ _ q
        cases e1
        subst e2
        exact ⟨rfl, (Sem.det g' _ _ q').2⟩
  exact ⟨key.1, by rw [← h2, ← h2', key.2]⟩

/-! ## Exactly once, last in first out -/

/-- What is seen, with the functions that are to be called before and after: deferring one adds it, a call is always of the one deferred last, and a coroutine that
dies takes its own with it. -/
inductive Rep : List Nat → List Ev → List Nat → Prop
  | nil {st} : Rep st [] st
  | reg {i st es st'} : Rep (i :: st) es st' → Rep st (.reg i :: es) st'
  | run {i a st es st'} : Rep st es st' → Rep (i :: st) (.run i a :: es) st'
  | emit {k st es st'} : Rep st es st' → Rep st (.emit k :: es) st'
  | caught {v st es st'} : Rep st es st' → Rep st (.caught v :: es) st'
  | died {v p st es st'} : Rep st es st' → Rep (p ++ st) (.died v :: es) st'

theorem Rep.append {a b c : List Nat} {es es' : List Ev} (h : Rep a es b) (h' : Rep b es' c) : Rep a (es ++ es') c := by
  induction h with
  | nil => exact h'
  | reg _ ih => exact .reg (ih h')
  | run _ ih => exact .run (ih h')
  | emit _ ih => exact .emit (ih h')
  | caught _ ih => exact .caught (ih h')
  | died _ ih => exact .died (ih h')

/-- The functions to be called, before and after. -/
def Job.ids : Job → List Nat
  | .st _ => []
  | .fn _ => []
  | .runN ds => ds.map (·.1)
  | .runP _ ds => ds.map (·.1)
  | .runW ds => ds.map (·.1)

def Rs.ids : Rs → List Nat
  | .out _ ds => ds.map (·.1)
  | .fin none => []
  | .fin (some (_, p)) => p.map (·.1)

/-- The numbers of the functions deferred. -/
def regs (es : List Ev) : List Nat := es.filterMap fun | .reg i => some i | _ => none

theorem regs_append (a b : List Ev) : regs (a ++ b) = regs a ++ regs b := List.filterMap_append

/-- What a job shows. -/
structure Shows (x x' : X) (a b : List Nat) (es : List Ev) : Prop where
  tr : x'.tr = x.tr ++ es
  le : x.next ≤ x'.next
  regs : regs es = List.range' x.next (x'.next - x.next)
  rep : ∀ st, Rep (a ++ st) es (b ++ st)

theorem Shows.nil {x : X} {a : List Nat} : Shows x x a a [] := ⟨(List.append_nil _).symm, Nat.le_refl _, by simp [Defer.regs], fun _ => .nil⟩

theorem Shows.tock {x x' : X} {a b : List Nat} {es} (h : Shows x.tock x' a b es) : Shows x x' a b es := ⟨h.tr, h.le, h.regs, h.rep⟩

theorem Shows.tock_right {x x' : X} {a b : List Nat} {es} (h : Shows x x' a b es) : Shows x x'.tock a b es := ⟨h.tr, h.le, h.regs, h.rep⟩

theorem Shows.trans {x x₁ x₂ : X} {a b c : List Nat} {es es'} (h : Shows x x₁ a b es) (h' : Shows x₁ x₂ b c es') : Shows x x₂ a c (es ++ es') :=
  ⟨by rw [h'.tr, h.tr, List.append_assoc], Nat.le_trans h.le h'.le, by
    rw [regs_append, h.regs, h'.regs]
    have h1 := h.le
    have h2 := h'.le
    have := List.range'_append_1 (s := x.next) (m := x₁.next - x.next) (n := x₂.next - x₁.next)
    rw [show x.next + (x₁.next - x.next) = x₁.next by omega] at this
    rw [this]
    congr 1
    omega, fun st => (h.rep st).append (h'.rep st)⟩

theorem Shows.frame {x x' : X} {a b : List Nat} {es} (h : Shows x x' a b es) (c : List Nat) : Shows x x' (a ++ c) (b ++ c) es :=
  ⟨h.tr, h.le, h.regs, fun st => by rw [List.append_assoc, List.append_assoc]; exact h.rep (c ++ st)⟩

theorem Shows.see {x : X} {e : Ev} {a b : List Nat} (hr : Defer.regs [e] = []) (h : ∀ st, Rep (a ++ st) [e] (b ++ st)) : Shows x (x.see e) a b [e] :=
  ⟨rfl, Nat.le_refl _, by rw [hr]; simp [X.see], h⟩

theorem Shows.run {x : X} {i : Nat} {a : Option Nat} {ds : List Nat} : Shows x (x.see (.run i a)) (i :: ds) ds [.run i a] :=
  Shows.see rfl fun _ => .run .nil

theorem ids_after (o : Outc) (r : Option (Nat × Pend)) : (after o r).ids = (Rs.fin r).ids := by cases r <;> rfl

theorem Sem.shows {j : Job} {x : X} {R : Rs} {x' : X} (h : Sem W F j x R x') : ∃ es, Shows x x' j.ids R.ids es := by
  induction h with
  | @seq a b x x₁ x₂ da o db _ _ iha ihb =>
    obtain ⟨e1, h1⟩ := iha
    obtain ⟨e2, h2⟩ := ihb
    refine ⟨e1 ++ e2, h1.trans ?_⟩
    have := h2.frame (da.map (·.1))
    simp only [Job.ids, Rs.ids, List.nil_append, List.map_append] at this ⊢
    exact this
  | emit => exact ⟨_, Shows.see rfl fun _ => .emit .nil⟩
  | defer => exact ⟨[.reg _], rfl, Nat.le_succ _, by simp [Defer.regs], fun _ => .reg .nil⟩
  | block _ _ ih1 ih2 =>
    obtain ⟨e1, h1⟩ := ih1
    obtain ⟨e2, h2⟩ := ih2
    rw [ids_after]
    exact ⟨_, h1.trans h2⟩
  | ite _ ih =>
    obtain ⟨e, h⟩ := ih
    exact ⟨e, h.tock⟩
  | whileEnd => exact ⟨[], Shows.nil.tock_right⟩
  | whileNext _ _ _ ih1 ih2 =>
    obtain ⟨e1, h1⟩ := ih1
    obtain ⟨e2, h2⟩ := ih2
    exact ⟨_, h1.tock.trans h2⟩
  | whileBrk _ _ _ ih1 ih2 =>
    obtain ⟨e1, h1⟩ := ih1
    obtain ⟨e2, h2⟩ := ih2
    rw [ids_after]
    exact ⟨_, h1.tock.trans h2⟩
  | whileStop _ _ _ _ ih =>
    obtain ⟨e, h⟩ := ih
    exact ⟨e, h.tock⟩
  | repeatEnd _ _ _ ih1 ih2 =>
    obtain ⟨e1, h1⟩ := ih1
    obtain ⟨e2, h2⟩ := ih2
    rw [ids_after]
    exact ⟨_, h1.trans h2.tock⟩
  | repeatNext _ _ _ _ ih1 ih2 ih3 =>
    obtain ⟨e1, h1⟩ := ih1
    obtain ⟨e2, h2⟩ := ih2
    obtain ⟨e3, h3⟩ := ih3
    exact ⟨_, (h1.trans h2.tock).trans h3⟩
  | repeatBrk _ _ ih1 ih2 =>
    obtain ⟨e1, h1⟩ := ih1
    obtain ⟨e2, h2⟩ := ih2
    rw [ids_after]
    exact ⟨_, h1.trans h2⟩
  | tail _ ih =>
    rw [ids_after]
    exact ih
  | call _ ih =>
    rw [ids_after]
    exact ih
  | pcallErr _ _ ih1 ih2 =>
    obtain ⟨e1, h1⟩ := ih1
    obtain ⟨e2, h2⟩ := ih2
    exact ⟨_, (h1.trans h2).trans (Shows.see rfl fun _ => .caught .nil)⟩
  | resumeErr _ ih =>
    obtain ⟨e1, h1⟩ := ih
    exact ⟨_, h1.trans (Shows.see rfl fun _ => .died .nil)⟩
  | wrapErr _ _ ih1 ih2 =>
    obtain ⟨e1, h1⟩ := ih1
    obtain ⟨e2, h2⟩ := ih2
    exact ⟨_, h1.trans h2⟩
  | fn _ _ _ ih1 ih2 =>
    obtain ⟨e1, h1⟩ := ih1
    obtain ⟨e2, h2⟩ := ih2
    exact ⟨_, h1.trans h2⟩
  | @runOk i b ds x x₁ r x₂ _ _ ih1 ih2 =>
    obtain ⟨e1, h1⟩ := ih1
    obtain ⟨e2, h2⟩ := ih2
    exact ⟨_, (Shows.run.trans (h1.frame (ds.map (·.1)))).trans h2⟩
  | @runErr i b ds x v p x₁ _ ih1 =>
    obtain ⟨e1, h1⟩ := ih1
    have := h1.frame (ds.map fun d : Nat × S => d.1)
    refine ⟨[.run i none] ++ e1, (Shows.run (i := i) (a := none) (ds := ds.map fun d : Nat × S => d.1)).trans ?_⟩
    simp only [Job.ids, Rs.ids, List.nil_append, List.map_append] at this ⊢
    exact this
  | @protOk v i b ds x x₁ x₂ _ _ ih1 ih2 =>
    obtain ⟨e1, h1⟩ := ih1
    obtain ⟨e2, h2⟩ := ih2
    exact ⟨_, (Shows.run.trans (h1.frame (ds.map (·.1)))).trans h2⟩
  | @protErr v i b ds x w p x₁ x₂ x₃ _ _ _ ih1 ih2 ih3 =>
    obtain ⟨e1, h1⟩ := ih1
    obtain ⟨e2, h2⟩ := ih2
    obtain ⟨e3, h3⟩ := ih3
    exact ⟨_, ((Shows.run.trans (h1.frame (ds.map fun d : Nat × S => d.1))).trans (h2.frame (ds.map fun d : Nat × S => d.1))).trans h3⟩
  | @wrapOk i b ds x x₁ x₂ _ _ ih1 ih2 =>
    obtain ⟨e1, h1⟩ := ih1
    obtain ⟨e2, h2⟩ := ih2
    exact ⟨_, (Shows.run.trans (h1.frame (ds.map (·.1)))).trans h2⟩
  | @wrapFail i b ds x w p x₁ x₂ x₃ _ _ _ ih1 ih2 ih3 =>
    obtain ⟨e1, h1⟩ := ih1
    obtain ⟨e2, h2⟩ := ih2
    obtain ⟨e3, h3⟩ := ih3
    exact ⟨_, ((Shows.run.trans (h1.frame (ds.map fun d : Nat × S => d.1))).trans (h2.frame (ds.map fun d : Nat × S => d.1))).trans h3⟩
  | seqStop _ _ ih => exact ih
  | blockStop _ _ ih => exact ih
  | repeatStop _ _ _ ih => exact ih
  | pcall _ ih => exact ih
  | resume _ ih => exact ih
  | wrap _ ih => exact ih
  | fnErr _ ih => exact ih
  | _ => exact ⟨[], Shows.nil⟩

theorem caught_shows {b : S} {x x' : X} {r : Option Nat} (h : Caught W F b x x' r) : ∃ es, Shows x x' [] [] es := by
  cases r with
  | none => exact h.shows
  | some w =>
    obtain ⟨p, x₁, h1, h2⟩ := h
    obtain ⟨e1, g1⟩ := h1.shows
    obtain ⟨e2, g2⟩ := h2.shows
    exact ⟨_, g1.trans g2⟩

/-- The events of a program form a properly nested word: every call of a deferred function is of the one that was deferred last and not yet called, and at the end none is left —
whether scopes were left normally, by `break`, by `return`, by an error, or by an error in a deferred function. -/
theorem nested (hG : ∀ f, compFun (F f) = some (G f)) (k f : Nat) (r : Option Nat) (s' : St) (h : main W G k f = .ok (r, s')) : Rep [] s'.tr [] := by
  obtain ⟨x', h1, h2, _⟩ := refines hG k f r s' h
  obtain ⟨es, h3⟩ := caught_shows h1
  rw [← h2, h3.tr]
  exact h3.rep []

/-- The number of calls of the deferred function `i`. -/
def calls (i : Nat) (es : List Ev) : Nat := es.countP fun | .run j _ => j = i | _ => false

theorem rep_count {a b : List Nat} {es : List Ev} (h : Rep a es b) (hd : ∀ v, .died v ∉ es) (i : Nat) : calls i es + b.count i = (regs es).count i + a.count i := by
  induction h with
  | nil => simp [calls, regs]
  | @reg j st es st' _ ih =>
    have := ih fun v hv => hd v (List.mem_cons_of_mem _ hv)
    have e1 : calls i (.reg j :: es) = calls i es := by simp [calls]
    have e2 : regs (.reg j :: es) = j :: regs es := rfl
    rw [e1, e2, List.count_cons]
    rw [List.count_cons] at this
    omega
  | @run j a st es st' _ ih =>
    have := ih fun v hv => hd v (List.mem_cons_of_mem _ hv)
    have e2 : regs (.run j a :: es) = regs es := rfl
    have e1 : calls i (.run j a :: es) = calls i es + if j == i then 1 else 0 := by
      simp only [calls, List.countP_cons]
      congr 1
    rw [e1, e2, List.count_cons]
    omega
  | @emit j st es st' _ ih =>
    have := ih fun v hv => hd v (List.mem_cons_of_mem _ hv)
    have e1 : calls i (.emit j :: es) = calls i es := by simp [calls]
    rw [e1]
    exact this
  | @caught j st es st' _ ih =>
    have := ih fun v hv => hd v (List.mem_cons_of_mem _ hv)
    have e1 : calls i (.caught j :: es) = calls i es := by simp [calls]
    rw [e1]
    exact this
  | @died v p st es st' _ ih => exact absurd List.mem_cons_self (hd v)

/-- Every deferred function is called exactly once, unless `coroutine.resume` returned an error: the property without the condition is false, see `resume_loses`. -/
theorem exactly_once_partial (hG : ∀ f, compFun (F f) = some (G f)) (k f : Nat) (r : Option Nat) (s' : St) (h : main W G k f = .ok (r, s')) (hd : ∀ v, .died v ∉ s'.tr) (i : Nat) :
    (Ev.reg i ∈ s'.tr ↔ calls i s'.tr = 1) ∧ (Ev.reg i ∉ s'.tr ↔ calls i s'.tr = 0) := by
  obtain ⟨x', h1, h2, _⟩ := refines hG k f r s' h
  obtain ⟨es, h3⟩ := caught_shows h1
  have ht : s'.tr = es := by rw [← h2, h3.tr]; rfl
  rw [ht] at hd ⊢
  have hc := rep_count (h3.rep []) hd i
  simp only [List.append_nil, List.count_nil, Nat.add_zero] at hc
  have hmem : Ev.reg i ∈ es ↔ i ∈ regs es := by
    unfold regs
    rw [List.mem_filterMap]
    constructor
    · exact fun h => ⟨_, h, rfl⟩
    · rintro ⟨e, he, hi⟩
      cases e <;> simp at hi
      subst hi
      exact he
  have hnd : (regs es).Nodup := by rw [h3.regs]; exact List.nodup_range'
  rw [hmem, hc]
  by_cases hi : i ∈ regs es
  · rw [hnd.count, if_pos hi]
    simp [hi]
  · rw [List.count_eq_zero_of_not_mem hi]
    simp [hi]

/-! ## Nothing undefined without coroutines -/

/-- No coroutines in the code, nor in the functions it defers. -/
def C.plain : C → Bool
  | .seq a b => a.plain && b.plain
  | .defer _ b => b.plain
  | .block _ b => b.plain
  | .ite _ a _ b => a.plain && b.plain
  | .while_ _ b => b.plain
  | .repeat_ _ b => b.plain
  | .resume _ => false
  | .wrap _ => false
  | _ => true

/-- The same for statements. -/
def S.plain : S → Bool
  | .seq a b => a.plain && b.plain
  | .defer b => b.plain
  | .block b => b.plain
  | .ite a b => a.plain && b.plain
  | .while_ b => b.plain
  | .repeat_ b => b.plain
  | .resume _ => false
  | .wrap _ => false
  | _ => true

theorem comp_plain {a : S} (ha : a.plain = true) : ∀ {p bl t vs c}, comp p bl t vs a = some c → c.plain = true := by
  induction a with
  | seq a b iha ihb =>
    intro p bl t vs c h
    simp only [S.plain, Bool.and_eq_true] at ha
    simp only [comp] at h
    obtain ⟨ca, h1, h⟩ := Option.bind_eq_some_iff.1 h
    obtain ⟨cb, h2, h⟩ := Option.bind_eq_some_iff.1 h
    cases h
    simp only [C.plain, iha ha.1 h1, ihb ha.2 h2, Bool.and_true]
  | ite a b iha ihb =>
    intro p bl t vs c h
    simp only [S.plain, Bool.and_eq_true] at ha
    simp only [comp] at h
    obtain ⟨ca, h1, h⟩ := Option.bind_eq_some_iff.1 h
    obtain ⟨cb, h2, h⟩ := Option.bind_eq_some_iff.1 h
    cases h
    simp only [C.plain, iha ha.1 h1, ihb ha.2 h2, Bool.and_true]
  | defer b ih | block b ih | while_ b ih | repeat_ b ih =>
    intro p bl t vs c h
    simp only [comp] at h
    obtain ⟨cb, h1, h⟩ := Option.bind_eq_some_iff.1 h
    cases h
    have := ih ha h1
    exact this
  | capture k =>
    intro p bl t vs c h
    simp only [comp] at h
    split at h
    · cases h; rfl
    · exact nomatch h
  | brk =>
    intro p bl t vs c h
    obtain ⟨l, _, h⟩ := Option.map_eq_some_iff.1 h
    cases h
    rfl
  | resume f => exact nomatch ha
  | wrap f => exact nomatch ha
  | _ =>
    intro p bl t vs c h
    cases h
    rfl

/-- The deferred functions have no coroutines. -/
def PL (L : List Ent) : Prop := ∀ e ∈ L, ∀ i f, e.d = some (i, f) → f.code.plain = true

/-- Not undefined, and a property of the result. -/
def Safe {α : Type} (r : Res α) (P : α → Prop) : Prop :=
  match r with
  | .ok a => P a
  | .err _ => True
  | .ub => False

theorem Safe.bind {α β : Type} {r : Res α} {f : α → Res β} {P : α → Prop} {Q : β → Prop} (h : Safe r P) (h' : ∀ a, P a → Safe (f a) Q) : Safe (r >>= f) Q := by
  cases r with
  | ok a => exact h' a h
  | err m => exact trivial
  | ub => exact h

theorem find_PL {x : Ent} {L : List Ent} (h : PL L) (hx : ∀ i f, x.d = some (i, f) → f.code.plain = true) : PL (find x L) := fun e he => by
  rcases mem_find he with h' | rfl
  · exact h e h'
  · exact hx

theorem PL.tail {e : Ent} {es : List Ent} (h : PL (e :: es)) : PL es := fun y hy => h y (List.mem_cons_of_mem _ hy)

theorem drop_PL {base : Nat} {cl} {L : List Ent} (h : PL L) : PL (drop base cl L) := by
  cases cl with
  | none => exact h
  | some l => exact fun e he => h e ((List.dropWhile_sublist _).subset he)

structure NoUb (W : Nat → Bool) (G : Nat → Fn) (k : Nat) : Prop where
  ex : ∀ base n c s, c.plain = true → PL s.opn → Safe (ex W G k false base n c s) fun r => PL r.2.2.opn
  sc : ∀ base n cl c s, c.plain = true → PL s.opn → Safe (scope W G k false base n cl c s) fun r => PL r.2.2.opn
  jm : ∀ base n cl s, PL s.opn → Safe (jmp W G k base n cl s) fun r => PL r.2.opn
  cl : ∀ level top st s, PL s.opn → Safe (close W G k level top st s) fun r => PL r.2.opn
  fn : ∀ base f s, f.code.plain = true → PL s.opn → Safe (fn W G k false base f s) fun r => PL r.2.opn
  pr : ∀ oldtop base f s, f.code.plain = true → PL s.opn → Safe (prot W G k oldtop base f s) fun r => PL r.2.opn

theorem noUb (hG : ∀ f, (G f).code.plain = true) : ∀ k, NoUb W G k
  | 0 => by
    refine ⟨?_, ?_, ?_, ?_, ?_, ?_⟩
    · intros; rw [ex]; exact trivial
    · intros; rw [scope]; exact trivial
    · intros; rw [jmp]; exact trivial
    · intros; rw [close]; exact trivial
    · intros; rw [fn]; exact trivial
    · intros; rw [prot]; exact trivial
  | k + 1 => by
    have ih := noUb hG k
    refine ⟨?_, ?_, ?_, ?_, ?_, ?_⟩
    · intro base n c s hc hs
      cases c with
      | skip | emit | local_ | error | grow => rw [ex]; exact hs
      | capture i => rw [ex]; exact find_PL hs fun i f h => nomatch h
      | defer p b => rw [ex]; exact find_PL hs fun i f h => by cases h; exact hc
      | seq a b =>
        simp only [C.plain, Bool.and_eq_true] at hc
        rw [ex]
        refine (ih.ex base n a s hc.1 hs).bind fun ⟨o, n, s⟩ h => ?_
        cases o with
        | norm => exact ih.ex base n b s hc.2 h
        | _ => exact h
      | block cl b => rw [ex]; exact ih.sc base n cl b s hc hs
      | ite ca a cb b =>
        simp only [C.plain, Bool.and_eq_true] at hc
        rw [ex]
        split
        · exact ih.sc base n ca a _ hc.1 hs
        · exact ih.sc base n cb b _ hc.2 hs
      | while_ cl b =>
        rw [ex]
        dsimp only
        split
        · refine (ih.sc base n cl b { s with tick := s.tick + 1 } hc hs).bind fun ⟨o, n, s⟩ h => ?_
          cases o with
          | norm => exact ih.ex base n _ s hc h
          | _ => exact h
        · exact hs
      | repeat_ cl b =>
        rw [ex]
        refine (ih.ex base n b s hc hs).bind fun ⟨o, n', s⟩ h => ?_
        cases o with
        | norm =>
          refine (ih.jm base n' cl { s with tick := s.tick + 1 } h).bind fun ⟨r, s⟩ h => ?_
          cases r with
          | some v => exact h
          | none =>
            dsimp only
            split
            · exact ih.ex base n _ s hc h
            · exact h
        | _ => exact h
      | brk cl =>
        rw [ex]
        refine (ih.jm base n cl s hs).bind fun ⟨r, s⟩ h => ?_
        cases r <;> exact h
      | ret cl =>
        rw [ex]
        refine (ih.jm base n cl s hs).bind fun ⟨r, s⟩ h => ?_
        cases r <;> exact h
      | tail op cl f =>
        rw [ex]
        split
        · refine (ih.fn base (G f) { s with opn := drop base cl s.opn } (hG f) (drop_PL hs)).bind fun ⟨r, s⟩ h => ?_
          cases r <;> exact h
        · refine (ih.fn (base + n + 1) (G f) s (hG f) hs).bind fun ⟨r, s⟩ h => ?_
          cases r with
          | some v => exact h
          | none =>
            refine (ih.jm base n cl s h).bind fun ⟨r, s⟩ h => ?_
            cases r <;> exact h
      | call f =>
        rw [ex]
        refine (ih.fn (base + n + 1) (G f) s (hG f) hs).bind fun ⟨r, s⟩ h => ?_
        cases r <;> exact h
      | pcall f =>
        rw [ex, if_neg (fun e => nomatch e)]
        refine (ih.pr (base + n + 1) (base + n + 2) (G f) s (hG f) hs).bind fun ⟨r, s⟩ h => ?_
        cases r <;> exact h
      | resume f => exact nomatch hc
      | wrap f => exact nomatch hc
    · intro base n cl c s hc hs
      rw [scope]
      refine (ih.ex base n c s hc hs).bind fun ⟨o, n', s⟩ h => ?_
      cases o with
      | norm =>
        refine (ih.jm base n' cl s h).bind fun ⟨r, s⟩ h => ?_
        cases r <;> exact h
      | _ => exact h
    · intro base n cl s hs
      cases cl with
      | none => rw [jmp]; exact hs
      | some l => rw [jmp]; exact ih.cl _ _ _ s hs
    · intro level top st s hs
      rw [close]
      cases hL : s.opn with
      | nil => exact hs
      | cons e es =>
        rw [hL] at hs
        have hs' : PL s.opn := by rw [hL]; exact hs
        dsimp only
        split
        · cases hd : e.d with
          | none => exact ih.cl _ _ _ _ hs.tail
          | some q =>
            obtain ⟨i, f⟩ := q
            have hf := hs e List.mem_cons_self i f hd
            cases st with
            | ok =>
              refine (ih.fn (top + 1) f { s.see (.run i none) with opn := es } hf hs.tail).bind fun ⟨r, s⟩ h => ?_
              cases r with
              | some v => exact h
              | none => exact ih.cl _ _ _ s h
            | code v => exact (ih.pr (e.lvl + 2) (e.lvl + 3) f { s.see (.run i (some v)) with opn := es } hf hs.tail).bind fun ⟨r, s⟩ h => ih.cl _ _ _ s h
            | protect =>
              refine (ih.pr (e.lvl + 2) (e.lvl + 3) f { s.see (.run i none) with opn := es } hf hs.tail).bind fun ⟨r, s⟩ h => ?_
              cases r <;> exact ih.cl _ _ _ s h
        · exact hs'
    · intro base f s hf hs
      rw [fn]
      refine (ih.ex base 0 f.code s hf hs).bind fun ⟨o, n, s⟩ h => ?_
      cases o with
      | err v => exact h
      | ret => exact h
      | norm => exact ih.jm _ _ _ s h
      | brk => exact ih.jm _ _ _ s h
    · intro oldtop base f s hf hs
      rw [prot]
      refine (ih.fn base f s hf hs).bind fun ⟨r, s⟩ h => ?_
      cases r with
      | none => exact h
      | some v => exact (ih.cl oldtop oldtop (.code v) s h).bind fun ⟨_, s⟩ h => h

/-- A program that makes no coroutines never writes through a pointer into a stack that has moved. -/
theorem defined_partial (hG : ∀ f, compFun (F f) = some (G f)) (hF : ∀ f, (F f).plain = true) (k f : Nat) : main W G k f ≠ .ub := by
  have hG' : ∀ f, (G f).code.plain = true := fun f => by
    have h := hG f
    unfold compFun at h
    obtain ⟨c, hc, hf⟩ := Option.map_eq_some_iff.1 h
    rw [← hf]
    exact comp_plain (hF f) hc
  have := (noUb (W := W) hG' k).pr 0 1 (G f) ⟨[], 0, 0, 0, []⟩ (hG' f) (fun e he => nomatch he)
  intro e
  unfold main at e
  rw [e] at this
  exact this

/-! ## What goes wrong in coroutines -/

/-- A table of functions. -/
def table (l : List S) : Nat → S := fun i => l.getD i .skip

/-- Their code. -/
def code (l : List S) : Nat → Fn := fun i => (l.map fun b => (compFun b).getD ⟨false, .skip⟩).getD i ⟨false, .skip⟩

theorem code_table {l : List S} (h : ∀ b ∈ l, (compFun b).isSome = true) (f : Nat) : compFun (table l f) = some (code l f) := by
  unfold table code
  rw [List.getD_eq_getElem?_getD, List.getD_eq_getElem?_getD, List.getElem?_map]
  cases hl : l[f]? with
  | none => rfl
  | some b =>
    obtain ⟨c, hc⟩ := Option.isSome_iff_exists.1 (h b (List.mem_of_getElem? hl))
    simp [hc]

/-- `coroutine.wrap(function() pcall(function() defer … end error(1) end) end)()`, where the deferred function makes the stack grow. -/
def dangling : List S := [.wrap 1, .pcall 2, .seq (.defer .grow) (.error 1)]

/-- In a coroutine `pcall` relies on `recover`, ldo.c:687-706, that stores the error object through a pointer it has computed before the deferred functions were called. When one of them
makes the stack grow the pointer is dangling. -/
theorem recover_dangling : main (fun _ => true) (code dangling) 30 0 = .ub := by decide +kernel

/-- The same program without the coroutine is defined, and calls the function. -/
theorem main_defined : ∃ s, main (fun _ => true) (code [.skip, .pcall 2, .seq (.defer .grow) (.error 1)]) 30 1 = .ok (none, s) ∧ s.tr = [.reg 0, .run 0 (some 1), .caught 1] :=
  ⟨⟨[], 1, 0, 1, [.reg 0, .run 0 (some 1), .caught 1]⟩, by decide +kernel, rfl⟩

/-- `coroutine.resume(coroutine.create(function() defer … end error(1) end))` -/
def lost : List S := [.resume 1, .seq (.defer (.emit 7)) (.error 1)]

/-- The functions deferred in a coroutine that dies by an error are never called when it was started by `coroutine.resume`. -/
theorem resume_loses : ∃ s, main (fun _ => true) (code lost) 30 0 = .ok (none, s) ∧ s.tr = [.reg 0, .died 1] ∧ calls 0 s.tr = 0 :=
  ⟨⟨[], 0, 0, 1, [.reg 0, .died 1]⟩, by decide +kernel, rfl, by decide⟩

/-- `coroutine.wrap` does call them. -/
theorem wrap_calls : ∃ s, main (fun _ => true) (code [.wrap 1, .seq (.defer (.emit 7)) (.error 1)]) 30 0 = .ok (some 1, s) ∧ s.tr = [.reg 0, .run 0 none, .emit 7] :=
  ⟨⟨[], 0, 0, 1, [.reg 0, .run 0 none, .emit 7]⟩, by decide +kernel, rfl⟩

/-! ## Examples -/

/-- Two loops, an error in a deferred function while another is pending, and a tail call from a function that defers. -/
def sample : List S :=
  [.seq (.pcall 1) (.seq (.defer (.emit 9)) (.tail 2)),
   .seq .local_ (.seq (.defer (.emit 1)) (.seq (.while_ (.seq (.defer (.emit 2)) (.seq (.capture 0) (.ite .brk .skip)))) (.block (.seq (.defer (.emit 3)) (.seq (.defer (.error 5)) (.emit 4)))))),
   .repeat_ (.seq (.defer (.emit 6)) .ret)]

example : ∀ b ∈ sample, (compFun b).isSome = true := by decide
example : ∀ f, (table sample f).plain = true := fun f => by
  unfold table sample
  match f with
  | 0 | 1 | 2 => rfl
  | f + 3 => rfl
example : ∃ s, main (fun i => i = 0 ∨ i = 2 ∨ i = 3) (code sample) 60 0 = .ok (none, s) ∧
    s.tr = [.reg 0, .reg 1, .run 1 none, .emit 2, .reg 2, .run 2 none, .emit 2, .reg 3, .reg 4, .emit 4, .run 4 none, .run 3 (some 5), .emit 3, .run 0 (some 5), .emit 1, .caught 5,
      .reg 5, .reg 6, .run 6 none, .emit 6, .run 5 none, .emit 9] :=
  ⟨⟨[], 0, 4, 7, _⟩, by decide +kernel, rfl⟩

/-- When a block ends normally, everything deferred in it has been called. -/
theorem block_done {b : S} {x x' : X} {ds : Pend} (h : Sem W F (.st (.block b)) x (.out .norm ds) x') : ds = [] := by
  rcases tbc_none h _ false rfl rfl with h | h
  · cases h; rfl
  · exact absurd rfl (h ds)

end Verif.Defer
