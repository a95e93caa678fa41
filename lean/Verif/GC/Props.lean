import Verif.GC.GarbageRun

/-!
# C44: the collector does not free objects in use
-/
namespace Verif.GC

/-- In every state that a program and the collector can get to, in whatever order their steps happen, everything the program can get
at — through strong and weak references, stack slots and upvalues — is an object that was not freed; no operation and no collector
step has looked at a freed object, and no assertion of the collector has failed. One store is excluded (`Missed`):
`weak_metatable_freed` shows what it does. -/
theorem accessible_not_freed_partial {s : G} (h : Reachable s) : s.bad = false ∧ ∀ i, Acc s i → (s.obj i).isSome :=
  ⟨(reachable_inv h).1.core.bad, fun _ hi => ((reachable_inv h).1.core.acc hi).1⟩

/-- A step of the collector changes nothing that the program can reach through strong references: the objects are still there, can
still be reached, and have the same contents. What it may change is listed in `Unchanged`: entries of weak tables, entries without a
value, stack slots above the top. -/
theorem collector_keeps_strong_partial {s s' : G} (h : Reachable s) (hc : Collect s s') :
    (∀ i, SReach s i → SReach s' i ∧ ∃ o o', s.obj i = some o ∧ s'.obj i = some o' ∧ Unchanged s i o o') ∧
    ∀ u v, UpIs s u v → UpIs s' u v :=
  (collect_skeep (reachable_inv h).1 hc).kept (reachable_inv h).1.core

/-- steps of the collector one after another -/
inductive Collects : G → G → Prop
  | refl (s) : Collects s s
  | step {a b c} : Collects a b → Collect b c → Collects a c

/-- However many steps the collector makes, an object that the program can reach through strong references is not freed. -/
theorem strong_not_freed_partial {s s' : G} (h : Reachable s) (hc : Collects s s') {i : Id} (hi : SReach s i) : (s'.obj i).isSome := by
  have : Reachable s' ∧ SReach s' i := by
    induction hc with
    | refl => exact ⟨h, hi⟩
    | @step b c _ h1 ih =>
      refine ⟨.step ih.1 ?_, ((collector_keeps_strong_partial ih.1 h1).1 i ih.2).1⟩
      cases h1 with
      | gc n ho => exact .gc n ho
      | sweep hk => exact .sweep hk
      | hurry hp => exact .hurry hp
  exact (accessible_not_freed_partial this.1).2 i this.2.acc

/-- Garbage is freed: an object that no root, no object with a finalizer and no open upvalue leads to when a cycle begins has been freed when
the cycle's sweep of objects is over, whatever the program does in between. -/
theorem garbage_freed_partial {s s' : G} {i : Id} (h : Reachable s) (hi : (s.obj i).isSome) (hh : ¬ Held s i) (hc : CycleRun i s s')
    (hp : s'.phase = .swpfinobj ∨ s'.phase = .swptobefnz ∨ s'.phase = .swpend ∨ s'.phase = .callfin) : s'.obj i = none := by
  rcases cycle_frees h hi hh hc with h1 | h1 | h1
  · exact h1
  · rcases hp with hp | hp | hp | hp <;> simp [G.keepinvariant, hp] at h1
  · rcases hp with hp | hp | hp | hp <;> rw [hp] at h1 <;> cases h1

/-! ## A run -/

namespace Demo

/-- a new state: the main thread with four stack slots and a fixed string -/
def s0 : G where
  obj i := if i = 0 then some { kind := .thread, vals := List.replicate 4 .nil } else if i = 9 then some { kind := .str } else none
  col i := if i = 9 then .gray else .white false
  age _ := .new
  fin _ := false
  up _ := .closed .nil
  phase := .pause
  white := false
  allgc := [0]
  finobj := []
  tobefnz := []
  fixedgc := [9]
  sweepgc := .null
  gray := []
  grayagain := []
  weak := []
  allweak := []
  ephemeron := []
  twups := []
  main := 0
  running := 0
  registry := .nil
  mts := []
  strcache := []
  bad := false
  oof := false

theorem init : Init s0 where
  allgc := rfl
  finobj := rfl
  tobefnz := rfl
  nodup := by decide
  mainObj := ⟨4, rfl⟩
  fixedObj := by
    intro i hi
    have : i = 9 := by simpa [s0] using hi
    subst this
    exact ⟨rfl, rfl⟩
  others := by
    intro i h1 h2
    have h1 : i ≠ 0 := h1
    have h2 : i ≠ 9 := by simpa [s0] using h2
    simp [s0, h1, h2]
  mainCol := rfl
  fin := rfl
  up := fun _ _ _ _ h => nomatch h
  phase := rfl
  sweepgc := rfl
  twups := rfl
  running := rfl
  registry := rfl
  mts := rfl
  strcache := rfl
  bad := rfl
  oof := rfl

/-- a table, a metatable with `__mode = "kv"` for it, and four steps of the collector, the last of which visits the table -/
def s1 : G := exec 9 s0 (.new .table 1)
def s2 : G := exec 9 s1 (.new .table 2)
def s3 : G := exec 9 s2 (.setmode 2 true true)
def s4 : G := exec 9 s3 (.setmt 1 (some 2) false)
def s5 : G := singlestep 9 s4
def s6 : G := singlestep 9 s5
def s7 : G := singlestep 9 s6
def s8 : G := singlestep 9 s7
/-- a new metatable, which is on the stack for a while -/
def s9 : G := exec 9 s8 (.new .table 3)
def s10 : G := exec 9 s9 (.setmt 1 (some 3) false)
def s11 : G := exec 9 s10 (.settop 0 2)
/-- the rest of the cycle -/
def s12 : G := singlestep 9 s11
def s13 : G := singlestep 9 s12
def s14 : G := singlestep 9 s13

theorem acc0 {s : G} (h : s.main = 0) : Acc s 0 := .root (h ▸ .main)

theorem acc {s : G} {i : Id} {vs : List Val} (h : s.main = 0) (ho : (s.obj 0).map Obj.vals = some vs) (hi : .ref i ∈ vs) : Acc s i := by
  cases e : s.obj 0 with
  | none => rw [e] at ho; cases ho
  | some o =>
    rw [e] at ho
    cases ho
    exact .step (acc0 h) e (.val hi)

theorem reach9 : Reachable s9 := by
  have r0 : Reachable s0 := .init init
  have r1 : Reachable s1 := .step r0 (.op 9 (.new .table 1) rfl (fun h => h) rfl)
  have r2 : Reachable s2 := .step r1 (.op 9 (.new .table 2) rfl (fun h => h) rfl)
  have r3 : Reachable s3 := .step r2 (.op 9 (.setmode 2 true true)
    ⟨acc (vs := [.ref 1, .ref 2, .nil, .nil]) rfl rfl (by simp), _, rfl, rfl⟩ (fun h => h) rfl)
  have r4 : Reachable s4 := .step r3 (.op 9 (.setmt 1 (some 2) false)
    ⟨acc (vs := [.ref 1, .ref 2, .nil, .nil]) rfl rfl (by simp), ⟨_, rfl, .inl rfl⟩, fun m hm => by
      cases hm; exact ⟨acc (vs := [.ref 1, .ref 2, .nil, .nil]) rfl rfl (by simp), _, rfl, rfl⟩⟩
    (fun h => absurd h.1 (by decide +kernel)) rfl)
  have r5 : Reachable s5 := .step r4 (.gc 9 rfl)
  have r6 : Reachable s6 := .step r5 (.gc 9 rfl)
  have r7 : Reachable s7 := .step r6 (.gc 9 rfl)
  have r8 : Reachable s8 := .step r7 (.gc 9 rfl)
  exact .step r8 (.op 9 (.new .table 3) rfl (fun h => h) rfl)

/-- in a state in the middle of a cycle, the metatable is reached through the stack and the table -/
example : Reachable s9 ∧ s9.keepinvariant = true ∧ SReach s9 2 ∧ Collect s9 (singlestep 9 s9) := by
  refine ⟨reach9, rfl, ?_, .gc 9 rfl⟩
  have h1 : SReach s9 0 := .root (show SRoot s9 s9.main from .main)
  have h2 : SReach s9 1 := .step h1 rfl (.stack rfl (by decide +kernel))
  exact .step h2 rfl (.mt (.inl rfl) rfl)

end Demo

/-- A metatable that is in use is freed: a table whose keys and values are weak has been visited by the collector, and stays gray; then
it gets a new metatable. The barrier of `lua_setmetatable` (lapi.c:1195) does nothing, because the table is not black, and the table is
not visited again, so that the metatable is not marked. -/
theorem weak_metatable_freed : ∃ s a s1 s2 s3 s4, Reachable s ∧ Valid s a ∧ Missed s a ∧ s1 = exec 9 s a ∧
    (∃ b, Valid s1 b ∧ ¬ Missed s1 b ∧ s2 = exec 9 s1 b) ∧ s3 = singlestep 9 (singlestep 9 s2) ∧ s4 = singlestep 9 s3 ∧
    s1.oof = false ∧ s2.oof = false ∧ s3.oof = false ∧ s4.oof = false ∧
    ∃ t o m, Acc s4 t ∧ s4.obj t = some o ∧ o.mt = some m ∧ s4.obj m = none := by
  refine ⟨Demo.s9, .setmt 1 (some 3) false, Demo.s10, Demo.s11, Demo.s13, Demo.s14, Demo.reach9,
    ⟨Demo.acc (vs := [.ref 1, .ref 2, .ref 3, .nil]) rfl rfl (by simp), ⟨_, rfl, .inl rfl⟩, fun m hm => ?_⟩, ⟨rfl, by decide +kernel⟩, rfl,
    ⟨.settop 0 2, ⟨Demo.acc0 rfl, _, rfl, rfl, by decide +kernel⟩, fun h => h, rfl⟩, rfl, rfl, rfl, rfl, rfl, rfl, 1, _, 3,
    Demo.acc (vs := [.ref 1, .ref 2, .nil, .nil]) rfl rfl (by simp), rfl, rfl, rfl⟩
  cases hm
  exact ⟨Demo.acc (vs := [.ref 1, .ref 2, .ref 3, .nil]) rfl rfl (by simp), _, rfl, rfl⟩

namespace Demo

/-- steps of the collector -/
def gcs : Nat → G → G
  | 0, s => s
  | k + 1, s => gcs k (singlestep 9 s)

theorem gcs_cycle {i : Id} {s : G} : ∀ (k : Nat) (s1 : G), CycleRun i s s1 → (∀ j < k, (gcs j s1).phase ≠ .callfin ∧ (gcs (j + 1) s1).oof = false) →
    CycleRun i s (gcs k s1) := by
  intro k
  induction k with
  | zero => exact fun _ h _ => h
  | succ k ih =>
    intro s1 h hj
    refine ih _ (.gc 9 h (hj 0 (by omega)).1 (hj 0 (by omega)).2) fun j hlt => hj (j + 1) (by omega)

/-- two tables, one the metatable of the other, which the program forgets -/
def g1 : G := exec 9 (exec 9 s0 (.new .table 1)) (.new .table 2)
def g2 : G := exec 9 g1 (.setmt 1 (some 2) false)
def g3 : G := exec 9 (exec 9 g2 (.setstack 0 0 .nil)) (.setstack 0 1 .nil)
/-- a cycle starts, and the program makes a new table -/
def g4 : G := exec 9 (singlestep 9 g3) (.new .table 3)

theorem reachg3 : Reachable g3 := by
  have r0 : Reachable s0 := .init init
  have r1 := Reachable.step r0 (.op 9 (.new .table 1) rfl (fun h => h) rfl)
  have r2 : Reachable g1 := .step r1 (.op 9 (.new .table 2) rfl (fun h => h) rfl)
  have r3 : Reachable g2 := .step r2 (.op 9 (.setmt 1 (some 2) false)
    ⟨acc (vs := [.ref 1, .ref 2, .nil, .nil]) rfl rfl (by simp), ⟨_, rfl, .inl rfl⟩, fun m hm => by
      cases hm; exact ⟨acc (vs := [.ref 1, .ref 2, .nil, .nil]) rfl rfl (by simp), _, rfl, rfl⟩⟩
    (fun h => absurd h.1 (by decide +kernel)) rfl)
  have r4 := Reachable.step r3 (.op 9 (.setstack 0 0 .nil) ⟨⟨acc0 rfl, _, rfl, rfl⟩, fun r hr => by cases hr⟩ (fun h => h) rfl)
  exact .step r4 (.op 9 (.setstack 0 1 .nil) ⟨⟨acc0 rfl, _, rfl, rfl⟩, fun r hr => by cases hr⟩ (fun h => h) rfl)

theorem heldg3 {j : Id} (h : Held g3 j) : j = 0 ∨ j = 9 := by
  induction h with
  | root h =>
    cases h with
    | main => exact .inl rfl
    | running => exact .inl rfl
    | registry h => cases h
    | mts h => cases h
    | strcache h => cases h
    | fixed h => exact .inr (List.mem_singleton.mp h)
  | fin h => rcases h with h | h <;> cases h
  | up h _ _ _ => cases h
  | step _ ho hr ih =>
    rcases ih with rfl | rfl
    · cases ho
      cases hr with
      | mt h => cases h
      | val h =>
        have h : Val.ref _ ∈ ([.nil, .nil, .nil, .nil] : List Val) := h
        simp at h
      | key h _ => cases h
      | nval h _ => cases h
      | up h _ => cases h
      | cache h => cases h
    · cases ho
      cases hr with
      | mt h => cases h
      | val h => cases h
      | key h _ => cases h
      | nval h _ => cases h
      | up h _ => cases h
      | cache h => cases h

/-- both are there when the cycle starts, nothing leads to them, and the cycle goes on to its end with an operation of the program in it;
the new table stays -/
example : Reachable g3 ∧ (g3.obj 2).isSome ∧ ¬ Held g3 2 ∧ CycleRun 2 g3 (gcs 11 g4) ∧ (gcs 11 g4).phase = .callfin ∧
    ((gcs 11 g4).obj 1 = none ∧ (gcs 11 g4).obj 2 = none) ∧ ((gcs 11 g4).obj 3).isSome := by
  refine ⟨reachg3, rfl, fun h => (by rcases heldg3 h with h | h <;> cases h), ?_, by decide +kernel, ⟨by decide +kernel, by decide +kernel⟩, by decide +kernel⟩
  have c1 : CycleRun 2 g3 (singlestep 9 g3) := .start 9 rfl rfl
  have c2 : CycleRun 2 g3 g4 := .op 9 (.new .table 3) c1 (by decide +kernel) rfl (fun h => h) (by simp) (by simp) rfl
  exact gcs_cycle 11 g4 c2 (by decide +kernel)

/-- a thread with a table in its stack, which is captured as an upvalue; then the program forgets the thread and the table -/
def k1 : G := exec 9 (exec 9 (exec 9 s0 (.new .thread 1)) (.growstack 1 2)) (.new .table 2)
def k2 : G := exec 9 (exec 9 k1 (.setstack 1 0 (.ref 2))) (.capture 1 0 5)
def k3 : G := exec 9 (exec 9 k2 (.setstack 0 0 .nil)) (.setstack 0 1 .nil)

theorem reachk3 : Reachable k3 := by
  have r0 : Reachable s0 := .init init
  have r1 := Reachable.step r0 (.op 9 (.new .thread 1) rfl (fun h => h) rfl)
  have r2 := Reachable.step r1 (.op 9 (.growstack 1 2) ⟨acc (vs := [.ref 1, .nil, .nil, .nil]) rfl rfl (by simp), _, rfl, rfl⟩ (fun h => h) rfl)
  have r3 : Reachable k1 := .step r2 (.op 9 (.new .table 2) rfl (fun h => h) rfl)
  have r4 := Reachable.step r3 (.op 9 (.setstack 1 0 (.ref 2)) ⟨⟨acc (vs := [.ref 1, .ref 2, .nil, .nil]) rfl rfl (by simp), _, rfl, rfl⟩,
    fun r hr => by cases hr; exact acc (vs := [.ref 1, .ref 2, .nil, .nil]) rfl rfl (by simp)⟩ (fun h => h) rfl)
  have fr : FreshUp (exec 9 k1 (.setstack 1 0 (.ref 2))) 5 := by
    refine ⟨fun i o ho hu => ?_, fun th slot t h => by cases h⟩
    by_cases h0 : i = 0
    · subst h0; cases ho; cases hu
    · by_cases h1 : i = 1
      · subst h1; cases ho; cases hu
      · by_cases h2 : i = 2
        · subst h2; cases ho; cases hu
        · by_cases h9 : i = 9
          · subst h9; cases ho; cases hu
          · have : (exec 9 k1 (.setstack 1 0 (.ref 2))).obj i = none := by
              simp [exec, k1, modify, push, newObj, G.setObj, G.setCol, G.setAge, G.setFin, s0, h0, h1, h2, h9]
            rw [this] at ho; cases ho
  have r5 : Reachable k2 := .step r4 (.op 9 (.capture 1 0 5) ⟨fr, acc (vs := [.ref 1, .ref 2, .nil, .nil]) rfl rfl (by simp), _, rfl, rfl, by decide +kernel⟩ (fun h => h) rfl)
  have r6 := Reachable.step r5 (.op 9 (.setstack 0 0 .nil) ⟨⟨acc0 rfl, _, rfl, rfl⟩, fun r hr => by cases hr⟩ (fun h => h) rfl)
  exact .step r6 (.op 9 (.setstack 0 1 .nil) ⟨⟨acc0 rfl, _, rfl, rfl⟩, fun r hr => by cases hr⟩ (fun h => h) rfl)

theorem acck3 {j : Id} (h : Acc k3 j) : j = 0 ∨ j = 9 := by
  induction h with
  | root h =>
    cases h with
    | main => exact .inl rfl
    | running => exact .inl rfl
    | registry h => cases h
    | mts h => cases h
    | strcache h => cases h
    | fixed h => exact .inr (List.mem_singleton.mp h)
  | step _ ho hr ih =>
    rcases ih with rfl | rfl
    · cases ho
      cases hr with
      | mt h => cases h
      | val h =>
        have h : Val.ref _ ∈ ([.nil, .nil, .nil, .nil] : List Val) := h
        simp at h
      | key h _ => cases h
      | nval h _ => cases h
      | up h _ => cases h
      | cache h => cases h
    · cases ho
      cases hr with
      | mt h => cases h
      | val h => cases h
      | key h _ => cases h
      | nval h _ => cases h
      | up h _ => cases h
      | cache h => cases h

end Demo

/-- An object that cannot be reached when a cycle begins is not freed by that cycle: it is the value of an open upvalue of a thread that cannot be
reached either. `remarkupvals` (lgc.c:455-481) marks it. There are no objects with finalizers, and the program does nothing meanwhile. -/
theorem garbage_kept : ∃ s s' i, Reachable s ∧ (s.obj i).isSome ∧ ¬ Acc s i ∧ s.finobj = [] ∧ s.tobefnz = [] ∧ CycleRun i s s' ∧
    s'.phase = .callfin ∧ (s'.obj i).isSome := by
  refine ⟨Demo.k3, Demo.gcs 10 (singlestep 9 Demo.k3), 2, Demo.reachk3, rfl, fun h => (by rcases Demo.acck3 h with h | h <;> cases h), rfl, rfl,
    Demo.gcs_cycle 10 _ (.start 9 rfl rfl) (by decide +kernel), by decide +kernel, by decide +kernel⟩

end Verif.GC
