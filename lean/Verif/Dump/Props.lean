import Verif.Dump.Stream

/-!
Property C31: dumping a function and loading the result gives the same function; a strict prefix of
a dump is rejected.
-/
namespace Verif.Dump

/-- `mode` allows binary chunks -/
def Binary (mode : Option (List Byte)) : Prop := ∀ m, mode = some m → 0x62 ∈ m

theorem checkmode_binary {mode : Option (List Byte)} (h : Binary mode) :
    checkmode mode 0x62 = .ok () := by
  cases mode with
  | none => rfl
  | some m => simp only [checkmode]; rw [if_pos (h m rfl)]

/-! ## A sample function -/

/-- a chunk with an upvalue, constants of all types (a string of 300 bytes among them) and an inner
function with typed variables -/
def sampleInner : Proto := .mk
  { source := some [0x40, 0x61], linedefined := 1, lastlinedefined := 3, numparams := 2,
    is_vararg := 0, maxstacksize := 5, code := [0x01800026#32], k := [.int (-1), .nil],
    upvalues := [⟨1, 0, some [0x78], 1#32 <<< 3, none⟩, ⟨0, 0, some [0x5f], TM_ANY, none⟩],
    lineinfo := [2],
    locvars := [⟨some [0x61], 0, 7, 1#32 <<< 4, none⟩,
      ⟨some [0x62], 0, 7, (1#32 <<< 10) ||| (1#32 <<< 0), some [0x4d, 0x79]⟩,
      ⟨some [0x63], 2, 7, TM_ANY, none⟩] } []

def sampleFields : Fields :=
  { source := some [0x40, 0x61], linedefined := 0, lastlinedefined := 0, numparams := 0,
    is_vararg := 1, maxstacksize := 2, code := [0x2c#32, 0x01000024#32, 0x00800026#32],
    k := [.str (List.replicate 300 0x61), .bool 1, .flt 0x3ff0000000000000, .str []],
    upvalues := [⟨1, 0, some [0x5f, 0x45, 0x4e, 0x56], TM_ANY, none⟩], lineinfo := [1, 3, 3],
    locvars := [⟨some [0x78], 1, 3, 1#32 <<< 3, none⟩] }

theorem sample_ok (strip : Bool) : Ok strip none (.mk sampleFields [sampleInner]) := by
  have so : ∀ x : Str, x.length < 1000 → StrOk (some x) := by
    intro x hx y hy
    simp only [Option.some.injEq] at hy
    subst hy
    omega
  have sn : StrOk none := fun _ h => nomatch h
  refine .mk ⟨by decide, by decide, by decide, by decide, by decide, so _ (by decide), ?_, ?_, ?_⟩
    ?_ ?_ (by decide) ?_
  · intro s hs
    simp only [sampleFields, List.mem_cons, K.str.injEq, reduceCtorEq, List.not_mem_nil, or_false,
      false_or, -List.reduceReplicate] at hs
    rcases hs with rfl | rfl
    · rw [List.length_replicate]; decide
    · decide
  · simp only [sampleFields, List.mem_cons, List.not_mem_nil, or_false, forall_eq]
    exact ⟨so _ (by decide), sn⟩
  · simp only [sampleFields, List.mem_cons, List.not_mem_nil, or_false, forall_eq]
    exact ⟨so _ (by decide), sn⟩
  · intro _
    simp only [sampleFields, List.mem_cons, List.not_mem_nil, or_false, forall_eq, implies_true]
  · intro _ h
    exact nomatch h
  · simp only [List.mem_cons, List.not_mem_nil, or_false, forall_eq]
    refine .mk ⟨by decide, by decide, by decide, by decide, by decide, so _ (by decide), ?_, ?_, ?_⟩
      ?_ ?_ (by decide) ?_
    · intro s hs
      simp at hs
    · simp only [List.mem_cons, List.not_mem_nil, or_false, forall_eq_or_imp, forall_eq]
      exact ⟨⟨so _ (by decide), sn⟩, ⟨so _ (by decide), sn⟩⟩
    · simp only [List.mem_cons, List.not_mem_nil, or_false, forall_eq_or_imp, forall_eq]
      exact ⟨⟨so _ (by decide), sn⟩, ⟨so _ (by decide), so _ (by decide)⟩, ⟨so _ (by decide), sn⟩⟩
    · intro _
      simp
    · intro _ h
      exact nomatch h
    · intro p hp
      simp at hp

/-- comparison of string pointers that are equal only if both are NULL -/
def nullSame : Option Str → Option Str → Bool
  | none, none => true
  | _, _ => false

theorem nullSame_eq (a b : Option Str) (h : nullSame a b = true) : a = b := by
  cases a <;> cases b <;> first | rfl | exact nomatch h

/-! ## Round trip -/

/-- loading a dump gives the function that was dumped, without what stripping removes; the closure
has as many upvalues as the function.  What follows the dump does not matter. -/
theorem load_dump {same : Option Str → Option Str → Bool}
    (hsame : ∀ a b, same a b = true → a = b) (strip : Bool) {f : Fields} {ps : List Proto}
    (h : Ok strip none (.mk f ps)) {mode : Option (List Byte)} (hm : Binary mode)
    (junk : List Byte) :
    load mode (bytes same strip (.mk f ps) ++ junk) =
      .ok (.binary (UInt8.ofNat f.upvalues.length) (kept strip (.mk f ps))) := by
  obtain ⟨N, body, hb, hr⟩ := runs_undump hsame strip h
  rw [hb, List.cons_append]
  have hrun := hr (max N ((body ++ junk).length + 1)) (by omega) junk
  rw [undump_fuel _ ((body ++ junk).length + 1) _ (by omega) (by omega)] at hrun
  simp only [load, if_true]
  rw [checkmode_binary hm, Res.bind_ok, hrun]
  rfl

/-- without stripping, loading a dump gives the very function that was dumped, and the closure made
for it has its number of upvalues -/
theorem load_dump_same {same : Option Str → Option Str → Bool}
    (hsame : ∀ a b, same a b = true → a = b) {f : Fields} {ps : List Proto}
    (h : Ok false none (.mk f ps)) (hu : f.upvalues.length ≤ 255) {mode : Option (List Byte)}
    (hm : Binary mode) (junk : List Byte) :
    ∃ n : Byte, n.toNat = f.upvalues.length ∧
      load mode (bytes same false (.mk f ps) ++ junk) = .ok (.binary n (.mk f ps)) := by
  refine ⟨UInt8.ofNat f.upvalues.length, ?_, ?_⟩
  · rw [UInt8.toNat_ofNat']; omega
  · rw [load_dump hsame false h hm junk, kept_false]

example : ∃ n : Byte, n.toNat = 1 ∧
    load (some [0x62]) (bytes nullSame false (.mk sampleFields [sampleInner]) ++ [7]) =
      .ok (.binary n (.mk sampleFields [sampleInner])) :=
  load_dump_same nullSame_eq (sample_ok false) (by decide)
    (fun m h => by simp only [Option.some.injEq] at h; subst h; simp) _

/-- different functions have different dumps, and no dump is the beginning of the dump of another
function -/
theorem dump_injective {same same' : Option Str → Option Str → Bool}
    (hs : ∀ a b, same a b = true → a = b) (hs' : ∀ a b, same' a b = true → a = b)
    {f g : Fields} {ps qs : List Proto} (hf : Ok false none (.mk f ps))
    (hg : Ok false none (.mk g qs)) {junk : List Byte}
    (h : bytes same false (.mk f ps) ++ junk = bytes same' false (.mk g qs)) :
    f = g ∧ ps = qs := by
  have hm : Binary none := fun _ h => nomatch h
  have h1 := load_dump hs false hf hm junk
  have h2 := load_dump hs' false hg hm []
  rw [List.append_nil, ← h, h1] at h2
  simp only [Res.ok.injEq, Loaded.binary.injEq, kept_false, Proto.mk.injEq] at h2
  exact h2.2

/-- a dump written in pieces (`lua_load` with any reader) is loaded like the whole string: the
reader may cut it anywhere -/
theorem loadZ_load (mode : Option (List Byte)) (pieces : List (List Byte)) (fuel : Nat)
    (h : (delivered pieces).length < fuel) :
    loadZ fuel mode ⟨[], pieces, false⟩ = load mode (delivered pieces) := by
  have key : ∀ (c : Byte) (buf : List Byte) (rest : List (List Byte)),
      (unread buf rest).length < fuel →
      (if some c = some (0x1b : Byte) then do
          checkmode mode 0x62
          let (r, _) ← (luaU_undump fuel).runZ ⟨buf, rest, false⟩
          return Loaded.binary r.1 r.2
        else do
          checkmode mode 0x74
          return Loaded.text) = load mode (c :: unread buf rest) := by
    intro c buf rest hl
    simp only [load, Option.some.injEq]
    split
    · congr 1
      funext _
      rw [undump_fuel ((unread buf rest).length + 1) fuel _ (by omega) hl,
        ← runZ_run (luaU_undump fuel) buf rest]
      cases (luaU_undump fuel).runZ ⟨buf, rest, false⟩ with
      | ok x => rfl
      | err m => rfl
      | ub => rfl
    · rfl
  unfold loadZ zgetc
  cases hf : fill pieces with
  | none =>
    rw [fill_none hf]
    rfl
  | some x =>
    obtain ⟨b, rest⟩ := x
    obtain ⟨-, hne, hd⟩ := fill_some hf
    cases b with
    | nil => exact absurd rfl hne
    | cons c buf =>
      have hl : (unread buf rest).length < fuel := by
        rw [hd] at h
        simp only [unread]
        simp only [List.cons_append, List.length_cons] at h
        omega
      have := key c buf rest hl
      rw [hd]
      exact this

example : delivered [[1, 2], [3], [], [4]] = [1, 2, 3] := by decide

/-! ## Writing -/

/-- a writer that never fails is given the dump, in non-empty blocks -/
theorem write_all {σ : Type} (w : List Byte → σ → σ) (bs : Blocks) (s : σ) :
    write (fun b s => (0, w b s)) bs (0, s) =
      (0, (bs.filter fun b => decide (b ≠ [])).foldl (fun s b => w b s) s) := by
  induction bs generalizing s with
  | nil => rfl
  | cons b bs ih =>
    simp only [write, true_and]
    by_cases hb : b = []
    · subst hb
      simp only [List.length_nil, Nat.lt_irrefl, if_false, ih]
      rfl
    · rw [if_pos (List.length_pos_iff.mpr hb), ih, List.filter_cons, if_pos (by simp [hb])]
      rfl

/-- so `string.dump` collects all bytes of the dump -/
theorem write_collect (bs : Blocks) :
    write (fun b (s : List Byte) => (0, s ++ b)) bs (0, []) = (0, bs.flatten) := by
  rw [write_all (fun b s => s ++ b)]
  have : ∀ s : List Byte, (bs.filter fun b => decide (b ≠ [])).foldl (fun s b => s ++ b) s =
      s ++ bs.flatten := by
    induction bs with
    | nil => simp
    | cons b bs ih =>
      intro s
      by_cases hb : b = []
      · subst hb
        simpa using ih s
      · rw [List.filter_cons, if_pos (by simp [hb])]
        simp only [List.foldl_cons, ih, List.flatten_cons, List.append_assoc]
  rw [this]
  rfl

/-- once the writer has failed it is not called again and its status is the result of `lua_dump` -/
theorem write_fail {σ : Type} (w : List Byte → σ → Nat × σ) (bs : Blocks) (status : Nat) (s : σ)
    (h : status ≠ 0) : write w bs (status, s) = (status, s) := by
  induction bs with
  | nil => rfl
  | cons b bs ih => simp only [write]; rw [if_neg (fun hc => h hc.1), ih]

/-! ## Stripping -/

/-- everything but source, line information, names and trailing untyped local variables survives
stripping; the upvalues keep their places and types -/
theorem strip_fields (f : Fields) :
    (keptFields true f).linedefined = f.linedefined ∧
    (keptFields true f).lastlinedefined = f.lastlinedefined ∧
    (keptFields true f).numparams = f.numparams ∧ (keptFields true f).is_vararg = f.is_vararg ∧
    (keptFields true f).maxstacksize = f.maxstacksize ∧ (keptFields true f).code = f.code ∧
    (keptFields true f).k = f.k ∧
    (keptFields true f).upvalues.map (fun u => (u.instack, u.idx, u.tm, u.usertype)) =
      f.upvalues.map (fun u => (u.instack, u.idx, u.tm, u.usertype)) := by
  refine ⟨rfl, rfl, rfl, rfl, rfl, rfl, rfl, ?_⟩
  simp [keptFields]

/-- the local variables that remain are the first ones, with their ranges and types, and those that
are gone had no type -/
theorem strip_locvars (f : Fields) : ∃ dropped : List LocVar,
    f.locvars.map (fun v => (v.startpc, v.endpc, v.tm, v.usertype)) =
      (keptFields true f).locvars.map (fun v => (v.startpc, v.endpc, v.tm, v.usertype)) ++
      dropped.map (fun v => (v.startpc, v.endpc, v.tm, v.usertype)) ∧
    ∀ v ∈ dropped, v.tm = TM_ANY := by
  refine ⟨f.locvars.drop (numLocvars true f), ?_, ?_⟩
  · rw [← locvars_kept true f]
    conv => lhs; rw [← List.take_append_drop (numLocvars true f) f.locvars]
    rw [List.map_append, List.map_map]
    rfl
  · intro v hv
    obtain ⟨i, hi, rfl⟩ := List.mem_iff_getElem.mp hv
    rw [List.length_drop] at hi
    have hlen : numLocvars true f + i < f.locvars.length := by omega
    have := lastTyped_any (fun i => (f.locvars[i]?.map (·.tm)).getD TM_ANY)
      (n := f.locvars.length) (i := numLocvars true f + i) (by
        simp only [numLocvars, if_true]; omega) hlen
    simp only [List.getElem?_eq_getElem hlen, Option.map_some, Option.getD_some] at this
    rw [List.getElem_drop]
    exact this

theorem getlocalname_append (pc : Int) (a b : List LocVar) (n : Nat)
    (hb : ∀ v ∈ b, v.tm = TM_ANY ∧ v.usertype = none) :
    (getlocalname pc (a ++ b) n).2 = (getlocalname pc a n).2 := by
  induction a generalizing n with
  | nil =>
    induction b generalizing n with
    | nil => rfl
    | cons v b ih =>
      have hv := hb v (by simp)
      have ih := fun n => ih (n := n) fun v h => hb v (by simp [h])
      simp only [List.nil_append, getlocalname] at ih ⊢
      split
      · split
        · split
          · rw [hv.1, hv.2]
          · exact ih _
        · exact ih _
      · rfl
  | cons v a ih =>
    simp only [List.cons_append, getlocalname]
    split
    · split
      · split
        · rfl
        · exact ih _
      · exact ih _
    · rfl

theorem getlocalname_names (pc : Int) (a : List LocVar) (g : LocVar → Option Str) (n : Nat) :
    (getlocalname pc (a.map fun v => { v with varname := g v }) n).2 = (getlocalname pc a n).2 := by
  induction a generalizing n with
  | nil => rfl
  | cons v a ih =>
    simp only [List.map_cons, getlocalname]
    split
    · split
      · split
        · rfl
        · exact ih _
      · exact ih _
    · rfl

/-- `debug.setlocal` checks against the same types before and after stripping: at every instruction,
for every variable number (user types belong to typed variables only) -/
theorem strip_local_types (f : Fields)
    (any : ∀ v ∈ f.locvars, v.tm = TM_ANY → v.usertype = none) (pc : Int) (n : Nat) :
    (getlocalname pc (keptFields true f).locvars n).2 = (getlocalname pc f.locvars n).2 := by
  have hk := locvars_kept true f
  rw [← hk]
  conv => rhs; rw [← List.take_append_drop (numLocvars true f) f.locvars]
  rw [getlocalname_append]
  · exact getlocalname_names pc _ (fun v => if true then none else v.varname) n
  · intro v hv
    obtain ⟨i, hi, rfl⟩ := List.mem_iff_getElem.mp hv
    rw [List.length_drop] at hi
    have hlen : numLocvars true f + i < f.locvars.length := by omega
    have := lastTyped_any (fun i => (f.locvars[i]?.map (·.tm)).getD TM_ANY)
      (n := f.locvars.length) (i := numLocvars true f + i) (by
        simp only [numLocvars, if_true]; omega) hlen
    simp only [List.getElem?_eq_getElem hlen, Option.map_some, Option.getD_some] at this
    rw [List.getElem_drop]
    exact ⟨this, any _ (List.getElem_mem hlen) this⟩

/-- what `debug.getlocal` and `debug.setlocal` look at: the variables are in the order of their
starts, and the `n`-th variable is the `n`-th of those whose range contains the instruction -/
theorem getlocalname_active (pc : Int) (vs : List LocVar) (n : Nat)
    (sorted : vs.Pairwise fun a b => a.startpc.toInt ≤ b.startpc.toInt) :
    getlocalname pc vs (n + 1) =
      match (vs.filter fun v => v.startpc.toInt ≤ pc ∧ pc < v.endpc.toInt)[n]? with
      | some v => (v.varname, v.tm, v.usertype)
      | none => (none, TM_ANY, none) := by
  induction vs generalizing n with
  | nil => simp [getlocalname]
  | cons v vs ih =>
    have ih := fun n => ih n (List.pairwise_cons.mp sorted).2
    have hv := (List.pairwise_cons.mp sorted).1
    rw [getlocalname]
    by_cases h1 : v.startpc.toInt ≤ pc
    · rw [if_pos h1]
      by_cases h2 : pc < v.endpc.toInt
      · rw [if_pos h2, List.filter_cons_of_pos (by simp [h1, h2])]
        cases n with
        | zero => simp
        | succ n => simpa using ih n
      · rw [if_neg h2, List.filter_cons_of_neg (by simp [h2])]
        exact ih n
    · rw [if_neg h1, List.filter_cons_of_neg (by simp [h1])]
      have : (vs.filter fun v => v.startpc.toInt ≤ pc ∧ pc < v.endpc.toInt) = [] := by
        rw [List.filter_eq_nil_iff]
        intro w hw
        have := hv w hw
        simp
        omega
      rw [this]
      simp

example : ([⟨none, 0, 5, 1, none⟩, ⟨none, 1, 3, 2, none⟩, ⟨none, 3, 5, 3, none⟩] : List LocVar).Pairwise
      (fun a b => a.startpc.toInt ≤ b.startpc.toInt) ∧
    (getlocalname 3 [⟨none, 0, 5, 1, none⟩, ⟨none, 1, 3, 2, none⟩, ⟨none, 3, 5, 3, none⟩] 2).2.1 = 3 := by
  decide

/-- `zgetc` takes the first byte of what is left, also from a piece that was already begun -/
theorem zgetc_spec (z : Z) (pieces : ∀ b ∈ z.rest, b ≠ []) :
    match z.buf ++ z.rest.flatten with
    | [] => (zgetc z).1 = none
    | c :: rest => (zgetc z).1 = some c ∧ (zgetc z).2.buf ++ (zgetc z).2.rest.flatten = rest ∧
        (zgetc z).2.bad = z.bad := by
  obtain ⟨buf, rest, bad⟩ := z
  cases buf with
  | cons c buf => simp [zgetc]
  | nil =>
    cases rest with
    | nil => simp [zgetc, fill]
    | cons b rest =>
      cases b with
      | nil => exact absurd rfl (pieces [] (by simp))
      | cons c b => simp [zgetc, fill]

example : (zgetc ⟨[7, 8], [[9]], false⟩).1 = some 7 ∧ (zgetc ⟨[7, 8], [[9]], false⟩).2.buf = [8] := by decide


/-- the third variable of the inner function is dropped, the typed ones are not -/
example : let .mk f _ := sampleInner
    (keptFields true f).locvars.length = 2 ∧ getlocalname 3 (keptFields true f).locvars 2 =
      (none, (1#32 <<< 10) ||| (1#32 <<< 0), some [0x4d, 0x79]) ∧
    getlocalname 3 f.locvars 2 =
      (some [(0x62 : Byte)], (1#32 <<< 10) ||| (1#32 <<< 0), some [0x4d, 0x79]) := by
  simp only [sampleInner]
  decide

theorem dropAny_idem {α : Type} (tm : α → I32) (l : List α) :
    dropAny tm (dropAny tm l) = dropAny tm l := by
  simp only [dropAny, List.reverse_reverse]
  congr 1
  generalize l.reverse = r
  induction r with
  | nil => rfl
  | cons x r ih =>
    rw [List.dropWhile_cons]
    split
    · exact ih
    · rename_i h
      rw [List.dropWhile_cons, if_neg h]

theorem dropAny_map {α : Type} (tm : α → I32) (g : α → α) (h : ∀ a, tm (g a) = tm a) (l : List α) :
    dropAny tm (l.map g) = (dropAny tm l).map g := by
  simp only [dropAny, ← List.map_reverse]
  congr 1
  generalize l.reverse = r
  induction r with
  | nil => rfl
  | cons x r ih =>
    rw [List.map_cons, List.dropWhile_cons, List.dropWhile_cons, h]
    split
    · exact ih
    · simp

/-- stripping twice is stripping once -/
theorem strip_idem (p : Proto) : kept true (kept true p) = kept true p := by
  induction p using Proto.rec (motive_2 := fun ps => keptAll true (keptAll true ps) = keptAll true ps)
    with
  | mk f ps ih =>
    simp only [kept, ih, Proto.mk.injEq, and_true, keptFields, if_true, Fields.mk.injEq, true_and]
    constructor
    · simp
    · rw [dropAny_map LocVar.tm (fun v => { v with varname := none }) (fun _ => rfl), dropAny_idem]
      simp
  | nil => rfl
  | cons p ps ih1 ih2 => simp only [keptAll, ih1, ih2]

/-! ## Truncated chunks -/

/-- every non-empty strict prefix of a dump is rejected as truncated -/
theorem load_truncated {same : Option Str → Option Str → Bool}
    (hsame : ∀ a b, same a b = true → a = b) (strip : Bool) {f : Fields} {ps : List Proto}
    (h : Ok strip none (.mk f ps)) {mode : Option (List Byte)} (hm : Binary mode)
    {c x : List Byte} (hc : c ≠ []) (hx : x ≠ []) (hcx : c ++ x = bytes same strip (.mk f ps)) :
    load mode c = .err "truncated" := by
  obtain ⟨N, body, hb, hr⟩ := runs_undump hsame strip h
  rw [hb] at hcx
  cases c with
  | nil => exact absurd rfl hc
  | cons b c =>
    simp only [List.cons_append, List.cons.injEq] at hcx
    obtain ⟨rfl, hcx⟩ := hcx
    have hrun := hr (max N (body.length + 1)) (by omega) []
    rw [List.append_nil, ← hcx] at hrun
    have ht := run_prefix _ hx hrun
    rw [undump_fuel _ (c.length + 1) _ (by rw [List.length_append]; omega) (by omega)] at ht
    simp only [load, if_true]
    rw [checkmode_binary hm, Res.bind_ok, ht]
    rfl

example : load none [0x1b, 0x52, 0x61, 0x76, 0x69, 0x53, 1, 0x19, 0x93] = .err "truncated" := by
  have hm : Binary none := fun _ h => nomatch h
  have hb : bytes nullSame false (.mk sampleFields [sampleInner]) =
      [0x1b, 0x52, 0x61, 0x76, 0x69, 0x53, 1, 0x19, 0x93] ++
        (bytes nullSame false (.mk sampleFields [sampleInner])).drop 9 := by
    conv => lhs; rw [← List.take_append_drop 9 (bytes nullSame false (.mk sampleFields [sampleInner]))]
    rfl
  refine load_truncated nullSame_eq false (sample_ok false) hm (by simp) (fun hx => ?_) hb.symm
  have := congrArg List.length hx
  rw [List.length_drop] at this
  have hlen : 9 < (bytes nullSame false (.mk sampleFields [sampleInner])).length := by
    simp only [bytes, luaU_dump, List.flatten_append, List.length_append, header_cons,
      List.length_cons]
    have ht : headerTail.length = 33 := by decide
    omega
  simp only [List.length_nil] at this
  omega

/-- the empty prefix is not: it is an (empty) text chunk -/
theorem load_empty : load none [] = .ok .text := rfl

/-! ## Crafted chunks

Loading is defined for what `string.dump` writes.  It is not defined for every input. -/

/-- a main function without code, inner functions, lines and local variables; constants, upvalues and
their names as given -/
def crafted (constants upvalues debug : Blocks) : List Byte :=
  (DumpHeader ++ DumpByte 0 ++ DumpString none ++ DumpInt 0 ++ DumpInt 0 ++ DumpByte 0 ++
    DumpByte 0 ++ DumpByte 2 ++ DumpCount 0 ++ constants ++ upvalues ++ DumpCount 0 ++
    DumpCount 0 ++ DumpCount 0 ++ debug).flatten

/-- a chunk with more upvalue names than upvalues makes the loader write behind the vector -/
theorem load_overflow : load none (crafted (DumpCount 0) (DumpCount 0) (DumpCount 1)) = .ub := by
  rfl

/-- a NULL string as constant makes it read the tag of the string -/
theorem load_null_constant :
    load none (crafted (DumpCount 1 ++ DumpByte 4 ++ DumpByte 0) (DumpCount 0) (DumpCount 0)) =
      .ub := by
  rfl

/-- a constant of unknown type is silently loaded as nil -/
theorem load_unknown_constant (t : Byte) (h : t ∉ [0, 1, 3, 19, 4, 20]) (bs : List Byte) :
    LoadConstant.run (t :: bs) = .ok (.nil, bs) := by
  simp only [List.mem_cons, List.not_mem_nil, or_false, not_or] at h
  have := runs_byte' t bs
  show (LoadByte >>= LoadConstantOf).run _ = _
  rw [run_bind]
  rw [show t :: bs = (DumpByte t.toNat).flatten ++ bs by simp [DumpByte], this, Res.bind_ok]
  simp only [LoadConstantOf]
  rw [if_neg h.1, if_neg h.2.1, if_neg h.2.2.1, if_neg h.2.2.2.1,
    if_neg (not_or.mpr ⟨h.2.2.2.2.1, h.2.2.2.2.2⟩)]
  rfl

example : (5 : Byte) ∉ [0, 1, 3, 19, 4, 20] := by decide

end Verif.Dump
