import Verif.Dump.Lemmas

/-! What the loader makes of a dump. -/
namespace Verif.Dump

/-! ## What is expected -/

/-- a list without its trailing entries of type "any" -/
def dropAny {α : Type} (tm : α → I32) (l : List α) : List α :=
  (l.reverse.dropWhile fun a => decide (tm a = TM_ANY)).reverse

/-- the fields that remain of a function: everything, or everything but names, line information,
source and the trailing local variables without a type -/
def keptFields (strip : Bool) (f : Fields) : Fields :=
  if strip then
    { f with
      source := none
      lineinfo := []
      upvalues := f.upvalues.map fun u => { u with name := none }
      locvars := (dropAny LocVar.tm f.locvars).map fun v => { v with varname := none } }
  else f

mutual
/-- the function expected from a dump, with all functions inside -/
def kept (strip : Bool) : Proto → Proto
  | .mk f ps => .mk (keptFields strip f) (keptAll strip ps)
def keptAll (strip : Bool) : List Proto → List Proto
  | [] => []
  | p :: ps => kept strip p :: keptAll strip ps
end

theorem keptAll_eq (strip : Bool) (ps : List Proto) : keptAll strip ps = ps.map (kept strip) := by
  induction ps with
  | nil => rfl
  | cons p ps ih => simp only [keptAll, List.map_cons, ih]

theorem kept_false (p : Proto) : kept false p = p := by
  induction p using Proto.rec (motive_2 := fun ps => keptAll false ps = ps) with
  | mk f ps ih => simp only [kept, keptFields, ih]; rfl
  | nil => rfl
  | cons p ps ih1 ih2 => simp only [keptAll, ih1, ih2]

/-! ## What holds of every function in memory -/

/-- vectors have fewer than `2^31` elements and strings fit in memory -/
structure FieldsOk (f : Fields) : Prop where
  code : f.code.length < 2 ^ 31
  k : f.k.length < 2 ^ 31
  upvalues : f.upvalues.length < 2 ^ 31
  lineinfo : f.lineinfo.length < 2 ^ 31
  locvars : f.locvars.length < 2 ^ 31
  source : StrOk f.source
  kstr : ∀ s, K.str s ∈ f.k → s.length + 25 < 2 ^ 64
  upname : ∀ u ∈ f.upvalues, StrOk u.name ∧ StrOk u.usertype
  locname : ∀ v ∈ f.locvars, StrOk v.varname ∧ StrOk v.usertype

/-- a function the parser can produce, inside a function with source `psource`: sizes are bounded
(`FieldsOk`); an upvalue without a type has no user type (`singlevaraux`, `lparser.c:580-610`); a
function has a source if its parent has one (`open_func`, `lparser.c:1007`, gives all functions
of a chunk the same source).  The second is needed only when stripping, the third only when not. -/
inductive Ok (strip : Bool) : Option Str → Proto → Prop
  | mk {psource : Option Str} {f : Fields} {ps : List Proto} (fields : FieldsOk f)
      (any : strip = true → ∀ u ∈ f.upvalues, u.tm = TM_ANY → u.usertype = none)
      (src : strip = false → f.source = none → psource = none)
      (len : ps.length < 2 ^ 31)
      (inner : ∀ p ∈ ps, Ok strip f.source p) : Ok strip psource (.mk f ps)

/-! ## Trimming -/

theorem lastTyped_le (tm : Nat → I32) (n : Nat) : lastTyped tm n ≤ n := by
  induction n with
  | zero => exact Nat.le_refl _
  | succ n ih => simp only [lastTyped]; split <;> omega

theorem lastTyped_any (tm : Nat → I32) {n i : Nat} (h : lastTyped tm n ≤ i) (hi : i < n) :
    tm i = TM_ANY := by
  induction n with
  | zero => omega
  | succ n ih =>
    simp only [lastTyped] at h
    split at h
    · omega
    · rename_i ht
      rcases Nat.lt_succ_iff_lt_or_eq.mp hi with hi | rfl
      · exact ih h hi
      · exact Decidable.not_not.mp ht

theorem lastTyped_congr {tm tm' : Nat → I32} {n : Nat} (h : ∀ i < n, tm i = tm' i) :
    lastTyped tm n = lastTyped tm' n := by
  induction n with
  | zero => rfl
  | succ n ih =>
    simp only [lastTyped]
    rw [h n (by omega), ih fun i hi => h i (by omega)]

theorem take_lastTyped {α : Type} (tm : α → I32) (l : List α) :
    l.take (lastTyped (fun i => (l[i]?.map tm).getD TM_ANY) l.length) = dropAny tm l := by
  obtain ⟨r, rfl⟩ : ∃ r, l = r.reverse := ⟨l.reverse, by simp⟩
  induction r with
  | nil => rfl
  | cons x r ih =>
    simp only [dropAny, List.reverse_reverse, List.length_reverse, List.length_cons, lastTyped,
      List.dropWhile_cons]
    have hx : ((r.reverse ++ [x])[r.length]?.map tm).getD TM_ANY = tm x := by
      rw [List.getElem?_append_right (by simp)]
      simp
    simp only [List.reverse_cons]
    rw [hx]
    by_cases h : tm x = TM_ANY
    · rw [if_neg (by simp [h]), if_pos (by simp [h])]
      rw [lastTyped_congr (tm' := fun i => (r.reverse[i]?.map tm).getD TM_ANY) (by
        intro i hi
        rw [List.getElem?_append_left (by simpa using hi)])]
      rw [List.take_append_of_le_length (by
        have := lastTyped_le (fun i => (r.reverse[i]?.map tm).getD TM_ANY) r.length
        simpa using this)]
      simp only [dropAny, List.reverse_reverse, List.length_reverse] at ih
      exact ih
    · rw [if_pos h, if_neg (by simp [h])]
      rw [List.take_of_length_le (by simp)]
      simp

/-! ## The parts of a function -/

theorem runs_type (tm : I32) : Runs (LoadType 1) (DumpInt tm).flatten tm := by
  have : LoadType 1 = LoadInt := by simp [LoadType]
  rw [this]
  exact runs_int tm

theorem runs_code (f : Fields) (h : f.code.length < 2 ^ 31) :
    Runs LoadCode (DumpCode f).flatten f.code := by
  simp only [DumpCode, List.flatten_append]
  exact (runs_count h).bind (runs_vector f.code)

theorem runs_constant (o : K) (h : ∀ s, o = .str s → s.length + 25 < 2 ^ 64) :
    Runs LoadConstant (DumpConstant o).flatten o := by
  simp only [DumpConstant, List.flatten_append]
  refine (runs_byte o.tag).bind ?_
  cases o with
  | nil => exact Runs.pure _
  | bool b =>
    show Runs (LoadByte >>= fun b => pure (K.bool b)) _ _
    exact (runs_byte' b).map
  | flt x =>
    show Runs (Load64 >>= fun b => pure (K.flt b)) _ _
    exact (runs_64 x).map
  | int x =>
    show Runs (Load64 >>= fun b => pure (K.int b)) _ _
    exact (runs_64 x).map
  | str s =>
    have e : LoadConstantOf (UInt8.ofNat (K.str s).tag) = (LoadString >>= fun s => match s with
        | some s => pure (K.str s)
        | none => L.ub) := by
      simp only [K.tag]
      split <;> rfl
    rw [e]
    have := Runs.bind (f := fun s => match s with
        | some s => pure (K.str s)
        | none => L.ub) (runs_string (some s) (by
          intro x hx
          simp only [Option.some.injEq] at hx
          subst hx
          exact h s rfl)) (Runs.pure (K.str s))
    rw [List.append_nil] at this
    exact this

theorem runs_constants (f : Fields) (h : f.k.length < 2 ^ 31)
    (hs : ∀ s, K.str s ∈ f.k → s.length + 25 < 2 ^ 64) :
    Runs LoadConstants (DumpConstants f).flatten f.k := by
  simp only [DumpConstants, List.flatten_append]
  refine (runs_count h).bind (runs_rep f.k fun o ho => runs_constant o ?_)
  rintro s rfl
  exact hs s ho

/-- an upvalue as `LoadUpvalues` leaves it -/
def blank (u : Up) : Up := ⟨u.instack, u.idx, none, TM_ANY, none⟩

theorem runs_upvalues (f : Fields) (h : f.upvalues.length < 2 ^ 31) :
    Runs LoadUpvalues (DumpUpvalues f).flatten (f.upvalues.map blank) := by
  simp only [DumpUpvalues, List.flatten_append]
  refine (runs_count h).bind (runs_rep_map f.upvalues fun u _ => ?_)
  simp only [List.flatten_append]
  exact (runs_byte' u.instack).bind ((runs_byte' u.idx).map
    (f := fun idx => Up.mk u.instack idx none TM_ANY none))

theorem strOk_strip (strip : Bool) {s : Option Str} (h : StrOk s) :
    StrOk (if strip then none else s) := by
  cases strip with
  | true => intro x hx; exact nomatch hx
  | false => exact h

theorem runs_locvar (strip : Bool) (v : LocVar) (h : StrOk v.varname) (h' : StrOk v.usertype) :
    Runs (LoadLocvar 1) (DumpLocvar strip v).flatten
      { v with varname := if strip then none else v.varname } := by
  simp only [DumpLocvar, List.flatten_append, List.append_assoc]
  exact (runs_string _ (strOk_strip strip h)).bind <| (runs_int v.startpc).bind <|
    (runs_int v.endpc).bind <| (runs_type v.tm).bind <| (runs_string _ h').map
      (f := fun ut => LocVar.mk (if strip then none else v.varname) v.startpc v.endpc v.tm ut)

theorem runs_upnames (strip : Bool) (n : Nat) (us : List Up) (hn : n ≤ us.length)
    (h : ∀ u ∈ us, StrOk u.name ∧ StrOk u.usertype) :
    Runs (LoadUpnames 1 n (us.map blank)) ((us.take n).flatMap (DumpUpname strip)).flatten
      ((us.take n).map (fun u => { u with name := if strip then none else u.name }) ++
        (us.drop n).map blank) := by
  induction n generalizing us with
  | zero => exact Runs.pure _
  | succ n ih =>
    cases us with
    | nil => simp at hn
    | cons u us =>
      simp only [List.map_cons, LoadUpnames, List.take_succ_cons, List.flatMap_cons, DumpUpname,
        List.flatten_append, List.append_assoc, List.drop_succ_cons, List.cons_append]
      have hu := h u (by simp)
      exact (runs_string _ (strOk_strip strip hu.1)).bind <| (runs_type u.tm).bind <|
        (runs_string _ hu.2).bind <|
        (ih us (by simpa using hn) fun v hv => h v (by simp [hv])).map
          (f := fun us => Up.mk u.instack u.idx (if strip then none else u.name) u.tm
            u.usertype :: us)

theorem numUpvalues_le (strip : Bool) (f : Fields) : numUpvalues strip f ≤ f.upvalues.length := by
  unfold numUpvalues
  split
  · exact lastTyped_le _ _
  · exact Nat.le_refl _

theorem numLocvars_le (strip : Bool) (f : Fields) : numLocvars strip f ≤ f.locvars.length := by
  unfold numLocvars
  split
  · exact lastTyped_le _ _
  · exact Nat.le_refl _

theorem upvalues_kept (strip : Bool) (f : Fields)
    (any : strip = true → ∀ u ∈ f.upvalues, u.tm = TM_ANY → u.usertype = none) :
    (f.upvalues.take (numUpvalues strip f)).map
        (fun u => { u with name := if strip then none else u.name }) ++
      (f.upvalues.drop (numUpvalues strip f)).map blank = (keptFields strip f).upvalues := by
  cases strip with
  | false =>
    simp only [numUpvalues, keptFields, Bool.false_eq_true, if_false, List.take_length,
      List.drop_length, List.map_nil, List.append_nil]
    simp
  | true =>
    simp only [keptFields, if_true]
    conv => rhs; rw [← List.take_append_drop (numUpvalues true f) f.upvalues, List.map_append]
    congr 1
    apply List.map_congr_left
    intro u hu
    obtain ⟨i, hi, rfl⟩ := List.mem_iff_getElem.mp hu
    have hlen : numUpvalues true f + i < f.upvalues.length := by
      rw [List.length_drop] at hi; omega
    have ht : (f.upvalues.drop (numUpvalues true f))[i].tm = TM_ANY := by
      have := lastTyped_any (fun i => (f.upvalues[i]?.map (·.tm)).getD TM_ANY)
        (n := f.upvalues.length) (i := numUpvalues true f + i) (by
          simp only [numUpvalues, if_true]; omega) hlen
      simp only [List.getElem?_eq_getElem hlen, Option.map_some, Option.getD_some] at this
      rw [List.getElem_drop]
      exact this
    have hu' := any rfl _ (List.mem_of_mem_drop hu) ht
    simp only [blank]
    rw [← ht, ← hu']

theorem locvars_kept (strip : Bool) (f : Fields) :
    (f.locvars.take (numLocvars strip f)).map
        (fun v => { v with varname := if strip then none else v.varname }) =
      (keptFields strip f).locvars := by
  cases strip with
  | false =>
    simp only [numLocvars, keptFields, Bool.false_eq_true, if_false, List.take_length]
    simp
  | true =>
    simp only [keptFields, if_true, numLocvars]
    rw [take_lastTyped]

theorem runs_debug (strip : Bool) (f : Fields) (h : FieldsOk f)
    (any : strip = true → ∀ u ∈ f.upvalues, u.tm = TM_ANY → u.usertype = none) :
    Runs (LoadDebug 1 (f.upvalues.map blank)) (DumpDebug strip f).flatten
      ((keptFields strip f).lineinfo, (keptFields strip f).locvars,
        (keptFields strip f).upvalues) := by
  have e : (if strip then [] else f.lineinfo) = (keptFields strip f).lineinfo := by
    cases strip <;> rfl
  have hl : (keptFields strip f).lineinfo.length < 2 ^ 31 := by
    cases strip
    · exact h.lineinfo
    · simp [keptFields]
  simp only [DumpDebug, List.flatten_append, List.append_assoc, e]
  have hlv := numLocvars_le strip f
  have huv := numUpvalues_le strip f
  refine (runs_count hl).bind ?_
  refine (runs_vector _).bind ?_
  refine (runs_count (n := numLocvars strip f) (Nat.lt_of_le_of_lt hlv h.locvars)).bind ?_
  have r1 := runs_rep_map (m := LoadLocvar 1) (d := DumpLocvar strip)
    (g := fun v => { v with varname := if strip then none else v.varname })
    (f.locvars.take (numLocvars strip f)) (fun v hv =>
      runs_locvar strip v (h.locname v (List.mem_of_mem_take hv)).1
        (h.locname v (List.mem_of_mem_take hv)).2)
  rw [List.length_take, Nat.min_eq_left hlv, locvars_kept] at r1
  refine r1.bind ?_
  refine (runs_int _).bind ?_
  have hn : (if (BitVec.ofNat 32 (numUpvalues strip f)).msb = true then 0
      else (BitVec.ofNat 32 (numUpvalues strip f)).toNat) = numUpvalues strip f := by
    have := h.upvalues
    rw [msb_ofNat (by omega), if_neg (by simp), BitVec.toNat_ofNat, Nat.mod_eq_of_lt (by omega)]
  rw [hn]
  have r2 := runs_upnames strip _ f.upvalues huv h.upname
  rw [upvalues_kept strip f any] at r2
  exact r2.map (f := fun us => ((keptFields strip f).lineinfo, (keptFields strip f).locvars, us))

/-! ## Functions -/

theorem DumpProtos_eq (same : Option Str → Option Str → Bool) (strip : Bool) (s : Option Str)
    (ps : List Proto) : DumpProtos same strip s ps = ps.flatMap (DumpFunction same strip s) := by
  induction ps with
  | nil => rfl
  | cons p ps ih => simp only [DumpProtos, List.flatMap_cons, ih]

theorem runs_rep_fuel {m : Nat → L Proto} {d : Proto → Blocks} {g : Proto → Proto}
    (ps : List Proto) (h : ∀ p ∈ ps, ∃ N, ∀ k, N ≤ k → Runs (m k) (d p).flatten (g p)) :
    ∃ N, ∀ k, N ≤ k → Runs (rep (m k) ps.length) (ps.flatMap d).flatten (ps.map g) := by
  have : ∃ N, ∀ k, N ≤ k → ∀ p ∈ ps, Runs (m k) (d p).flatten (g p) := by
    induction ps with
    | nil => exact ⟨0, fun _ _ p hp => by simp at hp⟩
    | cons p ps ih =>
      obtain ⟨N1, h1⟩ := h p (by simp)
      obtain ⟨N2, h2⟩ := ih fun q hq => h q (by simp [hq])
      refine ⟨max N1 N2, fun k hk q hq => ?_⟩
      rcases List.mem_cons.mp hq with rfl | hq
      · exact h1 k (by omega)
      · exact h2 k (by omega) q hq
  obtain ⟨N, hN⟩ := this
  exact ⟨N, fun k hk => runs_rep_map ps (hN k hk)⟩

/-- the source found when loading: that of the parent when none was written -/
theorem source_kept {same : Option Str → Option Str → Bool}
    (hsame : ∀ a b, same a b = true → a = b) (strip : Bool) {psource source : Option Str}
    (src : strip = false → source = none → psource = none) :
    orParent (if strip then none else psource) (dumpedSource same strip psource source) =
      (if strip then none else source) := by
  cases strip with
  | true => rfl
  | false =>
    simp only [dumpedSource, Bool.false_or, Bool.false_eq_true, if_false]
    by_cases h : same source psource = true
    · rw [if_pos h]
      exact (hsame _ _ h).symm
    · rw [if_neg h]
      cases source with
      | none => exact src rfl rfl
      | some s => rfl

theorem runs_function {same : Option Str → Option Str → Bool}
    (hsame : ∀ a b, same a b = true → a = b) (strip : Bool) {psource : Option Str} {p : Proto}
    (h : Ok strip psource p) :
    ∃ N, ∀ k, N ≤ k → Runs (LoadFunction 1 k (if strip then none else psource))
      (DumpFunction same strip psource p).flatten (kept strip p) := by
  induction h with
  | @mk psource f ps fields any src len inner ih =>
    obtain ⟨N, hN⟩ := runs_rep_fuel (m := fun k => LoadFunction 1 k (if strip then none else f.source))
      ps ih
    refine ⟨N + 1, fun k hk => ?_⟩
    obtain ⟨k, rfl⟩ : ∃ k', k = k' + 1 := ⟨k - 1, by omega⟩
    have hsrc := source_kept hsame strip (psource := psource) (source := f.source) src
    have hso : StrOk (dumpedSource same strip psource f.source) := by
      unfold dumpedSource
      split
      · intro x hx; exact nomatch hx
      · exact fields.source
    simp only [LoadFunction, DumpFunction, List.flatten_append, List.append_assoc, kept, keptAll_eq,
      DumpProtos_eq]
    refine (runs_string _ hso).bind ?_
    rw [hsrc]
    refine (runs_int f.linedefined).bind <| (runs_int f.lastlinedefined).bind <|
      (runs_byte' f.numparams).bind <| (runs_byte' f.is_vararg).bind <|
      (runs_byte' f.maxstacksize).bind <| (runs_code f fields.code).bind <|
      (runs_constants f fields.k fields.kstr).bind <| (runs_upvalues f fields.upvalues).bind <|
      (runs_count len).bind <| (hN k (by omega)).bind ?_
    have := (runs_debug strip f fields any).map (f := fun x => Proto.mk
      { source := if strip then none else f.source, linedefined := f.linedefined,
        lastlinedefined := f.lastlinedefined, numparams := f.numparams, is_vararg := f.is_vararg,
        maxstacksize := f.maxstacksize, code := f.code, k := f.k, upvalues := x.2.2,
        lineinfo := x.1, locvars := x.2.1 } (ps.map (kept strip)))
    cases strip <;> exact this

theorem runs_literal (s : List Byte) (msg : String) : Runs (checkliteral s msg) s () := by
  have := Runs.bind (f := fun b => if b ≠ s then L.fail msg else pure ()) (runs_block s s.length rfl)
    (y := []) (b := ()) (by intro r; rw [if_neg (by simp)]; rfl)
  rw [List.append_nil] at this
  exact this

theorem runs_checkbyte (x : Nat) (msg : String) (h : x < 256) :
    Runs (checkbyte x msg) (DumpByte x).flatten () := by
  have := Runs.bind (f := fun b => if b.toNat ≠ x then L.fail msg else pure ()) (runs_byte x)
    (y := []) (b := ()) (by
      intro r
      rw [if_neg (by simp only [UInt8.toNat_ofNat', ne_eq, Decidable.not_not]; omega)]
      rfl)
  rw [List.append_nil] at this
  exact this

/-- the header after its first byte -/
def headerTail : List Byte :=
  (([sigRest] : Blocks) ++ DumpByte LUAC_VERSION ++ DumpByte LUAC_FORMAT ++ [LUAC_DATA] ++
  DumpByte 4 ++ DumpByte 8 ++ DumpByte 4 ++ DumpByte 8 ++ DumpByte 8 ++
  Dump64 LUAC_INT ++ Dump64 LUAC_NUM).flatten

theorem header_cons : DumpHeader.flatten = 0x1b :: headerTail := by
  decide

theorem runs_header : Runs checkHeader headerTail 1 := by
  simp only [headerTail, List.flatten_append, List.append_assoc, List.flatten_cons,
    List.flatten_nil, List.append_nil]
  refine (runs_literal _ _).bind <| (runs_checkbyte _ _ (by decide)).bind <|
    (runs_byte LUAC_FORMAT).bind ?_
  rw [if_neg (by decide)]
  refine (runs_literal _ _).bind <| (runs_checkbyte _ _ (by decide)).bind <|
    (runs_checkbyte _ _ (by decide)).bind <| (runs_checkbyte _ _ (by decide)).bind <|
    (runs_checkbyte _ _ (by decide)).bind <| (runs_checkbyte _ _ (by decide)).bind <|
    (runs_64 LUAC_INT).bind ?_
  rw [if_neg (by simp)]
  have := Runs.bind (f := fun x => if x ≠ LUAC_NUM then L.fail "float format mismatch in"
    else pure (UInt8.ofNat LUAC_FORMAT)) (runs_64 LUAC_NUM) (y := []) (b := 1) (by
      intro r
      rw [if_neg (by simp)]
      rfl)
  rw [List.append_nil] at this
  exact this

/-- a dump is loaded as expected, whatever follows it -/
theorem runs_undump {same : Option Str → Option Str → Bool}
    (hsame : ∀ a b, same a b = true → a = b) (strip : Bool) {f : Fields} {ps : List Proto}
    (h : Ok strip none (.mk f ps)) :
    ∃ N body, bytes same strip (.mk f ps) = 0x1b :: body ∧
      ∀ k, N ≤ k → Runs (luaU_undump k) body
        (UInt8.ofNat f.upvalues.length, kept strip (.mk f ps)) := by
  obtain ⟨N, hN⟩ := runs_function hsame strip h
  refine ⟨N, headerTail ++ ((DumpByte f.upvalues.length).flatten ++
    (DumpFunction same strip none (.mk f ps)).flatten), ?_, fun k hk => ?_⟩
  · simp only [bytes, luaU_dump, List.flatten_append, header_cons, List.cons_append,
      List.append_assoc]
  · refine runs_header.bind <| (runs_byte _).bind ?_
    have := hN k hk
    rw [show (if strip = true then none else (none : Option Str)) = none by cases strip <;> rfl]
      at this
    exact this.map (f := fun p => (UInt8.ofNat f.upvalues.length, p))

theorem undump_fuel (k k' : Nat) (bs : List Byte) (h : bs.length < k) (h' : bs.length < k') :
    (luaU_undump k).run bs = (luaU_undump k').run bs := by
  simp only [luaU_undump]
  apply run_bind_congr; intro v r0 e; have l0 := run_len _ e
  apply run_bind_congr; intro n r1 e; have l1 := run_len _ e
  rw [run_bind, run_bind, fuel_irrelevant v k k' none r1 (by omega) (by omega)]

end Verif.Dump
