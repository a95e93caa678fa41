import Verif.ExpCode.Spec
/-! `exp2reg`: a value with jumps into a register. -/
namespace Verif.ExpCode
variable {W : Type} {P : Ops W} {K : List Val}

theorem land_of {c : List Instr} {L p : Nat} (h : CodeWF c L) (hp : 0 < p)
    (hc : ∀ t', c[p]? ≠ some (Instr.jmp t')) : Land c p := by
  intro x hx
  cases ht : x.isTest with
  | false => rfl
  | true =>
    obtain ⟨t, h1⟩ := h.test _ x hx ht
    have : p - 1 + 1 = p := by omega
    rw [this] at h1
    exact absurd h1 (hc t)

theorem patchBoth {c : List Instr} (hw : CodeWF c c.length) {t f : List Nat} (reg : Option Nat) {pt pf : Nat}
    (hp : ∀ j ∈ t ++ f, c[j]? = some (Instr.jmp none)) (hn : (t ++ f).Nodup)
    (hlf : ∀ j ∈ f, j < pf) (hlt : ∀ j ∈ t, j < pt) (hf1 : ∀ j ∈ f, j < pt)
    (hpf : pf ≤ c.length) (hpt : pt ≤ c.length) (hpf0 : 0 < pf) (hpt0 : 0 < pt)
    (hcf : ∀ t', c[pf]? ≠ some (Instr.jmp t')) (hct : ∀ t', c[pt]? ≠ some (Instr.jmp t'))
    {gf gt : Regs → Regs} (hgf : ∀ R w, run P K c pf R w = .ok (.fall (gf R) w))
    (hgt : ∀ R w, run P K c pt R w = .ok (.fall (gt R) w)) :
    CodeWF (patchlistaux (patchlistaux c f c.length reg pf) t c.length reg pt) c.length ∧
    (∀ R w, run P K (patchlistaux (patchlistaux c f c.length reg pf) t c.length reg pt) 0 R w =
      handle (fun j => if j ∈ f then some (listUpd c reg gf j)
        else if j ∈ t then some (listUpd c reg gt j) else none) (run P K c 0 R w)) ∧
    (∀ j, c[j]? = some (Instr.jmp none) → j ∉ t → j ∉ f →
      (patchlistaux (patchlistaux c f c.length reg pf) t c.length reg pt)[j]? = some (Instr.jmp none) ∧
      ctl (patchlistaux (patchlistaux c f c.length reg pf) t c.length reg pt) j = ctl c j) := by
  obtain ⟨hnt, hnf, hdis⟩ := List.nodup_append.1 hn
  have hjf : ∀ j ∈ f, c[j]? = some (Instr.jmp none) := fun j hj => hp j (List.mem_append_right _ hj)
  have hjt : ∀ j ∈ t, c[j]? = some (Instr.jmp none) := fun j hj => hp j (List.mem_append_left _ hj)
  have p1 : Pending c f pf := ⟨hjf, hlf, hnf⟩
  have hldf := land_of hw hpf0 hcf
  have w1 := patchlist_wf hw p1 hpf hldf reg
  have len1 := patchlistaux_length c f c.length reg pf
  have oth : ∀ i, c[i]? = some (Instr.jmp none) → i ∉ f →
      (patchlistaux c f c.length reg pf)[i]? = some (Instr.jmp none) ∧
      ctl (patchlistaux c f c.length reg pf) i = ctl c i :=
    fun i hi hne => patchlist_other hjf hnf _ _ _ hi hne
  have ab : ∀ i, (∀ j ∈ f, j < i) → (patchlistaux c f c.length reg pf)[i]? = c[i]? :=
    fun i hi => patchlist_above hjf hnf _ _ _ hi
  have r1 : ∀ R w, run P K (patchlistaux c f c.length reg pf) 0 R w = _ :=
    patchlist_run hw p1 hpf hldf reg hgf
  generalize hc1 : patchlistaux c f c.length reg pf = c1 at *
  have hnotf : ∀ i ∈ t, i ∉ f := fun i hi h => hdis i hi i h rfl
  have hj1 : ∀ j ∈ t, c1[j]? = some (Instr.jmp none) := fun j hj => (oth j (hjt j hj) (hnotf j hj)).1
  have p2 : Pending c1 t pt := ⟨hj1, hlt, hnt⟩
  have w1' : CodeWF c1 c1.length := by rw [len1]; exact w1
  have ld2 : Land c1 pt := land_of w1' hpt0 (by
    intro t' e
    rw [ab pt hf1] at e
    exact hct t' e)
  have hg2 : ∀ R w, run P K c1 pt R w = .ok (.fall (gt R) w) := by
    intro R w
    rw [run_congr' len1 (fun i hi => ab i (fun j hj => by have := hf1 j hj; omega)) R w]
    exact hgt R w
  have len1' : c.length = c1.length := len1.symm
  rw [len1']
  refine ⟨?_, ?_, ?_⟩
  · exact patchlist_wf w1' p2 (by omega) ld2 reg
  · intro R w
    rw [patchlist_run w1' p2 (by omega) ld2 reg hg2, r1]
    rcases run P K c 0 R w with ⟨_ | ⟨j, R', w'⟩⟩ | _ | _
    · rfl
    · unfold handle
      dsimp only
      by_cases h1 : j ∈ f
      · rw [if_pos h1, if_pos h1]
      · rw [if_neg h1, if_neg h1]
        dsimp only
        by_cases h2 : j ∈ t
        · rw [if_pos h2, if_pos h2]
          dsimp only
          have : listUpd c1 reg gt j R' = listUpd c reg gt j R' := by
            unfold listUpd upd
            rw [(oth j (hjt j h2) h1).2]
          rw [this]
        · rw [if_neg h2, if_neg h2]
    · rfl
    · rfl
  · intro j hj h1 h2
    obtain ⟨a1, a2⟩ := oth j hj h2
    obtain ⟨b1, b2⟩ := patchlist_other hj1 hnt c1.length reg pt a1 h1
    exact ⟨b1, b2.trans a2⟩

/-- registers after the jumps of both lists have been patched -/
def valUpd (c : List Instr) (reg : Nat) (t : List Nat) (j : Nat) (R : Regs) : Regs :=
  match ctl c j with
  | some b => R.set reg (R b)
  | none => R.set reg (.bool (decide (j ∈ t)))

/-- the exits of both lists -/
def valH (c : List Instr) (reg : Nat) (t f : List Nat) : Nat → Option (Regs → Regs) :=
  fun j => if j ∈ t ++ f then some (valUpd c reg t j) else none

theorem needValue_false {c : List Instr} {l : List Nat} (h : needValue c l = false) :
    ∀ j ∈ l, (ctl c j).isSome = true := by
  intro j hj
  unfold needValue at h
  rw [List.any_eq_false] at h
  have := h j hj
  cases j with
  | zero => exact absurd rfl this
  | succ p =>
    unfold ctl
    dsimp only at this ⊢
    split at this
    · rename_i h1; rw [h1]; rfl
    · exact absurd rfl this

/-- set a register to false, for comparisons -/
def fallG (isJmp : Bool) (reg : Nat) (R : Regs) (w : W) : Res (Out W) :=
  .ok (.fall (if isJmp then R.set reg (.bool false) else R) w)

theorem loads_block (reg : Nat) : Block [.loadbool reg false true, .loadbool reg true false] := by
  refine ⟨?_, ?_, ?_, ?_⟩
  · intro p x hx ht
    match p, hx with
    | 0, hx => cases hx; cases ht
    | 1, hx => cases hx; cases ht
    | p + 2, hx => cases hx
  · intro p a b hx
    match p, hx with
    | 0, hx => exact ⟨reg, true, rfl⟩
    | 1, hx => cases hx
    | p + 2, hx => cases hx
  · intro p t hx
    match p, hx with
    | 0, hx => cases hx
    | 1, hx => cases hx
    | p + 2, hx => cases hx
  · intro p a b cc hx hn
    match p, hx with
    | 0, hx => cases hx
    | 1, hx => cases hx
    | p + 2, hx => cases hx

theorem jmp_block : Block [.jmp none] := by
  refine ⟨?_, ?_, ?_, ?_⟩
  · intro p x hx ht
    match p, hx with
    | 0, hx => cases hx; cases ht
    | p + 1, hx => cases hx
  · intro p a b hx
    match p, hx with
    | 0, hx => cases hx
    | p + 1, hx => cases hx
  · intro p t hx
    match p, hx with
    | 0, hx => cases hx
    | p + 1, hx => cases hx
  · intro p a b cc hx hn
    match p, hx with
    | 0, hx => cases hx
    | p + 1, hx => cases hx

/-- running the two loads at the end -/
theorem run_loads {c : List Instr} {reg : Nat} (R : Regs) (w : W) :
    run P K (c ++ [.loadbool reg false true, .loadbool reg true false]) c.length R w
      = .ok (.fall (R.set reg (.bool false)) w) ∧
    run P K (c ++ [.loadbool reg false true, .loadbool reg true false]) (c.length + 1) R w
      = .ok (.fall (R.set reg (.bool true)) w) := by
  have h1 : (c ++ [Instr.loadbool reg false true, .loadbool reg true false])[c.length]?
      = some (.loadbool reg false true) := by simp
  have h2 : (c ++ [Instr.loadbool reg false true, .loadbool reg true false])[c.length + 1]?
      = some (.loadbool reg true false) := by simp
  have hl : (c ++ [Instr.loadbool reg false true, .loadbool reg true false]).length = c.length + 2 := by simp
  constructor
  · rw [run_exec h1 (fun t h => nomatch h)]
    show run P K _ (c.length + 2) _ _ = _
    rw [← hl, run_end]
  · rw [run_exec h2 (fun t h => nomatch h)]
    show run P K _ (c.length + 1 + 1 + 0) _ _ = _
    have : c.length + 1 + 1 + 0 = (c ++ [Instr.loadbool reg false true, .loadbool reg true false]).length := by
      rw [hl]
    rw [this, run_end]

theorem loads_get (c : List Instr) (reg : Nat) :
    (∀ t', (c ++ [Instr.loadbool reg false true, .loadbool reg true false])[c.length]? ≠ some (Instr.jmp t')) ∧
    (∀ t', (c ++ [Instr.loadbool reg false true, .loadbool reg true false])[c.length + 1]? ≠ some (Instr.jmp t')) := by
  constructor <;> intro t' h <;> simp at h

theorem listUpd_val {c : List Instr} {reg : Nat} {t f : List Nat} (hn : (t ++ f).Nodup)
    {c0 : List Instr} {j : Nat} (hc : ctl c j = ctl c0 j) (R : Regs) :
    (j ∈ f → listUpd c (some reg) (fun R => R.set reg (.bool false)) j R = valUpd c0 reg t j R) ∧
    (j ∈ t → listUpd c (some reg) (fun R => R.set reg (.bool true)) j R = valUpd c0 reg t j R) := by
  obtain ⟨_, _, hdis⟩ := List.nodup_append.1 hn
  unfold listUpd valUpd upd
  rw [hc]
  constructor
  · intro hf
    cases ctl c0 j with
    | some b => rfl
    | none =>
      dsimp only
      rw [decide_eq_false (fun h => hdis j h j hf rfl)]
  · intro ht
    cases ctl c0 j with
    | some b => rfl
    | none =>
      dsimp only
      rw [decide_eq_true ht]

theorem exp2regJumps_spec {s : FS} (hw : WF s) {isJmp : Bool} {t f : List Nat} {reg : Nat}
    (hp : ∀ j ∈ t ++ f, Pend s j) (hn : (t ++ f).Nodup) (hne : t ++ f ≠ [])
    (hi : isJmp = true → ∃ j ∈ t, ctl s.code j = none) :
    WF (exp2regJumps s isJmp t f reg) ∧
    (∀ R w, H P K (exp2regJumps s isJmp t f reg) R w =
      handle (valH s.code reg t f) (andThen (H P K s R w) (fallG isJmp reg))) ∧
    (∀ j, Pend s j → j ∉ t ++ f → Pend (exp2regJumps s isJmp t f reg) j ∧
      ctl (exp2regJumps s isJmp t f reg).code j = ctl s.code j) ∧
    (exp2regJumps s isJmp t f reg).k = s.k ∧ (exp2regJumps s isJmp t f reg).nactvar = s.nactvar ∧
    (exp2regJumps s isJmp t f reg).freereg = s.freereg ∧
    s.code.length ≤ (exp2regJumps s isJmp t f reg).code.length := by
  have hlt : ∀ j ∈ t ++ f, j < s.code.length := fun j hj => (hp j hj).lt
  have hpos : 0 < s.code.length := by
    cases h : t ++ f with
    | nil => exact absurd h hne
    | cons a l => have := hlt a (by rw [h]; exact List.mem_cons_self ..); omega
  unfold exp2regJumps
  by_cases hneed : (needValue s.code t || needValue s.code f) = true
  · rw [if_pos hneed]
    cases isJmp with
    | false =>
      -- a jump over the loads
      have e : ∀ (x y : FS), jump s = (({ s with code := s.code ++ [.jmp none], jpc := [] } : FS), s.pc :: s.jpc) :=
        fun _ _ => rfl
      simp only [e s s, Bool.false_eq_true, if_false, emit, getlabel, patchtohere, dischargejpc, FS.pc,
        patchlistaux_nil, List.length_append, List.length_cons, List.length_nil, List.append_assoc,
        List.cons_append, List.nil_append]
      generalize hc0 : s.code ++ [.jmp none] = c0
      have hc0l : c0.length = s.code.length + 1 := by rw [← hc0]; simp
      have hcode : s.code ++ [.jmp none, .loadbool reg false true, .loadbool reg true false]
          = c0 ++ [.loadbool reg false true, .loadbool reg true false] := by rw [← hc0]; simp
      rw [hcode]
      have hw0 : CodeWF c0 s.lasttarget := by rw [← hc0]; exact hw.code.append jmp_block
      generalize hc1 : c0 ++ [.loadbool reg false true, .loadbool reg true false] = c1
      have hc1l : c1.length = s.code.length + 3 := by rw [← hc1]; simp [hc0l]
      have hw1 : CodeWF c1 c1.length := by
        rw [← hc1]
        have := hw0.append (loads_block reg)
        exact this.mono this.le (Nat.le_refl _)
      have hld := loads_get c0 reg
      rw [hc1, hc0l] at hld
      have hrl := fun (R : Regs) (w : W) => run_loads (P := P) (K := K) (c := c0) (reg := reg) R w
      rw [hc1, hc0l] at hrl
      have hget : ∀ i, i < s.code.length → c1[i]? = s.code[i]? := by
        intro i hi
        rw [← hc1, ← hc0, List.append_assoc, List.getElem?_append_left hi]
      have hctl : ∀ j, j ≤ s.code.length → ctl c1 j = ctl s.code j := by
        intro j hj
        rw [← hc1, ← hc0, List.append_assoc]
        exact ctl_append _ hj
      have hpc : ∀ j ∈ t ++ f, c1[j]? = some (Instr.jmp none) := by
        intro j hj
        rw [hget j (hlt j hj)]; exact (hp j hj).1
      obtain ⟨b1, b2, b3⟩ := patchBoth (P := P) (K := K) hw1 (some reg) (pt := s.code.length + 1 + 1)
        (pf := s.code.length + 1) hpc hn
        (fun j hj => by have := hlt j (List.mem_append_right _ hj); omega)
        (fun j hj => by have := hlt j (List.mem_append_left _ hj); omega)
        (fun j hj => by have := hlt j (List.mem_append_right _ hj); omega)
        (by omega) (by omega) (by omega) (by omega) hld.1 hld.2 (fun R w => (hrl R w).1) (fun R w => (hrl R w).2)
      rw [hc1l] at b1 b2 b3
      have hnl : c1[s.code.length]? = some (Instr.jmp none) := by
        rw [← hc1, ← hc0]; simp
      have hni : s.code.length ∉ t ++ f := fun h => by have := hlt _ h; omega
      have hni2 : s.code.length ∉ s.jpc := fun h => by have := getElem?_lt (hw.jpc _ h); omega
      have notin : ∀ {j}, j ∉ t ++ f → j ∉ t ∧ j ∉ f := fun h =>
        ⟨fun a => h (List.mem_append_left _ a), fun a => h (List.mem_append_right _ a)⟩
      have hjl : ∀ j ∈ s.jpc, j ∉ t ++ f := fun j hj h => (hp j h).2 hj
      refine ⟨⟨b1, ?_, ?_, ?_⟩, ?_, ?_, trivial, trivial, trivial, ?_⟩
      · intro j hj
        rcases List.mem_cons.1 hj with rfl | hj
        · exact (b3 _ hnl (notin hni).1 (notin hni).2).1
        · have h2 := hjl j hj
          refine (b3 j ?_ (notin h2).1 (notin h2).2).1
          rw [hget j (getElem?_lt (hw.jpc j hj))]; exact hw.jpc j hj
      · exact List.nodup_cons.2 ⟨hni2, hw.nodup⟩
      · intro _
        dsimp only
        rw [patchlistaux_length, patchlistaux_length, hc1l]
      · intro R w
        unfold H
        dsimp only
        rw [b2]
        have hr : run P K c1 0 R w = andThen (run P K s.code 0 R w) (fun R w => .ok (.exit s.code.length R w)) := by
          rw [← hc1, ← hc0, List.append_assoc, run_append hw.code _ _ 0 (Nat.le_refl _) (Nat.zero_le _)]
          congr 1
          funext R w
          rw [run_jmp_none]
          rw [← List.append_assoc, hc0, hc1]; exact hnl
        rw [hr]
        have hfl : ∀ o : Res (Out W), andThen o (fallG false reg) = o := fun o => andThen_fall o
        rw [hfl]
        cases hrr : run P K s.code 0 R w with
        | err m => rfl
        | ub => rfl
        | ok o =>
          cases o with
          | fall R' w' =>
            simp only [andThen, handle]
            rw [if_neg (notin hni).2, if_neg (notin hni).1]
            simp only [closing]
            rw [if_pos (List.mem_cons_self ..)]
            rfl
          | exit j R' w' =>
            have hjn : j ≠ s.code.length := by
              have := getElem?_lt (run_exit hrr).2; omega
            have hjle : j ≤ s.code.length := Nat.le_of_lt (getElem?_lt (run_exit hrr).2)
            simp only [andThen, handle]
            by_cases h1 : j ∈ f
            · have hjm := List.mem_append_right t h1
              rw [if_pos h1]
              simp only [closing]
              rw [if_neg (hp j hjm).2]
              simp only [valH]
              rw [if_pos hjm]
              dsimp only
              rw [(listUpd_val hn (hctl j hjle) R').1 h1]
            · rw [if_neg h1]
              by_cases h2 : j ∈ t
              · have hjm := List.mem_append_left f h2
                rw [if_pos h2]
                simp only [closing]
                rw [if_neg (hp j hjm).2]
                simp only [valH]
                rw [if_pos hjm]
                dsimp only
                rw [(listUpd_val hn (hctl j hjle) R').2 h2]
              · rw [if_neg h2]
                have hjm : j ∉ t ++ f := by rw [List.mem_append]; exact fun h => h.elim h2 h1
                simp only [closing]
                by_cases h3 : j ∈ s.jpc
                · rw [if_pos h3, if_pos (List.mem_cons_of_mem _ h3)]
                · rw [if_neg h3, if_neg (by rw [List.mem_cons]; exact fun h => h.elim hjn h3)]
                  simp only [valH]
                  rw [if_neg hjm]
      · intro j hj hjm
        have := b3 j (by rw [hget j hj.lt]; exact hj.1) (notin hjm).1 (notin hjm).2
        refine ⟨⟨this.1, ?_⟩, this.2.trans (hctl j (Nat.le_of_lt hj.lt))⟩
        intro h
        rcases List.mem_cons.1 h with h | h
        · have := hj.lt; omega
        · exact hj.2 h
      · rw [patchlistaux_length, patchlistaux_length, hc1l]; omega
    | true =>
      have hde := dischargejpc_ext (P := P) (K := K) hw
      simp only [if_true, emit, getlabel, patchtohere, dischargejpc, FS.pc,
        patchlistaux_nil, List.length_append, List.length_cons, List.length_nil, List.append_assoc,
        List.cons_append, List.nil_append, patchlistaux_length, List.append_nil]
      have hc0eq : patchlistaux s.code s.jpc s.code.length none s.code.length = (dischargejpc s).code := rfl
      rw [hc0eq]
      have hw0 : CodeWF (dischargejpc s).code s.lasttarget := hde.wf.code
      have hc0l := dischargejpc_length s
      have hstep := hde.step
      have hframe := hde.frame
      have hcl : closing [] = fun _ => none := by funext j; simp [closing]
      have hstep : ∀ R w, run P K (dischargejpc s).code 0 R w = H P K s R w := by
        intro R w
        have h1 := hstep R w
        have h2 : andThen (H P K s R w) skipG = H P K s R w := andThen_fall _
        rw [h2] at h1
        unfold H at h1 ⊢
        rw [dischargejpc_jpc, hcl, handle_none] at h1
        exact h1
      unfold Pend at hframe
      generalize (dischargejpc s).code = c0 at hw0 hc0l hstep hframe
      have hfr : ∀ j, Pend s j → c0[j]? = some (Instr.jmp none) ∧ ctl c0 j = ctl s.code j :=
        fun j hj => ⟨(hframe j hj).1.1, (hframe j hj).2⟩
      clear hframe
      generalize hc1 : c0 ++ [Instr.loadbool reg false true, .loadbool reg true false] = c1
      have hc1l : c1.length = s.code.length + 2 := by rw [← hc1]; simp [hc0l]
      have hw1 : CodeWF c1 c1.length := by
        rw [← hc1]
        have := hw0.append (loads_block reg)
        exact this.mono this.le (Nat.le_refl _)
      have hld := loads_get c0 reg
      rw [hc1, hc0l] at hld
      have hrl := fun (R : Regs) (w : W) => run_loads (P := P) (K := K) (c := c0) (reg := reg) R w
      rw [hc1, hc0l] at hrl
      have hget : ∀ i, i < s.code.length → c1[i]? = c0[i]? := by
        intro i hi
        rw [← hc1, List.getElem?_append_left (by omega)]
      have hctl : ∀ j, j ≤ s.code.length → ctl c1 j = ctl c0 j := by
        intro j hj
        rw [← hc1]
        exact ctl_append _ (by omega)
      have hpc : ∀ j ∈ t ++ f, c1[j]? = some (Instr.jmp none) := by
        intro j hj
        rw [hget j (hlt j hj)]; exact (hfr j (hp j hj)).1
      obtain ⟨b1, b2, b3⟩ := patchBoth (P := P) (K := K) hw1 (some reg) (pt := s.code.length + 1)
        (pf := s.code.length) hpc hn
        (fun j hj => by have := hlt j (List.mem_append_right _ hj); omega)
        (fun j hj => by have := hlt j (List.mem_append_left _ hj); omega)
        (fun j hj => by have := hlt j (List.mem_append_right _ hj); omega)
        (by omega) (by omega) hpos (by omega) hld.1 hld.2 (fun R w => (hrl R w).1) (fun R w => (hrl R w).2)
      rw [hc1l] at b1 b2 b3
      have notin : ∀ {j}, j ∉ t ++ f → j ∉ t ∧ j ∉ f := fun h =>
        ⟨fun a => h (List.mem_append_left _ a), fun a => h (List.mem_append_right _ a)⟩
      refine ⟨⟨b1, (fun j hj => nomatch hj), List.nodup_nil, fun h => absurd rfl h⟩, ?_, ?_, trivial, trivial, trivial, ?_⟩
      · intro R w
        have hr : run P K c1 0 R w = andThen (H P K s R w) (fallG true reg) := by
          have h1 := hstep R w
          rw [← hc1, run_append hw0 _ _ 0 (Nat.le_refl _) (Nat.zero_le _), h1]
          congr 1
          funext R w
          rw [hc1, hc0l]
          exact (hrl R w).1
        show handle (closing []) (run P K _ 0 R w) = _
        rw [b2, hcl, handle_none, hr]
        cases hrr : H P K s R w with
        | err m => rfl
        | ub => rfl
        | ok o =>
          cases o with
          | fall R' w' => rfl
          | exit j R' w' =>
            have hjP := H_exit hrr
            have hjle : j ≤ s.code.length := Nat.le_of_lt hjP.lt
            have hcc : ctl c1 j = ctl s.code j := (hctl j hjle).trans (hfr j hjP).2
            simp only [andThen, handle, valH]
            by_cases h1 : j ∈ f
            · have hjm := List.mem_append_right t h1
              rw [if_pos h1, if_pos hjm]
              dsimp only
              rw [(listUpd_val hn hcc R').1 h1]
            · rw [if_neg h1]
              by_cases h2 : j ∈ t
              · have hjm := List.mem_append_left f h2
                rw [if_pos h2, if_pos hjm]
                dsimp only
                rw [(listUpd_val hn hcc R').2 h2]
              · have hjm : j ∉ t ++ f := by rw [List.mem_append]; exact fun h => h.elim h2 h1
                rw [if_neg h2, if_neg hjm]
      · intro j hj hjm
        have := b3 j (by rw [hget j hj.lt]; exact (hfr j hj).1) (notin hjm).1 (notin hjm).2
        exact ⟨⟨this.1, (fun h => nomatch h)⟩, this.2.trans ((hctl j (Nat.le_of_lt hj.lt)).trans (hfr j hj).2)⟩
      · omega
  · rw [if_neg hneed]
    have hneed' : needValue s.code t = false ∧ needValue s.code f = false := by
      simpa using hneed
    cases isJmp with
    | true =>
      obtain ⟨j, h1, h2⟩ := hi rfl
      have := needValue_false hneed'.1 j h1
      rw [h2] at this; cases this
    | false =>
      simp only [getlabel, FS.pc]
      have hw1 : CodeWF s.code s.code.length := hw.code.mono hw.code.le (Nat.le_refl _)
      have hend : ∀ t', s.code[s.code.length]? ≠ some (Instr.jmp t') := by
        intro t' h; have := getElem?_lt h; omega
      obtain ⟨b1, b2, b3⟩ := patchBoth (P := P) (K := K) hw1 (some reg) (pt := s.code.length)
        (pf := s.code.length) (fun j hj => (hp j hj).1) hn
        (fun j hj => hlt j (List.mem_append_right _ hj))
        (fun j hj => hlt j (List.mem_append_left _ hj))
        (fun j hj => hlt j (List.mem_append_right _ hj))
        (Nat.le_refl _) (Nat.le_refl _) hpos hpos hend hend (gf := id) (gt := id)
        (fun R w => run_end ..) (fun R w => run_end ..)
      have notin : ∀ {j}, j ∉ t ++ f → j ∉ t ∧ j ∉ f := fun h =>
        ⟨fun a => h (List.mem_append_left _ a), fun a => h (List.mem_append_right _ a)⟩
      have hjl : ∀ j ∈ s.jpc, j ∉ t ++ f := fun j hj h => (hp j h).2 hj
      have hup : ∀ j ∈ t ++ f, ∀ R, listUpd s.code (some reg) id j R = valUpd s.code reg t j R := by
        intro j hj R
        have : (ctl s.code j).isSome = true := by
          rcases List.mem_append.1 hj with h | h
          · exact needValue_false hneed'.1 j h
          · exact needValue_false hneed'.2 j h
        unfold listUpd valUpd upd
        cases hc : ctl s.code j with
        | none => rw [hc] at this; cases this
        | some b => rfl
      refine ⟨⟨b1, ?_, hw.nodup, ?_⟩, ?_, ?_, trivial, trivial, trivial, ?_⟩
      · intro j hj
        exact (b3 j (hw.jpc j hj) (notin (hjl j hj)).1 (notin (hjl j hj)).2).1
      · intro _
        dsimp only
        rw [patchlistaux_length, patchlistaux_length]
      · intro R w
        unfold H
        dsimp only
        rw [b2]
        have hfl : ∀ o : Res (Out W), andThen o (fallG false reg) = o := fun o => andThen_fall o
        rw [hfl]
        cases hrr : run P K s.code 0 R w with
        | err m => rfl
        | ub => rfl
        | ok o =>
          cases o with
          | fall R' w' => rfl
          | exit j R' w' =>
            simp only [handle]
            by_cases h1 : j ∈ f
            · have hjm := List.mem_append_right t h1
              rw [if_pos h1]
              simp only [closing]
              rw [if_neg (hp j hjm).2]
              simp only [valH]
              rw [if_pos hjm]
              dsimp only
              rw [hup j hjm]
            · rw [if_neg h1]
              by_cases h2 : j ∈ t
              · have hjm := List.mem_append_left f h2
                rw [if_pos h2]
                simp only [closing]
                rw [if_neg (hp j hjm).2]
                simp only [valH]
                rw [if_pos hjm]
                dsimp only
                rw [hup j hjm]
              · rw [if_neg h2]
                have hjm : j ∉ t ++ f := by rw [List.mem_append]; exact fun h => h.elim h2 h1
                simp only [closing]
                by_cases h3 : j ∈ s.jpc
                · rw [if_pos h3]
                · rw [if_neg h3]
                  simp only [valH]
                  rw [if_neg hjm]
      · intro j hj hjm
        have := b3 j hj.1 (notin hjm).1 (notin hjm).2
        exact ⟨⟨this.1, hj.2⟩, this.2⟩
      · rw [patchlistaux_length, patchlistaux_length]; exact Nat.le_refl _

/-! ### exp2reg -/

/-- the value in a register -/
def regSem (r : Nat) : Regs → W → Res (Val × W) := fun R w => .ok (R r, w)

theorem valUpd_match {keep : Nat → Prop} {reg : Nat} (hr : ¬ keep reg) {c c' : List Instr} {t f t' f' : List Nat}
    (hn : (t ++ f).Nodup) {R : Regs} {ev : Res (Val × W)} {o : Res (Out W)}
    (hm : Match keep c t f (regSem reg) R ev o) :
    Match keep c' t' f' (regSem reg) R ev (handle (valH c reg t f) o) := by
  obtain ⟨_, _, hdis⟩ := List.nodup_append.1 hn
  rcases o with ⟨⟨R', w'⟩ | ⟨j, R', w'⟩⟩ | m | _
  · exact hm
  · obtain ⟨h1, v, h2, h3, h4⟩ := hm
    unfold handle valH
    dsimp only
    rw [if_pos (mem_lists h3)]
    have : valUpd c reg t j R' = R'.set reg v := by
      unfold valUpd
      unfold JV at h4
      cases hc : ctl c j with
      | some b => rw [hc] at h4; dsimp only at h4 ⊢; rw [h4]
      | none =>
        rw [hc] at h4
        dsimp only at h4 ⊢
        have hd : decide (j ∈ t) = v.truthy := by
          cases hv : v.truthy with
          | true => rw [hv] at h3; exact decide_eq_true h3
          | false =>
            rw [hv] at h3
            exact decide_eq_false (fun h => hdis j h j h3 rfl)
        rw [hd, ← h4]
    dsimp only
    rw [this]
    refine ⟨fun x hx => ?_, ?_⟩
    · rw [Regs.set_ne]
      · exact h1 x hx
      · intro e; subst e; exact hr hx
    · rw [h2]
      show Res.ok (R'.set reg v reg, w') = _
      rw [Regs.set_self]
  · exact hm
  · exact hm

theorem closeLists {keep : Nat → Prop} {s0 sA : FS} {gA : Regs → W → Res (Out W)} (he : Ext P K s0 sA gA)
    {reg : Nat} (hr : ¬ keep reg) {isJmp : Bool} {t f : List Nat}
    (hp : ∀ j ∈ t ++ f, Pend sA j ∧ s0.code.length ≤ j) (hn : (t ++ f).Nodup) (hne : t ++ f ≠ [])
    (hi : isJmp = true → ∃ j ∈ t, ctl sA.code j = none) {ev : Regs → W → Res (Val × W)}
    (hm : sA.k <+: K → ∀ R w, Match keep sA.code t f (regSem reg) R (ev R w)
      (andThen (gA R w) (fallG isJmp reg))) {d : D} (hdk : d.kind = .nonreloc reg) (hdt : d.t = []) (hdf : d.f = []) :
    (exp2regJumps sA isJmp t f reg).freereg = sA.freereg ∧
    (exp2regJumps sA isJmp t f reg).k = sA.k ∧
    ∃ g, Spec P K keep s0 (exp2regJumps sA isJmp t f reg) d ev (exp2regJumps sA isJmp t f reg) (regSem reg) g := by
  obtain ⟨x1, x2, x3, x4, x5, x6, x7⟩ := exp2regJumps_spec (P := P) (K := K) he.wf (fun j hj => (hp j hj).1) hn hne hi
  refine ⟨x6, x4, fun R w => handle (valH sA.code reg t f) (andThen (gA R w) (fallG isJmp reg)),
    ⟨?_, ⟨x1, ?_, ?_, ?_, ?_, ?_⟩, ?_, ?_, ?_⟩⟩
  · rw [hdk]; exact ⟨rfl, rfl⟩
  · intro R w
    rw [x2, he.step, andThen_assoc]
    refine handle_andThen (fun j hj => ?_) _ R w
    unfold valH
    rw [if_neg]
    intro hjm
    have := (hp j hjm).2
    have := hj.lt
    omega
  · intro j hj
    obtain ⟨h1, h2⟩ := he.frame j hj
    have hjm : j ∉ t ++ f := by
      intro hjm
      have := (hp j hjm).2
      have := hj.lt
      omega
    obtain ⟨h3, h4⟩ := x3 j h1 hjm
    exact ⟨h3, h4.trans h2⟩
  · rw [x4]; exact he.k
  · rw [x5]; exact he.nact
  · exact Nat.le_trans he.len x7
  · intro hK R w
    rw [hdt, hdf]
    rw [x4] at hK
    exact valUpd_match hr hn (hm hK R w)
  · rw [hdt, hdf]; intro j hj; cases hj
  · rw [hdt, hdf]; exact List.nodup_nil

theorem exp2reg_spec {keep : Nat → Prop} {s0 s : FS} {d : D} {ev : Regs → W → Res (Val × W)} {q : FS}
    {sem : Regs → W → Res (Val × W)} {g : Regs → W → Res (Out W)} (hs : Spec P K keep s0 s d ev q sem g)
    (hd : d.kind.disch = true) {reg : Nat} (hr : ¬ keep reg) :
    (exp2reg s d reg).2 = { d with kind := .nonreloc reg, t := [], f := [] } ∧
    s.k <+: (exp2reg s d reg).1.k ∧ (exp2reg s d reg).1.freereg = s.freereg ∧
    ∃ g', Spec P K keep s0 (exp2reg s d reg).1 (exp2reg s d reg).2 ev (exp2reg s d reg).1 (regSem reg) g' := by
  by_cases hj : ∃ j, d.kind = .jmp j
  · obtain ⟨j, hj⟩ := hj
    have hp := hs.pre
    rw [hj] at hp
    obtain ⟨o, a, x, y, hse, hje, hjpc, hsem⟩ := hp
    have hX : exp2reg s d reg =
        (exp2regJumps s true (d.t ++ [j]) d.f reg, { d with kind := .nonreloc reg, t := [], f := [] }) := by
      unfold exp2reg discharge2reg
      rw [dischargevars_id hd]
      simp only [hj]
      rw [if_pos (by simp)]
    rw [hX]
    have hq : Ext P K q s (testG P K (.rel o a x y) (q.code.length + 1)) := by
      rw [hse]
      exact addCode_ext hs.ext.wf hjpc (Block.cond (i := .rel o a x y) rfl (fun _ _ _ e => nomatch e))
        (fun R w => run_cond rfl R w)
    have hcj : ctl s.code j = none := by
      rw [hje]
      unfold ctl
      have : s.code[q.code.length]? = some (.rel o a x y) := by
        rw [hse]; simp [addCode]
      dsimp only
      rw [this]
    have hjc : s.code[j]? = some (Instr.jmp none) := by
      rw [hse, hje]; simp [addCode]
    have hsj : s.jpc = [] := by rw [hse]; exact hjpc
    have hnd : (d.t ++ [j] ++ d.f).Nodup := by
      have h0 := hs.nodup
      have hnot : ∀ i ∈ d.t ++ d.f, i ≠ j := by
        intro i hi e
        have := (hs.pend i hi).1.lt
        omega
      rw [List.append_assoc]
      obtain ⟨a1, a2, a3⟩ := List.nodup_append.1 h0
      refine List.nodup_append.2 ⟨a1, List.nodup_cons.2 ⟨?_, a2⟩, ?_⟩
      · intro h
        exact hnot j (List.mem_append_right _ h) rfl
      · intro i hi k hk
        rcases List.mem_cons.1 hk with rfl | hk
        · exact hnot i (List.mem_append_left _ hi)
        · exact a3 i hi k hk
    have hpd : ∀ i ∈ d.t ++ [j] ++ d.f, Pend s i ∧ s0.code.length ≤ i := by
      intro i hi
      have hi' : i ∈ d.t ++ d.f ∨ i = j := by
        simp only [List.mem_append, List.mem_singleton] at hi ⊢
        rcases hi with (h | h) | h
        · exact Or.inl (Or.inl h)
        · exact Or.inr h
        · exact Or.inl (Or.inr h)
      rcases hi' with hi' | rfl
      · obtain ⟨h1, h2⟩ := hs.pend i hi'
        exact ⟨(hq.frame i h1).1, h2⟩
      · refine ⟨⟨hjc, by rw [hsj]; simp⟩, ?_⟩
        have := hs.ext.len
        omega
    have hcl := closeLists (keep := keep) (hs.ext.trans hq) hr (isJmp := true) hpd hnd (by simp)
      (fun _ => ⟨j, by simp, hcj⟩) (ev := ev) ?_ (d := { d with kind := .nonreloc reg, t := [], f := [] }) rfl rfl rfl
    · obtain ⟨c1, c2, c3⟩ := hcl
      refine ⟨rfl, ?_, c1, c3⟩
      dsimp only
      rw [c2]; exact List.prefix_refl _
    · intro hK R w
      rw [andThen_assoc]
      refine (hs.mat hK R w).next (fun i hi => (hq.frame i (hs.pend i hi).1).2)
        (fun i hi => List.mem_append_left _ hi) (fun i hi => hi) ?_
      intro R' w' h1 h2
      rw [hsem]
      unfold relSem testG Instr.exec
      dsimp only
      cases hrel : P.rel o (x.get K R') (y.get K R') w' with
      | err m => rfl
      | ub => rfl
      | ok p =>
        obtain ⟨r, w''⟩ := p
        dsimp only
        by_cases hra : r = a
        · rw [if_pos hra]
          refine ⟨h1, .bool true, by rw [hra]; simp, ?_, ?_⟩
          · simp [Val.truthy, hje]
          · unfold JV
            rw [← hje, hcj]
            rfl
        · rw [if_neg hra]
          refine ⟨fun z hz => ?_, ?_⟩
          · rw [if_pos rfl, Regs.set_ne]
            · exact h1 z hz
            · intro e; subst e; exact hr hz
          · unfold regSem
            rw [if_pos rfl, Regs.set_self]
            have : (r == a) = false := by simpa using hra
            rw [this]
  · have hj' : ∀ j, d.kind ≠ .jmp j := fun j e => hj ⟨j, e⟩
    obtain ⟨y1, y2, y3, h, y4, y5⟩ := discharge2reg_ext hs.pre hs.ext.wf hd hj' reg
    have hX : exp2reg s d reg =
        (if (!d.t.isEmpty || !d.f.isEmpty) = true then exp2regJumps (discharge2reg s d reg).1 false d.t d.f reg
          else (discharge2reg s d reg).1, { d with kind := .nonreloc reg, t := [], f := [] }) := by
      unfold exp2reg
      generalize hg : discharge2reg s d reg = r at y1
      obtain ⟨s1, d1⟩ := r
      dsimp only at y1
      subst y1
      rfl
    rw [hX]
    generalize (discharge2reg s d reg).1 = sA at *
    have hA : Spec P K keep s0 sA { d with kind := .nonreloc reg } ev sA (regSem reg) (fun R w => andThen (g R w) h) :=
      hs.next (d' := { d with kind := .nonreloc reg }) ⟨rfl, rfl⟩ y4 y2 rfl rfl
        (fun hK R R' w' ha => by rw [y5 hK]; exact setG_match hr sem w' ha)
    by_cases hl : (!d.t.isEmpty || !d.f.isEmpty) = true
    · rw [if_pos hl]
      have hne : d.t ++ d.f ≠ [] := by
        intro e
        have := List.append_eq_nil_iff.1 e
        rw [this.1, this.2] at hl
        cases hl
      obtain ⟨c1, c2, c3⟩ := closeLists (keep := keep) hA.ext hr (isJmp := false) hA.pend hA.nodup hne
        (fun h => by cases h) (ev := ev) (fun hK R w => by
          have : andThen (andThen (g R w) h) (fallG false reg) = andThen (g R w) h := andThen_fall _
          rw [this]
          exact hA.mat hK R w) (d := { d with kind := .nonreloc reg, t := [], f := [] }) rfl rfl rfl
      refine ⟨rfl, ?_, c1.trans y3, c3⟩
      dsimp only
      rw [c2]; exact y2
    · rw [if_neg hl]
      have hl' : d.t = [] ∧ d.f = [] := by simpa using hl
      refine ⟨rfl, y2, y3, _, hA.same (d' := { d with kind := .nonreloc reg, t := [], f := [] }) ⟨rfl, rfl⟩
        (Ext.refl hA.ext.wf) (List.prefix_refl _) hl'.1.symm hl'.2.symm⟩

end Verif.ExpCode
