import Verif.Stat.Mach
/-! The code of an expression within the code of a function. -/
namespace Verif.Stat
open Verif.ExpCode
open Verif.Fold (FOps)
variable {W : Type} {P : Ops W} {K : List Val} {α : Type}

/-- an instruction that does nothing -/
def nop : Instr := .set 0 (.move 0)

def nops (m : Nat) : List Instr := List.replicate m nop

theorem nops_get {m i : Nat} {x : Instr} (h : (nops m)[i]? = some x) : x = nop := by
  unfold nops at h
  rw [List.getElem?_replicate] at h
  split at h
  · cases h; rfl
  · cases h

/-- the state `s` with other code before -/
def bar (s : FS) : FS := { s with code := nops s.code.length, jpc := [] }

theorem bar_length (s : FS) : (bar s).code.length = s.code.length := List.length_replicate

theorem bar_bar {s : FS} (h : s.lasttarget = s.pc) : Bar s.code.length (bar s) := by
  refine ⟨by rw [bar_length]; exact Nat.le_refl _, Nat.le_of_eq h.symm, (fun _ h => nomatch h), ?_⟩
  intro x hx
  rw [List.eq_of_mem_replicate hx]
  rfl

theorem rep_bar (s : FS) : rep s.code s.jpc (bar s) = s := by
  rw [rep_eq (bar_length s)]
  rfl

theorem rep_bar0 (s : FS) : rep (nops s.code.length) [] (bar s) = bar s := by
  rw [rep_eq (by rw [bar_length]; exact List.length_replicate.symm)]
  rfl

theorem bar_wf {s : FS} (h : s.lasttarget = s.pc) : WF (bar s) := by
  refine ⟨⟨?_, ?_, ?_, ?_, ?_⟩, (fun _ h => nomatch h), List.nodup_nil, (fun h => absurd rfl h)⟩
  · intro i x hx ht
    rw [nops_get hx] at ht
    cases ht
  · intro i a b hx
    cases nops_get hx
  · intro i t hx
    cases nops_get hx
  · intro i a b c hx
    cases nops_get hx
  · show s.lasttarget ≤ (bar s).code.length
    rw [bar_length, h]
    exact Nat.le_refl _

theorem run_nops (m : Nat) (d : List Instr) (R : Regs) (w : W) : ∀ i, i ≤ m →
    ExpCode.run P K (nops m ++ d) (m - i) R w = ExpCode.run P K (nops m ++ d) m R w := by
  intro i
  induction i with
  | zero => intro _; rfl
  | succ i ih =>
    intro h
    have hg : (nops m ++ d)[m - (i + 1)]? = some nop := by
      rw [List.getElem?_append_left (by unfold nops; rw [List.length_replicate]; omega)]
      unfold nops
      rw [List.getElem?_replicate, if_pos (by omega)]
    rw [run_exec hg (fun _ e => nomatch e), ← ih (by omega)]
    show ExpCode.run P K _ (m - (i + 1) + 1 + 0) (R.set 0 (R 0)) w = _
    rw [Regs.set_same]
    congr 1
    omega

theorem bar_H (s : FS) (R : Regs) (w : W) : H P K (bar s) R w = .ok (.fall R w) := by
  unfold H
  show handle (closing []) (ExpCode.run P K (nops s.code.length) 0 R w) = _
  rw [handle_closing_nil]
  have h := run_nops (P := P) (K := K) s.code.length [] R w s.code.length (Nat.le_refl _)
  rw [List.append_nil, Nat.sub_self] at h
  rw [h]
  have e : (nops s.code.length).length = s.code.length := List.length_replicate
  have := run_end (P := P) (K := K) (nops s.code.length) R w
  rw [e] at this
  exact this

/-- a generator function, on a state and on the state with other code before -/
theorem twin {f : FS → Res (FS × α)} {Q : Nat → FS → α → Prop}
    (hf : ∀ (pre : List Instr) (J : List Nat) (s : FS), Bar pre.length s →
      Rp pre J s.code.length (f (rep pre J s)) (f s) (Q pre.length))
    {s s' : FS} {x : α} (h : f s = .ok (s', x)) (hl : s.lasttarget = s.pc) :
    ∃ sb, f (bar s) = .ok (sb, x) ∧ s' = rep s.code s.jpc sb ∧ sb = rep (nops s.code.length) [] sb ∧
      Bar s.code.length sb ∧ Q s.code.length sb x := by
  have h1 := hf s.code s.jpc (bar s) (bar_bar hl)
  rw [rep_bar, h] at h1
  unfold Rp at h1
  generalize hfb : f (bar s) = y at h1
  rcases y with ⟨sb, y⟩ | e | _
  · obtain ⟨e1, h2, h3, h4⟩ := h1
    cases e1
    refine ⟨sb, rfl, rfl, ?_, h2, h4⟩
    have hn : (nops s.code.length).length = s.code.length := List.length_replicate
    have h5 := hf (nops s.code.length) [] (bar s) (by rw [hn]; exact bar_bar hl)
    rw [rep_bar0, hfb] at h5
    exact (Prod.mk.inj (Res.ok.inj h5.1)).1
  · cases h1
  · cases h1

theorem piece {s s' sb : FS} {l : List Nat} {g : Regs → W → Res (Out W)} (hs : s' = rep s.code s.jpc sb)
    (hsb : sb = rep (nops s.code.length) [] sb) (hb : Bar s.code.length sb) (hx : Ext P K (bar s) sb g)
    (hl : ∀ j ∈ l, Pend sb j ∧ s.code.length ≤ j) (hn : l.Nodup) :
    Tr s s' l ∧ s'.nactvar = s.nactvar ∧ s'.k = sb.k ∧ s'.freereg = sb.freereg ∧
    ∀ X, Inv s.code (s.jpc ++ X) → ∀ C, OK C s' → ∀ R w,
      Ex P K C (.run s.pc R w) (g R w) s'.pc := by
  have hg : ∀ R w, H P K sb R w = g R w := by
    intro R w
    rw [hx.step, bar_H]
    rfl
  have hnl : (nops s.code.length).length = s.code.length := List.length_replicate
  have hact : s'.nactvar = s.nactvar ∧ s'.k = sb.k ∧ s'.freereg = sb.freereg := by
    rw [hs, rep_nactvar, rep_k, rep_freereg]
    exact ⟨hx.nact, rfl, rfl⟩
  have hk : s.k <+: s'.k := by rw [hact.2.1]; exact hx.k
  rcases Nat.eq_or_lt_of_le hb.le with e | e
  · have hl0 : l = [] := by
      cases l with
      | nil => rfl
      | cons j l =>
        obtain ⟨h1, h2⟩ := hl j (List.mem_cons_self ..)
        have := h1.lt
        omega
    subst hl0
    have hs' := hs
    rw [rep_eq e.symm] at hs'
    refine ⟨Tr.same (by rw [hs']) (by rw [hs']) hk, hact.1, hact.2.1, hact.2.2, ?_⟩
    intro X hX C hC R w
    have hpc : s'.pc = s.pc := by unfold FS.pc; rw [hs']
    have : g R w = .ok (.fall R w) := by
      rw [← hg]
      have hj := hb.jpcL.empty e.symm
      have hc : sb.code = nops s.code.length := by
        have h1 := congrArg FS.code hsb
        rw [rep_eq (by rw [hnl]; exact e.symm)] at h1
        exact h1
      unfold H
      rw [hj, handle_closing_nil, hc]
      have h := run_nops (P := P) (K := K) s.code.length [] R w s.code.length (Nat.le_refl _)
      rw [List.append_nil, Nat.sub_self] at h
      rw [h]
      have := run_end (P := P) (K := K) (nops s.code.length) R w
      rw [hnl] at this
      exact this
    rw [this, hpc]
    exact Go.refl _
  · have hs' := hs
    rw [rep_gt e] at hs'
    have hcode : s'.code = patchlistaux s.code s.jpc s.pc none s.pc ++ sb.code.drop s.code.length := by rw [hs']; rfl
    have hjpc : s'.jpc = sb.jpc := by rw [hs']; rfl
    have hget : ∀ i, s.code.length ≤ i → s'.code[i]? = sb.code[i]? := by
      intro i hi
      rw [hs']
      exact phiC_get hi
    have hlen : s'.code.length = sb.code.length := by rw [hs']; exact phiC_length hb.le
    have hnopc : sb.code = nops s.code.length ++ sb.code.drop s.code.length := by
      have h1 := congrArg FS.code hsb
      rw [rep_gt (by rw [hnl]; exact e)] at h1
      have h2 : (phi (nops s.code.length) [] sb).code = nops s.code.length ++ sb.code.drop (nops s.code.length).length := rfl
      rw [h2, hnl] at h1
      exact h1
    refine ⟨⟨?_, fun X hX C t hC _ => discharge_back hX (hcode ▸ hC.1), ?_, hk⟩, hact.1, hact.2.1, hact.2.2, ?_⟩
    · intro X hX
      obtain ⟨p1, _, _⟩ := patch_inv s.pc s.jpc hX
      have hge : ∀ j ∈ sb.jpc ++ l, s.code.length ≤ j ∧ sb.code[j]? = some (.jmp none) := by
        intro j hj
        rcases List.mem_append.1 hj with hj | hj
        · exact ⟨Nat.le_of_lt (hb.jpc j hj).1, hx.wf.jpc j hj⟩
        · exact ⟨(hl j hj).2, (hl j hj).1.1⟩
      have plen : (patchlistaux s.code s.jpc s.pc none s.pc).length = s.code.length := patchlistaux_length ..
      have pleft : ∀ i, i < s.code.length → s'.code[i]? = (patchlistaux s.code s.jpc s.pc none s.pc)[i]? := by
        intro i hi
        rw [hcode, List.getElem?_append_left (by rw [plen]; exact hi)]
      rw [hjpc]
      refine ⟨?_, ?_, ?_, ?_⟩
      · rw [← List.append_assoc]
        refine List.nodup_append.2 ⟨List.nodup_append.2 ⟨hx.wf.nodup, hn, ?_⟩, p1.nodup, ?_⟩
        · rintro a ha b hb' rfl
          exact (hl a hb').1.2 ha
        · rintro a ha b hb' rfl
          have h1 := (hge a ha).1
          have h2 := p1.lt hb'
          rw [plen] at h2
          omega
      · intro j hj
        rw [← List.append_assoc] at hj
        rcases List.mem_append.1 hj with hj | hj
        · rw [hget j (hge j hj).1]; exact (hge j hj).2
        · have h2 := p1.lt hj
          rw [plen] at h2
          rw [pleft j h2]
          exact p1.jmp j hj
      · intro i a b cc h1 h2
        rcases Nat.lt_or_ge i s.code.length with hi | hi
        · rw [pleft i hi] at h1
          rcases Nat.lt_or_ge (i + 1) s.code.length with hi1 | hi1
          · rw [pleft _ hi1] at h2
            exact p1.ts i a b cc h1 h2
          · exact absurd (by rw [plen, show s.code.length - 1 = i by omega]; exact h1) (p1.last a b cc)
        · rw [hget i hi] at h1
          rw [hget _ (by omega)] at h2
          exact hx.wf.code.ts i a b cc h1 h2
      · intro a b cc h1
        rw [hlen, hget _ (by omega)] at h1
        obtain ⟨t, h2⟩ := hx.wf.code.test _ _ h1 rfl
        have := getElem?_lt h2
        omega
    · unfold FS.pc
      rw [hlen]; exact hb.le
    · intro X hX C hC R w
      have hle : sb.lasttarget ≤ sb.code.length := hx.wf.code.le
      have hlift := lift (P := P) (K := K) (C := C) (m := s.code.length) (hx.wf.code.mono hle (Nat.le_refl _)) hb.nr
        (fun i x hi hxi => hC.1 i x (by rw [hget i hi]; exact hxi)) _ s.code.length rfl (Nat.le_refl _) hb.le R w
      have hr : ExpCode.run P K sb.code 0 R w = ExpCode.run P K sb.code s.code.length R w := by
        rw [hnopc]
        have := run_nops (P := P) (K := K) s.code.length (sb.code.drop s.code.length) R w s.code.length (Nat.le_refl _)
        rw [Nat.sub_self] at this
        exact this
      rw [← hr] at hlift
      have hgw := hg R w
      unfold H at hgw
      have hpc : s'.pc = sb.code.length := hlen
      rw [hpc, ← hgw]
      cases ho : ExpCode.run P K sb.code 0 R w with
      | err e => rw [ho] at hlift; exact hlift
      | ub => rw [ho] at hlift; exact hlift
      | ok o =>
        rw [ho] at hlift
        cases o with
        | fall R' w' => exact hlift
        | exit j R' w' =>
          unfold handle closing
          dsimp only
          by_cases hj : j ∈ sb.jpc
          · rw [if_pos hj]
            have ht := hC.2
            rw [hjpc, hpc] at ht
            exact Go.trans hlift (ht.go hj R' w')
          · rw [if_neg hj]
            exact hlift

end Verif.Stat
