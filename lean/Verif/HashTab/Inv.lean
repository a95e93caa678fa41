import Verif.HashTab.Lemmas
/-! The invariant of a table, and what each operation does to it. -/
namespace Verif.HashTab

variable {K V : Type} {eq : K → K → Bool} {hashf : K → Nat}

/-- What the user's two functions must satisfy.  (`eq k k` need not hold.) -/
structure KeyOK (eq : K → K → Bool) (hashf : K → Nat) : Prop where
  symm : ∀ a b, eq a b = true → eq b a = true
  trans : ∀ a b c, eq a b = true → eq b c = true → eq a c = true
  hash : ∀ a b, eq a b = true → hashf a = hashf b

structure Inv (eq : K → K → Bool) (hashf : K → Nat) (t : HT K V) : Prop where
  idx : t.sizeIndex < 30
  sz : hashSizes[t.sizeIndex]? = some (t.maxEntries, t.size, t.rehash)
  path : ∀ a, a < t.size → ∀ h k v, t.tab a = .present h k v → h = hashf k ∧
    ∃ j, j < t.size ∧ probe t.size h j = a ∧ ∀ j', j' < j → t.tab (probe t.size h j') ≠ .free
  uniq : ∀ a b, a < t.size → b < t.size → a ≠ b → ∀ h k v h' k' v',
    t.tab a = .present h k v → t.tab b = .present h' k' v' → eq k k' = false
  ent : t.entries = (items t).length
  del : t.deleted = (dels t).length
  cap : t.entries + t.deleted ≤ t.maxEntries

theorem Inv.sizes {t : HT K V} (hi : Inv eq hashf t) : t.maxEntries = 2 ^ (t.sizeIndex + 1) ∧
    t.rehash = t.size - 2 ∧ t.size.Prime ∧ 5 ≤ t.size ∧ t.maxEntries < t.size ∧
    t.size + t.size < 2 ^ 32 := by
  obtain ⟨s, h1, h2, h3, h4, h5⟩ := sizes_ok hi.idx
  have h := hi.sz
  rw [h1] at h
  injection h with h
  injection h with ha hb
  injection hb with hb hc
  exact ⟨ha.symm, by omega, by rw [← hb]; exact h2, by omega, by omega, by omega⟩

theorem Inv.next {t : HT K V} (hi : Inv eq hashf t) (h j : Nat) :
    nextAddr t h (probe t.size h j) = probe t.size h (j + 1) := by
  obtain ⟨-, hr, -, h5, -, hlt⟩ := hi.sizes
  have h1 := step_lt (h := h) h5
  have h2 : probe t.size h j < t.size := probe_lt (by omega)
  unfold nextAddr
  have h3 : (probe t.size h j + (1 + h % (t.size - 2))) % 2 ^ 32
      = probe t.size h j + (1 + h % (t.size - 2)) := Nat.mod_eq_of_lt (by omega)
  rw [hr, h3]
  unfold probe
  rw [Nat.mod_add_mod]
  congr 1
  rw [Nat.succ_mul]
  omega

theorem is_false_of {e : Entry K V} {h : Nat} {k : K} (he : e.is eq h k = false) {h' k' v'}
    (hp : e = .present h' k' v') (hh : h' = h) : eq k k' = false := by
  subst hp hh
  simpa [Entry.is] using he

theorem is_true_of {e : Entry K V} {h : Nat} {k : K} (he : e.is eq h k = true) :
    ∃ k' v', e = .present h k' v' ∧ eq k k' = true := by
  cases e with
  | free => simp [Entry.is] at he
  | deleted => simp [Entry.is] at he
  | present h' k' v' =>
    simp [Entry.is] at he
    exact ⟨k', v', by rw [he.1], he.2⟩

/-- no probe up to the first free entry shows the key -/
def NoMatch (eq : K → K → Bool) (t : HT K V) (h : Nat) (k : K) : Prop :=
  ∀ j, j < t.size → (∃ j', j' ≤ j ∧ t.tab (probe t.size h j') = .free) ∨
    (t.tab (probe t.size h j)).is eq h k = false

theorem NoMatch.none {t : HT K V} {k : K} (hk : KeyOK eq hashf) (hi : Inv eq hashf t)
    (hn : NoMatch eq t (hashf k) k) {a : Nat} (ha : a < t.size) {h' k' v'}
    (ht : t.tab a = .present h' k' v') : eq k k' = false := by
  cases hc : eq k k' with
  | false => rfl
  | true =>
    obtain ⟨h1, j, hj, hp, hb⟩ := hi.path a ha _ _ _ ht
    have he : hashf k = h' := by rw [h1, hk.hash _ _ hc]
    rw [he] at hn
    rcases hn j hj with ⟨j', hj', hf⟩ | hf
    · by_cases hlt : j' < j
      · exact absurd hf (hb j' hlt)
      · have : j' = j := by omega
        subst this
        rw [hp, ht] at hf
        cases hf
    · rw [hp] at hf
      rw [is_false_of hf ht rfl] at hc
      cases hc

theorem searchLoop_spec {t : HT K V} (hi : Inv eq hashf t) (h : Nat) (k : K) : ∀ (n j : Nat),
    j + n = t.size → 0 < n →
    (∀ j', j' < j → (t.tab (probe t.size h j')).is eq h k = false) →
    ∃ r, searchLoop eq t h k (h % t.size) n (probe t.size h j) = .ok r ∧
      match r with
      | some a => a < t.size ∧ ∃ k' v', t.tab a = .present h k' v' ∧ eq k k' = true
      | none => NoMatch eq t h k := by
  obtain ⟨-, -, hp, h5, -, -⟩ := hi.sizes
  intro n
  induction n with
  | zero => intro j _ h0; omega
  | succ n ih =>
    intro j hj _ hb
    have hlt : probe t.size h j < t.size := probe_lt (by omega)
    have hmain : ∀ e, t.tab (probe t.size h j) = e → e ≠ .free →
        ∃ r, (if e.is eq h k then Res.ok (some (probe t.size h j))
          else if nextAddr t h (probe t.size h j) ≠ h % t.size then
            searchLoop eq t h k (h % t.size) n (nextAddr t h (probe t.size h j))
          else .ok none) = .ok r ∧
        match r with
        | some a => a < t.size ∧ ∃ k' v', t.tab a = .present h k' v' ∧ eq k k' = true
        | none => NoMatch eq t h k := by
      intro e he hne
      by_cases hm : e.is eq h k = true
      · rw [if_pos hm]
        refine ⟨_, rfl, hlt, ?_⟩
        obtain ⟨k', v', h1, h2⟩ := is_true_of hm
        exact ⟨k', v', by rw [he, h1], h2⟩
      · rw [if_neg hm]
        have hb' : ∀ j', j' < j + 1 → (t.tab (probe t.size h j')).is eq h k = false := by
          intro j' hj'
          by_cases h' : j' < j
          · exact hb j' h'
          · have : j' = j := by omega
            subst this
            rw [he]
            exact Bool.eq_false_iff.2 hm
        rw [hi.next]
        by_cases hn : n = 0
        · subst hn
          have : j + 1 = t.size := by omega
          rw [this, probe_size]
          simp only [ne_eq, not_true_eq_false, if_false]
          refine ⟨_, rfl, ?_⟩
          intro j' hj'
          exact Or.inr (hb' j' (by omega))
        · rw [if_pos (probe_inj0 hp h5 (by omega) (by omega))]
          exact ih (j + 1) (by omega) (by omega) hb'
    unfold searchLoop
    cases ht : t.tab (probe t.size h j) with
    | free =>
      dsimp only
      refine ⟨_, rfl, ?_⟩
      intro j' hj'
      by_cases h' : j' < j
      · exact Or.inr (hb j' h')
      · exact Or.inl ⟨j, by omega, ht⟩
    | deleted => exact hmain _ ht (fun h => nomatch h)
    | present a b c => exact hmain _ ht (fun h => nomatch h)

theorem search_spec {t : HT K V} (hi : Inv eq hashf t) (h : Nat) (k : K) :
    ∃ r, searchPre eq t h k = .ok r ∧
      match r with
      | some a => a < t.size ∧ ∃ k' v', t.tab a = .present h k' v' ∧ eq k k' = true
      | none => NoMatch eq t h k := by
  obtain ⟨-, -, -, h5, -, -⟩ := hi.sizes
  have := searchLoop_spec hi h k t.size 0 (by omega) (by omega) (fun j' h => by omega)
  rw [probe_zero] at this
  exact this

/-- the first entry not in use, among the first `j` probes -/
def Avail (t : HT K V) (h j : Nat) : Option Nat → Prop
  | none => ∀ j', j' < j → isP (t.tab (probe t.size h j')) = true
  | some a => ∃ j0, j0 < j ∧ a = probe t.size h j0 ∧ isP (t.tab a) = false ∧
      ∀ j', j' < j0 → isP (t.tab (probe t.size h j')) = true

theorem Avail.mono {t : HT K V} {h j j' : Nat} {a : Nat} (ha : Avail t h j (some a)) (hj : j ≤ j') :
    Avail t h j' (some a) := by
  obtain ⟨j0, h1, h2⟩ := ha
  exact ⟨j0, by omega, h2⟩

theorem insertLoop_spec {t : HT K V} (hi : Inv eq hashf t) (h : Nat) (k : K) : ∀ (n j : Nat)
    (av : Option Nat), j + n = t.size → 0 < n →
    (∀ j', j' < j → (t.tab (probe t.size h j')).is eq h k = false) → Avail t h j av →
    ∃ r, insertLoop eq t h k (h % t.size) n (probe t.size h j) av = .ok r ∧
      match r with
      | (some a, _) => a < t.size ∧ ∃ k' v', t.tab a = .present h k' v' ∧ eq k k' = true
      | (none, av) => NoMatch eq t h k ∧ Avail t h t.size av := by
  obtain ⟨-, -, hp, h5, -, -⟩ := hi.sizes
  intro n
  induction n with
  | zero => intro j av _ h0; omega
  | succ n ih =>
    intro j av hj _ hb hav
    have hlt : probe t.size h j < t.size := probe_lt (by omega)
    have hmain : ∀ e av', t.tab (probe t.size h j) = e → e ≠ .free → Avail t h (j + 1) av' →
        ∃ r, (if e.is eq h k then Res.ok (some (probe t.size h j), av')
          else if nextAddr t h (probe t.size h j) ≠ h % t.size then
            insertLoop eq t h k (h % t.size) n (nextAddr t h (probe t.size h j)) av'
          else .ok (none, av')) = .ok r ∧
        match r with
        | (some a, _) => a < t.size ∧ ∃ k' v', t.tab a = .present h k' v' ∧ eq k k' = true
        | (none, av) => NoMatch eq t h k ∧ Avail t h t.size av := by
      intro e av' he hne hav'
      by_cases hm : e.is eq h k = true
      · rw [if_pos hm]
        refine ⟨_, rfl, hlt, ?_⟩
        obtain ⟨k', v', h1, h2⟩ := is_true_of hm
        exact ⟨k', v', by rw [he, h1], h2⟩
      · rw [if_neg hm]
        have hb' : ∀ j', j' < j + 1 → (t.tab (probe t.size h j')).is eq h k = false := by
          intro j' hj'
          by_cases h' : j' < j
          · exact hb j' h'
          · have : j' = j := by omega
            subst this
            rw [he]
            exact Bool.eq_false_iff.2 hm
        rw [hi.next]
        by_cases hn : n = 0
        · subst hn
          have hjs : j + 1 = t.size := by omega
          rw [hjs, probe_size]
          simp only [ne_eq, not_true_eq_false, if_false]
          refine ⟨_, rfl, ?_, by rw [← hjs]; exact hav'⟩
          intro j' hj'
          exact Or.inr (hb' j' (by omega))
        · rw [if_pos (probe_inj0 hp h5 (by omega) (by omega))]
          exact ih (j + 1) av' (by omega) (by omega) hb' hav'
    have hnew : isP (t.tab (probe t.size h j)) = false → av = none →
        Avail t h (j + 1) (some (probe t.size h j)) := by
      intro hf hn
      subst hn
      exact ⟨j, by omega, rfl, hf, hav⟩
    unfold insertLoop
    cases ht : t.tab (probe t.size h j) with
    | free =>
      dsimp only
      refine ⟨_, rfl, ?_, ?_⟩
      · intro j' hj'
        by_cases h' : j' < j
        · exact Or.inr (hb j' h')
        · exact Or.inl ⟨j, by omega, ht⟩
      · cases av with
        | none => exact (hnew (by rw [ht]; rfl) rfl).mono (by omega)
        | some b => exact hav.mono (by omega)
    | deleted =>
      refine hmain _ _ ht (fun h => nomatch h) ?_
      cases av with
      | none => exact hnew (by rw [ht]; rfl) rfl
      | some b => exact hav.mono (by omega)
    | present a b c =>
      refine hmain _ _ ht (fun h => nomatch h) ?_
      cases av with
      | none =>
        intro j' hj'
        by_cases h' : j' < j
        · exact hav j' h'
        · have : j' = j := by omega
          subst this
          rw [ht]; rfl
      | some b => exact hav.mono (by omega)

/-- there is room -/
theorem Inv.room {t : HT K V} (hi : Inv eq hashf t) : ∃ a, a < t.size ∧ t.tab a = .free := by
  obtain ⟨-, -, -, -, hm, -⟩ := hi.sizes
  by_contra hc
  have h1 : ∀ a, a < t.size → ((t.tab a).kv).isSome ∨ ((t.tab a).del).isSome := by
    intro a ha
    cases ht : t.tab a with
    | free => exact absurd ⟨a, ha, ht⟩ hc
    | deleted => right; rfl
    | present h k v => left; rfl
  have h2 := fm_len h1
  have h3 := hi.ent
  have h4 := hi.del
  have h5 := hi.cap
  unfold items at h3
  unfold dels at h4
  omega

theorem filter_no {k : K} {l : List (K × V)} (h : ∀ x ∈ l, eq k x.1 = false) :
    l.filter (fun x => !eq k x.1) = l := by
  rw [List.filter_eq_self]
  intro x hx
  simp [h x hx]

/-- `insert`, once there is room for another entry -/
theorem insertCore_ok {t : HT K V} (hk : KeyOK eq hashf) (hi : Inv eq hashf t)
    (hcap : t.entries + t.deleted < t.maxEntries) (k : K) (v : V) :
    ∃ t' a, insertCore eq t (hashf k) k v = .ok (t', some a) ∧ Inv eq hashf t' ∧
      a < t'.size ∧ t'.tab a = .present (hashf k) k v ∧
      t'.sizeIndex = t.sizeIndex ∧ t'.deleted ≤ t.deleted ∧
      (items t').Perm ((k, v) :: (items t).filter (fun x => !eq k x.1)) := by
  obtain ⟨-, -, hp, h5, -, -⟩ := hi.sizes
  obtain ⟨r, hr, hpost⟩ := insertLoop_spec hi (hashf k) k t.size 0 none (by omega) (by omega)
    (fun j' h => by omega) (fun j' h => by omega)
  rw [probe_zero] at hr
  unfold insertCore
  rw [hr]
  obtain ⟨f, av⟩ := r
  cases f with
  | some a =>
    dsimp only at hpost ⊢
    obtain ⟨ha, k0, v0, ht, he⟩ := hpost
    refine ⟨_, a, rfl, ?_⟩
    have hsp := items_split t ha
    rw [ht] at hsp
    have hpu := items_put t (.present (hashf k) k v) ha
    simp only [Entry.kv, Option.toList_some, List.singleton_append] at hsp hpu
    have hno : ∀ x ∈ rest t a, eq k x.1 = false := by
      intro x hx
      obtain ⟨b, hb, hne, hh, htb⟩ := mem_rest hx
      cases hc : eq k x.1 with
      | false => rfl
      | true =>
        have h1 := hi.uniq a b ha hb (Ne.symm hne) _ _ _ _ _ _ ht htb
        rw [hk.trans _ _ _ (hk.symm _ _ he) hc] at h1
        cases h1
    have hlen : (items (t.put a (.present (hashf k) k v))).length = (items t).length := by
      rw [hpu.length_eq, hsp.length_eq]; simp
    have hdl : (dels (t.put a (.present (hashf k) k v))).length = (dels t).length := by
      have := dels_put t (.present (hashf k) k v) ha
      rw [ht] at this
      simpa [Entry.del] using this
    refine ⟨⟨hi.idx, hi.sz, ?_, ?_, ?_, ?_, hi.cap⟩, ha, tab_put_self _ _ _, rfl, Nat.le_refl _, ?_⟩
    · intro b hb h' k' v' htb
      have hnf : ∀ c, t.tab c ≠ .free → (t.put a (.present (hashf k) k v)).tab c ≠ .free := by
        intro c hc
        by_cases hca : c = a
        · subst hca; rw [tab_put_self]; exact (fun h => nomatch h)
        · rw [tab_put_ne _ _ hca]; exact hc
      by_cases hba : b = a
      · subst hba
        rw [tab_put_self] at htb
        injection htb with e1 e2 e3
        subst e1 e2
        obtain ⟨-, j, h1, h2, h3⟩ := hi.path b ha _ _ _ ht
        exact ⟨rfl, j, h1, h2, fun j' hj' => hnf _ (h3 j' hj')⟩
      · rw [tab_put_ne _ _ hba] at htb
        obtain ⟨h0, j, h1, h2, h3⟩ := hi.path b hb _ _ _ htb
        exact ⟨h0, j, h1, h2, fun j' hj' => hnf _ (h3 j' hj')⟩
    · intro b c hb hc hne h1 k1 v1 h2 k2 v2 ht1 ht2
      have hnot : ∀ b' h1 k1 v1, b' < t.size → b' ≠ a → t.tab b' = .present h1 k1 v1 →
          eq k k1 = false := by
        intro b' h1 k1 v1 hb' hne' htb'
        cases hcc : eq k k1 with
        | false => rfl
        | true =>
          have h1 := hi.uniq a b' ha hb' (Ne.symm hne') _ _ _ _ _ _ ht htb'
          rw [hk.trans _ _ _ (hk.symm _ _ he) hcc] at h1
          cases h1
      by_cases hba : b = a
      · subst hba
        rw [tab_put_self] at ht1
        injection ht1 with e1 e2 e3
        subst e1 e2
        rw [tab_put_ne _ _ (Ne.symm hne)] at ht2
        exact hnot c _ _ _ hc (Ne.symm hne) ht2
      · rw [tab_put_ne _ _ hba] at ht1
        by_cases hca : c = a
        · subst hca
          rw [tab_put_self] at ht2
          injection ht2 with e1 e2 e3
          subst e1 e2
          have := hnot b _ _ _ hb hba ht1
          cases hcc : eq k1 k with
          | false => rfl
          | true => rw [hk.symm _ _ hcc] at this; cases this
        · rw [tab_put_ne _ _ hca] at ht2
          exact hi.uniq b c hb hc hne _ _ _ _ _ _ ht1 ht2
    · show t.entries = _
      rw [hlen]; exact hi.ent
    · show t.deleted = _
      rw [hdl]; exact hi.del
    · refine hpu.trans (List.Perm.cons _ ?_)
      have h1 := hsp.filter (fun x => !eq k x.1)
      rw [List.filter_cons_of_neg (by simp [he]), filter_no hno] at h1
      exact h1.symm
  | none =>
    dsimp only at hpost
    obtain ⟨hn, hav⟩ := hpost
    cases av with
    | none =>
      exfalso
      obtain ⟨a, ha, hf⟩ := hi.room
      obtain ⟨j, hj, hpj⟩ := probe_surj (h := hashf k) hp h5 ha
      have := hav j hj
      rw [hpj, hf] at this
      cases this
    | some a =>
      dsimp only
      obtain ⟨j0, hj0, hpa, hnp, hbef⟩ := hav
      have ha : a < t.size := by rw [hpa]; exact probe_lt (by omega)
      refine ⟨_, a, rfl, ?_⟩
      have hsp := items_split t ha
      have hkv : (t.tab a).kv = none := by
        cases ht : t.tab a with
        | present h k v => rw [ht] at hnp; cases hnp
        | free => rfl
        | deleted => rfl
      rw [hkv] at hsp
      have hpu := items_put t (.present (hashf k) k v) ha
      simp only [Entry.kv, Option.toList_some, List.singleton_append, Option.toList_none,
        List.nil_append] at hsp hpu
      have hno : ∀ x ∈ items t, eq k x.1 = false := by
        intro x hx
        obtain ⟨b, hb, hh, htb⟩ := mem_items.1 hx
        exact hn.none hk hi hb htb
      have hdp := dels_put t (.present (hashf k) k v) ha
      have hitems : items (fill t (hashf k) k v a) = items (t.put a (.present (hashf k) k v)) := rfl
      have hdels : dels (fill t (hashf k) k v a) = dels (t.put a (.present (hashf k) k v)) := rfl
      have htab : ∀ b, (fill t (hashf k) k v a).tab b
          = (t.put a (.present (hashf k) k v)).tab b := fun _ => rfl
      have hent : (fill t (hashf k) k v a).entries = t.entries + 1 := rfl
      have hdel : (fill t (hashf k) k v a).deleted =
          (dels (t.put a (.present (hashf k) k v))).length ∧
          (fill t (hashf k) k v a).deleted ≤ t.deleted := by
        have hd := hi.del
        cases ht : t.tab a with
        | present h k v => rw [ht] at hnp; cases hnp
        | free =>
          rw [ht] at hdp
          simp only [Entry.del, Option.toList_none, List.length_nil] at hdp
          simp only [fill, ht]
          omega
        | deleted =>
          rw [ht] at hdp
          simp only [Entry.del, Option.toList_none, List.length_nil, Option.toList_some,
            List.length_cons] at hdp
          simp only [fill, ht]
          have h1 : (dels t).length
              = (dels (t.put a (.present (hashf k) k v))).length + 1 := by omega
          exact ⟨by rw [hd, h1]; rfl, Nat.sub_le _ _⟩
      refine ⟨⟨hi.idx, hi.sz, ?_, ?_, ?_, ?_, ?_⟩, ha, ?_, rfl, hdel.2, ?_⟩
      · intro b hb h' k' v' htb
        rw [htab] at htb
        have hnf : ∀ c, t.tab c ≠ .free → (fill t (hashf k) k v a).tab c ≠ .free := by
          intro c hc
          rw [htab]
          by_cases hca : c = a
          · subst hca; rw [tab_put_self]; exact (fun h => nomatch h)
          · rw [tab_put_ne _ _ hca]; exact hc
        by_cases hba : b = a
        · subst hba
          rw [tab_put_self] at htb
          injection htb with e1 e2 e3
          subst e1 e2
          refine ⟨rfl, j0, hj0, hpa.symm, fun j' hj' => hnf _ ?_⟩
          intro hf
          have := hbef j' hj'
          change t.tab (probe t.size (hashf k) j') = _ at hf
          rw [hf] at this
          cases this
        · rw [tab_put_ne _ _ hba] at htb
          obtain ⟨h0, j, h1, h2, h3⟩ := hi.path b hb _ _ _ htb
          exact ⟨h0, j, h1, h2, fun j' hj' => hnf _ (h3 j' hj')⟩
      · intro b c hb hc hne h1 k1 v1 h2 k2 v2 ht1 ht2
        rw [htab] at ht1 ht2
        by_cases hba : b = a
        · subst hba
          rw [tab_put_self] at ht1
          injection ht1 with e1 e2 e3
          subst e1 e2
          rw [tab_put_ne _ _ (Ne.symm hne)] at ht2
          exact hn.none hk hi hc ht2
        · rw [tab_put_ne _ _ hba] at ht1
          by_cases hca : c = a
          · subst hca
            rw [tab_put_self] at ht2
            injection ht2 with e1 e2 e3
            subst e1 e2
            have := hn.none hk hi hb ht1
            cases hcc : eq k1 k with
            | false => rfl
            | true => rw [hk.symm _ _ hcc] at this; cases this
          · rw [tab_put_ne _ _ hca] at ht2
            exact hi.uniq b c hb hc hne _ _ _ _ _ _ ht1 ht2
      · rw [hitems, hent, hpu.length_eq, List.length_cons, ← hsp.length_eq, hi.ent]
      · rw [hdels]; exact hdel.1
      · show (fill t (hashf k) k v a).entries + (fill t (hashf k) k v a).deleted ≤ t.maxEntries
        rw [hent]; omega
      · rw [htab, tab_put_self]
      · rw [hitems, filter_no hno]
        exact hpu.trans (List.Perm.cons _ hsp.symm)

/-! ### removing -/

theorem removeEntry_ok {t : HT K V} (hi : Inv eq hashf t) {a : Nat} (ha : a < t.size) {h k v}
    (ht : t.tab a = .present h k v) : Inv eq hashf (removeEntry t (some a)) ∧
      (items t).Perm ((k, v) :: rest t a) ∧ (items (removeEntry t (some a))).Perm (rest t a) := by
  have hsp := items_split t ha
  rw [ht] at hsp
  have hpu := items_put t .deleted ha
  simp only [Entry.kv, Option.toList_some, List.singleton_append, Option.toList_none,
    List.nil_append] at hsp hpu
  have htab : ∀ b, (removeEntry t (some a)).tab b = (t.put a .deleted).tab b := fun _ => rfl
  refine ⟨⟨hi.idx, hi.sz, ?_, ?_, ?_, ?_, ?_⟩, hsp, hpu⟩
  · intro b hb h' k' v' htb
    rw [htab] at htb
    by_cases hba : b = a
    · subst hba; rw [tab_put_self] at htb; cases htb
    · rw [tab_put_ne _ _ hba] at htb
      obtain ⟨h0, j, h1, h2, h3⟩ := hi.path b hb _ _ _ htb
      refine ⟨h0, j, h1, h2, fun j' hj' => ?_⟩
      rw [htab]
      by_cases hca : probe t.size h' j' = a
      · show (t.put a Entry.deleted).tab (probe t.size h' j') ≠ .free
        rw [hca, tab_put_self]; exact (fun h => nomatch h)
      · show (t.put a Entry.deleted).tab (probe t.size h' j') ≠ .free
        rw [tab_put_ne _ _ hca]; exact h3 j' hj'
  · intro b c hb hc hne h1 k1 v1 h2 k2 v2 ht1 ht2
    rw [htab] at ht1 ht2
    by_cases hba : b = a
    · subst hba; rw [tab_put_self] at ht1; cases ht1
    · by_cases hca : c = a
      · subst hca; rw [tab_put_self] at ht2; cases ht2
      · rw [tab_put_ne _ _ hba] at ht1
        rw [tab_put_ne _ _ hca] at ht2
        exact hi.uniq b c hb hc hne _ _ _ _ _ _ ht1 ht2
  · show t.entries - 1 = (items (t.put a .deleted)).length
    rw [hpu.length_eq, hi.ent, hsp.length_eq]; simp
  · show t.deleted + 1 = (dels (t.put a .deleted)).length
    have := dels_put t .deleted ha
    rw [ht] at this
    simp only [Entry.del, Option.toList_none, List.length_nil, Option.toList_some,
      List.length_cons] at this
    rw [hi.del]; omega
  · show t.entries - 1 + (t.deleted + 1) ≤ t.maxEntries
    have h1 := hi.cap
    have h2 : 1 ≤ t.entries := by rw [hi.ent, hsp.length_eq]; simp
    omega

/-! ### growing -/

theorem fresh_inv {i : Nat} (hi : i < 30) : ∃ t : HT K V, fresh i = some t ∧ Inv eq hashf t ∧
    items t = [] ∧ t.deleted = 0 ∧ t.maxEntries = 2 ^ (i + 1) ∧ t.sizeIndex = i := by
  obtain ⟨s, h1, -⟩ := sizes_ok hi
  have hit : ∀ n : Nat, (List.range n).filterMap
      (fun _ => (Entry.free : Entry K V).kv) = [] := by
    intro n; simp [Entry.kv]
  have hdl : ∀ n : Nat, (List.range n).filterMap
      (fun _ => (Entry.free : Entry K V).del) = [] := by
    intro n; simp [Entry.del]
  refine ⟨⟨fun _ => .free, i, s, s - 2, 2 ^ (i + 1), 0, 0⟩,
    by unfold fresh; rw [h1]; rfl, ⟨hi, h1, ?_, ?_, ?_, ?_, Nat.zero_le _⟩, hit _, rfl, rfl, rfl⟩
  · intro a _ h k v h; cases h
  · intro a b _ _ _ h k v h' k' v' h; cases h
  · show 0 = _
    unfold items; rw [hit]; rfl
  · show 0 = _
    unfold dels; rw [hdl]; rfl

/-- inserting when nothing has to grow -/
theorem insertPre_noGrow {t : HT K V} {d : Nat} (h : t.entries + t.deleted < t.maxEntries)
    (hash : Nat) (k : K) (v : V) :
    insertPre eq (d + 1) t hash k v = insertCore eq t hash k v := by
  unfold insertPre
  rw [if_neg (by omega), if_neg (by omega)]

/-- what is at the addresses of a list -/
def kvs (t : HT K V) (l : List Nat) : List (K × V) := l.filterMap (fun a => (t.tab a).kv)

theorem rehashLoop_ok (hk : KeyOK eq hashf) {old : HT K V} (ho : Inv eq hashf old) (d : Nat) :
    ∀ (l : List Nat) (t : HT K V), Inv eq hashf t → t.deleted = 0 → l.Nodup →
    (∀ a ∈ l, a < old.size ∧ isP (old.tab a) = true) →
    (∀ a ∈ l, ∀ h k v, old.tab a = .present h k v → ∀ x ∈ items t, eq k x.1 = false) →
    l.length + t.entries < t.maxEntries →
    ∃ t', rehashLoop (insertPre eq (d + 1)) old t l = .ok t' ∧ Inv eq hashf t' ∧ t'.deleted = 0 ∧
      t'.sizeIndex = t.sizeIndex ∧ (items t').Perm (kvs old l ++ items t) := by
  intro l
  induction l with
  | nil =>
    intro t hi hd _ _ _ _
    exact ⟨t, rfl, hi, hd, rfl, List.Perm.refl _⟩
  | cons a l ih =>
    intro t hi hd hnd hl hne hlen
    obtain ⟨ha, hpa⟩ := hl a (by simp)
    unfold rehashLoop
    cases ht : old.tab a with
    | free => rw [ht] at hpa; cases hpa
    | deleted => rw [ht] at hpa; cases hpa
    | present h k v =>
      dsimp only
      have hh := (ho.path a ha _ _ _ ht).1
      subst hh
      simp only [List.length_cons] at hlen
      obtain ⟨t1, b, hr, hi1, hb, htb, hsi, hdl, hperm⟩ :=
        insertCore_ok hk hi (by omega) k v
      have hno := hne a (by simp) _ _ _ ht
      rw [filter_no hno] at hperm
      rw [insertPre_noGrow (by omega), hr]
      dsimp only
      have hent : t1.entries = t.entries + 1 := by
        rw [hi1.ent, hperm.length_eq, List.length_cons, hi.ent]
      have hmax : t1.maxEntries = t.maxEntries := by
        rw [hi1.sizes.1, hi.sizes.1, hsi]
      obtain ⟨t', h1, h2, h3, h4, h5⟩ := ih t1 hi1 (by omega) (List.nodup_cons.1 hnd).2
        (fun c hc => hl c (by simp [hc])) (by
          intro c hc h' k' v' htc x hx
          rcases List.mem_cons.1 (hperm.mem_iff.1 hx) with hx' | hx'
          · subst hx'
            have hca : c ≠ a := fun e => (List.nodup_cons.1 hnd).1 (e ▸ hc)
            exact ho.uniq c a (hl c (by simp [hc])).1 ha hca _ _ _ _ _ _ htc ht
          · exact hne c (by simp [hc]) _ _ _ htc x hx') (by omega)
      refine ⟨t', h1, h2, h3, by omega, h5.trans ?_⟩
      unfold kvs
      rw [List.filterMap_cons, ht]
      simp only [Entry.kv]
      refine (hperm.append_left _).trans ?_
      exact List.perm_middle

theorem rehashTo_ok (hk : KeyOK eq hashf) {t : HT K V} (hi : Inv eq hashf t) (d : Nat) {i : Nat}
    (hi30 : i < 30) (hroom : t.entries < 2 ^ (i + 1)) :
    ∃ t', rehashTo (insertPre eq (d + 1)) t i = .ok t' ∧ Inv eq hashf t' ∧
      t'.entries + t'.deleted < t'.maxEntries ∧ (items t').Perm (items t) := by
  obtain ⟨t0, h1, h2, h3, h4, h5, h6⟩ := fresh_inv (K := K) (V := V) (eq := eq) (hashf := hashf) hi30
  unfold rehashTo
  rw [h1]
  dsimp only
  have hkv : kvs t (foreach t) = items t := by
    rw [← contents_eq]
    unfold kvs contents
    refine fm_congr fun a _ => ?_
    cases t.tab a <;> rfl
  have hlen : (foreach t).length = t.entries := by
    rw [hi.ent, ← hkv]
    unfold kvs
    rw [foreach_eq]
    generalize List.range t.size = l
    induction l with
    | nil => rfl
    | cons a l ih =>
      cases ht : t.tab a with
      | free => rw [List.filter_cons_of_neg (by simp [ht, isP])]; exact ih
      | deleted => rw [List.filter_cons_of_neg (by simp [ht, isP])]; exact ih
      | present h k v =>
        rw [List.filter_cons_of_pos (by simp [ht, isP]), List.filterMap_cons, ht]
        simp only [Entry.kv, List.length_cons] at ih ⊢
        rw [ih]
  have h0 : t0.entries = 0 := by rw [h2.ent, h3]; rfl
  obtain ⟨t', ha, hb, hc, hd, he⟩ := rehashLoop_ok hk hi d (foreach t) t0 h2 h4
    (by rw [foreach_eq]; exact List.Pairwise.filter _ List.nodup_range)
    (by
      intro a ha
      rw [foreach_eq, List.mem_filter] at ha
      exact ⟨List.mem_range.1 ha.1, ha.2⟩)
    (by intro a _ h k v _ x hx; rw [h3] at hx; cases hx) (by omega)
  rw [h3, List.append_nil, hkv] at he
  refine ⟨t', ha, hb, ?_, he⟩
  rw [hc, hb.sizes.1, hd, h6, hb.ent, he.length_eq, ← hi.ent]
  omega

/-- inserting into a table with fewer than 2^30 entries -/
theorem insert_ok (hk : KeyOK eq hashf) {t : HT K V} (hi : Inv eq hashf t)
    (hlt : (items t).length < 2 ^ 30) (k : K) (v : V) :
    ∃ t' a, insert eq hashf t k v = .ok (t', some a) ∧ Inv eq hashf t' ∧
      a < t'.size ∧ t'.tab a = .present (hashf k) k v ∧
      (items t').Perm ((k, v) :: (items t).filter (fun x => !eq k x.1)) := by
  have hent := hi.ent
  obtain ⟨hmax, -, -, -, -, -⟩ := hi.sizes
  have fin : ∀ t1 : HT K V, Inv eq hashf t1 → t1.entries + t1.deleted < t1.maxEntries →
      (items t1).Perm (items t) → ∃ t' a, insertCore eq t1 (hashf k) k v = .ok (t', some a) ∧
      Inv eq hashf t' ∧ a < t'.size ∧ t'.tab a = .present (hashf k) k v ∧
      (items t').Perm ((k, v) :: (items t).filter (fun x => !eq k x.1)) := by
    intro t1 hi1 hc hp
    obtain ⟨t', a, h1, h2, h3, h4, -, -, h5⟩ := insertCore_ok hk hi1 hc k v
    exact ⟨t', a, h1, h2, h3, h4, h5.trans (List.Perm.cons _ (hp.filter _))⟩
  unfold insert insertPre
  by_cases h1 : t.entries ≥ t.maxEntries
  · rw [if_pos h1]
    have hi30 : t.sizeIndex + 1 < 30 := by
      by_contra hc
      have := Nat.pow_le_pow_right (n := 2) (by omega) (show 30 ≤ t.sizeIndex + 1 by omega)
      omega
    have hcap := hi.cap
    obtain ⟨t', ha, hb, hc, hd⟩ := rehashTo_ok hk hi 0 hi30 (by
      rw [Nat.pow_succ]; have := Nat.one_le_two_pow (n := t.sizeIndex + 1); omega)
    rw [ha]
    exact fin t' hb hc hd
  · rw [if_neg h1]
    by_cases h2 : t.deleted + t.entries ≥ t.maxEntries
    · rw [if_pos h2]
      obtain ⟨t', ha, hb, hc, hd⟩ := rehashTo_ok hk hi 0 hi.idx (by omega)
      rw [ha]
      exact fin t' hb hc hd
    · rw [if_neg h2]
      exact fin t hi (by omega) (List.Perm.refl _)

theorem remove_ok (hk : KeyOK eq hashf) {t : HT K V} (hi : Inv eq hashf t) (k : K) :
    ∃ t', remove eq hashf t k = .ok t' ∧ Inv eq hashf t' ∧
      (items t').Perm ((items t).filter (fun x => !eq k x.1)) := by
  obtain ⟨r, hr, hp⟩ := search_spec hi (hashf k) k
  unfold remove search
  rw [hr]
  cases r with
  | none =>
    refine ⟨t, rfl, hi, ?_⟩
    rw [filter_no]
    intro x hx
    obtain ⟨b, hb, hh, htb⟩ := mem_items.1 hx
    exact NoMatch.none hk hi hp hb htb
  | some a =>
    obtain ⟨ha, k0, v0, ht, he⟩ := hp
    obtain ⟨h1, h2, h3⟩ := removeEntry_ok hi ha ht
    refine ⟨_, rfl, h1, h3.trans ?_⟩
    have h4 := h2.filter (fun x => !eq k x.1)
    have hno : ∀ x ∈ rest t a, eq k x.1 = false := by
      intro x hx
      obtain ⟨b, hb, hne, hh, htb⟩ := mem_rest hx
      cases hc : eq k x.1 with
      | false => rfl
      | true =>
        have h1 := hi.uniq a b ha hb (Ne.symm hne) _ _ _ _ _ _ ht htb
        rw [hk.trans _ _ _ (hk.symm _ _ he) hc] at h1
        cases h1
    rw [List.filter_cons_of_neg (by simp [he]), filter_no hno] at h4
    exact h4.symm

/-- entry of the table after the loop has passed it -/
def pe (p : K → V → Bool) : Entry K V → Entry K V
  | .present h k v => if p k v then .deleted else .present h k v
  | e => e

theorem purgeFrom_ok (p : K → V → Bool) : ∀ (fuel : Nat) (t : HT K V) (e : Option Nat),
    Inv eq hashf t → t.size ≤ after e + fuel →
    Inv eq hashf (purgeFrom p fuel t e) ∧ (purgeFrom p fuel t e).size = t.size ∧
    ∀ b, b < t.size → (purgeFrom p fuel t e).tab b
      = if after e ≤ b then pe p (t.tab b) else t.tab b := by
  intro fuel
  induction fuel with
  | zero =>
    intro t e hi hf
    refine ⟨hi, rfl, fun b hb => ?_⟩
    rw [if_neg (by omega)]; rfl
  | succ fuel ih =>
    intro t e hi hf
    have hn : nextEntry t e = nextFrom t (t.size - after e) (after e) := by
      cases e <;> rfl
    have hs := nextFrom_spec t (t.size - after e) (after e)
    have skip : ∀ b, after e ≤ b → b < t.size → b ∉ (List.range' (after e) (t.size - after e)).filter
        (fun b => isP (t.tab b)) → pe p (t.tab b) = t.tab b := by
      intro b hb hlt hnm
      cases ht : t.tab b with
      | free => rfl
      | deleted => rfl
      | present h k v =>
        exfalso
        apply hnm
        rw [List.mem_filter, List.mem_range'_1]
        exact ⟨by omega, by rw [ht]; rfl⟩
    unfold purgeFrom
    rw [hn]
    split at hs
    · rename_i he
      rw [he]
      refine ⟨hi, rfl, fun b hb => ?_⟩
      dsimp only
      split
      · rename_i hab
        rw [skip b hab hb (by rw [hs]; simp)]
      · rfl
    · rename_i a he
      rw [he]
      obtain ⟨h1, h2, h3, h4⟩ := hs
      have ha : a < t.size := by omega
      dsimp only
      cases ht : t.tab a with
      | free => rw [ht] at h3; cases h3
      | deleted => rw [ht] at h3; cases h3
      | present h k v =>
        dsimp only
        have hafter : after (some a) = a + 1 := rfl
        have key : ∀ t1 : HT K V, Inv eq hashf t1 → t1.size = t.size →
            (∀ b, t1.tab b = if b = a then pe p (t.tab a) else t.tab b) →
            Inv eq hashf (purgeFrom p fuel t1 (some a)) ∧
            (purgeFrom p fuel t1 (some a)).size = t.size ∧
            ∀ b, b < t.size → (purgeFrom p fuel t1 (some a)).tab b
              = if after e ≤ b then pe p (t.tab b) else t.tab b := by
          intro t1 hi1 hsz htb
          obtain ⟨g1, g2, g3⟩ := ih t1 (some a) hi1 (by omega)
          refine ⟨g1, by omega, fun b hb => ?_⟩
          rw [g3 b (by omega), htb b, hafter]
          by_cases hba : b = a
          · subst hba
            rw [if_neg (by omega), if_pos rfl, if_pos h1]
          · rw [if_neg hba]
            by_cases hlt : a + 1 ≤ b
            · rw [if_pos hlt, if_pos (by omega)]
            · rw [if_neg hlt]
              split
              · rename_i hab
                rw [skip b hab hb ?_]
                rw [h4]
                simp only [List.mem_cons, List.mem_filter, List.mem_range'_1, not_or, not_and]
                exact ⟨hba, fun h => by omega⟩
              · rfl
        by_cases hpk : p k v = true
        · rw [if_pos hpk]
          obtain ⟨g1, -, -⟩ := removeEntry_ok hi ha ht
          refine key _ g1 rfl (fun b => ?_)
          show (t.put a .deleted).tab b = _
          rw [ht]
          simp only [pe, hpk, if_true]
          rfl
        · rw [if_neg hpk]
          refine key t hi rfl (fun b => ?_)
          split
          · rename_i hba
            rw [hba, ht]; simp [pe, hpk]
          · rfl

theorem purge_ok (p : K → V → Bool) {t : HT K V} (hi : Inv eq hashf t) :
    Inv eq hashf (purge p t) ∧
      items (purge p t) = (items t).filter (fun x => !p x.1 x.2) := by
  obtain ⟨h1, h2, h3⟩ := purgeFrom_ok p t.size t none hi (by simp [after])
  refine ⟨h1, ?_⟩
  unfold items purge
  rw [h2, List.filter_filterMap]
  refine fm_congr fun a ha => ?_
  rw [h3 a (List.mem_range.1 ha), if_pos (show after none ≤ a from Nat.zero_le _)]
  cases t.tab a with
  | free => rfl
  | deleted => rfl
  | present h k v =>
    cases hp : p k v <;> simp [pe, Entry.kv, hp, Option.filter]

theorem create_inv : Inv eq hashf (create : HT K V) ∧ items (create : HT K V) = [] := by
  obtain ⟨t, h1, h2, h3, -⟩ := fresh_inv (K := K) (V := V) (eq := eq) (hashf := hashf)
    (show 0 < 30 by omega)
  have : (fresh 0 : Option (HT K V)) = some create := rfl
  rw [this] at h1
  injection h1 with h1
  subst h1
  exact ⟨h2, h3⟩

end Verif.HashTab
