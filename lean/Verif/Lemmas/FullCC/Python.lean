import Verif.Spec.FullCCPython
import Verif.Props.FullCC.Latex
import Verif.Props.Helper

/-! # Lemmas for the generated full-CC Python code -/

set_option linter.unusedVariables false

namespace TF.CC

open TF.Py TF.Spec TF.Helper

/-! ## Labels -/

/-- the letters of an amplitude in Python: summation letters, external letters -/
def pyOf (l : TLab) : List Char × List Char :=
  ((subLetters l.down).s ++ (subLetters l.up).s, (subLetters l.down).x ++ (subLetters l.up).x)

theorem pyTLabels_eq (t : T) (o : Offs) : pyTLabels t o = (pyOf (tLabels t o).1, (tLabels t o).2) := by
  unfold pyTLabels tLabels pyOf
  by_cases h1 : t.n_h > 0 ∨ t.n_o > 0 <;> by_cases h2 : t.m_h > 0 ∨ t.m_o > 0 <;>
    simp [h1, h2, subLetters]

theorem tLabels_none (t : T) (o : Offs) (h : 1 ≤ ampRank t) :
    ¬ ((tLabels t o).1.up = none ∧ (tLabels t o).1.down = none) := by
  unfold tLabels ampRank at *
  simp only []
  by_cases h1 : t.n_h > 0 ∨ t.n_o > 0 <;> by_cases h2 : t.m_h > 0 ∨ t.m_o > 0 <;> simp [h1, h2]
  omega

theorem pyTLoop_eq (ts : List T) (o : Offs) (h : ∀ t ∈ ts, 1 ≤ ampRank t) :
    pyTLoop ts o = (tGroupLoop ts o).map pyOf := by
  induction ts generalizing o with
  | nil => rfl
  | cons t ts ih =>
    unfold pyTLoop tGroupLoop
    rw [pyTLabels_eq]
    simp only []
    rw [if_neg (tLabels_none t o (h t (by simp))), List.map_cons, ih _ (fun x hx => h x (by simp [hx]))]

theorem pyHLabels_eq (so : SetOrder Nat) (t : Term) :
    pyHLabels t.h = ((hSubs (plainTerm so t)).1.s ++ (hSubs (plainTerm so t)).2.s, hExternal (plainTerm so t)) := by
  unfold pyHLabels hExternal hSubs plainTerm hLabels
  by_cases h : t.h.rank = 0
  · simp [h]
  · simp [h]

/-- The letters of the generated code are the letters of the LaTeX output. -/
theorem vibrational_eq (so : SetOrder Nat) (t : Term) (hz : t.ts ≠ [⟨0, 0, 0, 0⟩]) (hpos : ∀ x ∈ t.ts, 1 ≤ ampRank x) :
    vibrational t.h t.ts =
      (((hSubs (plainTerm so t)).1.s ++ (hSubs (plainTerm so t)).2.s ++ hExternal (plainTerm so t)) ::
        (plainTerm so t).ts.map (fun l => (pyOf l).1 ++ (pyOf l).2),
       hExternal (plainTerm so t) ++ tExternal (plainTerm so t).ts) := by
  have hts : (plainTerm so t).ts = tGroupLoop t.ts ⟨t.h.m - t.h.m_o, 0, t.h.m_o + t.h.n_o⟩ := by
    simp [plainTerm, tGroup]
  unfold vibrational pyTGroup
  simp only []
  rw [pyHLabels_eq so t, pyTLoop_eq _ _ hpos, hts]
  simp only [List.map_map, List.flatMap_map, tExternal, pyOf]
  rfl

/-! ## Permutations -/

theorem pick_map {α β : Type} (f : α → β) (l : List α) (p : List Nat) :
    pick (l.map f) p = (match pick l p with | .error e => .error e | .ok r => .ok (r.map f)) := by
  induction p with
  | nil => rfl
  | cons i p ih =>
    unfold pick
    rw [List.getElem?_map, ih]
    cases l[i]? with
    | none => rfl
    | some a => simp only [Option.map_some]; cases pick l p <;> rfl

theorem pick_ok {α : Type} (l : List α) (p : List Nat) (h : ∀ i ∈ p, i < l.length) :
    ∃ r, pick l p = .ok r ∧ r.map some = p.map (fun i => l[i]?) := by
  induction p with
  | nil => exact ⟨[], rfl, rfl⟩
  | cons i p ih =>
    obtain ⟨r, hr, he⟩ := ih (fun j hj => h j (by simp [hj]))
    have hi : i < l.length := h i (by simp)
    refine ⟨l[i] :: r, ?_, ?_⟩
    · unfold pick; rw [List.getElem?_eq_getElem hi, hr]
    · simp [he, List.getElem?_eq_getElem hi]

theorem map_getElem_range {α : Type} (l : List α) : (List.range l.length).map (fun i => l[i]?) = l.map some := by
  apply List.ext_getElem
  · simp
  · intro n h1 h2
    simp at h1 h2 ⊢

/-- Picking along a permutation of the positions permutes the list. -/
theorem pick_perm {α : Type} (l : List α) (p : List Nat) (h : p.Perm (List.range l.length)) :
    ∃ r, pick l p = .ok r ∧ r.Perm l := by
  obtain ⟨r, hr, he⟩ := pick_ok l p (fun i hi => by simpa using h.mem_iff.1 hi)
  refine ⟨r, hr, ?_⟩
  have := h.map (fun i => l[i]?)
  rw [← he, map_getElem_range] at this
  have h3 := this.filterMap id
  simpa [List.filterMap_map] using h3

/-! ## The electronic chain -/

theorem electronic_ok (k : Nat) (hk : k ≤ 6) :
    electronic k = .ok (List.zipWith (fun p q => [p, q]) ('a' :: surfaceIdx.take k) (surfaceIdx.take k ++ ['b'])) := by
  have : k = 0 ∨ k = 1 ∨ k = 2 ∨ k = 3 ∨ k = 4 ∨ k = 5 ∨ k = 6 := by omega
  rcases this with h | h | h | h | h | h | h <;> subst h <;> rfl

theorem electronic_error (k : Nat) (hk : 7 ≤ k) : electronic k = .error .index := by
  unfold electronic
  simp only []
  have h : (['a', 'c'] :: (List.range k).map fun i => slice surfaceIdx i (i + 2)).getLast? = some [] := by
    obtain ⟨j, rfl⟩ : ∃ j, k = j + 1 := ⟨k - 1, by omega⟩
    rw [List.range_succ, List.map_append, ← List.cons_append, List.map_singleton, List.getLast?_concat]
    congr 1
    unfold slice
    apply List.drop_eq_nil_of_le
    rw [List.length_take]
    have : surfaceIdx.length = 6 := rfl
    omega
  rw [h]

end TF.CC

namespace TF.CC

open TF.Py TF.Spec TF.Helper

/-- all vibrational letters of an amplitude -/
def lv (l : TLab) : List Char := (pyOf l).1 ++ (pyOf l).2

theorem flatMap_lv_perm (labs : List TLab) :
    (labs.flatMap lv).Perm (tLowerSum labs ++ tUpperSum labs ++ tExternal labs) := by
  induction labs with
  | nil => exact .refl _
  | cons l labs ih =>
    have e : tLowerSum (l :: labs) ++ tUpperSum (l :: labs) ++ tExternal (l :: labs) =
      (subLetters l.down).s ++ tLowerSum labs ++ ((subLetters l.up).s ++ tUpperSum labs) ++
        ((subLetters l.down).x ++ (subLetters l.up).x ++ tExternal labs) := by
      simp [tLowerSum, tUpperSum, tExternal]
    rw [e, List.flatMap_cons]
    refine (ih.append_left _).trans ?_
    unfold lv pyOf
    rw [List.perm_iff_count]
    intro c
    simp only [List.count_append]
    omega

theorem letters_sub (so : SetOrder Nat) (t : Term) (hr : t.h.rank = t.h.m + t.h.n)
    (hmo : t.h.m_o ≤ t.h.m) (hno : t.h.n_o ≤ t.h.n) :
    ∀ c ∈ (hSubs (plainTerm so t)).1.s ++ (hSubs (plainTerm so t)).2.s, c ∈ summationIdx := by
  obtain ⟨e1, e2, -, -⟩ := hSubs_eq (plainTerm so t) t.h 0 rfl hr hmo hno
  intro c hc
  rw [e1, e2, List.mem_append] at hc
  rcases hc with h | h
  · exact (slice_sublist _ _ _).subset h
  · exact (slice_sublist _ _ _).subset h

theorem surface_not_vib : ∀ c ∈ 'a' :: 'b' :: surfaceIdx, c ∉ summationIdx ∧ c ∉ unlinkedIdx := by decide

theorem zip_forall₂_mem {α β : Type} {R : α → β → Prop} {l : List α} {r : List β} (h : List.Forall₂ R l r) :
    ∀ p ∈ l.zip r, R p.1 p.2 := by
  induction h with
  | nil => simp
  | cons hab _ ih =>
    intro p hp
    rw [List.zip_cons_cons, List.mem_cons] at hp
    rcases hp with rfl | hp
    · exact hab
    · exact ih p hp

/-- Any ordering of the amplitudes with their letters gives a correct einsum. -/
theorem einsumFor_of (so : SetOrder Nat) (t : Term) (hr : t.h.rank = t.h.m + t.h.n)
    (hz : t.ts ≠ [⟨0, 0, 0, 0⟩])
    (hp : Pairs t.omega.m t.omega.n t.h.m t.h.n t.ts t.h.m_o t.h.n_o)
    (hpos : ∀ x ∈ t.ts, 1 ≤ ampRank x) (hlen : t.ts.length ≤ 6)
    (hcap : (t.ts.map T.n_h).sum + (t.ts.map T.m_h).sum ≤ 10)
    (hext : t.omega.m + t.omega.n ≤ 8) (order : List (T × List Char))
    (ho : order.Perm (t.ts.zip (vibrational t.h t.ts).1.tail))
    (ea : List (List Char)) (hea : electronic t.ts.length = .ok ea) :
    EinsumFor t ⟨glue ea ((vibrational t.h t.ts).1.headD [] :: order.map Prod.snd), (vibrational t.h t.ts).2,
      (t.h.m, t.h.n), order.map fun p => tKey p.1⟩ (surfaceIdx.take t.ts.length)
      ((vibrational t.h t.ts).1.headD []) order := by
  have hamp : amplitudes t = t.ts := by simp [amplitudes, hz]
  obtain ⟨hS, hout, hol, hon⟩ := plain_labels so t hr (by rw [hamp]; exact hp) (by rw [hamp]; exact hpos)
    (by rw [hamp]; exact hcap) hext
  rw [hamp] at hS
  have hv := vibrational_eq so t hz hpos
  have hsub := letters_sub so t hr (by have := hp.1; omega) (by have := hp.2.2.1; omega)
  generalize hP : plainTerm so t = P at *
  rw [hv] at ho ⊢
  simp only [List.tail_cons, List.headD_cons] at ho ⊢
  set S := (hSubs P).1.s ++ (hSubs P).2.s with hSdef
  set hx := hExternal P with hxdef
  set tx := tExternal P.ts with htxdef
  clear_value S hx tx
  have hcnt := hS.counts
  have hlen2 : P.ts.length = t.ts.length := hcnt.length_eq
  have hol2 : order.length = t.ts.length := by
    rw [ho.length_eq, List.length_zip, List.length_map]; omega
  rw [electronic_ok _ hlen] at hea
  injection hea with hea
  -- letters of the amplitudes
  have hfst : (order.map Prod.fst).Perm t.ts := by
    have := ho.map Prod.fst
    rwa [List.map_fst_zip (by rw [List.length_map]; omega)] at this
  have hsnd : (order.map Prod.snd).Perm (P.ts.map lv) := by
    have := ho.map Prod.snd
    rwa [List.map_snd_zip (by rw [List.length_map]; omega)] at this
  have hA : (order.flatMap Prod.snd).Perm (S ++ tx) := by
    have h1 : order.flatMap Prod.snd = (order.map Prod.snd).flatten := by rw [List.flatMap_def]
    have h2 : P.ts.flatMap lv = (P.ts.map lv).flatten := by rw [List.flatMap_def]
    have h3 : (order.flatMap Prod.snd).Perm (P.ts.flatMap lv) := by rw [h1, h2]; exact hsnd.flatten
    refine h3.trans ?_
    have := flatMap_lv_perm P.ts
    rw [← hS.upper_h, ← hS.lower_h, ← hSdef, ← htxdef] at this
    exact this
  have hSn : S.Nodup := by rw [hSdef]; exact hS.distinct
  have hxt : (hx ++ tx).Nodup := by rw [hout]; exact hon
  have hdis : ∀ c ∈ S, c ∉ hx ++ tx := by rw [hSdef, hxdef, htxdef]; exact hS.alphabets
  have hAn : (order.flatMap Prod.snd).Nodup := by
    rw [hA.nodup_iff]
    exact List.Nodup.append hSn (List.nodup_append.1 hxt).2.1
      (fun c h1 h2 => hdis c h1 (List.mem_append.2 (.inr h2)))
  have hvh : (S ++ hx).Nodup := List.Nodup.append hSn (List.nodup_append.1 hxt).1
      (fun c h1 h2 => hdis c h1 (List.mem_append.2 (.inl h2)))
  have hext8 : ∀ c ∈ hx ++ tx, c ∈ unlinkedIdx := by
    rw [hout]; intro c hc; exact List.mem_of_mem_take hc
  -- data of a single amplitude
  have hone : ∀ p ∈ order, ∃ ls lx, p.2 = ls ++ lx ∧ ls.length = p.1.m_h + p.1.n_h ∧
      lx.length = p.1.m_o + p.1.n_o ∧ (∀ c ∈ ls, c ∈ S) ∧ (∀ c ∈ lx, c ∈ tx) := by
    intro p hpo
    have hpz := ho.mem_iff.1 hpo
    have hF : List.Forall₂ (fun (x : T) (v : List Char) => ∃ l ∈ P.ts, v = lv l ∧ LabelCounts l x) t.ts (P.ts.map lv) := by
      clear hpz hpo ho hea hA hAn hsnd hfst
      have : ∀ (labs : List TLab) (ts : List T), (∀ l ∈ labs, l ∈ P.ts) → List.Forall₂ LabelCounts labs ts →
          List.Forall₂ (fun (x : T) (v : List Char) => ∃ l ∈ P.ts, v = lv l ∧ LabelCounts l x) ts (labs.map lv) := by
        intro labs ts hsub h
        induction h with
        | nil => exact .nil
        | cons hab _ ih =>
          exact .cons ⟨_, hsub _ (by simp), rfl, hab⟩ (ih (fun l hl => hsub l (by simp [hl])))
      exact this P.ts t.ts (fun l hl => hl) hcnt
    obtain ⟨l, hl, hv, hc⟩ := zip_forall₂_mem hF p hpz
    refine ⟨(pyOf l).1, (pyOf l).2, hv, ?_, ?_, ?_, ?_⟩
    · simp only [pyOf, List.length_append]; have := hc.1; have := hc.2.1; omega
    · simp only [pyOf, List.length_append]; have := hc.2.2.1; have := hc.2.2.2; omega
    · intro c hcc
      simp only [pyOf, List.mem_append] at hcc
      rw [hSdef, hS.upper_h, hS.lower_h, List.mem_append]
      rcases hcc with h | h
      · exact .inl (List.mem_flatMap.2 ⟨l, hl, h⟩)
      · exact .inr (List.mem_flatMap.2 ⟨l, hl, h⟩)
    · intro c hcc
      rw [htxdef]
      exact List.mem_flatMap.2 ⟨l, hl, by simpa [pyOf] using hcc⟩
  have hsurf := surface_not_vib
  have hmid : ∀ c ∈ 'a' :: 'b' :: surfaceIdx.take t.ts.length, c ∈ 'a' :: 'b' :: surfaceIdx := by
    intro c hc
    simp only [List.mem_cons] at hc ⊢
    rcases hc with h | h | h
    · exact .inl h
    · exact .inr (.inl h)
    · exact .inr (.inr (List.mem_of_mem_take h))
  have hnotS : ∀ c ∈ 'a' :: 'b' :: surfaceIdx.take t.ts.length, c ∉ S :=
    fun c hc h => (hsurf c (hmid c hc)).1 (hsub c h)
  have hnotX : ∀ c ∈ 'a' :: 'b' :: surfaceIdx.take t.ts.length, c ∉ hx ++ tx :=
    fun c hc h => (hsurf c (hmid c hc)).2 (hext8 c h)
  refine
    { operands := hfst, h_key := rfl, t_keys := rfl, chain := ?_, chain_length := ?_, chain_distinct := ?_,
      alphabets := ?_, h_rank := ?_, t_rank := ?_, out := ⟨hxt, ?_⟩, external_once := ?_, summed_twice := ?_,
      shared := ?_ }
  · simp only []
    rw [← hea]
    unfold glue
    rw [List.zip, List.zipWith_zipWith_left, List.zipWith_zipWith_left]
    rfl
  · rw [List.length_take, hol2]; have : surfaceIdx.length = 6 := rfl; omega
  · have h8 : ('a' :: 'b' :: surfaceIdx).Nodup := by decide
    exact h8.sublist (.cons_cons _ (.cons_cons _ (List.take_sublist _ _)))
  · intro c hc
    refine ⟨?_, ?_, hnotX c hc⟩
    · rw [List.mem_append]
      rintro (h | h)
      · exact hnotS c hc h
      · exact hnotX c hc (List.mem_append.2 (.inl h))
    · intro p hpo
      obtain ⟨ls, lx, e, -, -, h1, h2⟩ := hone p hpo
      rw [e, List.mem_append]
      rintro (h | h)
      · exact hnotS c hc (h1 c h)
      · exact hnotX c hc (List.mem_append.2 (.inr (h2 c h)))
  · refine ⟨?_, hvh⟩
    have h1 := hS.count_up.1
    have h2 := hS.count_down.1
    have : hx = (hSubs P).1.x ++ (hSubs P).2.x := by rw [hxdef]; rfl
    rw [this, hSdef]
    simp only [List.length_append]
    omega
  · intro p hpo
    obtain ⟨ls, lx, e, l1, l2, h1, h2⟩ := hone p hpo
    refine ⟨?_, (List.nodup_flatMap.1 hAn).1 p hpo⟩
    rw [e, List.length_append]; unfold ampRank; omega
  · simp only []; rw [hout]; exact hol
  · intro c hc
    simp only [List.count_append]
    have hcS : c ∉ S := fun h => hdis c h hc
    rw [hA.count_eq, List.count_append, List.count_eq_zero_of_not_mem hcS]
    have := List.count_eq_one_of_mem hxt hc
    rw [List.count_append] at this
    omega
  · intro c hc hno
    have hcS : c ∈ S := by
      rw [List.mem_append, hA.mem_iff, List.mem_append, List.mem_append] at hc
      rcases hc with (h | h) | (h | h)
      · exact h
      · exact absurd (List.mem_append.2 (.inl h)) hno
      · exact h
      · exact absurd (List.mem_append.2 (.inr h)) hno
    exact ⟨List.count_eq_one_of_mem hvh (List.mem_append.2 (.inl hcS)),
      List.count_eq_one_of_mem hAn (hA.mem_iff.2 (List.mem_append.2 (.inl hcS)))⟩
  · intro p hpo
    obtain ⟨ls, lx, e, l1, l2, h1, h2⟩ := hone p hpo
    have hlx : ∀ c ∈ lx, c ∉ S ++ hx := by
      intro c hc h
      rw [List.mem_append] at h
      rcases h with h | h
      · exact hdis c h (List.mem_append.2 (.inr (h2 c hc)))
      · exact (List.nodup_append.1 hxt).2.2 c h c (h2 c hc) rfl
    simp only [e, List.filter_append, List.length_append]
    constructor
    · rw [List.filter_eq_self.2 (fun c hc => by simpa using Or.inl (h1 c hc)),
        List.filter_eq_nil_iff.2 (fun c hc => by simpa using hlx c hc), l1]
      simp
    · rw [List.filter_eq_nil_iff.2 (fun c hc => by simpa using hdis c (h1 c hc)),
        List.filter_eq_self.2 (fun c hc => by simpa using Or.inr (h2 c hc)), l2]
      simp

end TF.CC

namespace TF.CC

open TF.Py TF.Spec TF.Helper

/-! ## The items of one term -/

theorem length_uniquePermutations {α : Type} [DecidableEq α] (le : List α → List α → Bool) (xs : List α)
    (h : xs.Nodup) : (uniquePermutations le xs).length = xs.length.factorial := by
  have hn : (uniquePermutations le xs).Nodup := by
    unfold uniquePermutations
    exact (sortBy_perm le _).nodup_iff.2 (List.nodup_dedup _)
  have : (uniquePermutations le xs).Perm xs.permutations := by
    rw [List.perm_ext_iff_of_nodup hn (List.nodup_permutations xs h)]
    intro a
    rw [uniquePermutations_exact, List.mem_permutations]
  rw [this.length_eq, List.length_permutations]

/-- the einsum, call and expression for one ordering of the operands -/
def mkE (h : HC) (ts : List T) (ea : List (List Char)) (o : List (T × List Char)) : Einsum :=
  ⟨glue ea ((vibrational h ts).1.headD [] :: o.map Prod.snd), (vibrational h ts).2, (h.m, h.n), o.map fun p => tKey p.1⟩
def mkO (h : HC) (o : List (T × List Char)) : OptCall := ⟨(h.m, h.n), o.map fun p => tKey p.1⟩
def mkP (h : HC) (o : List (T × List Char)) : Path := ⟨(h.m + h.n) :: o.map fun p => rankT p.1⟩

theorem length_pyTLoop (ts : List T) (o : Offs) : (pyTLoop ts o).length = ts.length := by
  induction ts generalizing o with
  | nil => rfl
  | cons t ts ih => unfold pyTLoop; simp [ih]

theorem vibrational_tail (h : HC) (ts : List T) : (vibrational h ts).1.tail.length = ts.length := by
  simp [vibrational, pyTGroup, length_pyTLoop]

theorem vibrational_head (h : HC) (ts : List T) :
    (vibrational h ts).1 = (vibrational h ts).1.headD [] :: (vibrational h ts).1.tail := by
  simp [vibrational]

theorem zip_fst (h : HC) (ts : List T) : (ts.zip (vibrational h ts).1.tail).map Prod.fst = ts :=
  List.map_fst_zip (by rw [vibrational_tail])

theorem zip_snd (h : HC) (ts : List T) : (ts.zip (vibrational h ts).1.tail).map Prod.snd = (vibrational h ts).1.tail :=
  List.map_snd_zip (by rw [vibrational_tail])

/-- the positions of the amplitudes, permuted, with their letters -/
theorem pick_zip (h : HC) (ts : List T) (p : List Nat) (hp : p.Perm (List.range ts.length)) :
    ∃ o, pick (ts.zip (vibrational h ts).1.tail) p = .ok o ∧ o.Perm (ts.zip (vibrational h ts).1.tail) ∧
      pick ts p = .ok (o.map Prod.fst) ∧ pick (vibrational h ts).1.tail p = .ok (o.map Prod.snd) := by
  obtain ⟨o, ho, hop⟩ := pick_perm (ts.zip (vibrational h ts).1.tail) p
    (by rw [List.length_zip, vibrational_tail, Nat.min_self]; exact hp)
  refine ⟨o, ho, hop, ?_, ?_⟩
  · have := pick_map Prod.fst (ts.zip (vibrational h ts).1.tail) p
    rw [zip_fst, ho] at this
    exact this
  · have := pick_map Prod.snd (ts.zip (vibrational h ts).1.tail) p
    rw [zip_snd, ho] at this
    exact this

/-- the order of the operands for a permutation of the positions -/
def orderOf (h : HC) (ts : List T) (p : List Nat) : List (T × List Char) :=
  match pick (ts.zip (vibrational h ts).1.tail) p with
  | .ok o => o
  | .error _ => []

/-- how many items a term produces -/
def itemCount (h : HC) (ts : List T) : Nat :=
  if ts.length = 1 then (uniquePermutations charsLe (vibrational h ts).2).length
  else (uniquePermutations lexLe (List.range ts.length)).length

theorem perms_nil : uniquePermutations charsLe [] = [[]] := by decide

theorem dedup_single {ts : List T} {t : T} (h : ts.dedup = [t]) : ts = List.replicate ts.length t := by
  rw [List.eq_replicate_iff]
  refine ⟨rfl, fun x hx => ?_⟩
  have : x ∈ ts.dedup := List.mem_dedup.2 hx
  rw [h] at this
  simpa using this

/-- Every item of a term with amplitudes belongs to one ordering of its operands; the three writers
use the same orderings. -/
theorem items_orders (h : HC) (ts : List T) (hne : ts ≠ []) (hlen : ts.length ≤ 6) (hr : h.rank = h.m + h.n)
    (ea : List (List Char)) (hea : electronic ts.length = .ok ea) :
    ∃ os : List (List (T × List Char)), os.length = itemCount h ts ∧
      (∀ o ∈ os, o.Perm (ts.zip (vibrational h ts).1.tail)) ∧
      (2 ≤ ts.length → os = (uniquePermutations lexLe (List.range ts.length)).map (orderOf h ts)) ∧
      einsums h ts = .ok (os.map (mkE h ts ea)) ∧ optCalls h ts = .ok (os.map (mkO h)) ∧
      paths h ts = .ok (os.map (mkP h)) := by
  unfold einsums optCalls paths
  rw [if_neg (by simp [hr]), hea]
  have hmem : ∀ p ∈ uniquePermutations lexLe (List.range ts.length), p.Perm (List.range ts.length) :=
    fun p hp => (uniquePermutations_exact _ _ _).1 hp
  have hO : ∀ p ∈ uniquePermutations lexLe (List.range ts.length),
      (orderOf h ts p).Perm (ts.zip (vibrational h ts).1.tail) ∧ pick ts p = .ok ((orderOf h ts p).map Prod.fst) ∧
        pick (vibrational h ts).1.tail p = .ok ((orderOf h ts p).map Prod.snd) := by
    intro p hp
    obtain ⟨o, h1, h2, h3, h4⟩ := pick_zip h ts p (hmem p hp)
    have : orderOf h ts p = o := by unfold orderOf; rw [h1]
    rw [this]
    exact ⟨h2, h3, h4⟩
  cases hd : ts.dedup with
  | nil =>
    exfalso
    apply hne
    cases ts with
    | nil => rfl
    | cons a l =>
      have : a ∈ (a :: l).dedup := List.mem_dedup.2 (by simp)
      rw [hd] at this; simp at this
  | cons t rest =>
    cases rest with
    | nil =>
      have hrep := dedup_single hd
      have hcount : ts.count t = ts.length := by
        rw [hrep]; simp
      by_cases h1 : ts.length = 1
      · -- one amplitude
        have hpl : permsLogic ts = .ok .single := by
          unfold permsLogic; rw [hd]; simp [hcount, h1]
        rw [hpl]
        simp only []
        refine ⟨(uniquePermutations charsLe (vibrational h ts).2).map fun _ => ts.zip (vibrational h ts).1.tail,
          ?_, ?_, ?_, ?_, ?_, ?_⟩
        · rw [List.length_map]; unfold itemCount; rw [if_pos h1]
        · intro o ho
          obtain ⟨_, _, rfl⟩ := List.mem_map.1 ho
          exact .refl _
        · intro; omega
        · have e : (⟨glue ea (vibrational h ts).1, (vibrational h ts).2, (h.m, h.n), ts.map tKey⟩ : Einsum) =
              mkE h ts ea (ts.zip (vibrational h ts).1.tail) := by
            unfold mkE
            rw [zip_snd, ← vibrational_head]
            congr 1
            conv_lhs => rw [← zip_fst h ts]
            rw [List.map_map]; rfl
          rw [e]
          split
          · next e2 => rw [e2, perms_nil]; rfl
          · rw [List.map_map]; rfl
        · have e : (⟨(h.m, h.n), ts.map tKey⟩ : OptCall) = mkO h (ts.zip (vibrational h ts).1.tail) := by
            unfold mkO
            congr 1
            conv_lhs => rw [← zip_fst h ts]
            rw [List.map_map]; rfl
          rw [e]
          split
          · next e2 => rw [e2, perms_nil]; rfl
          · rw [List.map_map]; rfl
        · have e : (⟨(h.m + h.n) :: ts.map rankT⟩ : Path) = mkP h (ts.zip (vibrational h ts).1.tail) := by
            unfold mkP
            congr 2
            conv_lhs => rw [← zip_fst h ts]
            rw [List.map_map]; rfl
          rw [e]
          split
          · next e2 => rw [e2, perms_nil]; rfl
          · rw [List.map_map]; rfl
      · -- equal amplitudes
        have hpl : permsLogic ts = .ok (.same (uniquePermutations lexLe (List.range ts.length))) := by
          unfold permsLogic; rw [hd]; simp [hcount, h1]
        rw [hpl]
        simp only []
        have hfst : ∀ p ∈ uniquePermutations lexLe (List.range ts.length), (orderOf h ts p).map Prod.fst = ts := by
          intro p hp
          have hp2 := ((hO p hp).1.map Prod.fst)
          rw [zip_fst] at hp2
          have h3 : ((orderOf h ts p).map Prod.fst).Perm (List.replicate ts.length t) := by
            rw [← hrep]; exact hp2
          exact (List.perm_replicate.1 h3).trans hrep.symm
        refine ⟨(uniquePermutations lexLe (List.range ts.length)).map (orderOf h ts), ?_, ?_, fun _ => rfl, ?_, ?_, ?_⟩
        · rw [List.length_map]; unfold itemCount; rw [if_neg h1]
        · intro o ho
          obtain ⟨p, hp, rfl⟩ := List.mem_map.1 ho
          exact (hO p hp).1
        · rw [collect_ok_of (fun p => [mkE h ts ea (orderOf h ts p)]), flatMap_single, List.map_map]
          · rfl
          · intro p hp
            rw [(hO p hp).2.2]
            simp only [mkE]
            have := hfst p hp
            have e : (orderOf h ts p).map (fun q => tKey q.1) = ts.map tKey := by
              conv_rhs => rw [← this, List.map_map]
              rfl
            rw [e]
        · rw [List.map_map]
          congr 1
          apply List.map_congr_left
          intro p hp
          simp only [Function.comp, mkO]
          have := hfst p hp
          conv_lhs => rw [← this, List.map_map]
          rfl
        · rw [List.map_map]
          congr 1
          apply List.map_congr_left
          intro p hp
          simp only [Function.comp, mkP]
          have := hfst p hp
          conv_lhs => rw [← this, List.map_map]
          rfl
    | cons t' rest =>
      have hge : 2 ≤ ts.length := by
        have : ts.dedup.length ≤ ts.length := (List.dedup_sublist ts).length_le
        rw [hd] at this
        simp at this; omega
      have hpl : permsLogic ts = .ok (.mixed (uniquePermutations lexLe (List.range ts.length))) := by
        unfold permsLogic; rw [hd]
      rw [hpl]
      simp only []
      refine ⟨(uniquePermutations lexLe (List.range ts.length)).map (orderOf h ts), ?_, ?_, fun _ => rfl, ?_, ?_, ?_⟩
      · rw [List.length_map]; unfold itemCount; rw [if_neg (by omega)]
      · intro o ho
        obtain ⟨p, hp, rfl⟩ := List.mem_map.1 ho
        exact (hO p hp).1
      · rw [collect_ok_of (fun p => [mkE h ts ea (orderOf h ts p)]), flatMap_single, List.map_map]
        · rfl
        · intro p hp
          rw [(hO p hp).2.2, (hO p hp).2.1]
          simp only [mkE, List.map_map]
          rfl
      · rw [collect_ok_of (fun p => [mkO h (orderOf h ts p)]), flatMap_single, List.map_map]
        · rfl
        · intro p hp
          rw [(hO p hp).2.1]
          simp only [mkO, List.map_map]
          rfl
      · rw [collect_ok_of (fun p => [mkP h (orderOf h ts p)]), flatMap_single, List.map_map]
        · rfl
        · intro p hp
          rw [(hO p hp).2.1]
          simp only [mkP, List.map_map]
          rfl

end TF.CC
