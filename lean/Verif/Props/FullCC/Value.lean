import Verif.Props.FullCC.Module
import Verif.Lemmas.FullCC.Value
import Verif.Lemmas.ETCollate

/-!
# The arrays computed by the generated full-CC functions

C79: what `compute_m0_nk_amplitude` computes, as an array.
-/

namespace TF.CC

open TF.Py TF.Spec TF.Spec.CCRun TF.Spec.Tensor

/-! ## The text of a prefactor has one meaning -/

theorem mem_productText {l : List Nat} {c : Char} (h : c ∈ (productText l).toList) : c.isDigit = true ∨ c ∈ "()factorial *".toList := by
  unfold productText at h
  split at h
  · left
    have : c = '1' := by simpa using h
    rw [this]; rfl
  · simp only [String.toList_append, List.mem_append, String.toList_intercalate] at h
    rcases h with (h | h) | h
    · right; revert h; simp +contextual
    · rcases TF.ETPy.mem_intercalate h with h | ⟨a, h1, h2⟩
      · right; revert h; simp +contextual; tauto
      · rw [List.map_map] at h1
        obtain ⟨k, -, rfl⟩ := List.mem_map.1 h1
        simp only [Function.comp_apply, String.toList_append, List.mem_append] at h2
        rcases h2 with (h | h) | h
        · right; revert h; simp +contextual; tauto
        · left; exact TF.Glue.digit_of_natRepr h
        · right; revert h; simp +contextual
    · right; revert h; simp +contextual

theorem slash_productText (l : List Nat) : '/' ∉ (productText l).toList := by
  intro h
  rcases mem_productText h with h | h
  · exact absurd h (by decide)
  · exact absurd h (by decide)

theorem factor_chars (k : Nat) : ' ' ∉ ("factorial(" ++ toString k ++ ")" : String).toList := by
  intro h
  simp only [String.toList_append, List.mem_append] at h
  rcases h with (h | h) | h
  · exact absurd h (by decide)
  · exact absurd (TF.Glue.digit_of_natRepr (n := k) h) (by decide)
  · exact absurd h (by decide)

theorem productText_cons {l : List Nat} (h : l ≠ []) : (productText l).toList =
    '(' :: (" * ".toList.intercalate (l.map fun k => ("factorial(" ++ toString k ++ ")" : String).toList) ++ [')']) := by
  unfold productText
  rw [if_neg h]
  simp only [String.toList_append, String.toList_intercalate, List.map_map, Function.comp_def]
  rfl

theorem productText_inj {l l' : List Nat} (h : productText l = productText l') : l = l' := by
  have e := congrArg String.toList h
  have h1 : ∀ l : List Nat, l ≠ [] → (productText l).toList ≠ (productText []).toList := by
    intro l hl
    rw [productText_cons hl]
    intro h
    have h := congrArg (fun l : List Char => l.head?) h
    exact absurd h (by simp [productText])
  by_cases hl : l = []
  · by_cases hl' : l' = []
    · rw [hl, hl']
    · subst hl; exact absurd e.symm (h1 l' hl')
  by_cases hl' : l' = []
  · subst hl'; exact absurd e (h1 l hl)
  rw [productText_cons hl, productText_cons hl'] at e
  have e := List.append_cancel_right (List.cons.inj e).2
  have e := TF.ETPy.intercalate_inj (c := ' ') (s := ['*', ' ']) (by simpa using hl) (by simpa using hl')
    (fun a ha => by obtain ⟨k, -, rfl⟩ := List.mem_map.1 ha; exact factor_chars k)
    (fun a ha => by obtain ⟨k, -, rfl⟩ := List.mem_map.1 ha; exact factor_chars k) e
  refine List.map_injective_iff.2 (fun a b hab => ?_) e
  simp only [String.toList_append] at hab
  exact toString_inj (List.append_cancel_left (List.append_cancel_right hab))

theorem quotient_toList (num den : List Nat) : (productText num ++ "/" ++ productText den ++ " * ").toList =
    (productText num).toList ++ '/' :: ((productText den).toList ++ " * ".toList) := by
  simp only [String.toList_append, List.append_assoc]
  rfl

/-- A text stands for at most one factor. -/
theorem means_unique {s : String} {q q' : Rat} (h : Means s q) (h' : Means s q') : q = q' := by
  have hne : ∀ num den : List Nat, ("" : String) ≠ productText num ++ "/" ++ productText den ++ " * " := by
    intro num den h
    have := congrArg String.toList h
    rw [quotient_toList] at this
    simp at this
  rcases h with ⟨h1, h2⟩ | ⟨num, den, h1, h2⟩
  · rcases h' with ⟨_, h2'⟩ | ⟨num', den', h1', _⟩
    · rw [h2, h2']
    · exact absurd (h1.symm.trans h1') (hne _ _)
  · rcases h' with ⟨h1', _⟩ | ⟨num', den', h1', h2'⟩
    · exact absurd (h1'.symm.trans h1) (hne _ _)
    · have e := congrArg String.toList (h1.symm.trans h1')
      rw [quotient_toList, quotient_toList] at e
      obtain ⟨e1, e2⟩ := TF.ETPy.split_first (slash_productText _) (slash_productText _) e
      rw [h2, h2', productText_inj (String.toList_injective e1), productText_inj (String.toList_injective (List.append_cancel_right e2))]

theorem textValue_eq {s : String} {q : Rat} (h : Means s q) : textValue s = q :=
  means_unique (Classical.epsilon_spec (⟨q, h⟩ : ∃ q, Means s q)) h

theorem means_render (p : List Nat × List Nat) : Means (renderPyPrefactor p) (prefValue p) := by
  have hp : ∀ l, renderPyFactors l = productText l := fun _ => rfl
  have h1 : ∀ l, productText l = "1" → l = [] := fun l h => productText_inj h
  unfold renderPyPrefactor
  split
  · rename_i h
    left
    refine ⟨rfl, ?_⟩
    unfold prefValue factorials
    rw [h1 _ h.1, h1 _ h.2]
    norm_num
  · right
    refine ⟨p.1, p.2, by rw [hp, hp], ?_⟩
    unfold prefValue factorials
    norm_cast

example : Means "(factorial(2))/(factorial(2) * factorial(3)) * " (1 / 6) :=
  .inr ⟨[2], [2, 3], by decide, by norm_num [Nat.factorial]⟩

/-! ## The value of a function -/

variable {R : Type} [CommRing R] [Algebra Rat R]

/-- the value of the sum written for a term -/
theorem term_value (so : SetOrder Nat) (t : Term) (hf : FitsCode t) (hgs : ∀ x ∈ t.ts, x.n_h = 0 ∧ x.n_o = 0) (hom : t.omega.m = 0) (es : List Einsum)
    (hes : einsums t.h t.ts = .ok es) (A N : Nat) (h a : Nat × Nat → Arr R) (v : List Nat) (hv : v.length = t.omega.n) :
    mat A (addedValue A N h a (.sum (renderPyPrefactor (pyPrefactor so t.h t.ts)) es)) v = termValue A N (h (t.h.m, t.h.n)) a t.h.m t.h.n t.ts v := by
  obtain ⟨p1, p2, p3, p4⟩ := hf.pairs
  have z1 : (t.ts.map T.n_h).sum = 0 := by
    apply List.sum_eq_zero
    intro n hn
    obtain ⟨x, hx, rfl⟩ := List.mem_map.1 hn
    exact (hgs x hx).1
  have h10 := hf.cap
  have h8 := hf.ext
  ext x y
  show textValue _ • (es.map fun e => itemValue A N h a e (x.val :: y.val :: v)).sum = _
  rw [items_value A N h a t.h t.ts hf.some hf.rank (by omega) (by omega) hgs (by omega) hf.len (by omega) (by omega) es hes x y v (by omega),
    textValue_eq (means_render _), py_prefactor_value so t.h t.ts hf.hasT]
  rfl

theorem sum_matrix_map {A : Nat} {ι : Type} (l : List ι) (f : ι → Arr R) (v : List Nat) :
    mat A (fun w => (l.map fun a => f a w).sum) v = (l.map fun a => mat A (f a) v).sum := by
  ext x y
  rw [list_sum_matrix]
  rfl

theorem kept_sub (so : SetOrder Nat) (l : List Term) : ∀ t ∈ kept so l, t ∈ l ∧ onlyH t.ts = false := by
  induction l with
  | nil => intro t ht; simp [kept] at ht
  | cons a l ih =>
    intro t ht
    unfold kept at ht
    split at ht
    · obtain ⟨h1, h2⟩ := ih t ht; exact ⟨by simp [h1], h2⟩
    · rename_i h
      rcases List.mem_cons.1 ht with rfl | ht
      · simp only [Bool.or_eq_true, not_or, Bool.not_eq_true] at h
        exact ⟨by simp, h.1⟩
      · obtain ⟨h1, h2⟩ := ih t ht; exact ⟨by simp [h1], h2⟩

/-- the only term without amplitudes -/
theorem count_onlyH (sol : SetOrder (List T)) (hMax cc smax : Nat) (hcc : 1 ≤ cc) (omega : Op) (hom : omega.m = 0) (L : List Term)
    (hL : termsFor sol true true hMax cc smax omega = .ok L) :
    (L.filter fun t => onlyH t.ts).length = if omega.n ≤ hMax then 1 else 0 := by
  have hz : ∀ t ∈ L, onlyH t.ts = true → t.h.m = omega.n ∧ t.h.n = 0 ∧ amplitudes t = [] := by
    intro t ht h
    obtain ⟨d1, d2, _, _, _, d6, _⟩ := term_data sol true true hMax cc smax hcc omega L hL t ht
    have ha : amplitudes t = [] := by unfold amplitudes; rw [if_pos (by simpa [onlyH] using h)]
    rw [ha] at d6
    obtain ⟨p1, p2, p3, p4⟩ := d6
    simp only [List.map_nil, List.sum_nil, Nat.zero_add] at p1 p2 p3 p4
    exact ⟨by omega, by omega, ha⟩
  have hu := terms_unique sol true true hMax cc smax hcc omega L hL
  have hle : (L.filter fun t => onlyH t.ts).length ≤ 1 := by
    have hu' := hu.sublist (List.filter_sublist (p := fun t => onlyH t.ts))
    match hL' : L.filter fun t => onlyH t.ts with
    | [] => rw [hL']; simp
    | [_] => rw [hL']; simp
    | a :: b :: l =>
      exfalso
      rw [hL'] at hu'
      have hab := (List.pairwise_cons.1 hu').1 b (by simp)
      have ha : a ∈ L.filter fun t => onlyH t.ts := by rw [hL']; simp
      have hb : b ∈ L.filter fun t => onlyH t.ts := by rw [hL']; simp
      obtain ⟨a1, a2, a3⟩ := hz a (List.mem_filter.1 ha).1 (List.mem_filter.1 ha).2
      obtain ⟨b1, b2, b3⟩ := hz b (List.mem_filter.1 hb).1 (List.mem_filter.1 hb).2
      exact hab ⟨by rw [a1, b1], by rw [a2, b2], by rw [a3, b3]⟩
  split
  · rename_i hn
    obtain ⟨L', hL'⟩ := termsFor_ok sol false true hMax cc smax hcc omega
    have hrf := remove_f_exact sol true hMax cc smax hcc omega L' L hL' hL
    obtain ⟨t, ht, t1, t2, t3⟩ := terms_complete sol true hMax cc smax hcc omega L' hL' omega.n 0 (by omega) [] (by simp)
      ⟨by simp, omega.n, 0, by simp [Pairs, hom]⟩
    have ha := List.perm_nil.1 t3
    have hts : t.ts = [⟨0, 0, 0, 0⟩] := by
      by_contra h
      unfold amplitudes at ha
      rw [if_neg h] at ha
      exact (term_ts_ne_nil sol false true hMax cc smax hcc omega L' hL' t ht).1 ha
    have hmem : t ∈ L := by
      rw [hrf, List.mem_filter]
      obtain ⟨d1, _⟩ := term_data sol false true hMax cc smax hcc omega L' hL' t ht
      refine ⟨ht, ?_⟩
      rw [hts, d1, hom]
      rfl
    have : t ∈ L.filter fun t => onlyH t.ts := List.mem_filter.2 ⟨hmem, by simp [onlyH, hts]⟩
    have := List.length_pos_of_mem this
    omega
  · rename_i hn
    rw [List.length_eq_zero_iff, List.filter_eq_nil_iff]
    intro t ht h
    obtain ⟨z1, z2, _⟩ := hz t ht h
    obtain ⟨_, _, _, _, d5, _⟩ := term_data sol true true hMax cc smax hcc omega L hL t ht
    omega

/-- C79: the array returned by `compute_m0_nk_amplitude`, for all arrays `h_args`, `t_args` over a commutative ring that contains the rational
numbers, all numbers `A` of electronic states and `N` of modes: the electronic matrix of the modes `v` is `h_args[(k, 0)]`, if the Hamiltonian has
this term, plus the values of the terms that are kept by the writer and whose flags are set. -/
theorem amplitude_value (so : SetOrder Nat) (sol : SetOrder (List T)) (hMax cc smax omegaMax : Nat) (hcc : 1 ≤ cc) (hH : hMax ≤ 6) (hS : smax ≤ 6)
    (hP : omegaMax ≤ 6) (F : List OmegaCode) (hF : pythonFile so sol hMax cc smax omegaMax = .ok F) (c : OmegaCode) (hc : c ∈ F) (hom : c.omega.m = 0)
    (env : Caller) (h1 : env.singles = true) (h2 : env.ground = true) (h3 : FullArgs hMax cc env) : ∃ L r,
    termsFor sol true true hMax cc smax c.omega = .ok L ∧
    callAmplitude (moduleDefs F) env ("compute_m0_n" ++ toString c.omega.n ++ "_amplitude") = .ok (c.omega.n, r) ∧
    ∀ (R : Type) [CommRing R] [Algebra Rat R] (A N : Nat) (h a : Nat × Nat → Arr R) (v : List Nat), v.length = c.omega.n →
      mat A (returned A N h a r) v = (if c.omega.n ≤ hMax then mat A (h (c.omega.n, 0)) v else 0) +
        ((termGroups L).map fun l => (((kept so l).filter (Enabled env.fl)).map fun t => termValue A N (h (t.h.m, t.h.n)) a t.h.m t.h.n t.ts v).sum).sum := by
  obtain ⟨L, r, g, hL, hg, hr, hp⟩ := (amplitude_run so sol hMax cc smax omegaMax hcc hH hS hP F hF c hc env).2.2 h1 h2 h3
  refine ⟨L, r, hL, ?_, ?_⟩
  · rw [hom, Nat.zero_add] at hr
    exact hr
  intro R _ _ A N h a v hv
  obtain ⟨ho, _⟩ := omega_code hcc hF hc
  have e1 : mat A (returned A N h a r) v = (r.map fun x => mat A (addedValue A N h a x) v).sum := sum_matrix_map r (fun x => addedValue A N h a x) v
  rw [e1, (hp.map _).sum_eq, List.map_flatMap, List.flatMap_def, List.sum_flatten, List.map_map]
  have hterm : ∀ l : List Term, l ∈ termGroups L → ((((l.filter fun t : Term => onlyH t.ts).map fun _ : Term => Added.h (c.omega.n, c.omega.m)) ++
        ((kept so l).filter (Enabled env.fl)).map fun t : Term => Added.sum (renderPyPrefactor (pyPrefactor so t.h t.ts)) (g t)).map fun x => mat A (addedValue A N h a x) v).sum =
      (l.filter fun t : Term => onlyH t.ts).length • mat A (h (c.omega.n, 0)) v +
        (((kept so l).filter (Enabled env.fl)).map fun t : Term => termValue A N (h (t.h.m, t.h.n)) a t.h.m t.h.n t.ts v).sum := by
    intro l hl
    rw [List.map_append, List.sum_append, List.map_map, List.map_map, hom]
    congr 1
    · have : ((fun x => mat A (addedValue A N h a x) v) ∘ fun _ : Term => Added.h (c.omega.n, 0)) = fun _ => mat A (h (c.omega.n, 0)) v := rfl
      rw [this, List.map_const', List.sum_replicate]
    · congr 1
      refine List.map_congr_left fun t ht => ?_
      obtain ⟨k1, k2⟩ := kept_sub so l t (List.mem_filter.1 ht).1
      have htL := mem_termGroups hl k1
      have hf := fitsCode_of_generated sol true true hMax cc smax omegaMax hcc hH hS hP _ ho L hL t htL k2
      obtain ⟨d1, d2, _, _, _, _, _, d8⟩ := term_data sol true true hMax cc smax hcc _ L hL t htL
      refine term_value so t hf (fun x hx => ?_) (by rw [d1, hom]) (g t) (hg t htL k2).1 A N h a v (by rw [hv, d2])
      refine ((d8 x ?_).2.2 rfl)
      unfold amplitudes
      rw [if_neg hf.hasT]
      exact hx
  refine (congrArg List.sum (List.map_congr_left hterm)).trans ?_
  rw [List.sum_map_add]
  congr 1
  have hc0 := count_onlyH sol hMax cc smax hcc c.omega hom L hL
  have hno : ∀ t ∈ L, onlyH t.ts = true → amplitudes t = [] := by
    intro t _ h
    unfold amplitudes
    rw [if_pos (by simpa [onlyH] using h)]
  have g1 : ((L.filter fun t => decide (FullyConnected t)).filter fun t => onlyH t.ts) = L.filter fun t => onlyH t.ts := by
    rw [List.filter_filter]
    refine List.filter_congr fun t ht => ?_
    cases ho : onlyH t.ts with
    | false => simp
    | true => simp [FullyConnected, hno t ht ho]
  have g2 : ((L.filter fun t => decide (Linked t)).filter fun t => onlyH t.ts) = [] := by
    rw [List.filter_filter, List.filter_eq_nil_iff]
    intro t ht h
    simp only [Bool.and_eq_true, decide_eq_true_eq] at h
    exact h.2.1 (by simp [FullyConnected, hno t ht h.1])
  have g3 : ((L.filter fun t => decide (Unlinked t)).filter fun t => onlyH t.ts) = [] := by
    rw [List.filter_filter, List.filter_eq_nil_iff]
    intro t ht h
    simp only [Bool.and_eq_true, decide_eq_true_eq] at h
    obtain ⟨x, hx, _⟩ := h.2
    rw [hno t ht h.1] at hx
    simp at hx
  unfold termGroups
  simp only [List.map_cons, List.map_nil, List.sum_cons, List.sum_nil, g1, g2, g3, hc0, List.length_nil, zero_smul, add_zero]
  split <;> simp

/-- The hypotheses are met: the module of rank 2 with a caller that passes all tensors; and the value of a term with two amplitudes,
`1/2! (h_i t_i t_z + h_i t_z t_i)`. -/
example : ∃ F, pythonFile (SetOrder.std _) (SetOrder.std _) 2 2 3 1 = .ok F ∧ (∃ c ∈ F, c.omega.m = 0 ∧ c.omega.n = 1) ∧
    FullArgs 2 2 ⟨true, true, allOn, fun _ => true, fun _ => true⟩ := by
  obtain ⟨F, hF⟩ := ((pythonFile_ok_iff (SetOrder.std _) (SetOrder.std _) 2 2 3 1 (by omega) (by omega) (by omega)).1).2 (by omega)
  refine ⟨F, hF, ?_, fun _ _ _ => rfl, fun _ _ _ => rfl⟩
  have hf := pythonFile_contents _ _ 2 2 3 1 (by omega) F hF
  have ho : (⟨rep 'd' 0 ++ rep 'b' 1, 1, 0, 1⟩ : Op) ∈ omegaOps 2 1 := (omegaOps_exact 2 1 _).2 ⟨rfl, rfl, by simp, by simp⟩
  obtain ⟨c, hc, hc', _⟩ := forall₂_mem_right hf.flip _ ho
  exact ⟨c, hc, by rw [hc'], by rw [hc']⟩
example (A N : Nat) (h : Arr R) (t : Nat × Nat → Arr R) (z : Nat) : termValue A N h t 0 1 [⟨0, 0, 1, 0⟩, ⟨1, 0, 0, 0⟩] [z] =
    (1 / 2 : Rat) • ∑ K : Fin 1 → Fin N, mat A h [(K 0).val] *
      (mat A (t (1, 0)) [z] * mat A (t (1, 0)) [(K 0).val] + mat A (t (1, 0)) [(K 0).val] * mat A (t (1, 0)) [z]) := by
  have hd : distinctTouching [⟨0, 0, 1, 0⟩, ⟨1, 0, 0, 0⟩] = 1 := by decide
  unfold termValue
  rw [hd]
  have hp : ∀ x y : Matrix (Fin A) (Fin A) R, [x, y].permutations = [[x, y], [y, x]] := fun x y => by
    simp [List.permutations, List.permutationsAux, List.permutationsAux.rec, List.permutationsAux2]
  simp [amps, Nat.factorial, hp]

end TF.CC
