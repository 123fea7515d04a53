import Verif.Lemmas.ZhzUnique

/-!
# C89: the h z sums of the z_t equations are the normal-ordered parts of H Z

The operators are read off by `Spec/ZhzValue.lean`.  The factor `fbar` of a contraction is 1 (zero temperature); `f` does not occur.
-/

namespace TF.Zhz

open TF.Spec.ZhzValue TF.Spec.Tensor TF.Spec.Fock TF.Spec.ETValue TF.Spec.Zhz TF.Tensor TF.Fock MvPolynomial
open TF.CC (Op HOp omegaOps omegaOps_exact)

variable {R : Type} [CommRing R] [Algebra Rat R] {N : Nat}

/-! ## The printed sum -/

/-- the printed lines of an equation, as an operator -/
theorem total_part {rf : Bool} {hMax cc pMax : Nat} {d : List Section} (hd : document true rf hMax cc pMax = .ok d) (h5 : min hMax cc ≤ 5) (h7 : min cc pMax ≤ 7)
    {s : Section} (hs : s ∈ d) (A : Nat) (f : R) (H Z : Nat × Nat → Arr R) (p : MvPolynomial (Fin N) R) :
    Spec.ZhzValue.total A f 1 H Z ((lines 7 (s.eqn.third.getD [])).flatten) p = partOf A H Z hMax cc s.omega.n s.omega.m p := by
  rw [zhz_document_lines_partial hd (by omega) hs, third_getD hd hs]
  obtain ⟨-, -, o3, o4⟩ := (omegaOps_exact cc pMax _).1 (mem_document hd hs).1
  generalize s.omega = o at *
  unfold Spec.ZhzValue.total partOf
  rw [List.map_map]
  have e1 : ((prunedH hMax).filter (contributes o cc)).map ((fun t => operator A f 1 H Z t p) ∘ fun h => thirdP true (gsTerm o h) (gsZ o h)) =
      (((prunedH hMax).filter (contributes o cc)).map fun h => (h.m, h.n)).map fun x => opOf A H Z x.1 x.2 o.m (o.n - x.1) p := by
    rw [List.map_map]
    refine List.map_congr_left fun h hh => ?_
    rw [List.mem_filter, mem_prunedH] at hh
    obtain ⟨⟨h1, h2, h3⟩, h4⟩ := hh
    simp only [contributes, Bool.and_eq_true, decide_eq_true_eq] at h4
    exact operator_gsP h4.1.1 h4.1.2 (by omega) (by omega) A f H Z p
  have hnd : (((prunedH hMax).filter (contributes o cc)).map fun h => (h.m, h.n)).Nodup :=
    (prunedH_keys_nodup hMax).sublist ((List.filter_sublist).map _)
  rw [e1, ← List.sum_toFinset _ hnd]
  refine Finset.sum_congr ?_ fun _ _ => rfl
  ext x
  rw [List.mem_toFinset, List.mem_map, Finset.mem_filter, TF.ETPy.mem_terms]
  constructor
  · rintro ⟨h, hh, rfl⟩
    rw [List.mem_filter, mem_prunedH] at hh
    obtain ⟨⟨h1, h2, h3⟩, h4⟩ := hh
    simp only [contributes, Bool.and_eq_true, decide_eq_true_eq] at h4
    exact ⟨⟨by simp only; omega, by simp only; omega⟩, h4.1.1, h4.1.2, h4.2⟩
  · rintro ⟨⟨h1, h2⟩, h3, h4, h5⟩
    refine ⟨⟨x.1 + x.2, x.1, x.2⟩, ?_, rfl⟩
    rw [List.mem_filter, mem_prunedH]
    refine ⟨⟨rfl, h1, h2⟩, ?_⟩
    simp only [contributes, Bool.and_eq_true, decide_eq_true_eq]
    exact ⟨⟨h3, h4⟩, h5⟩

theorem product_parts_square (A : Nat) {H Z : Nat × Nat → Arr R} (hs : Symmetric H Z) (hMax cc : Nat) (p : MvPolynomial (Fin N) R) :
    hamiltonian A N (terms hMax) H (fun b => kets A N (Finset.range (cc + 1)) Z b * p) =
      ∑ m ∈ Finset.range (hMax + cc + 1), ∑ n ∈ Finset.range (hMax + cc + 1), partOf A H Z hMax cc n m p := by
  rw [product_parts A hs]
  refine Finset.sum_subset (fun m hm => Finset.mem_range.2 (by have := Finset.mem_range.1 hm; omega)) fun m _ hm => ?_
  refine Finset.sum_eq_zero fun n _ => ?_
  unfold partOf
  rw [Finset.filter_false_of_mem, Finset.sum_empty]
  rintro o ho ⟨-, h2, -⟩
  rw [TF.ETPy.mem_terms] at ho
  rw [Finset.mem_range] at hm
  omega

/-! ## The theorems -/

/-- **C89, existence.** The product `H Z`, with the operators of the truncations, has an expansion in normal order. -/
theorem zhz_product_normal (A : Nat) {H Z : Nat × Nat → Arr R} (hs : Symmetric H Z) (hMax cc : Nat) :
    ∃ x : Nat → Nat → Arr R, ∀ p : MvPolynomial (Fin N) R, hamiltonian A N (terms hMax) H (fun b => kets A N (Finset.range (cc + 1)) Z b * p) =
      ∑ m ∈ Finset.range (hMax + cc + 1), ∑ n ∈ Finset.range (hMax + cc + 1), normal A n m (x n m) p := by
  choose x hx using fun n m => partOf_normal (N := N) A H Z hMax cc n m
  refine ⟨x, fun p => ?_⟩
  rw [product_parts_square A hs]
  exact Finset.sum_congr rfl fun m _ => Finset.sum_congr rfl fun n _ => hx n m p

/-- **C89, uniqueness.** The parts of an operator in normal order are determined by the operator. -/
theorem zhz_normal_unique (A B : Nat) (x y : Nat → Nat → Arr R)
    (h : ∀ p : MvPolynomial (Fin N) R, ∑ m ∈ Finset.range B, ∑ n ∈ Finset.range B, normal A n m (x n m) p = ∑ m ∈ Finset.range B, ∑ n ∈ Finset.range B, normal A n m (y n m) p) :
    ∀ m < B, ∀ n < B, ∀ p : MvPolynomial (Fin N) R, normal A n m (x n m) p = normal A n m (y n m) p := by
  have hneg : ∀ n m (p : MvPolynomial (Fin N) R), normal A n m (fun l => x n m l - y n m l) p = normal A n m (x n m) p - normal A n m (y n m) p := by
    intro n m p
    rw [eq_sub_iff_add_eq, normal_add]
    exact congrArg (fun z => normal A n m z p) (funext fun l => sub_add_cancel _ _)
  intro m hm n hn p
  have := normal_parts_zero (N := N) A B B (fun n m l => x n m l - y n m l) (fun p => by
    rw [Finset.sum_congr rfl fun m _ => Finset.sum_congr rfl fun n _ => hneg n m p]
    rw [Finset.sum_congr rfl fun m _ => Finset.sum_sub_distrib _ _, Finset.sum_sub_distrib, h p, sub_self]) m hm n hn p
  rw [hneg] at this
  exact sub_eq_zero.1 this

/-- **C89.** Let the product `H Z` of the Hamiltonian and the ground state z operators of the truncations be written in normal order.  In the equation of the document for the
projection operator with `m` creation and `n` annihilation operators, the printed h z sum, read as an operator, is the part of this product with `n` creation and `m` annihilation
operators. -/
theorem zhz_equation_operator {rf : Bool} {hMax cc pMax : Nat} {d : List Section} (hd : document true rf hMax cc pMax = .ok d) (h5 : min hMax cc ≤ 5) (h7 : min cc pMax ≤ 7)
    (A : Nat) {H Z : Nat × Nat → Arr R} (hs : Symmetric H Z) (x : Nat → Nat → Arr R)
    (hx : ∀ p : MvPolynomial (Fin N) R, hamiltonian A N (terms hMax) H (fun b => kets A N (Finset.range (cc + 1)) Z b * p) =
      ∑ m ∈ Finset.range (hMax + cc + 1), ∑ n ∈ Finset.range (hMax + cc + 1), normal A n m (x n m) p) :
    ∀ s ∈ d, ∀ (f : R) (p : MvPolynomial (Fin N) R),
      Spec.ZhzValue.total A f 1 H Z ((lines 7 (s.eqn.third.getD [])).flatten) p = normal A s.omega.n s.omega.m (x s.omega.n s.omega.m) p := by
  intro s hsd f p
  rw [total_part hd h5 h7 hsd]
  obtain ⟨-, -, o3, o4⟩ := (omegaOps_exact cc pMax _).1 (mem_document hd hsd).1
  choose y hy using fun n m => partOf_normal (N := N) A H Z hMax cc n m
  rw [hy]
  refine zhz_normal_unique (N := N) A (hMax + cc + 1) y x (fun q => ?_) _ (by omega) _ (by omega) p
  rw [← hx, product_parts_square A hs]
  exact Finset.sum_congr rfl fun m _ => Finset.sum_congr rfl fun n _ => (hy n m q).symm

/-- **C89, on the ground state.** In the equation of a projection operator with `n` annihilation operators only, the printed h z sum applied to the ground state is the part of
`H Z |0>` with `n` quanta. -/
theorem zhz_equation_ground {rf : Bool} {hMax cc pMax : Nat} {d : List Section} (hd : document true rf hMax cc pMax = .ok d) (h5 : min hMax cc ≤ 5) (h7 : min cc pMax ≤ 7)
    (A : Nat) {H Z : Nat × Nat → Arr R} (hs : Symmetric H Z) : ∀ s ∈ d, s.omega.m = 0 → ∀ (f : R) (a : Fin A),
      Spec.ZhzValue.total A f 1 H Z ((lines 7 (s.eqn.third.getD [])).flatten) (1 : MvPolynomial (Fin N) R) a =
        homogeneousComponent s.omega.n (hamiltonian A N (terms hMax) H (kets A N (Finset.range (cc + 1)) Z) a) := by
  intro s hsd hm f a
  obtain ⟨-, -, o3, o4⟩ := (omegaOps_exact cc pMax _).1 (mem_document hd hsd).1
  obtain ⟨x, hx⟩ := zhz_product_normal (N := N) A hs hMax cc
  rw [zhz_equation_operator hd h5 h7 A hs x hx s hsd, hm]
  have h1 := hx 1
  rw [show (fun b => kets A N (Finset.range (cc + 1)) Z b * 1) = kets A N (Finset.range (cc + 1)) Z from funext fun b => mul_one _] at h1
  have hone : (1 : MvPolynomial (Fin N) R).IsHomogeneous 0 := isHomogeneous_one _ _
  rw [h1, Finset.sum_apply, Finset.sum_eq_single 0]
  · rw [Finset.sum_apply, map_sum, Finset.sum_eq_single s.omega.n]
    · rw [homogeneousComponent_of_mem ((normal_degree A s.omega.n 0 _ hone a).2 le_rfl), if_pos (by omega)]
    · intro n _ hne
      rw [homogeneousComponent_of_mem ((normal_degree A n 0 _ hone a).2 le_rfl), if_neg (by omega)]
    · intro h; exact absurd (Finset.mem_range.2 (by omega)) h
  · intro m _ hne
    rw [Finset.sum_apply]
    exact Finset.sum_eq_zero fun n _ => (normal_degree A n m _ hone a).1 (by omega)
  · intro h; exact absurd (Finset.mem_range.2 (by omega)) h

/-! ## Examples -/

/- The hypotheses: the document of truncation 2, 2, 2 exists, it has an equation with both kinds of operators, constant arrays are symmetric. -/
example : ∃ d, document true false 2 2 2 = .ok d ∧ min 2 2 ≤ 5 ∧ min 2 2 ≤ 7 ∧ (∃ s ∈ d, s.omega.m = 1 ∧ s.omega.n = 1 ∧ (s.eqn.third.getD []).length = 3) ∧
    Symmetric (R := Rat) (fun o _ => 2 + o.1 + 3 * o.2) (fun o _ => 1 + o.1) := by
  obtain ⟨d, hd⟩ := (zhz_document_ok_iff true false 2 2 2).2 (by decide)
  have ho : (⟨TF.CC.rep 'd' 1 ++ TF.CC.rep 'b' 1, 1 + 1, 1, 1⟩ : Op) ∈ omegaOps 2 2 := (omegaOps_exact 2 2 _).2 ⟨rfl, rfl, by decide, by decide⟩
  rw [← (zhz_document_sections false 2 2 2 hd).1, List.mem_map] at ho
  obtain ⟨s, hs, ho⟩ := ho
  refine ⟨d, hd, by decide, by decide, ⟨s, hs, by rw [ho], by rw [ho], ?_⟩, ⟨fun _ _ _ _ _ _ _ _ _ _ _ _ => rfl, fun _ _ _ _ _ _ _ => rfl⟩⟩
  rw [third_getD hd hs, List.length_map, ho]
  rfl

end TF.Zhz
