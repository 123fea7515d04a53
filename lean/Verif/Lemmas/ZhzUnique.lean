import Verif.Lemmas.ZhzNormal

/-! # The parts of an operator in normal order are unique -/

namespace TF.Zhz

open TF.Spec.ZhzValue TF.Spec.Tensor TF.Spec.Fock TF.Spec.ETValue TF.Tensor TF.Fock MvPolynomial

variable {R : Type} [CommRing R] {N : Nat}

theorem pderiv_swap (i j : Fin N) (p : MvPolynomial (Fin N) R) : pderiv i (pderiv j p) = pderiv j (pderiv i p) := by
  induction p using MvPolynomial.induction_on with
  | C a => simp
  | add p q hp hq => simp only [map_add, hp, hq]
  | mul_X p k hp =>
    simp only [Derivation.leibniz, smul_eq_mul, map_add, pderiv_X, hp]
    have h : ∀ a b : Fin N, pderiv a (Pi.single (M := fun _ => MvPolynomial (Fin N) R) b 1 k) = 0 := by
      intro a b
      by_cases hb : b = k
      · subst hb
        rw [Pi.single_eq_same, pderiv_one]
      · rw [Pi.single_eq_of_ne (Ne.symm hb), map_zero]
    rw [h, h]
    ring

theorem annihilate_perm {m : Nat} {w w' : Fin m → Fin N} (h : (List.ofFn w).Perm (List.ofFn w')) (p : MvPolynomial (Fin N) R) : annihilate w p = annihilate w' p := by
  unfold annihilate
  haveI : LeftCommutative fun (i : Fin N) (p : MvPolynomial (Fin N) R) => pderiv i p := ⟨fun i j p => pderiv_swap i j p⟩
  exact h.foldr_eq p

variable [Algebra Rat R]

theorem nat_smul_zero {M : Type} [AddCommGroup M] [Module Rat M] {n : Nat} (hn : n ≠ 0) {x : M} (h : (n : Rat) • x = 0) : x = 0 := by
  have hn' : (n : Rat) ≠ 0 := by exact_mod_cast hn
  have := congrArg (fun y => (n : Rat)⁻¹ • y) h
  simpa only [smul_smul, inv_mul_cancel₀ hn', one_smul, smul_zero] using this

/-- An operator with `m` annihilation operators is zero if it is on the states with `m` modes. -/
theorem zero_of_degree (m : Nat) (g : (Fin m → Fin N) → MvPolynomial (Fin N) R)
    (h : ∀ p : MvPolynomial (Fin N) R, p.IsHomogeneous m → ∑ w, g w * annihilate w p = 0) (p : MvPolynomial (Fin N) R) : ∑ w, g w * annihilate w p = 0 := by
  classical
  have hcls : ∀ w0 : Fin m → Fin N, ∑ w ∈ Finset.univ.filter (fun w : Fin m → Fin N => (Multiset.ofList (List.ofFn w)) = Multiset.ofList (List.ofFn w0)), g w = 0 := by
    intro w0
    let f : List Nat → R := fun l => if l.Perm (modes w0) then 1 else 0
    have hf : SymmR (m + 0) f := by
      intro l l' _ hp
      exact if_congr ⟨fun h => hp.symm.trans h, fun h => hp.trans h⟩ rfl rfl
    have h1 := h (mono N m f) (mono_homogeneous m f)
    have h2 : ∀ w : Fin m → Fin N, annihilate w (mono N m f) = ((m.factorial : Nat) : MvPolynomial (Fin N) R) * C (f (modes w)) := by
      intro w
      have h3 := annihilate_mono m 0 w f hf
      rw [Nat.add_zero, Nat.descFactorial_self] at h3
      rw [h3, mono_sumL, sumL_zero]
      simp
    have hmodes : ∀ w : Fin m → Fin N, (modes w).Perm (modes w0) ↔ (Multiset.ofList (List.ofFn w)) = Multiset.ofList (List.ofFn w0) := by
      intro w
      rw [Multiset.coe_eq_coe]
      have e : ∀ v : Fin m → Fin N, modes v = (List.ofFn v).map Fin.val := by
        intro v
        unfold modes
        rw [List.map_ofFn]
        rfl
      rw [e, e]
      exact List.map_perm_map_iff Fin.val_injective
    have h4 : ∑ w, g w * annihilate w (mono N m f) = (m.factorial : Rat) •
        ∑ w ∈ Finset.univ.filter (fun w : Fin m → Fin N => (Multiset.ofList (List.ofFn w)) = Multiset.ofList (List.ofFn w0)), g w := by
      rw [Finset.sum_filter, Finset.smul_sum]
      refine Finset.sum_congr rfl fun w _ => ?_
      rw [h2]
      show g w * (_ * C (if (modes w).Perm (modes w0) then 1 else 0)) = _
      by_cases hp : (modes w).Perm (modes w0)
      · rw [if_pos hp, if_pos ((hmodes w).1 hp), C_1, mul_one, mul_comm, ← nsmul_eq_mul, Nat.cast_smul_eq_nsmul]
      · rw [if_neg hp, if_neg (fun h => hp ((hmodes w).2 h)), C_0, mul_zero, mul_zero, smul_zero]
    exact nat_smul_zero (Nat.factorial_ne_zero m) (h4.symm.trans h1)
  rw [← Finset.sum_fiberwise_of_maps_to (s := Finset.univ) (t := Finset.univ.image fun w : Fin m → Fin N => Multiset.ofList (List.ofFn w))
    (g := fun w : Fin m → Fin N => Multiset.ofList (List.ofFn w)) (fun w _ => Finset.mem_image_of_mem _ (Finset.mem_univ w))]
  refine Finset.sum_eq_zero fun c hc => ?_
  obtain ⟨w0, -, rfl⟩ := Finset.mem_image.1 hc
  have h5 : ∀ w ∈ Finset.univ.filter (fun w : Fin m → Fin N => (Multiset.ofList (List.ofFn w)) = Multiset.ofList (List.ofFn w0)), g w * annihilate w p = g w * annihilate w0 p := by
    intro w hw
    rw [annihilate_perm (Multiset.coe_eq_coe.1 (Finset.mem_filter.1 hw).2)]
  rw [Finset.sum_congr rfl h5, ← Finset.sum_mul, hcls w0, zero_mul]

theorem normal_factor (A n m : Nat) (x : Arr R) (p : MvPolynomial (Fin N) R) (a : Fin A) :
    normal A n m x p a = ∑ w : Fin m → Fin N, (∑ v : Fin n → Fin N, create v * C (x (a.val :: (modes v ++ modes w)))) * annihilate w p := by
  unfold normal
  rw [Finset.sum_comm]
  exact Finset.sum_congr rfl fun w _ => (Finset.sum_mul _ _ _).symm

theorem create_homogeneous {n : Nat} (v : Fin n → Fin N) (c : R) : (create v * C c : MvPolynomial (Fin N) R).IsHomogeneous n := by
  have h1 : (create v : MvPolynomial (Fin N) R).IsHomogeneous n := by
    have := MvPolynomial.IsHomogeneous.prod Finset.univ (fun i : Fin n => (X (v i) : MvPolynomial (Fin N) R)) (fun _ => 1) (fun i _ => isHomogeneous_X R (v i))
    simpa [create] using this
  simpa using h1.mul (isHomogeneous_C (Fin N) c)

theorem normal_degree (A n m : Nat) (x : Arr R) {p : MvPolynomial (Fin N) R} {k : Nat} (hp : p.IsHomogeneous k) (a : Fin A) :
    (k < m → normal A n m x p a = 0) ∧ (m ≤ k → (normal A n m x p a).IsHomogeneous (n + (k - m))) := by
  rw [normal_factor]
  constructor
  · intro hk
    refine Finset.sum_eq_zero fun w _ => ?_
    rw [(annihilate_homogeneous m w hp).2 hk, mul_zero]
  · intro hk
    refine MvPolynomial.IsHomogeneous.sum _ _ _ fun w _ => ?_
    refine MvPolynomial.IsHomogeneous.mul ?_ ((annihilate_homogeneous m w hp).1 hk)
    exact MvPolynomial.IsHomogeneous.sum _ _ _ fun v _ => create_homogeneous v _

/-- The parts of zero are zero. -/
theorem normal_parts_zero (A M B : Nat) (x : Nat → Nat → Arr R)
    (h : ∀ p : MvPolynomial (Fin N) R, ∑ m ∈ Finset.range M, ∑ n ∈ Finset.range B, normal A n m (x n m) p = 0) :
    ∀ m < M, ∀ n < B, ∀ p : MvPolynomial (Fin N) R, normal A n m (x n m) p = 0 := by
  intro m
  induction m using Nat.strong_induction_on with
  | _ m ih =>
    intro hm n hn p
    funext a
    rw [normal_factor]
    refine zero_of_degree m _ ?_ p
    intro q hq
    rw [← normal_factor]
    have h1 : ∑ n ∈ Finset.range B, normal A n m (x n m) q a = 0 := by
      have h2 := congrFun (h q) a
      rw [Finset.sum_apply, Finset.sum_eq_single m] at h2
      · rw [Finset.sum_apply] at h2
        exact h2
      · intro m' hm' hne
        rw [Finset.sum_apply]
        refine Finset.sum_eq_zero fun n' hn' => ?_
        rcases Nat.lt_or_ge m' m with hl | hl
        · rw [ih m' hl (Finset.mem_range.1 hm') n' (Finset.mem_range.1 hn') q]
          rfl
        · exact (normal_degree A n' m' _ hq a).1 (by omega)
      · intro h; exact absurd (Finset.mem_range.2 hm) h
    have h3 := congrArg (homogeneousComponent n) h1
    rw [map_sum, Finset.sum_eq_single n, map_zero] at h3
    · have h4 := (normal_degree A n m (x n m) hq a).2 le_rfl
      rw [Nat.sub_self, Nat.add_zero] at h4
      rw [← h3, homogeneousComponent_of_mem h4, if_pos rfl]
    · intro n' _ hne
      have h4 := (normal_degree A n' m (x n' m) hq a).2 le_rfl
      rw [Nat.sub_self, Nat.add_zero] at h4
      rw [homogeneousComponent_of_mem h4, if_neg (Ne.symm hne)]
    · intro h; exact absurd (Finset.mem_range.2 hn) h

end TF.Zhz
