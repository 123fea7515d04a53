import Verif.Lemmas.ETEinsum

/-! # The terms of e^T H Z -/

namespace TF.ETPy

open TF.Spec.Tensor TF.Tensor TF.Spec.Fock TF.Spec.ETValue TF.Fock MvPolynomial

variable {R : Type} [CommRing R] {N : Nat}

theorem prod_tProd (t : Arr R) {i : Nat} (I : Fin i → Fin N) : ∏ x, t [(I x).val] = tProd t (modes I) := by
  unfold tProd modes
  rw [List.map_ofFn, List.prod_ofFn]
  rfl

theorem withT_eq (t : Arr R) (i : Nat) (f : List Nat → R) (l : List Nat) : withT t N i f l = sumL N i fun I => tProd t I * f (I ++ l) := by
  unfold withT sumL
  exact Finset.sum_congr rfl fun I _ => by rw [prod_tProd]

/-- The value of a term: the modes `I` of h and `J` of z are contracted with t, the modes `K` of h and z with each other; the first modes
left are on h. -/
def val (N : Nat) (t : Arr R) (h z : List Nat → R) (i n j hl : Nat) (l : List Nat) : R :=
  sumL N n fun K => (sumL N i fun I => tProd t I * h (I ++ (l.take hl ++ K))) * sumL N j fun J => tProd t J * z (K ++ (J ++ l.drop hl))

theorem tProd_append (t : Arr R) (l l' : List Nat) : tProd t (l ++ l') = tProd t l * tProd t l' := by
  unfold tProd
  rw [List.map_append, List.prod_append]

/-- the sum over the summation letters -/
theorem sum_eq_val (t : Arr R) (h z : List Nat → R) {k n j hl m zm : Nat} (hj : j ≤ k) (v : List Nat) (hh : SymmR m h) (hz : SymmR zm z)
    (hm : (k - j) + hl + 0 = m - n + 0) (hmn : n ≤ m) (hl' : hl ≤ v.length) (hzm : j + n + (v.length - hl) = zm) :
    (sumL N (k + n) fun L => tProd t (L.take k) * (h ((L.drop j).take (k - j) ++ (L.drop k).take n ++ v.take hl) * z (L.take j ++ (L.drop k).take n ++ v.drop hl))) =
      val N t h z (k - j) n j hl v := by
  have e1 : k + n = j + (k - j) + n := by omega
  unfold val
  have e2 : (sumL N (k + n) fun L => tProd t (L.take k) * (h ((L.drop j).take (k - j) ++ (L.drop k).take n ++ v.take hl) * z (L.take j ++ (L.drop k).take n ++ v.drop hl))) =
      sumL N j fun J => sumL N (k - j) fun I => sumL N n fun K => (tProd t I * h (I ++ (v.take hl ++ K))) * (tProd t J * z (K ++ (J ++ v.drop hl))) := by
    rw [e1, sumL_add, sumL_add]
    refine sumL_congr fun J hJ => sumL_congr fun I hI => sumL_congr fun K hK => ?_
    have a1 : (J ++ I ++ K).take k = J ++ I := List.take_left' (by simp [hI, hJ]; omega)
    have a2 : (J ++ I ++ K).drop k = K := List.drop_left' (by simp [hI, hJ]; omega)
    have a3 : ((J ++ I ++ K).drop j).take (k - j) = I := by
      rw [List.append_assoc, List.drop_left' hJ, List.take_left' hI]
    have a4 : (J ++ I ++ K).take j = J := by rw [List.append_assoc, List.take_left' hJ]
    have a5 : K.take n = K := List.take_of_length_le (by omega)
    rw [a1, a2, a3, a4, a5, tProd_append]
    have s1 : h (I ++ K ++ v.take hl) = h (I ++ (v.take hl ++ K)) := by
      refine hh _ _ (by simp; omega) ?_
      rw [List.append_assoc]
      exact (List.perm_append_comm).append_left _
    have s2 : z (J ++ K ++ v.drop hl) = z (K ++ (J ++ v.drop hl)) := by
      refine hz _ _ (by simp; omega) ?_
      rw [← List.append_assoc]
      exact (List.perm_append_comm).append_right _
    rw [s1, s2]
    ring
  rw [e2]
  have e3 : ∀ J, (sumL N (k - j) fun I => sumL N n fun K => (tProd t I * h (I ++ (v.take hl ++ K))) * (tProd t J * z (K ++ (J ++ v.drop hl)))) =
      sumL N n fun K => sumL N (k - j) fun I => (tProd t I * h (I ++ (v.take hl ++ K))) * (tProd t J * z (K ++ (J ++ v.drop hl))) := fun J => sumL_comm _ _ _ _
  simp only [e3]
  rw [sumL_comm]
  refine sumL_congr fun K _ => ?_
  unfold sumL
  rw [Finset.sum_mul_sum, Finset.sum_comm]

/-- The numbers fit together: `k - j` modes of h and `j` modes of z are contracted with t, `P` modes are left. -/
def Fits (P k m n zm j : Nat) : Prop := j ≤ k ∧ k - j ≤ m ∧ n + j ≤ zm ∧ (m - (k - j)) + (zm - n - j) = P

instance (P k m n zm j : Nat) : Decidable (Fits P k m n zm j) := by unfold Fits; infer_instance

variable [Algebra Rat R]

/-- the prefactor of a term -/
def coef (k m n zm j : Nat) : Rat :=
  1 / ((m - (k - j)).factorial * (k - j).factorial * n.factorial * (zm - n - j).factorial * j.factorial)

theorem component_smul (P : Nat) (q : Rat) (p : MvPolynomial (Fin N) R) : homogeneousComponent P (q • p) = q • homogeneousComponent P p := by
  rw [rat_smul, rat_smul, homogeneousComponent_C_mul]

theorem component_mono (P Q : Nat) (f : List Nat → R) : homogeneousComponent P (mono N Q f) = if Q = P then mono N P f else 0 := by
  rw [homogeneousComponent_of_mem (mono_homogeneous Q f)]
  by_cases h : Q = P
  · subst h; simp
  · rw [if_neg (fun e => h e.symm), if_neg h]

/-- one of the terms -/
theorem one_term (P k m n zm j : Nat) (hj : j ≤ k) (F : (Fin n → Fin N) → List Nat → R) :
    (1 / (n.factorial : Rat)) • homogeneousComponent P (∑ K : Fin n → Fin N, if k - j ≤ m ∧ n + j ≤ zm then
      (1 / (((k - j).factorial * (m - (k - j)).factorial : Nat) * (j.factorial * (zm - n - j).factorial : Nat) : Rat)) • mono N (m - (k - j) + (zm - n - j)) (F K) else 0) =
    if Fits P k m n zm j then coef k m n zm j • mono N P (fun l => ∑ K : Fin n → Fin N, F K l) else 0 := by
  by_cases h1 : k - j ≤ m ∧ n + j ≤ zm
  · simp only [if_pos h1]
    rw [← Finset.smul_sum, ← mono_sum, component_smul, component_mono, smul_smul]
    by_cases h2 : m - (k - j) + (zm - n - j) = P
    · rw [if_pos h2, if_pos (show Fits P k m n zm j from ⟨hj, h1.1, h1.2, h2⟩)]
      congr 1
      unfold coef
      push_cast
      rw [div_mul_div_comm, one_mul]
      congr 1
      ring
    · rw [if_neg h2, if_neg (show ¬ Fits P k m n zm j from fun h => h2 h.2.2.2), smul_zero]
  · simp only [if_neg h1]
    rw [if_neg (show ¬ Fits P k m n zm j from fun h => h1 ⟨h.2.1, h.2.2.1⟩)]
    simp

theorem val_eq (t : Arr R) (h z : List Nat → R) (i n j hl : Nat) :
    (fun l : List Nat => ∑ K : Fin n → Fin N, withT t N i (fun l => h (l ++ modes K)) (l.take hl) * withT t N j (fun l => z (modes K ++ l)) (l.drop hl)) =
      val N t h z i n j hl := by
  funext l
  unfold val
  refine Finset.sum_congr rfl fun K _ => ?_
  rw [withT_eq, withT_eq]
  congr 1
  exact sumL_congr fun I _ => by rw [List.append_assoc]

/-- One order of the exponential of one term of `H` on one part of `Z`. -/
theorem expand (t : Arr R) (h z : List Nat → R) (P k m n zm : Nat) (hh : SymmR (m + n) h) (hz : SymmR zm z) :
    homogeneousComponent P (dp t k ((1 / ((m.factorial * n.factorial : Nat) : Rat)) • ∑ I : Fin m → Fin N, ∑ K : Fin n → Fin N,
      create I * C (h (modes I ++ modes K)) * annihilate K ((1 / (zm.factorial : Rat)) • mono N zm z))) =
    ∑ j ∈ Finset.range (k + 1), if Fits P k m n zm j then coef k m n zm j • mono N P (val N t h z (k - j) n j (m - (k - j))) else 0 := by
  have e1 : (1 / ((m.factorial * n.factorial : Nat) : Rat)) • ∑ I : Fin m → Fin N, ∑ K : Fin n → Fin N,
      create I * C (h (modes I ++ modes K)) * annihilate K ((1 / (zm.factorial : Rat)) • mono N zm z) =
      (1 / (n.factorial : Rat)) • ∑ K : Fin n → Fin N, ((1 / (m.factorial : Rat)) • mono N m fun l => h (l ++ modes K)) * annihilate K ((1 / (zm.factorial : Rat)) • mono N zm z) := by
    rw [Finset.sum_comm]
    simp only [smul_mul_assoc]
    rw [← Finset.smul_sum, smul_smul]
    congr 1
    · push_cast
      rw [div_mul_div_comm, one_mul, mul_comm (n.factorial : Rat)]
    · refine Finset.sum_congr rfl fun K _ => ?_
      unfold mono
      rw [Finset.sum_mul]
  rw [e1, dp_smul, dp_sum]
  simp only [dp_mul]
  have hsh : ∀ K : Fin n → Fin N, SymmR m fun l => h (l ++ modes K) := fun K l l' hl hp => hh _ _ (by simp [hl, modes_length]) (hp.append_right _)
  by_cases hn : n ≤ zm
  · have hsz : ∀ K : Fin n → Fin N, SymmR (zm - n) fun l => z (modes K ++ l) := fun K =>
      symm_append (n := n) (by rw [Nat.add_sub_cancel' hn]; exact hz) _ (modes_length K)
    have e2 : ∀ (K : Fin n → Fin N) (x : Nat × Nat), dp t x.1 ((1 / (m.factorial : Rat)) • mono N m fun l => h (l ++ modes K)) *
        dp t x.2 (annihilate K ((1 / (zm.factorial : Rat)) • mono N zm z)) =
        if x.1 ≤ m ∧ n + x.2 ≤ zm then (1 / ((x.1.factorial * (m - x.1).factorial : Nat) * (x.2.factorial * (zm - n - x.2).factorial : Nat) : Rat)) •
          mono N (m - x.1 + (zm - n - x.2)) (fun l => withT t N x.1 (fun l => h (l ++ modes K)) (l.take (m - x.1)) * withT t N x.2 (fun l => z (modes K ++ l)) (l.drop (m - x.1))) else 0 := by
      intro K x
      rw [annihilate_ket _ _ _ _ hz, if_pos hn, dp_ket _ _ _ _ (hsh K), dp_ket _ _ _ _ (hsz K)]
      by_cases h1 : x.1 ≤ m
      · by_cases h2 : n + x.2 ≤ zm
        · rw [if_pos h1, if_pos (by omega), if_pos ⟨h1, h2⟩, smul_mul_smul_comm, mono_mul, div_mul_div_comm, one_mul]
        · rw [if_neg (show ¬ x.2 ≤ zm - n by omega), mul_zero, if_neg (show ¬ (x.1 ≤ m ∧ n + x.2 ≤ zm) from fun h => h2 h.2)]
      · rw [if_neg h1, zero_mul, if_neg (show ¬ (x.1 ≤ m ∧ n + x.2 ≤ zm) from fun h => h1 h.1)]
    simp only [e2]
    rw [Finset.sum_comm, component_smul, map_sum, Finset.Nat.sum_antidiagonal_eq_sum_range_succ_mk, ← Finset.sum_range_reflect, Finset.smul_sum]
    refine Finset.sum_congr rfl fun j hj => ?_
    have hj' : j ≤ k := by have := Finset.mem_range.1 hj; omega
    have a1 : k + 1 - 1 - j = k - j := by omega
    have a2 : k - (k - j) = j := by omega
    simp only [Nat.succ_eq_add_one, a1, a2]
    rw [one_term P k m n zm j hj', val_eq]
  · have e2 : ∀ K : Fin n → Fin N, annihilate K ((1 / (zm.factorial : Rat)) • mono N zm z) = 0 := by
      intro K
      rw [annihilate_ket _ _ _ _ hz, if_neg hn]
    simp only [e2]
    rw [Finset.sum_eq_zero (s := Finset.range (k + 1))]
    · have : ∀ i, dp t i (0 : MvPolynomial (Fin N) R) = 0 := by
        intro i
        have := dp_smul t i 0 (0 : MvPolynomial (Fin N) R)
        simpa using this
      simp [this]
    · intro j _
      rw [if_neg]
      intro h
      have := h.2.2.1
      omega

end TF.ETPy
