import Verif.Lemmas.ZhzOperator

/-! # The parts of the product of the Hamiltonian and Z -/

namespace TF.Zhz

open TF.Spec.ZhzValue TF.Spec.Tensor TF.Spec.Fock TF.Spec.ETValue TF.Tensor TF.Fock MvPolynomial

variable {R : Type} [CommRing R] {N : Nat}

/-! ## Normal order -/

theorem normal_sumL (A n m : Nat) (x : Arr R) (p : MvPolynomial (Fin N) R) (a : Fin A) :
    normal A n m x p a = sumL N n fun v => sumL N m fun w => (v.map (up N)).prod * C (x (a.val :: (v ++ w))) * w.foldr down p := by
  refine Finset.sum_congr rfl fun v _ => Finset.sum_congr rfl fun w _ => ?_
  show _ = ((modes v).map (up N)).prod * C (x (a.val :: (modes v ++ modes w))) * (modes w).foldr down p
  rw [up_modes, down_modes]

theorem normal_zero (A n m : Nat) (p : MvPolynomial (Fin N) R) : normal A n m (fun _ => 0) p = 0 := by
  funext a
  unfold normal
  simp

theorem normal_add (A n m : Nat) (x y : Arr R) (p : MvPolynomial (Fin N) R) : normal A n m x p + normal A n m y p = normal A n m (fun l => x l + y l) p := by
  funext a
  rw [Pi.add_apply]
  unfold normal
  rw [← Finset.sum_add_distrib]
  refine Finset.sum_congr rfl fun v _ => ?_
  rw [← Finset.sum_add_distrib]
  refine Finset.sum_congr rfl fun w _ => ?_
  rw [C_add]
  ring

theorem normal_sum {ι : Type} (A n m : Nat) (s : Finset ι) (F : ι → MvPolynomial (Fin N) R → Ket R A N) (h : ∀ i ∈ s, ∃ x, ∀ p, F i p = normal A n m x p) :
    ∃ x, ∀ p, ∑ i ∈ s, F i p = normal A n m x p := by
  induction s using Finset.cons_induction with
  | empty => exact ⟨fun _ => 0, fun p => by rw [Finset.sum_empty, normal_zero]⟩
  | cons i s hi ih =>
    obtain ⟨x, hx⟩ := h i (Finset.mem_cons_self i s)
    obtain ⟨y, hy⟩ := ih fun j hj => h j (Finset.mem_cons.2 (.inr hj))
    exact ⟨_, fun p => by rw [Finset.sum_cons, hx, hy, normal_add]⟩

variable [Algebra Rat R]

theorem opOf_normal (A : Nat) (H Z : Nat × Nat → Arr R) (m n a c : Nat) : ∃ x : Arr R, ∀ p : MvPolynomial (Fin N) R, opOf A H Z m n a c p = normal A (m + c) a x p := by
  refine ⟨fun l => (1 / ((a.factorial * m.factorial * (n - a).factorial * c.factorial : Nat) : Rat)) • sumL N (n - a) fun L =>
    ∑ b : Fin A, H (m, n) ([l.headD 0, b.val] ++ (l.tail.take m ++ (L ++ l.tail.drop (m + c)))) * Z (n - a + c, 0) ([b.val] ++ (L ++ (l.tail.drop m).take c)), fun p => ?_⟩
  funext x
  rw [normal_sumL, sumL_add]
  unfold opOf
  rw [← sumL_smul]
  have e : ∀ w v v' : List Nat, v.length = m → v'.length = c →
      ((v ++ v').map (up N)).prod * C ((1 / ((a.factorial * m.factorial * (n - a).factorial * c.factorial : Nat) : Rat)) • sumL N (n - a) fun L =>
        ∑ b : Fin A, H (m, n) ([(x.val :: (v ++ v' ++ w)).headD 0, b.val] ++ ((x.val :: (v ++ v' ++ w)).tail.take m ++ (L ++ (x.val :: (v ++ v' ++ w)).tail.drop (m + c)))) *
          Z (n - a + c, 0) ([b.val] ++ (L ++ ((x.val :: (v ++ v' ++ w)).tail.drop m).take c))) * w.foldr down p =
      sumL N (n - a) fun L => (1 / ((a.factorial * m.factorial * (n - a).factorial * c.factorial : Nat) : Rat)) •
        (((v ++ v').map (up N)).prod * C (∑ b : Fin A, H (m, n) ([x.val, b.val] ++ (v ++ (L ++ w))) * Z (n - a + c, 0) ([b.val] ++ (L ++ v'))) * w.foldr down p) := by
    intro w v v' hv hv'
    have t1 : (v ++ v' ++ w).take m = v := by rw [List.append_assoc]; exact List.take_left' hv
    have t2 : (v ++ v' ++ w).drop (m + c) = w := List.drop_left' (by simp [hv, hv'])
    have t3 : ((v ++ v' ++ w).drop m).take c = v' := by
      rw [List.append_assoc, List.drop_left' hv]; exact List.take_left' hv'
    rw [List.headD_cons, List.tail_cons, t1, t2, t3, sumL_smul, ← sumL_mul, ← mul_sumL, ← smul_mul_assoc, ← mul_smul_comm]
    congr 2
    have : ∀ (q : Rat) (r : R), (C (q • r) : MvPolynomial (Fin N) R) = q • C r := by
      intro q r
      rw [rat_smul, Algebra.smul_def, C_mul]
    rw [this]
    congr 1
    exact map_sum C _ _
  refine Eq.trans ?_ (sumL_congr fun v hv => sumL_congr fun v' hv' => sumL_congr fun w _ => (e w v v' hv hv').symm)
  have e2 : ∀ g : List Nat → List Nat → List Nat → List Nat → MvPolynomial (Fin N) R,
      (sumL N (n - a) fun L => sumL N a fun w => sumL N m fun v => sumL N c fun v' => g L w v v') =
      sumL N m fun v => sumL N c fun v' => sumL N a fun w => sumL N (n - a) fun L => g L w v v' := by
    intro g
    calc (sumL N (n - a) fun L => sumL N a fun w => sumL N m fun v => sumL N c fun v' => g L w v v')
        = sumL N a fun w => sumL N (n - a) fun L => sumL N m fun v => sumL N c fun v' => g L w v v' := sumL_comm _ _ _ _
      _ = sumL N a fun w => sumL N m fun v => sumL N c fun v' => sumL N (n - a) fun L => g L w v v' := by
          refine sumL_congr fun w _ => ?_
          rw [sumL_comm]
          exact sumL_congr fun v _ => sumL_comm _ _ _ _
      _ = _ := by
          rw [sumL_comm]
          exact sumL_congr fun v _ => sumL_comm _ _ _ _
  refine Eq.trans ?_ (e2 fun L w v v' => (1 / ((a.factorial * m.factorial * (n - a).factorial * c.factorial : Nat) : Rat)) •
        (((v ++ v').map (up N)).prod * C (∑ b : Fin A, H (m, n) ([x.val, b.val] ++ (v ++ (L ++ w))) * Z (n - a + c, 0) ([b.val] ++ (L ++ v'))) * w.foldr down p))
  refine sumL_congr fun L _ => ?_
  rw [← sumL_smul]
  refine sumL_congr fun w _ => ?_
  rw [← sumL_smul]
  refine sumL_congr fun v _ => ?_
  rw [← sumL_smul]

/-! ## The parts -/

/-- the part with `n` creation and `a` annihilation operators -/
noncomputable def partOf (A : Nat) (H Z : Nat × Nat → Arr R) (hMax cc n a : Nat) (p : MvPolynomial (Fin N) R) : Ket R A N :=
  ∑ o ∈ (terms hMax).filter fun o => o.1 ≤ n ∧ a ≤ o.2 ∧ (n - o.1) + (o.2 - a) ≤ cc, opOf A H Z o.1 o.2 a (n - o.1) p

theorem partOf_normal (A : Nat) (H Z : Nat × Nat → Arr R) (hMax cc n a : Nat) : ∃ x : Arr R, ∀ p : MvPolynomial (Fin N) R, partOf A H Z hMax cc n a p = normal A n a x p := by
  have hsum := normal_sum (R := R) (N := N) A n a ((terms hMax).filter fun o => o.1 ≤ n ∧ a ≤ o.2 ∧ (n - o.1) + (o.2 - a) ≤ cc)
    (fun (o : Nat × Nat) => opOf (R := R) (N := N) A H Z o.1 o.2 a (n - o.1))
  refine hsum fun o ho => ?_
  have hn : o.1 + (n - o.1) = n := by have := (Finset.mem_filter.1 ho).2.1; omega
  refine (opOf_normal (N := N) A H Z o.1 o.2 a (n - o.1)).imp fun x hx p => ?_
  rw [hn] at hx
  exact hx p

theorem sum_k {M : Type} [AddCommMonoid M] (g : Nat → M) (cc b m B : Nat) (hB : m + cc ≤ B) :
    (∑ k ∈ Finset.range (cc + 1), if b ≤ k then g (k - b) else 0) =
      ∑ n ∈ Finset.range (B + 1), if m ≤ n ∧ (n - m) + b ≤ cc then g (n - m) else 0 := by
  rw [← Finset.sum_filter, ← Finset.sum_filter]
  refine Finset.sum_bij' (fun k _ => m + (k - b)) (fun n _ => (n - m) + b) ?_ ?_ ?_ ?_ ?_
  · intro k hk
    simp only [Finset.mem_filter, Finset.mem_range] at hk ⊢
    omega
  · intro n hn
    simp only [Finset.mem_filter, Finset.mem_range] at hn ⊢
    omega
  · intro k hk
    simp only [Finset.mem_filter, Finset.mem_range] at hk ⊢
    omega
  · intro n hn
    simp only [Finset.mem_filter, Finset.mem_range] at hn ⊢
    omega
  · intro k hk
    rw [Nat.add_sub_cancel_left]

theorem sum_rot {M ι κ μ : Type} [AddCommMonoid M] (s : Finset ι) (t : Finset κ) (u : Finset μ) (f : ι → κ → μ → M) :
    (∑ a ∈ s, ∑ n ∈ t, ∑ o ∈ u, f a n o) = ∑ o ∈ u, ∑ a ∈ s, ∑ n ∈ t, f a n o := by
  rw [Finset.sum_congr rfl fun a _ => Finset.sum_comm]
  exact Finset.sum_comm

/-- The product is the sum of its parts. -/
theorem product_parts (A : Nat) {H Z : Nat × Nat → Arr R} (hs : Symmetric H Z) (hMax cc : Nat) (p : MvPolynomial (Fin N) R) :
    hamiltonian A N (terms hMax) H (fun b => kets A N (Finset.range (cc + 1)) Z b * p) =
      ∑ a ∈ Finset.range (hMax + 1), ∑ n ∈ Finset.range (hMax + cc + 1), partOf A H Z hMax cc n a p := by
  have e1 : hamiltonian A N (terms hMax) H (fun b => kets A N (Finset.range (cc + 1)) Z b * p) =
      ∑ o ∈ terms hMax, ∑ k ∈ Finset.range (cc + 1), Spec.ETValue.term A N o.1 o.2 (H o) fun b => ket A N k (Z (k, 0)) b * p := by
    unfold Spec.ETValue.hamiltonian
    refine Finset.sum_congr rfl fun o _ => ?_
    funext x
    rw [Finset.sum_apply]
    unfold Spec.ETValue.term
    rw [← Finset.smul_sum]
    congr 1
    refine Eq.trans (Finset.sum_congr rfl fun I _ => ?_) Finset.sum_comm
    refine Eq.trans (Finset.sum_congr rfl fun K _ => ?_) Finset.sum_comm
    refine Eq.trans ?_ Finset.sum_comm
    refine Finset.sum_congr rfl fun b _ => ?_
    beta_reduce
    rw [show kets A N (Finset.range (cc + 1)) Z b = ∑ k ∈ Finset.range (cc + 1), ket A N k (Z (k, 0)) b from Finset.sum_apply _ _ _, Finset.sum_mul, annihilate_sum, Finset.mul_sum]
  rw [e1]
  unfold partOf
  simp only [Finset.sum_filter]
  have e2 : (∑ a ∈ Finset.range (hMax + 1), ∑ n ∈ Finset.range (hMax + cc + 1), ∑ o ∈ terms hMax,
        if o.1 ≤ n ∧ a ≤ o.2 ∧ (n - o.1) + (o.2 - a) ≤ cc then opOf A H Z o.1 o.2 a (n - o.1) p else 0) =
      ∑ o ∈ terms hMax, ∑ a ∈ Finset.range (hMax + 1), ∑ n ∈ Finset.range (hMax + cc + 1),
        if o.1 ≤ n ∧ a ≤ o.2 ∧ (n - o.1) + (o.2 - a) ≤ cc then opOf A H Z o.1 o.2 a (n - o.1) p else 0 := by
    exact sum_rot _ _ _ _
  rw [e2]
  refine Finset.sum_congr rfl fun o ho => ?_
  have ho' := TF.ETPy.mem_terms.1 ho
  funext x
  have e3 : ∀ k ∈ Finset.range (cc + 1), Spec.ETValue.term A N o.1 o.2 (H o) (fun b => ket A N k (Z (k, 0)) b * p) x =
      ∑ a ∈ Finset.range (o.2 + 1), if o.2 - a ≤ k then opOf A H Z o.1 o.2 a (k - (o.2 - a)) p x else 0 := by
    intro k _
    rw [term_ket A hs o.1 o.2 k p x, ← Finset.Nat.sum_antidiagonal_swap,
      Finset.Nat.sum_antidiagonal_eq_sum_range_succ_mk]
    rfl
  rw [Finset.sum_apply, Finset.sum_congr rfl e3, Finset.sum_comm, Finset.sum_apply]
  have e4 : ∀ a ∈ Finset.range (o.2 + 1), (∑ k ∈ Finset.range (cc + 1), if o.2 - a ≤ k then opOf A H Z o.1 o.2 a (k - (o.2 - a)) p x else 0) =
      ∑ n ∈ Finset.range (hMax + cc + 1), if o.1 ≤ n ∧ (n - o.1) + (o.2 - a) ≤ cc then opOf A H Z o.1 o.2 a (n - o.1) p x else 0 := by
    intro a _
    exact sum_k (fun c => opOf A H Z o.1 o.2 a c p x) cc (o.2 - a) o.1 (hMax + cc) (by omega)
  rw [Finset.sum_congr rfl e4]
  simp only [Finset.sum_apply]
  have e5 : ∀ a n : Nat, (if o.1 ≤ n ∧ a ≤ o.2 ∧ (n - o.1) + (o.2 - a) ≤ cc then opOf A H Z o.1 o.2 a (n - o.1) p else 0) x =
      if o.1 ≤ n ∧ a ≤ o.2 ∧ (n - o.1) + (o.2 - a) ≤ cc then opOf A H Z o.1 o.2 a (n - o.1) p x else 0 := by
    intro a n
    split <;> rfl
  simp only [e5]
  refine Eq.trans (Finset.sum_congr rfl fun a ha => Finset.sum_congr rfl fun n _ => ?_) (Finset.sum_subset (s₁ := Finset.range (o.2 + 1)) ?_ ?_)
  · have := Finset.mem_range.1 ha
    exact if_congr ⟨fun h => ⟨h.1, by omega, h.2⟩, fun h => ⟨h.1, h.2.2⟩⟩ rfl rfl
  · intro a ha
    rw [Finset.mem_range] at ha ⊢
    omega
  · intro a _ ha
    rw [Finset.mem_range] at ha
    exact Finset.sum_eq_zero fun n _ => if_neg fun h => ha (by omega)

end TF.Zhz
