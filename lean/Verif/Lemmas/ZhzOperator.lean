import Verif.Lemmas.ZhzValue
import Mathlib.Data.Nat.Choose.Sum

/-! # The product of the Hamiltonian and Z in normal order -/

namespace TF.Zhz

open TF.Spec.ZhzValue TF.Spec.Tensor TF.Spec.Fock TF.Spec.ETValue TF.Tensor TF.Fock MvPolynomial

variable {R : Type} [CommRing R] {N : Nat}

theorem up_val (i : Fin N) : up (R := R) N i.val = X i := by
  unfold up
  rw [dif_pos i.isLt]

theorem down_val (i : Fin N) (p : MvPolynomial (Fin N) R) : down i.val p = pderiv i p := by
  unfold down
  rw [dif_pos i.isLt]

theorem up_modes {k : Nat} (v : Fin k → Fin N) : ((modes v).map (up (R := R) N)).prod = create v := by
  unfold modes create
  rw [List.map_ofFn, List.prod_ofFn]
  exact Finset.prod_congr rfl fun i _ => up_val (v i)

theorem down_modes {k : Nat} (w : Fin k → Fin N) (p : MvPolynomial (Fin N) R) : (modes w).foldr down p = annihilate w p := by
  unfold modes annihilate
  induction k with
  | zero => rfl
  | succ k ih => rw [List.ofFn_succ, List.ofFn_succ, List.foldr_cons, List.foldr_cons, ih, down_val]

theorem down_add (i : Nat) (p q : MvPolynomial (Fin N) R) : down i (p + q) = down i p + down i q := by
  unfold down
  split
  · rw [map_add]
  · rw [add_zero]

theorem down_zero (i : Nat) : down i (0 : MvPolynomial (Fin N) R) = 0 := by
  unfold down
  split
  · rw [map_zero]
  · rfl

theorem down_C_mul (i : Nat) (c : R) (p : MvPolynomial (Fin N) R) : down i (C c * p) = C c * down i p := by
  unfold down
  split
  · rw [pderiv_C_mul]
  · rw [mul_zero]

theorem down_sum {ι : Type} (i : Nat) (s : Finset ι) (f : ι → MvPolynomial (Fin N) R) : down i (∑ x ∈ s, f x) = ∑ x ∈ s, down i (f x) := by
  unfold down
  split
  · rw [map_sum]
  · rw [Finset.sum_const_zero]

theorem down_sumL (i n : Nat) (F : List Nat → MvPolynomial (Fin N) R) : down i (sumL N n F) = sumL N n fun l => down i (F l) := down_sum i _ _

theorem down_mul (i : Nat) (p q : MvPolynomial (Fin N) R) : down i (p * q) = down i p * q + p * down i q := by
  unfold down
  split
  · rw [Derivation.leibniz, smul_eq_mul, smul_eq_mul]
    ring
  · rw [zero_mul, mul_zero, add_zero]

theorem sumL_addF {M : Type} [AddCommMonoid M] (n : Nat) (F G : List Nat → M) : (sumL N n fun l => F l + G l) = sumL N n F + sumL N n G := Finset.sum_add_distrib

theorem sumL_sum {M ι : Type} [AddCommMonoid M] (n : Nat) (s : Finset ι) (F : ι → List Nat → M) :
    (sumL N n fun l => ∑ i ∈ s, F i l) = ∑ i ∈ s, sumL N n (F i) := Finset.sum_comm

theorem mul_sumL (n : Nat) (x : MvPolynomial (Fin N) R) (F : List Nat → MvPolynomial (Fin N) R) : x * sumL N n F = sumL N n fun l => x * F l := Finset.mul_sum _ _ _

theorem sumL_mul (n : Nat) (x : MvPolynomial (Fin N) R) (F : List Nat → MvPolynomial (Fin N) R) : sumL N n F * x = sumL N n fun l => F l * x := Finset.sum_mul _ _ _

/-- the derivatives with respect to the variables of two lists -/
noncomputable def two (f : List Nat → R) (q p : MvPolynomial (Fin N) R) (a b : Nat) : MvPolynomial (Fin N) R :=
  sumL N a fun L => sumL N b fun w => C (f (L ++ w)) * (L.foldr down q * w.foldr down p)

/-- Leibniz' rule for the derivatives with symmetric coefficients. -/
theorem leibniz (q p : MvPolynomial (Fin N) R) (n : Nat) : ∀ f : List Nat → R, SymmR n f →
    (sumL N n fun K => C (f K) * K.foldr down (q * p)) = ∑ x ∈ Finset.antidiagonal n, n.choose x.1 • two f q p x.1 x.2 := by
  induction n with
  | zero =>
    intro f _
    simp [two, sumL_zero]
  | succ n ih =>
    intro f hf
    have hf' : ∀ i, SymmR n fun l => f (i :: l) := fun i l l' hl hp => hf _ _ (by simp [hl]) (hp.cons i)
    rw [sumL_succ]
    have e1 : ∀ i : Fin N, (sumL N n fun l => C (f (i.val :: l)) * (i.val :: l).foldr down (q * p)) =
        ∑ x ∈ Finset.antidiagonal n, n.choose x.1 •
          ((sumL N x.1 fun L => sumL N x.2 fun w => C (f (i.val :: (L ++ w))) * ((i.val :: L).foldr down q * w.foldr down p)) +
            sumL N x.1 fun L => sumL N x.2 fun w => C (f (i.val :: (L ++ w))) * (L.foldr down q * (i.val :: w).foldr down p)) := by
      intro i
      have := congrArg (down i.val) (ih (fun l => f (i.val :: l)) (hf' i))
      rw [down_sumL] at this
      refine (sumL_congr fun l _ => ?_).trans (this.trans ?_)
      · rw [List.foldr_cons, down_C_mul]
      · rw [down_sum]
        refine Finset.sum_congr rfl fun x _ => ?_
        rw [nsmul_eq_mul, nsmul_eq_mul, show ((n.choose x.1 : Nat) : MvPolynomial (Fin N) R) = C (n.choose x.1 : R) by simp, down_C_mul]
        congr 1
        unfold two
        rw [down_sumL, ← sumL_addF]
        refine sumL_congr fun L _ => ?_
        rw [down_sumL, ← sumL_addF]
        refine sumL_congr fun w _ => ?_
        rw [down_C_mul, down_mul, List.foldr_cons, List.foldr_cons, mul_add]
    rw [Finset.sum_congr rfl fun i _ => e1 i, Finset.sum_comm]
    rw [Finset.sum_antidiagonal_choose_succ_nsmul (fun a b => two f q p a b) n, ← Finset.sum_add_distrib]
    refine Finset.sum_congr rfl fun x hx => ?_
    have hx' := Finset.mem_antidiagonal.1 hx
    rw [← Finset.smul_sum, Finset.sum_add_distrib, nsmul_add, add_comm]
    have hc : n.choose x.2 = n.choose x.1 := by
      rw [← hx']
      exact Nat.choose_symm_of_eq_add (by omega)
    rw [hc]
    congr 2
    · unfold two
      rw [← sumL_sum]
      refine sumL_congr fun L hL => ?_
      rw [sumL_succ]
      refine Finset.sum_congr rfl fun i _ => sumL_congr fun w hw => ?_
      rw [hf (i.val :: (L ++ w)) (L ++ i.val :: w) (by simp [hL, hw]; omega) List.perm_middle.symm]
    · unfold two
      rw [sumL_succ]
      rfl

theorem sumL_modes {M : Type} [AddCommMonoid M] {n : Nat} {F G : List Nat → M} (h : ∀ K : Fin n → Fin N, F (modes K) = G (modes K)) : sumL N n F = sumL N n G :=
  Finset.sum_congr rfl fun K _ => h K

theorem mono_sumL (k : Nat) (f : List Nat → R) : mono N k f = sumL N k fun v => (v.map (up N)).prod * C (f v) :=
  Finset.sum_congr rfl fun v _ => by
    show _ = ((modes v).map (up N)).prod * C (f (modes v))
    rw [up_modes]

variable [Algebra Rat R]

theorem sumL_smul (n : Nat) (c : Rat) (F : List Nat → MvPolynomial (Fin N) R) : (sumL N n fun l => c • F l) = c • sumL N n F := (Finset.smul_sum).symm

theorem two_ket (f g : List Nat → R) (p : MvPolynomial (Fin N) R) (k i a : Nat) (hg : SymmR k g) :
    two f ((1 / (k.factorial : Rat)) • mono N k g) p i a = if i ≤ k then
      (1 / ((k - i).factorial : Rat)) • sumL N i fun L => sumL N a fun w => sumL N (k - i) fun v' =>
        (v'.map (up N)).prod * C (f (L ++ w) * g (L ++ v')) * w.foldr down p else 0 := by
  unfold two
  split
  · rename_i hi
    rw [← sumL_smul]
    refine sumL_modes fun L => ?_
    rw [← sumL_smul]
    refine sumL_congr fun w _ => ?_
    rw [down_modes, annihilate_ket i k L g hg, if_pos hi, mono_sumL, smul_mul_assoc, mul_smul_comm, sumL_mul, mul_sumL]
    congr 1
    refine sumL_congr fun v' _ => ?_
    rw [C_mul]
    ring
  · rename_i hi
    refine Finset.sum_eq_zero fun L _ => Finset.sum_eq_zero fun w _ => ?_
    show C (f (modes L ++ modes w)) * ((modes L).foldr down _ * (modes w).foldr down p) = 0
    rw [down_modes, annihilate_ket i k L g hg, if_neg hi, zero_mul, mul_zero]

theorem opOf_eq (A : Nat) (H Z : Nat × Nat → Arr R) (m n a c : Nat) (p : MvPolynomial (Fin N) R) (x : Fin A) :
    opOf A H Z m n a c p x = (1 / ((a.factorial * m.factorial * (n - a).factorial * c.factorial : Nat) : Rat)) •
      ∑ b : Fin A, sumL N m fun v => (v.map (up N)).prod * sumL N (n - a) fun L => sumL N a fun w => sumL N c fun v' =>
        (v'.map (up N)).prod * C (H (m, n) ([x.val, b.val] ++ (v ++ (L ++ w))) * Z (n - a + c, 0) ([b.val] ++ (L ++ v'))) * w.foldr down p := by
  unfold opOf
  congr 1
  rw [← sumL_sum]
  have e : ∀ v : List Nat, (∑ b : Fin A, (v.map (up N)).prod * sumL N (n - a) fun L => sumL N a fun w => sumL N c fun v' =>
        (v'.map (up N)).prod * C (H (m, n) ([x.val, b.val] ++ (v ++ (L ++ w))) * Z (n - a + c, 0) ([b.val] ++ (L ++ v'))) * w.foldr down p) =
      sumL N (n - a) fun L => sumL N a fun w => sumL N c fun v' =>
        ((v ++ v').map (up N)).prod * C (∑ b : Fin A, H (m, n) ([x.val, b.val] ++ (v ++ (L ++ w))) * Z (n - a + c, 0) ([b.val] ++ (L ++ v'))) * w.foldr down p := by
    intro v
    rw [← Finset.mul_sum, ← sumL_sum, mul_sumL]
    refine sumL_congr fun L _ => ?_
    rw [← sumL_sum, mul_sumL]
    refine sumL_congr fun w _ => ?_
    rw [← sumL_sum, mul_sumL]
    refine sumL_congr fun v' _ => ?_
    rw [map_sum, List.map_append, List.prod_append, Finset.mul_sum, Finset.mul_sum, Finset.sum_mul]
    refine Finset.sum_congr rfl fun b _ => ?_
    ring
  refine Eq.trans ?_ (sumL_congr fun v _ => (e v).symm)
  rw [sumL_comm]
  have e2 : ∀ w : List Nat → List Nat → List Nat → MvPolynomial (Fin N) R, (sumL N a fun y => sumL N (n - a) fun L => sumL N m fun v => w y L v) =
      sumL N m fun v => sumL N (n - a) fun L => sumL N a fun y => w y L v := by
    intro w
    rw [sumL_comm]
    refine (sumL_congr fun L _ => sumL_comm _ _ _ _).trans ?_
    rw [sumL_comm]
  exact e2 fun y L v => sumL N c fun v' =>
        ((v ++ v').map (up N)).prod * C (∑ b : Fin A, H (m, n) ([x.val, b.val] ++ (v ++ (L ++ y))) * Z (n - a + c, 0) ([b.val] ++ (L ++ v'))) * y.foldr down p

theorem coef_eq {n i a : Nat} (m c : Nat) (h : i + a = n) :
    (1 / ((m.factorial * n.factorial : Nat) : Rat)) * ((n.choose i : Nat) * (1 / (c.factorial : Rat))) =
      1 / ((a.factorial * m.factorial * (n - a).factorial * c.factorial : Nat) : Rat) := by
  have e : n - a = i := by omega
  have e2 : n - i = a := by omega
  have h1 := Nat.choose_mul_factorial_mul_factorial (show i ≤ n by omega)
  rw [e2] at h1
  rw [e]
  have h2 : (n.factorial : Rat) ≠ 0 := by positivity
  have h3 : (i.factorial : Rat) ≠ 0 := by positivity
  have h4 : (a.factorial : Rat) ≠ 0 := by positivity
  have h5 : (m.factorial : Rat) ≠ 0 := by positivity
  have h6 : (c.factorial : Rat) ≠ 0 := by positivity
  have h7 : ((n.choose i : Nat) : Rat) * i.factorial * a.factorial = n.factorial := by exact_mod_cast h1
  push_cast
  field_simp
  rw [← h7]
  ring

/-- one term of the Hamiltonian on one state -/
theorem term_ket (A : Nat) {H Z : Nat × Nat → Arr R} (hs : Symmetric H Z) (m n k : Nat) (p : MvPolynomial (Fin N) R) (x : Fin A) :
    term A N m n (H (m, n)) (fun b => ket A N k (Z (k, 0)) b * p) x =
      ∑ y ∈ Finset.antidiagonal n, if y.1 ≤ k then opOf A H Z m n y.2 (k - y.1) p x else 0 := by
  have hz : ∀ b : Fin A, SymmR k fun l => Z (k, 0) ([b.val] ++ l) := fun b l l' hl hp => hs.z k [b.val] l l' rfl hl hp
  have hh : ∀ (b : Fin A) (v : List Nat), v.length = m → SymmR n fun K => H (m, n) ([x.val, b.val] ++ (v ++ K)) :=
    fun b v hv l l' hl hp => hs.h m n [x.val, b.val] v v l l' rfl hv hl (List.Perm.refl _) hp
  have e1 : term A N m n (H (m, n)) (fun b => ket A N k (Z (k, 0)) b * p) x =
      (1 / ((m.factorial * n.factorial : Nat) : Rat)) • ∑ b : Fin A, sumL N m fun v => (v.map (up N)).prod *
        sumL N n fun K => C (H (m, n) ([x.val, b.val] ++ (v ++ K))) * K.foldr down (((1 / (k.factorial : Rat)) • mono N k fun l => Z (k, 0) ([b.val] ++ l)) * p) := by
    unfold Spec.ETValue.term
    congr 1
    rw [← sumL_sum]
    refine Finset.sum_congr rfl fun I _ => ?_
    simp only [up_modes]
    rw [← Finset.mul_sum, ← sumL_sum, mul_sumL]
    refine Finset.sum_congr rfl fun K _ => ?_
    refine Eq.trans ?_ (Finset.mul_sum _ _ _).symm
    refine Finset.sum_congr rfl fun b _ => ?_
    rw [down_modes, mul_assoc]
    rfl
  rw [e1]
  have e2 : ∀ b : Fin A, (sumL N m fun v => (v.map (up N)).prod *
        sumL N n fun K => C (H (m, n) ([x.val, b.val] ++ (v ++ K))) * K.foldr down (((1 / (k.factorial : Rat)) • mono N k fun l => Z (k, 0) ([b.val] ++ l)) * p)) =
      ∑ y ∈ Finset.antidiagonal n, if y.1 ≤ k then ((n.choose y.1 : Nat) * (1 / ((k - y.1).factorial : Rat)) : Rat) • sumL N m fun v => (v.map (up N)).prod *
        sumL N y.1 fun L => sumL N y.2 fun w => sumL N (k - y.1) fun v' =>
        (v'.map (up N)).prod * C (H (m, n) ([x.val, b.val] ++ (v ++ (L ++ w))) * Z (k, 0) ([b.val] ++ (L ++ v'))) * w.foldr down p else 0 := by
    intro b
    have e3 : ∀ v : List Nat, v.length = m → ((v.map (up N)).prod *
        sumL N n fun K => C (H (m, n) ([x.val, b.val] ++ (v ++ K))) * K.foldr down (((1 / (k.factorial : Rat)) • mono N k fun l => Z (k, 0) ([b.val] ++ l)) * p)) =
        ∑ y ∈ Finset.antidiagonal n, if y.1 ≤ k then ((n.choose y.1 : Nat) * (1 / ((k - y.1).factorial : Rat)) : Rat) • ((v.map (up N)).prod *
        sumL N y.1 fun L => sumL N y.2 fun w => sumL N (k - y.1) fun v' =>
        (v'.map (up N)).prod * C (H (m, n) ([x.val, b.val] ++ (v ++ (L ++ w))) * Z (k, 0) ([b.val] ++ (L ++ v'))) * w.foldr down p) else 0 := by
      intro v hv
      rw [leibniz _ p n _ (hh b v hv), Finset.mul_sum]
      refine Finset.sum_congr rfl fun y _ => ?_
      rw [two_ket _ _ p k y.1 y.2 (hz b)]
      split
      · rw [mul_smul, ← mul_smul_comm, ← mul_smul_comm, Nat.cast_smul_eq_nsmul]
      · rw [smul_zero, mul_zero]
    rw [sumL_congr e3, sumL_sum]
    refine Finset.sum_congr rfl fun y _ => ?_
    split
    · rw [sumL_smul]
    · exact Finset.sum_const_zero
  rw [Finset.sum_congr rfl fun b _ => e2 b, Finset.sum_comm, Finset.smul_sum]
  refine Finset.sum_congr rfl fun y hy => ?_
  have hy' := Finset.mem_antidiagonal.1 hy
  split
  · rename_i hk
    rw [← Finset.smul_sum, smul_smul, coef_eq m (k - y.1) hy', opOf_eq]
    rw [show n - y.2 = y.1 by omega, show y.1 + (k - y.1) = k by omega]
  · rw [Finset.sum_const_zero, smul_zero]

end TF.Zhz
