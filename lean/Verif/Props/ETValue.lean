import Verif.Lemmas.ETSum

/-!
# C81, C82: the arrays returned by the functions of a generated e^T module
-/

namespace TF.ETPy

open TF.Py TF.Spec.ETPy TF.Spec.ETRun TF.Spec.Tensor TF.Tensor TF.Spec.Fock TF.Spec.ET TF.Fock MvPolynomial
open TF.Spec.ETValue
open TF.CC (Op HOp)
open TF.ET (Mode)

variable {R : Type} [CommRing R] [Algebra Rat R]

/-! ## The operators -/

/-- one component of the operators of a side applied to the states of this side -/
noncomputable def sidePoly (mode : Mode) (A N hMax cc : Nat) (env : Caller) (args : String → Nat × Nat → Arr R) (a : Nat) : MvPolynomial (Fin N) R :=
  ∑ o ∈ hTerms mode hMax env, ∑ zm ∈ askedOrders cc env, ∑ b : Fin A,
    (1 / ((o.1.factorial * o.2.factorial : Nat) : Rat)) • ∑ I : Fin o.1 → Fin N, ∑ K : Fin o.2 → Fin N,
      create I * C (hOf mode args o a b (modes I ++ modes K)) * annihilate K ((1 / (zm.factorial : Rat)) • mono N zm (zOf mode args o zm b))

theorem sum_range_ext (K k : Nat) (hk : k ≤ K) {M : Type} [AddCommMonoid M] (f : Nat → M) (hf : ∀ j, k < j → f j = 0) :
    ∑ j ∈ Finset.range (k + 1), f j = ∑ j ∈ Finset.range (K + 1), f j := by
  refine Finset.sum_subset (fun j hj => Finset.mem_range.2 (by have := Finset.mem_range.1 hj; omega)) fun j _ hj => hf j ?_
  have : ¬ j < k + 1 := fun h => hj (Finset.mem_range.2 h)
  omega

/-- The part with `P` modes of the exponential applied to it is the sum over all terms. -/
theorem part_sidePoly {mode : Mode} {hMax cc K P : Nat} {env : Caller} {args : String → Nat × Nat → Arr R} (hs : SymmArgs mode hMax cc args) (A N a : Nat) :
    homogeneousComponent P (expLowering (askedTaylor K env) (tArg mode args) (sidePoly mode A N hMax cc env args a)) =
      ∑ x ∈ full mode hMax cc K P env, coef x.1 x.2.1.1 x.2.1.2 x.2.2.1 x.2.2.2 • mono N P (valIx mode A N args a x) := by
  rw [expLowering_eq, map_sum]
  unfold full
  rw [Finset.sum_filter, Finset.sum_product]
  refine Finset.sum_congr rfl fun k hk => ?_
  have hkK : k ≤ K := by
    have := Finset.mem_range.1 hk
    have := askedTaylor_le K env
    omega
  unfold sidePoly
  rw [dp_sum, map_sum, Finset.sum_product]
  refine Finset.sum_congr rfl fun o ho => ?_
  rw [dp_sum, map_sum, Finset.sum_product]
  refine Finset.sum_congr rfl fun zm hzm => ?_
  rw [dp_sum, map_sum]
  have ho' := mem_hTerms.1 ho
  have hz' := mem_askedOrders.1 hzm
  rw [Finset.sum_congr rfl fun (b : Fin A) _ => expand (N := N) (tArg mode args) (hOf mode args o a b) (zOf mode args o zm b) P k o.1 o.2 zm
    (hs.h o ho'.1 ho'.2.1 a b) (hs.z o zm hz'.1 b)]
  rw [Finset.sum_comm, sum_range_ext K k hkK]
  · refine Finset.sum_congr rfl fun j _ => ?_
    by_cases hf : Fits P k o.1 o.2 zm j
    · simp only [if_pos hf]
      rw [← Finset.smul_sum]
      congr 1
      unfold valIx
      rw [mono_sum]
    · simp only [if_neg hf]
      simp
  · intro j hj
    refine Finset.sum_eq_zero fun b _ => if_neg fun h => ?_
    have := h.1
    omega

theorem valIx_deriv (mode : Mode) (A N P : Nat) (args : String → Nat × Nat → Arr R) (a : Nat) (l : List Nat) :
    valIx mode A N args a (derivIx P) l = ∑ b : Fin A, hOf mode args (0, 0) a b [] * zOf mode args (0, 0) P b l := by
  unfold valIx derivIx val
  refine Finset.sum_congr rfl fun b _ => ?_
  simp [sumL_zero, tProd]

/-- What is returned, with the missing term. -/
theorem returned_value {gs : Bool} {mode : Mode} {hMax cc K pMax : Nat} (hcc1 : 1 ≤ cc) (hcc : cc ≤ 6) (hK : 1 ≤ K) {m : Module}
    (hm : module gs mode hMax cc 1 K pMax = .ok m) {f : Fns} (hf : f ∈ m.default) (env : Caller) {args : String → Nat × Nat → Arr R}
    (hs : SymmArgs mode hMax cc args) (A N : Nat) (a : Fin A) :
    mono N f.omega.n (fun v => returned A N args (addedBy env f.ground) (a.val :: v)) +
      (if f.omega.n = 0 ∨ env.z f.omega.n = true then
        (1 / (f.omega.n.factorial : Rat)) • mono N f.omega.n (fun l => ∑ b : Fin A, hOf mode args (0, 0) a b [] * zOf mode args (0, 0) f.omega.n b l) else 0) =
    homogeneousComponent f.omega.n (expLowering (askedTaylor K env) (tArg mode args) (sidePoly mode A N hMax cc env args a)) := by
  obtain ⟨g, hg, rfl⟩ := (module_iff hK).1 hm
  obtain ⟨p, hp, rfl⟩ := List.mem_map.1 hf
  have hpm := mem_projections hp
  show mono N p.n (fun v => returned A N args (addedBy env (g p)) (a.val :: v)) +
      (if p.n = 0 ∨ env.z p.n = true then (1 / (p.n.factorial : Rat)) • mono N p.n (fun l => ∑ b : Fin A, hOf mode args (0, 0) a b [] * zOf mode args (0, 0) p.n b l) else 0) =
    homogeneousComponent p.n _
  rw [part_sidePoly hs, mono_returned hpm.1 (by omega) hcc hcc1 (hg p hp) hs A N a]
  rw [← Finset.sum_filter_add_sum_filter_not (full mode hMax cc K p.n env) (fun x => x ≠ derivIx p.n)]
  congr 1
  have e : (full mode hMax cc K p.n env).filter (fun x => ¬ x ≠ derivIx p.n) = if p.n = 0 ∨ env.z p.n = true then {derivIx p.n} else ∅ := by
    ext x
    rw [Finset.mem_filter, not_not]
    split
    · rename_i h
      rw [Finset.mem_singleton]
      constructor
      · exact fun h => h.2
      · rintro rfl
        refine ⟨mem_full.2 ⟨Nat.zero_le _, mem_hTerms.2 ⟨mem_terms.2 (by simp [derivIx]), fun _ => rfl, .inl rfl⟩, mem_askedOrders.2 ⟨hpm.2.2.1, h⟩, ?_⟩, rfl⟩
        simp [derivIx, Fits]
    · rename_i h
      constructor
      · rintro ⟨h1, rfl⟩
        exact absurd (mem_askedOrders.1 (mem_full.1 h1).2.2.1).2 h
      · intro h; simp at h
  rw [e]
  split
  · rw [Finset.sum_singleton]
    congr 1
    · simp [coef, derivIx]
    · refine mono_congr fun v => ?_
      rw [valIx_deriv]
  · simp

theorem sumModes_eq (A N k : Nat) (x : Arr R) (a : Fin A) : sumModes A N k x a = mono N k fun l => x (a.val :: l) := rfl

theorem ket_eq (A N k : Nat) (x : Arr R) (a : Fin A) : ket A N k x a = (1 / (k.factorial : Rat)) • mono N k fun l => x (a.val :: l) := rfl

theorem kets_apply (A N : Nat) (s : Finset Nat) (z : Nat × Nat → Arr R) (a : Fin A) : kets A N s z a = ∑ k ∈ s, ket A N k (z (k, 0)) a := by
  unfold kets
  rw [Finset.sum_apply]

/-! ## The right-hand side -/

theorem sidePoly_rhs (A N hMax cc : Nat) (env : Caller) (args : String → Nat × Nat → Arr R) (a : Fin A) :
    sidePoly .rhs A N hMax cc env args a = hamiltonian A N (askedTerms hMax env) (args "h_args") (kets A N (askedOrders cc env) (args "z_args")) a := by
  unfold sidePoly Spec.ETValue.hamiltonian
  rw [Finset.sum_apply]
  have e : hTerms .rhs hMax env = askedTerms hMax env := by
    unfold hTerms
    rw [Finset.filter_true_of_mem]
    intro o _ h
    cases h
  rw [e]
  refine Finset.sum_congr rfl fun o _ => ?_
  unfold Spec.ETValue.term
  simp only [kets_apply, annihilate_sum, Finset.mul_sum, ket_eq]
  simp only [← Finset.smul_sum]
  congr 1
  rw [Finset.sum_comm]
  have : ∀ b : Fin A, (∑ zm ∈ askedOrders cc env, ∑ I : Fin o.1 → Fin N, ∑ K : Fin o.2 → Fin N, create I * C (hOf .rhs args o a b (modes I ++ modes K)) *
      annihilate K ((1 / (zm.factorial : Rat)) • mono N zm (zOf .rhs args o zm b))) =
      ∑ I : Fin o.1 → Fin N, ∑ K : Fin o.2 → Fin N, ∑ zm ∈ askedOrders cc env, create I * C (hOf .rhs args o a b (modes I ++ modes K)) *
      annihilate K ((1 / (zm.factorial : Rat)) • mono N zm (zOf .rhs args o zm b)) := by
    intro b
    rw [Finset.sum_comm]
    exact Finset.sum_congr rfl fun I _ => Finset.sum_comm
  rw [Finset.sum_congr rfl fun b _ => this b, Finset.sum_comm]
  refine Finset.sum_congr rfl fun I _ => ?_
  rw [Finset.sum_comm]
  rfl

omit [Algebra Rat R] in
/-- the arguments of the right-hand side -/
theorem symm_rhs {hMax cc : Nat} {args : String → Nat × Nat → Arr R} (h1 : ∀ o ∈ terms hMax, ModesSymmetric 2 (o.1 + o.2) (args "h_args" o))
    (h2 : ∀ k ≤ cc, ModesSymmetric 1 k (args "z_args" (k, 0))) : SymmArgs .rhs hMax cc args :=
  ⟨fun o ho _ a b l l' hl hp => h1 o ho [a, b] l l' rfl hl hp, fun _ k hk b l l' hl hp => h2 k hk [b] l l' rfl hl hp⟩

/-- the run, when nothing is raised -/
theorem call_ok {gs : Bool} {mode : Mode} {hMax cc K pMax : Nat} (hcc1 : 1 ≤ cc) (hcc : cc ≤ 6) (hK : 1 ≤ K) {m : Module}
    (hm : module gs mode hMax cc 1 K pMax = .ok m) {f : Fns} (hf : f ∈ m.default) {env : Caller}
    (hc : (orderNames.take (max 1 f.omega.n)).all env.confirm = true) (hg : env.ground = true ∨ gs = false) (hfull : FullArgs mode hMax cc env)
    (opt : Option Nat) (hopt : opt = none ∨ opt = some 2) :
    callAmplitude (moduleDefs mode m) env ("compute_m0_n" ++ toString f.omega.n ++ "_amplitude" ++ (if opt.isSome then "_optimized" else "")) opt =
      .ok (f.omega.n, addedBy env f.ground) := by
  have hcall := callAmplitude_eq hcc1 hcc hK hm hf env opt
  simp only [hc, if_true, if_pos hopt, if_pos hg] at hcall
  rcases hcall with hcall | ⟨_, x, hx, o, ho, hno⟩
  · exact hcall.1
  · obtain ⟨e, he, rfl⟩ := List.mem_map.1 hx
    rw [(operands_of hcc1 hcc hK hm hf (List.mem_filter.1 he).1 ho).2 env hfull] at hno
    cases hno

/-- **C81.** The array returned by `compute_m0_n_amplitude` (or its `_optimized` variant) of a generated module for the right-hand side,
with the term `h_0 z_n` that is left out, is the part with `n` modes of `e^T H Z`: H are the terms of the Hamiltonian and Z the orders
of z the truncation object asks for, and e^T is the exponential series of `sum_i t_i a_i` up to the Taylor order.  The tensors
of h and z must not depend on the order of their modes. -/
theorem eT_rhs_value {gs : Bool} {hMax cc K pMax : Nat} (hcc1 : 1 ≤ cc) (hcc : cc ≤ 6) (hK : 1 ≤ K) {m : Module}
    (hm : module gs .rhs hMax cc 1 K pMax = .ok m) {f : Fns} (hf : f ∈ m.default) {env : Caller}
    (hc : (orderNames.take (max 1 f.omega.n)).all env.confirm = true) (hg : env.ground = true ∨ gs = false) (hfull : FullArgs .rhs hMax cc env)
    (opt : Option Nat) (hopt : opt = none ∨ opt = some 2) (A N : Nat) (args : String → Nat × Nat → Arr R)
    (hh : ∀ o ∈ terms hMax, ModesSymmetric 2 (o.1 + o.2) (args "h_args" o)) (hz : ∀ k ≤ cc, ModesSymmetric 1 k (args "z_args" (k, 0))) :
    ∃ r, callAmplitude (moduleDefs .rhs m) env ("compute_m0_n" ++ toString f.omega.n ++ "_amplitude" ++ (if opt.isSome then "_optimized" else "")) opt =
        .ok (f.omega.n, r) ∧
      ∀ a : Fin A, sumModes A N f.omega.n (returned A N args r) a +
          (if f.omega.n = 0 ∨ env.z f.omega.n = true then term A N 0 0 (args "h_args" (0, 0)) (ket A N f.omega.n (args "z_args" (f.omega.n, 0))) a else 0) =
        homogeneousComponent f.omega.n (expLowering (askedTaylor K env) (args "t_args" (0, 1))
          (hamiltonian A N (askedTerms hMax env) (args "h_args") (kets A N (askedOrders cc env) (args "z_args")) a)) := by
  refine ⟨_, call_ok hcc1 hcc hK hm hf hc hg hfull opt hopt, fun a => ?_⟩
  rw [← sidePoly_rhs, sumModes_eq]
  refine Eq.trans ?_ (returned_value hcc1 hcc hK hm hf env (symm_rhs hh hz) A N a)
  congr 1
  split
  · unfold Spec.ETValue.term
    rw [mono_sum]
    have e : ∀ (F : (Fin 0 → Fin N) → (Fin 0 → Fin N) → Fin A → MvPolynomial (Fin N) R),
        ∑ I : Fin 0 → Fin N, ∑ K : Fin 0 → Fin N, ∑ b : Fin A, F I K b = ∑ b : Fin A, F Fin.elim0 Fin.elim0 b := by
      intro F
      rw [Fintype.sum_unique, Fintype.sum_unique]
      exact Finset.sum_congr rfl fun b _ => congrArg₂ (F · · b) (Subsingleton.elim _ _) (Subsingleton.elim _ _)
    rw [e, Finset.smul_sum (r := (1 / (f.omega.n.factorial : Rat)))]
    simp only [Nat.factorial_zero, Nat.mul_one, Nat.cast_one, div_one, one_smul]
    refine Finset.sum_congr rfl fun b _ => ?_
    have hzb : zOf .rhs args (0, 0) f.omega.n b = fun l => args "z_args" (f.omega.n, 0) (b.val :: l) := rfl
    rw [mono_C_mul, ket_eq, hzb]
    simp [create, modes, annihilate, hOf, mul_smul_comm]
  · rfl

/-! ## The left-hand side -/

theorem hTerms_lhs (hMax : Nat) (env : Caller) : hTerms .lhs hMax env = insert (0, 0) ((askedDT hMax env).image fun m => (m, 0)) := by
  ext ⟨m, n⟩
  rw [mem_hTerms, mem_terms, Finset.mem_insert, Finset.mem_image]
  unfold askedDT
  simp only [Finset.mem_filter, Finset.mem_range, Prod.mk.injEq, forall_const]
  constructor
  · rintro ⟨⟨h1, h2⟩, rfl, h3⟩
    by_cases h0 : m = 0
    · exact .inl ⟨h0, rfl⟩
    · refine .inr ⟨m, ⟨by omega, by omega, by omega, ?_⟩, rfl, rfl⟩
      rcases h3 with h | h
      · simp at h; omega
      · simpa using h
  · rintro (⟨rfl, rfl⟩ | ⟨m', ⟨h1, h2, h3, h4⟩, rfl, rfl⟩)
    · simp
    · refine ⟨by omega, rfl, .inr ?_⟩
      simpa using h4

theorem sidePoly_lhs (A N hMax cc : Nat) (env : Caller) (args : String → Nat × Nat → Arr R) (a : Fin A) :
    sidePoly .lhs A N hMax cc env args a = kets A N (askedOrders cc env) (args "dz_args") a +
      (∑ m ∈ askedDT hMax env, raising N m (args "dT" (m, 0))) * kets A N (askedOrders cc env) (args "z_args") a := by
  unfold sidePoly
  rw [hTerms_lhs, Finset.sum_insert]
  · congr 1
    · rw [kets_apply]
      refine Finset.sum_congr rfl fun zm _ => ?_
      rw [Finset.sum_eq_single a]
      · rw [Fintype.sum_unique, Fintype.sum_unique, ket_eq]
        have hz : zOf .lhs args (0, 0) zm a = fun l => args "dz_args" (zm, 0) (a.val :: l) := by funext l; simp [zOf]
        rw [hz]
        simp [create, annihilate, hOf]
      · intro b _ hb
        have hab : a.val ≠ b.val := fun h => hb (Fin.ext h.symm)
        simp [hOf, hab]
      · simp
    · rw [Finset.sum_image (fun x _ y _ h => (Prod.mk.injEq _ _ _ _ ▸ h).1), Finset.sum_mul]
      refine Finset.sum_congr rfl fun m hm => ?_
      have hm1 : 1 ≤ m := (Finset.mem_filter.1 hm).2.1
      have hm0 : ¬ ((m, 0) = ((0, 0) : Nat × Nat)) := by simp; omega
      rw [kets_apply, Finset.mul_sum]
      refine Finset.sum_congr rfl fun zm _ => ?_
      rw [Finset.sum_eq_single a]
      · unfold raising
        rw [smul_mul_assoc, Finset.sum_mul, ket_eq]
        congr 1
        · simp
        · refine Finset.sum_congr rfl fun I _ => ?_
          rw [Fintype.sum_unique]
          have hz : zOf .lhs args (m, 0) zm a = fun l => args "z_args" (zm, 0) (a.val :: l) := by funext l; simp [zOf, hm0]
          rw [hz]
          simp [annihilate, hOf, hm0, modes]
      · intro b _ hb
        have hab : a.val ≠ b.val := fun h => hb (Fin.ext h.symm)
        simp [hOf, hab]
      · simp
  · simp only [Finset.mem_image, Prod.mk.injEq, and_true, exists_eq_right]
    intro h
    have := (Finset.mem_filter.1 h).2.1
    omega

omit [Algebra Rat R] in
/-- the arguments of the left-hand side -/
theorem symm_lhs {hMax cc : Nat} {args : String → Nat × Nat → Arr R} (h1 : ∀ m, 1 ≤ m → m ≤ 2 → m ≤ hMax → ModesSymmetric 0 m (args "dT" (m, 0)))
    (h2 : ∀ k ≤ cc, ModesSymmetric 1 k (args "z_args" (k, 0))) (h3 : ∀ k ≤ cc, ModesSymmetric 1 k (args "dz_args" (k, 0))) : SymmArgs .lhs hMax cc args := by
  constructor
  · rintro ⟨m, n⟩ ho hn a b l l' hl hp
    have hn0 : n = 0 := hn rfl
    subst hn0
    have ho' := mem_terms.1 ho
    simp only [hOf]
    by_cases h0 : m = 0
    · subst h0; simp
    · have := h1 m (by omega) (by simp only at ho'; omega) (by simp only at ho'; omega) [] l l' rfl hl hp
      simp only [List.nil_append] at this
      rw [this]
  · intro o k hk b l l' hl hp
    simp only [zOf]
    split
    · exact h3 k hk [b] l l' rfl hl hp
    · exact h2 k hk [b] l l' rfl hl hp

/-- **C82.** The array returned by `compute_m0_n_amplitude` (or its `_optimized` variant) of a generated module for the left-hand side,
with the derivative `dz_n` that is left out, is the part with `n` modes of `e^T (dZ + dT Z)`. -/
theorem eT_lhs_value {gs : Bool} {hMax cc K pMax : Nat} (hcc1 : 1 ≤ cc) (hcc : cc ≤ 6) (hK : 1 ≤ K) {m : Module}
    (hm : module gs .lhs hMax cc 1 K pMax = .ok m) {f : Fns} (hf : f ∈ m.default) {env : Caller}
    (hc : (orderNames.take (max 1 f.omega.n)).all env.confirm = true) (hg : env.ground = true ∨ gs = false) (hfull : FullArgs .lhs hMax cc env)
    (opt : Option Nat) (hopt : opt = none ∨ opt = some 2) (A N : Nat) (args : String → Nat × Nat → Arr R)
    (hT : ∀ m, 1 ≤ m → m ≤ 2 → m ≤ hMax → ModesSymmetric 0 m (args "dT" (m, 0))) (hz : ∀ k ≤ cc, ModesSymmetric 1 k (args "z_args" (k, 0)))
    (hdz : ∀ k ≤ cc, ModesSymmetric 1 k (args "dz_args" (k, 0))) :
    ∃ r, callAmplitude (moduleDefs .lhs m) env ("compute_m0_n" ++ toString f.omega.n ++ "_amplitude" ++ (if opt.isSome then "_optimized" else "")) opt =
        .ok (f.omega.n, r) ∧
      ∀ a : Fin A, sumModes A N f.omega.n (returned A N args r) a +
          (if f.omega.n = 0 ∨ env.z f.omega.n = true then ket A N f.omega.n (args "dz_args" (f.omega.n, 0)) a else 0) =
        homogeneousComponent f.omega.n (expLowering (askedTaylor K env) (args "t_conj" (0, 1))
          (kets A N (askedOrders cc env) (args "dz_args") a +
            (∑ m ∈ askedDT hMax env, raising N m (args "dT" (m, 0))) * kets A N (askedOrders cc env) (args "z_args") a)) := by
  refine ⟨_, call_ok hcc1 hcc hK hm hf hc hg hfull opt hopt, fun a => ?_⟩
  rw [← sidePoly_lhs, sumModes_eq]
  refine Eq.trans ?_ (returned_value hcc1 hcc hK hm hf env (symm_lhs hT hz hdz) A N a)
  congr 1
  split
  · rw [ket_eq]
    congr 1
    refine mono_congr fun v => ?_
    rw [Finset.sum_eq_single a]
    · simp [hOf, zOf]
    · intro b _ hb
      have hab : a.val ≠ b.val := fun h => hb (Fin.ext h.symm)
      simp [hOf, hab]
    · simp
  · rfl

/-! ## Concrete cases -/

/-- Arrays whose entries differ, but not when modes are permuted. -/
def exArgs : String → Nat × Nat → Arr Rat := fun name o l => name.length + o.1 - 2 * o.2 + (l.map fun i : Nat => (i : Rat) ^ 2).sum

theorem exArgs_symm (q k : Nat) (name : String) (o : Nat × Nat) : ModesSymmetric q k (exArgs name o) := by
  intro e l l' _ _ hp
  unfold exArgs
  rw [List.map_append, List.map_append, List.sum_append, List.sum_append, (hp.map _).sum_eq]

/-- The hypotheses of C81 are met for the truncation 2, with two electronic states and three modes: all three functions return the parts of `e^T H Z`. -/
example (gs : Bool) : ∃ m, module gs .rhs 2 2 1 2 2 = .ok m ∧ m.default.length = 3 ∧ ∀ f ∈ m.default,
    ∃ r, callAmplitude (moduleDefs .rhs m) exCaller ("compute_m0_n" ++ toString f.omega.n ++ "_amplitude" ++ "_optimized") (some 2) = .ok (f.omega.n, r) ∧
      sumModes 2 3 f.omega.n (returned 2 3 exArgs r) 0 + Spec.ETValue.term 2 3 0 0 (exArgs "h_args" (0, 0)) (ket 2 3 f.omega.n (exArgs "z_args" (f.omega.n, 0))) 0 =
        homogeneousComponent f.omega.n (expLowering 2 (exArgs "t_args" (0, 1))
          (Spec.ETValue.hamiltonian 2 3 (terms 2) (exArgs "h_args") (kets 2 3 (Finset.range 3) (exArgs "z_args")) 0)) := by
  obtain ⟨m, hm⟩ := ok_two gs .rhs
  have hst := (eT_python_state (by decide) hm).2.2
  refine ⟨m, hm, by simpa using congrArg List.length hst, fun f hf => ?_⟩
  obtain ⟨r, hr, h⟩ := eT_rhs_value (by decide) (by decide) (by decide) hm hf (env := exCaller) (by simp [exCaller]) (.inl rfl) (by simp [FullArgs, exCaller]) (some 2) (.inr rfl) 2 3
    exArgs (fun _ _ => exArgs_symm _ _ _ _) (fun _ _ => exArgs_symm _ _ _ _)
  refine ⟨r, hr, ?_⟩
  have h0 := h 0
  rw [if_pos (.inr rfl), show askedTerms 2 exCaller = terms 2 by decide, show askedOrders 2 exCaller = Finset.range 3 by decide] at h0
  exact h0

/-- The hypotheses of C82 are met for the truncation 2. -/
example (gs : Bool) : ∃ m, module gs .lhs 2 2 1 2 2 = .ok m ∧ m.default.length = 3 ∧ ∀ f ∈ m.default,
    ∃ r, callAmplitude (moduleDefs .lhs m) exCaller ("compute_m0_n" ++ toString f.omega.n ++ "_amplitude" ++ "_optimized") (some 2) = .ok (f.omega.n, r) ∧
      sumModes 2 3 f.omega.n (returned 2 3 exArgs r) 0 + ket 2 3 f.omega.n (exArgs "dz_args" (f.omega.n, 0)) 0 =
        homogeneousComponent f.omega.n (expLowering 2 (exArgs "t_conj" (0, 1))
          (kets 2 3 (Finset.range 3) (exArgs "dz_args") 0 +
            (raising 3 1 (exArgs "dT" (1, 0)) + raising 3 2 (exArgs "dT" (2, 0))) * kets 2 3 (Finset.range 3) (exArgs "z_args") 0)) := by
  obtain ⟨m, hm⟩ := ok_two gs .lhs
  have hst := (eT_python_state (by decide) hm).2.2
  refine ⟨m, hm, by simpa using congrArg List.length hst, fun f hf => ?_⟩
  obtain ⟨r, hr, h⟩ := eT_lhs_value (by decide) (by decide) (by decide) hm hf (env := exCaller) (by simp [exCaller]) (.inl rfl) (by simp [FullArgs, exCaller]) (some 2) (.inr rfl) 2 3
    exArgs (fun _ _ _ _ => exArgs_symm _ _ _ _) (fun _ _ => exArgs_symm _ _ _ _) (fun _ _ => exArgs_symm _ _ _ _)
  refine ⟨r, hr, ?_⟩
  have h0 := h 0
  rw [if_pos (.inr rfl), show askedDT 2 exCaller = {1, 2} by decide, show askedOrders 2 exCaller = Finset.range 3 by decide,
    Finset.sum_pair (by decide)] at h0
  exact h0

end TF.ETPy
