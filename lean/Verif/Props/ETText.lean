import Verif.Lemmas.ETSourceCall

/-!
# Properties of the text of the generated e^T modules

C83, C84: the text of the file written by `generate_eT_zhz_python`, read as Python and executed, computes `e^T H Z` and `e^T (dZ + dT Z)`.
-/

namespace TF.ETPy

open TF.Py TF.Spec.ETPy TF.Spec.ETRun TF.Spec.Tensor TF.Tensor TF.Spec.PyRun TF.Spec.ETCall MvPolynomial
open TF.Spec.ETValue
open TF.CC (Op)
open TF.ET (Mode)

variable {R : Type} [CommRing R] [Algebra Rat R]

/-- **C83.** The file for the right-hand side is Python source (of the fragment in `Verif.Spec.Source`), and executing `compute_m0_n_amplitude` of it (or
the `_optimized` variant with two paths, whatever they are) on the arrays of the caller returns an array with one axis of length `A` and `n` of length
`N` whose polynomial is the part of degree `n` of `e^T H Z`, up to the term that is never written (C61). -/
theorem eT_rhs_text {gs : Bool} {hMax cc K pMax : Nat} (hcc1 : 1 ≤ cc) (hcc : cc ≤ 6) (hK : 1 ≤ K) {m : Module}
    (hm : module gs .rhs hMax cc 1 K pMax = .ok m) {f : Fns} (hf : f ∈ m.default) {env : Caller}
    (hc : (orderNames.take (max 1 f.omega.n)).all env.confirm = true) (hg : env.ground = true ∨ gs = false) (hfull : FullArgs .rhs hMax cc env)
    (paths : Option (Val R × Val R)) (A N : Nat) (args : String → Nat × Nat → Arr R)
    (hh : ∀ o ∈ terms hMax, ModesSymmetric 2 (o.1 + o.2) (args "h_args" o)) (hz : ∀ k ≤ cc, ModesSymmetric 1 k (args "z_args" (k, 0))) :
    ∃ source, Spec.Source.file (fileText .rhs m).toList = some source ∧
    ∃ x, callArray source 2 ("compute_m0_n" ++ toString f.omega.n ++ "_amplitude" ++ (if paths.isSome then "_optimized" else "")).toList
        (inputs .rhs A N env args (paths.map fun p => [p.1, p.2])) = .ok x ∧
      x.shape = A :: List.replicate f.omega.n N ∧
      ∀ a : Fin A, sumModes A N f.omega.n x.get a +
          (if f.omega.n = 0 ∨ env.z f.omega.n = true then Spec.ETValue.term A N 0 0 (args "h_args" (0, 0)) (ket A N f.omega.n (args "z_args" (f.omega.n, 0))) a else 0) =
        homogeneousComponent f.omega.n (expLowering (askedTaylor K env) (args "t_args" (0, 1))
          (Spec.ETValue.hamiltonian A N (askedTerms hMax env) (args "h_args") (kets A N (askedOrders cc env) (args "z_args")) a)) := by
  refine ⟨_, file_module hcc1 hcc hK hm, _, call_source hcc1 hcc hK hm hf hc hg hfull paths A N args, rfl, fun a => ?_⟩
  obtain ⟨r, hr, h⟩ := eT_rhs_value hcc1 hcc hK hm hf hc hg hfull none (.inl rfl) A N args hh hz
  rw [call_ok hcc1 hcc hK hm hf hc hg hfull none (.inl rfl)] at hr
  injection hr with hr
  injection hr with _ hr
  subst hr
  exact h a

/-- **C84.** The same for the left-hand side: `e^T (dZ + dT Z)`. -/
theorem eT_lhs_text {gs : Bool} {hMax cc K pMax : Nat} (hcc1 : 1 ≤ cc) (hcc : cc ≤ 6) (hK : 1 ≤ K) {m : Module}
    (hm : module gs .lhs hMax cc 1 K pMax = .ok m) {f : Fns} (hf : f ∈ m.default) {env : Caller}
    (hc : (orderNames.take (max 1 f.omega.n)).all env.confirm = true) (hg : env.ground = true ∨ gs = false) (hfull : FullArgs .lhs hMax cc env)
    (paths : Option (Val R × Val R)) (A N : Nat) (args : String → Nat × Nat → Arr R)
    (hT : ∀ m, 1 ≤ m → m ≤ 2 → m ≤ hMax → ModesSymmetric 0 m (args "dT" (m, 0))) (hz : ∀ k ≤ cc, ModesSymmetric 1 k (args "z_args" (k, 0)))
    (hdz : ∀ k ≤ cc, ModesSymmetric 1 k (args "dz_args" (k, 0))) :
    ∃ source, Spec.Source.file (fileText .lhs m).toList = some source ∧
    ∃ x, callArray source 2 ("compute_m0_n" ++ toString f.omega.n ++ "_amplitude" ++ (if paths.isSome then "_optimized" else "")).toList
        (inputs .lhs A N env args (paths.map fun p => [p.1, p.2])) = .ok x ∧
      x.shape = A :: List.replicate f.omega.n N ∧
      ∀ a : Fin A, sumModes A N f.omega.n x.get a +
          (if f.omega.n = 0 ∨ env.z f.omega.n = true then ket A N f.omega.n (args "dz_args" (f.omega.n, 0)) a else 0) =
        homogeneousComponent f.omega.n (expLowering (askedTaylor K env) (args "t_conj" (0, 1))
          (kets A N (askedOrders cc env) (args "dz_args") a +
            (∑ m ∈ askedDT hMax env, raising N m (args "dT" (m, 0))) * kets A N (askedOrders cc env) (args "z_args") a)) := by
  refine ⟨_, file_module hcc1 hcc hK hm, _, call_source hcc1 hcc hK hm hf hc hg hfull paths A N args, rfl, fun a => ?_⟩
  obtain ⟨r, hr, h⟩ := eT_lhs_value hcc1 hcc hK hm hf hc hg hfull none (.inl rfl) A N args hT hz hdz
  rw [call_ok hcc1 hcc hK hm hf hc hg hfull none (.inl rfl)] at hr
  injection hr with hr
  injection hr with _ hr
  subst hr
  exact h a

/-! ## Concrete cases -/

/-- The hypotheses of C83 are met for the truncation 2, with two electronic states and three modes. -/
example (gs : Bool) : ∃ m, module gs .rhs 2 2 1 2 2 = .ok m ∧ m.default.length = 3 ∧ ∀ f ∈ m.default,
    ∃ source, Spec.Source.file (fileText .rhs m).toList = some source ∧
    ∃ x, callArray source 2 ("compute_m0_n" ++ toString f.omega.n ++ "_amplitude" ++ "_optimized").toList (inputs .rhs 2 3 exCaller exArgs (some [.none, .none])) = .ok x ∧
      x.shape = 2 :: List.replicate f.omega.n 3 ∧
      sumModes 2 3 f.omega.n x.get 0 + Spec.ETValue.term 2 3 0 0 (exArgs "h_args" (0, 0)) (ket 2 3 f.omega.n (exArgs "z_args" (f.omega.n, 0))) 0 =
        homogeneousComponent f.omega.n (expLowering 2 (exArgs "t_args" (0, 1))
          (Spec.ETValue.hamiltonian 2 3 (terms 2) (exArgs "h_args") (kets 2 3 (Finset.range 3) (exArgs "z_args")) 0)) := by
  obtain ⟨m, hm⟩ := ok_two gs .rhs
  have hst := (eT_python_state (by decide) hm).2.2
  refine ⟨m, hm, by simpa using congrArg List.length hst, fun f hf => ?_⟩
  obtain ⟨src, hsrc, x, hx, hs, h⟩ := eT_rhs_text (by decide) (by decide) (by decide) hm hf (env := exCaller) (by simp [exCaller]) (.inl rfl) (by simp [FullArgs, exCaller])
    (some (.none, .none)) 2 3 exArgs (fun _ _ => exArgs_symm _ _ _ _) (fun _ _ => exArgs_symm _ _ _ _)
  refine ⟨src, hsrc, x, hx, hs, ?_⟩
  have h0 := h 0
  rw [if_pos (.inr rfl), show askedTerms 2 exCaller = terms 2 by decide, show askedOrders 2 exCaller = Finset.range 3 by decide] at h0
  exact h0

/-- Likewise C84. -/
example (gs : Bool) : ∃ m, module gs .lhs 2 2 1 2 2 = .ok m ∧ m.default.length = 3 ∧ ∀ f ∈ m.default,
    ∃ source, Spec.Source.file (fileText .lhs m).toList = some source ∧
    ∃ x, callArray source 2 ("compute_m0_n" ++ toString f.omega.n ++ "_amplitude" ++ "").toList (inputs .lhs 2 3 exCaller exArgs none) = .ok x ∧
      x.shape = 2 :: List.replicate f.omega.n 3 ∧
      sumModes 2 3 f.omega.n x.get 0 + ket 2 3 f.omega.n (exArgs "dz_args" (f.omega.n, 0)) 0 =
        homogeneousComponent f.omega.n (expLowering 2 (exArgs "t_conj" (0, 1))
          (kets 2 3 (Finset.range 3) (exArgs "dz_args") 0 +
            (raising 3 1 (exArgs "dT" (1, 0)) + raising 3 2 (exArgs "dT" (2, 0))) * kets 2 3 (Finset.range 3) (exArgs "z_args") 0)) := by
  obtain ⟨m, hm⟩ := ok_two gs .lhs
  have hst := (eT_python_state (by decide) hm).2.2
  refine ⟨m, hm, by simpa using congrArg List.length hst, fun f hf => ?_⟩
  obtain ⟨src, hsrc, x, hx, hs, h⟩ := eT_lhs_text (by decide) (by decide) (by decide) hm hf (env := exCaller) (by simp [exCaller]) (.inl rfl) (by simp [FullArgs, exCaller])
    none 2 3 exArgs (fun _ _ _ _ => exArgs_symm _ _ _ _) (fun _ _ => exArgs_symm _ _ _ _) (fun _ _ => exArgs_symm _ _ _ _)
  refine ⟨src, hsrc, x, hx, hs, ?_⟩
  have h0 := h 0
  rw [if_pos (.inr rfl), show askedDT 2 exCaller = {1, 2} by decide, show askedOrders 2 exCaller = Finset.range 3 by decide,
    Finset.sum_pair (by decide)] at h0
  exact h0

end TF.ETPy
