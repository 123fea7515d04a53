import Verif.Lemmas.FullCC.SourceCall
import Verif.Model.FullCC.Text
import Verif.Props.FullCC.WickExact

/-!
# The text of a generated full-CC module

C88: the text, read and executed as Python, computes the arrays of C79.
-/

namespace TF.CC

open TF.Py TF.Spec TF.Spec.CCRun TF.Spec.Tensor TF.Spec.PyRun TF.Spec.CCCall TF.Spec.Fock TF.Spec.Wick TF.Fock

variable {R : Type} [CommRing R] [Algebra Rat R]

theorem omegaOps_ne {cc omegaMax : Nat} : omegaOps cc omegaMax ≠ [] := by
  intro h
  have ho : (⟨rep 'd' 0 ++ rep 'b' 0, 0, 0, 0⟩ : Op) ∈ omegaOps cc omegaMax := (omegaOps_exact cc omegaMax _).2 ⟨rfl, rfl, by simp, by simp⟩
  rw [h] at ho
  simp at ho

/-- The text of every module that is written can be read; calls of the functions `compute_m_n_amplitude` it defines. -/
theorem text_calls {so : SetOrder Nat} {sol : SetOrder (List T)} {hMax cc smax omegaMax : Nat} (hcc : 1 ≤ cc) (hcc' : cc ≤ 6) (hS : smax ≤ 6) (hP : omegaMax ≤ 6)
    {F : List OmegaCode} (hF : pythonFile so sol hMax cc smax omegaMax = .ok F) :
    ∃ source, Spec.Source.file (fileText cc F).toList = some source ∧ ∀ c ∈ F, ∀ (R : Type) [CommRing R] [Algebra Rat R] (env : Caller) (A N : Nat) (h t : Nat × Nat → Arr R),
      (env.singles = false → callArray source 2 ("compute_m" ++ toString c.omega.m ++ "_n" ++ toString c.omega.n ++ "_amplitude").toList (inputs A N env h t) = .error .exception) ∧
      (env.singles = true → env.ground = false →
        callArray source 2 ("compute_m" ++ toString c.omega.m ++ "_n" ++ toString c.omega.n ++ "_amplitude").toList (inputs A N env h t) = .error .notImplemented) ∧
      (env.singles = true → env.ground = true → FullArgs hMax cc env → ∀ r,
        callAmplitude (moduleDefs F) env ("compute_m" ++ toString c.omega.m ++ "_n" ++ toString c.omega.n ++ "_amplitude") = .ok (c.omega.m + c.omega.n, r) →
        callArray source 2 ("compute_m" ++ toString c.omega.m ++ "_n" ++ toString c.omega.n ++ "_amplitude").toList (inputs A N env h t) =
          .ok ⟨A :: A :: List.replicate (c.omega.m + c.omega.n) N, returned A N h t r⟩) := by
  have hH : hMax ≤ 5 := (pythonFile_ok_iff so sol hMax cc smax omegaMax hcc hcc' hS).1.1 ⟨F, hF⟩
  obtain ⟨h3, hn, hom⟩ := three_of hcc hF
  have hne : F ≠ [] := by
    rintro rfl
    exact omegaOps_ne hom.symm
  refine ⟨moduleAst F, file_fileText cc hne fun c hc => good_omega hcc hcc' hH hS hP hF hc, ?_⟩
  intro c hc R _ _ env A N h t
  rw [amplitude_name]
  obtain ⟨ho, L, hL, d0, d1, d2, o0, o1, o2, p0, p1, p2, ht, ⟨w0, w1, w2⟩, _, _⟩ := omega_code hcc hF hc
  have lk : ∀ {f b}, (f, b) ∈ defsOf c.omega d0 d1 d2 o0 o1 o2 p0 p1 p2 → Spec.CCRun.lookup (moduleDefs F) f = some b := fun hm => lookup_defs h3 hn hc ht hm
  have la := lk (f := nm false (c.omega.m, c.omega.n) "_amplitude") (List.mem_of_getElem? (i := 3) rfl)
  have l0 := lk (f := nm true (c.omega.m, c.omega.n) "_fully_connected_terms") (List.mem_of_getElem? (i := 0) rfl)
  have l1 := lk (f := nm true (c.omega.m, c.omega.n) "_linked_disconnected_terms") (List.mem_of_getElem? (i := 1) rfl)
  have l2 := lk (f := nm true (c.omega.m, c.omega.n) "_unlinked_disconnected_terms") (List.mem_of_getElem? (i := 2) rfl)
  have hr : c.omega.rank = c.omega.m + c.omega.n := ((omegaOps_exact cc omegaMax c.omega).1 ho).2.1
  rw [hr] at la
  obtain ⟨e1, e2, e3⟩ := call_amplitude (A := A) (N := N) (env := env) (h := h) (t := t) la l0 l1 l2
  refine ⟨e1, e2, fun hs hg hfull r hr => ?_⟩
  have hsub : ∀ q : Term → Bool, ∀ t ∈ L.filter q, t ∈ L := fun q t ht => (List.mem_filter.1 ht).1
  have g0 := goodSum_of hcc hcc' hH hS hP ho hL (hsub _) w0 hfull A N h t
  have g1 := goodSum_of hcc hcc' hH hS hP ho hL (hsub _) w1 hfull A N h t
  have g2 := goodSum_of hcc hcc' hH hS hP ho hL (hsub _) w2 hfull A N h t
  rw [e3 hs hg (by
    intro p hp
    simp only [List.mem_cons, List.not_mem_nil, or_false] at hp
    rcases hp with rfl | rfl | rfl
    · exact g0
    · exact g1
    · exact g2)]
  have hrun : ∃ r', callAdds (moduleDefs F) env [nm true (c.omega.m, c.omega.n) "_fully_connected_terms", nm true (c.omega.m, c.omega.n) "_linked_disconnected_terms",
      nm true (c.omega.m, c.omega.n) "_unlinked_disconnected_terms"] = .ok r' ∧ r' = r := by
    unfold callAmplitude at hr
    rw [la] at hr
    simp only [hs, if_true] at hr
    split at hr
    · cases hr
    · next a ha =>
      injection hr with hr
      exact ⟨a, ha, (Prod.mk.inj hr).2⟩
  obtain ⟨r', hr1, rfl⟩ := hrun
  rw [callAdds_three l0 l1 l2, hg, if_pos rfl] at hr1
  split at hr1
  · injection hr1 with hr1
    rw [← hr1]
  · cases hr1

/-- The functions of projections with creation operators have no terms: the executed text returns an array of zeros. -/
theorem text_creation_zero {so : SetOrder Nat} {sol : SetOrder (List T)} {hMax cc smax omegaMax : Nat} (hcc : 1 ≤ cc) (hcc' : cc ≤ 6) (hS : smax ≤ 6) (hP : omegaMax ≤ 6)
    {F : List OmegaCode} (hF : pythonFile so sol hMax cc smax omegaMax = .ok F) :
    ∃ source, Spec.Source.file (fileText cc F).toList = some source ∧ ∀ c ∈ F, 1 ≤ c.omega.m → ∀ env : Caller, env.singles = true → env.ground = true →
      ∀ (A N : Nat) (h t : Nat × Nat → Arr R),
      callArray source 2 ("compute_m" ++ toString c.omega.m ++ "_n" ++ toString c.omega.n ++ "_amplitude").toList (inputs A N env h t) =
        .ok ⟨A :: A :: List.replicate (c.omega.m + c.omega.n) N, fun _ => 0⟩ := by
  have hH : hMax ≤ 5 := (pythonFile_ok_iff so sol hMax cc smax omegaMax hcc hcc' hS).1.1 ⟨F, hF⟩
  obtain ⟨h3, hn, hom⟩ := three_of hcc hF
  have hne : F ≠ [] := by
    rintro rfl
    exact omegaOps_ne hom.symm
  refine ⟨moduleAst F, file_fileText cc hne fun c hc => good_omega hcc hcc' hH hS hP hF hc, ?_⟩
  intro c hc hm env hs hg A N h t
  rw [amplitude_name]
  obtain ⟨ho, L, hL, d0, d1, d2, o0, o1, o2, p0, p1, p2, ht, _⟩ := omega_code hcc hF hc
  have he := (creation_projection_empty so sol hMax cc smax omegaMax hcc F hF c hc hm).1
  rw [ht.d] at he
  simp only [List.replicate_succ, List.replicate_zero, List.cons.injEq, and_true] at he
  obtain ⟨rfl, rfl, rfl⟩ := he
  have lk : ∀ {f b}, (f, b) ∈ defsOf c.omega ⟨[], [], [], []⟩ ⟨[], [], [], []⟩ ⟨[], [], [], []⟩ o0 o1 o2 p0 p1 p2 → Spec.CCRun.lookup (moduleDefs F) f = some b :=
    fun hm => lookup_defs h3 hn hc ht hm
  have la := lk (f := nm false (c.omega.m, c.omega.n) "_amplitude") (List.mem_of_getElem? (i := 3) rfl)
  have l0 := lk (f := nm true (c.omega.m, c.omega.n) "_fully_connected_terms") (List.mem_of_getElem? (i := 0) rfl)
  have l1 := lk (f := nm true (c.omega.m, c.omega.n) "_linked_disconnected_terms") (List.mem_of_getElem? (i := 1) rfl)
  have l2 := lk (f := nm true (c.omega.m, c.omega.n) "_unlinked_disconnected_terms") (List.mem_of_getElem? (i := 2) rfl)
  have hr : c.omega.rank = c.omega.m + c.omega.n := ((omegaOps_exact cc omegaMax c.omega).1 ho).2.1
  rw [hr] at la
  rw [(call_amplitude (A := A) (N := N) (env := env) (h := h) (t := t) la l0 l1 l2).2.2 hs hg (by
    intro p hp
    simp only [List.mem_cons, List.not_mem_nil, or_false, or_self] at hp
    subst hp
    exact ⟨⟨by simp, by simp, by simp⟩, by simp⟩)]
  rfl

/-- C88: the text of every full-CC module that is written is Python source.  Executing `compute_m_n_amplitude` of it raises when the truncation
object does not confirm singles, and raises `NotImplementedError` for an ansatz that is not the ground state.  Otherwise
`compute_m0_nk_amplitude`, with all tensors, returns an array with two electronic axes and `k` axes of modes.  Its electronic matrix for the modes
`v` is `h_args[(k, 0)]`, if the Hamiltonian has this rank, plus the values of the terms that are kept by the writer and whose flags are set. -/
theorem text_value {so : SetOrder Nat} {sol : SetOrder (List T)} {hMax cc smax omegaMax : Nat} (hcc : 1 ≤ cc) (hcc' : cc ≤ 6) (hS : smax ≤ 6) (hP : omegaMax ≤ 6)
    {F : List OmegaCode} (hF : pythonFile so sol hMax cc smax omegaMax = .ok F) :
    ∃ source, Spec.Source.file (fileText cc F).toList = some source ∧ ∀ c ∈ F, ∀ env : Caller,
      (env.singles = false → ∀ (A N : Nat) (h t : Nat × Nat → Arr R),
        callArray source 2 ("compute_m" ++ toString c.omega.m ++ "_n" ++ toString c.omega.n ++ "_amplitude").toList (inputs A N env h t) = .error .exception) ∧
      (env.singles = true → env.ground = false → ∀ (A N : Nat) (h t : Nat × Nat → Arr R),
        callArray source 2 ("compute_m" ++ toString c.omega.m ++ "_n" ++ toString c.omega.n ++ "_amplitude").toList (inputs A N env h t) = .error .notImplemented) ∧
      (c.omega.m = 0 → env.singles = true → env.ground = true → FullArgs hMax cc env → ∃ L, termsFor sol true true hMax cc smax c.omega = .ok L ∧
        ∀ (A N : Nat) (h t : Nat × Nat → Arr R), ∃ x,
          callArray source 2 ("compute_m0_n" ++ toString c.omega.n ++ "_amplitude").toList (inputs A N env h t) = .ok x ∧
          x.shape = A :: A :: List.replicate c.omega.n N ∧ ∀ v : List Nat, v.length = c.omega.n →
            mat A x.get v = (if c.omega.n ≤ hMax then mat A (h (c.omega.n, 0)) v else 0) +
              ((termGroups L).map fun l => (((kept so l).filter (Enabled env.fl)).map fun s => termValue A N (h (s.h.m, s.h.n)) t s.h.m s.h.n s.ts v).sum).sum) := by
  have hH : hMax ≤ 5 := (pythonFile_ok_iff so sol hMax cc smax omegaMax hcc hcc' hS).1.1 ⟨F, hF⟩
  obtain ⟨source, e1, e2⟩ := text_calls hcc hcc' hS hP hF
  refine ⟨source, e1, fun c hc env => ⟨fun hs A N h t => (e2 c hc R env A N h t).1 hs, fun hs hg A N h t => (e2 c hc R env A N h t).2.1 hs hg, fun hom hs hg hfull => ?_⟩⟩
  obtain ⟨L, r, hL, hr, hv⟩ := amplitude_value so sol hMax cc smax omegaMax hcc (by omega) hS hP F hF c hc hom env hs hg hfull
  refine ⟨L, hL, fun A N h t => ⟨⟨A :: A :: List.replicate c.omega.n N, returned A N h t r⟩, ?_, rfl, fun v hv' => hv R A N h t v hv'⟩⟩
  have := (e2 c hc R env A N h t).2.2 hs hg hfull r
  rw [hom] at this
  simp only [Nat.zero_add] at this
  exact this hr

/-- C80 for the text: with symmetric tensors and all flags set, the array returned by the executed text for the projection on `k ≤ 1` modes is the
array of coefficients of the `k`-mode part of `H e^T`, if the Hamiltonian has rank at most 2 or the amplitudes have one mode. -/
theorem text_projection_partial {so : SetOrder Nat} {sol : SetOrder (List T)} {hMax cc smax omegaMax : Nat} (hcc : 1 ≤ cc) (hcc' : cc ≤ 6) (hS : smax ≤ 6) (hP : omegaMax ≤ 6)
    (hr : hMax ≤ 2 ∨ cc = 1) {F : List OmegaCode} (hF : pythonFile so sol hMax cc smax omegaMax = .ok F) :
    ∃ source, Spec.Source.file (fileText cc F).toList = some source ∧ ∀ c ∈ F, c.omega.m = 0 → c.omega.n ≤ 1 → hMax + c.omega.n ≤ smax → ∀ env : Caller,
      env.singles = true → env.ground = true → FullArgs hMax cc env → (∀ n, env.fl.h n = true) → (∀ n, env.fl.t n = true) →
      ∀ (A N M : Nat), hMax + c.omega.n ≤ M → ∀ h t : Nat × Nat → Arr R, (∀ m n, LowerSymmetric m n (h (m, n))) → (∀ k, ModeSymmetric k (t (k, 0))) → ∃ x,
        callArray source 2 ("compute_m0_n" ++ toString c.omega.n ++ "_amplitude").toList (inputs A N env h t) = .ok x ∧ x.shape = A :: A :: List.replicate c.omega.n N ∧
        state A N c.omega.n x.get =
          part c.omega.n (Spec.Fock.hamiltonian A N (hamiltonianOf hMax) h (expUpTo M (cluster A N (Finset.Icc 1 cc) fun j => t (j, 0)))) := by
  obtain ⟨source, e1, e2⟩ := text_calls hcc hcc' hS hP hF
  refine ⟨source, e1, fun c hc hom hk hs env h1 h2 h3 h4 h5 A N M hM h t hh ht => ?_⟩
  obtain ⟨r, hr1, hv⟩ := amplitude_projection_partial so sol hMax cc smax omegaMax hcc hS hP hr F hF c hc hom hk hs env h1 h2 h3 h4 h5
  refine ⟨⟨A :: A :: List.replicate c.omega.n N, returned A N h t r⟩, ?_, rfl, hv R A N M hM h t hh ht⟩
  have := (e2 c hc R env A N h t).2.2 h1 h2 h3 r
  rw [hom] at this
  simp only [Nat.zero_add] at this
  exact this hr1

/-- The hypotheses are met: the module of rank 2 with doubles and up to three amplitudes, a caller that passes all tensors and sets all flags, and
tensors that are symmetric and not constant. -/
example : ∃ F, pythonFile (SetOrder.std _) (SetOrder.std _) 2 2 3 1 = .ok F ∧ (∃ c ∈ F, c.omega.m = 0 ∧ c.omega.n = 1 ∧ 2 + c.omega.n ≤ 3) ∧
    FullArgs 2 2 ⟨true, true, allOn, fun _ => true, fun _ => true⟩ ∧ (∀ n, allOn.h n = true) ∧ (∀ n, allOn.t n = true) ∧
    (∀ k, ModeSymmetric k (fun l : List Nat => ((l.drop 2).sum : Rat))) := by
  obtain ⟨F, hF⟩ := ((pythonFile_ok_iff (SetOrder.std _) (SetOrder.std _) 2 2 3 1 (by omega) (by omega) (by omega)).1).2 (by omega)
  refine ⟨F, hF, ?_, ⟨fun _ _ _ => rfl, fun _ _ _ => rfl⟩, fun _ => rfl, fun _ => rfl, ?_⟩
  · have hf := pythonFile_contents _ _ 2 2 3 1 (by omega) F hF
    have ho : (⟨rep 'd' 0 ++ rep 'b' 1, 1, 0, 1⟩ : Op) ∈ omegaOps 2 1 := (omegaOps_exact 2 1 _).2 ⟨rfl, rfl, by simp, by simp⟩
    obtain ⟨c, hc, hc', _⟩ := forall₂_mem_right hf.flip _ ho
    exact ⟨c, hc, by rw [hc'], by rw [hc'], by rw [hc']; simp only; omega⟩
  · intro j x y l l' _ h
    show ((l.sum : Nat) : Rat) = (l'.sum : Nat)
    rw [h.sum_nat]

end TF.CC
