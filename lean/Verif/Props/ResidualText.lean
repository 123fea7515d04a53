import Verif.Lemmas.ResidualSourceRun
import Verif.Props.DtValue

/-!
# Properties of the text of the generated residual module

C85: the text of the file written by `generate_residual_equations_file`, read as Python and executed, computes the residual.
-/

namespace TF.Residual

open TF.Py TF.Spec.Tensor TF.Spec.PyRun TF.Spec.ResidualCall TF.Spec.Dt
open TF.Spec.Residual (Belongs runFn)

variable {R : Type} [CommRing R] [Algebra Rat R]

/-- The name of the function of order `k`. -/
theorem fnName_eq (k : Nat) : fnName k = "calculate_order_" ++ toString k ++ "_residual" := rfl

theorem getElem_module {n r k : Nat} (hkn : k ≤ n) : ((List.range (n + 1)).map (fnAt r))[k]? = some (fnAt r k) := by
  rw [List.getElem?_map, List.getElem?_range (by omega)]
  rfl

/-- **C85.** Whenever the module exists, its file is Python source (of the fragment in `Verif.Spec.Source`), and executing
`calculate_order_k_residual` (`k ≤ 4`) of it on any arguments returns the array that the lines of C48 add up to, or raises the exception of C48. -/
theorem residual_text_runs {n r : Nat} {fns : List Fn} (hf : residualModule n r = .ok fns) :
    ∃ text source, fileText n r = .ok text ∧ Spec.Source.file text = some source ∧
      ∀ k f, k ≤ 4 → fns[k]? = some f → ∀ (env : Spec.Residual.Env) (A N : Nat) (h : Nat × Nat → Arr R) (w : Nat → Arr R),
        callArray source 1 ("calculate_order_" ++ toString k ++ "_residual").toList (inputs A N env h w) =
          (runFn env f).map fun ls => ⟨A :: A :: List.replicate k N, residualValue A N h w ls⟩ := by
  obtain ⟨hn, hr⟩ := (residual_module_iff n r).1 ⟨fns, hf⟩
  obtain ⟨text, ht, hs⟩ := file_fileText hn hr
  refine ⟨text, _, ht, hs, fun k f hk hkf env A N h w => ?_⟩
  rw [residualModule_eq n r hn hr] at hf
  injection hf with hf
  subst hf
  have hkn : k ≤ n := by
    have := (List.getElem?_eq_some_iff.1 hkf).1
    simp at this
    omega
  rw [getElem_module hkn] at hkf
  injection hkf with hkf
  subst hkf
  rw [← fnName_eq]
  exact call_source hr hk hkn env A N h w

/-- **C85.** The array has the shape `(A, A, N, .., N)`; summed over the permutations of its modes it is the sum of the parts with `k` modes of
`h^m_n W` over the terms of the Hamiltonian that belong to the residual of order `k` - except that `h^2_0 W` is missing in the orders 2 and 3 if W of
order `k + 2` was passed. -/
theorem residual_text {n r k : Nat} {fns : List Fn} (hf : residualModule n r = .ok fns) (hk : k ≤ 4) (hkn : k ≤ n)
    (env : Spec.Residual.Env) (hwl : k + 2 ≤ env.wlen) (hg : env.fl (max k 1) = true) (h1 : env.present 1 = true)
    (A N : Nat) (h : Nat × Nat → Arr R) (hh : ∀ m n, UpperSymmetric m n (h (m, n))) (w : Nat → Arr R) (hw : ∀ j, 1 ≤ j → env.present j = true → ModeSymmetric j (w j)) :
    ∃ text source x, fileText n r = .ok text ∧ Spec.Source.file text = some source ∧
      callArray source 1 ("calculate_order_" ++ toString k ++ "_residual").toList (inputs A N env h w) = .ok x ∧
      x.shape = A :: A :: List.replicate k N ∧ ∃ s : Finset (Nat × Nat),
      (∀ m n, (m, n) ∈ s ↔ Belongs env r k ⟨m, n⟩ ∧ ¬ ((m, n) = (2, 0) ∧ (k = 2 ∨ k = 3) ∧ env.present (k + 2) = true)) ∧
      ∀ (a b : Fin A) (v : Fin k → Nat), symSum k x.get (a.val :: b.val :: List.ofFn v) =
        ∑ o ∈ s, hamW A N (h o) (withIdentity w (k - o.1 + o.2)) o.1 o.2 v a b := by
  obtain ⟨text, source, e1, e2, e3⟩ := residual_text_runs (R := R) hf
  obtain ⟨ls, h2, s, h3, h4⟩ := TF.Dt.residual_value n r k fns hf hk hkn env hwl hg h1 A N h hh w hw
  obtain ⟨f, hs, _, hk', _⟩ := residual_function_runs n r k fns hf hk hkn env hwl hg h1
  refine ⟨text, source, ⟨_, residualValue A N h w ls⟩, e1, e2, ?_, rfl, s, h3, h4⟩
  rw [e3 k f hk hk' env A N h w]
  unfold runResidual at h2
  rw [hk'] at h2
  simp only at h2
  rw [h2]
  rfl

/-- **C85.** The exceptions of the beginning: `ValueError` when fewer than `k + 2` operators W are passed, else `AssertionError` when the flag of the
truncation is not set. -/
theorem residual_text_errors {n r k : Nat} {fns : List Fn} (hf : residualModule n r = .ok fns) (hk : k ≤ 4) (hkn : k ≤ n)
    (env : Spec.Residual.Env) (A N : Nat) (h : Nat × Nat → Arr R) (w : Nat → Arr R) :
    ∃ text source, fileText n r = .ok text ∧ Spec.Source.file text = some source ∧
      (env.wlen < k + 2 → callArray source 1 ("calculate_order_" ++ toString k ++ "_residual").toList (inputs A N env h w) = .error .value) ∧
      (k + 2 ≤ env.wlen → env.fl (max k 1) = false →
        callArray source 1 ("calculate_order_" ++ toString k ++ "_residual").toList (inputs A N env h w) = .error .assertion) := by
  obtain ⟨text, source, e1, e2, e3⟩ := residual_text_runs (R := R) hf
  obtain ⟨hn, hr⟩ := (residual_module_iff n r).1 ⟨fns, hf⟩
  have hk' : fns[k]? = some (fnAt r k) := by
    rw [residualModule_eq n r hn hr] at hf
    injection hf with hf
    subst hf
    exact getElem_module hkn
  have hg : (fnAt r k).gate = max k 1 := by
    unfold fnAt
    simp only
    split_ifs <;> omega
  refine ⟨text, source, e1, e2, fun hlt => ?_, fun hle hfl => ?_⟩
  · rw [e3 k _ hk hk' env A N h w]
    unfold runFn
    rw [if_pos (show env.wlen < (fnAt r k).unpacked from hlt)]
    rfl
  · rw [e3 k _ hk hk' env A N h w]
    unfold runFn
    rw [if_neg (show ¬ env.wlen < (fnAt r k).unpacked from not_lt.2 hle), hg, hfl]
    rfl

/-! ## Concrete cases -/

/-- arrays that do not depend on the order of the modes -/
def exH (o : Nat × Nat) : Arr Rat := fun v => o.1 + 2 * o.2 + v.getD 0 0 + (v.drop 2).sum

def exW (j : Nat) : Arr Rat := fun v => j + 3 * v.getD 1 0 + (v.drop 2).sum

/-- W up to order 3 was computed -/
def exEnv : Spec.Residual.Env := ⟨true, fun _ => true, fun j => decide (j ≤ 3), 6⟩

theorem exH_symm (m n : Nat) : UpperSymmetric m n (exH (m, n)) := by
  intro a b K I I' _ _ hp
  simp [exH, hp.sum_eq]

theorem exW_symm (j : Nat) : ModeSymmetric j (exW j) := by
  intro a b l l' _ hp
  simp [exW, hp.sum_eq]

theorem ok_two : ∃ fns, residualModule 2 2 = .ok fns := (residual_module_iff 2 2).2 ⟨by decide, by decide⟩

/-- The residual of order 2 with two electronic states and three modes: five terms. -/
example : ∃ text source x, fileText 2 2 = .ok text ∧ Spec.Source.file text = some source ∧
    callArray source 1 "calculate_order_2_residual".toList (inputs 2 3 exEnv exH exW) = .ok x ∧ x.shape = [2, 2, 3, 3] ∧
    ∀ (a b : Fin 2) (v : Fin 2 → Nat), symSum 2 x.get (a.val :: b.val :: List.ofFn v) =
      ∑ o ∈ {(0, 0), (0, 1), (1, 0), (1, 1), (2, 0)}, hamW 2 3 (exH o) (withIdentity exW (2 - o.1 + o.2)) o.1 o.2 v a b := by
  obtain ⟨fns, hf⟩ := ok_two
  obtain ⟨text, source, x, e1, e2, e3, e4, s, hs, e5⟩ := residual_text (R := Rat) hf (k := 2) (by decide) (by decide) exEnv (by decide) rfl rfl 2 3 exH exH_symm exW fun j _ _ => exW_symm j
  refine ⟨text, source, x, e1, e2, e3, e4, ?_⟩
  have : s = {(0, 0), (0, 1), (1, 0), (1, 1), (2, 0)} := by
    ext ⟨m, n⟩
    rw [hs]
    constructor
    · rintro ⟨hb, _⟩
      have h1 := hb.rank
      have h2 := hb.upper
      have h3 := hb.computed
      simp only [exEnv, decide_eq_true_eq] at h1 h2 h3
      have : m ≤ 2 := by omega
      have : n ≤ 2 := by omega
      interval_cases m <;> interval_cases n <;> first | decide | omega
    · intro hm
      simp only [Finset.mem_insert, Finset.mem_singleton, Prod.mk.injEq] at hm
      refine ⟨⟨?_, ?_, fun _ => rfl, ?_⟩, by simp [exEnv]⟩
      · show m + n ≤ 2
        omega
      · show m ≤ 2
        omega
      · simp only [exEnv, decide_eq_true_eq]
        omega
  rw [this] at e5
  exact e5

/-- Without the flag the function raises `AssertionError`. -/
example : ∃ text source, fileText 2 2 = .ok text ∧ Spec.Source.file text = some source ∧
    callArray source 1 "calculate_order_2_residual".toList (inputs 2 3 { exEnv with fl := fun _ => false } exH exW) = .error .assertion := by
  obtain ⟨fns, hf⟩ := ok_two
  obtain ⟨text, source, e1, e2, _, e4⟩ := residual_text_errors (R := Rat) hf (k := 2) (by decide) (by decide) { exEnv with fl := fun _ => false } 2 3 exH exW
  exact ⟨text, source, e1, e2, e4 (by decide) rfl⟩

end TF.Residual
