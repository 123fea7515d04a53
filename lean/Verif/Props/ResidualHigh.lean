import Verif.Lemmas.ResidualHigh
import Verif.Props.DtIter

/-!
# C92: the functions of the orders 5 and 6 of the texts of the generated residual and derivative modules
-/

namespace TF.Residual

open TF.Py TF.Spec.Tensor TF.Spec.PyRun TF.Spec.ResidualCall
open TF.Spec.Residual (Belongs)

variable {R : Type} [CommRing R] [Algebra Rat R]

/-- **C92** Read and executed as Python, `calculate_order_k_residual` of the orders 5 and 6 never adds a term.  It raises `ValueError` if fewer than `k + 2` operators W are passed, else
`AssertionError` if the truncation does not contain the order, else `ValueError` if any term of the Hamiltonian belongs to the residual (its einsum names fewer axes of W than W has), and
returns an array of zeros otherwise. -/
theorem residual_text_high {n r : Nat} {text : List Char} (ht : fileText n r = .ok text) :
    ∃ source, Spec.Source.file text = some source ∧
      ∀ k, 5 ≤ k → k ≤ n → ∀ (env : Spec.Residual.Env) (A N : Nat) (h : Nat × Nat → Arr R) (w : Nat → Arr R),
        (env.wlen < k + 2 → callArray source 1 ("calculate_order_" ++ toString k ++ "_residual").toList (inputs A N env h w) = .error .value) ∧
        (k + 2 ≤ env.wlen → env.fl k = false → callArray source 1 ("calculate_order_" ++ toString k ++ "_residual").toList (inputs A N env h w) = .error .assertion) ∧
        (k + 2 ≤ env.wlen → env.fl k = true → (∃ o, Belongs env r k o) →
          callArray source 1 ("calculate_order_" ++ toString k ++ "_residual").toList (inputs A N env h w) = .error .value) ∧
        (k + 2 ≤ env.wlen → env.fl k = true → (¬ ∃ o, Belongs env r k o) →
          callArray source 1 ("calculate_order_" ++ toString k ++ "_residual").toList (inputs A N env h w) = .ok ⟨A :: A :: List.replicate k N, fun _ => 0⟩) := by
  obtain ⟨hn, hr⟩ := TF.Dt.residual_exists ht
  obtain ⟨text', e1, e2⟩ := file_fileText hn hr
  obtain rfl : text = text' := by rw [ht] at e1; injection e1
  refine ⟨_, e2, fun k h5 hk env A N h w => ?_⟩
  rw [← fnName_eq]
  unfold callArray
  rw [if_pos (imports_numpy n r), call_fn_high hr h5 (by omega) hk]
  refine ⟨fun hw => ?_, fun hw hf => ?_, fun hw hf ho => ?_, fun hw hf ho => ?_⟩
  · rw [if_pos hw]
  · rw [if_neg (by omega), if_pos hf]
  · rw [if_neg (by omega), if_neg (by simp [hf]), if_pos ho]
  · rw [if_neg (by omega), if_neg (by simp [hf]), if_neg ho]
    rfl

/-- **C92** With W of the order, the call raises an exception for all arguments. -/
theorem residual_text_high_raises {n r : Nat} {text : List Char} (ht : fileText n r = .ok text) :
    ∃ source, Spec.Source.file text = some source ∧
      ∀ k, 5 ≤ k → k ≤ n → ∀ (env : Spec.Residual.Env) (A N : Nat) (h : Nat × Nat → Arr R) (w : Nat → Arr R), env.present k = true →
        ∃ e, callArray source 1 ("calculate_order_" ++ toString k ++ "_residual").toList (inputs A N env h w) = .error e := by
  obtain ⟨source, e1, e2⟩ := residual_text_high (R := R) ht
  refine ⟨source, e1, fun k h5 hk env A N h w hp => ?_⟩
  obtain ⟨c1, c2, c3, c4⟩ := e2 k h5 hk env A N h w
  by_cases hw : env.wlen < k + 2
  · exact ⟨_, c1 hw⟩
  · cases hf : env.fl k with
    | false => exact ⟨_, c2 (by omega) hf⟩
    | true => exact ⟨_, c3 (by omega) hf ⟨⟨0, 0⟩, by simp, by simp, by simp, fun _ => by simpa using hp⟩⟩

/-- all W operators up to order 8 -/
def manyW : Spec.Residual.Env := ⟨true, fun _ => true, fun _ => true, 8⟩

/-- the operators W of the orders 1 and 2 -/
def fewW : Spec.Residual.Env := ⟨true, fun _ => true, fun j => decide (j ≤ 2), 8⟩

/-- The quintuples with all operators: `ValueError`; with W of the orders 1 and 2 only: zeros. -/
example (A N : Nat) (h : Nat × Nat → Arr Rat) (w : Nat → Arr Rat) : ∃ text source, fileText 6 2 = .ok text ∧ Spec.Source.file text = some source ∧
    callArray source 1 "calculate_order_5_residual".toList (inputs A N manyW h w) = .error .value ∧
    callArray source 1 "calculate_order_5_residual".toList (inputs A N fewW h w) = .ok ⟨[A, A, N, N, N, N, N], fun _ => 0⟩ := by
  obtain ⟨text, e1, _⟩ := file_fileText (n := 6) (r := 2) (by decide) (by decide)
  obtain ⟨source, e2, e3⟩ := residual_text_high (R := Rat) e1
  refine ⟨text, source, e1, e2, (e3 5 (by decide) (by decide) manyW A N h w).2.2.1 (by decide) rfl ⟨⟨0, 0⟩, by simp, by simp, by simp, fun _ => rfl⟩,
    (e3 5 (by decide) (by decide) fewW A N h w).2.2.2 (by decide) rfl ?_⟩
  rintro ⟨⟨m, n⟩, b1, b2, b3, b4⟩
  simp only [fewW, decide_eq_true_eq] at b1 b2 b4
  have := b4 (by omega)
  omega

end TF.Residual

namespace TF.Dt

open TF.Py TF.Helper TF.W TF.Spec TF.Spec.PyRun TF.Spec.PyIter TF.Spec.Tensor TF.Spec.DtCall TF.Spec.DtIter TF.Spec.Dt
open TF.Spec.ResidualCall (tensor truncation wOperator)

variable {R : Type} [CommRing R] [Algebra Rat R]

/-- a residual module with an exception in the function of order `k` -/
theorem some_module (env : Spec.Residual.Env) (k : Nat) {e : PyErr} (he : e = .value ∨ e = .assertion ∧ env.fl k = false ∧ k + 2 ≤ env.wlen) :
    ∃ resFns : List TF.Residual.Fn, runResidual env resFns k = .error e := by
  rcases he with rfl | ⟨rfl, hf, hw⟩
  · refine ⟨List.replicate (k + 1) ⟨k, env.wlen + 1, k, []⟩, ?_⟩
    unfold runResidual
    rw [List.getElem?_replicate, if_pos (by omega)]
    simp only [Spec.Residual.runFn]
    rw [if_pos (by omega)]
  · refine ⟨List.replicate (k + 1) ⟨k, k + 2, k, []⟩, ?_⟩
    unfold runResidual
    rw [List.getElem?_replicate, if_pos (by omega)]
    simp only [Spec.Residual.runFn]
    rw [if_neg (by omega), hf]
    rfl

/-- the residual function of order 5 or 6: as one that raises the exception, unless W of the order is missing -/
theorem residual_high {nr rank k : Nat} (hnr : nr ≤ 6) (hr : rank ≤ 2) (h5 : 5 ≤ k) (h6 : k ≤ 6) (env : Spec.Residual.Env) (A N : Nat) (h : Nat × Nat → Arr R) (w : Nat → Arr R) :
    ∃ resFns, (∀ ls, runResidual env resFns k = .ok ls → env.present k = false) ∧
      callModule (R := R) "residual_equations".toList (TF.Residual.importAst ++ ((List.range (nr + 1)).map (TF.Residual.fnAt rank)).map TF.Residual.fnAst) 1
        ("residual_equations".toList ++ '.' :: (residualName k).toList) (Spec.ResidualCall.inputs A N env h w) [] =
      (runResidual env resFns k).map fun ls => (.ref 0, [tensor A N k (residualValue A N h w ls)]) := by
  have e : (residualName k).toList = (TF.Residual.fnName k).toList := rfl
  unfold callModule
  rw [if_pos undotted_take.1, undotted_take.2, e]
  by_cases hkn : k ≤ nr
  · rw [TF.Residual.lookup_file hkn]
    simp only [TF.Residual.imports_numpy, if_true]
    rw [TF.Residual.call_fn_high hr h5 h6 hkn]
    split_ifs with hw hf ho
    · obtain ⟨resFns, hx⟩ := some_module env k (.inl rfl)
      exact ⟨resFns, fun ls hl => (by rw [hx] at hl; cases hl), by rw [hx]; rfl⟩
    · obtain ⟨resFns, hx⟩ := some_module env k (.inr ⟨rfl, hf, by omega⟩)
      exact ⟨resFns, fun ls hl => (by rw [hx] at hl; cases hl), by rw [hx]; rfl⟩
    · obtain ⟨resFns, hx⟩ := some_module env k (.inl rfl)
      exact ⟨resFns, fun ls hl => (by rw [hx] at hl; cases hl), by rw [hx]; rfl⟩
    · refine ⟨List.replicate (k + 1) ⟨k, k + 2, k, []⟩, fun ls _ => ?_, ?_⟩
      · by_contra hp
        exact ho ⟨⟨0, 0⟩, by simp, by simp, by simp, fun _ => by simpa using hp⟩
      · have : runResidual env (List.replicate (k + 1) ⟨k, k + 2, k, []⟩) k = .ok [] := by
          unfold runResidual
          rw [List.getElem?_replicate, if_pos (by omega)]
          simp only [Spec.Residual.runFn]
          rw [if_neg hw]
          simp [hf, Spec.Residual.runStmts]
        rw [this]
        simp only [Except.map, TF.Residual.residualValue_nil]
  · rw [TF.Residual.lookup_missing (by omega)]
    exact ⟨[], fun ls hl => (by cases hl), rfl⟩

/-- **C92** The functions `solve_.._equations` of the orders 5 and 6 of the text, and their optimised versions called with the lists that `compute_optimized_paths` returns, raise an exception
for all arguments. -/
theorem dt_text_high {n nr rank : Nat} {text rtext : List Char} (h : fileText n = .ok text) (hr : TF.Residual.fileText nr rank = .ok rtext) :
    ∃ source rsource, Spec.Source.file text = some source ∧ Spec.Source.file rtext = some rsource ∧
      ∀ (env : Spec.Dt.Env) (A N : Nat) (h : Nat × Nat → Arr R) (t dt w : Nat → Arr R) (ε : Arr R), ∃ paths : Val R,
        callPathsWith (callModule "residual_equations".toList rsource 1) source 3 "compute_optimized_paths".toList [.num A, .num N, truncation env.res] = .ok paths ∧
        ∀ k, 5 ≤ k → k ≤ n →
          (∃ e, callArrayWith (callModule "residual_equations".toList rsource 1) source 3 (solveName k).toList (inputs A N env h t dt w ε) = .error e) ∧
          ∃ e, callArrayWithS (callModule "residual_equations".toList rsource 1) source 3 (solveName k ++ "_optimized").toList (inputs A N env h t dt w ε ++ [paths]) = .error e := by
  have hn := (dt_text_exists n).1 ⟨text, h⟩
  obtain ⟨text', e1, e2⟩ := file_fileText hn
  obtain rfl : text = text' := by rw [h] at e1; injection e1
  obtain ⟨hnr, hrank⟩ := residual_exists hr
  obtain ⟨rtext', e3, e4⟩ := TF.Residual.file_fileText hnr hrank
  obtain rfl : rtext = rtext' := by rw [hr] at e3; injection e3
  refine ⟨_, _, e2, e4, fun env A N h t dt w ε => ⟨.list (pathLists A N n env.res.fl), ?_, fun k h5 hk => ?_⟩⟩
  · have hoe : (moduleAst n).any importsOe = true := by
      unfold moduleAst
      simp only [List.any_append]
      have : importAst.any importsOe = true := by decide
      simp only [this, Bool.true_or]
    rw [callPathsWith, if_pos hoe, call_masterPaths hn (isTruncation env.res) 0 []]
    rfl
  · have h1 : 1 ≤ k := by omega
    obtain ⟨resFns, hno, hres⟩ := residual_high (R := R) hnr hrank h5 (by omega) env.res A N h w
    have hbad : ∃ e, runSolver DEinsum.ts env resFns ((range2 1 (n + 1)).map (linkedAt mkDs)) ((range2 1 (n + 1)).map (unlinkedAt mkDs)) ((range2 1 (n + 1)).map dtFnAt) (range2 1 (n + 1)) k = .error e := by
      cases hs : runSolver DEinsum.ts env resFns ((range2 1 (n + 1)).map (linkedAt mkDs)) ((range2 1 (n + 1)).map (unlinkedAt mkDs)) ((range2 1 (n + 1)).map dtFnAt) (range2 1 (n + 1)) k with
      | error e => exact ⟨e, rfl⟩
      | ok r =>
        obtain ⟨_, _, hp, _, ls, hls⟩ := (dt_run_ok_iff n _ (dtModule_eq n hn) k h1 hk env resFns).1 ⟨r, hs⟩
        rw [hno ls hls] at hp
        cases hp
    obtain ⟨e, he⟩ := hbad
    rw [← solverName_opt_eq k (by omega) h1, ← solverName_eq k (by omega) h1]
    refine ⟨⟨e, ?_⟩, ?_⟩
    · rw [callArrayWith_returns (call_solver (t := t) (dt := dt) (ε := ε) hn h1 hk 0 hres), he]
      rfl
    · by_cases hfl : ∀ j, 1 ≤ j → j ≤ k → env.res.fl j = true
      · refine ⟨e, ?_⟩
        rw [callArrayWithS_returns (call_solver_opt (t := t) (dt := dt) (ε := ε) hn h1 hk 0 hres fun _ => hfl), he]
        rfl
      · have : ∃ j, 1 ≤ j ∧ j ≤ k ∧ env.res.fl j = false := by
          by_contra hj
          refine hfl fun j j1 jk => ?_
          by_contra hf
          exact hj ⟨j, j1, jk, by simpa using hf⟩
        obtain ⟨j, j1, jk, hj⟩ := this
        obtain ⟨e, he⟩ := call_solver_bad (t := t) (dt := dt) (ε := ε) hn h1 hk 0 hres j1 jk hj
        refine ⟨e, ?_⟩
        unfold callArrayWithS
        rw [if_pos (imports_numpy n), he]

/-- the largest modules, with everything passed -/
def everything : Spec.Dt.Env := ⟨false, true, false, 8, 8, TF.Residual.manyW⟩

example (A N : Nat) (h : Nat × Nat → Arr Rat) (t dt w : Nat → Arr Rat) (ε : Arr Rat) :
    ∃ text rtext source rsource, fileText 6 = .ok text ∧ TF.Residual.fileText 6 2 = .ok rtext ∧ Spec.Source.file text = some source ∧ Spec.Source.file rtext = some rsource ∧
      (∃ e, callArrayWith (callModule "residual_equations".toList rsource 1) source 3 "solve_quintuples_equations".toList (inputs A N everything h t dt w ε) = .error e) ∧
      ∃ e, callArrayWith (callModule "residual_equations".toList rsource 1) source 3 "solve_sextuples_equations".toList (inputs A N everything h t dt w ε) = .error e := by
  obtain ⟨text, e1, _⟩ := file_fileText (n := 6) (by decide)
  obtain ⟨rtext, e2, _⟩ := TF.Residual.file_fileText (n := 6) (r := 2) (by decide) (by decide)
  obtain ⟨source, rsource, e3, e4, e5⟩ := dt_text_high (R := Rat) e1 e2
  obtain ⟨paths, _, e6⟩ := e5 everything A N h t dt w ε
  exact ⟨text, rtext, source, rsource, e1, e2, e3, e4, (e6 5 (by decide) (by decide)).1, (e6 6 (by decide) (by decide)).1⟩

end TF.Dt
