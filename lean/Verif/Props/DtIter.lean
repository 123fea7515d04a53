import Verif.Lemmas.DtIterSolver
import Verif.Props.DtText

/-!
# C91: the optimised functions of the text of a generated module of the amplitude derivatives
-/

namespace TF.Dt

set_option maxRecDepth 10000

open TF.Py TF.Helper TF.W TF.Spec TF.Spec.PyRun TF.Spec.PyIter TF.Spec.Tensor TF.Spec.DtCall TF.Spec.DtIter TF.Spec.Dt
open TF.Spec.ResidualCall (tensor truncation wOperator)

variable {R : Type} [CommRing R] [Algebra Rat R]

theorem solverName_opt_eq : ∀ k ≤ 6, 1 ≤ k → solverName true k = solveName k ++ "_optimized" := by decide +kernel

theorem residual_exists {nr rank : Nat} {rtext : List Char} (h : TF.Residual.fileText nr rank = .ok rtext) : nr ≤ 6 ∧ rank ≤ 2 := by
  refine (TF.Residual.residual_module_iff nr rank).1 ?_
  unfold TF.Residual.fileText at h
  cases hm : TF.Residual.residualModule nr rank with
  | error e => rw [hm] at h; cases h
  | ok m => exact ⟨m, rfl⟩

theorem imports_numpy (n : Nat) : (moduleAst n).any importsNumpy = true := by
  unfold moduleAst
  simp only [List.any_append, show importAst.any importsNumpy = true from rfl, Bool.true_or]

/-- the array that a call returns -/
theorem callArrayWithS_returns {n depth : Nat} {other : Functions R} {f : List Char} {args : List (Val R)} {r : Except PyErr (NArr R)} (h : Returns (callWithS other (moduleAst n) depth f args []) r) :
    callArrayWithS other (moduleAst n) depth f args = r := by
  unfold callArrayWithS
  rw [if_pos (imports_numpy n)]
  cases r with
  | error e =>
    have h : callWithS other (moduleAst n) depth f args [] = .error e := h
    rw [h]
  | ok r =>
    obtain ⟨heap, h⟩ := h
    rw [h]
    rfl

theorem callArrayWith_returns {n depth : Nat} {other : Functions R} {f : List Char} {args : List (Val R)} {r : Except PyErr (NArr R)} (h : Returns (callWith other (moduleAst n) depth f args []) r) :
    callArrayWith other (moduleAst n) depth f args = r := by
  unfold callArrayWith
  rw [if_pos (imports_numpy n)]
  cases r with
  | error e =>
    have h : callWith other (moduleAst n) depth f args [] = .error e := h
    rw [h]
  | ok r =>
    obtain ⟨heap, h⟩ := h
    rw [h]
    rfl

/-- **C91** Read and executed as Python, `compute_optimized_paths` of the text succeeds for every truncation.  If the truncation contains with the rank `k` also all lower ranks, the
optimised function of the order, called with the lists that it returns, gives for all arguments what the other function gives: the same array or the same exception.  If a
rank up to `k` is missing, the optimised function raises an exception for all arguments. -/
theorem dt_text_optimized {n nr rank : Nat} {text rtext : List Char} (h : fileText n = .ok text) (hr : TF.Residual.fileText nr rank = .ok rtext) :
    ∃ source rsource, Spec.Source.file text = some source ∧ Spec.Source.file rtext = some rsource ∧
      ∀ (env : Spec.Dt.Env) (A N : Nat) (h : Nat × Nat → Arr R) (t dt w : Nat → Arr R) (ε : Arr R), ∃ paths : Val R,
        callPathsWith (callModule "residual_equations".toList rsource 1) source 3 "compute_optimized_paths".toList [.num A, .num N, truncation env.res] = .ok paths ∧
        ∀ k, 1 ≤ k → k ≤ 4 → k ≤ n →
          ((env.res.fl k = true → ∀ j, 1 ≤ j → j < k → env.res.fl j = true) →
            callArrayWithS (callModule "residual_equations".toList rsource 1) source 3 (solveName k ++ "_optimized").toList (inputs A N env h t dt w ε ++ [paths]) =
              callArrayWith (callModule "residual_equations".toList rsource 1) source 3 (solveName k).toList (inputs A N env h t dt w ε)) ∧
          ((∃ j, 1 ≤ j ∧ j ≤ k ∧ env.res.fl j = false) →
            ∃ e, callArrayWithS (callModule "residual_equations".toList rsource 1) source 3 (solveName k ++ "_optimized").toList (inputs A N env h t dt w ε ++ [paths]) = .error e) := by
  have hn := (dt_text_exists n).1 ⟨text, h⟩
  obtain ⟨text', e1, e2⟩ := file_fileText hn
  obtain rfl : text = text' := by rw [h] at e1; injection e1
  obtain ⟨hnr, hrank⟩ := residual_exists hr
  obtain ⟨rtext', e3, e4⟩ := TF.Residual.file_fileText hnr hrank
  obtain rfl : rtext = rtext' := by rw [hr] at e3; injection e3
  refine ⟨_, _, e2, e4, fun env A N h t dt w ε => ⟨.list (pathLists A N n env.res.fl), ?_, fun k h1 h4 hk => ?_⟩⟩
  · have hoe : (moduleAst n).any importsOe = true := by
      unfold moduleAst
      simp only [List.any_append]
      have : importAst.any importsOe = true := by decide
      simp only [this, Bool.true_or]
    rw [callPathsWith, if_pos hoe, call_masterPaths hn (isTruncation env.res) 0 []]
    rfl
  · have hres := call_residual (rank := rank) hnr hrank h4 env.res A N h w
    rw [← solverName_opt_eq k (by omega) h1, ← solverName_eq k (by omega) h1]
    constructor
    · intro hfl
      rw [callArrayWithS_returns (call_solver_opt (t := t) (dt := dt) (ε := ε) hn h1 hk 0 hres fun hf j j1 jk => ?_),
        callArrayWith_returns (call_solver (t := t) (dt := dt) (ε := ε) hn h1 hk 0 hres)]
      by_cases e : j = k
      · rw [e, hf]
      · exact hfl hf j j1 (by omega)
    · rintro ⟨j, j1, jk, hj⟩
      obtain ⟨e, he⟩ := call_solver_bad (t := t) (dt := dt) (ε := ε) hn h1 hk 0 hres j1 jk hj
      refine ⟨e, ?_⟩
      unfold callArrayWithS
      rw [if_pos (imports_numpy n), he]

/-- **C91** The optimised function returns an array exactly when the other function does and the truncation contains all ranks up to the order; it is the same array. -/
theorem dt_text_optimized_iff {n nr rank : Nat} {text rtext : List Char} (h : fileText n = .ok text) (hr : TF.Residual.fileText nr rank = .ok rtext) :
    ∃ source rsource, Spec.Source.file text = some source ∧ Spec.Source.file rtext = some rsource ∧
      ∀ (env : Spec.Dt.Env) (A N : Nat) (h : Nat × Nat → Arr R) (t dt w : Nat → Arr R) (ε : Arr R), ∃ paths : Val R,
        callPathsWith (callModule "residual_equations".toList rsource 1) source 3 "compute_optimized_paths".toList [.num A, .num N, truncation env.res] = .ok paths ∧
        ∀ k, 1 ≤ k → k ≤ 4 → k ≤ n → ∀ x,
          callArrayWithS (callModule "residual_equations".toList rsource 1) source 3 (solveName k ++ "_optimized").toList (inputs A N env h t dt w ε ++ [paths]) = .ok x ↔
            callArrayWith (callModule "residual_equations".toList rsource 1) source 3 (solveName k).toList (inputs A N env h t dt w ε) = .ok x ∧ ∀ j, 1 ≤ j → j ≤ k → env.res.fl j = true := by
  obtain ⟨source, rsource, e1, e2, e3⟩ := dt_text_optimized (R := R) h hr
  refine ⟨source, rsource, e1, e2, fun env A N h t dt w ε => ?_⟩
  obtain ⟨paths, p1, p2⟩ := e3 env A N h t dt w ε
  refine ⟨paths, p1, fun k h1 h4 hk x => ?_⟩
  obtain ⟨c1, c2⟩ := p2 k h1 h4 hk
  by_cases hc : ∀ j, 1 ≤ j → j ≤ k → env.res.fl j = true
  · rw [c1 fun _ j j1 j2 => hc j j1 (by omega)]
    exact ⟨fun e => ⟨e, hc⟩, fun e => e.1⟩
  · have : ∃ j, 1 ≤ j ∧ j ≤ k ∧ env.res.fl j = false := by
      by_contra hj
      refine hc fun j j1 jk => ?_
      by_contra hf
      exact hj ⟨j, j1, jk, by simpa using hf⟩
    obtain ⟨e, he⟩ := c2 this
    rw [he]
    exact ⟨fun e => by simp at e, fun e => absurd e.2 hc⟩

/-- a truncation with doubles and without singles -/
def onlyDoubles : Spec.Dt.Env := ⟨false, true, false, 6, 6, ⟨true, fun j => decide (j = 2), fun _ => true, 6⟩⟩

/-- **C91** The functions differ: for the doubles of a truncation without singles the function that is not optimised returns an array, for all arrays, and the optimised function raises an
exception. -/
theorem dt_text_optimized_differs (A N : Nat) (h : Nat × Nat → Arr R) (t dt w : Nat → Arr R) (ε : Arr R) :
    ∃ text rtext source rsource, fileText 2 = .ok text ∧ TF.Residual.fileText 2 1 = .ok rtext ∧ Spec.Source.file text = some source ∧ Spec.Source.file rtext = some rsource ∧ ∃ paths : Val R,
      callPathsWith (callModule "residual_equations".toList rsource 1) source 3 "compute_optimized_paths".toList [.num A, .num N, truncation onlyDoubles.res] = .ok paths ∧
      (∃ x, callArrayWith (callModule "residual_equations".toList rsource 1) source 3 "solve_doubles_equations".toList (inputs A N onlyDoubles h t dt w ε) = .ok x) ∧
      ∃ e, callArrayWithS (callModule "residual_equations".toList rsource 1) source 3 "solve_doubles_equations_optimized".toList (inputs A N onlyDoubles h t dt w ε ++ [paths]) = .error e := by
  obtain ⟨fns, hfns⟩ := (TF.Residual.residual_module_iff 2 1).2 ⟨by decide, by decide⟩
  obtain ⟨text, source, rtext, rsource, e1, e2, e3, e4, e5⟩ := dt_text_runs (R := R) (dtModule_eq 2 (by decide)) hfns
  obtain ⟨source', rsource', f1, f2, f3⟩ := dt_text_optimized (R := R) e1 e3
  obtain rfl : source = source' := by rw [e2] at f1; injection f1
  obtain rfl : rsource = rsource' := by rw [e4] at f2; injection f2
  obtain ⟨paths, p1, p2⟩ := f3 onlyDoubles A N h t dt w ε
  refine ⟨text, rtext, source, rsource, e1, e3, e2, e4, paths, p1, ?_, (p2 2 (by decide) (by decide) (by decide)).2 ⟨1, by decide, by decide, by decide⟩⟩
  have key := e5 2 (by decide) (by decide) (by decide) onlyDoubles A N h t dt w ε
  rw [TF.Residual.residualModule_eq 2 1 (by decide) (by decide)] at hfns
  injection hfns with hfns
  subst hfns
  have hs : ∃ r, runSolver DEinsum.ts onlyDoubles ((List.range (2 + 1)).map (TF.Residual.fnAt 1)) (dtModuleOf 2).linked (dtModuleOf 2).unlinked (dtModuleOf 2).fns (dtModuleOf 2).solvers 2 = .ok r := by
    refine (dt_run_ok_iff 2 _ (dtModule_eq 2 (by decide)) 2 (by decide) (by decide) onlyDoubles _).2 ⟨by decide, by decide, by decide, fun _ => by decide, ?_⟩
    have : ((runResidual onlyDoubles.res ((List.range (2 + 1)).map (TF.Residual.fnAt 1)) 2).toOption).isSome = true := by decide +kernel
    cases hr : runResidual onlyDoubles.res ((List.range (2 + 1)).map (TF.Residual.fnAt 1)) 2 with
    | error e => rw [hr] at this; cases this
    | ok r => exact ⟨r, rfl⟩
  obtain ⟨r, hs⟩ := hs
  rw [hs] at key
  exact ⟨_, key⟩

/-- The hypotheses can be met: the files up to order 4 and a truncation with the ranks up to 4. -/
example : ∃ text rtext, fileText 4 = .ok text ∧ TF.Residual.fileText 4 2 = .ok rtext ∧ ∃ env : Spec.Dt.Env, ∀ j, 1 ≤ j → j ≤ 4 → env.res.fl j = true := by
  obtain ⟨text, h⟩ := (dt_text_exists 4).2 (by decide)
  obtain ⟨rtext, hr, _⟩ := TF.Residual.file_fileText (n := 4) (r := 2) (by decide) (by decide)
  exact ⟨text, rtext, h, hr, ⟨false, true, false, 6, 6, ⟨true, fun j => decide (j ≤ 4), fun _ => true, 6⟩⟩, fun j _ h => by simpa using h⟩

end TF.Dt
