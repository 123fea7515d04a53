import Verif.Lemmas.WIterMaster
import Verif.Props.WText

/-!
# C90: the optimised functions of the text of a generated W module
-/

namespace TF.W

set_option maxRecDepth 10000

open TF.Spec TF.Spec.W TF.Spec.PyRun TF.Spec.PyIter TF.Spec.Tensor TF.Spec.WCall TF.Spec.WIter

variable {R : Type} [CommRing R] [Algebra Rat R]

/-- **C90** Read and executed as Python, the functions of the text that make the optimised expressions succeed for every truncation, and the optimised function for all orders,
called with the lists they return, gives for all arguments what the other function gives: the same arrays or the same exception. -/
theorem w_text_optimized {n : Nat} {text : List Char} (h : fileText n = .ok text) :
    ∃ source, Spec.Source.file text = some source ∧ ∀ (A N : Nat) (env : Spec.W.Env) (t : Nat → Arr R), ∃ paths1 paths2 : Val R,
      callPaths source 2 "compute_optimized_vemx_paths".toList [.num A, .num N, truncation env] = .ok paths1 ∧
      callPaths source 2 "compute_optimized_vecc_paths".toList [.num A, .num N, truncation env] = .ok paths2 ∧
      callTupleS source 3 "compute_w_operators_optimized".toList (inputs A N env t ++ [paths1, paths2]) =
        callTuple source 3 "compute_w_operators".toList (inputs A N env t) := by
  have hn := (w_text_exists n).1 ⟨text, h⟩
  obtain ⟨text', h1, h2⟩ := file_fileText hn
  obtain rfl : text = text' := by rw [h] at h1; injection h1
  refine ⟨_, h2, fun A N env t => ?_⟩
  have hoe : (moduleAst n).any importsOe = true := by
    unfold moduleAst
    simp only [List.any_append]
    have : importAst.any importsOe = true := by decide
    simp only [this, Bool.true_or]
  have e1 : "compute_optimized_vemx_paths".toList = (pathsName .vemx).toList := by decide
  have e2 : "compute_optimized_vecc_paths".toList = (pathsName .vecc).toList := by decide
  have e3 : "compute_w_operators_optimized".toList = (masterName true).toList := by decide
  have e4 : "compute_w_operators".toList = (masterName false).toList := by decide
  obtain ⟨L2, hL2⟩ : ∃ l, (if env.fl 2 then listsVal (R := R) A N env.fl 3 (veccPathsOf n).lists else .list (List.replicate 6 (.list []))) = .list l := by
    cases env.fl 2 <;> exact ⟨_, rfl⟩
  obtain ⟨L1, hL1⟩ : ∃ l, listsVal (R := R) A N env.fl 1 (vemxPathsOf n).lists = .list l := ⟨_, rfl⟩
  refine ⟨.list L1, .list L2, ?_, ?_, ?_⟩
  · rw [e1, callPaths, if_pos hoe, call_paths_vemx hn, hL1]
    rfl
  · rw [e2, callPaths, if_pos hoe, call_paths_vecc hn, hL2]
    rfl
  · rw [e3, e4]
    refine call_master_same hn A N env t fun f1 => ⟨fun k hk1 hk => ?_, fun k hk1 hk h3 => ?_⟩
    · obtain ⟨l, hl, hg⟩ := listsVal_vemx (R := R) (A := A) (N := N) hn f1 hk1 hk
      rw [hL1] at hl
      injection hl with hl
      rw [hl]
      exact hg
    · obtain ⟨l, hl, hg⟩ := listsVal_vecc (R := R) (A := A) (N := N) hn f1 hk1 hk h3
      rw [hL2] at hl
      injection hl with hl
      rw [hl]
      exact hg

open Classical in
/-- **C90** with the values: the entries of the tuple of the optimised function are the sums over the ways to distribute the modes over amplitudes. -/
theorem w_text_optimized_value {n : Nat} {text : List Char} (h : fileText n = .ok text) (env : Spec.W.Env) (h1 : env.fl 1 = true)
    (h5 : ¬ (env.fl 2 = true ∧ env.fl 3 = true ∧ env.fl 4 = true ∧ env.fl 5 = true)) (hcn : attempted env.fl ≤ n) (hct : attempted env.fl ≤ env.tlen)
    (A N : Nat) (t : Nat → Arr R) :
    ∃ source, Spec.Source.file text = some source ∧ ∃ (W : Nat → Arr R) (paths1 paths2 : Val R),
      callPaths source 2 "compute_optimized_vemx_paths".toList [.num A, .num N, truncation env] = .ok paths1 ∧
      callPaths source 2 "compute_optimized_vecc_paths".toList [.num A, .num N, truncation env] = .ok paths2 ∧
      callTupleS source 3 "compute_w_operators_optimized".toList (inputs A N env t ++ [paths1, paths2]) =
        .ok (((List.range (attempted env.fl)).map fun i => some ⟨A :: A :: List.replicate (i + 1) N, W (i + 1)⟩) ++ List.replicate (6 - attempted env.fl) none) ∧
      ((∀ j, ModeSymmetric j (t j)) → ∀ k, 1 ≤ k → k ≤ attempted env.fl → ∀ (x y : Fin A) (v : Fin k → Nat),
        W k (x.val :: y.val :: List.ofFn v) =
          ∑ m ∈ Finset.range (k + 1), (1 / (m.factorial : Rat)) •
            ∑ g ∈ Finset.univ.filter (fun g : Fin k → Fin m => Enters env (sizes g)),
              (List.ofFn fun j => mat A (t (block v g j).length) (block v g j)).prod x y) := by
  obtain ⟨source, e1, W, e2, e3⟩ := w_text h env h1 h5 hcn hct A N t
  obtain ⟨source', f1, f2⟩ := w_text_optimized (R := R) h
  obtain rfl : source = source' := by rw [e1] at f1; injection f1
  obtain ⟨p1, p2, g1, g2, g3⟩ := f2 A N env t
  exact ⟨source, e1, W, p1, p2, g1, g2, g3.trans e2, e3⟩

/-- The hypotheses can be met: the module up to order 6, for a truncation with singles, doubles and triples. -/
example : ∃ text, fileText 6 = .ok text ∧ ∃ env : Spec.W.Env, env.fl 1 = true ∧ env.fl 2 = true ∧ env.fl 3 = true ∧ env.fl 4 = false ∧ attempted env.fl = 5 ∧ attempted env.fl ≤ env.tlen := by
  obtain ⟨text, h⟩ := (w_text_exists 6).2 (by omega)
  exact ⟨text, h, ⟨⟨false, true, fun n => decide (n ≤ 3), 6⟩, by decide, by decide, by decide, by decide, by decide, by decide⟩⟩

end TF.W
