import Verif.Lemmas.DtSourceCall
import Verif.Lemmas.DtSourceFile
import Verif.Props.ResidualText
import Verif.Props.WText

/-!
# Properties of the text of the generated module of the amplitude derivatives

C87: the texts of the files written by `generate_w_operator_equations_file`, `generate_residual_equations_file` and `generate_dt_amplitude_equations_file`,
read as Python and executed together, solve the equation of motion.
-/

namespace TF.Dt

open TF.Py TF.Helper TF.W TF.Spec TF.Spec.PyRun TF.Spec.Tensor TF.Spec.DtCall TF.Spec.Dt
open TF.Spec.ResidualCall (tensor wOperator)
open TF.Spec.WCall (attempted callTuple)

variable {R : Type} [CommRing R] [Algebra Rat R]

/-- the name of the function of order `k` -/
def solveName (k : Nat) : String :=
  "solve_" ++ (["singles", "doubles", "triples", "quadruples", "quintuples", "sextuples"][k - 1]?).getD "" ++ "_equations"

theorem solverName_eq : ∀ k ≤ 6, 1 ≤ k → solverName false k = solveName k := by decide +kernel

/-- the file exists exactly for the maximum orders up to 6 -/
theorem dt_text_exists (n : Nat) : (∃ text, fileText n = .ok text) ↔ n ≤ 6 := by
  constructor
  · rintro ⟨text, h⟩
    refine (dt_module_iff n).1 ?_
    unfold fileText at h
    cases hm : dtModule n with
    | error e => rw [hm] at h; cases h
    | ok m => exact ⟨m, rfl⟩
  · intro hn
    obtain ⟨text, h, _⟩ := file_fileText hn
    exact ⟨text, h⟩

/-! ## The residual function, called from the other module -/

theorem undotted_take {m f : List Char} : (m ++ '.' :: f).take (m.length + 1) = m ++ ['.'] ∧ (m ++ '.' :: f).drop (m.length + 1) = f := by
  constructor
  · rw [List.take_append, List.take_of_length_le (by omega), Nat.add_sub_cancel_left]
    rfl
  · rw [List.drop_append, List.drop_of_length_le (by omega), Nat.add_sub_cancel_left]
    rfl

theorem call_residual {nr rank k : Nat} (hnr : nr ≤ 6) (hr : rank ≤ 2) (hk : k ≤ 4) (env : Spec.Residual.Env) (A N : Nat) (h : Nat × Nat → Arr R) (w : Nat → Arr R) :
    callModule (R := R) "residual_equations".toList (TF.Residual.importAst ++ ((List.range (nr + 1)).map (TF.Residual.fnAt rank)).map TF.Residual.fnAst) 1
        ("residual_equations".toList ++ '.' :: (residualName k).toList) (Spec.ResidualCall.inputs A N env h w) [] =
      (runResidual env ((List.range (nr + 1)).map (TF.Residual.fnAt rank)) k).map fun ls => (.ref 0, [tensor A N k (residualValue A N h w ls)]) := by
  have e : (residualName k).toList = (TF.Residual.fnName k).toList := rfl
  unfold callModule
  rw [if_pos undotted_take.1, undotted_take.2, e]
  by_cases hkn : k ≤ nr
  · rw [TF.Residual.lookup_file hkn]
    simp only [TF.Residual.imports_numpy, if_true]
    rw [TF.Residual.call_fn hr hk hkn]
    unfold runResidual
    rw [TF.Residual.getElem_module hkn]
  · rw [TF.Residual.lookup_missing (by omega)]
    unfold runResidual
    rw [List.getElem?_eq_none (by simp; omega)]
    rfl

/-- **C87.** Whenever the module of the derivatives and the residual module exist, their files are Python source (of the fragment in `Verif.Spec.Source`), and
executing `solve_.._equations` of order `k ≤ 4`, which calls the functions of both files, returns the array of C74, or raises the exception of C51. -/
theorem dt_text_runs {n nr rank : Nat} {m : DtModule} {fns : List TF.Residual.Fn} (hm : dtModule n = .ok m) (hf : TF.Residual.residualModule nr rank = .ok fns) :
    ∃ text source rtext rsource, fileText n = .ok text ∧ Spec.Source.file text = some source ∧
      TF.Residual.fileText nr rank = .ok rtext ∧ Spec.Source.file rtext = some rsource ∧
      ∀ k, 1 ≤ k → k ≤ 4 → k ≤ n → ∀ (env : Spec.Dt.Env) (A N : Nat) (h : Nat × Nat → Arr R) (t dt w : Nat → Arr R) (ε : Arr R),
        callArrayWith (callModule "residual_equations".toList rsource 1) source 3 (solveName k).toList (inputs A N env h t dt w ε) =
          (runSolver DEinsum.ts env fns m.linked m.unlinked m.fns m.solvers k).map fun r => ⟨A :: A :: List.replicate k N, returned A N h t dt w ε r⟩ := by
  obtain ⟨hnr, hr⟩ := (TF.Residual.residual_module_iff nr rank).1 ⟨fns, hf⟩
  have hn := (dt_module_iff n).1 ⟨m, hm⟩
  obtain ⟨rtext, e3, e4⟩ := TF.Residual.file_fileText hnr hr
  obtain ⟨text, e1, e2⟩ := file_fileText hn
  refine ⟨text, _, rtext, _, e1, e2, e3, e4, fun k h1 h4 hk env A N h t dt w ε => ?_⟩
  rw [dtModule_eq n hn] at hm
  injection hm with hm
  subst hm
  rw [TF.Residual.residualModule_eq nr rank hnr hr] at hf
  injection hf with hf
  subst hf
  have key := call_solver (t := t) (dt := dt) (ε := ε) hn h1 hk 0 (call_residual hnr hr h4 env.res A N h w)
  have hi : (moduleAst n).any importsNumpy = true := by
    unfold moduleAst
    simp only [List.any_append, show importAst.any importsNumpy = true from rfl, Bool.true_or]
  rw [← solverName_eq k (by omega) h1]
  unfold callArrayWith
  rw [if_pos hi]
  cases hs : runSolver DEinsum.ts env ((List.range (nr + 1)).map (TF.Residual.fnAt rank)) ((range2 1 (n + 1)).map (linkedAt mkDs)) ((range2 1 (n + 1)).map (unlinkedAt mkDs))
      ((range2 1 (n + 1)).map dtFnAt) (range2 1 (n + 1)) k with
  | error e =>
    rw [hs] at key
    have key : callWith _ (moduleAst n) 3 (solverName false k).toList (inputs A N env h t dt w ε) [] = .error e := key
    rw [key, show runSolver DEinsum.ts env _ (dtModuleOf n).linked (dtModuleOf n).unlinked (dtModuleOf n).fns (dtModuleOf n).solvers k = .error e from hs]
    rfl
  | ok r =>
    rw [hs] at key
    obtain ⟨heap, key⟩ := key
    rw [key, show runSolver DEinsum.ts env _ (dtModuleOf n).linked (dtModuleOf n).unlinked (dtModuleOf n).fns (dtModuleOf n).solvers k = .ok r from hs]
    rfl

/-- **C87.** The call returns an array exactly when: the truncation contains the rank; enough W operators are passed, and that of order `k` is there; unless the ansatz
has no disconnected terms of the order, the amplitudes and the derivatives of the lower orders are passed; and the residual function returns an array. -/
theorem dt_text_returns_iff {n nr rank : Nat} {m : DtModule} {fns : List TF.Residual.Fn} (hm : dtModule n = .ok m) (hf : TF.Residual.residualModule nr rank = .ok fns) :
    ∃ text source rtext rsource, fileText n = .ok text ∧ Spec.Source.file text = some source ∧
      TF.Residual.fileText nr rank = .ok rtext ∧ Spec.Source.file rtext = some rsource ∧
      ∀ k, 1 ≤ k → k ≤ 4 → k ≤ n → ∀ (env : Spec.Dt.Env) (A N : Nat) (h : Nat × Nat → Arr R) (t dt w : Nat → Arr R) (ε : Arr R),
        (∃ x, callArrayWith (callModule "residual_equations".toList rsource 1) source 3 (solveName k).toList (inputs A N env h t dt w ε) = .ok x) ↔
          env.res.fl k = true ∧ k ≤ env.res.wlen ∧ env.res.present k = true ∧
          (env.veci = false ∧ (env.mixed = true ∨ env.cc = true) ∧ 2 ≤ k → k - 1 ≤ env.tlen ∧ k - 1 ≤ env.dtlen) ∧
          ∃ x, callModule (R := R) "residual_equations".toList rsource 1 ("residual_equations.calculate_order_" ++ toString k ++ "_residual").toList
            (Spec.ResidualCall.inputs A N env.res h w) [] = .ok x := by
  obtain ⟨hnr, hr⟩ := (TF.Residual.residual_module_iff nr rank).1 ⟨fns, hf⟩
  obtain ⟨text, source, rtext, rsource, e1, e2, e3, e4, e5⟩ := dt_text_runs (R := R) hm hf
  refine ⟨text, source, rtext, rsource, e1, e2, e3, e4, fun k h1 h4 hk env A N h t dt w ε => ?_⟩
  obtain ⟨rtext', e3', e4'⟩ := TF.Residual.file_fileText hnr hr
  obtain rfl : rtext = rtext' := by rw [e3] at e3'; injection e3'
  have hrs : rsource = _ := Option.some.inj (e4.symm.trans e4')
  have hname : ("residual_equations.calculate_order_" ++ toString k ++ "_residual").toList = "residual_equations".toList ++ '.' :: (residualName k).toList := by
    unfold residualName
    simp only [String.toList_append, List.append_assoc]
    rfl
  rw [hname, hrs, call_residual hnr hr h4, ← hrs, e5 k h1 h4 hk]
  rw [TF.Residual.residualModule_eq nr rank hnr hr] at hf
  injection hf with hf
  rw [hf]
  have e6 : (∃ x, (runSolver DEinsum.ts env fns m.linked m.unlinked m.fns m.solvers k).map (fun r => (⟨A :: A :: List.replicate k N, returned A N h t dt w ε r⟩ : NArr R)) = .ok x) ↔
      ∃ r, runSolver DEinsum.ts env fns m.linked m.unlinked m.fns m.solvers k = .ok r := by
    cases runSolver DEinsum.ts env fns m.linked m.unlinked m.fns m.solvers k <;> simp [Except.map]
  have e7 : (∃ x, (runResidual env.res fns k).map (fun ls => ((.ref 0, [tensor A N k (residualValue A N h w ls)]) : Val R × List (NArr R))) = .ok x) ↔
      ∃ r, runResidual env.res fns k = .ok r := by
    cases runResidual env.res fns k <;> simp [Except.map]
  rw [e6, e7]
  exact dt_run_ok_iff n m hm k h1 hk env fns

/-! ## The three files together -/

theorem passed_eq {A N : Nat} {env : Spec.Dt.Env} {W : Nat → Arr R} {c : Nat} (hc : c ≤ 6) (hw : env.res.wlen = 6) (hp : ∀ j, env.res.present j = decide (j ∈ (List.range c).map (· + 1))) :
    passed (((List.range c).map fun i => some (tensor A N (i + 1) (W (i + 1)))) ++ List.replicate (6 - c) none) = wOperators A N env W := by
  unfold passed wOperators
  rw [hw]
  congr 1
  refine List.ext_getElem (by simp; omega) fun i h1 h2 => ?_
  simp only [List.map_append, List.map_map, List.map_replicate, List.getElem_map, List.getElem_range, wOperator, hp]
  by_cases hi : i < c
  · rw [List.getElem_append_left (by simpa using hi), if_pos (by simp; omega)]
    simp
  · rw [List.getElem_append_right (by simpa using hi), if_neg (by simp; omega)]
    simp

theorem attempted_le (fl : Nat → Bool) : attempted fl ≤ 6 := by
  unfold attempted
  split_ifs <;> omega

/-- **C87.** The files of the three generators together, for every order up to 4 and every truncation with all ranks up to the order.  `compute_w_operators` of
the first file returns the W operators `W`; `solve_.._equations` of the third file, called with them, calls the residual function of the second file and returns an array.
For every derivation `D` - the derivative with respect to the time - for which the derivatives of the lower orders were passed, this array is the derivative of the
amplitude of order `k` exactly when `D W_k = sum (h^m_n W)_k - W_k epsilon`, the sum over the terms of the Hamiltonian - without `h^2_0` in the orders 2 and 3. -/
theorem text_equation_of_motion {nw nr rank n : Nat} (hnw : nw ≤ 6) (hnr : nr ≤ 6) (hrank : rank ≤ 2) (hn : n ≤ 6)
    (veci mixed cc : Bool) (hve : veci = true → mixed = false ∧ cc = false) (q : Bool) (fl : Nat → Bool) (tlen dtlen : Nat)
    {k : Nat} (hk1 : 1 ≤ k) (hk4 : k ≤ 4) (hkn : k ≤ n) (hkr : k ≤ nr) (hfl : ∀ j, 1 ≤ j → j ≤ k → fl j = true)
    (h5 : ¬ (fl 2 = true ∧ fl 3 = true ∧ fl 4 = true ∧ fl 5 = true)) (hcw : attempted fl ≤ nw) (hct : attempted fl ≤ tlen) (hdt : k - 1 ≤ dtlen)
    (D : R →ₗ[Rat] R) (hD : ∀ x y, D (x * y) = D x * y + x * D y) (A N : Nat) (h : Nat × Nat → Arr R) (hh : ∀ m n, UpperSymmetric m n (h (m, n)))
    (t : Nat → Arr R) (ht : ModeSymmetric k (t k)) (ε : Arr R) :
    ∃ wtext wsource rtext rsource text source, TF.W.fileText nw = .ok wtext ∧ Spec.Source.file wtext = some wsource ∧
      TF.Residual.fileText nr rank = .ok rtext ∧ Spec.Source.file rtext = some rsource ∧ fileText n = .ok text ∧ Spec.Source.file text = some source ∧
    ∃ (W : Nat → Arr R) (ws : List (Option (NArr R))) (x : NArr R),
      callTuple wsource 3 "compute_w_operators".toList (Spec.WCall.inputs A N ⟨mixed, cc, fl, tlen⟩ t) = .ok ws ∧
      (∀ j, 1 ≤ j → j ≤ attempted fl → ws[j - 1]? = some (some ⟨A :: A :: List.replicate j N, W j⟩)) ∧
      callArrayWith (callModule "residual_equations".toList rsource 1) source 3 (solveName k).toList
        (arguments A N ⟨veci, mixed, cc, tlen, dtlen, Spec.Residual.afterW q fl ((List.range (attempted fl)).map (· + 1))⟩ h t (fun j v => D (t j v)) ε (passed ws)) = .ok x ∧
      x.shape = A :: A :: List.replicate k N ∧
      ∀ (a b : Fin A) (v : Fin k → Nat), x.get (a.val :: b.val :: List.ofFn v) = D (t k (a.val :: b.val :: List.ofFn v)) ↔
        D (W k (a.val :: b.val :: List.ofFn v)) =
          ∑ o ∈ (hamiltonianTerms rank q).filter (fun o => ¬ (o = (2, 0) ∧ (k = 2 ∨ k = 3))),
            hamW A N (h o) (withIdentity W (k - o.1 + o.2)) o.1 o.2 v a b -
          (mat A (W k) (List.ofFn v) * mat A ε []) a b := by
  obtain ⟨wtext, ew1⟩ := (TF.W.w_text_exists nw).2 hnw
  obtain ⟨wsource, ew2, ew3⟩ := TF.W.w_text_result (R := R) ew1
  obtain ⟨fns, hfns⟩ := (TF.Residual.residual_module_iff nr rank).2 ⟨hnr, hrank⟩
  have hm := dtModule_eq n hn
  obtain ⟨text, source, rtext, rsource, e1, e2, e3, e4, e5⟩ := dt_text_runs (R := R) hm hfns
  have hmw := wModule_eq nw hnw
  have h1 : fl 1 = true := hfl 1 (by omega) (by omega)
  have hr : Spec.W.runMaster Einsum.ts ⟨mixed, cc, fl, tlen⟩ (moduleOf nw).vemx (moduleOf nw).vecc (moduleOf nw).fns (moduleOf nw).master =
      .ok ((List.range (attempted fl)).map fun i => (i + 1, veciDone ⟨mixed, cc, fl, tlen⟩ (i + 1), mixedDone mkE ⟨mixed, cc, fl, tlen⟩ (i + 1), ccDone mkE ⟨mixed, cc, fl, tlen⟩ (i + 1))) := by
    unfold Spec.W.runMaster
    rw [show (moduleOf nw).master = master nw from rfl, show Spec.W.masterOrders (master nw) _ = _ from TF.W.masterOrders_attempted h1 h5]
    have := TF.W.orders_range nw ⟨mixed, cc, fl, tlen⟩ (attempted fl)
    rw [if_neg (by show ¬ (_ ∧ nw ≤ tlen); omega), if_neg (by show ¬ tlen < _; omega)] at this
    exact this
  generalize hrr : ((List.range (attempted fl)).map fun i => (i + 1, veciDone ⟨mixed, cc, fl, tlen⟩ (i + 1), mixedDone mkE ⟨mixed, cc, fl, tlen⟩ (i + 1),
    ccDone mkE ⟨mixed, cc, fl, tlen⟩ (i + 1))) = r at hr
  have hfst : r.map Prod.fst = (List.range (attempted fl)).map (· + 1) := by
    rw [← hrr, List.map_map]
    rfl
  let W : Nat → Arr R := fun j => Spec.W.returned (fnOf j) (TF.W.addedAt A N ⟨mixed, cc, fl, tlen⟩ t j)
  let env : Spec.Dt.Env := ⟨veci, mixed, cc, tlen, dtlen, Spec.Residual.afterW q fl (r.map Prod.fst)⟩
  have horders := (w_run_correct nw _ hmw _ r hr).1
  have hpres := TF.Residual.afterW_present nw _ hmw q fl _ horders
  have hp : (Spec.Residual.afterW q fl (r.map Prod.fst)).present k = true := by
    rw [hpres]
    obtain rfl | rfl | rfl | rfl : k = 1 ∨ k = 2 ∨ k = 3 ∨ k = 4 := by omega
    · simp
    · simp
    · simp
    · simp [hfl 2 (by omega) (by omega)]
  have hwk : ∀ j a b c f, (j, a, b, c) ∈ r → (moduleOf nw).fns[j - 1]? = some f → W j = Spec.W.returned f (Spec.W.added A N t (a ++ b ++ c)) := by
    intro j a b c f hmem hf
    rw [← hrr] at hmem
    obtain ⟨i, hi, he⟩ := List.mem_map.1 hmem
    have hi := List.mem_range.1 hi
    simp only [Prod.mk.injEq] at he
    obtain ⟨rfl, rfl, rfl, rfl⟩ := he
    have : (moduleOf nw).fns[i + 1 - 1]? = some (fnOf (i + 1)) := fnOf_get (by omega) (by omega)
    rw [this] at hf
    rw [← Option.some.inj hf]
    rfl
  have hsym : ∀ j, 1 ≤ j → (Spec.Residual.afterW q fl (r.map Prod.fst)).present j = true → ModeSymmetric j (W j) := fun j _ _ => returned_symmetric _
  obtain ⟨ls, hls, _⟩ := residual_value nr rank k fns hfns hk4 hkr (Spec.Residual.afterW q fl (r.map Prod.fst)) (by show k + 2 ≤ 6; omega)
    (hfl (max k 1) (by omega) (by omega)) ((hpres 1).2 (.inl rfl)) A N h hh W hsym
  have hka : k ≤ attempted fl := by
    have : k ∈ (List.range (attempted fl)).map (· + 1) := by
      rw [← hfst]
      simpa [Spec.Residual.afterW] using hp
    obtain ⟨i, hi, rfl⟩ := List.mem_map.1 this
    have := List.mem_range.1 hi
    omega
  obtain ⟨Q, hQ⟩ := (dt_run_ok_iff n _ hm k hk1 hkn env fns).2 ⟨hfl k hk1 (le_refl k), by show k ≤ 6; omega, hp, fun _ => ⟨by show k - 1 ≤ tlen; omega, hdt⟩, ls, hls⟩
  refine ⟨wtext, wsource, rtext, rsource, text, source, ew1, ew2, e3, e4, e1, e2, W, TF.W.returnedAt A N ⟨mixed, cc, fl, tlen⟩ t (attempted fl),
    ⟨A :: A :: List.replicate k N, returned A N h t (fun j v => D (t j v)) W ε Q⟩, ?_, ?_, ?_, rfl, ?_⟩
  · rw [ew3]
    show (if fl 1 = false then _ else _) = _
    rw [h1, if_neg (by simp), if_neg (by show ¬ (nw < attempted fl ∧ nw ≤ tlen); omega), if_neg (by show ¬ tlen < attempted fl; omega), if_neg h5]
  · intro j hj1 hj2
    unfold TF.W.returnedAt
    rw [List.getElem?_append_left (by simp; omega), List.getElem?_map, List.getElem?_range (by omega)]
    simp only [Option.map_some]
    rw [show j - 1 + 1 = j by omega]
    rfl
  · have e6 : passed (TF.W.returnedAt A N ⟨mixed, cc, fl, tlen⟩ t (attempted fl)) = wOperators A N env W :=
      passed_eq (A := A) (N := N) (env := env) (W := W) (attempted_le fl) rfl fun j => by rw [← hfst]; rfl
    rw [e6, ← hfst]
    refine (e5 k hk1 hk4 hkn env A N h t (fun j v => D (t j v)) W ε).trans ?_
    rw [hQ]
    rfl
  · intro a b v
    exact equation_of_motion nw _ hmw nr rank fns hfns n _ hm veci mixed cc hve q fl tlen tlen dtlen r hr k hk1 hk4 hkn hkr hfl Q hQ D hD A N h hh t W ε ht hwk a b v

/-- The hypotheses are met: six orders in every file, coupled cluster with singles and doubles, order 2, a quadratic Hamiltonian, polynomials in the time as numbers. -/
example : ∃ (fl : Nat → Bool) (h : Nat × Nat → Arr (Polynomial Rat)) (t : Nat → Arr (Polynomial Rat)),
    (∀ j, 1 ≤ j → j ≤ 2 → fl j = true) ∧ ¬ (fl 2 = true ∧ fl 3 = true ∧ fl 4 = true ∧ fl 5 = true) ∧ attempted fl = 4 ∧
    (∀ x y : Polynomial Rat, Polynomial.derivative (x * y) = Polynomial.derivative x * y + x * Polynomial.derivative y) ∧
    (∀ m n, UpperSymmetric m n (h (m, n))) ∧ ModeSymmetric 2 (t 2) ∧
    (hamiltonianTerms 2 true).filter (fun o => ¬ (o = (2, 0) ∧ (2 = 2 ∨ 2 = 3))) = {(0, 0), (0, 1), (1, 0), (0, 2), (1, 1)} := by
  refine ⟨fun j => decide (j ≤ 2), fun o v => Polynomial.X ^ (o.1 + v.sum), fun j v => Polynomial.X ^ (j + v.sum), by decide +revert, by decide, rfl,
    fun x y => Polynomial.derivative_mul, ?_, ?_, by decide⟩
  · intro m n a b K I I' _ _ h
    simp [h.sum_eq]
  · intro a b l l' _ h
    simp [h.sum_eq]

end TF.Dt
