import Verif.Lemmas.WSourceMaster
import Verif.Props.WValue

/-!
# Properties of the text of the generated W module

C86: the text of the file written by `generate_w_operator_equations_file`, read as Python and executed, computes the W operators.
-/

namespace TF.W

open TF.Py TF.Helper TF.Spec.W TF.Spec.Tensor TF.Spec.PyRun TF.Spec.WCall

variable {R : Type} [CommRing R] [Algebra Rat R]

theorem collect_snoc {β : Type} (x : Except PyErr β) : ∀ l : List (Except PyErr β), collect (l ++ [x]) =
    match collect l with
    | .error e => .error e
    | .ok r => match x with
      | .error e => .error e
      | .ok y => .ok (r ++ [y])
  | [] => by cases x <;> rfl
  | .error e :: l => rfl
  | .ok b :: l => by
    rw [List.cons_append, collect, collect, collect_snoc x l]
    cases collect l with
    | error e => rfl
    | ok r => cases x <;> rfl

theorem orders_range (n : Nat) (env : Spec.W.Env) : ∀ c, orders n env ((List.range c).map (· + 1)) =
    if n < c ∧ n ≤ env.tlen then .error .name else if env.tlen < c then .error .value
    else .ok ((List.range c).map fun i => (i + 1, veciDone env (i + 1), mixedDone mkE env (i + 1), ccDone mkE env (i + 1)))
  | 0 => by simp [orders, collect]
  | c + 1 => by
    have ih := orders_range n env c
    unfold orders at ih ⊢
    rw [List.range_succ, List.map_append, List.map_append, List.map_cons, List.map_nil, List.map_cons, List.map_nil, collect_snoc, ih, order_eq (by omega)]
    by_cases h1 : n < c ∧ n ≤ env.tlen
    · rw [if_pos h1]
      exact (if_pos (by omega)).symm
    · rw [if_neg h1]
      by_cases h2 : env.tlen < c
      · rw [if_pos h2]
        exact ((if_neg (by omega)).trans (if_pos (by omega))).symm
      · rw [if_neg h2]
        by_cases h3 : n < c + 1
        · simp only [if_pos h3]
          rw [if_pos (by omega)]
        · by_cases h4 : env.tlen < c + 1
          · simp only [if_neg h3, if_pos h4]
            rw [if_neg (by omega)]
          · simp only [if_neg h3, if_neg h4]
            rw [if_neg (by omega), List.map_append]
            rfl

/-- the file exists exactly for the maximum orders up to 6 -/
theorem w_text_exists (n : Nat) : (∃ text, fileText n = .ok text) ↔ n ≤ 6 := by
  constructor
  · rintro ⟨text, h⟩
    by_contra hn
    unfold fileText at h
    rw [(module_generated_iff n).2 (by omega)] at h
    cases h
  · intro hn
    obtain ⟨text, h, _⟩ := file_fileText hn
    exact ⟨text, h⟩

/-- the result of the call, for all arguments -/
theorem w_text_result {n : Nat} {text : List Char} (h : fileText n = .ok text) :
    ∃ source, Spec.Source.file text = some source ∧ ∀ (A N : Nat) (env : Spec.W.Env) (t : Nat → Arr R),
      callTuple source 3 "compute_w_operators".toList (inputs A N env t) =
        if env.fl 1 = false then .error .exception
        else if n < attempted env.fl ∧ n ≤ env.tlen then .error .name
        else if env.tlen < attempted env.fl then .error .value
        else if env.fl 2 = true ∧ env.fl 3 = true ∧ env.fl 4 = true ∧ env.fl 5 = true then .error .notImplemented
        else .ok (returnedAt A N env t (attempted env.fl)) := by
  have hn := (w_text_exists n).1 ⟨text, h⟩
  obtain ⟨text', h1, h2⟩ := file_fileText hn
  obtain rfl : text = text' := by rw [h] at h1; injection h1
  refine ⟨_, h2, fun A N env t => ?_⟩
  have e : "compute_w_operators".toList = (masterName false).toList := by decide
  rw [e, call_master hn, masterOrders_cases]
  have e3 : orders n env [1, 2, 3] = _ := orders_range n env 3
  have e4 : orders n env [1, 2, 3, 4] = _ := orders_range n env 4
  have e5 : orders n env [1, 2, 3, 4, 5] = _ := orders_range n env 5
  have e6 : orders n env [1, 2, 3, 4, 5, 6] = _ := orders_range n env 6
  cases f1 : env.fl 1 with
  | false => rfl
  | true =>
    cases f2 : env.fl 2 with
    | false =>
      simp only [attempted, f2, if_true, Bool.not_false, Bool.false_eq_true, if_false, false_and, e3, Bool.true_eq_false]
      split_ifs <;> rfl
    | true =>
      cases f3 : env.fl 3 with
      | false =>
        simp only [attempted, f2, f3, if_true, Bool.not_false, Bool.not_true, Bool.false_eq_true, if_false, false_and, and_false, e4, Bool.true_eq_false]
        split_ifs <;> rfl
      | true =>
        cases f4 : env.fl 4 with
        | false =>
          simp only [attempted, f2, f3, f4, if_true, Bool.not_false, Bool.not_true, Bool.false_eq_true, if_false, false_and, and_false, e5, Bool.true_eq_false]
          split_ifs <;> rfl
        | true =>
          cases f5 : env.fl 5 with
          | false =>
            simp only [attempted, f2, f3, f4, if_true, Bool.not_true, Bool.false_eq_true, if_false, and_false, e6, Bool.true_eq_false]
            split_ifs <;> rfl
          | true =>
            simp only [attempted, f2, f3, f4, if_true, Bool.not_true, Bool.false_eq_true, if_false, e6, Bool.true_eq_false, and_self]
            split_ifs <;> rfl

theorem masterOrders_attempted {n : Nat} {fl : Nat → Bool} (h1 : fl 1 = true) (h5 : ¬ (fl 2 = true ∧ fl 3 = true ∧ fl 4 = true ∧ fl 5 = true)) :
    masterOrders (master n) fl = .ok ((List.range (attempted fl)).map (· + 1)) := by
  rw [masterOrders_cases, h1, if_pos rfl]
  unfold attempted
  cases f2 : fl 2 with
  | false => rfl
  | true =>
    cases f3 : fl 3 with
    | false => rfl
    | true =>
      cases f4 : fl 4 with
      | false => rfl
      | true =>
        cases f5 : fl 5 with
        | false => rfl
        | true => exact absurd ⟨f2, f3, f4, f5⟩ h5

open Classical in
/-- **C86.** Whenever the file exists it is Python source (of the fragment in `Verif.Spec.Source`), and executing `compute_w_operators` of it returns a tuple of
six entries: the W operators of the orders `1, .., c` and `None`, where `c` is the number of orders of the truncation (`attempted`).  Entry `k` has the
shape `(A, A, N, .., N)` and is the sum over the ways to distribute its `k` modes over `m` amplitudes that enter (by the ansatz and by the truncation),
divided by `m!`. -/
theorem w_text {n : Nat} {text : List Char} (h : fileText n = .ok text) (env : Spec.W.Env) (h1 : env.fl 1 = true)
    (h5 : ¬ (env.fl 2 = true ∧ env.fl 3 = true ∧ env.fl 4 = true ∧ env.fl 5 = true)) (hcn : attempted env.fl ≤ n) (hct : attempted env.fl ≤ env.tlen)
    (A N : Nat) (t : Nat → Arr R) :
    ∃ source, Spec.Source.file text = some source ∧ ∃ W : Nat → Arr R,
      callTuple source 3 "compute_w_operators".toList (inputs A N env t) =
        .ok (((List.range (attempted env.fl)).map fun i => some ⟨A :: A :: List.replicate (i + 1) N, W (i + 1)⟩) ++ List.replicate (6 - attempted env.fl) none) ∧
      ((∀ j, ModeSymmetric j (t j)) → ∀ k, 1 ≤ k → k ≤ attempted env.fl → ∀ (x y : Fin A) (v : Fin k → Nat),
        W k (x.val :: y.val :: List.ofFn v) =
          ∑ m ∈ Finset.range (k + 1), (1 / (m.factorial : Rat)) •
            ∑ g ∈ Finset.univ.filter (fun g : Fin k → Fin m => Enters env (sizes g)),
              (List.ofFn fun j => mat A (t (block v g j).length) (block v g j)).prod x y) := by
  have hn := (w_text_exists n).1 ⟨text, h⟩
  obtain ⟨source, e1, e2⟩ := w_text_result (R := R) h
  refine ⟨source, e1, fun k => returned (fnOf k) (addedAt A N env t k), ?_, ?_⟩
  · rw [e2, h1, if_neg (by simp), if_neg (by omega), if_neg (by omega), if_neg h5]
    rfl
  · intro ht k hk1 hk2 x y v
    have hr : runMaster Einsum.ts env (moduleOf n).vemx (moduleOf n).vecc (moduleOf n).fns (moduleOf n).master =
        .ok ((List.range (attempted env.fl)).map fun i => (i + 1, veciDone env (i + 1), mixedDone mkE env (i + 1), ccDone mkE env (i + 1))) := by
      unfold runMaster
      rw [show (moduleOf n).master = master n from rfl, masterOrders_attempted h1 h5]
      have := orders_range n env (attempted env.fl)
      rw [if_neg (by omega), if_neg (by omega)] at this
      exact this
    refine w_value n (moduleOf n) (wModule_eq n hn) env _ hr k _ _ _ (List.mem_map.2 ⟨k - 1, List.mem_range.2 (by omega), by rw [show k - 1 + 1 = k by omega]⟩) (fnOf k) ?_ A N t ht x y v
    show ((range2 1 (n + 1)).map fnOf)[k - 1]? = some (fnOf k)
    rw [List.getElem?_map, getElem_range2 hk1 (by omega)]
    rfl

open Classical in
/-- **C86** for the coupled-cluster ansatz: as long as the truncation contains all ranks up to `k`, entry `k` is the part with `k` modes of the exponential
of the cluster operator. -/
theorem w_text_exponential {n : Nat} {text : List Char} (h : fileText n = .ok text) (env : Spec.W.Env) (hmix : env.mixed = false) (hcc : env.cc = true) (h1 : env.fl 1 = true)
    (h5 : ¬ (env.fl 2 = true ∧ env.fl 3 = true ∧ env.fl 4 = true ∧ env.fl 5 = true)) (hcn : attempted env.fl ≤ n) (hct : attempted env.fl ≤ env.tlen)
    (A N : Nat) (t : Nat → Arr R) (ht : ∀ j, ModeSymmetric j (t j)) :
    ∃ source, Spec.Source.file text = some source ∧ ∃ W : Nat → Arr R,
      callTuple source 3 "compute_w_operators".toList (inputs A N env t) =
        .ok (((List.range (attempted env.fl)).map fun i => some ⟨A :: A :: List.replicate (i + 1) N, W (i + 1)⟩) ++ List.replicate (6 - attempted env.fl) none) ∧
      ∀ k, 1 ≤ k → k ≤ attempted env.fl → (∀ j, 1 ≤ j → j ≤ k → env.fl j = true) → ∀ (x y : Fin A) (v : Fin k → Nat),
        W k (x.val :: y.val :: List.ofFn v) =
          ∑ m ∈ Finset.range (k + 1), (1 / (m.factorial : Rat)) •
            ∑ g ∈ Finset.univ.filter (fun g : Fin k → Fin m => Function.Surjective g),
              (List.ofFn fun j => mat A (t (block v g j).length) (block v g j)).prod x y := by
  obtain ⟨source, e1, W, e2, e3⟩ := w_text h env h1 h5 hcn hct A N t
  refine ⟨source, e1, W, e2, fun k hk1 hk2 hfl x y v => ?_⟩
  rw [e3 ht k hk1 hk2 x y v]
  refine Finset.sum_congr rfl fun m _ => ?_
  congr 1
  refine Finset.sum_congr ?_ fun _ _ => rfl
  ext g
  simp only [Finset.mem_filter, Finset.mem_univ, true_and]
  exact enters_full hmix hcc hfl g

/-- **C86.** Exactly when the call raises an exception, and which: without singles; `NameError` when the module has too few orders and no amplitude is missing before;
`ValueError` when too few amplitudes are passed; `NotImplementedError` for all ranks up to 5. -/
theorem w_text_errors {n : Nat} {text : List Char} (h : fileText n = .ok text) (env : Spec.W.Env) (A N : Nat) (t : Nat → Arr R) :
    ∃ source, Spec.Source.file text = some source ∧ ∀ e, callTuple source 3 "compute_w_operators".toList (inputs A N env t) = .error e ↔
      (env.fl 1 = false ∧ e = .exception) ∨
      (env.fl 1 = true ∧ n < attempted env.fl ∧ n ≤ env.tlen ∧ e = .name) ∨
      (env.fl 1 = true ∧ env.tlen < attempted env.fl ∧ env.tlen < n ∧ e = .value) ∨
      (env.fl 1 = true ∧ env.fl 2 = true ∧ env.fl 3 = true ∧ env.fl 4 = true ∧ env.fl 5 = true ∧ 6 ≤ n ∧ 6 ≤ env.tlen ∧ e = .notImplemented) := by
  obtain ⟨source, e1, e2⟩ := w_text_result (R := R) h
  refine ⟨source, e1, fun e => ?_⟩
  rw [e2]
  cases f1 : env.fl 1 with
  | false =>
    simp only [if_true, Bool.false_eq_true, false_and, or_false, true_and, Except.error.injEq]
    exact eq_comm
  | true =>
    simp only [Bool.true_eq_false, if_false, false_and, false_or, true_and]
    by_cases c1 : n < attempted env.fl ∧ n ≤ env.tlen
    · rw [if_pos c1]
      have : ¬ (env.fl 2 = true ∧ env.fl 3 = true ∧ env.fl 4 = true ∧ env.fl 5 = true ∧ 6 ≤ n ∧ 6 ≤ env.tlen ∧ e = .notImplemented) := by
        rintro ⟨f2, f3, f4, _, h6, _⟩
        have : attempted env.fl = 6 := by simp [attempted, f2, f3, f4]
        omega
      have h2 : ¬ (env.tlen < attempted env.fl ∧ env.tlen < n ∧ e = .value) := by omega
      simp only [c1, this, h2, true_and, or_false, Except.error.injEq]
      exact eq_comm
    · rw [if_neg c1]
      have h0 : ¬ (n < attempted env.fl ∧ n ≤ env.tlen ∧ e = .name) := fun h => c1 ⟨h.1, h.2.1⟩
      by_cases c2 : env.tlen < attempted env.fl
      · rw [if_pos c2]
        have : ¬ (env.fl 2 = true ∧ env.fl 3 = true ∧ env.fl 4 = true ∧ env.fl 5 = true ∧ 6 ≤ n ∧ 6 ≤ env.tlen ∧ e = .notImplemented) := by
          rintro ⟨f2, f3, f4, _, _, h6, _⟩
          have : attempted env.fl = 6 := by simp [attempted, f2, f3, f4]
          omega
        have h2 : env.tlen < n := by omega
        simp only [h0, c2, h2, this, true_and, or_false, false_or, Except.error.injEq]
        exact eq_comm
      · rw [if_neg c2]
        have h2 : ¬ (env.tlen < attempted env.fl ∧ env.tlen < n ∧ e = .value) := fun h => c2 h.1
        by_cases c3 : env.fl 2 = true ∧ env.fl 3 = true ∧ env.fl 4 = true ∧ env.fl 5 = true
        · rw [if_pos c3]
          have : attempted env.fl = 6 := by simp [attempted, c3.1, c3.2.1, c3.2.2.1]
          have h6 : 6 ≤ n := by omega
          have h7 : 6 ≤ env.tlen := by omega
          simp only [h0, h2, c3, h6, h7, true_and, false_or, Except.error.injEq]
          exact eq_comm
        · rw [if_neg c3]
          have : ¬ (env.fl 2 = true ∧ env.fl 3 = true ∧ env.fl 4 = true ∧ env.fl 5 = true ∧ 6 ≤ n ∧ 6 ≤ env.tlen ∧ e = .notImplemented) :=
            fun h => c3 ⟨h.1, h.2.1, h.2.2.1, h.2.2.2.1⟩
          simp only [h0, h2, this, or_false, reduceCtorEq]

/-- The hypotheses are met: the module with six orders, coupled cluster with the ranks up to 4, six amplitudes that are symmetric and not constant. -/
example : ∃ text, fileText 6 = .ok text ∧ ∃ env : Spec.W.Env, env.mixed = false ∧ env.cc = true ∧ env.fl 1 = true ∧
    ¬ (env.fl 2 = true ∧ env.fl 3 = true ∧ env.fl 4 = true ∧ env.fl 5 = true) ∧ attempted env.fl ≤ 6 ∧ attempted env.fl ≤ env.tlen ∧
    (∀ j, 1 ≤ j → j ≤ 4 → env.fl j = true) ∧ (∀ j, ModeSymmetric j (fun l : List Nat => ((l.drop 2).sum : Rat))) := by
  obtain ⟨text, h⟩ := (w_text_exists 6).2 (by decide)
  refine ⟨text, h, ⟨false, true, fun j => decide (j ≤ 4), 6⟩, rfl, rfl, rfl, by simp, by decide, by decide, fun j _ hj => by simpa using hj, ?_⟩
  intro j x y l l' _ h
  show ((l.sum : Nat) : Rat) = (l'.sum : Nat)
  rw [h.sum_nat]

end TF.W
