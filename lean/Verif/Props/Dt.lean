import Verif.Lemmas.Dt
import Verif.Props.W
import Verif.Props.Residual
import Mathlib.Algebra.Polynomial.Derivative

/-! # The generated equations of the amplitude derivatives -/

namespace TF.Dt

open TF.Py TF.Helper TF.W TF.Spec TF.Spec.Dt
open TF.Spec.W hiding Env callNth runFunction serve

/-! ## C51: generation and the disconnected terms -/

/-- C51: the module of derivatives is generated exactly for maximum orders up to 6. -/
theorem dt_module_iff (n : Nat) : (∃ m, dtModule n = .ok m) ↔ n ≤ 6 := by
  constructor
  · rintro ⟨m, hm⟩
    by_contra h
    obtain ⟨e, he⟩ := dtModule_error n (by omega)
    rw [he] at hm; cases hm
  · intro h; exact ⟨_, dtModule_eq n h⟩

theorem mkDs_ts (k : Nat) (c : List Nat) : (mkDs k c).map DEinsum.ts = marks c := by
  unfold mkDs
  rw [List.map_map]
  exact List.map_id _

theorem mkCs_ts (c : List Nat) : (mkCs c).map DCall.ts = marks c := by
  unfold mkCs
  rw [List.map_map]
  exact List.map_id _

/-- C51: when `solve_<order k>_equations` succeeds: the truncation flag of the order is set, enough W
operators and amplitudes are passed, and the residual function succeeds. -/
theorem dt_run_ok_iff (n : Nat) (m : DtModule) (hm : dtModule n = .ok m) (k : Nat) (hk1 : 1 ≤ k) (hk2 : k ≤ n) (env : Env)
    (resFns : List TF.Residual.Fn) :
    (∃ R, runSolver DEinsum.ts env resFns m.linked m.unlinked m.fns m.solvers k = .ok R) ↔
      env.res.fl k = true ∧ k ≤ env.res.wlen ∧ env.res.present k = true ∧
      (env.veci = false ∧ (env.mixed = true ∨ env.cc = true) ∧ 2 ≤ k → k - 1 ≤ env.tlen ∧ k - 1 ≤ env.dtlen) ∧
      ∃ r, runResidual env.res resFns k = .ok r := by
  have hn := (dt_module_iff n).1 ⟨m, hm⟩
  rw [dtModule_eq n hn] at hm
  injection hm with hm
  subst hm
  have hd : disc env k = true ↔ env.veci = false ∧ (env.mixed = true ∨ env.cc = true) ∧ 2 ≤ k := by
    unfold disc
    rw [Bool.and_eq_true, Bool.and_eq_true, Bool.not_eq_true', Bool.or_eq_true, decide_eq_true_eq, and_assoc]
  rw [← hd]
  constructor
  · rintro ⟨R, h⟩
    obtain ⟨h1, h2, h3, h4, r, h5, _⟩ := (runSolver_ok_iff DEinsum.ts mkDs mkDs_ts env resFns n hk1 hk2 R).1 h
    exact ⟨h1, h2, h3, h4, r, h5⟩
  · rintro ⟨h1, h2, h3, h4, r, h5⟩
    exact ⟨_, (runSolver_ok_iff DEinsum.ts mkDs mkDs_ts env resFns n hk1 hk2 _).2 ⟨h1, h2, h3, h4, r, h5, rfl⟩⟩

theorem mkD_multiplies {k : Nat} {p c : List Nat} (hk1 : 1 ≤ k) (hk2 : k ≤ 6) (h : IsPartition k p) (hc : c.Perm p) (e : DEinsum)
    (he : e ∈ mkDs k c) : ∃ mid vs, MultipliesD e mid vs := by
  obtain ⟨o, ho, rfl⟩ := List.mem_map.1 he
  rw [mem_marks] at ho
  have := mkE_multiplies hk1 hk2 h hc
  refine ⟨midOf c.length, pops (modeTags.take k) c, ?_⟩
  unfold MultipliesD
  simp only []
  rw [ho.1]
  exact this

/-- C51: a successful run puts together the residual of the order, the epsilon term with `1/k!` and the
einsum `a c .., c b -> a b ..` on the W operator of the order, and one statement for each product of
amplitudes the ansatz has besides the single amplitude: with the coefficient of that product in the
cluster exponential, every ordering with every position of the derivative exactly once, each as a correct
product. -/
theorem dt_run_correct (n : Nat) (m : DtModule) (hm : dtModule n = .ok m) (k : Nat) (hk1 : 1 ≤ k) (hk2 : k ≤ n) (env : Env)
    (resFns : List TF.Residual.Fn) (R : Result DEinsum)
    (hR : runSolver DEinsum.ts env resFns m.linked m.unlinked m.fns m.solvers k = .ok R) :
    runResidual env.res resFns k = .ok R.residual ∧
    (∃ vs : List Char, R.epsilon = (k, k, ⟨['a' :: 'c' :: vs, ['c', 'b']], 'a' :: 'b' :: vs, [k, 0]⟩) ∧ vs.length = k ∧
      ('a' :: 'b' :: 'c' :: vs).Nodup) ∧
    (∃ ps : List (List Nat), ps.Nodup ∧ (∀ p, p ∈ ps ↔ Subtracted env k p) ∧
      List.Forall₂ (Derives DEinsum.ts) ps (R.linked ++ R.unlinked)) ∧
    ∀ d ∈ R.linked ++ R.unlinked, ∀ e ∈ d.items, ∃ mid vs, MultipliesD e mid vs := by
  have hn := (dt_module_iff n).1 ⟨m, hm⟩
  rw [dtModule_eq n hn] at hm
  injection hm with hm
  subst hm
  obtain ⟨_, _, _, _, r, h5, rfl⟩ := (runSolver_ok_iff DEinsum.ts mkDs mkDs_ts env resFns n hk1 hk2 R).1 hR
  refine ⟨h5, ⟨modeTags.take k, rfl, ?_, ?_⟩, ⟨subtracted env k, nodup_subtracted env hk1, mem_subtracted env hk1, ?_⟩, ?_⟩
  · rw [List.length_take, show modeTags.length = 8 from rfl]; omega
  · exact List.Sublist.nodup (((List.take_sublist k modeTags).cons_cons _).cons_cons _ |>.cons_cons _) (by decide)
  · simp only []
    rw [done_subtracted]
    have hps : ∀ p ∈ subtracted env k, p ≠ [] := fun p hp => partitions_ne_nil hk1 ((mem_subtracted env hk1 p).1 hp).1
    generalize subtracted env k = ps at hps
    induction ps with
    | nil => exact .nil
    | cons p ps ih =>
      exact .cons (dblk_derives _ _ (mkDs_ts k) p (hps p (by simp))) (ih fun q hq => hps q (by simp [hq]))
  · intro d hd e he
    simp only [] at hd
    rw [done_subtracted] at hd
    obtain ⟨p, hp, rfl⟩ := List.mem_map.1 hd
    obtain ⟨c, hc, he⟩ := List.mem_flatMap.1 he
    exact mkD_multiplies hk1 (by omega) ((mem_subtracted env hk1 p).1 hp).1 (mem_combinations.1 hc) e he

/-! ## C52: the product rule -/

section leibniz
variable {A : Type} [Ring A] [Algebra Rat A]

theorem sum_rule (D : A →ₗ[Rat] A) (hD : ∀ x y, D (x * y) = D x * y + x * D y) (t : Nat → A) (k : Nat) (ps : List (List Nat)) :
    sumD t (fun n => D (t n)) DEinsum.ts (ps.map (dblk (mkDs k))) = D (sumW t Einsum.ts (ps.map (doneOf (mkE k)))) := by
  unfold sumD sumW
  rw [map_list_sum, List.map_map, List.map_map, List.map_map]
  congr 1
  apply List.map_congr_left
  intro p _
  simp only [Function.comp]
  rw [map_smul, map_list_sum]
  congr 1
  have e1 : (doneOf (mkE k) p).orderings Einsum.ts = combinations p := by
    unfold Done.orderings doneOf
    simp only [Option.toList_none, List.map_nil, List.nil_append, List.map_map]
    rw [show Einsum.ts ∘ mkE k = id from rfl, List.map_id]
  rw [e1, List.map_map]
  have e2 : (dblk (mkDs k) p).items.map (fun i => valueD t (fun n => D (t n)) i.ts) =
      (combinations p).flatMap fun c => (marks c).map (valueD t fun n => D (t n)) := by
    unfold dblk
    simp only []
    rw [List.map_flatMap]
    apply List.flatMap_congr
    intro c _
    rw [← mkDs_ts k c, List.map_map]
    rfl
  rw [e2, List.flatMap_def, List.sum_flatten, List.map_map]
  congr 1
  apply List.map_congr_left
  intro c _
  simp only [Function.comp]
  rw [leibniz_prod D hD]

/-- what a run of the W module executed, in closed form -/
theorem w_run_explicit (nw : Nat) (mw : WModule) (hw : wModule nw = .ok mw) (envW : Spec.W.Env)
    (r : List (Nat × List (Done Einsum) × List (Done Einsum) × List (Done Einsum)))
    (hr : runMaster Einsum.ts envW mw.vemx mw.vecc mw.fns mw.master = .ok r) (k : Nat) (a b c : List (Done Einsum))
    (hk : (k, a, b, c) ∈ r) : 1 ≤ k ∧ k ≤ 6 ∧ a = veciDone envW k ∧ b = mixedDone mkE envW k ∧ c = ccDone mkE envW k := by
  have hn : nw ≤ 6 := by
    by_contra h
    rw [(module_generated_iff nw).2 (by omega)] at hw; cases hw
  obtain ⟨ks, hks, hle⟩ := (w_run_ok_iff nw mw hw envW).1 ⟨r, hr⟩
  rw [wModule_eq nw hn] at hw
  injection hw with hw
  subst hw
  have ho : masterOrders (master nw) envW.fl = .ok ks := hks
  have hb := (masterOrders_bounds ho).2
  have hr' : r = ks.map fun k => (k, veciDone envW k, mixedDone mkE envW k, ccDone mkE envW k) := by
    unfold runMaster at hr
    rw [hks] at hr
    simp only [] at hr
    rw [show (moduleOf nw).vemx = vemxOf mkE nw from rfl, show (moduleOf nw).vecc = veccOf mkE nw from rfl,
      show (moduleOf nw).fns = (range2 1 (nw + 1)).map fnOf from rfl,
      collect_map_ok _ (fun k => (k, veciDone envW k, mixedDone mkE envW k, ccDone mkE envW k)) ks fun k hk => by
        rw [runOrder_eq Einsum.ts mkE (fun _ _ => rfl) envW nw (hb k hk).1,
          if_neg (by have := hle k hk; omega), if_neg (by have := hle k hk; omega)]] at hr
    injection hr with hr
    exact hr.symm
  subst hr'
  obtain ⟨k', hk', he⟩ := List.mem_map.1 hk
  simp only [Prod.mk.injEq] at he
  obtain ⟨rfl, rfl, rfl, rfl⟩ := he
  have := hle k' hk'
  exact ⟨(hb k' hk').1, by omega, rfl, rfl, rfl⟩

/-- C52: the disconnected terms subtracted from the residual are the derivative of the products of
amplitudes in the W operator of the same order.  For every (noncommutative) ring of amplitudes, every
derivation `D` of it, every ansatz and every truncation with all ranks below `k`: the value of what the
derivative code subtracts, with `dt_n = D t_n`, equals `D` of the value of what the W code added besides
the single amplitude. -/
theorem dt_product_rule (nw : Nat) (mw : WModule) (hw : wModule nw = .ok mw) (n : Nat) (m : DtModule) (hm : dtModule n = .ok m)
    (env : Env) (tlen : Nat) (hve : env.veci = true → env.mixed = false ∧ env.cc = false)
    (r : List (Nat × List (Done Einsum) × List (Done Einsum) × List (Done Einsum)))
    (hr : runMaster Einsum.ts ⟨env.mixed, env.cc, env.res.fl, tlen⟩ mw.vemx mw.vecc mw.fns mw.master = .ok r) (k : Nat)
    (a b c : List (Done Einsum)) (hk : (k, a, b, c) ∈ r) (hkn : k ≤ n) (hfl : ∀ j, 1 ≤ j → j < k → env.res.fl j = true)
    (resFns : List TF.Residual.Fn) (R : Result DEinsum)
    (hR : runSolver DEinsum.ts env resFns m.linked m.unlinked m.fns m.solvers k = .ok R)
    (D : A →ₗ[Rat] A) (hD : ∀ x y, D (x * y) = D x * y + x * D y) (t : Nat → A) :
    sumD t (fun n => D (t n)) DEinsum.ts (R.linked ++ R.unlinked) = D (sumW t Einsum.ts (b ++ c)) := by
  obtain ⟨hk1, hk6, rfl, rfl, rfl⟩ := w_run_explicit nw mw hw _ r hr k a b c hk
  have hn := (dt_module_iff n).1 ⟨m, hm⟩
  rw [dtModule_eq n hn] at hm
  injection hm with hm
  subst hm
  obtain ⟨_, _, _, _, r', h5, rfl⟩ := (runSolver_ok_iff DEinsum.ts mkDs mkDs_ts env resFns n hk1 hkn R).1 hR
  simp only []
  rw [done_subtracted]
  have hlive : ∀ p, IsPartition k p ∧ p ≠ [k] → live env.res.fl p = true := by
    rintro p ⟨h1, h2⟩
    rw [live_iff h1 hk1]
    intro x hx _
    right
    exact hfl x (h1.pos x hx) (by have := part_linked h1 h2 hx; omega)
  have e : mixedDone mkE ⟨env.mixed, env.cc, env.res.fl, tlen⟩ k ++ ccDone mkE ⟨env.mixed, env.cc, env.res.fl, tlen⟩ k =
      (subtracted env k).map (doneOf (mkE k)) := by
    unfold mixedDone ccDone subtracted
    simp only []
    rw [List.filter_eq_self.2 fun p hp => hlive p (linked_mem hk1 p hp), List.filter_eq_self.2 fun p hp => hlive p (unlinked_mem hk1 p hp),
      List.map_append]
    cases hv : env.veci
    · congr 1 <;> (simp only [Bool.not_false, Bool.true_and]; split <;> rfl)
    · simp [(hve hv).1, (hve hv).2]
  rw [e]
  exact sum_rule D hD t k _

end leibniz

/-! ## C53: the whole pipeline -/

/-- C53 (partial: orders up to 4; `dt_pipeline_high` shows the rest fails): with the W operators and
residual functions generated by the other modules, for every truncation closed downwards, the derivative of
order `k` is computed exactly when enough amplitudes and derivatives are passed. -/
theorem dt_pipeline_partial (nw : Nat) (mw : WModule) (hw : wModule nw = .ok mw) (q : Bool) (fl : Nat → Bool) (ks : List Nat)
    (hks : masterOrders mw.master fl = .ok ks) (nr rank : Nat) (fns : List TF.Residual.Fn)
    (hf : TF.Residual.residualModule nr rank = .ok fns) (n : Nat) (m : DtModule) (hm : dtModule n = .ok m) (k : Nat)
    (hk1 : 1 ≤ k) (hk4 : k ≤ 4) (hkn : k ≤ n) (hkr : k ≤ nr) (hfl : ∀ j, 1 ≤ j → j ≤ k → fl j = true)
    (veci mixed cc : Bool) (tlen dtlen : Nat) :
    (∃ R, runSolver DEinsum.ts ⟨veci, mixed, cc, tlen, dtlen, Residual.afterW q fl ks⟩ fns m.linked m.unlinked m.fns m.solvers k = .ok R) ↔
      (veci = false ∧ (mixed = true ∨ cc = true) ∧ 2 ≤ k → k - 1 ≤ tlen ∧ k - 1 ≤ dtlen) := by
  rw [dt_run_ok_iff n m hm k hk1 hkn]
  have hp := TF.Residual.afterW_present nw mw hw q fl ks hks
  constructor
  · rintro ⟨_, _, _, h, _⟩; exact h
  · intro h
    obtain ⟨f, hs, ls, e1, e2, _⟩ := TF.Residual.residual_function_runs nr rank k fns hf hk4 hkr (Residual.afterW q fl ks)
      (by show k + 2 ≤ 6; omega) (by rw [Nat.max_eq_left hk1]; exact hfl k hk1 le_rfl) ((hp 1).2 (.inl rfl))
    refine ⟨hfl k hk1 le_rfl, show k ≤ 6 by omega, ?_, h, ls, ?_⟩
    · show (Residual.afterW q fl ks).present k = true
      rw [hp]
      obtain rfl | rfl | rfl | rfl : k = 1 ∨ k = 2 ∨ k = 3 ∨ k = 4 := by omega
      · simp
      · simp
      · simp
      · simp [hfl 2 (by omega) (by omega)]
    · show runResidual (Residual.afterW q fl ks) fns k = _
      unfold runResidual
      rw [e1]
      exact e2

/-- hypotheses: VECC with singles and doubles, order 2 -/
example : ∃ mw m fns R, wModule 6 = .ok mw ∧ dtModule 6 = .ok m ∧ TF.Residual.residualModule 6 2 = .ok fns ∧
    masterOrders mw.master (fun j => decide (j ≤ 2)) = .ok [1, 2, 3, 4] ∧
    runSolver DEinsum.ts ⟨false, false, true, 2, 2, Residual.afterW true (fun j => decide (j ≤ 2)) [1, 2, 3, 4]⟩ fns
      m.linked m.unlinked m.fns m.solvers 2 = .ok R ∧
    R.linked.map (fun d => (d.pref, d.items.map DEinsum.ts)) =
      [([2], [[⟨true, 1⟩, ⟨false, 1⟩], [⟨false, 1⟩, ⟨true, 1⟩]])] := by
  obtain ⟨fns, hf⟩ := (TF.Residual.residual_module_iff 6 2).2 (by decide)
  have hw := wModule_eq 6 (by decide)
  have hd := dtModule_eq 6 (by decide)
  have ho : masterOrders (moduleOf 6).master (fun j => decide (j ≤ 2)) = .ok [1, 2, 3, 4] := by
    rw [(w_orders 6 _ hw _).1]; rfl
  obtain ⟨R, hR⟩ := (dt_pipeline_partial 6 _ hw true _ _ ho 6 2 fns hf 6 _ hd 2 (by decide) (by decide) (by decide) (by decide)
    (by decide +revert) false false true 2 2).2 (by decide)
  refine ⟨_, _, fns, R, hw, hd, hf, ho, hR, ?_⟩
  obtain ⟨_, _, _, _, r, _, rfl⟩ := (runSolver_ok_iff (k := 2) DEinsum.ts mkDs mkDs_ts _ fns 6 (by decide) (by decide) R).1 hR
  simp only []
  decide +kernel

/-- hypotheses of `dt_product_rule`: the same run, together with the run of the W module, and the derivative
of polynomials as `D` -/
example : ∃ mw m fns R r a b c, wModule 6 = .ok mw ∧ dtModule 6 = .ok m ∧
    runMaster Einsum.ts ⟨false, true, fun j => decide (j ≤ 2), 6⟩ mw.vemx mw.vecc mw.fns mw.master = .ok r ∧ (2, a, b, c) ∈ r ∧
    runSolver DEinsum.ts ⟨false, false, true, 2, 2, Residual.afterW true (fun j => decide (j ≤ 2)) [1, 2, 3, 4]⟩ fns
      m.linked m.unlinked m.fns m.solvers 2 = .ok R ∧
    (∀ x y : Polynomial Rat, Polynomial.derivative (x * y) = Polynomial.derivative x * y + x * Polynomial.derivative y) := by
  obtain ⟨fns, hf⟩ := (TF.Residual.residual_module_iff 6 2).2 (by decide)
  have hw := wModule_eq 6 (by decide)
  have hd := dtModule_eq 6 (by decide)
  have ho : masterOrders (moduleOf 6).master (fun j => decide (j ≤ 2)) = .ok [1, 2, 3, 4] := by
    rw [(w_orders 6 _ hw _).1]; rfl
  obtain ⟨R, hR⟩ := (dt_pipeline_partial 6 _ hw true _ _ ho 6 2 fns hf 6 _ hd 2 (by decide) (by decide) (by decide) (by decide)
    (by decide +revert) false false true 2 2).2 (by decide)
  obtain ⟨r, hr⟩ := (w_run_ok_iff 6 _ hw ⟨false, true, fun k => decide (k ≤ 2), 6⟩).2 ⟨[1, 2, 3, 4], ho, by decide⟩
  have h1 := (w_run_correct 6 _ hw _ r hr).1
  rw [show masterOrders (moduleOf 6).master (Spec.W.Env.fl ⟨false, true, fun k => decide (k ≤ 2), 6⟩) = _ from ho] at h1
  have h2 : 2 ∈ r.map Prod.fst := by rw [← Except.ok.inj h1]; simp
  obtain ⟨⟨k, a, b, c⟩, hx, rfl⟩ := List.mem_map.1 h2
  exact ⟨_, _, fns, R, r, a, b, c, hw, hd, hr, hx, hR, fun x y => Polynomial.derivative_mul⟩

/-- C53 is false: with the six W operators the W module returns, the derivatives of order 5 and 6 can
never be computed, whatever the truncation, the ansatz and the amplitudes (unless the truncation flag is
missing, which is also an exception). -/
theorem dt_pipeline_high (q : Bool) (fl : Nat → Bool) (ks : List Nat) (nr rank : Nat) (fns : List TF.Residual.Fn)
    (hf : TF.Residual.residualModule nr rank = .ok fns) (n : Nat) (m : DtModule) (hm : dtModule n = .ok m) (k : Nat)
    (hk5 : 5 ≤ k) (hkn : k ≤ n) (hkr : k ≤ nr) (veci mixed cc : Bool) (tlen dtlen : Nat) :
    runSolver DEinsum.ts ⟨veci, mixed, cc, tlen, dtlen, Residual.afterW q fl ks⟩ fns m.linked m.unlinked m.fns m.solvers k =
      .error (if fl k then .value else .exception) := by
  have hn := (dt_module_iff n).1 ⟨m, hm⟩
  rw [dtModule_eq n hn] at hm
  injection hm with hm
  subst hm
  obtain ⟨f, h1, h2⟩ := TF.Residual.pipeline_high_orders q fl ks nr rank k fns hf hk5 hkr
  have hr : runResidual (Residual.afterW q fl ks) fns k = .error .value := by
    unfold runResidual; rw [h1]; exact h2
  have := runSolver_eq (k := k) DEinsum.ts mkDs mkDs_ts ⟨veci, mixed, cc, tlen, dtlen, Residual.afterW q fl ks⟩ fns n (by omega) hkn
  refine this.trans ?_
  simp only []
  rw [hr, show (Residual.afterW q fl ks).fl = fl from rfl, show (Residual.afterW q fl ks).wlen = 6 from rfl, if_neg (show ¬ 6 < k by omega)]
  cases fl k <;> rfl

example : ∃ m fns, dtModule 6 = .ok m ∧ TF.Residual.residualModule 6 2 = .ok fns := by
  obtain ⟨m, hm⟩ := (dt_module_iff 6).2 (by decide)
  obtain ⟨fns, h⟩ := (TF.Residual.residual_module_iff 6 2).2 (by decide)
  exact ⟨m, fns, hm, h⟩

/-! ## C54: the optimised functions -/

/-- C54: the optimised solvers run under the same conditions as the default ones and execute the same
statements, with every einsum replaced by a call on the same operands. -/
theorem dt_optimised_same (n : Nat) (m : DtModule) (hm : dtModule n = .ok m) (k : Nat) (hk1 : 1 ≤ k) (hk2 : k ≤ n) (env : Env)
    (resFns : List TF.Residual.Fn) :
    runSolver DCall.ts env resFns m.linkedOpt m.unlinkedOpt m.fnsOpt m.solversOpt k =
      (runSolver DEinsum.ts env resFns m.linked m.unlinked m.fns m.solvers k).map fun R =>
        ⟨R.residual, R.epsilon, R.linked.map fun d => ⟨d.pref, d.items.map fun e => ⟨e.ts⟩⟩,
          R.unlinked.map fun d => ⟨d.pref, d.items.map fun e => ⟨e.ts⟩⟩, R.sym⟩ := by
  have hn := (dt_module_iff n).1 ⟨m, hm⟩
  rw [dtModule_eq n hn] at hm
  injection hm with hm
  subst hm
  have h1 := runSolver_eq (k := k) DEinsum.ts mkDs mkDs_ts env resFns n hk1 hk2
  have h2 := runSolver_eq (k := k) DCall.ts (fun _ => mkCs) (fun _ c => mkCs_ts c) env resFns n hk1 hk2
  refine h2.trans ?_
  refine Eq.trans ?_ (congrArg (Except.map _) h1.symm)
  have hb : ∀ ps : List (List Nat), ps.map (dblk mkCs) =
      (ps.map (dblk (mkDs k))).map fun d => ⟨d.pref, d.items.map fun e => ⟨e.ts⟩⟩ := by
    intro ps
    rw [List.map_map]
    apply List.map_congr_left
    intro p _
    unfold dblk mkCs mkDs
    simp only [Function.comp, List.map_flatMap, List.map_map]
    rfl
  have hL : linkedDone (fun _ => mkCs) env k = (linkedDone mkDs env k).map fun d => ⟨d.pref, d.items.map fun e => ⟨e.ts⟩⟩ := by
    unfold linkedDone
    split
    · exact hb _
    · rfl
  have hU : unlinkedDone (fun _ => mkCs) env k = (unlinkedDone mkDs env k).map fun d => ⟨d.pref, d.items.map fun e => ⟨e.ts⟩⟩ := by
    unfold unlinkedDone
    split
    · exact hb _
    · rfl
  split
  · rfl
  · split
    · rfl
    · cases runResidual env.res resFns k with
      | error e => rfl
      | ok r =>
        simp only []
        split
        · rfl
        · split
          · rfl
          · rw [hL, hU]; rfl

/-- What serves a call of the optimised code: the einsum with the subscripts of the default code and the
shapes of its operands (a derivative has the shape of its amplitude). -/
def servedBy (e : DEinsum) : DCall × Path := (⟨e.ts⟩, ⟨e.subs, e.out, e.ts.map Operand.n⟩)

theorem serve_exact {α : Type} (l : List α) (f : α → DCall) (g : α → Path) :
    serve (l.map g) (l.map f) = some (l.map fun a => (f a, g a), []) := by
  induction l with
  | nil => rfl
  | cons a l ih => simp [serve, ih]

theorem serve_short (ps : List Path) (cs : List DCall) (h : ps.length < cs.length) : serve ps cs = none := by
  induction cs generalizing ps with
  | nil => simp at h
  | cons c cs ih =>
    cases ps with
    | nil => rfl
    | cons p ps =>
      simp only [serve]
      rw [ih ps (by simpa using h)]
      rfl

theorem paths_linked {n k : Nat} (fl : Nat → Bool) (hk1 : 1 ≤ k) (hk2 : k ≤ n) :
    runPaths (linkedPathsAt n) fl k =
      .ok ((linkedPartitions k).flatMap fun p => if fl (maxPart p) then (combinations p).flatMap (mkPs k) else []) := by
  unfold runPaths
  show runPaths.entry (linkedPathsAt n) fl k = _
  unfold runPaths.entry
  have : (linkedPathsAt n).lists[k - 1]? = some ((linkedPartitions k).map (exprAt k)) := by
    show ([] :: (range2 2 (n + 1)).map fun k => (linkedPartitions k).map (exprAt k))[k - 1]? = _
    by_cases h : k = 1
    · subst h; rw [linked_one]; rfl
    · obtain ⟨j, rfl⟩ : ∃ j, k = j + 2 := ⟨k - 2, by omega⟩
      rw [show j + 2 - 1 = j + 1 from rfl, List.getElem?_cons_succ, List.getElem?_map]
      unfold range2
      rw [List.getElem?_map, List.getElem?_range (by omega)]
      simp
  rw [this]
  simp only []
  rw [List.flatMap_map]
  rfl

theorem paths_unlinked {n k : Nat} (fl : Nat → Bool) (hk1 : 1 ≤ k) (hk2 : k ≤ n) (hk6 : k ≤ 6) (h2 : 4 ≤ k → fl 2 = true) :
    runPaths (unlinkedPathsAt n) fl k =
      .ok ((unlinkedPartitions k).flatMap fun p => if fl (maxPart p) then (combinations p).flatMap (mkPs k) else []) := by
  unfold runPaths
  show (if fl 2 then runPaths.entry (unlinkedPathsAt n) fl k else _) = _
  have : (unlinkedPathsAt n).lists[k - 1]? = some ((unlinkedPartitions k).map (exprAt k)) := by
    show ([] :: [] :: [] :: (range2 4 (n + 1)).map fun k => (unlinkedPartitions k).map (exprAt k))[k - 1]? = _
    by_cases h : k < 4
    · rw [unlinked_lt h]
      obtain rfl | rfl | rfl : k = 1 ∨ k = 2 ∨ k = 3 := by omega
      all_goals rfl
    · obtain ⟨j, rfl⟩ : ∃ j, k = j + 4 := ⟨k - 4, by omega⟩
      rw [show j + 4 - 1 = j + 1 + 1 + 1 from rfl, List.getElem?_cons_succ, List.getElem?_cons_succ, List.getElem?_cons_succ,
        List.getElem?_map]
      unfold range2
      rw [List.getElem?_map, List.getElem?_range (by omega)]
      simp
  have e : runPaths.entry (unlinkedPathsAt n) fl k =
      .ok ((unlinkedPartitions k).flatMap fun p => if fl (maxPart p) then (combinations p).flatMap (mkPs k) else []) := by
    unfold runPaths.entry
    rw [this]
    simp only []
    rw [List.flatMap_map]
    rfl
  rw [e]
  split
  · rfl
  · rename_i hf
    have : k < 4 := by
      by_contra hx
      exact hf (h2 (by omega))
    rw [if_pos (by omega), unlinked_lt this]
    rfl

theorem paths_all (k : Nat) (fl : Nat → Bool) (ps : List (List Nat)) (h : ∀ p ∈ ps, fl (maxPart p) = true) :
    (ps.flatMap fun p => if fl (maxPart p) then (combinations p).flatMap (mkPs k) else []) =
      ((ps.map (dblk (mkDs k))).flatMap DBlock.items).map fun e => ⟨e.subs, e.out, e.ts.map Operand.n⟩ := by
  rw [List.flatMap_map, List.map_flatMap]
  apply List.flatMap_congr
  intro p hp
  rw [if_pos (h p hp)]
  unfold dblk
  simp only []
  rw [List.map_flatMap]
  apply List.flatMap_congr
  intro c _
  unfold mkPs mkDs
  rw [List.map_map]
  apply List.map_congr_left
  intro o ho
  rw [mem_marks] at ho
  simp only [Function.comp]
  rw [ho.1]
  rfl

/-- C54 (partial: truncations closed downwards; `dt_optimised_starves` shows the rest fails): in every
run of an optimised solver each call `next(optimized_einsum)` is served by the contraction expression of the
very einsum the default code executes at that place, no expression is left over, and the epsilon term uses
the expression of its own order. -/
theorem dt_optimised_partial (n : Nat) (m : DtModule) (hm : dtModule n = .ok m) (k : Nat) (hk1 : 1 ≤ k) (hk2 : k ≤ n) (env : Env)
    (resFns : List TF.Residual.Fn) (R : Result DEinsum)
    (hR : runSolver DEinsum.ts env resFns m.linked m.unlinked m.fns m.solvers k = .ok R)
    (hfl : ∀ j, 1 ≤ j → j < k → env.res.fl j = true) :
    epsilonAt m.epsilonPaths env.res.fl k = some R.epsilon.2.2 ∧
    ∃ pl pu, runPaths m.linkedPaths env.res.fl k = .ok pl ∧ runPaths m.unlinkedPaths env.res.fl k = .ok pu ∧
      (env.veci = false ∧ (env.mixed = true ∨ env.cc = true) →
        serve pl ((R.linked.flatMap DBlock.items).map fun e => ⟨e.ts⟩) = some ((R.linked.flatMap DBlock.items).map servedBy, [])) ∧
      (env.veci = false ∧ env.mixed = false ∧ env.cc = true →
        serve pu ((R.unlinked.flatMap DBlock.items).map fun e => ⟨e.ts⟩) = some ((R.unlinked.flatMap DBlock.items).map servedBy, [])) := by
  have hn := (dt_module_iff n).1 ⟨m, hm⟩
  rw [dtModule_eq n hn] at hm
  injection hm with hm
  subst hm
  obtain ⟨hf, _, _, _, r, h5, rfl⟩ := (runSolver_ok_iff DEinsum.ts mkDs mkDs_ts env resFns n hk1 hk2 R).1 hR
  have hmax : ∀ p, IsPartition k p ∧ p ≠ [k] → env.res.fl (maxPart p) = true := by
    rintro p ⟨h1, h2⟩
    have hmx := maxPart_spec (partitions_ne_nil hk1 h1)
    exact hfl _ (h1.pos _ hmx.1) (by have := part_linked h1 h2 hmx.1; omega)
  refine ⟨?_, ?_⟩
  · show epsilonAt ((range2 1 (n + 1)).map fun k => (k, epsilonPath k)) env.res.fl k = some (epsilonPath k)
    have hsplit : range2 1 (n + 1) = range2 1 (k + 1) ++ range2 (k + 1) (n + 1) := by
      unfold range2
      rw [show n + 1 - 1 = (k + 1 - 1) + (n + 1 - (k + 1)) by omega, List.range_add, List.map_append, List.map_map]
      congr 1
      apply List.map_congr_left
      intro x _
      simp only [Function.comp]; omega
    unfold epsilonAt
    rw [hsplit, List.map_append, List.filter_append, List.map_append,
      List.filter_eq_self (l := (range2 1 (k + 1)).map fun k => (k, epsilonPath k)) |>.2, List.map_map, List.getElem?_append_left]
    · rw [List.getElem?_map, getElem_range2 hk1 le_rfl]; rfl
    · rw [List.length_map]; unfold range2; simp; omega
    · intro x hx
      obtain ⟨j, hj, rfl⟩ := List.mem_map.1 hx
      rw [mem_range2] at hj
      by_cases hjk : j = k
      · subst hjk; exact hf
      · exact hfl j hj.1 (by omega)
  · refine ⟨_, _, paths_linked env.res.fl hk1 hk2, paths_unlinked env.res.fl hk1 hk2 (by omega) (fun h => hfl 2 (by omega) (by omega)), ?_, ?_⟩
    · rintro ⟨hv, hc⟩
      rw [paths_all k _ _ fun p hp => hmax p (linked_mem hk1 p hp)]
      have : (!env.veci && (env.mixed || env.cc)) = true := by
        rw [hv, Bool.not_false, Bool.true_and, Bool.or_eq_true]; exact hc
      simp only [linkedDone, this, if_true]
      exact serve_exact _ _ _
    · rintro ⟨hv, hc1, hc2⟩
      rw [paths_all k _ _ fun p hp => hmax p (unlinked_mem hk1 p hp)]
      have : (!env.veci && (!env.mixed && env.cc)) = true := by rw [hv, hc1, hc2]; rfl
      simp only [unlinkedDone, this, if_true]
      exact serve_exact _ _ _

/-- C54 is false: if any rank below `k` is missing from the truncation, the optimised solver of order `k`
runs out of contraction expressions (`StopIteration`) in the linked terms: the expressions are left out
for the missing rank, the calls are not. -/
theorem dt_optimised_starves (n : Nat) (m : DtModule) (hm : dtModule n = .ok m) (k : Nat) (hk1 : 1 ≤ k) (hk2 : k ≤ n) (env : Env)
    (resFns : List TF.Residual.Fn) (R : Result DEinsum)
    (hR : runSolver DEinsum.ts env resFns m.linked m.unlinked m.fns m.solvers k = .ok R)
    (hv : env.veci = false) (hc : env.mixed = true ∨ env.cc = true) (j : Nat) (hj1 : 1 ≤ j) (hjk : j < k) (hj : env.res.fl j = false) :
    ∃ pl, runPaths m.linkedPaths env.res.fl k = .ok pl ∧
      serve pl ((R.linked.flatMap DBlock.items).map fun e => ⟨e.ts⟩) = none := by
  have hn := (dt_module_iff n).1 ⟨m, hm⟩
  rw [dtModule_eq n hn] at hm
  injection hm with hm
  subst hm
  obtain ⟨hf, _, _, _, r, h5, rfl⟩ := (runSolver_ok_iff DEinsum.ts mkDs mkDs_ts env resFns n hk1 hk2 R).1 hR
  refine ⟨_, paths_linked env.res.fl hk1 hk2, ?_⟩
  apply serve_short
  have : (!env.veci && (env.mixed || env.cc)) = true := by
    rw [hv, Bool.not_false, Bool.true_and, Bool.or_eq_true]; exact hc
  simp only [linkedDone, this, if_true]
  rw [List.length_map, List.flatMap_map]
  have hp : (j :: List.replicate (k - j) 1) ∈ linkedPartitions k := by
    rw [linked_exact k hk1]
    refine ⟨⟨?_, ?_, ?_⟩, ?_, ?_⟩
    · simp; omega
    · intro x hx
      rw [List.mem_cons, List.mem_replicate] at hx
      rcases hx with rfl | ⟨_, rfl⟩
      · exact hj1
      · exact le_rfl
    · rw [List.pairwise_cons]
      refine ⟨fun x hx => ?_, ?_⟩
      · rw [(List.mem_replicate.1 hx).2]; exact hj1
      · rw [List.pairwise_replicate]; right; exact le_rfl
    · unfold AtMostOneBig
      rw [List.filter_cons, List.filter_eq_nil_iff.2]
      · split <;> simp
      · intro x hx
        rw [(List.mem_replicate.1 hx).2]; simp
    · intro he
      injection he with h1 _
      omega
  have hmx : maxPart (j :: List.replicate (k - j) 1) = j := by
    obtain ⟨h1, h2⟩ := maxPart_spec (p := j :: List.replicate (k - j) 1) (by simp)
    have := h2 j (by simp)
    rw [List.mem_cons, List.mem_replicate] at h1
    omega
  have hlen : ∀ p, ((combinations p).flatMap (mkPs k)).length = ((dblk (mkDs k) p).items).length := by
    intro p
    unfold dblk mkPs mkDs
    simp [List.length_flatMap]
  have hpos : 0 < ((dblk (mkDs k) (j :: List.replicate (k - j) 1)).items).length := by
    apply List.length_pos_of_mem (a := DEinsum.mk (mkP k (j :: List.replicate (k - j) 1)).subs ('a' :: 'b' :: modeTags.take k)
      (⟨true, j⟩ :: (List.replicate (k - j) 1).map (Operand.mk false)))
    apply List.mem_flatMap.2
    refine ⟨_, mem_combinations.2 (List.Perm.refl _), ?_⟩
    apply List.mem_map.2
    exact ⟨_, by rw [marks]; exact List.mem_cons_self, rfl⟩
  generalize (j :: List.replicate (k - j) 1) = p0 at hp hmx hpos
  have hle : ∀ ps : List (List Nat), (ps.flatMap fun p => if env.res.fl (maxPart p) then (combinations p).flatMap (mkPs k) else []).length ≤
      (ps.flatMap fun p => (dblk (mkDs k) p).items).length := by
    intro ps
    induction ps with
    | nil => exact le_rfl
    | cons p ps ih =>
      rw [List.flatMap_cons, List.flatMap_cons, List.length_append, List.length_append]
      have : (if env.res.fl (maxPart p) then (combinations p).flatMap (mkPs k) else []).length ≤ ((dblk (mkDs k) p).items).length := by
        split
        · rw [hlen]
        · simp
      omega
  generalize linkedPartitions k = ps at hp
  induction ps with
  | nil => cases hp
  | cons p ps ih =>
    rw [List.flatMap_cons, List.flatMap_cons, List.length_append, List.length_append]
    rcases List.mem_cons.1 hp with rfl | hp
    · rw [hmx, hj, if_neg (by simp)]
      have := hle ps
      rw [List.length_nil]
      omega
    · have := ih hp
      have : (if env.res.fl (maxPart p) then (combinations p).flatMap (mkPs k) else []).length ≤ ((dblk (mkDs k) p).items).length := by
        split
        · rw [hlen]
        · simp
      omega

/-- hypotheses of `dt_optimised_starves`: VECC, singles and triples without doubles, order 3 -/
example : ∃ m fns R, dtModule 6 = .ok m ∧ TF.Residual.residualModule 6 1 = .ok fns ∧
    runSolver DEinsum.ts ⟨false, false, true, 6, 6, ⟨false, fun j => decide (j = 1 ∨ j = 3), fun _ => true, 6⟩⟩ fns
      m.linked m.unlinked m.fns m.solvers 3 = .ok R := by
  obtain ⟨fns, hf⟩ := (TF.Residual.residual_module_iff 6 1).2 (by decide)
  have hd := dtModule_eq 6 (by decide)
  obtain ⟨f, hs, ls, e1, e2, _⟩ := TF.Residual.residual_function_runs 6 1 3 fns hf (by decide) (by decide)
    ⟨false, fun j => decide (j = 1 ∨ j = 3), fun _ => true, 6⟩ (by decide) (by decide) rfl
  have hres : runResidual ⟨false, fun j => decide (j = 1 ∨ j = 3), fun _ => true, 6⟩ fns 3 = .ok ls := by
    unfold runResidual; rw [e1]; exact e2
  obtain ⟨R, hR⟩ := (dt_run_ok_iff 6 _ hd 3 (by decide) (by decide)
    ⟨false, false, true, 6, 6, ⟨false, fun j => decide (j = 1 ∨ j = 3), fun _ => true, 6⟩⟩ fns).2
    ⟨by decide, by decide, rfl, by decide, ls, hres⟩
  exact ⟨_, fns, R, hd, hf, hR⟩

/-- C54 is false: the epsilon term takes entry `k - 1` of a list that has no entries for the ranks missing
from the truncation: with singles and triples it fails with `IndexError`, with singles, triples and
quadruples it uses the expression of the quadruples for the triples. -/
theorem dt_epsilon_shifted : ∃ m, dtModule 6 = .ok m ∧
    epsilonAt m.epsilonPaths (fun j => decide (j = 1 ∨ j = 3)) 3 = none ∧
    epsilonAt m.epsilonPaths (fun j => decide (j = 1 ∨ j = 3 ∨ j = 4)) 3 = some (epsilonPath 4) := by
  refine ⟨_, dtModule_eq 6 (by decide), ?_, ?_⟩ <;> decide +kernel

end TF.Dt
