import Verif.Spec.DtValue
import Verif.Lemmas.Contract
import Verif.Props.WValue
import Verif.Props.Symmetrize
import Verif.Props.Dt
import Mathlib.Algebra.Module.Equiv.Basic

/-! # C74, C75: the arrays of the residual and derivative functions and the equation of motion -/

namespace TF.Dt

open TF.Py TF.W TF.Spec TF.Spec.W TF.Spec.Tensor TF.Spec.Dt TF.Tensor

variable {R : Type} [CommRing R]

/-! ## Choosing the modes of the Hamiltonian -/

theorem pick_compl {k : Nat} (v : Fin k → Nat) (g : Fin k → Fin 2) :
    block v g 0 = pick v (Finset.univ.filter fun i => g i = 0) ∧ block v g 1 = pick v (Finset.univ.filter fun i => g i = 0)ᶜ := by
  constructor
  · unfold block pick
    simp
  · unfold block pick
    congr 1
    refine List.filter_congr fun i _ => ?_
    have : g i = 0 ∨ g i = 1 := by omega
    rcases this with h | h <;> simp [h]

theorem sizes_two {k m : Nat} (hm : m ≤ k) (g : Fin k → Fin 2) : sizes g = [m, k - m] ↔ (Finset.univ.filter fun i => g i = 0).card = m := by
  have h1 : sizes g = [((List.finRange k).filter fun i => decide (g i = 0)).length, ((List.finRange k).filter fun i => decide (g i = 1)).length] := by
    unfold sizes
    simp [List.ofFn_succ]
  have h2 := sum_sizes g
  have h3 : ((List.finRange k).filter fun i => decide (g i = 0)).length = (Finset.univ.filter fun i => g i = 0).card := by
    rw [← List.toFinset_card_of_nodup ((List.nodup_finRange k).filter _)]
    congr 1
    ext i
    simp
  rw [h1] at h2 ⊢
  rw [h3] at h2 ⊢
  simp only [List.sum_cons, List.sum_nil, List.cons.injEq, and_true] at h2 ⊢
  omega

theorem sum_choose {k m : Nat} {M : Type} [AddCommMonoid M] (hm : m ≤ k) (v : Fin k → Nat) (G : List Nat → List Nat → M) :
    ∑ g ∈ Finset.univ.filter (fun g : Fin k → Fin 2 => sizes g = [m, k - m]), G (block v g 0) (block v g 1) =
      ∑ S ∈ Finset.univ.powersetCard m, G (pick v S) (pick v Sᶜ) := by
  classical
  refine Finset.sum_bij' (fun g _ => Finset.univ.filter fun i => g i = 0) (fun S _ i => if i ∈ S then 0 else 1) ?_ ?_ ?_ ?_ ?_
  · intro g hg
    rw [Finset.mem_powersetCard]
    exact ⟨Finset.subset_univ _, (sizes_two hm g).1 (Finset.mem_filter.1 hg).2⟩
  · intro S hS
    rw [Finset.mem_filter]
    refine ⟨Finset.mem_univ _, (sizes_two hm _).2 ?_⟩
    rw [← (Finset.mem_powersetCard.1 hS).2]
    congr 1
    ext i
    by_cases h : i ∈ S <;> simp [h]
  · intro g _
    funext i
    have : g i = 0 ∨ g i = 1 := by omega
    rcases this with h | h <;> simp [h]
  · intro S _
    ext i
    by_cases h : i ∈ S <;> simp [h]
  · intro g _
    rw [(pick_compl v g).1, (pick_compl v g).2]

/-- The sum over all permutations of a function of the first `m` and the other modes that depends only on
which modes they are. -/
theorem sum_split {k m : Nat} {M : Type} [AddCommMonoid M] (hm : m ≤ k) (v : Fin k → Nat) (G : List Nat → List Nat → M)
    (hG : ∀ I I' J J', I.length = m → J.length = k - m → I.Perm I' → J.Perm J' → G I J = G I' J') :
    ∑ π : Equiv.Perm (Fin k), G ((List.ofFn fun i => v (π i)).take m) ((List.ofFn fun i => v (π i)).drop m) =
      (m.factorial * (k - m).factorial) • ∑ S ∈ Finset.univ.powersetCard m, G (pick v S) (pick v Sᶜ) := by
  have hk : [m, k - m].sum = k := by simp; omega
  rw [← sum_choose hm]
  have := sum_perm (pieceFn [m, k - m] hk) fun g => G (block v g 0) (block v g 1)
  rw [sizes_pieceFn] at this
  rw [show (m.factorial * (k - m).factorial) = ([m, k - m].map Nat.factorial).prod by simp]
  refine Eq.trans ?_ (this.trans ?_)
  swap
  · congr 1
  refine Finset.sum_congr rfl fun π _ => ?_
  have c0 := cut_block [m, k - m] hk (fun i => v (π i)) ⟨0, by simp⟩ (by simp [cut])
  have c1 := cut_block [m, k - m] hk (fun i => v (π i)) ⟨1, by simp⟩ (by simp [cut])
  simp only [cut, List.getElem_cons_zero, List.getElem_cons_succ] at c0 c1
  rw [List.take_of_length_le (i := k - m) (by simp)] at c1
  have p0 := block_perm v (pieceFn [m, k - m] hk) π 0
  have p1 := block_perm v (pieceFn [m, k - m] hk) π 1
  refine hG _ _ _ _ (by simp; omega) (by simp) ?_ ?_
  · rw [c0]; exact p0
  · rw [c1]; exact p1

/-! ## The residual -/

variable [Algebra Rat R]

omit [Algebra Rat R] in
theorem mat_withIdentity_zero (A : Nat) (w : Nat → Arr R) : mat A (withIdentity w 0) [] = 1 := by
  ext a b
  unfold mat withIdentity
  simp [Matrix.one_apply, Fin.ext_iff]

/-- What a line adds: the contraction, the first modes on the Hamiltonian. -/
theorem lineValue_eq {p : Nat} {o : TF.Residual.HOp} {l : TF.Residual.Line} (hl : Residual.Adds p o l) (hp : o.m ≤ p) (A N : Nat) (h : Nat × Nat → Arr R)
    (w : Nat → Arr R) (x y : Fin A) (u : List Nat) (hu : u.length = p) :
    lineValue A N h w l (x.val :: y.val :: u) = Residual.coefficient o.m o.n p •
      (∑ K : Fin o.n → Fin N, mat A (h (o.m, o.n)) (List.ofFn (fun i => (K i).val) ++ u.take o.m) *
        mat A (withIdentity w (p - o.m + o.n)) (List.ofFn (fun i => (K i).val) ++ u.drop o.m)) x y := by
  obtain ⟨m, n⟩ := o
  unfold lineValue
  rw [hl.coefficient, hl.op]
  congr 1
  simp only [] at hp ⊢
  by_cases h0 : p - m + n = 0
  · rw [hl.alone h0, h0]
    simp only []
    have hn : n = 0 := by omega
    subst hn
    have hm : m = p := by omega
    have hd : u.drop m = [] := by rw [List.drop_eq_nil_iff]; omega
    have ht : u.take m = u := List.take_of_length_le (by omega)
    rw [hd, ht, Fintype.sum_unique]
    simp only [List.ofFn_zero, List.nil_append, mat_withIdentity_zero, mul_one]
    rfl
  · obtain ⟨ks, is, js, e, l1, l2, l3, hd⟩ := hl.product (by show 1 ≤ p - m + n; omega)
    change is.length = m at l2
    change js.length = p - m at l3
    change ks.length = n at l1
    rw [e]
    simp only []
    have := einsum_contract A N (h (m, n)) (w (p - m + n)) 'a' 'b' 'c' ks is js hd x y (u.take m) (u.drop m) (by simp; omega) (by simp; omega)
    rw [List.take_append_drop] at this
    rw [this]
    have hw : withIdentity w (p - m + n) = w (p - m + n) := by unfold withIdentity; rw [if_neg h0]
    rw [hw]
    subst l1
    rfl

/-- **C75.** What a line of the residual function contributes to the symmetrised residual: the part with `p`
modes of the product of the Hamiltonian term and the W operator. -/
theorem line_symmetrised {p : Nat} {o : TF.Residual.HOp} {l : TF.Residual.Line} (hl : Residual.Adds p o l) (hp : o.m ≤ p) (A N : Nat) (h : Nat × Nat → Arr R)
    (hh : UpperSymmetric o.m o.n (h (o.m, o.n))) (w : Nat → Arr R) (hw : ModeSymmetric (p - o.m + o.n) (withIdentity w (p - o.m + o.n)))
    (x y : Fin A) (v : Fin p → Nat) :
    symSum p (lineValue A N h w l) (x.val :: y.val :: List.ofFn v) =
      hamW A N (h (o.m, o.n)) (withIdentity w (p - o.m + o.n)) o.m o.n v x y := by
  rw [TF.W.symSum_at]
  have e := fun π : Equiv.Perm (Fin p) => lineValue_eq hl hp A N h w x y (List.ofFn fun i => v (π i)) (by simp)
  rw [Finset.sum_congr rfl fun π _ => e π, ← Finset.smul_sum, ← Matrix.sum_apply]
  rw [sum_split hp v fun I J => ∑ K : Fin o.n → Fin N, mat A (h (o.m, o.n)) (List.ofFn (fun i => (K i).val) ++ I) *
        mat A (withIdentity w (p - o.m + o.n)) (List.ofFn (fun i => (K i).val) ++ J)]
  · unfold hamW
    rw [Matrix.smul_apply, Matrix.smul_apply, ← Nat.cast_smul_eq_nsmul Rat, smul_smul]
    congr 1
    unfold Residual.coefficient
    have h1 : ((o.m.factorial : Nat) : Rat) ≠ 0 := by exact_mod_cast Nat.factorial_ne_zero _
    have h2 : ((o.n.factorial : Nat) : Rat) ≠ 0 := by exact_mod_cast Nat.factorial_ne_zero _
    have h3 : (((p - o.m).factorial : Nat) : Rat) ≠ 0 := by exact_mod_cast Nat.factorial_ne_zero _
    push_cast
    field_simp
  · intro I I' J J' hI hJ pI pJ
    refine Finset.sum_congr rfl fun K _ => ?_
    congr 1
    · funext a b
      exact hh a b _ I I' (by simp) hI pI
    · exact TF.W.mat_perm hw (by simp [hJ]; omega) (pJ.append_left _)

/-! ## The disconnected terms -/

theorem matrix_leibniz {A : Nat} (D : R →ₗ[Rat] R) (hD : ∀ x y, D (x * y) = D x * y + x * D y) (X Y : Matrix (Fin A) (Fin A) R) :
    (X * Y).map D = X.map D * Y + X * Y.map D := by
  ext i j
  simp only [Matrix.map_apply, Matrix.mul_apply, Matrix.add_apply, map_sum, hD, Finset.sum_add_distrib]

/-- The product rule for products of amplitudes. -/
theorem product_leibniz {A : Nat} (D : R →ₗ[Rat] R) (hD : ∀ x y, D (x * y) = D x * y + x * D y) (t : Nat → Arr R) (c l : List Nat) :
    (TF.W.product A t c l).map D = ((marks c).map fun o =>
      (List.zipWith (mat A) (o.map fun x => if x.der then fun v => D (t x.n v) else t x.n) (cut c l)).prod).sum := by
  have hone : D 1 = 0 := by
    have h1 := hD 1 1
    simp only [mul_one, one_mul] at h1
    have h2 : D 1 + 0 = D 1 + D 1 := by rw [add_zero]; exact h1
    exact (add_left_cancel h2).symm
  unfold TF.W.product
  induction c generalizing l with
  | nil =>
    ext i j
    simp only [cut, List.zipWith_nil_right, List.prod_nil, Matrix.map_apply, marks, List.map_nil, List.sum_nil, Matrix.zero_apply, Matrix.one_apply]
    split
    · exact hone
    · exact map_zero D
  | cons n c ih =>
    rw [cut, List.zipWith_cons_cons, List.prod_cons, matrix_leibniz D hD, ih, marks, List.map_cons, List.sum_cons, List.map_map]
    congr 1
    · rw [List.map_cons, List.zipWith_cons_cons, List.prod_cons, List.map_map]
      congr 1
      rw [List.zipWith_map_left]
      rfl
    · rw [← List.sum_map_mul_left]
      simp only [Function.comp_def, List.map_cons, List.zipWith_cons_cons, List.prod_cons]
      rfl

/-- The disconnected terms are the derivative of the products of amplitudes in W, entry by entry. -/
theorem disconnected_eq (D : R →ₗ[Rat] R) (hD : ∀ x y, D (x * y) = D x * y + x * D y) (A N : Nat) (t : Nat → Arr R) {k : Nat} (hk1 : 1 ≤ k) (hk6 : k ≤ 6)
    (ps : List (List Nat)) (hps : ∀ p ∈ ps, IsPartition k p) (x y : Fin A) (l : List Nat) (hl : l.length = k) :
    disconnected A N t (fun n v => D (t n v)) (ps.map (dblk (mkDs k))) (x.val :: y.val :: l) =
      D (added A N t (ps.map (doneOf (mkE k))) (x.val :: y.val :: l)) := by
  unfold disconnected added
  rw [map_list_sum, List.map_map, List.map_map, List.map_map]
  refine congrArg _ (List.map_congr_left fun p hp => ?_)
  simp only [Function.comp]
  rw [map_smul]
  congr 1
  unfold doneOf dblk
  simp only [Option.toList_none, List.map_nil, List.sum_nil, zero_add]
  rw [List.map_flatMap, List.flatMap_def, List.sum_flatten, List.map_map, map_list_sum, List.map_map, List.map_map]
  refine congrArg _ (List.map_congr_left fun c hc => ?_)
  have hcp := mem_combinations.1 hc
  have hmul := mkE_multiplies hk1 hk6 (hps p hp) hcp
  have hsum : l.length = c.sum := by rw [hl, hcp.sum_nat, (hps p hp).sum_eq]
  simp only [Function.comp]
  rw [TF.W.einsum_product A N t (mkE k c) hmul x y l hsum]
  have e1 := congrFun (congrFun (product_leibniz (A := A) D hD t c l) x) y
  rw [Matrix.map_apply] at e1
  refine Eq.trans ?_ e1.symm
  unfold mkDs
  rw [List.map_map]
  have hms : ∀ (L : List (Matrix (Fin A) (Fin A) R)), L.sum x y = (L.map fun X => X x y).sum := by
    intro L
    induction L with
    | nil => rfl
    | cons X L ih => rw [List.sum_cons, Matrix.add_apply, ih, List.map_cons, List.sum_cons]
  rw [hms, List.map_map]
  refine congrArg _ (List.map_congr_left fun o ho => ?_)
  rw [mem_marks] at ho
  simp only [Function.comp]
  unfold Spec.Dt.einsumValue
  refine TF.W.einsum_chain A N _ (mkE k c) hmul ?_ x y l hsum
  rw [List.length_map]
  show o.length = c.length
  rw [← ho.1, List.length_map]

/-! ## The derivative -/

omit [Algebra Rat R] in
theorem einsum_epsilon (A N : Nat) (w ε : Arr R) (vs : List Char) (hd : ('a' :: 'b' :: 'c' :: vs).Nodup) (x y : Fin A) (l : List Nat) (hl : vs.length = l.length) :
    einsum A N ([('a' :: 'c' :: vs), ['c', 'b']].zip [w, ε]) ('a' :: 'b' :: vs) (x.val :: y.val :: l) = (mat A w l * mat A ε []) x y := by
  have := einsum_contract A N w ε 'a' 'b' 'c' [] vs [] (by simpa using hd) x y l [] hl rfl
  rw [List.append_nil] at this
  refine Eq.trans (by simp) (this.trans ?_)
  show (∑ K : Fin 0 → Fin N, mat A w ([] ++ l) * mat A ε []) x y = _
  rw [Fintype.sum_unique]
  rfl

theorem fnOf_get {n k : Nat} (hk1 : 1 ≤ k) (hkn : k ≤ n) : ((range2 1 (n + 1)).map fnOf)[k - 1]? = some (fnOf k) := by
  have : (range2 1 (n + 1))[k - 1]? = some k := by
    unfold range2
    rw [List.getElem?_map, List.getElem?_range (by omega)]
    simp only [Option.map_some, Option.some.injEq]
    omega
  rw [List.getElem?_map, this]
  rfl

theorem returned_symSum {k : Nat} (X : Arr R) (a b : Nat) (v : Fin k → Nat) :
    W.returned (fnOf k) X (a :: b :: List.ofFn v) = symSum k X (a :: b :: List.ofFn v) := by
  by_cases h1 : k = 1
  · subst h1
    rw [TF.W.symSum_at, Finset.univ_unique, Finset.sum_singleton]
    rfl
  · have : (fnOf k).sym = some k := by unfold fnOf; rw [if_neg h1]
    unfold W.returned
    rw [this]

theorem returned_symmetric {k : Nat} (X : Arr R) : ModeSymmetric k (W.returned (fnOf k) X) := by
  intro a b l l' hl hp
  obtain ⟨u, rfl⟩ := TF.Sym.exists_ofFn l hl
  obtain ⟨v, rfl⟩ := TF.Sym.exists_ofFn l' (hp.length_eq.symm.trans hl)
  rw [returned_symSum, returned_symSum]
  exact TF.Sym.symSum_symmetric k X a b _ _ hl hp

theorem symSum_smul_symmetric {k : Nat} (X : Arr R) (hX : ModeSymmetric k X) (a b : Nat) (v : Fin k → Nat) :
    symSum k (fun u => (1 / (k.factorial : Rat)) • X u) (a :: b :: List.ofFn v) = X (a :: b :: List.ofFn v) := by
  have h := TF.Sym.symSum_of_symmetric k X hX a b (List.ofFn v) (by simp)
  rw [TF.W.symSum_at] at h ⊢
  rw [← Finset.smul_sum, h, ← Nat.cast_smul_eq_nsmul Rat, smul_smul]
  have : ((k.factorial : Nat) : Rat) ≠ 0 := by exact_mod_cast Nat.factorial_ne_zero _
  rw [one_div_mul_cancel this, one_smul]

theorem added_append (A N : Nat) (t : Nat → Arr R) (ds es : List (Done Einsum)) (v : List Nat) :
    added A N t (ds ++ es) v = added A N t ds v + added A N t es v := by
  unfold added
  rw [List.map_append, List.sum_append]

/-- **C74.** The derivative of the W operator: for every derivation `D` of the ring of numbers (the
derivative with respect to time), with `dt_j = D t_j` passed for the lower orders, the derivative of
the W operator of order `k` plus what the derivative code returns for order `k` is the derivative of the
amplitude of order `k` plus the symmetrised residual minus the product of W with epsilon.  So the code
returns the derivative of the amplitude exactly when the W operator obeys
`D W_k = symmetrised residual - W_k epsilon`. -/
theorem dt_value (nw : Nat) (mw : WModule) (hmw : wModule nw = .ok mw) (n : Nat) (m : DtModule) (hm : dtModule n = .ok m)
    (env : Spec.Dt.Env) (tlen : Nat) (hve : env.veci = true → env.mixed = false ∧ env.cc = false)
    (r : List (Nat × List (Done Einsum) × List (Done Einsum) × List (Done Einsum)))
    (hr : runMaster Einsum.ts ⟨env.mixed, env.cc, env.res.fl, tlen⟩ mw.vemx mw.vecc mw.fns mw.master = .ok r) (k : Nat)
    (a b c : List (Done Einsum)) (hk : (k, a, b, c) ∈ r) (hkn : k ≤ n) (hfl : ∀ j, 1 ≤ j → j < k → env.res.fl j = true)
    (resFns : List TF.Residual.Fn) (Q : Result DEinsum)
    (hQ : runSolver DEinsum.ts env resFns m.linked m.unlinked m.fns m.solvers k = .ok Q)
    (f : WFunction) (hf : mw.fns[k - 1]? = some f)
    (D : R →ₗ[Rat] R) (hD : ∀ x y, D (x * y) = D x * y + x * D y) (A N : Nat) (h : Nat × Nat → Arr R) (t w : Nat → Arr R) (ε : Arr R)
    (ht : ModeSymmetric k (t k)) (hw : w k = W.returned f (added A N t (a ++ b ++ c))) (x y : Fin A) (v : Fin k → Nat) :
    D (w k (x.val :: y.val :: List.ofFn v)) + Spec.Dt.returned A N h t (fun j u => D (t j u)) w ε Q (x.val :: y.val :: List.ofFn v) =
      D (t k (x.val :: y.val :: List.ofFn v)) + symSum k (residualValue A N h w Q.residual) (x.val :: y.val :: List.ofFn v) -
        (mat A (w k) (List.ofFn v) * mat A ε []) x y := by
  obtain ⟨hk1, hk6, rfl, rfl, rfl⟩ := w_run_explicit nw mw hmw _ r hr k a b c hk
  have hnw : nw ≤ 6 := by
    by_contra h
    rw [(module_generated_iff nw).2 (by omega)] at hmw; cases hmw
  obtain ⟨ks, hks, hle⟩ := (w_run_ok_iff nw mw hmw _).1 ⟨r, hr⟩
  have hkks : k ∈ ks := by
    have := (w_run_correct nw mw hmw _ r hr).1
    rw [hks] at this
    injection this with this
    rw [this]
    exact List.mem_map.2 ⟨_, hk, rfl⟩
  have hknw : k ≤ nw := (hle k hkks).1
  rw [wModule_eq nw hnw] at hmw
  injection hmw with hmw
  subst hmw
  have hfk : f = fnOf k := by
    have := fnOf_get hk1 hknw
    have hf' : ((range2 1 (nw + 1)).map fnOf)[k - 1]? = some f := hf
    rw [this] at hf'
    injection hf' with hf'
    exact hf'.symm
  subst hfk
  have hn := (dt_module_iff n).1 ⟨m, hm⟩
  rw [dtModule_eq n hn] at hm
  injection hm with hm
  subst hm
  obtain ⟨hflk, _, _, _, r', h5, rfl⟩ := (runSolver_ok_iff DEinsum.ts mkDs mkDs_ts env resFns n hk1 hkn Q).1 hQ
  have hlive : ∀ p, IsPartition k p ∧ p ≠ [k] → live env.res.fl p = true := by
    rintro p ⟨h1, h2⟩
    rw [live_iff h1 hk1]
    intro x hx _
    right
    exact hfl x (h1.pos x hx) (by have := part_linked h1 h2 hx; omega)
  have e : mixedDone mkE ⟨env.mixed, env.cc, env.res.fl, tlen⟩ k ++ ccDone mkE ⟨env.mixed, env.cc, env.res.fl, tlen⟩ k =
      (subtracted env k).map (doneOf (mkE k)) := by
    unfold mixedDone ccDone subtracted
    simp only []
    rw [List.filter_eq_self.2 fun p hp => hlive p (linked_mem hk1 p hp), List.filter_eq_self.2 fun p hp => hlive p (unlinked_mem hk1 p hp),
      List.map_append]
    cases hv : env.veci
    · congr 1 <;> (simp only [Bool.not_false, Bool.true_and]; split <;> rfl)
    · simp [(hve hv).1, (hve hv).2]
  have hveci : (veciDone ⟨env.mixed, env.cc, env.res.fl, tlen⟩ k : List (Done Einsum)) = [⟨prefOf [k], some k, []⟩] := by
    unfold veciDone
    rw [if_pos]
    have hpk : IsPartition k [k] := ⟨by simp, by simpa using hk1, by simp⟩
    rw [live_iff hpk hk1]
    intro x hx _
    right
    simp only [List.mem_singleton] at hx
    rw [hx]; exact hflk
  rw [List.append_assoc, e, hveci] at hw
  have hws : ModeSymmetric k (w k) := by rw [hw]; exact returned_symmetric _
  -- the W operator
  have hW : w k (x.val :: y.val :: List.ofFn v) = t k (x.val :: y.val :: List.ofFn v) +
      ∑ π : Equiv.Perm (Fin k), added A N t ((subtracted env k).map (doneOf (mkE k))) (x.val :: y.val :: List.ofFn fun i => v (π i)) := by
    rw [hw, returned_symSum, TF.W.symSum_at, Finset.sum_congr rfl fun π _ => added_append A N t _ _ _, Finset.sum_add_distrib]
    congr 1
    have : overFactorials (prefOf [k]) = 1 / (k.factorial : Rat) := by
      rw [prefOf_weight (by simp)]
      simp [weight]
    have h2 := symSum_smul_symmetric (t k) ht x.val y.val v
    rw [TF.W.symSum_at] at h2
    rw [← h2]
    refine Finset.sum_congr rfl fun π _ => ?_
    unfold added
    simp [this]
  -- the derivative code
  have hps : ∀ p ∈ subtracted env k, IsPartition k p := fun p hp => ((mem_subtracted env hk1 p).1 hp).1
  have hE : ∀ l : List Nat, l.length = k → einsum A N ((epsilonPath k).subs.zip [w k, ε]) (epsilonPath k).out (x.val :: y.val :: l) = (mat A (w k) l * mat A ε []) x y := by
    intro l hl
    refine einsum_epsilon A N (w k) ε (modeTags.take k) ?_ x y l ?_
    · exact List.Sublist.nodup (((List.take_sublist k modeTags).cons_cons _).cons_cons _ |>.cons_cons _) (by decide)
    · rw [List.length_take, show modeTags.length = 8 from rfl]; omega
  have hret : Spec.Dt.returned A N h t (fun j u => D (t j u)) w ε ⟨r', (k, k, epsilonPath k), linkedDone mkDs env k, unlinkedDone mkDs env k, k⟩
        (x.val :: y.val :: List.ofFn v) =
      symSum k (residualValue A N h w r') (x.val :: y.val :: List.ofFn v) - (mat A (w k) (List.ofFn v) * mat A ε []) x y -
        ∑ π : Equiv.Perm (Fin k), D (added A N t ((subtracted env k).map (doneOf (mkE k))) (x.val :: y.val :: List.ofFn fun i => v (π i))) := by
    unfold Spec.Dt.returned
    simp only []
    rw [done_subtracted, TF.W.symSum_at, Finset.sum_sub_distrib, Finset.sum_sub_distrib, ← TF.W.symSum_at k (residualValue A N h w r')]
    congr 1
    · congr 1
      have e3 : ∀ π : Equiv.Perm (Fin k), (mat A (w k) (List.ofFn fun i => v (π i)) * mat A ε []) x y = (mat A (w k) (List.ofFn v) * mat A ε []) x y := by
        intro π
        have e4 : mat A (w k) (List.ofFn fun i => v (π i)) = mat A (w k) (List.ofFn v) := TF.W.mat_perm hws (by simp) (π.ofFn_comp_perm v)
        rw [e4]
      rw [Finset.sum_congr rfl fun π _ => (congrArg ((1 / (k.factorial : Rat)) • ·) ((hE (List.ofFn fun i => v (π i)) (by simp)).trans (e3 π)))]
      rw [Finset.sum_const, Finset.card_univ, Fintype.card_perm, Fintype.card_fin, ← Nat.cast_smul_eq_nsmul Rat, smul_smul]
      have : ((k.factorial : Nat) : Rat) ≠ 0 := by exact_mod_cast Nat.factorial_ne_zero _
      rw [mul_one_div_cancel this, one_smul]
    · exact Finset.sum_congr rfl fun π _ => disconnected_eq D hD A N t hk1 hk6 _ hps x y _ (by simp)
  rw [hret, hW, map_add, map_sum]
  ring

/-! ## The equation of motion -/

theorem list_sum_terms {M : Type} [AddCommMonoid M] (hs : List TF.Residual.HOp) (hnd : hs.Nodup) (s : Finset (Nat × Nat))
    (hmem : ∀ m n, ⟨m, n⟩ ∈ hs ↔ (m, n) ∈ s) (F : Nat × Nat → M) : (hs.map fun o => F (o.m, o.n)).sum = ∑ o ∈ s, F o := by
  classical
  have h1 : (hs.map fun o => (o.m, o.n)).Nodup := hnd.map (by
    rintro ⟨a, b⟩ ⟨c, d⟩ h
    simp only [Prod.mk.injEq] at h
    rw [h.1, h.2])
  have h2 : (hs.map fun o => (o.m, o.n)).toFinset = s := by
    ext ⟨m, n⟩
    rw [List.mem_toFinset, List.mem_map, ← hmem]
    constructor
    · rintro ⟨⟨a, b⟩, ho, h⟩
      simp only [Prod.mk.injEq] at h
      rw [← h.1, ← h.2]; exact ho
    · intro h; exact ⟨_, h, rfl⟩
  rw [← h2, List.sum_toFinset _ h1, List.map_map]
  rfl

theorem symSum_residual {k : Nat} (A N : Nat) (h : Nat × Nat → Arr R) (w : Nat → Arr R) (hs : List TF.Residual.HOp) (ls : List TF.Residual.Line)
    (hadd : List.Forall₂ (Residual.Adds k) hs ls) (hle : ∀ o ∈ hs, o.m ≤ k) (hh : ∀ m n, UpperSymmetric m n (h (m, n)))
    (hw : ∀ o ∈ hs, ModeSymmetric (k - o.m + o.n) (withIdentity w (k - o.m + o.n))) (x y : Fin A) (v : Fin k → Nat) :
    symSum k (residualValue A N h w ls) (x.val :: y.val :: List.ofFn v) =
      (hs.map fun o => hamW A N (h (o.m, o.n)) (withIdentity w (k - o.m + o.n)) o.m o.n v x y).sum := by
  rw [TF.W.symSum_at]
  unfold residualValue
  induction hadd with
  | nil => simp
  | cons h1 h2 ih =>
    rename_i o l hs ls
    simp only [List.map_cons, List.sum_cons]
    rw [Finset.sum_add_distrib, ih (fun o ho => hle o (by simp [ho])) (fun o ho => hw o (by simp [ho])), ← TF.W.symSum_at,
      line_symmetrised h1 (hle o (by simp)) A N h (hh _ _) w (hw o (by simp))]

theorem withIdentity_symmetric (w : Nat → Arr R) (j : Nat) (h : 1 ≤ j → ModeSymmetric j (w j)) : ModeSymmetric j (withIdentity w j) := by
  unfold withIdentity
  split
  · rename_i h0
    subst h0
    intro a b l l' _ _
    rfl
  · exact h (by omega)

/-- **C75.** The symmetrised residual of order `k ≤ 4` (any caller with enough W operators, singles computed
and the truncation flag set, any arrays): the sum of the parts with `k` modes of `h^m_n W` over the Hamiltonian terms that
belong to it - except that `h^2_0 W` is missing in the orders 2 and 3 if W of order `k + 2` was passed. -/
theorem residual_value (nr rank k : Nat) (fns : List TF.Residual.Fn) (hf : TF.Residual.residualModule nr rank = .ok fns) (hk : k ≤ 4) (hkn : k ≤ nr)
    (env : Residual.Env) (hwl : k + 2 ≤ env.wlen) (hg : env.fl (max k 1) = true) (h1 : env.present 1 = true)
    (A N : Nat) (h : Nat × Nat → Arr R) (hh : ∀ m n, UpperSymmetric m n (h (m, n))) (w : Nat → Arr R) (hw : ∀ j, 1 ≤ j → env.present j = true → ModeSymmetric j (w j)) :
    ∃ ls, runResidual env fns k = .ok ls ∧ ∃ s : Finset (Nat × Nat),
      (∀ m n, (m, n) ∈ s ↔ Residual.Belongs env rank k ⟨m, n⟩ ∧ ¬ ((m, n) = (2, 0) ∧ (k = 2 ∨ k = 3) ∧ env.present (k + 2) = true)) ∧
      ∀ (x y : Fin A) (v : Fin k → Nat), symSum k (residualValue A N h w ls) (x.val :: y.val :: List.ofFn v) =
        ∑ o ∈ s, hamW A N (h o) (withIdentity w (k - o.1 + o.2)) o.1 o.2 v x y := by
  obtain ⟨f, hs, ls, e1, e2, e3, e4, e5⟩ := TF.Residual.residual_function_runs nr rank k fns hf hk hkn env hwl hg h1
  refine ⟨ls, by unfold runResidual; rw [e1]; exact e2, (hs.map fun o => (o.m, o.n)).toFinset, ?_, ?_⟩
  · intro m n
    rw [List.mem_toFinset, List.mem_map]
    constructor
    · rintro ⟨⟨a, b⟩, ho, h⟩
      simp only [Prod.mk.injEq] at h
      obtain ⟨rfl, rfl⟩ := h
      simpa using (e5 _).1 ho
    · intro h
      exact ⟨⟨m, n⟩, (e5 _).2 (by simpa using h), rfl⟩
  · intro x y v
    rw [symSum_residual A N h w hs ls e4 (fun o ho => ((e5 o).1 ho).1.upper) hh
      (fun o ho => withIdentity_symmetric w _ fun hj => hw _ hj (((e5 o).1 ho).1.computed hj)) x y v]
    refine list_sum_terms hs e3 _ ?_ fun o => hamW A N (h o) (withIdentity w (k - o.1 + o.2)) o.1 o.2 v x y
    intro m n
    rw [List.mem_toFinset, List.mem_map]
    constructor
    · intro h; exact ⟨_, h, rfl⟩
    · rintro ⟨⟨a, b⟩, ho, h⟩
      simp only [Prod.mk.injEq] at h
      rw [← h.1, ← h.2]; exact ho

/-- The equation the three generated modules solve together, for every order up to 4 and every truncation
with all ranks up to the order: the derivative code returns the derivative of the amplitude of order `k` exactly when
`D W_k = sum (h^m_n W)_k - W_k epsilon`, the sum over the Hamiltonian terms - without
`h^2_0` in the orders 2 and 3. -/
theorem equation_of_motion (nw : Nat) (mw : WModule) (hmw : wModule nw = .ok mw) (nr rank : Nat) (fns : List TF.Residual.Fn)
    (hfns : TF.Residual.residualModule nr rank = .ok fns) (n : Nat) (m : DtModule) (hm : dtModule n = .ok m)
    (veci mixed cc : Bool) (hve : veci = true → mixed = false ∧ cc = false) (q : Bool) (fl : Nat → Bool) (tlenW tlen dtlen : Nat)
    (r : List (Nat × List (Done Einsum) × List (Done Einsum) × List (Done Einsum)))
    (hr : runMaster Einsum.ts ⟨mixed, cc, fl, tlenW⟩ mw.vemx mw.vecc mw.fns mw.master = .ok r)
    (k : Nat) (hk1 : 1 ≤ k) (hk4 : k ≤ 4) (hkn : k ≤ n) (hkr : k ≤ nr) (hfl : ∀ j, 1 ≤ j → j ≤ k → fl j = true) (Q : Result DEinsum)
    (hQ : runSolver DEinsum.ts ⟨veci, mixed, cc, tlen, dtlen, Residual.afterW q fl (r.map Prod.fst)⟩ fns m.linked m.unlinked m.fns m.solvers k = .ok Q)
    (D : R →ₗ[Rat] R) (hD : ∀ x y, D (x * y) = D x * y + x * D y) (A N : Nat) (h : Nat × Nat → Arr R) (hh : ∀ m n, UpperSymmetric m n (h (m, n)))
    (t w : Nat → Arr R) (ε : Arr R) (ht : ModeSymmetric k (t k))
    (hw : ∀ j a b c f, (j, a, b, c) ∈ r → mw.fns[j - 1]? = some f → w j = W.returned f (added A N t (a ++ b ++ c)))
    (x y : Fin A) (v : Fin k → Nat) :
    Spec.Dt.returned A N h t (fun j u => D (t j u)) w ε Q (x.val :: y.val :: List.ofFn v) = D (t k (x.val :: y.val :: List.ofFn v)) ↔
      D (w k (x.val :: y.val :: List.ofFn v)) =
        ∑ o ∈ (hamiltonianTerms rank q).filter (fun o => ¬ (o = (2, 0) ∧ (k = 2 ∨ k = 3))),
          hamW A N (h o) (withIdentity w (k - o.1 + o.2)) o.1 o.2 v x y -
        (mat A (w k) (List.ofFn v) * mat A ε []) x y := by
  have horders := (w_run_correct nw mw hmw _ r hr).1
  have hpres := TF.Residual.afterW_present nw mw hmw q fl _ horders
  have hnw : nw ≤ 6 := by
    by_contra h
    rw [(module_generated_iff nw).2 (by omega)] at hmw; cases hmw
  obtain ⟨ks, hks, hle⟩ := (w_run_ok_iff nw mw hmw _).1 ⟨r, hr⟩
  have hks' : ks = r.map Prod.fst := by
    rw [hks] at horders
    injection horders
  have hin : ∀ j, (Residual.afterW q fl (r.map Prod.fst)).present j = true → 1 ≤ j ∧ ∃ a b c, (j, a, b, c) ∈ r ∧ mw.fns[j - 1]? = some (fnOf j) := by
    intro j hj
    have hj' : j ∈ r.map Prod.fst := by
      have : decide (j ∈ r.map Prod.fst) = true := hj
      simpa using this
    obtain ⟨⟨j', a, b, c⟩, hmem, rfl⟩ := List.mem_map.1 hj'
    have hj1 : 1 ≤ j' := (w_run_explicit nw mw hmw _ r hr j' a b c hmem).1
    refine ⟨hj1, a, b, c, hmem, ?_⟩
    have hjn : j' ≤ nw := (hle j' (hks' ▸ hj')).1
    rw [wModule_eq nw hnw] at hmw
    injection hmw with hmw
    subst hmw
    exact fnOf_get hj1 hjn
  have hsym : ∀ j, 1 ≤ j → (Residual.afterW q fl (r.map Prod.fst)).present j = true → ModeSymmetric j (w j) := by
    intro j _ hj
    obtain ⟨_, a, b, c, hmem, hf⟩ := hin j hj
    rw [hw j a b c _ hmem hf]
    exact returned_symmetric _
  have hp : (Residual.afterW q fl (r.map Prod.fst)).present k = true := by
    rw [hpres]
    obtain rfl | rfl | rfl | rfl : k = 1 ∨ k = 2 ∨ k = 3 ∨ k = 4 := by omega
    · simp
    · simp
    · simp
    · simp [hfl 2 (by omega) (by omega)]
  obtain ⟨_, a, b, c, hmem, hf⟩ := hin k hp
  have key := dt_value nw mw hmw n m hm ⟨veci, mixed, cc, tlen, dtlen, Residual.afterW q fl (r.map Prod.fst)⟩ tlenW hve r hr k a b c hmem hkn
    (fun j h1 h2 => hfl j h1 (by omega)) fns Q hQ (fnOf k) hf D hD A N h t w ε ht (hw k a b c _ hmem hf) x y v
  obtain ⟨ls, hls, s, hs, hsum⟩ := residual_value nr rank k fns hfns hk4 hkr (Residual.afterW q fl (r.map Prod.fst)) (by show k + 2 ≤ 6; omega)
    (hfl (max k 1) (by omega) (by omega)) ((hpres 1).2 (.inl rfl)) A N h hh w hsym
  have hQr := (dt_run_correct n m hm k hk1 hkn _ fns Q hQ).1
  have hQr' : Q.residual = ls := by
    rw [show runResidual _ fns k = _ from hls] at hQr
    injection hQr with hQr
    exact hQr.symm
  rw [hQr', hsum] at key
  have hrank := ((TF.Residual.residual_module_iff nr rank).1 ⟨fns, hfns⟩).2
  have hsets : ∑ o ∈ s, hamW A N (h o) (withIdentity w (k - o.1 + o.2)) o.1 o.2 v x y =
      ∑ o ∈ (hamiltonianTerms rank q).filter (fun o => ¬ (o = (2, 0) ∧ (k = 2 ∨ k = 3))), hamW A N (h o) (withIdentity w (k - o.1 + o.2)) o.1 o.2 v x y := by
    refine Finset.sum_subset ?_ ?_
    · rintro ⟨m, n⟩ ho
      obtain ⟨hb, hno⟩ := (hs m n).1 ho
      unfold hamiltonianTerms
      have h1 := hb.rank
      have h2 := hb.quadratic
      simp only [] at h1 h2
      simp only [Finset.mem_filter, Finset.mem_product, Finset.mem_range]
      refine ⟨⟨⟨by omega, by omega⟩, h1, fun h => h2 ⟨h.1, ?_⟩⟩, fun h => hno ⟨h.1, h.2, ?_⟩⟩
      · intro he; apply h.2
        injection he with a b
        rw [a, b]
      · rw [hpres]
        rcases h.2 with rfl | rfl
        · simp [hfl 2 (by omega) (by omega)]
        · simp [hfl 2 (by omega) (by omega), hfl 3 (by omega) (by omega)]
    · rintro ⟨m, n⟩ ho hns
      have hmk : k < m := by
        by_contra hmk
        apply hns
        rw [hs]
        unfold hamiltonianTerms at ho
        simp only [Finset.mem_filter, Finset.mem_product, Finset.mem_range] at ho
        obtain ⟨⟨⟨_, _⟩, h3, h4⟩, h5⟩ := ho
        refine ⟨(TF.Residual.pipeline_operators nw mw hmw q fl _ horders rank k hrank hk4 hfl ⟨m, n⟩).2 ⟨h3, by simp only []; omega, fun hh => h4 ⟨hh.1, ?_⟩⟩, fun h => h5 ⟨h.1, h.2.1⟩⟩
        intro he; apply hh.2
        injection he with a b
        rw [a, b]
      unfold hamW
      rw [Finset.powersetCard_eq_empty.2 (by simpa using hmk), Finset.sum_empty, smul_zero]
      rfl
  rw [hsets] at key
  constructor
  · intro hret
    rw [hret] at key
    linear_combination key
  · intro hD'
    rw [hD'] at key
    linear_combination key

/-- **C76** (partial: Hamiltonians of rank up to 1, linear truncations, or orders 1 and 4; in the other orders
up to 4 `equation_of_motion` shows that the term `h^2_0 W` is missing, and from order 5 on the calls raise): the
derivative code returns the derivative of the amplitude exactly when the W operator obeys
`D W_k = (H W)_k - W_k epsilon` with the whole Hamiltonian. -/
theorem equation_of_motion_partial (nw : Nat) (mw : WModule) (hmw : wModule nw = .ok mw) (nr rank : Nat) (fns : List TF.Residual.Fn)
    (hfns : TF.Residual.residualModule nr rank = .ok fns) (n : Nat) (m : DtModule) (hm : dtModule n = .ok m)
    (veci mixed cc : Bool) (hve : veci = true → mixed = false ∧ cc = false) (q : Bool) (fl : Nat → Bool) (tlenW tlen dtlen : Nat)
    (r : List (Nat × List (Done Einsum) × List (Done Einsum) × List (Done Einsum)))
    (hr : runMaster Einsum.ts ⟨mixed, cc, fl, tlenW⟩ mw.vemx mw.vecc mw.fns mw.master = .ok r)
    (k : Nat) (hk1 : 1 ≤ k) (hk4 : k ≤ 4) (hkn : k ≤ n) (hkr : k ≤ nr) (hfl : ∀ j, 1 ≤ j → j ≤ k → fl j = true)
    (hc : rank ≤ 1 ∨ q = false ∨ k = 1 ∨ k = 4) (Q : Result DEinsum)
    (hQ : runSolver DEinsum.ts ⟨veci, mixed, cc, tlen, dtlen, Residual.afterW q fl (r.map Prod.fst)⟩ fns m.linked m.unlinked m.fns m.solvers k = .ok Q)
    (D : R →ₗ[Rat] R) (hD : ∀ x y, D (x * y) = D x * y + x * D y) (A N : Nat) (h : Nat × Nat → Arr R) (hh : ∀ m n, UpperSymmetric m n (h (m, n)))
    (t w : Nat → Arr R) (ε : Arr R) (ht : ModeSymmetric k (t k))
    (hw : ∀ j a b c f, (j, a, b, c) ∈ r → mw.fns[j - 1]? = some f → w j = W.returned f (added A N t (a ++ b ++ c)))
    (x y : Fin A) (v : Fin k → Nat) :
    Spec.Dt.returned A N h t (fun j u => D (t j u)) w ε Q (x.val :: y.val :: List.ofFn v) = D (t k (x.val :: y.val :: List.ofFn v)) ↔
      D (w k (x.val :: y.val :: List.ofFn v)) =
        ∑ o ∈ hamiltonianTerms rank q, hamW A N (h o) (withIdentity w (k - o.1 + o.2)) o.1 o.2 v x y -
        (mat A (w k) (List.ofFn v) * mat A ε []) x y := by
  rw [equation_of_motion nw mw hmw nr rank fns hfns n m hm veci mixed cc hve q fl tlenW tlen dtlen r hr k hk1 hk4 hkn hkr hfl Q hQ D hD A N h hh t w ε ht hw x y v]
  rw [Finset.filter_true_of_mem]
  rintro ⟨a, b⟩ ho ⟨he, hk⟩
  unfold hamiltonianTerms at ho
  simp only [Finset.mem_filter, Finset.mem_product, Finset.mem_range] at ho
  injection he with h1 h2
  subst h1; subst h2
  obtain ⟨_, h3, h4⟩ := ho
  have := h4 ⟨rfl, by simp⟩
  rcases hc with hc | hc | hc | hc
  · omega
  · rw [hc] at this; cases this
  · omega
  · omega

/-- hypotheses of `dt_value`, `equation_of_motion` and `equation_of_motion_partial`: VECC with singles and doubles, order 2,
a Hamiltonian of rank 2, polynomials in the time as numbers with their derivative, arrays
depending on every mode -/
theorem pipeline_example : ∃ (mw : WModule) (m : DtModule) (fns : List TF.Residual.Fn) (r : List (Nat × List (Done Einsum) × List (Done Einsum) × List (Done Einsum)))
    (Q : Result DEinsum) (h : Nat × Nat → Arr (Polynomial Rat)) (t w : Nat → Arr (Polynomial Rat)),
    wModule 6 = .ok mw ∧ dtModule 6 = .ok m ∧ TF.Residual.residualModule 6 2 = .ok fns ∧
    runMaster Einsum.ts ⟨false, true, fun j => decide (j ≤ 2), 6⟩ mw.vemx mw.vecc mw.fns mw.master = .ok r ∧ 2 ∈ r.map Prod.fst ∧
    runSolver DEinsum.ts ⟨false, false, true, 2, 2, Residual.afterW false (fun j => decide (j ≤ 2)) (r.map Prod.fst)⟩ fns
      m.linked m.unlinked m.fns m.solvers 2 = .ok Q ∧
    (∀ x y : Polynomial Rat, Polynomial.derivative (x * y) = Polynomial.derivative x * y + x * Polynomial.derivative y) ∧
    (∀ m n, UpperSymmetric m n (h (m, n))) ∧ ModeSymmetric 2 (t 2) ∧
    (∀ j a b c f, (j, a, b, c) ∈ r → mw.fns[j - 1]? = some f → w j = W.returned f (added 2 3 t (a ++ b ++ c))) ∧
    hamiltonianTerms 2 false = {(0, 0), (0, 1), (1, 0), (1, 1)} := by
  obtain ⟨fns, hf⟩ := (TF.Residual.residual_module_iff 6 2).2 (by decide)
  have hw := wModule_eq 6 (by decide)
  have hd := dtModule_eq 6 (by decide)
  have ho : masterOrders (moduleOf 6).master (fun j => decide (j ≤ 2)) = .ok [1, 2, 3, 4] := by
    rw [(w_orders 6 _ hw _).1]; rfl
  obtain ⟨r, hr⟩ := (w_run_ok_iff 6 _ hw ⟨false, true, fun k => decide (k ≤ 2), 6⟩).2 ⟨[1, 2, 3, 4], ho, by decide⟩
  have h1 := (w_run_correct 6 _ hw _ r hr).1
  rw [show masterOrders (moduleOf 6).master (Spec.W.Env.fl ⟨false, true, fun k => decide (k ≤ 2), 6⟩) = _ from ho] at h1
  have h2 : [1, 2, 3, 4] = r.map Prod.fst := Except.ok.inj h1
  obtain ⟨Q, hQ⟩ := (dt_pipeline_partial 6 _ hw false _ _ ho 6 2 fns hf 6 _ hd 2 (by decide) (by decide) (by decide) (by decide)
    (by decide +revert) false false true 2 2).2 (by decide)
  rw [h2] at hQ
  let t : Nat → Arr (Polynomial Rat) := fun j v => Polynomial.X ^ (j + v.sum)
  let E : Spec.W.Env := ⟨false, true, fun k => decide (k ≤ 2), 6⟩
  refine ⟨_, _, fns, r, Q, fun o v => Polynomial.X ^ (o.1 + v.sum), t,
    fun j => W.returned (fnOf j) (added 2 3 t (veciDone E j ++ mixedDone mkE E j ++ ccDone mkE E j)), hw, hd, hf, hr,
    by rw [← h2]; decide, hQ, fun x y => Polynomial.derivative_mul, ?_, ?_, ?_, by decide⟩
  · intro m n a b K I I' _ _ h
    simp [h.sum_eq]
  · intro a b l l' _ h
    simp [t, h.sum_eq]
  · intro j a b c f hmem hfj
    have hj : j ∈ [1, 2, 3, 4] := by rw [h2]; exact List.mem_map.2 ⟨_, hmem, rfl⟩
    obtain ⟨hj1, hj6, rfl, rfl, rfl⟩ := w_run_explicit 6 _ hw _ r hr j a b c hmem
    have : (moduleOf 6).fns[j - 1]? = some (fnOf j) := fnOf_get hj1 hj6
    rw [this] at hfj
    rw [← Option.some.inj hfj]

end TF.Dt
