import Verif.Lemmas.WLatex
import Verif.Props.FullCC.Latex
import Mathlib.Tactic.FieldSimp
import Mathlib.Tactic.NormNum

/-! # Properties of the generated W-operator equations (C25, C26, C42-C46) -/

namespace TF.W

open TF.Py TF.Helper TF.Spec TF.Spec.W

/-! ## C25 -/

/-- C25: for every partition of an order up to 6 the code writes one einsum per distinct ordering of
the factors, every one of them a correct product: electronic chain from `a` to `b`, as many vibrational
letters as the amplitude has modes, all of them kept in the result, no letter used twice. -/
theorem einsums_exact (k : Nat) (hk1 : 1 ≤ k) (hk2 : k ≤ 6) (p : List Nat) (hp : p ∈ partitions k) :
    ∃ es, einsumList p k = .ok es ∧ (es.map Einsum.ts).Nodup ∧ (∀ c, c ∈ es.map Einsum.ts ↔ c.Perm p) ∧
      ∀ e ∈ es, ∃ mid vs, Multiplies e mid vs := by
  rw [partitions_exact k hk1] at hp
  have hts : ((combinations p).map (mkE k)).map Einsum.ts = combinations p := by
    rw [List.map_map]; exact List.map_id _
  refine ⟨_, einsumList_eq hk1 hk2 hp, ?_, ?_, ?_⟩
  · rw [hts]; exact nodup_combinations p
  · intro c; rw [hts]; exact mem_combinations
  · intro e he
    obtain ⟨c, hc, rfl⟩ := List.mem_map.1 he
    exact ⟨_, _, mkE_multiplies hk1 hk2 hp (mem_combinations.1 hc)⟩

example : (3 ≤ 6) ∧ [2, 1] ∈ partitions 3 ∧ einsumList [2, 1] 3 = .ok
    [⟨[['a', 'c', 'i'], ['c', 'b', 'j', 'k']], ['a', 'b', 'i', 'j', 'k'], [1, 2]⟩,
     ⟨[['a', 'c', 'i', 'j'], ['c', 'b', 'k']], ['a', 'b', 'i', 'j', 'k'], [2, 1]⟩] := by decide +kernel

/-- C25: the number of einsums of a partition is the number of distinct orderings,
`k!/prod (multiplicity)!`. -/
theorem einsums_number (k : Nat) (hk1 : 1 ≤ k) (hk2 : k ≤ 6) (p : List Nat) (hp : p ∈ partitions k)
    (es : List Einsum) (he : einsumList p k = .ok es) :
    es.length * ((multiplicities p).map Nat.factorial).prod = p.length.factorial := by
  obtain ⟨es', h1, h2, h3, _⟩ := einsums_exact k hk1 hk2 p hp
  rw [h1] at he
  injection he with he
  subst he
  rw [prod_multiplicities, ← List.length_map (f := Einsum.ts)]
  exact Lemmas.length_rearrangements p _ h2 h3

/-- C25: above order 6 no einsum is written: the code raises `NotImplementedError`. -/
theorem einsums_above (k : Nat) (hk : 6 < k) (p : List Nat) (hp : p ∈ partitions k) :
    einsumList p k = .error .notImplemented := by
  rw [partitions_exact k (by omega)] at hp
  have hl := partition_length (by omega) hp
  have hm : modeIndex p k = .error .notImplemented := by unfold modeIndex; rw [if_pos hk]
  unfold einsumList
  by_cases h : p.length ≤ 8
  · rw [surfaceIndex_eq p hl.1 h, hm]
  · have : surfaceIndex p = .error .notImplemented := by unfold surfaceIndex; rw [if_pos (by omega)]
    rw [this]

example : 6 < 7 ∧ [4, 3] ∈ partitions 7 := by decide +kernel

/-! ## C26 -/

/-- C26: the prefactor written for a product is `1/k!` from the Taylor series times `1/n!` for every
amplitude, for every non-empty tuple of orders. -/
theorem w_prefactor_value (p : List Nat) (hne : p ≠ []) :
    ∃ l, prefactor p = .ok l ∧ overFactorials l = weight p :=
  ⟨_, prefactor_eq hne, prefOf_weight hne⟩

example : prefactor [2, 1, 1] = .ok [3, 2] ∧ overFactorials [3, 2] = 1 / 12 := by
  refine ⟨by decide, ?_⟩
  norm_num [overFactorials, Nat.factorial]

/-- C26, boundary: the empty tuple raises `ValueError` (`max` of an empty sequence). -/
theorem w_prefactor_empty : prefactor [] = .error .value := rfl

/-- C26: Python and LaTeX agree: the number of einsums times the Python prefactor is the LaTeX prefactor
times `1/n!` for every amplitude (the LaTeX amplitudes carry no `1/n!`). -/
theorem w_code_latex_agree (k : Nat) (hk1 : 1 ≤ k) (hk2 : k ≤ 6) (p : List Nat) (hp : p ∈ partitions k)
    (es : List Einsum) (he : einsumList p k = .ok es) (l : List Nat) (hl : prefactor p = .ok l) :
    es.length * overFactorials l = overFactorials (latexTerm p).pref * overFactorials p := by
  have hne : p ≠ [] := partitions_ne_nil hk1 ((partitions_exact k hk1 p).1 hp)
  have h := einsums_number k hk1 hk2 p hp es he
  rw [prefactor_eq hne] at hl
  injection hl with hl
  subst hl
  rw [prefOf_weight hne, (latexTerm_prints p).prefactor]
  unfold weight overFactorials
  rw [← h]
  have h1 : ((multiplicities p).map Nat.factorial).prod ≠ 0 := by
    intro hz; rw [hz, Nat.mul_zero] at h; exact absurd h.symm (Nat.factorial_ne_zero _)
  have h2 : (p.map Nat.factorial).prod ≠ 0 := by
    apply List.prod_ne_zero
    intro hm
    obtain ⟨x, _, hx⟩ := List.mem_map.1 hm
    exact Nat.factorial_ne_zero _ hx
  have h3 : es.length ≠ 0 := by
    intro hz; rw [hz, Nat.zero_mul] at h; exact absurd h.symm (Nat.factorial_ne_zero _)
  have h1' : (((multiplicities p).map Nat.factorial).prod : Rat) ≠ 0 := by exact_mod_cast h1
  have h2' : ((p.map Nat.factorial).prod : Rat) ≠ 0 := by exact_mod_cast h2
  have h3' : (es.length : Rat) ≠ 0 := by exact_mod_cast h3
  push_cast
  field_simp

example : ∃ es l, [2, 2] ∈ partitions 4 ∧ einsumList [2, 2] 4 = .ok es ∧ prefactor [2, 2] = .ok l :=
  ⟨_, _, by decide +kernel, rfl, rfl⟩

/-- C26: the LaTeX prefactor of a product is `1/prod (multiplicity)!` over its distinct amplitudes, and
the printed powers multiply out to the product, for every list of amplitudes. -/
theorem w_latex_prefactor {α : Type} [DecidableEq α] (l : List α) : Prints l (latexTerm l) := latexTerm_prints l

example : latexTerm [2, 2, 1, 1, 1] = ⟨[2, 3], [(2, 2), (1, 3)]⟩ := by decide

/-! ## C42: the module computes the W operators -/

/-- C42: the module is generated exactly for maximum orders up to 6; above, `NotImplementedError`. -/
theorem module_generated_iff (n : Nat) :
    (n ≤ 6 → ∃ m, wModule n = .ok m) ∧ (6 < n → wModule n = .error .notImplemented) := by
  refine ⟨fun h => ⟨_, wModule_eq n h⟩, fun h => ?_⟩
  have : collect ((range2 1 (n + 1)).map (vemx einsumList)) = .error .notImplemented := by
    cases hc : collect ((range2 1 (n + 1)).map (vemx einsumList)) with
    | ok r =>
      rw [collect_ok_iff] at hc
      have h7 : vemx einsumList 7 ∈ (range2 1 (n + 1)).map (vemx einsumList) :=
        List.mem_map.2 ⟨7, by rw [mem_range2]; omega, rfl⟩
      rw [hc] at h7
      obtain ⟨b, _, hb⟩ := List.mem_map.1 h7
      cases hb
    | error e =>
      have := collect_error _ _ hc
      obtain ⟨k, hk, he⟩ := List.mem_map.1 this
      rw [mem_range2] at hk
      by_cases h6 : k ≤ 6
      · rw [vemx_eq einsumList (mkE k) hk.1 h6 fun p hp => einsumList_eq hk.1 h6 hp] at he; cases he
      · unfold vemx at he; rw [if_pos (by omega)] at he; injection he with he; rw [he]
  unfold wModule
  simp only []
  rw [this]
  rfl

/-- C42: which orders are computed.  Without `singles` the function raises; orders 1 to 3 are always
computed, order 4 needs doubles, 5 triples in addition, 6 quadruples in addition; with quintuples it
raises `NotImplementedError`. -/
theorem w_orders (n : Nat) (m : WModule) (hm : wModule n = .ok m) (fl : Nat → Bool) :
    masterOrders m.master fl =
      (if fl 1 = false then .error .exception
      else if fl 2 = true ∧ fl 3 = true ∧ fl 4 = true ∧ fl 5 = true then .error .notImplemented
      else .ok ([1, 2, 3] ++ (if fl 2 then [4] else []) ++ (if fl 2 && fl 3 then [5] else []) ++
        (if fl 2 && fl 3 && fl 4 then [6] else []))) ∧
    masterOrders m.masterOpt fl = masterOrders m.master fl := by
  have hn : n ≤ 6 := by
    by_contra h
    rw [(module_generated_iff n).2 (by omega)] at hm; cases hm
  rw [wModule_eq n hn] at hm
  injection hm with hm
  subst hm
  refine ⟨?_, rfl⟩
  show masterOrders (master n) fl = _
  rw [masterOrders_cases]
  cases fl 1 <;> cases fl 2 <;> cases fl 3 <;> cases fl 4 <;> cases fl 5 <;> rfl

theorem computes_aux {ι : Type} (ts : ι → List Nat) (f : Nat → List Nat → ι) (hf : ∀ k c, ts (f k c) = c) (env : Env)
    (k : Nat) (hk : 1 ≤ k) :
    Computes ts env k (veciDone env k ++ mixedDone f env k ++ ccDone f env k) := by
  have hts : ∀ p, ((doneOf (f k) p).orderings ts) = combinations p := by
    intro p
    unfold Done.orderings doneOf
    simp only [Option.toList_none, List.map_nil, List.nil_append, List.map_map]
    rw [show ts ∘ f k = id from funext fun c => hf k c, List.map_id]
  have hR : ∀ ps : List (List Nat), (∀ p ∈ ps, p ≠ []) →
      List.Forall₂ (fun p d => overFactorials d.pref = weight p ∧ (d.orderings ts).Nodup ∧
        ∀ o, o ∈ d.orderings ts ↔ o.Perm p) ps (ps.map (doneOf (f k))) := by
    intro ps hps
    induction ps with
    | nil => exact .nil
    | cons p ps ih =>
      refine .cons ⟨prefOf_weight (hps p (by simp)), ?_, ?_⟩ (ih fun q hq => hps q (by simp [hq]))
      · rw [hts]; exact nodup_combinations p
      · intro o; rw [hts]; exact mem_combinations
  refine ⟨contributing env k, nodup_contributing env hk, mem_contributing env hk, ?_⟩
  unfold contributing veciDone mixedDone ccDone
  refine List.rel_append (List.rel_append ?_ ?_) ?_
  · split
    · refine .cons ⟨prefOf_weight (by simp), ?_, ?_⟩ .nil
      · simp [Done.orderings]
      · intro o; simp [Done.orderings]
    · exact .nil
  · split
    · apply hR
      intro p hp
      exact partitions_ne_nil hk (linked_mem hk p (List.mem_filter.1 hp).1).1
    · exact .nil
  · split
    · apply hR
      intro p hp
      exact partitions_ne_nil hk (unlinked_mem hk p (List.mem_filter.1 hp).1).1
    · exact .nil

/-- C42: a run of the generated `compute_w_operators` succeeds exactly when the master function does
not raise, every order it needs was generated (the master function does not depend on the maximum
order) and the caller passes at least as many amplitudes as the highest order needed. -/
theorem w_run_ok_iff (n : Nat) (m : WModule) (hm : wModule n = .ok m) (env : Env) :
    (∃ r, runMaster Einsum.ts env m.vemx m.vecc m.fns m.master = .ok r) ↔
      ∃ ks, masterOrders m.master env.fl = .ok ks ∧ ∀ k ∈ ks, k ≤ n ∧ k ≤ env.tlen := by
  have hn : n ≤ 6 := by
    by_contra h
    rw [(module_generated_iff n).2 (by omega)] at hm; cases hm
  rw [wModule_eq n hn] at hm
  injection hm with hm
  subst hm
  unfold runMaster
  rw [show (moduleOf n).master = master n from rfl]
  cases ho : masterOrders (master n) env.fl with
  | error e => simp
  | ok ks =>
    have hb := (masterOrders_bounds ho).2
    simp only [Except.ok.injEq]
    have hrun : ∀ k ∈ ks, runOrder Einsum.ts env (vemxOf mkE n) (veccOf mkE n) ((range2 1 (n + 1)).map fnOf) k = _ :=
      fun k hk => runOrder_eq Einsum.ts mkE (fun _ _ => rfl) env n (hb k hk).1
    constructor
    · rintro ⟨r, hr⟩
      refine ⟨ks, rfl, fun k hk => ?_⟩
      rw [collect_ok_iff] at hr
      have : runOrder Einsum.ts env (vemxOf mkE n) (veccOf mkE n) ((range2 1 (n + 1)).map fnOf) k ∈ r.map Except.ok := by
        rw [← hr]; exact List.mem_map.2 ⟨k, hk, rfl⟩
      obtain ⟨b, _, hb⟩ := List.mem_map.1 this
      rw [hrun k hk] at hb
      split at hb
      · cases hb
      · split at hb
        · cases hb
        · omega
    · rintro ⟨_, rfl, h⟩
      refine ⟨_, collect_map_ok (runOrder Einsum.ts env (vemxOf mkE n) (veccOf mkE n) ((range2 1 (n + 1)).map fnOf))
        (fun k => (k, veciDone env k, mixedDone mkE env k, ccDone mkE env k)) ks fun k hk => ?_⟩
      rw [hrun k hk, if_neg (by have := h k hk; omega), if_neg (by have := h k hk; omega)]

/-- C42: a successful run computes exactly the orders the truncation asks for, and for each of them
exactly the contributing products with the right coefficients, each distinct ordering once; every einsum
is a correct product. -/
theorem w_run_correct (n : Nat) (m : WModule) (hm : wModule n = .ok m) (env : Env)
    (r : List (Nat × List (Done Einsum) × List (Done Einsum) × List (Done Einsum)))
    (hr : runMaster Einsum.ts env m.vemx m.vecc m.fns m.master = .ok r) :
    masterOrders m.master env.fl = .ok (r.map Prod.fst) ∧
    ∀ k a b c, (k, a, b, c) ∈ r → Computes Einsum.ts env k (a ++ b ++ c) ∧
      ∀ d ∈ a ++ b ++ c, ∀ e ∈ d.items, ∃ mid vs, Multiplies e mid vs := by
  have hn : n ≤ 6 := by
    by_contra h
    rw [(module_generated_iff n).2 (by omega)] at hm; cases hm
  obtain ⟨ks, hks, hle⟩ := (w_run_ok_iff n m hm env).1 ⟨r, hr⟩
  rw [wModule_eq n hn] at hm
  injection hm with hm
  subst hm
  have ho : masterOrders (master n) env.fl = .ok ks := hks
  have hb := (masterOrders_bounds ho).2
  have hr' : r = ks.map fun k => (k, veciDone env k, mixedDone mkE env k, ccDone mkE env k) := by
    unfold runMaster at hr
    rw [hks] at hr
    simp only [] at hr
    rw [show (moduleOf n).vemx = vemxOf mkE n from rfl, show (moduleOf n).vecc = veccOf mkE n from rfl,
      show (moduleOf n).fns = (range2 1 (n + 1)).map fnOf from rfl,
      collect_map_ok _ (fun k => (k, veciDone env k, mixedDone mkE env k, ccDone mkE env k)) ks fun k hk => by
        rw [runOrder_eq Einsum.ts mkE (fun _ _ => rfl) env n (hb k hk).1,
          if_neg (by have := hle k hk; omega), if_neg (by have := hle k hk; omega)]] at hr
    injection hr with hr
    exact hr.symm
  subst hr'
  refine ⟨?_, ?_⟩
  · rw [hks, List.map_map]; congr 1; exact (List.map_id _).symm
  · intro k a b c hmem
    obtain ⟨k', hk', he⟩ := List.mem_map.1 hmem
    simp only [Prod.mk.injEq] at he
    obtain ⟨rfl, rfl, rfl, rfl⟩ := he
    have hk := hb k' hk'
    refine ⟨computes_aux Einsum.ts mkE (fun _ _ => rfl) env k' hk.1, ?_⟩
    intro d hd e he
    have hgood : ∀ ps : List (List Nat), (∀ p ∈ ps, IsPartition k' p) → d ∈ ps.map (doneOf (mkE k')) →
        ∃ mid vs, Multiplies e mid vs := by
      intro ps hps hd
      obtain ⟨p, hp, rfl⟩ := List.mem_map.1 hd
      obtain ⟨c, hc, rfl⟩ := List.mem_map.1 he
      exact ⟨_, _, mkE_multiplies hk.1 (by omega) (hps p hp) (mem_combinations.1 hc)⟩
    rw [List.mem_append, List.mem_append] at hd
    rcases hd with (hd | hd) | hd
    · unfold veciDone at hd
      split at hd
      · simp only [List.mem_singleton] at hd
        subst hd
        simp at he
      · simp at hd
    · unfold mixedDone at hd
      split at hd
      · exact hgood _ (fun p hp => (linked_mem hk.1 p (List.mem_filter.1 hp).1).1) hd
      · simp at hd
    · unfold ccDone at hd
      split at hd
      · exact hgood _ (fun p hp => (unlinked_mem hk.1 p (List.mem_filter.1 hp).1).1) hd
      · simp at hd

/-- hypotheses of the theorems above: a VECC run with singles and doubles, six amplitudes -/
example : ∃ m r, wModule 6 = .ok m ∧
    runMaster Einsum.ts ⟨false, true, fun k => decide (k ≤ 2), 6⟩ m.vemx m.vecc m.fns m.master = .ok r ∧
    r.map Prod.fst = [1, 2, 3, 4] := by
  obtain ⟨m, hm⟩ := (module_generated_iff 6).1 (by decide)
  have ho : masterOrders m.master (fun k => decide (k ≤ 2)) = .ok [1, 2, 3, 4] := by
    rw [(w_orders 6 _ hm _).1]; decide
  obtain ⟨r, hr⟩ := (w_run_ok_iff 6 _ hm ⟨false, true, fun k => decide (k ≤ 2), 6⟩).2 ⟨[1, 2, 3, 4], ho, by decide⟩
  refine ⟨m, r, hm, hr, ?_⟩
  have := (w_run_correct 6 _ hm _ r hr).1
  rw [show masterOrders m.master (Env.fl ⟨false, true, fun k => decide (k ≤ 2), 6⟩) = _ from ho] at this
  exact (Except.ok.inj this).symm

/-- C42, finding: the master function does not respect the maximum order: a module generated for fewer
than three orders can never be run, whatever the truncation. -/
theorem w_run_needs_three (n : Nat) (hn : n < 3) (m : WModule) (hm : wModule n = .ok m) (env : Env) :
    ¬ ∃ r, runMaster Einsum.ts env m.vemx m.vecc m.fns m.master = .ok r := by
  rw [w_run_ok_iff n m hm env]
  rintro ⟨ks, h1, h2⟩
  rw [(w_orders n m hm env.fl).1] at h1
  split at h1
  · cases h1
  · split at h1
    · cases h1
    · injection h1 with h1
      have := h2 3 (by rw [← h1]; simp)
      omega

/-! ## C43: the optimised functions -/

/-- C43: the optimised functions run under the same conditions as the default ones and execute the same
statements, with every einsum replaced by a call on the same amplitudes. -/
theorem w_optimised_same (n : Nat) (m : WModule) (hm : wModule n = .ok m) (env : Env) :
    runMaster Call.ts env m.vemxOpt m.veccOpt m.fnsOpt m.masterOpt =
      (runMaster Einsum.ts env m.vemx m.vecc m.fns m.master).map fun r => r.map fun x =>
        (x.1, x.2.1.map fun d => ⟨d.pref, d.direct, d.items.map fun e => ⟨e.ts⟩⟩,
          x.2.2.1.map (fun d => ⟨d.pref, d.direct, d.items.map fun e => ⟨e.ts⟩⟩),
          x.2.2.2.map (fun d => ⟨d.pref, d.direct, d.items.map fun e => ⟨e.ts⟩⟩)) := by
  have hn : n ≤ 6 := by
    by_contra h
    rw [(module_generated_iff n).2 (by omega)] at hm; cases hm
  rw [wModule_eq n hn] at hm
  injection hm with hm
  subst hm
  unfold runMaster
  rw [show (moduleOf n).master = master n from rfl, show (moduleOf n).masterOpt = master n from rfl]
  cases ho : masterOrders (master n) env.fl with
  | error e => rfl
  | ok ks =>
    have hb := (masterOrders_bounds ho).2
    simp only []
    rw [show (moduleOf n).vemx = vemxOf mkE n from rfl, show (moduleOf n).vecc = veccOf mkE n from rfl,
      show (moduleOf n).fns = (range2 1 (n + 1)).map fnOf from rfl,
      show (moduleOf n).vemxOpt = vemxOf (fun _ => Call.mk) n from rfl,
      show (moduleOf n).veccOpt = veccOf (fun _ => Call.mk) n from rfl,
      show (moduleOf n).fnsOpt = (range2 1 (n + 1)).map fnOf from rfl]
    clear ho
    induction ks with
    | nil => rfl
    | cons k ks ih =>
      have ih := ih fun j hj => hb j (by simp [hj])
      rw [List.map_cons, List.map_cons, runOrder_eq Call.ts (fun _ => Call.mk) (fun _ _ => rfl) env n (hb k (by simp)).1,
        runOrder_eq Einsum.ts mkE (fun _ _ => rfl) env n (hb k (by simp)).1]
      by_cases h1 : n < k
      · rw [if_pos h1, if_pos h1]; rfl
      · rw [if_neg h1, if_neg h1]
        by_cases h2 : env.tlen < k
        · rw [if_pos h2, if_pos h2]; rfl
        · rw [if_neg h2, if_neg h2]
          show (collect _).map _ = ((collect _).map _).map _
          rw [ih]
          cases collect (ks.map (runOrder Einsum.ts env (vemxOf mkE n) (veccOf mkE n) ((range2 1 (n + 1)).map fnOf))) with
          | error e => rfl
          | ok r =>
            simp only [Except.map, Except.ok.injEq, List.map_cons, List.cons.injEq, Prod.mk.injEq, and_true, true_and]
            refine ⟨?_, ?_, ?_⟩
            · unfold veciDone; split <;> rfl
            · unfold mixedDone; split
              · simp [doneOf, Function.comp_def, mkE]
              · rfl
            · unfold ccDone; split
              · simp [doneOf, Function.comp_def, mkE]
              · rfl

/-- the pair of a call and the expression that should serve it, for an einsum of the default code -/
def servedBy (e : Einsum) : Call × Path := (⟨e.ts⟩, ⟨e.subs, e.out, e.ts⟩)

/-- C43: in every run of the optimised master function, for every truncation, every call
`next(optimized_einsum)` is served by the contraction expression of the very einsum the default code
executes at that place (same subscripts, shapes of the actual operands); no iterator runs dry and none
has expressions left over. -/
theorem w_optimised_aligned (n : Nat) (m : WModule) (hm : wModule n = .ok m) (env : Env)
    (r : List (Nat × List (Done Einsum) × List (Done Einsum) × List (Done Einsum)))
    (hr : runMaster Einsum.ts env m.vemx m.vecc m.fns m.master = .ok r) (k : Nat)
    (a b c : List (Done Einsum)) (hk : (k, a, b, c) ∈ r) :
    ∃ pv pc, runPaths m.vemxPaths env.fl k = .ok pv ∧ runPaths m.veccPaths env.fl k = .ok pc ∧
      (env.mixed = true ∨ env.cc = true →
        serve pv ((b.flatMap Done.items).map fun e => ⟨e.ts⟩) = some ((b.flatMap Done.items).map servedBy, [])) ∧
      (env.mixed = false ∧ env.cc = true →
        serve pc ((c.flatMap Done.items).map fun e => ⟨e.ts⟩) = some ((c.flatMap Done.items).map servedBy, [])) := by
  have hn : n ≤ 6 := by
    by_contra h
    rw [(module_generated_iff n).2 (by omega)] at hm; cases hm
  obtain ⟨ks, hks, hle⟩ := (w_run_ok_iff n m hm env).1 ⟨r, hr⟩
  have hks' := (w_run_correct n m hm env r hr).1
  rw [wModule_eq n hn] at hm
  injection hm with hm
  subst hm
  have ho : masterOrders (master n) env.fl = .ok ks := hks
  obtain ⟨hf1, hb⟩ := masterOrders_bounds ho
  have hr' : r = ks.map fun k => (k, veciDone env k, mixedDone mkE env k, ccDone mkE env k) := by
    unfold runMaster at hr
    rw [hks] at hr
    simp only [] at hr
    rw [show (moduleOf n).vemx = vemxOf mkE n from rfl, show (moduleOf n).vecc = veccOf mkE n from rfl,
      show (moduleOf n).fns = (range2 1 (n + 1)).map fnOf from rfl,
      collect_map_ok _ (fun k => (k, veciDone env k, mixedDone mkE env k, ccDone mkE env k)) ks fun k hk => by
        rw [runOrder_eq Einsum.ts mkE (fun _ _ => rfl) env n (hb k hk).1,
          if_neg (by have := hle k hk; omega), if_neg (by have := hle k hk; omega)]] at hr
    injection hr with hr
    exact hr.symm
  subst hr'
  obtain ⟨k', hk', he⟩ := List.mem_map.1 hk
  simp only [Prod.mk.injEq] at he
  obtain ⟨rfl, rfl, rfl, rfl⟩ := he
  obtain ⟨b1, b2, b3⟩ := hb k' hk'
  refine ⟨_, _, paths_vemx env.fl hf1 b1 (hle k' hk').1, paths_vecc env.fl hf1 b1 (hle k' hk').1 b2 b3, ?_, ?_⟩
  all_goals intro hcond
  · have : (env.mixed || env.cc) = true := by rw [Bool.or_eq_true]; exact hcond
    unfold mixedDone
    rw [if_pos this]
    have e : ∀ ps : List (List Nat), (ps.flatMap fun p => (combinations p).map (mkP k')) =
        (((ps.map (doneOf (mkE k'))).flatMap Done.items).map fun e => (⟨e.subs, e.out, e.ts⟩ : Path)) := by
      intro ps
      rw [List.flatMap_map, List.map_flatMap]
      apply List.flatMap_congr
      intro p _
      simp [doneOf, mkE, mkP, Function.comp_def]
    rw [e]
    exact serve_exact _ _ _
  · have : (!env.mixed && env.cc) = true := by simpa using hcond
    unfold ccDone
    rw [if_pos this]
    have e : ∀ ps : List (List Nat), (ps.flatMap fun p => (combinations p).map (mkP k')) =
        (((ps.map (doneOf (mkE k'))).flatMap Done.items).map fun e => (⟨e.subs, e.out, e.ts⟩ : Path)) := by
      intro ps
      rw [List.flatMap_map, List.map_flatMap]
      apply List.flatMap_congr
      intro p _
      simp [doneOf, mkE, mkP, Function.comp_def]
    rw [e]
    exact serve_exact _ _ _

/-- C43, boundary: the alignment rests on the master function.  With triples but without doubles the
vecc paths of order 5 are empty although the vecc function of order 5 would make calls. -/
theorem vecc_paths_need_doubles :
    ∃ m c, wModule 6 = .ok m ∧ m.veccOpt[4]? = some c ∧
      runPaths m.veccPaths (fun k => decide (k ≠ 2)) 5 = .ok [] ∧
      runContributions Call.ts (fun k => decide (k ≠ 2)) 6 c = .ok [⟨[2, 3, 2], none, [⟨[2, 3]⟩, ⟨[3, 2]⟩]⟩] := by
  refine ⟨_, _, wModule_eq 6 (by decide), rfl, by decide +kernel, by decide +kernel⟩

end TF.W
