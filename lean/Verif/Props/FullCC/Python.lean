import Verif.Lemmas.FullCC.PythonTable

/-! # Properties C19 (Python half), C22 - C24 and C40 - C42: generated full-CC Python code -/

set_option linter.unusedVariables false

namespace TF.CC

open TF.Py TF.Spec TF.Helper

/-! ## C19: prefactors of the generated code -/

theorem pyPrefactor_eq (so : SetOrder Nat) (h : HC) (ts : List T) : pyPrefactor so h ts = latexPrefactor so h ts := by
  unfold pyPrefactor latexPrefactor rawPrefactor
  by_cases hz : ts = [⟨0, 0, 0, 0⟩] <;> simp [hz]

/-- C19: the prefactor written into the code of a term with `k ≥ 1` amplitudes is
`x! / (h.m! h.n! k!)`, `x` the number of different amplitudes paired with `h`. -/
theorem py_prefactor_value (so : SetOrder Nat) (h : HC) (ts : List T) (hts : ts ≠ [⟨0, 0, 0, 0⟩]) :
    prefValue (pyPrefactor so h ts) =
      ((distinctTouching ts).factorial : Rat) / (h.m.factorial * h.n.factorial * ts.length.factorial) := by
  rw [pyPrefactor_eq]; exact prefactor_value so h ts hts

/-- C19: LaTeX and Python use the same value, whatever the iteration orders of the sets inside the
two generators. -/
theorem py_latex_prefactor_agree (so so' : SetOrder Nat) (h : HC) (ts : List T) :
    prefValue (pyPrefactor so h ts) = prefValue (latexPrefactor so' h ts) := by
  rw [pyPrefactor_eq]
  by_cases hts : ts = [⟨0, 0, 0, 0⟩]
  · rw [hts, prefactor_single, prefactor_single]
  · rw [prefactor_value so h ts hts, prefactor_value so' h ts hts]

example : prefValue (pyPrefactor (SetOrder.std _) ⟨2, 0, 2, 0, 0, [0, 0], [1, 1]⟩ [⟨1, 0, 0, 0⟩, ⟨1, 0, 1, 0⟩]) = 1 / 2 := by
  decide +kernel

/-! ## C22: well-formed einsums -/

/-- What C22 needs to know of a term: its numbers are those of a contraction, and it fits the
alphabets. -/
structure FitsCode (t : Term) : Prop where
  rank : t.h.rank = t.h.m + t.h.n
  some : t.ts ≠ []
  hasT : t.ts ≠ [⟨0, 0, 0, 0⟩]
  pairs : Pairs t.omega.m t.omega.n t.h.m t.h.n t.ts t.h.m_o t.h.n_o
  pos : ∀ x ∈ t.ts, 1 ≤ ampRank x
  len : t.ts.length ≤ 6
  cap : (t.ts.map T.n_h).sum + (t.ts.map T.m_h).sum ≤ 10
  ext : t.omega.m + t.omega.n ≤ 8

/-- C22 for one term: the writer succeeds, every einsum it writes evaluates the term, and for two or
more amplitudes the orders of the operands are the orderings of the amplitudes, each written once. -/
theorem einsums_wellformed (t : Term) (h : FitsCode t) :
    ∃ es, einsums t.h t.ts = .ok es ∧ es.length = itemCount t.h t.ts ∧
      ∀ e ∈ es, ∃ mid vh order, EinsumFor t e mid vh order := by
  obtain ⟨os, h1, h2, _, h3, _, _⟩ := items_orders t.h t.ts h.some h.len h.rank _ (electronic_ok _ h.len)
  refine ⟨_, h3, by rw [List.length_map, h1], ?_⟩
  intro e he
  obtain ⟨o, ho, rfl⟩ := List.mem_map.1 he
  exact ⟨_, _, o, einsumFor_of (SetOrder.std _) t h.rank h.hasT h.pairs h.pos h.len h.cap h.ext o (h2 o ho) _
    (electronic_ok _ h.len)⟩

/-- C22: how many einsums a term contributes: `k!` for `k ≥ 2` amplitudes, and for a single amplitude
`r!` for a projection operator of rank `r` (the same einsum `r!` times). -/
theorem einsums_count (t : Term) (h : FitsCode t) (es : List Einsum) (he : einsums t.h t.ts = .ok es) :
    es.length = if t.ts.length = 1 then (t.omega.m + t.omega.n).factorial else t.ts.length.factorial := by
  obtain ⟨es', h1, h2, h3⟩ := einsums_wellformed t h
  rw [he] at h1
  cases h1
  rw [h2]
  unfold itemCount
  split
  · have hv := vibrational_eq (SetOrder.std _) t h.hasT h.pos
    have hamp : amplitudes t = t.ts := by simp [amplitudes, h.hasT]
    obtain ⟨_, hout, hol, hon⟩ := plain_labels (SetOrder.std _) t h.rank (by rw [hamp]; exact h.pairs)
      (by rw [hamp]; exact h.pos) (by rw [hamp]; exact h.cap) h.ext
    rw [hv]
    simp only []
    rw [hout, length_uniquePermutations _ _ hon, hol]
  · rw [length_uniquePermutations _ _ List.nodup_range, List.length_range]

/-- C22: for a single amplitude all these einsums are the same. -/
theorem single_amplitude_copies (t : Term) (h : FitsCode t) (h1 : t.ts.length = 1) (es : List Einsum)
    (he : einsums t.h t.ts = .ok es) : ∃ e, es = List.replicate (t.omega.m + t.omega.n).factorial e := by
  have hc := einsums_count t h es he
  rw [if_pos h1] at hc
  obtain ⟨x, hx⟩ := List.length_eq_one_iff.1 h1
  unfold einsums at he
  have hpl : permsLogic t.ts = .ok .single := by rw [hx]; simp [permsLogic]
  rw [hpl, electronic_ok _ h.len] at he
  simp only [] at he
  split at he
  · cases he; rw [← hc]; exact ⟨_, rfl⟩
  · cases he
    rw [← hc, List.length_map]
    exact ⟨_, List.map_const' ..⟩

/-- C22: the limit of six amplitudes is sharp: with seven the writer stops. -/
theorem einsums_seven (h : HC) (ts : List T) (h7 : 7 ≤ ts.length) : einsums h ts = .error .index := by
  unfold einsums
  rw [electronic_error _ h7]
  have : ∃ p, permsLogic ts = .ok p := by
    unfold permsLogic
    split
    · next e =>
      exfalso
      have : ts = [] := by
        cases ts with
        | nil => rfl
        | cons a l =>
          have : a ∈ (a :: l).dedup := List.mem_dedup.2 (by simp)
          rw [e] at this; simp at this
      rw [this] at h7; simp at h7
    · split <;> exact ⟨_, rfl⟩
    · exact ⟨_, rfl⟩
  obtain ⟨p, hp⟩ := this
  rw [hp]

/-- a concrete term of `Omega = b b`: `h_(0,2) t_1 t_3` -/
def exTerm : Term :=
  { omega := ⟨2, 0, 2, 0, 0, [0, 0], [0, 2]⟩, h := ⟨2, 0, 2, 0, 0, [0, 0], [1, 1]⟩, ts := [⟨1, 0, 0, 0⟩, ⟨1, 0, 2, 0⟩] }

example : FitsCode exTerm := by
  refine ⟨?_, ?_, ?_, ?_, ?_, ?_, ?_, ?_⟩ <;> decide

example : einsums exTerm.h exTerm.ts = .ok
    [⟨[['a', 'c', 'i', 'j'], ['c', 'd', 'i'], ['d', 'b', 'j', 'z', 'y']], ['z', 'y'], (0, 2), [(1, 0), (3, 0)]⟩,
     ⟨[['a', 'c', 'i', 'j'], ['c', 'd', 'j', 'z', 'y'], ['d', 'b', 'i']], ['z', 'y'], (0, 2), [(3, 0), (1, 0)]⟩] := by
  decide +kernel

/-! ### terms of the generator -/

theorem term_ts_ne_nil (sol : SetOrder (List T)) (rf gs : Bool) (hMax cc smax : Nat) (hcc : 1 ≤ cc) (omega : Op)
    (L : List Term) (hL : termsFor sol rf gs hMax cc smax omega = .ok L) (t : Term) (ht : t ∈ L) :
    t.ts ≠ [] ∧ (t.ts = [⟨0, 0, 0, 0⟩] ∨ (t.ts.length ≤ smax ∧ ∀ x ∈ t.ts, AmpAllowed cc gs x)) := by
  rw [termsFor_eq sol rf gs hMax cc smax hcc omega] at hL
  cases hL
  obtain ⟨k, hk, h, hh, ts, hts, rfl, _⟩ := mem_termList.1 ht
  obtain ⟨_, _, _, hcase⟩ := mem_survivors_order.1 hts
  have e : (mkTerm omega h ts).ts = ts := rfl
  rw [e]
  rcases hcase with ⟨_, rfl⟩ | ⟨h1, h2, h3⟩
  · exact ⟨by simp, .inl rfl⟩
  · refine ⟨?_, .inr ⟨by omega, h3⟩⟩
    rintro rfl
    simp at h2; omega

/-- Every generated term with amplitudes fits the code generator when the truncation is within the
limits the package verifies. -/
theorem fitsCode_of_generated (sol : SetOrder (List T)) (rf gs : Bool) (hMax cc smax omegaMax : Nat)
    (hcc : 1 ≤ cc) (hH : hMax ≤ 6) (hS : smax ≤ 6) (hP : omegaMax ≤ 6) (omega : Op)
    (ho : omega ∈ omegaOps cc omegaMax) (L : List Term) (hL : termsFor sol rf gs hMax cc smax omega = .ok L)
    (t : Term) (ht : t ∈ L) (hz : onlyH t.ts = false) : FitsCode t := by
  obtain ⟨d1, d2, d3, d4, d5, d6, d7, d8⟩ := term_data sol rf gs hMax cc smax hcc omega L hL t ht
  obtain ⟨n1, n2⟩ := term_ts_ne_nil sol rf gs hMax cc smax hcc omega L hL t ht
  obtain ⟨_, o2, o3, o4⟩ := (omegaOps_exact cc omegaMax omega).1 ho
  have hz' : t.ts ≠ [⟨0, 0, 0, 0⟩] := by
    intro e; rw [e] at hz; simp [onlyH] at hz
  rcases n2 with n2 | ⟨n2, n3⟩
  · exact absurd n2 hz'
  · refine ⟨d4, n1, hz', d7, fun x hx => (n3 x hx).1, by omega, ?_, by omega⟩
    obtain ⟨p1, p2, p3, p4⟩ := d7
    omega

/-! ## C23: what reaches the generated code -/

/-- What a written program executes: for any runtime truncation, exactly the sums of the terms that
are kept (not overwritten by a later term) and enabled, each with its own prefactor and items; the
terms that are only `h` are added unconditionally. -/
theorem writeProgram_spec {ι : Type} (so : SetOrder Nat) (hMax cc : Nat)
    (items : HC → List T → Except PyErr (List ι)) (l : List Term) (p : Program ι)
    (h : writeProgram so hMax cc items l = .ok p) :
    p.adds = ((l.filter fun t => onlyH t.ts).map fun t => (t.h.m, t.h.n)) ∧
    ∃ g : Term → List ι, (∀ t ∈ l, onlyH t.ts = false → items t.h t.ts = .ok (g t)) ∧
      ∀ fl, (run fl p).Perm (((kept so l).filter (Enabled fl)).map fun t =>
        (renderPyPrefactor (pyPrefactor so t.h t.ts), g t)) := by
  unfold writeProgram at h
  split at h
  · next e =>
    subst e
    cases h
    exact ⟨rfl, fun _ => [], by simp, fun fl => by simp [run, runC, kept]⟩
  · split at h
    · cases h
    · next adds tab hft =>
      split at h
      · cases h
      · split at h
        · cases h
        · next hb hhb =>
          cases h
          obtain ⟨h1, h2, h3, g, h4, h5⟩ := fillTable_spec so hMax cc items l [] [] _ hft (by simp) (by simp)
          refine ⟨by simpa using h1, g, h4, fun fl => ?_⟩
          refine (run_perm fl tab hMax cc adds hb hhb h3).trans ?_
          simp only [List.filter_nil, List.nil_append] at h5
          refine ((h5.filter fun p => keyOn fl p.1).map fun p => (p.1.pref, p.2)).trans (List.Perm.of_eq ?_)
          rw [List.filter_map, List.map_map]
          rfl

/-- C23 (the part that holds): the default code of a group of terms adds up, for every runtime
truncation, exactly the einsums of the kept and enabled terms; a term is kept if no later term of the
group has the same Hamiltonian rank, cluster rank and prefactor text.  Missing from the full claim:
the terms that are not kept. -/
theorem every_term_emitted_partial (so : SetOrder Nat) (hMax cc : Nat) (l : List Term) (p : Program Einsum)
    (h : writeDefault so hMax cc l = .ok p) :
    p.adds = ((l.filter fun t => onlyH t.ts).map fun t => (t.h.m, t.h.n)) ∧
    ∃ g : Term → List Einsum, (∀ t ∈ l, onlyH t.ts = false → einsums t.h t.ts = .ok (g t)) ∧
      ∀ fl, (run fl p).Perm (((kept so l).filter (Enabled fl)).map fun t =>
        (renderPyPrefactor (pyPrefactor so t.h t.ts), g t)) :=
  writeProgram_spec so hMax cc einsums l p h

/-- C23: all terms are kept exactly when no two terms with amplitudes have the same key. -/
theorem all_kept_iff (so : SetOrder Nat) (l : List Term) :
    kept so l = (l.filter fun t => !onlyH t.ts) ↔ (keysOf so l).Nodup := by
  induction l with
  | nil => simp [kept, keysOf]
  | cons t l ih =>
    unfold kept
    cases ho : onlyH t.ts with
    | true =>
      have e : keysOf so (t :: l) = keysOf so l := by unfold keysOf; rw [List.filter_cons_of_neg (by simp [ho])]
      simp only [Bool.true_or, if_true]
      rw [List.filter_cons_of_neg (by simp [ho]), e, ih]
    | false =>
      have e : keysOf so (t :: l) = keyOf so t.h t.ts :: keysOf so l := by
        unfold keysOf; rw [List.filter_cons_of_pos (by simp [ho])]; rfl
      have hc : (l.any fun t' => !onlyH t'.ts && keyOf so t'.h t'.ts == keyOf so t.h t.ts) = true ↔
          keyOf so t.h t.ts ∈ keysOf so l := by
        unfold keysOf
        simp only [List.any_eq_true, Bool.and_eq_true, Bool.not_eq_true', beq_iff_eq, List.mem_map, List.mem_filter]
        constructor
        · rintro ⟨x, hx, h1, h2⟩; exact ⟨x, ⟨hx, h1⟩, h2⟩
        · rintro ⟨x, ⟨hx, h1⟩, h2⟩; exact ⟨x, hx, h1, h2⟩
      rw [Bool.false_or, e, List.nodup_cons, List.filter_cons_of_pos (by simp [ho])]
      by_cases hk : keyOf so t.h t.ts ∈ keysOf so l
      · rw [if_pos (hc.2 hk)]
        constructor
        · intro h
          exfalso
          have h1 : (kept so l).length ≤ (l.filter fun t => !onlyH t.ts).length := by
            have hs : (kept so l).Sublist (l.filter fun t => !onlyH t.ts) := by
              have := (kept_sublist so l).filter (fun t => !onlyH t.ts)
              rwa [List.filter_eq_self.2 (fun x hx => by simpa using (kept_keys so l x hx).1)] at this
            exact hs.length_le
          rw [h] at h1
          simp at h1
        · intro h; exact absurd hk h.1
      · rw [if_neg (fun h => hk (hc.1 h)), List.cons.injEq, ih]
        simp [hk]

/-- The full claim C23 is false: at `H=3, CC=2, S=2` the fully connected group of the projection
`(0, 1)` has a term `h_(1,2) t_2`, but no einsum of the generated code uses `h_args[(1, 2)]` with
`t_args[(2, 0)]`, even when all runtime conditions hold. -/
theorem term_lost_witness :
    (match termsFor (SetOrder.std _) true true 3 2 2 ⟨"b", 1, 0, 1⟩ with
      | .error _ => false
      | .ok L =>
        let f := L.filter fun t => decide (FullyConnected t)
        (f.any fun t => decide ((t.h.m, t.h.n) = (1, 2)) && decide (t.ts.map tKey = [(2, 0)])) &&
        (match writeDefault (SetOrder.std _) 3 2 f with
          | .error _ => false
          | .ok p => (runItems allOn p).all fun e => !decide (e.h = (1, 2) ∧ e.ts = [(2, 0)]))) = true := by
  decide +kernel

/-- At `H=2, CC=2, S=2` nothing is lost for this projection (the hypotheses of the theorems above
are met by a non-trivial program). -/
example : (match termsFor (SetOrder.std _) true true 2 2 2 ⟨"b", 1, 0, 1⟩ with
      | .error _ => none
      | .ok L =>
        let f := L.filter fun t => decide (FullyConnected t)
        match writeDefault (SetOrder.std _) 2 2 f with
          | .error _ => none
          | .ok p => some (f.length, (kept (SetOrder.std _) f).length, p.adds, (run allOn p).length)) =
    some (4, 3, [(1, 0)], 3) := by
  decide +kernel

/-! ## C24: alignment of the optimised code with its contraction expressions -/

/-- the items of the three writers, side by side -/
structure Item where
  e : Einsum
  o : OptCall
  p : Path

/-- the three items for one ordering of the operands belong together -/
def Item.Ok (x : Item) : Prop :=
  x.e.h = x.o.h ∧ x.e.ts = x.o.ts ∧ x.p.shapes = (x.o.h.1 + x.o.h.2) :: x.o.ts.map fun k => k.1 + k.2

/-- all items of a term (used in the proofs only) -/
def items3 (h : HC) (ts : List T) : Except PyErr (List Item) :=
  match einsums h ts, optCalls h ts, paths h ts with
  | .ok a, .ok b, .ok c => .ok ((a.zip (b.zip c)).map fun x => ⟨x.1, x.2.1, x.2.2⟩)
  | _, _, _ => .error .exception

theorem items3_ok (t : Term) (h : FitsCode t) : ∃ x, items3 t.h t.ts = .ok x ∧ (∀ i ∈ x, i.Ok) ∧
    einsums t.h t.ts = .ok (x.map Item.e) ∧ optCalls t.h t.ts = .ok (x.map Item.o) ∧
    paths t.h t.ts = .ok (x.map Item.p) := by
  obtain ⟨os, h1, h2, _, h3, h4, h5⟩ := items_orders t.h t.ts h.some h.len h.rank _ (electronic_ok _ h.len)
  unfold items3
  rw [h3, h4, h5]
  simp only []
  generalize (List.zipWith (fun p q => [p, q]) ('a' :: List.take t.ts.length surfaceIdx)
    (List.take t.ts.length surfaceIdx ++ ['b'])) = ea
  refine ⟨os.map fun o => ⟨mkE t.h t.ts ea o, mkO t.h o, mkP t.h o⟩, ?_, ?_, ?_, ?_, ?_⟩
  · congr 1
    rw [List.zip_map', List.zip_map', List.map_map]
    rfl
  · intro i hi
    obtain ⟨o, ho, rfl⟩ := List.mem_map.1 hi
    refine ⟨rfl, rfl, ?_⟩
    simp only [mkP, mkO, List.map_map]
    congr 1
    apply List.map_congr_left
    intro q hq
    simp only [Function.comp, rankT, tKey]
    omega
  · rw [List.map_map]; rfl
  · rw [List.map_map]; rfl
  · rw [List.map_map]; rfl

theorem serve_map (l : List Item) :
    serve (l.map Item.p) (l.map Item.o) = some (l.map fun i => (i.o, i.p), []) := by
  induction l with
  | nil => rfl
  | cons i l ih => simp only [List.map_cons, serve, ih, Option.map_some]

/-- The three programs written for one group of terms come from one program of side-by-side items. -/
theorem three_programs (so : SetOrder Nat) (hMax cc : Nat) (l : List Term)
    (hfit : ∀ t ∈ l, onlyH t.ts = false → FitsCode t) :
    (∃ e, writeDefault so hMax cc l = .error e ∧ writeOpt so hMax cc l = .error e ∧ writePaths so hMax cc l = .error e) ∨
    ∃ P : Program Item, writeDefault so hMax cc l = .ok (mapP Item.e P) ∧ writeOpt so hMax cc l = .ok (mapP Item.o P) ∧
      writePaths so hMax cc l = .ok { mapP Item.p P with adds := [] } ∧
      ∀ fl, ∀ i ∈ runItems fl P, i.Ok := by
  have hd := writeProgram_map so hMax cc Item.e items3 einsums l (fun t ht ho => by
    obtain ⟨x, h1, _, h2, _, _⟩ := items3_ok t (hfit t ht ho); exact ⟨x, h1, h2⟩)
  have hop := writeProgram_map so hMax cc Item.o items3 optCalls l (fun t ht ho => by
    obtain ⟨x, h1, _, _, h2, _⟩ := items3_ok t (hfit t ht ho); exact ⟨x, h1, h2⟩)
  have hpa := writeProgram_map so hMax cc Item.p items3 paths l (fun t ht ho => by
    obtain ⟨x, h1, _, _, _, h2⟩ := items3_ok t (hfit t ht ho); exact ⟨x, h1, h2⟩)
  unfold writeDefault writeOpt writePaths
  rw [hd, hop, hpa]
  cases hP : writeProgram so hMax cc items3 l with
  | error e => exact .inl ⟨e, rfl, rfl, rfl⟩
  | ok P =>
    refine .inr ⟨P, rfl, rfl, rfl, ?_⟩
    intro fl i hi
    obtain ⟨_, g, h1, h2⟩ := writeProgram_spec so hMax cc items3 l P hP
    unfold runItems at hi
    obtain ⟨gr, hgr, hi⟩ := List.mem_flatMap.1 hi
    rw [(h2 fl).mem_iff] at hgr
    obtain ⟨t, ht, rfl⟩ := List.mem_map.1 hgr
    have ht' := (List.mem_filter.1 ht).1
    have htl := (kept_sublist so l).subset ht'
    have hto := (kept_keys so l t ht').1
    obtain ⟨x, e1, e2, _⟩ := items3_ok t (hfit t htl hto)
    rw [h1 t htl hto] at e1
    cases e1
    exact e2 i hi

/-- C24: for every group of terms and every runtime truncation, the calls of the optimised function
use up the list of contraction expressions exactly; each call is served by an expression built for
tensors of the shapes of its operands. -/
theorem optimised_paths_aligned (so : SetOrder Nat) (hMax cc : Nat) (l : List Term)
    (hfit : ∀ t ∈ l, onlyH t.ts = false → FitsCode t) (o : Program OptCall) (q : Program Path)
    (ho : writeOpt so hMax cc l = .ok o) (hq : writePaths so hMax cc l = .ok q) (fl : Flags) :
    ∃ served, serve (runItems fl q) (runItems fl o) = some (served, []) ∧ served.map Prod.fst = runItems fl o ∧
      ∀ x ∈ served, x.2.shapes = (x.1.h.1 + x.1.h.2) :: x.1.ts.map fun k => k.1 + k.2 := by
  rcases three_programs so hMax cc l hfit with ⟨e, _, h2, _⟩ | ⟨P, _, h2, h3, h4⟩
  · rw [ho] at h2; cases h2
  · rw [ho] at h2; rw [hq] at h3
    cases h2; cases h3
    have e1 : runItems fl { mapP Item.p P with adds := [] } = (runItems fl P).map Item.p := runItems_map Item.p fl P
    rw [e1, runItems_map, serve_map]
    refine ⟨_, rfl, ?_, ?_⟩
    · rw [List.map_map]; rfl
    · intro x hx
      obtain ⟨i, hi, rfl⟩ := List.mem_map.1 hx
      exact (h4 fl i hi).2.2

/-- C24: the optimised function performs the same sums as the default one, in the same order: the
same prefactors and, call by call, the same operands. -/
theorem optimised_same_sums (so : SetOrder Nat) (hMax cc : Nat) (l : List Term)
    (hfit : ∀ t ∈ l, onlyH t.ts = false → FitsCode t) (d : Program Einsum) (o : Program OptCall)
    (hd : writeDefault so hMax cc l = .ok d) (ho : writeOpt so hMax cc l = .ok o) (fl : Flags) :
    d.adds = o.adds ∧
    (run fl o) = (run fl d).map fun g => (g.1, g.2.map fun e => ⟨e.h, e.ts⟩) := by
  rcases three_programs so hMax cc l hfit with ⟨e, _, h2, _⟩ | ⟨P, h1, h2, _, h4⟩
  · rw [ho] at h2; cases h2
  · rw [ho] at h2; rw [hd] at h1
    cases h1; cases h2
    refine ⟨rfl, ?_⟩
    rw [run_map, run_map, List.map_map]
    apply List.map_congr_left
    intro g hg
    simp only [Function.comp, mapG, List.map_map]
    congr 1
    apply List.map_congr_left
    intro i hi
    obtain ⟨a, b, _⟩ := h4 fl i (List.mem_flatMap.2 ⟨g, hg, hi⟩)
    simp only [Function.comp, a, b]

/-- The hypotheses are met by a program with both a conditional and a multi-line sum. -/
example : (match termsFor (SetOrder.std _) true true 2 2 2 ⟨"b", 1, 0, 1⟩ with
      | .error _ => none
      | .ok L =>
        let f := L.filter fun t => decide (FullyConnected t)
        match writeOpt (SetOrder.std _) 2 2 f, writePaths (SetOrder.std _) 2 2 f with
          | .ok p, .ok q => some ((runItems ⟨fun i => i == 2, fun _ => true⟩ p), (runItems ⟨fun i => i == 2, fun _ => true⟩ q))
          | _, _ => none) =
    some ([⟨(0, 2), [(1, 0), (2, 0)]⟩, ⟨(0, 2), [(2, 0), (1, 0)]⟩], [⟨[2, 1, 2]⟩, ⟨[2, 2, 1]⟩]) := by
  decide +kernel

/-! ## The generated file -/

theorem collect_one {α β : Type} {f : α → Except PyErr β} {l : List α} {r : List β} :
    collect (fun a => one (f a)) l = .ok r ↔ List.Forall₂ (fun a b => f a = .ok b) l r := by
  induction l generalizing r with
  | nil =>
    constructor
    · intro h; cases h; exact .nil
    · intro h; cases h; rfl
  | cons a l ih =>
    unfold collect
    cases hf : f a with
    | error e =>
      constructor
      · intro h; cases h
      · intro h; cases h with | cons h1 _ => rw [hf] at h1; cases h1
    | ok b =>
      have e1 : (one (.ok b) : Except PyErr (List β)) = .ok [b] := rfl
      rw [e1]
      simp only []
      cases hc : collect (fun a => one (f a)) l with
      | error e =>
        constructor
        · intro h; cases h
        · intro h
          cases h with
          | cons _ h2 => rw [ih.2 h2] at hc; cases hc
      | ok r' =>
        constructor
        · intro h; cases h; exact .cons hf (ih.1 hc)
        · intro h
          cases h with
          | cons h1 h2 =>
            rw [hf] at h1; cases h1
            rw [ih.2 h2] at hc; cases hc; rfl

/-- The three groups of terms of one projection operator. -/
def termGroups (L : List Term) : List (List Term) :=
  [L.filter fun t => decide (FullyConnected t), L.filter fun t => decide (Linked t), L.filter fun t => decide (Unlinked t)]

/-- The file consists of the code of all projection operators, in order; the code of a projection
operator consists of the programs written for the three groups of its ground-state terms without `f`
terms. -/
theorem pythonFile_contents (so : SetOrder Nat) (sol : SetOrder (List T)) (hMax cc smax omegaMax : Nat) (hcc : 1 ≤ cc)
    (F : List OmegaCode) (hF : pythonFile so sol hMax cc smax omegaMax = .ok F) :
    List.Forall₂ (fun omega c => c.omega = omega ∧ ∃ L, termsFor sol true true hMax cc smax omega = .ok L ∧
      List.Forall₂ (fun l p => writeDefault so hMax cc l = .ok p) (termGroups L) c.default ∧
      List.Forall₂ (fun l p => writeOpt so hMax cc l = .ok p) (termGroups L) c.opt ∧
      List.Forall₂ (fun l p => writePaths so hMax cc l = .ok p) (termGroups L) c.paths) (omegaOps cc omegaMax) F := by
  refine (collect_one.1 hF).imp ?_
  intro omega c h
  unfold omegaCode pyTerms at h
  obtain ⟨L, hL⟩ := termsFor_ok sol true true hMax cc smax hcc omega
  obtain ⟨f, k, u, hs⟩ := separate_ok sol true true hMax cc smax hcc omega L hL
  obtain ⟨rfl, rfl, rfl⟩ := separate_exact L f k u hs
  rw [hL] at h
  simp only [] at h
  rw [hs] at h
  simp only [] at h
  split at h
  · next d o q h1 h2 h3 =>
    cases h
    exact ⟨rfl, L, hL, collect_one.1 h1, collect_one.1 h2, collect_one.1 h3⟩
  all_goals cases h

theorem mem_termGroups {L l : List Term} (h : l ∈ termGroups L) {t : Term} (ht : t ∈ l) : t ∈ L := by
  simp only [termGroups, List.mem_cons, List.not_mem_nil, or_false] at h
  rcases h with rfl | rfl | rfl <;> exact (List.mem_filter.1 ht).1

theorem forall₂_mem_right {α β : Type} {R : α → β → Prop} {l : List α} {r : List β} (h : List.Forall₂ R l r)
    (b : β) (hb : b ∈ r) : ∃ a ∈ l, R a b := by
  induction h with
  | nil => cases hb
  | cons h1 _ ih =>
    rcases List.mem_cons.1 hb with rfl | hb
    · exact ⟨_, by simp, h1⟩
    · obtain ⟨a, h2, h3⟩ := ih hb; exact ⟨a, by simp [h2], h3⟩

/-- C22: every einsum in a generated file, whatever the runtime truncation, evaluates a term of the
projection operator it is written for. -/
theorem file_einsums_wellformed (so : SetOrder Nat) (sol : SetOrder (List T)) (hMax cc smax omegaMax : Nat)
    (hcc : 1 ≤ cc) (hH : hMax ≤ 6) (hS : smax ≤ 6) (hP : omegaMax ≤ 6) (F : List OmegaCode)
    (hF : pythonFile so sol hMax cc smax omegaMax = .ok F) (c : OmegaCode) (hc : c ∈ F) (p : Program Einsum)
    (hp : p ∈ c.default) (fl : Flags) (e : Einsum) (he : e ∈ runItems fl p) :
    ∃ L, termsFor sol true true hMax cc smax c.omega = .ok L ∧
      ∃ t ∈ L, Enabled fl t ∧ ∃ mid vh order, EinsumFor t e mid vh order := by
  obtain ⟨omega, ho, rfl, L, hL, hd, _, _⟩ := forall₂_mem_right (pythonFile_contents so sol hMax cc smax omegaMax hcc F hF) c hc
  refine ⟨L, hL, ?_⟩
  obtain ⟨l, hl, hw⟩ := forall₂_mem_right hd p hp
  obtain ⟨_, g, h1, h2⟩ := writeProgram_spec so hMax cc einsums l p hw
  obtain ⟨gr, hgr, he⟩ := List.mem_flatMap.1 he
  rw [(h2 fl).mem_iff] at hgr
  obtain ⟨t, ht, rfl⟩ := List.mem_map.1 hgr
  obtain ⟨ht', hen⟩ := List.mem_filter.1 ht
  have htl := (kept_sublist so l).subset ht'
  have hto := (kept_keys so l t ht').1
  have htL := mem_termGroups hl htl
  refine ⟨t, htL, hen, ?_⟩
  obtain ⟨es, e1, _, e3⟩ := einsums_wellformed t
    (fitsCode_of_generated sol true true hMax cc smax omegaMax hcc hH hS hP _ ho L hL t htL hto)
  rw [h1 t htl hto] at e1
  cases e1
  exact e3 e he

/-- C24 for a generated file: group by group the calls of the optimised function use up exactly the
contraction expressions of the same group. -/
theorem file_paths_aligned (so : SetOrder Nat) (sol : SetOrder (List T)) (hMax cc smax omegaMax : Nat)
    (hcc : 1 ≤ cc) (hH : hMax ≤ 6) (hS : smax ≤ 6) (hP : omegaMax ≤ 6) (F : List OmegaCode)
    (hF : pythonFile so sol hMax cc smax omegaMax = .ok F) (c : OmegaCode) (hc : c ∈ F) (fl : Flags) :
    List.Forall₂ (fun o q => ∃ served, serve (runItems fl q) (runItems fl o) = some (served, []) ∧
      served.map Prod.fst = runItems fl o ∧
      ∀ x ∈ served, x.2.shapes = (x.1.h.1 + x.1.h.2) :: x.1.ts.map fun k => k.1 + k.2) c.opt c.paths := by
  obtain ⟨omega, ho, rfl, L, hL, _, h2, h3⟩ := forall₂_mem_right (pythonFile_contents so sol hMax cc smax omegaMax hcc F hF) c hc
  have hfit : ∀ l ∈ termGroups L, ∀ t ∈ l, onlyH t.ts = false → FitsCode t := fun l hl t ht hto =>
    fitsCode_of_generated sol true true hMax cc smax omegaMax hcc hH hS hP _ ho L hL t (mem_termGroups hl ht) hto
  generalize c.opt = os at h2
  generalize c.paths = qs at h3
  generalize termGroups L = ls at h2 h3 hfit
  induction h2 generalizing qs with
  | nil => cases h3; exact .nil
  | cons a _ ih =>
    cases h3 with
    | cons b h3 =>
      refine .cons (optimised_paths_aligned so hMax cc _ (hfit _ (by simp)) _ _ a b fl) (ih _ h3 fun l hl => hfit l (by simp [hl]))

/-- C40: the code generated for a projection with creation operators is empty, for every truncation
(the generator has no switch for it). -/
theorem creation_projection_empty (so : SetOrder Nat) (sol : SetOrder (List T)) (hMax cc smax omegaMax : Nat)
    (hcc : 1 ≤ cc) (F : List OmegaCode) (hF : pythonFile so sol hMax cc smax omegaMax = .ok F) (c : OmegaCode)
    (hc : c ∈ F) (hm : 1 ≤ c.omega.m) :
    c.default = List.replicate 3 ⟨[], [], [], []⟩ ∧ c.opt = List.replicate 3 ⟨[], [], [], []⟩ ∧
      c.paths = List.replicate 3 ⟨[], [], [], []⟩ := by
  obtain ⟨omega, ho, rfl, L, hL, h1, h2, h3⟩ := forall₂_mem_right (pythonFile_contents so sol hMax cc smax omegaMax hcc F hF) c hc
  have hLe : L = [] := by
    apply List.eq_nil_iff_forall_not_mem.2
    intro t ht
    obtain ⟨L0, hL0⟩ := termsFor_ok sol false true hMax cc smax hcc c.omega
    have := remove_f_exact sol true hMax cc smax hcc c.omega L0 L hL0 hL
    rw [this] at ht
    obtain ⟨ht0, heq⟩ := List.mem_filter.1 ht
    obtain ⟨d1, _⟩ := term_data sol false true hMax cc smax hcc c.omega L0 hL0 t ht0
    obtain ⟨_, n2⟩ := term_ts_ne_nil sol false true hMax cc smax hcc c.omega L0 hL0 t ht0
    have heq := of_decide_eq_true heq
    have hz : (t.ts.map T.n_o).sum = 0 := by
      rcases n2 with n2 | ⟨_, n2⟩
      · rw [n2]; rfl
      · apply List.sum_eq_zero
        intro x hx
        obtain ⟨y, hy, rfl⟩ := List.mem_map.1 hx
        exact ((n2 y hy).2.2 rfl).2
    omega
  rw [hLe] at h1 h2 h3
  have e : termGroups [] = [[], [], []] := rfl
  rw [e] at h1 h2 h3
  have d : writeDefault so hMax cc [] = .ok ⟨[], [], [], []⟩ := rfl
  have o : writeOpt so hMax cc [] = .ok ⟨[], [], [], []⟩ := rfl
  have q : writePaths so hMax cc [] = .ok ⟨[], [], [], []⟩ := rfl
  refine ⟨?_, ?_, ?_⟩
  · have := collect_one.2 h1
    simp only [collect, d, one] at this
    injection this with this
    rw [← this]; rfl
  · have := collect_one.2 h2
    simp only [collect, o, one] at this
    injection this with this
    rw [← this]; rfl
  · have := collect_one.2 h3
    simp only [collect, q, one] at this
    injection this with this
    rw [← this]; rfl

/-- C40, what is missing: the projection `(1, 0)` at `H=1, CC=1, S=1` has a contraction: `h_(0,1)`
paired with the projection operator, which the LaTeX generator prints when `f` terms are kept. -/
theorem creation_projection_has_terms :
    (match termsFor (SetOrder.std _) false true 1 1 1 ⟨"d", 1, 1, 0⟩ with
      | .error _ => []
      | .ok L => L.map fun t => ((t.h.m, t.h.n), t.ts)) =
    [((0, 1), [⟨0, 0, 0, 0⟩])] := by
  decide +kernel

theorem foldl_max_le (l : List Nat) (a b : Nat) (ha : a ≤ b) (h : ∀ x ∈ l, x ≤ b) : l.foldl max a ≤ b := by
  induction l generalizing a with
  | nil => exact ha
  | cons x l ih => exact ih _ (by have := h x (by simp); simp only [Nat.max_le]; omega) (fun y hy => h y (by simp [hy]))

/-- what the writers need -/
structure Writable (hMax cc : Nat) (t : Term) : Prop where
  rank : t.h.rank = t.h.m + t.h.n
  some : t.ts ≠ []
  len : t.ts.length ≤ 6
  hr : t.h.m + t.h.n ≤ hMax
  tr : ∀ x ∈ t.ts, ampRank x ≤ cc

theorem fillTable_ok {ι : Type} (so : SetOrder Nat) (hMax cc : Nat) (it : HC → List T → Except PyErr (List ι))
    (l : List Term) (hl : ∀ t ∈ l, onlyH t.ts = false → Writable hMax cc t)
    (hit : ∀ t ∈ l, onlyH t.ts = false → ∃ is, it t.h t.ts = .ok is) (adds : List (Nat × Nat))
    (tab : List (Key × List ι)) : ∃ r, fillTable so hMax cc it l adds tab = .ok r := by
  induction l generalizing adds tab with
  | nil => exact ⟨_, rfl⟩
  | cons t l ih =>
    unfold fillTable
    have ih' := ih (fun t ht => hl t (by simp [ht])) (fun t ht => hit t (by simp [ht]))
    cases ho : onlyH t.ts with
    | true => simp only [if_true]; exact ih' _ _
    | false =>
      obtain ⟨w1, w2, w3, w4, w5⟩ := hl t (by simp) ho
      obtain ⟨is, his⟩ := hit t (by simp) ho
      have k1 : ¬ (keyOf so t.h t.ts).hr > hMax := by
        have : (keyOf so t.h t.ts).hr = max t.h.m t.h.n := rfl
        rw [this]; omega
      have k2 : ¬ (keyOf so t.h t.ts).tr > cc := by
        have : (keyOf so t.h t.ts).tr = (t.ts.map rankT).foldl max 0 := rfl
        rw [this, not_lt]
        exact foldl_max_le _ _ _ (Nat.zero_le _) (fun x hx => by
          obtain ⟨y, hy, rfl⟩ := List.mem_map.1 hx; exact w5 y hy)
      simp only [Bool.false_eq_true, if_false, if_neg k1, if_neg k2, his]
      exact ih' _ _

theorem cblocks_bound {ι : Type} (tab : List (Key × List ι)) (cc i : Nat) (hcc : cc ≤ 6) :
    ((cblocks tab cc i).any fun c => decide (taylorTag.length ≤ c.j)) = false := by
  rw [Bool.eq_false_iff]
  intro h
  obtain ⟨c, hc, hj⟩ := List.any_eq_true.1 h
  have hj := of_decide_eq_true hj
  have : taylorTag.length = 7 := rfl
  have hb : c.j ≤ cc := by
    unfold cblocks at hc
    obtain ⟨j, hj', rfl⟩ := List.mem_map.1 hc
    have := mem_range2.1 (List.mem_filter.1 hj').1
    simp only []
    omega
  omega

theorem writeProgram_ok {ι : Type} (so : SetOrder Nat) (hMax cc : Nat) (it : HC → List T → Except PyErr (List ι))
    (l : List Term) (hl : ∀ t ∈ l, onlyH t.ts = false → Writable hMax cc t)
    (hit : ∀ t ∈ l, onlyH t.ts = false → ∃ is, it t.h t.ts = .ok is) (hH : hMax ≤ 5) (hcc : cc ≤ 6) :
    ∃ p, writeProgram so hMax cc it l = .ok p := by
  unfold writeProgram
  split
  · exact ⟨_, rfl⟩
  · obtain ⟨⟨adds, tab⟩, hr⟩ := fillTable_ok so hMax cc it l hl hit [] []
    rw [hr]
    simp only [cblocks_bound tab cc 0 hcc, Bool.false_eq_true, if_false]
    have : ∃ hb, hblocks tab hMax cc = .ok hb := by
      unfold hblocks
      refine ⟨_, collect_ok_of (fun i => if (bucket tab i 0).isEmpty && (cblocks tab cc i).isEmpty then [] else
        [⟨i, bucket tab i 0, cblocks tab cc i⟩]) ?_⟩
      intro i hi
      have hi := mem_range2.1 hi
      have : hamiltonianTag[i]? ≠ none := by
        rw [Ne, List.getElem?_eq_none_iff]
        have : hamiltonianTag.length = 6 := rfl
        omega
      split
      · next e => exact absurd e this
      · simp only [cblocks_bound tab cc i hcc, Bool.false_eq_true, if_false]
        split <;> rfl
    obtain ⟨hb, hhb⟩ := this
    rw [hhb]
    exact ⟨_, rfl⟩

theorem hblocks_index {ι : Type} (tab : List (Key × List ι)) (hMax cc : Nat) (hH : 6 ≤ hMax) (hcc : cc ≤ 6) :
    hblocks tab hMax cc = .error .index := by
  unfold hblocks
  refine collect_error_of ?_ 6 (mem_range2.2 (by omega)) rfl
  intro i _
  split
  · exact .inr rfl
  · simp only [cblocks_bound tab cc i hcc, Bool.false_eq_true, if_false]
    split <;> exact .inl ⟨_, rfl⟩

theorem writeProgram_index {ι : Type} (so : SetOrder Nat) (hMax cc : Nat) (it : HC → List T → Except PyErr (List ι))
    (l : List Term) (hl : ∀ t ∈ l, onlyH t.ts = false → Writable hMax cc t)
    (hit : ∀ t ∈ l, onlyH t.ts = false → ∃ is, it t.h t.ts = .ok is) (hH : 6 ≤ hMax) (hcc : cc ≤ 6) :
    writeProgram so hMax cc it l = if l = [] then .ok ⟨[], [], [], []⟩ else .error .index := by
  unfold writeProgram
  split
  · rfl
  · obtain ⟨⟨adds, tab⟩, hr⟩ := fillTable_ok so hMax cc it l hl hit [] []
    rw [hr]
    simp only [cblocks_bound tab cc 0 hcc, Bool.false_eq_true, if_false, hblocks_index tab hMax cc hH hcc]

theorem items_ok (hMax cc : Nat) (t : Term) (h : Writable hMax cc t) : (∃ a, einsums t.h t.ts = .ok a) ∧
    (∃ a, optCalls t.h t.ts = .ok a) ∧ ∃ a, paths t.h t.ts = .ok a := by
  obtain ⟨os, _, _, _, h3, h4, h5⟩ := items_orders t.h t.ts h.some h.len h.rank _ (electronic_ok _ h.len)
  exact ⟨⟨_, h3⟩, ⟨_, h4⟩, ⟨_, h5⟩⟩

theorem writable_of_generated (sol : SetOrder (List T)) (rf gs : Bool) (hMax cc smax : Nat)
    (hcc : 1 ≤ cc) (hS : smax ≤ 6) (omega : Op) (L : List Term)
    (hL : termsFor sol rf gs hMax cc smax omega = .ok L) (t : Term) (ht : t ∈ L) : Writable hMax cc t := by
  obtain ⟨_, _, _, d4, d5, _⟩ := term_data sol rf gs hMax cc smax hcc omega L hL t ht
  obtain ⟨n1, n2⟩ := term_ts_ne_nil sol rf gs hMax cc smax hcc omega L hL t ht
  refine ⟨d4, n1, ?_, d5, ?_⟩
  · rcases n2 with n2 | ⟨n2, _⟩
    · rw [n2]; simp
    · omega
  · rcases n2 with n2 | ⟨_, n2⟩
    · rw [n2]; intro x hx; simp only [List.mem_singleton] at hx; rw [hx]; simp [ampRank]
    · exact fun x hx => (n2 x hx).2.1

/-- C41: with at most six amplitudes and cluster rank at most 6 (the verified limits), Python code is
generated exactly when the Hamiltonian rank is at most 5; at rank 6, which the verification accepts,
the generator always stops with an `IndexError`. -/
theorem pythonFile_ok_iff (so : SetOrder Nat) (sol : SetOrder (List T)) (hMax cc smax omegaMax : Nat) (hcc : 1 ≤ cc)
    (hcc' : cc ≤ 6) (hS : smax ≤ 6) :
    ((∃ F, pythonFile so sol hMax cc smax omegaMax = .ok F) ↔ hMax ≤ 5) ∧
    (6 ≤ hMax → pythonFile so sol hMax cc smax omegaMax = .error .index) := by
  have hgroups : ∀ omega, ∃ L, termsFor sol true true hMax cc smax omega = .ok L ∧
      pyTerms sol hMax cc smax omega = .ok (termGroups L) ∧
      ∀ l ∈ termGroups L, ∀ t ∈ l, onlyH t.ts = false → Writable hMax cc t := by
    intro omega
    obtain ⟨L, hL⟩ := termsFor_ok sol true true hMax cc smax hcc omega
    obtain ⟨f, k, u, hs⟩ := separate_ok sol true true hMax cc smax hcc omega L hL
    obtain ⟨rfl, rfl, rfl⟩ := separate_exact L f k u hs
    refine ⟨L, hL, ?_, fun l hl t ht _ => writable_of_generated sol true true hMax cc smax hcc hS omega L hL t (mem_termGroups hl ht)⟩
    unfold pyTerms
    rw [hL]; simp only []
    rw [hs]; rfl
  have hok : hMax ≤ 5 → ∃ F, pythonFile so sol hMax cc smax omegaMax = .ok F := by
    intro hH
    have : ∀ omega, ∃ c, omegaCode so sol hMax cc smax omega = .ok c := by
      intro omega
      obtain ⟨L, _, hp, hw⟩ := hgroups omega
      unfold omegaCode
      rw [hp]
      simp only []
      have h1 : ∃ d, collect (fun l => one (writeDefault so hMax cc l)) (termGroups L) = .ok d := by
        have : ∀ l, ∃ p, l ∈ termGroups L → writeDefault so hMax cc l = .ok p := by
          intro l
          by_cases hl : l ∈ termGroups L
          · obtain ⟨p, hp⟩ := writeProgram_ok so hMax cc einsums l (hw l hl) (fun t ht ho => (items_ok _ _ t (hw l hl t ht ho)).1) hH hcc'
            exact ⟨p, fun _ => hp⟩
          · exact ⟨⟨[], [], [], []⟩, fun h => absurd h hl⟩
        choose g hg using this
        exact ⟨_, collect_ok_of (fun l => [g l]) (fun l hl => by rw [hg l hl]; rfl)⟩
      have h2 : ∃ d, collect (fun l => one (writeOpt so hMax cc l)) (termGroups L) = .ok d := by
        have : ∀ l, ∃ p, l ∈ termGroups L → writeOpt so hMax cc l = .ok p := by
          intro l
          by_cases hl : l ∈ termGroups L
          · obtain ⟨p, hp⟩ := writeProgram_ok so hMax cc optCalls l (hw l hl) (fun t ht ho => (items_ok _ _ t (hw l hl t ht ho)).2.1) hH hcc'
            exact ⟨p, fun _ => hp⟩
          · exact ⟨⟨[], [], [], []⟩, fun h => absurd h hl⟩
        choose g hg using this
        exact ⟨_, collect_ok_of (fun l => [g l]) (fun l hl => by rw [hg l hl]; rfl)⟩
      have h3 : ∃ d, collect (fun l => one (writePaths so hMax cc l)) (termGroups L) = .ok d := by
        have : ∀ l, ∃ p, l ∈ termGroups L → writePaths so hMax cc l = .ok p := by
          intro l
          by_cases hl : l ∈ termGroups L
          · obtain ⟨p, hp⟩ := writeProgram_ok so hMax cc paths l (hw l hl) (fun t ht ho => (items_ok _ _ t (hw l hl t ht ho)).2.2) hH hcc'
            exact ⟨{ p with adds := [] }, fun _ => by unfold writePaths; rw [hp]⟩
          · exact ⟨⟨[], [], [], []⟩, fun h => absurd h hl⟩
        choose g hg using this
        exact ⟨_, collect_ok_of (fun l => [g l]) (fun l hl => by rw [hg l hl]; rfl)⟩
      obtain ⟨d, h1⟩ := h1
      obtain ⟨o, h2⟩ := h2
      obtain ⟨q, h3⟩ := h3
      rw [h1, h2, h3]
      exact ⟨_, rfl⟩
    choose g hg using this
    exact ⟨_, collect_ok_of (fun o => [g o]) (fun o _ => by rw [hg o]; rfl)⟩
  have herr : 6 ≤ hMax → pythonFile so sol hMax cc smax omegaMax = .error .index := by
    intro hH
    have hdef : ∀ (omega : Op) (L : List Term), (∀ l ∈ termGroups L, ∀ t ∈ l, onlyH t.ts = false → Writable hMax cc t) →
        (L = [] ∨ collect (fun l => one (writeDefault so hMax cc l)) (termGroups L) = .error .index) := by
      intro omega L hw
      by_cases hLe : L = []
      · exact .inl hLe
      · refine .inr ?_
        have hd : ∀ l ∈ termGroups L, writeDefault so hMax cc l = if l = [] then .ok ⟨[], [], [], []⟩ else .error .index :=
          fun l hl => writeProgram_index so hMax cc einsums l (hw l hl) (fun t ht ho => (items_ok _ _ t (hw l hl t ht ho)).1) hH hcc'
        have hne : ∃ l ∈ termGroups L, l ≠ [] := by
          obtain ⟨t, ht⟩ := List.exists_mem_of_ne_nil L hLe
          by_cases h1 : FullyConnected t
          · exact ⟨L.filter fun t => decide (FullyConnected t), by simp [termGroups], List.ne_nil_of_mem (List.mem_filter.2 ⟨ht, decide_eq_true h1⟩)⟩
          · by_cases h2 : Unlinked t
            · exact ⟨L.filter fun t => decide (Unlinked t), by simp [termGroups], List.ne_nil_of_mem (List.mem_filter.2 ⟨ht, decide_eq_true h2⟩)⟩
            · exact ⟨L.filter fun t => decide (Linked t), by simp [termGroups], List.ne_nil_of_mem (List.mem_filter.2 ⟨ht, decide_eq_true ⟨h1, h2⟩⟩)⟩
        obtain ⟨l, hl, hlne⟩ := hne
        refine collect_error_of (e := .index) ?_ l hl ?_
        · intro l hl
          rw [hd l hl]
          split
          · exact .inl ⟨_, rfl⟩
          · exact .inr rfl
        · rw [hd l hl, if_neg hlne]; rfl
    have hcase : ∀ omega, (∃ r, one (omegaCode so sol hMax cc smax omega) = .ok r) ∨
        one (omegaCode so sol hMax cc smax omega) = .error .index := by
      intro omega
      obtain ⟨L, _, hp, hw⟩ := hgroups omega
      unfold omegaCode
      rw [hp]
      simp only []
      rcases hdef omega L hw with rfl | h
      · exact .inl ⟨_, rfl⟩
      · right; rw [h]; rfl
    refine collect_error_of (fun o _ => hcase o) ⟨rep 'd' 0 ++ rep 'b' 0, 0, 0, 0⟩
      ((omegaOps_exact _ _ _).2 ⟨rfl, rfl, by simp, by simp⟩) ?_
    obtain ⟨L, hL, hp, hw⟩ := hgroups ⟨rep 'd' 0 ++ rep 'b' 0, 0, 0, 0⟩
    have hLne : L ≠ [] := by
      obtain ⟨L0, hL0⟩ := termsFor_ok sol false true hMax cc smax hcc ⟨rep 'd' 0 ++ rep 'b' 0, 0, 0, 0⟩
      obtain ⟨t, ht, _, _, hperm⟩ := terms_complete sol true hMax cc smax hcc _ L0 hL0 0 0 (by omega) [] (by simp)
        ⟨by simp, 0, 0, by simp [Pairs]⟩
      obtain ⟨d1, _⟩ := term_data sol false true hMax cc smax hcc _ L0 hL0 t ht
      obtain ⟨n1, _⟩ := term_ts_ne_nil sol false true hMax cc smax hcc _ L0 hL0 t ht
      have hz : t.ts = [⟨0, 0, 0, 0⟩] := by
        by_contra hz
        have := hperm.eq_nil
        unfold amplitudes at this
        rw [if_neg hz] at this
        exact n1 this
      rw [remove_f_exact sol true hMax cc smax hcc _ L0 L hL0 hL]
      apply List.ne_nil_of_mem (a := t)
      rw [List.mem_filter]
      refine ⟨ht, ?_⟩
      rw [hz, d1]; rfl
    unfold omegaCode
    rw [hp]
    simp only []
    rcases hdef ⟨rep 'd' 0 ++ rep 'b' 0, 0, 0, 0⟩ L hw with h | h
    · exact absurd h hLne
    · rw [h]; rfl
  refine ⟨⟨?_, hok⟩, herr⟩
  rintro ⟨F, hF⟩
  by_contra hn
  rw [herr (by omega)] at hF
  cases hF

end TF.CC
