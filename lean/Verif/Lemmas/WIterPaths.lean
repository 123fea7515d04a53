import Verif.Lemmas.WIterCall
import Verif.Lemmas.WSourceMaster

/-!
# Running the text of a generated W module: the functions that make the optimised expressions
-/

namespace TF.W

set_option maxRecDepth 10000

open TF.Py TF.Helper TF.Spec TF.Spec.Source TF.Spec.PyRun TF.Spec.PyIter TF.Spec.Tensor TF.Spec.WCall
open TF.Spec.W (Done Multiplies einsumValue added returned overFactorials)
open TF.Spec.ResidualCall (tensor)

variable {R : Type} [CommRing R] [Algebra Rat R]

/-- the value of a path -/
def pathVal (A N : Nat) (p : Path) : Val R := .expression (subsText p.subs p.out) (p.shapes.map fun n => A :: A :: List.replicate n N)

/-- the value is a truncation with these flags -/
def IsTruncation (T : Val R) (fl : Nat → Bool) : Prop :=
  ∀ (vars : Vars R), vars "truncation".toList = some T → ∀ g, 1 ≤ g → g ≤ 6 → ∀ heap, eval ⟨vars, heap⟩ (flagExpr g) = .ok (.bool (fl g))

/-- the variables of a function that makes expressions -/
structure PScope (A N : Nat) (fl : Nat → Bool) (T : Val R) (ks : List Nat) (l : Nat → List (Val R)) (vars : Vars R) : Prop where
  A : vars "A".toList = some (.num A)
  N : vars "N".toList = some (.num N)
  truncation : vars "truncation".toList = some T
  flags : IsTruncation T fl
  oe : vars "oe".toList = none
  log : vars "log".toList = some (.imported [.sym '.', .sym '.', .word "log_conf".toList] "log".toList)
  lists : ∀ k ∈ ks, vars (listName k).toList = some (.list (l k))

section
variable {A N : Nat} {env : Spec.W.Env} {fl : Nat → Bool} {T : Val R} {ks : List Nat} {l : Nat → List (Val R)} {vars : Vars R} {known : List Char → Bool} {fs : Functions R}

theorem eval_shapeTuple (hA : vars "A".toList = some (.num A)) (hN : vars "N".toList = some (.num N)) (heap : List (NArr R)) (n : Nat) :
    eval ⟨vars, heap⟩ (.tuple (nameExpr "A" :: nameExpr "A" :: List.replicate n (nameExpr "N"))) = .ok (.tuple (.num A :: .num A :: List.replicate n (.num N))) := by
  have a0 : number "A".toList = Option.none := number_none (by decide)
  have n0 : number "N".toList = Option.none := number_none (by decide)
  have := evalList_names (vars := vars) (heap := heap) (ws := "A" :: "A" :: List.replicate n "N") (vs := .num (A : Rat) :: .num (A : Rat) :: List.replicate n (.num (N : Rat)))
    (.cons ⟨a0, hA⟩ (.cons ⟨a0, hA⟩ (by
      induction n with
      | zero => exact .nil
      | succ k ih => exact .cons ⟨n0, hN⟩ ih)))
  rw [List.map_cons, List.map_cons, List.map_replicate] at this
  rw [eval, this]
  rfl

theorem evalList_shapes (hA : vars "A".toList = some (.num A)) (hN : vars "N".toList = some (.num N)) (heap : List (NArr R)) : ∀ ns : List Nat,
    evalList ⟨vars, heap⟩ (ns.map fun n => .tuple (nameExpr "A" :: nameExpr "A" :: List.replicate n (nameExpr "N"))) =
      .ok (ns.map fun n => .tuple (.num A :: .num A :: List.replicate n (.num N)))
  | [] => rfl
  | n :: ns => by
    rw [List.map_cons, evalList, eval_shapeTuple hA hN, evalList_shapes hA hN heap ns]
    rfl

omit [CommRing R] [Algebra Rat R] in
theorem shapeOf_tuple (A N n : Nat) : shapeOf (.tuple (.num (A : Rat) :: .num (A : Rat) :: List.replicate n (.num (N : Rat))) : Val R) = some (A :: A :: List.replicate n N) := by
  have : ∀ k, (List.replicate k (.num (N : Rat) : Val R)).mapM lengthOf = some (List.replicate k N) := by
    intro k
    induction k with
    | zero => rfl
    | succ k ih => rw [List.replicate_succ, List.mapM_cons, ih]; simp [List.replicate_succ, lengthOf]
  simp only [shapeOf]
  rw [List.mapM_cons, List.mapM_cons, this]
  simp [lengthOf]

omit [CommRing R] [Algebra Rat R] in
theorem mapM_shapes (A N : Nat) : ∀ ns : List Nat, (ns.map fun n => (.tuple (.num (A : Rat) :: .num (A : Rat) :: List.replicate n (.num (N : Rat))) : Val R)).mapM shapeOf =
    some (ns.map fun n => A :: A :: List.replicate n N)
  | [] => rfl
  | n :: ns => by
    rw [List.map_cons, List.mapM_cons, shapeOf_tuple, mapM_shapes A N ns]
    rfl

theorem eval_path (sc : PScope A N fl T ks l vars) (heap : List (NArr R)) (p : Path) : eval ⟨vars, heap⟩ (pathExpr p) = .ok (pathVal A N p) := by
  have h1 : "oe".toList ≠ "np".toList := by decide
  have hs := evalList_shapes sc.A sc.N heap p.shapes
  unfold pathExpr
  rw [show nameExpr "oe" = .word "oe".toList from rfl, eval]
  have hl : evalList ⟨vars, heap⟩ (.str (subsText p.subs p.out) :: p.shapes.map fun n => .tuple (nameExpr "A" :: nameExpr "A" :: List.replicate n (nameExpr "N"))) =
      .ok (.str (subsText p.subs p.out) :: p.shapes.map fun n => .tuple (.num A :: .num A :: List.replicate n (.num N))) := by
    rw [evalList, eval, hs]
    rfl
  have hc : callOe "contract_expression".toList (.str (subsText p.subs p.out) :: p.shapes.map fun n => (.tuple (.num (A : Rat) :: .num (A : Rat) :: List.replicate n (.num (N : Rat))) : Val R)) =
      .ok (pathVal A N p) := by
    unfold callOe pathVal
    rw [if_pos rfl]
    simp only [mapM_shapes]
  rw [hl]
  simp only [if_neg h1, sc.oe, if_true]
  exact hc

theorem evalList_paths (sc : PScope A N fl T ks l vars) (heap : List (NArr R)) : ∀ ps : List Path, evalList ⟨vars, heap⟩ (ps.map pathExpr) = .ok (ps.map (pathVal A N))
  | [] => rfl
  | p :: ps => by
    rw [List.map_cons, evalList, eval_path sc, evalList_paths sc heap ps]
    rfl

theorem listName_toList (k : Nat) : (listName k).toList = 'o' :: 'r' :: 'd' :: 'e' :: 'r' :: '_' :: ((toString k).toList ++ "_list".toList) := by
  simp [listName, String.toList_append]

theorem listName_ne : ∀ a ≤ 6, ∀ b ≤ 6, a ≠ b → (listName a).toList ≠ (listName b).toList := by decide +kernel

/-- the variables after a list has been extended -/
theorem PScope.extend (sc : PScope A N fl T ks l vars) {k : Nat} (hk6 : ∀ k ∈ ks, k ≤ 6) (hk : k ≤ 6) (v : List (Val R)) :
    PScope A N fl T ks (Function.update l k v) (Spec.PyRun.set vars (listName k).toList (.list v)) := by
  have ho : ∀ w : List Char, w.take 6 ≠ "order_".toList → w ≠ (listName k).toList := by
    rintro w hw rfl
    rw [listName_toList] at hw
    exact hw rfl
  refine ⟨by rw [set_other _ _ (ho _ (by decide))]; exact sc.A, by rw [set_other _ _ (ho _ (by decide))]; exact sc.N, by rw [set_other _ _ (ho _ (by decide))]; exact sc.truncation, sc.flags,
    by rw [set_other _ _ (ho _ (by decide))]; exact sc.oe, by rw [set_other _ _ (ho _ (by decide))]; exact sc.log, fun j hj => ?_⟩
  by_cases e : j = k
  · subst e
    rw [set_same, Function.update_self]
  · rw [set_other _ _ (listName_ne j (hk6 j hj) k hk e), Function.update_of_ne e]
    exact sc.lists j hj

theorem exec_extend (sc : PScope A N fl T ks l vars) {k : Nat} (hk : k ∈ ks) (ps : List Path) (heap : List (NArr R)) :
    execS known fs ⟨vars, heap⟩ (extendAst k ps) = .ok (none, ⟨Spec.PyRun.set vars (listName k).toList (.list (l k ++ ps.map (pathVal A N))), heap⟩) := by
  have hl := evalList_paths sc heap ps
  unfold extendAst
  rw [execS]
  have e1 : listCall ⟨vars, heap⟩ (.call (.attr (nameExpr (listName k)) "extend".toList) [.list (ps.map pathExpr)]) =
      some ((listName k).toList, l k, "extend".toList, [.list (ps.map pathExpr)]) := by
    simp only [nameExpr, listCall, sc.lists k hk]
  have e2 : evalList ⟨vars, heap⟩ [.list (ps.map pathExpr)] = .ok [.list (ps.map (pathVal A N))] := by
    simp only [evalList, eval, hl, Except.map]
  simp only [e1, e2, changeList, itemsOf, if_true, Except.map]

/-- the expressions of an order -/
def listAt (A N : Nat) (fl : Nat → Bool) (bs : List (Nat × List Path)) : List (Val R) := bs.flatMap fun b => if fl b.1 then b.2.map (pathVal A N) else []

theorem exec_blocks (hk6 : ∀ k ∈ ks, k ≤ 6) {k : Nat} (hk : k ∈ ks) (heap : List (NArr R)) (rest : List Spec.Source.Stmt) : ∀ {bs : List (Nat × List Path)} {l : Nat → List (Val R)} {vars : Vars R},
    PScope A N fl T ks l vars → (∀ b ∈ bs, GoodPaths b) →
    ∃ vars', PScope A N fl T ks (Function.update l k (l k ++ listAt A N fl bs)) vars' ∧
      execAllS known fs ⟨vars, heap⟩ (bs.map (pathsBlockAst k) ++ rest) = execAllS known fs ⟨vars', heap⟩ rest
  | [], l, vars, sc, _ => ⟨vars, by simpa [listAt] using sc, rfl⟩
  | b :: bs, l, vars, sc, h => by
    have hb := h b (by simp)
    have hc : eval ⟨vars, heap⟩ (.attr (nameExpr "truncation") ((orderTags[b.1]?).getD "").toList) = .ok (.bool (fl b.1)) := sc.flags _ sc.truncation _ hb.gate.1 hb.gate.2 heap
    rw [List.map_cons, List.cons_append]
    cases hfl : fl b.1 with
    | true =>
      obtain ⟨vars', h1, h2⟩ := exec_blocks hk6 hk heap rest (bs := bs) (sc.extend hk6 (hk6 k hk) (l k ++ b.2.map (pathVal A N))) fun c hc => h c (by simp [hc])
      refine ⟨vars', ?_, ?_⟩
      · rw [Function.update_idem, Function.update_self] at h1
        have : listAt (R := R) A N fl (b :: bs) = b.2.map (pathVal A N) ++ listAt A N fl bs := by simp [listAt, hfl]
        rw [this, ← List.append_assoc]
        exact h1
      · rw [← h2]
        refine execAllS_cons ?_
        unfold pathsBlockAst Reading.gateExpr
        rw [execS, hc, hfl]
        simp only [execAllS, exec_extend sc hk]
    | false =>
      obtain ⟨vars', h1, h2⟩ := exec_blocks hk6 hk heap rest (bs := bs) sc fun c hc => h c (by simp [hc])
      refine ⟨vars', ?_, ?_⟩
      · have : listAt (R := R) A N fl (b :: bs) = listAt A N fl bs := by simp [listAt, hfl]
        rw [this]
        exact h1
      · rw [← h2]
        refine execAllS_cons ?_
        unfold pathsBlockAst Reading.gateExpr
        rw [execS, hc, hfl]
        simp only [execAllS]

theorem exec_lists (hk6 : ∀ k ∈ ks, k ≤ 6) (heap : List (NArr R)) (rest : List Spec.Source.Stmt) (g : Nat → List (Nat × List Path)) : ∀ {is : List Nat} {l : Nat → List (Val R)} {vars : Vars R},
    is.Nodup → (∀ i ∈ is, i + 1 ∈ ks ∧ ∀ b ∈ g i, GoodPaths b) → PScope A N fl T ks l vars →
    ∃ (l' : Nat → List (Val R)) (vars' : Vars R), (∀ i ∈ is, l' (i + 1) = l (i + 1) ++ listAt A N fl (g i)) ∧ (∀ k, (∀ i ∈ is, k ≠ i + 1) → l' k = l k) ∧ PScope A N fl T ks l' vars' ∧
      execAllS known fs ⟨vars, heap⟩ ((is.flatMap fun i => (g i).map (pathsBlockAst (i + 1))) ++ rest) = execAllS known fs ⟨vars', heap⟩ rest
  | [], l, vars, _, _, sc => ⟨l, vars, by simp, fun _ _ => rfl, sc, rfl⟩
  | i :: is, l, vars, hnd, h, sc => by
    obtain ⟨hi, hnd⟩ := List.nodup_cons.1 hnd
    obtain ⟨hik, hib⟩ := h i (by simp)
    obtain ⟨v1, s1, e1⟩ := exec_blocks (known := known) (fs := fs) hk6 hik heap ((is.flatMap fun i => (g i).map (pathsBlockAst (i + 1))) ++ rest) sc hib
    obtain ⟨l', v2, a1, a2, s2, e2⟩ := exec_lists hk6 heap rest g hnd (fun j hj => h j (by simp [hj])) s1
    refine ⟨l', v2, ?_, ?_, s2, ?_⟩
    · intro j hj
      rcases List.mem_cons.1 hj with rfl | hj
      · rw [a2 _ fun j' hj' e => hi (by have : j = j' := by omega
                                        exact this ▸ hj'), Function.update_self]
      · rw [a1 j hj, Function.update_of_ne fun e => hi (by have : i = j := by omega
                                                           exact this ▸ hj)]
    · intro k hk
      rw [a2 k fun j hj => hk j (by simp [hj]), Function.update_of_ne (hk i (by simp))]
    · rw [List.flatMap_cons, List.append_assoc, e1, e2]

/-- the list that is returned -/
def listsVal (A N : Nat) (fl : Nat → Bool) (first : Nat) (ls : List (List (Nat × List Path))) : Val R :=
  .list (List.replicate first (.list []) ++ (range2 first ls.length).map fun i => .list (listAt A N fl ((ls[i]?).getD [])))

theorem eval_replicate_empty (E : Spec.PyRun.Env R) (m : Nat) (l : List Expr) :
    evalList E (List.replicate m (.list []) ++ l) = (evalList E l).map (List.replicate m (.list []) ++ ·) := by
  induction m with
  | zero => simp only [List.replicate_zero, List.nil_append]; cases evalList E l <;> rfl
  | succ m ih =>
    rw [List.replicate_succ, List.cons_append, evalList, ih, eval]
    simp only [evalList, Except.map]
    cases evalList E l <;> rfl

theorem exec_pathsReturn {kind : Kind} {p : PathsFunction} (sc : PScope A N fl T ks l vars) (hks : ∀ i, kind.firstList ≤ i → i < p.lists.length → i + 1 ∈ ks)
    (hl : ∀ i, kind.firstList ≤ i → i < p.lists.length → l (i + 1) = listAt A N fl ((p.lists[i]?).getD [])) (heap : List (NArr R)) :
    execAllS known fs ⟨vars, heap⟩ [pathsReturn kind p] = .ok (some (listsVal A N fl kind.firstList p.lists), ⟨vars, heap⟩) := by
  have h1 : evalList ⟨vars, heap⟩ ((range2 kind.firstList p.lists.length).map fun i => nameExpr (listName (i + 1))) =
      .ok ((range2 kind.firstList p.lists.length).map fun i => .list (listAt A N fl ((p.lists[i]?).getD []))) := by
    have := evalList_names (vars := vars) (heap := heap) (ws := (range2 kind.firstList p.lists.length).map fun i => listName (i + 1))
      (vs := (range2 kind.firstList p.lists.length).map fun i => .list (listAt A N fl ((p.lists[i]?).getD []))) (by
      rw [List.forall₂_map_left_iff, List.forall₂_map_right_iff]
      refine List.forall₂_same.2 fun i hi => ?_
      rw [mem_range2] at hi
      refine ⟨by rw [listName_toList]; exact number_none (by simp), ?_⟩
      rw [sc.lists _ (hks i hi.1 hi.2), hl i hi.1 hi.2])
    rw [List.map_map] at this
    exact this
  unfold pathsReturn
  rw [execAllS, execS_ret rfl, exec]
  simp only [evalTop, eval, eval_replicate_empty, h1, Except.map]
  rfl

omit [CommRing R] [Algebra Rat R] in
theorem setAll_const {v : Val R} : ∀ {ws : List (List Char)} {vars : Vars R} {w : List Char}, w ∈ ws → setAll vars ws (ws.map fun _ => v) w = some v
  | a :: ws, vars, w, h => by
    rw [List.map_cons, setAll]
    by_cases hw : w ∈ ws
    · exact setAll_const hw
    · rw [setAll_other hw]
      rcases List.mem_cons.1 h with rfl | h
      · exact set_same _ _ _
      · exact absurd h hw

theorem evalList_empties (E : Spec.PyRun.Env R) : ∀ ks : List Nat, evalList E (ks.map fun _ => .list []) = .ok (ks.map fun _ => .list [])
  | [] => rfl
  | k :: ks => by
    rw [List.map_cons, evalList, evalList_empties E ks, eval]
    rfl

theorem exec_emptyLists (sc : PScope A N fl T ks (fun _ => []) vars) (heap : List (NArr R)) (rest : List Spec.Source.Stmt) {ks' : List Nat} (h2 : 2 ≤ ks'.length) :
    ∃ vars', PScope A N fl T (ks ++ ks') (fun _ => []) vars' ∧ execAllS known fs ⟨vars, heap⟩ (emptyLists ks' :: rest) = execAllS known fs ⟨vars', heap⟩ rest := by
  have ho : ∀ w : List Char, w.take 6 ≠ "order_".toList → w ∉ ks'.map fun k => (listName k).toList := by
    intro w hw h
    obtain ⟨k, _, rfl⟩ := List.mem_map.1 h
    rw [listName_toList] at hw
    exact hw rfl
  refine ⟨setAll vars (ks'.map fun k => (listName k).toList) ((ks'.map fun k => (listName k).toList).map fun _ => .list []), ⟨?_, ?_, ?_, ?_, ?_, ?_, ?_⟩, ?_⟩
  · rw [setAll_other (ho _ (by decide))]; exact sc.A
  · rw [setAll_other (ho _ (by decide))]; exact sc.N
  · rw [setAll_other (ho _ (by decide))]; exact sc.truncation
  · exact sc.flags
  · rw [setAll_other (ho _ (by decide))]; exact sc.oe
  · rw [setAll_other (ho _ (by decide))]; exact sc.log
  · intro k hk
    by_cases h : (listName k).toList ∈ ks'.map fun k => (listName k).toList
    · exact setAll_const h
    · rw [setAll_other h]
      rcases List.mem_append.1 hk with hk | hk
      · exact sc.lists k hk
      · exact absurd (List.mem_map_of_mem (f := fun k => (listName k).toList) hk) h
  · refine execAllS_cons ?_
    obtain ⟨a, b, l, rfl⟩ : ∃ a b l, ks' = a :: b :: l := by
      match ks', h2 with
      | a :: b :: l, _ => exact ⟨a, b, l, rfl⟩
    unfold emptyLists
    rw [execS_assign rfl rfl, exec]
    have e := evalList_empties ⟨vars, heap⟩ (a :: b :: l)
    simp only [List.map_cons] at e ⊢
    simp only [evalTop, eval, e, Except.map, itemsOf, List.length_cons, List.length_map, if_true, List.map_map]
    rfl

theorem exec_doc (E : Spec.PyRun.Env R) (rest : List Spec.Source.Stmt) : execAllS known fs E (.doc :: rest) = execAllS known fs E rest :=
  execAllS_cons (by rw [execS, exec] <;> simp)

theorem exec_pathsStart (kind : Kind) (sc : PScope A N fl T [] (fun _ => []) vars) (heap : List (NArr R)) (rest : List Spec.Source.Stmt) :
    ∃ vars', PScope A N fl T ((range2 kind.firstList 6).map (· + 1)) (fun _ => []) vars' ∧ execAllS known fs ⟨vars, heap⟩ (pathsStart kind ++ rest) = execAllS known fs ⟨vars', heap⟩ rest := by
  cases kind with
  | vemx =>
    obtain ⟨v1, s1, e1⟩ := exec_emptyLists (known := known) (fs := fs) sc heap (emptyLists [4, 5, 6] :: rest) (ks' := [2, 3]) (by decide)
    obtain ⟨v2, s2, e2⟩ := exec_emptyLists (known := known) (fs := fs) s1 heap rest (ks' := [4, 5, 6]) (by decide)
    refine ⟨v2, s2, ?_⟩
    rw [← e2, ← e1]
    exact exec_doc _ _
  | vecc =>
    obtain ⟨v1, s1, e1⟩ := exec_emptyLists (known := known) (fs := fs) sc heap rest (ks' := [4, 5, 6]) (by decide)
    refine ⟨v1, s1, ?_⟩
    rw [← e1]
    exact exec_doc _ _

/-- the statements after the first ones -/
theorem exec_pathsRest {kind : Kind} {p : PathsFunction} (hg : GoodPathsFn kind p) (h6 : p.lists.length ≤ 6) (sc : PScope A N fl T ((range2 kind.firstList 6).map (· + 1)) (fun _ => []) vars)
    (heap : List (NArr R)) : ∃ E, execAllS known fs ⟨vars, heap⟩
      (((range2 kind.firstList p.lists.length).flatMap fun i => ((p.lists[i]?).getD []).map (pathsBlockAst (i + 1))) ++ [pathsReturn kind p]) =
        .ok (some (listsVal A N fl kind.firstList p.lists), E) ∧ E.heap = heap := by
  have hks : ∀ k ∈ (range2 kind.firstList 6).map (· + 1), k ≤ 6 := by
    intro k hk
    obtain ⟨i, hi, rfl⟩ := List.mem_map.1 hk
    have := (mem_range2.1 hi).2
    omega
  obtain ⟨l', v', a1, a2, s, e⟩ := exec_lists (known := known) (fs := fs) hks heap [pathsReturn kind p] (fun i => (p.lists[i]?).getD []) (is := range2 kind.firstList p.lists.length)
    (by unfold range2; exact (List.nodup_range.map fun a b h => by simpa using h))
    (fun i hi => by
      have hi := mem_range2.1 hi
      refine ⟨List.mem_map.2 ⟨i, mem_range2.2 ⟨hi.1, by omega⟩, rfl⟩, ?_⟩
      rw [List.getElem?_eq_getElem hi.2]
      exact hg.lists _ (List.getElem_mem _)) sc
  refine ⟨⟨v', heap⟩, ?_, rfl⟩
  rw [e]
  refine exec_pathsReturn s (fun i h1 h2 => List.mem_map.2 ⟨i, mem_range2.2 ⟨h1, by omega⟩, rfl⟩) (fun i h1 h2 => ?_) heap
  rw [a1 i (mem_range2.2 ⟨h1, h2⟩), List.nil_append]

theorem isTruncation (env : Spec.W.Env) : IsTruncation (truncation (R := R) env) env.fl := fun _ h _ g1 g2 heap => eval_flag h g1 g2 heap

omit [CommRing R] [Algebra Rat R] in
theorem globals_none (n : Nat) {w : List Char} (h1 : w ≠ "None".toList) (h2 : w ≠ "factorial".toList) (h3 : w ≠ "symmetrize_tensor".toList) (h4 : w ≠ "log".toList) :
    globals (R := R) (moduleAst n) w = none := by
  unfold globals moduleAst
  rw [if_neg h1]
  simp only [List.findSome?_append]
  rw [findSome_named (a := fun k => contributionsAst einsumReading .vemx false k (vemxAt mkE k)) _ _ fun _ => rfl,
    findSome_named (a := fun k => contributionsAst einsumReading .vecc false k (veccAt mkE k)) _ _ fun _ => rfl, findSome_named (a := wFnAst false) _ _ fun _ => rfl,
    findSome_named (a := fun k => contributionsAst callReading .vemx true k (vemxAt (fun _ => Call.mk) k)) _ _ fun _ => rfl,
    findSome_named (a := fun k => contributionsAst callReading .vecc true k (veccAt (fun _ => Call.mk) k)) _ _ fun _ => rfl, findSome_named (a := wFnAst true) _ _ fun _ => rfl]
  have e : importAst.findSome? (importOf (R := R) w) = none := by
    rw [List.findSome?_eq_none_iff]
    intro s hs
    simp only [importAst, List.mem_cons, List.not_mem_nil, or_false] at hs
    have g2 := h2.symm
    have g3 := h3.symm
    have g4 := h4.symm
    rcases hs with rfl | rfl | rfl | rfl | rfl <;> simp_all [importOf]
  rw [e]
  rfl

omit [CommRing R] [Algebra Rat R] in
theorem globals_log (n : Nat) : globals (R := R) (moduleAst n) "log".toList = some (.imported [.sym '.', .sym '.', .word "log_conf".toList] "log".toList) := by
  unfold globals moduleAst
  rw [if_neg (by decide)]
  simp only [List.append_assoc]
  rw [List.findSome?_append]
  rfl

theorem log_not_mem : ∀ n ≤ 6, "log.warning".toList ∉ fnNames n := by decide +kernel

theorem callS_log {n : Nat} (hn : n ≤ 6) (depth : Nat) (args : List (Val R)) (heap : List (NArr R)) : callS (moduleAst n) (depth + 1) "log.warning".toList args heap = .ok (.none, heap) := by
  have hl : (moduleAst n).any importsLog = true := by
    unfold moduleAst
    simp only [List.any_append]
    have : importAst.any importsLog = true := by decide
    simp only [this, Bool.true_or]
  rw [callS]
  simp only [lookup_none (l := moduleAst n) (by rw [names_moduleAst]; exact log_not_mem n hn), hl, and_self, if_true]

/-- the variables of a call -/
def pathsVars (n A N : Nat) (env : Spec.W.Env) : Vars R := setAll (globals (R := R) (moduleAst n)) (["A", "N", "truncation"].map String.toList) [.num A, .num N, truncation env]

theorem pathsVars_scope (n : Nat) : PScope (R := R) A N env.fl (truncation env) [] (fun _ => []) (pathsVars n A N env) :=
  ⟨setAll_at (n := 0) (by decide) rfl rfl, setAll_at (n := 1) (by decide) rfl rfl, setAll_at (n := 2) (by decide) rfl rfl, isTruncation env,
    by unfold pathsVars; rw [setAll_other (by decide), globals_none n (by decide) (by decide) (by decide) (by decide)],
    by unfold pathsVars; rw [setAll_other (by decide), globals_log n], fun _ h => by simp at h⟩

theorem call_paths_vemx {n : Nat} (hn : n ≤ 6) (depth : Nat) (heap : List (NArr R)) (A N : Nat) (env : Spec.W.Env) :
    callS (moduleAst n) (depth + 1) (pathsName .vemx).toList [.num A, .num N, truncation env] heap = .ok (listsVal A N env.fl 1 (vemxPathsOf n).lists, heap) := by
  have hl := lookup_of_nodup (by rw [names_moduleAst]; exact nodup_fnNames n hn) (mem_paths_vemx n)
  have hlen : (vemxPathsOf n).lists.length ≤ 6 := by
    show ([] :: (range2 2 (n + 1)).map fun k => (linkedPartitions k).map fun p => (maxPart p, (combinations p).map (mkP k))).length ≤ 6
    simp [range2]
    omega
  rw [callS]
  simp only [hl]
  rw [if_pos (by rfl)]
  unfold pathsBody
  rw [show guardAst (vemxPathsOf n).guard = [] from rfl, List.append_nil, List.append_assoc]
  obtain ⟨v1, s1, e1⟩ := exec_pathsStart (known := PyIter.known (moduleAst n)) (fs := callS (moduleAst n) depth) .vemx (pathsVars_scope (R := R) (A := A) (N := N) (env := env) n) heap
    (((range2 Kind.vemx.firstList (vemxPathsOf n).lists.length).flatMap fun i => (((vemxPathsOf n).lists[i]?).getD []).map (pathsBlockAst (i + 1))) ++ [pathsReturn .vemx (vemxPathsOf n)])
  obtain ⟨E, e2, e3⟩ := exec_pathsRest (known := PyIter.known (moduleAst n)) (fs := callS (moduleAst n) depth) (good_vemxPaths hn) hlen s1 heap
  have e := e1.trans e2
  unfold pathsVars at e
  rw [e, ← e3]
  rfl

theorem call_paths_vecc {n : Nat} (hn : n ≤ 6) (depth : Nat) (heap : List (NArr R)) (A N : Nat) (env : Spec.W.Env) :
    callS (moduleAst n) (depth + 2) (pathsName .vecc).toList [.num A, .num N, truncation env] heap =
      .ok (if env.fl 2 then listsVal A N env.fl 3 (veccPathsOf n).lists else .list (List.replicate 6 (.list [])), heap) := by
  have hl := lookup_of_nodup (by rw [names_moduleAst]; exact nodup_fnNames n hn) (mem_paths_vecc n)
  have hlen : (veccPathsOf n).lists.length ≤ 6 := by
    show ([] :: [] :: [] :: (range2 4 (n + 1)).map fun k => (unlinkedPartitions k).map fun p => (maxPart p, (combinations p).map (mkP k))).length ≤ 6
    simp [range2]
    omega
  rw [callS]
  simp only [hl]
  rw [if_pos (by rfl)]
  unfold pathsBody
  rw [List.append_assoc, List.append_assoc]
  obtain ⟨v1, s1, e1⟩ := exec_pathsStart (known := PyIter.known (moduleAst n)) (fs := callS (moduleAst n) (depth + 1)) .vecc (pathsVars_scope (R := R) (A := A) (N := N) (env := env) n) heap
    (guardAst (veccPathsOf n).guard ++
      (((range2 Kind.vecc.firstList (veccPathsOf n).lists.length).flatMap fun i => (((veccPathsOf n).lists[i]?).getD []).map (pathsBlockAst (i + 1))) ++ [pathsReturn .vecc (veccPathsOf n)]))
  unfold pathsVars at e1
  rw [e1, show (veccPathsOf n).guard = some 2 from rfl, guardAst, List.cons_append, List.nil_append]
  have hc := eval_not_flag (env := env) s1.truncation (g := 2) (by omega) (by omega) heap
  cases f2 : env.fl 2 with
  | true =>
    rw [execAllS_cons (E' := ⟨v1, heap⟩) (by rw [execS, hc, f2]; simp only [Bool.not_true, execAllS])]
    obtain ⟨E, e2, e3⟩ := exec_pathsRest (known := PyIter.known (moduleAst n)) (fs := callS (moduleAst n) (depth + 1)) (good_veccPaths hn) hlen s1 heap
    rw [e2, ← e3]
    rfl
  | false =>
    have h1 : ¬ ("log".toList = "np".toList ∧ "warning".toList = "zeros".toList) := by decide
    have hw : "log".toList ++ '.' :: "warning".toList = "log.warning".toList := by decide
    have hev : evalTop (callS (R := R) (moduleAst n) (depth + 1)) ⟨v1, heap⟩
        (.call (.attr (nameExpr "log") "warning".toList) [.str "Did not calculate optimized VECC paths of the dt amplitudes".toList]) = .ok (.none, heap) := by
      unfold nameExpr
      rw [evalTop, if_neg h1]
      simp only [s1.log, evalList, eval]
      rw [hw]
      exact callS_log hn depth _ heap
    have hlc : listCall (R := R) ⟨v1, heap⟩ (.call (.attr (nameExpr "log") "warning".toList) [.str "Did not calculate optimized VECC paths of the dt amplitudes".toList]) = none := by
      unfold nameExpr
      simp only [listCall, s1.log]
    have hex : execS (PyIter.known (moduleAst n)) (callS (R := R) (moduleAst n) (depth + 1)) ⟨v1, heap⟩
        (.expr (.call (.attr (nameExpr "log") "warning".toList) [.str "Did not calculate optimized VECC paths of the dt amplitudes".toList])) = .ok (none, ⟨v1, heap⟩) := by
      rw [execS_expr hlc rfl, exec, hev]
    have hr : execS (PyIter.known (moduleAst n)) (callS (R := R) (moduleAst n) (depth + 1)) ⟨v1, heap⟩ (.ret (some (.list (List.replicate 6 (.list []))))) =
        .ok (some (.list (List.replicate 6 (.list []))), ⟨v1, heap⟩) := by
      rw [execS_ret rfl, exec]
      have := eval_replicate_empty (R := R) ⟨v1, heap⟩ 6 []
      rw [List.append_nil, evalList] at this
      simp only [evalTop, eval, this, Except.map, List.append_nil]
    have hcond : execS (PyIter.known (moduleAst n)) (callS (R := R) (moduleAst n) (depth + 1)) ⟨v1, heap⟩ (.cond (.not (flagExpr 2))
        [.expr (.call (.attr (nameExpr "log") "warning".toList) [.str "Did not calculate optimized VECC paths of the dt amplitudes".toList]), .ret (some (.list (List.replicate 6 (.list []))))] []) =
        .ok (some (.list (List.replicate 6 (.list []))), ⟨v1, heap⟩) := by
      rw [execS, hc, f2]
      simp only [Bool.not_false]
      rw [execAllS_cons hex, execAllS, hr]
    rw [execAllS, hcond]
    rfl

/-! ### The lists of the orders -/

theorem listAt_pathVals (h1 : env.fl 1 = true) (k : Nat) {ps : List (List Nat)} (hp : ∀ p ∈ ps, IsPartition k p) (hk : 1 ≤ k) :
    listAt (R := R) A N env.fl (ps.map fun p => (maxPart p, (combinations p).map (mkP k))) = pathVals A N env (mkE k) ps := by
  unfold listAt pathVals
  rw [List.flatMap_map]
  induction ps with
  | nil => rfl
  | cons p ps ih =>
    have hm := part_le (hp p (by simp)) (maxPart_spec (partitions_ne_nil hk (hp p (by simp)))).1
    have hl : live env.fl p = env.fl (maxPart p) := by
      unfold live gateOf
      by_cases h : maxPart p ≥ 2
      · rw [if_pos h]
        rfl
      · rw [if_neg h, show maxPart p = 1 by omega, h1]
        rfl
    rw [List.flatMap_cons, ih fun q hq => hp q (by simp [hq]), List.filter_cons, hl]
    cases env.fl (maxPart p) with
    | false => simp
    | true =>
      simp only [if_true, List.flatMap_cons, List.map_map]
      rfl

/-- the lists of the mixed terms -/
theorem listsVal_vemx {n : Nat} (hn : n ≤ 6) (h1 : env.fl 1 = true) {k : Nat} (hk1 : 1 ≤ k) (hk : k ≤ n) :
    ∃ l, listsVal (R := R) A N env.fl 1 (vemxPathsOf n).lists = .list l ∧ l[k - 1]? = some (.list (pathVals A N env (mkE k) (linkedPartitions k))) := by
  refine ⟨_, rfl, ?_⟩
  have hl : (vemxPathsOf n).lists = [] :: (range2 2 (n + 1)).map fun k => (linkedPartitions k).map fun p => (maxPart p, (combinations p).map (mkP k)) := rfl
  rw [hl]
  obtain ⟨i, rfl⟩ : ∃ i, k = i + 1 := ⟨k - 1, by omega⟩
  cases i with
  | zero =>
    rw [linked_one]
    rfl
  | succ i =>
    rw [List.getElem?_append_right (by simp), List.getElem?_map]
    have hr : ((range2 1 ([] :: (range2 2 (n + 1)).map fun k => (linkedPartitions k).map fun p => (maxPart p, (combinations p).map (mkP k))).length))[i]? = some (i + 1) := by
      unfold range2
      rw [List.getElem?_map, List.getElem?_range (by simp; omega)]
      simp [Nat.add_comm]
    have hg : (range2 2 (n + 1))[i]? = some (i + 2) := by
      unfold range2
      rw [List.getElem?_map, List.getElem?_range (by omega)]
      simp [Nat.add_comm]
    simp only [List.length_replicate, Nat.add_sub_cancel]
    rw [hr]
    simp only [Option.map_some, List.getElem?_cons_succ, List.getElem?_map, hg, Option.getD_some]
    rw [listAt_pathVals h1 (i + 2) (fun p hp => (linked_mem (by omega) p hp).1) (by omega)]

/-- the lists of the coupled-cluster terms -/
theorem listsVal_vecc {n : Nat} (hn : n ≤ 6) (h1 : env.fl 1 = true) {k : Nat} (hk1 : 1 ≤ k) (hk : k ≤ n) (h3 : k ≤ 3 ∨ env.fl 2 = true) :
    ∃ l, (if env.fl 2 then listsVal (R := R) A N env.fl 3 (veccPathsOf n).lists else .list (List.replicate 6 (.list []))) = .list l ∧
      l[k - 1]? = some (.list (pathVals A N env (mkE k) (unlinkedPartitions k))) := by
  cases f2 : env.fl 2 with
  | false =>
    refine ⟨_, rfl, ?_⟩
    have h3 : k ≤ 3 := by simpa [f2] using h3
    rw [unlinked_lt (by omega), List.getElem?_replicate, if_pos (by omega)]
    rfl
  | true =>
    refine ⟨_, rfl, ?_⟩
    have hl : (veccPathsOf n).lists = [] :: [] :: [] :: (range2 4 (n + 1)).map fun k => (unlinkedPartitions k).map fun p => (maxPart p, (combinations p).map (mkP k)) := rfl
    rw [hl]
    by_cases h3 : k ≤ 3
    · rw [unlinked_lt (by omega), List.getElem?_append_left (by simp; omega), List.getElem?_replicate, if_pos (by omega)]
      rfl
    · obtain ⟨i, rfl⟩ : ∃ i, k = i + 4 := ⟨k - 4, by omega⟩
      rw [List.getElem?_append_right (by simp), List.getElem?_map]
      have hr : ((range2 3 ([] :: [] :: [] :: (range2 4 (n + 1)).map fun k => (unlinkedPartitions k).map fun p => (maxPart p, (combinations p).map (mkP k))).length))[i]? = some (i + 3) := by
        unfold range2
        rw [List.getElem?_map, List.getElem?_range (by simp; omega)]
        simp [Nat.add_comm]
      have hg : (range2 4 (n + 1))[i]? = some (i + 4) := by
        unfold range2
        rw [List.getElem?_map, List.getElem?_range (by omega)]
        simp [Nat.add_comm]
      simp only [List.length_replicate, show i + 4 - 1 - 3 = i by omega]
      rw [hr]
      simp only [Option.map_some, List.getElem?_cons_succ, List.getElem?_map, hg, Option.getD_some]
      rw [listAt_pathVals h1 (i + 4) (fun p hp => (unlinked_mem (by omega) p hp).1) (by omega)]

end

end TF.W
