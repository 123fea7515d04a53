import Verif.Lemmas.DtSourceFn
import Verif.Lemmas.Chars

/-!
# The text of the generated module of the amplitude derivatives, read as Python: the file
-/

namespace TF.Dt

set_option maxRecDepth 10000

open TF.Py TF.Helper TF.W TF.Spec TF.Spec.Source
open TF.CC (tabs)

/-! ## The optimised paths -/

def pathsCall (w : String) : Expr := .call (nameExpr w) (["A", "N", "truncation"].map nameExpr)

def masterPathsAst : Spec.Source.Stmt :=
  .defn "compute_optimized_paths".toList (["A", "N", "truncation"].map String.toList)
    [.doc, .assign ["epsilon_opt_paths".toList] (pathsCall "compute_optimized_epsilon_paths"), .assign ["linked_opt_paths".toList] (pathsCall "compute_optimized_linked_paths"),
      .assign ["unlinked_opt_paths".toList] (pathsCall "compute_optimized_unlinked_paths"),
      .assign ["all_opt_paths".toList] (.list (["epsilon_opt_paths", "linked_opt_paths", "unlinked_opt_paths"].map nameExpr)), .ret (some (nameExpr "all_opt_paths"))]

theorem code_masterPaths : Code 0 masterPathsLines [masterPathsAst] := by
  refine code_reads (reads_chars.trans ?_)
  dsimp only [masterPathsLines, masterPathsAst, pathsCall, nameExpr, tabs]
  to_chars
  decide +kernel

def epsilonPathAst (k : Nat) : Spec.Source.Stmt :=
  .cond (flagExpr k) [.expr (.call (.attr (nameExpr "epsilon_path_list") "append".toList) [.call (.attr (nameExpr "oe") "contract_expression".toList)
    [.str (epsilonSubs k), .tuple (nameExpr "A" :: nameExpr "A" :: List.replicate k (nameExpr "N")), .tuple [nameExpr "A", nameExpr "A"]]])] []

def epsilonPathsAst (n : Nat) : Spec.Source.Stmt :=
  .defn "compute_optimized_epsilon_paths".toList (["A", "N", "truncation"].map String.toList)
    ([.doc, .assign ["epsilon_path_list".toList] (.list [])] ++ (range2 1 (n + 1)).map epsilonPathAst ++ [.ret (some (nameExpr "epsilon_path_list"))])

theorem code_epsilonBlock {k : Nat} (h1 : 1 ≤ k) (h6 : k ≤ 6) : Code 4 (epsilonBlock (k, epsilonPath k)) [epsilonPathAst k] := by
  refine code_reads (reads_chars.trans ?_)
  interval_cases k <;>
  · dsimp only [epsilonBlock, epsilonPath, epsilonPathAst, flagExpr, nameExpr, epsilonSubs, shapeText, tabs]
    to_chars
    decide +kernel

theorem code_epsilonStart : Code 4 [tabs 1 ++ "\"\"\"Calculate optimized paths for the constant/epsilon einsum calls up to `highest_order`.\"\"\"", "", tabs 1 ++ "epsilon_path_list = []", ""]
    [.doc, .assign ["epsilon_path_list".toList] (.list [])] := code_reads (by decide +kernel)

theorem code_epsilon {n : Nat} (hn : n ≤ 6) : Code 0 (epsilonLines ((range2 1 (n + 1)).map fun k => (k, epsilonPath k))) [epsilonPathsAst n] := by
  have hb : Code 4 (((range2 1 (n + 1)).map fun k => (k, epsilonPath k)).flatMap epsilonBlock) ((range2 1 (n + 1)).map epsilonPathAst) := by
    rw [List.flatMap_map, List.map_eq_flatMap]
    refine Code.flatMap fun k hk => ?_
    rw [mem_range2] at hk
    exact code_epsilonBlock (by omega) (by omega)
  have he : Code 4 [tabs 1 ++ "return epsilon_path_list"] [.ret (some (nameExpr "epsilon_path_list"))] := code_reads (by decide +kernel)
  exact Code.cons_blank (Code.defn (k := 0) (k' := 4) (by omega) (l := "def compute_optimized_epsilon_paths(A, N, truncation):")
    (t := [.word "def".toList, .word "compute_optimized_epsilon_paths".toList, .sym '(', .word "A".toList, .sym ',', .word "N".toList, .sym ',', .word "truncation".toList, .sym ')', .sym ':'])
    rfl (flat_of rfl) rfl ((code_epsilonStart.append hb).append he) (by simp))

def Side.pathsName : Side → String
  | .linked => "compute_optimized_linked_paths"
  | .unlinked => "compute_optimized_unlinked_paths"

def sideGuardAst : Option Nat → List Spec.Source.Stmt
  | none => []
  | some g => [.cond (.not (flagExpr g)) [.expr (.call (.attr (nameExpr "log") "warning".toList) [.str "Did not calculate optimized unlinked paths of the dt amplitudes".toList]),
      .ret (some (.list (List.replicate 6 (.list []))))] []]

def sidePathsBody (p : PathsFunction) : List Spec.Source.Stmt :=
  [.doc, emptyLists [1, 2, 3], emptyLists [4, 5, 6]] ++ sideGuardAst p.guard ++ ((p.lists.zipIdx 1).flatMap fun x => x.1.map (pathsBlockAst x.2)) ++
    [.ret (some (.list ((range2 1 (p.lists.length + 1)).map fun i => nameExpr (listName i))))]

def sidePathsAst (side : Side) (p : PathsFunction) : Spec.Source.Stmt := .defn side.pathsName.toList (["A", "N", "truncation"].map String.toList) (sidePathsBody p)

theorem code_sidePathsHead {side : Side} {strs : List String} {ss : List Spec.Source.Stmt} (h : Code 4 strs ss) :
    Code 0 (sidePathsHead side ++ strs) [.defn side.pathsName.toList (["A", "N", "truncation"].map String.toList) ([.doc, emptyLists [1, 2, 3], emptyLists [4, 5, 6]] ++ ss)] := by
  cases side with
  | linked =>
    have h1 : Code 4 ((sidePathsHead .linked).drop 2) [.doc, emptyLists [1, 2, 3], emptyLists [4, 5, 6]] := code_reads (by decide +kernel)
    exact Code.cons_blank (Code.defn (k := 0) (k' := 4) (by omega) (l := "def compute_optimized_linked_paths(A, N, truncation):")
      (t := [.word "def".toList, .word "compute_optimized_linked_paths".toList, .sym '(', .word "A".toList, .sym ',', .word "N".toList, .sym ',', .word "truncation".toList, .sym ')', .sym ':'])
      rfl (flat_of rfl) rfl (h1.append h) (by simp))
  | unlinked =>
    have h1 : Code 4 ((sidePathsHead .unlinked).drop 2) [.doc, emptyLists [1, 2, 3], emptyLists [4, 5, 6]] := code_reads (by decide +kernel)
    exact Code.cons_blank (Code.defn (k := 0) (k' := 4) (by omega) (l := "def compute_optimized_unlinked_paths(A, N, truncation):")
      (t := [.word "def".toList, .word "compute_optimized_unlinked_paths".toList, .sym '(', .word "A".toList, .sym ',', .word "N".toList, .sym ',', .word "truncation".toList, .sym ')', .sym ':'])
      rfl (flat_of rfl) rfl (h1.append h) (by simp))

theorem code_sideGuard {g : Option Nat} (h : g = none ∨ g = some 2) : Code 4 (sideGuard g) (sideGuardAst g) := by
  rcases h with rfl | rfl
  · exact Code.nil 4
  · exact code_reads (by decide +kernel)

theorem code_sideReturn {n : Nat} (h : n ≠ 0) :
    Code 4 [tabs 1 ++ "return [" ++ ", ".intercalate ((range2 1 (n + 1)).map fun i => "order_" ++ toString i ++ "_list") ++ "]"]
      [.ret (some (.list ((range2 1 (n + 1)).map fun i => nameExpr (listName i))))] := by
  obtain ⟨x, xs, hx⟩ := List.exists_cons_of_ne_nil (l := (range2 1 (n + 1)).map some) (by simp [range2, h])
  have := code_returnList x xs
  rw [← hx, List.map_map, List.map_map] at this
  exact this

theorem code_sidePaths {side : Side} {p : PathsFunction} (hg : p.guard = none ∨ p.guard = some 2) (hn : p.lists ≠ []) (hl : ∀ l ∈ p.lists, ∀ b ∈ l, GoodPaths b) :
    Code 0 (sidePathsLines side p) [sidePathsAst side p] := by
  have h1 : Code 4 ((p.lists.zipIdx 1).flatMap fun x => x.1.flatMap (pathsBlock x.2)) ((p.lists.zipIdx 1).flatMap fun x => x.1.map (pathsBlockAst x.2)) := by
    refine Code.flatMap fun x hx => ?_
    rw [List.map_eq_flatMap]
    refine Code.flatMap fun b hb => code_pathsBlock x.2 (hl x.1 ?_ b hb)
    have := List.mem_zipIdx hx
    rw [this.2.2]
    exact List.getElem_mem _
  have := code_sidePathsHead (side := side) ((code_sideGuard hg).append (h1.append (code_sideReturn (n := p.lists.length) (by simpa using hn))))
  simpa [sidePathsLines, sidePathsAst, sidePathsBody, List.append_assoc] using this

theorem good_exprAt {k : Nat} (hk1 : 1 ≤ k) (hk6 : k ≤ 6) {p : List Nat} (hp : IsPartition k p) : GoodPaths (exprAt k p) := by
  have hn := partitions_ne_nil hk1 hp
  have hm := part_le hp (maxPart_spec hn).1
  refine ⟨⟨hm.1, by show maxPart p ≤ 6; omega⟩, ?_, ?_⟩
  · intro h
    have : p ∈ combinations p := mem_combinations.2 (List.Perm.refl p)
    have h' := List.flatMap_eq_nil_iff.1 h p this
    exact marks_ne hn (by simpa [mkPs] using h')
  · intro q hq
    obtain ⟨c, hc, hq⟩ := List.mem_flatMap.1 hq
    obtain ⟨_, _, rfl⟩ := List.mem_map.1 hq
    exact ⟨good_letters hk1 hk6 hp (mem_combinations.1 hc), ne_of_perm hk1 hp (mem_combinations.1 hc)⟩

theorem code_linkedPaths {n : Nat} (hn : n ≤ 6) : Code 0 (sidePathsLines .linked (linkedPathsAt n)) [sidePathsAst .linked (linkedPathsAt n)] := by
  refine code_sidePaths (.inl rfl) (by simp [linkedPathsAt]) fun l hl b hb => ?_
  rcases List.mem_cons.1 hl with rfl | hl'
  · simp at hb
  · obtain ⟨k, hk, rfl⟩ := List.mem_map.1 hl'
    obtain ⟨p, hp, rfl⟩ := List.mem_map.1 hb
    rw [mem_range2] at hk
    exact good_exprAt (by omega) (by omega) (linked_mem (by omega) p hp).1

theorem code_unlinkedPaths {n : Nat} (hn : n ≤ 6) : Code 0 (sidePathsLines .unlinked (unlinkedPathsAt n)) [sidePathsAst .unlinked (unlinkedPathsAt n)] := by
  refine code_sidePaths (.inr rfl) (by simp [unlinkedPathsAt]) fun l hl b hb => ?_
  have hl' : l ∈ [] :: [] :: [] :: (range2 4 (n + 1)).map fun k => (unlinkedPartitions k).map (exprAt k) := hl
  simp only [List.mem_cons] at hl'
  rcases hl' with rfl | rfl | rfl | hl'
  · simp at hb
  · simp at hb
  · simp at hb
  · obtain ⟨k, hk, rfl⟩ := List.mem_map.1 hl'
    obtain ⟨p, hp, rfl⟩ := List.mem_map.1 hb
    rw [mem_range2] at hk
    exact good_exprAt (by omega) (by omega) (unlinked_mem (by omega) p hp).1

/-! ## The file -/

def importAst : List Spec.Source.Stmt :=
  [.imp [.word "from".toList, .word "math".toList, .word "import".toList, .word "factorial".toList],
   .imp [.word "import".toList, .word "numpy".toList, .word "as".toList, .word "np".toList],
   .imp [.word "import".toList, .word "opt_einsum".toList, .word "as".toList, .word "oe".toList],
   .imp [.word "from".toList, .sym '.', .sym '.', .word "log_conf".toList, .word "import".toList, .word "log".toList],
   .imp [.word "from".toList, .sym '.', .word "symmetrize".toList, .word "import".toList, .word "symmetrize_tensor".toList],
   .imp [.word "from".toList, .sym '.', .word "import".toList, .word "residual_equations".toList]]

theorem code_imports : Code 0 importLines importAst := code_reads (by decide +kernel)

/-- the functions of disconnected terms, with and without optimised paths -/
def einsumSideAst (side : Side) (k : Nat) : Spec.Source.Stmt := sideAst dEinsumReading side false k (sideAt side mkDs k)

def callSideAst (side : Side) (k : Nat) : Spec.Source.Stmt := sideAst dCallReading side true k (sideAt side (fun _ => mkCs) k)

/-- The statements of the module. -/
def moduleAst (n : Nat) : List Spec.Source.Stmt :=
  importAst ++ (range2 1 (n + 1)).map (einsumSideAst .linked) ++ (range2 1 (n + 1)).map (einsumSideAst .unlinked) ++ (range2 1 (n + 1)).map (dtFnAst false) ++
  (range2 1 (n + 1)).map (solverAst false) ++ (range2 1 (n + 1)).map (callSideAst .linked) ++ (range2 1 (n + 1)).map (callSideAst .unlinked) ++
  (range2 1 (n + 1)).map (dtFnAst true) ++ (range2 1 (n + 1)).map (solverAst true) ++ [masterPathsAst] ++ [epsilonPathsAst n] ++
  [sidePathsAst .linked (linkedPathsAt n)] ++ [sidePathsAst .unlinked (unlinkedPathsAt n)]

theorem code_fns (opt : Bool) {n : Nat} (hn : n ≤ 6) : Code 0 (((range2 1 (n + 1)).map dtFnAt).flatMap (DtFunction.lines opt)) ((range2 1 (n + 1)).map (dtFnAst opt)) := by
  rw [List.flatMap_map, List.map_eq_flatMap]
  refine Code.flatMap fun k hk => ?_
  rw [mem_range2] at hk
  exact code_dtFn opt (by omega) (by omega)

theorem code_module {n : Nat} (hn : n ≤ 6) : Code 0 (importLines ++ (dtModuleOf n).lines) (moduleAst n) := by
  have v1 : Code 0 (numbered (Disconnected.lines DEinsum.render .linked false) (dtModuleOf n).linked) ((range2 1 (n + 1)).map (einsumSideAst .linked)) :=
    code_numbered (g := sideAt .linked mkDs) fun k h1 h2 => code_side dEinsumReading .linked false mkDs h1 (by omega) fun p hp c hc => good_mkDs h1 (by omega) p hp c hc
  have v2 : Code 0 (numbered (Disconnected.lines DEinsum.render .unlinked false) (dtModuleOf n).unlinked) ((range2 1 (n + 1)).map (einsumSideAst .unlinked)) :=
    code_numbered (g := sideAt .unlinked mkDs) fun k h1 h2 => code_side dEinsumReading .unlinked false mkDs h1 (by omega) fun p hp c hc => good_mkDs h1 (by omega) p hp c hc
  have v3 : Code 0 (numbered (Disconnected.lines DCall.render .linked true) (dtModuleOf n).linkedOpt) ((range2 1 (n + 1)).map (callSideAst .linked)) :=
    code_numbered (g := sideAt .linked fun _ => mkCs) fun k h1 h2 => code_side dCallReading .linked true (fun _ => mkCs) h1 (by omega) fun p hp c hc => good_mkCs h1 p hp c hc
  have v4 : Code 0 (numbered (Disconnected.lines DCall.render .unlinked true) (dtModuleOf n).unlinkedOpt) ((range2 1 (n + 1)).map (callSideAst .unlinked)) :=
    code_numbered (g := sideAt .unlinked fun _ => mkCs) fun k h1 h2 => code_side dCallReading .unlinked true (fun _ => mkCs) h1 (by omega) fun p hp c hc => good_mkCs h1 p hp c hc
  have f1 : Code 0 ((dtModuleOf n).fns.flatMap (DtFunction.lines false)) _ := code_fns false hn
  have f2 : Code 0 ((dtModuleOf n).fnsOpt.flatMap (DtFunction.lines true)) _ := code_fns true hn
  have s1 : Code 0 (numbered (solverLines false) (dtModuleOf n).solvers) ((range2 1 (n + 1)).map (solverAst false)) := by
    have := code_numbered (f := solverLines false) (g := id) (a := solverAst false) (n := n) fun k h1 h2 => code_solver false h1 (by omega)
    rwa [List.map_id] at this
  have s2 : Code 0 (numbered (solverLines true) (dtModuleOf n).solversOpt) ((range2 1 (n + 1)).map (solverAst true)) := by
    have := code_numbered (f := solverLines true) (g := id) (a := solverAst true) (n := n) fun k h1 h2 => code_solver true h1 (by omega)
    rwa [List.map_id] at this
  have p0 := code_masterPaths
  have p1 : Code 0 (epsilonLines (dtModuleOf n).epsilonPaths) _ := code_epsilon hn
  have p2 : Code 0 (sidePathsLines .linked (dtModuleOf n).linkedPaths) _ := code_linkedPaths hn
  have p3 : Code 0 (sidePathsLines .unlinked (dtModuleOf n).unlinkedPaths) _ := code_unlinkedPaths hn
  have s := code_spacing
  have b := Code.blank 0
  have n1 := code_named "DEFAULT FUNCTIONS" 28 (by decide)
  have n2 := code_named "DISCONNECTED TERMS" 28 (by decide)
  have n3 := code_named "dt AMPLITUDES" 28 (by decide)
  have n4 := code_named "WRAPPER FUNCTIONS" 28 (by decide)
  have n5 := code_named "OPTIMIZED FUNCTIONS" 27 (by decide)
  have n6 := code_named "OPTIMIZED PATHS FUNCTION" 28 (by decide)
  have h := ((((((code_imports.append (s.append (n1.append (s.append (b.append n2))))).append v1).append v2).append (b.append n3)).append f1).append (b.append n4)).append s1
  have h1 := ((((((h.append (b.append (s.append (n5.append (s.append (b.append n2)))))).append v3).append v4).append (b.append n3)).append f2).append (b.append n4)).append s2
  have h2 := ((((((((h1.append (b.append n6)).append p0).append b).append p1).append b).append p2).append b).append p3).append b
  refine (Code.cast (l := importLines ++ (dtModuleOf n).lines) ?_ rfl)
  unfold DtModule.lines moduleAst
  simp only [List.append_assoc, List.nil_append, List.append_nil, List.cons_append] at h2 ⊢
  exact h2

/-- The text of the file is the imports and the definitions. -/
theorem file_fileText {n : Nat} (hn : n ≤ 6) : ∃ text, fileText n = .ok text ∧ Spec.Source.file text = some (moduleAst n) := by
  refine ⟨(importLines ++ (dtModuleOf n).lines).flatMap fun s => s.toList ++ ['\n'], by unfold fileText; rw [dtModule_eq n hn]; rfl, ?_⟩
  refine Text.file ?_
  have := (Text.code (code_module hn)).append text_blank
  rw [List.append_nil] at this
  exact this

end TF.Dt
