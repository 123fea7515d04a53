import Verif.Lemmas.FullCC.SourceProgram

/-!
# The text of a generated full-CC module, read as Python: functions and file
-/

namespace TF.CC

set_option maxRecDepth 10000

open TF.Py TF.Spec.Source
open TF.ETPy (showOp namedLine spacedNamedLine argToks operandExpr clean_showOp)

/-! ## The definitions as statements -/

def hotAst : Spec.Source.Stmt :=
  .raise (.call (nameExpr "NotImplementedError") [.str "Hot Band amplitudes not implemented properly and have not been theoretically verified!".toList])

def groundAst (body : List Spec.Source.Stmt) : Spec.Source.Stmt := .cond (.attr (nameExpr "ansatz") "ground_state".toList) body [hotAst]

def confirmAst : Spec.Source.Stmt := .expr (.call (.attr (nameExpr "truncation") ("confirm_at_least_" ++ "singles").toList) [])

/-- the array of zeros with two electronic axes -/
def newExpr (axes : Nat) : Expr := .call (.attr (nameExpr "np") "zeros".toList) [.kw "shape".toList (shapeExpr axes), .kw "dtype".toList (nameExpr "complex")]

def addParams : List String := ["R", "ansatz", "truncation", "h_args", "t_args"]

def pathParams : List String := ["A", "N", "ansatz", "truncation"]

def listName (nm : String) : String := "opt_" ++ nm ++ "_path_list"

def callAst (f : String) (args : List String) : Spec.Source.Stmt := .expr (.call (nameExpr f) (args.map nameExpr))

def keyExpr (k : Nat × Nat) : Expr := .tuple [nameExpr (toString k.1), nameExpr (toString k.2)]

/-- The parameters of a definition.  The tag is the name of the list of paths. -/
def defParams (tag : String) : Body → List String
  | .add _ => addParams
  | .addOpt _ => addParams ++ [listName tag]
  | .typePaths _ => pathParams
  | .amplitude _ _ => ["A", "N", "ansatz", "truncation", "h_args", "t_args"]
  | .amplitudeOpt _ _ _ => ["A", "N", "ansatz", "truncation", "h_args", "t_args", "opt_path_lists"]
  | .opPaths _ _ => pathParams
  | .allPaths _ => pathParams

/-- The body of a definition. -/
noncomputable def defBody (tag : String) : Body → List Spec.Source.Stmt
  | .add p => [.doc, groundAst (progAst (groupAst einsumReading) p), .ret none]
  | .addOpt p => [.doc, .assign ["optimized_einsum".toList] (.call (nameExpr "iter") [nameExpr (listName tag)]), groundAst (progAst (groupAst optReading) p), .ret none]
  | .typePaths p => [.doc, .assign [(tag ++ "_opt_path_list").toList] (.list []), groundAst (progAst (fun g => pathAst (tag ++ "_opt_path_list") g.2) p),
      .ret (some (nameExpr (tag ++ "_opt_path_list")))]
  | .amplitude axes calls => .doc :: confirmAst :: .assign ["R".toList] (newExpr axes) :: (calls.map fun f => callAst f addParams) ++ [.ret (some (nameExpr "R"))]
  | .amplitudeOpt axes key calls => .doc :: confirmAst :: .assign ["R".toList] (newExpr axes) ::
      .assign (optNames.map fun nm => (listName nm).toList) (operandExpr ⟨"opt_path_lists", key.1, key.2⟩) ::
      (List.zipWith (fun f nm => callAst f (addParams ++ [listName nm])) calls optNames) ++ [.ret (some (nameExpr "R"))]
  | .opPaths calls key => .doc :: confirmAst ::
      (List.zipWith (fun f nm => .assign [(nm ++ "_opt_path_list").toList] (.call (nameExpr f) (pathParams.map nameExpr))) calls optNames) ++
      [.assign ["return_dict".toList] (.dict [keyExpr key, .list (optNames.map fun nm => nameExpr (nm ++ "_opt_path_list"))]), .ret (some (nameExpr "return_dict"))]
  | .allPaths es => .doc :: .assign ["all_opt_path_lists".toList] (.list []) ::
      (es.map fun e => .setItem (nameExpr "all_opt_path_lists") [keyExpr e.1] (.index (.call (nameExpr e.2) (pathParams.map nameExpr)) [keyExpr e.1])) ++
      [.ret (some (nameExpr "all_opt_path_lists"))]

/-- A definition of the module as a statement. -/
noncomputable def defAst (d : (String × Body) × String) : Spec.Source.Stmt := .defn d.1.1.toList ((defParams d.2 d.1.2).map String.toList) (defBody d.2 d.1.2)

/-- the definitions with the names of their lists of paths -/
def taggedDefs (F : List OmegaCode) : List ((String × Body) × String) :=
  (F.flatMap fun c => (addDefs c).map (·, "")) ++ F.map (fun c => (amplitudeDef c.omega, "")) ++
    (F.flatMap fun c => (addOptDefs c).zip optNames) ++ F.map (fun c => (amplitudeOptDef c.omega, "")) ++
    (F.flatMap fun c => (typePathsDefs c).zip termTypes) ++ F.map (fun c => (opPathsDef c.omega, "")) ++ [(allPathsDef (F.map OmegaCode.omega), "")]

theorem zip_short {α β : Type} : ∀ {l : List α} {m : List β}, l.length ≤ m.length → (l.zip m).map Prod.fst = l
  | [], _, _ => by simp
  | a :: l, [], h => by simp at h
  | a :: l, b :: m, h => by simp [zip_short (l := l) (m := m) (by simpa using h)]

theorem taggedDefs_defs (F : List OmegaCode) : (taggedDefs F).map Prod.fst = moduleDefs F := by
  unfold taggedDefs moduleDefs
  simp only [List.map_append, List.map_flatMap, List.map_map, List.map_cons, List.map_nil, Function.comp_def, List.map_id']
  have h1 : ∀ c : OmegaCode, ((addOptDefs c).zip optNames).map Prod.fst = addOptDefs c := fun c => zip_short (by
    unfold addOptDefs
    rw [List.length_zipWith]
    exact Nat.min_le_left _ _)
  have h2 : ∀ c : OmegaCode, ((typePathsDefs c).zip termTypes).map Prod.fst = typePathsDefs c := fun c => zip_short (by
    unfold typePathsDefs
    rw [List.length_zipWith]
    exact Nat.min_le_left _ _)
  simp only [h1, h2]

/-! ## Parts of functions -/

theorem text_ended {l : List String} {ss : List Spec.Source.Stmt} (h : Code 0 l ss) : ∃ r, ("\n".intercalate ("" :: l) ++ "\n").toList = '\n' :: r ∧ Text r ss := by
  refine ⟨_, ?_, Text.code h⟩
  rw [intercalate_lines (by simp)]
  rfl

theorem text_open {l : List String} {ss : List Spec.Source.Stmt} (h : Code 0 l ss) : ∃ r, ("\n".intercalate ("" :: (l ++ [""]))).toList = '\n' :: r ∧ Text r ss := by
  refine ⟨_, ?_, Text.code h⟩
  rw [← List.cons_append, ETPy.intercalate_blank, List.flatMap_cons]
  rfl

theorem code_docLine {s : String} (h : Clean s) : Code 4 [tabs 1 ++ "\"\"\"" ++ s ++ "\"\"\""] [.doc] :=
  code_doc (w := s.toList) h.1 (by simp [String.toList_append])

theorem code_note (s : String) (h : Clean s) : Code 4 [tabs 1 ++ "#" ++ s] [] := code_comment (n := 1) (w := s.toList) (by simp [String.toList_append]) h.2

theorem code_ground {strs : List String} {body : List Spec.Source.Stmt} (h : Code 8 strs body) (hne : body ≠ []) :
    Code 4 ((tabs 1 ++ "if ansatz.ground_state:") :: strs ++ (tabs 1 ++ "else:") :: [raiseLine]) [groundAst body] := by
  refine Code.condElse (k' := 8) (by omega) (t := [.word "if".toList, .word "ansatz".toList, .sym '.', .word "ground_state".toList, .sym ':']) (u := [.word "else".toList, .sym ':'])
      rfl (flat_of rfl) rfl rfl (flat_of rfl) rfl h ?_ hne (List.cons_ne_nil _ _)
  exact Code.lines (t := [.word "raise".toList, .word "NotImplementedError".toList, .sym '(',
    .str "Hot Band amplitudes not implemented properly and have not been theoretically verified!".toList, .sym ')']) rfl (flat_of rfl) rfl rfl

theorem specifier_word (o : Op) : Word (specifier o).toList := ETPy.specifier_word o

theorem type_word {ty : String} (h : ty ∈ termTypes) : Word ty.toList := by
  simp only [termTypes, List.mem_cons, List.not_mem_nil, or_false] at h
  rcases h with rfl | rfl | rfl <;> exact word_lit (by decide)

theorem addName_word (o : Op) {ty : String} (h : ty ∈ termTypes) : Word (addName o ty).toList :=
  word_str (word_str (word_str (word_str (word_lit (by decide)) (specifier_word o)) (word_lit (by decide))) (type_word h)) (word_lit (by decide))

theorem addOptName_word (o : Op) {ty : String} (h : ty ∈ termTypes) : Word (addOptName o ty).toList :=
  word_str (word_str (word_str (word_str (word_lit (by decide)) (specifier_word o)) (word_lit (by decide))) (type_word h)) (word_lit (by decide))

theorem typePathsName_word (o : Op) {ty : String} (h : ty ∈ termTypes) : Word (typePathsName o ty).toList :=
  word_str (word_str (word_str (word_str (word_lit (by decide)) (specifier_word o)) (word_lit (by decide))) (type_word h)) (word_lit (by decide))

theorem starts_keyword {s : String} (h : ∃ r, s.toList = 'a' :: 'd' :: r ∨ s.toList = 'c' :: 'o' :: r) : ∀ k ∈ keywords, s.toList ≠ k.toList := by
  obtain ⟨r, h⟩ := h
  intro k hk he
  rcases h with h | h <;>
  · rw [h] at he
    simp only [keywords, List.mem_cons, List.not_mem_nil, or_false] at hk
    rcases hk with rfl | rfl | rfl | rfl | rfl | rfl | rfl | rfl | rfl | rfl <;> exact absurd (congrArg (List.take 2) he) (by simp only [List.take_succ_cons, List.take_zero]; decide)

theorem addName_keyword (o : Op) (ty : String) : ∀ k ∈ keywords, (addName o ty).toList ≠ k.toList :=
  starts_keyword ⟨_, .inl (by simp only [addName, String.toList_append]; rfl)⟩

theorem addOptName_keyword (o : Op) (ty : String) : ∀ k ∈ keywords, (addOptName o ty).toList ≠ k.toList :=
  starts_keyword ⟨_, .inl (by simp only [addOptName, String.toList_append]; rfl)⟩

/-- lists of arguments that are read in definitions and calls -/
structure GoodArgs (names : List String) : Prop where
  lex : ∀ w, Lex ⟨0, .word w⟩ ("(" ++ ", ".intercalate names ++ ")").toList (.word w :: .sym '(' :: (argToks names ++ [.sym ')'])) ⟨0, .plain⟩
  flat : Flat (argToks names)
  noEq : Tok.sym '=' ∉ argToks names
  args : Args (argToks names) (names.map nameExpr)
  head : ∀ w, head (.word "def".toList :: .word w :: .sym '(' :: (argToks names ++ [.sym ')', .sym ':'])) = some (.defn w (names.map String.toList))

theorem args_words : ∀ (a : String) (l : List String), Args (argToks (a :: l)) ((a :: l).map nameExpr) := by
  have key : ∀ (a : String) (l : List String), argToks (a :: l) = [.word a.toList] ++ l.flatMap fun b => .sym ',' :: [.word b.toList] := by
    intro a l
    induction l generalizing a with
    | nil => rfl
    | cons b l ih =>
      show .word a.toList :: .sym ',' :: argToks (b :: l) = _
      rw [ih b]
      rfl
  intro a l
  rw [key]
  exact ((Atom.word a.toList).item.args).snocs l (fun b => [.word b.toList]) nameExpr fun b _ => (Atom.word b.toList).item

theorem GoodArgs.of {a : String} {l : List String}
    (h1 : ∀ w, Lex ⟨0, .word w⟩ ("(" ++ ", ".intercalate (a :: l) ++ ")").toList (.word w :: .sym '(' :: (argToks (a :: l) ++ [.sym ')'])) ⟨0, .plain⟩)
    (h2 : (argToks (a :: l)).all (fun t => match t with | .line _ => false | .sym c => c != '=' | _ => true) = true)
    (h3 : ∀ w, Spec.Source.head (.word "def".toList :: .word w :: .sym '(' :: (argToks (a :: l) ++ [.sym ')', .sym ':'])) = some (.defn w ((a :: l).map String.toList))) :
    GoodArgs (a :: l) where
  lex := h1
  flat := by
    intro k ht
    have := List.all_eq_true.1 h2 _ ht
    simp at this
  noEq := by
    intro ht
    have := List.all_eq_true.1 h2 _ ht
    simp at this
  args := args_words a l
  head := h3

theorem args_add : GoodArgs addParams := GoodArgs.of (fun _ => rfl) rfl fun _ => rfl
theorem args_path : GoodArgs pathParams := GoodArgs.of (fun _ => rfl) rfl fun _ => rfl
theorem args_amplitude : GoodArgs ["A", "N", "ansatz", "truncation", "h_args", "t_args"] := GoodArgs.of (fun _ => rfl) rfl fun _ => rfl
theorem args_amplitudeOpt : GoodArgs ["A", "N", "ansatz", "truncation", "h_args", "t_args", "opt_path_lists"] := GoodArgs.of (fun _ => rfl) rfl fun _ => rfl
theorem args_addOpt {nm : String} (h : nm ∈ optNames) : GoodArgs (addParams ++ [listName nm]) := by
  simp only [optNames, List.mem_cons, List.not_mem_nil, or_false] at h
  rcases h with rfl | rfl | rfl <;> exact GoodArgs.of (fun _ => rfl) rfl fun _ => rfl

/-- a definition -/
theorem code_defn {f : String} (hf : Word f.toList) {args : List String} (ha : GoodArgs args) {strs : List String} {body : List Spec.Source.Stmt} (hb : Code 4 strs body) (hne : body ≠ []) :
    Code 0 (("def " ++ f ++ "(" ++ ", ".intercalate args ++ "):") :: strs) [.defn f.toList (args.map String.toList) body] := by
  refine Code.defn (k := 0) (k' := 4) (by omega) (ETPy.lex_def hf (args := args) fun w => ?_) ?_ (ha.head _) hb hne
  · exact ((ha.lex w).append (show Lex ⟨0, .plain⟩ ":\n".toList [.sym ':'] ⟨0, .start 0⟩ from rfl)).cast (by simp [String.toList_append]) (by simp)
  · exact Flat.append (a := [.word "def".toList, .word f.toList, .sym '(']) (flat_of rfl) (Flat.append ha.flat (flat_of rfl))

/-- the tokens of a call -/
theorem call_atom (f : String) {args : List String} (ha : GoodArgs args) : Atom (.word f.toList :: .sym '(' :: (argToks args ++ [.sym ')'])) (.call (nameExpr f) (args.map nameExpr)) :=
  (Atom.word f.toList).call ha.args

/-- a call -/
theorem code_callLine {f : String} (hf : Word f.toList) (hk : ∀ k ∈ keywords, f.toList ≠ k.toList) {args : List String} (ha : GoodArgs args) :
    Code 4 [tabs 1 ++ f ++ "(" ++ ", ".intercalate args ++ ")"] [callAst f args] := by
  refine Code.lines (t := .word f.toList :: .sym '(' :: (argToks args ++ [.sym ')'])) ?_ ?_ (head_expr hk ?_ (expr_item (call_atom f ha).item (by simp))) rfl
  · have h1 := (ha.lex f.toList).append (show Lex ⟨0, .plain⟩ ['\n'] [] ⟨0, .start 0⟩ from rfl)
    refine Lex.cast ((lex_tabs 1 0).append (ETPy.lex_start_word hf (lex_word_then hf h1))) ?_ ?_
    · simp [String.toList_append]
    · simp
  · exact Flat.append (a := [.word f.toList, .sym '(']) (flat_of rfl) (Flat.append ha.flat (flat_of rfl))
  · have := ha.noEq
    simp [this]

/-- `x = f(..)` -/
theorem code_assignCall {x f : String} (hx : Word x.toList) (hk : ∀ k ∈ keywords, x.toList ≠ k.toList) (hf : Word f.toList) {args : List String} (ha : GoodArgs args) :
    Code 4 [tabs 1 ++ x ++ " = " ++ f ++ "(" ++ ", ".intercalate args ++ ")"] [.assign [x.toList] (.call (nameExpr f) (args.map nameExpr))] := by
  refine Code.lines (t := .word x.toList :: .sym '=' :: (.word f.toList :: .sym '(' :: (argToks args ++ [.sym ')']))) ?_ ?_ (head_assign hk (expr_item (call_atom f ha).item (by simp))) rfl
  · have h1 := (ha.lex f.toList).append (show Lex ⟨0, .plain⟩ ['\n'] [] ⟨0, .start 0⟩ from rfl)
    have h2 : ∀ w, Lex ⟨0, .word w⟩ " = ".toList [.word w, .sym '='] ⟨0, .plain⟩ := fun _ => rfl
    refine Lex.cast ((lex_tabs 1 0).append (ETPy.lex_start_word hx (lex_word_then hx ((h2 _).append (lex_word_then hf h1))))) ?_ ?_
    · simp [String.toList_append]
    · simp
  · exact Flat.append (a := [.word x.toList, .sym '=', .word f.toList, .sym '(']) (flat_of rfl) (Flat.append ha.flat (flat_of rfl))

def newToks (r : Nat) : List Tok :=
  [.word "np".toList, .sym '.', .word "zeros".toList] ++ .sym '(' :: (((.word "shape".toList :: .sym '=' :: shapesToks r) ++ .sym ',' :: [.word "dtype".toList, .sym '=', .word "complex".toList]) ++ [.sym ')'])

theorem new_item (r : Nat) : Item (newToks r) (newExpr r) := by
  have h2 := ((shape_atom r).term.sum.kw "shape".toList).args.snoc ((Atom.word "complex".toList).term.sum.kw "dtype".toList)
  exact (((Atom.word "np".toList).attr "zeros".toList).call h2).item

theorem code_new (r : Nat) : Code 4 [tabs 1 ++ "R = " ++ zerosText r] [.assign ["R".toList] (newExpr r)] := by
  refine Code.lines (t := .word "R".toList :: .sym '=' :: newToks r) ?_ ?_ (head_assign (by decide) (expr_item (new_item r) (by simp [newExpr]))) rfl
  · have h1 : Lex ⟨0, .start 4⟩ "R = np.zeros(shape=(".toList
        [.line 4, .word "R".toList, .sym '=', .word "np".toList, .sym '.', .word "zeros".toList, .sym '(', .word "shape".toList, .sym '=', .sym '('] ⟨2, .plain⟩ := rfl
    have h2 := lex_shapeA 1 r
    have h3 : Lex ⟨1, .plain⟩ ", dtype=complex)\n".toList [.sym ',', .word "dtype".toList, .sym '=', .word "complex".toList, .sym ')'] ⟨0, .start 0⟩ := rfl
    refine Lex.cast ((lex_tabs 1 0).append (h1.append (h2.append h3))) ?_ ?_
    · simp [String.toList_append, zerosText]
    · simp [newToks, shapesToks]
  · unfold newToks
    exact Flat.append (a := [.word "R".toList, .sym '=', .word "np".toList, .sym '.', .word "zeros".toList, .sym '(', .word "shape".toList, .sym '='])
      (flat_of rfl) (Flat.append (Flat.append (flat_shapes r) (flat_of rfl)) (flat_of rfl))

theorem code_singles : Code 4 [tabs 1 ++ "truncation.confirm_at_least_singles()"] [confirmAst] := by
  have := ETPy.code_confirm (c := "singles") (word_lit (by decide))
  exact this

theorem code_ret {x : String} (hx : Word x.toList) (hne : expr [.word x.toList] = some (nameExpr x)) : Code 4 [tabs 1 ++ "return " ++ x] [.ret (some (nameExpr x))] := by
  refine Code.lines (t := [.word "return".toList, .word x.toList]) ?_ (flat_of rfl) ?_ rfl
  · have h1 : Lex ⟨0, .start 4⟩ "return ".toList [.line 4, .word "return".toList] ⟨0, .plain⟩ := rfl
    have h2 : ∀ w, Lex ⟨0, .word w⟩ ['\n'] [.word w] ⟨0, .start 0⟩ := fun _ => rfl
    exact ((lex_tabs 1 0).append (h1.append (lex_word_then hx (h2 _)))).cast (by simp [String.toList_append]) (by simp)
  · show (expr [.word x.toList]).map (fun e => Head.simple (.ret (some e))) = _
    rw [hne]
    rfl

theorem retR : Code 4 [tabs 1 ++ "return R"] [.ret (some (nameExpr "R"))] := Code.lines (t := [.word "return".toList, .word "R".toList]) rfl (flat_of rfl) rfl rfl

/-! ## Functions -/

theorem type_clean {ty : String} (h : ty ∈ termTypes) : Clean ty := by
  simp only [termTypes, List.mem_cons, List.not_mem_nil, or_false] at h
  rcases h with rfl | rfl | rfl <;> exact ⟨by decide, by decide⟩

theorem text_add {o : Op} (ho : Clean o.name) {ty : String} (hty : ty ∈ termTypes) {p : Program Einsum} (hp : GoodProgram (GoodGroup einsumReading) p) :
    ∃ r, (addText o ty p).toList = '\n' :: r ∧ Text r [defAst ((addName o ty, .add p), "")] := by
  have hdoc := code_docLine (s := "Calculate the " ++ showOp o ++ " " ++ ty ++ " terms.")
    (Clean.append (Clean.append (Clean.append (Clean.append ⟨by decide, by decide⟩ (clean_showOp ho)) ⟨by decide, by decide⟩) (type_clean hty)) ⟨by decide, by decide⟩)
  have hbody := hdoc.append (((code_ground (code_program (kind_add einsumReading) hp) (progAst_ne p)).append (ETPy.code_return.append (Code.blank 4))).cons_blank)
  have h := text_ended (code_defn (addName_word o hty) args_add hbody (by simp))
  obtain ⟨r, e, t⟩ := h
  refine ⟨r, ?_, t⟩
  rw [← e]
  unfold addText
  refine congrArg (fun l => ("\n".intercalate l ++ "\n").toList) ?_
  rw [show ", ".intercalate addParams = "R, ansatz, truncation, h_args, t_args" from rfl]
  rw [show ("(R, ansatz, truncation, h_args, t_args):" : String) = "(" ++ "R, ansatz, truncation, h_args, t_args" ++ "):" from rfl]
  simp only [List.cons_append, List.nil_append, List.append_assoc, String.append_assoc]
  rfl

theorem text_addOpt {o : Op} (ho : Clean o.name) {ty nm : String} (hty : ty ∈ termTypes) (hnm : nm ∈ optNames) {p : Program OptCall} (hp : GoodProgram (GoodGroup optReading) p) :
    ∃ r, (addOptText o ty nm p).toList = '\n' :: r ∧ Text r [defAst ((addOptName o ty, .addOpt p), nm)] := by
  have hdoc := code_docLine (s := "Optimized calculation of the " ++ showOp o ++ " " ++ ty ++ " terms.")
    (Clean.append (Clean.append (Clean.append (Clean.append ⟨by decide, by decide⟩ (clean_showOp ho)) ⟨by decide, by decide⟩) (type_clean hty)) ⟨by decide, by decide⟩)
  have hnote := code_note (" make an iterable out of the `opt_" ++ nm ++ "_path_list`") (by
    simp only [optNames, List.mem_cons, List.not_mem_nil, or_false] at hnm
    rcases hnm with rfl | rfl | rfl <;> exact ⟨by decide, by decide⟩)
  have hiter : Code 4 [tabs 1 ++ "optimized_einsum = iter(opt_" ++ nm ++ "_path_list)"] [.assign ["optimized_einsum".toList] (.call (nameExpr "iter") [nameExpr (listName nm)])] := by
    simp only [optNames, List.mem_cons, List.not_mem_nil, or_false] at hnm
    rcases hnm with rfl | rfl | rfl
    · exact Code.lines (t := [.word "optimized_einsum".toList, .sym '=', .word "iter".toList, .sym '(', .word (listName "connected").toList, .sym ')']) rfl (flat_of rfl) rfl rfl
    · exact Code.lines (t := [.word "optimized_einsum".toList, .sym '=', .word "iter".toList, .sym '(', .word (listName "linked").toList, .sym ')']) rfl (flat_of rfl) rfl rfl
    · exact Code.lines (t := [.word "optimized_einsum".toList, .sym '=', .word "iter".toList, .sym '(', .word (listName "unlinked").toList, .sym ')']) rfl (flat_of rfl) rfl rfl
  have hbody := hdoc.append ((hnote.append (hiter.append (((code_ground (code_program (kind_add optReading) hp) (progAst_ne p)).append (ETPy.code_return.append (Code.blank 4))).cons_blank))).cons_blank)
  have h := text_ended (code_defn (addOptName_word o hty) (args_addOpt hnm) hbody (by simp))
  obtain ⟨r, e, t⟩ := h
  refine ⟨r, ?_, t⟩
  rw [← e]
  unfold addOptText
  refine congrArg (fun l => ("\n".intercalate l ++ "\n").toList) ?_
  have ea : ", ".intercalate (addParams ++ [listName nm]) = "R, ansatz, truncation, h_args, t_args, opt_" ++ nm ++ "_path_list" := by
    simp only [optNames, List.mem_cons, List.not_mem_nil, or_false] at hnm
    rcases hnm with rfl | rfl | rfl <;> rfl
  rw [ea]
  rw [show ("(R, ansatz, truncation, h_args, t_args, opt_" : String) = "(" ++ "R, ansatz, truncation, h_args, t_args, opt_" from rfl,
    show ("_path_list):" : String) = "_path_list" ++ "):" from rfl,
    show ("# make an iterable out of the `opt_" : String) = "#" ++ " make an iterable out of the `opt_" from rfl]
  simp only [List.cons_append, List.nil_append, List.append_assoc, String.append_assoc]
  rfl

theorem text_typePaths {o : Op} {ty : String} (hty : ty ∈ termTypes) {p : Program Path} (hp : GoodProgram GoodPaths p) :
    ∃ r, (typePathsText o ty p).toList = '\n' :: r ∧ Text r [defAst ((typePathsName o ty, .typePaths p), ty)] := by
  have hdoc := code_docLine (s := "Calculate optimized einsum paths for the " ++ ty ++ " terms.") (Clean.append (Clean.append ⟨by decide, by decide⟩ (type_clean hty)) ⟨by decide, by decide⟩)
  have hparts : Code 4 [tabs 1 ++ ty ++ "_opt_path_list = []"] [.assign [(ty ++ "_opt_path_list").toList] (.list [])] ∧
      Code 4 [tabs 1 ++ "return " ++ ty ++ "_opt_path_list"] [.ret (some (nameExpr (ty ++ "_opt_path_list")))] ∧
      Word (ty ++ "_opt_path_list").toList ∧ (ty ++ "_opt_path_list").toList.all Char.isDigit = false ∧ ∀ w ∈ keywords, (ty ++ "_opt_path_list").toList ≠ w.toList := by
    simp only [termTypes, List.mem_cons, List.not_mem_nil, or_false] at hty
    rcases hty with rfl | rfl | rfl
    · exact ⟨Code.lines (t := [.word ("fully_connected" ++ "_opt_path_list").toList, .sym '=', .sym '[', .sym ']']) rfl (flat_of rfl) rfl rfl,
        Code.lines (t := [.word "return".toList, .word ("fully_connected" ++ "_opt_path_list").toList]) rfl (flat_of rfl) rfl rfl, word_lit (by decide), by decide, by decide⟩
    · exact ⟨Code.lines (t := [.word ("linked_disconnected" ++ "_opt_path_list").toList, .sym '=', .sym '[', .sym ']']) rfl (flat_of rfl) rfl rfl,
        Code.lines (t := [.word "return".toList, .word ("linked_disconnected" ++ "_opt_path_list").toList]) rfl (flat_of rfl) rfl rfl, word_lit (by decide), by decide, by decide⟩
    · exact ⟨Code.lines (t := [.word ("unlinked_disconnected" ++ "_opt_path_list").toList, .sym '=', .sym '[', .sym ']']) rfl (flat_of rfl) rfl rfl,
        Code.lines (t := [.word "return".toList, .word ("unlinked_disconnected" ++ "_opt_path_list").toList]) rfl (flat_of rfl) rfl rfl, word_lit (by decide), by decide, by decide⟩
  obtain ⟨h1, h2, h3, h4, h5⟩ := hparts
  have hbody := hdoc.append ((h1.append (((code_ground (code_program (kind_paths h3 h4 h5) hp) (progAst_ne p)).append ((h2.append (Code.blank 4)).cons_blank)).cons_blank)).cons_blank)
  have h := text_ended (code_defn (typePathsName_word o hty) args_path hbody (by simp))
  obtain ⟨r, e, t⟩ := h
  refine ⟨r, ?_, t⟩
  rw [← e]
  unfold typePathsText
  refine congrArg (fun l => ("\n".intercalate l ++ "\n").toList) ?_
  rw [show ", ".intercalate pathParams = "A, N, ansatz, truncation" from rfl]
  rw [show ("(A, N, ansatz, truncation):" : String) = "(" ++ "A, N, ansatz, truncation" ++ "):" from rfl]
  simp only [List.cons_append, List.nil_append, List.append_assoc, String.append_assoc]

theorem mem_types : "fully_connected" ∈ termTypes ∧ "linked_disconnected" ∈ termTypes ∧ "unlinked_disconnected" ∈ termTypes := by decide
theorem mem_names : "connected" ∈ optNames ∧ "linked" ∈ optNames ∧ "unlinked" ∈ optNames := by decide

theorem clean_amplitude {o : Op} (ho : Clean o.name) : Clean ("Compute the " ++ showOp o ++ " amplitude.") := Clean.append (Clean.append ⟨by decide, by decide⟩ (clean_showOp ho)) ⟨by decide, by decide⟩

theorem computeName_word (o : Op) {s : String} (hs : Word s.toList) : Word ("compute_" ++ specifier o ++ s).toList := word_str (word_str (word_lit (by decide)) (specifier_word o)) hs

theorem addName_lit (o : Op) : addName o "fully_connected" = "add_" ++ specifier o ++ "_fully_connected_terms" ∧
    addName o "linked_disconnected" = "add_" ++ specifier o ++ "_linked_disconnected_terms" ∧ addName o "unlinked_disconnected" = "add_" ++ specifier o ++ "_unlinked_disconnected_terms" := by
  refine ⟨?_, ?_, ?_⟩ <;> apply String.toList_injective <;> simp [addName, String.toList_append]

theorem addOptName_lit (o : Op) : addOptName o "fully_connected" = "add_" ++ specifier o ++ "_fully_connected_terms_optimized" ∧
    addOptName o "linked_disconnected" = "add_" ++ specifier o ++ "_linked_disconnected_terms_optimized" ∧
    addOptName o "unlinked_disconnected" = "add_" ++ specifier o ++ "_unlinked_disconnected_terms_optimized" := by
  refine ⟨?_, ?_, ?_⟩ <;> apply String.toList_injective <;> simp [addOptName, String.toList_append]

theorem typePathsName_lit (o : Op) : typePathsName o "fully_connected" = "compute_" ++ specifier o ++ "_fully_connected_optimized_paths" ∧
    typePathsName o "linked_disconnected" = "compute_" ++ specifier o ++ "_linked_disconnected_optimized_paths" ∧
    typePathsName o "unlinked_disconnected" = "compute_" ++ specifier o ++ "_unlinked_disconnected_optimized_paths" := by
  refine ⟨?_, ?_, ?_⟩ <;> apply String.toList_injective <;> simp [typePathsName, String.toList_append]

theorem text_amplitude {o : Op} (ho : Clean o.name) : ∃ r, (amplitudeText o).toList = '\n' :: r ∧ Text r [defAst (amplitudeDef o, "")] := by
  have hdoc := code_docLine (clean_amplitude ho)
  have hn1 := code_note " the residual tensor" ⟨by decide, by decide⟩
  have hn2 := code_note " add each of the terms" ⟨by decide, by decide⟩
  have hcalls : Code 4 (termTypes.map fun ty => tabs 1 ++ addName o ty ++ "(R, ansatz, truncation, h_args, t_args)") (termTypes.map fun ty => callAst (addName o ty) addParams) :=
    Code.map fun ty hty => by
      have := code_callLine (addName_word o hty) (addName_keyword o ty) args_add
      rw [show ", ".intercalate addParams = "R, ansatz, truncation, h_args, t_args" from rfl] at this
      rw [show ("(R, ansatz, truncation, h_args, t_args)" : String) = "(" ++ "R, ansatz, truncation, h_args, t_args" ++ ")" from rfl]
      simpa only [String.append_assoc] using this
  have hbody := hdoc.append (code_singles.append ((hn1.append ((code_new o.rank).append ((hn2.append (hcalls.append (retR.append (Code.blank 4)))).cons_blank))).cons_blank))
  have h := text_open (code_defn (computeName_word o (word_lit (by decide) : Word "_amplitude".toList)) args_amplitude hbody (by simp))
  obtain ⟨r, e, t⟩ := h
  refine ⟨r, ?_, ETPy.Text.cast t rfl ?_⟩
  · rw [← e]
    unfold amplitudeText
    refine congrArg (fun l => ("\n".intercalate l).toList) ?_
    rw [show ", ".intercalate ["A", "N", "ansatz", "truncation", "h_args", "t_args"] = "A, N, ansatz, truncation, h_args, t_args" from rfl]
    rw [show ("_amplitude(A, N, ansatz, truncation, h_args, t_args):" : String) = "_amplitude" ++ "(" ++ "A, N, ansatz, truncation, h_args, t_args" ++ "):" from rfl,
      show ("def compute_" : String) = "def " ++ "compute_" from rfl, show ("# the residual tensor" : String) = "#" ++ " the residual tensor" from rfl,
      show ("# add each of the terms" : String) = "#" ++ " add each of the terms" from rfl]
    simp only [List.cons_append, List.nil_append, List.append_assoc, String.append_assoc]
  · obtain ⟨a, b, c⟩ := addName_lit o
    simp only [defAst, amplitudeDef, defParams, defBody, termTypes, List.map_cons, List.map_nil, a, b, c, List.cons_append, List.nil_append, List.append_assoc, List.append_nil]

theorem text_amplitudeOpt {o : Op} (ho : Clean o.name) : ∃ r, (amplitudeOptText o).toList = '\n' :: r ∧ Text r [defAst (amplitudeOptDef o, "")] := by
  have hdoc := code_docLine (clean_amplitude ho)
  have hn1 := code_note " the residual tensor" ⟨by decide, by decide⟩
  have hn2 := code_note " add each of the terms" ⟨by decide, by decide⟩
  have hn3 := code_note " unpack the optimized paths" ⟨by decide, by decide⟩
  have hunpack : Code 4 [tabs 1 ++ "opt_connected_path_list, opt_linked_path_list, opt_unlinked_path_list = opt_path_lists[(" ++ toString o.m ++ ", " ++ toString o.n ++ ")]"]
      [.assign (optNames.map fun nm => (listName nm).toList) (operandExpr ⟨"opt_path_lists", o.m, o.n⟩)] := by
    refine Code.lines (t := [.word (listName "connected").toList, .sym ',', .word (listName "linked").toList, .sym ',', .word (listName "unlinked").toList, .sym '='] ++
      ETPy.operandToks ⟨"opt_path_lists", o.m, o.n⟩) ?_ ?_ ?_ rfl
    · have h0 : Lex ⟨0, .start 4⟩ "opt_connected_path_list, opt_linked_path_list, opt_unlinked_path_list = ".toList
          [.line 4, .word (listName "connected").toList, .sym ',', .word (listName "linked").toList, .sym ',', .word (listName "unlinked").toList, .sym '='] ⟨0, .plain⟩ := rfl
      have h1 := ETPy.lex_operand (o := ⟨"opt_path_lists", o.m, o.n⟩) (word_lit (by decide) : Word "opt_path_lists".toList) 0
      refine ((lex_tabs 1 0).append (h0.append (h1.append (show Lex ⟨0, .plain⟩ ['\n'] [] ⟨0, .start 0⟩ from rfl)))).cast ?_ (by simp)
      simp [String.toList_append, ETPy.Operand.render]
    · exact Flat.append (flat_of rfl) (ETPy.flat_operand _)
    · have he : expr (ETPy.operandToks ⟨"opt_path_lists", o.m, o.n⟩) = some (operandExpr ⟨"opt_path_lists", o.m, o.n⟩) := expr_item (ETPy.operand_atom _).item (by simp [operandExpr])
      rw [List.cons_append, head_word (by decide)]
      simp only [plainHead, List.cons_append, List.nil_append, List.takeWhile_cons, List.dropWhile_cons]
      simp [names, he, optNames]
  have hcalls : Code 4 (List.zipWith (fun ty nm => tabs 1 ++ addOptName o ty ++ "(R, ansatz, truncation, h_args, t_args, opt_" ++ nm ++ "_path_list)") termTypes optNames)
      (List.zipWith (fun ty nm => callAst (addOptName o ty) (addParams ++ [listName nm])) termTypes optNames) := by
    have one : ∀ ty nm, ty ∈ termTypes → nm ∈ optNames → Code 4 [tabs 1 ++ addOptName o ty ++ "(R, ansatz, truncation, h_args, t_args, opt_" ++ nm ++ "_path_list)"]
        [callAst (addOptName o ty) (addParams ++ [listName nm])] := by
      intro ty nm hty hnm
      have := code_callLine (addOptName_word o hty) (addOptName_keyword o ty) (args_addOpt hnm)
      have ea : ", ".intercalate (addParams ++ [listName nm]) = "R, ansatz, truncation, h_args, t_args, opt_" ++ nm ++ "_path_list" := by
        simp only [optNames, List.mem_cons, List.not_mem_nil, or_false] at hnm
        rcases hnm with rfl | rfl | rfl <;> rfl
      rw [ea] at this
      rw [show ("(R, ansatz, truncation, h_args, t_args, opt_" : String) = "(" ++ "R, ansatz, truncation, h_args, t_args, opt_" from rfl,
        show ("_path_list)" : String) = "_path_list" ++ ")" from rfl]
      simpa only [String.append_assoc] using this
    exact (one _ _ mem_types.1 mem_names.1).append ((one _ _ mem_types.2.1 mem_names.2.1).append (one _ _ mem_types.2.2 mem_names.2.2))
  have hbody := hdoc.append (code_singles.append ((hn1.append ((code_new o.rank).append ((hn3.append (hunpack.append ((hn2.append (hcalls.append (retR.append (Code.blank 4)))).cons_blank))).cons_blank))).cons_blank))
  have h := text_open (code_defn (computeName_word o (word_lit (by decide) : Word "_amplitude_optimized".toList)) args_amplitudeOpt hbody (by simp))
  obtain ⟨r, e, t⟩ := h
  refine ⟨r, ?_, ETPy.Text.cast t rfl ?_⟩
  · rw [← e]
    unfold amplitudeOptText
    refine congrArg (fun l => ("\n".intercalate l).toList) ?_
    rw [show ", ".intercalate ["A", "N", "ansatz", "truncation", "h_args", "t_args", "opt_path_lists"] = "A, N, ansatz, truncation, h_args, t_args, opt_path_lists" from rfl]
    rw [show ("_amplitude_optimized(A, N, ansatz, truncation, h_args, t_args, opt_path_lists):" : String) =
        "_amplitude_optimized" ++ "(" ++ "A, N, ansatz, truncation, h_args, t_args, opt_path_lists" ++ "):" from rfl,
      show ("def compute_" : String) = "def " ++ "compute_" from rfl, show ("# the residual tensor" : String) = "#" ++ " the residual tensor" from rfl,
      show ("# add each of the terms" : String) = "#" ++ " add each of the terms" from rfl, show ("# unpack the optimized paths" : String) = "#" ++ " unpack the optimized paths" from rfl]
    simp only [List.cons_append, List.nil_append, List.append_assoc, String.append_assoc]
  · obtain ⟨a, b, c⟩ := addOptName_lit o
    simp only [defAst, amplitudeOptDef, defParams, defBody, termTypes, optNames, List.zipWith_cons_cons, List.zipWith_nil_left, a, b, c, List.cons_append, List.nil_append, List.append_assoc, List.append_nil]

end TF.CC
