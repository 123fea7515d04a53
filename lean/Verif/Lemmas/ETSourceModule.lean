import Verif.Lemmas.ETSource

/-!
# The text of a generated e^T module, read as Python: functions and file
-/

namespace TF.ETPy

set_option maxRecDepth 10000

open TF.Py TF.Spec.Source
open TF.CC (Op tabs)
open TF.ET (Mode)

/-! ## The definitions as statements -/

def orPath (paths : Bool) (name : String) : List String := if paths then [name] else []

/-- the tensor of `compute_..._amplitude` -/
def masterTensor : Mode → String
  | .rhs => "R"
  | .lhs => "dz"

def raiseAst : Spec.Source.Stmt := .raise (.call (nameExpr "NotImplementedError") [.str "Hot Band amplitudes not implemented!".toList])

def elseAst (mode : Mode) : Option Part → List Spec.Source.Stmt
  | none => [raiseAst]
  | some p => partAst mode p

def callAst (mode : Mode) (args : List String) (paths : Bool) (f path : String) : Spec.Source.Stmt :=
  .expr (.call (nameExpr f) ((masterTensor mode :: "ansatz" :: "truncation" :: (args ++ orPath paths path)).map nameExpr))

/-- A definition of the module as a statement. -/
def defAst (mode : Mode) (d : String × Body) : Spec.Source.Stmt :=
  match d.2 with
  | .terms args paths g x =>
    .defn d.1.toList (tensor mode :: (("ansatz" :: "truncation" :: (args ++ orPath paths "opt_einsum")).map String.toList))
      [.doc, .cond (.attr (nameExpr "ansatz") "ground_state".toList) (partAst mode g) (elseAst mode x), .ret none]
  | .amplitude args paths confirms axes calls =>
    .defn d.1.toList (("A" :: "N" :: "ansatz" :: "truncation" :: (args ++ orPath paths "opt_paths")).map String.toList)
      (.doc :: ((confirms.map fun c => .expr (.call (.attr (nameExpr "truncation") ("confirm_at_least_" ++ c).toList) [])) ++
        (.assign [(masterTensor mode).toList] (zerosExpr axes) ::
          ((if paths then [.assign ["optimized_HZ_paths".toList, "optimized_eT_HZ_paths".toList] (nameExpr "opt_paths")] else []) ++
            (List.zipWith (callAst mode args paths) calls ["optimized_HZ_paths", "optimized_eT_HZ_paths"] ++
              [.ret (some (nameExpr (masterTensor mode)))])))))

/-! ## Texts without quotes and line ends -/

theorem clean_showOp {p : Op} (h : Clean p.name) : Clean (showOp p) := by
  unfold showOp
  have c1 : Clean "operator(name='" := ⟨by decide, by decide⟩
  have c2 : Clean "', rank=" := ⟨by decide, by decide⟩
  have c3 : Clean ", m=" := ⟨by decide, by decide⟩
  have c4 : Clean ", n=" := ⟨by decide, by decide⟩
  have c5 : Clean ")" := ⟨by decide, by decide⟩
  exact (((((((c1.append h).append c2).append (clean_nat _)).append c3).append (clean_nat _)).append c4).append (clean_nat _)).append c5

/-! ## Functions with terms -/

def raiseLine : String := "raise NotImplementedError('Hot Band amplitudes not implemented!')"

theorem code_raise : Code 8 ([raiseLine].map indent) [raiseAst] :=
  Code.lines (t := [.word "raise".toList, .word "NotImplementedError".toList, .sym '(', .str "Hot Band amplitudes not implemented!".toList, .sym ')'])
    rfl (flat_of rfl) rfl rfl

/-- the name of a function with terms -/
def fnName (mode : Mode) (opt eT : Bool) (p : Op) : String := termsName mode opt p (if eT then "eT_HZ" else "HZ")

theorem specifier_word (p : Op) : Word (specifier p).toList := by
  unfold specifier
  exact word_str (word_str (word_str (word_lit (by decide) : Word "m".toList) (nat_word p.m)) (word_lit (by decide) : Word "_n".toList)) (nat_word p.n)

theorem fnName_word (mode : Mode) (opt eT : Bool) (p : Op) : Word (fnName mode opt eT p).toList := by
  have h1 := specifier_word p
  have h2 : ∀ a k s o : String, Word a.toList → Word k.toList → Word s.toList → (∀ c ∈ o.toList, isWord c = true) →
      Word (a ++ specifier p ++ "_" ++ k ++ s ++ o).toList := by
    intro a k s o ha hk hs ho
    rw [String.toList_append]
    exact word_append (word_str (word_str (word_str (word_str ha h1) (word_lit (by decide))) hk) hs) ho
  unfold fnName termsName
  refine h2 _ _ _ _ ?_ ?_ ?_ ?_
  · cases mode <;> exact word_lit (by decide)
  · cases eT <;> exact word_lit (by decide)
  · cases mode <;> exact word_lit (by decide)
  · cases opt
    · decide
    · intro c hc
      exact List.all_eq_true.1 (show "_optimized".toList.all isWord = true by decide) c hc

/-- the tokens of the arguments in a definition or a call -/
def argToks : List String → List Tok
  | [] => []
  | [a] => [.word a.toList]
  | a :: b :: l => .word a.toList :: .sym ',' :: argToks (b :: l)

/-- the arguments of the functions with terms -/
def fnArgs (mode : Mode) (opt : Bool) : List String :=
  (match mode with | .rhs => "R" | .lhs => "Z") :: "ansatz" :: "truncation" :: (argNames mode ++ orPath opt "opt_einsum")

theorem fnArgs_text (mode : Mode) (opt : Bool) : ", ".intercalate (fnArgs mode opt) =
    (match mode with | .rhs => "R, ansatz, truncation, t_args, h_args, z_args" | .lhs => "Z, ansatz, truncation, t_conj, dT, z_args, dz_args") ++
      (if opt then ", opt_einsum" else "") := by
  cases mode <;> cases opt <;> rfl

theorem lex_def {f : String} (hf : Word f.toList) {args : List String}
    (h : ∀ w, Lex ⟨0, .word w⟩ ("(" ++ ", ".intercalate args ++ "):\n").toList (.word w :: .sym '(' :: (argToks args ++ [.sym ')', .sym ':'])) ⟨0, .start 0⟩) :
    LexLines ["def " ++ f ++ "(" ++ ", ".intercalate args ++ "):"] (.line 0 :: .word "def".toList :: .word f.toList :: .sym '(' :: (argToks args ++ [.sym ')', .sym ':'])) := by
  have h1 : Lex ⟨0, .start 0⟩ "def ".toList [.line 0, .word "def".toList] ⟨0, .plain⟩ := rfl
  exact (h1.append (lex_word_then hf (h f.toList))).cast (by simp [String.toList_append]) (by simp)

theorem fn_lex (mode : Mode) (opt : Bool) (w : List Char) : Lex ⟨0, .word w⟩ ("(" ++ ", ".intercalate (fnArgs mode opt) ++ "):\n").toList
    (.word w :: .sym '(' :: (argToks (fnArgs mode opt) ++ [.sym ')', .sym ':'])) ⟨0, .start 0⟩ := by
  cases mode <;> cases opt <;> rfl

theorem fn_head (mode : Mode) (opt : Bool) (w : List Char) : head (.word "def".toList :: .word w :: .sym '(' :: (argToks (fnArgs mode opt) ++ [.sym ')', .sym ':'])) =
    some (.defn w ((fnArgs mode opt).map String.toList)) := by
  cases mode <;> cases opt <;> rfl

theorem flat_args (w : List Char) (mode : Mode) (opt : Bool) : Flat (.word "def".toList :: .word w :: .sym '(' :: (argToks (fnArgs mode opt) ++ [.sym ')', .sym ':'])) := by
  cases mode <;> cases opt <;> exact flat_of rfl

theorem code_return : Code 4 [tabs 1 ++ "return"] [.ret none] := Code.lines (t := [.word "return".toList]) rfl (flat_of rfl) rfl rfl

/-- what is written under `else` -/
def elseLines (mode : Mode) : Option Part → List String
  | none => [raiseLine]
  | some p => p.lines mode

/-- the lines of a function, without the empty line at the beginning -/
theorem code_fn {mode : Mode} {opt eT : Bool} {p : Op} (hp : Clean p.name) {g : Part} {x : Option Part} (hg : GoodPart g) (hx : ∀ q ∈ x, GoodPart q) :
    ∃ r, (fnText mode opt eT p (g.lines mode) (elseLines mode x)).toList = '\n' :: r ∧
      Text r [defAst mode (fnName mode opt eT p, .terms (argNames mode) opt g x)] := by
  have hd : ∀ (doc : List String), (∀ s ∈ doc, Clean s) → ∀ kind, Clean kind →
      Code 4 ((tabs 1 ++ "\"\"\" " ++ (if opt then "Optimized calculation of the " else "Calculate the ") ++ showOp p ++ " " ++ kind ++ " terms.") ::
        (doc.map (fun s => tabs 1 ++ s) ++ [tabs 1 ++ "\"\"\""])) [.doc] := by
    intro doc hdoc kind hk
    refine code_doc (w := (" " ++ (if opt then "Optimized calculation of the " else "Calculate the ") ++ showOp p ++ " " ++ kind ++ " terms.\n").toList ++
      ((doc.flatMap fun s => (tabs 1 ++ s).toList ++ ['\n']) ++ (tabs 1).toList)) ?_ ?_
    · have hs := clean_showOp hp
      intro hm
      rw [List.mem_append, List.mem_append] at hm
      rcases hm with hm | hm | hm
      · have : Clean (" " ++ (if opt then "Optimized calculation of the " else "Calculate the ") ++ showOp p ++ " " ++ kind ++ " terms.") :=
          Clean.append (Clean.append (Clean.append (Clean.append (Clean.append ⟨by decide, by decide⟩ (by cases opt <;> exact ⟨by decide, by decide⟩)) hs) ⟨by decide, by decide⟩) hk) ⟨by decide, by decide⟩
        have h1 := this.1
        simp only [String.toList_append, List.mem_append, not_or] at hm h1
        revert hm
        simp only [h1, false_or]
        decide
      · obtain ⟨s, hs', hm⟩ := List.mem_flatMap.1 hm
        have h1 := (hdoc s hs').1
        simp only [String.toList_append, toList_tabs, List.mem_append] at hm
        rcases hm with (hm | hm) | hm
        · have := List.eq_of_mem_replicate hm
          revert this; decide
        · exact h1 hm
        · revert hm; decide
      · rw [toList_tabs] at hm
        have := List.eq_of_mem_replicate hm
        revert this; decide
    · simp [String.toList_append, List.flatMap_map]
  have hcond : Code 4 ((tabs 1 ++ "if ansatz.ground_state:") :: ((g.lines mode).map indent) ++ (tabs 1 ++ "else:") :: ((elseLines mode x).map indent))
      [.cond (.attr (nameExpr "ansatz") "ground_state".toList) (partAst mode g) (elseAst mode x)] := by
    refine Code.condElse (k' := 8) (by omega) (t := [.word "if".toList, .word "ansatz".toList, .sym '.', .word "ground_state".toList, .sym ':']) (u := [.word "else".toList, .sym ':'])
      rfl (flat_of rfl) rfl rfl (flat_of rfl) rfl (code_part hg) ?_ (partAst_ne hg) ?_
    · cases x with
      | none => exact code_raise
      | some q => exact code_part (hx q rfl)
    · cases x with
      | none => exact List.cons_ne_nil _ _
      | some q => exact partAst_ne (hx q rfl)
  have key : ∀ (doc : List String), (∀ s ∈ doc, Clean s) → ∀ kind, Clean kind →
      Code 0 (("def " ++ fnName mode opt eT p ++ "(" ++ ", ".intercalate (fnArgs mode opt) ++ "):") ::
        (((tabs 1 ++ "\"\"\" " ++ (if opt then "Optimized calculation of the " else "Calculate the ") ++ showOp p ++ " " ++ kind ++ " terms.") ::
          (doc.map (fun s => tabs 1 ++ s) ++ [tabs 1 ++ "\"\"\""])) ++ ("" ::
          (((tabs 1 ++ "if ansatz.ground_state:") :: ((g.lines mode).map indent) ++ (tabs 1 ++ "else:") :: ((elseLines mode x).map indent)) ++
            ("" :: ([tabs 1 ++ "return"] ++ [""]))))))
        [defAst mode (fnName mode opt eT p, .terms (argNames mode) opt g x)] := by
    intro doc hdoc kind hk
    have := Code.defn (k := 0) (k' := 4) (by omega) (lex_def (fnName_word mode opt eT p) (fn_lex mode opt)) (flat_args _ mode opt) (fn_head mode opt _)
      ((hd doc hdoc kind hk).append (hcond.append ((code_return.append (Code.blank 4)).cons_blank)).cons_blank) (by simp)
    have e : (fnArgs mode opt).map String.toList = tensor mode :: (("ansatz" :: "truncation" :: (argNames mode ++ orPath opt "opt_einsum")).map String.toList) := by
      cases mode <;> rfl
    rw [e] at this
    exact this
  have hfin : ∀ (doc : List String), (∀ s ∈ doc, Clean s) → ∀ kind, Clean kind → ∀ text : String,
      text = "\n".intercalate ("" :: ("def " ++ fnName mode opt eT p ++ "(" ++ ", ".intercalate (fnArgs mode opt) ++ "):") ::
        (((tabs 1 ++ "\"\"\" " ++ (if opt then "Optimized calculation of the " else "Calculate the ") ++ showOp p ++ " " ++ kind ++ " terms.") ::
          (doc.map (fun s => tabs 1 ++ s) ++ [tabs 1 ++ "\"\"\""])) ++ ("" ::
          (((tabs 1 ++ "if ansatz.ground_state:") :: ((g.lines mode).map indent) ++ (tabs 1 ++ "else:") :: ((elseLines mode x).map indent)) ++
            ("" :: ([tabs 1 ++ "return"] ++ [""])))))) ++ "\n" →
      ∃ r, text.toList = '\n' :: r ∧ Text r [defAst mode (fnName mode opt eT p, .terms (argNames mode) opt g x)] := by
    intro doc hdoc kind hk text ht
    refine ⟨_, ?_, Text.code (key doc hdoc kind hk)⟩
    rw [ht, intercalate_lines (by simp)]
    rfl
  have hname : ∀ s : String, fnName mode opt eT p = s → s = fnName mode opt eT p := fun _ h => h.symm
  cases eT with
  | true =>
    refine hfin ["These terms include the vibrational contributions from the e^T operator.",
       "This increases the number of possible non-zero permutations of creation/annihilation operators."] ?_ "eT_HZ" ⟨by decide, by decide⟩ _ ?_
    · intro s hs
      simp only [List.mem_cons, List.not_mem_nil, or_false] at hs
      rcases hs with rfl | rfl <;> exact ⟨by decide, by decide⟩
    · unfold fnText
      refine congrArg (· ++ "\n") (congrArg ("\n".intercalate ·) ?_)
      rw [fnName, termsName.eq_def, fnArgs_text]
      cases mode <;> simp [specifier] <;> rfl
  | false =>
    refine hfin ["These terms have no vibrational contribution from the e^T operator.",
       "This reduces the number of possible non-zero permutations of creation/annihilation operators."] ?_ "HZ" ⟨by decide, by decide⟩ _ ?_
    · intro s hs
      simp only [List.mem_cons, List.not_mem_nil, or_false] at hs
      rcases hs with rfl | rfl <;> exact ⟨by decide, by decide⟩
    · unfold fnText
      refine congrArg (· ++ "\n") (congrArg ("\n".intercalate ·) ?_)
      rw [fnName, termsName.eq_def, fnArgs_text]
      cases mode <;> simp [specifier] <;> rfl

/-! ## Functions that return an amplitude -/

theorem code_zeros (mode : Mode) (r : Nat) :
    Code 4 [tabs 1 ++ masterTensor mode ++ " = np.zeros(shape=(" ++ ", ".intercalate ("A" :: List.replicate r "N") ++ "), dtype=complex)"]
      [.assign [(masterTensor mode).toList] (zerosExpr r)] := by
  refine Code.lines (t := .word (masterTensor mode).toList :: .sym '=' :: zerosToks r) ?_ ?_ (head_assign ?_ (expr_item (zeros_item r) ?_)) rfl
  · have h1 : Lex ⟨0, .start 4⟩ (masterTensor mode ++ " = np.zeros(shape=(").toList
        [.line 4, .word (masterTensor mode).toList, .sym '=', .word "np".toList, .sym '.', .word "zeros".toList, .sym '(', .word "shape".toList, .sym '=', .sym '(']
        ⟨2, .plain⟩ := by cases mode <;> rfl
    have h2 := lex_shape 1 r "A" (word_lit (by decide))
    have h3 : Lex ⟨1, .plain⟩ ", dtype=complex)\n".toList [.sym ',', .word "dtype".toList, .sym '=', .word "complex".toList, .sym ')'] ⟨0, .start 0⟩ := rfl
    refine Lex.cast ((lex_tabs 1 0).append (h1.append (h2.append h3))) ?_ ?_
    · simp [String.toList_append]
    · simp [zerosToks]
  · unfold zerosToks
    exact Flat.append (a := [.word (masterTensor mode).toList, .sym '=', .word "np".toList, .sym '.', .word "zeros".toList, .sym '(', .word "shape".toList, .sym '=', .sym '('])
      (flat_of rfl) (Flat.append (flat_shape "A" r) (flat_of rfl))
  · cases mode <;> decide
  · intro w x
    simp [zerosExpr]

theorem code_confirm {c : String} (hc : Word c.toList) : Code 4 [tabs 1 ++ "truncation.confirm_at_least_" ++ c ++ "()"]
    [.expr (.call (.attr (nameExpr "truncation") ("confirm_at_least_" ++ c).toList) [])] := by
  have hw : Word ("confirm_at_least_" ++ c).toList := word_str (word_lit (by decide)) hc
  refine Code.lines (t := [.word "truncation".toList, .sym '.', .word ("confirm_at_least_" ++ c).toList, .sym '(', .sym ')']) ?_ (flat_of rfl)
    (head_expr (by decide) (by simp) (expr_item (((Atom.word "truncation".toList).attr _).callNone.item) ?_)) rfl
  · have h1 : Lex ⟨0, .start 4⟩ "truncation.".toList [.line 4, .word "truncation".toList, .sym '.'] ⟨0, .plain⟩ := rfl
    have h2 : Lex ⟨0, .word ("confirm_at_least_" ++ c).toList⟩ "()\n".toList [.word ("confirm_at_least_" ++ c).toList, .sym '(', .sym ')'] ⟨0, .start 0⟩ := rfl
    refine Lex.cast ((lex_tabs 1 0).append (h1.append (lex_word_then hw h2))) ?_ ?_
    · simp [String.toList_append]
    · simp
  · intro w x
    simp

theorem lex_start_word {w l : List Char} {k d : Nat} {t : List Tok} {s : St} (hw : Word w) (h : Lex ⟨d, .plain⟩ (w ++ l) t s) :
    Lex ⟨d, .start k⟩ (w ++ l) (.line k :: t) s := by
  obtain ⟨h1, h2⟩ := hw
  match w, h1 with
  | c :: w, _ =>
    have hc := h2 c (by simp)
    exact lex_start (fun e => isWord_ne hc (x := ' ') rfl e.symm) (fun e => isWord_ne hc (x := '\n') rfl e.symm) (fun e => isWord_ne hc (x := '#') rfl e.symm) h

/-- the arguments of a call -/
def callArgs (mode : Mode) (opt : Bool) (path : String) : List String :=
  masterTensor mode :: "ansatz" :: "truncation" :: (argNames mode ++ orPath opt path)

theorem code_call {mode : Mode} {opt : Bool} {f path : String} (hf : Word f.toList) (hk : ∀ k ∈ keywords, f.toList ≠ k.toList)
    (hp : path = "optimized_HZ_paths" ∨ path = "optimized_eT_HZ_paths") :
    Code 4 [tabs 1 ++ f ++ "(" ++ ", ".intercalate (callArgs mode opt path) ++ ")"] [callAst mode (argNames mode) opt f path] := by
  refine Code.lines (t := .word f.toList :: .sym '(' :: (argToks (callArgs mode opt path) ++ [.sym ')'])) ?_ ?_ (head_expr hk ?_ ?_) rfl
  · have h1 : Lex ⟨0, .word f.toList⟩ ("(" ++ ", ".intercalate (callArgs mode opt path) ++ ")\n").toList
        (.word f.toList :: .sym '(' :: (argToks (callArgs mode opt path) ++ [.sym ')'])) ⟨0, .start 0⟩ := by
      rcases hp with rfl | rfl <;> cases mode <;> cases opt <;> rfl
    refine Lex.cast ((lex_tabs 1 0).append (lex_start_word hf (lex_word_then hf h1))) ?_ ?_
    · simp [String.toList_append]
    · simp
  · rcases hp with rfl | rfl <;> cases mode <;> cases opt <;> exact flat_of rfl
  · rcases hp with rfl | rfl <;> cases mode <;> cases opt <;> decide
  · rcases hp with rfl | rfl <;> cases mode <;> cases opt <;> rfl

theorem confirms_word (p : Op) : ∀ c ∈ confirms p, Word c.toList := by
  intro c hc
  have : c ∈ ["singles", "doubles", "triples", "quadruples", "quintuples", "sextuples"] := by
    unfold confirms at hc
    rcases List.mem_cons.1 hc with rfl | hc
    · simp
    · obtain ⟨x, hx, rfl⟩ := List.mem_map.1 hc
      exact List.mem_cons_of_mem _ (List.of_mem_zip (List.mem_filter.1 hx).1).1
  simp only [List.mem_cons, List.not_mem_nil, or_false] at this
  rcases this with rfl | rfl | rfl | rfl | rfl | rfl <;> exact word_lit (by decide)

theorem fnName_keyword (mode : Mode) (opt eT : Bool) (p : Op) : ∀ k ∈ keywords, (fnName mode opt eT p).toList ≠ k.toList := by
  have h : ∃ r, (fnName mode opt eT p).toList = 'a' :: 'd' :: r ∨ (fnName mode opt eT p).toList = 'c' :: 'o' :: r := by
    unfold fnName termsName
    cases mode
    · exact ⟨_, Or.inl (by simp only [String.toList_append]; rfl)⟩
    · exact ⟨_, Or.inr (by simp only [String.toList_append]; rfl)⟩
  obtain ⟨r, h⟩ := h
  intro k hk he
  rcases h with h | h <;>
  · rw [h] at he
    simp only [keywords, List.mem_cons, List.not_mem_nil, or_false] at hk
    rcases hk with rfl | rfl | rfl | rfl | rfl | rfl | rfl | rfl | rfl | rfl <;> exact absurd (congrArg (List.take 2) he) (by simp only [List.take_succ_cons, List.take_zero]; decide)

def masterName (opt : Bool) (p : Op) : String := "compute_" ++ specifier p ++ "_amplitude" ++ (if opt then "_optimized" else "")

theorem masterName_word (opt : Bool) (p : Op) : Word (masterName opt p).toList := by
  unfold masterName
  rw [String.toList_append]
  refine word_append (word_str (word_str (word_lit (by decide)) (specifier_word p)) (word_lit (by decide))) ?_
  cases opt
  · decide
  · intro c hc
    exact List.all_eq_true.1 (show "_optimized".toList.all isWord = true by decide) c hc

/-- the arguments of `compute_..._amplitude` -/
def masterArgs (mode : Mode) (opt : Bool) : List String := "A" :: "N" :: "ansatz" :: "truncation" :: (argNames mode ++ orPath opt "opt_paths")

theorem master_lex (mode : Mode) (opt : Bool) (w : List Char) : Lex ⟨0, .word w⟩ ("(" ++ ", ".intercalate (masterArgs mode opt) ++ "):\n").toList
    (.word w :: .sym '(' :: (argToks (masterArgs mode opt) ++ [.sym ')', .sym ':'])) ⟨0, .start 0⟩ := by
  cases mode <;> cases opt <;> rfl

theorem master_head (mode : Mode) (opt : Bool) (w : List Char) : head (.word "def".toList :: .word w :: .sym '(' :: (argToks (masterArgs mode opt) ++ [.sym ')', .sym ':'])) =
    some (.defn w ((masterArgs mode opt).map String.toList)) := by
  cases mode <;> cases opt <;> rfl

theorem flat_master (w : List Char) (mode : Mode) (opt : Bool) : Flat (.word "def".toList :: .word w :: .sym '(' :: (argToks (masterArgs mode opt) ++ [.sym ')', .sym ':'])) := by
  cases mode <;> cases opt <;> exact flat_of rfl

/-- the dictionaries in the text -/
def argText : Mode → String
  | .rhs => "ansatz, truncation, t_args, h_args, z_args"
  | .lhs => "ansatz, truncation, t_conj, dT, z_args, dz_args"

theorem masterArgs_text (mode : Mode) (opt : Bool) : ", ".intercalate (masterArgs mode opt) = "A, N, " ++ argText mode ++ (if opt then ", opt_paths" else "") := by
  cases mode <;> cases opt <;> rfl

theorem callArgs_text (mode : Mode) (opt : Bool) (path : String) :
    ", ".intercalate (callArgs mode opt path) = masterTensor mode ++ ", " ++ argText mode ++ (if opt then ", " ++ path else "") := by
  apply String.toList_injective
  cases mode <;> cases opt <;> simp [callArgs, argNames, orPath, argText, masterTensor, String.intercalate_cons_cons, String.intercalate_singleton, String.toList_append]

theorem intercalate_blank (l : List String) : ("\n".intercalate (l ++ [""])).toList = l.flatMap fun s => s.toList ++ ['\n'] := by
  have h1 := intercalate_lines (ls := l ++ [""]) (by simp)
  rw [String.toList_append, List.flatMap_append] at h1
  exact List.append_cancel_right h1

def stepName : Mode → String
  | .rhs => "add"
  | .lhs => "compute"

def typeName : Mode → String
  | .rhs => "terms"
  | .lhs => "LHS"

theorem fnName_zero (mode : Mode) (opt : Bool) (p : Op) : fnName mode opt false p = stepName mode ++ "_" ++ specifier p ++ "_HZ_" ++
    typeName mode ++ (if opt then "_optimized" else "") := by
  unfold fnName termsName
  apply String.toList_injective
  cases mode <;> simp [String.toList_append, stepName, typeName]

theorem fnName_t (mode : Mode) (opt : Bool) (p : Op) : fnName mode opt true p = stepName mode ++ "_" ++ specifier p ++ "_eT_HZ_" ++
    typeName mode ++ (if opt then "_optimized" else "") := by
  unfold fnName termsName
  apply String.toList_injective
  cases mode <;> simp [String.toList_append, stepName, typeName]

theorem masterDef_names (mode : Mode) (opt : Bool) (p : Op) : masterDef mode opt p =
    (masterName opt p, .amplitude (argNames mode) opt (confirms p) p.rank [fnName mode opt false p, fnName mode opt true p]) := by
  rw [fnName_zero, fnName_t]
  cases mode <;> rfl

theorem Text.cast {l l' : List Char} {s s' : List Spec.Source.Stmt} (h : Text l s) (e : l = l') (e' : s = s') : Text l' s' := e ▸ e' ▸ h

def pathsAst (opt : Bool) : List Spec.Source.Stmt :=
  if opt then [.assign ["optimized_HZ_paths".toList, "optimized_eT_HZ_paths".toList] (nameExpr "opt_paths")] else []

theorem masterText_eq (mode : Mode) (opt : Bool) (p : Op) : masterText mode opt p = "\n".intercalate ("" :: ("def " ++ masterName opt p ++ "(" ++ ", ".intercalate (masterArgs mode opt) ++ "):") ::
    ([tabs 1 ++ "\"\"\"Compute the " ++ showOp p ++ " amplitude.\"\"\""] ++ (((confirms p).map fun c => tabs 1 ++ "truncation.confirm_at_least_" ++ c ++ "()") ++
      ("" :: ([tabs 1 ++ "# the residual tensor"] ++
        ([tabs 1 ++ masterTensor mode ++ " = np.zeros(shape=(" ++ ", ".intercalate ("A" :: List.replicate p.rank "N") ++ "), dtype=complex)"] ++
        ("" :: ((if opt then [tabs 1 ++ "# unpack the optimized paths", tabs 1 ++ "optimized_HZ_paths, optimized_eT_HZ_paths = opt_paths", ""] else []) ++
          ([tabs 1 ++ "# " ++ stepName mode ++ " the terms"] ++
          ([tabs 1 ++ fnName mode opt false p ++ "(" ++ ", ".intercalate (callArgs mode opt "optimized_HZ_paths") ++ ")"] ++
          ([tabs 1 ++ fnName mode opt true p ++ "(" ++ ", ".intercalate (callArgs mode opt "optimized_eT_HZ_paths") ++ ")"] ++
          ([tabs 1 ++ "return " ++ masterTensor mode] ++ [""])))))))))) ) ++ [""]) := by
  unfold masterText
  refine congrArg ("\n".intercalate ·) ?_
  rw [masterArgs_text, callArgs_text, callArgs_text, fnName_zero, fnName_t, masterName]
  cases mode
  all_goals
    simp only [List.cons_append, List.nil_append, List.append_assoc, stepName, typeName, masterTensor, argText, List.cons.injEq, List.append_cancel_left_eq, and_true, true_and]
    rw [show "_HZ_" = "_" ++ "HZ" ++ "_" from rfl, show "_eT_HZ_" = "_" ++ "eT_HZ" ++ "_" from rfl, show "def compute_" = "def " ++ "compute_" from rfl,
      show "(A, N, " = "(" ++ "A, N, " from rfl]
    refine ⟨?_, ?_, ?_⟩ <;> simp only [String.append_assoc, specifier]

theorem code_master {mode : Mode} {opt : Bool} {p : Op} (hp : Clean p.name) :
    ∃ r, (masterText mode opt p).toList = '\n' :: r ∧ Text r [defAst mode (masterDef mode opt p)] := by
  have hdoc : Code 4 [tabs 1 ++ "\"\"\"Compute the " ++ showOp p ++ " amplitude.\"\"\""] [.doc] := by
    refine code_doc (w := ("Compute the " ++ showOp p ++ " amplitude.").toList) ?_ ?_
    · have : Clean ("Compute the " ++ showOp p ++ " amplitude.") := Clean.append (Clean.append ⟨by decide, by decide⟩ (clean_showOp hp)) ⟨by decide, by decide⟩
      exact this.1
    · simp [String.toList_append]
  have hconf : Code 4 ((confirms p).map fun c => tabs 1 ++ "truncation.confirm_at_least_" ++ c ++ "()")
      ((confirms p).map fun c => .expr (.call (.attr (nameExpr "truncation") ("confirm_at_least_" ++ c).toList) [])) :=
    Code.map fun c hc => code_confirm (confirms_word p c hc)
  have hcom1 : Code 4 [tabs 1 ++ "# the residual tensor"] [] := ⟨[], rfl, Block.nil 4⟩
  have hpaths : Code 4 (if opt then [tabs 1 ++ "# unpack the optimized paths", tabs 1 ++ "optimized_HZ_paths, optimized_eT_HZ_paths = opt_paths", ""] else []) (pathsAst opt) := by
    cases opt
    · exact Code.nil 4
    · exact (Code.lines (k := 4) (strs := [tabs 1 ++ "# unpack the optimized paths", tabs 1 ++ "optimized_HZ_paths, optimized_eT_HZ_paths = opt_paths"])
        (t := [.word "optimized_HZ_paths".toList, .sym ',', .word "optimized_eT_HZ_paths".toList, .sym '=', .word "opt_paths".toList]) rfl (flat_of rfl) rfl rfl).append (Code.blank 4)
  have hcom2 : Code 4 [tabs 1 ++ "# " ++ stepName mode ++ " the terms"] [] := by
    cases mode <;> exact ⟨[], rfl, Block.nil 4⟩
  have hc1 := code_call (mode := mode) (opt := opt) (fnName_word mode opt false p) (fnName_keyword mode opt false p) (Or.inl rfl)
  have hc2 := code_call (mode := mode) (opt := opt) (fnName_word mode opt true p) (fnName_keyword mode opt true p) (Or.inr rfl)
  have hret : Code 4 [tabs 1 ++ "return " ++ masterTensor mode] [.ret (some (nameExpr (masterTensor mode)))] := by
    cases mode
    · exact Code.lines (t := [.word "return".toList, .word "R".toList]) rfl (flat_of rfl) rfl rfl
    · exact Code.lines (t := [.word "return".toList, .word "dz".toList]) rfl (flat_of rfl) rfl rfl
  have hbody := hdoc.append (hconf.append ((hcom1.append ((code_zeros mode p.rank).append ((hpaths.append (hcom2.append (hc1.append (hc2.append (hret.append (Code.blank 4)))))).cons_blank))).cons_blank))
  have h := Code.defn (k := 0) (k' := 4) (by omega) (lex_def (masterName_word opt p) (master_lex mode opt)) (flat_master _ mode opt) (master_head mode opt _) hbody (by simp)
  refine ⟨_, ?_, Text.code (Code.cast h ?_)⟩
  rotate_left
  · rw [masterDef_names]
    simp only [defAst, List.zipWith_cons_cons, List.zipWith_nil_left, pathsAst, masterName, masterArgs, List.nil_append, List.append_nil, List.cons_append]
  · rw [masterText_eq, intercalate_blank, List.flatMap_cons]
    simp only [String.toList_empty, List.nil_append, List.cons_append]

/-! ## The file -/

/-- a title as a comment, with what follows it on the next line -/
theorem text_named {name : String} {w : Nat} (hn : Clean name) : Text ((namedLine name w).toList ++ ['\n']) [] := by
  have h : Clean (" " ++ String.ofList (List.replicate w '-') ++ " " ++ name ++ " " ++ String.ofList (List.replicate w '-') ++ " #") := by
    have hd : Clean (String.ofList (List.replicate w '-')) := by
      constructor <;>
      · rw [String.toList_ofList]
        intro h
        have := List.eq_of_mem_replicate h
        revert this; decide
    exact Clean.append (Clean.append (Clean.append (Clean.append (Clean.append (Clean.append ⟨by decide, by decide⟩ hd) ⟨by decide, by decide⟩) hn) ⟨by decide, by decide⟩) hd) ⟨by decide, by decide⟩
  have := Text.comment h.2
  refine Text.cast this ?_ rfl
  simp [namedLine, String.toList_append]

theorem text_spaced {name : String} {w s : Nat} (hn : Clean name) : Text (spacedNamedLine name w s).toList [] := by
  have hd : '\n' ∉ (" " ++ String.ofList (List.replicate s '-') ++ " #").toList := by
    have : Clean (" " ++ String.ofList (List.replicate s '-') ++ " #") := by
      refine Clean.append (Clean.append ⟨by decide, by decide⟩ ?_) ⟨by decide, by decide⟩
      constructor <;>
      · rw [String.toList_ofList]
        intro h
        have := List.eq_of_mem_replicate h
        revert this; decide
    exact this.2
  refine Text.cast ((Text.comment hd).append ((text_named (w := w) hn).append (Text.comment hd))) ?_ rfl
  simp [spacedNamedLine, String.toList_append]

/-- a projection operator with well-formed functions -/
structure GoodFns (f : Fns) : Prop where
  name : Clean f.omega.name
  zero : GoodPart f.ground.1
  t : GoodPart f.ground.2
  excited : ∀ x ∈ f.excited, GoodPart x.1 ∧ GoodPart x.2

theorem text_wrap_one {mode : Mode} {opt : Bool} {f : Fns} (h : GoodFns f) (b : Bool) :
    Text ((if b then spacedNamedLine ("RANK " ++ (if f.omega.rank < 10 then " " else "") ++ toString f.omega.rank ++ " FUNCTIONS") 28 75 ++ "\n" else "") ++
      "\n" ++ namedLine (showOp f.omega ++ " TERMS") 14 ++
      fnText mode opt false f.omega (f.ground.1.lines mode) (elseLines mode (f.excited.map Prod.fst)) ++
      fnText mode opt true f.omega (f.ground.2.lines mode) (elseLines mode (f.excited.map Prod.snd))).toList ((termsDefs mode opt f).map (defAst mode)) := by
  obtain ⟨r1, e1, t1⟩ := code_fn (mode := mode) (opt := opt) (eT := false) (p := f.omega) h.name (g := f.ground.1) (x := f.excited.map Prod.fst) h.zero (by
    intro q hq
    obtain ⟨x, hx, rfl⟩ := Option.map_eq_some_iff.1 hq
    exact (h.excited x hx).1)
  obtain ⟨r2, e2, t2⟩ := code_fn (mode := mode) (opt := opt) (eT := true) (p := f.omega) h.name (g := f.ground.2) (x := f.excited.map Prod.snd) h.t (by
    intro q hq
    obtain ⟨x, hx, rfl⟩ := Option.map_eq_some_iff.1 hq
    exact (h.excited x hx).2)
  have h0 : Text (if b then spacedNamedLine ("RANK " ++ (if f.omega.rank < 10 then " " else "") ++ toString f.omega.rank ++ " FUNCTIONS") 28 75 ++ "\n" else "").toList [] := by
    cases b
    · exact Text.nil
    · rw [if_pos rfl, String.toList_append]
      refine (text_spaced ?_).append text_blank
      refine Clean.append (Clean.append (Clean.append ⟨by decide, by decide⟩ ?_) (clean_nat _)) ⟨by decide, by decide⟩
      split <;> exact ⟨by decide, by decide⟩
  have hn : Clean (showOp f.omega ++ " TERMS") := Clean.append (clean_showOp h.name) ⟨by decide, by decide⟩
  have hall := h0.append (text_blank.append ((text_named (w := 14) hn).append (t1.append (text_blank.append t2))))
  refine Text.cast hall ?_ rfl
  simp only [String.toList_append, e1, e2, List.append_assoc]
  rfl

theorem toList_join (l : List String) : (String.join l).toList = l.flatMap String.toList := by
  induction l with
  | nil => rfl
  | cons a l ih => rw [String.join_cons, String.toList_append, ih]; rfl

theorem zip_flatMap {α β γ : Type} (g : α → List γ) : ∀ (l : List α) (m : List β), l.length = m.length → (l.zip m).flatMap (fun x => g x.1) = l.flatMap g
  | [], _, _ => rfl
  | a :: l, [], h => by simp at h
  | a :: l, b :: m, h => by simp [zip_flatMap g l m (by simpa using h)]

theorem length_previous (l : List Op) : (Zhz.previous l).length = l.length := by
  unfold Zhz.previous
  rcases List.eq_nil_or_concat l with rfl | ⟨l, b, rfl⟩
  · rfl
  · simp

theorem text_wrap {mode : Mode} {opt : Bool} {fs : List Fns} (h : ∀ f ∈ fs, GoodFns f) :
    Text (wrapText mode opt fs).toList ((fs.flatMap (termsDefs mode opt)).map (defAst mode)) := by
  unfold wrapText
  rw [toList_join, List.flatMap_map, List.map_flatMap, ← zip_flatMap (fun f => (termsDefs mode opt f).map (defAst mode)) fs (Zhz.previous (fs.map Fns.omega)) (by simp [length_previous])]
  refine Text.flatMap fun x hx => ?_
  have hf := h x.1 (List.of_mem_zip hx).1
  have := text_wrap_one (mode := mode) (opt := opt) hf (decide (x.1.omega.rank > x.2.rank))
  simp only [decide_eq_true_eq] at this
  refine Text.cast this ?_ rfl
  cases he : x.1.excited <;> simp only [he] <;> rfl

theorem text_masters {mode : Mode} {opt : Bool} {fs : List Fns} (h : ∀ f ∈ fs, GoodFns f) (hne : fs ≠ []) :
    ∃ r, (String.join (fs.map fun f => masterText mode opt f.omega)).toList = '\n' :: r ∧ Text r ((fs.map fun f => masterDef mode opt f.omega).map (defAst mode)) := by
  have hall : ∀ fs : List Fns, (∀ f ∈ fs, GoodFns f) → Text (String.join (fs.map fun f => masterText mode opt f.omega)).toList ((fs.map fun f => masterDef mode opt f.omega).map (defAst mode)) := by
    intro fs h
    rw [toList_join, List.flatMap_map, List.map_map, List.map_eq_flatMap]
    refine Text.flatMap fun f hf => ?_
    obtain ⟨r, e, t⟩ := code_master (mode := mode) (opt := opt) (h f hf).name
    rw [e]
    exact text_blank.append t
  match fs, hne with
  | f :: fs, _ =>
    obtain ⟨r, e, t⟩ := code_master (mode := mode) (opt := opt) (h f (by simp)).name
    refine ⟨r ++ (String.join (fs.map fun f => masterText mode opt f.omega)).toList, ?_, ?_⟩
    · rw [List.map_cons, String.join_cons, String.toList_append, e]
      rfl
    · exact t.append (hall fs fun g hg => h g (by simp [hg]))

/-- one half of the module -/
theorem text_part {mode : Mode} {opt : Bool} {fs : List Fns} (h : ∀ f ∈ fs, GoodFns f) (hne : fs ≠ []) :
    Text ("\n" ++ namedLine "INDIVIDUAL TERMS" 45 ++ "\n\n" ++ wrapText mode opt fs ++ "\n" ++ namedLine "RESIDUAL FUNCTIONS" 45 ++
      String.join (fs.map fun f => masterText mode opt f.omega)).toList
      ((fs.flatMap (termsDefs mode opt) ++ fs.map fun f => masterDef mode opt f.omega).map (defAst mode)) := by
  obtain ⟨r, e, t⟩ := text_masters (mode := mode) (opt := opt) h hne
  have hall := text_blank.append ((text_named (name := "INDIVIDUAL TERMS") (w := 45) ⟨by decide, by decide⟩).append (text_blank.append
    ((text_wrap (mode := mode) (opt := opt) h).append (text_blank.append ((text_named (name := "RESIDUAL FUNCTIONS") (w := 45) ⟨by decide, by decide⟩).append t)))))
  refine Text.cast hall ?_ ?_
  · simp only [String.toList_append, e, List.append_assoc]
    rfl
  · simp

/-- the statements `import` and `from` -/
def importAst : List Spec.Source.Stmt :=
  [.imp [.word "from".toList, .word "math".toList, .word "import".toList, .word "factorial".toList],
   .imp [.word "import".toList, .word "numpy".toList, .word "as".toList, .word "np".toList],
   .imp [.word "import".toList, .word "opt_einsum".toList, .word "as".toList, .word "oe".toList],
   .imp [.word "from".toList, .sym '.', .word "symmetrize".toList, .word "import".toList, .word "symmetrize_tensor".toList],
   .imp [.word "from".toList, .sym '.', .sym '.', .word "log_conf".toList, .word "import".toList, .word "log".toList]]

theorem text_imports : Text importStatements.toList importAst := by
  have h1 : Text "# system imports\nfrom math import factorial\n".toList [importAst[0]] :=
    Code.lines (k := 0) (strs := ["# system imports", "from math import factorial"]) rfl (flat_of rfl) rfl rfl
  have h2 : Text "\n# third party imports\nimport numpy as np\n".toList [importAst[1]] :=
    Code.lines (k := 0) (strs := ["", "# third party imports", "import numpy as np"]) rfl (flat_of rfl) rfl rfl
  have h3 : Text "import opt_einsum as oe\n".toList [importAst[2]] :=
    Code.lines (k := 0) (strs := ["import opt_einsum as oe"]) rfl (flat_of rfl) rfl rfl
  have h4 : Text "\n# local imports\nfrom .symmetrize import symmetrize_tensor\n".toList [importAst[3]] :=
    Code.lines (k := 0) (strs := ["", "# local imports", "from .symmetrize import symmetrize_tensor"]) rfl (flat_of rfl) rfl rfl
  have h5 : Text "from ..log_conf import log\n".toList [importAst[4]] :=
    Code.lines (k := 0) (strs := ["from ..log_conf import log"]) rfl (flat_of rfl) rfl rfl
  exact Text.cast (h1.append (h2.append (h3.append (h4.append (h5.append text_blank))))) rfl rfl

/-- The text of the file is the imports and the definitions. -/
theorem file_fileText {mode : Mode} {m : Module} (hd : ∀ f ∈ m.default, GoodFns f) (ho : ∀ f ∈ m.optimised, GoodFns f) (hd' : m.default ≠ []) (ho' : m.optimised ≠ []) :
    Spec.Source.file (fileText mode m).toList = some (importAst ++ (moduleDefs mode m).map (defAst mode)) := by
  refine Text.file ?_
  have hall := text_imports.append ((text_spaced (name := "DEFAULT FUNCTIONS") (w := 45) (s := 109) ⟨by decide, by decide⟩).append ((text_part (mode := mode) (opt := false) hd hd').append
    ((text_spaced (name := "OPTIMIZED FUNCTIONS") (w := 44) (s := 109) ⟨by decide, by decide⟩).append ((text_part (mode := mode) (opt := true) ho ho').append
      (text_blank.append (text_named (name := "OPTIMIZED PATHS FUNCTION") (w := 45) ⟨by decide, by decide⟩))))))
  refine Text.cast hall ?_ ?_
  · simp only [fileText, Module.render, String.toList_append, List.append_assoc]
    rfl
  · simp [moduleDefs]

end TF.ETPy
