import Verif.Lemmas.WSource

/-!
# The text of the generated W module, read as Python: the functions of an order
-/

namespace TF.W

set_option maxRecDepth 10000

open TF.Py TF.Helper TF.Spec.Source
open TF.Spec.PyRun (zerosAt)
open TF.CC (tabs)

/-! ## The W function of one order -/

def zeroW (k : Nat) : Spec.Source.Stmt := .assign [(wName k).toList] (zerosAt (Residual.shapeAst k))

theorem code_zeroW (r : Nat) : Code 4 [tabs 1 ++ "W_" ++ toString r ++ " = np.zeros((" ++ ", ".intercalate (Residual.shapeAst r) ++ "), dtype=complex)"] [zeroW r] := by
  refine Code.lines (t := .word (wName r).toList :: .sym '=' :: Residual.zerosAtToks r) ?_ ?_
    (head_assign (w := (wName r).toList) (wName_keyword r) (expr_item (Residual.zerosAt_item r) ?_)) rfl
  · have h0 : Lex ⟨0, .start (4 * 1)⟩ "W_".toList [.line 4] ⟨0, .word "W_".toList⟩ := rfl
    have h1 := lex_word_more (toString r).toList "W_".toList 0 (nat_word r).2
    have h1' : ∀ w, Lex ⟨0, .word w⟩ " = np.zeros((A, ".toList
        [.word w, .sym '=', .word "np".toList, .sym '.', .word "zeros".toList, .sym '(', .sym '(', .word "A".toList, .sym ','] ⟨2, .plain⟩ := fun _ => rfl
    have h2 := lex_shape 1 r "A" (word_lit (by decide))
    have h3 : Lex ⟨1, .plain⟩ ", dtype=complex)\n".toList [.sym ',', .word "dtype".toList, .sym '=', .word "complex".toList, .sym ')'] ⟨0, .start 0⟩ := rfl
    refine ((lex_tabs 1 0).append (h0.append (h1.append ((h1' _).append (h2.append h3))))).cast ?_ (by simp [Residual.zerosAtToks, wName, String.toList_append])
    simp [Residual.shapeAst, String.toList_append, String.intercalate_cons_cons]
  · have := flat_shape "A" r
    unfold Residual.zerosAtToks
    exact Flat.append (a := [.word (wName r).toList, .sym '=', .word "np".toList, .sym '.', .word "zeros".toList, .sym '(', .sym '(', .word "A".toList, .sym ',']) (flat_of rfl)
      (Flat.append this (flat_of rfl))
  · intro w x
    simp [zerosAt]

def callAst (kind : Kind) (opt : Bool) (k : Nat) : Spec.Source.Stmt :=
  .expr (.call (nameExpr (contributionsName kind opt k)) ([nameExpr (wName k), nameExpr "t_args", nameExpr "truncation"] ++
    if opt then [nameExpr (kind.name ++ "_opt_path_list")] else []))

theorem contributionsName_keyword (kind : Kind) (opt : Bool) (k : Nat) : ∀ w ∈ keywords, (contributionsName kind opt k).toList ≠ w.toList := by
  intro w hw e
  have : ∀ w ∈ keywords, w.toList.head? ≠ some '_' := by decide
  refine this w hw ?_
  rw [← e]
  simp [contributionsName, String.toList_append]

theorem code_call (kind : Kind) (opt : Bool) (k : Nat) : Code 8 [callLine kind opt k] [callAst kind opt k] := by
  refine Code.lines (t := .word (contributionsName kind opt k).toList :: contributionsToks opt k (kind.name ++ "_opt_path_list")) ?_ ?_
    (head_expr (contributionsName_keyword kind opt k) ?_ ?_) rfl
  · have h0 : Lex ⟨0, .start (4 * 2)⟩ "_".toList [.line 8] ⟨0, .word "_".toList⟩ := rfl
    have hw : ∀ c ∈ ("add_order_" ++ toString k ++ "_" ++ kind.name ++ "_contributions" ++ optSuffix opt).toList, isWord c = true := by
      intro c hc
      refine (contributionsName_word kind opt k).2 c ?_
      simp only [contributionsName, String.toList_append] at hc ⊢
      simp only [List.mem_append] at hc ⊢
      rcases hc with ((((hc | hc) | hc) | hc) | hc) | hc
      · left; left; left; left; left
        have : "_add_order_".toList = '_' :: "add_order_".toList := rfl
        rw [this]
        exact List.mem_cons_of_mem _ hc
      · exact .inl (.inl (.inl (.inl (.inr hc))))
      · exact .inl (.inl (.inl (.inr hc)))
      · exact .inl (.inl (.inr hc))
      · exact .inl (.inr hc)
      · exact .inr hc
    have h1 := lex_word_more _ "_".toList 0 hw
    have h2 : Lex ⟨0, .plain⟩ "\n".toList [] ⟨0, .start 0⟩ := rfl
    have h3 := lex_contributionsArgs opt k (x := kind.name ++ "_opt_path_list") (word_str (kind_word kind) (word_lit (by decide))) (w := (contributionsName kind opt k).toList) h2
    have e : "_".toList ++ ("add_order_" ++ toString k ++ "_" ++ kind.name ++ "_contributions" ++ optSuffix opt).toList = (contributionsName kind opt k).toList := by
      simp [contributionsName, String.toList_append]
    rw [e] at h1
    refine ((lex_tabs 2 0).append (h0.append (h1.append h3))).cast ?_ (by simp)
    cases opt <;> simp [callLine, String.toList_append]
  · cases opt <;> exact flat_of rfl
  · cases opt <;> simp [contributionsToks]
  · cases opt <;> rfl

/-- `if ansatz.VE_MIXED: .. elif ansatz.VECC: ..` -/
def ansatzAst (opt : Bool) (k : Nat) (cc : Bool) : Spec.Source.Stmt :=
  .cond (.attr (nameExpr "ansatz") "VE_MIXED".toList) [callAst .vemx opt k]
    [.cond (.attr (nameExpr "ansatz") "VECC".toList) [callAst .vemx opt k, if cc then callAst .vecc opt k else .pass] []]

theorem code_ansatz (opt : Bool) (k : Nat) (cc : Bool) :
    Code 4 ((tabs 1 ++ "if ansatz.VE_MIXED:") :: callLines opt k (true, false) false ++ (tabs 1 ++ "elif ansatz.VECC:") :: callLines opt k (true, cc) true) [ansatzAst opt k cc] := by
  refine Code.condThen (k := 4) (k' := 8) (by omega)
    (t := [.word "if".toList, .word "ansatz".toList, .sym '.', .word "VE_MIXED".toList, .sym ':']) rfl (flat_of rfl) rfl (code_call .vemx opt k) (by simp) ?_
  refine CodeElse.elif (k := 4) (k' := 8) (by omega) (u := [.word "elif".toList, .word "ansatz".toList, .sym '.', .word "VECC".toList, .sym ':']) rfl (flat_of rfl) rfl ?_ (by simp)
  cases cc
  · exact (code_call .vemx opt k).append (Code.lines (strs := [tabs 2 ++ "pass  # no VECC contributions for order < 4"]) (s := .pass) (t := [.word "pass".toList]) rfl (flat_of rfl) rfl rfl)
  · exact (code_call .vemx opt k).append (code_call .vecc opt k)

def wFnName (opt : Bool) (k : Nat) : String := "_calculate_order_" ++ toString k ++ "_w_operator" ++ optSuffix opt

def wParams (opt : Bool) : List String := ["A", "N", "t_args", "ansatz", "truncation"] ++ if opt then ["vemx_opt_path_list", "vecc_opt_path_list"] else []

def symAst (k : Nat) : Spec.Source.Stmt :=
  .assign ["symmetric_w".toList] (.call (nameExpr "symmetrize_tensor") [nameExpr "N", nameExpr (wName k), .kw "order".toList (natWord k)])

def wBody (opt : Bool) (k : Nat) : List Spec.Source.Stmt :=
  [.doc, unpackAst (range2 1 (k + 1)), zeroW k] ++
  if k = 1 then [.add (wName 1).toList (nameExpr (tString 1)), .ret (some (nameExpr (wName 1)))]
  else [.cond (Reading.gateExpr ((orderTags[k]?).getD "")) [.add (wName k).toList (.prod (prefTerm [k] (nameExpr (tString k))))] [], ansatzAst opt k (decide (4 ≤ k)), symAst k,
    .ret (some (nameExpr "symmetric_w"))]

def wFnAst (opt : Bool) (k : Nat) : Spec.Source.Stmt := .defn (wFnName opt k).toList ((wParams opt).map String.toList) (wBody opt k)

def wParamToks (opt : Bool) : List Tok :=
  [.sym '(', .word "A".toList, .sym ',', .word "N".toList, .sym ',', .word "t_args".toList, .sym ',', .word "ansatz".toList, .sym ',', .word "truncation".toList] ++
    (if opt then [.sym ',', .word "vemx_opt_path_list".toList, .sym ',', .word "vecc_opt_path_list".toList] else []) ++ [.sym ')', .sym ':']

theorem optSuffix_word (opt : Bool) : ∀ c ∈ (optSuffix opt).toList, isWord c = true := by cases opt <;> decide

theorem wFnName_word (opt : Bool) (k : Nat) : Word (wFnName opt k).toList := by
  unfold wFnName
  rw [String.toList_append]
  exact word_append (word_str (word_str (word_lit (by decide)) (nat_word k)) (word_lit (by decide))) (optSuffix_word opt)

theorem head_wFn (w : List Char) (opt : Bool) : head (.word "def".toList :: .word w :: wParamToks opt) = some (.defn w ((wParams opt).map String.toList)) := by
  cases opt <;> rfl

theorem flat_wFn (w : List Char) (opt : Bool) : Flat (.word "def".toList :: .word w :: wParamToks opt) := by
  cases opt <;> exact flat_of rfl

theorem code_wHead {opt : Bool} {k : Nat} {strs : List String} {ss : List Spec.Source.Stmt} (h : Code 4 strs ss) :
    Code 0 (wHead opt k ++ strs) [.defn (wFnName opt k).toList ((wParams opt).map String.toList) (.doc :: ss)] := by
  have h1 : Lex ⟨0, .start 0⟩ "def ".toList [.line 0, .word "def".toList] ⟨0, .plain⟩ := rfl
  have d0 : Lex ⟨0, .doc 0⟩ "Calculate the order ".toList [] ⟨0, .doc 0⟩ := rfl
  have d1 : Lex ⟨0, .doc 0⟩ (toString k).toList [] ⟨0, .doc 0⟩ := lex_doc _ 0 (clean_nat k).1
  cases opt
  · have h2 : ∀ w, Lex ⟨0, .word w⟩ "(A, N, t_args, ansatz, truncation):\n".toList (.word w :: wParamToks false) ⟨0, .start 0⟩ := fun _ => rfl
    have d2 : Lex ⟨0, .doc 0⟩ " W operator for use in the calculation of the residuals.".toList [] ⟨0, .doc 0⟩ := lex_doc _ 0 (by simp [String.toList_append])
    have hd : Code 4 [tabs 1 ++ "\"\"\"Calculate the order " ++ toString k ++ " W operator for use in the calculation of the residuals.\"\"\""] [.doc] :=
      code_docText (d0.append (d1.append d2)) (by simp [String.toList_append])
    refine Code.defn (k := 0) (k' := 4) (by omega) (t := .word "def".toList :: .word (wFnName false k).toList :: wParamToks false) ?_ (flat_wFn _ _) (head_wFn _ _) (hd.append h) (by simp)
    have h3 := h1.append (lex_word_then (wFnName_word false k) (h2 _))
    unfold LexLines
    refine h3.cast ?_ rfl
    unfold wFnName optSuffix
    simp [String.toList_append]
  · have h2 : ∀ w, Lex ⟨0, .word w⟩ "(A, N, t_args, ansatz, truncation, vemx_opt_path_list, vecc_opt_path_list):\n".toList (.word w :: wParamToks true) ⟨0, .start 0⟩ := fun _ => rfl
    have d2 : Lex ⟨0, .doc 0⟩ (" W operator for use in the calculation of the residuals.\n    " ++
      "Uses optimized summation paths generate using `contract_expression` from the `opt_einsum` library.\n    ").toList [] ⟨0, .doc 0⟩ := lex_doc _ 0 (by simp [String.toList_append])
    have hd : Code 4 [tabs 1 ++ "\"\"\"Calculate the order " ++ toString k ++ " W operator for use in the calculation of the residuals.",
        tabs 1 ++ "Uses optimized summation paths generate using `contract_expression` from the `opt_einsum` library.", tabs 1 ++ "\"\"\""] [.doc] :=
      code_docText (d0.append (d1.append d2)) (by simp [String.toList_append, toList_tabs, List.replicate_succ])
    refine Code.defn (k := 0) (k' := 4) (by omega) (t := .word "def".toList :: .word (wFnName true k).toList :: wParamToks true) ?_ (flat_wFn _ _) (head_wFn _ _) (hd.append h) (by simp)
    have h3 := h1.append (lex_word_then (wFnName_word true k) (h2 _))
    unfold LexLines
    refine h3.cast ?_ rfl
    unfold wFnName optSuffix
    simp [String.toList_append]

theorem code_veci (k : Nat) : Code 8 [tabs 2 ++ "W_" ++ toString k ++ " += " ++ renderPref [k] ++ " * " ++ tString k]
    [.add (wName k).toList (.prod (prefTerm [k] (nameExpr (tString k))))] := by
  refine Code.lines (t := .word (wName k).toList :: .sym '+' :: .sym '=' :: ((.word "1".toList :: .sym '/' :: (denomToks [k] ++ [.sym '*'])) ++ [.word (tString k).toList])) ?_ (flat_of rfl)
    (head_add (wName_keyword k) (expr_item (pref_term (by simp) (Atom.word (tString k).toList)) (by simp))) rfl
  have h1 := Reading.lex_start k 2 (l := [k]) (by simp)
  have h2 : Lex ⟨0, .word (tString k).toList⟩ "\n".toList [.word (tString k).toList] ⟨0, .start 0⟩ := rfl
  exact (h1.append (lex_word_then (tString_word k) h2)).cast (by simp [String.toList_append]) (by simp)

theorem code_sym (k : Nat) : Code 4 [tabs 1 ++ "symmetric_w = symmetrize_tensor(N, W_" ++ toString k ++ ", order=" ++ toString k ++ ")"] [symAst k] := by
  refine Code.lines (t := [.word "symmetric_w".toList, .sym '=', .word "symmetrize_tensor".toList, .sym '(', .word "N".toList, .sym ',', .word (wName k).toList, .sym ',',
    .word "order".toList, .sym '=', .word (toString k).toList, .sym ')']) ?_ (flat_of rfl) rfl rfl
  have h1 : Lex ⟨0, .start (4 * 1)⟩ "symmetric_w = symmetrize_tensor(N, ".toList
    [.line 4, .word "symmetric_w".toList, .sym '=', .word "symmetrize_tensor".toList, .sym '(', .word "N".toList, .sym ','] ⟨1, .plain⟩ := rfl
  have h2 : ∀ w, Lex ⟨1, .word w⟩ ", order=".toList [.word w, .sym ',', .word "order".toList, .sym '='] ⟨1, .plain⟩ := fun _ => rfl
  have h3 : ∀ w, Lex ⟨1, .word w⟩ ")\n".toList [.word w, .sym ')'] ⟨0, .start 0⟩ := fun _ => rfl
  exact ((lex_tabs 1 0).append (h1.append ((lex_word_then (wName_word k) (h2 _)).append (lex_word_then (nat_word k) (h3 _))))).cast
    (by simp [wName, String.toList_append]) (by simp)

theorem code_creating (k : Nat) : Code 4 [tabs 1 ++ "# Creating the " ++ (numTags[k]?).getD "" ++ " order W operator"] [] := by
  have hc : '\n' ∉ ((numTags[k]?).getD "").toList := by
    cases h : numTags[k]? with
    | none => decide
    | some y =>
      have : ∀ y ∈ numTags, '\n' ∉ y.toList := by decide
      exact this y (List.mem_of_getElem? h)
  refine code_comment (n := 1) (w := " Creating the ".toList ++ (((numTags[k]?).getD "").toList ++ " order W operator".toList)) (by simp [String.toList_append]) ?_
  simp [hc]

theorem code_note' {s : String} (w : String) (h : s = tabs 1 ++ "#" ++ w) (hw : '\n' ∉ w.toList) : Code 4 [s] [] :=
  code_comment (n := 1) (w := w.toList) (by rw [h]; simp [String.toList_append]) hw

theorem code_wFn (opt : Bool) {k : Nat} (h1 : 1 ≤ k) (h6 : k ≤ 6) : Code 0 ((fnOf k).lines opt) [wFnAst opt k] := by
  have hu : Code 4 [unpackLine (range2 1 (k + 1))] [unpackAst (range2 1 (k + 1))] := code_unpack (by simp [range2]; omega)
  have hstart := code_unpackNote.append (hu.append ((code_creating k).append (code_zeroW k)))
  by_cases hk : k = 1
  · subst hk
    have hs : Code 4 [tabs 1 ++ "# Singles contribution", tabs 1 ++ "W_" ++ toString 1 ++ " += " ++ tString 1, tabs 1 ++ "return W_" ++ toString 1]
        [.add (wName 1).toList (nameExpr (tString 1)), .ret (some (nameExpr (wName 1)))] := code_reads (by decide +kernel)
    have := Code.cons_blank (code_wHead (opt := opt) (k := 1) (hstart.append hs))
    have e : (fnOf 1) = ⟨1, range2 1 (1 + 1), none, [], 1, (false, false), (false, false), none⟩ := rfl
    have ea : wFnAst opt 1 = .defn (wFnName opt 1).toList ((wParams opt).map String.toList) (.doc :: unpackAst (range2 1 (1 + 1)) :: zeroW 1 ::
        [.add (wName 1).toList (nameExpr (tString 1)), .ret (some (nameExpr (wName 1)))]) := rfl
    rw [e, ea]
    simpa [WFunction.lines, Residual.shapeAst, List.append_assoc] using this
  · have hg : Code 4 [tabs 1 ++ "if truncation." ++ (orderTags[k]?).getD "" ++ ":", tabs 2 ++ "W_" ++ toString k ++ " += " ++ renderPref [k] ++ " * " ++ tString k]
        [.cond (Reading.gateExpr ((orderTags[k]?).getD "")) [.add (wName k).toList (.prod (prefTerm [k] (nameExpr (tString k))))] []] :=
      code_gate (tag_word' h1 h6) (k := 1) (code_veci k) (by simp)
    have hr : Code 4 [tabs 1 ++ "return symmetric_w"] [.ret (some (nameExpr "symmetric_w"))] :=
      Code.lines (t := [.word "return".toList, .word "symmetric_w".toList]) rfl (flat_of rfl) rfl rfl
    have hv : Code 4 [tabs 1 ++ "# add the VECI contribution"] [] := code_note' " add the VECI contribution" rfl (by decide)
    have hy : Code 4 [tabs 1 ++ "# Symmetrize the W operator"] [] := code_note' " Symmetrize the W operator" rfl (by decide)
    have := Code.cons_blank (code_wHead (opt := opt) (k := k) (hstart.append ((hv.append (hg.append ((code_ansatz opt k (decide (4 ≤ k))).append
      ((hy.append ((code_sym k).append hr)).cons_blank)))).cons_blank)))
    have e1 : prefOf [k] = [k] := by simp [prefOf, maxPart, hk]
    have e2 : (if k < 4 then false else true) = decide (4 ≤ k) := by by_cases h : k < 4 <;> simp [h] <;> omega
    have e : (fnOf k) = ⟨k, range2 1 (k + 1), some k, [k], k, (true, false), (true, decide (4 ≤ k)), some k⟩ := by rw [fnOf, if_neg hk, e1, e2]
    rw [e]
    have ea : wFnAst opt k = .defn (wFnName opt k).toList ((wParams opt).map String.toList) (.doc :: unpackAst (range2 1 (k + 1)) :: zeroW k ::
        [.cond (Reading.gateExpr ((orderTags[k]?).getD "")) [.add (wName k).toList (.prod (prefTerm [k] (nameExpr (tString k))))] [], ansatzAst opt k (decide (4 ≤ k)), symAst k,
        .ret (some (nameExpr "symmetric_w"))]) := by rw [wFnAst, wBody, if_neg hk]; rfl
    rw [ea]
    simpa [WFunction.lines, Residual.shapeAst, List.append_assoc] using this

end TF.W
