import Verif.Lemmas.WSourceFile
import Verif.Lemmas.Chars
import Verif.Lemmas.Dt
import Verif.Model.DtText

/-!
# The text of the generated module of the amplitude derivatives, read as Python: disconnected terms
-/

namespace TF.Dt

set_option maxRecDepth 10000

open TF.Py TF.Helper TF.W TF.Spec TF.Spec.Source
open TF.Spec.PyRun (zerosAt)
open TF.CC (tabs)

/-! ## Products -/

theorem operand_word (o : Operand) : Word o.render.toList := by
  unfold Operand.render
  cases o.der
  · simpa using tString_word o.n
  · exact word_str (word_lit (by decide)) (tString_word o.n)

/-- words separated by commas -/
def moreOps (ts : List Operand) : List Tok := ts.flatMap fun o => .sym ',' :: [.word o.render.toList]

theorem flat_moreOps (ts : List Operand) : Flat (moreOps ts) := Flat.flatMap fun _ _ => flat_of rfl

def dEinsumExpr (e : DEinsum) : Expr := .call (.attr (nameExpr "np") "einsum".toList) (.str (subsText e.subs e.out) :: e.ts.map fun o => nameExpr o.render)

def dEinsumToks (e : DEinsum) : List Tok :=
  .word "np".toList :: .sym '.' :: .word "einsum".toList :: .sym '(' :: ((.str (subsText e.subs e.out) :: moreOps e.ts) ++ [.sym ')'])

theorem dEinsum_atom (e : DEinsum) : Atom (dEinsumToks e) (dEinsumExpr e) := by
  have h1 := (Atom.str (subsText e.subs e.out)).item.args.snocs e.ts (fun o => [.word o.render.toList]) (fun o => nameExpr o.render) fun o _ => (Atom.word o.render.toList).item
  exact ((Atom.word "np".toList).attr "einsum".toList).call h1

theorem flat_dEinsum (e : DEinsum) : Flat (dEinsumToks e) :=
  Flat.append (a := [.word "np".toList, .sym '.', .word "einsum".toList, .sym '(', .str (subsText e.subs e.out)]) (flat_of rfl) (Flat.append (flat_moreOps e.ts) (flat_of rfl))

theorem lex_ops (d : Nat) (o : Operand) (ts : List Operand) :
    Lex ⟨d + 1, .plain⟩ ((", ".intercalate ((o :: ts).map Operand.render)).toList ++ [')']) (.word o.render.toList :: (moreOps ts ++ [.sym ')'])) ⟨d, .plain⟩ := by
  induction ts generalizing o with
  | nil =>
    have h : Lex ⟨d + 1, .word o.render.toList⟩ [')'] [.word o.render.toList, .sym ')'] ⟨d, .plain⟩ := rfl
    simpa [moreOps, String.intercalate_singleton] using lex_word_then (operand_word o) h
  | cons m ts ih =>
    have h : Lex ⟨d + 1, .word o.render.toList⟩ ", ".toList [.word o.render.toList, .sym ','] ⟨d + 1, .plain⟩ := rfl
    have := (lex_word_then (operand_word o) h).append (ih m)
    refine this.cast ?_ ?_
    · simp [String.toList_append, String.intercalate_cons_cons]
    · simp [moreOps]

theorem lex_dEinsum {e : DEinsum} (h : GoodEinsum e.subs e.out) (hne : e.ts ≠ []) (d : Nat) : Lex ⟨d, .plain⟩ e.render.toList (dEinsumToks e) ⟨d, .plain⟩ := by
  obtain ⟨n, ts, hts⟩ := List.exists_cons_of_ne_nil hne
  have h1 : Lex ⟨d, .plain⟩ "np.einsum('".toList [.word "np".toList, .sym '.', .word "einsum".toList, .sym '('] ⟨d + 1, .quote '\'' []⟩ := rfl
  refine (h1.append (lex_subs h (d + 1) (lex_ops d n ts))).cast ?_ ?_
  · unfold DEinsum.render subsText
    rw [hts]
    simp only [String.toList_append, String.toList_ofList, List.append_assoc]
    rfl
  · unfold dEinsumToks
    rw [hts]
    simp [moreOps]

def dEinsumReading : Reading DEinsum := ⟨DEinsum.render, dEinsumToks, dEinsumExpr, dEinsum_atom, flat_dEinsum⟩

def dCallExpr (c : DCall) : Expr :=
  match c.ts with
  | [] => nextExpr
  | o :: ts => .call nextExpr (nameExpr o.render :: ts.map fun o => nameExpr o.render)

def dCallToks (c : DCall) : List Tok :=
  nextToks ++ match c.ts with
  | [] => []
  | o :: ts => .sym '(' :: ((.word o.render.toList :: moreOps ts) ++ [.sym ')'])

theorem dCall_atom (c : DCall) : Atom (dCallToks c) (dCallExpr c) := by
  unfold dCallToks dCallExpr
  cases c.ts with
  | nil => simpa using next_atom
  | cons o ts =>
    have h1 := (Atom.word o.render.toList).item.args.snocs ts (fun o => [.word o.render.toList]) (fun o => nameExpr o.render) fun o _ => (Atom.word o.render.toList).item
    exact next_atom.call h1

theorem flat_dCall (c : DCall) : Flat (dCallToks c) := by
  unfold dCallToks
  cases c.ts with
  | nil => exact flat_of rfl
  | cons o ts => exact Flat.append (flat_of rfl) (Flat.append (a := [.sym '(', .word o.render.toList]) (flat_of rfl) (Flat.append (flat_moreOps ts) (flat_of rfl)))

theorem lex_dCall {c : DCall} (hne : c.ts ≠ []) (d : Nat) : Lex ⟨d, .plain⟩ c.render.toList (dCallToks c) ⟨d, .plain⟩ := by
  obtain ⟨n, ts, hts⟩ := List.exists_cons_of_ne_nil hne
  have h1 : Lex ⟨d, .plain⟩ "next(optimized_einsum)(".toList (nextToks ++ [.sym '(']) ⟨d + 1, .plain⟩ := rfl
  refine (h1.append (lex_ops d n ts)).cast ?_ ?_
  · unfold DCall.render
    rw [hts]
    simp only [String.toList_append, List.append_assoc]
    rfl
  · unfold dCallToks
    rw [hts]
    simp

def dCallReading : Reading DCall := ⟨DCall.render, dCallToks, dCallExpr, dCall_atom, flat_dCall⟩

/-! ## One partition -/

theorem side_word (side : Side) : Word side.array.toList := by cases side <;> exact word_lit (by decide)

theorem side_keyword (side : Side) : ∀ w ∈ keywords, side.array.toList ≠ w.toList := by cases side <;> decide

/-- the statement can be read -/
structure GoodDBlock {ι : Type} (r : Reading ι) (b : DBlock ι) : Prop where
  pref : b.pref ≠ []
  ne : b.items ≠ []
  items : ∀ i ∈ b.items, r.Good i

def dAddAst {ι : Type} (r : Reading ι) (side : Side) (b : DBlock ι) : Spec.Source.Stmt := .add side.array.toList (.prod (prefTerm b.pref (r.sumExpr b.items)))

theorem lex_sideStart (side : Side) {l : List Nat} (h : l ≠ []) :
    Lex ⟨0, .start 0⟩ (tabs 1 ++ (side.array ++ " += " ++ renderPref l ++ " * ")).toList
      (.line 4 :: .word side.array.toList :: .sym '+' :: .sym '=' :: (.word "1".toList :: .sym '/' :: (denomToks l ++ [.sym '*']))) ⟨0, .plain⟩ := by
  have h1 : Lex ⟨0, .start (4 * 1)⟩ (side.array ++ " += ").toList [.line 4, .word side.array.toList, .sym '+', .sym '='] ⟨0, .plain⟩ := by cases side <;> rfl
  refine ((lex_tabs 1 0).append (h1.append (lex_pref h 0))).cast ?_ ?_
  · simp [String.toList_append]
  · simp

theorem clean_tuple (p : List Nat) : '\n' ∉ (tupleString p).toList := by
  have h : '\n' ∉ (", ".intercalate (p.map toString)).toList := by
    rw [String.toList_intercalate]
    intro hm
    rcases mem_intercalate' hm with hm | ⟨a, ha, hm⟩
    · simp at hm
    · simp only [List.map_map, List.mem_map, Function.comp_apply] at ha
      obtain ⟨n, _, rfl⟩ := ha
      exact (clean_nat n).2 hm
  unfold tupleString
  split
  · rename_i n
    have := (clean_nat n).2
    simp [String.toList_append] at this ⊢
    exact this
  · simp only [String.toList_append, List.mem_append, not_or]
    exact ⟨⟨by decide, h⟩, by decide⟩

theorem code_dBlock {ι : Type} (r : Reading ι) (side : Side) (p : List Nat) {b : DBlock ι} (h : GoodDBlock r b) : Code 4 (b.lines r.text side.array p) [dAddAst r side b] := by
  obtain ⟨i, l, hi⟩ := List.exists_cons_of_ne_nil h.ne
  unfold DBlock.lines
  refine Code.append (a := [_]) (s := []) (code_comment (n := 1) (w := " the ".toList ++ ((tupleString p).toList ++ " term".toList)) (by simp [String.toList_append]) ?_) ?_
  · simp only [List.mem_append, not_or]
    exact ⟨by decide, clean_tuple p, by decide⟩
  refine Code.lines (t := .word side.array.toList :: .sym '+' :: .sym '=' ::
    ((.word "1".toList :: .sym '/' :: (denomToks b.pref ++ [.sym '*'])) ++ (.sym '(' :: (r.sumToks b.items ++ [.sym ')'])))) ?_ ?_
    (head_add (side_keyword side) (expr_item (pref_term h.pref (r.sum_atom h.ne)) (by simp))) rfl
  · have hs := lex_sideStart side h.pref
    unfold LexLines
    have h1 : Lex ⟨0, .plain⟩ "(\n".toList [.sym '('] ⟨1, .plain⟩ := rfl
    have h2 := r.lex_lines 1 i l fun x hx => h.items x (hi ▸ hx)
    have h3 : Lex ⟨1, .plain⟩ ")\n".toList [.sym ')'] ⟨0, .start 0⟩ := rfl
    refine (hs.append (h1.append (h2.append ((lex_tabs_plain 1 1).append h3)))).cast ?_ ?_
    · rw [hi]
      simp only [List.flatMap_append, List.flatMap_cons, List.flatMap_nil, String.toList_append, List.append_assoc, List.append_nil]
      rfl
    · rw [hi]; simp
  · exact Flat.cons (by simp) (Flat.cons (by simp) (Flat.cons (by simp) (Flat.append (Flat.cons (by simp) (Flat.cons (by simp) (Flat.append (flat_denom _) (flat_of rfl))))
      (Flat.cons (by simp) (Flat.append (r.flat_sum _) (flat_of rfl))))))

/-! ## The functions of disconnected terms -/

def sideParams (side : Side) (opt : Bool) : List String := ["A", "N", "trunc", "t_args", "dt_args"] ++ if opt then [side.paths] else []

def sideRaiseAst : Side → List Spec.Source.Stmt
  | .linked => [.doc, .raise (.call (nameExpr "Exception") [.str ("the first possible purely VECI/CC term is (1, 1) or (dt_i * t_i)" ++ "which requires a residual of at least 2nd order").toList])]
  | .unlinked => [.doc, .raise (.call (nameExpr "Exception") [.str ("the first possible purely VECC term is (2, 2) or (dt_ij * t_ij)" ++ "which requires a residual of at least 4th order").toList])]

def unpackDtAst (ns : List Nat) : Spec.Source.Stmt := .unpack (ns.map fun n => (dtString n).toList) "unusedargs".toList (nameExpr "dt_args")

def sideStart (side : Side) (opt : Bool) (k : Nat) : List Spec.Source.Stmt :=
  [.doc, unpackAst (range2 1 k), unpackDtAst (range2 1 k)] ++
    (if opt then [.assign ["optimized_einsum".toList] (.call (nameExpr "iter") [nameExpr side.paths])] else []) ++ [.assign [side.array.toList] (zerosAt (Residual.shapeAst k))]

def sideBody {ι : Type} (r : Reading ι) (side : Side) (opt : Bool) (order : Nat) (c : Disconnected ι) : List Spec.Source.Stmt :=
  match c.blocks with
  | none => sideRaiseAst side
  | some bs => sideStart side opt order ++ bs.map (dAddAst r side) ++ [.ret (some (nameExpr side.array))]

def sideAst {ι : Type} (r : Reading ι) (side : Side) (opt : Bool) (order : Nat) (c : Disconnected ι) : Spec.Source.Stmt :=
  .defn (sideName side opt order).toList ((sideParams side opt).map String.toList) (sideBody r side opt order c)

theorem sideName_word (side : Side) (opt : Bool) (order : Nat) : Word (sideName side opt order).toList := by
  have h1 : Word ("_order_" ++ toString order ++ "_" ++ side.name ++ "_disconnected_terms").toList :=
    word_str (word_str (word_str (word_str (word_lit (by decide)) (nat_word order)) (word_lit (by decide))) (by cases side <;> exact word_lit (by decide))) (word_lit (by decide))
  cases opt
  · simpa [sideName, optSuffix] using h1
  · exact word_str h1 (word_lit (by decide))

/-- the tokens after the name of a function -/
def sideToks (side : Side) (opt : Bool) : List Tok :=
  [.sym '(', .word "A".toList, .sym ',', .word "N".toList, .sym ',', .word "trunc".toList, .sym ',', .word "t_args".toList, .sym ',', .word "dt_args".toList] ++
    (if opt then [.sym ',', .word side.paths.toList] else []) ++ [.sym ')']

theorem lex_sideHead (side : Side) (opt : Bool) (order : Nat) :
    LexLines [sideHead side opt order] (.line 0 :: .word "def".toList :: .word (sideName side opt order).toList :: (sideToks side opt ++ [.sym ':'])) := by
  have h1 : Lex ⟨0, .start 0⟩ "def ".toList [.line 0, .word "def".toList] ⟨0, .plain⟩ := rfl
  have h2 : ∀ w, Lex ⟨0, .word w⟩ (("(A, N, trunc, t_args, dt_args" ++ (if opt then ", " ++ side.paths else "") ++ "):").toList ++ ['\n']) (.word w :: (sideToks side opt ++ [.sym ':'])) ⟨0, .start 0⟩ := by
    intro w
    cases side <;> cases opt <;> rfl
  unfold LexLines
  refine (h1.append (lex_word_then (sideName_word side opt order) (h2 _))).cast ?_ rfl
  unfold sideHead
  simp only [List.flatMap_cons, List.flatMap_nil, List.append_nil, String.toList_append, List.append_assoc]

theorem head_side (side : Side) (opt : Bool) (order : Nat) :
    head (.word "def".toList :: .word (sideName side opt order).toList :: (sideToks side opt ++ [.sym ':'])) = some (.defn (sideName side opt order).toList ((sideParams side opt).map String.toList)) := by
  cases opt <;> rfl

theorem flat_side (side : Side) (opt : Bool) (order : Nat) : Flat (.word "def".toList :: .word (sideName side opt order).toList :: (sideToks side opt ++ [.sym ':'])) := by
  cases opt <;> exact flat_of rfl

/-- the lines before the statements of the partitions -/
def sideStartLines (side : Side) (opt : Bool) (order : Nat) : List String :=
  sideDoc side opt ++ [tabs 1 ++ "# unpack the `t_args` and 'dt_args'", unpackLine (range2 1 order), unpackDtLine (range2 1 order)] ++
      (if opt then [tabs 1 ++ "# make an iterable out of the `" ++ side.paths ++ "`", tabs 1 ++ "optimized_einsum = iter(" ++ side.paths ++ ")"] else []) ++
      [tabs 1 ++ "# Creating the " ++ (numTags[order]?).getD "" ++ " order return array",
        tabs 1 ++ side.array ++ " = np.zeros((" ++ ", ".intercalate ("A" :: "A" :: List.replicate order "N") ++ "), dtype=complex)"]

theorem code_sideDoc (side : Side) (opt : Bool) : Code 4 (sideDoc side opt) [.doc] := by
  refine code_reads (reads_chars.trans ?_)
  cases side <;> cases opt <;>
  · dsimp only [sideDoc, tabs, Side.name]
    to_chars
    decide +kernel

theorem code_sideIter (side : Side) : Code 4 [tabs 1 ++ "# make an iterable out of the `" ++ side.paths ++ "`", tabs 1 ++ "optimized_einsum = iter(" ++ side.paths ++ ")"]
    [.assign ["optimized_einsum".toList] (.call (nameExpr "iter") [nameExpr side.paths])] := by
  refine code_reads (reads_chars.trans ?_)
  cases side <;>
  · dsimp only [Side.paths, tabs, nameExpr]
    to_chars
    decide +kernel

theorem reads_unpackDt : ((range2 2 7).all fun k => reads 4 [unpackDtLine (range2 1 k)] [unpackDtAst (range2 1 k)]) = true := by decide +kernel

theorem reads_sideZeros : ((range2 2 7).all fun k => [Side.linked, Side.unlinked].all fun side =>
    reads 4 [tabs 1 ++ "# Creating the " ++ (numTags[k]?).getD "" ++ " order return array",
      tabs 1 ++ side.array ++ " = np.zeros((" ++ ", ".intercalate ("A" :: "A" :: List.replicate k "N") ++ "), dtype=complex)"]
      [.assign [side.array.toList] (zerosAt (Residual.shapeAst k))]) = true := by decide +kernel

theorem code_sideStart (side : Side) (opt : Bool) {k : Nat} (h2 : 2 ≤ k) (h6 : k ≤ 6) : Code 4 (sideStartLines side opt k) (sideStart side opt k) := by
  have hm : k ∈ range2 2 7 := mem_range2.2 ⟨h2, by omega⟩
  have hne : range2 1 k ≠ [] := List.ne_nil_of_mem (mem_range2.2 ⟨le_refl 1, by omega⟩)
  have h1 : Code 4 [tabs 1 ++ "# unpack the `t_args` and 'dt_args'", unpackLine (range2 1 k), unpackDtLine (range2 1 k)] [unpackAst (range2 1 k), unpackDtAst (range2 1 k)] :=
    (Code.append (a := [_]) (s := []) (code_comment (n := 1) (w := " unpack the `t_args` and 'dt_args'".toList) (by simp [String.toList_append]) (by decide))
      (Code.append (a := [_]) (s := [_]) (code_unpack hne) (code_reads (List.all_eq_true.1 reads_unpackDt k hm))))
  have h3 := code_reads (List.all_eq_true.1 (List.all_eq_true.1 reads_sideZeros k hm) side (by cases side <;> simp))
  have h4 : Code 4 (if opt then [tabs 1 ++ "# make an iterable out of the `" ++ side.paths ++ "`", tabs 1 ++ "optimized_einsum = iter(" ++ side.paths ++ ")"] else [])
      (if opt then [.assign ["optimized_einsum".toList] (.call (nameExpr "iter") [nameExpr side.paths])] else []) := by
    cases opt
    · exact Code.nil 4
    · exact code_sideIter side
  exact (((code_sideDoc side opt).append h1).append h4).append h3

theorem code_sideEnd (side : Side) : Code 4 ["", tabs 1 ++ "return " ++ side.array] [.ret (some (nameExpr side.array))] := by
  cases side <;> exact code_reads (by decide +kernel)

theorem code_sideRaise (side : Side) : Code 4 (sideRaise side) (sideRaiseAst side) := by
  refine code_reads (reads_chars.trans ?_)
  cases side <;>
  · dsimp only [sideRaise, sideRaiseAst, tabs, nameExpr]
    to_chars
    decide +kernel

/-- the function of an order -/
def sideAt {ι : Type} (side : Side) (f : Nat → List Nat → List ι) (k : Nat) : Disconnected ι :=
  match side with
  | .linked => linkedAt f k
  | .unlinked => unlinkedAt f k

/-- the first order with disconnected terms -/
def Side.first : Side → Nat
  | .linked => 2
  | .unlinked => 4

theorem sideAt_eq {ι : Type} (side : Side) (f : Nat → List Nat → List ι) (k : Nat) :
    sideAt side f k = if k < side.first then ⟨[], none⟩ else ⟨range2 1 k, some ((side.partitions k).map (dblk (f k)))⟩ := by
  cases side
  · show linkedAt f k = if k < 2 then _ else _
    unfold linkedAt
    by_cases h : k < 2
    · rw [if_pos h, if_pos h, if_pos h]
    · rw [if_neg h, if_neg h, if_neg h]; rfl
  · show unlinkedAt f k = if k < 4 then _ else _
    unfold unlinkedAt
    by_cases h : k < 4
    · rw [if_pos h, if_pos h, if_pos h]
    · rw [if_neg h, if_neg h, if_neg h]; rfl

theorem side_mem {side : Side} {k : Nat} (h1 : 1 ≤ k) {p : List Nat} (hp : p ∈ side.partitions k) : IsPartition k p ∧ p ≠ [k] := by
  cases side
  · exact linked_mem h1 p hp
  · exact unlinked_mem h1 p hp

theorem good_dblk {ι : Type} (r : Reading ι) (f : List Nat → List ι) {k : Nat} {p : List Nat} (hp : IsPartition k p) (hne : p ≠ [k])
    (hf : ∀ c, c.Perm p → (f c ≠ []) ∧ ∀ i ∈ f c, r.Good i) : GoodDBlock r (dblk f p) := by
  have hl : p.length ≠ 1 := fun h => hne ((length_one_iff hp).1 h)
  refine ⟨?_, ?_, ?_⟩
  · show prefOf p ≠ []
    unfold prefOf
    split_ifs <;> simp_all
  · show (combinations p).flatMap f ≠ []
    intro h
    have : p ∈ combinations p := mem_combinations.2 (List.Perm.refl p)
    exact (hf p (List.Perm.refl p)).1 (List.flatMap_eq_nil_iff.1 h p this)
  · intro i hi
    obtain ⟨c, hc, hi⟩ := List.mem_flatMap.1 (show i ∈ (combinations p).flatMap f from hi)
    exact (hf c (mem_combinations.1 hc)).2 i hi

theorem code_side {ι : Type} (r : Reading ι) (side : Side) (opt : Bool) (f : Nat → List Nat → List ι) {k : Nat} (h1 : 1 ≤ k) (h6 : k ≤ 6)
    (hf : ∀ p, IsPartition k p → ∀ c, c.Perm p → (f k c ≠ []) ∧ ∀ i ∈ f k c, r.Good i) :
    Code 0 (Disconnected.lines r.text side opt k (sideAt side f k)) [sideAst r side opt k (sideAt side f k)] := by
  unfold Disconnected.lines sideAst sideBody
  rw [sideAt_eq]
  refine Code.cons_blank (Code.defn (k := 0) (k' := 4) (by omega) (lex_sideHead side opt k) (flat_side side opt k) (head_side side opt k) ?_ ?_)
  · by_cases hk : k < side.first
    · rw [if_pos hk]
      exact code_sideRaise side
    · rw [if_neg hk]
      have h2 : 2 ≤ k := by
        cases side <;> simp only [Side.first] at hk <;> omega
      have hb : Code 4 (((side.partitions k).zip ((side.partitions k).map (dblk (f k)))).flatMap fun x => DBlock.lines r.text side.array x.1 x.2)
          (((side.partitions k).map (dblk (f k))).map (dAddAst r side)) := by
        have e : (side.partitions k).zip ((side.partitions k).map (dblk (f k))) = (side.partitions k).map fun p => (p, dblk (f k) p) := by
          refine List.ext_getElem (by simp) fun i h1 h2 => by simp
        rw [e, List.flatMap_map, List.map_map, List.map_eq_flatMap]
        refine Code.flatMap fun p hp => ?_
        obtain ⟨h3, h4⟩ := side_mem h1 hp
        exact code_dBlock r side p (good_dblk r (f k) h3 h4 (hf p h3))
      have := ((code_sideStart side opt h2 h6).append hb).append (code_sideEnd side)
      exact this
  · by_cases hk : k < side.first
    · rw [if_pos hk]
      cases side <;> simp [sideRaiseAst]
    · rw [if_neg hk]
      show sideStart side opt k ++ _ ++ _ ≠ []
      rw [sideStart]
      exact List.cons_ne_nil _ _

theorem marks_ne {c : List Nat} (h : c ≠ []) : marks c ≠ [] := by
  cases c with
  | nil => exact absurd rfl h
  | cons a c => simp [marks]

theorem ts_ne {c : List Nat} (h : c ≠ []) {o : List Operand} (ho : o ∈ marks c) : o ≠ [] := by
  rintro rfl
  have := ((mem_marks c []).1 ho).1
  exact h this.symm

theorem good_mkDs {k : Nat} (hk1 : 1 ≤ k) (hk6 : k ≤ 6) (p : List Nat) (hp : IsPartition k p) (c : List Nat) (hc : c.Perm p) :
    mkDs k c ≠ [] ∧ ∀ i ∈ mkDs k c, dEinsumReading.Good i := by
  have hne := ne_of_perm hk1 hp hc
  refine ⟨by simpa [mkDs] using marks_ne hne, fun i hi d => ?_⟩
  obtain ⟨o, ho, rfl⟩ := List.mem_map.1 hi
  exact lex_dEinsum (good_letters hk1 hk6 hp hc) (ts_ne hne ho) d

theorem good_mkCs {k : Nat} (hk1 : 1 ≤ k) (p : List Nat) (hp : IsPartition k p) (c : List Nat) (hc : c.Perm p) :
    mkCs c ≠ [] ∧ ∀ i ∈ mkCs c, dCallReading.Good i := by
  have hne := ne_of_perm hk1 hp hc
  refine ⟨by simpa [mkCs] using marks_ne hne, fun i hi d => ?_⟩
  obtain ⟨o, ho, rfl⟩ := List.mem_map.1 hi
  exact lex_dCall (ts_ne hne ho) d

end TF.Dt
