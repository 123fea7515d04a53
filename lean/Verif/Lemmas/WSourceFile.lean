import Verif.Lemmas.WSourceFn

/-!
# The text of the generated W module, read as Python: the file
-/

namespace TF.W

set_option maxRecDepth 10000

open TF.Py TF.Helper TF.Spec TF.Spec.Source
open TF.Spec.PyRun (zerosAt)
open TF.CC (tabs)

/-! ## Products -/

/-- the text of the letters -/
def subsText (subs : List (List Char)) (out : List Char) : List Char := (", ".intercalate (subs.map String.ofList)).toList ++ ("->".toList ++ out)

/-- words separated by commas -/
def moreToks (ts : List Nat) : List Tok := ts.flatMap fun n => .sym ',' :: [.word (tString n).toList]

theorem flat_more (ts : List Nat) : Flat (moreToks ts) := Flat.flatMap fun _ _ => flat_of rfl

def einsumExpr (e : Einsum) : Expr := .call (.attr (nameExpr "np") "einsum".toList) (.str (subsText e.subs e.out) :: e.ts.map fun n => nameExpr (tString n))

def einsumToks (e : Einsum) : List Tok :=
  .word "np".toList :: .sym '.' :: .word "einsum".toList :: .sym '(' :: ((.str (subsText e.subs e.out) :: moreToks e.ts) ++ [.sym ')'])

theorem einsum_atom (e : Einsum) : Atom (einsumToks e) (einsumExpr e) := by
  have h1 := (Atom.str (subsText e.subs e.out)).item.args.snocs e.ts (fun n => [.word (tString n).toList]) (fun n => nameExpr (tString n)) fun n _ => (Atom.word (tString n).toList).item
  exact ((Atom.word "np".toList).attr "einsum".toList).call h1

theorem flat_einsum (e : Einsum) : Flat (einsumToks e) :=
  Flat.append (a := [.word "np".toList, .sym '.', .word "einsum".toList, .sym '(', .str (subsText e.subs e.out)]) (flat_of rfl) (Flat.append (flat_more e.ts) (flat_of rfl))

/-- the einsum can be read -/
structure GoodEinsum (subs : List (List Char)) (out : List Char) : Prop where
  subs : ∀ s ∈ subs, ∀ c ∈ s, isWord c = true
  out : ∀ c ∈ out, isWord c = true

theorem subs_clean {subs : List (List Char)} {out : List Char} (h : GoodEinsum subs out) {x : Char} (hx : isWord x = false) (h' : x ∉ [',', ' ', '-', '>']) :
    x ∉ subsText subs out := by
  have h3 : x ≠ ',' ∧ x ≠ ' ' ∧ x ≠ '-' ∧ x ≠ '>' := by simpa using h'
  unfold subsText
  rw [String.toList_intercalate]
  intro hm
  rcases List.mem_append.1 hm with hm | hm
  · rcases mem_intercalate' hm with hm | ⟨a, ha, hm⟩
    · rcases (by simpa using hm : x = ',' ∨ x = ' ') with rfl | rfl
      · exact h3.1 rfl
      · exact h3.2.1 rfl
    · simp only [List.map_map, List.mem_map, Function.comp_apply, String.toList_ofList] at ha
      obtain ⟨s, hs, rfl⟩ := ha
      exact isWord_ne (h.subs s hs x hm) hx rfl
  · rcases List.mem_append.1 hm with hm | hm
    · rcases (by simpa using hm : x = '-' ∨ x = '>') with rfl | rfl
      · exact h3.2.2.1 rfl
      · exact h3.2.2.2 rfl
    · exact isWord_ne (h.out x hm) hx rfl

theorem lex_names (d : Nat) (n : Nat) (ts : List Nat) : Lex ⟨d + 1, .plain⟩ ((", ".intercalate ((n :: ts).map tString)).toList ++ [')']) (.word (tString n).toList :: (moreToks ts ++ [.sym ')'])) ⟨d, .plain⟩ := by
  induction ts generalizing n with
  | nil =>
    have h : Lex ⟨d + 1, .word (tString n).toList⟩ [')'] [.word (tString n).toList, .sym ')'] ⟨d, .plain⟩ := rfl
    simpa [moreToks, String.intercalate_singleton] using lex_word_then (tString_word n) h
  | cons m ts ih =>
    have h : Lex ⟨d + 1, .word (tString n).toList⟩ ", ".toList [.word (tString n).toList, .sym ','] ⟨d + 1, .plain⟩ := rfl
    have := (lex_word_then (tString_word n) h).append (ih m)
    refine this.cast ?_ ?_
    · simp [String.toList_append, String.intercalate_cons_cons]
    · simp [moreToks]

theorem lex_subs {subs : List (List Char)} {out : List Char} (h : GoodEinsum subs out) (d : Nat) {l : List Char} {t : List Tok} {s : St}
    (h' : Lex ⟨d, .plain⟩ l t s) : Lex ⟨d, .quote '\'' []⟩ (subsText subs out ++ ("', ".toList ++ l)) (.str (subsText subs out) :: .sym ',' :: t) s := by
  have h2 := lex_quote (subsText subs out) [] '\'' d (subs_clean h rfl (by decide)) (subs_clean h rfl (by decide))
  have h3 : ∀ w, Lex ⟨d, .quote '\'' w⟩ "', ".toList [.str w, .sym ','] ⟨d, .plain⟩ := fun _ => rfl
  exact (h2.append ((h3 _).append h')).cast rfl (by simp)

theorem lex_einsum {e : Einsum} (h : GoodEinsum e.subs e.out) (hne : e.ts ≠ []) (d : Nat) : Lex ⟨d, .plain⟩ e.render.toList (einsumToks e) ⟨d, .plain⟩ := by
  obtain ⟨n, ts, hts⟩ := List.exists_cons_of_ne_nil hne
  have h1 : Lex ⟨d, .plain⟩ "np.einsum('".toList [.word "np".toList, .sym '.', .word "einsum".toList, .sym '('] ⟨d + 1, .quote '\'' []⟩ := rfl
  refine (h1.append (lex_subs h (d + 1) (lex_names d n ts))).cast ?_ ?_
  · unfold Einsum.render subsText
    rw [hts]
    simp only [String.toList_append, String.toList_ofList, List.append_assoc]
    rfl
  · unfold einsumToks
    rw [hts]
    simp [moreToks]

def einsumReading : Reading Einsum := ⟨Einsum.render, einsumToks, einsumExpr, einsum_atom, flat_einsum⟩

def nextExpr : Expr := .call (nameExpr "next") [nameExpr "optimized_einsum"]

def callExpr (c : Call) : Expr :=
  match c.ts with
  | [] => nextExpr
  | n :: ts => .call nextExpr (nameExpr (tString n) :: ts.map fun n => nameExpr (tString n))

def nextToks : List Tok := [.word "next".toList, .sym '(', .word "optimized_einsum".toList, .sym ')']

def callToks (c : Call) : List Tok :=
  nextToks ++ match c.ts with
  | [] => []
  | n :: ts => .sym '(' :: ((.word (tString n).toList :: moreToks ts) ++ [.sym ')'])

theorem next_atom : Atom nextToks nextExpr := (Atom.word "next".toList).call (Atom.word "optimized_einsum".toList).item.args

theorem call_atom (c : Call) : Atom (callToks c) (callExpr c) := by
  unfold callToks callExpr
  cases c.ts with
  | nil => simpa using next_atom
  | cons n ts =>
    have h1 := (Atom.word (tString n).toList).item.args.snocs ts (fun n => [.word (tString n).toList]) (fun n => nameExpr (tString n)) fun n _ => (Atom.word (tString n).toList).item
    exact next_atom.call h1

theorem flat_call (c : Call) : Flat (callToks c) := by
  unfold callToks
  cases c.ts with
  | nil => exact flat_of rfl
  | cons n ts => exact Flat.append (flat_of rfl) (Flat.append (a := [.sym '(', .word (tString n).toList]) (flat_of rfl) (Flat.append (flat_more ts) (flat_of rfl)))

theorem lex_call {c : Call} (hne : c.ts ≠ []) (d : Nat) : Lex ⟨d, .plain⟩ c.render.toList (callToks c) ⟨d, .plain⟩ := by
  obtain ⟨n, ts, hts⟩ := List.exists_cons_of_ne_nil hne
  have h1 : Lex ⟨d, .plain⟩ "next(optimized_einsum)(".toList (nextToks ++ [.sym '(']) ⟨d + 1, .plain⟩ := rfl
  refine (h1.append (lex_names d n ts)).cast ?_ ?_
  · unfold Call.render
    rw [hts]
    simp only [String.toList_append, List.append_assoc]
    rfl
  · unfold callToks
    rw [hts]
    simp

def callReading : Reading Call := ⟨Call.render, callToks, callExpr, call_atom, flat_call⟩

/-! ## The contributions of the module -/

theorem modeTags_word : ∀ c ∈ modeTags, isWord c = true := by decide

theorem good_letters {k : Nat} (hk1 : 1 ≤ k) (hk6 : k ≤ 6) {p : List Nat} (hp : IsPartition k p) {c : List Nat} (hc : c.Perm p) : GoodEinsum (mkE k c).subs (mkE k c).out := by
  have h := mkE_multiplies hk1 hk6 hp hc
  have h1 : ∀ x ∈ (mkE k c).out, isWord x = true := by
    intro x hx
    have : x ∈ 'a' :: 'b' :: modeTags.take k := hx
    rcases List.mem_cons.1 this with rfl | hx
    · rfl
    · rcases List.mem_cons.1 hx with rfl | hx
      · rfl
      · exact modeTags_word x (List.mem_of_mem_take hx)
  refine ⟨fun s hs x hx => ?_, h1⟩
  have hs' : s ∈ List.zipWith (· ++ ·) (chainOf c.length) (pops (modeTags.take k) c) := hs
  obtain ⟨i, hi, rfl⟩ := List.getElem_of_mem hs'
  simp only [List.getElem_zipWith, List.mem_append] at hx
  rcases hx with hx | hx
  · have hm : ∀ y ∈ chainOf c.length, ∀ z ∈ y, isWord z = true := by
      intro y hy z hz
      unfold chainOf at hy
      have hs : ∀ z ∈ surfaceTags, isWord z = true := by decide
      obtain ⟨⟨u, v⟩, huv, rfl⟩ := List.mem_map.1 hy
      have hu := (List.of_mem_zip huv).1
      have hv := (List.of_mem_zip huv).2
      have hmid : ∀ z ∈ midOf c.length, isWord z = true := fun z hz => hs z (List.mem_of_mem_tail (List.mem_of_mem_take hz))
      simp only [List.mem_cons, List.not_mem_nil, or_false] at hz
      rcases hz with rfl | rfl
      · rcases List.mem_cons.1 hu with rfl | hu
        · rfl
        · exact hmid _ hu
      · rcases List.mem_append.1 hv with hv | hv
        · exact hmid _ hv
        · obtain rfl := List.mem_singleton.1 hv
          rfl
    exact hm _ (List.getElem_mem _) x hx
  · have e := pops_flatten (modeTags.take k) c (by
      rw [hc.sum_nat, hp.sum_eq, List.length_take, show modeTags.length = 8 from rfl]; omega)
    refine modeTags_word x (List.mem_of_mem_take (i := k) ?_)
    rw [← e]
    exact List.mem_flatten.2 ⟨_, List.getElem_mem _, hx⟩

theorem good_blk {ι : Type} (r : Reading ι) (f : List Nat → ι) {k : Nat} (hk1 : 1 ≤ k) (hk6 : k ≤ 6) {p : List Nat} (hp : IsPartition k p) (hne : p ≠ [k])
    (hf : ∀ c, c.Perm p → r.Good (f c)) : r.GoodBlock (blk f p) := by
  have hl : p.length ≠ 1 := fun h => hne ((length_one_iff hp).1 h)
  refine ⟨rfl, ?_, ?_, ?_, ?_⟩
  · show prefOf p ≠ []
    unfold prefOf
    split_ifs <;> simp_all
  · show (combinations p).map f ≠ []
    intro h
    have : p ∈ combinations p := mem_combinations.2 (List.Perm.refl p)
    rw [List.map_eq_nil_iff.1 h] at this
    simp at this
  · intro i hi
    obtain ⟨c, hc, rfl⟩ := List.mem_map.1 (show i ∈ (combinations p).map f from hi)
    exact hf c (mem_combinations.1 hc)
  · intro g hg
    have hg' : (if maxPart p ≥ 2 then some (maxPart p) else none) = some g := hg
    split_ifs at hg'
    cases hg'
    have hn := partitions_ne_nil hk1 hp
    have := part_le hp (maxPart_spec hn).1
    omega

theorem ne_of_perm {k : Nat} (hk1 : 1 ≤ k) {p c : List Nat} (hp : IsPartition k p) (hc : c.Perm p) : c ≠ [] := by
  rintro rfl
  exact partitions_ne_nil hk1 hp (List.nil_perm.1 hc)

theorem good_einsum {k : Nat} (hk1 : 1 ≤ k) (hk6 : k ≤ 6) {p : List Nat} (hp : IsPartition k p) (c : List Nat) (hc : c.Perm p) : einsumReading.Good (mkE k c) :=
  fun d => lex_einsum (good_letters hk1 hk6 hp hc) (ne_of_perm hk1 hp hc) d

theorem good_call {k : Nat} (hk1 : 1 ≤ k) {p : List Nat} (hp : IsPartition k p) (c : List Nat) (hc : c.Perm p) : callReading.Good (Call.mk c) :=
  fun d => lex_call (ne_of_perm hk1 hp hc) d

/-- the functions of the module -/
def vemxAt {ι : Type} (f : Nat → List Nat → ι) (k : Nat) : WContributions ι :=
  ⟨if k < 2 then [] else range2 1 k, if k < 2 then none else some ((linkedPartitions k).map (blk (f k)))⟩

def veccAt {ι : Type} (f : Nat → List Nat → ι) (k : Nat) : WContributions ι :=
  ⟨if k < 4 then [] else range2 1 (k - 1), if k < 4 then none else some ((unlinkedPartitions k).map (blk (f k)))⟩

theorem good_vemx {ι : Type} (r : Reading ι) (f : Nat → List Nat → ι) {k : Nat} (hk1 : 1 ≤ k) (hk6 : k ≤ 6)
    (hf : ∀ p, IsPartition k p → ∀ c, c.Perm p → r.Good (f k c)) : r.GoodContributions (vemxAt f k) := by
  intro bs hbs
  by_cases hk : k < 2
  · simp [vemxAt, hk] at hbs
  · simp only [vemxAt, if_neg hk, Option.some.injEq] at hbs ⊢
    subst hbs
    refine ⟨by simp [range2]; omega, fun b hb => ?_⟩
    obtain ⟨p, hp, rfl⟩ := List.mem_map.1 hb
    have := linked_mem hk1 p hp
    exact good_blk r (f k) hk1 hk6 this.1 this.2 (hf p this.1)

theorem good_vecc {ι : Type} (r : Reading ι) (f : Nat → List Nat → ι) {k : Nat} (hk1 : 1 ≤ k) (hk6 : k ≤ 6)
    (hf : ∀ p, IsPartition k p → ∀ c, c.Perm p → r.Good (f k c)) : r.GoodContributions (veccAt f k) := by
  intro bs hbs
  by_cases hk : k < 4
  · simp [veccAt, hk] at hbs
  · simp only [veccAt, if_neg hk, Option.some.injEq] at hbs ⊢
    subst hbs
    refine ⟨by simp [range2]; omega, fun b hb => ?_⟩
    obtain ⟨p, hp, rfl⟩ := List.mem_map.1 hb
    have := unlinked_mem hk1 p hp
    exact good_blk r (f k) hk1 hk6 this.1 this.2 (hf p this.1)

theorem zipIdx_map_range2 {α : Type} (g : Nat → α) (n : Nat) : ((range2 1 (n + 1)).map g).zipIdx 1 = (range2 1 (n + 1)).map fun k => (g k, k) := by
  unfold range2
  rw [show n + 1 - 1 = n by omega]
  refine List.ext_getElem (by simp) fun i h1 h2 => ?_
  simp
  omega

theorem code_numbered {α : Type} {f : Nat → α → List String} {g : Nat → α} {a : Nat → Spec.Source.Stmt} {n : Nat} (h : ∀ k, 1 ≤ k → k ≤ n → Code 0 (f k (g k)) [a k]) :
    Code 0 (numbered f ((range2 1 (n + 1)).map g)) ((range2 1 (n + 1)).map a) := by
  unfold numbered
  rw [zipIdx_map_range2, List.flatMap_map, List.map_eq_flatMap]
  refine Code.flatMap fun k hk => ?_
  simp only [range2, List.mem_map, List.mem_range] at hk
  obtain ⟨i, hi, rfl⟩ := hk
  exact h _ (by omega) (by omega)

/-! ## The functions that are called from outside -/

def flagExpr (i : Nat) : Expr := .attr (nameExpr "truncation") ((orderTags[i]?).getD "").toList

def smallName (k : Nat) : String := "w_" ++ toString k

def orderCallAst (opt : Bool) (k : Nat) : Spec.Source.Stmt :=
  .assign [(smallName k).toList] (.call (nameExpr (wFnName opt k)) ([nameExpr "A", nameExpr "N", nameExpr "t_args", nameExpr "ansatz", nameExpr "truncation"] ++
    if opt then [.index (nameExpr "vemx_optimized_paths") [natWord (k - 1)], .index (nameExpr "vecc_optimized_paths") [natWord (k - 1)]] else []))

def returnAst (k : Nat) : Spec.Source.Stmt :=
  .ret (some (.tuple (((List.range k).map fun i => nameExpr (smallName (i + 1))) ++ List.replicate (6 - k) (nameExpr "None"))))

def masterName (opt : Bool) : String := "compute_w_operators" ++ optSuffix opt

def masterParams (opt : Bool) : List String := ["A", "N", "t_args", "ansatz", "truncation"] ++ if opt then ["vemx_optimized_paths", "vecc_optimized_paths"] else []

def masterBody (opt : Bool) : List Spec.Source.Stmt :=
  [.doc, .cond (.not (flagExpr 1)) [.raise (.call (nameExpr "Exception")
      [.fmt "It appears that `singles` is not true, this cannot be.\\nSomething went terribly wrong!!!\\n\\n{truncation}\\n".toList])] [],
    orderCallAst opt 1, orderCallAst opt 2, orderCallAst opt 3,
    .cond (.not (flagExpr 2)) [returnAst 3] [orderCallAst opt 4], .cond (.not (flagExpr 3)) [returnAst 4] [orderCallAst opt 5],
    .cond (.not (flagExpr 4)) [returnAst 5] [orderCallAst opt 6],
    .cond (.not (flagExpr 5)) [returnAst 6] [.raise (.call (nameExpr "NotImplementedError")
      [.str "Attempting to calculate W^7 operator (quintuples)\\nThis is currently not implemented!!\\n".toList])]]

def masterAst (opt : Bool) : Spec.Source.Stmt := .defn (masterName opt).toList ((masterParams opt).map String.toList) (masterBody opt)

theorem code_master (opt : Bool) (n : Nat) : Code 0 ((master n).lines opt) [masterAst opt] := by
  change Code 0 ((master 0).lines opt) _
  cases opt <;> exact code_reads (by decide +kernel)

/-! ## The optimised paths -/

def pathExpr (p : Path) : Expr :=
  .call (.attr (nameExpr "oe") "contract_expression".toList)
    (.str (subsText p.subs p.out) :: p.shapes.map fun n => .tuple (nameExpr "A" :: nameExpr "A" :: List.replicate n (nameExpr "N")))

def shapeTupleToks (n : Nat) : List Tok := .sym '(' :: ((.word "A".toList :: .sym ',' :: shapeToks "A" n) ++ [.sym ')'])

theorem shapeTuple_atom (n : Nat) : Atom (shapeTupleToks n) (.tuple (nameExpr "A" :: nameExpr "A" :: List.replicate n (nameExpr "N"))) := by
  have h1 : Args (.word "A".toList :: .sym ',' :: shapeToks "A" n) (nameExpr "A" :: nameExpr "A" :: List.replicate n (nameExpr "N")) := by
    have := (((Atom.word "A".toList).item.args).snoc (Atom.word "A".toList).item).snocs (List.replicate n ()) (fun _ => [.word "N".toList]) (fun _ => nameExpr "N")
      fun _ _ => (Atom.word "N".toList).item
    simpa [shapeToks, nameExpr, List.map_replicate] using this
  exact h1.group

def pathToks (p : Path) : List Tok :=
  .word "oe".toList :: .sym '.' :: .word "contract_expression".toList :: .sym '(' ::
    ((.str (subsText p.subs p.out) :: p.shapes.flatMap fun n => .sym ',' :: shapeTupleToks n) ++ [.sym ')'])

theorem path_atom (p : Path) : Atom (pathToks p) (pathExpr p) := by
  have h1 := (Atom.str (subsText p.subs p.out)).item.args.snocs p.shapes shapeTupleToks (fun n => .tuple (nameExpr "A" :: nameExpr "A" :: List.replicate n (nameExpr "N")))
    fun n _ => (shapeTuple_atom n).item
  exact ((Atom.word "oe".toList).attr "contract_expression".toList).call h1

theorem flat_shapeTuple (n : Nat) : Flat (shapeTupleToks n) :=
  Flat.append (a := [.sym '(', .word "A".toList, .sym ',']) (flat_of rfl) (Flat.append (flat_shape "A" n) (flat_of rfl))

theorem flat_path (p : Path) : Flat (pathToks p) :=
  Flat.append (a := [.word "oe".toList, .sym '.', .word "contract_expression".toList, .sym '(', .str (subsText p.subs p.out)]) (flat_of rfl)
    (Flat.append (Flat.flatMap fun n _ => Flat.cons (by simp) (flat_shapeTuple n)) (flat_of rfl))

def shapeString (n : Nat) : String := "(" ++ ", ".intercalate ("A" :: "A" :: List.replicate n "N") ++ ")"

theorem lex_shapeTuple (n d : Nat) : Lex ⟨d, .plain⟩ (shapeString n).toList (shapeTupleToks n) ⟨d, .plain⟩ := by
  have h1 : Lex ⟨d, .plain⟩ "(A, ".toList [.sym '(', .word "A".toList, .sym ','] ⟨d + 1, .plain⟩ := rfl
  refine (h1.append (lex_shape d n "A" (word_lit (by decide)))).cast ?_ (by simp [shapeTupleToks])
  simp [shapeString, String.toList_append, String.intercalate_cons_cons]

theorem lex_path {p : Path} (h : GoodEinsum p.subs p.out) (hne : p.shapes ≠ []) :
    Lex ⟨2, .plain⟩ ((pathLine p).toList ++ ['\n']) (pathToks p ++ [.sym ',']) ⟨2, .plain⟩ := by
  obtain ⟨n, ns, hns⟩ := List.exists_cons_of_ne_nil hne
  have h1 : Lex ⟨2, .plain⟩ "oe.contract_expression('".toList [.word "oe".toList, .sym '.', .word "contract_expression".toList, .sym '('] ⟨3, .quote '\'' []⟩ := rfl
  have h2 := lex_commas 3 shapeString shapeTupleToks n ns fun x _ => lex_shapeTuple x 3
  have h3 : Lex ⟨3, .plain⟩ "),\n".toList [.sym ')', .sym ','] ⟨2, .plain⟩ := rfl
  refine ((lex_tabs_plain 3 2).append (h1.append (lex_subs h 3 (h2.append h3)))).cast ?_ ?_
  · unfold pathLine subsText
    rw [hns]
    simp only [String.toList_append, String.toList_ofList, List.append_assoc]
    rfl
  · unfold pathToks
    rw [hns]
    simp

theorem lex_paths : ∀ {ps : List Path}, (∀ p ∈ ps, GoodEinsum p.subs p.out ∧ p.shapes ≠ []) →
    Lex ⟨2, .plain⟩ ((ps.map pathLine).flatMap fun s => s.toList ++ ['\n']) (ps.flatMap fun p => pathToks p ++ [.sym ',']) ⟨2, .plain⟩
  | [], _ => Lex.nil _
  | p :: ps, h => ((lex_path (h p (by simp)).1 (h p (by simp)).2).append (lex_paths (ps := ps) fun q hq => h q (by simp [hq]))).cast (by simp) (by simp)

theorem paths_args : ∀ (p : Path) (ps : List Path), Args (pathToks p ++ ps.flatMap fun p => .sym ',' :: pathToks p) ((p :: ps).map pathExpr) := by
  intro p ps
  exact (path_atom p).item.args.snocs ps pathToks pathExpr fun p _ => (path_atom p).item

theorem commas_shift {α : Type} (f : α → List Tok) : ∀ (a : α) (l : List α), ((a :: l).flatMap fun x => f x ++ [.sym ',']) = (f a ++ l.flatMap fun x => .sym ',' :: f x) ++ [.sym ',']
  | a, [] => by simp
  | a, b :: l => by
    have := commas_shift f b l
    simp only [List.flatMap_cons] at this ⊢
    rw [List.append_assoc, this]
    simp

def listName (k : Nat) : String := "order_" ++ toString k ++ "_list"

theorem listName_word (k : Nat) : Word (listName k).toList := word_str (word_str (word_lit (by decide)) (nat_word k)) (word_lit (by decide))

theorem listName_keyword (k : Nat) : ∀ w ∈ keywords, (listName k).toList ≠ w.toList := by
  intro w hw e
  have : ∀ w ∈ keywords, w.toList.head? ≠ some 'o' := by decide
  refine this w hw ?_
  rw [← e]
  simp [listName, String.toList_append]

def extendAst (order : Nat) (ps : List Path) : Spec.Source.Stmt :=
  .expr (.call (.attr (nameExpr (listName order)) "extend".toList) [.list (ps.map pathExpr)])

def pathsBlockAst (order : Nat) (b : Nat × List Path) : Spec.Source.Stmt := .cond (Reading.gateExpr ((orderTags[b.1]?).getD "")) [extendAst order b.2] []

/-- the block can be read -/
structure GoodPaths (b : Nat × List Path) : Prop where
  gate : 1 ≤ b.1 ∧ b.1 ≤ 6
  ne : b.2 ≠ []
  paths : ∀ p ∈ b.2, GoodEinsum p.subs p.out ∧ p.shapes ≠ []

theorem path_noEq (p : Path) : Tok.sym '=' ∉ pathToks p := by
  unfold pathToks shapeTupleToks shapeToks
  simp

theorem code_extend (order : Nat) {ps : List Path} (hne : ps ≠ []) (h : ∀ p ∈ ps, GoodEinsum p.subs p.out ∧ p.shapes ≠ []) :
    Code 8 ((tabs 2 ++ "order_" ++ toString order ++ "_list.extend([") :: (ps.map pathLine ++ [tabs 2 ++ "])"])) [extendAst order ps] := by
  obtain ⟨p, ps, rfl⟩ := List.exists_cons_of_ne_nil hne
  refine Code.lines (t := .word (listName order).toList :: .sym '.' :: .word "extend".toList :: .sym '(' :: ((.sym '[' :: ((pathToks p ++ ps.flatMap fun p => .sym ',' :: pathToks p) ++ [.sym ',', .sym ']'])) ++ [.sym ')'])) ?_ ?_
    (head_expr (listName_keyword order) ?_ ?_) rfl
  · have h0 : Lex ⟨0, .start (4 * 2)⟩ "order_".toList [.line 8] ⟨0, .word "order_".toList⟩ := rfl
    have h1 := lex_word_more ((toString order).toList ++ "_list".toList) "order_".toList 0 (fun c hc => (listName_word order).2 c (by
      simp only [listName, String.toList_append, List.mem_append] at hc ⊢
      rcases hc with hc | hc
      · exact .inl (.inr hc)
      · exact .inr hc))
    have h2 : ∀ w, Lex ⟨0, .word ("order_".toList ++ w)⟩ ".extend([\n".toList [.word ("order_".toList ++ w), .sym '.', .word "extend".toList, .sym '(', .sym '['] ⟨2, .plain⟩ := fun _ => rfl
    have h3 := lex_paths h
    have h4 : Lex ⟨2, .plain⟩ "])\n".toList [.sym ']', .sym ')'] ⟨0, .start 0⟩ := rfl
    refine ((lex_tabs 2 0).append (h0.append (h1.append ((h2 _).append (h3.append ((lex_tabs_plain 2 2).append h4)))))).cast ?_ ?_
    · simp only [List.flatMap_cons, List.flatMap_nil, List.flatMap_append, String.toList_append, List.append_assoc, List.append_nil]
      rfl
    · rw [commas_shift]
      simp [listName, String.toList_append]
  · have hf : Flat (ps.flatMap fun p => .sym ',' :: pathToks p) := Flat.flatMap fun q _ => Flat.cons (by simp) (flat_path q)
    exact Flat.append (a := [.word (listName order).toList, .sym '.', .word "extend".toList, .sym '(', .sym '[']) (flat_of rfl)
      (Flat.append (Flat.append (Flat.append (flat_path p) hf) (flat_of rfl)) (flat_of rfl))
  · simp [path_noEq]
  · exact expr_item (((Atom.word (listName order).toList).attr "extend".toList).call (paths_args p ps).listComma.item.args).item (by simp)

theorem code_pathsBlock (order : Nat) {b : Nat × List Path} (h : GoodPaths b) : Code 4 (pathsBlock order b) [pathsBlockAst order b] := by
  have h1 := code_gate (tag_word' h.gate.1 h.gate.2) (k := 1) (code_extend order h.ne h.paths) (by simp)
  have := h1.append (Code.blank 4)
  simpa [pathsBlock, pathsBlockAst] using this

def pathsName (kind : Kind) : String := "compute_optimized_" ++ kind.name ++ "_paths"

def emptyLists (ks : List Nat) : Spec.Source.Stmt := .assign (ks.map fun k => (listName k).toList) (.tuple (ks.map fun _ => .list []))

def pathsStart : Kind → List Spec.Source.Stmt
  | .vemx => [.doc, emptyLists [2, 3], emptyLists [4, 5, 6]]
  | .vecc => [.doc, emptyLists [4, 5, 6]]

def guardAst : Option Nat → List Spec.Source.Stmt
  | none => []
  | some g => [.cond (.not (flagExpr g)) [.expr (.call (.attr (nameExpr "log") "warning".toList) [.str "Did not calculate optimized VECC paths of the dt amplitudes".toList]),
      .ret (some (.list (List.replicate 6 (.list []))))] []]

def pathsReturn (kind : Kind) (p : PathsFunction) : Spec.Source.Stmt :=
  .ret (some (.list (List.replicate kind.firstList (.list []) ++ (range2 kind.firstList p.lists.length).map fun i => nameExpr (listName (i + 1)))))

def pathsBody (kind : Kind) (p : PathsFunction) : List Spec.Source.Stmt :=
  pathsStart kind ++ guardAst p.guard ++ ((range2 kind.firstList p.lists.length).flatMap fun i => ((p.lists[i]?).getD []).map (pathsBlockAst (i + 1))) ++ [pathsReturn kind p]

def pathsAst (kind : Kind) (p : PathsFunction) : Spec.Source.Stmt := .defn (pathsName kind).toList (["A", "N", "truncation"].map String.toList) (pathsBody kind p)

/-! ### Returned lists -/

/-- an empty list or the list of an order -/
def itemString : Option Nat → String
  | none => "[]"
  | some k => listName k

def itemToks : Option Nat → List Tok
  | none => [.sym '[', .sym ']']
  | some k => [.word (listName k).toList]

def itemExpr : Option Nat → Expr
  | none => .list []
  | some k => nameExpr (listName k)

theorem item_atom (x : Option Nat) : Atom (itemToks x) (itemExpr x) := by
  cases x with
  | none => exact Atom.emptyList
  | some k => exact Atom.word _

theorem lex_item (x : Option Nat) (d : Nat) (c : Char) (l : List Char) (t : List Tok) (s : St) (hw : ∀ w, Lex ⟨d, .word w⟩ (c :: l) (.word w :: t) s) (hp : Lex ⟨d, .plain⟩ (c :: l) t s) :
    Lex ⟨d, .plain⟩ ((itemString x).toList ++ c :: l) (itemToks x ++ t) s := by
  cases x with
  | none =>
    have h : Lex ⟨d, .plain⟩ "[]".toList [.sym '[', .sym ']'] ⟨d, .plain⟩ := rfl
    exact h.append hp
  | some k => exact lex_word_then (listName_word k) (hw _)

theorem lex_items (d : Nat) (x : Option Nat) (xs : List (Option Nat)) :
    Lex ⟨d + 1, .plain⟩ ((", ".intercalate ((x :: xs).map itemString)).toList ++ [']']) ((itemToks x ++ xs.flatMap fun x => .sym ',' :: itemToks x) ++ [.sym ']']) ⟨d, .plain⟩ := by
  induction xs generalizing x with
  | nil =>
    have := lex_item x (d + 1) ']' [] [.sym ']'] ⟨d, .plain⟩ (fun _ => rfl) rfl
    simpa [String.intercalate_singleton] using this
  | cons y xs ih =>
    have h1 : ∀ w, Lex ⟨d + 1, .word w⟩ (',' :: [' ']) [.word w, .sym ','] ⟨d + 1, .plain⟩ := fun _ => rfl
    have h2 : Lex ⟨d + 1, .plain⟩ (',' :: [' ']) [.sym ','] ⟨d + 1, .plain⟩ := rfl
    have := (lex_item x (d + 1) ',' [' '] [.sym ','] ⟨d + 1, .plain⟩ h1 h2).append (ih y)
    refine this.cast ?_ (by simp)
    simp [String.toList_append, String.intercalate_cons_cons]

theorem head_return {t : Tok} {r : List Tok} {e : Expr} (h : expr (t :: r) = some e) : head (.word "return".toList :: t :: r) = some (.simple (.ret (some e))) := by
  have h1 : isWordTok "import" (.word "return".toList) = false := by decide
  have h2 : isWordTok "from" (.word "return".toList) = false := by decide
  have h3 : isWordTok "pass" (.word "return".toList) = false := by decide
  have h4 : isWordTok "return" (.word "return".toList) = true := by decide
  have h5 : Tok.word "return".toList ≠ .doc := by simp
  rw [head, if_neg h5, h1, h2, h3, h4, h]
  simp

/-- `return [x, y, ..]` -/
theorem code_returnList (x : Option Nat) (xs : List (Option Nat)) :
    Code 4 [tabs 1 ++ "return [" ++ ", ".intercalate ((x :: xs).map itemString) ++ "]"] [.ret (some (.list ((x :: xs).map itemExpr)))] := by
  have ha : Args (itemToks x ++ xs.flatMap fun x => .sym ',' :: itemToks x) ((x :: xs).map itemExpr) :=
    (item_atom x).item.args.snocs xs itemToks itemExpr fun y _ => (item_atom y).item
  refine Code.lines (t := .word "return".toList :: (.sym '[' :: ((itemToks x ++ xs.flatMap fun x => .sym ',' :: itemToks x) ++ [.sym ']']))) ?_ ?_ (head_return (expr_item ha.list.item (by simp))) rfl
  · have h1 : Lex ⟨0, .start (4 * 1)⟩ "return [".toList [.line 4, .word "return".toList, .sym '['] ⟨1, .plain⟩ := rfl
    have h2 : Lex ⟨0, .plain⟩ ['\n'] [] ⟨0, .start 0⟩ := rfl
    refine ((lex_tabs 1 0).append (h1.append ((lex_items 0 x xs).append h2))).cast ?_ (by simp)
    simp [String.toList_append]
  · have hf : ∀ x, Flat (itemToks x) := fun x => by cases x <;> exact flat_of rfl
    exact Flat.append (a := [.word "return".toList, .sym '[']) (flat_of rfl) (Flat.append (Flat.append (hf x) (Flat.flatMap fun y _ => Flat.cons (by simp) (hf y))) (flat_of rfl))

/-- the function can be read -/
structure GoodPathsFn (kind : Kind) (p : PathsFunction) : Prop where
  guard : p.guard = none ∨ p.guard = some 2
  lists : ∀ l ∈ p.lists, ∀ b ∈ l, GoodPaths b

theorem code_pathsReturn (kind : Kind) (p : PathsFunction) : Code 4 [tabs 1 ++ "return [" ++ ", ".intercalate (listNames kind p) ++ "]"] [pathsReturn kind p] := by
  obtain ⟨m, hm⟩ : ∃ m, kind.firstList = m + 1 := by cases kind <;> exact ⟨_, rfl⟩
  have := code_returnList none (List.replicate m none ++ (range2 kind.firstList p.lists.length).map fun i => some (i + 1))
  have e1 : listNames kind p = (none :: (List.replicate m none ++ (range2 kind.firstList p.lists.length).map fun i => some (i + 1))).map itemString := by
    unfold listNames
    rw [hm]
    simp [List.replicate_succ, List.map_replicate, itemString, listName, Function.comp_def]
  have e2 : pathsReturn kind p = .ret (some (.list ((none :: (List.replicate m none ++ (range2 kind.firstList p.lists.length).map fun i => some (i + 1))).map itemExpr))) := by
    unfold pathsReturn
    rw [hm]
    simp [List.replicate_succ, List.map_replicate, itemExpr, Function.comp_def]
  rw [e1, e2]
  exact this

theorem code_pathsHead {kind : Kind} {strs : List String} {ss : List Spec.Source.Stmt} (h : Code 4 strs ss) :
    Code 0 (pathsHead kind ++ strs) [.defn (pathsName kind).toList (["A", "N", "truncation"].map String.toList) (pathsStart kind ++ ss)] := by
  cases kind with
  | vemx =>
    have h1 : Code 4 ((pathsHead .vemx).drop 2) (pathsStart .vemx) := code_reads (by decide +kernel)
    exact Code.cons_blank (Code.defn (k := 0) (k' := 4) (by omega) (l := "def compute_optimized_vemx_paths(A, N, truncation):")
      (t := [.word "def".toList, .word "compute_optimized_vemx_paths".toList, .sym '(', .word "A".toList, .sym ',', .word "N".toList, .sym ',', .word "truncation".toList, .sym ')', .sym ':'])
      rfl (flat_of rfl) rfl (h1.append h) (by simp [pathsStart]))
  | vecc =>
    have h1 : Code 4 ((pathsHead .vecc).drop 2) (pathsStart .vecc) := code_reads (by decide +kernel)
    exact Code.cons_blank (Code.defn (k := 0) (k' := 4) (by omega) (l := "def compute_optimized_vecc_paths(A, N, truncation):")
      (t := [.word "def".toList, .word "compute_optimized_vecc_paths".toList, .sym '(', .word "A".toList, .sym ',', .word "N".toList, .sym ',', .word "truncation".toList, .sym ')', .sym ':'])
      rfl (flat_of rfl) rfl (h1.append h) (by simp [pathsStart]))

theorem code_guard {g : Option Nat} (h : g = none ∨ g = some 2) : Code 4 (guardLines g) (guardAst g) := by
  rcases h with rfl | rfl
  · exact Code.nil 4
  · exact code_reads (by decide +kernel)

theorem code_paths {kind : Kind} {p : PathsFunction} (h : GoodPathsFn kind p) : Code 0 (p.lines kind) [pathsAst kind p] := by
  have h1 : Code 4 ((range2 kind.firstList p.lists.length).flatMap fun i => ((p.lists[i]?).getD []).flatMap (pathsBlock (i + 1)))
      ((range2 kind.firstList p.lists.length).flatMap fun i => ((p.lists[i]?).getD []).map (pathsBlockAst (i + 1))) := by
    refine Code.flatMap fun i _ => ?_
    rw [List.map_eq_flatMap]
    refine Code.flatMap fun b hb => code_pathsBlock (i + 1) ?_
    cases hl : p.lists[i]? with
    | none => rw [hl] at hb; simp at hb
    | some l =>
      rw [hl] at hb
      exact h.lists l (List.mem_of_getElem? hl) b (by simpa using hb)
  have := code_pathsHead (kind := kind) ((code_guard h.guard).append (h1.append (code_pathsReturn kind p).cons_blank))
  simpa [PathsFunction.lines, pathsAst, pathsBody, List.append_assoc] using this

/-! ## The file -/

def importAst : List Spec.Source.Stmt :=
  [.imp [.word "from".toList, .word "math".toList, .word "import".toList, .word "factorial".toList],
   .imp [.word "import".toList, .word "numpy".toList, .word "as".toList, .word "np".toList],
   .imp [.word "import".toList, .word "opt_einsum".toList, .word "as".toList, .word "oe".toList],
   .imp [.word "from".toList, .sym '.', .word "symmetrize".toList, .word "import".toList, .word "symmetrize_tensor".toList],
   .imp [.word "from".toList, .sym '.', .sym '.', .word "log_conf".toList, .word "import".toList, .word "log".toList]]

theorem code_imports : Code 0 importLines importAst := code_reads (by decide +kernel)

theorem code_spacing : Code 0 [spacingLine] [] := by
  refine code_comment (n := 0) (w := ' ' :: (List.replicate 75 '-' ++ " #".toList)) ?_ (by simp)
  simp [spacingLine, tabs]

theorem code_named (name : String) (width : Nat) (h : '\n' ∉ name.toList) : Code 0 [namedLine name width] [] := by
  refine code_comment (n := 0) (w := ' ' :: (List.replicate width '-' ++ (' ' :: (name.toList ++ (' ' :: (List.replicate width '-' ++ " #".toList)))))) ?_ (by simp [h])
  simp [namedLine, String.toList_append, tabs]

/-- the paths functions of the module -/
def vemxPathsOf (n : Nat) : PathsFunction := (moduleOf n).vemxPaths

def veccPathsOf (n : Nat) : PathsFunction := (moduleOf n).veccPaths

theorem good_paths {k : Nat} (hk1 : 1 ≤ k) (hk6 : k ≤ 6) {p : List Nat} (hp : IsPartition k p) : GoodPaths (maxPart p, (combinations p).map (mkP k)) := by
  have hn := partitions_ne_nil hk1 hp
  have hm := part_le hp (maxPart_spec hn).1
  refine ⟨⟨hm.1, by omega⟩, ?_, ?_⟩
  · intro h
    have : p ∈ combinations p := mem_combinations.2 (List.Perm.refl p)
    rw [List.map_eq_nil_iff.1 h] at this
    simp at this
  · intro q hq
    obtain ⟨c, hc, rfl⟩ := List.mem_map.1 hq
    exact ⟨good_letters hk1 hk6 hp (mem_combinations.1 hc), ne_of_perm hk1 hp (mem_combinations.1 hc)⟩

theorem good_vemxPaths {n : Nat} (hn : n ≤ 6) : GoodPathsFn .vemx (vemxPathsOf n) := by
  refine ⟨.inl rfl, fun l hl b hb => ?_⟩
  have hl' : l ∈ [] :: (range2 2 (n + 1)).map fun k => (linkedPartitions k).map fun p => (maxPart p, (combinations p).map (mkP k)) := hl
  rcases List.mem_cons.1 hl' with rfl | hl'
  · simp at hb
  · obtain ⟨k, hk, rfl⟩ := List.mem_map.1 hl'
    obtain ⟨p, hp, rfl⟩ := List.mem_map.1 hb
    simp only [range2, List.mem_map, List.mem_range] at hk
    obtain ⟨i, hi, rfl⟩ := hk
    exact good_paths (by omega) (by omega) (linked_mem (by omega) p hp).1

theorem good_veccPaths {n : Nat} (hn : n ≤ 6) : GoodPathsFn .vecc (veccPathsOf n) := by
  refine ⟨.inr rfl, fun l hl b hb => ?_⟩
  have hl' : l ∈ [] :: [] :: [] :: (range2 4 (n + 1)).map fun k => (unlinkedPartitions k).map fun p => (maxPart p, (combinations p).map (mkP k)) := hl
  simp only [List.mem_cons] at hl'
  rcases hl' with rfl | rfl | rfl | hl'
  · simp at hb
  · simp at hb
  · simp at hb
  · obtain ⟨k, hk, rfl⟩ := List.mem_map.1 hl'
    obtain ⟨p, hp, rfl⟩ := List.mem_map.1 hb
    simp only [range2, List.mem_map, List.mem_range] at hk
    obtain ⟨i, hi, rfl⟩ := hk
    exact good_paths (by omega) (by omega) (unlinked_mem (by omega) p hp).1

/-- The statements of the module. -/
def moduleAst (n : Nat) : List Spec.Source.Stmt :=
  importAst ++ (range2 1 (n + 1)).map (fun k => contributionsAst einsumReading .vemx false k (vemxAt mkE k)) ++
  (range2 1 (n + 1)).map (fun k => contributionsAst einsumReading .vecc false k (veccAt mkE k)) ++ (range2 1 (n + 1)).map (wFnAst false) ++ [masterAst false] ++
  (range2 1 (n + 1)).map (fun k => contributionsAst callReading .vemx true k (vemxAt (fun _ => Call.mk) k)) ++
  (range2 1 (n + 1)).map (fun k => contributionsAst callReading .vecc true k (veccAt (fun _ => Call.mk) k)) ++ (range2 1 (n + 1)).map (wFnAst true) ++ [masterAst true] ++
  [pathsAst .vemx (vemxPathsOf n)] ++ [pathsAst .vecc (veccPathsOf n)]

theorem code_fns (opt : Bool) {n : Nat} (hn : n ≤ 6) : Code 0 (((range2 1 (n + 1)).map fnOf).flatMap (WFunction.lines opt)) ((range2 1 (n + 1)).map (wFnAst opt)) := by
  rw [List.flatMap_map, List.map_eq_flatMap]
  refine Code.flatMap fun k hk => ?_
  simp only [range2, List.mem_map, List.mem_range] at hk
  obtain ⟨i, hi, rfl⟩ := hk
  exact code_wFn opt (by omega) (by omega)

theorem code_module {n : Nat} (hn : n ≤ 6) : Code 0 (importLines ++ (moduleOf n).lines) (moduleAst n) := by
  have v1 : Code 0 (numbered (contributionLines Einsum.render .vemx false) (moduleOf n).vemx) _ :=
    code_numbered (g := vemxAt mkE) fun k h1 h2 => code_contributions einsumReading .vemx false k (good_vemx einsumReading mkE h1 (by omega) fun p hp c hc => good_einsum h1 (by omega) hp c hc)
  have v2 : Code 0 (numbered (contributionLines Einsum.render .vecc false) (moduleOf n).vecc) _ :=
    code_numbered (g := veccAt mkE) fun k h1 h2 => code_contributions einsumReading .vecc false k (good_vecc einsumReading mkE h1 (by omega) fun p hp c hc => good_einsum h1 (by omega) hp c hc)
  have v3 : Code 0 (numbered (contributionLines Call.render .vemx true) (moduleOf n).vemxOpt) _ :=
    code_numbered (g := vemxAt fun _ => Call.mk) fun k h1 h2 => code_contributions callReading .vemx true k (good_vemx callReading (fun _ => Call.mk) h1 (by omega) fun p hp c hc => good_call h1 hp c hc)
  have v4 : Code 0 (numbered (contributionLines Call.render .vecc true) (moduleOf n).veccOpt) _ :=
    code_numbered (g := veccAt fun _ => Call.mk) fun k h1 h2 => code_contributions callReading .vecc true k (good_vecc callReading (fun _ => Call.mk) h1 (by omega) fun p hp c hc => good_call h1 hp c hc)
  have f1 : Code 0 ((moduleOf n).fns.flatMap (WFunction.lines false)) _ := code_fns false hn
  have f2 : Code 0 ((moduleOf n).fnsOpt.flatMap (WFunction.lines true)) _ := code_fns true hn
  have m1 : Code 0 ((moduleOf n).master.lines false) _ := code_master false n
  have m2 : Code 0 ((moduleOf n).masterOpt.lines true) _ := code_master true n
  have p1 : Code 0 ((moduleOf n).vemxPaths.lines .vemx) _ := code_paths (good_vemxPaths hn)
  have p2 : Code 0 ((moduleOf n).veccPaths.lines .vecc) _ := code_paths (good_veccPaths hn)
  have s := code_spacing
  have b := Code.blank 0
  have n1 := code_named "DEFAULT FUNCTIONS" 28 (by decide)
  have n2 := code_named "VECI/CC CONTRIBUTIONS" 28 (by decide)
  have n3 := code_named "VECC CONTRIBUTIONS" 28 (by decide)
  have n4 := code_named "W OPERATOR FUNCTIONS" 28 (by decide)
  have n5 := code_named "OPTIMIZED FUNCTIONS" 27 (by decide)
  have n6 := code_named "OPTIMIZED PATHS FUNCTION" 28 (by decide)
  have h := code_imports.append (((((((((((((((s.append (n1.append (s.append (b.append n2)))).append v1).append (b.append n3)).append v2).append (b.append n4)).append f1).append m1).append
    (s.append (n5.append (s.append (b.append n2))))).append v3).append (b.append n3)).append v4).append (b.append n4)).append f2).append m2).append (b.append n6))
  have h2 := (((h.append p1).append b).append p2).append b
  refine (Code.cast (l := importLines ++ (moduleOf n).lines) ?_ rfl)
  have e : importLines ++ (moduleOf n).lines = _ := rfl
  simp only [List.append_assoc, List.nil_append, List.append_nil, List.cons_append, WModule.lines, moduleAst] at h2 ⊢
  exact h2

/-- The text of the file is the imports and the definitions. -/
theorem file_fileText {n : Nat} (hn : n ≤ 6) : ∃ text, fileText n = .ok text ∧ Spec.Source.file text = some (moduleAst n) := by
  refine ⟨_, by rw [fileText, wModule_eq n hn]; rfl, ?_⟩
  refine Text.file ?_
  simpa only [List.append_nil] using (Text.code (code_module hn)).append text_blank

end TF.W
