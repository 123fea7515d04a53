import Verif.Lemmas.SourceExpr
import Verif.Model.FullCC.Python
import Mathlib.Data.List.TakeWhile

/-!
# Lemmas about the reader of Python source: lines of code
-/

namespace TF.Spec.Source

open TF.CC (tabs)

/-! ## Tokens of pieces of text -/

theorem Lex.cast {s s' : St} {l l' : List Char} {t t' : List Tok} (h : Lex s l t s') (hl : l = l') (ht : t = t') : Lex s l' t' s' := by
  subst hl ht; exact h

theorem toList_tabs (k : Nat) : (tabs k).toList = List.replicate (4 * k) ' ' := by simp [tabs]

theorem lex_tabs (k d : Nat) : Lex ⟨d, .start 0⟩ (tabs k).toList [] ⟨d, .start (4 * k)⟩ := by
  rw [toList_tabs]
  simpa using lex_spaces (4 * k) 0 d

theorem lex_tabs_plain (k d : Nat) : Lex ⟨d, .plain⟩ (tabs k).toList [] ⟨d, .plain⟩ := by
  rw [toList_tabs]
  exact lex_spaces_plain _ _

theorem tabs_add (a b : Nat) : tabs (a + b) = tabs a ++ tabs b := by
  apply String.toList_injective
  rw [String.toList_append, toList_tabs, toList_tabs, toList_tabs, Nat.mul_add, List.replicate_add]

/-- items separated by commas -/
theorem lex_commas {α : Type} (d : Nat) (f : α → String) (t : α → List Tok) : ∀ (a : α) (l : List α),
    (∀ x ∈ a :: l, Lex ⟨d, .plain⟩ (f x).toList (t x) ⟨d, .plain⟩) →
    Lex ⟨d, .plain⟩ (", ".intercalate ((a :: l).map f)).toList (t a ++ l.flatMap fun x => .sym ',' :: t x) ⟨d, .plain⟩
  | a, [], h => by
    simpa [String.intercalate_singleton] using h a (by simp)
  | a, b :: l, h => by
    have ih := lex_commas d f t b l fun x hx => h x (by simp [List.mem_cons.1 hx])
    rw [List.map_cons, List.map_cons, String.intercalate_cons_cons, String.toList_append, String.toList_append, List.append_assoc]
    refine (h a (by simp)).append ?_
    have h2 : Lex ⟨d, .plain⟩ ", ".toList [.sym ','] ⟨d, .plain⟩ := rfl
    exact (h2.append ih).cast rfl (by simp)

/-- a word after a space or a bracket, before a character that ends it -/
theorem lex_word_then {w : List Char} (hw : Word w) {d : Nat} {l : List Char} {t : List Tok} {s : St} (h : Lex ⟨d, .word w⟩ l t s) :
    Lex ⟨d, .plain⟩ (w ++ l) t s := ((lex_word hw d).append h).cast rfl (by simp)

/-! ## Lines of code -/

/-- The lines are the statements, with indentation `k`. -/
def Code (k : Nat) (strs : List String) (ss : List Stmt) : Prop := ∃ ls, LexLines strs (flat ls) ∧ Block k ls ss

theorem Code.nil (k : Nat) : Code k [] [] := ⟨[], LexLines.nil, Block.nil k⟩

theorem Code.append {k : Nat} {a b : List String} {s t : List Stmt} (h : Code k a s) (h' : Code k b t) : Code k (a ++ b) (s ++ t) := by
  obtain ⟨l, h1, h2⟩ := h
  obtain ⟨l', h1', h2'⟩ := h'
  exact ⟨l ++ l', by rw [flat_append]; exact h1.append h1', h2.append h2'⟩

theorem Code.blank (k : Nat) : Code k [""] [] := ⟨[], LexLines.empty, Block.nil k⟩

theorem Code.cons_blank {k : Nat} {a : List String} {s : List Stmt} (h : Code k a s) : Code k ("" :: a) s := (Code.blank k).append h

theorem Code.flatMap {α : Type} {k : Nat} {l : List α} {f : α → List String} {g : α → List Stmt} (h : ∀ a ∈ l, Code k (f a) (g a)) :
    Code k (l.flatMap f) (l.flatMap g) := by
  induction l with
  | nil => exact Code.nil k
  | cons a l ih => exact (h a (by simp)).append (ih fun b hb => h b (by simp [hb]))

theorem Code.map {α : Type} {k : Nat} {l : List α} {f : α → String} {g : α → Stmt} (h : ∀ a ∈ l, Code k [f a] [g a]) :
    Code k (l.map f) (l.map g) := by
  have := Code.flatMap (k := k) (l := l) (f := fun a => [f a]) (g := fun a => [g a]) h
  rwa [← List.map_eq_flatMap, ← List.map_eq_flatMap] at this

theorem Code.lines {k : Nat} {strs : List String} {t : List Tok} {s : Stmt} (h : LexLines strs (.line k :: t)) (hf : Flat t)
    (hd : head t = some (.simple s)) (he : s.isElse = false) : Code k strs [s] :=
  ⟨[(k, t)], by simpa [flat] using h, Block.simple hf hd he⟩

theorem Code.cond {k k' : Nat} (hk : k < k') {l : String} {t : List Tok} {c : Expr} {strs : List String} {ss : List Stmt}
    (h : LexLines [l] (.line k :: t)) (hf : Flat t) (hd : head t = some (.cond c)) (hb : Code k' strs ss) (hne : ss ≠ []) :
    Code k (l :: strs) [.cond c ss []] := by
  obtain ⟨ls, h1, h2⟩ := hb
  exact ⟨(k, t) :: ls, (LexLines.cons h h1).cast rfl (by simp [flat]), Block.cond hk hf hd h2 hne⟩

theorem Code.condElse {k k' : Nat} (hk : k < k') {l l' : String} {t u : List Tok} {c : Expr} {strs strs' : List String} {ss ss' : List Stmt}
    (h : LexLines [l] (.line k :: t)) (hf : Flat t) (hd : head t = some (.cond c)) (h' : LexLines [l'] (.line k :: u)) (hf' : Flat u)
    (hd' : head u = some .orelse) (hb : Code k' strs ss) (hb' : Code k' strs' ss') (hne : ss ≠ []) (hne' : ss' ≠ []) :
    Code k (l :: strs ++ l' :: strs') [.cond c ss ss'] := by
  obtain ⟨ls, h1, h2⟩ := hb
  obtain ⟨ls', h1', h2'⟩ := hb'
  refine ⟨(k, t) :: ls ++ (k, u) :: ls', ?_, Block.condElse hk hf hf' hd hd' h2 h2' hne hne'⟩
  rw [flat_append]
  exact LexLines.append ((LexLines.cons h h1).cast rfl (by simp [flat])) ((LexLines.cons h' h1').cast rfl (by simp [flat]))

/-- The lines are an `else` or `elif` with indentation `k`. -/
def CodeElse (k : Nat) (strs : List String) (b : List Stmt) : Prop := ∃ ls, LexLines strs (flat ls) ∧ Else k ls b

theorem CodeElse.orelse {k k' : Nat} (hk : k < k') {l : String} {u : List Tok} {strs : List String} {ss : List Stmt}
    (h : LexLines [l] (.line k :: u)) (hf : Flat u) (hd : head u = some .orelse) (hb : Code k' strs ss) (hne : ss ≠ []) : CodeElse k (l :: strs) ss := by
  obtain ⟨ls, h1, h2⟩ := hb
  exact ⟨(k, u) :: ls, (LexLines.cons h h1).cast rfl (by simp [flat]), Else.orelse hk hf hd h2 hne⟩

theorem CodeElse.elif {k k' : Nat} (hk : k < k') {l : String} {u : List Tok} {c : Expr} {strs : List String} {ss : List Stmt}
    (h : LexLines [l] (.line k :: u)) (hf : Flat u) (hd : head u = some (.elif c)) (hb : Code k' strs ss) (hne : ss ≠ []) :
    CodeElse k (l :: strs) [.cond c ss []] := by
  obtain ⟨ls, h1, h2⟩ := hb
  exact ⟨(k, u) :: ls, (LexLines.cons h h1).cast rfl (by simp [flat]), Else.elif hk hf hd h2 hne⟩

theorem CodeElse.elifElse {k k' : Nat} (hk : k < k') {l : String} {u : List Tok} {c : Expr} {strs strs' : List String} {ss b : List Stmt}
    (h : LexLines [l] (.line k :: u)) (hf : Flat u) (hd : head u = some (.elif c)) (hb : Code k' strs ss) (hne : ss ≠ []) (he : CodeElse k strs' b) :
    CodeElse k (l :: strs ++ strs') [.cond c ss b] := by
  obtain ⟨ls, h1, h2⟩ := hb
  obtain ⟨ls', h1', h2'⟩ := he
  refine ⟨(k, u) :: ls ++ ls', ?_, Else.elifElse hk hf hd h2 hne h2'⟩
  rw [flat_append]
  exact LexLines.append ((LexLines.cons h h1).cast rfl (by simp [flat])) h1'

theorem Code.condThen {k k' : Nat} (hk : k < k') {l : String} {t : List Tok} {c : Expr} {strs strs' : List String} {ss b : List Stmt}
    (h : LexLines [l] (.line k :: t)) (hf : Flat t) (hd : head t = some (.cond c)) (hb : Code k' strs ss) (hne : ss ≠ []) (he : CodeElse k strs' b) :
    Code k (l :: strs ++ strs') [.cond c ss b] := by
  obtain ⟨ls, h1, h2⟩ := hb
  obtain ⟨ls', h1', h2'⟩ := he
  refine ⟨(k, t) :: ls ++ ls', ?_, Block.condThen hk hf hd h2 hne h2'⟩
  rw [flat_append]
  exact LexLines.append ((LexLines.cons h h1).cast rfl (by simp [flat])) h1'

theorem Code.defn {k k' : Nat} (hk : k < k') {l : String} {t : List Tok} {f : List Char} {ps : List (List Char)} {strs : List String} {ss : List Stmt}
    (h : LexLines [l] (.line k :: t)) (hf : Flat t) (hd : head t = some (.defn f ps)) (hb : Code k' strs ss) (hne : ss ≠ []) :
    Code k (l :: strs) [.defn f ps ss] := by
  obtain ⟨ls, h1, h2⟩ := hb
  exact ⟨(k, t) :: ls, (LexLines.cons h h1).cast rfl (by simp [flat]), Block.defn hk hf hd h2 hne⟩

/-- Repeated empty lines can be removed. -/
theorem Code.squeeze {f : List String → List String} (h0 : f [] = []) (h1 : ∀ a, f [a] = [a])
    (h2 : ∀ a b l, f (a :: b :: l) = if a = "" ∧ b = "" then f (b :: l) else a :: f (b :: l)) {k : Nat} {strs : List String} {ss : List Stmt}
    (h : Code k strs ss) : Code k (f strs) ss := by
  obtain ⟨ls, a, b⟩ := h
  refine ⟨ls, ?_, b⟩
  unfold LexLines Lex at *
  rw [run_squeeze f h0 h1 h2, a]

/-- An empty line at the beginning can be removed. -/
theorem Code.tail {k : Nat} {strs : List String} {ss : List Stmt} (h : Code k ("" :: strs) ss) : Code k strs ss := by
  obtain ⟨ls, a, b⟩ := h
  refine ⟨ls, ?_, b⟩
  unfold LexLines Lex at *
  rw [List.flatMap_cons, run_append] at a
  have e : run ⟨0, .start 0⟩ ("".toList ++ ['\n']) = ([], ⟨0, .start 0⟩) := rfl
  rw [e] at a
  exact a

/-- The text is the statements. -/
def Text (text : List Char) (ss : List Stmt) : Prop := ∃ ls, Lex ⟨0, .start 0⟩ text (flat ls) ⟨0, .start 0⟩ ∧ Block 0 ls ss

theorem Text.append {a b : List Char} {s t : List Stmt} (h : Text a s) (h' : Text b t) : Text (a ++ b) (s ++ t) := by
  obtain ⟨l, h1, h2⟩ := h
  obtain ⟨l', h1', h2'⟩ := h'
  exact ⟨l ++ l', by rw [flat_append]; exact h1.append h1', h2.append h2'⟩

theorem Text.nil : Text [] [] := ⟨[], Lex.nil _, Block.nil 0⟩

theorem Text.flatMap {α : Type} {l : List α} {f : α → List Char} {g : α → List Stmt} (h : ∀ a ∈ l, Text (f a) (g a)) :
    Text (l.flatMap f) (l.flatMap g) := by
  induction l with
  | nil => exact Text.nil
  | cons a l ih => exact (h a (by simp)).append (ih fun b hb => h b (by simp [hb]))

theorem Text.code {strs : List String} {ss : List Stmt} (h : Code 0 strs ss) : Text (strs.flatMap fun s => s.toList ++ ['\n']) ss := h

/-- a comment with its line -/
theorem Text.comment {w : List Char} (h : '\n' ∉ w) : Text ('#' :: w ++ ['\n']) [] := by
  refine ⟨[], ?_, Block.nil 0⟩
  have h1 : Lex ⟨0, .start 0⟩ ['#'] [] ⟨0, .comment⟩ := rfl
  have h2 : Lex ⟨0, .comment⟩ ['\n'] [] ⟨0, .start 0⟩ := rfl
  exact (h1.append ((lex_comment w 0 h).append h2)).cast (by simp) (by simp [flat])

theorem Text.file {text : List Char} {ss : List Stmt} (h : Text (text ++ ['\n']) ss) : Source.file text = some ss := by
  obtain ⟨ls, h1, h2⟩ := h
  exact file_eq h1 h2

/-! ## Heads -/

/-- the words that begin statements -/
def keywords : List String := ["import", "from", "pass", "return", "raise", "if", "else", "elif", "assert", "def"]

/-- A line that begins with a word that is no keyword. -/
theorem head_word {w : List Char} {r : List Tok} (h : ∀ k ∈ keywords, w ≠ k.toList) : head (.word w :: r) = plainHead (.word w :: r) := by
  have hk : ∀ k ∈ keywords, isWordTok k (.word w) = false := by
    intro k hk
    unfold isWordTok
    simpa using h k hk
  have a1 := hk "import" (by decide)
  have a2 := hk "from" (by decide)
  have a3 := hk "pass" (by decide)
  have a4 := hk "return" (by decide)
  have a5 := hk "raise" (by decide)
  have a6 := hk "if" (by decide)
  have a7 := hk "else" (by decide)
  have a8 := hk "def" (by decide)
  have a9 := hk "elif" (by decide)
  have a10 := hk "assert" (by decide)
  have a0 : ¬ (Tok.word w = .doc) := by simp
  conv_lhs => unfold head
  simp only [a0, a1, a2, a3, a4, a5, a6, a7, a8, a9, a10, if_false, Bool.false_eq_true, Bool.or_self]

theorem head_add {w : List Char} {r : List Tok} {e : Expr} (h : ∀ k ∈ keywords, w ≠ k.toList) (he : expr r = some e) :
    head (.word w :: .sym '+' :: .sym '=' :: r) = some (.simple (.add w e)) := by
  rw [head_word h]
  simp [he, plainHead]

theorem head_assign {w : List Char} {r : List Tok} {e : Expr} (h : ∀ k ∈ keywords, w ≠ k.toList) (he : expr r = some e) :
    head (.word w :: .sym '=' :: r) = some (.simple (.assign [w] e)) := by
  rw [head_word h]
  simp [he, names, plainHead]

theorem head_expr {w : List Char} {r : List Tok} {e : Expr} (h : ∀ k ∈ keywords, w ≠ k.toList) (hr : .sym '=' ∉ r) (he : expr (.word w :: r) = some e) :
    head (.word w :: r) = some (.simple (.expr e)) := by
  rw [head_word h]
  have e1 : (Tok.word w :: r).dropWhile (· ≠ .sym '=') = [] := by
    refine List.dropWhile_eq_nil_iff.2 fun x hx => ?_
    rcases List.mem_cons.1 hx with rfl | hx
    · rfl
    · have : x ≠ .sym '=' := fun e => hr (e ▸ hx)
      simpa using this
  unfold plainHead
  rw [e1]
  simp [he]

theorem head_cond {r : List Tok} {e : Expr} (he : expr r = some e) : head (.word "if".toList :: (r ++ [.sym ':'])) = some (.cond e) := by
  have : colon (r ++ [.sym ':']) = some r := by simp [colon]
  show ((colon (r ++ [.sym ':'])).bind condition).map Head.cond = _
  rw [this]
  simp [condition, he]

theorem condition_notNone {w : List Char} (h : w ≠ "not".toList) :
    condition [.word w, .word "is".toList, .word "not".toList, .word "None".toList] = some (.notNone (.word w)) := by
  have h1 : expr [.word w, .word "is".toList, .word "not".toList, .word "None".toList] = none := rfl
  have h2 : expr [.word w] = some (.word w) := rfl
  have h3 : ¬ ([Tok.word w] = [.word "not".toList]) := by simpa using h
  unfold condition
  rw [h1]
  simp only [List.take_succ_cons, List.take_zero, if_neg h3, List.length_cons, List.length_nil, List.drop_succ_cons, List.drop_zero, if_true]
  simp [h2]

/-- `if w is not None:` -/
theorem head_notNone {w : List Char} (h : w ≠ "not".toList) :
    head [.word "if".toList, .word w, .word "is".toList, .word "not".toList, .word "None".toList, .sym ':'] = some (.cond (.notNone (.word w))) := by
  have : colon [.word w, .word "is".toList, .word "not".toList, .word "None".toList, .sym ':'] = some [.word w, .word "is".toList, .word "not".toList, .word "None".toList] := rfl
  show ((colon [.word w, .word "is".toList, .word "not".toList, .word "None".toList, .sym ':']).bind condition).map Head.cond = _
  rw [this, Option.bind_some, condition_notNone h]
  rfl

/-! ## Pieces of text -/

theorem isWord_ne {c : Char} (h : isWord c = true) {x : Char} (hx : isWord x = false) : x ≠ c := by
  rintro rfl
  rw [h] at hx
  cases hx

theorem mem_intercalate' {α : Type} {s : List α} {x : α} : ∀ {l : List (List α)}, x ∈ s.intercalate l → x ∈ s ∨ ∃ a ∈ l, x ∈ a
  | [], h => by simp at h
  | [a], h => by
    rw [List.intercalate_singleton] at h
    exact Or.inr ⟨a, by simp, h⟩
  | a :: b :: l, h => by
    rw [List.intercalate_cons_cons, List.mem_append, List.mem_append] at h
    rcases h with (h | h) | h
    · exact Or.inr ⟨a, by simp, h⟩
    · exact Or.inl h
    · rcases mem_intercalate' h with h | ⟨y, hy, h⟩
      · exact Or.inl h
      · exact Or.inr ⟨y, by simp [List.mem_cons.1 hy], h⟩

theorem flat_of {t : List Tok} (h : t.all fun x => match x with | .line _ => false | _ => true) : Flat t := by
  intro k hk
  have := List.all_eq_true.1 h _ hk
  simp at this

theorem Flat.append {a b : List Tok} (h : Flat a) (h' : Flat b) : Flat (a ++ b) := fun k hk => (List.mem_append.1 hk).elim (h k) (h' k)

theorem Flat.flatMap {α : Type} {l : List α} {f : α → List Tok} (h : ∀ a ∈ l, Flat (f a)) : Flat (l.flatMap f) := by
  intro k hk
  obtain ⟨a, ha, h'⟩ := List.mem_flatMap.1 hk
  exact h a ha k h'

theorem Flat.cons {x : Tok} {t : List Tok} (hx : ∀ k, x ≠ .line k) (h : Flat t) : Flat (x :: t) := fun k hk =>
  (List.mem_cons.1 hk).elim (fun e => hx k e.symm) (h k)

theorem append_ne {a b : String} (h : b ≠ "") : a ++ b ≠ "" := by
  intro e
  apply h
  have := congrArg String.toList e
  rw [String.toList_append] at this
  apply String.toList_injective
  simp at this
  simpa using this.2

theorem Code.empty {k : Nat} {ss : List Stmt} (h : Code k [] ss) : ss = [] := by
  obtain ⟨ls, h1, h2⟩ := h
  have : flat ls = [] := by
    have : run ⟨0, .start 0⟩ [] = (flat ls, ⟨0, .start 0⟩) := h1
    simpa [run] using (congrArg Prod.fst this).symm
  have hls : ls = [] := by
    cases ls with
    | nil => rfl
    | cons a l => simp [flat] at this
  subst hls
  have := h2.reads [] [] rfl (by intro x hx; simp at hx)
  simp [Source.blocks] at this
  exact this

theorem word_lit {s : String} (h : s.toList ≠ [] ∧ s.toList.all isWord = true) : Word s.toList := ⟨h.1, fun c hc => List.all_eq_true.1 h.2 c hc⟩

theorem word_str {a b : String} (h : Word a.toList) (h' : Word b.toList) : Word (a ++ b).toList := by
  rw [String.toList_append]
  exact word_append h h'.2

def nameExpr (s : String) : Expr := .word s.toList

/-- `np.zeros(shape=(A, N, ..), dtype=complex)` -/
def zerosExpr (axes : Nat) : Expr := .call (.attr (nameExpr "np") "zeros".toList)
  [.kw "shape".toList (group (nameExpr "A" :: List.replicate axes (nameExpr "N"))), .kw "dtype".toList (nameExpr "complex")]

def Clean (s : String) : Prop := '"' ∉ s.toList ∧ '\n' ∉ s.toList

theorem Clean.append {a b : String} (h : Clean a) (h' : Clean b) : Clean (a ++ b) := by
  unfold Clean at *
  rw [String.toList_append]
  simp only [List.mem_append, not_or]
  exact ⟨⟨h.1, h'.1⟩, h.2, h'.2⟩

theorem clean_nat (n : Nat) : Clean (toString n) :=
  ⟨fun h => isWord_ne ((nat_word n).2 _ h) (x := '"') rfl rfl, fun h => isWord_ne ((nat_word n).2 _ h) (x := '\n') rfl rfl⟩

/-- a string in triple quotes -/
theorem code_doc {strs : List String} {w : List Char} (hw : '"' ∉ w)
    (h : (strs.flatMap fun s => s.toList ++ ['\n']) = (tabs 1).toList ++ ("\"\"\"".toList ++ (w ++ "\"\"\"\n".toList))) : Code 4 strs [.doc] := by
  refine Code.lines (t := [.doc]) ?_ (flat_of rfl) rfl rfl
  unfold LexLines
  rw [h]
  have h1 : Lex ⟨0, .start (4 * 1)⟩ "\"\"\"".toList [.line 4] ⟨0, .doc 0⟩ := rfl
  have h2 : Lex ⟨0, .doc 0⟩ "\"\"\"\n".toList [.doc] ⟨0, .start 0⟩ := rfl
  exact (lex_tabs 1 0).append (h1.append ((lex_doc w 0 hw).append h2))

/-- the words of a shape -/
def shapeToks (w : String) (r : Nat) : List Tok := .word w.toList :: (List.replicate r ()).flatMap fun _ => [.sym ',', .word "N".toList]

theorem lex_shape (d : Nat) : ∀ (r : Nat) (w : String), Word w.toList →
    Lex ⟨d + 1, .plain⟩ ((", ".intercalate (w :: List.replicate r "N")).toList ++ [')']) (shapeToks w r ++ [.sym ')']) ⟨d, .plain⟩
  | 0, w, hw => by
    have h : Lex ⟨d + 1, .word w.toList⟩ [')'] [.word w.toList, .sym ')'] ⟨d, .plain⟩ := rfl
    simpa [shapeToks, String.intercalate_singleton] using lex_word_then hw h
  | r + 1, w, hw => by
    have ih := lex_shape d r "N" (word_lit (by decide))
    have h : Lex ⟨d + 1, .word w.toList⟩ ", ".toList [.word w.toList, .sym ','] ⟨d + 1, .plain⟩ := rfl
    refine (lex_word_then hw (h.append ih)).cast ?_ ?_
    · rw [List.replicate_succ, String.intercalate_cons_cons]
      simp [String.toList_append]
    · simp [shapeToks, List.replicate_succ]

def zerosToks (r : Nat) : List Tok :=
  .word "np".toList :: .sym '.' :: .word "zeros".toList :: .sym '(' :: .word "shape".toList :: .sym '=' :: .sym '(' ::
    (shapeToks "A" r ++ [.sym ')', .sym ',', .word "dtype".toList, .sym '=', .word "complex".toList, .sym ')'])

theorem zeros_item (r : Nat) : Item (zerosToks r) (zerosExpr r) := by
  have h1 : Args (shapeToks "A" r) (nameExpr "A" :: List.replicate r (nameExpr "N")) := by
    have := ((Atom.word "A".toList).item.args).snocs (List.replicate r ()) (fun _ => [.word "N".toList]) (fun _ => nameExpr "N") fun _ _ => (Atom.word "N".toList).item
    simpa [shapeToks, nameExpr, List.map_replicate] using this
  have h2 := (h1.group.term.sum.kw "shape".toList).args.snoc ((Atom.word "complex".toList).term.sum.kw "dtype".toList)
  have h3 := ((Atom.word "np".toList).attr "zeros".toList).call h2
  have := h3.item
  simpa [zerosToks, zerosExpr, nameExpr, Source.one] using this

theorem flat_shape (w : String) (r : Nat) : Flat (shapeToks w r) := by
  unfold shapeToks
  exact Flat.cons (fun k => by simp) (Flat.flatMap fun _ _ => flat_of rfl)

theorem text_blank : Text ['\n'] [] := ⟨[], rfl, Block.nil 0⟩

theorem Code.cast {k : Nat} {l : List String} {s s' : List Stmt} (h : Code k l s) (e : s = s') : Code k l s' := e ▸ h

theorem lex_fquote : ∀ (w v : List Char) (q : Char) (d : Nat), q ∉ w → '\n' ∉ w → Lex ⟨d, .fquote q v⟩ w [] ⟨d, .fquote q (v ++ w)⟩
  | [], v, q, d, _, _ => by simpa using Lex.nil _
  | c :: w, v, q, d, h, h' => by
    have h1 : c ≠ q := fun e => h (by simp [e])
    have h2 : c ≠ '\n' := fun e => h' (by simp [e])
    have hs : Lex ⟨d, .fquote q v⟩ [c] [] ⟨d, .fquote q (v ++ [c])⟩ := by
      simp [Lex, run, step, h1, h2]
    have := hs.append (lex_fquote w (v ++ [c]) q d (fun e => h (by simp [e])) fun e => h' (by simp [e]))
    exact this.cast rfl rfl |> fun t => by simpa using t

/-! ## Assignments to several names -/

/-- `w1, w2, ..,` -/
def commaToks (ws : List (List Char)) : List Tok := ws.flatMap fun w => [.word w, .sym ',']

theorem names_starred (x : List Char) : ∀ ws : List (List Char),
    names (commaToks ws ++ [.sym '*', .word x]) = none ∧ starred (commaToks ws ++ [.sym '*', .word x]) = some (ws, x)
  | [] => ⟨rfl, rfl⟩
  | w :: ws => by
    obtain ⟨h1, h2⟩ := names_starred x ws
    have e : commaToks (w :: ws) ++ [.sym '*', .word x] = .word w :: .sym ',' :: (commaToks ws ++ [.sym '*', .word x]) := rfl
    rw [e, names, starred, h1, h2]
    exact ⟨rfl, rfl⟩

theorem commaToks_ne (ws : List (List Char)) : ∀ x ∈ commaToks ws, decide (x ≠ .sym '=') = true := by
  intro x hx
  obtain ⟨w, _, h⟩ := List.mem_flatMap.1 hx
  simp only [List.mem_cons, List.not_mem_nil, or_false] at h
  rcases h with rfl | rfl <;> rfl

/-- `w1, w2, .., *x = e` -/
theorem head_unpack {w x : List Char} {ws : List (List Char)} {r : List Tok} {e : Expr} (h : ∀ k ∈ keywords, w ≠ k.toList) (he : expr r = some e) :
    head (commaToks (w :: ws) ++ .sym '*' :: .word x :: .sym '=' :: r) = some (.simple (.unpack (w :: ws) x e)) := by
  obtain ⟨h1, h2⟩ := names_starred x (w :: ws)
  have e0 : commaToks (w :: ws) ++ .sym '*' :: .word x :: .sym '=' :: r = .word w :: .sym ',' :: (commaToks ws ++ .sym '*' :: .word x :: .sym '=' :: r) := rfl
  have e1 : commaToks (w :: ws) ++ .sym '*' :: .word x :: .sym '=' :: r = (commaToks (w :: ws) ++ [.sym '*', .word x]) ++ .sym '=' :: r := by simp
  have hall : ∀ y ∈ commaToks (w :: ws) ++ [.sym '*', .word x], decide (y ≠ .sym '=') = true := by
    intro y hy
    rcases List.mem_append.1 hy with hy | hy
    · exact commaToks_ne _ y hy
    · simp only [List.mem_cons, List.not_mem_nil, or_false] at hy
      rcases hy with rfl | rfl <;> rfl
  rw [e0, head_word h, ← e0, e1]
  unfold plainHead
  rw [List.takeWhile_append_of_pos hall, List.dropWhile_append_of_pos hall]
  have e2 : (Tok.sym '=' :: r).takeWhile (fun x => decide (x ≠ .sym '=')) = [] := by simp
  have e3 : (Tok.sym '=' :: r).dropWhile (fun x => decide (x ≠ .sym '=')) = .sym '=' :: r := by simp
  rw [e2, e3, List.append_nil]
  have e4 : commaToks (w :: ws) ++ [.sym '*', .word x] = .word w :: .sym ',' :: (commaToks ws ++ [.sym '*', .word x]) := rfl
  rw [e4] at h1 h2 ⊢
  show (match names (.word w :: .sym ',' :: (commaToks ws ++ [.sym '*', .word x])) with
    | some ws => (expr r).map fun e => Head.simple (.assign ws e)
    | none => _) = _
  rw [h1]
  show (match starred (.word w :: .sym ',' :: (commaToks ws ++ [.sym '*', .word x])) with
    | some x => (expr r).map fun e => Head.simple (.unpack x.1 x.2 e)
    | none => _) = _
  rw [h2, he]
  rfl

/-- the text of the names with their commas -/
theorem lex_comma_names (d : Nat) : ∀ {ws : List String}, (∀ w ∈ ws, Word w.toList) →
    Lex ⟨d, .plain⟩ (ws.flatMap fun w => w.toList ++ ", ".toList) (commaToks (ws.map String.toList)) ⟨d, .plain⟩
  | [], _ => Lex.nil _
  | w :: ws, h => by
    have h1 : ∀ v, Lex ⟨d, .word v⟩ ", ".toList [.word v, .sym ','] ⟨d, .plain⟩ := fun _ => rfl
    have h2 := lex_comma_names d (ws := ws) fun v hv => h v (by simp [hv])
    exact ((lex_word_then (h w (by simp)) (h1 _)).append h2).cast (by simp) rfl

theorem toList_commas (x : String) : ∀ ws : List String, (", ".intercalate (ws ++ [x])).toList = (ws.flatMap fun w => w.toList ++ ", ".toList) ++ x.toList
  | [] => by simp
  | [w] => by simp [String.intercalate_cons_cons, String.toList_append]
  | w :: v :: ws => by
    have ih := toList_commas x (v :: ws)
    rw [List.cons_append] at ih
    rw [List.cons_append, List.cons_append, String.intercalate_cons_cons, String.toList_append, String.toList_append, ih]
    simp

theorem flat_commaToks (ws : List (List Char)) : Flat (commaToks ws) := Flat.flatMap fun _ _ => flat_of rfl

/-- `assert e, m` -/
theorem head_assert {t u : List Tok} {e m : Expr} (ht : .sym ',' ∉ t) (he : expr t = some e) (hm : expr u = some m) :
    head (.word "assert".toList :: (t ++ .sym ',' :: u)) = some (.simple (.assert e m)) := by
  have hall : ∀ y ∈ t, decide (y ≠ .sym ',') = true := by
    intro y hy
    have : y ≠ .sym ',' := fun e => ht (e ▸ hy)
    simpa using this
  have e1 : (t ++ .sym ',' :: u).takeWhile (fun x => decide (x ≠ .sym ',')) = t := by
    rw [List.takeWhile_append_of_pos hall]; simp
  have e2 : (t ++ .sym ',' :: u).dropWhile (fun x => decide (x ≠ .sym ',')) = .sym ',' :: u := by
    rw [List.dropWhile_append_of_pos hall]; simp
  show (match condition ((t ++ .sym ',' :: u).takeWhile (fun x => decide (x ≠ .sym ','))), expr (((t ++ .sym ',' :: u).dropWhile (fun x => decide (x ≠ .sym ','))).drop 1) with
      | some c, some m => some (Head.simple (.assert c m))
      | _, _ => none) = _
  rw [e1, e2, List.drop_succ_cons, List.drop_zero, hm]
  simp [condition, he]

end TF.Spec.Source
