import Verif.Spec.Source
import Mathlib.Data.List.Intervals

/-!
# Lemmas about the reader of Python source: tokens
-/

namespace TF.Spec.Source

theorem run_append : ∀ (a b : List Char) (s : St), run s (a ++ b) = ((run s a).1 ++ (run (run s a).2 b).1, (run (run s a).2 b).2)
  | [], b, s => by simp [run]
  | c :: a, b, s => by
    show ((step s c).1 ++ (run (step s c).2 (a ++ b)).1, (run (step s c).2 (a ++ b)).2) = _
    rw [run_append a b (step s c).2]
    simp [run]

/-- The tokens and the state after a text. -/
def Lex (s : St) (l : List Char) (t : List Tok) (s' : St) : Prop := run s l = (t, s')

theorem Lex.append {s s' s'' : St} {a b : List Char} {t u : List Tok} (h : Lex s a t s') (h' : Lex s' b u s'') : Lex s (a ++ b) (t ++ u) s'' := by
  unfold Lex at *
  rw [run_append, h]
  simp only
  rw [h']

theorem Lex.nil (s : St) : Lex s [] [] s := rfl

/-- Words. -/
def Word (w : List Char) : Prop := w ≠ [] ∧ ∀ c ∈ w, isWord c = true

theorem begins_word {c : Char} (h : isWord c = true) (d : Nat) : begins d c = ([], ⟨d, .word [c]⟩) := by
  have h1 : c ≠ ' ' := by rintro rfl; exact absurd h (by decide)
  have h2 : c ≠ '\n' := by rintro rfl; exact absurd h (by decide)
  have h3 : c ≠ '#' := by rintro rfl; exact absurd h (by decide)
  have h4 : c ≠ '\'' := by rintro rfl; exact absurd h (by decide)
  have h5 : c ≠ '"' := by rintro rfl; exact absurd h (by decide)
  unfold begins
  simp [h1, h2, h3, h4, h5, h]

theorem lex_word_more : ∀ (w v : List Char) (d : Nat), (∀ c ∈ w, isWord c = true) → Lex ⟨d, .word v⟩ w [] ⟨d, .word (v ++ w)⟩
  | [], v, d, _ => by rw [List.append_nil]; exact Lex.nil _
  | c :: w, v, d, h => by
    have hs : step ⟨d, .word v⟩ c = ([], ⟨d, .word (v ++ [c])⟩) := by
      unfold step
      simp [h c (by simp)]
    have := lex_word_more w (v ++ [c]) d fun x hx => h x (by simp [hx])
    unfold Lex at *
    show ((step _ c).1 ++ (run (step _ c).2 w).1, (run (step _ c).2 w).2) = _
    rw [hs]
    simp only
    rw [this]
    simp

theorem lex_word {w : List Char} (h : Word w) (d : Nat) : Lex ⟨d, .plain⟩ w [] ⟨d, .word w⟩ := by
  obtain ⟨h1, h2⟩ := h
  match w, h1 with
  | c :: w, _ =>
    have hs : step ⟨d, .plain⟩ c = ([], ⟨d, .word [c]⟩) := begins_word (h2 c (by simp)) d
    have := lex_word_more w [c] d fun x hx => h2 x (by simp [hx])
    unfold Lex at *
    show ((step _ c).1 ++ (run (step _ c).2 w).1, (run (step _ c).2 w).2) = _
    rw [hs]
    simp only
    rw [this]
    simp

theorem lex_quote : ∀ (w v : List Char) (q : Char) (d : Nat), q ∉ w → '\n' ∉ w → Lex ⟨d, .quote q v⟩ w [] ⟨d, .quote q (v ++ w)⟩
  | [], v, q, d, _, _ => by rw [List.append_nil]; exact Lex.nil _
  | c :: w, v, q, d, h, h' => by
    have hs : step ⟨d, .quote q v⟩ c = ([], ⟨d, .quote q (v ++ [c])⟩) := by
      unfold step
      have h1 : c ≠ q := fun e => h (by simp [e])
      have h2 : c ≠ '\n' := fun e => h' (by simp [e])
      simp [h1, h2]
    have := lex_quote w (v ++ [c]) q d (fun hx => h (by simp [hx])) (fun hx => h' (by simp [hx]))
    unfold Lex at *
    show ((step _ c).1 ++ (run (step _ c).2 w).1, (run (step _ c).2 w).2) = _
    rw [hs]
    simp only
    rw [this]
    simp

theorem lex_comment : ∀ (w : List Char) (d : Nat), '\n' ∉ w → Lex ⟨d, .comment⟩ w [] ⟨d, .comment⟩
  | [], d, _ => Lex.nil _
  | c :: w, d, h => by
    have hs : step ⟨d, .comment⟩ c = ([], ⟨d, .comment⟩) := by
      unfold step
      have : c ≠ '\n' := fun e => h (by simp [e])
      simp [this]
    have := lex_comment w d fun hx => h (by simp [hx])
    unfold Lex at *
    show ((step _ c).1 ++ (run (step _ c).2 w).1, (run (step _ c).2 w).2) = _
    rw [hs]
    simp only
    rw [this]
    simp

/-- The text of a string in triple quotes. -/
theorem lex_doc : ∀ (w : List Char) (d : Nat), '"' ∉ w → Lex ⟨d, .doc 0⟩ w [] ⟨d, .doc 0⟩
  | [], d, _ => Lex.nil _
  | c :: w, d, h => by
    have hs : step ⟨d, .doc 0⟩ c = ([], ⟨d, .doc 0⟩) := by
      unfold step
      have : c ≠ '"' := fun e => h (by simp [e])
      simp [this]
    have := lex_doc w d fun hx => h (by simp [hx])
    unfold Lex at *
    show ((step _ c).1 ++ (run (step _ c).2 w).1, (run (step _ c).2 w).2) = _
    rw [hs]
    simp only
    rw [this]
    simp

theorem lex_spaces : ∀ (n k d : Nat), Lex ⟨d, .start k⟩ (List.replicate n ' ') [] ⟨d, .start (k + n)⟩
  | 0, k, d => Lex.nil _
  | n + 1, k, d => by
    have := lex_spaces n (k + 1) d
    unfold Lex at *
    show ((step ⟨d, .start k⟩ ' ').1 ++ (run (step ⟨d, .start k⟩ ' ').2 _).1, (run (step ⟨d, .start k⟩ ' ').2 _).2) = _
    have hs : step ⟨d, .start k⟩ ' ' = ([], ⟨d, .start (k + 1)⟩) := by simp [step]
    rw [hs]
    simp only
    rw [this]
    simp
    omega

/-- Spaces inside brackets. -/
theorem lex_spaces_plain : ∀ (n d : Nat), Lex ⟨d, .plain⟩ (List.replicate n ' ') [] ⟨d, .plain⟩
  | 0, d => Lex.nil _
  | n + 1, d => by
    have := lex_spaces_plain n d
    unfold Lex at *
    show ((step ⟨d, .plain⟩ ' ').1 ++ (run (step ⟨d, .plain⟩ ' ').2 _).1, (run (step ⟨d, .plain⟩ ' ').2 _).2) = _
    have hs : step ⟨d, .plain⟩ ' ' = ([], ⟨d, .plain⟩) := by simp [step, begins]
    rw [hs]
    simp only
    rw [this]
    simp

/-- The first character of a line. -/
theorem lex_start {c : Char} {l : List Char} {k d : Nat} {t : List Tok} {s : St} (h1 : c ≠ ' ') (h2 : c ≠ '\n') (h3 : c ≠ '#')
    (h : Lex ⟨d, .plain⟩ (c :: l) t s) : Lex ⟨d, .start k⟩ (c :: l) (.line k :: t) s := by
  unfold Lex at *
  show ((step ⟨d, .start k⟩ c).1 ++ (run (step ⟨d, .start k⟩ c).2 l).1, (run (step ⟨d, .start k⟩ c).2 l).2) = _
  have hs : step ⟨d, .start k⟩ c = (.line k :: (begins d c).1, (begins d c).2) := by simp [step, h1, h2, h3]
  have h' : ((begins d c).1 ++ (run (begins d c).2 l).1, (run (begins d c).2 l).2) = (t, s) := h
  rw [hs]
  simp only
  rw [Prod.mk.injEq] at h' ⊢
  exact ⟨by rw [List.cons_append, h'.1], h'.2⟩

/-! ## Numbers -/

theorem isWord_digit {c : Char} (h : c.isDigit = true) : isWord c = true := by
  simp [isWord, Char.isAlphanum, h]

theorem nat_word (n : Nat) : Word (toString n).toList := by
  rw [Nat.toString_eq_ofList_toDigits, String.toList_ofList]
  exact ⟨Nat.toDigits_ne_nil, fun c hc => isWord_digit (Nat.isDigit_of_mem_toDigits (b := 10) (by decide) (by decide) hc)⟩

theorem word_append {a b : List Char} (h : Word a) (hb : ∀ c ∈ b, isWord c = true) : Word (a ++ b) :=
  ⟨by simp [h.1], fun c hc => (List.mem_append.1 hc).elim (h.2 c) (hb c)⟩

/-! ## Lines of a text -/

/-- The tokens of whole lines. -/
def LexLines (ls : List String) (t : List Tok) : Prop := Lex ⟨0, .start 0⟩ (ls.flatMap fun s => s.toList ++ ['\n']) t ⟨0, .start 0⟩

theorem LexLines.append {a b : List String} {t u : List Tok} (h : LexLines a t) (h' : LexLines b u) : LexLines (a ++ b) (t ++ u) := by
  unfold LexLines
  rw [List.flatMap_append]
  exact Lex.append h h'

theorem LexLines.nil : LexLines [] [] := Lex.nil _

theorem LexLines.cons {s : String} {b : List String} {t u : List Tok} (h : LexLines [s] t) (h' : LexLines b u) : LexLines (s :: b) (t ++ u) :=
  LexLines.append (a := [s]) h h'

theorem LexLines.empty : LexLines [""] [] := by
  unfold LexLines
  exact (rfl : run ⟨0, .start 0⟩ ['\n'] = ([], ⟨0, .start 0⟩))

theorem LexLines.flatMap {α : Type} {l : List α} {f : α → List String} {g : α → List Tok} (h : ∀ a ∈ l, LexLines (f a) (g a)) :
    LexLines (l.flatMap f) (l.flatMap g) := by
  induction l with
  | nil => exact LexLines.nil
  | cons a l ih => exact LexLines.append (h a (by simp)) (ih fun b hb => h b (by simp [hb]))

/-- An empty line after another one means nothing. -/
theorem step_newline (s : St) : step (step s '\n').2 '\n' = ([], (step s '\n').2) := by
  have hb : ∀ d, step (begins d '\n').2 '\n' = ([], (begins d '\n').2) := by
    intro d
    have e : begins d '\n' = ([], ⟨d, if d = 0 then .start 0 else .plain⟩) := by unfold begins; simp
    rw [e]
    by_cases hd : d = 0
    · subst hd; rfl
    · simp only [hd, if_false]
      show begins d '\n' = _
      rw [e]
      simp [hd]
  obtain ⟨d, m⟩ := s
  cases m with
  | start k => exact hb d
  | plain => exact hb d
  | word w =>
    have : step ⟨d, .word w⟩ '\n' = (.word w :: (begins d '\n').1, (begins d '\n').2) := rfl
    rw [this]
    exact hb d
  | quote q t =>
    exact hb d
  | comment => exact hb d
  | quotes n =>
    by_cases hn : n = 1
    · subst hn
      exact hb d
    · have : step ⟨d, .quotes n⟩ '\n' = (.str [] :: (begins d '\n').1, (begins d '\n').2) := by simp [step, hn]
      rw [this]
      exact hb d
  | doc n => rfl
  | fquote q t => exact hb d
  | backslash => rfl
  | joined => rfl

theorem run_newline (s : St) (l : List Char) : run s ('\n' :: '\n' :: l) = run s ('\n' :: l) := by
  show ((step s '\n').1 ++ ((step (step s '\n').2 '\n').1 ++ (run (step (step s '\n').2 '\n').2 l).1), (run (step (step s '\n').2 '\n').2 l).2) = _
  rw [step_newline]
  rfl

/-- removal of repeated empty lines -/
theorem run_squeeze (f : List String → List String) (h0 : f [] = []) (h1 : ∀ a, f [a] = [a])
    (h2 : ∀ a b l, f (a :: b :: l) = if a = "" ∧ b = "" then f (b :: l) else a :: f (b :: l)) :
    ∀ (ls : List String) (s : St), run s ((f ls).flatMap fun s => s.toList ++ ['\n']) = run s (ls.flatMap fun s => s.toList ++ ['\n'])
  | [], s => by rw [h0]
  | [a], s => by rw [h1]
  | a :: b :: l, s => by
    have ih := run_squeeze f h0 h1 h2 (b :: l)
    rw [h2]
    split
    · rename_i h
      rw [ih, h.1, h.2]
      exact (run_newline s _).symm
    · rw [List.flatMap_cons, List.flatMap_cons, run_append, run_append _ ((b :: l).flatMap _), ih]

theorem intercalate_lines {ls : List String} (h : ls ≠ []) : ("\n".intercalate ls ++ "\n").toList = ls.flatMap fun s => s.toList ++ ['\n'] := by
  induction ls with
  | nil => exact absurd rfl h
  | cons a l ih =>
    match l with
    | [] => simp [String.intercalate_singleton]
    | b :: l =>
      have := ih (by simp)
      rw [String.intercalate_cons_cons] at *
      rw [List.flatMap_cons, ← this]
      simp [String.toList_append]

/-! ## Logical lines -/

/-- no token that begins a line -/
def Flat (t : List Tok) : Prop := ∀ k, .line k ∉ t

/-- The tokens of logical lines. -/
def flat (L : List (Nat × List Tok)) : List Tok := L.flatMap fun x => .line x.1 :: x.2

theorem lines_flat_append : ∀ (t : List Tok) (l : List Tok), Flat t → lines (t ++ l) = (t ++ (lines l).1, (lines l).2)
  | [], l, _ => rfl
  | x :: t, l, h => by
    have := lines_flat_append t l fun k hk => h k (by simp [hk])
    cases x with
    | line k => exact absurd (by simp) (h k)
    | _ => simp only [List.cons_append, lines, this]

theorem lines_flat : ∀ L : List (Nat × List Tok), (∀ x ∈ L, Flat x.2) → lines (flat L) = ([], L)
  | [], _ => rfl
  | x :: L, h => by
    have := lines_flat L fun y hy => h y (by simp [hy])
    show lines (.line x.1 :: (x.2 ++ flat L)) = _
    simp only [lines]
    rw [lines_flat_append _ _ (h x (by simp)), this]
    simp

theorem flat_append (a b : List (Nat × List Tok)) : flat (a ++ b) = flat a ++ flat b := by
  unfold flat
  rw [List.flatMap_append]

end TF.Spec.Source
