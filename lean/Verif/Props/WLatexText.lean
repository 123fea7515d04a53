import Verif.Props.WLatex
import Verif.Lemmas.LatexText
import Verif.Model.WLatexText
import Verif.Spec.TexPower

/-! # The texts of the LaTeX of the W operators (C97): brackets and exponents -/

namespace TF.W

open TF.Py TF.Helper TF.CC TF.Spec TF.Spec.W TF.Spec.Latex TF.LatexText

/-! ## Brackets -/

theorem T_pref (l : List Nat) : T 0 0 0 0 (renderLatexPref l) := by
  unfold renderLatexPref
  split
  · exact T_empty
  · refine ((L 0 1 0 0 "\\frac{1}{").app (T.at (T_inter (L 0 0 0 0 "*") fun x hx => ?_) 1 0)).app (L 1 0 0 0 "}")
    obtain ⟨k, _, rfl⟩ := List.mem_map.1 hx
    exact (T_nat k).app (L 0 0 0 0 "!")

theorem T_groundFactor (f : Nat × Nat) : T 0 0 0 0 (groundFactor f) := by
  unfold groundFactor
  split
  · exact ((L 0 1 0 0 "\\bt^{").app ((T_nat f.1).at 1 0)).app (L 1 0 0 0 "}")
  · exact (((L 0 1 0 1 "(\\bt^{").app ((T_nat f.1).at 1 1)).app (L 1 0 1 0 "})^")).app (T_nat f.2)

theorem T_groundTerm (t : LatexTerm Nat) : T 0 0 0 0 (groundTerm t) := by
  refine (T_pref _).app (T_join fun x hx => ?_)
  obtain ⟨f, _, rfl⟩ := List.mem_map.1 hx
  exact T_groundFactor f

/-- the text of a product is the one already used in `Model/W` -/
theorem groundTerm_eq (t : LatexTerm Nat) : groundTerm t = t.render := rfl

theorem T_groundEquation (e : Nat × List (LatexTerm Nat)) : T 0 0 0 0 (groundEquation e) := by
  have h : T 0 0 0 0 (String.intercalate " + " (e.2.map groundTerm)) := by
    refine T_inter (L 0 0 0 0 " + ") fun x hx => ?_
    obtain ⟨t, _, rfl⟩ := List.mem_map.1 hx
    exact T_groundTerm t
  refine (((L 0 1 0 0 "\n\\\\\n    \\bW^{").app ((T_nat e.1).at 1 0)).app (L 1 0 0 0 "} &= ")).app ?_
  unfold groundRhs
  split
  · exact ((L 0 0 0 1 "\\hat{S}(").app (h.at 0 1)).app (L 0 0 1 0 ")")
  · exact h

/-- C97: the braces and the parentheses of the ground state equations are balanced. -/
theorem ground_text_balanced (maxOrder : Nat) :
    Spec.Latex.Balanced '{' '}' (groundText maxOrder).toList ∧ Spec.Latex.Balanced '(' ')' (groundText maxOrder).toList := by
  have h : T 0 0 0 0 (groundText maxOrder) := by
    refine ((L 0 0 0 0 "\\begin{align}\n    \\bW^{0} &= 1").app (T_join fun x hx => ?_)).app (L 0 0 0 0 "\n\\end{align}\n")
    obtain ⟨e, _, rfl⟩ := List.mem_map.1 hx
    exact T_groundEquation e
  exact h

example : groundText 2 = "\\begin{align}\n    \\bW^{0} &= 1\n\\\\\n    \\bW^{1} &= \\bt^{1}\n\\\\\n    \\bW^{2} &= \\hat{S}(\\frac{1}{2!}(\\bt^{1})^2 + \\bt^{2})\n\\end{align}\n" := by
  decide +kernel

theorem T_amplitude (a : Nat × Nat) : T 0 0 0 0 (amplitude a) := by
  unfold amplitude
  split
  · exact ((L 0 1 0 0 "\\bt_{").app ((T_nat a.2).at 1 0)).app (L 1 0 0 0 "}")
  · split
    · exact ((L 0 1 0 0 "\\bt^{").app ((T_nat a.1).at 1 0)).app (L 1 0 0 0 "}")
    · exact ((((L 0 1 0 0 "\\bt^{").app ((T_nat a.1).at 1 0)).app (L 1 1 0 0 "}_{")).app ((T_nat a.2).at 1 0)).app (L 1 0 0 0 "}")

/-- a product without the `+` after it -/
def excitedProduct (t : LatexTerm (Nat × Nat)) : String := renderLatexPref t.pref ++ String.join (t.factors.map excitedFactor)

theorem T_excitedProduct (t : LatexTerm (Nat × Nat)) : T 0 0 0 0 (excitedProduct t) := by
  refine (T_pref _).app (T_join fun x hx => ?_)
  obtain ⟨f, _, rfl⟩ := List.mem_map.1 hx
  unfold excitedFactor
  split
  · exact T_amplitude _
  · exact (((L 0 0 0 1 "(").app ((T_amplitude _).at 0 1)).app (L 0 0 1 0 ")^")).app (T_nat f.2)

theorem T_excitedTerm (t : LatexTerm (Nat × Nat)) : T 0 0 0 0 (excitedTerm t) :=
  (T_excitedProduct t).app (L 0 0 0 0 " + ")

theorem T_excitedHead (w : Nat × Nat) : T 0 0 0 1 (excitedHead w) := by
  unfold excitedHead
  split
  · exact ((L 0 1 0 0 "    \\textbf{W}^{").app ((T_nat w.1).at 1 0)).app (L 1 0 0 1 "} = \\hat{S}(")
  · exact ((((L 0 1 0 0 "    \\textbf{W}^{").app ((T_nat w.1).at 1 0)).app (L 1 1 0 0 "}_{")).app ((T_nat w.2).at 1 0)).app (L 1 0 0 1 "} = \\hat{S}(")

theorem flatMap_terms (ts : List (LatexTerm (Nat × Nat))) (h : ts ≠ []) :
    ∃ u, S 0 0 0 0 u ∧ (ts.flatMap fun t => (excitedTerm t).toList) = u ++ [' ', '+', ' '] := by
  rcases List.eq_nil_or_concat ts with rfl | ⟨l, t, rfl⟩
  · exact absurd rfl h
  · refine ⟨(l.flatMap fun t => (excitedTerm t).toList) ++ (excitedProduct t).toList, S.app (S_flatMap fun x _ => T_excitedTerm x) (T_excitedProduct t), ?_⟩
    rw [List.concat_eq_append, List.flatMap_append, List.flatMap_cons, List.flatMap_nil, List.append_nil, List.append_assoc]
    congr 1
    show (excitedProduct t ++ " + ").toList = _
    rw [String.toList_append]
    rfl

/-- A label prints at least one product, so the characters cut off at the end of its equation are the last ` + `. -/
theorem excited_nonempty (sop : SetOrder (List (Nat × Nat))) (maxOrder : Nat) (w : Nat × Nat)
    (ts : List (LatexTerm (Nat × Nat))) (h : (w, ts) ∈ excitedLatex sop maxOrder) : ts ≠ [] := by
  obtain ⟨gs, -, h2, -, h4, -⟩ := excited_latex_partial sop maxOrder w ts h
  have hw : 1 ≤ w.1 := by
    obtain ⟨v, hv, he⟩ := List.mem_map.1 h
    have : v = w := by
      split at he <;> exact (Prod.mk.inj he).1
    subst this
    exact (((labels_exact maxOrder).2.1 v.1 v.2).1 hv).1
  have : ∃ g, g ∈ gs := by
    obtain ⟨m, n⟩ := w
    by_cases hn : n = 0
    · subst hn
      have hm : MatchesW (m, 0) [(m, 0)] := ⟨by simp at hw ⊢; omega, by simp, by simp⟩
      rcases h4 _ hm with h | ⟨g, hg, _⟩
      · exact absurd rfl h.2
      · exact ⟨g, hg⟩
    · have hm : MatchesW (m, n) [(m, 0), (0, n)] := ⟨by simp at hw ⊢; omega, by simp, by simp⟩
      rcases h4 _ hm with h | ⟨g, hg, _⟩
      · exact absurd h.1 (by simp)
      · exact ⟨g, hg⟩
  obtain ⟨g, hg⟩ := this
  rintro rfl
  cases h2
  cases hg

theorem S_excitedStep {code : List Char} {e : (Nat × Nat) × List (LatexTerm (Nat × Nat))} (hc : S 0 0 0 0 code) (he : e.2 ≠ []) :
    S 0 0 0 0 (excitedStep code e) := by
  unfold excitedStep
  split
  · exact S.app hc (L 0 0 0 0 "    \\textbf{W}^1 = \\bt^1 \\\\\n\n")
  · obtain ⟨u, hu, hu'⟩ := flatMap_terms e.2 he
    dsimp only
    rw [hu', ← List.append_assoc, ← List.append_assoc]
    rw [show ∀ x : List Char, (x ++ [' ', '+', ' ']).take ((x ++ [' ', '+', ' ']).length - 3) = x by intro x; simp]
    exact S.app (S.app (S.app hc (T_excitedHead e.1)) (S.up hu 0 1)) (L 0 0 1 0 ")\\\\ \n\n")

theorem S_excitedFold : ∀ (l : List ((Nat × Nat) × List (LatexTerm (Nat × Nat)))) (code : List Char), S 0 0 0 0 code → (∀ e ∈ l, e.2 ≠ []) →
    S 0 0 0 0 (l.foldl excitedStep code)
  | [], _, h, _ => h
  | e :: l, _, h, hl => S_excitedFold l _ (S_excitedStep h (hl e List.mem_cons_self)) fun x hx => hl x (List.mem_cons_of_mem _ hx)

/-- C97: the braces and the parentheses of the excited state equations are balanced, whatever the order of the sets. -/
theorem excited_text_balanced (sop : SetOrder (List (Nat × Nat))) (maxOrder : Nat) :
    Spec.Latex.Balanced '{' '}' (excitedText sop maxOrder) ∧ Spec.Latex.Balanced '(' ')' (excitedText sop maxOrder) := by
  have h : S 0 0 0 0 (excitedText sop maxOrder) := by
    refine S.app (S_excitedFold _ _ ?_ fun e he => excited_nonempty sop maxOrder e.1 e.2 he) (L 0 0 0 0 "\\end{equation}\n")
    exact ((L 0 0 0 0 "These are the W operators in full VECC.\\\\\n%\nThe maximum rank of W operator is: ").app (T_nat maxOrder)).app
      (L 0 0 0 0 "\\\\ \n\n\\begin{equation}\n\n    \\textbf{W}^0 = 1 \\\\\n\n")
  exact h

example : String.ofList (excitedText (SetOrder.std _) 2) = "These are the W operators in full VECC.\\\\\n%\nThe maximum rank of W operator is: 2\\\\ \n\n\\begin{equation}\n\n    \\textbf{W}^0 = 1 \\\\\n\n    \\textbf{W}^1 = \\bt^1 \\\\\n\n    \\textbf{W}^{2} = \\hat{S}(\\frac{1}{2!}(\\bt^{1})^2 + \\bt^{2})\\\\ \n\n    \\textbf{W}^{1}_{1} = \\hat{S}(\\bt^{1}\\bt_{1})\\\\ \n\n\\end{equation}\n" := by
  decide +kernel

/-- The equation of a label as it should be written: the products with ` + ` between them, and no product or sign cut. -/
def wholeEquation (e : (Nat × Nat) × List (LatexTerm (Nat × Nat))) : String :=
  if e.1 = (1, 0) then "    \\textbf{W}^1 = \\bt^1 \\\\\n\n"
  else excitedHead e.1 ++ String.intercalate " + " (e.2.map excitedProduct) ++ ")\\\\ \n\n"

theorem flatMap_inter : ∀ (ts : List (LatexTerm (Nat × Nat))), ts ≠ [] → (ts.flatMap fun t => (excitedTerm t).toList) =
    (String.intercalate " + " (ts.map excitedProduct)).toList ++ [' ', '+', ' ']
  | [], h => absurd rfl h
  | [t], _ => by
    rw [List.flatMap_cons, List.flatMap_nil, List.append_nil, List.map_cons, List.map_nil, String.intercalate_singleton]
    show (excitedProduct t ++ " + ").toList = _
    rw [String.toList_append]
    rfl
  | t :: u :: ts, _ => by
    have ht : (excitedTerm t).toList = (excitedProduct t).toList ++ " + ".toList := String.toList_append
    rw [List.flatMap_cons, flatMap_inter (u :: ts) (List.cons_ne_nil _ _), ht]
    simp only [List.map_cons, String.intercalate_cons_cons, String.toList_append, List.append_assoc]

/-- C97: the text of the excited state equations is the heading and one whole equation for every label in turn; cutting off
three characters after every equation takes away the last ` + ` and nothing else. -/
theorem excited_text_exact (sop : SetOrder (List (Nat × Nat))) (maxOrder : Nat) :
    excitedText sop maxOrder =
      ("These are the W operators in full VECC.\\\\\n%\nThe maximum rank of W operator is: " ++ toString maxOrder ++
        "\\\\ \n\n\\begin{equation}\n\n    \\textbf{W}^0 = 1 \\\\\n\n").toList ++
      (excitedLatex sop maxOrder).flatMap (fun e => (wholeEquation e).toList) ++ "\\end{equation}\n".toList := by
  have key : ∀ (l : List ((Nat × Nat) × List (LatexTerm (Nat × Nat)))) (code : List Char), (∀ e ∈ l, e.2 ≠ []) →
      l.foldl excitedStep code = code ++ l.flatMap fun e => (wholeEquation e).toList := by
    intro l
    induction l with
    | nil => intro code _; simp
    | cons e l ih =>
      intro code h
      have hstep : excitedStep code e = code ++ (wholeEquation e).toList := by
        unfold excitedStep wholeEquation
        split
        · rfl
        · dsimp only
          rw [flatMap_inter e.2 (h e List.mem_cons_self), ← List.append_assoc, ← List.append_assoc]
          rw [show ∀ x : List Char, (x ++ [' ', '+', ' ']).take ((x ++ [' ', '+', ' ']).length - 3) = x by intro x; simp]
          rw [String.toList_append, String.toList_append, List.append_assoc, List.append_assoc, List.append_assoc]
      rw [List.foldl_cons, ih _ fun x hx => h x (List.mem_cons_of_mem _ hx), hstep, List.flatMap_cons, List.append_assoc]
  unfold excitedText
  rw [key _ _ fun e he => excited_nonempty sop maxOrder e.1 e.2 he]

/-! ## Exponents -/

theorem noClose_nat (k : Nat) : ')' ∉ (toString k).toList := by
  intro h
  have := ((TF.Trunc.word_toString (k : Int)).2 ')' h).2
  revert this; decide

theorem shownPower_none : ∀ {l : List Char}, ')' ∉ l → shownPower l = none
  | [], _ => rfl
  | [_], _ => rfl
  | a :: b :: l, h => by
    rw [shownPower, if_neg (by rintro ⟨rfl, _⟩; exact h List.mem_cons_self)]
    exact shownPower_none fun hm => h (List.mem_cons_of_mem _ hm)

theorem shownPower_some : ∀ {l : List Char} (r : List Char), ')' ∉ l → shownPower (l ++ ')' :: '^' :: r) = some (texArg r)
  | [], r, _ => by rw [List.nil_append, shownPower, if_pos ⟨rfl, rfl⟩]
  | [a], r, h => by
    rw [List.singleton_append, shownPower, if_neg (by rintro ⟨rfl, _⟩; exact h List.mem_cons_self), shownPower, if_pos ⟨rfl, rfl⟩]
  | a :: b :: l, r, h => by
    rw [List.cons_append, List.cons_append, shownPower, if_neg (by rintro ⟨rfl, _⟩; exact h List.mem_cons_self)]
    exact shownPower_some (l := b :: l) r fun hm => h (List.mem_cons_of_mem _ hm)

theorem texArg_nat (k : Nat) : texArg (toString k).toList = (toString k).toList ↔ k ≤ 9 := by
  have hn := (T_nat k)
  have hlen : (toString k).toList.length ≤ 1 ↔ k < 10 ^ 1 := by
    rw [Nat.toString_eq_ofList_toDigits, String.toList_ofList, Nat.length_toDigits_le_iff (by decide) (by decide)]
  have hb : '{' ∉ (toString k).toList := by
    intro h
    have := ((TF.Trunc.word_toString (k : Int)).2 '{' h).2
    revert this; decide
  cases hl : (toString k).toList with
  | nil =>
    rw [hl] at hlen
    have := hlen.1 (by simp)
    simp [texArg]; omega
  | cons c l =>
    rw [hl] at hlen hb
    rw [texArg, if_neg (by rintro rfl; exact hb List.mem_cons_self)]
    cases l with
    | nil => have := hlen.1 (by simp); simp; omega
    | cons d l => have : ¬ k < 10 ^ 1 := fun h => by have := hlen.2 h; simp at this
                  simp; omega

theorem shows_iff {s : String} {k : Nat} (h1 : k = 1 → ')' ∉ s.toList)
    (h2 : k ≠ 1 → ∃ p, ')' ∉ p ∧ s.toList = p ++ ')' :: '^' :: (toString k).toList) : ShowsPower s k ↔ k ≤ 9 := by
  unfold ShowsPower
  by_cases h : k = 1
  · rw [if_pos h, shownPower_none (h1 h)]
    simp; omega
  · obtain ⟨p, hp, hs⟩ := h2 h
    rw [if_neg h, hs, shownPower_some _ hp, Option.some.injEq, texArg_nat]

theorem groundFactor_shows (f : Nat × Nat) : ShowsPower (groundFactor f) f.2 ↔ f.2 ≤ 9 := by
  apply shows_iff
  · intro h
    unfold groundFactor
    rw [if_pos h, String.toList_append, String.toList_append, List.mem_append, List.mem_append]
    rintro ((h | h) | h)
    · revert h; decide
    · exact noClose_nat _ h
    · revert h; decide
  · intro h
    unfold groundFactor
    rw [if_neg h]
    refine ⟨"(\\bt^{".toList ++ (toString f.1).toList ++ ['}'], ?_, ?_⟩
    · rw [List.mem_append, List.mem_append]
      rintro ((h | h) | h)
      · revert h; decide
      · exact noClose_nat _ h
      · revert h; decide
    · rw [String.toList_append, String.toList_append, String.toList_append, List.append_assoc _ ['}']]
      rw [show "})^".toList = ['}'] ++ [')', '^'] from rfl]
      simp only [List.append_assoc]
      rfl

theorem noClose_amplitude (a : Nat × Nat) : ')' ∉ (amplitude a).toList := by
  unfold amplitude
  have h1 := noClose_nat a.1
  have h2 := noClose_nat a.2
  split
  · simp only [String.toList_append, List.mem_append, not_or]
    exact ⟨⟨by decide, h2⟩, by decide⟩
  · split
    · simp only [String.toList_append, List.mem_append, not_or]
      exact ⟨⟨by decide, h1⟩, by decide⟩
    · simp only [String.toList_append, List.mem_append, not_or]
      exact ⟨⟨⟨⟨by decide, h1⟩, by decide⟩, h2⟩, by decide⟩

theorem excitedFactor_shows (f : (Nat × Nat) × Nat) : ShowsPower (excitedFactor f) f.2 ↔ f.2 ≤ 9 := by
  apply shows_iff
  · intro h
    unfold excitedFactor
    rw [if_pos h]
    exact noClose_amplitude _
  · intro h
    unfold excitedFactor
    rw [if_neg h]
    refine ⟨"(".toList ++ (amplitude f.1).toList, ?_, ?_⟩
    · rw [List.mem_append]
      rintro (h | h)
      · revert h; decide
      · exact noClose_amplitude _ h
    · rw [String.toList_append, String.toList_append, String.toList_append]
      simp only [List.append_assoc]
      rfl

theorem factor_le {α : Type} [DecidableEq α] (l : List α) (f : α × Nat) (h : f ∈ (latexTerm l).factors) : f.2 ≤ l.length := by
  have := ((countItems_spec l.length l le_rfl).2 f.1 f.2).1 h
  rw [this.2]
  exact List.count_le_length

theorem length_le_sums : ∀ (l : List (Nat × Nat)), (∀ x ∈ l, x ≠ (0, 0)) → l.length ≤ (l.map Prod.fst).sum + (l.map Prod.snd).sum
  | [], _ => by simp
  | (a, b) :: l, h => by
    have := length_le_sums l fun x hx => h x (List.mem_cons_of_mem _ hx)
    have h0 : ¬ (a = 0 ∧ b = 0) := by
      rintro ⟨rfl, rfl⟩
      exact h _ List.mem_cons_self rfl
    simp only [List.map_cons, List.length_cons, List.sum_cons]; omega

/-- C97 (partial): TeX shows the power of every factor of the ground state equations exactly if the maximal order is at
most 9: the exponent is written without braces, and of two digits only the first is raised. -/
theorem ground_powers_iff_partial (maxOrder : Nat) :
    (∀ n ts, (n, ts) ∈ groundLatex maxOrder → ∀ t ∈ ts, ∀ f ∈ t.factors, ShowsPower (groundFactor f) f.2) ↔ maxOrder ≤ 9 := by
  constructor
  · intro h
    by_contra hm
    have h10 : (10, (partitions 10).reverse.map latexTerm) ∈ groundLatex maxOrder :=
      List.mem_map.2 ⟨10, by rw [mem_range2]; omega, rfl⟩
    have hp : List.replicate 10 1 ∈ partitions 10 := by
      rw [partitions_exact 10 (by decide)]
      exact ⟨by decide, by decide, by decide⟩
    have := h _ _ h10 (latexTerm (List.replicate 10 1)) (List.mem_map.2 ⟨_, List.mem_reverse.2 hp, rfl⟩) (1, 10) (by decide)
    rw [groundFactor_shows] at this
    omega
  · intro hm n ts h t ht f hf
    rw [groundFactor_shows]
    obtain ⟨k, hk, he⟩ := List.mem_map.1 h
    simp only [Prod.mk.injEq] at he
    obtain ⟨rfl, rfl⟩ := he
    rw [mem_range2] at hk
    obtain ⟨p, hp, rfl⟩ := List.mem_map.1 ht
    rw [List.mem_reverse, partitions_exact k hk.1] at hp
    have h1 := factor_le p f hf
    have h2 := length_le_sum hp.pos
    rw [hp.sum_eq] at h2
    omega

/-- C97 (partial): the same for the excited state equations. -/
theorem excited_powers_iff_partial (sop : SetOrder (List (Nat × Nat))) (maxOrder : Nat) :
    (∀ w ts, (w, ts) ∈ excitedLatex sop maxOrder → ∀ t ∈ ts, ∀ f ∈ t.factors, ShowsPower (excitedFactor f) f.2) ↔ maxOrder ≤ 9 := by
  constructor
  · intro h
    by_contra hm
    have hl : (10, 0) ∈ labelsOnW maxOrder true := ((labels_exact maxOrder).2.1 10 0).2 ⟨by decide, by omega⟩
    have hg : List.replicate 10 (1, 0) ∈ tTermsGroup sop (10, 0) := by
      unfold tTermsGroup
      rw [mem_lhsGroups (by decide)]
      refine ⟨by decide, ?_⟩
      constructor <;> decide
    have := h _ _ (List.mem_map.2 ⟨_, hl, if_neg (by decide)⟩) (latexTerm (List.replicate 10 (1, 0)))
      (List.mem_map.2 ⟨_, List.mem_filter.2 ⟨List.mem_reverse.2 hg, by decide⟩, rfl⟩) ((1, 0), 10) (by decide)
    rw [excitedFactor_shows] at this
    omega
  · intro hm w ts h t ht f hf
    rw [excitedFactor_shows]
    obtain ⟨v, hv, he⟩ := List.mem_map.1 h
    have hr := ((labels_exact maxOrder).2.1 v.1 v.2).1 hv
    split at he
    · obtain ⟨rfl, rfl⟩ := Prod.mk.inj he
      rw [List.mem_singleton] at ht
      subst ht
      have := factor_le _ f hf
      simp at this; omega
    · obtain ⟨rfl, rfl⟩ := Prod.mk.inj he
      obtain ⟨g, hg, rfl⟩ := List.mem_map.1 ht
      have hg := List.mem_reverse.1 (List.mem_filter.1 hg).1
      unfold tTermsGroup at hg
      rw [mem_lhsGroups (by simp only; omega)] at hg
      have h1 := factor_le g f hf
      have h2 := length_le_sums g hg.2.1
      have h3 := hg.2.2.1
      have h4 := hg.2.2.2
      simp only at h3 h4
      omega

/-- C97: a document in which a power is not shown: the tenth power of `t^1` in the equation of order 10. -/
theorem powers_witness : (∃ t ∈ (partitions 10).reverse.map latexTerm, (1, 10) ∈ t.factors) ∧
    groundFactor (1, 10) = "(\\bt^{1})^10" ∧ shownPower (groundFactor (1, 10)).toList = some ['1'] := by
  refine ⟨⟨latexTerm (List.replicate 10 1), List.mem_map.2 ⟨List.replicate 10 1, List.mem_reverse.2 ?_, rfl⟩, by decide⟩, by decide +kernel, by decide +kernel⟩
  rw [partitions_exact 10 (by decide)]
  exact ⟨by decide, by decide, by decide⟩

end TF.W
