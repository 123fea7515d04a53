import Verif.Spec.ZhzValue
import Verif.Props.ZhzDoc
import Verif.Lemmas.ETLatexShows
import Verif.Lemmas.ETSum

/-! # The operators of the printed z_t terms -/

namespace TF.Zhz

open TF.Py TF.Spec.Zhz TF.Spec.ZhzValue TF.Spec.Tensor TF.Spec.Fock TF.Spec.ETValue TF.Tensor TF.Fock MvPolynomial
open TF.CC (Op HOp)

/-! ## Letters -/

section

variable {o : Op} {h : HOp}

/-- the printed term -/
def gsP (o : Op) (h : HOp) : PTerm := thirdP true (gsTerm o h) (gsZ o h)

theorem upper_h (hm : h.m ≤ o.n) (hn : o.m ≤ h.n) : upperOf (gsP o h).h = at' zUnlinked o.m h.m := by
  show upperOf (hLabels (gsTerm o h).h ⟨0, 0, 0⟩) = _
  unfold hLabels gsTerm
  simp only
  split
  · rw [show h.m = 0 by omega, at'_zero]; rfl
  · simp only [upperOf, letters]
    split
    · simp only [List.flatMap_cons, List.flatMap_nil, at'_zero, List.nil_append, List.append_nil]
      split
      · rw [Nat.zero_add]
      · rw [show o.m = 0 by omega]
    · rw [show h.m = 0 by omega, at'_zero]; rfl

theorem lower_h (hn : o.m ≤ h.n) : lowerOf (gsP o h).h = at' zSummation 0 (h.n - o.m) ++ at' zUnlinked 0 o.m := by
  show lowerOf (hLabels (gsTerm o h).h ⟨0, 0, 0⟩) = _
  unfold hLabels gsTerm
  simp only
  split
  · rw [show h.n - o.m = 0 by omega, show o.m = 0 by omega, at'_zero, at'_zero]; rfl
  · simp only [lowerOf, letters]
    split
    · simp only [List.flatMap_cons, List.flatMap_nil, at'_zero, List.nil_append, List.append_nil]
    · rw [show h.n - o.m = 0 by omega, show o.m = 0 by omega, at'_zero, at'_zero]; rfl

/-- the labels of z -/
def zLab (o : Op) (h : HOp) : Option Lab := rightLabels (gsZ o h) ⟨0, 0, h.n - o.m, 0, h.m + o.m⟩

theorem right_eq : (gsP o h).right = some (zLab o h) := rfl

theorem upper_z : upperOf (zLab o h) = at' zSummation 0 (h.n - o.m) ++ at' zUnlinked (h.m + o.m) (o.n - h.m) := by
  unfold zLab rightLabels gsZ
  simp only
  split
  · rw [show h.n - o.m = 0 by omega, show o.n - h.m = 0 by omega, at'_zero, at'_zero]; rfl
  · simp only [upperOf, letters]
    split
    · simp [List.flatMap_cons, List.flatMap_nil, at'_zero]
    · rw [show h.n - o.m = 0 by omega, show o.n - h.m = 0 by omega, at'_zero, at'_zero]; rfl

theorem lower_z : lowerOf (zLab o h) = [] := by
  unfold zLab rightLabels gsZ
  simp only
  split
  · rfl
  · simp [lowerOf, letters]

theorem occLab_eq (p : Place) (l : Option Lab) : occLab p l = (upperOf l).map (Occ.mk p true) ++ (lowerOf l).map (Occ.mk p false) := by
  cases l <;> rfl

theorem occurrences_eq : occurrences (gsP o h) =
    (upperOf (gsP o h).h).map (Occ.mk .h true) ++ (lowerOf (gsP o h).h).map (Occ.mk .h false) ++ (upperOf (zLab o h)).map (Occ.mk .right true) := by
  unfold occurrences
  rw [show (gsP o h).left = none from rfl, right_eq]
  simp only [occLab_eq, lower_z, List.nil_append, List.map_nil, List.append_nil]

theorem filter_mk (p : Place) (u u' : Bool) (l : List Char) :
    ((l.map (Occ.mk p u)).filter fun o => o.upper == u' && decide (o.letter ∉ zSummation)).map Occ.letter =
      if u = u' then l.filter fun c => decide (c ∉ zSummation) else [] := by
  induction l with
  | nil => simp
  | cons c l ih =>
    simp only [List.map_cons, List.filter_cons]
    by_cases hu : u = u'
    · subst hu
      simp only [if_true, beq_self_eq_true, Bool.true_and] at ih ⊢
      split
      · rw [List.map_cons, ih]
      · exact ih
    · have : (u == u') = false := by simpa using hu
      simp only [this, Bool.false_and, hu, if_false] at ih ⊢
      simpa using ih

theorem filter_U (a n : Nat) : (at' zUnlinked a n).filter (fun c => decide (c ∉ zSummation)) = at' zUnlinked a n := by
  rw [List.filter_eq_self]
  intro c hc
  have h1 : ∀ c ∈ zUnlinked, c ∉ zSummation := by decide
  exact decide_eq_true (h1 c (TF.ETLatex.mem_of_at' hc))

theorem filter_S (a n : Nat) : (at' zSummation a n).filter (fun c => decide (c ∉ zSummation)) = [] := by
  rw [List.filter_eq_nil_iff]
  intro c hc
  simpa using TF.ETLatex.mem_of_at' hc

theorem free_true (hm : h.m ≤ o.n) (hn : o.m ≤ h.n) :
    free true (gsP o h) = at' zUnlinked o.m h.m ++ at' zUnlinked (h.m + o.m) (o.n - h.m) := by
  unfold free
  rw [occurrences_eq, List.filter_append, List.filter_append, List.map_append, List.map_append, filter_mk, filter_mk, filter_mk, upper_h hm hn, upper_z,
    if_pos rfl, if_pos rfl, if_neg (by decide), List.filter_append, filter_U, filter_U, filter_S, List.append_nil, List.nil_append]

theorem free_false (hn : o.m ≤ h.n) : free false (gsP o h) = at' zUnlinked 0 o.m := by
  unfold free
  rw [occurrences_eq, List.filter_append, List.filter_append, List.map_append, List.map_append, filter_mk, filter_mk, filter_mk, lower_h hn,
    if_pos rfl, if_neg (by decide), if_neg (by decide), List.filter_append, filter_U, filter_S, List.append_nil, List.nil_append, List.nil_append]

/-- all letters -/
def allLetters (o : Op) (h : HOp) : List Char := at' zSummation 0 (h.n - o.m) ++ at' zUnlinked 0 (o.m + o.n)

theorem nodup_all : (allLetters o h).Nodup := by
  unfold allLetters
  rw [List.nodup_append]
  refine ⟨TF.ETLatex.nodup_at' (by decide) _ _, TF.ETLatex.nodup_at' (by decide) _ _, ?_⟩
  intro x hx y hy hxy
  subst hxy
  have h1 : ∀ c ∈ zUnlinked, c ∉ zSummation := by decide
  exact h1 x (TF.ETLatex.mem_of_at' hy) (TF.ETLatex.mem_of_at' hx)

theorem letters_U (hm : h.m ≤ o.n) :
    at' zUnlinked 0 (o.m + o.n) = at' zUnlinked 0 o.m ++ (at' zUnlinked o.m h.m ++ at' zUnlinked (h.m + o.m) (o.n - h.m)) := by
  rw [Nat.add_comm h.m, TF.ETLatex.at'_append, show h.m + (o.n - h.m) = o.n by omega]
  have := TF.ETLatex.at'_append zUnlinked 0 o.m o.n
  rw [Nat.zero_add] at this
  exact this.symm

theorem letters_perm (hm : h.m ≤ o.n) (hn : o.m ≤ h.n) : (((occurrences (gsP o h)).map Occ.letter).dedup).Perm (allLetters o h) := by
  rw [List.perm_ext_iff_of_nodup (List.nodup_dedup _) nodup_all]
  intro c
  rw [List.mem_dedup, occurrences_eq, upper_h hm hn, lower_h hn, upper_z]
  unfold allLetters
  rw [letters_U hm]
  simp only [List.map_append, List.map_map, List.mem_append, List.mem_map, Function.comp]
  simp only [exists_eq_right]
  tauto

end

/-! ## The operator -/

theorem weight_gs (o : Op) (h : HOp) :
    weight (gsTable o h) = o.m.factorial * h.m.factorial * (h.n - o.m).factorial * (o.n - h.m).factorial := by
  simp only [weight, places, List.map_cons, List.map_nil, List.prod_cons, List.prod_nil, gsTable, Nat.factorial_zero, Nat.one_mul, Nat.mul_one]
  ring

variable {R : Type} [CommRing R] [Algebra Rat R] {N : Nat}

/-- the operator of a term, without letters -/
noncomputable def opOf (A : Nat) (H Z : Nat × Nat → Arr R) (m n a c : Nat) (p : MvPolynomial (Fin N) R) : Ket R A N := fun x =>
  (1 / ((a.factorial * m.factorial * (n - a).factorial * c.factorial : Nat) : Rat)) •
    sumL N (n - a) fun L => sumL N a fun w => sumL N m fun v => sumL N c fun v' =>
      ((v ++ v').map (up N)).prod * C (∑ b : Fin A, H (m, n) ([x.val, b.val] ++ (v ++ (L ++ w))) * Z (n - a + c, 0) ([b.val] ++ (L ++ v'))) * w.foldr down p

theorem foldr_down (τ : Char → Nat) (l : List Char) (p : MvPolynomial (Fin N) R) : l.foldr (fun c p => down (τ c) p) p = (l.map τ).foldr down p := by
  rw [List.foldr_map]

theorem operator_gsP {o : Op} {h : HOp} (hm : h.m ≤ o.n) (hn : o.m ≤ h.n) (h5 : h.n - o.m ≤ 5) (h7 : o.m + o.n ≤ 7) (A : Nat) (f : R)
    (H Z : Nat × Nat → Arr R) (p : MvPolynomial (Fin N) R) :
    operator A f 1 H Z (gsP o h) p = opOf A H Z h.m h.n o.m (o.n - h.m) p := by
  have hg : contributes o ((o.n - h.m) + (h.n - o.m)) h = true := by
    simp only [contributes, Bool.and_eq_true, decide_eq_true_eq]; omega
  obtain ⟨hf, -, ⟨q, hq, hv⟩, -⟩ := gs_printed (List.mem_singleton.2 rfl : h ∈ [h]) hg
  have hf0 : (gsP o h).f = 0 := rfl
  have lS : (at' zSummation 0 (h.n - o.m)).length = h.n - o.m := TF.ETLatex.length_at' (by rw [show zSummation.length = 5 from rfl]; omega)
  have lU : ∀ a n, a + n ≤ 7 → (at' zUnlinked a n).length = n := fun a n ha => TF.ETLatex.length_at' (by rw [show zUnlinked.length = 7 from rfl]; omega)
  funext x
  unfold operator opOf
  rw [show (gsP o h).pref = some q from hq, Option.map_some, Option.getD_some, hv, weight_gs]
  congr 1
  rw [TF.Tensor.sumOver_perm _ (letters_perm hm hn) (List.nodup_dedup _), sumOver_list _ N _ (fun _ _ => rfl)]
  have hl : (allLetters o h).length = (h.n - o.m) + (o.m + (h.m + (o.n - h.m))) := by
    unfold allLetters
    rw [List.length_append, lS, lU _ _ (by omega)]
    omega
  rw [hl, sumL_add]
  refine sumL_congr fun L hL => ?_
  rw [sumL_add]
  refine sumL_congr fun w hw => ?_
  rw [sumL_add]
  refine sumL_congr fun v hvl => sumL_congr fun v' hv' => ?_
  have hτ := map_assign (allLetters o h) nodup_all (L ++ (w ++ (v ++ v'))) (fun _ => 0) (by rw [hl]; simp [hL, hw, hvl, hv'])
  generalize assign (allLetters o h) (L ++ (w ++ (v ++ v'))) (fun _ => 0) = τ at hτ
  unfold allLetters at hτ
  rw [letters_U hm, List.map_append, List.map_append, List.map_append] at hτ
  obtain ⟨t1, hτ⟩ := List.append_inj hτ (by rw [List.length_map, lS, hL])
  obtain ⟨t2, hτ⟩ := List.append_inj hτ (by rw [List.length_map, lU _ _ (by omega), hw])
  obtain ⟨t3, t4⟩ := List.append_inj hτ (by rw [List.length_map, lU _ _ (by omega), hvl])
  rw [free_true hm hn, free_false hn, foldr_down, t2, hf0, right_eq]
  have e1 : ((at' zUnlinked o.m h.m ++ at' zUnlinked (h.m + o.m) (o.n - h.m)).map fun c => up (R := R) N (τ c)) = (v ++ v').map (up N) := by
    rw [← t3, ← t4, ← List.map_append, List.map_map]
    rfl
  rw [e1, pow_zero, one_pow, one_mul, one_mul]
  congr 3
  refine Finset.sum_congr rfl fun b _ => ?_
  unfold entry
  simp only
  rw [upper_h hm hn, lower_h hn, upper_z, lower_z]
  simp only [List.length_append, List.map_append, List.length_nil, List.map_nil, List.append_nil]
  rw [t1, t2, t3, t4, lS, lU _ _ (by omega), lU _ _ (by omega), lU _ _ (by omega), show h.n - o.m + o.m = h.n by omega]

end TF.Zhz
