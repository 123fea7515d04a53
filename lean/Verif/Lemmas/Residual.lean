import Verif.Spec.Residual
import Verif.Lemmas.W
import Mathlib.Tactic.Ring

/-! # Lemmas about the residual strings -/

namespace TF.Residual

open TF.Py TF.Spec.Residual
open TF.W (collect collect_map_ok collect_ok_iff collect_error orderTags)

/-! ## digits -/

theorem num_digit {n : Nat} {c : Char} (h : c ∈ num n) : c.isDigit = true :=
  Nat.isDigit_of_mem_toDigits (by decide) (by decide) h

theorem not_mem_num {n : Nat} {c : Char} (h : c.isDigit = false) : c ∉ num n := by
  intro hc; rw [num_digit hc] at h; cases h

theorem num_ne_nil (n : Nat) : num n ≠ [] := Nat.toDigits_ne_nil

theorem parseInt_num (n : Nat) : parseInt (num n) = .ok n := by
  unfold parseInt
  rw [if_pos ⟨num_ne_nil n, List.all_eq_true.2 fun c hc => num_digit hc⟩]
  exact congrArg _ Nat.ofDigitChars_ten_toDigits

theorem num_one : num 1 = ['1'] := by decide
theorem num_two : num 2 = ['2'] := by decide

theorem takeWhile_stop {c : Char} (l r : List Char) (h : c ∉ l) :
    (l ++ c :: r).takeWhile (fun x => decide (x ≠ c)) = l := by
  induction l with
  | nil => simp
  | cons a l ih =>
    simp only [List.mem_cons, not_or] at h
    simp only [List.cons_append, List.takeWhile_cons]
    rw [if_pos (by simpa using fun e => h.1 e.symm), ih h.2]

theorem dropWhile_stop {c : Char} (l r : List Char) (h : c ∉ l) :
    (l ++ c :: r).dropWhile (fun x => decide (x ≠ c)) = c :: r := by
  induction l with
  | nil => simp
  | cons a l ih =>
    simp only [List.mem_cons, not_or] at h
    simp only [List.cons_append, List.dropWhile_cons]
    rw [if_pos (by simpa using fun e => h.1 e.symm), ih h.2]

theorem takeWhile_all {f : Char → Bool} : ∀ (l : List Char), (∀ c ∈ l, f c = true) → l.takeWhile f = l
  | [], _ => rfl
  | c :: l, h => by
    rw [List.takeWhile_cons, if_pos (h c (by simp)), takeWhile_all l fun d hd => h d (by simp [hd])]

theorem filter_num (n : Nat) : (num n).filter (fun c => decide (c ≠ '(') && decide (c ≠ ')')) = num n := by
  rw [List.filter_eq_self]
  intro c hc
  have h1 : c ≠ '(' := by rintro rfl; exact not_mem_num (by decide) hc
  have h2 : c ≠ ')' := by rintro rfl; exact not_mem_num (by decide) hc
  simp [h1, h2]

theorem count_num {n : Nat} {c : Char} (h : c.isDigit = false) : (num n).count c = 0 :=
  List.count_eq_zero.2 (not_mem_num h)

/-- `(a/t!)` -/
def core (a t : Nat) : List Char := ['('] ++ num a ++ ['/'] ++ num t ++ ['!', ')']

/-- what `extract` does with a text whose part before the first `*` reduces to `x/y!..` -/
theorem extract_parts (s x y r : List Char) (a b : Nat)
    (h : ((if s.contains '*' then s.takeWhile (fun c => decide (c ≠ '*')) else s).filter
      fun c => decide (c ≠ '(') && decide (c ≠ ')')) = x ++ '/' :: (y ++ r))
    (hx : x = num a) (hy : y = num b) (hr : r = [] ∨ ∃ q, r = '!' :: q ∧ '/' ∉ q) :
    extract s = .ok (a, b) := by
  subst hx hy
  unfold extract
  simp only []
  rw [h]
  have hs : '/' ∉ num a := not_mem_num (by decide)
  have hs2 : '/' ∉ num b := not_mem_num (by decide)
  have hb : '!' ∉ num b := not_mem_num (by decide)
  have hrs : '/' ∉ r := by
    rcases hr with rfl | ⟨q, rfl, hq⟩
    · simp
    · simp [hq]
  rw [if_neg (by
    rw [ne_eq, not_not, List.count_append, List.count_cons_self, List.count_append, List.count_eq_zero.2 hs,
      List.count_eq_zero.2 hs2, List.count_eq_zero.2 hrs]), takeWhile_stop _ _ hs, dropWhile_stop _ _ hs]
  have : ((('/' :: (num b ++ r)).drop 1).takeWhile fun c => decide (c ≠ '!')) = num b := by
    rw [List.drop_succ_cons, List.drop_zero]
    rcases hr with rfl | ⟨q, rfl, _⟩
    · rw [List.append_nil]
      exact takeWhile_all _ fun c hc => by
        have : c ≠ '!' := by rintro rfl; exact hb hc
        simp [this]
    · exact takeWhile_stop _ _ hb
  rw [this, parseInt_num, parseInt_num]

theorem star_core (a t : Nat) : '*' ∉ core a t := by
  have h1 : '*' ∉ num a := not_mem_num (by decide)
  have h2 : '*' ∉ num t := not_mem_num (by decide)
  simp [core, h1, h2]

theorem filter_core (a t : Nat) :
    (core a t).filter (fun c => decide (c ≠ '(') && decide (c ≠ ')')) = num a ++ '/' :: (num t ++ ['!']) := by
  unfold core
  rw [List.filter_append, List.filter_append, List.filter_append, List.filter_append, filter_num, filter_num]
  simp

theorem extract_core (a t : Nat) : extract (core a t) = .ok (a, t) := by
  refine extract_parts _ (num a) (num t) ['!'] a t ?_ rfl rfl (.inr ⟨[], rfl, by simp⟩)
  rw [if_neg (by simpa using star_core a t), filter_core]

theorem extract_coreHalf (a t : Nat) : extract (core a t ++ timesHalf) = .ok (a, t) := by
  refine extract_parts _ (num a) (num t) ['!'] a t ?_ rfl rfl (.inr ⟨[], rfl, by simp⟩)
  rw [if_pos (by simp [timesHalf]), show timesHalf = '*' :: ['(', '1', '/', '2', ')'] from rfl,
    takeWhile_stop _ _ (star_core a t), filter_core]

/-- text `(a/(2*<r>` with anything after the star -/
theorem extract_twice (a : Nat) (r : List Char) : extract (['('] ++ num a ++ ['/', '(', '2', '*'] ++ r) = .ok (a, 2) := by
  refine extract_parts _ (num a) (num 2) [] a 2 ?_ rfl rfl (.inl rfl)
  have h1 : '*' ∉ num a := not_mem_num (by decide)
  rw [if_pos (by simp), show ['('] ++ num a ++ ['/', '(', '2', '*'] ++ r = (['('] ++ num a ++ ['/', '(', '2']) ++ '*' :: r by simp,
    takeWhile_stop _ _ (by simp [h1]), List.filter_append, List.filter_append, filter_num]
  simp [num_two]

/-! ## substrings -/

theorem occurs_mem {sub : List Char} : ∀ {s : List Char}, occurs sub s = true → ∀ c ∈ sub, c ∈ s
  | [], h, c, hc => by
    unfold occurs at h
    rw [List.isEmpty_iff] at h
    subst h
    exact hc
  | x :: s, h, c, hc => by
    unfold occurs at h
    rw [Bool.or_eq_true] at h
    rcases h with h | h
    · exact (List.isPrefixOf_iff_prefix.1 h).subset hc
    · exact List.mem_cons_of_mem _ (occurs_mem h c hc)

theorem occurs_middle (sub : List Char) (r : List Char) : ∀ l : List Char, occurs sub (l ++ (sub ++ r)) = true
  | [] => by
    rw [List.nil_append]
    cases hs : sub ++ r with
    | nil =>
      have : sub = [] := (List.append_eq_nil_iff.1 hs).1
      simp [this, occurs]
    | cons c l =>
      unfold occurs
      have : sub.isPrefixOf (c :: l) = true := by
        rw [← hs]; exact List.isPrefixOf_iff_prefix.2 (List.prefix_append _ _)
      rw [this]; rfl
  | c :: l => by
    rw [List.cons_append]
    unfold occurs
    rw [occurs_middle sub r l, Bool.or_true]

theorem occurs_core (a t : Nat) (sub : List Char) (h : '*' ∈ sub) : occurs sub (core a t) = false := by
  by_contra hc
  rw [Bool.not_eq_false] at hc
  exact star_core a t (occurs_mem hc _ h)

theorem occurs_coreHalf (a t : Nat) : occurs timesHalf (core a t ++ timesHalf) = true := by
  have := occurs_middle timesHalf [] (core a t)
  rwa [List.append_nil] at this

theorem core_ne (a t : Nat) (r : List Char) : core a t ++ r ≠ timesHalf := by
  intro h
  have := congrArg List.head? h
  simp [core, timesHalf] at this

/-! ## simplification -/

theorem simplified_core (a t : Nat) :
    simplified (core a t) = .ok (if t = a ∧ (t = 1 ∨ t = 2) then [] else core a t) := by
  unfold simplified
  rw [extract_core]
  simp only []
  unfold simplifyWith
  rw [if_neg (by simpa using core_ne a t []), occurs_core a t timesHalf (by simp [timesHalf])]
  by_cases h : t = a
  · by_cases h2 : t = 1 ∨ t = 2
    · rw [if_pos h, if_neg (by simp), if_pos h2, if_pos ⟨h, h2⟩]
    · rw [if_pos h, if_neg (by simp), if_neg h2, if_neg (fun hc => h2 hc.2)]
  · rw [if_neg h, if_neg (by simp), if_neg (fun hc => h hc.1)]

theorem simplified_coreHalf (a t : Nat) :
    simplified (core a t ++ timesHalf) =
      if t = a then
        .ok (if t = 1 ∨ t = 2 then oneHalf else ['('] ++ num a ++ ['/', '(', '2', '*'] ++ num t ++ [')', ')'])
      else if a % 2 = 0 then .error .type
      else .ok ((core a t).take 3 ++ ['(', '2', '*'] ++ (core a t).drop 3 ++ [')']) := by
  unfold simplified
  rw [extract_coreHalf]
  simp only []
  unfold simplifyWith
  rw [if_neg (core_ne a t _), occurs_coreHalf]
  by_cases h : t = a
  · rw [if_pos h, if_pos rfl, if_pos h]
    by_cases h2 : t = 1 ∨ t = 2
    · rw [if_pos h2, if_pos h2]
    · rw [if_neg h2, if_neg h2]
  · rw [if_neg h, if_pos rfl, if_neg h]
    have hl : 3 ≤ (core a t).length := by
      have := num_ne_nil a
      have := num_ne_nil t
      have h1 := List.length_pos_iff.2 (num_ne_nil a)
      have h2 := List.length_pos_iff.2 (num_ne_nil t)
      simp only [core, List.length_append, List.length_cons, List.length_nil]
      omega
    have e1 : (core a t ++ timesHalf).take 3 = (core a t).take 3 := by
      rw [List.take_append_of_le_length hl]
    have e2 : slice (core a t ++ timesHalf) 3 ((core a t ++ timesHalf).length - 6) = (core a t).drop 3 := by
      unfold slice
      rw [show (core a t ++ timesHalf).length - 6 = (core a t).length by simp [timesHalf],
        List.take_append_of_le_length le_rfl, List.take_length]
    rw [e1, e2]

/-! ## the printed number -/

theorem pTerm_core (a t : Nat) : pTerm (core a t) = .ok (.frac a t.factorial) := by
  unfold pTerm
  rw [if_neg (by simp [core]), if_neg (by
    intro h
    apply star_core a t
    rw [h]; simp), extract_core]
  simp only []
  rw [occurs_core a t _ (by simp)]
  rfl

theorem pTerm_oneHalf : pTerm oneHalf = .ok (.frac 1 2) := by decide

theorem pTerm_twice (a : Nat) (r : List Char) (hr : ' ' ∉ r) :
    pTerm (['('] ++ num a ++ ['/', '(', '2', '*'] ++ r) = .ok (.twice a 2) := by
  unfold pTerm
  rw [if_neg (by simp), if_neg (by
    intro h
    have h1 : ' ' ∉ num a := not_mem_num (by decide)
    have : ' ' ∉ ['('] ++ num a ++ ['/', '(', '2', '*'] ++ r := by simp [h1, hr]
    rw [h] at this
    simp [oneHalf] at this), extract_twice]
  simp only []
  have := occurs_middle ['/', '(', '2', '*'] r (['('] ++ num a)
  rw [← List.append_assoc] at this
  rw [this]
  rfl

/-! ## labels -/

theorem count_labels_self (x : Char) (hx : x.isDigit = false) (hx2 : x ≠ '_') (hx3 : x ≠ ',') (l : List Nat) :
    (labels x l).count x = l.length := by
  induction l with
  | nil => rfl
  | cons a l ih =>
    unfold labels at ih ⊢
    rw [List.flatMap_cons, List.count_append, ih]
    have : ([x, '_'] ++ num a ++ [',']).count x = 1 := by
      rw [List.count_append, List.count_append, count_num hx]
      have h1 : ¬ '_' = x := fun e => hx2 e.symm
      have h2 : ¬ ',' = x := fun e => hx3 e.symm
      simp [h1, h2]
    rw [this, List.length_cons]; omega

theorem count_labels_other (x y : Char) (hy : y.isDigit = false) (hy1 : y ≠ x) (hy2 : y ≠ '_') (hy3 : y ≠ ',') (l : List Nat) :
    (labels x l).count y = 0 := by
  rw [List.count_eq_zero]
  intro h
  obtain ⟨a, _, ha⟩ := List.mem_flatMap.1 h
  simp only [List.cons_append, List.nil_append, List.mem_cons, List.mem_append, List.not_mem_nil, or_false] at ha
  rcases ha with h | h | h | h
  · exact hy1 h
  · exact hy2 h
  · exact not_mem_num hy h
  · exact hy3 h

theorem labels_append (x : Char) (l : List Nat) (a : Nat) :
    labels x (l ++ [a]) = labels x l ++ [x, '_'] ++ num a ++ [','] := by
  unfold labels
  simp

/-- every non-empty run of labels ends with a comma -/
theorem labels_comma (x : Char) (l : List Nat) (h : l ≠ []) : ∃ s, labels x l = s ++ [','] := by
  obtain ⟨l', a, rfl⟩ := List.eq_nil_or_concat l |>.resolve_left h
  rw [List.concat_eq_append, labels_append]
  exact ⟨_, rfl⟩

theorem range2_succ_ne_nil {a b : Nat} (h : a < b) : range2 a b ≠ [] := by
  unfold range2
  intro hc
  have := congrArg List.length hc
  simp at this
  omega

theorem length_range2 (a b : Nat) : (range2 a b).length = b - a := by simp [range2]

/-- the text after `w` -/
theorem upperW_some (h : HOp) (p : Nat) (h1 : h.m ≤ p) (h2 : p - h.m + h.n ≠ 0) :
    ∃ s, ['^', '{'] ++ labels 'i' (range2 (h.m + 1) (p + 1)) ++ labels 'k' (range2 1 (h.n + 1)) = s ++ [','] ∧
      upperW h p = .ok (s ++ ['}']) := by
  have key : ∃ s, ['^', '{'] ++ labels 'i' (range2 (h.m + 1) (p + 1)) ++ labels 'k' (range2 1 (h.n + 1)) = s ++ [','] := by
    by_cases hn : h.n = 0
    · obtain ⟨s, hs⟩ := labels_comma 'i' (range2 (h.m + 1) (p + 1)) (range2_succ_ne_nil (by omega))
      refine ⟨['^', '{'] ++ s, ?_⟩
      rw [hn, hs]
      simp [range2, labels]
    · obtain ⟨s, hs⟩ := labels_comma 'k' (range2 1 (h.n + 1)) (range2_succ_ne_nil (by omega))
      exact ⟨['^', '{'] ++ labels 'i' (range2 (h.m + 1) (p + 1)) ++ s, by rw [hs]; simp⟩
  obtain ⟨s, hs⟩ := key
  refine ⟨s, hs, ?_⟩
  unfold upperW
  rw [if_neg (by omega)]
  simp only []
  rw [hs, if_neg (by
    intro hc
    have := congrArg List.getLast? hc
    simp at this), List.dropLast_concat]

theorem wTerm_counts (h : HOp) (p : Nat) (h1 : h.m ≤ p) (w : List Char) (hw : upperW h p = .ok w) :
    wTerm ('w' :: w) = (p - h.m, h.n, p - h.m + h.n) := by
  unfold wTerm
  rw [if_neg (by simp)]
  by_cases h2 : p - h.m + h.n = 0
  · have : upperW h p = .ok [] := by unfold upperW; rw [if_pos (by omega)]
    rw [this] at hw
    injection hw with hw
    subst hw
    have e1 : p - h.m = 0 := by omega
    have e2 : h.n = 0 := by omega
    rw [e1, e2]
    decide
  · obtain ⟨s, hs, he⟩ := upperW_some h p h1 h2
    rw [he] at hw
    injection hw with hw
    subst hw
    have ci : ∀ c, c ≠ ',' → c ≠ 'w' → c ≠ '}' → ('w' :: (s ++ ['}'])).count c = (s ++ [',']).count c := by
      intro c h1 h2 h3
      have e1 : ¬ '}' = c := fun e => h3 e.symm
      have e2 : ¬ ',' = c := fun e => h1 e.symm
      have e3 : ¬ 'w' = c := fun e => h2 e.symm
      simp [List.count_append, e1, e2, e3]
    rw [ci 'i' (by decide) (by decide) (by decide), ci 'k' (by decide) (by decide) (by decide), ← hs]
    simp only [List.count_append]
    rw [count_labels_self 'i' (by decide) (by decide) (by decide), count_labels_self 'k' (by decide) (by decide) (by decide),
      count_labels_other 'i' 'k' (by decide) (by decide) (by decide) (by decide),
      count_labels_other 'k' 'i' (by decide) (by decide) (by decide) (by decide), length_range2, length_range2]
    simp only [show (['^', '{'] : List Char).count 'i' = 0 by decide, show (['^', '{'] : List Char).count 'k' = 0 by decide]
    have e1 : p + 1 - (h.m + 1) = p - h.m := by omega
    have e2 : h.n + 1 - 1 = h.n := by omega
    rw [e1, e2]
    simp

/-! ## texts -/

theorem commaJoin_concat : ∀ (l : List (List Char)), l ≠ [] → (l.flatMap fun s => s ++ [',']) = commaJoin l ++ [',']
  | [], h => absurd rfl h
  | [a], _ => by simp [commaJoin]
  | a :: b :: l, _ => by
    rw [List.flatMap_cons, commaJoin_concat (b :: l) (by simp), commaJoin]
    simp

theorem labels_names (x : Char) (a b : Nat) : labels x (range2 a b) = (names x a (b - a)).flatMap fun s => s ++ [','] := by
  unfold labels range2 names
  rw [List.flatMap_map, List.flatMap_map]
  apply List.flatMap_congr
  intro j _
  rw [show j + a = a + j by omega]
  rfl

theorem length_names (x : Char) (a k : Nat) : (names x a k).length = k := by simp [names]

theorem names_ne_nil {x : Char} {a k : Nat} (h : k ≠ 0) : names x a k ≠ [] := by
  intro hc
  have := congrArg List.length hc
  rw [length_names] at this
  exact h this

theorem hResult_eq (h : HOp) (p : Nat) (hp : h.m ≤ p) : ['h'] ++ upperH h p ++ lowerH h p = hText h := by
  have e1 : upperH h p = if h.m = 0 then [] else ['^', '{'] ++ commaJoin (names 'i' 1 h.m) ++ ['}'] := by
    unfold upperH
    by_cases h0 : h.m = 0
    · rw [if_pos (.inl h0), if_pos h0]
    · rw [if_neg (by omega), if_neg h0, labels_names, show h.m + 1 - 1 = h.m by omega, commaJoin_concat _ (names_ne_nil h0),
        ← List.append_assoc, List.dropLast_concat]
  have e2 : lowerH h p = if h.m = 0 ∧ h.n = 0 then ['_', '0'] else if h.n = 0 then [] else
      ['_', '{'] ++ commaJoin (names 'k' 1 h.n) ++ ['}'] := by
    unfold lowerH
    by_cases h0 : h.m = 0 ∧ h.n = 0
    · rw [if_pos h0, if_pos h0]
    · rw [if_neg h0, if_neg h0]
      by_cases h1 : h.n = 0
      · rw [if_pos (.inl h1), if_pos h1]
      · rw [if_neg (by omega), if_neg h1, labels_names, show h.n + 1 - 1 = h.n by omega, commaJoin_concat _ (names_ne_nil h1),
          ← List.append_assoc, List.dropLast_concat]
  rw [e1, e2]
  rfl

theorem upperW_text (h : HOp) (p : Nat) (hp : h.m ≤ p) :
    ∃ w, upperW h p = .ok w ∧ (if 'w' :: w = ['w'] then [] else [' ', '*', ' '] ++ 'w' :: w) = wText h p := by
  unfold wText
  by_cases h2 : p - h.m + h.n = 0
  · refine ⟨[], ?_, ?_⟩
    · unfold upperW; rw [if_pos (by omega)]
    · rw [if_pos rfl, if_pos h2]
  · obtain ⟨s, hs, he⟩ := upperW_some h p hp h2
    refine ⟨_, he, ?_⟩
    rw [if_neg (by simp), if_neg h2]
    have hne : names 'i' (h.m + 1) (p - h.m) ++ names 'k' 1 h.n ≠ [] := by
      intro hc
      have := congrArg List.length hc
      rw [List.length_append, length_names, length_names] at this
      exact h2 this
    rw [labels_names, labels_names, show p + 1 - (h.m + 1) = p - h.m by omega, show h.n + 1 - 1 = h.n by omega,
      List.append_assoc, ← List.flatMap_append, commaJoin_concat _ hne, ← List.append_assoc] at hs
    have := List.append_cancel_right hs
    rw [← this]
    simp

/-- labels below 10 contain no `0` -/
theorem zero_names (x : Char) (hx : x ≠ '0') (k : Nat) (hk : k ≤ 9) : '0' ∉ commaJoin (names x 1 k) := by
  intro hc
  have key : ∀ l : List (List Char), '0' ∈ commaJoin l → ∃ s ∈ l, '0' ∈ s := by
    intro l
    induction l with
    | nil => intro h; simp [commaJoin] at h
    | cons a l ih =>
      cases l with
      | nil => intro h; exact ⟨a, by simp, by simpa [commaJoin] using h⟩
      | cons b l =>
        intro h
        rw [commaJoin, List.mem_append, List.mem_append] at h
        rcases h with (h | h) | h
        · exact ⟨a, by simp, h⟩
        · simp at h
        · obtain ⟨s, h1, h2⟩ := ih h
          exact ⟨s, by simp [List.mem_cons.1 h1], h2⟩
  obtain ⟨s, h1, h2⟩ := key _ hc
  obtain ⟨j, hj, rfl⟩ := List.mem_map.1 h1
  rw [List.mem_range] at hj
  rw [List.mem_append, List.mem_cons, List.mem_singleton] at h2
  rcases h2 with (h2 | h2) | h2
  · exact hx h2.symm
  · exact absurd h2 (by decide)
  · have : 1 + j < 10 := by omega
    unfold decimal at h2
    rw [Nat.toDigits_of_lt_base this, List.mem_singleton] at h2
    have key0 : ∀ j, j < 9 → '0' ≠ (1 + j).digitChar := by decide
    exact key0 j (by omega) h2

theorem count_commaJoin (l : List (List Char)) (c : Char) (hc : c ≠ ',') :
    (commaJoin l).count c = (l.map fun s => s.count c).sum := by
  by_cases hl : l = []
  · subst hl; rfl
  · have := congrArg (List.count c) (commaJoin_concat l hl)
    have hcc : ¬ ',' = c := fun e => hc e.symm
    rw [List.count_append, show ([','] : List Char).count c = 0 by simp [hcc], Nat.add_zero] at this
    rw [← this, List.count_flatMap]
    congr 1
    apply List.map_congr_left
    intro s _
    simp [hcc]

theorem count_names_self (x : Char) (hx : x.isDigit = false) (hx2 : x ≠ '_') (hx3 : x ≠ ',') (a k : Nat) :
    (commaJoin (names x a k)).count x = k := by
  rw [count_commaJoin _ _ hx3]
  unfold names
  rw [List.map_map]
  have : ∀ j, (([x, '_'] ++ decimal (a + j)).count x) = 1 := by
    intro j
    have h1 : ¬ '_' = x := fun e => hx2 e.symm
    have := count_num (n := a + j) hx
    rw [List.count_append, show (decimal (a + j)).count x = 0 from this]
    simp [h1]
  rw [show ((fun s => List.count x s) ∘ fun j => [x, '_'] ++ decimal (a + j)) = fun _ => 1 from funext this]
  simp

theorem count_names_other (x y : Char) (hy : y.isDigit = false) (hxy : y ≠ x) (hy2 : y ≠ '_') (hy3 : y ≠ ',') (a k : Nat) :
    (commaJoin (names x a k)).count y = 0 := by
  rw [count_commaJoin _ _ hy3]
  unfold names
  rw [List.map_map]
  have : ∀ j, (([x, '_'] ++ decimal (a + j)).count y) = 0 := by
    intro j
    have h1 : ¬ '_' = y := fun e => hy2 e.symm
    have h2 : ¬ x = y := fun e => hxy e.symm
    have := count_num (n := a + j) hy
    rw [List.count_append, show (decimal (a + j)).count y = 0 from this]
    simp [h1, h2]
  rw [show ((fun s => List.count y s) ∘ fun j => [x, '_'] ++ decimal (a + j)) = fun _ => 0 from funext this]
  simp

theorem hTerm_small (h : HOp) (hm : h.m ≤ 9) (hn : h.n ≤ 9) : hTerm (hText h) = (h.m, h.n) := by
  have ci : (hText h).count 'i' = h.m := by
    unfold hText
    by_cases h0 : h.m = 0
    · rw [if_pos h0]
      by_cases h1 : h.n = 0
      · rw [if_pos ⟨h0, h1⟩, h0]; decide
      · rw [if_neg (by omega), if_neg h1]
        simp only [List.count_append]
        rw [count_names_other 'k' 'i' (by decide) (by decide) (by decide) (by decide), h0]; decide
    · rw [if_neg h0, if_neg (by omega)]
      by_cases h1 : h.n = 0
      · rw [if_pos h1]
        simp only [List.count_append]
        rw [count_names_self 'i' (by decide) (by decide) (by decide)]
        simp
      · rw [if_neg h1]
        simp only [List.count_append]
        rw [count_names_self 'i' (by decide) (by decide) (by decide), count_names_other 'k' 'i' (by decide) (by decide) (by decide) (by decide)]
        simp
  have ck : (hText h).count 'k' = h.n := by
    unfold hText
    by_cases h0 : h.m = 0
    · rw [if_pos h0]
      by_cases h1 : h.n = 0
      · rw [if_pos ⟨h0, h1⟩, h1]; decide
      · rw [if_neg (by omega), if_neg h1]
        simp only [List.count_append]
        rw [count_names_self 'k' (by decide) (by decide) (by decide)]; simp
    · rw [if_neg h0, if_neg (by omega)]
      by_cases h1 : h.n = 0
      · rw [if_pos h1]
        simp only [List.count_append]
        rw [count_names_other 'i' 'k' (by decide) (by decide) (by decide) (by decide), h1]; decide
      · rw [if_neg h1]
        simp only [List.count_append]
        rw [count_names_self 'k' (by decide) (by decide) (by decide), count_names_other 'i' 'k' (by decide) (by decide) (by decide) (by decide)]
        simp
  unfold hTerm
  split
  · rename_i hz
    by_cases h00 : h.m = 0 ∧ h.n = 0
    · rw [h00.1, h00.2]
    · exfalso
      have hz : '0' ∈ hText h := by simpa using hz
      have z1 := zero_names 'i' (by decide) h.m hm
      have z2 := zero_names 'k' (by decide) h.n hn
      unfold hText at hz
      rw [if_neg h00] at hz
      rw [List.mem_append, List.mem_append] at hz
      rcases hz with (hz | hz) | hz
      · simp at hz
      · split at hz
        · simp at hz
        · simp [z1] at hz
      · split at hz
        · simp at hz
        · simp [z2] at hz
  · rw [ci, ck]

/-! ## the prefactor -/

/-- the numerator of the fraction -/
def numer (n i : Nat) : Nat := if i = 1 ∨ n = 1 then i + n else if n > 1 ∧ i > 1 then (List.range (i + n)).sum else 1

theorem fraction_core (n i : Nat) (_h : i + n ≠ 0) : fraction n i = core (numer n i) (i + n) := by
  unfold fraction numer
  by_cases h1 : i = 1 ∨ n = 1
  · rw [if_pos h1, if_pos h1]; rfl
  · rw [if_neg h1, if_neg h1]
    by_cases h2 : n > 1 ∧ i > 1
    · rw [if_pos h2, if_pos h2]; rfl
    · rw [if_neg h2, if_neg h2, if_pos (by omega)]
      unfold core
      rw [num_one]
      rfl

theorem range_sum (T : Nat) : 2 * (List.range T).sum = T * (T - 1) := by
  induction T with
  | zero => rfl
  | succ T ih =>
    rw [List.range_succ, List.sum_append, Nat.mul_add, ih]
    cases T with
    | zero => rfl
    | succ T => simp only [List.sum_cons, List.sum_nil, Nat.add_sub_cancel]; ring

theorem raw_eq (h : HOp) (p : Nat) (hp : h.m ≤ p) (h0 : p - h.m + h.n ≠ 0) :
    constructPrefactor h p false = .ok (core (numer h.n (p - h.m)) (p - h.m + h.n) ++ if h.m = 2 then timesHalf else []) := by
  unfold constructPrefactor
  rw [if_neg (by omega), if_neg h0, fraction_core _ _ h0]
  rfl

theorem final_eq (h : HOp) (p : Nat) (hp : h.m ≤ p) (h0 : p - h.m + h.n ≠ 0) :
    constructPrefactor h p true = simplified (core (numer h.n (p - h.m)) (p - h.m + h.n) ++ if h.m = 2 then timesHalf else []) := by
  unfold constructPrefactor
  rw [if_neg (by omega), if_neg h0, fraction_core _ _ h0]
  rfl

/-- the prefactor that is printed -/
def printed (h : HOp) (p : Nat) : Except PyErr PTerm :=
  match constructPrefactor h p true with
  | .error e => .error e
  | .ok pre => pTerm pre

theorem printed_zero (h : HOp) (p : Nat) (hp : h.m ≤ p) (h0 : p - h.m + h.n = 0) :
    printed h p = .ok (if h.m = 2 then .frac 1 2 else .one) := by
  unfold printed constructPrefactor
  rw [if_neg (by omega), if_pos h0]
  by_cases h2 : h.m = 2
  · rw [if_pos h2, if_pos h2]; exact pTerm_oneHalf
  · rw [if_neg h2, if_neg h2]; rfl

theorem printed_ne_two (h : HOp) (p : Nat) (hp : h.m ≤ p) (h0 : p - h.m + h.n ≠ 0) (h2 : h.m ≠ 2) :
    printed h p = .ok (if p - h.m + h.n = numer h.n (p - h.m) ∧ (p - h.m + h.n = 1 ∨ p - h.m + h.n = 2) then .one
      else .frac (numer h.n (p - h.m)) (p - h.m + h.n).factorial) := by
  unfold printed
  rw [final_eq h p hp h0, if_neg h2, List.append_nil, simplified_core]
  simp only []
  split
  · rfl
  · exact pTerm_core _ _

/-- `m = 2`: the simplified text is `(1/2)` or starts with `(a/(2*`, or the simplification raises -/
theorem printed_two (h : HOp) (p : Nat) (hp : h.m ≤ p) (h0 : p - h.m + h.n ≠ 0) (h2 : h.m = 2) :
    (¬ (2 ≤ h.n ∧ 2 ≤ p - 2) → printed h p = .ok (
      if (p - 2 = 1 ∨ h.n = 1) then
        if p - 2 + h.n = 1 ∨ p - 2 + h.n = 2 then .frac 1 2 else .twice (p - 2 + h.n) 2
      else .twice 1 2)) ∧
    (2 ≤ h.n ∧ 2 ≤ p - 2 → ∃ e, printed h p = .error e) := by
  unfold printed
  rw [final_eq h p hp h0, if_pos h2, simplified_coreHalf]
  rw [h2] at h0 ⊢
  constructor
  · intro hcase
    by_cases h1 : p - 2 = 1 ∨ h.n = 1
    · have e : numer h.n (p - 2) = p - 2 + h.n := by unfold numer; rw [if_pos h1]
      rw [e, if_pos rfl, if_pos h1]
      by_cases h3 : p - 2 + h.n = 1 ∨ p - 2 + h.n = 2
      · rw [if_pos h3, if_pos h3]; exact pTerm_oneHalf
      · rw [if_neg h3, if_neg h3]
        simp only []
        have hs : ' ' ∉ num (p - 2 + h.n) := not_mem_num (by decide)
        rw [List.append_assoc]
        exact pTerm_twice _ _ (by simp [hs])
    · have e : numer h.n (p - 2) = 1 := by unfold numer; rw [if_neg h1, if_neg (by omega)]
      rw [e, if_neg (by omega), if_neg (by decide), if_neg h1]
      simp only []
      have hs : ' ' ∉ num (p - 2 + h.n) := not_mem_num (by decide)
      have e2 : (core 1 (p - 2 + h.n)).take 3 ++ ['(', '2', '*'] ++ (core 1 (p - 2 + h.n)).drop 3 ++ [')'] =
          ['('] ++ num 1 ++ ['/', '(', '2', '*'] ++ (num (p - 2 + h.n) ++ ['!', ')', ')']) := by
        unfold core
        rw [num_one]
        simp
      rw [e2]
      exact pTerm_twice _ _ (by simp [hs])
  · intro hcase
    have hT : 4 ≤ p - 2 + h.n := by omega
    have e : numer h.n (p - 2) = (List.range (p - 2 + h.n)).sum := by
      unfold numer; rw [if_neg (by omega), if_pos (by omega)]
    have hsum := range_sum (p - 2 + h.n)
    rw [e]
    generalize hS : (List.range (p - 2 + h.n)).sum = S at hsum
    generalize p - 2 + h.n = T at hsum hT
    have hne : T ≠ S := by
      rintro rfl
      have : T - 1 = 2 := Nat.eq_of_mul_eq_mul_left (by omega : 0 < T) (by rw [← hsum]; ring)
      omega
    rw [if_neg hne]
    by_cases hev : S % 2 = 0
    · exact ⟨_, by rw [if_pos hev]⟩
    · rw [if_neg hev]
      have h10 : 10 ≤ S := by
        by_contra hc
        have h5 : T < 5 := by
          by_contra h5
          have : 5 * 4 ≤ T * (T - 1) := Nat.mul_le_mul (by omega) (by omega)
          omega
        have : T = 4 := by omega
        subst this
        omega
      simp only []
      have hl : 2 ≤ (num S).length := by
        by_contra hc
        have := (Nat.length_toDigits_le_iff (b := 10) (n := S) (k := 1) (by decide) (by decide)).1 (by unfold num at hc; omega)
        omega
      obtain ⟨c, l, hcl⟩ := List.exists_cons_of_ne_nil (num_ne_nil S)
      obtain ⟨d, l2, hdl⟩ := List.exists_cons_of_ne_nil (l := l) (by rintro rfl; rw [hcl] at hl; simp at hl)
      subst hdl
      have hcd : c.isDigit = true := num_digit (n := S) (by rw [hcl]; simp)
      have hdd : d.isDigit = true := num_digit (n := S) (by rw [hcl]; simp)
      have et : (core S T).take 3 = ['(', c, d] := by
        unfold core; rw [hcl]; simp
      rw [et]
      generalize (core S T).drop 3 = rest
      have nc : ∀ x : Char, x.isDigit = false → c ≠ x ∧ d ≠ x := by
        intro x hx
        exact ⟨(by rintro rfl; rw [hcd] at hx; cases hx), (by rintro rfl; rw [hdd] at hx; cases hx)⟩
      have hx : extract (['(', c, d] ++ ['(', '2', '*'] ++ rest ++ [')']) = .error .value := by
        unfold extract
        simp only []
        have e1 : (if (['(', c, d] ++ ['(', '2', '*'] ++ rest ++ [')']).contains '*' then
            (['(', c, d] ++ ['(', '2', '*'] ++ rest ++ [')']).takeWhile (fun c => decide (c ≠ '*'))
            else ['(', c, d] ++ ['(', '2', '*'] ++ rest ++ [')']) = ['(', c, d, '(', '2'] := by
          rw [if_pos (by simp), show ['(', c, d] ++ ['(', '2', '*'] ++ rest ++ [')'] = ['(', c, d, '(', '2'] ++ '*' :: (rest ++ [')']) by simp]
          apply takeWhile_stop
          have := nc '*' (by decide)
          simp [this.1.symm, this.2.symm]
        rw [e1]
        have n1 := nc '(' (by decide)
        have n2 := nc ')' (by decide)
        have n3 := nc '/' (by decide)
        have e2 : (['(', c, d, '(', '2'].filter fun c => decide (c ≠ '(') && decide (c ≠ ')')) = [c, d, '2'] := by
          simp [n1.1, n1.2, n2.1, n2.2]
        rw [e2, if_pos (by
          rw [List.count_eq_zero.2 (by simp [n3.1.symm, n3.2.symm])]
          decide)]
      refine ⟨.value, ?_⟩
      unfold pTerm
      rw [if_neg (by simp), if_neg (by
        intro hc
        have h3 := congrArg (fun l => l[2]?) hc
        simp [oneHalf] at h3
        exact (nc '/' (by decide)).2 h3), hx]

end TF.Residual

namespace TF.Residual

open TF.Py TF.Spec.Residual
open TF.W (collect collect_map_ok collect_ok_iff collect_error orderTags)

/-! ## terms -/

theorem termOf_skip (p : Nat) (h : HOp) (hp : p < h.m) : termOf p h = .ok none := by
  unfold termOf
  have e1 : upperW h p = .ok [] := by unfold upperW; rw [if_pos (by omega)]
  have e2 : constructPrefactor h p true = .ok [] := by unfold constructPrefactor; rw [if_pos (by omega)]
  have e3 : upperH h p = [] := by unfold upperH; rw [if_pos (by omega)]
  have e4 : lowerH h p = [] := by unfold lowerH; rw [if_neg (by omega), if_pos (by omega)]
  rw [e1, e2, e3, e4]
  rfl

theorem hText_ne (h : HOp) : hText h ≠ ['h'] := by
  unfold hText
  intro hc
  by_cases h0 : h.m = 0
  · rw [if_pos h0] at hc
    by_cases h1 : h.n = 0
    · rw [if_pos ⟨h0, h1⟩] at hc; simp at hc
    · rw [if_neg (by omega), if_neg h1] at hc; simp at hc
  · rw [if_neg h0] at hc; simp at hc

/-- the text of the prefactor -/
def prefText (h : HOp) (p : Nat) : List Char :=
  match constructPrefactor h p true with
  | .error _ => []
  | .ok pre => if pre = [] then [] else pre ++ [' ', '*', ' ']

theorem termOf_eq (p : Nat) (h : HOp) (hp : h.m ≤ p) :
    termOf p h = (printed h p).map fun pt =>
      some (prefText h p ++ hText h ++ wText h p, ⟨pt, hTerm (hText h), (p - h.m, h.n, p - h.m + h.n)⟩) := by
  obtain ⟨w, hw, ht⟩ := upperW_text h p hp
  unfold termOf printed prefText
  simp only [hw]
  rw [hResult_eq h p hp]
  cases constructPrefactor h p true with
  | error e => rfl
  | ok pre =>
    simp only []
    rw [if_neg (hText_ne h)]
    cases pTerm pre with
    | error e => rfl
    | ok pt =>
      simp only [Except.map]
      rw [ht, wTerm_counts h p hp w hw]

theorem mem_hamiltonian (r : Nat) (h : HOp) : h ∈ hamiltonian r ↔ h.m + h.n ≤ r := by
  unfold hamiltonian
  rw [List.mem_flatMap]
  constructor
  · rintro ⟨m, hm, hn⟩
    obtain ⟨n, hn2, rfl⟩ := List.mem_map.1 hn
    rw [List.mem_range] at hm hn2
    simp only []
    omega
  · intro hr
    exact ⟨h.m, List.mem_range.2 (by omega), List.mem_map.2 ⟨h.n, List.mem_range.2 (by omega), rfl⟩⟩

theorem nodup_hamiltonian (r : Nat) : (hamiltonian r).Nodup := by
  unfold hamiltonian
  rw [List.nodup_flatMap]
  refine ⟨fun m _ => List.nodup_range.map fun a b hab => by simpa using hab, ?_⟩
  refine List.Pairwise.imp ?_ List.nodup_range
  intro a b hab x hx hy
  obtain ⟨n, _, rfl⟩ := List.mem_map.1 hx
  obtain ⟨n', _, he⟩ := List.mem_map.1 hy
  simp only [HOp.mk.injEq] at he
  exact hab he.1.symm

/-- the printed prefactor when there is one -/
def prefAt (h : HOp) (p : Nat) : PTerm := match printed h p with | .ok t => t | .error _ => .one

theorem printed_ok (h : HOp) (p : Nat) (hp : h.m ≤ p) (hc : ¬ (h.m = 2 ∧ 2 ≤ h.n ∧ 4 ≤ p)) : printed h p = .ok (prefAt h p) := by
  have : ∃ t, printed h p = .ok t := by
    by_cases h0 : p - h.m + h.n = 0
    · exact ⟨_, printed_zero h p hp h0⟩
    · by_cases h2 : h.m = 2
      · exact ⟨_, (printed_two h p hp h0 h2).1 (by omega)⟩
      · exact ⟨_, printed_ne_two h p hp h0 h2⟩
  obtain ⟨t, ht⟩ := this
  unfold prefAt
  rw [ht]

/-- the entry for `h` -/
def entryAt (p : Nat) (h : HOp) : List Char × RTerm :=
  (prefText h p ++ hText h ++ wText h p, ⟨prefAt h p, hTerm (hText h), (p - h.m, h.n, p - h.m + h.n)⟩)

theorem filterMap_if {α β : Type} (l : List α) (c : α → Prop) [DecidablePred c] (f : α → β) :
    (l.map fun a => if c a then some (f a) else none).filterMap id = (l.filter fun a => decide (c a)).map f := by
  induction l with
  | nil => rfl
  | cons a l ih =>
    rw [List.map_cons, List.filterMap_cons, List.filter_cons]
    by_cases h : c a
    · rw [if_pos h, if_pos (by simpa using h), ih]; rfl
    · rw [if_neg h, if_neg (by simpa using h), ih]; rfl

theorem residualList_eq (r p : Nat) (hc : ¬ (4 ≤ r ∧ 4 ≤ p)) :
    residualList (hamiltonian r) p = .ok (((hamiltonian r).filter fun h => decide (h.m ≤ p)).map (entryAt p)) := by
  unfold residualList
  rw [collect_map_ok (termOf p) (fun h => if h.m ≤ p then some (entryAt p h) else none) (hamiltonian r) fun h hh => by
    rw [mem_hamiltonian] at hh
    by_cases hp : h.m ≤ p
    · rw [termOf_eq p h hp, printed_ok h p hp (by omega), if_pos hp]; rfl
    · rw [termOf_skip p h (by omega), if_neg hp]]
  show Except.ok (List.filterMap id _) = _
  rw [filterMap_if]

theorem residualList_error (r p : Nat) (h1 : 4 ≤ r) (h2 : 4 ≤ p) : ∃ e, residualList (hamiltonian r) p = .error e := by
  cases h : residualList (hamiltonian r) p with
  | error e => exact ⟨e, rfl⟩
  | ok l =>
    exfalso
    unfold residualList at h
    cases hc : collect ((hamiltonian r).map (termOf p)) with
    | error e => rw [hc] at h; cases h
    | ok l' =>
      rw [collect_ok_iff] at hc
      have hm : termOf p ⟨2, 2⟩ ∈ (hamiltonian r).map (termOf p) :=
        List.mem_map.2 ⟨⟨2, 2⟩, (mem_hamiltonian r _).2 h1, rfl⟩
      rw [hc] at hm
      obtain ⟨x, _, hx⟩ := List.mem_map.1 hm
      rw [termOf_eq p ⟨2, 2⟩ (by simp only []; omega)] at hx
      obtain ⟨e, he⟩ := (printed_two ⟨2, 2⟩ p (by simp only []; omega) (by simp only []; omega) rfl).2 ⟨by simp, by omega⟩
      rw [he] at hx
      cases hx

/-! ## the generated functions -/

/-- the line for `h` -/
def lineAt (p : Nat) (h : HOp) : Line :=
  ⟨prefAt h p, (h.m, h.n), if p - h.m + h.n = 0 then none else some (p - h.m + h.n,
    ['a', 'c'] ++ kLetters.take h.n ++ iLetters.take h.m, ['c', 'b'] ++ kLetters.take h.n ++ slice iLetters h.m (h.m + (p - h.m)),
    ['a', 'b'] ++ iLetters.take (h.m + (p - h.m)))⟩

/-- the statements for the terms `hs` with a W operator of order `j` -/
def wsOf (p j : Nat) (hs : List HOp) : List Stmt :=
  if j ≤ 1 then hs.map fun h => .plain (lineAt p h) else [.ifW j (hs.map (lineAt p))]

def quadOf (p : Nat) : List Stmt :=
  [.quad ((some (p + 2), lineAt p ⟨0, 2⟩) ::
    (if p ≥ 2 then [(if p ≥ 4 then some (p - 2) else none, lineAt p ⟨2, 0⟩)] else []))]

def bodyOf (r p : Nat) : List Stmt :=
  match r with
  | 0 => wsOf p p [⟨0, 0⟩]
  | 1 => wsOf p p [⟨0, 0⟩] ++ wsOf p (p + 1) [⟨0, 1⟩] ++ (if p = 0 then [] else wsOf p (p - 1) [⟨1, 0⟩])
  | _ =>
    if p = 0 then wsOf p 0 [⟨0, 0⟩] ++ wsOf p 1 [⟨0, 1⟩] ++ quadOf p
    else if p = 1 then wsOf p 1 [⟨0, 0⟩] ++ wsOf p 2 [⟨0, 1⟩] ++ quadOf p ++ wsOf p 0 [⟨1, 0⟩] ++ wsOf p 1 [⟨1, 1⟩]
    else wsOf p p [⟨0, 0⟩, ⟨1, 1⟩] ++ wsOf p (p + 1) [⟨0, 1⟩] ++ quadOf p ++ wsOf p (p - 1) [⟨1, 0⟩]

def fnAt (r p : Nat) : Fn := ⟨p, p + 2, if p ≤ 1 then 1 else p, bodyOf r p⟩

theorem writeFn_eq : ∀ r < 3, ∀ p < 7,
    writeFn ((((hamiltonian r).filter fun h => decide (h.m ≤ p)).map (entryAt p)).map Prod.snd) p = .ok (fnAt r p) := by
  decide +kernel

theorem getElem_range {n k : Nat} (h : k < n) : (List.range n)[k]? = some k := by
  rw [List.getElem?_range h]

theorem residualModule_eq (n r : Nat) (hn : n ≤ 6) (hr : r ≤ 2) :
    residualModule n r = .ok ((List.range (n + 1)).map (fnAt r)) := by
  unfold residualModule residualData
  rw [collect_map_ok (residualList (hamiltonian r)) (fun p => ((hamiltonian r).filter fun h => decide (h.m ≤ p)).map (entryAt p))
    (List.range (n + 1)) fun p _ => residualList_eq r p (by omega)]
  simp only []
  apply collect_map_ok
  intro k hk
  rw [List.mem_range] at hk
  unfold fnFor
  rw [List.getElem?_map, getElem_range hk]
  exact writeFn_eq r (by omega) k (by omega)

/-- every term that is written has a line -/
theorem stmts_lines (all : List RTerm) : ∀ (ts printed : List RTerm) (r : List Stmt), stmts all ts printed = .ok r →
    (∀ t ∈ ts, t ∈ all) → (∀ t ∈ printed, ∃ l, lineOf t = .ok l) → ∀ t ∈ ts, ∃ l, lineOf t = .ok l := by
  intro ts
  induction ts with
  | nil => intro _ _ _ _ _ t ht; cases ht
  | cons a ts ih =>
    intro printed r h hall hp t ht
    have ha : a ∈ all := hall a (by simp)
    have hall' : ∀ t ∈ ts, t ∈ all := fun t ht => hall t (by simp [ht])
    have step : ∀ (new : List RTerm) (r' : List Stmt), stmts all ts (printed ++ new) = .ok r' → a ∈ new →
        (∀ t ∈ new, ∃ l, lineOf t = .ok l) → ∃ l, lineOf t = .ok l := by
      intro new r' hs han hn
      rcases List.mem_cons.1 ht with rfl | ht
      · exact hn _ han
      · refine ih _ _ hs hall' (fun t' ht' => ?_) t ht
        rcases List.mem_append.1 ht' with ht' | ht'
        · exact hp t' ht'
        · exact hn t' ht'
    unfold stmts at h
    by_cases hc : printed.contains a = true
    · rw [if_pos hc] at h
      rcases List.mem_cons.1 ht with rfl | ht
      · exact hp _ (by simpa using hc)
      · exact ih _ _ h hall' hp t ht
    rw [if_neg hc] at h
    by_cases h1 : a.w.2.2 = 0 ∨ a.w.2.2 = 1
    · rw [if_pos h1] at h
      cases hl : lineOf a with
      | error e => rw [hl] at h; cases h
      | ok l =>
        cases hs : stmts all ts (printed ++ [a]) with
        | error e => rw [hl, hs] at h; cases h
        | ok r' =>
          exact step [a] r' hs (by simp) fun t' ht' => by
            rw [List.mem_singleton] at ht'; subst ht'; exact ⟨l, hl⟩
    rw [if_neg h1] at h
    by_cases hq : isQuad a = true
    · rw [if_pos hq] at h
      simp only [] at h
      cases hl : collect ((all.filter isQuad).map quadEntry) with
      | error e => rw [hl] at h; cases h
      | ok ls =>
        cases hs : stmts all ts (printed ++ all.filter isQuad) with
        | error e => rw [hl, hs] at h; cases h
        | ok r' =>
          refine step _ r' hs (List.mem_filter.2 ⟨ha, hq⟩) fun t' ht' => ?_
          rw [collect_ok_iff] at hl
          have hm : quadEntry t' ∈ (all.filter isQuad).map quadEntry := List.mem_map.2 ⟨t', ht', rfl⟩
          rw [hl] at hm
          obtain ⟨x, _, hx⟩ := List.mem_map.1 hm
          cases hlo : lineOf t' with
          | ok l => exact ⟨l, rfl⟩
          | error e =>
            exfalso
            unfold quadEntry at hx
            rw [hlo] at hx
            split at hx
            · cases hw : wName t'.w.2.2 with
              | error e => rw [hw] at hx; cases hx
              | ok k => rw [hw] at hx; cases hx
            · cases hx
    · rw [if_neg hq] at h
      simp only [] at h
      cases hw : wName a.w.2.2 with
      | error e => rw [hw] at h; cases h
      | ok k =>
        rw [hw] at h
        simp only [] at h
        cases hl : collect ((all.filter fun s => decide (s.w.2.2 = a.w.2.2)).map lineOf) with
        | error e => rw [hl] at h; cases h
        | ok ls =>
          cases hs : stmts all ts (printed ++ all.filter fun s => decide (s.w.2.2 = a.w.2.2)) with
          | error e => rw [hl, hs] at h; cases h
          | ok r' =>
            refine step _ r' hs (List.mem_filter.2 ⟨ha, by simp⟩) fun t' ht' => ?_
            rw [collect_ok_iff] at hl
            have hm : lineOf t' ∈ (all.filter fun s => decide (s.w.2.2 = a.w.2.2)).map lineOf := List.mem_map.2 ⟨t', ht', rfl⟩
            rw [hl] at hm
            obtain ⟨x, _, hx⟩ := List.mem_map.1 hm
            exact ⟨x, hx.symm⟩

theorem residualModule_error (n r : Nat) (h : 6 < n ∨ 2 < r) : ∃ e, residualModule n r = .error e := by
  cases hm : residualModule n r with
  | error e => exact ⟨e, rfl⟩
  | ok fns =>
    exfalso
    unfold residualModule at hm
    cases hd : residualData (hamiltonian r) n with
    | error e => rw [hd] at hm; cases hm
    | ok data =>
      rw [hd] at hm
      simp only [] at hm
      rw [collect_ok_iff] at hm
      have hk : ∀ k ≤ n, ∃ l f, data[k]? = some l ∧ residualList (hamiltonian r) k = .ok l ∧ writeFn (l.map Prod.snd) k = .ok f := by
        intro k hk
        have h1 := List.mem_map_of_mem (f := fnFor data) (List.mem_range.2 (show k < n + 1 by omega))
        rw [hm] at h1
        obtain ⟨f, _, hf⟩ := List.mem_map.1 h1
        unfold fnFor at hf
        cases hg : data[k]? with
        | none => rw [hg] at hf; cases hf
        | some l =>
          rw [hg] at hf
          refine ⟨l, f, rfl, ?_, hf.symm⟩
          unfold residualData at hd
          rw [collect_ok_iff] at hd
          have h2 := congrArg (fun x => x[k]?) hd
          simp only [List.getElem?_map, getElem_range (show k < n + 1 by omega), hg, Option.map_some, Option.some.injEq] at h2
          exact h2
      rcases h with h | h
      · obtain ⟨l, f, _, _, hf⟩ := hk 7 (by omega)
        unfold writeFn at hf
        rw [show collect ((range2 1 (7 + 3)).map wName) = .error .key by decide] at hf
        cases hf
      · obtain ⟨l, f, _, hl, hf⟩ := hk 0 (by omega)
        rw [residualList_eq r 0 (by omega)] at hl
        injection hl with hl
        unfold writeFn at hf
        rw [show collect ((range2 1 (0 + 3)).map wName) = .ok [1, 2] by decide] at hf
        simp only [] at hf
        rw [show orderTags[if 0 ≤ 1 then 1 else 0]? = some "singles" by rfl] at hf
        simp only [] at hf
        cases hs : stmts (l.map Prod.snd) (l.map Prod.snd) [] with
        | error e => rw [hs] at hf; cases hf
        | ok b =>
          have hmem : (entryAt 0 ⟨0, 3⟩).2 ∈ l.map Prod.snd := by
            rw [← hl]
            refine List.mem_map.2 ⟨_, List.mem_map.2 ⟨⟨0, 3⟩, List.mem_filter.2 ⟨(mem_hamiltonian r _).2 ?_, ?_⟩, rfl⟩, rfl⟩
            · simp only []; omega
            · simp
          obtain ⟨x, hx⟩ := stmts_lines _ _ _ _ hs (fun _ h => h) (fun _ h => by cases h) _ hmem
          revert hx
          unfold entryAt
          rw [hTerm_small ⟨0, 3⟩ (by decide) (by decide)]
          intro hx
          unfold lineOf hName at hx
          cases hx

end TF.Residual
