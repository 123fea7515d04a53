import Verif.Lemmas.Residual
import Verif.Props.W
import Mathlib.Tactic.FieldSimp
import Mathlib.Tactic.NormNum

/-! # Properties of the residual equations (C27, C28, C48, C49) -/

namespace TF.Residual

open TF.Py TF.Spec.Residual
open TF.W (collect collect_map_ok collect_ok_iff collect_error)

/-! ## C27 -/

/-- C27: the symbolic prefactor is a well-formed fraction, for every Hamiltonian term and order. -/
theorem residual_symbolic (h : HOp) (p : Nat) (hp : h.m ≤ p) :
    ∃ raw v, constructPrefactor h p false = .ok raw ∧ Denotes raw v ∧
      v = (if p - h.m + h.n = 0 then 1 else (numer h.n (p - h.m) : Rat) / (p - h.m + h.n).factorial) *
        (if h.m = 2 then 1 / 2 else 1) := by
  by_cases h0 : p - h.m + h.n = 0
  · have e : constructPrefactor h p false = .ok (if h.m = 2 then oneHalf else []) := by
      unfold constructPrefactor; rw [if_neg (by omega), if_pos h0]
    by_cases h2 : h.m = 2
    · refine ⟨_, _, e, ?_, rfl⟩
      rw [if_pos h2, if_pos h0, if_pos h2, one_mul]
      exact .half
    · refine ⟨_, _, e, ?_, rfl⟩
      rw [if_neg h2, if_pos h0, if_neg h2, one_mul]
      exact .empty
  · refine ⟨_, _, raw_eq h p hp h0, ?_, rfl⟩
    rw [if_neg h0]
    by_cases h2 : h.m = 2
    · rw [if_pos h2, if_pos h2]; exact .fracHalf _ _
    · rw [if_neg h2, if_neg h2, mul_one, List.append_nil]; exact .frac _ _

/-- the decimal text of a number determines it -/
theorem decimal_inj {a b : Nat} (h : decimal a = decimal b) : a = b := by
  have := congrArg (fun l => Nat.ofDigitChars 10 l 0) h
  simpa [decimal] using this

/-- The specification assigns at most one value to a text. -/
theorem denotes_unique {s : List Char} {v w : Rat} (h1 : Denotes s v) (h2 : Denotes s w) : v = w := by
  have key : ∀ a t, decimal a = num a ∧ decimal t = num t := fun _ _ => ⟨rfl, rfl⟩
  have hex : ∀ {a t a' t' : Nat} {r r' : List Char}, (r = [] ∨ r = timesHalf) → (r' = [] ∨ r' = timesHalf) →
      core a t ++ r = core a' t' ++ r' → a = a' ∧ t = t' ∧ r = r' := by
    intro a t a' t' r r' hr hr' he
    have e1 : ∀ {a t r}, (r = [] ∨ r = timesHalf) → extract (core a t ++ r) = .ok (a, t) := by
      rintro a t r (rfl | rfl)
      · rw [List.append_nil]; exact extract_core a t
      · exact extract_coreHalf a t
    have := e1 (a := a) (t := t) hr
    rw [he, e1 hr'] at this
    injection this with this
    injection this with ha ht
    subst ha ht
    exact ⟨rfl, rfl, List.append_cancel_left he⟩
  have hne : ∀ {a t r}, core a t ++ r ≠ [] := by intro a t r; simp [core]
  have hnh : ∀ {a t r}, core a t ++ r ≠ ['(', '1', '/', '2', ')'] := by
    intro a t r he
    have hm : '!' ∈ core a t ++ r := by simp [core]
    rw [he] at hm
    revert hm
    decide
  have hnh' : ∀ {a t}, core a t ≠ ['(', '1', '/', '2', ')'] := by
    intro a t he
    exact hnh (r := []) (by rw [List.append_nil]; exact he)
  cases h1 with
  | empty =>
    cases h2 with
    | empty => rfl
  | half =>
    generalize hs : (['(', '1', '/', '2', ')'] : List Char) = s at h2
    cases h2 with
    | empty => cases hs
    | half => rfl
    | frac a t => exact absurd hs.symm hnh'
    | fracHalf a t => exact absurd hs.symm hnh
  | frac a t =>
    generalize hs : ['('] ++ decimal a ++ ['/'] ++ decimal t ++ ['!', ')'] = s at h2
    cases h2 with
    | empty => simp at hs
    | half => exact absurd hs hnh'
    | frac a' t' =>
      obtain ⟨h1, h2, _⟩ := hex (a := a) (t := t) (a' := a') (t' := t') (r := []) (r' := []) (.inl rfl) (.inl rfl)
        (by rw [List.append_nil, List.append_nil]; exact hs)
      rw [h1, h2]
    | fracHalf a' t' =>
      obtain ⟨_, _, hr⟩ := hex (a := a) (t := t) (a' := a') (t' := t') (r := []) (r' := timesHalf) (.inl rfl) (.inr rfl) (by rw [List.append_nil]; exact hs)
      cases hr
  | fracHalf a t =>
    generalize hs : ['('] ++ decimal a ++ ['/'] ++ decimal t ++ ['!', ')'] ++ ['*', '(', '1', '/', '2', ')'] = s at h2
    cases h2 with
    | empty => simp at hs
    | half => exact absurd hs hnh
    | frac a' t' =>
      obtain ⟨_, _, hr⟩ := hex (a := a) (t := t) (a' := a') (t' := t') (r := timesHalf) (r' := []) (.inr rfl) (.inl rfl) (by rw [List.append_nil]; exact hs)
      cases hr
    | fracHalf a' t' =>
      obtain ⟨rfl, rfl, _⟩ := hex (r := timesHalf) (r' := timesHalf) (.inr rfl) (.inr rfl) hs
      rfl

/-- C27, exact answer: the number printed for a residual term is the value of the symbolic prefactor
exactly when the Hamiltonian term does not have two upper labels or the W operator has order at most 2.
In the other cases another number is printed or the generation raises. -/
theorem residual_prefactor_iff (h : HOp) (p : Nat) (hp : h.m ≤ p) (raw : List Char) (v : Rat)
    (hr : constructPrefactor h p false = .ok raw) (hv : Denotes raw v) :
    (∃ pre t, constructPrefactor h p true = .ok pre ∧ pTerm pre = .ok t ∧ value t = v) ↔
      h.m ≠ 2 ∨ p - 2 + h.n ≤ 2 := by
  obtain ⟨raw', v', hr', hd', hv'⟩ := residual_symbolic h p hp
  rw [hr'] at hr
  injection hr with hr
  subst hr
  have := denotes_unique hv hd'
  subst this
  have hpr : (∃ pre t, constructPrefactor h p true = .ok pre ∧ pTerm pre = .ok t ∧ value t = v) ↔
      ∃ t, printed h p = .ok t ∧ value t = v := by
    unfold printed
    constructor
    · rintro ⟨pre, t, h1, h2, h3⟩
      exact ⟨t, by rw [h1]; exact h2, h3⟩
    · rintro ⟨t, h1, h2⟩
      cases hc : constructPrefactor h p true with
      | error e => rw [hc] at h1; cases h1
      | ok pre => rw [hc] at h1; exact ⟨pre, t, rfl, h1, h2⟩
  rw [hpr, hv']
  clear hpr hv' hv hd' hr'
  by_cases h0 : p - h.m + h.n = 0
  · rw [printed_zero h p hp h0, if_pos h0]
    refine ⟨fun _ => ?_, fun _ => ⟨_, rfl, ?_⟩⟩
    · by_cases h2 : h.m = 2
      · rw [h2] at h0; omega
      · exact .inl h2
    · by_cases h2 : h.m = 2
      · rw [if_pos h2, if_pos h2]; norm_num [value]
      · rw [if_neg h2, if_neg h2]; norm_num [value]
  rw [if_neg h0]
  by_cases h2 : h.m = 2
  · rw [if_pos h2]
    obtain ⟨hok, herr⟩ := printed_two h p hp h0 h2
    rw [h2] at h0 ⊢
    by_cases hc : 2 ≤ h.n ∧ 2 ≤ p - 2
    · obtain ⟨e, he⟩ := herr hc
      rw [he]
      constructor
      · rintro ⟨t, ht, _⟩; cases ht
      · rintro (h | h)
        · exact absurd rfl h
        · omega
    · rw [hok hc]
      simp only [Except.ok.injEq, exists_eq_left', ne_eq, not_true_eq_false, false_or]
      have hfac : ∀ T, 3 ≤ T → (6 : Rat) ≤ (T.factorial : Rat) := by
        intro T hT
        have : Nat.factorial 3 ≤ T.factorial := Nat.factorial_le hT
        exact_mod_cast this
      by_cases h1 : p - 2 = 1 ∨ h.n = 1
      · rw [if_pos h1]
        have en : numer h.n (p - 2) = p - 2 + h.n := by unfold numer; rw [if_pos h1]
        rw [en]
        by_cases h3 : p - 2 + h.n = 1 ∨ p - 2 + h.n = 2
        · rw [if_pos h3]
          refine ⟨fun _ => by omega, fun _ => ?_⟩
          rcases h3 with h3 | h3 <;> rw [h3] <;> norm_num [value, Nat.factorial]
        · rw [if_neg h3]
          refine ⟨fun hv => ?_, fun h => by omega⟩
          exfalso
          have hT : 3 ≤ p - 2 + h.n := by omega
          have hf := hfac _ hT
          generalize p - 2 + h.n = T at hT hf hv
          have hT' : (0 : Rat) < T := by exact_mod_cast (by omega : 0 < T)
          have hf0 : (0 : Rat) < (T.factorial : Rat) := by linarith
          simp only [value] at hv
          field_simp at hv
          norm_num at hv
          nlinarith
      · rw [if_neg h1]
        have en : numer h.n (p - 2) = 1 := by unfold numer; rw [if_neg h1, if_neg (by omega)]
        rw [en]
        by_cases h3 : p - 2 + h.n ≤ 2
        · have : p - 2 + h.n = 2 := by omega
          rw [this]
          refine ⟨fun _ => le_rfl, fun _ => ?_⟩
          norm_num [value, Nat.factorial]
        · refine ⟨fun hv => ?_, fun h => absurd h h3⟩
          exfalso
          have hf := hfac (p - 2 + h.n) (by omega)
          generalize p - 2 + h.n = T at hf hv
          have hf0 : (0 : Rat) < (T.factorial : Rat) := by linarith
          simp only [value] at hv
          field_simp at hv
          norm_num at hv
          nlinarith
  · rw [if_neg h2, mul_one, printed_ne_two h p hp h0 h2]
    refine ⟨fun _ => .inl h2, fun _ => ⟨_, rfl, ?_⟩⟩
    split
    · rename_i hc
      rw [← hc.1]
      rcases hc.2 with hc | hc <;> rw [hc] <;> norm_num [value, Nat.factorial]
    · rfl

/-- C27 (partial: the claim holds whenever the Hamiltonian term does not have two upper labels or the W
operator has order at most 2; `residual_prefactor_wrong` shows the rest fails): the number printed is
the value of the symbolic prefactor. -/
theorem residual_prefactor_partial (h : HOp) (p : Nat) (hp : h.m ≤ p) (hc : h.m ≠ 2 ∨ p - 2 + h.n ≤ 2) :
    ∃ raw v pre t, constructPrefactor h p false = .ok raw ∧ Denotes raw v ∧
      constructPrefactor h p true = .ok pre ∧ pTerm pre = .ok t ∧ value t = v := by
  obtain ⟨raw, v, hr, hd, _⟩ := residual_symbolic h p hp
  obtain ⟨pre, t, h1, h2, h3⟩ := (residual_prefactor_iff h p hp raw v hr hd).2 hc
  exact ⟨raw, v, pre, t, hr, hd, h1, h2, h3⟩

example : (2 : Nat) ≤ 4 ∧ (4 - 2 + 0 ≤ 2) ∧
    constructPrefactor ⟨2, 0⟩ 4 true = .ok ['(', '1', '/', '(', '2', '*', '2', '!', ')', ')'] := by decide

/-- C27 is false: for the Hamiltonian term with two upper labels and every order from 5 on, `(1/(2*2))`
is printed where the symbolic prefactor is `(1/(p-2)!)*(1/2)`. -/
theorem residual_prefactor_wrong (p : Nat) (hp : 5 ≤ p) :
    ∃ raw v pre t, constructPrefactor ⟨2, 0⟩ p false = .ok raw ∧ Denotes raw v ∧
      constructPrefactor ⟨2, 0⟩ p true = .ok pre ∧ pTerm pre = .ok t ∧ value t = 1 / 4 ∧ value t ≠ v := by
  obtain ⟨raw, v, hr, hd, _⟩ := residual_symbolic ⟨2, 0⟩ p (by simp only []; omega)
  have h1 := (printed_two ⟨2, 0⟩ p (by simp only []; omega) (by simp only []; omega) rfl).1 (by simp)
  rw [if_neg (by simp only []; omega)] at h1
  unfold printed at h1
  cases hc : constructPrefactor ⟨2, 0⟩ p true with
  | error e => rw [hc] at h1; cases h1
  | ok pre =>
    rw [hc] at h1
    refine ⟨raw, v, pre, _, hr, hd, rfl, h1, by norm_num [value], ?_⟩
    intro hv
    have := (residual_prefactor_iff ⟨2, 0⟩ p (by simp only []; omega) raw v hr hd).1 ⟨pre, _, hc, h1, hv⟩
    rcases this with h | h
    · exact absurd rfl h
    · simp only [] at h; omega

/-- C27: the symbolic prefactor is the coefficient of the product in the residual, for Hamiltonian terms
with at most two upper labels and (at most two lower labels or at most two free labels on W). -/
theorem residual_symbolic_coefficient (h : HOp) (p : Nat) (hp : h.m ≤ p) (h2 : h.m ≤ 2) (hn : h.n ≤ 2 ∨ p - h.m ≤ 2) :
    ∃ raw, constructPrefactor h p false = .ok raw ∧ Denotes raw (coefficient h.m h.n p) := by
  obtain ⟨raw, v, hr, hd, hv⟩ := residual_symbolic h p hp
  refine ⟨raw, hr, ?_⟩
  suffices v = coefficient h.m h.n p by rw [← this]; exact hd
  rw [hv]
  have hm : (if h.m = 2 then (1 : Rat) / 2 else 1) = 1 / (h.m.factorial : Rat) := by
    obtain h | h | h : h.m = 0 ∨ h.m = 1 ∨ h.m = 2 := by omega
    all_goals rw [h]; norm_num [Nat.factorial]
  rw [hm]
  unfold coefficient
  generalize p - h.m = i at hn
  have hmf : (h.m.factorial : Rat) ≠ 0 := by exact_mod_cast Nat.factorial_ne_zero _
  have hnf : (h.n.factorial : Rat) ≠ 0 := by exact_mod_cast Nat.factorial_ne_zero _
  have hif : (i.factorial : Rat) ≠ 0 := by exact_mod_cast Nat.factorial_ne_zero _
  have key : (if i + h.n = 0 then (1 : Rat) else (numer h.n i : Rat) / (i + h.n).factorial) = 1 / (h.n.factorial * i.factorial) := by
    clear hm hv
    generalize h.n = n at hn hnf
    by_cases h0 : i + n = 0
    · rw [if_pos h0, show i = 0 by omega, show n = 0 by omega]; norm_num [Nat.factorial]
    · rw [if_neg h0]
      have hTf : ((i + n).factorial : Rat) ≠ 0 := by exact_mod_cast Nat.factorial_ne_zero _
      rw [div_eq_div_iff hTf (by positivity)]
      have nat : numer n i * (n.factorial * i.factorial) = 1 * (i + n).factorial := by
        rw [Nat.one_mul]
        unfold numer
        by_cases h1 : i = 1 ∨ n = 1
        · rw [if_pos h1]
          rcases h1 with h1 | h1
          · subst h1; rw [Nat.add_comm 1 n, Nat.factorial_succ]; simp [Nat.factorial]
          · subst h1; rw [Nat.factorial_succ]; simp [Nat.factorial]
        · rw [if_neg h1]
          by_cases h3 : n > 1 ∧ i > 1
          · rw [if_pos h3]
            have hs := range_sum (i + n)
            have two : ∀ j, (j + 2).factorial = (j + 2) * (j + 1) * j.factorial := by
              intro j; rw [Nat.factorial_succ, Nat.factorial_succ]; ring
            rcases hn with hn | hn
            · have : n = 2 := by omega
              subst this
              rw [two i, show (2 : Nat).factorial = 2 from rfl]
              rw [show i + 2 - 1 = i + 1 by omega] at hs
              rw [← hs]; ring
            · have : i = 2 := by omega
              subst this
              rw [Nat.add_comm 2 n, two n, show (2 : Nat).factorial = 2 from rfl]
              rw [Nat.add_comm 2 n, show n + 2 - 1 = n + 1 by omega] at hs
              rw [← hs]; ring
          · rw [if_neg h3, Nat.one_mul]
            have : n = 0 ∨ i = 0 := by omega
            rcases this with h | h
            · subst h; simp [Nat.factorial]
            · subst h; simp [Nat.factorial]
      exact_mod_cast nat
  rw [key]
  push_cast
  field_simp

example : (⟨0, 2⟩ : HOp).m ≤ 4 ∧ constructPrefactor ⟨0, 2⟩ 4 false = .ok ['(', '1', '5', '/', '6', '!', ')'] := by decide

/-- Boundary: from three lower and three free labels on, the symbolic prefactor is not the coefficient
(`15/6!` instead of `20/6!`). -/
theorem residual_symbolic_wrong :
    ∃ raw v, constructPrefactor ⟨0, 3⟩ 3 false = .ok raw ∧ Denotes raw v ∧ v ≠ coefficient 0 3 3 := by
  obtain ⟨raw, v, hr, hd, hv⟩ := residual_symbolic ⟨0, 3⟩ 3 (by decide)
  refine ⟨raw, v, hr, hd, ?_⟩
  rw [hv]
  norm_num [coefficient, numer, Nat.factorial, List.range_succ]

/-! ## C28 -/

/-- C28: the data are generated exactly unless both the Hamiltonian rank and the order are at least 4
(then simplifying the prefactor of the term with two upper and two lower labels raises). -/
theorem residual_data_iff (r p : Nat) : (∃ l, residualList (hamiltonian r) p = .ok l) ↔ ¬ (4 ≤ r ∧ 4 ≤ p) := by
  constructor
  · rintro ⟨l, hl⟩ ⟨h1, h2⟩
    obtain ⟨e, he⟩ := residualList_error r p h1 h2
    rw [he] at hl; cases hl
  · intro h; exact ⟨_, residualList_eq r p h⟩

/-- C28 (partial: Hamiltonian ranks below 10, because of `residual_ten_labels`; `residual_data_iff` says when there are data): the data of order `p` contain
every Hamiltonian operator with at most `p` upper labels exactly once, paired with the W operator that
closes all its lower labels and leaves `p` labels free. -/
theorem residual_pairs_partial (r p : Nat) (hr : r ≤ 9) (l : List (List Char × RTerm)) (h : residualList (hamiltonian r) p = .ok l) :
    ∃ hs : List HOp, hs.Nodup ∧ (∀ h, h ∈ hs ↔ h.m + h.n ≤ r ∧ h.m ≤ p) ∧
      List.Forall₂ (fun h e => Closes p h e.2) hs l := by
  have hc := (residual_data_iff r p).1 ⟨l, h⟩
  rw [residualList_eq r p hc] at h
  injection h with h
  subst h
  refine ⟨(hamiltonian r).filter fun h => decide (h.m ≤ p), (nodup_hamiltonian r).filter _, ?_, ?_⟩
  · intro h
    rw [List.mem_filter, mem_hamiltonian, decide_eq_true_eq]
  · rw [List.forall₂_map_right_iff, List.forall₂_same]
    intro h hh
    rw [List.mem_filter, mem_hamiltonian, decide_eq_true_eq] at hh
    refine ⟨?_, rfl, ?_, rfl⟩
    · show hTerm (hText h) = _
      exact hTerm_small h (by omega) (by omega)
    · show h.m + (p - h.m) = p
      omega

/-- C28, texts: the printed string is `prefactor * h^{i_1..i_m}_{k_1..k_n} * w^{i_(m+1)..i_p,k_1..k_n}`, for
every rank and order. -/
theorem residual_texts (r p : Nat) (l : List (List Char × RTerm)) (h : residualList (hamiltonian r) p = .ok l) :
    ∃ hs : List HOp, hs.Nodup ∧ (∀ h, h ∈ hs ↔ h.m + h.n ≤ r ∧ h.m ≤ p) ∧
      List.Forall₂ (fun h e => ∃ pre, constructPrefactor h p true = .ok pre ∧
        e.1 = (if pre = [] then [] else pre ++ [' ', '*', ' ']) ++ hText h ++ wText h p) hs l := by
  have hc := (residual_data_iff r p).1 ⟨l, h⟩
  rw [residualList_eq r p hc] at h
  injection h with h
  subst h
  refine ⟨(hamiltonian r).filter fun h => decide (h.m ≤ p), (nodup_hamiltonian r).filter _, ?_, ?_⟩
  · intro h
    rw [List.mem_filter, mem_hamiltonian, decide_eq_true_eq]
  · rw [List.forall₂_map_right_iff, List.forall₂_same]
    intro h hh
    rw [List.mem_filter, mem_hamiltonian, decide_eq_true_eq] at hh
    have := printed_ok h p hh.2 (by omega)
    unfold printed at this
    cases hp : constructPrefactor h p true with
    | error e => rw [hp] at this; cases this
    | ok pre =>
      refine ⟨pre, rfl, ?_⟩
      unfold entryAt prefText
      rw [hp]

/-- hypotheses of the two theorems above -/
example : ∃ l, residualList (hamiltonian 3) 7 = .ok l ∧ l.length = 10 := by
  refine ⟨_, residualList_eq 3 7 (by decide), by decide +kernel⟩

/-- C28, finding: an operator with ten or more lower labels is recorded as the constant `h_0`, because its
text contains the digit 0. -/
theorem residual_ten_labels (n : Nat) (hn : 10 ≤ n) : hTerm (hText ⟨0, n⟩) = (0, 0) := by
  unfold hTerm
  rw [if_pos]
  have : '0' ∈ hText ⟨0, n⟩ := by
    unfold hText
    rw [if_pos rfl, if_neg (by simp only []; omega), if_neg (by simp only []; omega)]
    have hmem : ∀ (l : List (List Char)) (s : List Char), s ∈ l → ∀ c ∈ s, c ∈ commaJoin l := by
      intro l
      induction l with
      | nil => intro s hs; cases hs
      | cons a l ih =>
        intro s hs c hc
        cases l with
        | nil =>
          rw [List.mem_singleton] at hs
          subst hs
          exact hc
        | cons b l =>
          rw [commaJoin]
          rcases List.mem_cons.1 hs with rfl | hs
          · simp [hc]
          · simp [ih s hs c hc]
    have h10 : (['k', '_'] ++ decimal 10) ∈ names 'k' 1 n := List.mem_map.2 ⟨9, List.mem_range.2 (by omega), rfl⟩
    have := hmem _ _ h10 '0' (by decide)
    simp [this]
  simpa using this

/-! ## C48: the generated residual functions -/

/-- C48: the module is generated exactly for residual orders up to 6 and Hamiltonian ranks up to 2. -/
theorem residual_module_iff (n r : Nat) : (∃ fns, residualModule n r = .ok fns) ↔ n ≤ 6 ∧ r ≤ 2 := by
  constructor
  · rintro ⟨fns, h⟩
    by_contra hc
    obtain ⟨e, he⟩ := residualModule_error n r (by omega)
    rw [he] at h; cases h
  · rintro ⟨h1, h2⟩
    exact ⟨_, residualModule_eq n r h1 h2⟩

theorem runLine_at (env : Env) (k : Nat) (h : HOp) :
    runLine env (lineAt k h) = if k - h.m + h.n = 0 ∨ env.present (k - h.m + h.n) = true then .ok [lineAt k h] else .error .type := by
  unfold runLine lineAt
  by_cases h0 : k - h.m + h.n = 0
  · simp only [if_pos h0]
    rw [if_pos (.inl h0)]
  · simp only [if_neg h0]
    by_cases hp : env.present (k - h.m + h.n) = true
    · rw [if_pos hp, if_pos (.inr hp)]
    · rw [if_neg hp, if_neg (by simp only [h0, hp, or_self, not_false_eq_true, reduceCtorEq])]

theorem runStmts_append (env : Env) (a b : List Stmt) (x y : List Line) (ha : runStmts env a = .ok x)
    (hb : runStmts env b = .ok y) : runStmts env (a ++ b) = .ok (x ++ y) := by
  induction a generalizing x with
  | nil => cases ha; exact hb
  | cons s a ih =>
    unfold runStmts at ha
    rw [List.cons_append]
    unfold runStmts
    cases hs : runStmt env s with
    | error e => rw [hs] at ha; cases ha
    | ok u =>
      cases hr : runStmts env a with
      | error e => rw [hs, hr] at ha; cases ha
      | ok v =>
        rw [hs, hr] at ha
        injection ha with ha
        subst ha
        rw [ih v hr]
        simp

/-- the terms with a W operator of order `j` that are executed -/
def execW (env : Env) (j : Nat) (hs : List HOp) : List HOp := if j ≤ 1 ∨ env.present j = true then hs else []

theorem run_plain (env : Env) (k : Nat) (hs : List HOp)
    (hok : ∀ h ∈ hs, k - h.m + h.n = 0 ∨ env.present (k - h.m + h.n) = true) :
    runStmts env (hs.map fun h => .plain (lineAt k h)) = .ok (hs.map (lineAt k)) := by
  induction hs with
  | nil => rfl
  | cons a hs ih =>
    rw [List.map_cons]
    unfold runStmts runStmt
    simp only []
    rw [runLine_at, if_pos (hok a (by simp)), ih fun h hh => hok h (by simp [hh])]
    rfl

theorem run_lines (env : Env) (k : Nat) (hs : List HOp)
    (hok : ∀ h ∈ hs, k - h.m + h.n = 0 ∨ env.present (k - h.m + h.n) = true) :
    runLines env (hs.map (lineAt k)) = .ok (hs.map (lineAt k)) := by
  induction hs with
  | nil => rfl
  | cons a hs ih =>
    rw [List.map_cons]
    unfold runLines
    rw [runLine_at, if_pos (hok a (by simp)), ih fun h hh => hok h (by simp [hh])]
    rfl

theorem run_ws (env : Env) (k j : Nat) (hs : List HOp) (hj : ∀ h ∈ hs, k - h.m + h.n = j) (h1 : env.present 1 = true) :
    runStmts env (wsOf k j hs) = .ok ((execW env j hs).map (lineAt k)) := by
  unfold wsOf execW
  by_cases h : j ≤ 1
  · rw [if_pos h, if_pos (.inl h)]
    apply run_plain
    intro x hx
    rw [hj x hx]
    rcases Nat.le_one_iff_eq_zero_or_eq_one.1 h with h | h
    · exact .inl h
    · rw [h]; exact .inr h1
  · rw [if_neg h]
    unfold runStmts runStmt
    simp only []
    by_cases hp : env.present j = true
    · rw [if_pos hp, if_pos (.inr hp), run_lines env k hs fun x hx => by rw [hj x hx]; exact .inr hp]
      simp [runStmts]
    · rw [if_neg hp, if_neg (by simp [h, hp])]
      rfl

/-- the quadratic terms that are executed -/
def execQ (env : Env) (k : Nat) : List HOp :=
  if env.quadratic then
    (if env.present (k + 2) then [⟨0, 2⟩] else []) ++
    (if k ≥ 4 then (if env.present (k - 2) then [⟨2, 0⟩] else []) else if k ≥ 2 ∧ env.present (k + 2) = false then [⟨2, 0⟩] else [])
  else []

theorem run_quad (env : Env) (k : Nat) (h1 : env.present 1 = true) :
    runStmts env (quadOf k) = .ok ((execQ env k).map (lineAt k)) := by
  unfold quadOf execQ
  unfold runStmts runStmt
  simp only []
  by_cases hq : env.quadratic = true
  swap
  · rw [if_neg hq, if_neg hq]; rfl
  rw [if_pos hq, if_pos hq]
  have e02 : k - (⟨0, 2⟩ : HOp).m + (⟨0, 2⟩ : HOp).n = k + 2 := by simp
  have e20 : k - (⟨2, 0⟩ : HOp).m + (⟨2, 0⟩ : HOp).n = k - 2 := by simp
  have r02 := runLine_at env k ⟨0, 2⟩
  have r20 := runLine_at env k ⟨2, 0⟩
  rw [e02] at r02
  rw [e20] at r20
  by_cases h4 : k ≥ 4
  · rw [if_pos (show k ≥ 2 by omega), if_pos h4, if_pos h4]
    unfold runQuad
    simp only []
    by_cases hp : env.present (k + 2) = true
    · rw [if_pos hp, r02, if_pos (.inr hp)]
      unfold runQuad
      simp only []
      by_cases hp2 : env.present (k - 2) = true
      · rw [if_pos hp2, r20, if_pos (.inr hp2)]
        simp [runQuad, runStmts, hp, hp2]
      · rw [if_neg hp2]
        simp [runQuad, runStmts, hp, hp2]
    · rw [if_neg hp]
      unfold runQuad
      simp only []
      by_cases hp2 : env.present (k - 2) = true
      · rw [if_pos hp2, r20, if_pos (.inr hp2)]
        simp [runQuad, runStmts, hp, hp2]
      · rw [if_neg hp2]
        simp [runQuad, runStmts, hp, hp2]
  · by_cases h2 : k ≥ 2
    · rw [if_pos h2, if_neg h4, if_neg h4]
      unfold runQuad
      simp only []
      have ok20 : k - 2 = 0 ∨ env.present (k - 2) = true := by
        by_cases hk : k = 2
        · left; omega
        · right; rw [show k - 2 = 1 by omega]; exact h1
      by_cases hp : env.present (k + 2) = true
      · rw [if_pos hp, r02, if_pos (.inr hp), hp]
        unfold runQuad
        simp [runQuad, runStmts]
      · rw [if_neg hp]
        have hpf : env.present (k + 2) = false := by simpa using hp
        rw [hpf]
        unfold runQuad
        simp only []
        rw [r20, if_pos ok20]
        simp [runQuad, runStmts, h2]
    · rw [if_neg h2, if_neg h4]
      unfold runQuad
      simp only []
      by_cases hp : env.present (k + 2) = true
      · rw [if_pos hp, r02, if_pos (.inr hp)]
        simp [runQuad, runStmts, hp]
      · rw [if_neg hp]
        simp [runQuad, runStmts, hp, h2]

/-- the terms executed by the function of order `k` -/
def execAll (env : Env) (r k : Nat) : List HOp :=
  match r with
  | 0 => execW env k [⟨0, 0⟩]
  | 1 => execW env k [⟨0, 0⟩] ++ execW env (k + 1) [⟨0, 1⟩] ++ (if k = 0 then [] else execW env (k - 1) [⟨1, 0⟩])
  | _ =>
    if k = 0 then execW env 0 [⟨0, 0⟩] ++ execW env 1 [⟨0, 1⟩] ++ execQ env k
    else if k = 1 then
      execW env 1 [⟨0, 0⟩] ++ execW env 2 [⟨0, 1⟩] ++ execQ env k ++ execW env 0 [⟨1, 0⟩] ++ execW env 1 [⟨1, 1⟩]
    else execW env k [⟨0, 0⟩, ⟨1, 1⟩] ++ execW env (k + 1) [⟨0, 1⟩] ++ execQ env k ++ execW env (k - 1) [⟨1, 0⟩]

theorem run_body (env : Env) (r k : Nat) (hr : r ≤ 2) (h1 : env.present 1 = true) :
    runStmts env (bodyOf r k) = .ok ((execAll env r k).map (lineAt k)) := by
  unfold bodyOf execAll
  match r, hr with
  | 0, _ => exact run_ws env k k _ (by simp) h1
  | 1, _ =>
    simp only [List.map_append]
    refine runStmts_append _ _ _ _ _ (runStmts_append _ _ _ _ _ (run_ws env k k _ (by simp) h1)
      (run_ws env k (k + 1) _ (by simp) h1)) ?_
    by_cases h0 : k = 0
    · rw [if_pos h0, if_pos h0]; rfl
    · rw [if_neg h0, if_neg h0]; exact run_ws env k (k - 1) _ (by simp) h1
  | 2, _ =>
    simp only []
    by_cases h0 : k = 0
    · subst h0
      rw [if_pos rfl, if_pos rfl, List.map_append, List.map_append]
      exact runStmts_append _ _ _ _ _ (runStmts_append _ _ _ _ _ (run_ws env 0 0 _ (by simp) h1)
        (run_ws env 0 1 _ (by simp) h1)) (run_quad env 0 h1)
    · rw [if_neg h0, if_neg h0]
      by_cases h1' : k = 1
      · subst h1'
        rw [if_pos rfl, if_pos rfl]
        simp only [List.map_append]
        exact runStmts_append _ _ _ _ _ (runStmts_append _ _ _ _ _ (runStmts_append _ _ _ _ _ (runStmts_append _ _ _ _ _
          (run_ws env 1 1 _ (by simp) h1) (run_ws env 1 2 _ (by simp) h1)) (run_quad env 1 h1))
          (run_ws env 1 0 _ (by simp) h1)) (run_ws env 1 1 _ (by simp) h1)
      · rw [if_neg h1', if_neg h1']
        simp only [List.map_append]
        exact runStmts_append _ _ _ _ _ (runStmts_append _ _ _ _ _ (runStmts_append _ _ _ _ _
          (run_ws env k k _ (by simp; omega) h1) (run_ws env k (k + 1) _ (by simp) h1)) (run_quad env k h1))
          (run_ws env k (k - 1) _ (by simp) h1)

/-- letters of the einsums up to order 4 -/
theorem letters_ok1 : ∀ m < 3, ∀ n < 3, ∀ k < 5, m ≤ k →
    (kLetters.take n).length = n := by
  decide

theorem letters_ok2 : ∀ m < 3, ∀ n < 3, ∀ k < 5, m ≤ k →
    (iLetters.take m).length = m := by
  decide

theorem letters_ok3 : ∀ m < 3, ∀ n < 3, ∀ k < 5, m ≤ k →
    (slice iLetters m (m + (k - m))).length = k - m := by
  decide

theorem letters_ok4 : ∀ m < 3, ∀ n < 3, ∀ k < 5, m ≤ k →
    iLetters.take (m + (k - m)) = iLetters.take m ++ slice iLetters m (m + (k - m)) := by
  decide

theorem letters_ok5 : ∀ m < 3, ∀ n < 3, ∀ k < 5, m ≤ k →
    (['a', 'b', 'c'] ++ kLetters.take n ++ iLetters.take m ++ slice iLetters m (m + (k - m))).Nodup := by
  decide

theorem adds_at (k : Nat) (hk : k ≤ 4) (h : HOp) (hr : h.m + h.n ≤ 2) (hm : h.m ≤ k) : Adds k h (lineAt k h) := by
  have l1 := letters_ok1 h.m (by omega) h.n (by omega) k (by omega) hm
  have l2 := letters_ok2 h.m (by omega) h.n (by omega) k (by omega) hm
  have l3 := letters_ok3 h.m (by omega) h.n (by omega) k (by omega) hm
  have l4 := letters_ok4 h.m (by omega) h.n (by omega) k (by omega) hm
  have l5 := letters_ok5 h.m (by omega) h.n (by omega) k (by omega) hm
  refine ⟨?_, rfl, ?_, ?_⟩
  · obtain ⟨raw, hraw, hd⟩ := residual_symbolic_coefficient h k hm (by omega) (by omega)
    obtain ⟨pre, t, e1, e2, e3⟩ := (residual_prefactor_iff h k hm raw _ hraw hd).2 (by
      by_cases h2 : h.m = 2
      · right; omega
      · exact .inl h2)
    have : prefAt h k = t := by
      unfold prefAt printed
      rw [e1]
      simp only []
      rw [e2]
    show value (prefAt h k) = _
    rw [this, e3]
  · intro h0
    show (if k - h.m + h.n = 0 then none else _) = _
    rw [if_pos h0]
  · intro h0
    refine ⟨_, _, _, ?_, l1, l2, l3, l5⟩
    show (if k - h.m + h.n = 0 then none else _) = _
    rw [if_neg (by omega), l4]
    simp

theorem mem_execW (env : Env) (j : Nat) (hs : List HOp) (h : HOp) :
    h ∈ execW env j hs ↔ h ∈ hs ∧ (j ≤ 1 ∨ env.present j = true) := by
  unfold execW
  split
  · rename_i hc; simp [hc]
  · rename_i hc; simp [hc]

theorem nodup_execW (env : Env) (j : Nat) (hs : List HOp) (h : hs.Nodup) : (execW env j hs).Nodup := by
  unfold execW; split
  · exact h
  · exact List.nodup_nil

theorem op_eq (h : HOp) (a b : Nat) : h = ⟨a, b⟩ ↔ h.m = a ∧ h.n = b := by
  cases h; simp

theorem mem_execQ (env : Env) (k : Nat) (h : HOp) :
    h ∈ execQ env k ↔ env.quadratic = true ∧ ((h = ⟨0, 2⟩ ∧ env.present (k + 2) = true) ∨
      (h = ⟨2, 0⟩ ∧ ((4 ≤ k ∧ env.present (k - 2) = true) ∨ (2 ≤ k ∧ k < 4 ∧ env.present (k + 2) = false)))) := by
  unfold execQ
  by_cases hq : env.quadratic = true
  swap
  · rw [if_neg hq]; simp [hq]
  rw [if_pos hq, List.mem_append]
  constructor
  · rintro (hh | hh)
    · split at hh
      · rename_i hp; simp at hh; exact ⟨hq, .inl ⟨hh, hp⟩⟩
      · cases hh
    · split at hh
      · rename_i h4
        split at hh
        · rename_i hp; simp at hh; exact ⟨hq, .inr ⟨hh, .inl ⟨h4, hp⟩⟩⟩
        · cases hh
      · split at hh
        · rename_i h4 h2; simp at hh; exact ⟨hq, .inr ⟨hh, .inr ⟨h2.1, by omega, h2.2⟩⟩⟩
        · cases hh
  · rintro ⟨_, ⟨rfl, hp⟩ | ⟨rfl, ⟨h4, hp⟩ | ⟨h2, h4, hp⟩⟩⟩
    · left; rw [if_pos hp]; simp
    · right; rw [if_pos h4, if_pos hp]; simp
    · right; rw [if_neg (by omega), if_pos ⟨h2, hp⟩]; simp

theorem nodup_execQ (env : Env) (k : Nat) : (execQ env k).Nodup := by
  unfold execQ
  repeat' split
  all_goals simp

/-- which terms are executed -/
theorem mem_execAll (env : Env) (r k : Nat) (hr : r ≤ 2) (h1 : env.present 1 = true) (h : HOp) :
    h ∈ execAll env r k ↔ Belongs env r k h ∧ ¬ (h = ⟨2, 0⟩ ∧ (k = 2 ∨ k = 3) ∧ env.present (k + 2) = true) := by
  have hB : Belongs env r k h ↔ h.m + h.n ≤ r ∧ h.m ≤ k ∧ (h.m + h.n = 2 ∧ h ≠ ⟨1, 1⟩ → env.quadratic = true) ∧
      (1 ≤ k - h.m + h.n → env.present (k - h.m + h.n) = true) :=
    ⟨fun b => ⟨b.rank, b.upper, b.quadratic, b.computed⟩, fun ⟨a, b, c, d⟩ => ⟨a, b, c, d⟩⟩
  rw [hB]
  clear hB
  obtain ⟨m, n⟩ := h
  have pr : ∀ j, (j ≤ 1 ∨ env.present j = true) ↔ (1 ≤ j → env.present j = true) := by
    intro j
    constructor
    · rintro (hj | hj) hj1
      · rw [show j = 1 by omega]; exact h1
      · exact hj
    · intro hj
      by_cases h0 : j ≤ 1
      · exact .inl h0
      · exact .inr (hj (by omega))
  unfold execAll
  match r, hr with
  | 0, _ =>
    simp only [mem_execW, List.mem_singleton, HOp.mk.injEq, pr]
    constructor
    · rintro ⟨⟨rfl, rfl⟩, hp⟩
      refine ⟨⟨by omega, by omega, by omega, by simpa using hp⟩, by omega⟩
    · rintro ⟨⟨h1, h2, h3, h4⟩, -⟩
      obtain ⟨rfl, rfl⟩ : m = 0 ∧ n = 0 := by omega
      exact ⟨⟨rfl, rfl⟩, by simpa using h4⟩
  | 1, _ =>
    simp only [List.mem_append, mem_execW, List.mem_singleton, HOp.mk.injEq, pr]
    constructor
    · rintro ((⟨⟨rfl, rfl⟩, hp⟩ | ⟨⟨rfl, rfl⟩, hp⟩) | hh)
      · exact ⟨⟨by omega, by omega, by omega, by simpa using hp⟩, by omega⟩
      · exact ⟨⟨by omega, by omega, by omega, by simpa using hp⟩, by omega⟩
      · split at hh
        · cases hh
        · simp only [mem_execW, List.mem_singleton, HOp.mk.injEq, pr] at hh
          obtain ⟨⟨rfl, rfl⟩, hp⟩ := hh
          exact ⟨⟨by omega, by omega, by omega, by simpa using hp⟩, by omega⟩
    · rintro ⟨⟨h1, h2, h3, h4⟩, -⟩
      obtain ⟨rfl, rfl⟩ | ⟨rfl, rfl⟩ | ⟨rfl, rfl⟩ : (m = 0 ∧ n = 0) ∨ (m = 0 ∧ n = 1) ∨ (m = 1 ∧ n = 0) := by omega
      · exact .inl (.inl ⟨⟨rfl, rfl⟩, by simpa using h4⟩)
      · exact .inl (.inr ⟨⟨rfl, rfl⟩, by simpa using h4⟩)
      · right
        rw [if_neg (by omega), mem_execW]
        exact ⟨by simp, (pr _).2 (by simpa using h4)⟩
  | 2, _ =>
    simp only []
    obtain rfl | rfl | hk : k = 0 ∨ k = 1 ∨ 2 ≤ k := by omega
    · rw [if_pos rfl]
      simp only [List.mem_append, mem_execW, mem_execQ, List.mem_singleton, HOp.mk.injEq, pr]
      constructor
      · rintro ((⟨⟨rfl, rfl⟩, hp⟩ | ⟨⟨rfl, rfl⟩, hp⟩) | ⟨hq, ⟨⟨rfl, rfl⟩, hp⟩ | ⟨⟨rfl, rfl⟩, hp⟩⟩)
        · exact ⟨⟨by omega, by omega, by omega, by simp⟩, by omega⟩
        · exact ⟨⟨by omega, by omega, by omega, by simpa using hp⟩, by omega⟩
        · exact ⟨⟨by omega, by omega, fun _ => hq, by simpa using hp⟩, by omega⟩
        · omega
      · rintro ⟨⟨h1', h2, h3, h4⟩, -⟩
        obtain ⟨rfl, rfl⟩ | ⟨rfl, rfl⟩ | ⟨rfl, rfl⟩ : (m = 0 ∧ n = 0) ∨ (m = 0 ∧ n = 1) ∨ (m = 0 ∧ n = 2) := by omega
        · exact .inl (.inl ⟨⟨rfl, rfl⟩, by omega⟩)
        · exact .inl (.inr ⟨⟨rfl, rfl⟩, fun _ => h1⟩)
        · exact .inr ⟨h3 ⟨rfl, by simp⟩, .inl ⟨⟨rfl, rfl⟩, h4 (by omega)⟩⟩
    · rw [if_neg (by omega), if_pos rfl]
      simp only [List.mem_append, mem_execW, mem_execQ, List.mem_singleton, HOp.mk.injEq, pr]
      constructor
      · rintro ((((⟨⟨rfl, rfl⟩, hp⟩ | ⟨⟨rfl, rfl⟩, hp⟩) | ⟨hq, ⟨⟨rfl, rfl⟩, hp⟩ | ⟨⟨rfl, rfl⟩, hp⟩⟩) |
          ⟨⟨rfl, rfl⟩, hp⟩) | ⟨⟨rfl, rfl⟩, hp⟩)
        · exact ⟨⟨by omega, by omega, by omega, by simpa using hp⟩, by omega⟩
        · exact ⟨⟨by omega, by omega, by omega, by simpa using hp⟩, by omega⟩
        · exact ⟨⟨by omega, by omega, fun _ => hq, by simpa using hp⟩, by omega⟩
        · omega
        · exact ⟨⟨by omega, by omega, by omega, by simp⟩, by omega⟩
        · exact ⟨⟨by omega, by omega, by simp, by simpa using hp⟩, by omega⟩
      · rintro ⟨⟨h1', h2, h3, h4⟩, -⟩
        obtain ⟨rfl, rfl⟩ | ⟨rfl, rfl⟩ | ⟨rfl, rfl⟩ | ⟨rfl, rfl⟩ | ⟨rfl, rfl⟩ :
            (m = 0 ∧ n = 0) ∨ (m = 0 ∧ n = 1) ∨ (m = 0 ∧ n = 2) ∨ (m = 1 ∧ n = 0) ∨ (m = 1 ∧ n = 1) := by omega
        · exact .inl (.inl (.inl (.inl ⟨⟨rfl, rfl⟩, fun _ => h1⟩)))
        · exact .inl (.inl (.inl (.inr ⟨⟨rfl, rfl⟩, by simpa using h4⟩)))
        · exact .inl (.inl (.inr ⟨h3 ⟨rfl, by simp⟩, .inl ⟨⟨rfl, rfl⟩, h4 (by omega)⟩⟩))
        · exact .inl (.inr ⟨⟨rfl, rfl⟩, by omega⟩)
        · exact .inr ⟨⟨rfl, rfl⟩, fun _ => h1⟩
    · rw [if_neg (by omega), if_neg (by omega)]
      simp only [List.mem_append, mem_execW, mem_execQ, List.mem_cons, List.not_mem_nil, or_false, HOp.mk.injEq, pr]
      constructor
      · rintro (((⟨⟨rfl, rfl⟩ | ⟨rfl, rfl⟩, hp⟩ | ⟨⟨rfl, rfl⟩, hp⟩) | ⟨hq, ⟨⟨rfl, rfl⟩, hp⟩ | ⟨⟨rfl, rfl⟩, hp⟩⟩) |
          ⟨⟨rfl, rfl⟩, hp⟩)
        · exact ⟨⟨by omega, by omega, by omega, by simpa using hp⟩, by omega⟩
        · refine ⟨⟨by omega, by omega, by simp, ?_⟩, by omega⟩
          rw [show k - 1 + 1 = k by omega]; exact hp
        · exact ⟨⟨by omega, by omega, by omega, by simpa using hp⟩, by omega⟩
        · exact ⟨⟨by omega, by omega, fun _ => hq, by simpa using hp⟩, by omega⟩
        · refine ⟨⟨by omega, by omega, fun _ => hq, ?_⟩, ?_⟩
          · intro hk1
            rcases hp with ⟨h4, hp⟩ | ⟨_, h4, hp⟩
            · exact hp
            · rw [show k - 2 + 0 = 1 by omega]; exact h1
          · rintro ⟨_, h23, hpp⟩
            rcases hp with ⟨h4, hp⟩ | ⟨_, h4, hp⟩
            · omega
            · rw [hp] at hpp; cases hpp
        · exact ⟨⟨by omega, by omega, by omega, by simpa using hp⟩, by omega⟩
      · rintro ⟨⟨h1', h2, h3, h4⟩, h5⟩
        obtain ⟨rfl, rfl⟩ | ⟨rfl, rfl⟩ | ⟨rfl, rfl⟩ | ⟨rfl, rfl⟩ | ⟨rfl, rfl⟩ | ⟨rfl, rfl⟩ :
            (m = 0 ∧ n = 0) ∨ (m = 0 ∧ n = 1) ∨ (m = 0 ∧ n = 2) ∨ (m = 1 ∧ n = 0) ∨ (m = 1 ∧ n = 1) ∨ (m = 2 ∧ n = 0) := by omega
        · exact .inl (.inl (.inl ⟨.inl ⟨rfl, rfl⟩, by simpa using h4⟩))
        · exact .inl (.inl (.inr ⟨⟨rfl, rfl⟩, by simpa using h4⟩))
        · exact .inl (.inr ⟨h3 ⟨rfl, by simp⟩, .inl ⟨⟨rfl, rfl⟩, h4 (by omega)⟩⟩)
        · exact .inr ⟨⟨rfl, rfl⟩, by simpa using h4⟩
        · refine .inl (.inl (.inl ⟨.inr ⟨rfl, rfl⟩, ?_⟩))
          rw [show k - 1 + 1 = k by omega] at h4; exact h4
        · refine .inl (.inr ⟨h3 ⟨rfl, by simp⟩, .inr ⟨⟨rfl, rfl⟩, ?_⟩⟩)
          by_cases h4k : 4 ≤ k
          · exact .inl ⟨h4k, h4 (by omega)⟩
          · refine .inr ⟨hk, by omega, ?_⟩
            by_contra hc
            exact h5 ⟨⟨rfl, rfl⟩, by omega, by simpa using hc⟩

theorem sub_execW (env : Env) (j : Nat) (hs : List HOp) : (execW env j hs).Sublist hs := by
  unfold execW; split
  · exact List.Sublist.refl _
  · exact List.nil_sublist _

theorem sub_execQ (env : Env) (k : Nat) : (execQ env k).Sublist [⟨0, 2⟩, ⟨2, 0⟩] := by
  unfold execQ
  split
  · refine List.Sublist.append (l₂ := [(⟨0, 2⟩ : HOp)]) (r₂ := [(⟨2, 0⟩ : HOp)]) ?_ ?_
    · split
      · exact List.Sublist.refl _
      · exact List.nil_sublist _
    · repeat' split
      all_goals first | exact List.Sublist.refl _ | exact List.nil_sublist _
  · exact List.nil_sublist _

theorem nodup_execAll (env : Env) (r k : Nat) (hr : r ≤ 2) : (execAll env r k).Nodup := by
  unfold execAll
  match r, hr with
  | 0, _ => exact (sub_execW _ _ _).nodup (by simp)
  | 1, _ =>
    simp only []
    split
    · rw [List.append_nil]
      exact ((sub_execW _ _ _).append (sub_execW _ _ _)).nodup (by decide)
    · exact (((sub_execW _ _ _).append (sub_execW _ _ _)).append (sub_execW _ _ _)).nodup (by decide)
  | 2, _ =>
    simp only []
    split
    · exact (((sub_execW _ _ _).append (sub_execW _ _ _)).append (sub_execQ _ _)).nodup (by decide)
    · split
      · exact (((((sub_execW _ _ _).append (sub_execW _ _ _)).append (sub_execQ _ _)).append (sub_execW _ _ _)).append
          (sub_execW _ _ _)).nodup (by decide)
      · exact ((((sub_execW _ _ _).append (sub_execW _ _ _)).append (sub_execQ _ _)).append (sub_execW _ _ _)).nodup (by decide)

/-- C48: a call of the residual function of order `k ≤ 4` (enough W operators passed, singles computed,
truncation flag set) adds exactly the contributions that belong to the residual, each once, with the
right coefficient and einsum - except that the term with two upper labels is skipped in orders 2 and 3
whenever `w_(k+2)` is present. -/
theorem residual_function_runs (n r k : Nat) (fns : List Fn) (hf : residualModule n r = .ok fns) (hk : k ≤ 4) (hkn : k ≤ n)
    (env : Env) (hw : k + 2 ≤ env.wlen) (hg : env.fl (max k 1) = true) (h1 : env.present 1 = true) :
    ∃ f hs ls, fns[k]? = some f ∧ runFn env f = .ok ls ∧ hs.Nodup ∧ List.Forall₂ (Adds k) hs ls ∧
      ∀ h, h ∈ hs ↔ Belongs env r k h ∧ ¬ (h = ⟨2, 0⟩ ∧ (k = 2 ∨ k = 3) ∧ env.present (k + 2) = true) := by
  obtain ⟨hn, hr⟩ := (residual_module_iff n r).1 ⟨fns, hf⟩
  rw [residualModule_eq n r hn hr] at hf
  injection hf with hf
  subst hf
  refine ⟨fnAt r k, execAll env r k, (execAll env r k).map (lineAt k), ?_, ?_, nodup_execAll env r k hr, ?_, mem_execAll env r k hr h1⟩
  · rw [List.getElem?_map, List.getElem?_range (by omega)]; rfl
  · unfold runFn fnAt
    simp only []
    rw [if_neg (by omega), if_neg, run_body env r k hr h1]
    have : (if k ≤ 1 then 1 else k) = max k 1 := by split <;> omega
    rw [this, hg]
    simp
  · rw [List.forall₂_map_right_iff, List.forall₂_same]
    intro h hh
    rw [mem_execAll env r k hr h1] at hh
    have := hh.1.rank
    exact adds_at k hk h (by omega) hh.1.upper

/-- C48 (partial: orders up to 4, and order 2 and 3 only when `w_(k+2)` was not computed;
`residual_quadratic_skipped` and `residual_too_few_letters` show that the rest fails): a call of the
residual function adds exactly the contributions that belong to the residual. -/
theorem residual_function_partial (n r k : Nat) (fns : List Fn) (hf : residualModule n r = .ok fns) (hk : k ≤ 4) (hkn : k ≤ n)
    (env : Env) (hw : k + 2 ≤ env.wlen) (hg : env.fl (max k 1) = true) (h1 : env.present 1 = true)
    (hc : k = 2 ∨ k = 3 → env.present (k + 2) = false) :
    ∃ f hs ls, fns[k]? = some f ∧ runFn env f = .ok ls ∧ hs.Nodup ∧ List.Forall₂ (Adds k) hs ls ∧
      ∀ h, h ∈ hs ↔ Belongs env r k h := by
  obtain ⟨f, hs, ls, e1, e2, e3, e4, e5⟩ := residual_function_runs n r k fns hf hk hkn env hw hg h1
  refine ⟨f, hs, ls, e1, e2, e3, e4, fun h => ?_⟩
  rw [e5]
  refine and_iff_left_of_imp fun _ => ?_
  rintro ⟨_, h2, h3⟩
  rw [hc h2] at h3
  cases h3

/-- hypotheses: order 3 of the module for orders up to 6, with `w_5` not computed -/
example : ∃ fns, residualModule 6 2 = .ok fns ∧
    (fun e : Env => 3 + 2 ≤ e.wlen ∧ e.fl (max 3 1) = true ∧ e.present 1 = true ∧ e.present (3 + 2) = false ∧
      Belongs e 2 3 ⟨2, 0⟩) ⟨true, fun _ => true, fun j => decide (j ≤ 4), 6⟩ := by
  obtain ⟨fns, h⟩ := (residual_module_iff 6 2).2 (by decide)
  exact ⟨fns, h, by decide, rfl, by decide, by decide, ⟨by decide, by decide, by simp, by decide⟩⟩

/-- C48 is false: in orders 2 and 3 the contribution of the Hamiltonian term with two upper labels belongs
to the residual but is not added when `w_(k+2)` was computed. -/
theorem residual_quadratic_skipped (n k : Nat) (fns : List Fn) (hf : residualModule n 2 = .ok fns) (hk : k = 2 ∨ k = 3)
    (hkn : k ≤ n) (env : Env) (hw : k + 2 ≤ env.wlen) (hg : env.fl (max k 1) = true) (h1 : env.present 1 = true)
    (h2 : env.present (k + 2) = true) (hq : env.quadratic = true) :
    Belongs env 2 k ⟨2, 0⟩ ∧ ∃ f ls, fns[k]? = some f ∧ runFn env f = .ok ls ∧ ∀ l ∈ ls, l.h ≠ (2, 0) := by
  refine ⟨⟨by decide, by simp only []; omega, fun _ => hq, ?_⟩, ?_⟩
  · intro h
    simp only [] at h ⊢
    rw [show k - 2 + 0 = 1 by omega]; exact h1
  · obtain ⟨f, hs, ls, e1, e2, e3, e4, e5⟩ := residual_function_runs n 2 k fns hf (by omega) hkn env hw hg h1
    refine ⟨f, ls, e1, e2, ?_⟩
    intro l hl hlh
    obtain ⟨h, hh, hadd⟩ : ∃ h ∈ hs, Adds k h l := by
      clear e5 e3 e2 e1
      induction e4 with
      | nil => cases hl
      | cons hab _ ih =>
        rcases List.mem_cons.1 hl with rfl | hl
        · exact ⟨_, List.mem_cons_self .., hab⟩
        · obtain ⟨h, hh, ha⟩ := ih hl
          exact ⟨h, List.mem_cons_of_mem _ hh, ha⟩
    have := hadd.op
    rw [hlh] at this
    injection this with a b
    have hh2 : h = ⟨2, 0⟩ := (op_eq h 2 0).2 ⟨a.symm, b.symm⟩
    exact ((e5 h).1 hh).2 ⟨hh2, hk, h2⟩

/-- C48: a call with too few W operators raises `ValueError`, without the truncation flag
`AssertionError`. -/
theorem residual_function_guards (n r k : Nat) (fns : List Fn) (hf : residualModule n r = .ok fns) (hkn : k ≤ n) (env : Env) :
    ∃ f, fns[k]? = some f ∧ (env.wlen < k + 2 → runFn env f = .error .value) ∧
      (k + 2 ≤ env.wlen → env.fl (max k 1) = false → runFn env f = .error .assertion) := by
  obtain ⟨hn, hr⟩ := (residual_module_iff n r).1 ⟨fns, hf⟩
  rw [residualModule_eq n r hn hr] at hf
  injection hf with hf
  subst hf
  refine ⟨fnAt r k, by rw [List.getElem?_map, List.getElem?_range (by omega)]; rfl, ?_, ?_⟩
  · intro h
    unfold runFn fnAt
    simp only []
    rw [if_pos h]
  · intro h hg
    unfold runFn fnAt
    simp only []
    have : (if k ≤ 1 then 1 else k) = max k 1 := by split <;> omega
    rw [if_neg (by omega), this, hg]
    rfl

example : ∃ fns, residualModule 6 2 = .ok fns ∧ (6 : Nat) < 5 + 2 := by
  obtain ⟨fns, h⟩ := (residual_module_iff 6 2).2 (by decide)
  exact ⟨fns, h, by decide⟩

/-! ## C50: residuals computed from the generated W operators -/

/-- which W operators are there -/
theorem afterW_present (nw : Nat) (m : TF.W.WModule) (hm : TF.W.wModule nw = .ok m) (q : Bool) (fl : Nat → Bool) (ks : List Nat)
    (hks : TF.Spec.W.masterOrders m.master fl = .ok ks) (j : Nat) :
    (afterW q fl ks).present j = true ↔ j = 1 ∨ j = 2 ∨ j = 3 ∨ (j = 4 ∧ fl 2 = true) ∨ (j = 5 ∧ fl 2 = true ∧ fl 3 = true) ∨
      (j = 6 ∧ fl 2 = true ∧ fl 3 = true ∧ fl 4 = true) := by
  rw [(TF.W.w_orders nw m hm fl).1] at hks
  split at hks
  · cases hks
  · split at hks
    · cases hks
    · injection hks with hks
      subst hks
      show decide _ = true ↔ _
      rw [decide_eq_true_eq]
      cases fl 2 <;> cases fl 3 <;> cases fl 4 <;> simp

/-- C50: for a truncation that is closed downwards up to `k`, every W operator a residual of order `k ≤ 4`
needs was computed: whether a contribution belongs to it depends only on the Hamiltonian. -/
theorem pipeline_operators (nw : Nat) (m : TF.W.WModule) (hm : TF.W.wModule nw = .ok m) (q : Bool) (fl : Nat → Bool)
    (ks : List Nat) (hks : TF.Spec.W.masterOrders m.master fl = .ok ks) (r k : Nat) (hr : r ≤ 2) (hk : k ≤ 4)
    (hfl : ∀ j, 1 ≤ j → j ≤ k → fl j = true) (h : HOp) :
    Belongs (afterW q fl ks) r k h ↔ h.m + h.n ≤ r ∧ h.m ≤ k ∧ (h.m + h.n = 2 ∧ h ≠ ⟨1, 1⟩ → q = true) := by
  constructor
  · intro b; exact ⟨b.rank, b.upper, b.quadratic⟩
  · rintro ⟨a, b, c⟩
    refine ⟨a, b, c, fun hj => ?_⟩
    rw [afterW_present nw m hm q fl ks hks]
    have h2 : 2 ≤ k → fl 2 = true := fun h => hfl 2 (by omega) h
    have h3 : 3 ≤ k → fl 3 = true := fun h => hfl 3 (by omega) h
    have h4 : 4 ≤ k → fl 4 = true := fun h => hfl 4 (by omega) h
    generalize hx : k - h.m + h.n = x at hj
    have : x ≤ k + 2 := by omega
    obtain rfl | rfl | rfl | rfl | rfl | rfl : x = 1 ∨ x = 2 ∨ x = 3 ∨ x = 4 ∨ x = 5 ∨ x = 6 := by omega
    · simp
    · simp
    · simp
    · simp [h2 (by omega)]
    · simp [h2 (by omega), h3 (by omega)]
    · simp [h2 (by omega), h3 (by omega), h4 (by omega)]

/-- C50 (partial: Hamiltonians of rank up to 1, linear truncations, or orders 0, 1 and 4;
`pipeline_quadratic_lost` and `pipeline_high_orders` show that the rest fails): with the W operators
computed for the same truncation, the residual of order `k ≤ 4` contains every contribution of the
Hamiltonian, each once, with the right coefficient. -/
theorem pipeline_partial (nw : Nat) (m : TF.W.WModule) (hm : TF.W.wModule nw = .ok m) (q : Bool) (fl : Nat → Bool)
    (ks : List Nat) (hks : TF.Spec.W.masterOrders m.master fl = .ok ks) (n r k : Nat) (fns : List Fn)
    (hf : residualModule n r = .ok fns) (hk : k ≤ 4) (hkn : k ≤ n) (hfl : ∀ j, 1 ≤ j → j ≤ max k 1 → fl j = true)
    (hc : r ≤ 1 ∨ q = false ∨ k ≤ 1 ∨ k = 4) :
    ∃ f hs ls, fns[k]? = some f ∧ runFn (afterW q fl ks) f = .ok ls ∧ hs.Nodup ∧ List.Forall₂ (Adds k) hs ls ∧
      ∀ h, h ∈ hs ↔ h.m + h.n ≤ r ∧ h.m ≤ k ∧ (h.m + h.n = 2 ∧ h ≠ ⟨1, 1⟩ → q = true) := by
  have hr := ((residual_module_iff n r).1 ⟨fns, hf⟩).2
  obtain ⟨f, hs, ls, e1, e2, e3, e4, e5⟩ := residual_function_runs n r k fns hf hk hkn (afterW q fl ks)
    (by show k + 2 ≤ 6; omega) (hfl (max k 1) (by omega) le_rfl)
    ((afterW_present nw m hm q fl ks hks 1).2 (.inl rfl))
  refine ⟨f, hs, ls, e1, e2, e3, e4, fun h => ?_⟩
  rw [e5, pipeline_operators nw m hm q fl ks hks r k hr hk (fun j h1 h2 => hfl j h1 (by omega)) h]
  refine and_iff_left_of_imp fun hb => ?_
  rintro ⟨rfl, hk23, _⟩
  obtain ⟨h1, _, h3⟩ := hb
  have := h3 ⟨rfl, by simp⟩
  rcases hc with hc | hc | hc | hc
  · simp only [] at h1; omega
  · rw [hc] at this; cases this
  · omega
  · omega

/-- hypotheses: singles, doubles, triples and quadruples, order 4 -/
example : ∃ m fns, TF.W.wModule 6 = .ok m ∧ residualModule 4 2 = .ok fns ∧
    TF.Spec.W.masterOrders m.master (fun j => decide (j ≤ 4)) = .ok [1, 2, 3, 4, 5, 6] := by
  obtain ⟨fns, h⟩ := (residual_module_iff 4 2).2 (by decide)
  have hm := TF.W.wModule_eq 6 (by decide)
  refine ⟨_, fns, hm, h, ?_⟩
  rw [(TF.W.w_orders 6 _ hm _).1]
  rfl

/-- C50 is false: whenever doubles (for order 3: doubles and triples) are in the truncation - which the
residual function requires - the W operator of order `k + 2` is computed, and so the contribution of the
Hamiltonian term with two upper labels is lost from the residual. -/
theorem pipeline_quadratic_lost (nw : Nat) (m : TF.W.WModule) (hm : TF.W.wModule nw = .ok m) (fl : Nat → Bool)
    (ks : List Nat) (hks : TF.Spec.W.masterOrders m.master fl = .ok ks) (n k : Nat) (fns : List Fn)
    (hf : residualModule n 2 = .ok fns) (hk : k = 2 ∨ k = 3) (hkn : k ≤ n) (hfl : ∀ j, 2 ≤ j → j ≤ k → fl j = true) :
    Belongs (afterW true fl ks) 2 k ⟨2, 0⟩ ∧
      ∃ f ls, fns[k]? = some f ∧ runFn (afterW true fl ks) f = .ok ls ∧ ∀ l ∈ ls, l.h ≠ (2, 0) := by
  have h2 : fl 2 = true := hfl 2 (by omega) (by omega)
  apply residual_quadratic_skipped n k fns hf hk hkn
  · show k + 2 ≤ 6; omega
  · show fl (max k 1) = true
    rw [Nat.max_eq_left (by omega)]
    exact hfl k (by omega) le_rfl
  · exact (afterW_present nw m hm true fl ks hks 1).2 (.inl rfl)
  · rw [afterW_present nw m hm true fl ks hks]
    rcases hk with rfl | rfl
    · simp [h2]
    · simp [h2, hfl 3 (by omega) (by omega)]
  · rfl

/-- C50 is false: the residual functions of order 5 and 6 need more W operators than are returned. -/
theorem pipeline_high_orders (q : Bool) (fl : Nat → Bool) (ks : List Nat) (n r k : Nat) (fns : List Fn)
    (hf : residualModule n r = .ok fns) (hk : 5 ≤ k) (hkn : k ≤ n) :
    ∃ f, fns[k]? = some f ∧ runFn (afterW q fl ks) f = .error .value := by
  obtain ⟨f, h1, h2, _⟩ := residual_function_guards n r k fns hf hkn (afterW q fl ks)
  exact ⟨f, h1, h2 (by show 6 < k + 2; omega)⟩

/-! ## C49: the letters of the einsums -/

/-- all lines of a function -/
def allLines (f : Fn) : List Line := f.body.flatMap fun
  | .plain l => [l]
  | .quad ls => ls.map Prod.snd
  | .ifW _ ls => ls

theorem fn_letters : ∀ r < 3, ∀ k < 7, 5 ≤ k → ∀ l ∈ allLines (fnAt r k), ∀ pr ∈ l.product,
    pr.2.2.2.length < 2 + k ∧ pr.2.2.1.length ≤ 2 + pr.1 := by
  decide +kernel

/-- C49 is false from order 5 on: every einsum of the generated residual functions of order 5 and 6 names
fewer axes in its result than the residual has (only four free letters exist). -/
theorem residual_too_few_letters (n r k : Nat) (fns : List Fn) (hf : residualModule n r = .ok fns) (hk : 5 ≤ k) (f : Fn)
    (hfk : fns[k]? = some f) (l : Line) (hl : l ∈ allLines f) (w : Nat) (hd wd out : List Char)
    (hp : l.product = some (w, hd, wd, out)) : out.length < 2 + k := by
  obtain ⟨hn, hr⟩ := (residual_module_iff n r).1 ⟨fns, hf⟩
  rw [residualModule_eq n r hn hr] at hf
  injection hf with hf
  subst hf
  rw [List.getElem?_map] at hfk
  by_cases hkn : k < n + 1
  · rw [List.getElem?_range hkn] at hfk
    injection hfk with hfk
    subst hfk
    exact (fn_letters r (by omega) k (by omega) hk l hl _ hp).1
  · rw [List.getElem?_eq_none (by simpa using hkn)] at hfk
    cases hfk

/-- hypotheses -/
example : ∃ fns f l, residualModule 5 2 = .ok fns ∧ fns[5]? = some f ∧ l ∈ allLines f ∧ l.product.isSome = true := by
  refine ⟨_, fnAt 2 5, lineAt 5 ⟨0, 0⟩, residualModule_eq 5 2 (by decide) (by decide), rfl, by decide +kernel, by decide +kernel⟩

end TF.Residual
