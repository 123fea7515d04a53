import Verif.Spec.Glue
import Verif.Props.Truncations

/-! # Properties C07, C08, C09: command line, dispatch and file names -/

set_option linter.unusedVariables false

namespace TF.Glue

open TF.Trunc TF.Spec

/-! ## C07 -/

/-- C07: three values are H, CC, P. -/
theorem makeTrunc_three (a b c : Int) :
    makeTrunc [a, b, c] = .ok [(.enum .H, .int a), (.enum .CC, .int b), (.enum .P, .int c)] := rfl

/-- C07: four values are H, CC, S, P. -/
theorem makeTrunc_four (a b c d : Int) :
    makeTrunc [a, b, c, d] =
      .ok [(.enum .H, .int a), (.enum .CC, .int b), (.enum .S, .int c), (.enum .P, .int d)] := rfl

/-- C07: five values are H, CC, T, eT, P. -/
theorem makeTrunc_five (a b c d e : Int) :
    makeTrunc [a, b, c, d, e] =
      .ok [(.enum .H, .int a), (.enum .CC, .int b), (.enum .T, .int c), (.enum .eT, .int d),
        (.enum .P, .int e)] := rfl

/-- C07: any other number of values raises. -/
theorem makeTrunc_other (t : List Int) (h : t.length ≠ 3 ∧ t.length ≠ 4 ∧ t.length ≠ 5) :
    makeTrunc t = .error .exception := by
  have : keyListType t.length = .error .exception := by
    unfold keyListType
    rw [if_neg (show ¬ t.length = Family.zhz.keys.length from h.1),
      if_neg (show ¬ t.length = Family.fcc.keys.length from h.2.1),
      if_neg (show ¬ t.length = Family.eTz.keys.length from h.2.2)]
  unfold makeTrunc
  rw [this]

example : makeTrunc [2, 2] = .error .exception := makeTrunc_other _ (by decide)

/-! ## C09: file names -/

/-- C09: within and across the four generators whose file name is made from the flags, two requests
use the same file exactly when the generator, the ground-state flag, the f-term flag and the side
agree. -/
theorem flag_paths_injective (f : JVal → String) (g₁ g₂ : Gen) (d₁ d₂ : Dict) (gs₁ gs₂ rf₁ rf₂ : Bool)
    (s₁ s₂ : String) (hg₁ : g₁ ≠ .eTPython) (hg₂ : g₂ ≠ .eTPython)
    (hs₁ : s₁ = "RHS" ∨ s₁ = "LHS") (hs₂ : s₂ = "RHS" ∨ s₂ = "LHS") (a₁ a₂ : Option String) (o₁ o₂ : Bool)
    (c₁ c₂ : Call) (h₁ : wrapper f g₁ d₁ ⟨some gs₁, some rf₁, a₁, some s₁, o₁⟩ = .ok c₁)
    (h₂ : wrapper f g₂ d₂ ⟨some gs₂, some rf₂, a₂, some s₂, o₂⟩ = .ok c₂) :
    c₁.path = c₂.path ↔ (g₁ = g₂ ∧ gs₁ = gs₂ ∧ rf₁ = rf₂ ∧ s₁ = s₂) := by
  have tbl : ∀ g₁ g₂ : Gen, ∀ gs₁ gs₂ rf₁ rf₂ b₁ b₂ : Bool, g₁ ≠ .eTPython → g₂ ≠ .eTPython →
      ∀ p₁ p₂ : String,
      (match g₁ with
      | .fccPython => flagPath gs₁ rf₁ (if b₁ then "RHS" else "LHS") "full_cc_" "equations" "special_LHS_equations" ".py"
      | .eTPython => .error .key
      | .fccLatex => flagPath gs₁ rf₁ (if b₁ then "RHS" else "LHS") "full_cc_" "symmetric_equations" "special_LHS_terms" ".tex"
      | .ztLatex => flagPath gs₁ rf₁ (if b₁ then "RHS" else "LHS") "z_t_" "symmetric_equations" "special_LHS_terms" ".tex"
      | .eTLatex => flagPath gs₁ rf₁ (if b₁ then "RHS" else "LHS") "eT_z_t_" "symmetric_equations" "special_LHS_terms" ".tex") = .ok p₁ →
      (match g₂ with
      | .fccPython => flagPath gs₂ rf₂ (if b₂ then "RHS" else "LHS") "full_cc_" "equations" "special_LHS_equations" ".py"
      | .eTPython => .error .key
      | .fccLatex => flagPath gs₂ rf₂ (if b₂ then "RHS" else "LHS") "full_cc_" "symmetric_equations" "special_LHS_terms" ".tex"
      | .ztLatex => flagPath gs₂ rf₂ (if b₂ then "RHS" else "LHS") "z_t_" "symmetric_equations" "special_LHS_terms" ".tex"
      | .eTLatex => flagPath gs₂ rf₂ (if b₂ then "RHS" else "LHS") "eT_z_t_" "symmetric_equations" "special_LHS_terms" ".tex") = .ok p₂ →
      (p₁ = p₂ ↔ (g₁ = g₂ ∧ gs₁ = gs₂ ∧ rf₁ = rf₂ ∧ b₁ = b₂)) := by
    intro g₁ g₂ gs₁ gs₂ rf₁ rf₂ b₁ b₂ n₁ n₂ p₁ p₂ e₁ e₂
    cases g₁ <;> cases g₂ <;> (try exact absurd rfl n₁) <;> (try exact absurd rfl n₂) <;>
      cases gs₁ <;> cases gs₂ <;> cases rf₁ <;> cases rf₂ <;> cases b₁ <;> cases b₂ <;>
      (cases e₁; cases e₂; decide)
  obtain ⟨b₁, rfl⟩ : ∃ b : Bool, s₁ = if b then "RHS" else "LHS" := by
    rcases hs₁ with rfl | rfl
    · exact ⟨true, rfl⟩
    · exact ⟨false, rfl⟩
  obtain ⟨b₂, rfl⟩ : ∃ b : Bool, s₂ = if b then "RHS" else "LHS" := by
    rcases hs₂ with rfl | rfl
    · exact ⟨true, rfl⟩
    · exact ⟨false, rfl⟩
  have hb : ((if b₁ = true then "RHS" else "LHS") = if b₂ = true then "RHS" else "LHS") ↔ b₁ = b₂ := by
    cases b₁ <;> cases b₂ <;> decide
  rw [hb]
  unfold wrapper at h₁ h₂
  simp only at h₁ h₂
  split at h₁
  · cases h₁
  · next p₁ e₁ =>
    split at h₂
    · cases h₂
    · next p₂ e₂ =>
      cases h₁; cases h₂
      refine tbl g₁ g₂ gs₁ gs₂ rf₁ rf₂ b₁ b₂ hg₁ hg₂ p₁ p₂ ?_ ?_
      · cases g₁ <;> first | exact absurd rfl hg₁ | exact e₁
      · cases g₂ <;> first | exact absurd rfl hg₂ | exact e₂

/-- splitting a text at the first occurrence of a delimiter -/
theorem split_delim {c : Char} {a b x y : List Char} (ha : c ∉ a) (hb : c ∉ b)
    (h : a ++ c :: x = b ++ c :: y) : a = b ∧ x = y := by
  induction a generalizing b with
  | nil =>
    cases b with
    | nil => simpa using h
    | cons d b => simp at h; exact absurd (by simp [h.1]) hb
  | cons e a ih =>
    cases b with
    | nil => simp at h; exact absurd (by simp [h.1]) ha
    | cons d b =>
      simp only [List.cons_append, List.cons.injEq] at h
      simp only [List.mem_cons, not_or] at ha hb
      obtain ⟨h1, h2⟩ := ih ha.2 hb.2 h.2
      exact ⟨by rw [h.1, h1], h2⟩

theorem natRepr_inj {a b : Nat} (h : a.repr = b.repr) : a = b := by
  have h2 := congrArg String.toList h
  simp only [Nat.repr_eq_ofList_toDigits, String.toList_ofList] at h2
  have := congrArg (fun l => Nat.ofDigitChars 10 l 0) h2
  simpa [Nat.ofDigitChars_toDigits] using this

theorem digit_of_natRepr {n : Nat} {c : Char} (h : c ∈ n.repr.toList) : c.isDigit = true := by
  rw [Nat.repr_eq_ofList_toDigits, String.toList_ofList] at h
  exact Nat.isDigit_of_mem_toDigits (by omega) (by omega) h

theorem intRepr_chars {i : Int} : ')' ∉ (toString i).toList := by
  intro h
  cases i with
  | ofNat n =>
    have : ')' ∈ n.repr.toList := h
    exact absurd (digit_of_natRepr this) (by decide)
  | negSucc n =>
    have : ')' ∈ ("-" ++ (n+1).repr).toList := h
    rw [String.toList_append, List.mem_append] at this
    rcases this with h1 | h1
    · exact absurd h1 (by decide)
    · exact absurd (digit_of_natRepr h1) (by decide)

theorem intRepr_inj {i j : Int} (h : toString i = toString j) : i = j := by
  cases i with
  | ofNat n =>
    cases j with
    | ofNat m => exact congrArg Int.ofNat (natRepr_inj h)
    | negSucc m =>
      have h' : n.repr = "-" ++ (m+1).repr := h
      have : '-' ∈ n.repr.toList := by rw [h', String.toList_append]; simp
      exact absurd (digit_of_natRepr this) (by decide)
  | negSucc n =>
    cases j with
    | ofNat m =>
      have h' : "-" ++ (n+1).repr = m.repr := h
      have : '-' ∈ m.repr.toList := by rw [← h', String.toList_append]; simp
      exact absurd (digit_of_natRepr this) (by decide)
    | negSucc m =>
      have h' : "-" ++ (n+1).repr = "-" ++ (m+1).repr := h
      have h2 := congrArg String.toList h'
      simp only [String.toList_append, List.append_cancel_left_eq] at h2
      have h3 : n + 1 = m + 1 := natRepr_inj (String.toList_injective h2)
      have : n = m := by omega
      rw [this]

/-- The truncation dictionary of the eT ansatz with the given values. -/
def eTDict (h cc t e p : Int) : Dict :=
  [(.enum .H, .int h), (.enum .CC, .int cc), (.enum .T, .int t), (.enum .eT, .int e), (.enum .P, .int p)]

theorem eTPath_eq (f : JVal → String) (h cc t e p : Int) (side : String) :
    eTPath f (eTDict h cc t e p) side =
      .ok ("./eT_zhz_eqs_" ++ side ++ "_H(" ++ toString h ++ ")_P(" ++ toString p ++ ")_T(" ++
        toString t ++ ")_exp(" ++ toString e ++ ")_Z(" ++ toString cc ++ ").py") := rfl

/-- C09: the eT Python generator writes two requests to the same file exactly when the side and all
five truncation values agree. -/
theorem eT_path_injective (f : JVal → String) (h₁ c₁ t₁ e₁ p₁ h₂ c₂ t₂ e₂ p₂ : Int) (s₁ s₂ : String)
    (hs₁ : s₁ = "RHS" ∨ s₁ = "LHS") (hs₂ : s₂ = "RHS" ∨ s₂ = "LHS") :
    eTPath f (eTDict h₁ c₁ t₁ e₁ p₁) s₁ = eTPath f (eTDict h₂ c₂ t₂ e₂ p₂) s₂ ↔
      (s₁ = s₂ ∧ h₁ = h₂ ∧ c₁ = c₂ ∧ t₁ = t₂ ∧ e₁ = e₂ ∧ p₁ = p₂) := by
  constructor
  swap
  · rintro ⟨rfl, rfl, rfl, rfl, rfl, rfl⟩; rfl
  intro h
  rw [eTPath_eq, eTPath_eq] at h
  have h := congrArg String.toList (Except.ok.inj h)
  simp only [String.toList_append, List.append_assoc] at h
  have hside : ∀ (x y : List Char), s₁.toList ++ x = s₂.toList ++ y → s₁ = s₂ ∧ x = y := by
    intro x y hxy
    have hl : s₁.toList.length = s₂.toList.length := by
      rcases hs₁ with rfl | rfl <;> rcases hs₂ with rfl | rfl <;> rfl
    obtain ⟨h1, h2⟩ := List.append_inj hxy hl
    exact ⟨String.toList_injective h1, h2⟩
  rw [List.append_cancel_left_eq] at h
  obtain ⟨hs, h⟩ := hside _ _ h
  rw [List.append_cancel_left_eq] at h
  have step : ∀ (i j : Int) (w x y : List Char),
      (toString i).toList ++ ((')' :: w) ++ x) = (toString j).toList ++ ((')' :: w) ++ y) → i = j ∧ x = y := by
    intro i j w x y hxy
    obtain ⟨h1, h2⟩ := split_delim intRepr_chars intRepr_chars (c := ')') (x := w ++ x) (y := w ++ y)
      (by simpa using hxy)
    exact ⟨intRepr_inj (String.toList_injective h1), by simpa using h2⟩
  obtain ⟨hh, h⟩ := step h₁ h₂ "_P(".toList _ _ h
  obtain ⟨hp, h⟩ := step p₁ p₂ "_T(".toList _ _ h
  obtain ⟨ht, h⟩ := step t₁ t₂ "_exp(".toList _ _ h
  obtain ⟨he, h⟩ := step e₁ e₂ "_Z(".toList _ _ h
  obtain ⟨hc, h⟩ := step c₁ c₂ ".py".toList [] [] (by simpa using h)
  exact ⟨hs, hh, hc, ht, he, hp⟩

/-- C09: the other file names do not depend on the truncations: requests that differ only in their
truncations overwrite each other's output. -/
theorem flag_path_ignores_truncations (f : JVal → String) (g : Gen) (d₁ d₂ : Dict) (kw : Kwargs)
    (hg : g ≠ .eTPython) (c₁ c₂ : Call) (h₁ : wrapper f g d₁ kw = .ok c₁)
    (h₂ : wrapper f g d₂ kw = .ok c₂) : c₁.path = c₂.path := by
  obtain ⟨gs, rf, a, s, o⟩ := kw
  cases gs with
  | none => cases h₁
  | some gs =>
  cases rf with
  | none => cases h₁
  | some rf =>
  cases s with
  | none => cases h₁
  | some s =>
  have conv : ∀ (d : Dict) (p : Except PyErr String) (c : Call), (match p with
      | .error e => .error e
      | .ok p => .ok ({ gen := g, trunc := d, onlyGroundState := gs, removeF := rf, side := s, path := p } : Call))
        = Except.ok c → p = .ok c.path := by
    intro d p c h; cases p <;> cases h; rfl
  unfold wrapper at h₁ h₂
  simp only at h₁ h₂
  have e₁ := conv _ _ _ h₁
  have e₂ := conv _ _ _ h₂
  have : Except.ok (ε := PyErr) c₁.path = .ok c₂.path := by
    rw [← e₁, ← e₂]; cases g <;> first | rfl | exact absurd rfl hg
  exact Except.ok.inj this

/-! ## C08: dispatch -/

theorem assertType_ok_iff (d : Dict) (fam : Family) :
    assertType d fam = .ok () ↔ d.length = fam.keys.length := by
  unfold assertType
  constructor
  · intro h
    split at h
    · cases h
    · next fam' hf =>
      split at h
      · next e => subst e; exact keyListType_ok hf
      · cases h
  · intro h
    rw [h, keyListType_length]; simp

/-- C08: with an explicit ansatz, generation is dispatched exactly when the documented table has a
generator for the request, the truncation dictionary has the right number of entries and the file
name can be built; the generator, truncations and flags are the requested ones (unset flags take the
documented defaults). -/
theorem generate_ok_iff (f : JVal → String) (tgt : Target) (d : Dict) (kw : Kwargs) (a : String)
    (ha : kw.ansatz = some a) (c : Call) :
    generate f tgt d kw = .ok c ↔
      ∃ g n, generatorFor tgt a = some (g, n) ∧ d.length = n ∧
        wrapper f g d ⟨some (kw.onlyGroundState.getD true), some (kw.removeF.getD false), some a,
          some (kw.side.getD "RHS"), kw.other⟩ = .ok c := by
  have hne : kw.isEmpty = false := by simp [Kwargs.isEmpty, ha]
  have hm : defaultKwargs.update kw =
      ⟨some (kw.onlyGroundState.getD true), some (kw.removeF.getD false), some a,
        some (kw.side.getD "RHS"), kw.other⟩ := by
    obtain ⟨g, r, x, s, o⟩ := kw
    simp only at ha; subst ha
    cases g <;> cases r <;> cases s <;> simp [Kwargs.update, defaultKwargs]
  unfold generate
  simp only [hne, Bool.false_eq_true, if_false, ha, hm]
  generalize hK : (⟨some (kw.onlyGroundState.getD true), some (kw.removeF.getD false), some a,
        some (kw.side.getD "RHS"), kw.other⟩ : Kwargs) = K
  unfold dispatch
  have at_err : ∀ fam, d.length ≠ fam.keys.length → ∃ e, assertType d fam = .error e := by
    intro fam hn
    cases h : assertType d fam with
    | error e => exact ⟨e, rfl⟩
    | ok u => cases u; exact absurd ((assertType_ok_iff d fam).1 h) hn
  by_cases h1 : a = "full cc"
  · subst h1
    simp only [if_true]
    by_cases hl : d.length = 4
    · rw [(assertType_ok_iff d .fcc).2 hl]
      cases tgt <;> (simp [generatorFor]; try omega)
    · obtain ⟨e, he⟩ := at_err .fcc hl
      rw [he]
      cases tgt <;> (simp [generatorFor]; try omega)
  · rw [if_neg h1]
    by_cases h2 : a = "z_t ansatz"
    · subst h2
      simp only [if_true]
      by_cases hl : d.length = 3
      · rw [(assertType_ok_iff d .zhz).2 hl]
        cases tgt <;> (simp [generatorFor]; try omega)
      · obtain ⟨e, he⟩ := at_err .zhz hl
        rw [he]
        cases tgt <;> (simp [generatorFor]; try omega)
    · rw [if_neg h2]
      by_cases h3 : a = "eT_z_t ansatz"
      · subst h3
        simp only [if_true]
        by_cases hl : d.length = 5
        · rw [(assertType_ok_iff d .eTz).2 hl]
          cases tgt <;> (simp [generatorFor]; try omega)
        · obtain ⟨e, he⟩ := at_err .eTz hl
          rw [he]
          cases tgt <;> (simp [generatorFor]; try omega)
      · rw [if_neg h3]
        cases tgt <;> simp [generatorFor, h1, h2, h3]

/-- C08: a call that is dispatched goes to the generator, truncations and flags of the request. -/
theorem wrapper_call (f : JVal → String) (g : Gen) (d : Dict) (gs rf : Bool) (s : String)
    (a : Option String) (o : Bool) (c : Call)
    (h : wrapper f g d ⟨some gs, some rf, a, some s, o⟩ = .ok c) :
    c.gen = g ∧ c.trunc = d ∧ c.onlyGroundState = gs ∧ c.removeF = rf ∧ c.side = s := by
  unfold wrapper at h
  simp only at h
  split at h
  · cases h
  · cases h; exact ⟨rfl, rfl, rfl, rfl, rfl⟩

/-- C08: for the generators with flag-based names the call is built exactly for the two sides. -/
theorem wrapper_ok_iff (f : JVal → String) (g : Gen) (hg : g ≠ .eTPython) (d : Dict) (gs rf : Bool)
    (s : String) (a : Option String) (o : Bool) :
    (∃ c, wrapper f g d ⟨some gs, some rf, a, some s, o⟩ = .ok c) ↔ (s = "RHS" ∨ s = "LHS") := by
  have hf : ∀ k r l e, (∃ p, flagPath gs rf s k r l e = .ok p) ↔ (s = "RHS" ∨ s = "LHS") := by
    intro k r l e
    unfold flagPath
    simp only
    by_cases h1 : s = "RHS"
    · simp [h1]
    · by_cases h2 : s = "LHS" <;> simp [h1, h2]
  have conv : ∀ p : Except PyErr String, (∃ c, (match (generalizing := false) p with
      | .error e => Except.error e
      | .ok p => .ok ({ gen := g, trunc := d, onlyGroundState := gs, removeF := rf, side := s, path := p } : Call))
        = Except.ok c) ↔ ∃ q, p = .ok q := by
    intro p; cases p <;> simp
  unfold wrapper
  simp only
  refine (conv _).trans ?_
  cases g <;> first | exact absurd rfl hg | exact hf _ _ _ _

/-- C08: Python code for the z_t ansatz is never generated. -/
theorem generate_zt_python (f : JVal → String) (d : Dict) (kw : Kwargs) (h : kw.ansatz = some "z_t ansatz")
    (c : Call) : generate f .python d kw ≠ .ok c := by
  intro hc
  obtain ⟨g, n, h1, _⟩ := (generate_ok_iff f .python d kw _ h c).1 hc
  cases h1

/-- C08: options given without an 'ansatz' entry raise `KeyError`, although a default ansatz is
documented ... -/
theorem generate_missing_ansatz (f : JVal → String) (tgt : Target) (d : Dict) (kw : Kwargs)
    (h : kw.ansatz = none) (hne : kw.isEmpty = false) : generate f tgt d kw = .error .key := by
  unfold generate; simp [hne, h]

/-- ... while no options at all means the full-CC defaults. -/
theorem generate_no_options (f : JVal → String) (tgt : Target) (d : Dict) (kw : Kwargs)
    (h : kw.isEmpty = true) :
    generate f tgt d kw = generate f tgt d ⟨some true, some false, some "full cc", some "RHS", false⟩ := by
  unfold generate
  simp only [h, if_true]
  rfl

example : ∃ c, generate (fun _ => "") .latex exFcc ⟨none, none, some "full cc", some "LHS", false⟩ = .ok c ∧
    c.path = "./ground_state_full_cc_special_LHS_terms.tex" := ⟨_, rfl, rfl⟩

/-! ## C07 continued: the whole driver -/

/-- C07: `-t` and `--path` together raise, as does giving neither; nothing is saved. -/
theorem driver_needs_one_source (memStr : String → Except PyErr Bool) (f : JVal → String) (a : Args)
    (h : a.t.isSome = a.path.isSome) :
    (driver memStr f a).saved = none ∧ (driver memStr f a).result = .error .exception := by
  unfold driver
  cases ht : a.t with
  | none => cases hp : a.path with
    | none => exact ⟨rfl, rfl⟩
    | some x => rw [ht, hp] at h; cases h
  | some t => cases hp : a.path with
    | none => rw [ht, hp] at h; cases h
    | some x => exact ⟨rfl, rfl⟩

theorem isDict_makeTrunc {t : List Int} {d : Dict} (h : makeTrunc t = .ok d) : IsDict d := by
  unfold makeTrunc at h
  split at h
  · cases h
  · next fam hf =>
    cases h
    have := keyListType_ok hf
    match fam, t, this with
    | .zhz, [a, b, c], _ => simp [IsDict, Family.keys]
    | .fcc, [a, b, c, d], _ => simp [IsDict, Family.keys]
    | .eTz, [a, b, c, d, e], _ => simp [IsDict, Family.keys]

theorem save_makeTrunc (memStr : String → Except PyErr Bool) {t : List Int} {d : Dict}
    (h : makeTrunc t = .ok d) : ∃ file, save memStr d = .ok file := by
  have hd := isDict_makeTrunc h
  have : ∀ k ∈ d.map Prod.fst, ∃ t : TKey, k = .enum t := by
    unfold makeTrunc at h
    split at h
    · cases h
    · cases h
      intro k hk
      simp only [List.map_map, List.mem_map, Function.comp_apply] at hk
      obtain ⟨x, _, rfl⟩ := hk
      exact ⟨_, rfl⟩
  obtain ⟨r, rfl⟩ := exists_enumEntry this
  exact ⟨_, toStrings_enum memStr r (isDict_enumEntry.1 hd)⟩

theorem verify_fcc_values (memStr : String → Except PyErr Bool) (a b c d : Int) :
    verify memStr .fcc [(.enum .H, .int a), (.enum .CC, .int b), (.enum .S, .int c), (.enum .P, .int d)] = .ok ()
      ↔ (1 ≤ a ∧ a ≤ 6) ∧ (1 ≤ b ∧ b ≤ 6) ∧ (1 ≤ c ∧ c ≤ 6) ∧ (1 ≤ d ∧ d ≤ 6) := by
  rw [verify_ok_iff memStr _ _ (by simp [IsDict])]
  simp [HasEntry, Family.keys, NumberInRange, maximum]

theorem verify_eT_values (memStr : String → Except PyErr Bool) (a b c d e : Int) :
    verify memStr .eTz [(.enum .H, .int a), (.enum .CC, .int b), (.enum .T, .int c), (.enum .eT, .int d),
        (.enum .P, .int e)] = .ok ()
      ↔ (1 ≤ a ∧ a ≤ 6) ∧ (1 ≤ b ∧ b ≤ 6) ∧ (1 ≤ c ∧ c ≤ 1) ∧ (1 ≤ d ∧ d ≤ 8) ∧ (1 ≤ e ∧ e ≤ 6) := by
  rw [verify_ok_iff memStr _ _ (by simp [IsDict])]
  simp [HasEntry, Family.keys, NumberInRange, maximum]

/-- The generator `driver -t ...` ends up in, from the number of values and the `-c` flag. -/
def expectedGen (n : Nat) (code : Bool) : Option Gen :=
  match n, code with
  | 3, false => some .ztLatex
  | 4, false => some .fccLatex
  | 4, true => some .fccPython
  | 5, false => some .eTLatex
  | 5, true => some .eTPython
  | _, _ => none

/-- C07: what a run with `-t v1 ... vk` (no `--path`, no `-a`) does.  It reaches a generator exactly
when there is one for `k` values and, for the full-CC and eT families, all values are in the
documented ranges; the generator receives the values under the documented keys. -/
theorem driver_t_ok (memStr : String → Except PyErr Bool) (f : JVal → String) (t : List Int)
    (exc code lhs : Bool) (rf : Option String) (c : Call) :
    (driver memStr f ⟨some t, none, none, exc, rf, code, lhs⟩).result = .ok c →
      expectedGen t.length code = some c.gen ∧ makeTrunc t = .ok c.trunc ∧
      c.onlyGroundState = !exc ∧ c.side = (if lhs then "LHS" else "RHS") ∧
      (t.length = 4 → InRange [6, 6, 6, 6] t) ∧ (t.length = 5 → InRange [6, 6, 1, 8, 6] t) := by
  intro h
  unfold driver at h
  simp only at h
  cases hm : makeTrunc t with
  | error e => rw [hm] at h; cases h
  | ok d =>
    rw [hm] at h
    simp only at h
    obtain ⟨file, hfile⟩ := save_makeTrunc memStr hm
    rw [hfile] at h
    simp only at h
    unfold driverTail at h
    simp only at h
    have hlen : t.length = 3 ∨ t.length = 4 ∨ t.length = 5 := by
      by_contra hn
      have := makeTrunc_other t (by omega)
      rw [hm] at this; cases this
    have hside : ∀ s : String, (some (if lhs then "LHS" else "RHS") : Option String).getD s = if lhs then "LHS" else "RHS" := fun _ => rfl
    rcases hlen with hl | hl | hl
    · match t, hl with
      | [v1, v2, v3], _ =>
        rw [makeTrunc_three] at hm; cases hm
        simp only [keyListType, Family.keys, List.length_cons, List.length_nil] at h
        simp only [Nat.reduceAdd, if_true] at h
        generalize hg : generate f _ _ _ = res at h
        cases res with
        | error e => cases h
        | ok c' =>
          simp only at h
          obtain ⟨g, n, h1, h2, h3⟩ := (generate_ok_iff f _ _ _ _ rfl c').1 hg
          obtain ⟨w1, w2, w3, w4, w5⟩ := wrapper_call _ _ _ _ _ _ _ _ _ h3
          have hc : c = c' := by
            unfold startGenerator at h
            split at h <;> (try split at h) <;> first | (cases h; rfl) | cases h
          subst hc
          cases code with
          | true => cases h1
          | false =>
            cases h1
            refine ⟨by rw [w1]; rfl, by rw [w2], w3, w5, by simp, by simp⟩
    · match t, hl with
      | [v1, v2, v3, v4], _ =>
        rw [makeTrunc_four] at hm; cases hm
        simp only [keyListType, Family.keys, List.length_cons, List.length_nil] at h
        simp only [Nat.reduceAdd, if_true, Nat.reduceEqDiff, if_false] at h
        generalize hg : generate f _ _ _ = res at h
        cases res with
        | error e => cases h
        | ok c' =>
          simp only at h
          obtain ⟨g, n, h1, h2, h3⟩ := (generate_ok_iff f _ _ _ _ rfl c').1 hg
          obtain ⟨w1, w2, w3, w4, w5⟩ := wrapper_call _ _ _ _ _ _ _ _ _ h3
          have hc : c = c' := by
            unfold startGenerator at h
            split at h <;> (try split at h) <;> first | (cases h; rfl) | cases h
          subst hc
          have hgen : c.gen = .fccPython ∨ c.gen = .fccLatex := by
            rw [w1]; cases code <;> (cases h1; simp)
          have hv : verify memStr .fcc c.trunc = .ok () := by
            unfold startGenerator at h
            rcases hgen with e | e <;>
            · rw [e] at h
              simp only at h
              split at h
              · cases h
              · assumption
          rw [w2, verify_fcc_values] at hv
          refine ⟨?_, by rw [w2], w3, w5, fun _ => ⟨rfl, ?_⟩, by simp⟩
          · rw [w1]; cases code <;> (cases h1; rfl)
          · intro i hi1 hi2
            match i, hi1 with
            | 0, _ => exact hv.1
            | 1, _ => exact hv.2.1
            | 2, _ => exact hv.2.2.1
            | 3, _ => exact hv.2.2.2
    · match t, hl with
      | [v1, v2, v3, v4, v5], _ =>
        rw [makeTrunc_five] at hm; cases hm
        simp only [keyListType, Family.keys, List.length_cons, List.length_nil] at h
        simp only [Nat.reduceAdd, if_true, Nat.reduceEqDiff, if_false] at h
        generalize hg : generate f _ _ _ = res at h
        cases res with
        | error e => cases h
        | ok c' =>
          simp only at h
          obtain ⟨g, n, h1, h2, h3⟩ := (generate_ok_iff f _ _ _ _ rfl c').1 hg
          obtain ⟨w1, w2, w3, w4, w5⟩ := wrapper_call _ _ _ _ _ _ _ _ _ h3
          have hc : c = c' := by
            unfold startGenerator at h
            split at h <;> (try split at h) <;> first | (cases h; rfl) | cases h
          subst hc
          have hgen : c.gen = .eTPython ∨ c.gen = .eTLatex := by
            rw [w1]; cases code <;> (cases h1; simp)
          have hv : verify memStr .eTz c.trunc = .ok () := by
            unfold startGenerator at h
            rcases hgen with e | e <;>
            · rw [e] at h
              simp only at h
              split at h
              · cases h
              · assumption
          rw [w2, verify_eT_values] at hv
          refine ⟨?_, by rw [w2], w3, w5, by simp, fun _ => ⟨rfl, ?_⟩⟩
          · rw [w1]; cases code <;> (cases h1; rfl)
          · intro i hi1 hi2
            match i, hi1 with
            | 0, _ => exact hv.1
            | 1, _ => exact hv.2.1
            | 2, _ => exact hv.2.2.1
            | 3, _ => exact hv.2.2.2.1
            | 4, _ => exact hv.2.2.2.2

theorem driver_t_result (memStr : String → Except PyErr Bool) (f : JVal → String) (t : List Int)
    (exc code lhs : Bool) (rf : Option String) (d : Dict) (fam : Family) (hm : makeTrunc t = .ok d)
    (hfam : keyListType d.length = .ok fam) (c : Call)
    (hg : generate f (if code then .python else .latex) d
      { onlyGroundState := some (!exc)
        removeF := some (rfFlag rf)
        ansatz := some (ansatzName fam)
        side := some (if lhs then "LHS" else "RHS")
        other := false } = .ok c) :
    (driver memStr f ⟨some t, none, none, exc, rf, code, lhs⟩).result = startGenerator memStr c := by
  obtain ⟨file, hfile⟩ := save_makeTrunc memStr hm
  unfold driver
  simp only [hm, hfile]
  unfold driverTail
  simp only [hfam]
  rw [hg]

/-- C07: a run with `-t v1 ... vk` reaches a generator exactly when (3 values) LaTeX is requested, or
(4 values) all are between 1 and 6, or (5 values) all are in the ranges of the eT family. -/
theorem driver_t_runs_iff (memStr : String → Except PyErr Bool) (f : JVal → String) (t : List Int)
    (exc code lhs : Bool) (rf : Option String) :
    (∃ c, (driver memStr f ⟨some t, none, none, exc, rf, code, lhs⟩).result = .ok c) ↔
      (t.length = 3 ∧ code = false) ∨ InRange [6, 6, 6, 6] t ∨ InRange [6, 6, 1, 8, 6] t := by
  constructor
  · rintro ⟨c, h⟩
    obtain ⟨h1, h2, _, _, h3, h4⟩ := driver_t_ok memStr f t exc code lhs rf c h
    have hlen : t.length = 3 ∨ t.length = 4 ∨ t.length = 5 := by
      by_contra hn
      have := makeTrunc_other t (by omega)
      rw [h2] at this; cases this
    rcases hlen with hl | hl | hl
    · left
      refine ⟨hl, ?_⟩
      rw [hl] at h1
      cases code
      · rfl
      · cases h1
    · exact Or.inr (Or.inl (h3 hl))
    · exact Or.inr (Or.inr (h4 hl))
  · have hside : ∀ b : Bool, (if b then "LHS" else "RHS") = "RHS" ∨ (if b then "LHS" else "RHS") = "LHS" := by
      intro b; cases b <;> decide
    rintro (⟨hl, rfl⟩ | ⟨hl, hv⟩ | ⟨hl, hv⟩)
    · match t, hl with
      | [v1, v2, v3], _ =>
        obtain ⟨c, hc⟩ := (wrapper_ok_iff f .ztLatex (by decide)
          [(.enum .H, .int v1), (.enum .CC, .int v2), (.enum .P, .int v3)] (!exc)
          (rfFlag rf)
          (if lhs then "LHS" else "RHS") (some "z_t ansatz") false).2 (hside lhs)
        refine ⟨c, (driver_t_result memStr f _ exc false lhs rf _ .zhz (makeTrunc_three v1 v2 v3) rfl c
          ((generate_ok_iff f _ _ _ _ rfl c).2 ⟨.ztLatex, 3, rfl, rfl, hc⟩)).trans ?_⟩
        obtain ⟨w1, w2, _⟩ := wrapper_call _ _ _ _ _ _ _ _ _ hc
        unfold startGenerator
        rw [w1, w2]
        rfl
    · match t, hl with
      | [v1, v2, v3, v4], _ =>
        have hver := (verify_fcc_values memStr v1 v2 v3 v4).2
          ⟨hv 0 (by simp) (by simp), hv 1 (by simp) (by simp), hv 2 (by simp) (by simp), hv 3 (by simp) (by simp)⟩
        obtain ⟨c, hc⟩ := (wrapper_ok_iff f (if code then .fccPython else .fccLatex) (by cases code <;> decide)
          [(.enum .H, .int v1), (.enum .CC, .int v2), (.enum .S, .int v3), (.enum .P, .int v4)] (!exc)
          (rfFlag rf)
          (if lhs then "LHS" else "RHS") (some "full cc") false).2 (hside lhs)
        refine ⟨c, (driver_t_result memStr f _ exc code lhs rf _ .fcc (makeTrunc_four v1 v2 v3 v4) rfl c
          ((generate_ok_iff f _ _ _ _ rfl c).2 ⟨_, 4, by cases code <;> rfl, rfl, hc⟩)).trans ?_⟩
        obtain ⟨w1, w2, _⟩ := wrapper_call _ _ _ _ _ _ _ _ _ hc
        unfold startGenerator
        rw [w1, w2, hver]
        cases code <;> rfl
    · match t, hl with
      | [v1, v2, v3, v4, v5], _ =>
        have hver := (verify_eT_values memStr v1 v2 v3 v4 v5).2
          ⟨hv 0 (by simp) (by simp), hv 1 (by simp) (by simp), hv 2 (by simp) (by simp),
            hv 3 (by simp) (by simp), hv 4 (by simp) (by simp)⟩
        cases code with
        | false =>
          obtain ⟨c, hc⟩ := (wrapper_ok_iff f .eTLatex (by decide)
            [(.enum .H, .int v1), (.enum .CC, .int v2), (.enum .T, .int v3), (.enum .eT, .int v4),
              (.enum .P, .int v5)] (!exc)
            (rfFlag rf)
            (if lhs then "LHS" else "RHS") (some "eT_z_t ansatz") false).2 (hside lhs)
          refine ⟨c, (driver_t_result memStr f _ exc false lhs rf _ .eTz (makeTrunc_five v1 v2 v3 v4 v5) rfl c
            ((generate_ok_iff f _ _ _ _ rfl c).2 ⟨_, 5, rfl, rfl, hc⟩)).trans ?_⟩
          obtain ⟨w1, w2, _⟩ := wrapper_call _ _ _ _ _ _ _ _ _ hc
          unfold startGenerator
          rw [w1, w2, hver]
        | true =>
          obtain ⟨c, hc⟩ : ∃ c, wrapper f .eTPython
            [(.enum .H, .int v1), (.enum .CC, .int v2), (.enum .T, .int v3), (.enum .eT, .int v4),
              (.enum .P, .int v5)] ⟨some (!exc), some (rfFlag rf), some "eT_z_t ansatz",
              some (if lhs then "LHS" else "RHS"), false⟩ = .ok c := ⟨_, rfl⟩
          refine ⟨c, (driver_t_result memStr f _ exc true lhs rf _ .eTz (makeTrunc_five v1 v2 v3 v4 v5) rfl c
            ((generate_ok_iff f _ _ _ _ rfl c).2 ⟨_, 5, rfl, rfl, hc⟩)).trans ?_⟩
          obtain ⟨w1, w2, _⟩ := wrapper_call _ _ _ _ _ _ _ _ _ hc
          unfold startGenerator
          rw [w1, w2, hver]

/-- C07: the values are written to `../truncs.json` before any range check: every list of three, four
or five integers is saved. -/
theorem driver_saves_unchecked (memStr : String → Except PyErr Bool) (f : JVal → String) (t : List Int)
    (exc code lhs : Bool) (rf : Option String) :
    (driver memStr f ⟨some t, none, none, exc, rf, code, lhs⟩).saved.isSome ↔
      t.length = 3 ∨ t.length = 4 ∨ t.length = 5 := by
  constructor
  · intro h
    by_contra hn
    have := makeTrunc_other t (by omega)
    unfold driver at h
    simp only [this] at h
    cases h
  · intro h
    obtain ⟨d, hm⟩ : ∃ d, makeTrunc t = .ok d := by
      rcases h with h | h | h
      · match t, h with | [a, b, c], _ => exact ⟨_, rfl⟩
      · match t, h with | [a, b, c, d], _ => exact ⟨_, rfl⟩
      · match t, h with | [a, b, c, d, e], _ => exact ⟨_, rfl⟩
    obtain ⟨file, hfile⟩ := save_makeTrunc memStr hm
    unfold driver
    simp only [hm, hfile]
    rfl

/-- C07 is false for the z_t family: its generator is reached with values outside the documented
range. -/
theorem driver_zt_out_of_range :
    ∃ t : List Int, t.length = 3 ∧ ¬ InRange [6, 6, 6] t ∧
      ∃ c, (driver (fun _ => .ok true) (fun _ => "") ⟨some t, none, none, false, none, false, false⟩).result = .ok c := by
  refine ⟨[7, -3, 0], rfl, ?_, (driver_t_runs_iff _ _ _ _ _ _ _).2 (Or.inl ⟨rfl, rfl⟩)⟩
  intro h
  have := (h.2 0 (by simp) (by simp)).2
  simp at this

example : ∃ c, (driver (fun _ => .ok true) (fun _ => "")
    ⟨some [2, 3, 1, 4, 2], none, none, false, none, true, false⟩).result = .ok c ∧
    c.path = "./eT_zhz_eqs_RHS_H(2)_P(2)_T(1)_exp(4)_Z(3).py" := ⟨_, rfl, rfl⟩

/-- C07: `-rf False` switches the removal of f terms on (`type=bool`). -/
theorem driver_rf_false_is_true :
    ∃ c, (driver (fun _ => .ok true) (fun _ => "")
      ⟨some [2, 2, 2, 2], none, none, false, some "False", false, false⟩).result = .ok c ∧ c.removeF = true :=
  ⟨_, rfl, rfl⟩

end TF.Glue
