import Verif.Spec.History
import Verif.Props.Program

/-!
# C95: several runs of the driver in one directory
-/

namespace TF.Program

open TF.Trunc TF.Glue TF.Spec TF.Spec.Json TF.Spec.Program

/-! ## The names of the files of equations -/

/-- the four kinds of names that are made of flags: full-CC Python, full-CC LaTeX, z_t LaTeX, eT LaTeX -/
def kinds : List (String × String × String × String) :=
  [("full_cc_", "equations", "special_LHS_equations", ".py"), ("full_cc_", "symmetric_equations", "special_LHS_terms", ".tex"),
    ("z_t_", "symmetric_equations", "special_LHS_terms", ".tex"), ("eT_z_t_", "symmetric_equations", "special_LHS_terms", ".tex")]

def kindName (gs rf lhs : Bool) (k : Fin 4) : String :=
  flagName gs rf lhs (kinds[k.val]!).1 (kinds[k.val]!).2.1 (kinds[k.val]!).2.2.1 (kinds[k.val]!).2.2.2

theorem kindName_inj : ∀ (gs rf lhs gs' rf' lhs' : Bool) (k k' : Fin 4), kindName gs rf lhs k = kindName gs' rf' lhs' k' → k = k' ∧ gs = gs' ∧ rf = rf' ∧ lhs = lhs' := by
  decide +kernel

theorem kindName_start : ∀ (gs rf lhs : Bool) (k : Fin 4), (kindName gs rf lhs k).toList.take 7 ≠ "./eT_zh".toList ∧ (kindName gs rf lhs k).toList.take 2 = "./".toList := by
  decide +kernel

/-- the name of the eT Python module -/
def valueName (lhs : Bool) (h cc t k p : Int) : String :=
  "./eT_zhz_eqs_" ++ (if lhs then "LHS" else "RHS") ++ "_H(" ++ toString h ++ ")_P(" ++ toString p ++ ")_T(" ++ toString t ++ ")_exp(" ++ toString k ++ ")_Z(" ++ toString cc ++ ").py"

theorem toString_no_paren (i : Int) : ')' ∉ (toString i).toList := by
  intro h
  rcases ((word_toString i).2 _ h).2 with h | h
  · cases h
  · exact absurd h (by decide)

theorem toString_int_inj {i j : Int} (h : (toString i).toList = (toString j).toList) : i = j := by
  have h1 := integer_toString i
  rw [h, integer_toString j] at h1
  injection h1 with h1
  exact h1.symm

theorem split_paren : ∀ (xs ys a b : List Char), ')' ∉ xs → ')' ∉ ys → xs ++ ')' :: a = ys ++ ')' :: b → xs = ys ∧ a = b
  | [], [], a, b, _, _, h => ⟨rfl, by injection h⟩
  | [], y :: ys, a, b, _, hy, h => by
    injection h with h _
    exact absurd (h ▸ List.mem_cons_self) hy
  | x :: xs, [], a, b, hx, _, h => by
    injection h with h _
    exact absurd (h ▸ List.mem_cons_self) hx
  | x :: xs, y :: ys, a, b, hx, hy, h => by
    injection h with h1 h2
    obtain ⟨h3, h4⟩ := split_paren xs ys a b (fun h => hx (List.mem_cons_of_mem _ h)) (fun h => hy (List.mem_cons_of_mem _ h)) h2
    exact ⟨by rw [h1, h3], h4⟩

theorem split_int {i j : Int} {a b : List Char} (h : (toString i).toList ++ ')' :: a = (toString j).toList ++ ')' :: b) : i = j ∧ a = b := by
  obtain ⟨h1, h2⟩ := split_paren _ _ _ _ (toString_no_paren i) (toString_no_paren j) h
  exact ⟨toString_int_inj h1, h2⟩

theorem name_toList (x h p t k cc : String) : ("./eT_zhz_eqs_" ++ x ++ "_H(" ++ h ++ ")_P(" ++ p ++ ")_T(" ++ t ++ ")_exp(" ++ k ++ ")_Z(" ++ cc ++ ").py").toList =
    "./eT_zh".toList ++ ("z_eqs_".toList ++ (x.toList ++ ("_H(".toList ++ (h.toList ++ ')' :: ("_P(".toList ++ (p.toList ++ ')' :: ("_T(".toList ++ (t.toList ++ ')' ::
      ("_exp(".toList ++ (k.toList ++ ')' :: ("_Z(".toList ++ (cc.toList ++ ')' :: ".py".toList)))))))))))) := by
  have h0 : "./eT_zhz_eqs_".toList = "./eT_zh".toList ++ "z_eqs_".toList := by decide
  have h1 : ")_P(".toList = ')' :: "_P(".toList := by decide
  have h2 : ")_T(".toList = ')' :: "_T(".toList := by decide
  have h3 : ")_exp(".toList = ')' :: "_exp(".toList := by decide
  have h4 : ")_Z(".toList = ')' :: "_Z(".toList := by decide
  have h5 : ").py".toList = ')' :: ".py".toList := by decide
  rw [String.toList_append, String.toList_append, String.toList_append, String.toList_append, String.toList_append, String.toList_append, String.toList_append, String.toList_append,
    String.toList_append, String.toList_append, String.toList_append, String.toList_append, h0, h1, h2, h3, h4, h5]
  generalize "./eT_zh".toList = c1
  generalize "z_eqs_".toList = c2
  generalize "_H(".toList = c3
  generalize "_P(".toList = c4
  generalize "_T(".toList = c5
  generalize "_exp(".toList = c6
  generalize "_Z(".toList = c7
  generalize ".py".toList = c8
  simp only [List.append_assoc, List.cons_append]

theorem side_toList (lhs : Bool) (l : List Char) : (if lhs then "LHS" else "RHS").toList ++ l = (if lhs then 'L' else 'R') :: 'H' :: 'S' :: l := by
  cases lhs <;> rfl

theorem valueName_toList (lhs : Bool) (h cc t k p : Int) : (valueName lhs h cc t k p).toList =
    "./eT_zh".toList ++ ("z_eqs_".toList ++ ((if lhs then 'L' else 'R') :: 'H' :: 'S' :: ("_H(".toList ++ ((toString h).toList ++ ')' :: ("_P(".toList ++ ((toString p).toList ++ ')' ::
      ("_T(".toList ++ ((toString t).toList ++ ')' :: ("_exp(".toList ++ ((toString k).toList ++ ')' :: ("_Z(".toList ++ ((toString cc).toList ++ ')' :: ".py".toList)))))))))))) := by
  unfold valueName
  generalize toString h = h, toString cc = cc, toString t = t, toString k = k, toString p = p
  exact (name_toList _ _ _ _ _ _).trans (congrArg (fun l => "./eT_zh".toList ++ ("z_eqs_".toList ++ l)) (side_toList lhs _))

theorem valueName_start (lhs : Bool) (h cc t k p : Int) : (valueName lhs h cc t k p).toList.take 7 = "./eT_zh".toList := by
  rw [valueName_toList]
  exact List.take_left' rfl

theorem valueName_inj {lhs lhs' : Bool} {h cc t k p h' cc' t' k' p' : Int} (e : valueName lhs h cc t k p = valueName lhs' h' cc' t' k' p') :
    lhs = lhs' ∧ h = h' ∧ cc = cc' ∧ t = t' ∧ k = k' ∧ p = p' := by
  have e1 := congrArg String.toList e
  rw [valueName_toList, valueName_toList] at e1
  have e2 := List.append_cancel_left (List.append_cancel_left e1)
  injection e2 with c e2
  injection e2 with _ e2
  injection e2 with _ e2
  have e3 := List.append_cancel_left e2
  obtain ⟨h1, e3⟩ := split_int e3
  obtain ⟨h2, e3⟩ := split_int (List.append_cancel_left e3)
  obtain ⟨h3, e3⟩ := split_int (List.append_cancel_left e3)
  obtain ⟨h4, e3⟩ := split_int (List.append_cancel_left e3)
  obtain ⟨h5, _⟩ := split_int (List.append_cancel_left e3)
  refine ⟨?_, h1, h5, h3, h4, h2⟩
  revert c
  cases lhs <;> cases lhs' <;> decide

/-- the kind of the name for a number of values -/
def kOf (n : Nat) (code : Bool) : Fin 4 := if n = 4 then (if code then 0 else 1) else if n = 3 then 2 else 3

theorem equations_path {o : Orders} {gs rf code lhs : Bool} {t : List Int} {path : String} {x : Output} (h : Equations o gs rf code lhs t path x) :
    (¬ (t.length = 5 ∧ code = true) ∧ (t.length = 3 ∨ t.length = 4 ∨ t.length = 5) ∧ path = kindName gs rf lhs (kOf t.length code)) ∨
      (code = true ∧ ∃ h cc v k p, t = [h, cc, v, k, p] ∧ path = valueName lhs h cc v k p) := by
  match t, h with
  | [_, _, _], h => exact Or.inl ⟨fun h => absurd h.1 (by simp), Or.inl rfl, h.1⟩
  | [_, _, _, _], h =>
    refine Or.inl ⟨fun h => absurd h.1 (by simp), Or.inr (Or.inl rfl), ?_⟩
    cases code
    · exact h.1
    · exact h.1
  | [h1, h2, h3, h4, h5], h =>
    cases code
    · exact Or.inl ⟨fun h => (by cases h.2), Or.inr (Or.inr rfl), h.1⟩
    · exact Or.inr ⟨rfl, h1, h2, h3, h4, h5, rfl, h.1⟩

/-- **C95** Two files of equations have the same name exactly if the ansatz, the language and the side are the same and, for the eT Python modules, all values are the same, for the other files, the
flags for excited states and f terms are the same: the names of the others do not depend on the values, those of the eT modules do not depend on the flags. -/
theorem same_name_iff {o o' : Orders} {gs rf code lhs gs' rf' code' lhs' : Bool} {t t' : List Int} {path path' : String} {x x' : Output} (h : Equations o gs rf code lhs t path x)
    (h' : Equations o' gs' rf' code' lhs' t' path' x') (hc : t.length = 3 → code = false) (hc' : t'.length = 3 → code' = false) :
    path = path' ↔ t.length = t'.length ∧ code = code' ∧ lhs = lhs' ∧ if t.length = 5 ∧ code = true then t = t' else gs = gs' ∧ rf = rf' := by
  rcases equations_path h with ⟨n1, n2, rfl⟩ | ⟨c1, a1, a2, a3, a4, a5, rfl, rfl⟩ <;> rcases equations_path h' with ⟨m1, m2, rfl⟩ | ⟨d1, b1, b2, b3, b4, b5, rfl, rfl⟩
  · rw [if_neg n1]
    constructor
    · intro e
      obtain ⟨e1, e2, e3, e4⟩ := kindName_inj _ _ _ _ _ _ _ _ e
      have : t.length = t'.length ∧ code = code' := by
        rcases n2 with n | n | n <;> rcases m2 with m | m | m <;> rw [n] at e1 n1 hc ⊢ <;> rw [m] at e1 m1 hc' ⊢ <;> cases code <;> cases code' <;> simp [kOf] at e1 n1 m1 hc hc' ⊢
      exact ⟨this.1, this.2, e4, e2, e3⟩
    · rintro ⟨e1, rfl, rfl, rfl, rfl⟩
      rw [e1]
  · constructor
    · intro e
      exfalso
      have := (kindName_start gs rf lhs (kOf t.length code)).1
      rw [e] at this
      exact this (valueName_start _ _ _ _ _ _)
    · rintro ⟨e1, e2, _, _⟩
      exact absurd ⟨e1, e2.trans d1⟩ n1
  · constructor
    · intro e
      exfalso
      have := (kindName_start gs' rf' lhs' (kOf t'.length code')).1
      rw [← e] at this
      exact this (valueName_start _ _ _ _ _ _)
    · rintro ⟨e1, e2, _, _⟩
      exact absurd ⟨e1.symm, e2.symm.trans c1⟩ m1
  · rw [if_pos ⟨rfl, c1⟩]
    constructor
    · intro e
      obtain ⟨e1, rfl, rfl, rfl, rfl, rfl⟩ := valueName_inj e
      exact ⟨rfl, c1.trans d1.symm, e1, rfl⟩
    · rintro ⟨_, _, rfl, e⟩
      injection e with e1 e
      injection e with e2 e
      injection e with e3 e
      injection e with e4 e
      injection e with e5 e
      rw [e1, e2, e3, e4, e5]

/-! ## Every file of equations is in the directory `.` -/

theorem flagPath_start {gs rf : Bool} {side kind r l ext path : String} (h : flagPath gs rf side kind r l ext = .ok path) : path.toList.take 2 = "./".toList := by
  unfold flagPath at h
  simp only [] at h
  split at h
  · cases h
    simp only [String.append_assoc]
    rw [String.toList_append]
    exact List.take_left' rfl
  · split at h
    · cases h
      simp only [String.append_assoc]
      rw [String.toList_append]
      exact List.take_left' rfl
    · cases h

theorem eTPath_start {f : JVal → String} {d : Dict} {side path : String} (h : eTPath f d side = .ok path) : path.toList.take 2 = "./".toList := by
  unfold eTPath at h
  cases h1 : getKey d .H <;> cases h2 : getKey d .P <;> cases h3 : getKey d .T <;> cases h4 : getKey d .eT <;> cases h5 : getKey d .CC <;> rw [h1, h2, h3, h4, h5] at h <;>
    simp only [Except.bind, bind, pure, Except.pure] at h <;> cases h
  simp only [String.append_assoc]
  rw [String.toList_append]
  have : "./eT_zhz_eqs_".toList = "./".toList ++ "eT_zhz_eqs_".toList := by decide
  rw [this, List.append_assoc]
  exact List.take_left' rfl

theorem wrapper_start {f : JVal → String} {g : Gen} {d : Dict} {kw : Kwargs} {c : Call} (h : wrapper f g d kw = .ok c) : c.path.toList.take 2 = "./".toList := by
  unfold wrapper at h
  split at h
  · simp only [] at h
    split at h
    · cases h
    · next hp =>
      cases h
      split at hp
      · exact flagPath_start hp
      · exact eTPath_start hp
      · exact flagPath_start hp
      · exact flagPath_start hp
      · exact flagPath_start hp
  · cases h

theorem generate_start {f : JVal → String} {tgt : Target} {d : Dict} {kw : Kwargs} {c : Call} (h : generate f tgt d kw = .ok c) : c.path.toList.take 2 = "./".toList := by
  unfold generate at h
  simp only [] at h
  split at h
  · cases h
  · unfold dispatch at h
    split at h
    · split at h
      · cases h
      · exact wrapper_start h
    · split at h
      · split at h
        · cases h
        · split at h
          · cases h
          · exact wrapper_start h
      · split at h
        · split at h
          · cases h
          · exact wrapper_start h
        · cases h

theorem startGenerator_same {memStr : String → Except PyErr Bool} {c c' : Call} (h : startGenerator memStr c = .ok c') : c' = c := by
  unfold startGenerator at h
  split at h <;> split at h <;> cases h <;> rfl

theorem driverTail_start {memStr : String → Except PyErr Bool} {f : JVal → String} {a : Args} {d : Dict} {c : Call} (h : driverTail memStr f a d = .ok c) : c.path.toList.take 2 = "./".toList := by
  unfold driverTail at h
  simp only [] at h
  split at h
  · cases h
  · split at h
    · cases h
    · next hg =>
      rw [startGenerator_same h]
      exact generate_start hg

theorem driver_start {memStr : String → Except PyErr Bool} {f : JVal → String} {a : Args} {c : Call} (h : (driver memStr f a).result = .ok c) : c.path.toList.take 2 = "./".toList := by
  unfold driver at h
  split at h
  · cases h
  · split at h
    · cases h
    · split at h
      · cases h
      · exact driverTail_start h
  · cases h
  · split at h
    · cases h
    · exact driverTail_start h
  · cases h

/-! ## What one run writes -/

theorem makeTrunc_of_length {t : List Int} (hl : t.length = 3 ∨ t.length = 4 ∨ t.length = 5) : ∃ d, makeTrunc t = .ok d := by
  rcases hl with hl | hl | hl
  · match t, hl with
    | [v1, v2, v3], _ => exact ⟨_, makeTrunc_three v1 v2 v3⟩
  · match t, hl with
    | [v1, v2, v3, v4], _ => exact ⟨_, makeTrunc_four v1 v2 v3 v4⟩
  · match t, hl with
    | [v1, v2, v3, v4, v5], _ => exact ⟨_, makeTrunc_five v1 v2 v3 v4 v5⟩

theorem saved_shape {memStr : String → Except PyErr Bool} {f : JVal → String} {read : String → Option (List Char)} {a : Parsed} {A : Args} {w : List (String × Content)}
    (hA : arguments read a = some A) (hw : savedFile (driver memStr f A).saved = some w) :
    (w = [] ∧ ¬ ∃ t, Saves a t) ∨ ∃ t text, Saves a t ∧ object text = some (savedEntries t) ∧ w = [("../truncs.json", .text text)] := by
  by_cases hs : ∃ t, Saves a t
  · obtain ⟨t, h1, h2, h3⟩ := hs
    refine Or.inr ⟨t, ?_⟩
    obtain ⟨d, hm⟩ := makeTrunc_of_length h3
    obtain ⟨text, e1, e2, _⟩ := savedEntries_text t
    refine ⟨text, ⟨h1, h2, h3⟩, e2, ?_⟩
    rw [arguments, h2] at hA
    cases hA
    have : (driver memStr f ⟨a.t, none, a.ansatz, a.excited, a.removeF, a.code, a.lhs⟩).saved = some ((savedEntries t).map strKey) := by
      rw [h1]
      simp only [driver, hm, makeTrunc_save memStr hm]
    rw [this, savedFile, e1] at hw
    cases hw
    rfl
  · refine Or.inl ⟨?_, hs⟩
    have : (driver memStr f A).saved = none := by
      unfold arguments at hA
      cases hp : a.path with
      | none =>
        rw [hp] at hA
        cases hA
        cases ht : a.t with
        | none => rfl
        | some t =>
          have hl : ¬ (t.length = 3 ∨ t.length = 4 ∨ t.length = 5) := fun hl => hs ⟨t, ht, hp, hl⟩
          have hm := makeTrunc_other t (by omega)
          simp only [driver, hm]
      | some q =>
        rw [hp] at hA
        simp only [] at hA
        split at hA
        · cases hA
          cases ht : a.t <;> rfl
        · split at hA
          · split at hA
            · cases hA
            · cases hA
              cases ht : a.t <;> rfl
          · cases hA
            cases ht : a.t with
            | none =>
              simp only [driver]
              split <;> rfl
            | some t => rfl
    rw [this] at hw
    cases hw
    rfl

theorem main_shape {o : Orders} {memStr : String → Except PyErr Bool} {f : JVal → String} {read : String → Option (List Char)} {a : Parsed} {r : Run} (h : main o memStr f read a = some r) :
    ∃ w : List (String × Content), ((w = [] ∧ ¬ ∃ t, Saves a t) ∨ ∃ t text, Saves a t ∧ object text = some (savedEntries t) ∧ w = [("../truncs.json", .text text)]) ∧
      ((∃ e, r = ⟨w, .error e⟩) ∨ ∃ path x, path ≠ "../truncs.json" ∧ r = ⟨w ++ [(path, .equations x)], .ok ()⟩) := by
  unfold main at h
  cases hA : arguments read a with
  | none => rw [hA] at h; cases h
  | some A =>
    rw [hA] at h
    simp only [] at h
    cases hw : savedFile (driver memStr f A).saved with
    | none => rw [hw] at h; cases h
    | some w =>
      rw [hw] at h
      simp only [] at h
      refine ⟨w, saved_shape hA hw, ?_⟩
      cases hr : (driver memStr f A).result with
      | error e =>
        rw [hr] at h
        cases h
        exact Or.inl ⟨_, rfl⟩
      | ok c =>
        have hc := driver_start hr
        rw [hr] at h
        unfold finish at h
        split at h
        · next h1 => cases h1
        · next c' h1 =>
          cases h1
          split at h
          · cases h
          · cases h
            exact Or.inl ⟨_, rfl⟩
          · cases h
            refine Or.inr ⟨_, _, ?_, rfl⟩
            intro h
            rw [h] at hc
            exact absurd hc (by decide)

theorem runOn_main {o : Orders} {memStr : String → Except PyErr Bool} {f : JVal → String} {disk : Disk} {a : Parsed} {r : Run} (h : runOn o memStr f disk a = some r) :
    main o memStr f (readable disk) a = some r := by
  unfold runOn at h
  split at h
  · cases h
  · exact h

/-- a run and a name other than that of the saved values -/
theorem run_equations {o : Orders} {memStr : String → Except PyErr Bool} {f : JVal → String} {disk : Disk} {a : Parsed} {r : Run} (h : runOn o memStr f disk a = some r) {p : String}
    (hp : p ≠ "../truncs.json") :
    (r.writes.foldl put disk p = disk p ∧ Untouched p r) ∨
      ∃ x, r.result = .ok () ∧ r.writes.getLast? = some (p, .equations x) ∧ r.writes.foldl put disk p = some (.equations x) := by
  obtain ⟨w, h1, h2⟩ := main_shape (runOn_main h)
  have hw : ∀ v ∈ w, v.1 ≠ p := by
    intro v hv e
    rcases h1 with ⟨rfl, _⟩ | ⟨t, text, _, _, rfl⟩
    · cases hv
    · rw [List.mem_singleton.1 hv] at e
      exact hp e.symm
  have hf : w.foldl put disk p = disk p := by
    rcases h1 with ⟨rfl, _⟩ | ⟨t, text, _, _, rfl⟩
    · rfl
    · exact if_neg hp
  rcases h2 with ⟨e, rfl⟩ | ⟨path, x, _, rfl⟩
  · exact Or.inl ⟨hf, hw⟩
  · by_cases hpp : p = path
    · subst hpp
      refine Or.inr ⟨x, rfl, by simp, ?_⟩
      rw [List.foldl_append]
      exact if_pos rfl
    · refine Or.inl ⟨?_, ?_⟩
      · rw [List.foldl_append]
        exact (if_neg hpp).trans hf
      · intro v hv
        rcases List.mem_append.1 hv with hv | hv
        · exact hw v hv
        · rw [List.mem_singleton.1 hv]
          exact fun e => hpp e.symm

/-- a run and the saved values -/
theorem run_truncs {o : Orders} {memStr : String → Except PyErr Bool} {f : JVal → String} {disk : Disk} {a : Parsed} {r : Run} (h : runOn o memStr f disk a = some r) :
    (r.writes.foldl put disk "../truncs.json" = disk "../truncs.json" ∧ ¬ ∃ t, Saves a t) ∨
      ∃ t text, Saves a t ∧ object text = some (savedEntries t) ∧ ("../truncs.json", Content.text text) ∈ r.writes ∧ r.writes.foldl put disk "../truncs.json" = some (.text text) := by
  obtain ⟨w, h1, h2⟩ := main_shape (runOn_main h)
  have hr : r.writes.foldl put disk "../truncs.json" = w.foldl put disk "../truncs.json" ∧ ∀ v ∈ w, v ∈ r.writes := by
    rcases h2 with ⟨e, rfl⟩ | ⟨path, x, hp, rfl⟩
    · exact ⟨rfl, fun v hv => hv⟩
    · refine ⟨?_, fun v hv => List.mem_append_left _ hv⟩
      rw [List.foldl_append]
      exact if_neg fun e => hp e.symm
  rw [hr.1]
  rcases h1 with ⟨rfl, hn⟩ | ⟨t, text, hs, ho, rfl⟩
  · exact Or.inl ⟨rfl, hn⟩
  · exact Or.inr ⟨t, text, hs, ho, hr.2 _ List.mem_cons_self, by simp [put]⟩

/-! ## Several runs -/

theorem session_cons {memStr : String → Except PyErr Bool} {f : JVal → String} {disk disk' : Disk} {a : Orders × Parsed} {l : List (Orders × Parsed)} {rs : List Run} :
    session memStr f disk (a :: l) = some (disk', rs) ↔
      ∃ r rs', runOn a.1 memStr f disk a.2 = some r ∧ session memStr f (r.writes.foldl put disk) l = some (disk', rs') ∧ rs = r :: rs' := by
  rw [session]
  constructor
  · intro h
    split at h
    · cases h
    · next r hr =>
      split at h
      · cases h
      · next d rs' hs =>
        cases h
        exact ⟨r, rs', hr, hs, rfl⟩
  · rintro ⟨r, rs', h1, h2, rfl⟩
    simp only [h1, h2]

theorem session_append {memStr : String → Except PyErr Bool} {f : JVal → String} : ∀ {l1 l2 : List (Orders × Parsed)} {disk disk' : Disk} {rs : List Run},
    session memStr f disk (l1 ++ l2) = some (disk', rs) ↔
      ∃ d rs1 rs2, session memStr f disk l1 = some (d, rs1) ∧ session memStr f d l2 = some (disk', rs2) ∧ rs = rs1 ++ rs2
  | [], l2, disk, disk', rs => by
    constructor
    · intro h
      exact ⟨disk, [], rs, rfl, h, rfl⟩
    · rintro ⟨d, rs1, rs2, h1, h2, rfl⟩
      cases h1
      exact h2
  | a :: l1, l2, disk, disk', rs => by
    rw [List.cons_append, session_cons]
    constructor
    · rintro ⟨r, rs', h1, h2, rfl⟩
      obtain ⟨d, rs1, rs2, h3, h4, rfl⟩ := session_append.1 h2
      exact ⟨d, r :: rs1, rs2, session_cons.2 ⟨r, rs1, h1, h3, rfl⟩, h4, rfl⟩
    · rintro ⟨d, rs1, rs2, h3, h4, rfl⟩
      obtain ⟨r, rs', h1, h2, rfl⟩ := session_cons.1 h3
      exact ⟨r, rs' ++ rs2, h1, session_append.2 ⟨d, rs', rs2, h2, h4, rfl⟩, rfl⟩

/-- **C95** After any number of runs, a file other than `../truncs.json` is what it was before, and no run wrote it, or it is the complete file of equations of the last run that wrote it, and that
run was successful.  Runs that raise an exception, whenever they come, leave no trace. -/
theorem session_equations (memStr : String → Except PyErr Bool) (f : JVal → String) (p : String) (hp : p ≠ "../truncs.json") : ∀ (l : List (Orders × Parsed)) (disk disk' : Disk) (rs : List Run),
    session memStr f disk l = some (disk', rs) →
    (disk' p = disk p ∧ ∀ r ∈ rs, Untouched p r) ∨
      ∃ l1 a l2 d rs1 r rs2 x, l = l1 ++ a :: l2 ∧ rs = rs1 ++ r :: rs2 ∧ session memStr f disk l1 = some (d, rs1) ∧ runOn a.1 memStr f d a.2 = some r ∧
        r.result = .ok () ∧ r.writes.getLast? = some (p, .equations x) ∧ disk' p = some (.equations x) ∧ ∀ r' ∈ rs2, Untouched p r'
  | [], disk, disk', rs, h => by
    cases h
    exact Or.inl ⟨rfl, fun r hr => by cases hr⟩
  | a :: l, disk, disk', rs, h => by
    obtain ⟨r, rs', h1, h2, rfl⟩ := session_cons.1 h
    rcases session_equations memStr f p hp l _ _ _ h2 with ⟨h3, h4⟩ | ⟨l1, b, l2, d, rs1, r', rs2, x, rfl, rfl, h5, h6⟩
    · rcases run_equations h1 hp with ⟨h5, h6⟩ | ⟨x, h5, h6, h7⟩
      · refine Or.inl ⟨h3.trans h5, fun r' hr' => ?_⟩
        rcases List.mem_cons.1 hr' with rfl | hr'
        · exact h6
        · exact h4 r' hr'
      · exact Or.inr ⟨[], a, l, disk, [], r, rs', x, rfl, rfl, rfl, h1, h5, h6, h3.trans h7, h4⟩
    · exact Or.inr ⟨a :: l1, b, l2, d, r :: rs1, r', rs2, x, rfl, rfl, session_cons.2 ⟨r, rs1, h1, h5, rfl⟩, h6⟩

/-- **C95** After any number of runs, `../truncs.json` is what it was before, and no command line asked to save values, or it has the values of the last command line that did, whether that run
succeeded or not. -/
theorem session_truncs (memStr : String → Except PyErr Bool) (f : JVal → String) : ∀ (l : List (Orders × Parsed)) (disk disk' : Disk) (rs : List Run),
    session memStr f disk l = some (disk', rs) →
    (disk' "../truncs.json" = disk "../truncs.json" ∧ ∀ a ∈ l, ¬ ∃ t, Saves a.2 t) ∨
      ∃ l1 a l2 t text, l = l1 ++ a :: l2 ∧ Saves a.2 t ∧ (∀ b ∈ l2, ¬ ∃ t, Saves b.2 t) ∧ object text = some (savedEntries t) ∧ disk' "../truncs.json" = some (.text text)
  | [], disk, disk', rs, h => by
    cases h
    exact Or.inl ⟨rfl, fun r hr => by cases hr⟩
  | a :: l, disk, disk', rs, h => by
    obtain ⟨r, rs', h1, h2, rfl⟩ := session_cons.1 h
    rcases session_truncs memStr f l _ _ _ h2 with ⟨h3, h4⟩ | ⟨l1, b, l2, t, text, rfl, h5⟩
    · rcases run_truncs h1 with ⟨h5, h6⟩ | ⟨t, text, h5, h6, _, h7⟩
      · refine Or.inl ⟨h3.trans h5, fun b hb => ?_⟩
        rcases List.mem_cons.1 hb with rfl | hb
        · exact h6
        · exact h4 b hb
      · exact Or.inr ⟨[], a, l, t, text, rfl, h5, h4, h6, h3.trans h7⟩
    · exact Or.inr ⟨a :: l1, b, l2, t, text, rfl, h5⟩

/-- **C95** The values of the last command line with `-t` can be used again after any number of other runs: with `--path ../truncs.json` and the same options (and the same iteration orders of sets)
the driver writes the same file of equations, or raises the same exception, if the values are in the documented ranges; otherwise it raises an exception and writes nothing. -/
theorem session_replay (memStr : String → Except PyErr Bool) (f : JVal → String) (l1 l2 : List (Orders × Parsed)) (o : Orders) (a : Parsed) (t : List Int) (disk disk' : Disk) (rs : List Run)
    (h : session memStr f disk (l1 ++ (o, a) :: l2) = some (disk', rs)) (ha : Saves a t) (hl : ∀ b ∈ l2, ¬ ∃ t, Saves b.2 t) :
    ∃ d rs1 r rs2, session memStr f disk l1 = some (d, rs1) ∧ runOn o memStr f d a = some r ∧ rs = rs1 ++ r :: rs2 ∧
      ((InRange (maxima t.length) t ∧ ∃ text w, r.writes = ("../truncs.json", .text text) :: w ∧
          runOn o memStr f disk' { a with t := none, path := some "../truncs.json" } = some ⟨w, r.result⟩) ∨
        (¬ InRange (maxima t.length) t ∧ ∃ e, runOn o memStr f disk' { a with t := none, path := some "../truncs.json" } = some ⟨[], .error e⟩)) := by
  obtain ⟨d, rs1, rs', h1, h2, rfl⟩ := session_append.1 h
  obtain ⟨r, rs2, h3, h4, rfl⟩ := session_cons.1 h2
  refine ⟨d, rs1, r, rs2, h1, h3, rfl, ?_⟩
  have h5 : disk' "../truncs.json" = r.writes.foldl put d "../truncs.json" := by
    rcases session_truncs memStr f l2 _ _ _ h4 with ⟨h5, _⟩ | ⟨k1, b, k2, t', text, rfl, h6, _⟩
    · exact h5
    · exact absurd ⟨t', h6⟩ (hl b (List.mem_append_right _ List.mem_cons_self))
  rcases run_truncs h3 with ⟨_, h6⟩ | ⟨t', text, _, _, h7, h8⟩
  · exact absurd ⟨t, ha⟩ h6
  · rw [h8] at h5
    have hrun : ∀ b : Parsed, b.path = some "../truncs.json" → runOn o memStr f disk' b = main o memStr f (readable disk') b := by
      intro b hb
      unfold runOn
      rw [hb]
      simp only [Option.bind_some, h5]
    rw [hrun _ rfl]
    rcases run_replay o memStr f (readable d) (readable disk') a t ha.1 ha.2.1 ha.2.2 r (runOn_main h3) text h7 "../truncs.json" (by rw [readable, h5]) with ⟨h9, w, h10, h11⟩ | h9
    · exact Or.inl ⟨h9, text, w, h10, h11⟩
    · exact Or.inr h9

/-! ## Concrete cases -/

/-- a command line without `--path` is described -/
theorem main_described (o : Orders) (memStr : String → Except PyErr Bool) (f : JVal → String) (read : String → Option (List Char)) (a : Parsed) (hp : a.path = none) :
    ∃ r, main o memStr f read a = some r := by
  cases ht : a.t with
  | none =>
    have : arguments read a = some ⟨none, none, a.ansatz, a.excited, a.removeF, a.code, a.lhs⟩ := by rw [arguments, hp, ht]
    unfold main
    rw [this]
    exact ⟨_, rfl⟩
  | some t =>
    by_cases hl : t.length = 3 ∨ t.length = 4 ∨ t.length = 5
    · by_cases ha : AnsatzFits a.ansatz t.length
      · obtain ⟨text, _, ⟨_, path, x, _, h⟩ | ⟨_, e, h⟩⟩ := run_t o memStr f read a t ht hp hl ha
        · exact ⟨_, h⟩
        · exact ⟨_, h⟩
      · obtain ⟨text, _, e, h⟩ := run_t_mismatch o memStr f read a t ht hp hl ha
        exact ⟨_, h⟩
    · have hm := makeTrunc_other t (by omega)
      have : arguments read a = some ⟨some t, none, a.ansatz, a.excited, a.removeF, a.code, a.lhs⟩ := by rw [arguments, hp, ht]
      unfold main
      rw [this]
      simp only [driver, hm, savedFile, finish]
      exact ⟨_, rfl⟩

/-- sessions of command lines without `--path` are described, so the theorems above are about all of them -/
theorem session_described (memStr : String → Except PyErr Bool) (f : JVal → String) : ∀ (l : List (Orders × Parsed)) (disk : Disk), (∀ a ∈ l, a.2.path = none) →
    ∃ disk' rs, session memStr f disk l = some (disk', rs)
  | [], disk, _ => ⟨disk, [], rfl⟩
  | a :: l, disk, h => by
    obtain ⟨r, hr⟩ := main_described a.1 memStr f (readable disk) a.2 (h a List.mem_cons_self)
    have hr' : runOn a.1 memStr f disk a.2 = some r := by
      unfold runOn
      rw [h a List.mem_cons_self]
      exact hr
    obtain ⟨d, rs, hs⟩ := session_described memStr f l (r.writes.foldl put disk) fun b hb => h b (List.mem_cons_of_mem _ hb)
    exact ⟨d, r :: rs, session_cons.2 ⟨r, rs, hr', hs, rfl⟩⟩

theorem put_last {disk : Disk} (u v : String × Content) (p : String) (h : p = v.1) : [u, v].foldl put disk p = some v.2 := by
  simp [put, h]

/-- **C95** Files are overwritten: `-t 1 1 1` and then `-t 1 2 2` succeed, write different equations under the same name, and only the second file remains. -/
theorem overwritten (o : Orders) (memStr : String → Except PyErr Bool) (f : JVal → String) (disk : Disk) :
    ∃ a b p x y d ra rb, parse ["-t", "1", "1", "1"] = .ok a ∧ parse ["-t", "1", "2", "2"] = .ok b ∧ session memStr f disk [(o, a), (o, b)] = some (d, [ra, rb]) ∧
      ra.result = .ok () ∧ rb.result = .ok () ∧ ra.writes.getLast? = some (p, .equations x) ∧ rb.writes.getLast? = some (p, .equations y) ∧ x ≠ y ∧ d p = some (.equations y) := by
  let a : Parsed := { defaults with t := some [1, 1, 1] }
  let b : Parsed := { defaults with t := some [1, 2, 2] }
  obtain ⟨ta, _, ⟨_, pa, xa, ea, ra⟩ | ⟨hn, _⟩⟩ := run_t o memStr f (readable disk) a [1, 1, 1] rfl rfl (Or.inl rfl) (Or.inl rfl)
  swap
  · exact absurd (show Writes false false false [1, 1, 1] by simp [Writes]) hn
  let disk1 : Disk := [("../truncs.json", Content.text ta), (pa, .equations xa)].foldl put disk
  obtain ⟨tb, _, ⟨_, pb, xb, eb, rb⟩ | ⟨hn, _⟩⟩ := run_t o memStr f (readable disk1) b [1, 2, 2] rfl rfl (Or.inl rfl) (Or.inl rfl)
  swap
  · exact absurd (show Writes false false false [1, 2, 2] by simp [Writes]) hn
  obtain ⟨rfl, da, ha, rfl⟩ := ea
  obtain ⟨rfl, db, hb, rfl⟩ := eb
  refine ⟨a, b, _, _, _, _, _, _, by decide +kernel, by decide +kernel, session_cons.2 ⟨_, _, ra, session_cons.2 ⟨_, _, rb, rfl, rfl⟩, rfl⟩, rfl, rfl, rfl, rfl, ?_, ?_⟩
  · intro h
    injection h with h
    have h1 : (ztDocument true false 1 1 1).map List.length ≠ (ztDocument true false 1 2 2).map List.length := by decide +kernel
    have ha' : ztDocument true false 1 1 1 = .ok da := ha
    have hb' : ztDocument true false 1 2 2 = .ok db := hb
    rw [ha', hb', h] at h1
    exact h1 rfl
  · exact put_last _ _ _ rfl

/-- which options matter for the name: `-es` does not change the name of an eT Python module, the values do not change the name of the other files -/
example (o : Orders) {p q : String} {x y : Output} (hx : Equations o true false true false [1, 1, 1, 1, 1] p x) (hy : Equations o false true true false [1, 1, 1, 1, 1] q y) : p = q :=
  (same_name_iff hx hy (by simp) (by simp)).2 ⟨rfl, rfl, rfl, rfl⟩

example (o : Orders) {p q : String} {x y : Output} (hx : Equations o true false true false [1, 1, 1, 1, 1] p x) (hy : Equations o true false true false [1, 1, 1, 2, 1] q y) : p ≠ q := by
  intro h
  have := (same_name_iff hx hy (by simp) (by simp)).1 h
  simp at this

end TF.Program
