import Verif.Spec.Program
import Verif.Props.Glue
import Verif.Props.TruncText
import Verif.Props.FullCC.Latex
import Verif.Props.FullCC.Python
import Verif.Props.ZhzDoc
import Verif.Props.ETLatex
import Verif.Props.ETPython

/-!
# C94: a run of the driver, from the words of the command line to the files
-/

namespace TF.Program

open TF.Trunc TF.Glue TF.Spec TF.Spec.Json TF.Spec.Program

/-! ## The command line -/

theorem plain_not_option {s : String} (h : s.toList.head? ≠ some '-') : optionOf s = none := by
  unfold optionOf
  have key : ∀ x : String, x.toList.head? = some '-' → s ≠ x := by
    rintro x hx rfl
    exact h hx
  have h1 := key "-l" (by decide); have h2 := key "--log_path" (by decide); have h3 := key "-s" (by decide); have h4 := key "--stdlog" (by decide)
  have h5 := key "-t" (by decide); have h6 := key "-a" (by decide); have h7 := key "--ansatz" (by decide); have h8 := key "-es" (by decide)
  have h9 := key "--excited_state" (by decide); have h10 := key "-rf" (by decide); have h11 := key "--remove_f_terms" (by decide)
  have h12 := key "-c" (by decide); have h13 := key "--code" (by decide); have h14 := key "-lhs" (by decide)
  have h15 := key "-p" (by decide); have h16 := key "--path" (by decide)
  simp only [h1, h2, h3, h4, h5, h6, h7, h8, h9, h10, h11, h12, h13, h14, h15, h16, or_self, if_false]

theorem plain_isValue {s : String} (h : s.toList.head? ≠ some '-') : isValue s = true := by
  unfold isValue
  split
  · next l hl => rw [hl] at h; exact absurd rfl h
  · rfl

theorem int_chars (i : Int) : (∃ l, (toString i).toList = '-' :: l ∧ l ≠ [] ∧ l.all Char.isDigit = true) ∨ ((toString i).toList ≠ [] ∧ (toString i).toList.all Char.isDigit = true) := by
  have hn : ∀ n : Nat, n.repr.toList ≠ [] ∧ n.repr.toList.all Char.isDigit = true := by
    intro n
    refine ⟨?_, List.all_eq_true.2 fun c hc => digit_of_natRepr hc⟩
    rw [Nat.repr_eq_ofList_toDigits, String.toList_ofList]
    intro h
    have := Nat.length_toDigits_pos (b := 10) (n := n)
    rw [h] at this
    simp at this
  cases i with
  | ofNat n => exact Or.inr (hn n)
  | negSucc n =>
    refine Or.inl ⟨(n + 1).repr.toList, ?_, hn _⟩
    show ("-" ++ (n + 1).repr).toList = _
    rw [String.toList_append]
    rfl

theorem int_isValue (i : Int) : isValue (toString i) = true := by
  unfold isValue
  rcases int_chars i with ⟨l, h, h1, h2⟩ | ⟨h1, h2⟩
  · rw [h]
    simp [h1, h2]
  · split
    · next l hl =>
      rw [hl] at h2
      simp at h2
    · rfl

theorem digits_not_option (s : String) (h : ∃ c ∈ s.toList, c.isDigit = true) : optionOf s = none := by
  have key : ∀ x : String, (x.toList.all fun c => !c.isDigit) = true → s ≠ x := by
    rintro x hx rfl
    obtain ⟨c, hc, hd⟩ := h
    have := List.all_eq_true.1 hx c hc
    rw [hd] at this
    cases this
  unfold optionOf
  have h1 := key "-l" (by decide); have h2 := key "--log_path" (by decide); have h3 := key "-s" (by decide); have h4 := key "--stdlog" (by decide)
  have h5 := key "-t" (by decide); have h6 := key "-a" (by decide); have h7 := key "--ansatz" (by decide); have h8 := key "-es" (by decide)
  have h9 := key "--excited_state" (by decide); have h10 := key "-rf" (by decide); have h11 := key "--remove_f_terms" (by decide)
  have h12 := key "-c" (by decide); have h13 := key "--code" (by decide); have h14 := key "-lhs" (by decide)
  have h15 := key "-p" (by decide); have h16 := key "--path" (by decide)
  simp only [h1, h2, h3, h4, h5, h6, h7, h8, h9, h10, h11, h12, h13, h14, h15, h16, or_self, if_false]

theorem int_not_option (i : Int) : optionOf (toString i) = none := by
  refine digits_not_option _ ?_
  rcases int_chars i with ⟨l, h, h1, h2⟩ | ⟨h1, h2⟩
  · obtain ⟨c, hc⟩ := List.exists_mem_of_ne_nil l h1
    exact ⟨c, by rw [h]; exact List.mem_cons_of_mem _ hc, List.all_eq_true.1 h2 c hc⟩
  · obtain ⟨c, hc⟩ := List.exists_mem_of_ne_nil _ h1
    exact ⟨c, hc, List.all_eq_true.1 h2 c hc⟩

theorem parseWords_values (l : List Int) : ∀ (acc : List Int) (rest : List String) (a : Parsed),
    parseWords (.values acc) (l.map (fun x => toString x) ++ rest) a = parseWords (.values (acc ++ l)) rest a := by
  induction l with
  | nil => intro acc rest a; simp
  | cons i l ih =>
    intro acc rest a
    rw [List.map_cons, List.cons_append, parseWords, int_not_option]
    simp only []
    rw [integer_toString]
    simp only []
    rw [ih]
    simp

theorem parseWords_items : ∀ (items : List Item) (w : Wait) (a a' : Parsed), (∀ x ∈ items, x.Plain) → close a w = .ok a' →
    parseWords w (items.flatMap Item.words) a = .ok (items.foldl (fun b x => x.set b) a')
  | [], w, a, a', _, hc => by
    have : parseWords w [] a = close a w := by cases w <;> rfl
    rw [List.flatMap_nil, this, hc]
    rfl
  | x :: items, w, a, a', hp, hc => by
    have hx := hp x (by simp)
    have hrest : ∀ y ∈ items, y.Plain := fun y hy => hp y (by simp [hy])
    have opt : ∀ (s : String) (o : Opt), optionOf s = some o → ∀ rest, parseWords w (s :: rest) a = parseWords (begin a' o).1 rest (begin a' o).2 := by
      intro s o ho rest
      cases w <;> (rw [parseWords, ho]; simp only []; rw [hc])
    have val : ∀ (s : String) (o : Opt) (b : Parsed) (rest : List String), s.toList.head? ≠ some '-' →
        parseWords (.value o) (s :: rest) b = parseWords .nothing rest (setValue b s o) := by
      intro s o b rest hs
      rw [parseWords, plain_not_option hs]
    rw [List.flatMap_cons, List.foldl_cons]
    cases x with
    | logPath b s =>
      have ho : optionOf (if b then "--log_path" else "-l") = some .logPath := by cases b <;> decide
      rw [Item.words, List.cons_append, opt _ _ ho, List.cons_append, List.nil_append, begin, val _ _ _ _ hx]
      exact parseWords_items items _ _ _ hrest rfl
    | stdlog b =>
      have ho : optionOf (if b then "--stdlog" else "-s") = some .stdlog := by cases b <;> decide
      rw [Item.words, List.cons_append, opt _ _ ho]
      exact parseWords_items items _ _ _ hrest rfl
    | t i l =>
      rw [Item.words, List.cons_append, opt "-t" .t (by decide), begin, parseWords_values]
      exact parseWords_items items _ _ _ hrest rfl
    | ansatz b s =>
      have ho : optionOf (if b then "--ansatz" else "-a") = some .ansatz := by cases b <;> decide
      rw [Item.words, List.cons_append, opt _ _ ho, List.cons_append, List.nil_append, begin, val _ _ _ _ hx]
      exact parseWords_items items _ _ _ hrest rfl
    | excited b =>
      have ho : optionOf (if b then "--excited_state" else "-es") = some .excited := by cases b <;> decide
      rw [Item.words, List.cons_append, opt _ _ ho]
      exact parseWords_items items _ _ _ hrest rfl
    | removeF b s =>
      have ho : optionOf (if b then "--remove_f_terms" else "-rf") = some .removeF := by cases b <;> decide
      rw [Item.words, List.cons_append, opt _ _ ho, List.cons_append, List.nil_append, begin, val _ _ _ _ hx]
      exact parseWords_items items _ _ _ hrest rfl
    | code b =>
      have ho : optionOf (if b then "--code" else "-c") = some .code := by cases b <;> decide
      rw [Item.words, List.cons_append, opt _ _ ho]
      exact parseWords_items items _ _ _ hrest rfl
    | lhs =>
      rw [Item.words, List.cons_append, opt "-lhs" .lhs (by decide)]
      exact parseWords_items items _ _ _ hrest rfl
    | path b s =>
      have ho : optionOf (if b then "--path" else "-p") = some .path := by cases b <;> decide
      rw [Item.words, List.cons_append, opt _ _ ho, List.cons_append, List.nil_append, begin, val _ _ _ _ hx]
      exact parseWords_items items _ _ _ hrest rfl

theorem words_described {x : Item} (hx : x.Plain) : ∀ s ∈ x.words, ((optionOf s).isSome || isValue s) = true := by
  intro s hs
  cases x with
  | t i l =>
    rcases List.mem_cons.1 hs with rfl | hs
    · decide
    · obtain ⟨j, _, rfl⟩ := List.mem_map.1 hs
      rw [int_isValue, Bool.or_true]
  | lhs =>
    rw [List.mem_singleton.1 hs]; decide
  | stdlog b => rw [List.mem_singleton.1 hs]; cases b <;> decide
  | excited b => rw [List.mem_singleton.1 hs]; cases b <;> decide
  | code b => rw [List.mem_singleton.1 hs]; cases b <;> decide
  | logPath b v =>
    rcases List.mem_cons.1 hs with rfl | hs
    · cases b <;> decide
    · rw [List.mem_singleton.1 hs, plain_isValue hx, Bool.or_true]
  | ansatz b v =>
    rcases List.mem_cons.1 hs with rfl | hs
    · cases b <;> decide
    · rw [List.mem_singleton.1 hs, plain_isValue hx, Bool.or_true]
  | removeF b v =>
    rcases List.mem_cons.1 hs with rfl | hs
    · cases b <;> decide
    · rw [List.mem_singleton.1 hs, plain_isValue hx, Bool.or_true]
  | path b v =>
    rcases List.mem_cons.1 hs with rfl | hs
    · cases b <;> decide
    · rw [List.mem_singleton.1 hs, plain_isValue hx, Bool.or_true]

/-- **C94** The command line: options in any order and any spelling set what they say, a repeated option overwrites, negative integers after `-t` are values. -/
theorem parse_items (items : List Item) (hp : ∀ x ∈ items, x.Plain) : parse (items.flatMap Item.words) = .ok (items.foldl (fun b x => x.set b) defaults) := by
  unfold parse
  rw [if_pos]
  · exact parseWords_items items _ _ _ hp rfl
  · refine List.all_eq_true.2 fun s hs => ?_
    obtain ⟨x, hx, h⟩ := List.mem_flatMap.1 hs
    exact words_described (hp x hx) s h

/-- a word without an option, `-t` without a value, `-a` at the end or before another option: usage errors -/
example : parse ["-c", "2"] = .error .usage ∧ parse ["-t", "-c"] = .error .usage ∧ parse ["-t", "2", "-a"] = .error .usage ∧ parse ["-a", "-c"] = .error .usage := by
  decide +kernel

example : parse ["-c", "-t", "2", "-1", "3", "-rf", "False", "--ansatz", "full cc", "-t", "1", "1", "1", "1"] =
    .ok { defaults with code := true, removeF := some "False", ansatz := some "full cc", t := some [1, 1, 1, 1] } := by
  decide +kernel

/-! ## The run -/

/-- the entries with their keys -/
def keyed : List Int → List (TKey × JVal)
  | [h, cc, p] => [(.H, .int h), (.CC, .int cc), (.P, .int p)]
  | [h, cc, s, p] => [(.H, .int h), (.CC, .int cc), (.S, .int s), (.P, .int p)]
  | [h, cc, t, k, p] => [(.H, .int h), (.CC, .int cc), (.T, .int t), (.eT, .int k), (.P, .int p)]
  | _ => []

theorem keyed_nodup (t : List Int) : ((keyed t).map Prod.fst).Nodup := by
  unfold keyed
  split <;> simp

theorem keyed_int (t : List Int) : ∀ e ∈ keyed t, (∃ i, e.2 = .int i) ∨ ∃ b, e.2 = .bool b := by
  unfold keyed
  split <;> simp

theorem savedEntries_keyed (t : List Int) : savedEntries t = (keyed t).map fun e => (e.1.str, e.2) := by
  match t with
  | [] => rfl
  | [_] => rfl
  | [_, _] => rfl
  | [_, _, _] => rfl
  | [_, _, _, _] => rfl
  | [_, _, _, _, _] => rfl
  | _ :: _ :: _ :: _ :: _ :: _ :: _ => rfl

theorem strKey_keyed (t : List Int) : (savedEntries t).map strKey = (keyed t).map strEntry := by
  rw [savedEntries_keyed, List.map_map]
  rfl

theorem makeTrunc_keyed {t : List Int} {d : Dict} (h : makeTrunc t = .ok d) : d = (keyed t).map enumEntry := by
  have hlen : t.length = 3 ∨ t.length = 4 ∨ t.length = 5 := by
    by_contra hn
    have := makeTrunc_other t (by omega)
    rw [h] at this; cases this
  rcases hlen with hl | hl | hl
  · match t, hl with
    | [v1, v2, v3], _ => rw [makeTrunc_three] at h; cases h; rfl
  · match t, hl with
    | [v1, v2, v3, v4], _ => rw [makeTrunc_four] at h; cases h; rfl
  · match t, hl with
    | [v1, v2, v3, v4, v5], _ => rw [makeTrunc_five] at h; cases h; rfl

theorem savedEntries_text (t : List Int) : ∃ text, dumps ((savedEntries t).map strKey) = some text ∧ object text = some (savedEntries t) ∧ loads text = some ((savedEntries t).map strKey) := by
  obtain ⟨u, hu⟩ := entriesText_some (keyed t) (keyed_int t)
  have h : dumps ((savedEntries t).map strKey) = some ('{' :: u ++ ['}']) := by
    unfold dumps
    rw [strKey_keyed, hu]
    rfl
  obtain ⟨ps, h1, h2⟩ := dumps_layout h
  have h3 := object_spaced h1 h2
  refine ⟨_, h, h3, loads_distinct h3 ?_⟩
  rw [savedEntries_keyed, List.map_map]
  have : (Prod.fst ∘ fun e : TKey × JVal => (e.1.str, e.2)) = TKey.str ∘ Prod.fst := rfl
  rw [this, ← List.map_map]
  exact (keyed_nodup t).map fun a b e => TKey.str_inj e

theorem makeTrunc_save (memStr : String → Except PyErr Bool) {t : List Int} {d : Dict} (h : makeTrunc t = .ok d) : save memStr d = .ok ((savedEntries t).map strKey) := by
  rw [makeTrunc_keyed h, strKey_keyed]
  exact toStrings_enum memStr _ (keyed_nodup t)

/-- the options as the driver sees them -/
def args (a : Parsed) : Args := ⟨a.t, none, a.ansatz, a.excited, a.removeF, a.code, a.lhs⟩

theorem main_tail (o : Orders) (memStr : String → Except PyErr Bool) (f : JVal → String) (read : String → Option (List Char)) {a : Parsed} {t : List Int} (ht : a.t = some t) (hp : a.path = none)
    {d : Dict} (hm : makeTrunc t = .ok d) : ∃ text, object text = some (savedEntries t) ∧ loads text = some ((savedEntries t).map strKey) ∧
      main o memStr f read a = finish o [("../truncs.json", .text text)] (driverTail memStr f (args a) d) := by
  obtain ⟨text, h1, h2, h3⟩ := savedEntries_text t
  refine ⟨text, h2, h3, ?_⟩
  have harg : arguments read a = some (args a) := by
    unfold arguments args
    rw [hp]
  have hd : driver memStr f (args a) = ⟨some ((savedEntries t).map strKey), driverTail memStr f (args a) d⟩ := by
    have h4 : (args a).t = some t := ht
    have h5 : (args a).path = none := rfl
    unfold driver
    rw [h4, h5]
    simp only [hm, makeTrunc_save memStr hm]
  unfold main
  rw [harg]
  simp only []
  rw [hd]
  simp only [savedFile, h1, Option.map_some]

/-- the keyword arguments of the glue layer -/
def kwargs (a : Parsed) (s : String) : Kwargs :=
  { onlyGroundState := some (!a.excited), removeF := some (rfFlag a.removeF), ansatz := some s, side := some (if a.lhs then "LHS" else "RHS"), other := false }

theorem tail_fits (memStr : String → Except PyErr Bool) (f : JVal → String) {a : Parsed} {d : Dict} {fam : Family} (hf : keyListType d.length = .ok fam)
    (ha : a.ansatz = none ∨ a.ansatz = some "" ∨ a.ansatz = some (ansatzName fam)) {c : Call}
    (hc : generate f (if a.code then .python else .latex) d (kwargs a (ansatzName fam)) = .ok c) : driverTail memStr f (args a) d = startGenerator memStr c := by
  unfold driverTail
  rcases ha with h | h | h
  · have : (args a).ansatz = none := h
    rw [this]
    simp only [hf]
    exact (congrArg (fun r => match r with | Except.error e => Except.error e | .ok c => startGenerator memStr c) hc)
  · have : (args a).ansatz = some "" := h
    rw [this]
    simp only [hf, if_true]
    exact (congrArg (fun r => match r with | Except.error e => Except.error e | .ok c => startGenerator memStr c) hc)
  · have : (args a).ansatz = some (ansatzName fam) := h
    rw [this]
    have h1 : ¬ ansatzName fam = "" := by cases fam <;> decide
    have h2 : ansatzName fam = "eT_z_t ansatz" ∨ ansatzName fam = "z_t ansatz" ∨ ansatzName fam = "full cc" := by cases fam <;> decide
    simp only [if_neg h1, if_pos h2]
    exact (congrArg (fun r => match r with | Except.error e => Except.error e | .ok c => startGenerator memStr c) hc)

theorem tail_error (memStr : String → Except PyErr Bool) (f : JVal → String) {a : Parsed} {d : Dict} {fam : Family} (hf : keyListType d.length = .ok fam)
    (ha : a.ansatz = none ∨ a.ansatz = some "" ∨ a.ansatz = some (ansatzName fam)) {e : PyErr}
    (hc : generate f (if a.code then .python else .latex) d (kwargs a (ansatzName fam)) = .error e) : driverTail memStr f (args a) d = .error e := by
  unfold driverTail
  rcases ha with h | h | h
  · have : (args a).ansatz = none := h
    rw [this]
    simp only [hf]
    exact (congrArg (fun r => match r with | Except.error e => Except.error e | .ok c => startGenerator memStr c) hc)
  · have : (args a).ansatz = some "" := h
    rw [this]
    simp only [hf, if_true]
    exact (congrArg (fun r => match r with | Except.error e => Except.error e | .ok c => startGenerator memStr c) hc)
  · have : (args a).ansatz = some (ansatzName fam) := h
    rw [this]
    have h1 : ¬ ansatzName fam = "" := by cases fam <;> decide
    have h2 : ansatzName fam = "eT_z_t ansatz" ∨ ansatzName fam = "z_t ansatz" ∨ ansatzName fam = "full cc" := by cases fam <;> decide
    simp only [if_neg h1, if_pos h2]
    exact (congrArg (fun r => match r with | Except.error e => Except.error e | .ok c => startGenerator memStr c) hc)

/-- the two ways a run ends -/
theorem finish_spec (o : Orders) (memStr : String → Except PyErr Bool) (w : List (String × Content)) {c : Call} {out : Except PyErr Output} (ho : output o c = some out) :
    (∃ x, startGenerator memStr c = .ok c ∧ out = .ok x ∧ finish o w (startGenerator memStr c) = some ⟨w ++ [(c.path, .equations x)], .ok ()⟩) ∨
    (¬ (startGenerator memStr c = .ok c ∧ ∃ x, out = .ok x) ∧ ∃ e, finish o w (startGenerator memStr c) = some ⟨w, .error e⟩) := by
  have hs : startGenerator memStr c = .ok c ∨ ∃ e, startGenerator memStr c = .error e := by
    unfold startGenerator
    split <;> (split <;> simp)
  rcases hs with hs | ⟨e, hs⟩
  · rw [hs]
    unfold finish
    simp only [ho]
    cases out with
    | error e => exact Or.inr ⟨by simp, e, rfl⟩
    | ok x => exact Or.inl ⟨x, by simp, rfl, rfl⟩
  · rw [hs]
    exact Or.inr ⟨by simp, e, rfl⟩

theorem map_ok_iff {α β : Type} {r : Except PyErr α} {g : α → β} : (∃ x, r.map g = .ok x) ↔ ∃ y, r = .ok y := by
  cases r <;> simp [Except.map]

theorem map_ok {α β : Type} {r : Except PyErr α} {g : α → β} {x : β} (h : r.map g = .ok x) : ∃ y, r = .ok y ∧ x = g y := by
  cases r with
  | error e => cases h
  | ok y => exact ⟨y, rfl, by injection h with h; exact h.symm⟩

section
open TF.CC TF.Zhz

/-- the argument of C56 for any Hamiltonian -/
theorem zt_sections_ok_iff (gs rf : Bool) (H : List HOp) (cc pMax : Nat) :
    (∃ d, collect (fun q => one (sectionFor gs rf H (zOps cc gs) q.1 q.2)) ((omegaOps cc pMax).zip (previous (omegaOps cc pMax))) = .ok d) ↔ gs = true ∧ min cc pMax ≤ 8 := by
  constructor
  · rintro ⟨d, hd⟩
    rw [collect_ok_iff] at hd
    obtain ⟨g, hg, -⟩ := hd
    have hpair : ∀ o ∈ omegaOps cc pMax, ∃ q, (o, q) ∈ (omegaOps cc pMax).zip (previous (omegaOps cc pMax)) := by
      intro o ho
      obtain ⟨k, hk, rfl⟩ := List.getElem_of_mem ho
      have hk' : k < (previous (omegaOps cc pMax)).length := by rw [previous_length]; exact hk
      refine ⟨(previous (omegaOps cc pMax))[k], ?_⟩
      rw [List.mem_iff_getElem]
      exact ⟨k, by simp [hk, hk'], by simp⟩
    have hcase : ∀ m, m ≤ min cc pMax → ∃ o ∈ omegaOps cc pMax, o.rank = m := by
      intro m hm
      exact ⟨⟨TF.CC.rep 'd' m ++ TF.CC.rep 'b' 0, m + 0, m, 0⟩,
        (omegaOps_exact cc pMax _).2 ⟨rfl, rfl, by simp only; omega, by simp only; omega⟩, rfl⟩
    refine ⟨?_, ?_⟩
    · cases gs with
      | true => rfl
      | false =>
        obtain ⟨o, ho, -⟩ := hcase 0 (Nat.zero_le _)
        obtain ⟨q, hq⟩ := hpair o ho
        have h1 := hg _ hq
        simp only [Zhz.sectionFor, Zhz.equation, Bool.not_false, if_true] at h1
        cases ha : rankNames[o.rank]? with
        | none => rw [ha] at h1; simp [one] at h1
        | some x =>
          rw [ha] at h1
          simp only [] at h1
          cases hb : omegaLetters o with
          | error e => rw [hb] at h1; simp [one] at h1
          | ok y => rw [hb] at h1; simp [one] at h1
    · by_contra h9
      obtain ⟨o, ho, hr⟩ := hcase 9 (by omega)
      obtain ⟨q, hq⟩ := hpair o ho
      have h1 := hg _ hq
      simp only [] at h1
      rw [sectionFor_high _ _ _ _ _ (by omega)] at h1
      simp [one] at h1
  · rintro ⟨rfl, h⟩
    refine ⟨_, collect_ok_of (fun p : Op × Op => [gsSection H cc p.1 p.2]) ?_⟩
    rintro ⟨a, b⟩ hp
    obtain ⟨h1, h2, h3, h4⟩ := (omegaOps_exact cc pMax a).1 (mem_zip_left hp)
    simp only []
    rw [sectionFor_gs rf _ cc b h1 h2 (by omega)]
    rfl

end

theorem ztDocument_ok_iff (gs rf : Bool) (h cc p : Int) : (∃ d, ztDocument gs rf h cc p = .ok d) ↔ cc < 0 ∨ p < 0 ∨ (gs = true ∧ (cc ≤ 8 ∨ p ≤ 8)) := by
  unfold ztDocument
  by_cases hn : cc < 0 ∨ p < 0
  · rw [if_pos hn]
    rcases hn with hn | hn <;> simp [hn]
  · rw [if_neg hn, zt_sections_ok_iff]
    constructor
    · rintro ⟨h1, h2⟩
      exact Or.inr (Or.inr ⟨h1, by omega⟩)
    · rintro (h1 | h1 | ⟨h1, h2⟩)
      · exact absurd (Or.inl h1) hn
      · exact absurd (Or.inr h1) hn
      · exact ⟨h1, by omega⟩

/-- what the generators get from the values on the command line -/
theorem startGenerator_fcc (memStr : String → Except PyErr Bool) (g : Gen) (hg : g = .fccLatex ∨ g = .fccPython) (h cc s p : Int) (gs rf : Bool) (side path : String) :
    startGenerator memStr ⟨g, [(.enum .H, .int h), (.enum .CC, .int cc), (.enum .S, .int s), (.enum .P, .int p)], gs, rf, side, path⟩ =
        .ok ⟨g, [(.enum .H, .int h), (.enum .CC, .int cc), (.enum .S, .int s), (.enum .P, .int p)], gs, rf, side, path⟩ ↔
      Between h 6 ∧ Between cc 6 ∧ Between s 6 ∧ Between p 6 := by
  rw [show (Between h 6 ∧ Between cc 6 ∧ Between s 6 ∧ Between p 6) = _ from propext (verify_fcc_values memStr h cc s p).symm]
  unfold startGenerator
  rcases hg with rfl | rfl <;> (simp only []; split <;> simp_all)

theorem startGenerator_eT (memStr : String → Except PyErr Bool) (g : Gen) (hg : g = .eTLatex ∨ g = .eTPython) (h cc t k p : Int) (gs rf : Bool) (side path : String) :
    startGenerator memStr ⟨g, [(.enum .H, .int h), (.enum .CC, .int cc), (.enum .T, .int t), (.enum .eT, .int k), (.enum .P, .int p)], gs, rf, side, path⟩ =
        .ok ⟨g, [(.enum .H, .int h), (.enum .CC, .int cc), (.enum .T, .int t), (.enum .eT, .int k), (.enum .P, .int p)], gs, rf, side, path⟩ ↔
      Between h 6 ∧ Between cc 6 ∧ (1 ≤ t ∧ t ≤ 1) ∧ Between k 8 ∧ Between p 6 := by
  rw [show (Between h 6 ∧ Between cc 6 ∧ (1 ≤ t ∧ t ≤ 1) ∧ Between k 8 ∧ Between p 6) = _ from propext (verify_eT_values memStr h cc t k p).symm]
  unfold startGenerator
  rcases hg with rfl | rfl <;> (simp only []; split <;> simp_all)

theorem flagPath_eq (gs rf lhs : Bool) (kind r l ext : String) : flagPath gs rf (if lhs then "LHS" else "RHS") kind r l ext = .ok (flagName gs rf lhs kind r l ext) := by
  cases lhs
  · rfl
  · rfl

theorem run_case {o : Orders} {memStr : String → Except PyErr Bool} {text : List Char} {c : Call} {out : Except PyErr Output} (ho : output o c = some out) {W : Prop} {E : String → Output → Prop}
    {r : Option Run} (hr : r = finish o [("../truncs.json", .text text)] (startGenerator memStr c)) (hw : (startGenerator memStr c = .ok c ∧ ∃ x, out = .ok x) ↔ W)
    (he : W → ∀ x, out = .ok x → E c.path x) :
    (W ∧ ∃ path x, E path x ∧ r = some ⟨[("../truncs.json", .text text), (path, .equations x)], .ok ()⟩) ∨
      (¬ W ∧ ∃ e, r = some ⟨[("../truncs.json", .text text)], .error e⟩) := by
  rcases finish_spec o memStr [("../truncs.json", .text text)] ho with ⟨x, h1, h2, h3⟩ | ⟨h1, e, h2⟩
  · have w := hw.1 ⟨h1, x, h2⟩
    exact Or.inl ⟨w, c.path, x, he w x h2, by rw [hr, h3]; rfl⟩
  · exact Or.inr ⟨fun w => h1 (hw.2 w), e, by rw [hr, h2]⟩

/-- **C94** A run with `-t` and three, four or five values (and no `--path`): the values are saved under their names in `../truncs.json`, and then either the file of equations is written and the run
succeeds, or the run raises an exception and no other file is written.  `Writes` says when, `Equations` says what. -/
theorem run_t (o : Orders) (memStr : String → Except PyErr Bool) (f : JVal → String) (read : String → Option (List Char)) (a : Parsed) (t : List Int) (ht : a.t = some t) (hp : a.path = none)
    (hl : t.length = 3 ∨ t.length = 4 ∨ t.length = 5) (ha : AnsatzFits a.ansatz t.length) :
    ∃ text, object text = some (savedEntries t) ∧
      ((Writes a.excited a.code a.lhs t ∧ ∃ path x, Equations o (!a.excited) (rfFlag a.removeF) a.code a.lhs t path x ∧
          main o memStr f read a = some ⟨[("../truncs.json", .text text), (path, .equations x)], .ok ()⟩) ∨
        (¬ Writes a.excited a.code a.lhs t ∧ ∃ e, main o memStr f read a = some ⟨[("../truncs.json", .text text)], .error e⟩)) := by
  have hside : ∀ m : ET.Mode, (m = if a.lhs then .lhs else .rhs) → sideMode (if a.lhs then "LHS" else "RHS") = some m := by
    rintro m rfl
    cases a.lhs <;> rfl
  have hfit : ∀ fam : Family, ansatzOf t.length = some (ansatzName fam) → a.ansatz = none ∨ a.ansatz = some "" ∨ a.ansatz = some (ansatzName fam) := by
    intro fam hn
    rcases ha with h | h | ⟨s, h1, h2⟩
    · exact Or.inl h
    · exact Or.inr (Or.inl h)
    · rw [hn] at h1; cases h1
      exact Or.inr (Or.inr h2)
  rcases hl with hl | hl | hl
  · match t, hl with
    | [h, cc, p], _ =>
      obtain ⟨text, t1, t2, t3⟩ := main_tail o memStr f read ht hp (makeTrunc_three h cc p)
      refine ⟨text, t1, ?_⟩
      cases hcode : a.code with
      | true =>
        refine Or.inr ⟨fun hw => absurd hw.1 (by simp), ?_⟩
        cases hg : generate f (if a.code then .python else .latex) [(.enum .H, .int h), (.enum .CC, .int cc), (.enum .P, .int p)] (kwargs a (ansatzName .zhz)) with
        | ok c =>
          rw [hcode] at hg
          exact absurd hg (generate_zt_python f _ _ rfl c)
        | error e =>
          rw [tail_error memStr f (fam := .zhz) rfl (hfit .zhz rfl) hg] at t3
          exact ⟨e, t3⟩
      | false =>
        have hg : generate f (if a.code then .python else .latex) [(.enum .H, .int h), (.enum .CC, .int cc), (.enum .P, .int p)] (kwargs a (ansatzName .zhz)) =
            .ok ⟨.ztLatex, [(.enum .H, .int h), (.enum .CC, .int cc), (.enum .P, .int p)], !a.excited, rfFlag a.removeF, if a.lhs then "LHS" else "RHS",
              flagName (!a.excited) (rfFlag a.removeF) a.lhs "z_t_" "symmetric_equations" "special_LHS_terms" ".tex"⟩ := by
          rw [hcode]
          refine (generate_ok_iff f _ _ _ _ rfl _).2 ⟨.ztLatex, 3, rfl, rfl, ?_⟩
          unfold wrapper
          simp only [kwargs, Option.getD_some, flagPath_eq]
        rw [tail_fits memStr f (fam := .zhz) rfl (hfit .zhz rfl) hg] at t3
        refine run_case (out := (ztDocument (!a.excited) (rfFlag a.removeF) h cc p).map .ztLatex) rfl t3 ?_ ?_
        · rw [map_ok_iff, ztDocument_ok_iff]
          have : startGenerator memStr ⟨.ztLatex, [(.enum .H, .int h), (.enum .CC, .int cc), (.enum .P, .int p)], !a.excited, rfFlag a.removeF, if a.lhs then "LHS" else "RHS",
              flagName (!a.excited) (rfFlag a.removeF) a.lhs "z_t_" "symmetric_equations" "special_LHS_terms" ".tex"⟩ = .ok _ := rfl
          rw [this]
          simp [Writes]
        · intro _ x hx
          obtain ⟨d, h1, h2⟩ := map_ok hx
          exact ⟨rfl, d, h1, h2⟩
  · match t, hl with
    | [h, cc, s, p], _ =>
      obtain ⟨text, t1, t2, t3⟩ := main_tail o memStr f read ht hp (makeTrunc_four h cc s p)
      refine ⟨text, t1, ?_⟩
      cases hcode : a.code with
      | true =>
        have hg : generate f (if a.code then .python else .latex) [(.enum .H, .int h), (.enum .CC, .int cc), (.enum .S, .int s), (.enum .P, .int p)] (kwargs a (ansatzName .fcc)) =
            .ok ⟨.fccPython, [(.enum .H, .int h), (.enum .CC, .int cc), (.enum .S, .int s), (.enum .P, .int p)], !a.excited, rfFlag a.removeF, if a.lhs then "LHS" else "RHS",
              flagName (!a.excited) (rfFlag a.removeF) a.lhs "full_cc_" "equations" "special_LHS_equations" ".py"⟩ := by
          rw [hcode]
          refine (generate_ok_iff f _ _ _ _ rfl _).2 ⟨.fccPython, 4, rfl, rfl, ?_⟩
          unfold wrapper
          simp only [kwargs, Option.getD_some, flagPath_eq]
        rw [tail_fits memStr f (fam := .fcc) rfl (hfit .fcc rfl) hg] at t3
        refine run_case (out := (CC.pythonFile o.nat o.ts h.toNat cc.toNat s.toNat p.toNat).map fun F => .fccPython (CC.fileText cc.toNat F)) rfl t3 ?_ ?_
        · rw [startGenerator_fcc memStr _ (Or.inr rfl), map_ok_iff]
          constructor
          · rintro ⟨⟨b1, b2, b3, b4⟩, hx⟩
            unfold Between at b1 b2 b3 b4
            have := (CC.pythonFile_ok_iff o.nat o.ts h.toNat cc.toNat s.toNat p.toNat (by omega) (by omega) (by omega)).1.1 hx
            exact ⟨b1, b2, b3, b4, by simp, fun _ => by omega⟩
          · rintro ⟨b1, b2, b3, b4, -, h5⟩
            refine ⟨⟨b1, b2, b3, b4⟩, ?_⟩
            unfold Between at b1 b2 b3 b4
            have := h5 rfl
            exact (CC.pythonFile_ok_iff o.nat o.ts h.toNat cc.toNat s.toNat p.toNat (by omega) (by omega) (by omega)).1.2 (by omega)
        · intro _ x hx
          obtain ⟨d, h1, h2⟩ := map_ok hx
          exact ⟨rfl, d, h1, h2⟩
      | false =>
        have hg : generate f (if a.code then .python else .latex) [(.enum .H, .int h), (.enum .CC, .int cc), (.enum .S, .int s), (.enum .P, .int p)] (kwargs a (ansatzName .fcc)) =
            .ok ⟨.fccLatex, [(.enum .H, .int h), (.enum .CC, .int cc), (.enum .S, .int s), (.enum .P, .int p)], !a.excited, rfFlag a.removeF, if a.lhs then "LHS" else "RHS",
              flagName (!a.excited) (rfFlag a.removeF) a.lhs "full_cc_" "symmetric_equations" "special_LHS_terms" ".tex"⟩ := by
          rw [hcode]
          refine (generate_ok_iff f _ _ _ _ rfl _).2 ⟨.fccLatex, 4, rfl, rfl, ?_⟩
          unfold wrapper
          simp only [kwargs, Option.getD_some, flagPath_eq]
        rw [tail_fits memStr f (fam := .fcc) rfl (hfit .fcc rfl) hg] at t3
        refine run_case (out := (CC.latexDocument o.nat o.ts o.pairs (rfFlag a.removeF) (!a.excited) h.toNat cc.toNat s.toNat p.toNat).map .fccLatex) rfl t3 ?_ ?_
        · rw [startGenerator_fcc memStr _ (Or.inl rfl), map_ok_iff]
          constructor
          · rintro ⟨⟨b1, b2, b3, b4⟩, hx⟩
            unfold Between at b1 b2 b3 b4
            have := (CC.document_ok_iff o.nat o.ts o.pairs (rfFlag a.removeF) (!a.excited) h.toNat cc.toNat s.toNat p.toNat (by omega)).1.1 hx
            exact ⟨b1, b2, b3, b4, fun _ => by omega, by simp⟩
          · rintro ⟨b1, b2, b3, b4, h5, -⟩
            refine ⟨⟨b1, b2, b3, b4⟩, ?_⟩
            unfold Between at b1 b2 b3 b4
            have := h5 rfl
            exact (CC.document_ok_iff o.nat o.ts o.pairs (rfFlag a.removeF) (!a.excited) h.toNat cc.toNat s.toNat p.toNat (by omega)).1.2 (by omega)
        · intro _ x hx
          obtain ⟨d, h1, h2⟩ := map_ok hx
          exact ⟨rfl, d, h1, h2⟩
  · match t, hl with
    | [h, cc, t, k, p], _ =>
      obtain ⟨text, t1, t2, t3⟩ := main_tail o memStr f read ht hp (makeTrunc_five h cc t k p)
      refine ⟨text, t1, ?_⟩
      cases hcode : a.code with
      | true =>
        have hg : generate f (if a.code then .python else .latex) [(.enum .H, .int h), (.enum .CC, .int cc), (.enum .T, .int t), (.enum .eT, .int k), (.enum .P, .int p)] (kwargs a (ansatzName .eTz)) =
            .ok ⟨.eTPython, [(.enum .H, .int h), (.enum .CC, .int cc), (.enum .T, .int t), (.enum .eT, .int k), (.enum .P, .int p)], !a.excited, rfFlag a.removeF, if a.lhs then "LHS" else "RHS",
              "./eT_zhz_eqs_" ++ (if a.lhs then "LHS" else "RHS") ++ "_H(" ++ toString h ++ ")_P(" ++ toString p ++ ")_T(" ++ toString t ++ ")_exp(" ++ toString k ++ ")_Z(" ++ toString cc ++ ").py"⟩ := by
          rw [hcode]
          exact (generate_ok_iff f _ _ _ _ rfl _).2 ⟨.eTPython, 5, rfl, rfl, rfl⟩
        rw [tail_fits memStr f (fam := .eTz) rfl (hfit .eTz rfl) hg] at t3
        have hside := hside _ rfl
        refine run_case (out := (ETPy.module (!a.excited) (if a.lhs then .lhs else .rhs) h.toNat cc.toNat t.toNat k.toNat p.toNat).map fun x =>
          .eTPython (ETPy.fileText (if a.lhs then .lhs else .rhs) x)) ?_ t3 ?_ ?_
        · simp only [output, num, Dict.get?, intVal, hside]
          rfl
        · rw [startGenerator_eT memStr _ (Or.inr rfl), map_ok_iff]
          constructor
          · rintro ⟨⟨b1, b2, b3, b4, b5⟩, hx⟩
            obtain rfl : t = 1 := by omega
            unfold Between at b1 b2 b4 b5
            have := (ETPy.eT_python_ok_iff (by omega) (by omega) (by omega) (by omega)).1 hx
            refine ⟨b1, b2, rfl, b4, b5, by simp, fun _ => ?_⟩
            generalize a.lhs = b at this ⊢
            cases b <;> (simp at this ⊢; omega)
          · rintro ⟨b1, b2, rfl, b4, b5, -, h6⟩
            refine ⟨⟨b1, b2, by omega, b4, b5⟩, ?_⟩
            unfold Between at b1 b2 b4 b5
            refine (ETPy.eT_python_ok_iff (by omega) (by omega) (by omega) (by omega)).2 ?_
            have := h6 rfl
            generalize a.lhs = b at this ⊢
            cases b <;> (simp at this ⊢; omega)
        · intro hw x hx
          obtain ⟨d, h1, h2⟩ := map_ok hx
          obtain rfl : t = 1 := hw.2.2.1
          exact ⟨rfl, d, h1, h2⟩
      | false =>
        have hg : generate f (if a.code then .python else .latex) [(.enum .H, .int h), (.enum .CC, .int cc), (.enum .T, .int t), (.enum .eT, .int k), (.enum .P, .int p)] (kwargs a (ansatzName .eTz)) =
            .ok ⟨.eTLatex, [(.enum .H, .int h), (.enum .CC, .int cc), (.enum .T, .int t), (.enum .eT, .int k), (.enum .P, .int p)], !a.excited, rfFlag a.removeF, if a.lhs then "LHS" else "RHS",
              flagName (!a.excited) (rfFlag a.removeF) a.lhs "eT_z_t_" "symmetric_equations" "special_LHS_terms" ".tex"⟩ := by
          rw [hcode]
          refine (generate_ok_iff f _ _ _ _ rfl _).2 ⟨.eTLatex, 5, rfl, rfl, ?_⟩
          unfold wrapper
          simp only [kwargs, Option.getD_some, flagPath_eq]
        rw [tail_fits memStr f (fam := .eTz) rfl (hfit .eTz rfl) hg] at t3
        have hside := hside _ rfl
        refine run_case (out := (ET.document (!a.excited) (rfFlag a.removeF) (if a.lhs then .lhs else .rhs) h.toNat cc.toNat t.toNat k.toNat p.toNat).map (.eTLatex (if a.lhs then .lhs else .rhs))) ?_ t3 ?_ ?_
        · simp only [output, num, Dict.get?, intVal, hside]
          rfl
        · rw [startGenerator_eT memStr _ (Or.inl rfl), map_ok_iff]
          constructor
          · rintro ⟨⟨b1, b2, b3, b4, b5⟩, hx⟩
            obtain rfl : t = 1 := by omega
            unfold Between at b1 b2 b4 b5
            have := (ETLatex.eT_latex_ok_iff _ _ _ _ _ _ _).1 hx
            exact ⟨b1, b2, rfl, b4, b5, fun _ => by simpa using this.1, by simp⟩
          · rintro ⟨b1, b2, rfl, b4, b5, h6, -⟩
            refine ⟨⟨b1, b2, by omega, b4, b5⟩, ?_⟩
            unfold Between at b1 b2 b4 b5
            exact (ETLatex.eT_latex_ok_iff _ _ _ _ _ _ _).2 ⟨by simp [h6 rfl], by omega, by omega⟩
        · intro hw x hx
          obtain ⟨d, h1, h2⟩ := map_ok hx
          obtain rfl : t = 1 := hw.2.2.1
          exact ⟨rfl, d, h1, h2⟩

/-- **C94** Any other number of values: the run raises an exception and writes nothing. -/
theorem run_t_other (o : Orders) (memStr : String → Except PyErr Bool) (f : JVal → String) (read : String → Option (List Char)) (a : Parsed) (t : List Int) (ht : a.t = some t) (hp : a.path = none)
    (hl : t.length ≠ 3 ∧ t.length ≠ 4 ∧ t.length ≠ 5) : main o memStr f read a = some ⟨[], .error .exception⟩ := by
  have harg : arguments read a = some (args a) := by
    unfold arguments args
    rw [hp]
  have hd : driver memStr f (args a) = ⟨none, .error .exception⟩ := by
    have h4 : (args a).t = some t := ht
    have h5 : (args a).path = none := rfl
    unfold driver
    rw [h4, h5]
    simp only [makeTrunc_other t hl]
  unfold main
  rw [harg]
  simp only []
  rw [hd]
  rfl

theorem tail_mismatch (memStr : String → Except PyErr Bool) (f : JVal → String) {a : Parsed} {d : Dict} {n : Nat} (hn : d.length = n) (ha : ¬ AnsatzFits a.ansatz n) :
    ∃ e, driverTail memStr f (args a) d = .error e := by
  cases hs : a.ansatz with
  | none => exact absurd (Or.inl hs) ha
  | some s =>
    have hne : ¬ s = "" := fun h => ha (Or.inr (Or.inl (by rw [hs, h])))
    have h1 : (args a).ansatz = some s := hs
    cases hd : driverTail memStr f (args a) d with
    | error e => exact ⟨e, rfl⟩
    | ok c =>
      exfalso
      unfold driverTail at hd
      rw [h1] at hd
      simp only [if_neg hne] at hd
      by_cases h2 : s = "eT_z_t ansatz" ∨ s = "z_t ansatz" ∨ s = "full cc"
      · simp only [if_pos h2] at hd
        generalize hg : generate f _ _ _ = res at hd
        cases res with
        | error e => cases hd
        | ok c' =>
          obtain ⟨g, m, g1, g2, g3⟩ := (generate_ok_iff f _ _ _ _ rfl c').1 hg
          refine ha (Or.inr (Or.inr ⟨s, ?_, hs⟩))
          rw [← hn, g2]
          generalize (if (args a).code then Target.python else .latex) = tgt at g1
          rcases h2 with rfl | rfl | rfl <;> cases tgt <;> cases g1 <;> rfl
      · simp only [if_neg h2] at hd
        cases hd

/-- **C94** `-a` with an ansatz that does not have this number of values: the values are saved, then the run raises an exception. -/
theorem run_t_mismatch (o : Orders) (memStr : String → Except PyErr Bool) (f : JVal → String) (read : String → Option (List Char)) (a : Parsed) (t : List Int) (ht : a.t = some t) (hp : a.path = none)
    (hl : t.length = 3 ∨ t.length = 4 ∨ t.length = 5) (ha : ¬ AnsatzFits a.ansatz t.length) :
    ∃ text, object text = some (savedEntries t) ∧ ∃ e, main o memStr f read a = some ⟨[("../truncs.json", .text text)], .error e⟩ := by
  obtain ⟨d, hm, hd⟩ : ∃ d, makeTrunc t = .ok d ∧ d.length = t.length := by
    rcases hl with hl | hl | hl
    · match t, hl with
      | [v1, v2, v3], _ => exact ⟨_, makeTrunc_three v1 v2 v3, rfl⟩
    · match t, hl with
      | [v1, v2, v3, v4], _ => exact ⟨_, makeTrunc_four v1 v2 v3 v4, rfl⟩
    · match t, hl with
      | [v1, v2, v3, v4, v5], _ => exact ⟨_, makeTrunc_five v1 v2 v3 v4 v5, rfl⟩
  obtain ⟨text, t1, t2, t3⟩ := main_tail o memStr f read ht hp hm
  obtain ⟨e, he⟩ := tail_mismatch memStr f hd ha
  rw [he] at t3
  exact ⟨text, t1, e, t3⟩

/-- **C94** Whatever the command line and the files: a run that raises an exception has written at most `../truncs.json`; a run that succeeds has written one file of equations, as its last action.
`../truncs.json` is written only with `-t`. -/
theorem run_atomic (o : Orders) (memStr : String → Except PyErr Bool) (f : JVal → String) (read : String → Option (List Char)) (a : Parsed) (r : Run) (h : main o memStr f read a = some r) :
    ∃ w : List (String × Content), (w = [] ∨ (a.t ≠ none ∧ ∃ text, w = [("../truncs.json", .text text)])) ∧
      ((∃ e, r = ⟨w, .error e⟩) ∨ ∃ path x, r = ⟨w ++ [(path, .equations x)], .ok ()⟩) := by
  unfold main at h
  cases hA : arguments read a with
  | none => rw [hA] at h; cases h
  | some A =>
    rw [hA] at h
    simp only [] at h
    have hAt : A.t = a.t := by
      unfold arguments at hA
      split at hA
      · cases hA; rfl
      · split at hA
        · cases hA; rfl
        · split at hA
          · split at hA
            · cases hA
            · cases hA; rfl
          · cases hA; rfl
    cases hw : savedFile (driver memStr f A).saved with
    | none => rw [hw] at h; cases h
    | some w =>
      rw [hw] at h
      simp only [] at h
      refine ⟨w, ?_, ?_⟩
      · cases hs : (driver memStr f A).saved with
        | none =>
          rw [hs] at hw
          cases hw
          exact Or.inl rfl
        | some file =>
          rw [hs] at hw
          refine Or.inr ⟨?_, ?_⟩
          · intro ht
            rw [← hAt] at ht
            unfold driver at hs
            rw [ht] at hs
            split at hs
            · next h1 _ => cases h1
            · next h1 _ => cases h1
            · cases hs
            · split at hs <;> cases hs
            · cases hs
          · rw [savedFile] at hw
            cases hd : dumps file with
            | none => rw [hd] at hw; cases hw
            | some text =>
              rw [hd] at hw
              cases hw
              exact ⟨text, rfl⟩
      · unfold finish at h
        split at h
        · cases h
          exact Or.inl ⟨_, rfl⟩
        · split at h
          · cases h
          · cases h
            exact Or.inl ⟨_, rfl⟩
          · cases h
            exact Or.inr ⟨_, _, rfl⟩

/-! ## Reading the saved values back -/

theorem verify_zhz_values (memStr : String → Except PyErr Bool) (a b c : Int) :
    verify memStr .zhz [(.enum .H, .int a), (.enum .CC, .int b), (.enum .P, .int c)] = .ok () ↔ (1 ≤ a ∧ a ≤ 6) ∧ (1 ≤ b ∧ b ≤ 6) ∧ (1 ≤ c ∧ c ≤ 6) := by
  rw [verify_ok_iff memStr _ _ (by simp [IsDict])]
  simp [HasEntry, Family.keys, NumberInRange, maximum]

/-- loading the saved values: the same dictionary if the values are in their ranges, an exception otherwise -/
theorem load_saved (memStr : String → Except PyErr Bool) {t : List Int} {d : Dict} (hm : makeTrunc t = .ok d) :
    (InRange (maxima t.length) t ∧ load memStr ((savedEntries t).map strKey) = .ok d) ∨
      (¬ InRange (maxima t.length) t ∧ ∃ e, load memStr ((savedEntries t).map strKey) = .error e) := by
  have hlen : t.length = 3 ∨ t.length = 4 ∨ t.length = 5 := by
    by_contra hn
    have := makeTrunc_other t (by omega)
    rw [hm] at this; cases this
  have hr := keyed_nodup t
  have key : ∀ fam, keyListType d.length = .ok fam → (verify memStr fam d = .ok () ↔ InRange (maxima t.length) t) →
      (InRange (maxima t.length) t ∧ load memStr ((savedEntries t).map strKey) = .ok d) ∨
      (¬ InRange (maxima t.length) t ∧ ∃ e, load memStr ((savedEntries t).map strKey) = .error e) := by
    intro fam hf hv
    have hl : load memStr ((savedEntries t).map strKey) = (match verify memStr fam d with | .error e => .error e | .ok () => .ok d) := by
      unfold load
      rw [strKey_keyed, toEnums_str _ hr, ← makeTrunc_keyed hm]
      simp only [hf]
      rfl
    rw [hl]
    cases hw : verify memStr fam d with
    | error e => exact Or.inr ⟨fun h => (by rw [hv.2 h] at hw; cases hw), e, rfl⟩
    | ok u => exact Or.inl ⟨hv.1 hw, rfl⟩
  rcases hlen with hl | hl | hl
  · match t, hl with
    | [a, b, c], _ =>
      rw [makeTrunc_three] at hm; cases hm
      refine key .zhz rfl ?_
      rw [verify_zhz_values]
      constructor
      · rintro ⟨h1, h2, h3⟩
        refine ⟨rfl, fun i hi _ => ?_⟩
        match i, hi with
        | 0, _ => exact h1
        | 1, _ => exact h2
        | 2, _ => exact h3
      · rintro ⟨_, h⟩
        exact ⟨h 0 (by simp) (by simp [maxima]), h 1 (by simp) (by simp [maxima]), h 2 (by simp) (by simp [maxima])⟩
  · match t, hl with
    | [a, b, c, d], _ =>
      rw [makeTrunc_four] at hm; cases hm
      refine key .fcc rfl ?_
      rw [verify_fcc_values]
      constructor
      · rintro ⟨h1, h2, h3, h4⟩
        refine ⟨rfl, fun i hi _ => ?_⟩
        match i, hi with
        | 0, _ => exact h1
        | 1, _ => exact h2
        | 2, _ => exact h3
        | 3, _ => exact h4
      · rintro ⟨_, h⟩
        exact ⟨h 0 (by simp) (by simp [maxima]), h 1 (by simp) (by simp [maxima]), h 2 (by simp) (by simp [maxima]), h 3 (by simp) (by simp [maxima])⟩
  · match t, hl with
    | [a, b, c, d, e], _ =>
      rw [makeTrunc_five] at hm; cases hm
      refine key .eTz rfl ?_
      rw [verify_eT_values]
      constructor
      · rintro ⟨h1, h2, h3, h4, h5⟩
        refine ⟨rfl, fun i hi _ => ?_⟩
        match i, hi with
        | 0, _ => exact h1
        | 1, _ => exact h2
        | 2, _ => exact h3
        | 3, _ => exact h4
        | 4, _ => exact h5
      · rintro ⟨_, h⟩
        exact ⟨h 0 (by simp) (by simp [maxima]), h 1 (by simp) (by simp [maxima]), h 2 (by simp) (by simp [maxima]), h 3 (by simp) (by simp [maxima]), h 4 (by simp) (by simp [maxima])⟩

/-- **C94** `-t` together with `--path`, neither of them, or `--path` with a file that does not exist: the run raises an exception and writes nothing. -/
theorem run_unclear (o : Orders) (memStr : String → Except PyErr Bool) (f : JVal → String) (read : String → Option (List Char)) (a : Parsed)
    (h : (a.t ≠ none ∧ a.path ≠ none) ∨ (a.t = none ∧ a.path = none) ∨ ∃ p, a.path = some p ∧ read p = none) :
    ∃ e, main o memStr f read a = some ⟨[], .error e⟩ := by
  have key : ∀ A e, arguments read a = some A → driver memStr f A = { saved := none, result := .error e } → main o memStr f read a = some ⟨[], .error e⟩ := by
    intro A e h1 h2
    unfold main
    rw [h1]
    simp only [h2]
    rfl
  rcases h with ⟨h1, h2⟩ | ⟨h1, h2⟩ | ⟨p, h1, h2⟩
  · obtain ⟨t, ht⟩ := Option.ne_none_iff_exists'.1 h1
    obtain ⟨p, hp⟩ := Option.ne_none_iff_exists'.1 h2
    obtain ⟨A, hA, hAt, q, hAp⟩ : ∃ A, arguments read a = some A ∧ A.t = some t ∧ ∃ q, A.path = some q := by
      unfold arguments
      rw [hp]
      simp only []
      split
      · exact ⟨_, rfl, ht, _, rfl⟩
      · split
        · rw [if_neg h1]
          exact ⟨_, rfl, ht, _, rfl⟩
        · exact ⟨_, rfl, ht, _, rfl⟩
    refine ⟨_, key A .exception hA ?_⟩
    unfold driver
    rw [hAt, hAp]
  · refine ⟨_, key (args a) .exception (by unfold arguments args; rw [h2]) ?_⟩
    unfold driver args
    rw [h1]
  · cases ht : a.t with
    | none =>
      refine ⟨_, key ⟨none, some none, a.ansatz, a.excited, a.removeF, a.code, a.lhs⟩ .assertion (by unfold arguments; rw [h1, ht]; simp only [h2]) rfl⟩
    | some t =>
      refine ⟨_, key ⟨some t, some none, a.ansatz, a.excited, a.removeF, a.code, a.lhs⟩ .exception (by unfold arguments; rw [h1, ht]; simp only [h2]) rfl⟩

/-- `-t 1 2 3 --path x` and `--path x` without the file -/
example (o : Orders) (memStr : String → Except PyErr Bool) (f : JVal → String) :
    (∃ e, main o memStr f (fun _ => some ['{']) { defaults with t := some [1, 2, 3], path := some "x" } = some ⟨[], .error e⟩) ∧
    ∃ e, main o memStr f (fun _ => none) { defaults with path := some "x" } = some ⟨[], .error e⟩ :=
  ⟨run_unclear _ _ _ _ _ (Or.inl ⟨by simp, by simp⟩), run_unclear _ _ _ _ _ (Or.inr (Or.inr ⟨"x", rfl, rfl⟩))⟩

/-- **C94** Running again with `--path` and the file that `-t` saved: if the values are in the documented ranges the second run does what the first did (the same file of equations or the same
exception); otherwise it raises an exception and writes nothing. -/
theorem run_replay (o : Orders) (memStr : String → Except PyErr Bool) (f : JVal → String) (read read' : String → Option (List Char)) (a : Parsed) (t : List Int) (ht : a.t = some t)
    (hp : a.path = none) (hl : t.length = 3 ∨ t.length = 4 ∨ t.length = 5) (r : Run) (hr : main o memStr f read a = some r) (text : List Char)
    (hw : ("../truncs.json", Content.text text) ∈ r.writes) (q : String) (hq : read' q = some text) :
    (InRange (maxima t.length) t ∧ ∃ w, r.writes = ("../truncs.json", .text text) :: w ∧ main o memStr f read' { a with t := none, path := some q } = some ⟨w, r.result⟩) ∨
      (¬ InRange (maxima t.length) t ∧ ∃ e, main o memStr f read' { a with t := none, path := some q } = some ⟨[], .error e⟩) := by
  obtain ⟨d, hm⟩ : ∃ d, makeTrunc t = .ok d := by
    rcases hl with hl | hl | hl
    · match t, hl with
      | [v1, v2, v3], _ => exact ⟨_, makeTrunc_three v1 v2 v3⟩
    · match t, hl with
      | [v1, v2, v3, v4], _ => exact ⟨_, makeTrunc_four v1 v2 v3 v4⟩
    · match t, hl with
      | [v1, v2, v3, v4, v5], _ => exact ⟨_, makeTrunc_five v1 v2 v3 v4 v5⟩
  obtain ⟨text', t1, t2, t3⟩ := main_tail o memStr f read ht hp hm
  have hsplit : ∀ (w : List (String × Content)) (res : Except PyErr Call), finish o w res = (finish o [] res).map fun x => ⟨w ++ x.writes, x.result⟩ := by
    intro w res
    unfold finish
    split
    · simp
    · split <;> simp
  rw [hr, hsplit] at t3
  cases hf : finish o [] (driverTail memStr f (args a) d) with
  | none => rw [hf] at t3; cases t3
  | some s =>
    rw [hf] at t3
    injection t3 with t3
    have hs : ∀ x, x ∈ s.writes → ∃ p e, x = (p, Content.equations e) := by
      intro x hx
      unfold finish at hf
      split at hf
      · cases hf; cases hx
      · split at hf
        · cases hf
        · cases hf; cases hx
        · cases hf
          exact ⟨_, _, List.mem_singleton.1 hx⟩
    obtain rfl : text = text' := by
      rw [t3] at hw
      rcases List.mem_append.1 hw with h | h
      · have := List.mem_singleton.1 h
        injection this with _ h
        injection h
      · obtain ⟨p, e, h⟩ := hs _ h
        injection h with _ h
        cases h
    have harg : arguments read' { a with t := none, path := some q } = some ⟨none, some (some ((savedEntries t).map strKey)), a.ansatz, a.excited, a.removeF, a.code, a.lhs⟩ := by
      unfold arguments
      simp only [hq, t2]
    have hmain : main o memStr f read' { a with t := none, path := some q } =
        finish o [] (match load memStr ((savedEntries t).map strKey) with | .error e => .error e | .ok d => driverTail memStr f (args a) d) := by
      unfold main
      rw [harg]
      simp only [driver]
      cases load memStr ((savedEntries t).map strKey) <;> rfl
    rcases load_saved memStr hm with ⟨h1, h2⟩ | ⟨h1, e, h2⟩
    · refine Or.inl ⟨h1, s.writes, by rw [t3]; rfl, ?_⟩
      rw [hmain, h2, t3]
      exact hf
    · refine Or.inr ⟨h1, e, ?_⟩
      rw [hmain, h2]
      rfl

/-- **C94** `-lhs` changes the name of the file but not its contents, unless the ansatz is eT_z_t. -/
theorem side_ignored (o : Orders) (gs rf code : Bool) (t : List Int) (ht : t.length ≠ 5) (x : Output) :
    (∃ path, Equations o gs rf code true t path x) ↔ ∃ path, Equations o gs rf code false t path x := by
  match t with
  | [] => simp [Equations]
  | [_] => simp [Equations]
  | [_, _] => simp [Equations]
  | [_, _, _] => simp [Equations]
  | [_, _, _, _] => cases code <;> simp [Equations]
  | [_, _, _, _, _] => exact absurd rfl ht
  | _ :: _ :: _ :: _ :: _ :: _ :: _ => simp [Equations]

/-- **C94** The full-CC Python file ignores the options for excited states and f terms, too. -/
theorem fcc_python_ignores (o : Orders) (gs rf lhs gs' rf' lhs' : Bool) (h cc s p : Int) (x : Output) :
    (∃ path, Equations o gs rf true lhs [h, cc, s, p] path x) ↔ ∃ path, Equations o gs' rf' true lhs' [h, cc, s, p] path x := by
  simp [Equations]

/-! ## Concrete cases -/

example : Writes false false false [2, 2, 2] ∧ Writes true false false [2, -1, 2] ∧ Writes false true false [5, 6, 6, 6] ∧ Writes false false false [6, 3, 6, 6] ∧
    Writes false true true [5, 6, 1, 2, 3] ∧ ¬ Writes false true false [5, 6, 1, 2, 3] ∧ ¬ Writes false false false [6, 4, 6, 4] := by
  refine ⟨?_, ?_, ?_, ?_, ?_, ?_, ?_⟩ <;> simp [Writes, Between]

/-- the whole way for a small full-CC document: words, saved values, name of the file -/
example : parse ["-t", "1", "1", "1", "1", "-c", "-lhs"] = .ok { defaults with t := some [1, 1, 1, 1], code := true, lhs := true } ∧
    AnsatzFits none 4 ∧ Writes false true true [1, 1, 1, 1] ∧ InRange (maxima 4) [1, 1, 1, 1] := by
  refine ⟨by decide +kernel, Or.inl rfl, by simp [Writes, Between], rfl, fun i hi _ => ?_⟩
  match i, hi with
  | 0, _ => simp [maxima]
  | 1, _ => simp [maxima]
  | 2, _ => simp [maxima]
  | 3, _ => simp [maxima]

example : ¬ AnsatzFits (some "full cc") 5 ∧ AnsatzFits (some "eT_z_t ansatz") 5 := by
  constructor
  · rintro (h | h | ⟨s, h1, h2⟩)
    · cases h
    · exact absurd h (by decide)
    · cases h1; exact absurd h2 (by decide)
  · exact Or.inr (Or.inr ⟨_, rfl, rfl⟩)

end TF.Program
