import Verif.Lemmas.Json

/-!
# C93: the text of a file with truncations
-/

namespace TF.Trunc

open TF.Spec TF.Spec.Json

/-! ## The text that is written -/

theorem entriesText_pieces : ∀ {es : List (String × JVal)} {t : List Char}, es ≠ [] → entriesText (es.map strKey) = some t →
    ∃ ps, Texts es ps ∧ ∀ s, (∀ c ∈ s, isSpace c = true) → Spaced (pieces ps) (s ++ t ++ ['}'])
  | [], _, hne, _ => absurd rfl hne
  | [e], t, _, h => by
    unfold entriesText at h
    simp only [strKey, List.map_cons, List.map_nil, entryText] at h
    split at h
    · next k v hk hv =>
      cases h
      refine ⟨[(k, v)], .cons ⟨hk, hv⟩ .nil, fun s hs => ?_⟩
      have h0 : ∀ c ∈ ([] : List Char), isSpace c = true := by simp
      have := Spaced.cons (piece := k) hs (Spaced.cons (piece := [':']) h0 (Spaced.cons (s := [' ']) (piece := v) (by decide) (Spaced.cons (piece := ['}']) h0 (.nil h0))))
      simpa [pieces] using this
    · cases h
  | e :: e' :: es, t, _, h => by
    rw [List.map_cons, List.map_cons, entriesText] at h
    · simp only [strKey, entryText] at h
      split at h
      · next a b ha hb =>
        cases h
        split at ha
        · next k v hk hv =>
          cases ha
          obtain ⟨ps, h1, h2⟩ := entriesText_pieces (es := e' :: es) (by simp) hb
          obtain ⟨p', ps', hp', _, rfl⟩ := List.forall₂_cons_left_iff.1 h1
          refine ⟨(k, v) :: p' :: ps', .cons ⟨hk, hv⟩ h1, fun s hs => ?_⟩
          have h0 : ∀ c ∈ ([] : List Char), isSpace c = true := by simp
          have := Spaced.cons (piece := k) hs (Spaced.cons (piece := [':']) h0 (Spaced.cons (s := [' ']) (piece := v) (by decide) (Spaced.cons (piece := [',']) h0 (h2 [' '] (by decide)))))
          rw [pieces]
          · simpa using this
          · simp
        · cases ha
      · cases h
    · simp

/-- the text of `json.dumps` is one of the layouts of the dictionary -/
theorem dumps_layout {es : List (String × JVal)} {t : List Char} (h : dumps (es.map strKey) = some t) : ∃ ps, Texts es ps ∧ Spaced (['{'] :: pieces ps) t := by
  have h0 : ∀ c ∈ ([] : List Char), isSpace c = true := by simp
  cases es with
  | nil =>
    cases h
    exact ⟨[], .nil, Spaced.cons (piece := ['{']) h0 (Spaced.cons (piece := ['}']) h0 (.nil h0))⟩
  | cons e es =>
    unfold dumps at h
    cases he : entriesText ((e :: es).map strKey) with
    | none => rw [he] at h; cases h
    | some u =>
      rw [he] at h
      cases h
      obtain ⟨ps, h1, h2⟩ := entriesText_pieces (by simp) he
      exact ⟨ps, h1, Spaced.cons (piece := ['{']) h0 (h2 [] h0)⟩

/-- the dictionary has only integers and booleans as values -/
def Plain (d : Dict) : Prop := ∀ e ∈ d, (∃ i, e.2 = .int i) ∨ ∃ b, e.2 = .bool b

theorem keyText_known (t : TKey) : ∃ x, keyText (.str t.str) = some x := by
  cases t <;> exact ⟨_, rfl⟩

theorem entriesText_some : ∀ (r : List (TKey × JVal)), (∀ e ∈ r, (∃ i, e.2 = .int i) ∨ ∃ b, e.2 = .bool b) → ∃ t, entriesText (r.map strEntry) = some t
  | [], _ => ⟨[], rfl⟩
  | e :: r, h => by
    obtain ⟨k, hk⟩ := keyText_known e.1
    obtain ⟨v, hv⟩ : ∃ v, valueText e.2 = some v := by
      rcases h e (by simp) with ⟨i, hi⟩ | ⟨b, hb⟩
      · rw [hi]; exact ⟨_, rfl⟩
      · rw [hb]; exact ⟨_, rfl⟩
    have he : entryText (strEntry e) = some (k ++ [':', ' '] ++ v) := by
      unfold entryText strEntry
      simp only [hk, hv]
    cases r with
    | nil => exact ⟨_, he⟩
    | cons e' r =>
      obtain ⟨t, ht⟩ := entriesText_some (e' :: r) fun x hx => h x (by simp [List.mem_cons.1 hx])
      rw [List.map_cons] at ht
      rw [List.map_cons, List.map_cons, entriesText]
      · rw [he, ht]
        exact ⟨_, rfl⟩
      · simp

/-- **C93** A valid truncation dictionary with integers (or `True`) can be saved; the text that is written is JSON, and loading a file with this text returns the dictionary, including the
order of its entries. -/
theorem save_text_load (memStr : String → Except PyErr Bool) (fam : Family) (d : Dict) (hd : IsDict d) (hv : ValidTrunc fam d) (hp : Plain d) :
    ∃ text, saveText memStr d = .ok (some text) ∧ loadText memStr text = some (.ok d) := by
  obtain ⟨file, h1, h2⟩ := save_load memStr fam d hd hv
  obtain ⟨r, rfl⟩ := exists_enumEntry (fun k hk => by
    obtain ⟨t, _, rfl⟩ := (hv.keys k).1 hk; exact ⟨t, rfl⟩)
  have hr := isDict_enumEntry.1 hd
  have hs := toStrings_enum memStr r hr
  obtain rfl : file = r.map strEntry := by
    unfold save at h1
    rw [hs] at h1
    injection h1 with h1
    exact h1.symm
  obtain ⟨u, hu⟩ := entriesText_some r fun e he => hp _ (List.mem_map_of_mem (f := enumEntry) he)
  have hdump : dumps (r.map strEntry) = some ('{' :: u ++ ['}']) := by
    unfold dumps
    rw [hu]
    rfl
  have hes : r.map strEntry = (r.map fun e => (e.1.str, e.2)).map strKey := by
    rw [List.map_map]
    rfl
  refine ⟨'{' :: u ++ ['}'], ?_, ?_⟩
  · unfold saveText
    rw [h1]
    simp only [Except.map, hdump]
  · obtain ⟨ps, p1, p2⟩ := dumps_layout (hes ▸ hdump)
    have hl := loads_distinct (object_spaced p1 p2) (by
      rw [List.map_map]
      have : (Prod.fst ∘ fun e : TKey × JVal => (e.1.str, e.2)) = TKey.str ∘ Prod.fst := rfl
      rw [this, ← List.map_map]
      exact hr.map fun a b e => TKey.str_inj e)
    unfold loadText
    rw [hl, ← hes, Option.map_some, h2]

/-- **C93** White space does not matter: any text with the same pieces in the same order is loaded as the dictionary that `json.dumps` wrote. -/
theorem load_text_layout (memStr : String → Except PyErr Bool) {es : List (String × JVal)} {ps : List (List Char × List Char)} (hps : Texts es ps) (hd : (es.map Prod.fst).Nodup)
    {text : List Char} (hs : Spaced (['{'] :: pieces ps) text) : loadText memStr text = some (load memStr (es.map strKey)) := by
  unfold loadText
  rw [loads_distinct (object_spaced hps hs) hd]
  rfl

/-! ## The texts that are accepted -/

theorem get?_set (d : Dict) (k k' : PyKey) (v : JVal) : Dict.get? (Dict.set d k v) k' = if k' = k then some v else Dict.get? d k' := by
  induction d with
  | nil =>
    simp only [Dict.set, Dict.get?]
    by_cases h : k' = k
    · rw [if_pos h.symm, if_pos h]
    · rw [if_neg (fun e => h e.symm), if_neg h]
  | cons e d ih =>
    obtain ⟨a, b⟩ := e
    simp only [Dict.set]
    split_ifs with h1 h2 h2
    · subst h1; subst h2
      simp [Dict.get?]
    · subst h1
      simp only [Dict.get?]
      rw [if_neg (fun e => h2 e.symm), if_neg (fun e => h2 e.symm)]
    · subst h2
      simp only [Dict.get?]
      rw [if_neg h1, ih, if_pos rfl]
    · simp only [Dict.get?]
      rw [ih, if_neg h2]

theorem keys_set (d : Dict) (k : PyKey) (v : JVal) : (Dict.set d k v).map Prod.fst = if k ∈ d.map Prod.fst then d.map Prod.fst else d.map Prod.fst ++ [k] := by
  induction d with
  | nil => simp [Dict.set]
  | cons e d ih =>
    obtain ⟨a, b⟩ := e
    simp only [Dict.set]
    by_cases h1 : a = k
    · subst h1
      simp
    · rw [if_neg h1, List.map_cons, ih]
      have : k ≠ a := fun e => h1 e.symm
      simp only [List.map_cons, List.mem_cons, this, false_or]
      split_ifs <;> simp

def fill (es : List (String × JVal)) (d : Dict) : Dict := es.foldl (fun d e => Dict.set d (.str e.1) e.2) d

theorem fill_isDict (es : List (String × JVal)) (d : Dict) (h : IsDict d) (hs : ∀ k ∈ d.map Prod.fst, ∃ s, k = PyKey.str s) :
    IsDict (fill es d) ∧ ∀ k ∈ (fill es d).map Prod.fst, ∃ s, k = PyKey.str s := by
  induction es generalizing d with
  | nil => exact ⟨h, hs⟩
  | cons e es ih =>
    refine ih _ ?_ ?_
    · unfold IsDict at h ⊢
      rw [keys_set]
      split_ifs with hm
      · exact h
      · exact List.nodup_append.2 ⟨h, by simp, fun a ha b hb => by
          rintro rfl
          exact hm (List.mem_singleton.1 hb ▸ ha)⟩
    · intro k hk
      rw [keys_set] at hk
      split_ifs at hk with hm
      · exact hs k hk
      · rcases List.mem_append.1 hk with hk | hk
        · exact hs k hk
        · exact ⟨_, List.mem_singleton.1 hk⟩

theorem lookup_append_single (l : List (String × JVal)) (e : String × JVal) (k : String) :
    (l ++ [e]).lookup k = (l.lookup k).or (if k = e.1 then some e.2 else none) := by
  induction l with
  | nil =>
    obtain ⟨a, b⟩ := e
    simp only [List.nil_append, List.lookup_cons, List.lookup_nil, Option.none_or]
    by_cases h : k = a
    · simp [h]
    · rw [if_neg h, beq_eq_false_iff_ne.2 h]
  | cons x l ih =>
    obtain ⟨a, b⟩ := x
    rw [List.cons_append, List.lookup_cons, List.lookup_cons, ih]
    cases k == a <;> simp

theorem get?_fill (es : List (String × JVal)) (d : Dict) (k : String) : Dict.get? (fill es d) (.str k) = (lastValue es k).or (Dict.get? d (.str k)) := by
  induction es generalizing d with
  | nil => simp [fill, lastValue]
  | cons e es ih =>
    show Dict.get? (fill es (Dict.set d (.str e.1) e.2)) (.str k) = _
    rw [ih, get?_set]
    unfold lastValue
    rw [List.reverse_cons, lookup_append_single]
    by_cases h : k = e.1
    · subst h
      cases List.lookup e.1 es.reverse <;> simp
    · have : ¬ PyKey.str k = PyKey.str e.1 := fun x => h (by simpa using x)
      rw [if_neg this, if_neg h]
      simp

theorem lastValue_isSome (es : List (String × JVal)) (k : String) : (∃ v, lastValue es k = some v) ↔ k ∈ es.map Prod.fst := by
  unfold lastValue
  induction es with
  | nil => simp
  | cons e es ih =>
    rw [List.reverse_cons, lookup_append_single, List.map_cons, List.mem_cons, ← ih]
    by_cases h : k = e.1
    · subst h
      cases List.lookup e.1 es.reverse <;> simp
    · simp [h]

/-- **C93** A file is accepted exactly when the keys that occur in its text are those of one of the three families, and the last value of every key is a number between 1 and the documented maximum;
this number is then in the dictionary that is returned. -/
theorem load_text_ok_iff (memStr : String → Except PyErr Bool) {text : List Char} {es : List (String × JVal)} (h : object text = some es) :
    ((∃ d, loadText memStr text = some (.ok d)) ↔
      ∃ fam : Family, (∀ k, k ∈ es.map Prod.fst ↔ ∃ t ∈ fam.keys, k = t.str) ∧ ∀ t ∈ fam.keys, ∀ v, lastValue es t.str = some v → NumberInRange (maximum t) v) ∧
    ∀ d, loadText memStr text = some (.ok d) → IsDict d ∧ (∃ fam, ValidTrunc fam d) ∧ ∀ t v, HasEntry d (.enum t) v ↔ lastValue es t.str = some v := by
  have hl : loads text = some (fill es []) := by
    unfold loads
    rw [h]
    rfl
  obtain ⟨hd, hs⟩ := fill_isDict es [] (by simp [IsDict]) (by simp)
  have hentry : ∀ k v, HasEntry (fill es []) (.str k) v ↔ lastValue es k = some v := by
    intro k v
    unfold HasEntry
    rw [← get?_eq_some_iff hd, get?_fill]
    simp [Dict.get?]
  have hkey : ∀ k, PyKey.str k ∈ (fill es []).map Prod.fst ↔ k ∈ es.map Prod.fst := by
    intro k
    rw [← lastValue_isSome]
    constructor
    · intro hk
      obtain ⟨e, he, h1⟩ := List.mem_map.1 hk
      exact ⟨e.2, (hentry k e.2).1 (by unfold HasEntry; rw [← h1]; exact he)⟩
    · rintro ⟨v, hv⟩
      exact List.mem_map.2 ⟨_, (hentry k v).2 hv, rfl⟩
  have hload : ∀ d, loadText memStr text = some (.ok d) ↔ load memStr (fill es []) = .ok d := by
    intro d
    unfold loadText
    rw [hl]
    simp
  refine ⟨?_, fun d hd' => ?_⟩
  · simp only [hload]
    rw [load_ok_iff memStr _ hd hs]
    refine exists_congr fun fam => ⟨fun hv => ⟨fun k => ?_, fun t ht v hx => hv.range t v ((hentry _ _).2 hx)⟩, ?_⟩
    · rw [← hkey, hv.keys]
      simp
    · rintro ⟨h1, h2⟩
      refine ⟨fun k => ?_, fun t v hx => ?_⟩
      · constructor
        · intro hk
          obtain ⟨s, rfl⟩ := hs k hk
          obtain ⟨t, ht, rfl⟩ := (h1 s).1 ((hkey s).1 hk)
          exact ⟨t, ht, rfl⟩
        · rintro ⟨t, ht, rfl⟩
          exact (hkey _).2 ((h1 _).2 ⟨t, ht, rfl⟩)
      · have hx' := (hentry _ _).1 hx
        obtain ⟨t', ht', e⟩ := (h1 t.str).1 ((lastValue_isSome es t.str).1 ⟨v, hx'⟩)
        rw [← TKey.str_inj e] at ht'
        exact h2 t ht' v hx'
  · obtain ⟨r1, r2, r3⟩ := load_result memStr _ d hd hs ((hload d).1 hd')
    exact ⟨r2, r1, fun t v => (r3 t v).trans (hentry _ _)⟩

/-! ## Concrete cases -/

/-- the text that is written for a full-CC truncation -/
def exText : List Char :=
  "{\"maximum_hamiltonian_rank\": 2, \"maximum_coupled_cluster_rank\": 4, \"s_taylor_max_order\": 1, \"omega_max_order\": 3}".toList

example : saveText (fun _ => .error .type) [(.enum .H, .int 2), (.enum .CC, .int 4), (.enum .S, .int 1), (.enum .P, .int 3)] = .ok (some exText) ∧
    loadText (fun _ => .error .type) exText = some (.ok [(.enum .H, .int 2), (.enum .CC, .int 4), (.enum .S, .int 1), (.enum .P, .int 3)]) := by
  decide +kernel

/-- another layout, another order, a repeated key: the last value counts -/
example : object "{ \"omega_max_order\":9,\n  \"maximum_coupled_cluster_rank\" : 4,\n\t\"omega_max_order\":2 ,\"maximum_hamiltonian_rank\":true}\n".toList =
      some [("omega_max_order", .int 9), ("maximum_coupled_cluster_rank", .int 4), ("omega_max_order", .int 2), ("maximum_hamiltonian_rank", .bool true)] ∧
    loadText (fun _ => .error .type) "{ \"omega_max_order\":9,\n  \"maximum_coupled_cluster_rank\" : 4,\n\t\"omega_max_order\":2 ,\"maximum_hamiltonian_rank\":true}\n".toList =
      some (.ok [(.enum .P, .int 2), (.enum .CC, .int 4), (.enum .H, .bool true)]) := by
  decide +kernel

example : ValidTrunc .zhz [(.enum .H, .int 2), (.enum .CC, .int 4), (.enum .P, .int 3)] ∧ Plain [(.enum .H, .int 2), (.enum .CC, .int 4), (.enum .P, .int 3)] := by
  refine ⟨⟨?_, ?_⟩, ?_⟩
  · intro k; simp [Family.keys]
  · intro t v h
    simp [HasEntry] at h
    rcases h with h | h | h <;> (obtain ⟨rfl, rfl⟩ := h; simp [NumberInRange, maximum])
  · intro e he
    simp at he
    rcases he with rfl | rfl | rfl <;> exact .inl ⟨_, rfl⟩

end TF.Trunc
