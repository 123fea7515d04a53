import Verif.Spec.Truncations
import Mathlib.Data.List.Perm.Subperm

/-! # Lemmas about the truncation model -/

set_option linter.unusedVariables false

namespace TF.Trunc

open TF.Spec

theorem TKey.str_inj {a b : TKey} (h : a.str = b.str) : a = b := by
  cases a <;> cases b <;> first | rfl | (exact absurd h (by decide))

theorem PyKey.str_str_inj {a b : TKey} (h : PyKey.str a.str = PyKey.str b.str) : a = b :=
  TKey.str_inj (by simpa using h)

theorem TKey.ofStr_str (t : TKey) : TKey.ofStr t.str = .ok t := by
  cases t <;> decide

theorem TKey.ofStr_ok {s : String} {t : TKey} (h : TKey.ofStr s = .ok t) : s = t.str := by
  unfold TKey.ofStr at h
  split at h
  · cases h; assumption
  split at h
  · cases h; assumption
  split at h
  · cases h; assumption
  split at h
  · cases h; assumption
  split at h
  · cases h; assumption
  split at h
  · cases h; assumption
  cases h

theorem get?_eq_some_iff {d : Dict} (hd : IsDict d) (k : PyKey) (v : JVal) :
    Dict.get? d k = some v ↔ (k, v) ∈ d := by
  unfold IsDict at hd
  induction d with
  | nil => simp [Dict.get?]
  | cons e d ih =>
    obtain ⟨k', v'⟩ := e
    simp only [List.map_cons, List.nodup_cons] at hd
    unfold Dict.get?
    by_cases h : k' = k
    · subst h
      simp only [if_true, Option.some.injEq, List.mem_cons, Prod.mk.injEq, true_and]
      constructor
      · intro h; exact Or.inl h.symm
      · rintro (h | h)
        · exact h.symm
        · exact absurd (List.mem_map_of_mem (f := Prod.fst) h) hd.1
    · rw [if_neg h, ih hd.2]
      simp only [List.mem_cons, Prod.mk.injEq]
      constructor
      · exact Or.inr
      · rintro (⟨h1, _⟩ | h1)
        · exact absurd h1.symm h
        · exact h1

theorem get?_eq_none_iff {d : Dict} (k : PyKey) :
    Dict.get? d k = none ↔ k ∉ d.map Prod.fst := by
  induction d with
  | nil => simp [Dict.get?]
  | cons e d ih =>
    obtain ⟨k', v'⟩ := e
    unfold Dict.get?
    by_cases h : k' = k
    · subst h; simp
    · rw [if_neg h, ih]; simp [Ne.symm h]

theorem set_of_not_mem {d : Dict} {k : PyKey} (v : JVal) (h : k ∉ d.map Prod.fst) :
    Dict.set d k v = d ++ [(k, v)] := by
  induction d with
  | nil => rfl
  | cons e d ih =>
    obtain ⟨k', v'⟩ := e
    simp only [List.map_cons, List.mem_cons, not_or] at h
    unfold Dict.set
    rw [if_neg (Ne.symm h.1), ih h.2]; rfl

/-- an entry under its enum key -/
def enumEntry (e : TKey × JVal) : PyKey × JVal := (.enum e.1, e.2)
/-- an entry under its string key -/
def strEntry (e : TKey × JVal) : PyKey × JVal := (.str e.1.str, e.2)

theorem toStringsLoop_enum (memStr : String → Except PyErr Bool) (r : List (TKey × JVal))
    (done : List (TKey × JVal)) (h : ((r ++ done).map Prod.fst).Nodup) :
    toStringsLoop memStr (r.map enumEntry) (r.map enumEntry ++ done.map strEntry)
      = .ok ((done ++ r).map strEntry) := by
  induction r generalizing done with
  | nil => simp [toStringsLoop]
  | cons e r ih =>
    obtain ⟨t, v⟩ := e
    have hnot : PyKey.str t.str ∉ ((List.map enumEntry ((t, v) :: r)) ++ done.map strEntry).map Prod.fst := by
      simp only [List.map_append, List.map_map, List.mem_append, List.mem_map, not_or]
      refine ⟨?_, ?_⟩
      · rintro ⟨x, _, hx⟩; simp [enumEntry] at hx
      · rintro ⟨x, hx, he⟩
        simp only [Function.comp_apply, strEntry, PyKey.str.injEq] at he
        have := TKey.str_inj he
        simp only [List.cons_append, List.map_cons, List.nodup_cons, List.map_append] at h
        refine h.1 (List.mem_append_right _ ?_)
        rw [← this]; exact List.mem_map_of_mem (f := Prod.fst) hx
    simp only [List.map_cons, enumEntry]
    unfold toStringsLoop
    simp only [keyIn]
    have e1 : Dict.set (((PyKey.enum t, v) :: List.map enumEntry r) ++ List.map strEntry done) (.str t.str) v
        = (PyKey.enum t, v) :: (List.map enumEntry r ++ List.map strEntry done ++ [(.str t.str, v)]) := by
      have := set_of_not_mem v hnot
      simpa [enumEntry] using this
    show toStringsLoop memStr (List.map enumEntry r) (Dict.del (Dict.set _ _ v) _) = _
    erw [e1]
    have e2 : Dict.del ((PyKey.enum t, v) :: (List.map enumEntry r ++ List.map strEntry done ++ [(PyKey.str t.str, v)])) (.enum t)
        = List.map enumEntry r ++ List.map strEntry (done ++ [(t, v)]) := by
      simp [Dict.del, strEntry]
    rw [e2, ih (done ++ [(t, v)])]
    · simp
    · refine (List.Perm.nodup_iff ?_).1 h
      refine List.Perm.map _ ?_
      have : ((t, v) :: r ++ done).Perm (r ++ done ++ [(t, v)]) := by
        simpa using (List.perm_append_comm (l₁ := [(t, v)]) (l₂ := r ++ done))
      simpa using this

theorem toStrings_enum (memStr : String → Except PyErr Bool) (r : List (TKey × JVal))
    (h : (r.map Prod.fst).Nodup) : toStrings memStr (r.map enumEntry) = .ok (r.map strEntry) := by
  have := toStringsLoop_enum memStr r [] (by simpa using h)
  simpa [toStrings] using this

theorem toEnumsLoop_str (r : List (TKey × JVal))
    (done : List (TKey × JVal)) (h : ((r ++ done).map Prod.fst).Nodup) :
    toEnumsLoop (r.map strEntry) (r.map strEntry ++ done.map enumEntry)
      = .ok ((done ++ r).map enumEntry) := by
  induction r generalizing done with
  | nil => simp [toEnumsLoop]
  | cons e r ih =>
    obtain ⟨t, v⟩ := e
    have hnot : PyKey.enum t ∉ ((List.map strEntry ((t, v) :: r)) ++ done.map enumEntry).map Prod.fst := by
      simp only [List.map_append, List.map_map, List.mem_append, List.mem_map, not_or]
      refine ⟨?_, ?_⟩
      · rintro ⟨x, _, hx⟩; simp [strEntry] at hx
      · rintro ⟨x, hx, he⟩
        simp only [Function.comp_apply, enumEntry, PyKey.enum.injEq] at he
        simp only [List.cons_append, List.map_cons, List.nodup_cons, List.map_append] at h
        refine h.1 (List.mem_append_right _ ?_)
        rw [← he]; exact List.mem_map_of_mem (f := Prod.fst) hx
    simp only [List.map_cons, strEntry]
    unfold toEnumsLoop
    simp only [TKey.ofStr_str]
    have e1 : Dict.set (((PyKey.str t.str, v) :: List.map strEntry r) ++ List.map enumEntry done) (.enum t) v
        = (PyKey.str t.str, v) :: (List.map strEntry r ++ List.map enumEntry done ++ [(.enum t, v)]) := by
      have := set_of_not_mem v hnot
      simpa [strEntry] using this
    show toEnumsLoop (List.map strEntry r) (Dict.del (Dict.set _ _ v) _) = _
    erw [e1]
    have e2 : Dict.del ((PyKey.str t.str, v) :: (List.map strEntry r ++ List.map enumEntry done ++ [(PyKey.enum t, v)])) (.str t.str)
        = List.map strEntry r ++ List.map enumEntry (done ++ [(t, v)]) := by
      simp [Dict.del, enumEntry]
    rw [e2, ih (done ++ [(t, v)])]
    · simp
    · refine (List.Perm.nodup_iff ?_).1 h
      refine List.Perm.map _ ?_
      have : ((t, v) :: r ++ done).Perm (r ++ done ++ [(t, v)]) := by
        simpa using (List.perm_append_comm (l₁ := [(t, v)]) (l₂ := r ++ done))
      simpa using this

theorem toEnums_str (r : List (TKey × JVal))
    (h : (r.map Prod.fst).Nodup) : toEnums (r.map strEntry) = .ok (r.map enumEntry) := by
  have := toEnumsLoop_str r [] (by simpa using h)
  simpa [toEnums] using this

theorem toEnumsLoop_ok_str {snap d d' : Dict} (h : toEnumsLoop snap d = .ok d') :
    ∀ s v, (PyKey.str s, v) ∈ snap → ∃ t : TKey, s = t.str := by
  induction snap generalizing d with
  | nil => simp
  | cons e snap ih =>
    obtain ⟨k, v⟩ := e
    intro s w hm
    unfold toEnumsLoop at h
    cases k with
    | enum t =>
      simp only at h
      rcases List.mem_cons.1 hm with h1 | h1
      · simp at h1
      · exact ih h s w h1
    | str s' =>
      simp only at h
      split at h
      · cases h
      · next t ht =>
        rcases List.mem_cons.1 hm with h1 | h1
        · simp only [Prod.mk.injEq, PyKey.str.injEq] at h1
          exact ⟨t, h1.1 ▸ TKey.ofStr_ok ht⟩
        · exact ih h s w h1

/-- every string-keyed dictionary with known keys is `r.map strEntry` -/
theorem exists_strEntry {d : Dict} (h : ∀ k ∈ d.map Prod.fst, ∃ t : TKey, k = .str t.str) :
    ∃ r : List (TKey × JVal), d = r.map strEntry := by
  induction d with
  | nil => exact ⟨[], rfl⟩
  | cons e d ih =>
    obtain ⟨k, v⟩ := e
    obtain ⟨r, hr⟩ := ih (fun k hk => h k (by simp at hk ⊢; exact Or.inr hk))
    obtain ⟨t, ht⟩ := h k (by simp)
    exact ⟨(t, v) :: r, by simp [strEntry, hr, ht]⟩

theorem exists_enumEntry {d : Dict} (h : ∀ k ∈ d.map Prod.fst, ∃ t : TKey, k = .enum t) :
    ∃ r : List (TKey × JVal), d = r.map enumEntry := by
  induction d with
  | nil => exact ⟨[], rfl⟩
  | cons e d ih =>
    obtain ⟨k, v⟩ := e
    obtain ⟨r, hr⟩ := ih (fun k hk => h k (by simp at hk ⊢; exact Or.inr hk))
    obtain ⟨t, ht⟩ := h k (by simp)
    exact ⟨(t, v) :: r, by simp [enumEntry, hr, ht]⟩

theorem keys_strEntry (r : List (TKey × JVal)) :
    (r.map strEntry).map Prod.fst = (r.map Prod.fst).map (fun t => PyKey.str t.str) := by
  simp [strEntry, Function.comp_def]

theorem keys_enumEntry (r : List (TKey × JVal)) :
    (r.map enumEntry).map Prod.fst = (r.map Prod.fst).map PyKey.enum := by
  simp [enumEntry, Function.comp_def]

theorem isDict_strEntry {r : List (TKey × JVal)} :
    IsDict (r.map strEntry) ↔ (r.map Prod.fst).Nodup := by
  unfold IsDict
  rw [keys_strEntry, List.nodup_map_iff]
  intro a b h; exact TKey.str_inj (by simpa using h)

theorem isDict_enumEntry {r : List (TKey × JVal)} :
    IsDict (r.map enumEntry) ↔ (r.map Prod.fst).Nodup := by
  unfold IsDict
  rw [keys_enumEntry, List.nodup_map_iff]
  intro a b h; simpa using h

theorem checkKnown_enum (memStr : String → Except PyErr Bool) (fam : Family)
    (r : List (TKey × JVal)) : checkKnown memStr fam (r.map enumEntry) = .ok () := by
  induction r with
  | nil => rfl
  | cons e r ih => simp only [List.map_cons, enumEntry, checkKnown, keyIn]; exact ih

theorem toStringsLoop_ok_enum {memStr : String → Except PyErr Bool} {fam : Family}
    {snap d d' : Dict} (h1 : checkKnown memStr fam snap = .ok ())
    (h2 : toStringsLoop memStr snap d = .ok d') :
    ∀ k ∈ snap.map Prod.fst, ∃ t : TKey, k = .enum t := by
  induction snap generalizing d with
  | nil => simp
  | cons e snap ih =>
    obtain ⟨k, v⟩ := e
    unfold checkKnown at h1
    unfold toStringsLoop at h2
    cases hk : keyIn memStr k with
    | error e => rw [hk] at h1; cases h1
    | ok b =>
      rw [hk] at h1 h2
      cases b with
      | false => cases h1
      | true =>
        simp only at h1 h2
        cases k with
        | str s => cases h2
        | enum t =>
          simp only at h2
          intro k hk'
          simp only [List.map_cons, List.mem_cons] at hk'
          rcases hk' with rfl | hk'
          · exact ⟨t, rfl⟩
          · exact ih h1 h2 k hk'

theorem maximum_ge_one (t : TKey) : 1 ≤ maximum t := by cases t <;> decide

theorem inRange_iff (t : TKey) (v : JVal) :
    (v.ge1 = .ok true ∧ v.leInt (maximum t) = .ok true) ↔ NumberInRange (maximum t) v := by
  cases v with
  | int i => simp [JVal.ge1, JVal.leInt, NumberInRange]
  | float q => simp [JVal.ge1, JVal.leInt, NumberInRange]
  | bool b =>
    have := maximum_ge_one t
    cases b <;> simp [JVal.ge1, JVal.leInt, NumberInRange, this]
  | other => simp [JVal.ge1, JVal.leInt, NumberInRange]

theorem verifyKeys_ok_iff (d : Dict) (ks : List TKey) :
    verifyKeys d ks = .ok () ↔
      ∀ t ∈ ks, ∃ v, Dict.get? d (.str t.str) = some v ∧ NumberInRange (maximum t) v := by
  induction ks with
  | nil => simp [verifyKeys]
  | cons t ks ih =>
    simp only [List.mem_cons, forall_eq_or_imp, ← ih]
    conv_lhs => unfold verifyKeys
    cases hg : Dict.get? d (.str t.str) with
    | none => simp
    | some v =>
      simp only [Option.some.injEq, exists_eq_left', ← inRange_iff]
      cases h1 : v.ge1 with
      | error e => simp
      | ok b =>
        cases b with
        | false => simp
        | true =>
          cases h2 : v.leInt (maximum t) with
          | error e => simp
          | ok b => cases b <;> simp

end TF.Trunc
