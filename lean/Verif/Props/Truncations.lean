import Verif.Lemmas.Truncations

/-! # Properties C04, C05, C06: truncation dictionaries -/

set_option linter.unusedVariables false

namespace TF.Trunc

open TF.Spec

/-! ## C06: what verification accepts -/

/-- C06: a verification function accepts a dictionary exactly when it is not empty, all its keys
are known keys, and all keys of the family are present with a number in range.  (`memStr` is the
version-dependent behaviour of `"text" in TruncationsKeys`; the result does not depend on it.) -/
theorem verify_ok_iff (memStr : String → Except PyErr Bool) (fam : Family) (d : Dict)
    (hd : IsDict d) :
    verify memStr fam d = .ok () ↔
      d ≠ [] ∧ (∀ k ∈ d.map Prod.fst, ∃ t : TKey, k = .enum t) ∧
        ∀ t ∈ fam.keys, ∃ v, HasEntry d (.enum t) v ∧ NumberInRange (maximum t) v := by
  have key : ∀ r : List (TKey × JVal), (r.map Prod.fst).Nodup → r ≠ [] →
      (verify memStr fam (r.map enumEntry) = .ok () ↔
        ∀ t ∈ fam.keys, ∃ v, HasEntry (r.map enumEntry) (.enum t) v ∧ NumberInRange (maximum t) v) := by
    intro r hr hne
    unfold verify
    rw [if_neg (by simpa using hne), checkKnown_enum, toStrings_enum memStr r hr]
    simp only
    rw [verifyKeys_ok_iff]
    refine forall₂_congr fun t _ => exists_congr fun v => and_congr_left fun _ => ?_
    rw [get?_eq_some_iff (isDict_strEntry.2 hr)]
    unfold HasEntry
    simp only [List.mem_map, strEntry, enumEntry, Prod.mk.injEq, PyKey.str.injEq, PyKey.enum.injEq]
    constructor
    · rintro ⟨e, he, h1, h2⟩; exact ⟨e, he, TKey.str_inj h1, h2⟩
    · rintro ⟨e, he, h1, h2⟩; exact ⟨e, he, by rw [h1], h2⟩
  constructor
  · intro h
    have hne : d ≠ [] := by
      rintro rfl; simp [verify] at h
    have henum : ∀ k ∈ d.map Prod.fst, ∃ t : TKey, k = .enum t := by
      unfold verify at h
      rw [if_neg hne] at h
      split at h
      · cases h
      · next h1 =>
        split at h
        · cases h
        · next c h2 => exact toStringsLoop_ok_enum h1 h2
    obtain ⟨r, rfl⟩ := exists_enumEntry henum
    exact ⟨hne, henum, (key r (isDict_enumEntry.1 hd) (by simpa using hne)).1 h⟩
  · rintro ⟨hne, henum, h⟩
    obtain ⟨r, rfl⟩ := exists_enumEntry henum
    exact (key r (isDict_enumEntry.1 hd) (by simpa using hne)).2 h

/-- a full-CC truncation dictionary -/
def exFcc : Dict :=
  [(.enum .H, .int 2), (.enum .CC, .int 2), (.enum .S, .int 3), (.enum .P, .int 3)]

example : verify (fun _ => .error .type) .fcc exFcc = .ok () := by decide
example : IsDict exFcc := by decide

/-- C06 is not what the documentation says: a dictionary with an additional key is accepted. -/
theorem verify_accepts_extra_key :
    ∃ d : Dict, IsDict d ∧ (∀ memStr, verify memStr .fcc d = .ok ()) ∧
      ¬ ∀ k, k ∈ d.map Prod.fst ↔ ∃ t ∈ Family.keys .fcc, k = .enum t := by
  refine ⟨(.enum .T, .int 100) :: exFcc, by decide, fun memStr => ?_, ?_⟩
  · rw [verify_ok_iff memStr _ _ (by decide)]
    refine ⟨by decide, ?_, ?_⟩
    · intro k hk
      simp [exFcc] at hk
      rcases hk with rfl | rfl | rfl | rfl | rfl <;> exact ⟨_, rfl⟩
    · intro t ht
      simp [Family.keys] at ht
      rcases ht with rfl | rfl | rfl | rfl <;>
        exact ⟨_, by simp [HasEntry, exFcc]; rfl, by simp [NumberInRange, maximum]⟩
  · intro h
    have := (h (.enum .T)).1 (by decide)
    obtain ⟨t, ht, e⟩ := this
    cases e
    exact absurd ht (by decide)

/-- the number 2.5 -/
def fiveHalves : Rat := ⟨5, 2, by decide, by decide⟩

/-- C06: the documentation asks for positive integers; a non-integral number in range is accepted
as well (the later `range(...)` call is what fails). -/
theorem verify_accepts_non_integer :
    ∃ d : Dict, IsDict d ∧ (∃ k, HasEntry d k (.float fiveHalves)) ∧
      ∀ memStr, verify memStr .zhz d = .ok () := by
  refine ⟨[(.enum .H, .float fiveHalves), (.enum .CC, .int 2), (.enum .P, .int 1)], by decide,
    ⟨.enum .H, by simp [HasEntry]⟩, fun memStr => ?_⟩
  rw [verify_ok_iff memStr _ _ (by decide)]
  refine ⟨by decide, ?_, ?_⟩
  · intro k hk
    simp at hk
    rcases hk with rfl | rfl | rfl <;> exact ⟨_, rfl⟩
  · intro t ht
    simp [Family.keys] at ht
    rcases ht with rfl | rfl | rfl
    · exact ⟨.float fiveHalves, by simp [HasEntry], by simp [NumberInRange, maximum]; decide⟩
    · exact ⟨.int 2, by simp [HasEntry], by simp [NumberInRange, maximum]⟩
    · exact ⟨.int 1, by simp [HasEntry], by simp [NumberInRange, maximum]⟩

/-! ## C05: what loading accepts -/

theorem Family.keys_nodup (fam : Family) : fam.keys.Nodup := by cases fam <;> decide

theorem keyListType_ok {n : Nat} {fam : Family} (h : keyListType n = .ok fam) :
    n = fam.keys.length := by
  unfold keyListType at h
  split at h
  · cases h; assumption
  split at h
  · cases h; assumption
  split at h
  · cases h; assumption
  cases h

theorem keyListType_length (fam : Family) : keyListType fam.keys.length = .ok fam := by
  cases fam <;> decide

theorem perm_of_valid {fam : Family} {ks : List TKey} (hnd : ks.Nodup)
    (h : ∀ t, t ∈ ks ↔ t ∈ fam.keys) : ks.Perm fam.keys :=
  (List.perm_ext_iff_of_nodup hnd fam.keys_nodup).2 h

/-- C05: loading a file succeeds exactly when its keys are precisely the keys of one of the three
families and every value is a number between 1 and the documented maximum. -/
theorem load_ok_iff (memStr : String → Except PyErr Bool) (file : Dict) (hfile : IsDict file)
    (hstr : ∀ k ∈ file.map Prod.fst, ∃ s, k = PyKey.str s) :
    (∃ d, load memStr file = .ok d) ↔ ∃ fam, ValidFile fam file := by
  have key : ∀ r : List (TKey × JVal), (r.map Prod.fst).Nodup → ∀ fam : Family,
      ValidFile fam (r.map strEntry) ↔
        (r.length = fam.keys.length ∧ verify memStr fam (r.map enumEntry) = .ok ()) := by
    intro r hr fam
    have hmem : ∀ t, PyKey.str t.str ∈ (r.map strEntry).map Prod.fst ↔ t ∈ r.map Prod.fst := by
      intro t
      rw [keys_strEntry, List.mem_map]
      constructor
      · rintro ⟨a, ha, e⟩; rw [← PyKey.str_str_inj e]; exact ha
      · intro h; exact ⟨t, h, rfl⟩
    rw [verify_ok_iff memStr fam _ (isDict_enumEntry.2 hr)]
    constructor
    · intro hv
      have hks : ∀ t, t ∈ r.map Prod.fst ↔ t ∈ fam.keys := by
        intro t
        rw [← hmem, hv.keys]
        constructor
        · rintro ⟨a, ha, e⟩; rw [PyKey.str_str_inj e]; exact ha
        · intro h; exact ⟨t, h, rfl⟩
      have hlen : r.length = fam.keys.length := by
        have := (perm_of_valid hr hks).length_eq; simpa using this
      refine ⟨hlen, ?_, ?_, ?_⟩
      · intro e
        have : r = [] := by simpa using e
        subst this
        cases fam <;> simp [Family.keys] at hlen
      · intro k hk
        rw [keys_enumEntry, List.mem_map] at hk
        obtain ⟨t, _, rfl⟩ := hk
        exact ⟨t, rfl⟩
      · intro t ht
        obtain ⟨e, he, rfl⟩ := List.mem_map.1 ((hks t).2 ht)
        exact ⟨e.2, List.mem_map.2 ⟨e, he, rfl⟩, hv.range e.1 e.2 (List.mem_map.2 ⟨e, he, rfl⟩)⟩
    · rintro ⟨hlen, hne, _, hall⟩
      have hsub : fam.keys ⊆ r.map Prod.fst := by
        intro t ht
        obtain ⟨v, hv, _⟩ := hall t ht
        obtain ⟨e, he, h1⟩ := List.mem_map.1 hv
        simp only [enumEntry, Prod.mk.injEq, PyKey.enum.injEq] at h1
        exact h1.1 ▸ List.mem_map_of_mem (f := Prod.fst) he
      have hperm : fam.keys.Perm (r.map Prod.fst) :=
        (List.subperm_of_subset fam.keys_nodup hsub).perm_of_length_le (by simp [hlen])
      refine ⟨?_, ?_⟩
      · intro k
        constructor
        · intro hk
          rw [keys_strEntry, List.mem_map] at hk
          obtain ⟨t, ht, rfl⟩ := hk
          exact ⟨t, hperm.mem_iff.2 ht, rfl⟩
        · rintro ⟨t, ht, rfl⟩
          exact (hmem t).2 (hperm.mem_iff.1 ht)
      · intro t v hv
        obtain ⟨e, he, h1⟩ := List.mem_map.1 hv
        simp only [strEntry, Prod.mk.injEq, PyKey.str.injEq] at h1
        obtain ⟨h1, rfl⟩ := h1
        have ht := TKey.str_inj h1
        subst ht
        obtain ⟨v, hv, hr'⟩ := hall e.1 (hperm.mem_iff.2 (List.mem_map_of_mem he))
        obtain ⟨e', he', h2⟩ := List.mem_map.1 hv
        simp only [enumEntry, Prod.mk.injEq, PyKey.enum.injEq] at h2
        have : e' = e := List.inj_on_of_nodup_map hr he' he h2.1
        subst this
        rw [h2.2]; exact hr'
  constructor
  · rintro ⟨d, h⟩
    unfold load at h
    split at h
    · cases h
    · next d0 h0 =>
      have hk : ∀ k ∈ file.map Prod.fst, ∃ t : TKey, k = .str t.str := by
        intro k hk
        obtain ⟨s, rfl⟩ := hstr k hk
        obtain ⟨e, he, h1⟩ := List.mem_map.1 hk
        obtain ⟨k, v⟩ := e
        simp only at h1
        subst h1
        obtain ⟨t, rfl⟩ := toEnumsLoop_ok_str h0 s v he
        exact ⟨t, rfl⟩
      obtain ⟨r, rfl⟩ := exists_strEntry hk
      have hr := isDict_strEntry.1 hfile
      rw [toEnums_str r hr] at h0
      cases h0
      split at h
      · cases h
      · next fam hf =>
        split at h
        · cases h
        · next hv =>
          exact ⟨fam, (key r hr fam).2 ⟨by simpa using keyListType_ok hf, hv⟩⟩
  · rintro ⟨fam, hv⟩
    obtain ⟨r, rfl⟩ := exists_strEntry (fun k hk => by
      obtain ⟨t, _, rfl⟩ := (hv.keys k).1 hk; exact ⟨t, rfl⟩)
    have hr := isDict_strEntry.1 hfile
    obtain ⟨h1, h2⟩ := (key r hr fam).1 hv
    refine ⟨r.map enumEntry, ?_⟩
    unfold load
    rw [toEnums_str r hr]
    simp only [List.length_map, h1, keyListType_length, h2]

/-- C05: what a successful load returns: the entries of the file, in order, under the enum members
in place of the strings; the result is a valid truncation dictionary of one family. -/
theorem load_result (memStr : String → Except PyErr Bool) (file d : Dict) (hfile : IsDict file)
    (hstr : ∀ k ∈ file.map Prod.fst, ∃ s, k = PyKey.str s) (h : load memStr file = .ok d) :
    (∃ fam, ValidTrunc fam d) ∧ IsDict d ∧
      ∀ t v, HasEntry d (.enum t) v ↔ HasEntry file (.str t.str) v := by
  obtain ⟨fam, hv⟩ := (load_ok_iff memStr file hfile hstr).1 ⟨d, h⟩
  obtain ⟨r, rfl⟩ := exists_strEntry (fun k hk => by
    obtain ⟨t, _, rfl⟩ := (hv.keys k).1 hk; exact ⟨t, rfl⟩)
  have hr := isDict_strEntry.1 hfile
  have hd : d = r.map enumEntry := by
    unfold load at h
    rw [toEnums_str r hr] at h
    simp only at h
    split at h
    · cases h
    · split at h
      · cases h
      · cases h; rfl
  subst hd
  have hentry : ∀ t v, HasEntry (r.map enumEntry) (.enum t) v ↔ HasEntry (r.map strEntry) (.str t.str) v := by
    intro t v
    unfold HasEntry
    simp only [List.mem_map, strEntry, enumEntry, Prod.mk.injEq, PyKey.str.injEq, PyKey.enum.injEq]
    constructor
    · rintro ⟨e, he, h1, h2⟩; exact ⟨e, he, by rw [h1], h2⟩
    · rintro ⟨e, he, h1, h2⟩; exact ⟨e, he, TKey.str_inj h1, h2⟩
  refine ⟨⟨fam, ?_, fun t v ht => hv.range t v ((hentry t v).1 ht)⟩, isDict_enumEntry.2 hr, hentry⟩
  intro k
  rw [keys_enumEntry, List.mem_map]
  constructor
  · rintro ⟨t, ht, rfl⟩
    have := (hv.keys (.str t.str)).1 (by rw [keys_strEntry]; exact List.mem_map_of_mem ht)
    obtain ⟨t', ht', e⟩ := this
    exact ⟨t, by rw [PyKey.str_str_inj e]; exact ht', rfl⟩
  · rintro ⟨t, ht, rfl⟩
    have := (hv.keys (.str t.str)).2 ⟨t, ht, rfl⟩
    rw [keys_strEntry, List.mem_map] at this
    obtain ⟨t', ht', e⟩ := this
    exact ⟨t, by rw [← PyKey.str_str_inj e]; exact ht', rfl⟩

/-- a file as written for `-t 2 3 1`, in a different key order -/
def exFile : Dict :=
  [(.str "omega_max_order", .int 1), (.str "maximum_hamiltonian_rank", .int 2),
   (.str "maximum_coupled_cluster_rank", .int 3)]

example : IsDict exFile ∧ (∀ k ∈ exFile.map Prod.fst, ∃ s, k = PyKey.str s) ∧
    load (fun _ => .error .type) exFile =
      .ok [(.enum .P, .int 1), (.enum .H, .int 2), (.enum .CC, .int 3)] := by
  refine ⟨by decide, ?_, by decide⟩
  intro k hk
  simp [exFile] at hk
  rcases hk with rfl | rfl | rfl <;> exact ⟨_, rfl⟩

/-- C05: passing a non-empty dictionary to `load_trunc_from_JSON` returns `None` and never looks at
the file (the documentation promises an in-place update). -/
theorem loadTrunc_nonempty (memStr : String → Except PyErr Bool) (file d : Dict) (hd : d ≠ []) :
    loadTrunc memStr file (some d) = .ok none := by
  cases d with
  | nil => exact absurd rfl hd
  | cons e d => rfl

theorem loadTrunc_empty (memStr : String → Except PyErr Bool) (file : Dict)
    (a : Option Dict) (ha : a = none ∨ a = some []) :
    loadTrunc memStr file a = (load memStr file).map some := by
  rcases ha with rfl | rfl <;> (unfold loadTrunc; cases load memStr file <;> rfl)

/-! ## C04: round trip -/

/-- C04: a valid truncation dictionary can be saved, and loading the saved file returns it
(including the order of its entries). -/
theorem save_load (memStr : String → Except PyErr Bool) (fam : Family) (d : Dict) (hd : IsDict d)
    (hv : ValidTrunc fam d) :
    ∃ file, save memStr d = .ok file ∧ load memStr file = .ok d := by
  obtain ⟨r, rfl⟩ := exists_enumEntry (fun k hk => by
    obtain ⟨t, _, rfl⟩ := (hv.keys k).1 hk; exact ⟨t, rfl⟩)
  have hr := isDict_enumEntry.1 hd
  refine ⟨r.map strEntry, toStrings_enum memStr r hr, ?_⟩
  have hks : ∀ t, t ∈ r.map Prod.fst ↔ t ∈ fam.keys := by
    intro t
    have := hv.keys (.enum t)
    rw [keys_enumEntry, List.mem_map] at this
    constructor
    · intro h
      obtain ⟨t', ht', e⟩ := this.1 ⟨t, h, rfl⟩
      cases e; exact ht'
    · intro h
      obtain ⟨t', ht', e⟩ := this.2 ⟨t, h, rfl⟩
      cases e; exact ht'
  have hlen : r.length = fam.keys.length := by
    have := (perm_of_valid hr hks).length_eq; simpa using this
  unfold load
  rw [toEnums_str r hr]
  simp only [List.length_map, hlen, keyListType_length]
  have : verify memStr fam (r.map enumEntry) = .ok () := by
    rw [verify_ok_iff memStr fam _ hd]
    refine ⟨?_, ?_, ?_⟩
    · intro e
      have : r = [] := by simpa using e
      subst this
      cases fam <;> simp [Family.keys] at hlen
    · intro k hk
      obtain ⟨t, _, rfl⟩ := (hv.keys k).1 hk
      exact ⟨t, rfl⟩
    · intro t ht
      obtain ⟨e, he, rfl⟩ := List.mem_map.1 ((hks t).2 ht)
      exact ⟨e.2, List.mem_map.2 ⟨e, he, rfl⟩, hv.range e.1 e.2 (List.mem_map.2 ⟨e, he, rfl⟩)⟩
  rw [this]

example : ValidTrunc .fcc exFcc := by
  refine ⟨?_, ?_⟩
  · intro k; simp [exFcc, Family.keys]
  · intro t v h; simp [HasEntry, exFcc] at h
    rcases h with h | h | h | h <;> (obtain ⟨rfl, rfl⟩ := h; simp [NumberInRange, maximum])

end TF.Trunc
