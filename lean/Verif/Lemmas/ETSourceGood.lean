import Verif.Lemmas.ETSourceModule
import Verif.Props.ETModule
import Verif.Lemmas.ETEinsum

/-!
# The text of a generated e^T module, read as Python: generated modules
-/

namespace TF.ETPy

open TF.Py TF.Spec.Source TF.Spec.ETPy
open TF.CC (Op HOp summationIdx unlinkedIdx)
open TF.ET (Mode Term rankOf lenOf termOf distOf taking)

/-! ## The form of a part -/

structure ShapeZ (b : ZBlock) : Prop where
  z : b.z < 6
  ne : b.stmts ≠ []
  codes : ∀ s ∈ b.stmts, s.codes ≠ []

structure ShapeH (b : HBlock) : Prop where
  h : b.h < 6
  zero : ∀ z ∈ b.zero, ShapeZ z
  ts : ∀ p ∈ b.ts, p.1 < 7 ∧ p.2 ≠ [] ∧ ∀ z ∈ p.2, ShapeZ z

def ShapePart : Part → Prop
  | .allInvalid => True
  | .noTerms => True
  | .code l => (∀ b ∈ l, ShapeH b) ∧ ∃ b ∈ l, b.zero ≠ [] ∨ b.ts ≠ []

theorem uniqueCodes_ne {l : List Einsum} (h : l ≠ []) : uniqueCodes l ≠ [] := by
  unfold uniqueCodes
  simp only
  split
  · exact h
  · obtain ⟨a, l', rfl⟩ := List.exists_cons_of_ne_nil h
    intro e
    have := congrArg List.length e
    rw [length_sortBy] at this
    simp [distinctBy] at this

theorem shape_bucket {es : List Entry} (hz : ∀ e ∈ es, e.zRank < 6) (i j : Nat) : ∀ b ∈ bucket es i j, ShapeZ b := by
  intro b hb
  simp only [bucket, List.mem_map, mem_sortBy, List.mem_dedup] at hb
  obtain ⟨z, ⟨e, he, rfl⟩, rfl⟩ := hb
  refine ⟨hz e (List.mem_filter.1 he).1, ?_, ?_⟩
  · intro h
    have h2 := congrArg List.length h
    simp only [List.length_map, length_sortBy, List.length_nil, List.length_eq_zero_iff] at h2
    have : e.pref ∈ ((((es.filter fun e => decide (e.hRank = i) && decide (e.tRank = j)).filter fun e' => decide (e'.zRank = e.zRank)).map Entry.pref).dedup) :=
      List.mem_dedup.2 (List.mem_map_of_mem (List.mem_filter.2 ⟨he, by simp⟩))
    rw [h2] at this
    simp at this
  · intro s hs
    simp only [List.mem_map, mem_sortBy, List.mem_dedup] at hs
    obtain ⟨q, ⟨e', he', rfl⟩, rfl⟩ := hs
    refine uniqueCodes_ne (List.ne_nil_of_mem (a := e'.code) (List.mem_map_of_mem (List.mem_filter.2 ⟨he', by simp⟩)))

theorem shape_hb {es : List Entry} (hz : ∀ e ∈ es, e.zRank < 6) (ht : ∀ e ∈ es, e.tRank < 7) {cc i : Nat} (hi : i < 6) : ShapeH (hb cc es i) := by
  refine ⟨hi, shape_bucket hz i 0, ?_⟩
  intro p hp
  simp only [hb, List.mem_filter, List.mem_map, decide_eq_true_eq] at hp
  obtain ⟨⟨j, _, rfl⟩, hne⟩ := hp
  refine ⟨?_, hne, shape_bucket hz i j⟩
  obtain ⟨b, hb⟩ := List.exists_mem_of_ne_nil _ hne
  simp only [bucket, List.mem_map, mem_sortBy, List.mem_dedup] at hb
  obtain ⟨z, ⟨e, he, rfl⟩, _⟩ := hb
  have h1 := List.mem_filter.1 he
  simp only [Bool.and_eq_true, decide_eq_true_eq] at h1
  have := ht e h1.1
  show j < 7
  omega

theorem shape_write {mode : Mode} {hMax cc : Nat} {p : Op} {S : Nat → Prop} {ts : List Term} (cv : Covers mode hMax cc p S ts) (hp : p.m = 0) (hN : p.n ≤ 6)
    (hcc : cc ≤ 6) (hcc1 : 1 ≤ cc) {q : Part} (hw : write hMax cc mode ts = .ok q) : ShapePart q := by
  have hst := (cv.statements hp hN hcc hcc1 hw).2
  obtain ⟨hf, hm⟩ := cv.entries hp hN hcc
  by_cases hne : ts = []
  · subst hne
    simp only [write, if_true, Except.ok.injEq] at hw
    subst hw
    trivial
  · obtain ⟨h6, hz⟩ := write_of_ok hne hf hw
    have hfe : ∀ t ∈ ts, ∀ e ∈ entriesOr mode t, ∃ k, S k ∧ EntryAt mode hMax cc p k e := fun t ht e he =>
      (hm e).1 (List.mem_flatMap.2 ⟨t, ht, he⟩)
    have hz' : ∀ t ∈ ts, ∀ e ∈ entriesOr mode t, e.zRank < 6 := by
      intro t ht e he
      obtain ⟨k, _, hk⟩ := hfe t ht e he
      have := entryAt_facts hk
      exact hz t ht e he this.1 (by omega)
    have ht' : ∀ t ∈ ts, ∀ e ∈ entriesOr mode t, e.tRank < 7 := by
      intro t ht e he
      obtain ⟨k, _, hk⟩ := hfe t ht e he
      have := entryAt_facts hk
      omega
    have heq := write_eq (cc := cc) hne hf h6 hz' ht'
    rw [heq] at hw
    injection hw with hw
    subst hw
    have hz2 : ∀ e ∈ ts.flatMap (entriesOr mode), e.zRank < 6 := by
      intro e he
      obtain ⟨t, ht, he⟩ := List.mem_flatMap.1 he
      exact hz' t ht e he
    have ht2 : ∀ e ∈ ts.flatMap (entriesOr mode), e.tRank < 7 := by
      intro e he
      obtain ⟨t, ht, he⟩ := List.mem_flatMap.1 he
      exact ht' t ht e he
    refine ⟨?_, ?_⟩
    · intro b hb
      obtain ⟨i, hi, rfl⟩ := List.mem_map.1 hb
      exact shape_hb hz2 ht2 (by have := List.mem_range.1 hi; omega)
    · obtain ⟨t, ht⟩ := List.exists_mem_of_ne_nil _ hne
      obtain ⟨k, hS, h, hh, z, hz, c, hc, hd, rfl⟩ := (cv.mem t).1 ht
      have hmem := (hst (entryOf mode p.n k h z (classOf c) (c .h .lhs))).2 ⟨k, hS, h, hh, z, hz, c, hc, hd, rfl⟩
      simp only [statements, List.mem_flatMap] at hmem
      obtain ⟨b, hb, hmem⟩ := hmem
      refine ⟨b, hb, ?_⟩
      rcases List.mem_append.1 hmem with h1 | h1
      · left
        intro e
        rw [e] at h1
        simp [Spec.ETPy.blocks] at h1
      · right
        intro e
        rw [e] at h1
        simp at h1

theorem shape_parts {mode : Mode} {hMax cc K : Nat} {p : Op} (hp : p.m = 0) (hN : p.n ≤ 6) (hcc : cc ≤ 6) (hcc1 : 1 ≤ cc)
    {g : Part × Part} (hg : partsOf mode hMax cc K p = .ok g) : ShapePart g.1 ∧ ShapePart g.2 := by
  rw [partsOf_eq hp] at hg
  split at hg
  · injection hg with hg
    subst hg
    exact ⟨trivial, trivial⟩
  · cases hw : write hMax cc mode (zeroTerms mode hMax cc p) with
    | error e => rw [hw] at hg; simp at hg
    | ok a =>
      rw [hw] at hg
      simp only at hg
      cases hw' : write hMax cc mode (tTerms mode hMax cc K p) with
      | error e => rw [hw'] at hg; simp at hg
      | ok b =>
        rw [hw'] at hg
        injection hg with hg
        subst hg
        exact ⟨shape_write (covers_zero hp) hp hN hcc hcc1 hw, shape_write (covers_t hp) hp hN hcc hcc1 hw'⟩

/-! ## The statements of a part -/

theorem isWord_labels {mode : Mode} {N k hn j hl : Nat} {p : Pl k} : ∀ c ∈ elec mode p ++ labOf N k hn j hl p, isWord c = true := by
  have hS : ∀ c ∈ summationIdx, isWord c = true := by decide
  have hU : ∀ c ∈ unlinkedIdx, isWord c = true := by decide
  intro c hc
  rcases List.mem_append.1 hc with hc | hc
  · have : c = 'a' ∨ c = 'c' := by
      cases p <;> cases mode <;> simp [elec] at hc <;> tauto
    rcases this with rfl | rfl <;> rfl
  · cases p with
    | lhs => exact hU c (mem_of_at' hc)
    | t i =>
      simp only [labOf] at hc
      split at hc
      · simp at hc
      · exact hS c (mem_of_at' hc)
    | h =>
      simp only [labOf, hLab, List.mem_append] at hc
      rcases hc with (hc | hc) | hc
      · exact hS c (mem_of_at' hc)
      · exact hS c (mem_of_at' hc)
      · exact hU c (mem_of_at' hc)
    | z =>
      simp only [labOf, zLab, List.mem_append] at hc
      rcases hc with (hc | hc) | hc
      · exact hS c (mem_of_at' hc)
      · exact hS c (mem_of_at' hc)
      · exact hU c (mem_of_at' hc)

theorem operand_word {mode : Mode} {h : HOp} {z : Op} {k : Nat} {p : Pl k} (hp : p ∈ factors mode k h) : Word (operand mode h z p).name.toList := by
  rcases mem_factors.1 hp with ⟨i, rfl, _⟩ | ⟨rfl, _⟩ | rfl
  · cases mode
    · exact (word_lit (by decide) : Word "t_args".toList)
    · exact (word_lit (by decide) : Word "t_conj".toList)
  · cases mode
    · exact (word_lit (by decide) : Word "h_args".toList)
    · exact (word_lit (by decide) : Word "dT".toList)
  · simp only [operand]
    split <;> exact word_lit (by decide)

theorem goodCode_codeOf (mode : Mode) (N k : Nat) (h : HOp) (z : Op) (j hl : Nat) : GoodCode (codeOf mode N k h z j hl) := by
  refine ⟨?_, ?_, ?_, isWord_labels⟩
  · intro o ho
    obtain ⟨p, hp, rfl⟩ := List.mem_map.1 ho
    exact operand_word hp
  · intro e
    have := congrArg List.length e
    simp only [codeOf, List.length_map, length_factors, List.length_nil] at this
    omega
  · intro s hs
    obtain ⟨p, _, rfl⟩ := List.mem_map.1 hs
    exact isWord_labels

/-- the form of one entry -/
structure GoodEntry (e : Entry) : Prop where
  code : GoodCode e.code
  pref : 0 ≤ e.pref.num

theorem goodEntry_of {mode : Mode} {hMax cc k : Nat} {p : Op} {e : Entry} (h : EntryAt mode hMax cc p k e) : GoodEntry e := by
  obtain ⟨h, _, z, _, c, _, _, rfl⟩ := h
  refine ⟨goodCode_codeOf _ _ _ _ _ _ _, ?_⟩
  rw [Rat.num_nonneg]
  simp only [entryOf]
  positivity

theorem goodZ_of {h t : Nat} {l : List ZBlock} (hl : ∀ e ∈ blocks h t l, GoodEntry e) (hs : ∀ b ∈ l, ShapeZ b) : ∀ b ∈ l, GoodZ b := by
  intro b hb
  have hmem : ∀ s ∈ b.stmts, ∀ c ∈ s.codes, GoodEntry ⟨h, t, b.z, s.pref, c⟩ := fun s h1 c h2 =>
    hl _ (List.mem_flatMap.2 ⟨b, hb, List.mem_flatMap.2 ⟨s, h1, List.mem_map.2 ⟨c, h2, rfl⟩⟩⟩)
  refine ⟨(hs b hb).ne, fun s h1 => ?_⟩
  have hne := (hs b hb).codes s h1
  obtain ⟨c, hc⟩ := List.exists_mem_of_ne_nil _ hne
  exact ⟨(hmem s h1 c hc).pref, hne, fun c hc => (hmem s h1 c hc).code⟩

theorem goodPart_of {p : Part} (hs : ShapePart p) (h : ∀ e ∈ statements p, GoodEntry e) : GoodPart p := by
  cases p with
  | allInvalid => trivial
  | noTerms => trivial
  | code l =>
    refine ⟨fun b hb => ?_, hs.2⟩
    have h1 := hs.1 b hb
    have h2 : ∀ e ∈ blocks b.h 0 b.zero ++ b.ts.flatMap (fun p => blocks b.h p.1 p.2), GoodEntry e := fun e he =>
      h e (List.mem_flatMap.2 ⟨b, hb, he⟩)
    refine ⟨goodZ_of (fun e he => h2 e (List.mem_append.2 (.inl he))) h1.zero, fun p hp => (h1.ts p hp).2.1, fun p hp => ?_⟩
    exact goodZ_of (fun e he => h2 e (List.mem_append.2 (.inr (List.mem_flatMap.2 ⟨p, hp, he⟩)))) (h1.ts p hp).2.2

/-! ## Generated modules -/

theorem clean_rep (a b : Nat) : Clean (TF.CC.rep 'd' a ++ TF.CC.rep 'b' b) := by
  unfold Clean
  simp [TF.CC.rep]

theorem goodFns {gs : Bool} {mode : Mode} {hMax cc K pMax : Nat} (hcc1 : 1 ≤ cc) (hcc : cc ≤ 6) (hK : 1 ≤ K) {m : Module}
    (hm : module gs mode hMax cc 1 K pMax = .ok m) : (∀ f ∈ m.default, GoodFns f ∧ ShapePart f.ground.1 ∧ ShapePart f.ground.2) ∧ m.default ≠ [] ∧ m.optimised = m.default := by
  obtain ⟨g, hg, rfl⟩ := (module_iff hK).1 hm
  refine ⟨?_, by simp [projections_ne], rfl⟩
  intro f hf
  obtain ⟨p, hp, rfl⟩ := List.mem_map.1 hf
  have hpm := mem_projections hp
  have hsh := shape_parts hpm.1 (by omega) hcc hcc1 (hg p hp)
  obtain ⟨_, _, s1, s2⟩ := statements_parts hpm.1 (by omega) hcc hcc1 (hg p hp)
  have g1 : GoodPart (g p).1 := goodPart_of hsh.1 fun e he => goodEntry_of ((s1 e).1 he)
  have g2 : GoodPart (g p).2 := goodPart_of hsh.2 fun e he => by
    obtain ⟨k, _, h⟩ := (s2 e).1 he
    exact goodEntry_of h
  refine ⟨⟨?_, g1, g2, ?_⟩, hsh⟩
  · have h0 := (TF.CC.omegaOps_exact cc pMax p).1 (List.mem_filter.1 hp).1
    show Clean p.name
    rw [h0.1]
    exact clean_rep _ _
  · intro x hx
    have : x = g p := by
      simp only [fnOf] at hx
      split at hx
      · cases hx
      · injection hx with hx; exact hx.symm
    rw [this]
    exact ⟨g1, g2⟩

/-- **The text of a generated module** is the imports and the definitions. -/
theorem file_module {gs : Bool} {mode : Mode} {hMax cc K pMax : Nat} (hcc1 : 1 ≤ cc) (hcc : cc ≤ 6) (hK : 1 ≤ K) {m : Module}
    (hm : module gs mode hMax cc 1 K pMax = .ok m) :
    Spec.Source.file (fileText mode m).toList = some (importAst ++ (moduleDefs mode m).map (defAst mode)) := by
  obtain ⟨h1, h2, h3⟩ := goodFns hcc1 hcc hK hm
  exact file_fileText (fun f hf => (h1 f hf).1) (fun f hf => (h1 f (h3 ▸ hf)).1) h2 (h3 ▸ h2)

end TF.ETPy
