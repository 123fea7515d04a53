import Verif.Lemmas.FullCC.SourceFile
import Verif.Props.FullCC.Module

/-!
# The text of a generated full-CC module, read as Python: the generated programs can be read
-/

namespace TF.CC

open TF.Py TF.Helper TF.Spec TF.Spec.Source

/-! ## Blocks -/

theorem mem_runC {ι : Type} {l : List (CBlock ι)} {c : CBlock ι} {g : String × List ι} (hc : c ∈ l) (hg : g ∈ c.groups) : g ∈ runC allOn l :=
  List.mem_flatMap.2 ⟨c, hc, by simpa [allOn] using hg⟩

theorem mem_cblocks {ι : Type} {tab : List (Key × List ι)} {cc i : Nat} {c : CBlock ι} (h : c ∈ cblocks tab cc i) : 1 ≤ c.j ∧ c.j ≤ cc ∧ c.groups ≠ [] := by
  unfold cblocks at h
  obtain ⟨j, hj, rfl⟩ := List.mem_map.1 h
  obtain ⟨h1, h2⟩ := List.mem_filter.1 hj
  have := mem_range2.1 h1
  refine ⟨this.1, by simp only; omega, by simpa using h2⟩

theorem good_of_write {ι : Type} {so : SetOrder Nat} {hMax cc : Nat} {items : HC → List T → Except PyErr (List ι)} {l : List Term} {p : Program ι}
    {G : String × List ι → Prop} (h : writeProgram so hMax cc items l = .ok p) (hH : hMax ≤ 5) (hcc : cc ≤ 6)
    (hG : ∀ t ∈ l, onlyH t.ts = false → ∀ is, items t.h t.ts = .ok is → G (renderPyPrefactor (pyPrefactor so t.h t.ts), is)) : GoodProgram G p := by
  have hrun : ∀ g ∈ Spec.run allOn p, G g := by
    obtain ⟨_, g, h1, h2⟩ := writeProgram_spec so hMax cc items l p h
    intro x hx
    obtain ⟨t, ht, rfl⟩ := List.mem_map.1 ((h2 allOn).subset hx)
    have ht := (List.mem_filter.1 ht).1
    have h3 := (kept_sublist so l).subset ht
    have h4 := (kept_keys so l t ht).1
    exact hG t h3 h4 _ (h1 t h3 h4)
  have hshape : (∀ c ∈ p.cblocks, 1 ≤ c.j ∧ c.j ≤ cc ∧ c.groups ≠ []) ∧
      ∀ b ∈ p.hblocks, (1 ≤ b.i ∧ b.i ≤ hMax) ∧ (b.groups ≠ [] ∨ b.cblocks ≠ []) ∧ ∀ c ∈ b.cblocks, 1 ≤ c.j ∧ c.j ≤ cc ∧ c.groups ≠ [] := by
    unfold writeProgram at h
    split at h
    · cases h
      simp
    · split at h
      · cases h
      · split at h
        · cases h
        · split at h
          · cases h
          · next hb hhb =>
            cases h
            refine ⟨fun c hc => mem_cblocks hc, fun b hb' => ?_⟩
            simp only at hb'
            rw [hblocks_ok _ _ _ _ hhb] at hb'
            obtain ⟨i, hi, hb'⟩ := List.mem_flatMap.1 hb'
            have := mem_range2.1 hi
            split at hb'
            · cases hb'
            · next hne =>
              rw [List.mem_singleton] at hb'
              subst hb'
              refine ⟨⟨this.1, by simp only; omega⟩, ?_, fun c hc => mem_cblocks hc⟩
              simp only [Bool.and_eq_true, List.isEmpty_iff, not_and_or] at hne
              exact hne
  have run_eq : Spec.run allOn p = p.groups ++ runC allOn p.cblocks ++ p.hblocks.flatMap fun b => b.groups ++ runC allOn b.cblocks := by
    unfold Spec.run
    simp [allOn]
  refine ⟨fun g hg => hrun g ?_, fun c hc => ?_, fun b hb => ?_⟩
  · rw [run_eq]; simp [hg]
  · obtain ⟨h1, h2, h3⟩ := hshape.1 c hc
    refine ⟨⟨h1, by omega⟩, h3, fun g hg => hrun g ?_⟩
    rw [run_eq]
    have := mem_runC hc hg
    simp [this]
  · obtain ⟨⟨h1, h2⟩, h3, h4⟩ := hshape.2 b hb
    refine ⟨⟨h1, by omega⟩, h3, fun g hg => hrun g ?_, fun c hc => ?_⟩
    · rw [run_eq]
      exact List.mem_append_right _ (List.mem_flatMap.2 ⟨b, hb, List.mem_append_left _ hg⟩)
    · obtain ⟨c1, c2, c3⟩ := h4 c hc
      refine ⟨⟨c1, by omega⟩, c3, fun g hg => hrun g ?_⟩
      rw [run_eq]
      exact List.mem_append_right _ (List.mem_flatMap.2 ⟨b, hb, List.mem_append_right _ (mem_runC hc hg)⟩)

/-! ## Letters -/

theorem mem_slice {α : Type} {l : List α} {a b : Nat} {x : α} (h : x ∈ slice l a b) : x ∈ l := List.mem_of_mem_take (List.mem_of_mem_drop h)

theorem word_sum : ∀ c ∈ summationIdx, isWord c = true := by decide

theorem word_unlinked : ∀ c ∈ unlinkedIdx, isWord c = true := by decide

theorem word_surface : ∀ c ∈ surfaceIdx, isWord c = true := by decide

theorem word_h (h : HC) : (∀ c ∈ (pyHLabels h).1, isWord c = true) ∧ ∀ c ∈ (pyHLabels h).2, isWord c = true := by
  unfold pyHLabels
  split
  · simp
  · refine ⟨fun c hc => ?_, fun c hc => ?_⟩
    · rcases List.mem_append.1 hc with hc | hc <;> exact word_sum c (mem_slice hc)
    · rcases List.mem_append.1 hc with hc | hc <;> exact word_unlinked c (mem_slice hc)

theorem word_t (t : T) (o : Offs) : (∀ c ∈ (pyTLabels t o).1.1, isWord c = true) ∧ ∀ c ∈ (pyTLabels t o).1.2, isWord c = true := by
  unfold pyTLabels
  refine ⟨fun c hc => ?_, fun c hc => ?_⟩
  · rcases List.mem_append.1 hc with hc | hc <;> split at hc <;> first | exact word_sum c (mem_slice hc) | cases hc
  · rcases List.mem_append.1 hc with hc | hc <;> split at hc <;> first | exact word_unlinked c (mem_slice hc) | cases hc

theorem word_loop : ∀ (ts : List T) (o : Offs), ∀ p ∈ pyTLoop ts o, (∀ c ∈ p.1, isWord c = true) ∧ ∀ c ∈ p.2, isWord c = true
  | [], _ => by simp [pyTLoop]
  | t :: ts, o => by
    intro p hp
    rw [pyTLoop] at hp
    rcases List.mem_cons.1 hp with rfl | hp
    · exact word_t t o
    · exact word_loop ts _ p hp

theorem word_vibrational (h : HC) (ts : List T) : (∀ s ∈ (vibrational h ts).1, ∀ c ∈ s, isWord c = true) ∧ ∀ c ∈ (vibrational h ts).2, isWord c = true := by
  obtain ⟨h1, h2⟩ := word_h h
  have h3 := word_loop ts ⟨h.m - h.m_o, 0, h.m_o + h.n_o⟩
  unfold vibrational pyTGroup
  refine ⟨fun s hs c hc => ?_, fun c hc => ?_⟩
  · rcases List.mem_cons.1 hs with rfl | hs
    · rcases List.mem_append.1 hc with hc | hc
      · exact h1 c hc
      · exact h2 c hc
    · obtain ⟨p, hp, rfl⟩ := List.mem_map.1 hs
      rcases List.mem_append.1 hc with hc | hc
      · exact (h3 p hp).1 c hc
      · exact (h3 p hp).2 c hc
  · rcases List.mem_append.1 hc with hc | hc
    · exact h2 c hc
    · obtain ⟨p, hp, hc⟩ := List.mem_flatMap.1 hc
      exact (h3 p hp).2 c hc

theorem word_glue {a b : List (List Char)} (ha : ∀ s ∈ a, ∀ c ∈ s, isWord c = true) (hb : ∀ s ∈ b, ∀ c ∈ s, isWord c = true) :
    ∀ s ∈ glue a b, ∀ c ∈ s, isWord c = true := by
  unfold glue
  induction a generalizing b with
  | nil => simp
  | cons x a ih =>
    cases b with
    | nil => simp
    | cons y b =>
      intro s hs c hc
      rw [List.zipWith_cons_cons] at hs
      rcases List.mem_cons.1 hs with rfl | hs
      · rcases List.mem_append.1 hc with hc | hc
        · exact ha x (by simp) c hc
        · exact hb y (by simp) c hc
      · exact ih (fun s hs => ha s (by simp [hs])) (fun s hs => hb s (by simp [hs])) s hs c hc

theorem word_pairs {a b : List Char} (ha : ∀ c ∈ a, isWord c = true) (hb : ∀ c ∈ b, isWord c = true) :
    ∀ s ∈ List.zipWith (fun p q => [p, q]) a b, ∀ c ∈ s, isWord c = true := by
  induction a generalizing b with
  | nil => simp
  | cons x a ih =>
    cases b with
    | nil => simp
    | cons y b =>
      intro s hs c hc
      rw [List.zipWith_cons_cons] at hs
      rcases List.mem_cons.1 hs with rfl | hs
      · simp only [List.mem_cons, List.not_mem_nil, or_false] at hc
        rcases hc with rfl | rfl
        · exact ha _ (by simp)
        · exact hb _ (by simp)
      · exact ih (fun s hs => ha s (by simp [hs])) (fun s hs => hb s (by simp [hs])) s hs c hc

/-! ## Groups -/

theorem word_items {t : Term} (ht : FitsCode t) {is : List Einsum} (hi : einsums t.h t.ts = .ok is) :
    ∀ e ∈ is, e.ts ≠ [] ∧ (∀ s ∈ e.subs, ∀ c ∈ s, isWord c = true) ∧ ∀ c ∈ e.out, isWord c = true := by
  obtain ⟨os, _, h2, _, h3, _⟩ := items_orders t.h t.ts ht.some ht.len ht.rank _ (electronic_ok _ ht.len)
  rw [h3] at hi
  cases hi
  intro e he
  obtain ⟨o, ho, rfl⟩ := List.mem_map.1 he
  obtain ⟨v1, v2⟩ := word_vibrational t.h t.ts
  have hone : o ≠ [] := by
    rintro rfl
    have := (h2 _ ho).length_eq
    rw [List.length_zip, vibrational_tail, Nat.min_self] at this
    exact ht.some (List.length_eq_zero_iff.1 this.symm)
  refine ⟨by simpa [mkE] using hone, word_glue (word_pairs ?_ ?_) ?_, v2⟩
  · intro c hc
    rcases List.mem_cons.1 hc with rfl | hc
    · rfl
    · exact word_surface c (List.mem_of_mem_take hc)
  · intro c hc
    rcases List.mem_append.1 hc with hc | hc
    · exact word_surface c (List.mem_of_mem_take hc)
    · rw [List.mem_singleton.1 hc]; rfl
  · intro s hs c hc
    rcases List.mem_cons.1 hs with rfl | hs
    · exact v1 _ (by rw [vibrational_head]; simp) c hc
    · obtain ⟨p, hp, rfl⟩ := List.mem_map.1 hs
      have := (List.of_mem_zip ((h2 o ho).subset hp)).2
      exact v1 _ (List.mem_of_mem_tail this) c hc

theorem good_items {t : Term} (ht : FitsCode t) (so : SetOrder Nat) :
    (∀ is, einsums t.h t.ts = .ok is → GoodGroup einsumReading (renderPyPrefactor (pyPrefactor so t.h t.ts), is)) ∧
    (∀ is, optCalls t.h t.ts = .ok is → GoodGroup optReading (renderPyPrefactor (pyPrefactor so t.h t.ts), is)) ∧
    ∀ is, paths t.h t.ts = .ok is → GoodPaths (renderPyPrefactor (pyPrefactor so t.h t.ts), is) := by
  obtain ⟨os, h1, h2, _, h3, h4, h5⟩ := items_orders t.h t.ts ht.some ht.len ht.rank _ (electronic_ok _ ht.len)
  have hne : os ≠ [] := by
    have hc := einsums_count t ht _ h3
    rintro rfl
    rw [List.map_nil, List.length_nil] at hc
    split at hc
    · exact absurd hc.symm (Nat.factorial_pos _).ne'
    · exact absurd hc.symm (Nat.factorial_pos _).ne'
  have hone : ∀ o ∈ os, o ≠ [] := by
    rintro o ho rfl
    have := (h2 _ ho).length_eq
    rw [List.length_zip, vibrational_tail, Nat.min_self] at this
    exact ht.some (List.length_eq_zero_iff.1 this.symm)
  refine ⟨fun is hi => ?_, fun is hi => ?_, fun is hi => ?_⟩
  · rw [h3] at hi
    cases hi
    refine ⟨⟨_, rfl⟩, by simpa using hne, fun i hi => ?_⟩
    obtain ⟨w1, w2, w3⟩ := word_items ht h3 _ hi
    refine ⟨einsum_good w1 w2 w3, ?_, fun w x => by simp [einsumReading, ETPy.einsumExpr]⟩
    show Einsum.render _ ≠ ""
    unfold Einsum.render
    exact append_ne (by decide)
  · rw [h4] at hi
    cases hi
    refine ⟨⟨_, rfl⟩, by simpa using hne, fun i hi => ?_⟩
    obtain ⟨o, ho, rfl⟩ := List.mem_map.1 hi
    refine ⟨opt_good (by simpa [mkO] using hone o ho), ?_, fun w x => by simp [optReading, optExpr]⟩
    show OptCall.render _ ≠ ""
    unfold OptCall.render
    exact append_ne (by decide)
  · rw [h5] at hi
    cases hi
    refine ⟨by simpa using hne, fun i hi => ?_⟩
    obtain ⟨o, ho, rfl⟩ := List.mem_map.1 hi
    simp [mkP]

/-! ## The file -/

theorem omegaName_clean {cc omegaMax : Nat} {o : Op} (h : o ∈ omegaOps cc omegaMax) : Clean o.name := by
  rw [((omegaOps_exact cc omegaMax o).1 h).1]
  have hrep : ∀ (c : Char), c ≠ '"' → c ≠ '\n' → ∀ k, Clean (rep c k) := by
    intro c h1 h2 k
    unfold Clean rep
    rw [String.toList_ofList]
    exact ⟨fun h => h1 (List.eq_of_mem_replicate h).symm, fun h => h2 (List.eq_of_mem_replicate h).symm⟩
  exact (hrep 'd' (by decide) (by decide) _).append (hrep 'b' (by decide) (by decide) _)

theorem good_omega {so : SetOrder Nat} {sol : SetOrder (List T)} {hMax cc smax omegaMax : Nat} (hcc : 1 ≤ cc) (hcc' : cc ≤ 6) (hH : hMax ≤ 5) (hS : smax ≤ 6)
    (hP : omegaMax ≤ 6) {F : List OmegaCode} (hF : pythonFile so sol hMax cc smax omegaMax = .ok F) {c : OmegaCode} (hc : c ∈ F) : GoodOmega c := by
  obtain ⟨ho, L, hL, d0, d1, d2, o0, o1, o2, p0, p1, p2, ht, ⟨a0, a1, a2⟩, ⟨b0, b1, b2⟩, c0, c1, c2⟩ := omega_code hcc hF hc
  have hfit : ∀ t ∈ L, onlyH t.ts = false → FitsCode t := fun t ht hz => fitsCode_of_generated sol true true hMax cc smax omegaMax hcc (by omega) hS hP _ ho L hL t ht hz
  have hd : ∀ {q : Term → Bool} {p}, writeDefault so hMax cc (L.filter q) = .ok p → GoodProgram (GoodGroup einsumReading) p := fun h =>
    good_of_write h hH hcc' fun t ht hz is hi => (good_items (hfit t (List.mem_filter.1 ht).1 hz) so).1 is hi
  have hopt : ∀ {q : Term → Bool} {p}, writeOpt so hMax cc (L.filter q) = .ok p → GoodProgram (GoodGroup optReading) p := fun h =>
    good_of_write h hH hcc' fun t ht hz is hi => (good_items (hfit t (List.mem_filter.1 ht).1 hz) so).2.1 is hi
  have hpath : ∀ {q : Term → Bool} {p}, writePaths so hMax cc (L.filter q) = .ok p → GoodProgram GoodPaths p := by
    intro q p h
    unfold writePaths at h
    split at h
    · cases h
    · next x hx =>
      cases h
      have := good_of_write (G := GoodPaths) hx hH hcc' fun t ht hz is hi => (good_items (hfit t (List.mem_filter.1 ht).1 hz) so).2.2 is hi
      exact ⟨this.groups, this.cblocks, this.hblocks⟩
  refine ⟨omegaName_clean ho, ⟨by rw [ht.d]; rfl, ?_⟩, ⟨by rw [ht.o]; rfl, ?_⟩, ⟨by rw [ht.p]; rfl, ?_⟩⟩
  · rw [ht.d]
    intro p hp
    simp only [List.mem_cons, List.not_mem_nil, or_false] at hp
    rcases hp with rfl | rfl | rfl
    · exact hd a0
    · exact hd a1
    · exact hd a2
  · rw [ht.o]
    intro p hp
    simp only [List.mem_cons, List.not_mem_nil, or_false] at hp
    rcases hp with rfl | rfl | rfl
    · exact hopt b0
    · exact hopt b1
    · exact hopt b2
  · rw [ht.p]
    intro p hp
    simp only [List.mem_cons, List.not_mem_nil, or_false] at hp
    rcases hp with rfl | rfl | rfl
    · exact hpath c0
    · exact hpath c1
    · exact hpath c2

end TF.CC
