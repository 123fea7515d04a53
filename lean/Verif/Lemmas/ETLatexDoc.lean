import Verif.Lemmas.ETLatexShows
import Verif.Lemmas.ETStatements
import Verif.Props.ETPython
import Verif.Props.ZhzDoc

/-! # Lemmas about the LaTeX of the e^T z_t equations: the document -/

namespace TF.ETLatex

open TF.Py
open TF.CC (Op HOp Series collect collect_ok_of collect_ok_iff omegaOps omegaOps_exact omegaOps_nodup summationIdx rep mnPairs)
open TF.ET (Mode Term PTerm Equation Section lenOf rankOf termOf termsAt taking mem_taking groundZ seriesOf allTerms allTerms_eq eTaylor eTaylor_one
  distOf uniform_tFactors good_distOf printOne printed firstsBy third equation sectionFor document)
open TF.ETPy (Nums classOf contraction_facts nums_of_facts projections mem_projections mem_termsAt')
open TF.Spec.ET TF.Spec.ETPy TF.Spec.ETLatex

/-! ## First appearances -/

section
variable {α : Type} (f : α → String)

theorem mem_firstsBy (l : List α) : ∀ (seen : List String) (s : String), s ∈ (firstsBy f seen l).map f ↔ s ∈ l.map f ∧ s ∉ seen := by
  induction l with
  | nil => intro seen s; simp [firstsBy]
  | cons a l ih =>
    intro seen s
    unfold firstsBy
    by_cases h : f a ∈ seen
    · rw [if_pos h, ih, List.map_cons, List.mem_cons]
      constructor
      · rintro ⟨h1, h2⟩; exact ⟨Or.inr h1, h2⟩
      · rintro ⟨rfl | h1, h2⟩
        · exact absurd h h2
        · exact ⟨h1, h2⟩
    · rw [if_neg h, List.map_cons, List.mem_cons, ih, List.map_cons, List.mem_cons, List.mem_cons]
      constructor
      · rintro (rfl | ⟨h1, h2⟩)
        · exact ⟨Or.inl rfl, h⟩
        · exact ⟨Or.inr h1, fun h' => h2 (Or.inr h')⟩
      · rintro ⟨rfl | h1, h2⟩
        · exact Or.inl rfl
        · by_cases e : s = f a
          · exact Or.inl e
          · exact Or.inr ⟨h1, fun h' => h'.elim e h2⟩

theorem firstsBy_nodup (l : List α) : ∀ seen : List String, ((firstsBy f seen l).map f).Nodup := by
  induction l with
  | nil => intro seen; simp [firstsBy]
  | cons a l ih =>
    intro seen
    unfold firstsBy
    split
    · exact ih seen
    · rw [List.map_cons, List.nodup_cons]
      refine ⟨fun h => ?_, ih _⟩
      have := ((mem_firstsBy f l _ _).1 h).2
      simp at this

theorem firstsBy_sublist (l : List α) : ∀ seen : List String, (firstsBy f seen l).Sublist l := by
  induction l with
  | nil => intro seen; simp [firstsBy]
  | cons a l ih =>
    intro seen
    unfold firstsBy
    split
    · exact (ih seen).cons a
    · exact (ih _).cons_cons a

/-- in the order of the first appearance -/
theorem firstsBy_order (l : List α) : ∀ seen : List String,
    ((firstsBy f seen l).map f).Pairwise fun s s' => (l.map f).idxOf s < (l.map f).idxOf s' := by
  induction l with
  | nil => intro seen; simp [firstsBy]
  | cons a l ih =>
    intro seen
    unfold firstsBy
    split
    · rename_i h
      refine (ih seen).imp_of_mem ?_
      intro s s' hs hs' hlt
      have e : ∀ t ∈ (firstsBy f seen l).map f, (l.map f).idxOf t + 1 = ((a :: l).map f).idxOf t := by
        intro t ht
        have h1 := ((mem_firstsBy f l _ _).1 ht).2
        rw [List.map_cons, List.idxOf_cons_ne]
        rintro rfl
        exact h1 h
      rw [← e s hs, ← e s' hs']
      omega
    · rw [List.map_cons (l := firstsBy f (f a :: seen) l), List.pairwise_cons]
      have e : ∀ t ∈ (firstsBy f (f a :: seen) l).map f, ((a :: l).map f).idxOf t = (l.map f).idxOf t + 1 := by
        intro t ht
        have h1 := ((mem_firstsBy f l _ _).1 ht).2
        rw [List.map_cons, List.idxOf_cons_ne]
        rintro rfl
        simp at h1
      constructor
      · intro t ht
        rw [e t ht]
        simp
      · refine (ih _).imp_of_mem ?_
        intro s s' hs hs' hlt
        rw [e s hs, e s' hs']
        omega

end

/-! ## Lines -/

theorem lines_flatten {α : Type} (l : List α) : (TF.ET.lines l).flatten = l := by
  have h1 : ∀ q, q * 4 ≤ l.length → (((List.range q).map fun i => (l.drop (i * 4)).take 4)).flatten = l.take (q * 4) := by
    intro q
    induction q with
    | zero => simp
    | succ q ih =>
      intro h
      rw [List.range_succ, List.map_append, List.flatten_append, ih (by omega)]
      simp only [List.map_cons, List.map_nil, List.flatten_cons, List.flatten_nil, List.append_nil]
      rw [show (q + 1) * 4 = q * 4 + 4 by omega, List.take_add]
  unfold TF.ET.lines
  simp only
  rw [List.flatten_append, h1 _ (by omega)]
  by_cases h : l.length % 4 = 0
  · rw [if_neg (by simpa using h), List.flatten_nil, List.append_nil, List.take_of_length_le (by omega)]
  · rw [if_pos h]
    simp only [List.flatten_cons, List.flatten_nil, List.append_nil]
    rw [show l.length - l.length % 4 = l.length / 4 * 4 by omega, List.take_append_drop]

theorem mem_lines {α : Type} {l : List α} {x : List α} (h : x ∈ TF.ET.lines l) : x ≠ [] ∧ x.length ≤ 4 := by
  unfold TF.ET.lines at h
  simp only [List.mem_append, List.mem_map, List.mem_range] at h
  have hx : 1 ≤ x.length ∧ x.length ≤ 4 := by
    rcases h with ⟨i, hi, rfl⟩ | h
    · have h2 : i * 4 + 4 ≤ l.length := by
        have := Nat.div_mul_le_self l.length 4
        have : (i + 1) * 4 ≤ l.length / 4 * 4 := Nat.mul_le_mul_right 4 hi
        omega
      rw [List.length_take, List.length_drop]
      omega
    · split at h
      · simp only [List.mem_singleton] at h
        subst h
        rw [List.length_drop]
        omega
      · simp at h
  refine ⟨?_, hx.2⟩
  rintro rfl
  simp at hx

/-! ## The order of the projection operators -/

theorem insertBy_stable {α : Type} {le : α → α → Bool} (ht : TotalOrderB le) {R : α → α → Prop} (a : α) (l : List α) (hR : ∀ b ∈ l, R a b)
    (hl : l.Pairwise fun a b => le a b = true ∧ (le b a = true → R a b)) :
    (insertBy le a l).Pairwise fun a b => le a b = true ∧ (le b a = true → R a b) := by
  induction l with
  | nil => simp [insertBy]
  | cons b l ih =>
    rw [List.pairwise_cons] at hl
    unfold insertBy
    by_cases h : le a b = true
    · rw [if_pos h, List.pairwise_cons]
      refine ⟨?_, List.pairwise_cons.2 hl⟩
      intro c hc
      refine ⟨?_, fun _ => hR c hc⟩
      rcases List.mem_cons.1 hc with rfl | hc
      · exact h
      · exact ht.trans _ _ _ h (hl.1 c hc).1
    · rw [if_neg h, List.pairwise_cons]
      refine ⟨?_, ih (fun c hc => hR c (List.mem_cons_of_mem _ hc)) hl.2⟩
      intro c hc
      rcases List.mem_cons.1 ((insertBy_perm le a l).mem_iff.1 hc) with rfl | hc
      · exact ⟨by have := ht.total c b; simp only [Bool.not_eq_true] at h; rw [h] at this; simpa using this, fun h' => absurd h' h⟩
      · exact hl.1 c hc

theorem sortBy_stable {α : Type} {le : α → α → Bool} (ht : TotalOrderB le) {R : α → α → Prop} (l : List α) (hl : l.Pairwise R) :
    (sortBy le l).Pairwise fun a b => le a b = true ∧ (le b a = true → R a b) := by
  induction l with
  | nil => simp [sortBy]
  | cons a l ih =>
    rw [List.pairwise_cons] at hl
    unfold sortBy
    refine insertBy_stable ht a _ ?_ (ih hl.2)
    intro b hb
    exact hl.1 b ((sortBy_perm le l).mem_iff.1 hb)

theorem mnPairs_order (k : Nat) : (mnPairs k).Pairwise fun a b => a.1 < b.1 ∨ (a.1 = b.1 ∧ a.2 < b.2) := by
  unfold mnPairs
  rw [List.pairwise_flatMap]
  refine ⟨?_, ?_⟩
  · intro m _
    rw [List.pairwise_map]
    exact List.pairwise_lt_range.imp fun h => Or.inr ⟨rfl, h⟩
  · refine List.pairwise_lt_range.imp ?_
    intro m m' h x hx y hy
    obtain ⟨_, _, rfl⟩ := List.mem_map.1 hx
    obtain ⟨_, _, rfl⟩ := List.mem_map.1 hy
    exact Or.inl h

/-- The projection operators are ordered by rank and then by the number of creation operators. -/
theorem omegaOps_order (cc pMax : Nat) :
    (omegaOps cc pMax).Pairwise fun a b => a.rank < b.rank ∨ (a.rank = b.rank ∧ a.m < b.m) := by
  have htot : TotalOrderB (fun a b : Op => decide (a.name.length ≤ b.name.length)) :=
    { total := fun a b => by simp; omega
      trans := fun a b c => by simp; omega }
  have h1 : ((((mnPairs cc).filter fun p => decide (p.1 + p.2 ≤ pMax)).map fun p =>
      ({ name := rep 'd' p.1 ++ rep 'b' p.2, rank := p.1 + p.2, m := p.1, n := p.2 } : Op))).Pairwise
        fun a b => a.m < b.m ∨ (a.m = b.m ∧ a.n < b.n) := by
    rw [List.pairwise_map]
    exact (mnPairs_order cc).sublist List.filter_sublist
  have h2 := sortBy_stable htot _ h1
  have h3 : (omegaOps cc pMax).Pairwise fun a b => decide (a.name.length ≤ b.name.length) = true ∧
      (decide (b.name.length ≤ a.name.length) = true → a.m < b.m ∨ (a.m = b.m ∧ a.n < b.n)) := h2
  refine h3.imp_of_mem ?_
  intro a b ha hb hab
  obtain ⟨a1, a2, _⟩ := (omegaOps_exact cc pMax a).1 ha
  obtain ⟨b1, b2, _⟩ := (omegaOps_exact cc pMax b).1 hb
  have l1 : a.name.length = a.rank := by rw [a1, a2]; simp [rep, String.length]
  have l2 : b.name.length = b.rank := by rw [b1, b2]; simp [rep, String.length]
  rw [l1, l2] at hab
  simp only [decide_eq_true_eq] at hab
  obtain ⟨hab1, hab2⟩ := hab
  by_cases h : a.rank < b.rank
  · exact Or.inl h
  · have := hab2 (by omega)
    exact Or.inr (by omega)

/-! ## The terms of an equation -/

/-- The terms of an equation. -/
def termsOf (mode : Mode) (hMax cc K : Nat) (p : Op) : List Term :=
  (List.range (K + 1)).flatMap fun k => (taking mode (Zhz.prunedH hMax)).flatMap (termsAt p (Zhz.zOps cc true) k)

theorem mem_termsOf {mode : Mode} {hMax cc K : Nat} {p : Op} (hp : p.m = 0) {t : Term} : t ∈ termsOf mode hMax cc K p ↔
    ∃ k ≤ K, ∃ h ∈ taking mode (Zhz.prunedH hMax), ∃ z ∈ Zhz.zOps cc true, ∃ c, Contraction p k h z c ∧
      t = termOf p.n h (lenOf k) (rankOf k) z (distOf c) := by
  unfold termsOf
  simp only [List.mem_flatMap, List.mem_range, mem_termsAt' hp]
  constructor
  · rintro ⟨k, hk, h, hh, z, hz, c, hc, rfl⟩
    exact ⟨k, by omega, h, hh, z, hz, c, hc, rfl⟩
  · rintro ⟨k, hk, h, hh, z, hz, c, hc, rfl⟩
    exact ⟨k, by omega, h, hh, z, hz, c, hc, rfl⟩

theorem print_termOf (rf : Bool) {p : Op} (hp : p.m = 0) {cc : Nat} {h : HOp} {z : Op} (hz : z ∈ Zhz.zOps cc true) {k : Nat}
    {c : Pl k → Pl k → Nat} (hc : Contraction p k h z c) :
    printOne rf (termOf p.n h (lenOf k) (rankOf k) z (distOf c)) = .ok [ptermOf p.n k h z (classOf c) (c .h .lhs)] := by
  have hlen := (uniform_tFactors k).len
  have hzn := (groundZ cc).n z hz
  have f := contraction_facts hp hzn hc
  obtain ⟨g, hb, hd, _⟩ := good_distOf f
  have hb' : TF.ET.Balanced p.n h k z.m := by rwa [hlen, TF.ET.lenOf_mul] at hb
  have := printOne_eq rf (hlen ▸ g) hb' hd hzn ((groundZ cc).rank z hz)
  have e1 : (distOf c).ts.sum = classOf c := rfl
  have e2 : p.n - (distOf c).lhs = c .h .lhs := by
    have := f.lhs_col
    simp only [distOf]
    omega
  rw [e1, e2] at this
  exact this

/-- what a term prints -/
def printOr (rf : Bool) (t : Term) : List PTerm := match printOne rf t with | .ok l => l | .error _ => []

/-- The printed terms of an equation. -/
def ptermsOf (mode : Mode) (hMax cc K : Nat) (p : Op) : List PTerm :=
  firstsBy (PTerm.render mode) [] ((termsOf mode hMax cc K p).flatMap (printOr true))

theorem printOr_indep (rf : Bool) {mode : Mode} {hMax cc K : Nat} {p : Op} (hp : p.m = 0) {t : Term} (ht : t ∈ termsOf mode hMax cc K p) :
    printOne rf t = .ok (printOr true t) := by
  obtain ⟨k, _, h, _, z, hz, c, hc, rfl⟩ := (mem_termsOf hp).1 ht
  unfold printOr
  rw [print_termOf rf hp hz hc, print_termOf true hp hz hc]

theorem mem_all {mode : Mode} {hMax cc K : Nat} {p : Op} (hp : p.m = 0) {x : PTerm} :
    x ∈ (termsOf mode hMax cc K p).flatMap (printOr true) ↔
      ∃ k ≤ K, ∃ h ∈ taking mode (Zhz.prunedH hMax), ∃ z ∈ Zhz.zOps cc true, ∃ c, Contraction p k h z c ∧
        x = ptermOf p.n k h z (classOf c) (c .h .lhs) := by
  rw [List.mem_flatMap]
  constructor
  · rintro ⟨t, ht, hx⟩
    obtain ⟨k, hk, h, hh, z, hz, c, hc, rfl⟩ := (mem_termsOf hp).1 ht
    unfold printOr at hx
    rw [print_termOf true hp hz hc] at hx
    simp only [List.mem_singleton] at hx
    exact ⟨k, hk, h, hh, z, hz, c, hc, hx⟩
  · rintro ⟨k, hk, h, hh, z, hz, c, hc, rfl⟩
    refine ⟨_, (mem_termsOf hp).2 ⟨k, hk, h, hh, z, hz, c, hc, rfl⟩, ?_⟩
    unfold printOr
    rw [print_termOf true hp hz hc]
    simp

theorem termsOf_ne_nil {mode : Mode} {hMax cc K pMax : Nat} {p : Op} (hp : p ∈ projections cc pMax) : termsOf mode hMax cc K p ≠ [] := by
  obtain ⟨h, hh, z, hz, ⟨_, _, h0, _⟩, c, hc⟩ := TF.ETPy.eT_python_derivative_exists (hMax := hMax) hp
  have := (mem_termsOf (mode := mode) (K := K) (mem_projections hp).1).2 ⟨0, by omega, h, mem_taking.2 ⟨hh, fun _ => h0⟩, z, hz, c, hc, rfl⟩
  intro h0
  rw [h0] at this
  simp at this

theorem third_eq (rf : Bool) {mode : Mode} {hMax cc K pMax : Nat} {p : Op} (hp : p ∈ projections cc pMax) :
    third rf mode p ((List.range (K + 1)).map seriesOf) (Zhz.prunedH hMax) (Zhz.zOps cc true) = .ok (some (ptermsOf mode hMax cc K p)) := by
  have hpm := mem_projections hp
  unfold third
  rw [allTerms_eq hpm.1 (groundZ cc) (Zhz.zOps_ne_nil cc true)]
  have hne := termsOf_ne_nil (mode := mode) (hMax := hMax) (K := K) hp
  have hcol : printed rf mode (termsOf mode hMax cc K p) = .ok (ptermsOf mode hMax cc K p) := by
    unfold printed
    rw [collect_ok_of (printOr true) (fun t ht => printOr_indep rf hpm.1 ht)]
    rfl
  have e : (List.range (K + 1)).flatMap (fun k => (taking mode (Zhz.prunedH hMax)).flatMap (termsAt p (Zhz.zOps cc true) k)) =
      termsOf mode hMax cc K p := rfl
  rw [e]
  generalize termsOf mode hMax cc K p = l at hne hcol
  cases l with
  | nil => exact absurd rfl hne
  | cons a l =>
    simp only [hcol]

/-! ## The document -/

/-- The section of a projection operator. -/
def sectionOf (mode : Mode) (hMax cc K : Nat) (p : Op) : Section where
  omega := p
  heading := if p.n = 0 then none else Zhz.rankNames[p.n]?
  letters := (slice summationIdx 0 p.n).map fun c => (false, c)
  tUpper := slice summationIdx 0 p.n
  tLower := []
  gUpper := slice summationIdx 0 p.n
  gLower := []
  zUpper := slice summationIdx 0 p.n
  eqn :=
    { first := if mode = .rhs then some (Zhz.firstZ p) else none
      third := some (ptermsOf mode hMax cc K p)
      fifth := if mode = .rhs then some (Zhz.fifthZ p) else none }

theorem slice_self' (l : List Char) (a : Nat) : slice l a a = [] := by simp [slice]

theorem sectionFor_eq (rf : Bool) {mode : Mode} {hMax cc K pMax : Nat} {p prev : Op} (hp : p ∈ omegaOps cc pMax) (hr : min cc pMax ≤ 8)
    (hprev : p.m = 0 → (p.rank > prev.rank ↔ p.n ≠ 0)) :
    sectionFor true rf mode ((List.range (K + 1)).map seriesOf) (Zhz.prunedH hMax) (Zhz.zOps cc true) p prev =
      .ok (if p.m = 0 then [sectionOf mode hMax cc K p] else []) := by
  obtain ⟨a1, a2, a3, a4⟩ := (omegaOps_exact cc pMax p).1 hp
  unfold sectionFor
  by_cases hm : p.m = 0
  · have hpr : p ∈ projections cc pMax := by
      unfold projections
      rw [List.mem_filter]
      exact ⟨hp, by simp [hm]⟩
    have hlen : Zhz.rankNames.length = 9 := rfl
    rw [if_neg (by omega), if_pos hm, List.getElem?_eq_getElem (by omega), Zhz.omegaLetters_eq a1 (by omega)]
    simp only [equation, Bool.not_true, if_false, third_eq rf hpr, Bool.false_eq_true]
    have hrank : p.rank = p.n := by omega
    congr 2
    unfold sectionOf
    simp only [hm, hrank, Nat.zero_add, slice_self', List.map_nil, List.nil_append, Section.mk.injEq, and_true, true_and]
    have := hprev hm
    rw [hrank] at this
    by_cases h0 : p.n = 0
    · rw [if_pos h0, if_neg (fun h => (this.1 h) h0)]
    · rw [if_neg h0, if_pos (this.2 h0), List.getElem?_eq_getElem (by omega)]
  · rw [if_pos (by omega), if_neg hm]

theorem flatMap_if {α β : Type} (q : α → Prop) [DecidablePred q] (g : α → β) (l : List α) :
    (l.flatMap fun a => if q a then [g a] else []) = (l.filter fun a => decide (q a)).map g := by
  induction l with
  | nil => rfl
  | cons a l ih =>
    rw [List.flatMap_cons, ih]
    by_cases h : q a
    · rw [if_pos h, List.filter_cons_of_pos (by simpa using h)]
      rfl
    · rw [if_neg h, List.filter_cons_of_neg (by simpa using h)]
      rfl

theorem document_eq (rf : Bool) {mode : Mode} {hMax cc K pMax : Nat} (hK : 1 ≤ K) (hr : min cc pMax ≤ 8) :
    document true rf mode hMax cc 1 K pMax = .ok ((projections cc pMax).map (sectionOf mode hMax cc K)) := by
  unfold document
  rw [eTaylor_one hK]
  simp only
  rw [collect_ok_of (fun q : Op × Op => if q.1.m = 0 then [sectionOf mode hMax cc K q.1] else [])]
  · rw [flatMap_if (fun q : Op × Op => q.1.m = 0) (fun q => sectionOf mode hMax cc K q.1)]
    have e : ((omegaOps cc pMax).zip (Zhz.previous (omegaOps cc pMax))).map Prod.fst = omegaOps cc pMax := Zhz.zip_map_fst_prev _
    unfold projections
    congr 1
    conv_rhs => rw [← e]
    rw [List.filter_map, List.map_map]
    rfl
  · rintro ⟨p, prev⟩ hq
    refine sectionFor_eq rf (List.of_mem_zip hq).1 hr fun hm => ?_
    obtain ⟨a1, a2, a3, a4⟩ := (omegaOps_exact cc pMax p).1 (List.of_mem_zip hq).1
    obtain ⟨i, hi, e⟩ := List.getElem_of_mem hq
    rw [List.getElem_zip, Prod.mk.injEq] at e
    obtain ⟨e1, e2⟩ := e
    have hil : i < (omegaOps cc pMax).length := by
      rw [List.length_zip] at hi
      omega
    have hne : omegaOps cc pMax ≠ [] := by
      intro h0
      rw [h0] at hil
      simp at hil
    have hord := List.pairwise_iff_getElem.1 (omegaOps_order cc pMax)
    simp only [gt_iff_lt] at hm ⊢
    constructor
    · intro h1 h0
      omega
    · intro h0
      -- the operator without any letters is first
      have hz : (⟨rep 'd' 0 ++ rep 'b' 0, 0, 0, 0⟩ : Op) ∈ omegaOps cc pMax := (omegaOps_exact cc pMax _).2 ⟨rfl, rfl, by simp, by simp⟩
      obtain ⟨i0, hi0, e0⟩ := List.getElem_of_mem hz
      have hipos : i ≠ 0 := by
        rintro rfl
        by_cases h' : i0 = 0
        · subst h'
          rw [e0] at e1
          rw [← e1] at h0
          exact h0 rfl
        · have := hord 0 i0 hil hi0 (by omega)
          rw [e0] at this
          simp at this
      obtain ⟨i, rfl⟩ : ∃ i', i = i' + 1 := ⟨i - 1, by omega⟩
      have hp : (Zhz.previous (omegaOps cc pMax))[i + 1]'(by rw [Zhz.previous_length]; exact hil) = (omegaOps cc pMax)[i]'(by omega) := by
        simp [Zhz.previous_cons hne]
      rw [hp] at e2
      have := hord i (i + 1) (by omega) hil (by omega)
      rw [e1, e2, hm] at this
      omega

end TF.ETLatex
