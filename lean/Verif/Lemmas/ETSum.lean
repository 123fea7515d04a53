import Verif.Lemmas.ETExpand
import Verif.Props.ETModule

/-! # The sum of the values of the products a generated e^T function adds -/

namespace TF.ETPy

open TF.Py TF.Spec.ETPy TF.Spec.ETRun TF.Spec.Tensor TF.Tensor TF.Spec.Fock TF.Spec.ET TF.Fock
open TF.Spec.ETValue (terms returned askedTerms askedOrders askedTaylor)
open TF.CC (Op HOp summationIdx unlinkedIdx)
open TF.ET (Mode mem_taking taking groundZ rankOf)

variable {R : Type} [CommRing R] [Algebra Rat R]

/-- h with the given numbers of operators -/
def mkH (o : Nat × Nat) : HOp := ⟨o.1 + o.2, o.1, o.2⟩
/-- z with the given number of operators -/
def mkZ (m : Nat) : Op := ⟨"", m, m, 0⟩

/-- The numbers of a term: Taylor order, h, z, and how many t are on z. -/
abbrev Ix := Nat × (Nat × Nat) × Nat × Nat

/-- its statement -/
def entryIx (mode : Mode) (P : Nat) (x : Ix) : Entry :=
  entryOf mode P x.1 (mkH x.2.1) (mkZ x.2.2.1) x.2.2.2 (x.2.1.1 - (x.1 - x.2.2.2))

/-- the terms of h that occur -/
def hTerms (mode : Mode) (hMax : Nat) (env : Caller) : Finset (Nat × Nat) := (askedTerms hMax env).filter fun o => mode = .lhs → o.2 = 0

theorem mem_hTerms {mode : Mode} {hMax : Nat} {env : Caller} {o : Nat × Nat} :
    o ∈ hTerms mode hMax env ↔ o ∈ terms hMax ∧ (mode = .lhs → o.2 = 0) ∧ (max o.1 o.2 = 0 ∨ env.h (max o.1 o.2) = true) := by
  unfold hTerms askedTerms
  rw [Finset.mem_filter, Finset.mem_filter]
  tauto

theorem mem_askedOrders {cc : Nat} {env : Caller} {m : Nat} : m ∈ askedOrders cc env ↔ m ≤ cc ∧ (m = 0 ∨ env.z m = true) := by
  unfold askedOrders
  rw [Finset.mem_filter, Finset.mem_range, Nat.lt_succ_iff]

/-- all terms -/
def full (mode : Mode) (hMax cc K P : Nat) (env : Caller) : Finset Ix :=
  (Finset.range (askedTaylor K env + 1) ×ˢ hTerms mode hMax env ×ˢ askedOrders cc env ×ˢ Finset.range (K + 1)).filter fun x =>
    Fits P x.1 x.2.1.1 x.2.1.2 x.2.2.1 x.2.2.2

/-- the derivative -/
def derivIx (P : Nat) : Ix := (0, (0, 0), P, 0)

theorem nums_of_fits {P k m n zm j : Nat} (h : Fits P k m n zm j) : Nums P k m n zm j (m - (k - j)) (zm - n - j) := by
  obtain ⟨h1, h2, h3, h4⟩ := h
  exact ⟨h1, by omega, by omega, h4⟩

theorem fits_of_nums {P k m n zm j hl zl : Nat} (h : Nums P k m n zm j hl zl) : Fits P k m n zm j ∧ hl = m - (k - j) := by
  obtain ⟨h1, h2, h3, h4⟩ := h
  exact ⟨⟨h1, by omega, by omega, by omega⟩, by omega⟩

theorem mem_terms {hMax : Nat} {o : Nat × Nat} : o ∈ terms hMax ↔ o.1 + o.2 ≤ hMax ∧ (o.1 + o.2 < 3 ∨ o.1 = 0) := by
  unfold terms
  rw [Finset.mem_filter, Finset.mem_product, Finset.mem_range, Finset.mem_range]
  constructor
  · exact fun h => h.2
  · exact fun h => ⟨by omega, h⟩

theorem mkH_mem {mode : Mode} {hMax : Nat} {o : Nat × Nat} : mkH o ∈ taking mode (Zhz.prunedH hMax) ↔ o ∈ terms hMax ∧ (mode = .lhs → o.2 = 0) := by
  rw [mem_taking, Zhz.mem_prunedH, mem_terms]
  unfold Takes mkH
  simp

theorem eq_mkH {hMax : Nat} {h : HOp} (hh : h ∈ Zhz.prunedH hMax) : h = mkH (h.m, h.n) := by
  obtain ⟨h1, _, _⟩ := Zhz.mem_prunedH.1 hh
  obtain ⟨r, m, n⟩ := h
  simp only at h1
  subst h1
  rfl

theorem mem_full {mode : Mode} {hMax cc K P : Nat} {env : Caller} {x : Ix} :
    x ∈ full mode hMax cc K P env ↔ x.1 ≤ askedTaylor K env ∧ x.2.1 ∈ hTerms mode hMax env ∧ x.2.2.1 ∈ askedOrders cc env ∧ Fits P x.1 x.2.1.1 x.2.1.2 x.2.2.1 x.2.2.2 := by
  unfold full
  simp only [Finset.mem_filter, Finset.mem_product, Finset.mem_range]
  constructor
  · rintro ⟨⟨h1, h2, h3, h4⟩, h5⟩
    exact ⟨by omega, h2, h3, h5⟩
  · rintro ⟨h1, h2, h3, h5⟩
    refine ⟨⟨by omega, h2, h3, ?_⟩, h5⟩
    have := h5.1
    unfold askedTaylor at h1
    split at h1 <;> omega

theorem askedTaylor_le (K : Nat) (env : Caller) : askedTaylor K env ≤ K := by unfold askedTaylor; split <;> omega

section
variable {mode : Mode} {hMax cc K P : Nat} {env : Caller}

theorem full_capacity (hcc : cc ≤ 6) {x : Ix} (hx : x ∈ full mode hMax cc K P env) : x.1 + x.2.1.2 ≤ 10 := by
  obtain ⟨_, h2, h3, h4, h5, h6, h7⟩ := mem_full.1 hx
  have h2' := mem_terms.1 (mem_hTerms.1 h2).1
  have h3' := (mem_askedOrders.1 h3).1
  omega

theorem entryIx_inj (hcc : cc ≤ 6) (hP : P ≤ 8) {x y : Ix} (hx : x ∈ full mode hMax cc K P env) (hy : y ∈ full mode hMax cc K P env)
    (e : entryIx mode P x = entryIx mode P y) : x = y := by
  have fx := (mem_full.1 hx).2.2.2
  have fy := (mem_full.1 hy).2.2.2
  obtain ⟨k, ⟨m, n⟩, zm, j⟩ := x
  obtain ⟨k', ⟨m', n'⟩, zm', j'⟩ := y
  have ec : codeOf mode P k (mkH (m, n)) (mkZ zm) j (m - (k - j)) = codeOf mode P k' (mkH (m', n')) (mkZ zm') j' (m' - (k' - j')) := congrArg Entry.code e
  obtain ⟨e1, e2, e3, e4, e5⟩ := operands_inj (mode := mode) (k := k) (k' := k') (h := mkH (m, n)) (h' := mkH (m', n')) (z := mkZ zm) (z' := mkZ zm') (congrArg Einsum.operands ec)
  have e2' : m = m' := e2
  have e3' : n = n' := e3
  have e4' : zm = zm' := e4
  subst e1 e2' e3' e4'
  have nx := nums_of_fits fx
  have ny := nums_of_fits fy
  obtain ⟨c, hc, c1, c2⟩ := exists_contraction (lhs := ⟨"", P, 0, P⟩) rfl (h := mkH (m, n)) (z := mkZ zm) rfl nx
  have hcomp := computes_codeOf (mode := mode) (lhs := ⟨"", P, 0, P⟩) rfl (z := mkZ zm) rfl hc (full_capacity hcc hx) hP
  rw [c1, c2] at hcomp
  have hcomp' : Computes (codeOf mode P k (mkH (m, n)) (mkZ zm) j (m - (k - j))) mode ⟨"", P, 0, P⟩ k (mkH (m, n)) (mkZ zm) c := hcomp
  rw [ec] at hcomp'
  obtain ⟨_, _, _, _, h5, _⟩ := of_computes (lhs := ⟨"", P, 0, P⟩) rfl (h := mkH (m, n)) (h' := mkH (m, n)) (z := mkZ zm) (z' := mkZ zm) rfl hc ny (full_capacity hcc hy) hP rfl hcomp'
  have : j' = classOf c := h5
  rw [this, c1]

/-- The statements of both functions. -/
theorem mem_allStatements {p : Op} (hp : p.m = 0) (hN : p.n ≤ 6) (hcc : cc ≤ 6) (hcc1 : 1 ≤ cc) {g : Part × Part} (hg : partsOf mode hMax cc K p = .ok g) :
    (allStatements g).Nodup ∧ ∀ e, e ∈ allStatements g ↔ ∃ k ≤ K, EntryAt mode hMax cc p k e := by
  obtain ⟨n0, n1, m0, m1⟩ := statements_parts hp hN hcc hcc1 hg
  unfold allStatements
  constructor
  · rw [List.nodup_append]
    refine ⟨n0, n1, ?_⟩
    intro a ha b hb e
    subst e
    have h1 := entryAt_facts ((m0 a).1 ha)
    obtain ⟨k', hk', hb'⟩ := (m1 a).1 hb
    have h2 := entryAt_facts hb'
    have h3 : rankOf 0 = 0 := rfl
    have h4 : rankOf k' = 1 := by unfold rankOf; rw [if_neg (by omega)]
    omega
  · intro e
    rw [List.mem_append, m0, m1]
    constructor
    · rintro (h | ⟨k, h1, h2⟩)
      · exact ⟨0, by omega, h⟩
      · exact ⟨k, h1.2, h2⟩
    · rintro ⟨k, h1, h2⟩
      by_cases hk : k = 0
      · subst hk; exact .inl h2
      · exact .inr ⟨k, ⟨by omega, h1⟩, h2⟩

theorem mem_opened {p : Op} (hp : p.m = 0) (hN : p.n ≤ 6) (hcc : cc ≤ 6) (hcc1 : 1 ≤ cc) {g : Part × Part} (hg : partsOf mode hMax cc K p = .ok g) (e : Entry) :
    e ∈ (allStatements g).filter (open' env) ↔ ∃ x ∈ (full mode hMax cc K p.n env).filter (fun x => x ≠ derivIx p.n), entryIx mode p.n x = e := by
  rw [List.mem_filter, (mem_allStatements hp hN hcc hcc1 hg).2 e]
  simp only [Finset.mem_filter, mem_full, mem_hTerms, mem_askedOrders]
  constructor
  · rintro ⟨⟨k, hk, h, hh, z, hz, c, hc, hd, rfl⟩, ho⟩
    have hzn := (groundZ cc).n z hz
    have n := nums_of_facts (contraction_facts hp hzn hc)
    obtain ⟨f1, f2⟩ := fits_of_nums n
    have hh' := mem_taking.1 hh
    have ehk := eq_mkH hh'.1
    have hzm := Zhz.mem_zOps hz
    unfold open' at ho
    simp only [Bool.and_eq_true, Bool.or_eq_true, decide_eq_true_eq] at ho
    obtain ⟨⟨o1, o2⟩, o3⟩ := ho
    have o1' : max h.m h.n = 0 ∨ env.h (max h.m h.n) = true := o1
    have o2' : rankOf k = 0 ∨ env.t (rankOf k) = true := o2
    have o3' : z.m = 0 ∨ env.z z.m = true := o3
    have hmk : mkH (h.m, h.n) ∈ taking mode (Zhz.prunedH hMax) := ehk ▸ hh
    obtain ⟨t1, t2⟩ := mkH_mem.1 hmk
    refine ⟨(k, (h.m, h.n), z.m, classOf c), ⟨⟨?_, ⟨t1, t2, o1'⟩, ⟨by show z.m ≤ cc; omega, o3'⟩, f1⟩, ?_⟩, ?_⟩
    · show k ≤ askedTaylor K env
      unfold askedTaylor
      by_cases hk0 : k = 0
      · omega
      · have : rankOf k = 1 := by unfold rankOf; rw [if_neg hk0]
        rw [this] at o2'
        have : env.t 1 = true := by
          rcases o2' with h | h
          · omega
          · exact h
        rw [if_pos this]
        exact hk
    · intro he
      unfold derivIx at he
      simp only [Prod.mk.injEq] at he
      exact hd ⟨he.1, he.2.1.1, he.2.1.2, he.2.2.1⟩
    · show entryOf mode p.n k (mkH (h.m, h.n)) (mkZ z.m) (classOf c) (h.m - (k - classOf c)) = _
      rw [← f2, ← ehk]
      obtain ⟨nm, r, zm, zn⟩ := z
      simp only at hzn
      subst hzn
      rfl
  · rintro ⟨⟨k, ⟨m, n⟩, zm, j⟩, ⟨⟨h1, ⟨h2, h3, h4⟩, ⟨h5, h6⟩, h7⟩, h8⟩, rfl⟩
    simp only at h1 h2 h3 h4 h5 h6 h7
    have nx := nums_of_fits h7
    have hk := h1.trans (askedTaylor_le K env)
    obtain ⟨h, hh, z, hz, a1, a2, a3, c, hc, c1, c2, he⟩ := exists_entry (mode := mode) (hMax := hMax) (cc := cc) hp (mem_terms.1 h2) h3 (by omega) nx (by
      rintro ⟨d1, d2, d3, d4⟩
      subst d1 d2 d3 d4
      refine h8 ?_
      unfold derivIx
      have := h7.1
      simp only [Prod.mk.injEq, true_and]
      omega)
    have hh' := mem_taking.1 hh
    have ehk := eq_mkH hh'.1
    have hzn := (groundZ cc).n z hz
    have ee : entryOf mode p.n k h z j (m - (k - j)) = entryIx mode p.n (k, (m, n), zm, j) := by
      show _ = entryOf mode p.n k (mkH (m, n)) (mkZ zm) j (m - (k - j))
      rw [ehk, a1, a2]
      obtain ⟨nm, r, zm', zn⟩ := z
      simp only at hzn a3
      subst hzn a3
      rfl
    rw [ee] at he
    refine ⟨⟨k, hk, he⟩, ?_⟩
    unfold open'
    simp only [Bool.and_eq_true, Bool.or_eq_true, decide_eq_true_eq]
    refine ⟨⟨h4, ?_⟩, h6⟩
    show rankOf k = 0 ∨ env.t (rankOf k) = true
    by_cases hk0 : k = 0
    · left; subst hk0; rfl
    · right
      have : rankOf k = 1 := by unfold rankOf; rw [if_neg hk0]
      rw [this]
      unfold askedTaylor at h1
      by_contra hc'
      rw [if_neg hc'] at h1
      omega

/-- the value of a term, summed over the electronic states -/
noncomputable def valIx (mode : Mode) (A N : Nat) (args : String → Nat × Nat → Arr R) (a : Nat) (x : Ix) (l : List Nat) : R :=
  ∑ b : Fin A, val N (tArg mode args) (hOf mode args x.2.1 a b) (zOf mode args x.2.1 x.2.2.1 b) (x.1 - x.2.2.2) x.2.1.2 x.2.2.2 (x.2.1.1 - (x.1 - x.2.2.2)) l

/-- the tensors do not depend on the order of the modes -/
structure SymmArgs (mode : Mode) (hMax cc : Nat) (args : String → Nat × Nat → Arr R) : Prop where
  h : ∀ o ∈ terms hMax, (mode = .lhs → o.2 = 0) → ∀ a b, SymmR (o.1 + o.2) (hOf mode args o a b)
  z : ∀ o, ∀ m ≤ cc, ∀ b, SymmR m (zOf mode args o m b)

/-- The polynomial of the returned array. -/
theorem mono_returned {p : Op} (hp : p.m = 0) (hN : p.n ≤ 6) (hcc : cc ≤ 6) (hcc1 : 1 ≤ cc) {g : Part × Part} (hg : partsOf mode hMax cc K p = .ok g)
    {args : String → Nat × Nat → Arr R} (hs : SymmArgs mode hMax cc args) (A N : Nat) (a : Fin A) :
    mono N p.n (fun v => returned A N args (addedBy env g) (a.val :: v)) =
      ∑ x ∈ (full mode hMax cc K p.n env).filter (fun x => x ≠ derivIx p.n), coef x.1 x.2.1.1 x.2.1.2 x.2.2.1 x.2.2.2 • mono N p.n (valIx mode A N args a x) := by
  unfold returned addedBy
  simp only [List.map_map, Function.comp_def]
  rw [mono_list_sum]
  simp only [mono_smul]
  have hnd : ((allStatements g).filter (open' env)).Nodup := (mem_allStatements hp hN hcc hcc1 hg).1.filter _
  rw [← List.sum_toFinset _ hnd]
  have him : ((allStatements g).filter (open' env)).toFinset = ((full mode hMax cc K p.n env).filter (fun x => x ≠ derivIx p.n)).image (entryIx mode p.n) := by
    ext e
    rw [List.mem_toFinset, mem_opened hp hN hcc hcc1 hg, Finset.mem_image]
  rw [him, Finset.sum_image]
  · refine Finset.sum_congr rfl fun x hx => ?_
    have hxf := (Finset.mem_filter.1 hx).1
    obtain ⟨f1, f2, f3, f4⟩ := mem_full.1 hxf
    have n := nums_of_fits f4
    have hcap := full_capacity hcc hxf
    obtain ⟨k, ⟨m, nn⟩, zm, j⟩ := x
    simp only at f1 f2 f3 f4 n hcap ⊢
    have f2' := mem_hTerms.1 f2
    have f3' := (mem_askedOrders.1 f3).1
    have n1 := n.le
    have n2 := n.onH
    have n3 := n.onZ
    have n4 := n.onN
    congr 1
    · show (1 / _ : Rat) = coef k m nn zm j
      unfold coef
      rw [show p.n - (m - (k - j)) = zm - nn - j by omega]
      rfl
    · refine mono_congr fun v => ?_
      show TF.Spec.ETValue.einsum A N args (codeOf mode p.n k (mkH (m, nn)) (mkZ zm) j (m - (k - j))) (a.val :: modes v) = _
      rw [value_codeOf (h := mkH (m, nn)) (z := mkZ zm) n hcap (by omega) rfl A N args a (modes v) (modes_length v)]
      unfold valIx
      refine Finset.sum_congr rfl fun b _ => ?_
      exact sum_eq_val (n := nn) (m := m + nn) (zm := zm) (tArg mode args) _ _ n1 (modes v) (hs.h _ f2'.1 f2'.2.1 a b) (hs.z _ _ (by omega) b)
        (by omega) (by omega) (by rw [modes_length]; omega) (by rw [modes_length]; omega)
  · intro x hx y hy e
    exact entryIx_inj hcc (by omega) (Finset.mem_filter.1 hx).1 (Finset.mem_filter.1 hy).1 e

end

end TF.ETPy
