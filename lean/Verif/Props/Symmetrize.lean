import Verif.Spec.Symmetrize
import Mathlib.Data.Fin.Tuple.Sort
import Verif.Lemmas.Py
import Verif.Lemmas.Tensor

/-! # C73: the function that symmetrises -/

namespace TF.Sym

open TF.Py TF.Spec.Tensor TF.Spec.Sym TF.Tensor

/-! ## Permutations as lists and as bijections -/

theorem nodup_picks {α : Type} {l : List α} (h : l.Nodup) : ((picks l).map Prod.fst) = l := by
  clear h
  induction l with
  | nil => rfl
  | cons a l ih =>
    simp only [picks, List.map_cons, List.map_map]
    congr 1

theorem nodup_permsAux {α : Type} (n : Nat) (l : List α) (h : l.Nodup) (hn : l.length = n) : (permsAux n l).Nodup := by
  induction n generalizing l with
  | zero => simp [permsAux]
  | succ n ih =>
    unfold permsAux
    rw [List.nodup_flatMap]
    constructor
    · intro p hp
      have h1 := picks_perm hp
      have h2 : (p.1 :: p.2).Nodup := h1.nodup_iff.2 h
      refine (ih p.2 (List.nodup_cons.1 h2).2 ?_).map (fun a b h => by injection h)
      have := h1.length_eq
      simp at this; omega
    · have h1 : ((picks l).map Prod.fst).Nodup := by rw [nodup_picks h]; exact h
      have h2 : (picks l).Pairwise (fun a b => a.1 ≠ b.1) := by
        rw [List.Nodup, List.pairwise_map] at h1
        exact h1
      refine h2.imp fun {a b} hab => ?_
      intro x hx hy
      obtain ⟨y, _, rfl⟩ := List.mem_map.1 hx
      obtain ⟨z, _, hz⟩ := List.mem_map.1 hy
      injection hz with hz
      exact hab hz.symm

/-- the tuple of axes of a permutation -/
def axesOf {k : Nat} (π : Equiv.Perm (Fin k)) : List Nat := List.ofFn fun i => (π i).val + 2

theorem range2_eq (k : Nat) : range2 2 (k + 2) = (List.range k).map (· + 2) := by
  unfold range2
  rfl

theorem axesOf_perm {k : Nat} (π : Equiv.Perm (Fin k)) : (axesOf π).Perm (range2 2 (k + 2)) := by
  have h1 : (axesOf π).Nodup := by
    unfold axesOf
    rw [List.nodup_ofFn]
    intro i j h
    apply π.injective
    apply Fin.ext
    simp only at h
    omega
  have h2 : (range2 2 (k + 2)).Nodup := by
    rw [range2_eq]
    exact List.nodup_range.map (fun a b h => by omega)
  rw [List.perm_ext_iff_of_nodup h1 h2]
  intro m
  unfold axesOf
  rw [List.mem_ofFn, range2_eq]
  simp only [List.mem_map, List.mem_range]
  constructor
  · rintro ⟨i, rfl⟩
    exact ⟨π i, (π i).2, by omega⟩
  · rintro ⟨j, hj, rfl⟩
    exact ⟨π.symm ⟨j, hj⟩, by simp⟩

theorem exists_axesOf {k : Nat} {p : List Nat} (hp : p.Perm (range2 2 (k + 2))) : ∃ π : Equiv.Perm (Fin k), axesOf π = p := by
  have hl : p.length = k := by rw [hp.length_eq, range2_eq]; simp
  have hn : p.Nodup := by
    rw [hp.nodup_iff, range2_eq]
    exact List.nodup_range.map (fun a b h => by omega)
  have hb : ∀ i (h : i < p.length), 2 ≤ p[i] ∧ p[i] < k + 2 := by
    intro i h
    have := hp.mem_iff.1 (List.getElem_mem h)
    rw [range2_eq] at this
    obtain ⟨j, hj, e⟩ := List.mem_map.1 this
    have := List.mem_range.1 hj
    omega
  let f : Fin k → Fin k := fun i => ⟨p[i.val]'(by omega) - 2, by have := hb i.val (by omega); omega⟩
  have hf : Function.Injective f := by
    intro i j h
    have h' : p[i.val]'(by omega) - 2 = p[j.val]'(by omega) - 2 := congrArg Fin.val h
    have h1 := hb i.val (by omega)
    have h2 := hb j.val (by omega)
    apply Fin.ext
    exact (List.Nodup.getElem_inj_iff hn).1 (by omega)
  refine ⟨Equiv.ofBijective f (Finite.injective_iff_bijective.1 hf), ?_⟩
  unfold axesOf
  refine List.ext_getElem (by simp [hl]) fun i h1 h2 => ?_
  rw [List.getElem_ofFn]
  have := hb i h2
  show p[i] - 2 + 2 = p[i]
  omega

variable {R : Type} [CommRing R]

omit [CommRing R] in
theorem transpose_axesOf {k : Nat} (π : Equiv.Perm (Fin k)) (x : Arr R) (a b : Nat) (v : Fin k → Nat) :
    transpose ([0, 1] ++ axesOf π) x (a :: b :: List.ofFn v) = x (a :: b :: List.ofFn fun i => v (π.symm i)) := by
  unfold transpose
  congr 1
  have hlen : ([0, 1] ++ axesOf π).length = 1 + (1 + k) := by simp [axesOf]; omega
  have hn : (axesOf π).Nodup := by
    rw [(axesOf_perm π).nodup_iff, range2_eq]
    exact List.nodup_range.map (fun a b h => by omega)
  refine List.ext_getElem (by simp [axesOf]) fun i h1 h2 => ?_
  rw [List.getElem_map, List.getElem_range]
  match i with
  | 0 => rfl
  | 1 => rfl
  | i + 2 =>
    have hi : i < k := by simp at h2; omega
    have hidx : ([0, 1] ++ axesOf π).idxOf (i + 2) = (π.symm ⟨i, hi⟩).val + 2 := by
      have hj : (π.symm ⟨i, hi⟩).val < (axesOf π).length := by simp [axesOf]
      have e : (axesOf π)[(π.symm ⟨i, hi⟩).val] = i + 2 := by simp [axesOf]
      have := hn.idxOf_getElem _ hj
      rw [e] at this
      show (0 :: 1 :: axesOf π).idxOf (i + 2) = _
      rw [List.idxOf_cons_ne _ (by omega), List.idxOf_cons_ne _ (by omega), this]
    rw [hidx]
    simp [List.getD_eq_getElem?_getD]

theorem permutations_sum {k : Nat} (F : List Nat → R) : ((permutations (range2 2 (k + 2))).map F).sum = ∑ π : Equiv.Perm (Fin k), F (axesOf π) := by
  classical
  have hn : (permutations (range2 2 (k + 2))).Nodup := by
    refine nodup_permsAux _ _ ?_ rfl
    rw [range2_eq]
    exact List.nodup_range.map (fun a b h => by omega)
  rw [← List.sum_toFinset _ hn]
  symm
  refine Finset.sum_bij (fun π _ => axesOf π) ?_ ?_ ?_ ?_
  · intro π _
    rw [List.mem_toFinset, mem_permutations]
    exact axesOf_perm π
  · intro π _ ρ _ h
    unfold axesOf at h
    rw [List.ofFn_inj] at h
    apply Equiv.ext
    intro i
    apply Fin.ext
    have := congrFun h i
    omega
  · intro p hp
    rw [List.mem_toFinset, mem_permutations] at hp
    obtain ⟨π, h⟩ := exists_axesOf hp
    exact ⟨π, Finset.mem_univ _, h⟩
  · intro π _; rfl

theorem symSum_at (k : Nat) (x : Arr R) (a b : Nat) (v : Fin k → Nat) :
    symSum k x (a :: b :: List.ofFn v) = ∑ π : Equiv.Perm (Fin k), x (a :: b :: List.ofFn fun i => v (π i)) := by
  unfold symSum
  refine Finset.sum_congr rfl fun π _ => ?_
  congr 1
  simp only [List.take_succ_cons, List.take_zero, List.cons_append, List.nil_append]
  congr 3
  funext i
  rw [Nat.add_comm 2]
  simp [List.getD_eq_getElem?_getD]

theorem sum_ite_unique {l : List Nat} (hn : l.Nodup) {k : Nat} (hk : k ∈ l) (r : R) : (l.map fun n => if n = k then r else 0).sum = r := by
  induction l with
  | nil => simp at hk
  | cons n l ih =>
    rw [List.nodup_cons] at hn
    rw [List.map_cons, List.sum_cons]
    by_cases h : n = k
    · subst h
      rw [if_pos rfl, List.sum_eq_zero, add_zero]
      intro y hy
      obtain ⟨m, hm, rfl⟩ := List.mem_map.1 hy
      exact if_neg (by rintro rfl; exact hn.1 hm)
    · rw [if_neg h, zero_add]
      exact ih hn.2 ((List.mem_cons.1 hk).resolve_left (fun e => h e.symm))

/-- a rearrangement of a tuple is the tuple after a permutation -/
theorem exists_perm_of_perm {k : Nat} {u v : Fin k → Nat} (h : (List.ofFn u).Perm (List.ofFn v)) : ∃ ρ : Equiv.Perm (Fin k), v = u ∘ ρ := by
  have e : u ∘ Tuple.sort u = v ∘ Tuple.sort v := List.ofFn_injective
    (((Equiv.Perm.ofFn_comp_perm (Tuple.sort u) u).trans (h.trans (Equiv.Perm.ofFn_comp_perm (Tuple.sort v) v).symm)).eq_of_pairwise'
      (Tuple.monotone_sort u).sortedLE_ofFn.pairwise (Tuple.monotone_sort v).sortedLE_ofFn.pairwise)
  refine ⟨(Tuple.sort v).symm.trans (Tuple.sort u), ?_⟩
  funext i
  have := congrFun e ((Tuple.sort v).symm i)
  simp only [Function.comp_apply, Equiv.apply_symm_apply] at this
  simp [this]

theorem exists_ofFn {k : Nat} (l : List Nat) (h : l.length = k) : ∃ v : Fin k → Nat, l = List.ofFn v := by
  subst h
  exact ⟨l.get, (List.ofFn_get l).symm⟩

/-- **C73.** The written function returns, for every order up to the maximum, the sum over all permutations of
the modes; for order 0 and 1 whatever the maximum is. -/
theorem symmetrize_sum (M k : Nat) (hk : k ≤ max M 1) (x : Arr R) (a b : Nat) (v : Fin k → Nat) :
    run (build M) k x (a :: b :: List.ofFn v) = symSum k x (a :: b :: List.ofFn v) := by
  rw [symSum_at]
  unfold run
  split
  · rename_i h
    have h1 : k = 0 ∨ k = 1 := by simpa [build] using h
    rcases h1 with rfl | rfl
    · rw [Finset.univ_unique, Finset.sum_singleton]; rfl
    · rw [Finset.univ_unique, Finset.sum_singleton]; rfl
  · rename_i h
    have h1 : 2 ≤ k := by
      by_contra h'
      apply h
      simp [build]; omega
    have hs : (range2 2 (M + 1)).map (fun n => if n = k then
        (((permutations (range2 2 (n + 2))).map fun p => [0, 1] ++ p).map fun axes => transpose axes x (a :: b :: List.ofFn v)).sum else 0) =
        (range2 2 (M + 1)).map (fun n => if n = k then ∑ π : Equiv.Perm (Fin k), x (a :: b :: List.ofFn fun i => v (π i)) else 0) := by
      refine List.map_congr_left fun n _ => ?_
      split
      · rename_i h2
        subst h2
        rw [List.map_map, permutations_sum]
        refine (Finset.sum_congr rfl fun π _ => transpose_axesOf π x a b v).trans ?_
        exact Equiv.sum_comp (Equiv.inv (Equiv.Perm (Fin n))) fun π : Equiv.Perm (Fin n) => x (a :: b :: List.ofFn fun i => v (π i))
      · rfl
    unfold build
    simp only [List.map_map]
    refine (congrArg List.sum hs).trans ?_
    refine sum_ite_unique (R := R) ?_ ?_ _
    · unfold range2
      exact List.nodup_range.map (fun a b h => by omega)
    · rw [mem_range2]; omega

/-- **C73.** Above the maximum the written function returns zeros without any exception. -/
theorem symmetrize_above (M k : Nat) (hk : max M 1 < k) (x : Arr R) (v : List Nat) : run (build M) k x v = 0 := by
  unfold run
  rw [if_neg (by simp [build]; omega)]
  unfold build
  simp only [List.map_map]
  apply List.sum_eq_zero
  intro y hy
  obtain ⟨n, hn, rfl⟩ := List.mem_map.1 hy
  rw [mem_range2] at hn
  exact if_neg (by simp only; omega)

/-- The default maximum (5) is below the largest order the truncations allow (6): there the result is zero. -/
theorem symmetrize_default_six (x : Arr R) (v : List Nat) : run (build 5) 6 x v = 0 :=
  symmetrize_above 5 6 (by decide) x v

/-- **C73.** The sum over all permutations is symmetric in the modes. -/
theorem symSum_symmetric (k : Nat) (x : Arr R) : ModeSymmetric k (symSum k x) := by
  intro a b l l' hl h
  obtain ⟨u, rfl⟩ := exists_ofFn l hl
  obtain ⟨v, rfl⟩ := exists_ofFn l' (h.length_eq.symm.trans hl)
  obtain ⟨ρ, rfl⟩ := exists_perm_of_perm h
  rw [symSum_at, symSum_at]
  exact (Equiv.sum_comp (Equiv.mulLeft ρ) fun π : Equiv.Perm (Fin k) => x (a :: b :: List.ofFn fun i => u (π i))).symm

/-- **C73.** The returned array is symmetric in the modes. -/
theorem symmetrize_symmetric (M k : Nat) (x : Arr R) (hk : 2 ≤ k) : ModeSymmetric k (run (build M) k x) := by
  intro a b l l' hl h
  by_cases hM : k ≤ max M 1
  · obtain ⟨u, rfl⟩ := exists_ofFn l hl
    obtain ⟨v, rfl⟩ := exists_ofFn l' (h.length_eq.symm.trans hl)
    rw [symmetrize_sum M k hM, symmetrize_sum M k hM]
    exact symSum_symmetric k x a b _ _ hl h
  · rw [symmetrize_above M k (by omega), symmetrize_above M k (by omega)]

/-- **C73.** An array that is symmetric already is multiplied by the number of permutations. -/
theorem symSum_of_symmetric (k : Nat) (x : Arr R) (hx : ModeSymmetric k x) (a b : Nat) (l : List Nat) (hl : l.length = k) :
    symSum k x (a :: b :: l) = k.factorial • x (a :: b :: l) := by
  obtain ⟨u, rfl⟩ := exists_ofFn l hl
  rw [symSum_at]
  have : ∀ π : Equiv.Perm (Fin k), x (a :: b :: List.ofFn fun i => u (π i)) = x (a :: b :: List.ofFn u) := by
    intro π
    exact hx a b _ _ (by simp) (π.ofFn_comp_perm u)
  rw [Finset.sum_congr rfl fun π _ => this π, Finset.sum_const, Finset.card_univ, Fintype.card_perm, Fintype.card_fin]

/-- **C73**, where the code fails: the written function has the parameters `(tensor, order)`, and the generated
modules call it with `(N, tensor, order=..)`, which Python rejects. -/
theorem symmetrize_call_rejected (M : Nat) : ¬ accepts (build M).params callPositional.length callKeywords := by
  rintro ⟨_, _, h, _⟩
  have := h "order" (by simp [callKeywords])
  simp [build, callPositional] at this

/-! ## A concrete case -/

/-- The written function for order 3 has the six tuples of axes. -/
example : (build 3).blocks = [(2, [[0, 1, 2, 3], [0, 1, 3, 2]]),
    (3, [[0, 1, 2, 3, 4], [0, 1, 2, 4, 3], [0, 1, 3, 2, 4], [0, 1, 3, 4, 2], [0, 1, 4, 2, 3], [0, 1, 4, 3, 2]])] := by
  decide +kernel

/-- An array that is not symmetric, and its symmetrisation. -/
example : let x : Arr ℤ := fun v => if v = [0, 1, 4, 7] then 5 else 0
    x [0, 1, 7, 4] = 0 ∧ run (build 5) 2 x [0, 1, 7, 4] = 5 ∧ ¬ ModeSymmetric 2 x := by
  refine ⟨by decide, by decide +kernel, fun h => ?_⟩
  have := h 0 1 [4, 7] [7, 4] rfl (List.Perm.swap _ _ _)
  revert this
  decide

/-- A call that Python accepts. -/
example : accepts (build 5).params 1 ["order"] := by
  refine ⟨by decide, by simp, ?_, by decide⟩
  simp [build]

end TF.Sym
