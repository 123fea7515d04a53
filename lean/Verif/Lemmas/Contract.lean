import Verif.Spec.DtValue
import Verif.Lemmas.Tensor
import Mathlib.Data.Matrix.Basic
import Mathlib.Data.Fin.Tuple.Basic

/-! # Lemmas on contractions of two arrays -/

namespace TF.Tensor

open TF.Spec.Tensor TF.Spec.Dt

variable {R : Type} [CommRing R]

/-- assigns values to letters -/
def assign : List Char → List Nat → (Char → Nat) → Char → Nat
  | c :: cs, i :: is, σ => assign cs is (Function.update σ c i)
  | _, _, σ => σ

theorem assign_of_notMem (cs : List Char) (is : List Nat) (σ : Char → Nat) (c : Char) (h : c ∉ cs) : assign cs is σ c = σ c := by
  induction cs generalizing is σ with
  | nil => cases is <;> rfl
  | cons d cs ih =>
    cases is with
    | nil => rfl
    | cons i is =>
      simp only [List.mem_cons, not_or] at h
      rw [assign, ih _ _ h.2, Function.update_of_ne h.1]

theorem map_assign (cs : List Char) (hcs : cs.Nodup) (is : List Nat) (σ : Char → Nat) (h : cs.length = is.length) : cs.map (assign cs is σ) = is := by
  induction cs generalizing is σ with
  | nil => cases is with
    | nil => rfl
    | cons _ _ => simp at h
  | cons d cs ih =>
    cases is with
    | nil => simp at h
    | cons i is =>
      rw [List.nodup_cons] at hcs
      rw [List.map_cons]
      congr 1
      · rw [assign, assign_of_notMem _ _ _ _ hcs.1, Function.update_self]
      · exact ih hcs.2 is _ (by simpa using h)

theorem sumOver_all (dim : Char → Nat) (N : Nat) (cs : List Char) (hN : ∀ c ∈ cs, dim c = N) (σ : Char → Nat) (F : (Char → Nat) → R) :
    sumOver dim cs σ F = ∑ K : Fin cs.length → Fin N, F (assign cs (List.ofFn fun i => (K i).val) σ) := by
  induction cs generalizing σ with
  | nil =>
    show F σ = ∑ K : Fin 0 → Fin N, F σ
    rw [Fintype.sum_unique]
  | cons c cs ih =>
    have hc : dim c = N := hN c (by simp)
    unfold sumOver
    subst hc
    show _ = ∑ K : Fin (cs.length + 1) → Fin (dim c), F (assign (c :: cs) (List.ofFn fun i => (K i).val) σ)
    rw [← Equiv.sum_comp (Fin.consEquiv (fun _ : Fin (cs.length + 1) => Fin (dim c)))
      (fun K : Fin (cs.length + 1) → Fin (dim c) => F (assign (c :: cs) (List.ofFn fun i => (K i).val) σ)), Fintype.sum_prod_type]
    refine Finset.sum_congr rfl fun i _ => ?_
    rw [ih fun c' hc' => hN c' (by simp [hc'])]
    refine Finset.sum_congr rfl fun K _ => ?_
    congr 1
    simp only [List.length_cons, List.ofFn_succ, assign, Fin.consEquiv_apply, Fin.cons_zero, Fin.cons_succ]

theorem getD_idxOf_append (s t : List Char) (v w : List Nat) (h : s.length = v.length) (hn : s.Nodup) :
    s.map (fun c => (v ++ w).getD ((s ++ t).idxOf c) 0) = v := by
  refine List.ext_getElem (by simp [h]) fun i h1 h2 => ?_
  have hi : i < s.length := by simpa using h1
  rw [List.getElem_map, List.idxOf_append_of_mem (List.getElem_mem hi), hn.idxOf_getElem]
  rw [List.getD_eq_getElem?_getD, List.getElem?_append_left h2]
  simp [h2]

theorem getD_idxOf_append' (s t : List Char) (v w : List Nat) (h : s.length = v.length) (hn : (s ++ t).Nodup) (ht : t.length = w.length) :
    t.map (fun c => (v ++ w).getD ((s ++ t).idxOf c) 0) = w := by
  refine List.ext_getElem (by simp [ht]) fun i h1 h2 => ?_
  have hi : i < t.length := by simpa using h1
  have hn' := List.nodup_append.1 hn
  have : t[i] ∉ s := fun hm => hn'.2.2 _ hm _ (List.getElem_mem hi) rfl
  rw [List.getElem_map, List.idxOf_append_of_notMem this, hn'.2.1.idxOf_getElem, h]
  simp [List.getD_eq_getElem?_getD, h2]

/-- The contraction `a c K I, c b K J -> a b I J`. -/
theorem einsum_contract (A N : Nat) (h w : Arr R) (a b c : Char) (ks is js : List Char) (hd : ([a, b, c] ++ ks ++ is ++ js).Nodup)
    (x y : Fin A) (I J : List Nat) (hI : is.length = I.length) (hJ : js.length = J.length) :
    einsum A N [([a, c] ++ ks ++ is, h), ([c, b] ++ ks ++ js, w)] ([a, b] ++ is ++ js) (x.val :: y.val :: (I ++ J)) =
      (∑ K : Fin ks.length → Fin N, mat A h (List.ofFn (fun i => (K i).val) ++ I) * mat A w (List.ofFn (fun i => (K i).val) ++ J)) x y := by
  have hd' := hd
  simp only [List.cons_append, List.nil_append, List.append_assoc, List.nodup_cons, List.mem_cons, List.mem_append, not_or] at hd'
  obtain ⟨⟨ab, ac, ak, ai, aj⟩, ⟨bc, bk, bi, bj⟩, ⟨ck, ci, cj⟩, hn⟩ := hd'
  rw [List.nodup_append] at hn
  obtain ⟨hnk, hnij, hkij⟩ := hn
  have hnij' := List.nodup_append.1 hnij
  have hki : ∀ z ∈ ks, z ∉ is := fun z h1 h2 => hkij z h1 z (by simp [h2]) rfl
  have hkj : ∀ z ∈ ks, z ∉ js := fun z h1 h2 => hkij z h1 z (by simp [h2]) rfl
  unfold einsum
  have hlet : (([([a, c] ++ ks ++ is, h), ([c, b] ++ ks ++ js, w)].flatMap Prod.fst).filter fun z => decide (z ∉ [a, b] ++ is ++ js)).dedup = c :: ks := by
    have hf1 : ∀ s : List Char, (∀ z ∈ s, z ∈ is ∨ z ∈ js) → s.filter (fun z => decide (z ∉ [a, b] ++ is ++ js)) = [] := by
      intro s hs
      rw [List.filter_eq_nil_iff]
      intro z hz
      have := hs z hz
      simp only [decide_eq_true_eq, not_not]
      rcases this with h | h <;> simp [h]
    have hf2 : ks.filter (fun z => decide (z ∉ [a, b] ++ is ++ js)) = ks := by
      rw [List.filter_eq_self]
      intro z hz
      have h1 : z ≠ a := by rintro rfl; exact ak hz
      have h2 : z ≠ b := by rintro rfl; exact bk hz
      simp [h1, h2, hki z hz, hkj z hz]
    have e : [([a, c] ++ ks ++ is, h), ([c, b] ++ ks ++ js, w)].flatMap Prod.fst = [a, c] ++ ks ++ is ++ ([c, b] ++ ks ++ js) := by
      simp
    have hc1 : c ≠ a := fun h => ac h.symm
    have hc2 : c ≠ b := fun h => bc h.symm
    rw [e, List.filter_append, List.filter_append, List.filter_append, List.filter_append, List.filter_append, hf1 is (fun z h => .inl h),
      hf1 js (fun z h => .inr h), hf2]
    have e1 : [a, c].filter (fun z => decide (z ∉ [a, b] ++ is ++ js)) = [c] := by
      simp [hc1, hc2, ci, cj]
    have e2 : [c, b].filter (fun z => decide (z ∉ [a, b] ++ is ++ js)) = [c] := by
      simp [hc1, hc2, ci, cj]
    rw [e1, e2, List.append_nil]
    have hck : (c :: ks).Nodup := List.nodup_cons.2 ⟨ck, hnk⟩
    show ((c :: ks) ++ (c :: ks)).dedup = _
    have : ∀ l l' : List Char, l'.Nodup → (∀ z ∈ l, z ∈ l') → (l ++ l').dedup = l' := by
      intro l l' hl' hl
      induction l with
      | nil => exact List.dedup_eq_self.2 hl'
      | cons z l ih =>
        rw [List.cons_append, List.dedup_cons_of_mem (by simp [hl z (by simp)])]
        exact ih fun z hz => hl z (by simp [hz])
    exact this _ _ hck fun z hz => hz
  rw [hlet]
  have hdimc : axisLength A N [([a, c] ++ ks ++ is, h), ([c, b] ++ ks ++ js, w)] c = A := by
    unfold axisLength
    rw [if_pos (by simp)]
  have hdimk : ∀ z ∈ ks, axisLength A N [([a, c] ++ ks ++ is, h), ([c, b] ++ ks ++ js, w)] z = N := by
    intro z hz
    unfold axisLength
    rw [if_neg]
    have h1 : z ≠ a := by rintro rfl; exact ak hz
    have h2 : z ≠ b := by rintro rfl; exact bk hz
    have h3 : z ≠ c := by rintro rfl; exact ck hz
    simp [h1, h2, h3]
  unfold sumOver
  rw [hdimc]
  set σ : Char → Nat := fun z => (x.val :: y.val :: (I ++ J)).getD (([a, b] ++ is ++ js).idxOf z) 0 with hσ
  have hσa : σ a = x := by simp [hσ]
  have hσb : σ b = y := by
    show (x.val :: y.val :: (I ++ J)).getD ((a :: b :: (is ++ js)).idxOf b) 0 = _
    rw [List.idxOf_cons_ne _ ab, List.idxOf_cons_self]
    rfl
  have hout : ([a, b] ++ is ++ js).Nodup := by
    simp only [List.cons_append, List.nil_append, List.nodup_cons, List.mem_cons, List.mem_append, not_or]
    exact ⟨⟨ab, ai, aj⟩, ⟨bi, bj⟩, hnij⟩
  have hσi : is.map σ = I := by
    have := getD_idxOf_append ([a, b] ++ is) js ([x.val, y.val] ++ I) J (by simp [hI]) (hout.sublist (List.sublist_append_left _ _))
    rw [List.map_append] at this
    exact (List.append_inj this (by simp)).2
  have hσj : js.map σ = J := getD_idxOf_append' ([a, b] ++ is) js ([x.val, y.val] ++ I) J (by simp [hI]) hout hJ
  have hterm : ∀ (z : Fin A) (K : Fin ks.length → Fin N),
      (([([a, c] ++ ks ++ is, h), ([c, b] ++ ks ++ js, w)] : List (List Char × Arr R)).map fun o => o.2 (o.1.map (assign ks (List.ofFn fun i => (K i).val) (Function.update σ c z)))).prod =
        h (x.val :: z.val :: (List.ofFn (fun i => (K i).val) ++ I)) * w (z.val :: y.val :: (List.ofFn (fun i => (K i).val) ++ J)) := by
    intro z K
    set τ := assign ks (List.ofFn fun i => (K i).val) (Function.update σ c z) with hτ
    have t1 : ∀ u, u ∉ ks → u ≠ c → τ u = σ u := by
      intro u h1 h2
      rw [hτ, assign_of_notMem _ _ _ _ h1, Function.update_of_ne h2]
    have t2 : τ c = z := by rw [hτ, assign_of_notMem _ _ _ _ ck, Function.update_self]
    have t3 : ks.map τ = List.ofFn fun i => (K i).val := map_assign ks hnk _ _ (by simp)
    have t4 : is.map τ = I := by
      rw [← hσi]
      exact List.map_congr_left fun u hu => t1 u (fun h => hki u h hu) (by rintro rfl; exact ci hu)
    have t5 : js.map τ = J := by
      rw [← hσj]
      exact List.map_congr_left fun u hu => t1 u (fun h => hkj u h hu) (by rintro rfl; exact cj hu)
    have ta : τ a = x := by rw [t1 a ak ac, hσa]
    have tb : τ b = y := by rw [t1 b bk bc, hσb]
    simp only [List.map_cons, List.map_nil, List.prod_cons, List.prod_nil, mul_one, List.map_append, t3, t4, t5, ta, tb, t2,
      List.cons_append, List.nil_append]
  have hsum : ∀ z : Fin A, sumOver (axisLength A N [([a, c] ++ ks ++ is, h), ([c, b] ++ ks ++ js, w)]) ks (Function.update σ c z.val)
      (fun σ => (([([a, c] ++ ks ++ is, h), ([c, b] ++ ks ++ js, w)] : List (List Char × Arr R)).map fun o => o.2 (o.1.map σ)).prod) =
      ∑ K : Fin ks.length → Fin N, h (x.val :: z.val :: (List.ofFn (fun i => (K i).val) ++ I)) * w (z.val :: y.val :: (List.ofFn (fun i => (K i).val) ++ J)) := by
    intro z
    rw [sumOver_all _ N ks hdimk]
    exact Finset.sum_congr rfl fun K _ => hterm z K
  rw [Finset.sum_congr rfl fun z _ => hsum z, Finset.sum_comm, Matrix.sum_apply]
  refine Finset.sum_congr rfl fun K _ => ?_
  rw [Matrix.mul_apply]
  rfl

end TF.Tensor
