import Verif.Lemmas.Contract

/-! # Lemmas on chains of matrices that share summed modes -/

namespace TF.Tensor

open TF.Spec.Tensor

variable {R : Type} [CommRing R]

theorem sumOver_append (dim : Char → Nat) (l l' : List Char) (σ : Char → Nat) (F : (Char → Nat) → R) :
    sumOver dim (l ++ l') σ F = sumOver dim l σ fun τ => sumOver dim l' τ F := by
  induction l generalizing σ with
  | nil => rfl
  | cons c l ih =>
    rw [List.cons_append]
    unfold sumOver
    exact Finset.sum_congr rfl fun i _ => ih _

theorem sumOver_perm (dim : Char → Nat) {l l' : List Char} (h : l.Perm l') (hn : l.Nodup) (σ : Char → Nat) (F : (Char → Nat) → R) :
    sumOver dim l σ F = sumOver dim l' σ F := by
  induction h generalizing σ with
  | nil => rfl
  | cons c _ ih =>
    unfold sumOver
    exact Finset.sum_congr rfl fun i _ => ih (List.nodup_cons.1 hn).2 _
  | swap a b l =>
    have hab : b ≠ a := fun h => (List.nodup_cons.1 hn).1 (by simp [h])
    unfold sumOver
    unfold sumOver
    rw [Finset.sum_comm]
    refine Finset.sum_congr rfl fun i _ => Finset.sum_congr rfl fun j _ => ?_
    rw [Function.update_comm hab]
  | trans h1 _ ih1 ih2 => rw [ih1 hn, ih2 (h1.nodup_iff.1 hn)]

theorem flatMap_chainOps (b : Char) (mid : List Char) : ∀ (c : Char) (vs : List (List Char)) (xs : List (Arr R)),
    vs.length = mid.length + 1 → xs.length = mid.length + 1 →
    ∀ z, z ∈ (chainOps c mid b vs xs).flatMap Prod.fst ↔ z = c ∨ z = b ∨ z ∈ mid ∨ z ∈ vs.flatten := by
  induction mid with
  | nil =>
    intro c vs xs hv hx z
    obtain ⟨v, rfl⟩ := List.length_eq_one_iff.1 hv
    obtain ⟨X, rfl⟩ := List.length_eq_one_iff.1 hx
    simp [chainOps]
  | cons m mid ih =>
    intro c vs xs hv hx z
    obtain _ | ⟨v, vs⟩ := vs
    · simp at hv
    obtain _ | ⟨X, xs⟩ := xs
    · simp at hx
    simp only [chainOps, List.flatMap_cons, List.mem_append, ih m vs xs (by simpa using hv) (by simpa using hx), List.mem_cons, List.flatten_cons]
    tauto

theorem flatMap_chainOps_take (b : Char) (mid : List Char) : ∀ (c : Char) (vs : List (List Char)) (xs : List (Arr R)),
    vs.length = mid.length + 1 → xs.length = mid.length + 1 →
    ∀ z, z ∈ (chainOps c mid b vs xs).flatMap (fun o => o.1.take 2) ↔ z = c ∨ z = b ∨ z ∈ mid := by
  induction mid with
  | nil =>
    intro c vs xs hv hx z
    obtain ⟨v, rfl⟩ := List.length_eq_one_iff.1 hv
    obtain ⟨X, rfl⟩ := List.length_eq_one_iff.1 hx
    simp [chainOps]
  | cons m mid ih =>
    intro c vs xs hv hx z
    obtain _ | ⟨v, vs⟩ := vs
    · simp at hv
    obtain _ | ⟨X, xs⟩ := xs
    · simp at hx
    simp only [chainOps, List.flatMap_cons, List.mem_append, ih m vs xs (by simpa using hv) (by simpa using hx), List.mem_cons, List.take_succ_cons, List.take_zero,
      List.not_mem_nil, or_false]
    tauto

theorem zipWith_map_congr (A : Nat) (xs : List (Arr R)) (vs : List (List Char)) (τ τ' : Char → Nat) (h : ∀ c ∈ vs.flatten, τ c = τ' c) :
    List.zipWith (fun X v => mat A X (v.map τ)) xs vs = List.zipWith (fun X v => mat A X (v.map τ')) xs vs := by
  induction vs generalizing xs with
  | nil => simp
  | cons v vs ih =>
    cases xs with
    | nil => rfl
    | cons X xs =>
      rw [List.zipWith_cons_cons, List.zipWith_cons_cons, ih xs fun c hc => h c (by rw [List.flatten_cons]; exact List.mem_append_right _ hc)]
      congr 2
      exact List.map_congr_left fun c hc => h c (by rw [List.flatten_cons]; exact List.mem_append_left _ hc)

theorem eq_of_map_eq {S : List Char} {τ τ' : Char → Nat} (h : S.map τ = S.map τ') : ∀ c ∈ S, τ c = τ' c := List.map_inj_left.1 h

/-- An einsum over a chain of matrices: the letters `S` are summed over the modes, the letters `X` are the modes of the result. -/
theorem einsum_chain (A N : Nat) (a b : Char) (mid S X : List Char) (vs : List (List Char)) (xs : List (Arr R))
    (hv : vs.length = mid.length + 1) (hx : xs.length = mid.length + 1) (hd : (a :: b :: mid).Nodup) (hS : S.Nodup) (hX : X.Nodup)
    (hSX : ∀ z ∈ S, z ∉ X) (hSm : ∀ z ∈ a :: b :: mid, z ∉ S) (hXm : ∀ z ∈ a :: b :: mid, z ∉ X)
    (hvs : ∀ z, z ∈ vs.flatten ∨ z ∈ X ↔ z ∈ S ∨ z ∈ X) (x y : Fin A) (v : List Nat) (hvl : X.length = v.length)
    (τ : (Fin S.length → Fin N) → Char → Nat) (hτS : ∀ K, S.map (τ K) = List.ofFn fun i => (K i).val) (hτX : ∀ K, X.map (τ K) = v) :
    einsum A N (chainOps a mid b vs xs) ([a, b] ++ X) (x.val :: y.val :: v) =
      (∑ K : Fin S.length → Fin N, (List.zipWith (fun Y w => mat A Y (w.map (τ K))) xs vs).prod) x y := by
  have hd' := hd
  simp only [List.nodup_cons, List.mem_cons, not_or] at hd'
  obtain ⟨⟨ab, am⟩, bm, hmid⟩ := hd'
  have hmvs : ∀ m ∈ a :: b :: mid, m ∉ vs.flatten := by
    intro m hm h
    rcases (hvs m).1 (.inl h) with h | h
    · exact hSm m hm h
    · exact hXm m hm h
  unfold einsum
  have hlet : (((chainOps a mid b vs xs).flatMap Prod.fst).filter fun z => decide (z ∉ [a, b] ++ X)).dedup.Perm (S ++ mid) := by
    rw [List.perm_ext_iff_of_nodup (List.nodup_dedup _) (List.nodup_append.2 ⟨hS, hmid, fun z h1 w h2 e => hSm w (by simp [h2]) (e ▸ h1)⟩)]
    intro z
    rw [List.mem_dedup, List.mem_filter, flatMap_chainOps b mid a vs xs hv hx]
    simp only [decide_eq_true_eq, List.mem_append, List.mem_cons, List.not_mem_nil, or_false, not_or]
    constructor
    · rintro ⟨h, ⟨ha, hb⟩, hX'⟩
      rcases h with h | h | h | h
      · exact absurd h ha
      · exact absurd h hb
      · exact .inr h
      · rcases (hvs z).1 (.inl h) with h | h
        · exact .inl h
        · exact absurd h hX'
    · rintro (h | h)
      · have hzX := hSX z h
        refine ⟨?_, ⟨fun e => hSm z (by simp [e]) h, fun e => hSm z (by simp [e]) h⟩, hzX⟩
        rcases (hvs z).2 (.inl h) with h | h
        · exact .inr (.inr (.inr h))
        · exact absurd h hzX
      · exact ⟨.inr (.inr (.inl h)), ⟨fun e => am (e ▸ h), fun e => bm (e ▸ h)⟩, hXm z (by simp [h])⟩
  rw [sumOver_perm _ hlet (List.nodup_dedup _), sumOver_append]
  have hdimm : ∀ z ∈ mid, axisLength A N (chainOps a mid b vs xs) z = A := by
    intro z hz
    unfold axisLength
    rw [if_pos ((flatMap_chainOps_take b mid a vs xs hv hx z).2 (.inr (.inr hz)))]
  have hdimS : ∀ z ∈ S, axisLength A N (chainOps a mid b vs xs) z = N := by
    intro z hz
    unfold axisLength
    rw [if_neg]
    rw [flatMap_chainOps_take b mid a vs xs hv hx z]
    intro h
    exact hSm z (by simpa [List.mem_cons] using h) hz
  rw [sumOver_all _ N S hdimS, Matrix.sum_apply]
  refine Finset.sum_congr rfl fun K _ => ?_
  set σ : Char → Nat := fun z => (x.val :: y.val :: v).getD (([a, b] ++ X).idxOf z) 0 with hσ
  have hσa : σ a = x := by simp [hσ]
  have hσb : σ b = y := by
    show (x.val :: y.val :: v).getD ((a :: b :: X).idxOf b) 0 = _
    rw [List.idxOf_cons_ne _ ab, List.idxOf_cons_self]
    rfl
  have hout : ([a, b] ++ X).Nodup := by
    simp only [List.cons_append, List.nil_append, List.nodup_cons, List.mem_cons, not_or]
    exact ⟨⟨ab, hXm a (by simp)⟩, hXm b (by simp), hX⟩
  have hσX : X.map σ = v := getD_idxOf_append' [a, b] X [x.val, y.val] v rfl hout hvl
  have n1 : ∀ u, u ∉ S → assign S (List.ofFn fun i => (K i).val) σ u = σ u := fun u h => assign_of_notMem _ _ _ _ h
  rw [chain_sum' A _ b mid a vs xs _ hv hx hd (fun m hm => hmvs m (by simp [hm])) hdimm x y
    (by rw [n1 a (hSm a (by simp)), hσa]) (by rw [n1 b (hSm b (by simp)), hσb])]
  refine congrArg (fun l : List (Matrix (Fin A) (Fin A) R) => l.prod x y) (zipWith_map_congr A xs vs _ _ ?_)
  intro c hc
  rcases (hvs c).1 (.inl hc) with h | h
  · refine eq_of_map_eq ?_ c h
    rw [hτS, map_assign S hS _ _ (by simp)]
  · rw [n1 c fun h' => hSX c h' h]
    refine eq_of_map_eq ?_ c h
    rw [hτX, hσX]

omit [CommRing R] in
/-- pairing the groups of subscripts with the operands -/
theorem chain_zip (b : Char) (mid : List Char) : ∀ (c : Char) (vs : List (List Char)) (xs : List (Arr R)), vs.length = mid.length + 1 → xs.length = mid.length + 1 →
    (List.zipWith (· ++ ·) (List.zipWith (fun p q => [p, q]) (c :: mid) (mid ++ [b])) vs).zip xs = chainOps c mid b vs xs := by
  induction mid with
  | nil =>
    intro c vs xs hv hx
    obtain ⟨v, rfl⟩ := List.length_eq_one_iff.1 hv
    obtain ⟨X, rfl⟩ := List.length_eq_one_iff.1 hx
    rfl
  | cons m mid ih =>
    intro c vs xs hv hx
    obtain _ | ⟨v, vs⟩ := vs
    · simp at hv
    obtain _ | ⟨X, xs⟩ := xs
    · simp at hx
    simp only [List.cons_append, List.zipWith_cons_cons, List.zip_cons_cons, chainOps]
    rw [← ih m vs xs (by simpa using hv) (by simpa using hx)]
    rfl

end TF.Tensor
