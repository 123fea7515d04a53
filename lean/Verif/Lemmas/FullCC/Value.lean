import Verif.Lemmas.Chain
import Verif.Lemmas.FullCC.Python
import Verif.Spec.FullCCValue

/-! # Lemmas on the values of the einsums of a ground-state full-CC term -/

namespace TF.CC

open TF.Py TF.Spec TF.Spec.CCRun TF.Spec.Tensor TF.Tensor TF.Helper

variable {R : Type} [CommRing R] [Algebra Rat R]

/-- the letters of the amplitudes of a ground-state term -/
def gl : List T → Nat → Nat → List (List Char × List Char)
  | [], _, _ => []
  | x :: ts, u, e => ((summationIdx.drop u).take x.m_h, (unlinkedIdx.drop e).take x.m_o) :: gl ts (u + x.m_h) (e + x.m_o)

theorem length_gl (ts : List T) (u e : Nat) : (gl ts u e).length = ts.length := by
  induction ts generalizing u e with
  | nil => rfl
  | cons x ts ih => simp [gl, ih]

theorem slice_eq {α : Type} (l : List α) (a b : Nat) : slice l a (a + b) = (l.drop a).take b := by
  unfold slice
  rw [List.drop_take]
  congr 1
  omega

theorem pyTLoop_gs (ts : List T) (u : Nat) (w : Nat) (e : Nat) (h : ∀ x ∈ ts, x.n_h = 0 ∧ x.n_o = 0) :
    pyTLoop ts ⟨u, w, e⟩ = gl ts u e := by
  induction ts generalizing u w e with
  | nil => rfl
  | cons x ts ih =>
    obtain ⟨h1, h2⟩ := h x (by simp)
    have ih := ih (u + x.m_h) w (e + x.m_o) fun x hx => h x (by simp [hx])
    by_cases hz : x.m_h = 0 ∧ x.m_o = 0
    · unfold pyTLoop gl pyTLabels
      rw [hz.1, hz.2] at ih ⊢
      simpa [h1, h2, hz.1, hz.2, slice_eq] using ih
    · have : (decide (x.m_h > 0) || decide (x.m_o > 0)) = true := by
        simp only [gt_iff_lt, Bool.or_eq_true, decide_eq_true_eq]
        omega
      unfold pyTLoop gl pyTLabels
      simp only [h1, h2, this, if_true, gt_iff_lt, Nat.lt_irrefl, decide_false, Bool.or_self, Bool.false_eq_true, if_false, List.nil_append, slice_eq]
      rw [ih]

theorem gl_ext (ts : List T) (u e : Nat) : (gl ts u e).flatMap Prod.snd = (unlinkedIdx.drop e).take (ts.map T.m_o).sum := by
  induction ts generalizing u e with
  | nil => simp [gl]
  | cons x ts ih =>
    simp only [gl, List.flatMap_cons, List.map_cons, List.sum_cons]
    rw [ih, List.take_add, List.drop_drop]

theorem gl_sum (ts : List T) (u e : Nat) : (gl ts u e).flatMap Prod.fst = (summationIdx.drop u).take (ts.map T.m_h).sum := by
  induction ts generalizing u e with
  | nil => simp [gl]
  | cons x ts ih =>
    simp only [gl, List.flatMap_cons, List.map_cons, List.sum_cons]
    rw [ih, List.take_add, List.drop_drop]

theorem vibrational_gs (h : HC) (ts : List T) (hr : h.rank = h.m + h.n) (hm : h.m = h.m_o) (hn : h.n_o = 0) (hts : ∀ x ∈ ts, x.n_h = 0 ∧ x.n_o = 0) :
    vibrational h ts = ((summationIdx.take h.n ++ unlinkedIdx.take h.m) :: (gl ts 0 h.m).map (fun p => p.1 ++ p.2),
      unlinkedIdx.take (h.m + (ts.map T.m_o).sum)) := by
  have hp : pyHLabels h = (summationIdx.take h.n, unlinkedIdx.take h.m) := by
    unfold pyHLabels
    split
    · have h1 : h.m = 0 := by omega
      have h2 : h.n = 0 := by omega
      rw [h1, h2]
      rfl
    · have := slice_eq unlinkedIdx 0 h.m
      simp only [Nat.zero_add, List.drop_zero] at this
      have := slice_eq summationIdx 0 h.n
      simp only [Nat.zero_add, List.drop_zero] at this
      simp [← hm, hn, slice_eq, slice, this]
  unfold vibrational pyTGroup
  rw [hp, hm.symm, hn, Nat.sub_self, Nat.add_zero, pyTLoop_gs ts 0 0 h.m hts]
  simp only []
  rw [gl_ext, List.take_add]

theorem map_take_drop (l : List Char) (τ : Char → Nat) (n u m : Nat) (h : u + m ≤ n) :
    ((l.drop u).take m).map τ = (((l.take n).map τ).drop u).take m := by
  rw [← List.map_drop, ← List.map_take, List.drop_take, List.take_take, Nat.min_eq_left (by omega)]

/-- the matrices of the amplitudes, for given values of the letters -/
theorem gl_amps (A : Nat) (t : Nat × Nat → Arr R) (τ : Char → Nat) (n k : Nat) (ts : List T) (u e : Nat) (hts : ∀ x ∈ ts, x.n_h = 0 ∧ x.n_o = 0)
    (hu : u + (ts.map T.m_h).sum ≤ n) (he : e + (ts.map T.m_o).sum ≤ k) :
    (ts.zip ((gl ts u e).map fun p => p.1 ++ p.2)).map (fun p => mat A (t (tKey p.1)) (p.2.map τ)) =
      amps A t ts (((summationIdx.take n).map τ).drop u) (((unlinkedIdx.take k).map τ).drop e) := by
  induction ts generalizing u e with
  | nil => rfl
  | cons x ts ih =>
    simp only [List.map_cons, List.sum_cons] at hu he
    obtain ⟨h1, h2⟩ := hts x (by simp)
    simp only [gl, List.map_cons, List.zip_cons_cons, amps]
    rw [ih (u + x.m_h) (e + x.m_o) (fun x hx => hts x (by simp [hx])) (by omega) (by omega), List.map_append, map_take_drop _ τ n u _ (by omega),
      map_take_drop _ τ k e _ (by omega), List.drop_drop, List.drop_drop]
    unfold tKey
    rw [h1, h2]

theorem zipWith_zip_map (A : Nat) (t : Nat × Nat → Arr R) (τ : Char → Nat) (o : List (T × List Char)) :
    List.zipWith (fun Y w => mat A Y (w.map τ)) ((o.map fun p => tKey p.1).map t) (o.map Prod.snd) = o.map fun p => mat A (t (tKey p.1)) (p.2.map τ) := by
  induction o with
  | nil => rfl
  | cons p o ih => simp only [List.map_cons, List.zipWith_cons_cons, ih]

theorem or_letters {p q r : Prop} : ((p ∨ q) ∨ p ∨ r) ∨ q ∨ r ↔ p ∨ q ∨ r := by tauto

/-- the value of the einsum for one order of the operands -/
theorem item_value (A N : Nat) (h t : Nat × Nat → Arr R) (c : HC) (ts : List T) (hr : c.rank = c.m + c.n) (hm : c.m = c.m_o) (hn : c.n_o = 0)
    (hts : ∀ x ∈ ts, x.n_h = 0 ∧ x.n_o = 0) (hsum : c.n = (ts.map T.m_h).sum) (h6 : ts.length ≤ 6) (h10 : c.n ≤ 10) (h8 : c.m + (ts.map T.m_o).sum ≤ 8)
    (o : List (T × List Char)) (ho : o.Perm (ts.zip (vibrational c ts).1.tail)) (x y : Fin A) (v : List Nat) (hv : v.length = c.m + (ts.map T.m_o).sum)
    (τ : (Fin c.n → Fin N) → Char → Nat) (hτ : ∀ K, τ K = TF.Tensor.assign (summationIdx.take c.n ++ unlinkedIdx.take (c.m + (ts.map T.m_o).sum)) (List.ofFn (fun i => (K i).val) ++ v) 0) :
    itemValue A N h t (mkE c ts (List.zipWith (fun p q => [p, q]) ('a' :: surfaceIdx.take ts.length) (surfaceIdx.take ts.length ++ ['b'])) o) (x.val :: y.val :: v) =
      (∑ K : Fin c.n → Fin N, mat A (h (c.m, c.n)) (List.ofFn (fun i => (K i).val) ++ v.take c.m) *
        (o.map fun p => mat A (t (tKey p.1)) (p.2.map (τ K))).prod) x y := by
  have hvib := vibrational_gs c ts hr hm hn hts
  set X := unlinkedIdx.take (c.m + (ts.map T.m_o).sum) with hX
  set S := summationIdx.take c.n with hS
  set mid := surfaceIdx.take ts.length with hmid
  have hSl : S.length = c.n := by rw [hS, List.length_take]; exact Nat.min_eq_left h10
  have hXl : X.length = v.length := by rw [hX, List.length_take, hv]; exact Nat.min_eq_left h8
  have hml : mid.length = ts.length := by rw [hmid, List.length_take]; exact Nat.min_eq_left h6
  have hol : o.length = ts.length := by rw [ho.length_eq, List.length_zip, vibrational_tail, Nat.min_self]
  have hall : (summationIdx ++ unlinkedIdx ++ ('a' :: 'b' :: surfaceIdx)).Nodup := by decide
  have hSs : ∀ z ∈ S, z ∈ summationIdx := fun z h => List.mem_of_mem_take h
  have hXs : ∀ z ∈ X, z ∈ unlinkedIdx := fun z h => List.mem_of_mem_take h
  have hms : ∀ z ∈ 'a' :: 'b' :: mid, z ∈ 'a' :: 'b' :: surfaceIdx := by
    intro z hz
    simp only [List.mem_cons] at hz ⊢
    rcases hz with h | h | h
    · exact .inl h
    · exact .inr (.inl h)
    · exact .inr (.inr (List.mem_of_mem_take h))
  have hSn : S.Nodup := (show summationIdx.Nodup by decide).sublist (List.take_sublist _ _)
  have hXn : X.Nodup := (show unlinkedIdx.Nodup by decide).sublist (List.take_sublist _ _)
  have hSX : ∀ z ∈ S, z ∉ X := fun z h1 h2 => (List.nodup_append.1 (List.nodup_append.1 hall).1).2.2 z (hSs z h1) z (hXs z h2) rfl
  have hτS : ∀ K, S.map (τ K) ++ X.map (τ K) = List.ofFn (fun i => (K i).val) ++ v := by
    intro K
    rw [hτ K, ← List.map_append]
    exact map_assign (S ++ X) (List.nodup_append.2 ⟨hSn, hXn, fun a h1 b h2 e => hSX a h1 (e ▸ h2)⟩) _ _ (by simp [hSl, hXl])
  have hτS' : ∀ K, S.map (τ K) = List.ofFn (fun i => (K i).val) := fun K => (List.append_inj (hτS K) (by simp [hSl])).1
  have hτX : ∀ K, X.map (τ K) = v := fun K => (List.append_inj (hτS K) (by simp [hSl])).2
  have e1 : itemValue A N h t (mkE c ts (List.zipWith (fun p q => [p, q]) ('a' :: mid) (mid ++ ['b'])) o) (x.val :: y.val :: v) =
      einsum A N (chainOps 'a' mid 'b' ((S ++ unlinkedIdx.take c.m) :: o.map Prod.snd) (h (c.m, c.n) :: (o.map fun p => tKey p.1).map t)) (['a', 'b'] ++ X)
        (x.val :: y.val :: v) := by
    unfold itemValue mkE glue
    rw [hvib]
    simp only [List.headD_cons]
    rw [chain_zip 'b' mid 'a' _ _ (by simp [hml, hol]) (by simp [hml, hol])]
  rw [e1]
  have key := einsum_chain A N 'a' 'b' mid S X ((S ++ unlinkedIdx.take c.m) :: o.map Prod.snd) (h (c.m, c.n) :: (o.map fun p => tKey p.1).map t)
    (by simp [hml, hol]) (by simp [hml, hol])
    ((show ('a' :: 'b' :: surfaceIdx).Nodup by decide).sublist (.cons_cons _ (.cons_cons _ (List.take_sublist _ _)))) hSn hXn hSX
    (fun z h1 h2 => (List.nodup_append.1 hall).2.2 z (by simp [hSs z h2]) z (hms z h1) rfl)
    (fun z h1 h2 => (List.nodup_append.1 hall).2.2 z (by simp [hXs z h2]) z (hms z h1) rfl) ?_ x y v hXl
    (fun K => τ fun i => K (Fin.cast hSl.symm i)) ?_ (fun K => hτX _)
  · rw [key]
    refine congrFun (congrFun (?_ : (_ : Matrix (Fin A) (Fin A) R) = _) x) y
    refine Fintype.sum_equiv (Equiv.arrowCongr (finCongr hSl) (Equiv.refl _)) _ _ fun K => ?_
    have hK : (Equiv.arrowCongr (finCongr hSl) (Equiv.refl (Fin N))) K = fun i => K (Fin.cast hSl.symm i) := rfl
    rw [hK, List.zipWith_cons_cons, List.prod_cons, zipWith_zip_map, List.map_append, hτS']
    have : (unlinkedIdx.take c.m).map (τ fun i => K (Fin.cast hSl.symm i)) = v.take c.m := by
      have := map_take_drop unlinkedIdx (τ fun i => K (Fin.cast hSl.symm i)) (c.m + (ts.map T.m_o).sum) 0 c.m (by omega)
      rw [List.drop_zero, List.drop_zero, ← hX, hτX] at this
      exact this
    rw [this]
  · intro z
    have hz : z ∈ (o.map Prod.snd).flatten ↔ z ∈ S ∨ z ∈ (unlinkedIdx.drop c.m).take (ts.map T.m_o).sum := by
      have hp := ((ho.map Prod.snd).flatten).mem_iff (a := z)
      rw [zip_snd, hvib] at hp
      rw [hp, ← gl_ext ts 0 c.m, hS, hsum]
      have := gl_sum ts 0 c.m
      rw [List.drop_zero] at this
      rw [← this]
      simp only [List.tail_cons, List.mem_flatten, List.mem_map, List.mem_flatMap]
      constructor
      · rintro ⟨l, ⟨p, hp, rfl⟩, hz⟩
        rcases List.mem_append.1 hz with h | h
        · exact .inl ⟨p, hp, h⟩
        · exact .inr ⟨p, hp, h⟩
      · rintro (⟨p, hp, h⟩ | ⟨p, hp, h⟩)
        · exact ⟨_, ⟨p, hp, rfl⟩, List.mem_append_left _ h⟩
        · exact ⟨_, ⟨p, hp, rfl⟩, List.mem_append_right _ h⟩
    have hX2 : z ∈ X ↔ z ∈ unlinkedIdx.take c.m ∨ z ∈ (unlinkedIdx.drop c.m).take (ts.map T.m_o).sum := by
      rw [hX, List.take_add, List.mem_append]
    rw [List.flatten_cons, List.mem_append, List.mem_append, hz, hX2]
    exact or_letters
  · intro K
    rw [hτS']
    refine List.ext_getElem (by simp [hSl]) fun i h1 h2 => ?_
    simp

end TF.CC

namespace TF.CC

open TF.Py TF.Spec TF.Spec.CCRun TF.Spec.Tensor TF.Tensor TF.Helper

variable {R : Type} [CommRing R] [Algebra Rat R]

theorem pick_eq_map {α : Type} (l : List α) (d : α) (p : List Nat) (h : ∀ i ∈ p, i < l.length) : pick l p = .ok (p.map fun i => l.getD i d) := by
  induction p with
  | nil => rfl
  | cons i p ih =>
    have hi : i < l.length := h i (by simp)
    unfold pick
    rw [List.getElem?_eq_getElem hi, ih fun j hj => h j (by simp [hj])]
    simp [List.getD_eq_getElem?_getD, hi]

theorem map_getD_range {α : Type} (l : List α) (d : α) : (List.range l.length).map (fun i => l.getD i d) = l := by
  refine List.ext_getElem (by simp) fun i h1 h2 => ?_
  simp [List.getD_eq_getElem?_getD, h2]

/-- the orders of the operands of a term with at least two amplitudes are all orders -/
theorem orders_perm (h : HC) (ts : List T) :
    ((uniquePermutations lexLe (List.range ts.length)).map (orderOf h ts)).Perm (ts.zip (vibrational h ts).1.tail).permutations := by
  set Z := ts.zip (vibrational h ts).1.tail with hZ
  have hl : Z.length = ts.length := by rw [hZ, List.length_zip, vibrational_tail, Nat.min_self]
  have h1 : (uniquePermutations lexLe (List.range ts.length)).Perm (List.range ts.length).permutations := by
    rw [List.perm_ext_iff_of_nodup (by
      unfold uniquePermutations
      exact (sortBy_perm lexLe _).nodup_iff.2 (List.nodup_dedup _)) (List.nodup_permutations _ List.nodup_range)]
    intro a
    rw [uniquePermutations_exact, List.mem_permutations]
  have h2 : (List.range ts.length).permutations.map (orderOf h ts) =
      (List.range ts.length).permutations.map (List.map fun i => Z.getD i (⟨0, 0, 0, 0⟩, [])) := by
    refine List.map_congr_left fun p hp => ?_
    rw [List.mem_permutations] at hp
    unfold orderOf
    rw [pick_eq_map Z (⟨0, 0, 0, 0⟩, []) p fun i hi => by rw [hl]; exact List.mem_range.1 (hp.mem_iff.1 hi)]
  have h3 := h1.map (orderOf h ts)
  rw [h2, List.map_permutations, ← hl, map_getD_range] at h3
  rw [← hl]
  exact h3

theorem list_sum_matrix {A : Nat} {ι : Type} (l : List ι) (f : ι → Matrix (Fin A) (Fin A) R) (x y : Fin A) : (l.map f).sum x y = (l.map fun i => f i x y).sum := by
  induction l with
  | nil => rfl
  | cons a l ih => simp only [List.map_cons, List.sum_cons, Matrix.add_apply, ih]

theorem list_sum_finset {M ι κ : Type} [AddCommMonoid M] [Fintype κ] (l : List ι) (f : ι → κ → M) :
    (l.map fun i => ∑ K, f i K).sum = ∑ K, (l.map fun i => f i K).sum := by
  induction l with
  | nil => simp
  | cons a l ih => simp only [List.map_cons, List.sum_cons, ih, Finset.sum_add_distrib]

theorem permutations_one {α : Type} (a : α) : [a].permutations = [[a]] := by
  have h : [a].permutations.length = 1 := List.length_permutations [a]
  obtain ⟨l, hl⟩ := List.length_eq_one_iff.1 h
  have : l ∈ [a].permutations := by rw [hl]; simp
  rw [hl, List.perm_singleton.1 (List.mem_permutations.1 this)]

/-- the sum of the einsums of a term -/
theorem items_value (A N : Nat) (h t : Nat × Nat → Arr R) (c : HC) (ts : List T) (hne : ts ≠ []) (hr : c.rank = c.m + c.n) (hm : c.m = c.m_o) (hn : c.n_o = 0)
    (hts : ∀ x ∈ ts, x.n_h = 0 ∧ x.n_o = 0) (hsum : c.n = (ts.map T.m_h).sum) (h6 : ts.length ≤ 6) (h10 : c.n ≤ 10) (h8 : c.m + (ts.map T.m_o).sum ≤ 8)
    (es : List Einsum) (hes : einsums c ts = .ok es) (x y : Fin A) (v : List Nat) (hv : v.length = c.m + (ts.map T.m_o).sum) :
    (es.map fun e => itemValue A N h t e (x.val :: y.val :: v)).sum =
      ((if ts.length = 1 then v.length.factorial else 1) • ∑ K : Fin c.n → Fin N,
        mat A (h (c.m, c.n)) (List.ofFn (fun i => (K i).val) ++ v.take c.m) *
          ((amps A t ts (List.ofFn fun i => (K i).val) (v.drop c.m)).permutations.map List.prod).sum) x y := by
  obtain ⟨os, o1, o2, o3, o4, _⟩ := items_orders c ts hne h6 hr _ (electronic_ok _ h6)
  rw [hes] at o4
  cases o4
  set τ : (Fin c.n → Fin N) → Char → Nat := fun K =>
    TF.Tensor.assign (summationIdx.take c.n ++ unlinkedIdx.take (c.m + (ts.map T.m_o).sum)) (List.ofFn (fun i => (K i).val) ++ v) 0 with hτ
  have hτS : ∀ K, (summationIdx.take c.n).map (τ K) ++ (unlinkedIdx.take (c.m + (ts.map T.m_o).sum)).map (τ K) = List.ofFn (fun i => (K i).val) ++ v := by
    intro K
    rw [hτ, ← List.map_append]
    have hall : (summationIdx ++ unlinkedIdx).Nodup := by decide
    have l1 : (summationIdx.take c.n).length = c.n := by rw [List.length_take]; exact Nat.min_eq_left h10
    have l2 : (unlinkedIdx.take (c.m + (ts.map T.m_o).sum)).length = v.length := by rw [List.length_take, hv]; exact Nat.min_eq_left h8
    exact map_assign _ (hall.sublist ((List.take_sublist _ _).append (List.take_sublist _ _))) _ _ (by simp [l1, l2])
  have l1 : (summationIdx.take c.n).length = c.n := by rw [List.length_take]; exact Nat.min_eq_left h10
  have hτ1 : ∀ K, (summationIdx.take c.n).map (τ K) = List.ofFn (fun i => (K i).val) := fun K => (List.append_inj (hτS K) (by rw [List.length_map, List.length_ofFn, l1])).1
  have hτ2 : ∀ K, (unlinkedIdx.take (c.m + (ts.map T.m_o).sum)).map (τ K) = v := fun K => (List.append_inj (hτS K) (by rw [List.length_map, List.length_ofFn, l1])).2
  have hamps : ∀ K, (ts.zip (vibrational c ts).1.tail).map (fun p => mat A (t (tKey p.1)) (p.2.map (τ K))) =
      amps A t ts (List.ofFn fun i => (K i).val) (v.drop c.m) := by
    intro K
    rw [vibrational_gs c ts hr hm hn hts, List.tail_cons, gl_amps A t (τ K) c.n (c.m + (ts.map T.m_o).sum) ts 0 c.m hts (by omega) (by omega), hτ1, hτ2,
      List.drop_zero]
  have hitem : ∀ o ∈ os, itemValue A N h t (mkE c ts (List.zipWith (fun p q => [p, q]) ('a' :: surfaceIdx.take ts.length) (surfaceIdx.take ts.length ++ ['b'])) o)
      (x.val :: y.val :: v) = (∑ K : Fin c.n → Fin N, mat A (h (c.m, c.n)) (List.ofFn (fun i => (K i).val) ++ v.take c.m) *
        (o.map fun p => mat A (t (tKey p.1)) (p.2.map (τ K))).prod) x y := fun o ho =>
    item_value A N h t c ts hr hm hn hts hsum h6 h10 h8 o (o2 o ho) x y v hv τ fun K => rfl
  have hitem' := congrArg List.sum (List.map_congr_left hitem)
  rw [← list_sum_matrix os (fun o => ∑ K : Fin c.n → Fin N, mat A (h (c.m, c.n)) (List.ofFn (fun i => (K i).val) ++ v.take c.m) *
        (o.map fun p => mat A (t (tKey p.1)) (p.2.map (τ K))).prod)] at hitem'
  rw [List.map_map]
  refine hitem'.trans ?_
  refine congrArg (fun M : Matrix (Fin A) (Fin A) R => M x y) ?_
  by_cases h1 : ts.length = 1
  · rw [if_pos h1]
    obtain ⟨a, rfl⟩ := List.length_eq_one_iff.1 h1
    have hos : os = List.replicate v.length.factorial ([a].zip (vibrational c [a]).1.tail) := by
      rw [List.eq_replicate_iff]
      constructor
      · rw [o1]
        unfold itemCount
        rw [if_pos h1, length_uniquePermutations, vibrational_gs c _ hr hm hn hts, List.length_take, hv]
        · congr 1
          exact Nat.min_eq_left h8
        · rw [vibrational_gs c _ hr hm hn hts]
          exact (show unlinkedIdx.Nodup by decide).sublist (List.take_sublist _ _)
      · intro o ho
        have := o2 o ho
        have hl : ([a].zip (vibrational c [a]).1.tail).length = 1 := by rw [List.length_zip, vibrational_tail]; rfl
        obtain ⟨z, hz⟩ := List.length_eq_one_iff.1 hl
        rw [hz] at this ⊢
        exact List.perm_singleton.1 this
    rw [hos, List.map_replicate, List.sum_replicate]
    congr 1
    refine Finset.sum_congr rfl fun K _ => ?_
    rw [hamps K]
    simp [amps, permutations_one]
  · rw [if_neg h1, one_smul]
    have h2 : 2 ≤ ts.length := by
      have : ts.length ≠ 0 := fun h => hne (List.length_eq_zero_iff.1 h)
      omega
    rw [o3 h2, ((orders_perm c ts).map _).sum_eq, list_sum_finset]
    refine Finset.sum_congr rfl fun K _ => ?_
    rw [← hamps K, ← List.map_permutations, List.map_map, List.sum_map_mul_left]
    rfl

end TF.CC
