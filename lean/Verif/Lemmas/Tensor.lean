import Verif.Spec.Tensor
import Mathlib.GroupTheory.Perm.DomMulAct
import Mathlib.Logic.Equiv.Fintype
import Mathlib.Tactic.Ring

/-! # Lemmas about einsum and symmetrisation -/

namespace TF.Tensor

open TF.Spec.Tensor

variable {R : Type} [CommRing R]

/-! ## Sums over letters -/

theorem sumOver_congr (dim : Char → Nat) (cs : List Char) (σ : Char → Nat) (F G : (Char → Nat) → R)
    (h : ∀ τ : Char → Nat, (∀ c, c ∉ cs → τ c = σ c) → F τ = G τ) : sumOver dim cs σ F = sumOver dim cs σ G := by
  induction cs generalizing σ with
  | nil => exact h σ fun _ _ => rfl
  | cons c cs ih =>
    unfold sumOver
    refine Finset.sum_congr rfl fun i _ => ih _ fun τ hτ => h τ fun d hd => ?_
    rw [hτ d (fun h => hd (List.mem_cons_of_mem _ h)), Function.update_of_ne (by rintro rfl; exact hd List.mem_cons_self)]

theorem sumOver_mul (dim : Char → Nat) (cs : List Char) (σ : Char → Nat) (x : R) (F : (Char → Nat) → R) :
    sumOver dim cs σ (fun τ => x * F τ) = x * sumOver dim cs σ F := by
  induction cs generalizing σ with
  | nil => rfl
  | cons c cs ih =>
    unfold sumOver
    rw [Finset.mul_sum]
    exact Finset.sum_congr rfl fun i _ => ih _

/-- The letters of a chain: the operand `j` has the letters `c_j`, `c_(j+1)` and its vibrational ones. -/
def chainOps (c : Char) : List Char → Char → List (List Char) → List (Arr R) → List (List Char × Arr R)
  | [], b, [v], [x] => [(c :: b :: v, x)]
  | m :: mid, b, v :: vs, x :: xs => (c :: m :: v, x) :: chainOps m mid b vs xs
  | _, _, _, _ => []

theorem chain_sum' (A : Nat) (dim : Char → Nat) (b : Char) (mid : List Char) : ∀ (c : Char) (vs : List (List Char)) (xs : List (Arr R)) (σ : Char → Nat)
    (_ : vs.length = mid.length + 1) (_ : xs.length = mid.length + 1) (_ : (c :: b :: mid).Nodup) (_ : ∀ m ∈ mid, m ∉ vs.flatten)
    (_ : ∀ m ∈ mid, dim m = A) (x y : Fin A) (_ : σ c = x) (_ : σ b = y),
    sumOver dim mid σ (fun τ => ((chainOps c mid b vs xs).map fun o => o.2 (o.1.map τ)).prod) =
      (List.zipWith (fun X v => mat A X (v.map σ)) xs vs).prod x y := by
  induction mid with
  | nil =>
    intro c vs xs σ hv hx hd hm hA x y hc hb
    obtain ⟨v, rfl⟩ := List.length_eq_one_iff.1 hv
    obtain ⟨X, rfl⟩ := List.length_eq_one_iff.1 hx
    simp [sumOver, chainOps, mat, hc, hb]
  | cons m mid ih =>
    intro c vs xs σ hv hx hd hm hA x y hc hb
    obtain _ | ⟨v, vs⟩ := vs
    · simp at hv
    obtain _ | ⟨X, xs⟩ := xs
    · simp at hx
    have hv' : vs.length = mid.length + 1 := by simpa using hv
    have hx' : xs.length = mid.length + 1 := by simpa using hx
    simp only [List.nodup_cons, List.mem_cons, not_or] at hd
    obtain ⟨⟨c1, c2, c3⟩, ⟨b1, b2⟩, m1, hmid⟩ := hd
    have m2 : m ∉ v := fun h => hm m (by simp) (by simp [h])
    have m3 : m ∉ vs.flatten := fun h => hm m (by simp) (by rw [List.flatten_cons]; exact List.mem_append_right _ h)
    have m4 : ∀ d ∈ mid, d ∉ v := fun d hd h => hm d (by simp [hd]) (by simp [h])
    unfold sumOver
    simp only [List.zipWith_cons_cons, List.prod_cons, Matrix.mul_apply]
    have hdim := hA m List.mem_cons_self
    rw [← (finCongr hdim).sum_comp]
    refine Finset.sum_congr rfl fun i _ => ?_
    have hi : ((finCongr hdim i : Fin A) : Nat) = i := rfl
    have hup : ∀ d, d ≠ m → Function.update σ m i.val d = σ d := fun d h => Function.update_of_ne h _ _
    have e1 : ∀ τ : Char → Nat, (∀ d, d ∉ mid → τ d = Function.update σ m i.val d) →
        ((chainOps c (m :: mid) b (v :: vs) (X :: xs)).map fun o => o.2 (o.1.map τ)).prod =
          mat A X (v.map σ) x (finCongr hdim i) * ((chainOps m mid b vs xs).map fun o => o.2 (o.1.map τ)).prod := by
      intro τ hτ
      simp only [chainOps, List.map_cons, List.prod_cons]
      congr 1
      unfold mat
      rw [hτ c c3, hup c c2, hc, hτ m m1, Function.update_self, hi]
      congr 3
      refine List.map_congr_left fun d hd' => ?_
      rw [hτ d (fun h => m4 d h hd'), hup d]
      rintro rfl
      exact m2 hd'
    rw [sumOver_congr _ _ _ _ _ e1, sumOver_mul]
    congr 1
    rw [ih m vs xs _ hv' hx' ?_ (fun d hd h => hm d (by simp [hd]) (by rw [List.flatten_cons]; exact List.mem_append_right _ h))
      (fun d hd => hA d (List.mem_cons_of_mem _ hd)) (finCongr hdim i) y (by rw [Function.update_self, hi]) (by rw [hup b b1, hb])]
    · have : ∀ vs' : List (List Char), (∀ w ∈ vs', w ∈ vs) → List.zipWith (fun X v => mat A X (v.map (Function.update σ m i.val))) xs vs' =
          List.zipWith (fun X v => mat A X (v.map σ)) xs vs' := by
        clear ih hx' hx e1
        induction xs with
        | nil => intro vs' _; simp
        | cons X' xs' ih' =>
          intro vs' hvs'
          cases vs' with
          | nil => simp
          | cons w ws =>
            simp only [List.zipWith_cons_cons]
            rw [ih' ws fun w' h => hvs' w' (by simp [h])]
            congr 2
            refine List.map_congr_left fun d hd' => hup d ?_
            rintro rfl
            exact m3 (List.mem_flatten.2 ⟨w, hvs' w (by simp), hd'⟩)
      rw [this vs fun _ h => h]
    · simp only [List.nodup_cons, List.mem_cons, not_or]
      exact ⟨⟨Ne.symm b1, m1⟩, b2, hmid⟩

theorem chain_sum (A : Nat) (dim : Char → Nat) (b : Char) (mid : List Char) (c : Char) (vs : List (List Char)) (xs : List (Arr R)) (σ : Char → Nat)
    (hv : vs.length = mid.length + 1) (hx : xs.length = mid.length + 1) (hd : (c :: b :: mid ++ vs.flatten).Nodup)
    (hA : ∀ m ∈ mid, dim m = A) (x y : Fin A) (hc : σ c = x) (hb : σ b = y) :
    sumOver dim mid σ (fun τ => ((chainOps c mid b vs xs).map fun o => o.2 (o.1.map τ)).prod) =
      (List.zipWith (fun X v => mat A X (v.map σ)) xs vs).prod x y := by
  obtain ⟨h1, -, h3⟩ := List.nodup_append.1 hd
  exact chain_sum' A dim b mid c vs xs σ hv hx h1 (fun m hm h => h3 m (by simp [hm]) m h rfl) hA x y hc hb

/-! ## Cutting and blocks -/

theorem length_cut (o l : List Nat) : (cut o l).length = o.length := by
  induction o generalizing l with
  | nil => rfl
  | cons n o ih => simp [cut, ih]

theorem cut_flatten (vs : List (List Nat)) : cut (vs.map List.length) vs.flatten = vs := by
  induction vs with
  | nil => rfl
  | cons v vs ih => simp [cut, ih]

/-- the number of the piece a position belongs to -/
def pieceOf : List Nat → Nat → Nat
  | [], _ => 0
  | n :: ns, i => if i < n then 0 else pieceOf ns (i - n) + 1

theorem pieceOf_lt (o : List Nat) (i : Nat) (h : i < o.sum) : pieceOf o i < o.length := by
  induction o generalizing i with
  | nil => simp at h
  | cons n o ih =>
    unfold pieceOf
    split
    · simp
    · have := ih (i - n) (by rw [List.sum_cons] at h; omega)
      simp only [List.length_cons]; omega

theorem cut_getElem (o l : List Nat) (hl : l.length = o.sum) (j : Nat) (hj : j < (cut o l).length) :
    (cut o l)[j] = ((List.range o.sum).filter fun i => decide (pieceOf o i = j)).map fun i => l.getD i 0 := by
  induction o generalizing l j with
  | nil => simp [cut] at hj
  | cons n o ih =>
    have hl' : l.length = n + o.sum := by simpa using hl
    rw [List.sum_cons, List.range_add, List.filter_append, List.map_append]
    have e1 : (List.range n).map (fun i => l.getD i 0) = l.take n := by
      refine List.ext_getElem ?_ fun i h1 h2 => ?_
      · simp; omega
      · have : i < l.length := by simp at h2; omega
        rw [List.getElem_map, List.getElem_range, List.getElem_take, List.getD_eq_getElem?_getD, List.getElem?_eq_getElem this]; rfl
    cases j with
    | zero =>
      have f1 : (List.range n).filter (fun i => decide (pieceOf (n :: o) i = 0)) = List.range n :=
        List.filter_eq_self.2 fun i hi => by
          have := List.mem_range.1 hi
          simp [pieceOf, this]
      have f2 : ((List.range o.sum).map (n + ·)).filter (fun i => decide (pieceOf (n :: o) i = 0)) = [] := by
        rw [List.filter_eq_nil_iff]
        intro i hi
        obtain ⟨i', _, rfl⟩ := List.mem_map.1 hi
        simp [pieceOf]
      rw [f1, f2]
      simp only [List.map_nil, List.append_nil, e1]
      rfl
    | succ j =>
      have f1 : (List.range n).filter (fun i => decide (pieceOf (n :: o) i = j + 1)) = [] := by
        rw [List.filter_eq_nil_iff]
        intro i hi
        have := List.mem_range.1 hi
        simp [pieceOf, this]
      have f2 : ((List.range o.sum).map (n + ·)).filter (fun i => decide (pieceOf (n :: o) i = j + 1)) =
          ((List.range o.sum).filter fun i => decide (pieceOf o i = j)).map (n + ·) := by
        rw [List.filter_map]
        congr 1
        refine List.filter_congr fun i _ => ?_
        simp [pieceOf]
      rw [f1, f2]
      simp only [List.map_nil, List.nil_append, List.map_map]
      have hj' : j < (cut o (l.drop n)).length := by
        rw [length_cut] at hj ⊢
        simpa using hj
      refine Eq.trans (show (cut (n :: o) l)[j + 1] = (cut o (l.drop n))[j] from rfl) ?_
      rw [ih (l.drop n) (by simp; omega) j hj']
      refine List.map_congr_left fun i hi => ?_
      simp only [Function.comp, List.getD_eq_getElem?_getD, List.getElem?_drop]

/-- the piece of a position as a function on `Fin` -/
def pieceFn (o : List Nat) {k : Nat} (hk : o.sum = k) (i : Fin k) : Fin o.length := ⟨pieceOf o i, pieceOf_lt o i (by omega)⟩

theorem filter_finRange (k : Nat) (p : Nat → Bool) : ((List.finRange k).filter fun i => p i.val).map Fin.val = (List.range k).filter p := by
  rw [← List.map_coe_finRange_eq_range, List.filter_map]
  rfl

theorem cut_block (o : List Nat) {k : Nat} (hk : o.sum = k) (w : Fin k → Nat) (j : Fin o.length) (hj : j.val < (cut o (List.ofFn w)).length) :
    (cut o (List.ofFn w))[j.val] = block w (pieceFn o hk) j := by
  subst hk
  rw [cut_getElem o _ (by simp) j hj]
  unfold block pieceFn
  have e : (fun i : Fin o.sum => decide ((⟨pieceOf o i, pieceOf_lt o i i.2⟩ : Fin o.length) = j)) =
      fun i : Fin o.sum => (fun i : Nat => decide (pieceOf o i = j.val)) i.val := by
    funext i
    simp [Fin.ext_iff]
  rw [e, ← filter_finRange, List.map_map]
  refine List.map_congr_left fun i _ => ?_
  simp [List.getD_eq_getElem?_getD]

theorem sizes_pieceFn (o : List Nat) {k : Nat} (hk : o.sum = k) : sizes (pieceFn o hk) = o := by
  unfold sizes
  have h : ∀ j : Fin o.length, ((List.finRange k).filter fun i => decide (pieceFn o hk i = j)).length = o[j] := by
    intro j
    have hj : j.val < (cut o (List.ofFn fun _ : Fin k => 0)).length := by rw [length_cut]; exact j.2
    have := congrArg List.length (cut_block o hk (fun _ => 0) j hj)
    unfold block at this
    rw [List.length_map] at this
    rw [← this]
    have hlen : ∀ (o l : List Nat) (_ : l.length = o.sum) (j : Nat) (h1 : j < (cut o l).length) (h2 : j < o.length), (cut o l)[j].length = o[j] := by
      intro o
      induction o with
      | nil => intro l _ j h1 h2; simp at h2
      | cons n o ih =>
        intro l hl j h1 h2
        rw [List.sum_cons] at hl
        cases j with
        | zero => simp [cut]; omega
        | succ j =>
          have := ih (l.drop n) (by simp; omega) j (by rw [length_cut] at h1 ⊢; simpa using h1) (by simpa using h2)
          simpa [cut] using this
    exact hlen o _ (by simp [hk]) j hj j.2
  simp only [h]
  exact List.ofFn_getElem

/-! ## Permuting the modes -/

theorem sizes_eq_iff {k m : Nat} (f g : Fin k → Fin m) : sizes f = sizes g ↔ ∀ j, Fintype.card {i // f i = j} = Fintype.card {i // g i = j} := by
  have h : ∀ (f : Fin k → Fin m) j, ((List.finRange k).filter fun i => decide (f i = j)).length = Fintype.card {i // f i = j} := by
    intro f j
    rw [Fintype.card_subtype]
    rw [← List.toFinset_card_of_nodup ((List.nodup_finRange k).filter _)]
    congr 1
    ext i
    simp
  unfold sizes
  simp only [h]
  rw [List.ofFn_inj]
  exact funext_iff

theorem card_fiber {k m : Nat} (β f : Fin k → Fin m) : Fintype.card {π : Equiv.Perm (Fin k) // β ∘ π.symm = f} =
    if sizes f = sizes β then ((sizes β).map Nat.factorial).prod else 0 := by
  split
  · rename_i h
    rw [sizes_eq_iff] at h
    have hne : ∃ π : Equiv.Perm (Fin k), β ∘ π = f := by
      refine ⟨Equiv.ofFiberEquiv (fun j => Fintype.equivOfCardEq (h j)), ?_⟩
      funext i
      exact Equiv.ofFiberEquiv_map _ i
    obtain ⟨ρ, hρ⟩ := hne
    have e : {π : Equiv.Perm (Fin k) // β ∘ π.symm = f} ≃ {g : Equiv.Perm (Fin k) // β ∘ g = β} :=
      { toFun := fun π => ⟨ρ.symm.trans π.1.symm, by
          funext i
          have := congrFun π.2 (ρ.symm i)
          simp only [Function.comp_apply, Equiv.trans_apply] at this ⊢
          rw [this, ← hρ]
          simp⟩
        invFun := fun g => ⟨(ρ.trans g.1).symm, by
          funext i
          have := congrFun g.2 (ρ i)
          simp only [Function.comp_apply, Equiv.symm_symm, Equiv.trans_apply] at this ⊢
          rw [this, ← hρ]
          rfl⟩
        left_inv := fun π => by
          apply Subtype.ext
          apply Equiv.ext
          intro i
          simp
        right_inv := fun g => by
          apply Subtype.ext
          apply Equiv.ext
          intro i
          simp }
    rw [Fintype.card_congr e, DomMulAct.stabilizer_card]
    unfold sizes
    rw [List.map_ofFn, List.prod_ofFn]
    refine Finset.prod_congr rfl fun j _ => ?_
    simp only [Function.comp_apply]
    congr 1
    rw [Fintype.card_subtype, ← List.toFinset_card_of_nodup ((List.nodup_finRange k).filter _)]
    congr 1
    ext i
    simp
  · rename_i h
    rw [Fintype.card_eq_zero_iff]
    refine ⟨fun π => h ?_⟩
    rw [sizes_eq_iff]
    intro j
    refine Fintype.card_congr (π.1.symm.subtypeEquiv fun i => ?_)
    have := congrFun π.2 i
    rw [Function.comp_apply] at this
    rw [this]

/-- The sum over all permutations of a function of the blocks. -/
theorem sum_perm {k m : Nat} {M : Type} [AddCommMonoid M] (β : Fin k → Fin m) (G : (Fin k → Fin m) → M) :
    ∑ π : Equiv.Perm (Fin k), G (β ∘ π.symm) =
      ((sizes β).map Nat.factorial).prod • ∑ f ∈ Finset.univ.filter (fun f : Fin k → Fin m => sizes f = sizes β), G f := by
  classical
  rw [← Finset.sum_fiberwise_of_maps_to (s := Finset.univ) (t := Finset.univ) (g := fun π : Equiv.Perm (Fin k) => β ∘ π.symm) (fun _ _ => Finset.mem_univ _),
    Finset.smul_sum, Finset.sum_filter]
  refine Finset.sum_congr rfl fun f _ => ?_
  rw [Finset.sum_congr rfl (fun π hπ => congrArg G (Finset.mem_filter.1 hπ).2), Finset.sum_const, ← Fintype.card_subtype, card_fiber]
  split
  · rfl
  · exact zero_nsmul _

theorem block_perm {k m : Nat} (v : Fin k → Nat) (β : Fin k → Fin m) (π : Equiv.Perm (Fin k)) (j : Fin m) :
    (block (fun i => v (π i)) β j).Perm (block v (β ∘ π.symm) j) := by
  unfold block
  have : (fun i => v (π i)) = v ∘ π := rfl
  rw [this, ← List.map_map]
  refine List.Perm.map v ?_
  rw [List.perm_ext_iff_of_nodup]
  · intro i
    simp only [List.mem_map, List.mem_filter, List.mem_finRange, true_and, decide_eq_true_eq, Function.comp_apply]
    constructor
    · rintro ⟨i', rfl, rfl⟩; simp
    · intro h; exact ⟨π.symm i, h, by simp⟩
  · exact ((List.nodup_finRange k).filter _).map π.injective
  · exact (List.nodup_finRange k).filter _

theorem length_block {k m : Nat} (v : Fin k → Nat) (f : Fin k → Fin m) (j : Fin m) :
    (block v f j).length = (sizes f)[j.val]'(by unfold sizes; rw [List.length_ofFn]; exact j.2) := by
  unfold block sizes
  simp

end TF.Tensor
