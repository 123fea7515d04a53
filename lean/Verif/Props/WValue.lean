import Verif.Spec.WValue
import Verif.Lemmas.Tensor
import Verif.Props.W
import Mathlib.Algebra.Algebra.Pi
import Mathlib.Data.Matrix.Basic

/-! # C72: the arrays computed by the generated W functions -/

namespace TF.W

open TF.Py TF.Spec TF.Spec.W TF.Spec.Tensor TF.Tensor

variable {R : Type} [CommRing R]

/-! ## The value of an einsum -/

theorem ops_eq (mid : List Char) : ∀ (a b : Char) (vs : List (List Char)) (xs : List (Arr R)) (_ : vs.length = mid.length + 1) (_ : xs.length = mid.length + 1),
    (List.zipWith (fun p v => p.1 :: p.2 :: v) ((a :: mid).zip (mid ++ [b])) vs).zip xs = chainOps a mid b vs xs := by
  induction mid with
  | nil =>
    intro a b vs xs hv hx
    obtain ⟨v, rfl⟩ := List.length_eq_one_iff.1 hv
    obtain ⟨X, rfl⟩ := List.length_eq_one_iff.1 hx
    rfl
  | cons m mid ih =>
    intro a b vs xs hv hx
    obtain _ | ⟨v, vs⟩ := vs
    · simp at hv
    obtain _ | ⟨X, xs⟩ := xs
    · simp at hx
    have := ih m b vs xs (by simpa using hv) (by simpa using hx)
    simp only [chainOps]
    rw [← this]
    rfl

theorem chain_letters (mid : List Char) : ∀ (a b : Char) (vs : List (List Char)) (xs : List (Arr R)) (_ : vs.length = mid.length + 1) (_ : xs.length = mid.length + 1)
    (P : Char → Bool) (_ : P b = false) (_ : ∀ v ∈ vs, ∀ c ∈ v, P c = false) (_ : ∀ m ∈ mid, P m = true) (_ : (a :: mid).Nodup),
    (((chainOps a mid b vs xs).flatMap Prod.fst).filter P).dedup = (if P a then a :: mid else mid) ∧
    ∀ m ∈ mid, m ∈ (chainOps a mid b vs xs).flatMap fun o => o.1.take 2 := by
  induction mid with
  | nil =>
    intro a b vs xs hv hx P hb hvs hm hd
    obtain ⟨v, rfl⟩ := List.length_eq_one_iff.1 hv
    obtain ⟨X, rfl⟩ := List.length_eq_one_iff.1 hx
    have : v.filter P = [] := by
      rw [List.filter_eq_nil_iff]
      intro c hc
      rw [hvs v (by simp) c hc]; simp
    refine ⟨?_, by simp⟩
    simp only [chainOps, List.flatMap_cons, List.flatMap_nil, List.append_nil, List.filter_cons, hb, this]
    split <;> simp
  | cons m mid ih =>
    intro a b vs xs hv hx P hb hvs hm hd
    obtain _ | ⟨v, vs⟩ := vs
    · simp at hv
    obtain _ | ⟨X, xs⟩ := xs
    · simp at hx
    have hf : v.filter P = [] := by
      rw [List.filter_eq_nil_iff]
      intro c hc
      rw [hvs v (by simp) c hc]; simp
    have hd' := List.nodup_cons.1 hd
    have hPm := hm m (by simp)
    obtain ⟨h1, h2⟩ := ih m b vs xs (by simpa using hv) (by simpa using hx) P hb (fun w hw => hvs w (by simp [hw])) (fun c hc => hm c (by simp [hc])) hd'.2
    rw [if_pos hPm] at h1
    have hmem : ∀ c, c ∈ ((chainOps m mid b vs xs).flatMap Prod.fst).filter P ↔ c ∈ m :: mid := by
      intro c
      rw [← List.mem_dedup, h1]
    constructor
    · simp only [chainOps, List.flatMap_cons, List.cons_append, List.filter_cons, List.filter_append, hf, List.nil_append, hPm, if_true]
      have e : (m :: ((chainOps m mid b vs xs).flatMap Prod.fst).filter P).dedup = m :: mid := by
        rw [List.dedup_cons_of_mem ((hmem m).2 (by simp)), h1]
      split
      · rw [List.dedup_cons_of_notMem, e]
        rw [← List.mem_dedup, e]
        exact hd'.1
      · exact e
    · intro c hc
      simp only [chainOps, List.flatMap_cons, List.mem_append]
      rcases List.mem_cons.1 hc with rfl | hc
      · left; simp
      · right; exact h2 c hc

/-- The einsum of a product computes the product of the electronic matrices, the modes distributed over
the factors in order. -/
theorem einsum_chain (A N : Nat) (xs : List (Arr R)) (e : Einsum) {mid : List Char} {vs : List (List Char)} (h : Multiplies e mid vs)
    (hxs : xs.length = e.ts.length) (x y : Fin A) (l : List Nat) (hl : l.length = e.ts.sum) :
    einsum A N (e.subs.zip xs) e.out (x.val :: y.val :: l) = (List.zipWith (mat A) xs (cut e.ts l)).prod x y := by
  have hv : vs.length = mid.length + 1 := by
    have := congrArg List.length h.ranks
    rw [List.length_map] at this
    rw [this, h.chain_length]
  have hx : xs.length = mid.length + 1 := by rw [hxs, h.chain_length]
  have hd := h.distinct
  have hvl : vs.flatten.length = l.length := by
    rw [hl, ← h.ranks, List.length_flatten]
  have hd' : ('a' :: mid).Nodup := by
    refine hd.sublist ?_
    exact (((List.sublist_append_left mid vs.flatten).cons 'b')).cons_cons 'a'
  unfold einsum
  rw [h.chain, h.out, ops_eq mid 'a' 'b' vs _ hv hx]
  obtain ⟨h1, h2⟩ := chain_letters mid 'a' 'b' vs xs hv hx (fun c => decide (c ∉ 'a' :: 'b' :: vs.flatten)) (by simp)
    (fun v hv c hc => by
      have : c ∈ vs.flatten := List.mem_flatten.2 ⟨v, hv, hc⟩
      simp [this])
    (fun m hm => by
      simp only [decide_eq_true_eq]
      intro hm'
      simp only [List.cons_append, List.nodup_cons, List.mem_cons, List.mem_append, not_or] at hd
      obtain ⟨⟨_, a2, _⟩, ⟨b1, _⟩, hn⟩ := hd
      rcases List.mem_cons.1 hm' with rfl | hm'
      · exact a2 hm
      · rcases List.mem_cons.1 hm' with rfl | hm'
        · exact b1 hm
        · exact (List.nodup_append.1 hn).2.2 m hm m hm' rfl)
    hd'
  rw [h1, if_neg (by simp)]
  set σ : Char → Nat := fun c => (x.val :: y.val :: l).getD (('a' :: 'b' :: vs.flatten).idxOf c) 0 with hσ
  rw [chain_sum A _ 'b' mid 'a' vs xs σ hv hx hd (fun m hm => by unfold axisLength; rw [if_pos (h2 m hm)]) x y (by simp [hσ]) (by simp [hσ])]
  have hflat : vs.flatten.map σ = l := by
    refine List.ext_getElem (by simp only [List.length_map]; exact hvl) fun i h3 h4 => ?_
    rw [List.getElem_map]
    have hi : i < vs.flatten.length := by rw [hvl]; exact h4
    simp only [List.cons_append, List.nodup_cons, List.mem_cons, List.mem_append, not_or] at hd
    obtain ⟨⟨a1, a2, a3⟩, ⟨b1, b2⟩, hn⟩ := hd
    have hmem := List.getElem_mem hi
    have hna : 'a' ≠ vs.flatten[i] := fun e => a3 (e ▸ hmem)
    have hnb : 'b' ≠ vs.flatten[i] := fun e => b2 (e ▸ hmem)
    have hidx : ('a' :: 'b' :: vs.flatten).idxOf vs.flatten[i] = i + 2 := by
      rw [List.idxOf_cons_ne _ hna, List.idxOf_cons_ne _ hnb, List.Nodup.idxOf_getElem (List.nodup_append.1 hn).2.1]
    have e2 : σ vs.flatten[i] = (x.val :: y.val :: l).getD (i + 2) 0 := by rw [← hidx]
    rw [e2]
    simp [List.getD_eq_getElem?_getD, h4]
  have hcut : cut e.ts l = vs.map fun v => v.map σ := by
    rw [← hflat, List.map_flatten, ← h.ranks]
    have := cut_flatten (vs.map (List.map σ))
    rw [List.map_map] at this
    have e' : (List.length ∘ List.map σ) = List.length := by
      funext v; simp
    rw [e'] at this
    exact this
  rw [hcut, List.zipWith_map_right]

/-- The array of an einsum that multiplies its operands: the matrix product of the amplitudes, the modes
distributed in order. -/
theorem einsum_product (A N : Nat) (t : Nat → Arr R) (e : Einsum) {mid : List Char} {vs : List (List Char)} (h : Multiplies e mid vs)
    (x y : Fin A) (l : List Nat) (hl : l.length = e.ts.sum) :
    einsumValue A N t e (x.val :: y.val :: l) = (List.zipWith (fun n l => mat A (t n) l) e.ts (cut e.ts l)).prod x y := by
  unfold einsumValue
  rw [einsum_chain A N (e.ts.map t) e h (by simp) x y l hl, List.zipWith_map_left]

/-! ## The sum over the permutations -/

/-- The product of the amplitudes of the orders `o`, the modes distributed in order. -/
def product (A : Nat) (t : Nat → Arr R) (o l : List Nat) : Matrix (Fin A) (Fin A) R :=
  (List.zipWith (fun n l => mat A (t n) l) o (cut o l)).prod

/-- The product of the amplitudes of the blocks. -/
def blockProduct (A : Nat) (t : Nat → Arr R) {k m : Nat} (v : Fin k → Nat) (g : Fin k → Fin m) : Matrix (Fin A) (Fin A) R :=
  (List.ofFn fun j => mat A (t (block v g j).length) (block v g j)).prod

theorem symSum_at (k : Nat) (x : Arr R) (a b : Nat) (v : Fin k → Nat) :
    symSum k x (a :: b :: List.ofFn v) = ∑ π : Equiv.Perm (Fin k), x (a :: b :: List.ofFn fun i => v (π i)) := by
  unfold symSum
  refine Finset.sum_congr rfl fun π _ => ?_
  congr 1
  simp only [List.take_succ_cons, List.take_zero, List.cons_append, List.nil_append]
  congr 3
  funext i
  rw [Nat.add_comm 2]
  simp [List.getD_eq_getElem?_getD]

theorem mat_perm {A k : Nat} {x : Arr R} (hx : ModeSymmetric k x) {l l' : List Nat} (hl : l.length = k) (h : l.Perm l') : mat A x l = mat A x l' := by
  funext a b
  exact hx a b l l' hl h

theorem product_blocks (A : Nat) (t : Nat → Arr R) (o : List Nat) {k : Nat} (hk : o.sum = k) (w : Fin k → Nat) :
    product A t o (List.ofFn w) = blockProduct A t w (pieceFn o hk) := by
  unfold product blockProduct
  congr 1
  refine List.ext_getElem (by simp [length_cut]) fun j h1 h2 => ?_
  have hj : j < o.length := by simpa [length_cut] using h1
  rw [List.getElem_zipWith, List.getElem_ofFn, cut_block o hk w ⟨j, hj⟩ (by rw [length_cut]; exact hj)]
  congr 2
  rw [length_block]
  exact (List.getElem_of_eq (sizes_pieceFn o hk) _).symm

theorem sum_product (A : Nat) (t : Nat → Arr R) (ht : ∀ n, ModeSymmetric n (t n)) (o : List Nat) {k : Nat} (hk : o.sum = k) (v : Fin k → Nat) :
    ∑ π : Equiv.Perm (Fin k), product A t o (List.ofFn fun i => v (π i)) =
      (o.map Nat.factorial).prod • ∑ g ∈ Finset.univ.filter (fun g : Fin k → Fin o.length => sizes g = o), blockProduct A t v g := by
  have := sum_perm (pieceFn o hk) (blockProduct A t v)
  rw [sizes_pieceFn] at this
  rw [← this]
  refine Finset.sum_congr rfl fun π _ => ?_
  rw [product_blocks A t o hk]
  unfold blockProduct
  congr 1
  rw [List.ofFn_inj]
  funext j
  have hp := block_perm v (pieceFn o hk) π j
  rw [hp.length_eq]
  exact mat_perm (ht _) hp.length_eq hp

variable [Algebra Rat R]

theorem sumMat {A : Nat} {ι : Type} (s : Finset ι) (f : ι → Matrix (Fin A) (Fin A) R) (x y : Fin A) : (∑ i ∈ s, f i) x y = ∑ i ∈ s, f i x y := by
  exact Matrix.sum_apply x y s f

/-- What the statements of one order add, as a sum over the orderings of the contributing products. -/
theorem added_eq {env : Env} {k : Nat} {ds : List (Done Einsum)} {ps : List (List Nat)} (hps : ∀ p ∈ ps, p.sum = k)
    (hf : List.Forall₂ (fun p d => overFactorials d.pref = weight p ∧ (d.orderings Einsum.ts).Nodup ∧ ∀ o, o ∈ d.orderings Einsum.ts ↔ o.Perm p) ps ds)
    (hm : ∀ d ∈ ds, ∀ e ∈ d.items, ∃ mid vs, Multiplies e mid vs) (A N : Nat) (t : Nat → Arr R) (x y : Fin A) (l : List Nat) (hl : l.length = k) :
    added A N t ds (x.val :: y.val :: l) = ((ds.flatMap fun d => d.orderings Einsum.ts).map fun o => weight o • product A t o l x y).sum := by
  unfold added
  induction hf with
  | nil => rfl
  | cons h hf ih =>
    rename_i p d ps ds
    obtain ⟨h1, h2, h3⟩ := h
    rw [List.map_cons, List.sum_cons, List.flatMap_cons, List.map_append, List.sum_append,
      ih (fun q hq => hps q (by simp [hq])) (fun d' hd' => hm d' (by simp [hd']))]
    congr 1
    have hw : ∀ o ∈ d.orderings Einsum.ts, weight o = weight p := by
      intro o ho
      have hp := (h3 o).1 ho
      unfold weight
      rw [hp.length_eq, (hp.map Nat.factorial).prod_eq]
    have hs : ((d.orderings Einsum.ts).map fun o => weight o • product A t o l x y).sum =
        weight p • ((d.orderings Einsum.ts).map fun o => product A t o l x y).sum := by
      rw [List.smul_sum, List.map_map]
      exact congrArg _ (List.map_congr_left fun o ho => by rw [Function.comp_apply, hw o ho])
    rw [hs, h1]
    congr 1
    unfold Done.orderings
    rw [List.map_append, List.sum_append, List.map_map, List.map_map]
    congr 1
    · refine congrArg _ (List.map_congr_left fun n hn => ?_)
      have : l.take n = l := by
        have := (h3 [n]).1 (by unfold Done.orderings; exact List.mem_append.2 (.inl (List.mem_map.2 ⟨n, hn, rfl⟩)))
        have hs := this.sum_nat
        rw [hps p (by simp)] at hs
        rw [List.take_of_length_le (by simp at hs; omega)]
      simp [product, cut, mat, this]
    · refine congrArg _ (List.map_congr_left fun e he => ?_)
      obtain ⟨mid, vs, hmul⟩ := hm d (by simp) e he
      refine einsum_product A N t e hmul x y l ?_
      have := (h3 e.ts).1 (by unfold Done.orderings; exact List.mem_append.2 (.inr (List.mem_map.2 ⟨e, he, rfl⟩)))
      rw [hl, this.sum_nat, hps p (by simp)]

theorem enters_iff {env : Env} {k : Nat} {o p : List Nat} (hk : 1 ≤ k) (hp : IsPartition k p) (ho : o.Perm p) : Enters env o ↔ Contributes env k p := by
  have hmem : ∀ x, x ∈ o ↔ x ∈ p := fun x => ho.mem_iff
  have hbig : AtMostOneBig o ↔ AtMostOneBig p := by
    unfold AtMostOneBig
    rw [(ho.filter _).length_eq]
  have hone : o.length = 1 ↔ p = [k] := by
    rw [ho.length_eq]
    constructor
    · intro h
      obtain ⟨a, rfl⟩ := List.length_eq_one_iff.1 h
      have := hp.sum_eq
      simp at this
      rw [this]
    · rintro rfl; rfl
  constructor
  · rintro ⟨h1, h2, h3⟩
    refine ⟨hp, ?_, ?_⟩
    · rw [hone, hbig] at h2; exact h2
    · intro x hx hmax
      exact h3 x ((hmem x).2 hx) fun y hy => hmax y ((hmem y).1 hy)
  · rintro ⟨_, h2, h3⟩
    refine ⟨fun x hx => hp.pos x ((hmem x).1 hx), ?_, ?_⟩
    · rw [hone, hbig]; exact h2
    · intro x hx hmax
      exact h3 x ((hmem x).1 hx) fun y hy => hmax y ((hmem y).2 hy)

theorem exists_partition (k : Nat) (o : List Nat) (h1 : o.sum = k) (h2 : ∀ x ∈ o, 1 ≤ x) : ∃ p, IsPartition k p ∧ o.Perm p := by
  refine ⟨o.mergeSort (fun a b => decide (b ≤ a)), ⟨?_, ?_, ?_⟩, (List.mergeSort_perm _ _).symm⟩
  · rw [(List.mergeSort_perm o _).sum_nat, h1]
  · intro x hx; exact h2 x ((List.mergeSort_perm o _).mem_iff.1 hx)
  · have := List.pairwise_mergeSort (le := fun a b : Nat => decide (b ≤ a)) (by intro a b c; simp; omega) (by intro a b; simp; omega) o
    exact this.imp fun h => by simpa using h

theorem sum_sizes {k m : Nat} (g : Fin k → Fin m) : (sizes g).sum = k := by
  unfold sizes
  rw [List.sum_ofFn]
  have : ∀ j, ((List.finRange k).filter fun i => decide (g i = j)).length = ∑ i : Fin k, if g i = j then 1 else 0 := by
    intro j
    rw [← List.countP_eq_length_filter, Finset.sum_boole]
    simp only [Nat.cast_id]
    rw [List.countP_eq_length_filter, ← List.toFinset_card_of_nodup ((List.nodup_finRange k).filter _)]
    congr 1
    ext i
    simp
  simp only [this]
  rw [Finset.sum_comm]
  simp

/-- The distinct orderings of the contributing products. -/
theorem orderings_exact {env : Env} {k : Nat} (hk : 1 ≤ k) {ds : List (Done Einsum)} {ps : List (List Nat)} (hnd : ps.Nodup) (hps : ∀ p, p ∈ ps ↔ Contributes env k p)
    (hf : List.Forall₂ (fun p d => overFactorials d.pref = weight p ∧ (d.orderings Einsum.ts).Nodup ∧ ∀ o, o ∈ d.orderings Einsum.ts ↔ o.Perm p) ps ds) :
    (ds.flatMap fun d => d.orderings Einsum.ts).Nodup ∧ ∀ o, o ∈ (ds.flatMap fun d => d.orderings Einsum.ts) ↔ o.sum = k ∧ Enters env o := by
  have hm : ∀ o, o ∈ (ds.flatMap fun d => d.orderings Einsum.ts) ↔ ∃ p ∈ ps, o.Perm p := by
    intro o
    clear hnd hps
    induction hf with
    | nil => simp
    | cons h hf ih =>
      rename_i p d ps ds
      rw [List.flatMap_cons, List.mem_append, ih, h.2.2]
      simp
  have hdesc : ∀ p ∈ ps, p.Pairwise (fun a b => b ≤ a) := fun p hp => ((hps p).1 hp).partition.desc
  constructor
  · clear hps hm
    induction hf with
    | nil => simp
    | cons h hf ih =>
      rename_i p d ps ds
      rw [List.flatMap_cons, List.nodup_append]
      have hnd' := List.nodup_cons.1 hnd
      refine ⟨h.2.1, ih hnd'.2 (fun q hq => hdesc q (by simp [hq])), ?_⟩
      intro o ho o' ho' heq
      subst heq
      have hp := (h.2.2 o).1 ho
      have : ∃ q ∈ ps, o.Perm q := by
        clear ih hnd hnd' hdesc
        induction hf with
        | nil => simp at ho'
        | cons h' hf ih' =>
          rw [List.flatMap_cons, List.mem_append] at ho'
          rcases ho' with ho' | ho'
          · exact ⟨_, by simp, (h'.2.2 o).1 ho'⟩
          · obtain ⟨q, hq, hqp⟩ := ih' ho'
            exact ⟨q, by simp [hq], hqp⟩
      obtain ⟨q, hq, hqp⟩ := this
      have hpq : p = q := by
        refine List.Perm.eq_of_pairwise (le := fun a b => b ≤ a) ?_ (hdesc p (by simp)) (hdesc q (by simp [hq])) (hp.symm.trans hqp)
        intro a b _ _ h1 h2
        omega
      rw [hpq] at hnd'
      exact hnd'.1 hq
  · intro o
    rw [hm]
    constructor
    · rintro ⟨p, hp, hop⟩
      have hc := (hps p).1 hp
      exact ⟨by rw [hop.sum_nat, hc.partition.sum_eq], (enters_iff hk hc.partition hop).2 hc⟩
    · rintro ⟨h1, h2⟩
      obtain ⟨p, hp, hop⟩ := exists_partition k o h1 h2.pos
      exact ⟨p, (hps p).2 ((enters_iff hk hp hop).1 h2), hop⟩

theorem weight_factorials (o : List Nat) : weight o * ((o.map Nat.factorial).prod : Nat) = 1 / (o.length.factorial : Rat) := by
  unfold weight
  have h1 : ((o.map Nat.factorial).prod : Rat) ≠ 0 := by
    have : (o.map Nat.factorial).prod ≠ 0 := by
      rw [Ne, List.prod_eq_zero_iff]
      simp [Nat.factorial_ne_zero]
    exact_mod_cast this
  have h2 : ((o.length.factorial : Nat) : Rat) ≠ 0 := by exact_mod_cast Nat.factorial_ne_zero _
  rw [Nat.cast_mul]
  generalize (((o.map Nat.factorial).prod : Nat) : Rat) = q at h1 ⊢
  field_simp

/-- The array a W function returns, as a sum over the orderings of the contributing products and the
permutations of the modes. -/
theorem w_orderings (n : Nat) (M : WModule) (hM : wModule n = .ok M) (env : Env)
    (r : List (Nat × List (Done Einsum) × List (Done Einsum) × List (Done Einsum)))
    (hr : runMaster Einsum.ts env M.vemx M.vecc M.fns M.master = .ok r) (k : Nat) (a b c : List (Done Einsum)) (hk : (k, a, b, c) ∈ r)
    (f : WFunction) (hf : M.fns[k - 1]? = some f) (A N : Nat) (t : Nat → Arr R) :
    ∃ S : Finset (List Nat), (∀ o, o ∈ S ↔ o.sum = k ∧ Enters env o) ∧ ∀ (x y : Fin A) (v : Fin k → Nat),
      returned f (added A N t (a ++ b ++ c)) (x.val :: y.val :: List.ofFn v) =
        ∑ o ∈ S, ∑ π : Equiv.Perm (Fin k), weight o • product A t o (List.ofFn fun i => v (π i)) x y := by
  obtain ⟨horders, hcorrect⟩ := w_run_correct n M hM env r hr
  obtain ⟨⟨ps, hnd, hps, hforall⟩, hmul⟩ := hcorrect k a b c hk
  have hn : n ≤ 6 := by
    by_contra h
    rw [(module_generated_iff n).2 (by omega)] at hM; cases hM
  obtain ⟨ks, hks, hle⟩ := (w_run_ok_iff n M hM env).1 ⟨r, hr⟩
  rw [wModule_eq n hn] at hM
  injection hM with hM
  subst hM
  have hb := (masterOrders_bounds (show masterOrders (master n) env.fl = .ok ks from hks)).2
  have hkks : k ∈ ks := by
    rw [hks] at horders
    injection horders with horders
    rw [horders]
    exact List.mem_map.2 ⟨_, hk, rfl⟩
  have hk1 : 1 ≤ k := (hb k hkks).1
  have hkn : k ≤ n := (hle k hkks).1
  have hfk : f = fnOf k := by
    have hf' : ((range2 1 (n + 1)).map fnOf)[k - 1]? = some f := hf
    rw [List.getElem?_map] at hf'
    have : (range2 1 (n + 1))[k - 1]? = some k := by
      unfold range2
      rw [List.getElem?_map, List.getElem?_range (by omega)]
      simp only [Option.map_some, Option.some.injEq]
      omega
    rw [this] at hf'
    injection hf' with hf'
    exact hf'.symm
  obtain ⟨hnodup, hmem⟩ := orderings_exact hk1 hnd hps hforall
  have hsum : ∀ p ∈ ps, p.sum = k := fun p hp => ((hps p).1 hp).partition.sum_eq
  refine ⟨((a ++ b ++ c).flatMap fun d => d.orderings Einsum.ts).toFinset, fun o => by rw [List.mem_toFinset, hmem], fun x y v => ?_⟩
  have hret : returned f (added A N t (a ++ b ++ c)) (x.val :: y.val :: List.ofFn v) =
      ∑ π : Equiv.Perm (Fin k), added A N t (a ++ b ++ c) (x.val :: y.val :: List.ofFn fun i => v (π i)) := by
    subst hfk
    by_cases h1 : k = 1
    · subst h1
      rw [Finset.univ_unique, Finset.sum_singleton]
      rfl
    · have : (fnOf k).sym = some k := by unfold fnOf; rw [if_neg h1]
      unfold returned
      rw [this]
      exact symSum_at k _ _ _ v
  rw [hret]
  have e1 : ∀ π : Equiv.Perm (Fin k), added A N t (a ++ b ++ c) (x.val :: y.val :: List.ofFn fun i => v (π i)) =
      ∑ o ∈ ((a ++ b ++ c).flatMap fun d => d.orderings Einsum.ts).toFinset, weight o • product A t o (List.ofFn fun i => v (π i)) x y := by
    intro π
    rw [added_eq (env := env) hsum hforall hmul A N t x y _ (by simp), List.sum_toFinset _ hnodup]
  rw [Finset.sum_congr rfl fun π _ => e1 π, Finset.sum_comm]

open Classical in
/-- **C72.** The W operator of order `k` that the generated code returns, for amplitudes that are symmetric in
their modes: entry `v` is the sum over the number `m` of factors and over all ways `g` to distribute the `k`
modes over `m` blocks whose sizes enter (by ansatz and truncation) of `1/m!` times the product of the
amplitudes of the blocks. -/
theorem w_value (n : Nat) (M : WModule) (hM : wModule n = .ok M) (env : Env)
    (r : List (Nat × List (Done Einsum) × List (Done Einsum) × List (Done Einsum)))
    (hr : runMaster Einsum.ts env M.vemx M.vecc M.fns M.master = .ok r) (k : Nat) (a b c : List (Done Einsum)) (hk : (k, a, b, c) ∈ r)
    (f : WFunction) (hf : M.fns[k - 1]? = some f)
    (A N : Nat) (t : Nat → Arr R) (ht : ∀ j, ModeSymmetric j (t j)) (x y : Fin A) (v : Fin k → Nat) :
    returned f (added A N t (a ++ b ++ c)) (x.val :: y.val :: List.ofFn v) =
      ∑ m ∈ Finset.range (k + 1), (1 / (m.factorial : Rat)) •
        ∑ g ∈ Finset.univ.filter (fun g : Fin k → Fin m => Enters env (sizes g)),
          (List.ofFn fun j => mat A (t (block v g j).length) (block v g j)).prod x y := by
  obtain ⟨S, hSm, hS⟩ := w_orderings n M hM env r hr k a b c hk f hf A N t
  rw [hS]
  have e2 : ∀ o ∈ S, ∑ π : Equiv.Perm (Fin k), weight o • product A t o (List.ofFn fun i => v (π i)) x y =
      (1 / (o.length.factorial : Rat)) • ∑ g ∈ Finset.univ.filter (fun g : Fin k → Fin o.length => sizes g = o), blockProduct A t v g x y := by
    intro o ho
    rw [← Finset.smul_sum, ← sumMat, sum_product A t ht o ((hSm o).1 ho).1 v, ← sumMat, Matrix.smul_apply, ← weight_factorials, mul_smul]
    congr 1
    rw [Nat.cast_smul_eq_nsmul]
  rw [Finset.sum_congr rfl e2]
  have hlen : ∀ o ∈ S, o.length ∈ Finset.range (k + 1) := by
    intro o ho
    obtain ⟨h1, h2⟩ := (hSm o).1 ho
    have : o.length ≤ o.sum := List.length_le_sum_of_one_le o h2.pos
    simp; omega
  rw [← Finset.sum_fiberwise_of_maps_to hlen]
  refine Finset.sum_congr rfl fun m _ => ?_
  have e3 : ∀ o ∈ S.filter (fun o => o.length = m), (1 / (o.length.factorial : Rat)) • ∑ g ∈ Finset.univ.filter (fun g : Fin k → Fin o.length => sizes g = o), blockProduct A t v g x y =
      (1 / (m.factorial : Rat)) • ∑ g ∈ Finset.univ.filter (fun g : Fin k → Fin m => sizes g = o), blockProduct A t v g x y := by
    intro o ho
    have := (Finset.mem_filter.1 ho).2
    subst this
    rfl
  rw [Finset.sum_congr rfl e3, ← Finset.smul_sum]
  congr 1
  have hmaps : ∀ g ∈ Finset.univ.filter (fun g : Fin k → Fin m => Enters env (sizes g)), sizes g ∈ S.filter (fun o => o.length = m) := by
    intro g hg
    rw [Finset.mem_filter, hSm]
    exact ⟨⟨sum_sizes g, (Finset.mem_filter.1 hg).2⟩, by simp [sizes]⟩
  rw [← Finset.sum_fiberwise_of_maps_to hmaps]
  refine Finset.sum_congr rfl fun o ho => ?_
  refine Finset.sum_congr ?_ fun g _ => rfl
  ext g
  simp only [Finset.mem_filter, Finset.mem_univ, true_and]
  constructor
  · intro h
    exact ⟨h ▸ ((hSm o).1 (Finset.mem_filter.1 ho).1).2, h⟩
  · exact fun h => h.2

theorem enters_full {env : Env} {k m : Nat} (h1 : env.mixed = false) (h2 : env.cc = true) (hfl : ∀ j, 1 ≤ j → j ≤ k → env.fl j = true)
    (g : Fin k → Fin m) : Enters env (sizes g) ↔ Function.Surjective g := by
  have hpos : (∀ x ∈ sizes g, 1 ≤ x) ↔ Function.Surjective g := by
    unfold sizes
    simp only [List.forall_mem_ofFn_iff]
    constructor
    · intro h j
      obtain ⟨i, hi⟩ := List.exists_mem_of_length_pos (h j)
      simp only [List.mem_filter, List.mem_finRange, true_and, decide_eq_true_eq] at hi
      exact ⟨i, hi⟩
    · intro h j
      obtain ⟨i, hi⟩ := h j
      exact List.length_pos_of_mem (a := i) (by simp [hi])
  constructor
  · exact fun h => hpos.1 h.pos
  · intro h
    refine ⟨hpos.2 h, .inr (.inr ⟨h1, h2⟩), fun x hx _ => .inr (hfl x (hpos.2 h x hx) ?_)⟩
    have := List.le_sum_of_mem hx
    rw [sum_sizes] at this
    exact this

open Classical in
/-- **C72** for the coupled-cluster ansatz with all ranks up to `k`: the W operator of order `k` is the part
with `k` modes of the exponential of the cluster operator, `sum 1/m! T^m`: all ways to distribute the modes
over `m` amplitudes. -/
theorem w_exponential (n : Nat) (M : WModule) (hM : wModule n = .ok M) (env : Env) (hmix : env.mixed = false) (hcc : env.cc = true)
    (r : List (Nat × List (Done Einsum) × List (Done Einsum) × List (Done Einsum)))
    (hr : runMaster Einsum.ts env M.vemx M.vecc M.fns M.master = .ok r) (k : Nat) (a b c : List (Done Einsum)) (hk : (k, a, b, c) ∈ r)
    (hfl : ∀ j, 1 ≤ j → j ≤ k → env.fl j = true) (f : WFunction) (hf : M.fns[k - 1]? = some f)
    (A N : Nat) (t : Nat → Arr R) (ht : ∀ j, ModeSymmetric j (t j)) (x y : Fin A) (v : Fin k → Nat) :
    returned f (added A N t (a ++ b ++ c)) (x.val :: y.val :: List.ofFn v) =
      ∑ m ∈ Finset.range (k + 1), (1 / (m.factorial : Rat)) •
        ∑ g ∈ Finset.univ.filter (fun g : Fin k → Fin m => Function.Surjective g),
          (List.ofFn fun j => mat A (t (block v g j).length) (block v g j)).prod x y := by
  rw [w_value n M hM env r hr k a b c hk f hf A N t ht x y v]
  refine Finset.sum_congr rfl fun m _ => ?_
  congr 1
  refine Finset.sum_congr ?_ fun _ _ => rfl
  ext g
  simp only [Finset.mem_filter, Finset.mem_univ, true_and]
  exact enters_full hmix hcc hfl g

/-- The hypotheses of the theorems are met: order 4 with all ranks up to 4, and symmetric amplitudes that
are not constant. -/
example : ∃ M r a b c f, wModule 6 = .ok M ∧ runMaster Einsum.ts ⟨false, true, fun j => decide (j ≤ 4), 6⟩ M.vemx M.vecc M.fns M.master = .ok r ∧
    (4, a, b, c) ∈ r ∧ M.fns[4 - 1]? = some f ∧ (∀ j, ModeSymmetric j (fun l : List Nat => ((l.drop 2).sum : Rat))) := by
  obtain ⟨r, hr⟩ := (w_run_ok_iff 6 (moduleOf 6) (wModule_eq 6 (by decide)) ⟨false, true, fun j => decide (j ≤ 4), 6⟩).2
    ⟨[1, 2, 3, 4, 5, 6], by rfl, by decide⟩
  obtain ⟨h1, _⟩ := w_run_correct 6 (moduleOf 6) (wModule_eq 6 (by decide)) _ r hr
  have h2 : masterOrders (moduleOf 6).master (fun j => decide (j ≤ 4)) = .ok [1, 2, 3, 4, 5, 6] := by rfl
  rw [h2] at h1
  injection h1 with h1
  have : 4 ∈ r.map Prod.fst := by rw [← h1]; decide
  obtain ⟨⟨k, a, b, c⟩, hm, rfl⟩ := List.mem_map.1 this
  refine ⟨_, r, a, b, c, fnOf 4, wModule_eq 6 (by decide), hr, hm, by rfl, ?_⟩
  intro j x y l l' _ h
  show ((l.sum : Nat) : Rat) = (l'.sum : Nat)
  rw [h.sum_nat]

end TF.W
