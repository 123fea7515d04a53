import Verif.Lemmas.Wick
import Verif.Lemmas.Orders
import Verif.Props.FullCC.Value

/-! # C80: the full-CC functions and `H e^T` -/

namespace TF.Fock

open TF.Spec TF.Spec.CCRun TF.Spec.Tensor TF.Spec.Fock TF.Spec.Wick
open TF.CC (T)

variable {R : Type} [CommRing R] [Algebra Rat R]

theorem amps_key (A : Nat) (t : Nat × Nat → Arr R) (xs : List T) : ∀ K I, amps A (fun p => t (p.1, 0)) xs K I = amps A t xs K I := by
  induction xs with
  | nil => exact fun K I => rfl
  | cons x xs ih => intro K I; rw [amps, amps, ih]

theorem ordered_eq (A N : Nat) (h : Arr R) (t : Nat × Nat → Arr R) (m n k : Nat) (xs : List T) (hk : m + (xs.map T.m_o).sum = k) :
    ordered A N h t m n k xs = (1 / ((xs.length.factorial * m.factorial : Nat) : Rat)) • (seqWeight xs • seqSeries A N (fun j => t (j, 0)) (fun K I => mat A h (K ++ I)) n m xs) := by
  subst hk
  unfold ordered seqSeries series seqWeight blockFactorials
  rw [smul_smul]
  congr 1
  · push_cast
    rw [one_div_mul_one_div]
  · refine Finset.sum_congr rfl fun v _ => ?_
    rw [map_C_sum, Finset.smul_sum]
    refine Finset.sum_congr rfl fun K _ => ?_
    rw [amps_key]

/-- One term of the Hamiltonian and a power of the cluster operator. -/
theorem term_power (A N cc m n j : Nat) (h : Arr R) (hh : LowerSymmetric m n h) (t : Nat × Nat → Arr R) (ht : ∀ k, ModeSymmetric k (t (k, 0))) :
    term A N m n h (cluster A N (Finset.Icc 1 cc) (fun j => t (j, 0)) ^ j) = ∑ xs ∈ words (alphabet cc) j, if (xs.map T.m_h).sum = n then
      (1 / (m.factorial : Rat)) • (seqWeight xs • seqSeries A N (fun j => t (j, 0)) (fun K I => mat A h (K ++ I)) n m xs) else 0 := by
  have hG : ∀ I l l' : List Nat, I.length = m → l.length = n → l.Perm l' → mat A h (l ++ I) = mat A h (l' ++ I) := by
    intro I l l' hI hl hp
    funext a b
    exact hh a b l l' I hl hI hp
  have hw := wick_power (A := A) (N := N) cc (fun j => t (j, 0)) ht j n m (fun K I => mat A h (K ++ I)) hG
  have e1 : ∀ xs : List T, (if (xs.map T.m_h).sum = n then (1 / (m.factorial : Rat)) • (seqWeight xs • seqSeries A N (fun j => t (j, 0)) (fun K I => mat A h (K ++ I)) n m xs) else 0) =
      (1 / (m.factorial : Rat)) • (if (xs.map T.m_h).sum = n then (seqWeight xs • seqSeries A N (fun j => t (j, 0)) (fun K I => mat A h (K ++ I)) n m xs) else 0) := by
    intro xs
    split
    · rfl
    · rw [smul_zero]
  rw [Finset.sum_congr rfl fun xs _ => e1 xs, ← Finset.smul_sum, ← hw, smul_smul]
  unfold term
  rw [Finset.sum_comm]
  congr 1
  · push_cast
    rw [one_div_mul_one_div]
  · refine Finset.sum_congr rfl fun K _ => ?_
    unfold series
    rw [Finset.sum_mul]
    refine Finset.sum_congr rfl fun I _ => ?_
    rw [smul_mul_assoc]

theorem mem_hamiltonianOf {rank : Nat} {o : Nat × Nat} : o ∈ hamiltonianOf rank ↔ o.1 + o.2 ≤ rank := by
  unfold hamiltonianOf
  rw [Finset.mem_filter, Finset.mem_product, Finset.mem_range, Finset.mem_range]
  omega

theorem homog_seqSeries (A N : Nat) (t : Nat → Arr R) (G : List Nat → List Nat → Matrix (Fin A) (Fin A) R) (n d : Nat) (xs : List T) :
    Homog (d + (xs.map T.m_o).sum) (seqSeries A N t G n d xs) := homog_series _ _

theorem term_qsmul (A N m n : Nat) (h : Arr R) (q : Rat) (Ψ : Op R A N) : term A N m n h (q • Ψ) = q • term A N m n h Ψ := by
  unfold term
  simp only [map_annihilate_qsmul, Finset.smul_sum, mul_smul_comm]
  refine Finset.sum_congr rfl fun I _ => Finset.sum_congr rfl fun K _ => ?_
  rw [smul_comm q, smul_comm q]

/-- The part of `H e^T` with `k` modes, by sequences of amplitudes. -/
theorem exp_sequences (A N cc rank k M : Nat) (h t : Nat × Nat → Arr R) (hh : ∀ m n, LowerSymmetric m n (h (m, n))) (ht : ∀ k, ModeSymmetric k (t (k, 0))) :
    part k (hamiltonian A N (hamiltonianOf rank) h (expUpTo M (cluster A N (Finset.Icc 1 cc) fun j => t (j, 0)))) =
      ∑ o ∈ hamiltonianOf rank, ∑ j ∈ Finset.range (M + 1), ∑ xs ∈ words (alphabet cc) j,
        if (xs.map T.m_h).sum = o.2 ∧ o.1 + (xs.map T.m_o).sum = k then ordered A N (h o) t o.1 o.2 k xs else 0 := by
  unfold hamiltonian expUpTo
  rw [part_sum]
  refine Finset.sum_congr rfl fun o _ => ?_
  rw [term_sum, part_sum]
  refine Finset.sum_congr rfl fun j _ => ?_
  rw [term_qsmul, part_qsmul, term_power A N cc o.1 o.2 j (h o) (hh o.1 o.2) t ht, part_sum, Finset.smul_sum]
  refine Finset.sum_congr rfl fun xs hxs => ?_
  have hj := ((mem_words _ j xs).1 hxs).1
  by_cases h1 : (xs.map T.m_h).sum = o.2
  · rw [if_pos h1, part_of_homog (homog_qsmul _ (homog_qsmul _ (homog_seqSeries A N _ _ o.2 o.1 xs)))]
    by_cases h2 : o.1 + (xs.map T.m_o).sum = k
    · rw [if_pos h2, if_pos ⟨h1, h2⟩, ordered_eq A N (h o) t o.1 o.2 k xs h2, smul_smul, hj]
      congr 1
      push_cast
      rw [one_div_mul_one_div]
    · rw [if_neg h2, if_neg (fun h => h2 h.2), smul_zero]
  · rw [if_neg h1, if_neg (fun h => h1 h.1)]
    have : part k (0 : Op R A N) = 0 := by
      unfold part
      ext1 a b
      simp
    rw [this, smul_zero]

end TF.Fock

namespace TF.CC

open TF.Py TF.Spec TF.Spec.CCRun TF.Spec.Tensor TF.Spec.Fock TF.Spec.Wick TF.Fock

variable {R : Type} [CommRing R] [Algebra Rat R]

/-- Without creation operators in the projection operator no term is removed as an f term. -/
theorem termsFor_ground (sol : SetOrder (List T)) (hMax cc smax : Nat) (hcc : 1 ≤ cc) (omega : Op) (hom : omega.m = 0) (L : List Term)
    (hL : termsFor sol true true hMax cc smax omega = .ok L) : termsFor sol false true hMax cc smax omega = .ok L := by
  obtain ⟨L', hL'⟩ := termsFor_ok sol false true hMax cc smax hcc omega
  have hrf := remove_f_exact sol true hMax cc smax hcc omega L' L hL' hL
  rw [hL', hrf, List.filter_eq_self.2]
  intro t ht
  obtain ⟨d1, _, _, _, _, _, d7, _⟩ := term_data sol false true hMax cc smax hcc omega L' hL' t ht
  have := d7.2.2.2
  rw [decide_eq_true_eq]
  omega

/-- **Wick's theorem** for the generated terms: the part of `H e^T` with `k` modes is the sum of the contributions of the terms that
are generated, if as many amplitudes are allowed as can be contracted. -/
theorem exp_contributions (sol : SetOrder (List T)) (hMax cc smax : Nat) (hcc : 1 ≤ cc) (omega : Op) (hom : omega.m = 0) (hs : hMax + omega.n ≤ smax) (L : List Term)
    (hL : termsFor sol true true hMax cc smax omega = .ok L) (A N M : Nat) (hM : hMax + omega.n ≤ M) (h t : Nat × Nat → Arr R)
    (hh : ∀ m n, LowerSymmetric m n (h (m, n))) (ht : ∀ k, ModeSymmetric k (t (k, 0))) :
    part omega.n (Spec.Fock.hamiltonian A N (hamiltonianOf hMax) h (expUpTo M (cluster A N (Finset.Icc 1 cc) fun j => t (j, 0)))) =
      (L.map fun s => contribution A N (h (s.h.m, s.h.n)) t s.h.m s.h.n omega.n (amplitudes s)).sum := by
  classical
  have hL0 := termsFor_ground sol hMax cc smax hcc omega hom L hL
  have hu := terms_unique sol true true hMax cc smax hcc omega L hL
  have hnd : L.Nodup := hu.imp fun hab he => hab (by subst he; exact ⟨rfl, rfl, List.Perm.refl _⟩)
  rw [exp_sequences A N cc hMax omega.n M h t hh ht]
  let f : ((Nat × Nat) × List T) → Fock.Op R A N := fun p => ordered A N (h p.1) t p.1.1 p.1.2 omega.n p.2
  let W : Finset (List T) := (Finset.range (M + 1)).biUnion fun j => words (alphabet cc) j
  have hW : ∀ xs, xs ∈ W ↔ xs.length ≤ M ∧ ∀ x ∈ xs, AmpAllowed cc true x := by
    intro xs
    simp only [W, Finset.mem_biUnion, Finset.mem_range, mem_words, mem_alphabet]
    constructor
    · rintro ⟨j, h1, rfl, h3⟩; exact ⟨by omega, h3⟩
    · rintro ⟨h1, h2⟩; exact ⟨xs.length, by omega, rfl, h2⟩
  have e1 : ∀ o : Nat × Nat, ∑ j ∈ Finset.range (M + 1), ∑ xs ∈ words (alphabet cc) j,
      (if (xs.map T.m_h).sum = o.2 ∧ o.1 + (xs.map T.m_o).sum = omega.n then ordered A N (h o) t o.1 o.2 omega.n xs else 0) =
      ∑ xs ∈ W, if (xs.map T.m_h).sum = o.2 ∧ o.1 + (xs.map T.m_o).sum = omega.n then ordered A N (h o) t o.1 o.2 omega.n xs else 0 := by
    intro o
    rw [Finset.sum_biUnion]
    intro i _ j _ hij
    rw [Function.onFun, Finset.disjoint_left]
    intro xs h1 h2
    exact hij (((mem_words _ _ _).1 h1).1.symm.trans ((mem_words _ _ _).1 h2).1)
  rw [Finset.sum_congr rfl fun o _ => e1 o, ← Finset.sum_product', ← Finset.sum_filter]
  have e2 : (L.map fun s => contribution A N (h (s.h.m, s.h.n)) t s.h.m s.h.n omega.n (amplitudes s)).sum =
      ∑ s ∈ L.toFinset, ∑ p ∈ (amplitudes s).permutations.toFinset.image fun xs => ((s.h.m, s.h.n), xs), f p := by
    rw [← List.sum_toFinset _ hnd]
    refine Finset.sum_congr rfl fun s _ => ?_
    rw [Finset.sum_image (by intro a _ b _ hab; exact (Prod.mk.inj hab).2)]
    rfl
  rw [e2, ← Finset.sum_biUnion]
  · refine Finset.sum_congr ?_ fun p _ => rfl
    ext ⟨⟨m, n⟩, xs⟩
    rw [Finset.mem_filter, Finset.mem_product, hW, mem_hamiltonianOf]
    simp only [Finset.mem_biUnion, List.mem_toFinset, Finset.mem_image, List.mem_permutations, Prod.mk.injEq]
    constructor
    · rintro ⟨⟨h1, h2, h3⟩, h4, h5⟩
      have hlen : xs.length ≤ (xs.map T.m_h).sum + (xs.map T.m_o).sum := by
        clear h4 h5 h2
        induction xs with
        | nil => simp
        | cons x xs ih =>
          have h6 := h3 x (by simp)
          unfold AmpAllowed ampRank at h6
          obtain ⟨h7, _, h8⟩ := h6
          have := h8 rfl
          have := ih fun y hy => h3 y (by simp [hy])
          simp only [List.length_cons, List.map_cons, List.sum_cons]
          omega
      have hz : (xs.map T.n_h).sum = 0 ∧ (xs.map T.n_o).sum = 0 := by
        constructor <;> rw [List.sum_eq_zero] <;> intro y hy <;> obtain ⟨x, hx, rfl⟩ := List.mem_map.1 hy
        · exact ((h3 x hx).2.2 rfl).1
        · exact ((h3 x hx).2.2 rfl).2
      obtain ⟨s, hs1, hs2, hs3, hs4⟩ := terms_complete sol true hMax cc smax hcc omega L hL0 m n h1 xs (by omega)
        ⟨h3, m, 0, by unfold Pairs; omega⟩
      exact ⟨s, hs1, xs, hs4.symm, ⟨hs2, hs3⟩, rfl⟩
    · rintro ⟨s, hs1, ys, hs2, ⟨rfl, rfl⟩, rfl⟩
      obtain ⟨d1, d2, _, _, d5, d6, _, d8⟩ := term_data sol true true hMax cc smax hcc omega L hL s hs1
      have hz : ((amplitudes s).map T.n_h).sum = 0 ∧ ((amplitudes s).map T.n_o).sum = 0 := by
        constructor <;> rw [List.sum_eq_zero] <;> intro y hy <;> obtain ⟨x, hx, rfl⟩ := List.mem_map.1 hy
        · exact ((d8 x hx).2.2 rfl).1
        · exact ((d8 x hx).2.2 rfl).2
      have hlen : (amplitudes s).length ≤ ((amplitudes s).map T.m_h).sum + ((amplitudes s).map T.m_o).sum := by
        have : ∀ xs : List T, (∀ x ∈ xs, AmpAllowed cc true x) → xs.length ≤ (xs.map T.m_h).sum + (xs.map T.m_o).sum := by
          intro xs h3
          induction xs with
          | nil => simp
          | cons x xs ih =>
            have h6 := h3 x (by simp)
            unfold AmpAllowed ampRank at h6
            obtain ⟨h7, _, h8⟩ := h6
            have := h8 rfl
            have := ih fun y hy => h3 y (by simp [hy])
            simp only [List.length_cons, List.map_cons, List.sum_cons]
            omega
        exact this _ d8
      obtain ⟨p1, p2, p3, p4⟩ := d6
      rw [(hs2.map T.m_h).sum_eq, (hs2.map T.m_o).sum_eq, hs2.length_eq]
      exact ⟨⟨d5, by omega, fun x hx => d8 x (hs2.mem_iff.1 hx)⟩, by omega, by omega⟩
  · intro a ha b hb hab
    rw [Function.onFun, Finset.disjoint_left]
    intro p h1 h2
    obtain ⟨xs, hx, rfl⟩ := Finset.mem_image.1 h1
    obtain ⟨ys, hy, he⟩ := Finset.mem_image.1 h2
    simp only [Prod.mk.injEq] at he
    rw [List.mem_toFinset, List.mem_permutations] at hx hy
    have hsame : SameContraction a b := ⟨he.1.1.symm, he.1.2.symm, by rw [he.2] at hy; exact hx.symm.trans hy⟩
    have hsame' : SameContraction b a := ⟨hsame.1.symm, hsame.2.1.symm, hsame.2.2.symm⟩
    rw [Finset.mem_coe, List.mem_toFinset] at ha hb
    rcases (List.pairwise_iff_getElem.1 hu) with hp
    obtain ⟨i, hi, rfl⟩ := List.mem_iff_getElem.1 ha
    obtain ⟨j, hj, rfl⟩ := List.mem_iff_getElem.1 hb
    rcases Nat.lt_trichotomy i j with h | h | h
    · exact hp i j hi hj h hsame
    · subst h; exact hab rfl
    · exact hp j i hj hi h hsame'

theorem blockFactorials_perm {xs ys : List T} (h : xs.Perm ys) : blockFactorials xs = blockFactorials ys := (h.map _).prod_eq

/-- The value of a term as an operator. -/
theorem term_factor (A N : Nat) (h : Arr R) (t : Nat × Nat → Arr R) (m n k : Nat) (hh : LowerSymmetric m n h) (ts : List T)
    (hn : (ts.map T.m_h).sum = n) (hk : m + (ts.map T.m_o).sum = k) :
    (1 / (k.factorial : Rat)) • series N k (fun v => termValue A N h t m n ts v) = factor n k ts • contribution A N h t m n k ts := by
  have hG : ∀ I l l' : List Nat, I.length = m → l.length = n → l.Perm l' → mat A h (l ++ I) = mat A h (l' ++ I) := by
    intro I l l' hI hl hp
    funext a b
    exact hh a b l l' I hl hI hp
  have e0 := series_orders (A := A) (N := N) (fun j => t (j, 0)) (fun K I => mat A h (K ++ I)) n m hG ts hn
  rw [sum_permutations, hk] at e0
  have e1 : series N k (fun v => termValue A N h t m n ts v) = (((distinctTouching ts).factorial : Rat) / (m.factorial * n.factorial * ts.length.factorial) *
      ((if ts.length = 1 then k.factorial else 1 : Nat) : Rat)) • series N k (fun v => ∑ K : Fin n → Fin N, mat A h (modes K ++ v.take m) *
        ((amps A (fun p => t (p.1, 0)) ts (modes K) (v.drop m)).permutations.map List.prod).sum) := by
    rw [← series_smul]
    refine series_congr fun v => ?_
    unfold termValue
    rw [modes_length, ← Nat.cast_smul_eq_nsmul Rat, smul_smul]
    simp only [amps_key]
    rfl
  rw [e1, e0]
  have e2 : contribution A N h t m n k ts = (1 / ((ts.length.factorial * m.factorial * blockFactorials ts : Nat) : Rat)) •
      ∑ ys ∈ ts.permutations.toFinset, seqSeries A N (fun j => t (j, 0)) (fun K I => mat A h (K ++ I)) n m ys := by
    unfold contribution
    rw [Finset.smul_sum]
    refine Finset.sum_congr rfl fun ys hy => ?_
    have hp := List.mem_permutations.1 (List.mem_toFinset.1 hy)
    rw [ordered_eq A N h t m n k ys (by rw [(hp.map T.m_o).sum_eq, hk]), smul_smul, hp.length_eq, ← blockFactorials_perm hp]
    congr 1
    unfold seqWeight blockFactorials
    push_cast
    rw [one_div_mul_one_div]
  rw [e2, ← Nat.cast_smul_eq_nsmul Rat, smul_smul, smul_smul, smul_smul]
  congr 1
  unfold factor
  have f1 : (m.factorial : Rat) ≠ 0 := by exact_mod_cast Nat.factorial_ne_zero _
  have f2 : (n.factorial : Rat) ≠ 0 := by exact_mod_cast Nat.factorial_ne_zero _
  have f3 : (k.factorial : Rat) ≠ 0 := by exact_mod_cast Nat.factorial_ne_zero _
  have f4 : (ts.length.factorial : Rat) ≠ 0 := by exact_mod_cast Nat.factorial_ne_zero _
  have f5 : (blockFactorials ts : Rat) ≠ 0 := by
    have : 0 < blockFactorials ts := by
      unfold blockFactorials
      refine List.prod_pos fun x hx => ?_
      obtain ⟨y, _, rfl⟩ := List.mem_map.1 hx
      exact Nat.mul_pos (Nat.factorial_pos _) (Nat.factorial_pos _)
    exact_mod_cast this.ne'
  push_cast
  field_simp

/-- C80: the array returned by `compute_m0_nk_amplitude` as an operator: every term that is kept and enabled enters with its contribution to `H e^T`,
multiplied by `factor`. -/
theorem amplitude_operator (so : SetOrder Nat) (sol : SetOrder (List T)) (hMax cc smax omegaMax : Nat) (hcc : 1 ≤ cc) (hH : hMax ≤ 6) (hS : smax ≤ 6)
    (hP : omegaMax ≤ 6) (F : List OmegaCode) (hF : pythonFile so sol hMax cc smax omegaMax = .ok F) (c : OmegaCode) (hc : c ∈ F) (hom : c.omega.m = 0)
    (env : Caller) (h1 : env.singles = true) (h2 : env.ground = true) (h3 : FullArgs hMax cc env) : ∃ L r,
    termsFor sol true true hMax cc smax c.omega = .ok L ∧
    callAmplitude (moduleDefs F) env ("compute_m0_n" ++ toString c.omega.n ++ "_amplitude") = .ok (c.omega.n, r) ∧
    ∀ (R : Type) [CommRing R] [Algebra Rat R] (A N : Nat) (h t : Nat × Nat → Arr R), (∀ m n, LowerSymmetric m n (h (m, n))) →
      state A N c.omega.n (returned A N h t r) = (if c.omega.n ≤ hMax then state A N c.omega.n (h (c.omega.n, 0)) else 0) +
        ((termGroups L).map fun l => (((kept so l).filter (Enabled env.fl)).map fun s =>
          factor s.h.n c.omega.n s.ts • contribution A N (h (s.h.m, s.h.n)) t s.h.m s.h.n c.omega.n s.ts).sum).sum := by
  obtain ⟨L, r, hL, hr, hv⟩ := amplitude_value so sol hMax cc smax omegaMax hcc hH hS hP F hF c hc hom env h1 h2 h3
  refine ⟨L, r, hL, hr, ?_⟩
  intro R _ _ A N h t hh
  rw [state_series]
  have e1 : series N c.omega.n (mat A (returned A N h t r)) = series N c.omega.n (fun v => (if c.omega.n ≤ hMax then mat A (h (c.omega.n, 0)) v else 0) +
        ((termGroups L).map fun l => (((kept so l).filter (Enabled env.fl)).map fun s => termValue A N (h (s.h.m, s.h.n)) t s.h.m s.h.n s.ts v).sum).sum) :=
    series_congr fun v => hv R A N h t (modes v) (modes_length v)
  have z : ∀ k, series N k (fun _ => (0 : Matrix (Fin A) (Fin A) R)) = 0 := by
    intro k
    have := series_smul (N := N) (A := A) (R := R) k 0 fun _ => 0
    simpa using this
  have lsum : ∀ {ι : Type} (l : List ι) (k : Nat) (f : ι → List Nat → Matrix (Fin A) (Fin A) R),
      series N k (fun v => (l.map fun i => f i v).sum) = (l.map fun i => series N k (f i)).sum := by
    intro ι l k f
    induction l with
    | nil => exact z k
    | cons i l ih => simp only [List.map_cons, List.sum_cons]; rw [series_add, ih]
  have lsmul : ∀ {ι : Type} (l : List ι) (q : Rat) (f : ι → Fock.Op R A N), q • (l.map f).sum = (l.map fun i => q • f i).sum := by
    intro ι l q f
    induction l with
    | nil => simp
    | cons i l ih => simp only [List.map_cons, List.sum_cons]; rw [smul_add, ih]
  rw [e1, series_add, smul_add]
  congr 1
  · split
    · rw [state_series]
    · rw [z, smul_zero]
  · rw [lsum, lsmul]
    refine congrArg List.sum (List.map_congr_left fun l hl => ?_)
    rw [lsum, lsmul]
    refine congrArg List.sum (List.map_congr_left fun s hs => ?_)
    obtain ⟨k1, k2⟩ := kept_sub so l s (List.mem_filter.1 hs).1
    have hsL := mem_termGroups hl k1
    obtain ⟨d1, d2, _, _, _, _, d7, d8⟩ := term_data sol true true hMax cc smax hcc _ L hL s hsL
    have ha : amplitudes s = s.ts := by
      unfold amplitudes
      rw [if_neg (by simpa [onlyH] using k2)]
    rw [ha] at d8
    have hz : (s.ts.map T.n_h).sum = 0 ∧ (s.ts.map T.n_o).sum = 0 := by
      constructor <;> rw [List.sum_eq_zero] <;> intro y hy <;> obtain ⟨x, hx, rfl⟩ := List.mem_map.1 hy
      · exact ((d8 x hx).2.2 rfl).1
      · exact ((d8 x hx).2.2 rfl).2
    obtain ⟨p1, p2, p3, p4⟩ := d7
    exact term_factor A N _ t s.h.m s.h.n c.omega.n (hh _ _) s.ts (by omega) (by omega)

theorem sum_filter {P : Type} [AddCommMonoid P] {ι : Type} (l : List ι) (p : ι → Bool) (g : ι → P) :
    ((l.filter p).map g).sum = (l.map fun i => if p i = true then g i else 0).sum := by
  induction l with
  | nil => rfl
  | cons i l ih =>
    rw [List.filter_cons, List.map_cons, List.sum_cons, ← ih]
    split <;> simp

/-- The terms of the three groups are all terms. -/
theorem sum_groups {P : Type} [AddCommMonoid P] (L : List Term) (g : Term → P) :
    ((termGroups L).map fun l => ((l.filter fun s => !onlyH s.ts).map g).sum).sum = ((L.filter fun s => !onlyH s.ts).map g).sum := by
  unfold termGroups
  simp only [List.map_cons, List.map_nil, List.sum_cons, List.sum_nil, add_zero, List.filter_filter]
  rw [sum_filter, sum_filter, sum_filter, sum_filter, ← List.sum_map_add, ← List.sum_map_add]
  refine congrArg List.sum (List.map_congr_left fun s _ => ?_)
  cases ho : onlyH s.ts with
  | true => simp
  | false =>
    by_cases h1 : FullyConnected s
    · have h2 : ¬ Linked s := fun h => h.1 h1
      have h3 : ¬ Unlinked s := by
        rintro ⟨x, hx, hx'⟩
        have := h1 x hx
        unfold TouchesH at this
        unfold TakesAllOfOmega at hx'
        omega
      simp [h1, h2, h3]
    · by_cases h3 : Unlinked s
      · have h2 : ¬ Linked s := fun h => h.2 h3
        simp [h1, h2, h3]
      · have h2 : Linked s := ⟨h1, h3⟩
        simp [h1, h2, h3]

/-- With all flags set, if no term is lost and all factors are 1, the function computes the part of `H e^T` with `k` modes. -/
theorem amplitude_exact (so : SetOrder Nat) (sol : SetOrder (List T)) (hMax cc smax omegaMax : Nat) (hcc : 1 ≤ cc) (hH : hMax ≤ 6) (hS : smax ≤ 6)
    (hP : omegaMax ≤ 6) (F : List OmegaCode) (hF : pythonFile so sol hMax cc smax omegaMax = .ok F) (c : OmegaCode) (hc : c ∈ F) (hom : c.omega.m = 0)
    (hs : hMax + c.omega.n ≤ smax) (env : Caller) (h1 : env.singles = true) (h2 : env.ground = true) (h3 : FullArgs hMax cc env)
    (h4 : ∀ n, env.fl.h n = true) (h5 : ∀ n, env.fl.t n = true)
    (h6 : ∀ L, termsFor sol true true hMax cc smax c.omega = .ok L → (∀ s ∈ L, onlyH s.ts = false → factor s.h.n c.omega.n s.ts = 1) ∧ ∀ l ∈ termGroups L, (keysOf so l).Nodup) : ∃ r,
    callAmplitude (moduleDefs F) env ("compute_m0_n" ++ toString c.omega.n ++ "_amplitude") = .ok (c.omega.n, r) ∧
    ∀ (R : Type) [CommRing R] [Algebra Rat R] (A N M : Nat), hMax + c.omega.n ≤ M → ∀ h t : Nat × Nat → Arr R, (∀ m n, LowerSymmetric m n (h (m, n))) →
      (∀ k, ModeSymmetric k (t (k, 0))) →
      state A N c.omega.n (returned A N h t r) =
        part c.omega.n (Spec.Fock.hamiltonian A N (hamiltonianOf hMax) h (expUpTo M (cluster A N (Finset.Icc 1 cc) fun j => t (j, 0)))) := by
  obtain ⟨L, r, hL, hr, hv⟩ := amplitude_operator so sol hMax cc smax omegaMax hcc hH hS hP F hF c hc hom env h1 h2 h3
  refine ⟨r, hr, ?_⟩
  intro R _ _ A N M hM h t hh ht
  obtain ⟨hf, hk⟩ := h6 L hL
  rw [hv R A N h t hh, exp_contributions sol hMax cc smax hcc c.omega hom hs L hL A N M hM h t hh ht]
  have e1 : ∀ l ∈ termGroups L, (((kept so l).filter (Enabled env.fl)).map fun s =>
      factor s.h.n c.omega.n s.ts • contribution A N (h (s.h.m, s.h.n)) t s.h.m s.h.n c.omega.n s.ts).sum =
      ((l.filter fun s => !onlyH s.ts).map fun s => contribution A N (h (s.h.m, s.h.n)) t s.h.m s.h.n c.omega.n (amplitudes s)).sum := by
    intro l hl
    have hen : (kept so l).filter (Enabled env.fl) = kept so l := by
      rw [List.filter_eq_self]
      intro s _
      simp [Enabled, h4, h5]
    rw [hen, (all_kept_iff so l).2 (hk l hl)]
    refine congrArg List.sum (List.map_congr_left fun s hs => ?_)
    obtain ⟨m1, m2⟩ := List.mem_filter.1 hs
    have m2' : onlyH s.ts = false := by simpa using m2
    rw [hf s (mem_termGroups hl m1) m2', one_smul]
    unfold amplitudes
    rw [if_neg (by simpa [onlyH] using m2')]
  rw [congrArg List.sum (List.map_congr_left e1), sum_groups]
  have e2 : (L.map fun s => contribution A N (h (s.h.m, s.h.n)) t s.h.m s.h.n c.omega.n (amplitudes s)).sum =
      ((L.filter fun s => onlyH s.ts).map fun s => contribution A N (h (s.h.m, s.h.n)) t s.h.m s.h.n c.omega.n (amplitudes s)).sum +
      ((L.filter fun s => !onlyH s.ts).map fun s => contribution A N (h (s.h.m, s.h.n)) t s.h.m s.h.n c.omega.n (amplitudes s)).sum := by
    rw [sum_filter, sum_filter, ← List.sum_map_add]
    refine congrArg List.sum (List.map_congr_left fun s _ => ?_)
    cases onlyH s.ts <;> simp
  rw [e2]
  congr 1
  have e3 : ∀ s ∈ L.filter fun s => onlyH s.ts, contribution A N (h (s.h.m, s.h.n)) t s.h.m s.h.n c.omega.n (amplitudes s) = state A N c.omega.n (h (c.omega.n, 0)) := by
    intro s hs
    obtain ⟨m1, m2⟩ := List.mem_filter.1 hs
    obtain ⟨_, d2, _, _, _, d6, _⟩ := term_data sol true true hMax cc smax hcc c.omega L hL s m1
    have ha : amplitudes s = [] := by unfold amplitudes; rw [if_pos (by simpa [onlyH] using m2)]
    rw [ha] at d6 ⊢
    obtain ⟨p1, p2, p3, p4⟩ := d6
    simp only [List.map_nil, List.sum_nil, Nat.zero_add] at p1 p2 p3 p4
    have q1 : s.h.m = c.omega.n := by omega
    have q2 : s.h.n = 0 := by
      have := (term_data sol true true hMax cc smax hcc c.omega L hL s m1).1
      omega
    rw [q1, q2, state_series]
    unfold contribution
    rw [show ([] : List T).permutations.toFinset = {[]} by simp [List.permutations], Finset.sum_singleton, ordered_eq _ _ _ _ _ _ _ _ (by simp)]
    unfold seqWeight seqSeries
    simp only [List.length_nil, Nat.factorial_zero, one_mul, List.map_nil, List.prod_nil, Nat.cast_one, div_one, one_smul, List.sum_nil, add_zero]
    congr 1
    refine series_congr fun v => ?_
    rw [Fintype.sum_unique, amps, List.prod_nil, mul_one, List.take_of_length_le (by rw [modes_length])]
    simp [modes]
  rw [List.map_congr_left e3, List.map_const', List.sum_replicate, count_onlyH sol hMax cc smax hcc c.omega hom L hL]
  split <;> simp

end TF.CC
