import Verif.Spec.ETValue
import Verif.Lemmas.Contract
import Verif.Lemmas.ETComputes
import Verif.Lemmas.Lowering

/-! # The values of the generated einsum calls of the e^T equations -/

namespace TF.Tensor

open TF.Spec.Tensor

variable {R : Type} [CommRing R]

/-- The order of the letters does not matter. -/
theorem sumOver_perm (dim : Char → Nat) {l l' : List Char} (h : l.Perm l') : l.Nodup → ∀ (σ : Char → Nat) (F : (Char → Nat) → R),
    sumOver dim l σ F = sumOver dim l' σ F := by
  induction h with
  | nil => exact fun _ _ _ => rfl
  | cons c _ ih =>
    intro hn σ F
    unfold sumOver
    exact Finset.sum_congr rfl fun i _ => ih (List.nodup_cons.1 hn).2 _ _
  | swap c d l =>
    intro hn σ F
    have hcd : d ≠ c := by
      have := (List.nodup_cons.1 hn).1
      simp only [List.mem_cons, not_or] at this
      exact this.1
    simp only [sumOver]
    rw [Finset.sum_comm]
    refine Finset.sum_congr rfl fun i _ => Finset.sum_congr rfl fun j _ => ?_
    rw [Function.update_comm hcd]
  | trans h1 _ ih1 ih2 =>
    intro hn σ F
    rw [ih1 hn, ih2 (h1.nodup_iff.1 hn)]

/-- the sum over all lists of `n` modes -/
def sumL {M : Type} [AddCommMonoid M] (N n : Nat) (F : List Nat → M) : M := ∑ K : Fin n → Fin N, F (TF.Spec.Fock.modes K)

section
variable {M : Type} [AddCommMonoid M]

theorem sumL_zero (N : Nat) (F : List Nat → M) : sumL N 0 F = F [] := by
  unfold sumL
  rw [Fintype.sum_unique]
  rfl

theorem sumL_succ (N n : Nat) (F : List Nat → M) : sumL N (n + 1) F = ∑ i : Fin N, sumL N n fun l => F (i.val :: l) := by
  unfold sumL
  rw [← Equiv.sum_comp (Fin.consEquiv (fun _ : Fin (n + 1) => Fin N)), Fintype.sum_prod_type]
  refine Finset.sum_congr rfl fun i _ => Finset.sum_congr rfl fun K _ => ?_
  congr 1
  simp [TF.Spec.Fock.modes, List.ofFn_succ]

theorem sumL_congr {N n : Nat} {F G : List Nat → M} (h : ∀ l, l.length = n → F l = G l) : sumL N n F = sumL N n G :=
  Finset.sum_congr rfl fun K _ => h _ (by simp [TF.Spec.Fock.modes])

theorem sumL_add (N m n : Nat) : ∀ F : List Nat → M, sumL N (m + n) F = sumL N m fun l => sumL N n fun l' => F (l ++ l') := by
  induction m with
  | zero => intro F; rw [sumL_zero, Nat.zero_add]; rfl
  | succ m ih =>
    intro F
    rw [Nat.add_right_comm, sumL_succ, sumL_succ]
    exact Finset.sum_congr rfl fun i _ => ih _

theorem sumL_comm (N m n : Nat) (F : List Nat → List Nat → M) : (sumL N m fun l => sumL N n fun l' => F l l') = sumL N n fun l' => sumL N m fun l => F l l' :=
  Finset.sum_comm

theorem sumOver_list (dim : Char → Nat) (N : Nat) (cs : List Char) (hN : ∀ c ∈ cs, dim c = N) (σ : Char → Nat) (F : (Char → Nat) → R) :
    sumOver dim cs σ F = sumL N cs.length fun l => F (assign cs l σ) :=
  sumOver_all dim N cs hN σ F

end

end TF.Tensor

namespace TF.ETPy

open TF.Py TF.Spec.ETPy TF.Spec.Tensor TF.Tensor TF.Spec.ET
open TF.CC (Op HOp summationIdx unlinkedIdx)
open TF.ET (Mode)

variable {R : Type} [CommRing R]

/-- parts of a piece -/
theorem at'_piece (l : List Char) {a n M : Nat} (h : a + n ≤ M) : at' l a n = ((at' l 0 M).drop a).take n := by
  have e1 : at' l 0 M = at' l 0 a ++ (at' l a n ++ at' l (a + n) (M - (a + n))) := by
    rw [at'_append, show n + (M - (a + n)) = M - a by omega]
    have := at'_append l 0 a (M - a)
    rw [Nat.zero_add] at this
    rw [this]
    congr 1
    omega
  by_cases hl : a + n ≤ l.length
  · rw [e1, List.drop_left' (length_at' (by omega)), List.take_left' (length_at' hl)]
  · unfold at' slice
    rw [Nat.zero_add, List.drop_zero, List.drop_take, List.drop_take, List.take_take]
    congr 1
    omega

/-- the letters in the order of the values -/
theorem map_piece {l : List Char} {τ : Char → Nat} {L : List Nat} {M : Nat} (hτ : (at' l 0 M).map τ = L) {a n : Nat} (h : a + n ≤ M) :
    (at' l a n).map τ = (L.drop a).take n := by
  rw [at'_piece l h, List.map_take, List.map_drop, hτ]

/-- the product over the factors -/
theorem prod_factors (mode : Mode) (k : Nat) (h : HOp) (g : Pl k → R) (g' : Nat → R) (hg : k ≠ 0 → ∀ i : Fin (tFactors k).length, g (.t i) = g' i) :
    ((factors mode k h).map g).prod = ((List.range k).map g').prod * ((if onZ mode h then 1 else g .h) * g .z) := by
  unfold factors
  rw [List.map_append, List.map_append, List.prod_append, List.prod_append]
  congr 1
  · by_cases hk : k = 0
    · subst hk; simp
    · rw [if_neg hk, List.map_map]
      rw [← finRange_map_range g' k]
      have e := tFactors_length hk
      have : ∀ (n : Nat) (e : n = k) (G : Fin n → R), (∀ i, G i = g' i) → ((List.finRange n).map G).prod = ((List.finRange k).map fun i : Fin k => g' i).prod := by
        intro n e G hG
        subst e
        rw [List.map_congr_left fun i _ => hG i]
      exact this _ e _ fun i => hg hk i
  · split <;> simp

theorem zipWith_same {α β γ δ : Type} (f : β → γ → δ) (a : α → β) (b : α → γ) (l : List α) :
    List.zipWith f (l.map a) (l.map b) = l.map fun x => f (a x) (b x) := by
  induction l with
  | nil => rfl
  | cons x l ih => simp [ih]

/-- the electronic axes are those with the electronic letters -/
theorem take_electronic (mode : Mode) {k : Nat} (h : HOp) (z : Op) (lab : Pl k → List Char) (p : Pl k) (hp : p ∈ factors mode k h) :
    (elec mode p ++ lab p).take (TF.Spec.ETValue.electronic (operand mode h z p).name) = elec mode p := by
  have hne : p ≠ .lhs := by
    rintro rfl
    unfold factors at hp
    split at hp <;> split at hp <;> simp at hp
  cases p with
  | lhs => exact absurd rfl hne
  | t i => cases mode <;> simp [elec, operand, TF.Spec.ETValue.electronic]
  | h => cases mode <;> simp [elec, operand, TF.Spec.ETValue.electronic]
  | z =>
    have : TF.Spec.ETValue.electronic (operand mode h z (.z : Pl k)).name = 1 := by
      simp only [operand]
      split <;> rfl
    rw [this]
    rfl

/-- the letters that are summed over -/
def summed (mode : Mode) (M : Nat) : List Char := (match mode with | .rhs => ['c'] | .lhs => []) ++ at' summationIdx 0 M

theorem mem_factors {mode : Mode} {k : Nat} {h : HOp} {p : Pl k} :
    p ∈ factors mode k h ↔ (∃ i, p = .t i ∧ k ≠ 0) ∨ (p = .h ∧ ¬ onZ mode h) ∨ p = .z := by
  unfold factors
  by_cases hk : k = 0 <;> by_cases ho : onZ mode h <;> simp [hk, ho, eq_comm]

theorem notS {x : Char} (h : x ∉ summationIdx) {a n : Nat} : x ∉ at' summationIdx a n := fun hx => h (mem_of_at' hx)
theorem notU {x : Char} (h : x ∉ unlinkedIdx) {a n : Nat} : x ∉ at' unlinkedIdx a n := fun hx => h (mem_of_at' hx)

section
variable {N k zm j hl zl : Nat}

theorem summed_nodup (mode : Mode) (M : Nat) : (summed mode M).Nodup := by
  unfold summed
  cases mode with
  | rhs =>
    show ('c' :: at' summationIdx 0 M).Nodup
    exact List.nodup_cons.2 ⟨notS (by decide), nodup_at' nodup_S _ _⟩
  | lhs => exact nodup_at' nodup_S _ _

theorem summed_eq {mode : Mode} {h : HOp} {z : Op} (n : Nums N k h.m h.n zm j hl zl) (cap : k + h.n ≤ 10) :
    ((codeOf mode N k h z j hl).subs.flatten.filter fun c => decide (c ∉ (codeOf mode N k h z j hl).out)).dedup.Perm (summed mode (k + h.n)) := by
  rw [List.perm_ext_iff_of_nodup (List.nodup_dedup _) (summed_nodup mode _)]
  intro x
  rw [List.mem_dedup, List.mem_filter, decide_eq_true_eq]
  simp only [codeOf, List.mem_flatten, List.mem_map]
  have n1 := n.le
  have n4 := n.onN
  constructor
  · rintro ⟨⟨s, ⟨p, hp, rfl⟩, hx⟩, hout⟩
    rw [List.mem_append, not_or] at hout
    rw [List.mem_append] at hx
    rcases hx with hx | hx
    · unfold summed
      cases mode with
      | rhs =>
        cases p with
        | lhs => exact absurd hx hout.1
        | t i => simp [elec] at hx
        | h =>
          simp only [elec, List.mem_cons, List.not_mem_nil, or_false] at hx
          rcases hx with rfl | rfl
          · simp [elec] at hout
          · simp
        | z => simp only [elec, List.mem_cons, List.not_mem_nil, or_false] at hx; subst hx; simp
      | lhs =>
        cases p with
        | lhs => exact absurd hx hout.1
        | t i => simp [elec] at hx
        | h => simp [elec] at hx
        | z => simp only [elec, List.mem_cons, List.not_mem_nil, or_false] at hx; subst hx; simp [elec] at hout
    · unfold summed
      rw [List.mem_append]
      right
      rcases letter_cases hx with ⟨i, hi⟩ | ⟨i, hi⟩
      · rw [memS_iff hi]
        obtain ⟨o1, o2, o3, o4⟩ := onS n hi
        cases p with
        | lhs => exact absurd hx o1
        | t i' =>
          obtain ⟨a, b⟩ := (o2 i').1 hx
          have h1 := i'.2
          have h2 := tFactors_length a
          omega
        | h => have := o3.1 hx; omega
        | z => have := o4.1 hx; omega
      · obtain ⟨o1, o2, o3, o4⟩ := onU n hi
        have h0 : ¬ i < N := fun h => hout.2 (o1.2 h)
        cases p with
        | lhs => exact absurd hx hout.2
        | t i' => exact absurd hx (o2 i')
        | h => have := o3.1 hx; omega
        | z => have := o4.1 hx; omega
  · intro hx
    unfold summed at hx
    rw [List.mem_append] at hx
    rcases hx with hx | hx
    · cases mode with
      | rhs =>
        simp only [List.mem_cons, List.not_mem_nil, or_false] at hx
        subst hx
        refine ⟨⟨_, ⟨.z, mem_factors.2 (.inr (.inr rfl)), rfl⟩, by simp [elec]⟩, ?_⟩
        rw [List.mem_append, not_or]
        exact ⟨by simp [elec], notU (by decide)⟩
      | lhs => simp at hx
    · obtain ⟨i, _, hi2, hi⟩ := mem_at'.1 hx
      obtain ⟨o1, o2, o3, o4⟩ := onS n hi
      have hS := mem_of_at' hx
      have hout : x ∉ elec mode (.lhs : Pl k) ++ labOf N k h.n j hl .lhs := by
        rw [List.mem_append, not_or]
        refine ⟨?_, o1⟩
        intro h
        cases mode <;> simp only [elec, List.mem_cons, List.not_mem_nil, or_false] at h <;> subst h <;> revert hS <;> decide
      refine ⟨?_, hout⟩
      by_cases hk : i < k
      · have hk0 : k ≠ 0 := by omega
        refine ⟨_, ⟨.t ⟨i, by rw [tFactors_length hk0]; exact hk⟩, mem_factors.2 (.inl ⟨_, rfl, hk0⟩), rfl⟩, ?_⟩
        rw [List.mem_append]
        exact .inr ((o2 _).2 ⟨hk0, rfl⟩)
      · refine ⟨_, ⟨.z, mem_factors.2 (.inr (.inr rfl)), rfl⟩, ?_⟩
        rw [List.mem_append]
        exact .inr (o4.2 (by omega))

end

/-- the matrix of a term: on the left-hand side a number -/
def hOf (mode : Mode) (args : String → Nat × Nat → Arr R) (o : Nat × Nat) (a b : Nat) (l : List Nat) : R :=
  match mode with
  | .rhs => args "h_args" o (a :: b :: l)
  | .lhs => if a = b then (if o = (0, 0) then 1 else args "dT" o l) else 0

/-- the vector of a term -/
def zOf (mode : Mode) (args : String → Nat × Nat → Arr R) (o : Nat × Nat) (m : Nat) (b : Nat) (l : List Nat) : R :=
  match mode with
  | .rhs => args "z_args" (m, 0) (b :: l)
  | .lhs => args (if o = (0, 0) then "dz_args" else "z_args") (m, 0) (b :: l)

/-- the amplitudes t -/
def tArg (mode : Mode) (args : String → Nat × Nat → Arr R) : Arr R :=
  args (match mode with | .rhs => "t_args" | .lhs => "t_conj") (0, 1)

/-- the product of the t of some modes -/
def tProd (t : Arr R) (l : List Nat) : R := (l.map fun i => t [i]).prod

theorem range_map_tProd (t : Arr R) (L : List Nat) (k : Nat) (hk : k ≤ L.length) :
    ((List.range k).map fun i => t ((L.drop i).take 1)).prod = tProd t (L.take k) := by
  unfold tProd
  congr 1
  refine List.ext_getElem (by simp; omega) fun i h1 h2 => ?_
  simp only [List.length_map, List.length_range] at h1
  rw [List.getElem_map, List.getElem_map, List.getElem_range, List.getElem_take]
  congr 1
  rw [List.drop_eq_getElem_cons (by omega)]
  rfl

section
variable {P k j hl zl : Nat}

/-- The value of a generated product. -/
theorem value_codeOf {mode : Mode} {h : HOp} {z : Op} (n : Nums P k h.m h.n z.m j hl zl) (cap : k + h.n ≤ 10) (capN : P ≤ 8) (hz : z.n = 0)
    (A N : Nat) (args : String → Nat × Nat → Arr R) (a : Fin A) (v : List Nat) (hv : v.length = P) :
    TF.Spec.ETValue.einsum A N args (codeOf mode P k h z j hl) (a.val :: v) =
      ∑ b : Fin A, sumL N (k + h.n) fun L => tProd (tArg mode args) (L.take k) *
        (hOf mode args (h.m, h.n) a b ((L.drop j).take (k - j) ++ (L.drop k).take h.n ++ v.take hl) *
          zOf mode args (h.m, h.n) z.m b (L.take j ++ (L.drop k).take h.n ++ v.drop hl)) := by
  have n1 := n.le
  have n2 := n.onH
  have n4 := n.onN
  have nlen : (at' summationIdx 0 (k + h.n)).length = k + h.n := length_at' (by simpa [summationIdx] using cap)
  unfold TF.Spec.ETValue.einsum
  rw [sumOver_perm _ (summed_eq n cap) (List.nodup_dedup _)]
  set σ : Char → Nat := fun c => (a.val :: v).getD ((codeOf mode P k h z j hl).out.idxOf c) 0 with hσ
  have hzip : ∀ τ : Char → Nat, (List.zipWith (fun (o : Operand) (s : List Char) => args o.name (o.m, o.n) (s.map τ)) (codeOf mode P k h z j hl).operands
      (codeOf mode P k h z j hl).subs).prod = ((factors mode k h).map fun p => args (operand mode h z p).name ((operand mode h z p).m, (operand mode h z p).n)
        ((elec mode p ++ labOf P k h.n j hl p).map τ)).prod := by
    intro τ
    simp only [codeOf]
    rw [zipWith_same]
  simp only [hzip]
  have hax : ∀ c, TF.Spec.ETValue.axis A N (List.zipWith (fun (o : Operand) s => (TF.Spec.ETValue.electronic o.name, s)) (codeOf mode P k h z j hl).operands
      (codeOf mode P k h z j hl).subs) c = if c = 'c' ∨ (mode = .rhs ∧ c = 'a') then A else N := by
    intro c
    unfold TF.Spec.ETValue.axis
    have : c ∈ (List.zipWith (fun (o : Operand) s => (TF.Spec.ETValue.electronic o.name, s)) (codeOf mode P k h z j hl).operands
      (codeOf mode P k h z j hl).subs).flatMap (fun o => o.2.take o.1) ↔ (c = 'c' ∨ (mode = .rhs ∧ c = 'a')) := by
      simp only [codeOf]
      rw [zipWith_same, List.mem_flatMap]
      simp only [List.mem_map]
      constructor
      · rintro ⟨_, ⟨p, hp, rfl⟩, hc⟩
        rw [take_electronic mode h z _ p hp] at hc
        cases mode <;> cases p <;> simp [elec] at hc ⊢ <;> tauto
      · intro hc
        have hzm : (.z : Pl k) ∈ factors mode k h := mem_factors.2 (.inr (.inr rfl))
        rcases hc with rfl | ⟨hm, rfl⟩
        · refine ⟨_, ⟨.z, hzm, rfl⟩, ?_⟩
          rw [take_electronic mode h z _ _ hzm]
          simp [elec]
        · subst hm
          have hhm : (.h : Pl k) ∈ factors .rhs k h := mem_factors.2 (.inr (.inl ⟨rfl, by simp [onZ]⟩))
          refine ⟨_, ⟨.h, hhm, rfl⟩, ?_⟩
          rw [take_electronic .rhs h z _ _ hhm]
          simp [elec]
    by_cases hc : c = 'c' ∨ (mode = .rhs ∧ c = 'a')
    · rw [if_pos hc, if_pos (this.2 hc)]
    · rw [if_neg hc, if_neg (fun h => hc (this.1 h))]
  have hdimS : ∀ c ∈ at' summationIdx 0 (k + h.n), TF.Spec.ETValue.axis A N (List.zipWith (fun (o : Operand) s => (TF.Spec.ETValue.electronic o.name, s)) (codeOf mode P k h z j hl).operands
      (codeOf mode P k h z j hl).subs) c = N := by
    intro c hc
    rw [hax, if_neg]
    have := mem_of_at' hc
    rintro (rfl | ⟨_, rfl⟩) <;> revert this <;> decide
  -- the values of the letters
  have hU : ∀ (τ : Char → Nat), (∀ x ∈ unlinkedIdx, τ x = σ x) → (at' unlinkedIdx 0 P).map τ = v := by
    intro τ hτ
    rw [List.map_congr_left fun x hx => hτ x (mem_of_at' hx)]
    have hout : (codeOf mode P k h z j hl).out = (elec mode (.lhs : Pl k)) ++ at' unlinkedIdx 0 P := rfl
    have he : ∃ x, elec mode (.lhs : Pl k) = [x] ∧ x ∉ unlinkedIdx := by
      cases mode
      · exact ⟨_, rfl, by decide⟩
      · exact ⟨_, rfl, by decide⟩
    obtain ⟨x, hx, hxU⟩ := he
    have := getD_idxOf_append' [x] (at' unlinkedIdx 0 P) [a.val] v rfl (List.nodup_cons.2 ⟨notU hxU, nodup_at' nodup_U _ _⟩)
      (by rw [length_at' (by simpa [unlinkedIdx] using capN), hv])
    rw [hσ]
    simp only [hout, hx]
    exact this
  have hprod : ∀ (τ : Char → Nat) (L : List Nat) (b : Nat), L.length = k + h.n → (∀ x ∈ unlinkedIdx, τ x = σ x) → (at' summationIdx 0 (k + h.n)).map τ = L →
      (mode = .rhs → τ 'a' = a) → (mode = .lhs → b = a) → τ 'c' = b →
      ((factors mode k h).map fun p => args (operand mode h z p).name ((operand mode h z p).m, (operand mode h z p).n)
        ((elec mode p ++ labOf P k h.n j hl p).map τ)).prod = tProd (tArg mode args) (L.take k) *
        (hOf mode args (h.m, h.n) a b ((L.drop j).take (k - j) ++ (L.drop k).take h.n ++ v.take hl) *
          zOf mode args (h.m, h.n) z.m b (L.take j ++ (L.drop k).take h.n ++ v.drop hl)) := by
    intro τ L b hL h1 h2 h3 h3' h4
    have hUτ := hU τ h1
    rw [prod_factors mode k h _ (fun i => tArg mode args ((L.drop i).take 1))]
    · rw [range_map_tProd _ _ _ (by omega)]
      congr 1
      have elabh : (labOf P k h.n j hl (.h : Pl k)).map τ = (L.drop j).take (k - j) ++ (L.drop k).take h.n ++ v.take hl := by
        show (hLab k j h.n hl).map τ = _
        unfold hLab
        rw [List.map_append, List.map_append, map_piece h2 (by omega), map_piece h2 (by omega), map_piece hUτ (by omega), List.drop_zero]
      have elabz : (labOf P k h.n j hl (.z : Pl k)).map τ = L.take j ++ (L.drop k).take h.n ++ v.drop hl := by
        show (zLab k j h.n hl (P - hl)).map τ = _
        unfold zLab
        rw [List.map_append, List.map_append, map_piece h2 (by omega), map_piece h2 (by omega), map_piece hUτ (by omega), List.drop_zero]
        congr 1
        rw [List.take_of_length_le (by simp [hv])]
      have hzv : args (operand mode h z (.z : Pl k)).name ((operand mode h z (.z : Pl k)).m, (operand mode h z (.z : Pl k)).n)
          ((elec mode (.z : Pl k) ++ labOf P k h.n j hl .z).map τ) = zOf mode args (h.m, h.n) z.m b (L.take j ++ (L.drop k).take h.n ++ v.drop hl) := by
        rw [List.map_append, elabz]
        simp only [operand, elec, List.map_cons, List.map_nil, List.cons_append, List.nil_append, h4, hz]
        cases mode with
        | rhs => simp [zOf, onZ]
        | lhs => simp [zOf, onZ]
      rw [hzv]
      congr 1
      by_cases ho : onZ mode h
      · rw [if_pos ho]
        obtain ⟨o1, o2, o3⟩ := ho
        subst o1
        have := h3' rfl
        subst this
        simp [hOf, o2, o3]
      · rw [if_neg ho, List.map_append, elabh]
        cases mode with
        | rhs => simp only [operand, elec, List.map_cons, List.map_nil, List.cons_append, List.nil_append, h4, h3 rfl, hOf]
        | lhs =>
          have := h3' rfl
          subst this
          have : ¬ ((h.m, h.n) = (0, 0)) := by
            intro hc
            rw [Prod.mk.injEq] at hc
            exact ho ⟨rfl, hc⟩
          simp only [operand, elec, List.map_nil, List.nil_append, hOf, if_neg this, if_true]
    · intro hk i
      have hi : i.val < k := by
        have h1 := i.2
        have h2 := tFactors_length hk
        omega
      have e : (labOf P k h.n j hl (.t i : Pl k)).map τ = (L.drop i).take 1 := by
        show (if k = 0 then [] else tLab i).map τ = _
        rw [if_neg hk]
        exact map_piece h2 (by omega)
      rw [List.map_append, e]
      cases mode <;> simp [operand, elec, tArg]
  have hcS : 'c' ∉ at' summationIdx 0 (k + h.n) := notS (by decide)
  have haS : 'a' ∉ at' summationIdx 0 (k + h.n) := notS (by decide)
  have hSU : ∀ x ∈ unlinkedIdx, x ∉ at' summationIdx 0 (k + h.n) := fun x hx hs => S_not_U x (mem_of_at' hs) hx
  cases mode with
  | rhs =>
    show sumOver _ ('c' :: at' summationIdx 0 (k + h.n)) σ _ = _
    rw [sumOver, hax, if_pos (.inl rfl)]
    refine Finset.sum_congr rfl fun b _ => ?_
    rw [sumOver_list _ N _ hdimS, nlen]
    refine sumL_congr fun L hL => ?_
    refine hprod _ L b hL ?_ (map_assign _ (nodup_at' nodup_S _ _) _ _ (by rw [nlen, hL])) ?_ (by simp) ?_
    · intro x hx
      rw [assign_of_notMem _ _ _ _ (hSU x hx), Function.update_of_ne]
      rintro rfl
      revert hx
      decide
    · intro _
      rw [assign_of_notMem _ _ _ _ haS, Function.update_of_ne (by decide)]
      rfl
    · rw [assign_of_notMem _ _ _ _ hcS, Function.update_self]
  | lhs =>
    show sumOver _ (at' summationIdx 0 (k + h.n)) σ _ = _
    rw [Finset.sum_eq_single a]
    · rw [sumOver_list _ N _ hdimS, nlen]
      refine sumL_congr fun L hL => ?_
      refine hprod _ L a hL ?_ (map_assign _ (nodup_at' nodup_S _ _) _ _ (by rw [nlen, hL])) (by simp) (fun _ => rfl) ?_
      · intro x hx
        rw [assign_of_notMem _ _ _ _ (hSU x hx)]
      · rw [assign_of_notMem _ _ _ _ hcS]
        rfl
    · intro b _ hb
      have hab : a.val ≠ b.val := fun h => hb (Fin.ext h.symm)
      refine (sumL_congr (G := fun _ => 0) fun L hL => ?_).trans ?_
      · simp [hOf, hab]
      · simp [sumL]
    · simp

end

end TF.ETPy
