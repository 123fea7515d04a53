import Verif.Spec.ETPython
import Verif.Props.ET
import Mathlib.Data.Nat.Choose.Basic
import Mathlib.Data.Rat.Defs
import Mathlib.Tactic.FieldSimp
import Mathlib.Tactic.Ring

/-! # Lemmas about the Python code of the e^T z_t equations: one term -/

namespace TF.ETPy

open TF.Py
open TF.CC (Op HOp Series collect collect_ok_of summationIdx unlinkedIdx glue hamiltonianTag taylorTag charsLe omegaOps)
open TF.Helper (uniquePermutations)
open TF.ET (Mode Term T HC Z tOf sortT termOf Dist GoodDist Balanced zOf lenOf rankOf)
open TF.Spec.ET TF.Spec.ETPy

/-! ## The order of the t factors -/

theorem insert_z (a b : Nat) : insertBy (fun x y : T => lexLe x.key y.key) (tOf 1 1)
    (List.replicate a (tOf 1 1) ++ List.replicate b (tOf 1 0)) =
      List.replicate (a + 1) (tOf 1 1) ++ List.replicate b (tOf 1 0) := by
  cases a with
  | zero =>
    cases b with
    | zero => rfl
    | succ b => simp [List.replicate_succ, insertBy, T.key, tOf, lexLe, TF.ET.T.key]
  | succ a => simp [List.replicate_succ, insertBy, T.key, tOf, lexLe, TF.ET.T.key]

theorem insert_h (a b : Nat) : insertBy (fun x y : T => lexLe x.key y.key) (tOf 1 0)
    (List.replicate a (tOf 1 1) ++ List.replicate b (tOf 1 0)) =
      List.replicate a (tOf 1 1) ++ List.replicate (b + 1) (tOf 1 0) := by
  induction a with
  | zero =>
    cases b with
    | zero => rfl
    | succ b => simp [List.replicate_succ, insertBy, tOf, lexLe, TF.ET.T.key]
  | succ a ih =>
    rw [List.replicate_succ, List.cons_append, insertBy, if_neg (by decide), ih]
    rfl

theorem sortT_one : ∀ xs : List Nat, (∀ x ∈ xs, x ≤ 1) →
    sortT (xs.map (tOf 1)) = List.replicate xs.sum (tOf 1 1) ++ List.replicate (xs.length - xs.sum) (tOf 1 0) ∧
      xs.sum ≤ xs.length
  | [], _ => ⟨rfl, le_refl _⟩
  | x :: xs, h => by
    obtain ⟨ih, hle⟩ := sortT_one xs fun y hy => h y (by simp [hy])
    have hx := h x (by simp)
    unfold sortT at ih ⊢
    rw [List.map_cons, sortBy, ih]
    obtain rfl | rfl : x = 0 ∨ x = 1 := by omega
    · rw [insert_h]
      simp only [List.sum_cons, List.length_cons, Nat.zero_add]
      exact ⟨by rw [show xs.length - xs.sum + 1 = xs.length + 1 - xs.sum by omega], by omega⟩
    · rw [insert_z]
      simp only [List.sum_cons, List.length_cons]
      exact ⟨by rw [show xs.length - xs.sum = xs.length + 1 - (1 + xs.sum) by omega, Nat.add_comm 1], by omega⟩

/-- The t factors of a term of order `k` of which `j` are paired with z. -/
def tsOf (k j : Nat) : List T :=
  if k = 0 then [tOf 0 0] else List.replicate j (tOf 1 1) ++ List.replicate (k - j) (tOf 1 0)

/-! ## Letters -/

theorem at'_zero (l : List Char) (a : Nat) : at' l a 0 = [] := by simp [at', slice]

theorem at'_append (l : List Char) (a n m : Nat) : at' l a n ++ at' l (a + n) m = at' l a (n + m) := by
  unfold at' slice
  have h : ∀ (i : Nat), (l.take i).drop a = (l.drop a).take (i - a) := fun i => by rw [List.drop_take]
  rw [h, h, Nat.add_sub_cancel_left, List.drop_take, show a + (n + m) - a = n + m by omega,
    show a + n + m - (a + n) = m by omega, List.take_add, List.drop_drop]

theorem length_at' {l : List Char} {a n : Nat} (h : a + n ≤ l.length) : (at' l a n).length = n := by
  unfold at'
  rw [length_slice]
  omega

theorem mem_at' {l : List Char} {a n : Nat} {x : Char} : x ∈ at' l a n ↔ ∃ i, a ≤ i ∧ i < a + n ∧ l[i]? = some x := by
  unfold at' slice
  rw [List.drop_take, List.mem_iff_getElem?]
  constructor
  · rintro ⟨i, hi⟩
    rw [List.getElem?_take] at hi
    split at hi
    · rw [List.getElem?_drop] at hi
      exact ⟨a + i, by omega, by omega, hi⟩
    · simp at hi
  · rintro ⟨i, h1, h2, h3⟩
    refine ⟨i - a, ?_⟩
    rw [List.getElem?_take, if_pos (by omega), List.getElem?_drop, show a + (i - a) = i by omega]
    exact h3

theorem nodup_at' {l : List Char} (h : l.Nodup) (a n : Nat) : (at' l a n).Nodup :=
  h.sublist ((List.drop_sublist _ _).trans (List.take_sublist _ _))

theorem getElem?_unique {l : List Char} (h : l.Nodup) {i j : Nat} {x : Char} (a : l[i]? = some x) (b : l[j]? = some x) : i = j := by
  rw [List.getElem?_eq_some_iff] at a b
  obtain ⟨h1, e1⟩ := a
  obtain ⟨h2, e2⟩ := b
  exact (List.Nodup.getElem_inj_iff h).1 (e1.trans e2.symm)

theorem disjoint_at' {l : List Char} (h : l.Nodup) {a n b m : Nat} (hab : a + n ≤ b ∨ b + m ≤ a) {x : Char}
    (hx : x ∈ at' l a n) : x ∉ at' l b m := by
  intro hy
  obtain ⟨i, h1, h2, h3⟩ := mem_at'.1 hx
  obtain ⟨j, h4, h5, h6⟩ := mem_at'.1 hy
  have := getElem?_unique h h3 h6
  omega

theorem tLabels_z (o : Off) : tLabels (tOf 1 1) o =
    ((at' summationIdx o.s 1, []), { o with upperZ := o.upperZ ++ at' summationIdx o.s 1, s := o.s + 1 }) := by
  simp [tLabels, tLower, tUpper, tOf, at'_zero]

theorem tLabels_h (o : Off) : tLabels (tOf 1 0) o =
    ((at' summationIdx o.s 1, []), { o with upperH := o.upperH ++ at' summationIdx o.s 1, s := o.s + 1 }) := by
  simp [tLabels, tLower, tUpper, tOf, at'_zero]

theorem tGroup_append (l l' : List T) (o : Off) :
    tGroup (l ++ l') o = ((tGroup l o).1 ++ (tGroup l' (tGroup l o).2).1, (tGroup l' (tGroup l o).2).2) := by
  induction l generalizing o with
  | nil => rfl
  | cons t l ih => simp [tGroup, ih]

theorem tGroup_z (n : Nat) (o : Off) : tGroup (List.replicate n (tOf 1 1)) o =
    ((List.range n).map (fun i => (at' summationIdx (o.s + i) 1, [])),
      { o with upperZ := o.upperZ ++ at' summationIdx o.s n, s := o.s + n }) := by
  induction n generalizing o with
  | zero => simp [tGroup, at'_zero]
  | succ n ih =>
    rw [List.replicate_succ, tGroup, tLabels_z]
    simp only [ih, List.range_succ_eq_map, List.map_cons, List.map_map, Nat.add_zero, Prod.mk.injEq, List.cons.injEq, true_and]
    refine ⟨List.map_congr_left fun i _ => ?_, ?_⟩
    · simp [Nat.add_assoc, Nat.add_comm 1 i]
    · congr 1
      · omega
      · rw [List.append_assoc, at'_append, Nat.add_comm 1 n]

theorem tGroup_h (n : Nat) (o : Off) : tGroup (List.replicate n (tOf 1 0)) o =
    ((List.range n).map (fun i => (at' summationIdx (o.s + i) 1, [])),
      { o with upperH := o.upperH ++ at' summationIdx o.s n, s := o.s + n }) := by
  induction n generalizing o with
  | zero => simp [tGroup, at'_zero]
  | succ n ih =>
    rw [List.replicate_succ, tGroup, tLabels_h]
    simp only [ih, List.range_succ_eq_map, List.map_cons, List.map_map, Nat.add_zero, Prod.mk.injEq, List.cons.injEq, true_and]
    refine ⟨List.map_congr_left fun i _ => ?_, ?_⟩
    · simp [Nat.add_assoc, Nat.add_comm 1 i]
    · congr 1
      · omega
      · rw [List.append_assoc, at'_append, Nat.add_comm 1 n]

theorem range_split {α : Type} (f : Nat → α) (j n : Nat) :
    (List.range j).map f ++ (List.range n).map (fun i => f (j + i)) = (List.range (j + n)).map f := by
  rw [List.range_add, List.map_append, List.map_map]
  rfl

/-- The labels of the t factors. -/
theorem tGroup_tsOf {k j : Nat} (hj : j ≤ k) : tGroup (tsOf k j) ⟨0, 0, [], [], [], []⟩ =
    ((if k = 0 then [([], [])] else (List.range k).map fun i => (at' summationIdx i 1, [])),
      ⟨k, 0, at' summationIdx j (k - j), [], at' summationIdx 0 j, []⟩) := by
  unfold tsOf
  by_cases hk : k = 0
  · subst hk
    obtain rfl : j = 0 := by omega
    simp [tGroup, tLabels, tLower, tUpper, tOf, at'_zero]
  · rw [if_neg hk, if_neg hk, tGroup_append, tGroup_z, tGroup_h]
    simp only [Nat.zero_add, List.nil_append]
    rw [range_split (fun i => (at' summationIdx i 1, ([] : List Char))), show j + (k - j) = k by omega]

/-- Labels of h in the term: `k` summation letters are used, the letters of `k - j` t factors are on h,
`hl` of its upper labels are external. -/
def hLab (k j hn hl : Nat) : List Char := at' summationIdx j (k - j) ++ at' summationIdx k hn ++ at' unlinkedIdx 0 hl

/-- Labels of z. -/
def zLab (k j hn hl zl : Nat) : List Char := at' summationIdx 0 j ++ at' summationIdx k hn ++ at' unlinkedIdx hl zl

/-- Labels of the i-th t. -/
def tLab (i : Nat) : List Char := at' summationIdx i 1

/-- The numbers of a term: `N` annihilation operators of the projection operator, order `k`, h with `hm`
creation and `hn` annihilation operators, z with `zm` creation operators; `j` of the t are paired with z,
`hl` creation operators of h and `zl` of z with the projection operator. -/
structure Nums (N k hm hn zm j hl zl : Nat) : Prop where
  le : j ≤ k
  onH : hl + (k - j) = hm
  onZ : zl + hn + j = zm
  onN : hl + zl = N

theorem vibrational_eq {N k hm hn zm j hl zl : Nat} (n : Nums N k hm hn zm j hl zl) {h : HC} {z : Z}
    (h1 : h.rank = hm + hn) (h2 : h.m = hm) (h3 : h.n = hn) (h4 : h.m_lhs = hl) (h5 : h.n_lhs = 0) (h6 : h.m_r = 0) (h7 : h.n_r = hn)
    (z1 : z.rank = zm) (z2 : z.m = zm) (z3 : z.n = 0) (z4 : z.m_lhs = zl) :
    vibrational (tsOf k j) h z = .ok
      ((if k = 0 then [[]] else (List.range k).map tLab) ++ [hLab k j hn hl, zLab k j hn hl zl], at' unlinkedIdx 0 N) := by
  obtain ⟨n1, n2, n3, n4⟩ := n
  unfold vibrational
  rw [tGroup_tsOf n1]
  have hh : hLabels h ⟨k, 0, at' summationIdx j (k - j), [], at' summationIdx 0 j, []⟩ =
      .ok ((at' summationIdx j (k - j) ++ at' summationIdx k hn, at' unlinkedIdx 0 hl),
        ⟨k + hn, hl, at' summationIdx j (k - j), [], at' summationIdx 0 j ++ at' summationIdx k hn, []⟩) := by
    unfold hLabels
    by_cases hr : h.rank = 0
    · have e1 : k - j = 0 := by omega
      have e2 : hn = 0 := by omega
      have e3 : hl = 0 := by omega
      rw [if_pos hr, if_pos (by simp [e1, at'_zero])]
      simp [e1, e2, e3, at'_zero]
    · rw [if_neg hr]
      simp only [hUpper, hLower, h2, h3, h4, h5, h6, h7, at'_zero, List.append_nil, Nat.add_zero]
      by_cases e1 : hm > 0
      · by_cases e2 : hn > 0
        · simp [e1, e2]
        · obtain rfl : hn = 0 := by omega
          simp [e1, at'_zero]
      · have e3 : hl = 0 := by omega
        by_cases e2 : hn > 0
        · simp [e1, e2, e3, at'_zero]
        · omega
  simp only [hh]
  have hz : zLabels z ⟨k + hn, hl, at' summationIdx j (k - j), [], at' summationIdx 0 j ++ at' summationIdx k hn, []⟩ =
      .ok (at' summationIdx 0 j ++ at' summationIdx k hn, at' unlinkedIdx hl zl) := by
    unfold zLabels
    by_cases hr : z.rank = 0
    · have e1 : j = 0 := by omega
      have e2 : hn = 0 := by omega
      have e3 : zl = 0 := by omega
      rw [if_pos hr, if_pos (by simp [e1, e2, at'_zero])]
      simp [e1, e2, e3, at'_zero]
    · rw [if_neg hr]
      have : zm > 0 := by omega
      simp [z2, z3, z4, this]
  rw [hz]
  simp only [Except.ok.injEq, Prod.mk.injEq]
  constructor
  · congr 1
    by_cases hk : k = 0
    · simp [hk]
    · rw [if_neg hk, if_neg hk, List.map_map]
      exact List.map_congr_left fun i _ => by simp [tLab]
  · have : ((if k = 0 then [([], [])] else (List.range k).map fun i => (at' summationIdx i 1, ([] : List Char))).map Prod.snd).flatten = [] := by
      by_cases hk : k = 0
      · simp [hk]
      · rw [if_neg hk, List.map_map]
        simp [Function.comp_def]
    rw [this, List.nil_append]
    have := at'_append unlinkedIdx 0 hl zl
    rw [Nat.zero_add] at this
    rw [this, n4]

/-! ## The prefactor -/

theorem prefH_eq (m a b : Nat) (ha : a ≤ m) (p : Nat × Nat) (hb : b = 0 ∨ a = 0 ∧ b = m) :
    ((prefH m a b p).1 : Rat) / (prefH m a b p).2 = (p.1 : Rat) / p.2 * (1 / (a.factorial * (m - a).factorial)) := by
  have hc : Nat.choose (m - a) b = 1 := by
    rcases hb with rfl | ⟨rfl, rfl⟩ <;> simp
  unfold prefH
  split
  · rw [hc]
    push_cast
    have := Nat.choose_mul_factorial_mul_factorial ha
    rw [← this]
    push_cast
    have hp : ((m.choose a : Nat) : Rat) ≠ 0 := by
      have := Nat.choose_pos ha
      exact_mod_cast this.ne'
    rw [mul_one, show (p.2 : Rat) * ((m.choose a : Rat) * a.factorial * (m - a).factorial) =
      (m.choose a : Rat) * (p.2 * (a.factorial * (m - a).factorial)) by ring, mul_comm (p.1 : Rat), mul_div_mul_left _ _ hp,
      div_mul_div_comm, mul_one]
  · have h1 : a.factorial = 1 := Nat.factorial_eq_one.2 (by omega)
    have h2 : (m - a).factorial = 1 := Nat.factorial_eq_one.2 (by omega)
    rw [h1, h2]
    simp

theorem prefT_eq (k j : Nat) (p : Nat × Nat) : prefT (tsOf k j) p = p := by
  have h1 : ∀ (n e x : Nat) (p : Nat × Nat), e ≤ 1 → prefT (List.replicate n (tOf e x)) p = p := by
    intro n e x p he
    induction n with
    | zero => rfl
    | succ n ih =>
      have hf : e.factorial = 1 := Nat.factorial_eq_one.2 he
      rw [List.replicate_succ]
      unfold prefT at ih ⊢
      rw [List.foldl_cons]
      simpa [tOf, hf] using ih
  unfold tsOf
  split
  · exact h1 1 0 0 p (by omega)
  · unfold prefT at h1 ⊢
    rw [List.foldl_append, h1 _ _ _ _ (by omega), h1 _ _ _ _ (by omega)]

/-- The prefactor of a term with these numbers. -/
theorem prefactor_eq {N k hm hn zm j hl zl : Nat} (n : Nums N k hm hn zm j hl zl) {h : HC} {z : Z}
    (h2 : h.m = hm) (h3 : h.n = hn) (h4 : h.m_lhs = hl) (h5 : h.n_lhs = 0) (h6 : h.m_r = 0) (h7 : h.n_r = hn)
    (z2 : z.m = zm) (z3 : z.n = 0) (z4 : z.m_lhs = zl) (z5 : z.m_h = hn) (z6 : z.m_t.sum = j) :
    ∃ p, prefactor (tsOf k j) h z = .ok p ∧ mkRat p.1 p.2 =
      1 / (hl.factorial * (k - j).factorial * hn.factorial * zl.factorial * j.factorial) := by
  obtain ⟨n1, n2, n3, n4⟩ := n
  unfold prefactor
  have hq : ((prefH h.n h.n_lhs h.n_r (prefH h.m h.m_lhs h.m_r (1, 1))).1 : Rat) /
      (prefH h.n h.n_lhs h.n_r (prefH h.m h.m_lhs h.m_r (1, 1))).2 = 1 / (hl.factorial * (k - j).factorial * hn.factorial) := by
    rw [prefH_eq _ _ _ (by omega) _ (Or.inr ⟨h5, by rw [h7, h3]⟩), prefH_eq _ _ _ (by omega) _ (Or.inl h6), h2, h3, h4, h5,
      show hm - hl = k - j by omega]
    simp
    ring
  generalize prefH h.n h.n_lhs h.n_r (prefH h.m h.m_lhs h.m_r (1, 1)) = q at hq
  by_cases hz : z.m > 1
  · have hchoose : Nat.choose (z.m - z.m_lhs - z.m_h) z.m_t.sum = 1 := by
      rw [z2, z4, z5, z6, show zm - zl - hn = j by omega]
      simp
    simp only [prefZUpper, if_pos hz, if_pos hchoose, prefT_eq, prefZLower, z3]
    rw [if_neg (by omega)]
    refine ⟨_, rfl, ?_⟩
    simp only [Rat.mkRat_eq_div, z2, z4, z5]
    have e1 := Nat.choose_mul_factorial_mul_factorial (n := zm) (k := zl) (by omega)
    have e2 := Nat.choose_mul_factorial_mul_factorial (n := zm - zl) (k := hn) (by omega)
    rw [show zm - zl - hn = j by omega] at e2
    rw [← e1, ← e2]
    have hp : ((zm.choose zl : Nat) : Rat) ≠ 0 := by
      have := Nat.choose_pos (n := zm) (k := zl) (by omega)
      exact_mod_cast this.ne'
    have hp2 : (((zm - zl).choose hn : Nat) : Rat) ≠ 0 := by
      have := Nat.choose_pos (n := zm - zl) (k := hn) (by omega)
      exact_mod_cast this.ne'
    have hp3 : ((hn.factorial : Nat) : Rat) ≠ 0 := by exact_mod_cast hn.factorial_ne_zero
    push_cast
    rw [show (1 : Rat) / (hl.factorial * (k - j).factorial * hn.factorial * zl.factorial * j.factorial) =
      1 / (hl.factorial * (k - j).factorial * hn.factorial) * (1 / (zl.factorial * j.factorial)) by
        rw [div_mul_div_comm, mul_one]; congr 1; ring, ← hq]
    rw [div_mul_div_comm, mul_one]
    rw [show (q.1 : Rat) * (zm.choose zl) * ((zm - zl).choose hn) * hn.factorial =
        ((zm.choose zl : Rat) * ((zm - zl).choose hn) * hn.factorial) * q.1 by ring,
      show (q.2 : Rat) * ((zm.choose zl) * zl.factorial * (((zm - zl).choose hn) * hn.factorial * j.factorial)) =
        ((zm.choose zl : Rat) * ((zm - zl).choose hn) * hn.factorial) * (q.2 * (zl.factorial * j.factorial)) by ring,
      mul_div_mul_left _ _ (mul_ne_zero (mul_ne_zero hp hp2) hp3)]
  · simp only [prefZUpper, if_neg hz, prefT_eq, prefZLower, z3]
    rw [if_neg (by omega)]
    refine ⟨_, rfl, ?_⟩
    have e1 : zl.factorial = 1 := Nat.factorial_eq_one.2 (by omega)
    have e2 : j.factorial = 1 := Nat.factorial_eq_one.2 (by omega)
    rw [Rat.mkRat_eq_div, e1, e2]
    push_cast
    rw [mul_one, mul_one]
    exact hq

/-! ## The code of a term -/

/-- The labels of each place. -/
def labOf (N k hn j hl : Nat) : Pl k → List Char
  | .lhs => at' unlinkedIdx 0 N
  | .t i => if k = 0 then [] else tLab i
  | .h => hLab k j hn hl
  | .z => zLab k j hn hl (N - hl)

/-- The call for a term. -/
def codeOf (mode : Mode) (N k : Nat) (h : HOp) (z : Op) (j hl : Nat) : Einsum :=
  ⟨(factors mode k h).map fun p => elec mode p ++ labOf N k h.n j hl p,
    elec mode (.lhs : Pl k) ++ labOf N k h.n j hl .lhs, (factors mode k h).map (operand mode h z)⟩

/-- The entry for a term. -/
def entryOf (mode : Mode) (N k : Nat) (h : HOp) (z : Op) (j hl : Nat) : Entry :=
  ⟨max h.m h.n, rankOf k, z.m,
    1 / (hl.factorial * (k - j).factorial * h.n.factorial * (N - hl).factorial * j.factorial), codeOf mode N k h z j hl⟩

theorem glue_split (tl : List (List Char)) (A B H Z : List Char) :
    glue (List.replicate tl.length [] ++ [A, B]) (tl ++ [H, Z]) = tl ++ [A ++ H, B ++ Z] := by
  unfold glue
  rw [List.zipWith_append (by simp)]
  congr 1
  induction tl with
  | nil => rfl
  | cons a l ih => simpa [List.replicate_succ] using ih

theorem dedup_replicate {α : Type} [DecidableEq α] (n : Nat) (a : α) : (List.replicate (n + 1) a).dedup = [a] := by
  induction n with
  | zero => rfl
  | succ n ih => rw [List.replicate_succ, List.dedup_cons_of_mem (by simp), ih]

theorem dedup_two {α : Type} [DecidableEq α] (n m : Nat) {a b : α} (h : a ≠ b) :
    (List.replicate (n + 1) a ++ List.replicate (m + 1) b).dedup = [a, b] := by
  induction n with
  | zero =>
    rw [List.replicate_succ, List.replicate_zero, List.cons_append, List.nil_append,
      List.dedup_cons_of_notMem (by simp [h]), dedup_replicate]
  | succ n ih => rw [List.replicate_succ, List.cons_append, List.dedup_cons_of_mem (by simp), ih]

theorem at'_ne_nil {l : List Char} {a n : Nat} (h : a < l.length) (hn : 0 < n) : at' l a n ≠ [] := by
  intro e
  have := congrArg List.length e
  unfold at' at this
  rw [length_slice] at this
  simp at this
  omega

theorem finRange_map_range {α : Type} (f : Nat → α) (n : Nat) : ((List.finRange n).map fun i : Fin n => f i) = (List.range n).map f := by
  rw [← List.map_coe_finRange_eq_range, List.map_map]
  rfl

theorem tFactors_length {k : Nat} (hk : k ≠ 0) : (tFactors k).length = k := by
  have := (TF.ET.uniform_tFactors k).len
  rw [this]
  simp [lenOf, hk]

/-- the t part of the labels -/
def tLabs (k : Nat) : List (List Char) := if k = 0 then [[]] else (List.range k).map tLab

theorem codes_eq {mode : Mode} {N k hm zm j hl zl : Nat} {h : HOp} {z : Op} (n : Nums N k hm h.n zm j hl zl) (cap : k + h.n ≤ 10)
    (capN : N ≤ 8) (htk : Takes mode h) (e1 : h.m = hm) {hc : HC} {zc : Z} (h2 : hc.m = hm) (h3 : hc.n = h.n)
    (z2 : zc.m = z.m) (z3 : zc.n = z.n) :
    ∃ c, codes mode (tsOf k j) hc zc (tLabs k ++ [hLab k j h.n hl, zLab k j h.n hl zl]) (at' unlinkedIdx 0 N) =
      List.replicate (c + 1) (codeOf mode N k h z j hl) := by
  obtain ⟨n1, n2, n3, n4⟩ := n
  have hzl : zl = N - hl := by omega
  have hlen : (tsOf k j).length = (tLabs k).length := by
    unfold tsOf tLabs
    by_cases hk : k = 0
    · simp [hk]
    · simp [hk]; omega
  -- the glued labels
  have hglue : glue (electronic mode (tsOf k j).length) (tLabs k ++ [hLab k j h.n hl, zLab k j h.n hl zl]) =
      tLabs k ++ [elec mode (.h : Pl k) ++ hLab k j h.n hl, ['c'] ++ zLab k j h.n hl zl] := by
    rw [hlen]
    unfold electronic
    cases mode <;> exact glue_split _ _ _ _ _
  -- h is printed iff its label is not empty
  have hh : (elec mode (.h : Pl k) ++ hLab k j h.n hl = []) ↔ onZ mode h := by
    cases mode with
    | rhs => simp [elec, onZ]
    | lhs =>
      have hn0 : h.n = 0 := htk rfl
      simp only [elec, onZ, List.nil_append, true_and, hn0, and_true, hLab, at'_zero, List.append_nil, List.append_eq_nil_iff]
      constructor
      · rintro ⟨a, b⟩
        have a' : k - j = 0 := by
          by_contra hc
          exact at'_ne_nil (by simp [summationIdx]; omega) (by omega) a
        have b' : hl = 0 := by
          by_contra hc
          exact at'_ne_nil (by simp [unlinkedIdx]) (by omega) b
        omega
      · intro hm0
        have a : k - j = 0 := by omega
        have b : hl = 0 := by omega
        rw [a, b, at'_zero, at'_zero]
        exact ⟨rfl, rfl⟩
  have ht : ∀ s ∈ (List.range k).map tLab, s ≠ [] := by
    intro s hs
    obtain ⟨i, hi, rfl⟩ := List.mem_map.1 hs
    rw [List.mem_range] at hi
    exact at'_ne_nil (by simp [summationIdx]; omega) (by omega)
  have hfilter : ((tLabs k ++ [elec mode (.h : Pl k) ++ hLab k j h.n hl, ['c'] ++ zLab k j h.n hl zl]).filter fun s => decide (s ≠ [])) =
      (factors mode k h).map fun p => elec mode p ++ labOf N k h.n j hl p := by
    rw [List.filter_append]
    unfold factors
    rw [List.map_append]
    congr 1
    · unfold tLabs
      by_cases hk : k = 0
      · simp [hk]
      · rw [if_neg hk, if_neg hk, List.filter_eq_self.2 (fun s hs => by simpa using ht s hs), List.map_map]
        have := finRange_map_range tLab (tFactors k).length
        rw [tFactors_length hk] at this
        rw [← this]
        have hcast : ∀ m (hm : (tFactors k).length = m), ((List.finRange m).map fun i : Fin m => tLab i) =
            (List.finRange (tFactors k).length).map ((fun p => elec mode p ++ labOf N k h.n j hl p) ∘ Place.t) := by
          intro m hm
          subst hm
          exact List.map_congr_left fun i _ => by simp [elec, labOf, hk]
        exact hcast k (tFactors_length hk)
    · by_cases hz : onZ mode h
      · rw [List.filter_cons_of_neg (by simpa using hh.2 hz), if_pos hz]
        simp [elec, labOf, hzl]
      · rw [List.filter_cons_of_pos (by simpa only [decide_eq_true_eq] using mt hh.1 hz), if_neg hz]
        simp [elec, labOf, hzl]
  have hout : outLabels mode (at' unlinkedIdx 0 N) = elec mode (.lhs : Pl k) ++ labOf N k h.n j hl .lhs := by
    cases mode <;> rfl
  have hops : (if k = 0 then [] else (tsOf k j).map (tOperand mode)) ++ hzOperands mode hc zc = (factors mode k h).map (operand mode h z) := by
    unfold factors
    rw [List.map_append]
    congr 1
    · by_cases hk : k = 0
      · simp [hk]
      · rw [if_neg hk, if_neg hk, List.map_map]
        have : ∀ t ∈ tsOf k j, tOperand mode t = operand mode h z (.t ⟨0, by rw [tFactors_length hk]; omega⟩ : Pl k) := by
          intro t ht
          unfold tsOf at ht
          rw [if_neg hk, List.mem_append] at ht
          rcases ht with ht | ht <;> rw [List.eq_of_mem_replicate ht] <;> rfl
        rw [List.map_congr_left this, List.map_const']
        have h2 : (operand mode h z ∘ (Place.t : _ → Pl k)) = fun _ => operand mode h z (.t ⟨0, by rw [tFactors_length hk]; omega⟩ : Pl k) := by
          funext i; rfl
        have h4 : (tsOf k j).length = (tFactors k).length := by
          rw [tFactors_length hk]
          unfold tsOf
          rw [if_neg hk]
          simp
          omega
        rw [h2, List.map_const', List.length_finRange, h4]
    · unfold hzOperands
      cases mode with
      | rhs => simp [onZ, operand, h2, h3, z2, z3, e1]
      | lhs =>
        by_cases hz : onZ .lhs h
        · have : hc.m = 0 ∧ hc.n = 0 := by rw [h2, h3, ← e1]; exact hz.2
          simp [if_pos this, hz, operand, z2, z3]
        · have : ¬ (hc.m = 0 ∧ hc.n = 0) := by rw [h2, h3, ← e1]; exact fun h' => hz ⟨rfl, h'⟩
          simp only [if_neg this, if_neg hz]
          simp [operand, hz, z2, z3, h2, h3, e1]
  unfold codes
  simp only [hglue, hfilter, hout]
  by_cases hk : k = 0
  · have : (tsOf k j).dedup = [tOf 0 0] := by simp [tsOf, hk]
    rw [this]
    simp only
    rw [if_pos (show (tOf 0 0).rank = 0 from rfl)]
    rw [if_pos hk, List.nil_append] at hops
    rw [hops]
    split
    · exact ⟨0, rfl⟩
    · have hpos : 0 < (uniquePermutations charsLe (at' unlinkedIdx 0 N)).length := by
        refine List.length_pos_of_mem (a := at' unlinkedIdx 0 N) ?_
        unfold uniquePermutations
        rw [mem_sortBy, List.mem_dedup, mem_permutations]
      refine ⟨(uniquePermutations charsLe (at' unlinkedIdx 0 N)).length - 1, ?_⟩
      rw [Nat.sub_add_cancel hpos]
      rfl
  · rw [if_neg hk] at hops
    rw [hops]
    have single : ∀ x, (tsOf k j).dedup = [tOf 1 x] → ∃ c, (match (tsOf k j).dedup with
        | [t] => if t.rank = 0 then
            (let e : Einsum := ⟨(factors mode k h).map fun p => elec mode p ++ labOf N k h.n j hl p,
              elec mode (.lhs : Pl k) ++ labOf N k h.n j hl .lhs, hzOperands mode hc zc⟩
            if at' unlinkedIdx 0 N = [] then [e] else List.replicate (uniquePermutations charsLe (at' unlinkedIdx 0 N)).length e)
          else [⟨(factors mode k h).map fun p => elec mode p ++ labOf N k h.n j hl p,
              elec mode (.lhs : Pl k) ++ labOf N k h.n j hl .lhs, (factors mode k h).map (operand mode h z)⟩]
        | _ => [⟨tLabs k ++ [elec mode (.h : Pl k) ++ hLab k j h.n hl, ['c'] ++ zLab k j h.n hl zl],
            elec mode (.lhs : Pl k) ++ labOf N k h.n j hl .lhs, (factors mode k h).map (operand mode h z)⟩]) =
        List.replicate (c + 1) (codeOf mode N k h z j hl) := by
      intro x hx
      rw [hx]
      simp only
      rw [if_neg (by simp [tOf])]
      exact ⟨0, rfl⟩
    by_cases hj0 : j = 0
    · refine single 0 ?_
      unfold tsOf
      rw [if_neg hk, hj0, show k - 0 = (k - 1) + 1 by omega]
      simp [dedup_replicate]
    · by_cases hjk : j = k
      · refine single 1 ?_
        unfold tsOf
        rw [if_neg hk, hjk, Nat.sub_self, show k = (k - 1) + 1 by omega]
        simp [dedup_replicate]
      · have : (tsOf k j).dedup = [tOf 1 1, tOf 1 0] := by
          unfold tsOf
          rw [if_neg hk, show j = (j - 1) + 1 by omega, show k - (j - 1 + 1) = (k - j - 1) + 1 by omega]
          exact dedup_two _ _ (by decide)
        rw [this]
        simp only
        refine ⟨0, ?_⟩
        have hnz : ¬ onZ mode h := by
          rintro ⟨_, hm0, _⟩
          omega
        have : tLabs k ++ [elec mode (.h : Pl k) ++ hLab k j h.n hl, ['c'] ++ zLab k j h.n hl zl] =
            (factors mode k h).map fun p => elec mode p ++ labOf N k h.n j hl p := by
          rw [← hfilter, List.filter_eq_self.2]
          intro s hs
          rw [List.mem_append] at hs
          simp only [decide_eq_true_eq]
          rcases hs with hs | hs
          · unfold tLabs at hs
            rw [if_neg hk] at hs
            exact ht s hs
          · simp only [List.mem_cons, List.not_mem_nil, or_false] at hs
            rcases hs with rfl | rfl
            · exact mt hh.1 hnz
            · simp
        rw [this]
        rfl

/-- The strings of a term: copies of one call. -/
theorem entriesOf_eq {mode : Mode} {N k : Nat} {h : HOp} {z : Op} {d : Dist} (g : GoodDist N h (lenOf k) (rankOf k) z.m d)
    (hb : Balanced N h k z.m) (hd : d.h = h.n) (hzn : z.n = 0) (hzr : z.rank = z.m) (htk : Takes mode h)
    (cap : k + h.n ≤ 10) (capN : N ≤ 8) :
    Nums N k h.m h.n z.m d.ts.sum (N - d.lhs) d.lhs ∧
    ∃ c, entriesOf mode (termOf N h (lenOf k) (rankOf k) z d) =
      .ok (List.replicate (c + 1) (entryOf mode N k h z d.ts.sum (N - d.lhs))) := by
  have hts : sortT (d.ts.map (tOf (rankOf k))) = tsOf k d.ts.sum ∧ d.ts.sum ≤ k := by
    by_cases hk : k = 0
    · have h1 := g.len
      have h2 := g.le
      simp only [hk, lenOf, rankOf, if_true] at h1 h2
      obtain ⟨x, hx⟩ := List.length_eq_one_iff.1 h1
      have : x = 0 := by
        have := h2 x (by simp [hx])
        omega
      subst this
      rw [hx]
      simp [hk, rankOf, tsOf, sortT, sortBy, insertBy]
    · have h1 := g.len
      have h2 := g.le
      simp only [hk, lenOf, rankOf, if_false] at h1 h2
      obtain ⟨a, b⟩ := sortT_one d.ts h2
      simp only [rankOf, hk, if_false, tsOf]
      rw [a, h1]
      exact ⟨rfl, by omega⟩
  have hn : Nums N k h.m h.n z.m d.ts.sum (N - d.lhs) d.lhs := by
    have h1 := g.sum
    have h2 := g.lhs
    unfold TF.ET.Balanced at hb
    exact ⟨hts.2, by omega, by omega, by omega⟩
  refine ⟨hn, ?_⟩
  unfold entriesOf
  have hcond : (termOf N h (lenOf k) (rankOf k) z d).h.m_r = (termOf N h (lenOf k) (rankOf k) z d).z.n_h ∧
      (termOf N h (lenOf k) (rankOf k) z d).h.n_r = (termOf N h (lenOf k) (rankOf k) z d).z.m_h := ⟨rfl, hd.symm⟩
  have ets : (termOf N h (lenOf k) (rankOf k) z d).ts = tsOf k d.ts.sum := hts.1
  rw [if_pos hcond, ets]
  obtain ⟨p, hp, hpv⟩ := prefactor_eq hn (h := (termOf N h (lenOf k) (rankOf k) z d).h) (z := (termOf N h (lenOf k) (rankOf k) z d).z)
    rfl rfl rfl rfl rfl rfl rfl hzn rfl hd rfl
  rw [hp]
  have hv := vibrational_eq hn (h := (termOf N h (lenOf k) (rankOf k) z d).h) (z := (termOf N h (lenOf k) (rankOf k) z d).z)
    rfl rfl rfl rfl rfl rfl rfl hzr rfl hzn rfl
  simp only [hv]
  obtain ⟨c, hc⟩ := codes_eq (mode := mode) hn cap capN htk rfl (z := z) (hc := (termOf N h (lenOf k) (rankOf k) z d).h)
    (zc := (termOf N h (lenOf k) (rankOf k) z d).z) rfl rfl rfl rfl
  unfold tLabs at hc
  rw [hc, List.map_replicate]
  refine ⟨c, ?_⟩
  congr 2
  unfold entryOf
  have e1 : ((tsOf k d.ts.sum).map T.rank).foldl max 0 = rankOf k := by
    have : ((tsOf k d.ts.sum).map T.rank) = List.replicate (lenOf k) (rankOf k) := by
      unfold tsOf lenOf rankOf
      by_cases hk : k = 0
      · simp [hk, tOf]
      · simp only [hk, if_false, List.map_append, List.map_replicate]
        rw [show T.rank (tOf 1 1) = 1 from rfl, show T.rank (tOf 1 0) = 1 from rfl, List.replicate_append_replicate]
        congr 1
        omega
    rw [this]
    have : ∀ n a, List.foldl max a (List.replicate n (rankOf k)) = if n = 0 then a else max a (rankOf k) := by
      intro n
      induction n with
      | zero => intro a; rfl
      | succ n ih =>
        intro a
        rw [List.replicate_succ, List.foldl_cons, ih]
        by_cases hn : n = 0
        · simp [hn]
        · simp [hn]
    rw [this]
    unfold lenOf rankOf
    by_cases hk : k = 0 <;> simp [hk]
  have hl2 : N - (N - d.lhs) = d.lhs := by have := g.lhs; omega
  simp only [Entry.mk.injEq, e1, hpv, hl2, and_true, true_and]
  exact ⟨rfl, hzr⟩

end TF.ETPy
