import Verif.Spec.ETLatex
import Verif.Lemmas.ETComputes

/-! # Lemmas about the LaTeX of the e^T z_t equations: the printed term -/

namespace TF.ETLatex

open TF.Py
open TF.CC (Op HOp collect collect_ok_of collect_ok_iff)
open TF.Zhz (Piece Lab Color zSummation zUnlinked Fac Pref at')
open TF.ET (Mode Term T HC Z PTerm tOf sortT termOf Dist GoodDist Balanced zOf lenOf rankOf choosePar factIf downIf prefH prefZ prefactor fCount fbarCount Off
  tLabel tLabels hLabel zLabel printOne)
open TF.ETPy (Nums tsOf sortT_one)
open TF.Spec.ET TF.Spec.ETPy TF.Spec.ETLatex
open TF.Spec.Zhz (letters prefValue facValue)

/-- The blue letters of the i-th t. -/
def blueOf (j i : Nat) : Piece := ⟨.blue, at' zSummation i (if i < j then 0 else 1)⟩
/-- The magenta letters of the i-th t. -/
def magOf (j i : Nat) : Piece := ⟨.magenta, at' zSummation i (if i < j then 1 else 0)⟩

/-- The printed fraction. -/
def prefOf (hm hn zm j hl k : Nat) (zl : Nat) : Pref :=
  let p1 : Pref := if hm > 1 then factIf (choosePar (choosePar ((⟨[], [], 1, 1⟩ : Pref).down (.fact hm) hm.factorial) hm hl) (hm - hl) 0) (k - j) else ⟨[], [], 1, 1⟩
  let p2 : Pref := if hn > 1 then p1.down (.fact hn) hn.factorial else p1
  let p3 : Pref := if zm > 1 then factIf (factIf (choosePar (choosePar (p2.down (.fact zm) zm.factorial) zm zl) (zm - zl) hn) hn) j else p2
  downIf p3 k

/-- The printed term. -/
def ptermOf (N k : Nat) (h : HOp) (z : Op) (j hl : Nat) : PTerm where
  f := 0
  fbar := h.n + k
  pref := prefOf h.m h.n z.m j hl k (N - hl)
  ts := if k = 0 then none else some ((List.range k).map fun i => [⟨.magenta, []⟩, blueOf j i, magOf j i, ⟨.red, []⟩])
  h := if h.m + h.n = 0 then none else some
    ⟨if h.m > 0 then (List.range k).map (blueOf j) ++ [⟨.blue, []⟩, ⟨.red, at' zUnlinked 0 hl⟩] else [],
      if h.n > 0 then [⟨.blue, at' zSummation k h.n⟩, ⟨.red, []⟩] else []⟩
  z := if z.m = 0 then none else some
    ⟨(List.range k).map (magOf j) ++ (if h.n > 0 then [⟨.blue, at' zSummation k h.n⟩] else []) ++ [⟨.red, at' zUnlinked hl (N - hl)⟩], []⟩

theorem at'_zero (l : List Char) (a : Nat) : at' l a 0 = [] := TF.ETPy.at'_zero l a

theorem ts_termOf {N k : Nat} {h : HOp} {z : Op} {d : Dist} (g : GoodDist N h (lenOf k) (rankOf k) z.m d) :
    sortT (d.ts.map (tOf (rankOf k))) = tsOf k d.ts.sum ∧ d.ts.sum ≤ k := by
  by_cases hk : k = 0
  · have h1 := g.len
    have h2 := g.le
    simp only [hk, lenOf, rankOf, if_true] at h1 h2
    obtain ⟨x, hx⟩ := List.length_eq_one_iff.1 h1
    have : x = 0 := by
      have := h2 x (by simp [hx])
      omega
    subst this
    rw [hx]
    simp [hk, rankOf, tsOf, sortT, sortBy, insertBy]
  · have h1 := g.len
    have h2 := g.le
    simp only [hk, lenOf, rankOf, if_false] at h1 h2
    obtain ⟨a, b⟩ := sortT_one d.ts h2
    simp only [rankOf, hk, if_false, tsOf]
    rw [a, h1]
    exact ⟨rfl, by omega⟩

theorem nums_termOf {N k : Nat} {h : HOp} {z : Op} {d : Dist} (g : GoodDist N h (lenOf k) (rankOf k) z.m d)
    (hb : Balanced N h k z.m) (hd : d.h = h.n) : Nums N k h.m h.n z.m d.ts.sum (N - d.lhs) d.lhs := by
  have h1 := g.sum
  have h2 := g.lhs
  have h3 := (ts_termOf g).2
  unfold TF.ET.Balanced at hb
  exact ⟨h3, by omega, by omega, by omega⟩

/-! ## Labels of the t factors -/

theorem tLabels_append {l l' : List T} (h : ∀ t ∈ l, t.rank ≠ 0) (h' : ∀ t ∈ l', t.rank ≠ 0) (o : Off) :
    ∃ a b o', tLabels l o = (some a, o') ∧ (tLabels l' o').1 = some b ∧ tLabels (l ++ l') o = (some (a ++ b), (tLabels l' o').2) := by
  induction l generalizing o with
  | nil =>
    have : ∀ (l' : List T), (∀ t ∈ l', t.rank ≠ 0) → ∀ o, ∃ b, (tLabels l' o).1 = some b := by
      intro l'
      induction l' with
      | nil => exact fun _ o => ⟨[], rfl⟩
      | cons t l' ih =>
        intro h' o
        obtain ⟨b, hb⟩ := ih (fun t ht => h' t (by simp [ht])) (tLabel t o).2
        refine ⟨(tLabel t o).1 :: b, ?_⟩
        simp only [tLabels]
        rw [if_neg (h' t (by simp))]
        generalize hx : tLabels l' (tLabel t o).2 = x at hb
        obtain ⟨x1, x2⟩ := x
        simp only at hb
        subst hb
        rfl
    obtain ⟨b, hb⟩ := this l' h' o
    refine ⟨[], b, o, rfl, hb, ?_⟩
    rw [List.nil_append, List.nil_append]
    exact Prod.ext hb rfl
  | cons t l ih =>
    obtain ⟨a, b, o', h1, h2, h3⟩ := ih (fun t ht => h t (by simp [ht])) (tLabel t o).2
    refine ⟨(tLabel t o).1 :: a, b, o', ?_, h2, ?_⟩
    · simp only [tLabels]
      rw [if_neg (h t (by simp)), h1]
    · simp only [List.cons_append, tLabels]
      rw [if_neg (h t (by simp)), h3]

theorem tLabels_z (n : Nat) : ∀ o : Off, tLabels (List.replicate n (tOf 1 1)) o =
    (some ((List.range n).map fun i => [⟨.magenta, []⟩, ⟨.blue, []⟩, ⟨.magenta, at' zSummation (o.s + i) 1⟩, ⟨.red, []⟩]),
      { o with upper_h := o.upper_h ++ (List.range n).map (fun _ => ⟨.blue, []⟩),
               upper_z := o.upper_z ++ (List.range n).map (fun i => ⟨.magenta, at' zSummation (o.s + i) 1⟩), s := o.s + n }) := by
  induction n with
  | zero => intro o; simp [tLabels]
  | succ n ih =>
    intro o
    have e : tLabel (tOf 1 1) o = ([⟨.magenta, []⟩, ⟨.blue, []⟩, ⟨.magenta, at' zSummation o.s 1⟩, ⟨.red, []⟩],
      { o with upper_h := o.upper_h ++ [⟨.blue, []⟩], upper_z := o.upper_z ++ [⟨.magenta, at' zSummation o.s 1⟩], s := o.s + 1 }) := by
      simp [tLabel, tOf, at'_zero]
    rw [List.replicate_succ, tLabels, if_neg (by decide), e, ih]
    have e2 : ∀ i, o.s + 1 + i = o.s + (i + 1) := fun i => by omega
    simp only [List.range_succ_eq_map, List.map_cons, List.map_map, Function.comp_def, Nat.add_zero, e2, List.append_assoc, List.singleton_append]

theorem tLabels_h (n : Nat) : ∀ o : Off, tLabels (List.replicate n (tOf 1 0)) o =
    (some ((List.range n).map fun i => [⟨.magenta, []⟩, ⟨.blue, at' zSummation (o.s + i) 1⟩, ⟨.magenta, []⟩, ⟨.red, []⟩]),
      { o with upper_h := o.upper_h ++ (List.range n).map (fun i => ⟨.blue, at' zSummation (o.s + i) 1⟩),
               upper_z := o.upper_z ++ (List.range n).map (fun _ => ⟨.magenta, []⟩), s := o.s + n }) := by
  induction n with
  | zero => intro o; simp [tLabels]
  | succ n ih =>
    intro o
    have e : tLabel (tOf 1 0) o = ([⟨.magenta, []⟩, ⟨.blue, at' zSummation o.s 1⟩, ⟨.magenta, []⟩, ⟨.red, []⟩],
      { o with upper_h := o.upper_h ++ [⟨.blue, at' zSummation o.s 1⟩], upper_z := o.upper_z ++ [⟨.magenta, []⟩], s := o.s + 1 }) := by
      simp [tLabel, tOf, at'_zero]
    rw [List.replicate_succ, tLabels, if_neg (by decide), e, ih]
    have e2 : ∀ i, o.s + 1 + i = o.s + (i + 1) := fun i => by omega
    simp only [List.range_succ_eq_map, List.map_cons, List.map_map, Function.comp_def, Nat.add_zero, e2, List.append_assoc, List.singleton_append]

theorem range_pieces {α : Type} (f g : Nat → α) (j k : Nat) (hj : j ≤ k) (F : Nat → α) (h1 : ∀ i, i < j → F i = f i) (h2 : ∀ i, j ≤ i → F i = g (i - j)) :
    (List.range k).map F = (List.range j).map f ++ (List.range (k - j)).map g := by
  obtain ⟨n, rfl⟩ := Nat.exists_eq_add_of_le hj
  rw [List.range_add, List.map_append, List.map_map, Nat.add_sub_cancel_left]
  congr 1
  · exact List.map_congr_left fun i hi => h1 i (List.mem_range.1 hi)
  · refine List.map_congr_left fun i _ => ?_
    rw [Function.comp_apply, h2 _ (by omega), Nat.add_sub_cancel_left]

theorem tLabels_tsOf {k j : Nat} (hk : k ≠ 0) (hj : j ≤ k) : tLabels (tsOf k j) ⟨[], [], [], 0, 0⟩ =
    (some ((List.range k).map fun i => [⟨.magenta, []⟩, blueOf j i, magOf j i, ⟨.red, []⟩]),
      ⟨(List.range k).map (blueOf j), (List.range k).map (magOf j), [], k, 0⟩) := by
  unfold tsOf
  rw [if_neg hk]
  obtain ⟨a, b, o', h1, h2, h3⟩ := tLabels_append (l := List.replicate j (tOf 1 1)) (l' := List.replicate (k - j) (tOf 1 0))
    (fun t ht => by rw [List.eq_of_mem_replicate ht]; decide) (fun t ht => by rw [List.eq_of_mem_replicate ht]; decide) ⟨[], [], [], 0, 0⟩
  rw [h3]
  rw [tLabels_z] at h1
  injection h1 with e1 e2
  injection e1 with e1
  subst e2
  rw [tLabels_h] at h2 ⊢
  simp only [Option.some.injEq] at h2
  subst e1 h2
  have hb1 : ∀ i, i < j → blueOf j i = ⟨.blue, []⟩ := fun i hi => by simp [blueOf, hi, at'_zero]
  have hb2 : ∀ i, j ≤ i → blueOf j i = ⟨.blue, at' zSummation (0 + j + (i - j)) 1⟩ := fun i hi => by
    rw [show 0 + j + (i - j) = i by omega]
    simp [blueOf, Nat.not_lt.2 hi]
  have hm1 : ∀ i, i < j → magOf j i = ⟨.magenta, at' zSummation (0 + i) 1⟩ := fun i hi => by simp [magOf, hi]
  have hm2 : ∀ i, j ≤ i → magOf j i = ⟨.magenta, []⟩ := fun i hi => by simp [magOf, Nat.not_lt.2 hi, at'_zero]
  simp only [Prod.mk.injEq, Option.some.injEq, Off.mk.injEq, List.nil_append, and_true]
  refine ⟨?_, ?_, ?_, ?_⟩
  · exact (range_pieces _ _ j k hj _ (fun i hi => by rw [hb1 i hi, hm1 i hi]) (fun i hi => by rw [hb2 i hi, hm2 i hi])).symm
  · exact (range_pieces _ _ j k hj _ hb1 hb2).symm
  · exact (range_pieces _ _ j k hj _ hm1 hm2).symm
  · simp only [true_and]
    omega

theorem tLabels_zero : tLabels (tsOf 0 0) ⟨[], [], [], 0, 0⟩ = (none, ⟨[], [], [], 0, 0⟩) := by
  simp [tsOf, tLabels, tOf]

/-! ## The term -/

theorem sum_tsOf {k j : Nat} (hj : j ≤ k) : ((tsOf k j).map T.n_h).sum = k - j ∧ ((tsOf k j).map T.m_h).sum = 0 ∧ ((tsOf k j).map T.m_r).sum = 0 ∧
    ((tsOf k j).map T.n_r).sum = j := by
  unfold tsOf
  split
  · simp [tOf]
    omega
  · simp [tOf]

theorem downIf_small (p : Pref) {n : Nat} (h : n ≤ 1) : downIf p n = p := if_neg (by omega)

theorem choosePar_one (p : Pref) {a b : Nat} (h : Nat.choose a b = 1) : choosePar p a b = p := by
  unfold choosePar
  rw [h, if_neg (by omega)]

theorem prefactor_termOf {N k : Nat} {h : HOp} {z : Op} {d : Dist} (g : GoodDist N h (lenOf k) (rankOf k) z.m d)
    (hb : Balanced N h k z.m) (hd : d.h = h.n) :
    prefactor (termOf N h (lenOf k) (rankOf k) z d) = .ok (prefOf h.m h.n z.m d.ts.sum (N - d.lhs) k d.lhs) := by
  have n := nums_termOf g hb hd
  have hs := (ts_termOf g).1
  have n1 := n.onZ
  obtain ⟨s1, s2, s3, s4⟩ := sum_tsOf n.le
  have ets : (termOf N h (lenOf k) (rankOf k) z d).ts = tsOf k d.ts.sum := hs
  have emt : (termOf N h (lenOf k) (rankOf k) z d).h.m_t.sum = k - d.ts.sum := by rw [← s1, ← hs]; rfl
  have ent : (termOf N h (lenOf k) (rankOf k) z d).h.n_t.sum = 0 := by rw [← s2, ← hs]; rfl
  have ez : (termOf N h (lenOf k) (rankOf k) z d).z.m_t.sum = d.ts.sum := rfl
  unfold prefactor
  rw [ets]
  have hfold : ∀ p : Pref, (tsOf k d.ts.sum).foldl (fun p t => downIf (downIf p t.m) t.n) p = p := by
    have : ∀ (l : List T), (∀ t ∈ l, t.m ≤ 1 ∧ t.n ≤ 1) → ∀ p : Pref, l.foldl (fun p t => downIf (downIf p t.m) t.n) p = p := by
      intro l
      induction l with
      | nil => intro _ p; rfl
      | cons t l ih =>
        intro hl p
        rw [List.foldl_cons, downIf_small _ (hl t (by simp)).1, downIf_small _ (hl t (by simp)).2]
        exact ih (fun t ht => hl t (by simp [ht])) p
    refine this _ ?_
    intro t ht
    unfold tsOf at ht
    split at ht
    · simp only [List.mem_singleton] at ht
      subst ht
      decide
    · rw [List.mem_append] at ht
      rcases ht with ht | ht <;> rw [List.eq_of_mem_replicate ht] <;> decide
  have hlen : ∀ p : Pref, downIf p (tsOf k d.ts.sum).length = downIf p k := by
    intro p
    unfold tsOf
    split
    · rename_i h0
      rw [downIf_small _ (by simp), downIf_small _ (by omega)]
    · have := n.le
      rw [List.length_append, List.length_replicate, List.length_replicate, show d.ts.sum + (k - d.ts.sum) = k by omega]
  have e1 : prefH (termOf N h (lenOf k) (rankOf k) z d).h.n (termOf N h (lenOf k) (rankOf k) z d).h.n_lhs (termOf N h (lenOf k) (rankOf k) z d).h.n_r
      (termOf N h (lenOf k) (rankOf k) z d).h.n_t = fun p => if h.n > 1 then p.down (.fact h.n) h.n.factorial else p := by
    funext p
    unfold prefH
    rw [ent]
    show (if h.n > 1 then factIf (choosePar (choosePar _ h.n 0) (h.n - 0) h.n) 0 else p) = _
    rw [choosePar_one _ (Nat.choose_zero_right _), Nat.sub_zero, choosePar_one _ (Nat.choose_self _)]
    rfl
  have e2 : prefH (termOf N h (lenOf k) (rankOf k) z d).h.m (termOf N h (lenOf k) (rankOf k) z d).h.m_lhs (termOf N h (lenOf k) (rankOf k) z d).h.m_r
      (termOf N h (lenOf k) (rankOf k) z d).h.m_t = fun p => if h.m > 1 then factIf (choosePar (choosePar (p.down (.fact h.m) h.m.factorial) h.m (N - d.lhs)) (h.m - (N - d.lhs)) 0) (k - d.ts.sum) else p := by
    funext p
    unfold prefH
    rw [emt]
    rfl
  have e3 : ∀ p, prefZ (termOf N h (lenOf k) (rankOf k) z d).z p = .ok (if z.m > 1 then factIf (factIf (choosePar (choosePar (p.down (.fact z.m) z.m.factorial) z.m d.lhs) (z.m - d.lhs) h.n) h.n) d.ts.sum else p) := by
    intro p
    unfold prefZ
    rw [ez]
    have ec : Nat.choose (z.m - d.lhs - d.h) d.ts.sum = 1 := by
      rw [show z.m - d.lhs - d.h = d.ts.sum by omega]
      exact Nat.choose_self _
    show (if z.m > 1 then if Nat.choose (z.m - d.lhs - d.h) d.ts.sum = 1 then Except.ok (factIf (factIf (choosePar (choosePar (p.down (.fact z.m) z.m.factorial) z.m d.lhs) (z.m - d.lhs) d.h) d.h) d.ts.sum) else _ else _) = _
    rw [if_pos ec, hd]
    split <;> rfl
  rw [e1, e2, e3]
  simp only [hfold, hlen]
  rfl

theorem all_zip_map {α β : Type} (l : List α) (f : α → β) (q : α × β → Bool) (h : ∀ a ∈ l, q (a, f a) = true) : (l.zip (l.map f)).all q = true := by
  induction l with
  | nil => rfl
  | cons a l ih =>
    rw [List.map_cons, List.zip_cons_cons, List.all_cons, h a (by simp), ih fun b hb => h b (by simp [hb])]
    rfl

theorem printOne_eq (rf : Bool) {N k : Nat} {h : HOp} {z : Op} {d : Dist} (g : GoodDist N h (lenOf k) (rankOf k) z.m d)
    (hb : Balanced N h k z.m) (hd : d.h = h.n) (hzn : z.n = 0) (hzr : z.rank = z.m) :
    printOne rf (termOf N h (lenOf k) (rankOf k) z d) = .ok [ptermOf N k h z d.ts.sum (N - d.lhs)] := by
  have n := nums_termOf g hb hd
  have hs := (ts_termOf g).1
  obtain ⟨s1, s2, s3, s4⟩ := sum_tsOf n.le
  have ets : (termOf N h (lenOf k) (rankOf k) z d).ts = tsOf k d.ts.sum := hs
  have n1 := n.le
  have n2 := n.onH
  have n3 := n.onZ
  have n4 := n.onN
  have hall : ∀ t ∈ tsOf k d.ts.sum, t.m_h = 0 ∧ t.m_r = 0 := by
    intro t ht
    unfold tsOf at ht
    split at ht
    · simp only [List.mem_singleton] at ht
      subst ht
      decide
    · rw [List.mem_append] at ht
      rcases ht with ht | ht <;> rw [List.eq_of_mem_replicate ht] <;> decide
  have hf : fCount (termOf N h (lenOf k) (rankOf k) z d) = .ok 0 := by
    unfold fCount
    rw [if_neg (by simp [termOf, zOf, TF.ET.mkZ]), ets, s2, s3]
    have c1 : ((tsOf k d.ts.sum).zip (termOf N h (lenOf k) (rankOf k) z d).h.n_t).all (fun p => decide (p.1.m_h = p.2)) = true := by
      have : (termOf N h (lenOf k) (rankOf k) z d).h.n_t = (tsOf k d.ts.sum).map T.m_h := by rw [← hs]; rfl
      rw [this]
      exact all_zip_map _ _ _ fun t _ => by simp
    have c2 : ((tsOf k d.ts.sum).zip (termOf N h (lenOf k) (rankOf k) z d).z.n_t).all (fun p => decide (p.1.m_r = p.2)) = true := by
      rw [List.all_eq_true]
      intro p hp
      have h1 := (hall _ (List.of_mem_zip hp).1).2
      have h2 := (List.of_mem_zip hp).2
      have h3 : p.2 ∈ List.replicate (lenOf k) 0 := h2
      rw [List.eq_of_mem_replicate h3, h1]
      rfl
    rw [if_pos c1, if_pos c2]
    rfl
  have hfb : fbarCount (termOf N h (lenOf k) (rankOf k) z d) = .ok (h.n + k) := by
    unfold fbarCount
    rw [if_neg (by simp [termOf, zOf, TF.ET.mkZ, hd]), ets, s1, s4]
    have c1 : ((tsOf k d.ts.sum).zip (termOf N h (lenOf k) (rankOf k) z d).h.m_t).all (fun p => decide (p.1.n_h = p.2) && (decide (p.1.m_h = 0) || decide (p.1.n_h ≥ 1))) = true := by
      have : (termOf N h (lenOf k) (rankOf k) z d).h.m_t = (tsOf k d.ts.sum).map T.n_h := by rw [← hs]; rfl
      rw [this]
      exact all_zip_map _ _ _ fun t ht => by simp [(hall t ht).1]
    rw [if_pos c1]
    show Except.ok (d.h + _ + _) = _
    rw [hd, show h.n + (k - d.ts.sum) + d.ts.sum = h.n + k by omega]
  unfold printOne
  rw [hf, hfb, prefactor_termOf g hb hd, ets]
  simp only [gt_iff_lt, lt_irrefl, false_and, if_false, Except.ok.injEq, List.cons.injEq, and_true]
  have hr : (termOf N h (lenOf k) (rankOf k) z d).h.rank = h.m + h.n := rfl
  have hlab : ∀ o : Off, o.u = 0 → o.s = k → o.lower_z = [] → (h.m = 0 → d.lhs = N) →
      hLabel (termOf N h (lenOf k) (rankOf k) z d).h o =
        (if h.m + h.n = 0 then none else some ⟨if h.m > 0 then o.upper_h ++ [⟨.blue, []⟩, ⟨.red, at' zUnlinked 0 (N - d.lhs)⟩] else [],
          if h.n > 0 then [⟨.blue, at' zSummation k h.n⟩, ⟨.red, []⟩] else []⟩,
          ⟨o.upper_h, o.upper_z ++ (if h.n > 0 then [⟨.blue, at' zSummation k h.n⟩] else []), if h.m > 0 then [⟨.blue, []⟩] else [], k + h.n, N - d.lhs⟩) := by
    intro o o1 o2 o3 o4
    obtain ⟨uh, uz, lz, s, u⟩ := o
    simp only at o1 o2 o3
    subst o1 o2 o3
    unfold hLabel
    simp only [termOf]
    by_cases a : h.m = 0 <;> by_cases b : h.n = 0
    · have := o4 a
      simp [a, b, this]
    · have := o4 a
      simp [a, b, this, Nat.pos_of_ne_zero b, at'_zero]
    · simp [a, b, Nat.pos_of_ne_zero a, at'_zero]
    · simp [a, b, Nat.pos_of_ne_zero a, Nat.pos_of_ne_zero b, at'_zero]
  have hzl : ∀ o : Off, o.u = N - d.lhs → zLabel (termOf N h (lenOf k) (rankOf k) z d).z o =
      (if z.m = 0 then none else some ⟨o.upper_z ++ [⟨.red, at' zUnlinked (N - d.lhs) (N - (N - d.lhs))⟩], []⟩) := by
    intro o o1
    unfold zLabel
    show (if z.rank = 0 then none else _) = _
    rw [hzr]
    by_cases a : z.m = 0
    · rw [if_pos a, if_pos a]
    · rw [if_neg a, if_neg a]
      simp only [termOf, zOf, TF.ET.mkZ, hzn, o1, Nat.pos_of_ne_zero a, gt_iff_lt, lt_irrefl, if_false, if_true]
      rw [show N - (N - d.lhs) = d.lhs by omega]
  have hN : h.m = 0 → d.lhs = N := fun a => by omega
  by_cases hk : k = 0
  · subst hk
    have : d.ts.sum = 0 := by omega
    rw [this, tLabels_zero]
    simp only
    rw [hlab _ rfl rfl rfl hN, hzl _ rfl]
    simp only [ptermOf, show N - (N - d.lhs) = d.lhs by omega, List.range_zero, List.map_nil, List.nil_append, if_true]
  · rw [tLabels_tsOf hk n1]
    simp only
    rw [hlab _ rfl rfl rfl hN, hzl _ rfl]
    simp only [ptermOf, show N - (N - d.lhs) = d.lhs by omega, hk, if_false]

end TF.ETLatex
