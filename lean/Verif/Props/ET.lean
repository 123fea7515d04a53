import Verif.Spec.ET
import Verif.Lemmas.ET
import Mathlib.Data.Fintype.EquivFin

/-!
# Properties of the e^T z_t terms

C34 every generated term is a full contraction; C35 every contraction is generated exactly once.
-/

namespace TF.ET

open TF.Py
open TF.CC (Op HOp Series collect collect_ok_of)
open TF.Spec.ET

/-! ## The Taylor series -/

theorem tOps_one : tOps 1 = [⟨"s_1", 1, 0, 1⟩] := by decide

theorem productRepeat_singleton {α : Type} (a : α) (k : Nat) : productRepeat [a] k = [List.replicate k a] := by
  unfold productRepeat
  induction k with
  | zero => rfl
  | succ k ih => rw [List.replicate_succ, product, ih]; rfl

/-- The number of entries in the list of t factors of order `k`. -/
def lenOf (k : Nat) : Nat := if k = 0 then 1 else k
/-- The number of annihilation operators of each of them. -/
def rankOf (k : Nat) : Nat := if k = 0 then 0 else 1

theorem uniform_tFactors (k : Nat) : Uniform (tFactors k) (lenOf k) (rankOf k) := by
  unfold tFactors lenOf rankOf
  by_cases hk : k = 0
  · simp only [hk, if_true]
    exact ⟨rfl, le_refl _, by omega, fun _ => rfl, "1", rfl⟩
  · simp only [hk, if_false]
    exact ⟨by simp, by omega, by omega, fun h => by omega, "s_1", rfl⟩

theorem lenOf_mul (k : Nat) : lenOf k * rankOf k = k := by
  unfold lenOf rankOf
  split <;> omega

/-- The series for T = 1. -/
def seriesOf (k : Nat) : Series :=
  if k = 0 then .one ⟨"1", 0, 0, 0⟩ else if k = 1 then .lin [⟨"s_1", 1, 0, 1⟩]
  else .prods [List.replicate k ⟨"s_1", 1, 0, 1⟩]

theorem eTaylor_one {K : Nat} (hK : 1 ≤ K) : eTaylor 1 K = .ok ((List.range (K + 1)).map seriesOf) := by
  unfold eTaylor
  rw [if_neg (by omega), tOps_one]
  obtain ⟨n, rfl⟩ : ∃ n, K = n + 1 := ⟨K - 1, by omega⟩
  rw [List.range_succ_eq_map, List.range_succ_eq_map]
  simp only [List.map_cons, List.map_map, Nat.add_sub_cancel, Except.ok.injEq, List.cons.injEq]
  refine ⟨rfl, rfl, ?_⟩
  refine List.map_congr_left fun i _ => ?_
  simp only [productRepeat_singleton, Function.comp_def, seriesOf]
  rw [if_neg (by omega), if_neg (by omega)]

theorem prepareT_seriesOf (k : Nat) : prepareT (seriesOf k) = .ok [tFactors k] := by
  unfold seriesOf tFactors
  by_cases h0 : k = 0
  · simp [h0, prepareT]
  · by_cases h1 : k = 1
    · subst h1
      rfl
    · rw [if_neg h0, if_neg h1, if_neg h0]
      obtain ⟨n, rfl⟩ : ∃ n, k = n + 1 := ⟨k - 1, by omega⟩
      rfl

theorem groundZ (cc : Nat) : GroundZ (Zhz.zOps cc true) := by
  have h1 : ∀ z ∈ Zhz.zOps cc true, z.n = 0 ∧ z.rank = z.m := by
    intro z hz
    have := Zhz.mem_zOps hz
    refine ⟨?_, ?_⟩
    · exact (by tauto : z.n = 0)
    · have h2 : z.n = 0 := by tauto
      have h3 : z.rank = z.m + z.n := by tauto
      omega
  refine ⟨fun z hz => (h1 z hz).1, fun z hz => (h1 z hz).2, ?_⟩
  have h2 := Zhz.zOps_keys_nodup cc true
  have h3 : ((Zhz.zOps cc true).map fun z => (z.m, z.n)) = ((Zhz.zOps cc true).map Op.m).map fun m => (m, 0) := by
    rw [List.map_map]
    exact List.map_congr_left fun z hz => by simp [(h1 z hz).1]
  rw [h3] at h2
  exact List.Nodup.of_map _ h2

/-- The terms of order `k` for one `h`. -/
def termsAt (lhs : Op) (zs : List Op) (k : Nat) (h : HOp) : List Term :=
  termsFor lhs (tFactors k) (lenOf k) (rankOf k) zs h

/-- The h operators that take part. -/
def taking (mode : Mode) (H : List HOp) : List HOp := H.filter fun h => !(decide (mode = .lhs) && decide (h.n ≠ 0))

theorem mem_taking {mode : Mode} {H : List HOp} {h : HOp} : h ∈ taking mode H ↔ h ∈ H ∧ Takes mode h := by
  unfold taking Takes
  cases mode <;> simp

/-- The terms of one Taylor order. -/
theorem filterTerms_eq {lhs : Op} (hl : lhs.m = 0) {zs : List Op} (hz : GroundZ zs) (hne : zs ≠ []) (H : List HOp) (mode : Mode)
    (k : Nat) : filterTerms lhs (seriesOf k) H zs mode = .ok ((taking mode H).flatMap (termsAt lhs zs k)) := by
  unfold filterTerms
  rw [if_neg hne, prepareT_seriesOf]
  simp only
  have := collect_ok_of (f := filterForH lhs [tFactors k] zs mode) (l := H)
    (fun h => if mode = .lhs ∧ h.n ≠ 0 then [] else termsAt lhs zs k h)
    (fun h _ => filterForH_eq hl (uniform_tFactors k) hz h)
  rw [this]
  congr 1
  unfold taking
  clear this
  induction H with
  | nil => rfl
  | cons h H ih =>
    rw [List.flatMap_cons, ih]
    by_cases hc : mode = .lhs ∧ h.n ≠ 0
    · rw [if_pos hc, List.filter_cons_of_neg (by simpa using hc)]
      rfl
    · rw [if_neg hc, List.filter_cons_of_pos (by simp; tauto)]
      rfl

/-- The closed form of the list of terms. -/
theorem allTerms_eq {lhs : Op} (hl : lhs.m = 0) {zs : List Op} (hz : GroundZ zs) (hne : zs ≠ []) (H : List HOp) (mode : Mode)
    (K : Nat) :
    allTerms lhs ((List.range (K + 1)).map seriesOf) H zs mode =
      .ok ((List.range (K + 1)).flatMap fun k => (taking mode H).flatMap (termsAt lhs zs k)) := by
  unfold allTerms
  have h1 := filterTerms_eq hl hz hne H mode
  have := collect_ok_of (f := fun s => filterTerms lhs s H zs mode) (l := (List.range (K + 1)).map seriesOf)
    (fun s => match prepareT s with
      | .ok [ts] => (taking mode H).flatMap (termsAt lhs zs (sumN ts))
      | _ => []) (by
    intro s hs
    obtain ⟨k, _, rfl⟩ := List.mem_map.1 hs
    rw [h1, prepareT_seriesOf]
    simp only [(uniform_tFactors k).sumN, lenOf_mul])
  rw [this, List.flatMap_map]
  congr 2
  funext k
  rw [prepareT_seriesOf]
  simp only [(uniform_tFactors k).sumN, lenOf_mul]

/-! ## Contractions and shares -/

theorem perm_index {α : Type} {l l' : List α} (h : l.Perm l') :
    ∃ σ : Equiv.Perm (Fin l'.length), l = (List.finRange l'.length).map fun i => l'[σ i] := by
  have h1 : List.Forall₂ (fun a (b : Fin l'.length) => a = l'[b]) l' (List.finRange l'.length) := by
    rw [List.forall₂_iff_get]
    refine ⟨by simp, fun i h1 h2 => by simp⟩
  obtain ⟨m, h2, h3⟩ := List.perm_comp_forall₂ h h1
  have hlen : m.length = l'.length := by rw [h3.length_eq]; simp
  have hnd : m.Nodup := h3.nodup_iff.2 (List.nodup_finRange _)
  let f : Fin l'.length → Fin l'.length := fun i => m[i.val]'(by rw [hlen]; exact i.2)
  have hinj : Function.Injective f := by
    intro i j hij
    have := (List.Nodup.getElem_inj_iff hnd).1 hij
    exact Fin.ext this
  refine ⟨Equiv.ofBijective f (Finite.injective_iff_bijective.1 hinj), ?_⟩
  rw [List.forall₂_iff_get] at h2
  refine List.ext_getElem ?_ ?_
  · rw [h.length_eq]; simp
  · intro i hi hi'
    simp at hi'
    have := h2.2 i hi (by rw [hlen]; exact hi')
    simp at this
    simp [this, f]

/-- The contraction in which z shares its creation operators as `d` says. -/
def tableOf {k : Nat} (N : Nat) (h : HOp) (e : Nat) (d : Dist) : Place k → Place k → Nat
  | .h, .lhs => N - d.lhs
  | .h, .t i => e - d.ts.getD i 0
  | .z, .lhs => d.lhs
  | .z, .t i => d.ts.getD i 0
  | .z, .h => h.n
  | _, _ => 0

/-- The share of z's creation operators in a contraction. -/
def distOf {k : Nat} (c : Place k → Place k → Nat) : Dist :=
  ⟨c .z .lhs, (List.finRange k).map fun i => c .z (.t i), c .z .h, 0⟩

theorem sum_places {k : Nat} (f : Place k → Nat) :
    ((places k).map f).sum = f .lhs + ((List.finRange k).map fun i => f (.t i)).sum + f .h + f .z := by
  simp only [places, List.map_cons, List.map_append, List.map_map, List.map_nil, List.sum_cons, List.sum_append,
    List.sum_nil, Function.comp_def]
  omega

theorem finRange_getD (l : List Nat) {k : Nat} (h : l.length = k) : ((List.finRange k).map fun i : Fin k => l.getD i 0) = l := by
  subst h
  refine List.ext_getElem (by simp) ?_
  intro i h1 h2
  simp at h1
  simp [h1]

theorem finRange_getD_map {α : Type} (g : Nat → α) (l : List Nat) {k : Nat} (h : l.length = k) :
    ((List.finRange k).map fun i : Fin k => g (l.getD i 0)) = l.map g := by
  have := congrArg (List.map g) (finRange_getD l h)
  rwa [List.map_map] at this

theorem getElem_uniform {ts : List Op} {L e : Nat} (u : Uniform ts L e) (i : Fin ts.length) :
    ts[i].rank = e ∧ ts[i].m = 0 ∧ ts[i].n = e := by
  obtain ⟨nm, h⟩ := u.all
  have : ts[i] = ⟨nm, e, 0, e⟩ := by
    have hm : ∀ a ∈ ts, a = ⟨nm, e, 0, e⟩ := by
      rw [h]
      exact fun a ha => List.eq_of_mem_replicate ha
    exact hm _ (List.getElem_mem _)
  rw [this]
  exact ⟨rfl, rfl, rfl⟩

theorem isPairing_tableOf {lhs : Op} (hl : lhs.m = 0) {ts : List Op} {e : Nat} (u : Uniform ts ts.length e) {h : HOp} {z : Op}
    (hz : z.n = 0) {d : Dist} (g : GoodDist lhs.n h ts.length e z.m d) (hb : Balanced lhs.n h (ts.length * e) z.m)
    (hd : d.h = h.n) :
    IsPairing (creators lhs ts h z) (annihilators lhs ts h z) (tableOf lhs.n h e d) := by
  have s1 := finRange_getD d.ts g.len
  have s2 := finRange_getD_map (fun x => e - x) d.ts g.len
  have h1 := sum_tsub g.le
  have h2 := g.sum
  have h3 := g.lhs
  have h5 := g.len
  rw [h5] at h1
  unfold Balanced at hb
  refine ⟨?_, ?_, ?_⟩
  · intro i
    cases i <;> rfl
  · intro i
    rw [sum_places]
    cases i with
    | lhs => simp [tableOf, creators, hl]
    | t i =>
      simp only [tableOf, creators, (getElem_uniform u i).2.1]
      simp
    | h =>
      simp only [tableOf, creators, s2]
      omega
    | z =>
      simp only [tableOf, creators, s1]
      omega
  · intro j
    rw [sum_places]
    cases j with
    | lhs =>
      simp only [tableOf, annihilators]
      simp
      omega
    | t i =>
      have hx : d.ts.getD i 0 ≤ e := by
        have hi : (i : Nat) < d.ts.length := by rw [h5]; exact i.2
        have := g.le _ (List.getElem_mem hi)
        simpa [hi] using this
      simp only [tableOf, annihilators, (getElem_uniform u i).2.2]
      simp
      have hx' := hx
      simp at hx'
      omega
    | h => simp [tableOf, annihilators]
    | z => simp [tableOf, annihilators, hz]

theorem sum_zero {α : Type} {l : List α} {f : α → Nat} (h : (l.map f).sum = 0) : ∀ x ∈ l, f x = 0 := by
  intro x hx
  have := List.single_le_sum (l := l.map f) (by simp) (f x) (List.mem_map.2 ⟨x, hx, rfl⟩)
  omega

/-- The consequences of a pairing, as numbers. -/
structure Facts {k : Nat} (N : Nat) (h : HOp) (e zm : Nat) (c : Place k → Place k → Nat) : Prop where
  lhs : ∀ j, c .lhs j = 0
  t : ∀ i j, c (.t i) j = 0
  z : ∀ i, c i .z = 0
  hh : c .h .h = 0
  h_row : c .h .lhs + ((List.finRange k).map fun i => c .h (.t i)).sum = h.m
  z_row : c .z .lhs + ((List.finRange k).map fun i => c .z (.t i)).sum + c .z .h = zm
  lhs_col : c .h .lhs + c .z .lhs = N
  t_col : ∀ i, c .h (.t i) + c .z (.t i) = e
  h_col : c .z .h = h.n

theorem facts {lhs : Op} (hl : lhs.m = 0) {ts : List Op} {e : Nat} (u : Uniform ts ts.length e) {h : HOp} {z : Op}
    (hz : z.n = 0) {c : Place ts.length → Place ts.length → Nat}
    (hc : IsPairing (creators lhs ts h z) (annihilators lhs ts h z) c) : Facts lhs.n h e z.m c := by
  have row0 : ∀ i, creators lhs ts h z i = 0 → ∀ j, c i j = 0 := by
    intro i hi j
    have := hc.rows i
    rw [hi] at this
    exact sum_zero this j (by cases j <;> simp [places])
  have col0 : ∀ j, annihilators lhs ts h z j = 0 → ∀ i, c i j = 0 := by
    intro j hj i
    have := hc.cols j
    rw [hj] at this
    exact sum_zero this i (by cases i <;> simp [places])
  have a1 : ∀ j, c .lhs j = 0 := row0 .lhs hl
  have a2 : ∀ i j, c (.t i) j = 0 := fun i => row0 (.t i) (getElem_uniform u i).2.1
  have a3 : ∀ i, c i .z = 0 := col0 .z hz
  have b1 := hc.rows .h
  have b2 := hc.rows .z
  have b3 := hc.cols .lhs
  have b4 := hc.cols .h
  rw [sum_places] at b1 b2 b3 b4
  simp only [creators, annihilators, a1, a2, a3, hc.self] at b1 b2 b3 b4
  refine ⟨a1, a2, a3, hc.self _, by omega, by omega, ?_, ?_, ?_⟩
  · simpa using b3
  · intro i
    have b5 := hc.cols (.t i)
    rw [sum_places] at b5
    simp only [annihilators, a1, a2, (getElem_uniform u i).2.2] at b5
    simpa using b5
  · simpa using b4

theorem sum_add_finRange {k : Nat} (f g : Fin k → Nat) (e : Nat) (h : ∀ i, f i + g i = e) :
    ((List.finRange k).map f).sum + ((List.finRange k).map g).sum = k * e := by
  have h1 : ∀ l : List (Fin k), (l.map f).sum + (l.map g).sum = l.length * e := by
    intro l
    induction l with
    | nil => simp
    | cons a l ih =>
      simp only [List.map_cons, List.sum_cons, List.length_cons, Nat.add_mul, Nat.one_mul]
      have := h a
      omega
  have := h1 (List.finRange k)
  simpa using this

theorem good_distOf {ts : List Op} {N e zm : Nat} {h : HOp} {c : Place ts.length → Place ts.length → Nat}
    (f : Facts N h e zm c) :
    GoodDist N h ts.length e zm (distOf c) ∧ Balanced N h (ts.length * e) zm ∧ (distOf c).h = h.n ∧
      tableOf N h e (distOf c) = c := by
  have s := sum_add_finRange _ _ e f.t_col
  have h1 := f.h_row
  have h2 := f.z_row
  have h3 := f.lhs_col
  have h4 := f.h_col
  refine ⟨⟨by simp [distOf], ?_, rfl, ?_, ?_, ?_, ?_, ?_⟩, ?_, h4, ?_⟩
  · simp only [distOf]; omega
  · simp only [distOf]; omega
  · simp only [distOf]; omega
  · intro x hx
    simp only [distOf, List.mem_map] at hx
    obtain ⟨i, _, rfl⟩ := hx
    have := f.t_col i
    omega
  · intro x hx
    simp only [distOf, List.mem_map] at hx
    obtain ⟨i, hi, rfl⟩ := hx
    have := f.t_col i
    have := List.single_le_sum (l := (List.finRange ts.length).map fun i => c .h (.t i)) (by simp) _
      (List.mem_map.2 ⟨i, hi, rfl⟩)
    omega
  · simp only [distOf]; omega
  · unfold Balanced; omega
  · have g1 : ∀ i : Fin ts.length, (distOf c).ts.getD i 0 = c .z (.t i) := by
      intro i
      simp [distOf]
    funext i j
    cases i with
    | lhs => rw [f.lhs]; cases j <;> rfl
    | t i => rw [f.t]; cases j <;> rfl
    | h =>
      cases j with
      | lhs => simp only [tableOf, distOf]; omega
      | t i =>
        have := f.t_col i
        simp only [tableOf, g1]
        omega
      | h => rw [f.hh]; rfl
      | z => rw [f.z]; rfl
    | z =>
      cases j with
      | lhs => rfl
      | t i => simp only [tableOf, g1]
      | h => simp only [tableOf]; omega
      | z => rw [f.z]; rfl

theorem records_termOf {lhs : Op} (hl : lhs.m = 0) {ts : List Op} {e : Nat} (u : Uniform ts ts.length e) {h : HOp} {z : Op}
    (hz : z.n = 0) {d : Dist} (g : GoodDist lhs.n h ts.length e z.m d) (hd : d.h = h.n) :
    Records (termOf lhs.n h ts.length e z d) lhs ts h z (tableOf lhs.n h e d) := by
  obtain ⟨σ', hσ⟩ := perm_index (sortT_perm (d.ts.map (tOf e)))
  have hlen : (d.ts.map (tOf e)).length = ts.length := by simp [g.len]
  obtain ⟨σ, hσ2⟩ : ∃ σ : Equiv.Perm (Fin ts.length), sortT (d.ts.map (tOf e)) =
      (List.finRange ts.length).map fun i => tOf e (d.ts.getD (σ i) 0) := by
    have hcast : ∀ n (hn : (d.ts.map (tOf e)).length = n), ∃ σ : Equiv.Perm (Fin n), sortT (d.ts.map (tOf e)) =
      (List.finRange n).map fun i => tOf e (d.ts.getD (σ i) 0) := by
      intro n hn
      subst hn
      refine ⟨σ', hσ.trans ?_⟩
      refine List.map_congr_left fun i _ => ?_
      have hi : (σ' i : Nat) < d.ts.length := Nat.lt_of_lt_of_eq (σ' i).2 (List.length_map _)
      simp [hi]
    exact hcast _ hlen
  refine ⟨σ, ?_, ?_, ?_, ?_⟩
  · simp only [termOf, hσ2]
    refine List.map_congr_left fun i _ => ?_
    have := getElem_uniform u (σ i)
    simp only [tOf, tEntry, tableOf, this.1, this.2.1, this.2.2]
  · simp only [termOf, hσ2, hl, List.map_map, Function.comp_def, tOf, tableOf, Nat.zero_add]
  · simp only [termOf, hσ2, List.map_map, Function.comp_def, tOf, tableOf]
  · simp only [termOf, zOf, mkZ, hz, tableOf, g.other, hd, finRange_getD d.ts g.len]
    congr 1
    simp

/-! ## The properties -/

theorem mem_termsAt {lhs : Op} (hl : lhs.m = 0) {zs : List Op} (hz : GroundZ zs) {k : Nat} {h : HOp} {t : Term} :
    t ∈ termsAt lhs zs k h ↔ ∃ z ∈ zs, ∃ d, GoodDist lhs.n h (lenOf k) (rankOf k) z.m d ∧ Balanced lhs.n h k z.m ∧ d.h = h.n ∧
      t = termOf lhs.n h (lenOf k) (rankOf k) z d := by
  unfold termsAt termsFor
  simp only [List.mem_flatMap, List.mem_filter, List.mem_map, decide_eq_true_eq]
  constructor
  · rintro ⟨z, ⟨hzm, hv⟩, d, ⟨hd, hh⟩, rfl⟩
    refine ⟨z, hzm, d, (mem_upper hl (uniform_tFactors k)).1 hd, ?_, hh, rfl⟩
    have := validPerm_balanced hl (uniform_tFactors k) (hz.n z hzm) hv
    rwa [lenOf_mul] at this
  · rintro ⟨z, hzm, d, g, hb, hh, rfl⟩
    refine ⟨z, ⟨hzm, ?_⟩, d, ⟨(mem_upper hl (uniform_tFactors k)).2 g, hh⟩, rfl⟩
    refine (validPerm_iff hl (uniform_tFactors k) (hz.n z hzm)).2 ⟨by rwa [lenOf_mul], ?_⟩
    rintro ⟨_, h2, h3, _, _⟩
    have := g.sum
    omega

theorem uniform_self (k : Nat) : Uniform (tFactors k) (tFactors k).length (rankOf k) := by
  have := uniform_tFactors k
  rw [← this.len] at this
  exact this

/-- Generation succeeds for every accepted truncation (T = 1, order at least 1), every projection
without creation operators and both sides. -/
theorem eT_terms_ok {lhs : Op} (hl : lhs.m = 0) (cc : Nat) (H : List HOp) (mode : Mode) {K : Nat} (hK : 1 ≤ K) :
    ∃ ss l, eTaylor 1 K = .ok ss ∧ allTerms lhs ss H (Zhz.zOps cc true) mode = .ok l :=
  ⟨_, _, eTaylor_one hK, allTerms_eq hl (groundZ cc) (Zhz.zOps_ne_nil cc true) H mode K⟩

theorem terms_ok {lhs : Op} (hl : lhs.m = 0) {cc : Nat} {H : List HOp} {mode : Mode} {K : Nat} (hK : 1 ≤ K) {ss : List Series}
    (hss : eTaylor 1 K = .ok ss) {l : List Term} (h : allTerms lhs ss H (Zhz.zOps cc true) mode = .ok l) :
    l = (List.range (K + 1)).flatMap fun k => (taking mode H).flatMap (termsAt lhs (Zhz.zOps cc true) k) := by
  rw [eTaylor_one hK] at hss
  injection hss with hss
  subst hss
  rw [allTerms_eq hl (groundZ cc) (Zhz.zOps_ne_nil cc true) H mode K] at h
  injection h with h
  exact h.symm

/-- **C34, what holds.** Every generated term belongs to a Taylor order, an h operator and a z operator,
and records a full contraction of these factors with the projection operator, up to the order in which
the t factors are listed.  What is missing: the order used by z and the order used by the list of t
factors and h need not be the same, see `eT_terms_misaligned`. -/
theorem eT_terms_paired_partial {lhs : Op} (hl : lhs.m = 0) {cc : Nat} {H : List HOp} {mode : Mode} {K : Nat} (hK : 1 ≤ K)
    {ss : List Series} (hss : eTaylor 1 K = .ok ss) {l : List Term}
    (h : allTerms lhs ss H (Zhz.zOps cc true) mode = .ok l) {t : Term} (ht : t ∈ l) :
    ∃ k ≤ K, ∃ h ∈ H, Takes mode h ∧ ∃ z ∈ Zhz.zOps cc true, ∃ c,
      IsPairing (creators lhs (tFactors k) h z) (annihilators lhs (tFactors k) h z) c ∧
      Records t lhs (tFactors k) h z c := by
  rw [terms_ok hl hK hss h] at ht
  simp only [List.mem_flatMap, List.mem_range, mem_taking] at ht
  obtain ⟨k, hk, h, ⟨hh, htk⟩, ht⟩ := ht
  obtain ⟨z, hz, d, g, hb, hd, rfl⟩ := (mem_termsAt hl (groundZ cc)).1 ht
  have hlen := (uniform_tFactors k).len
  rw [← lenOf_mul k] at hb
  rw [← hlen] at g hb ⊢
  have hzn := (groundZ cc).n z hz
  exact ⟨k, by omega, h, hh, htk, z, hz, _, isPairing_tableOf hl (uniform_self k) hzn g hb hd,
    records_termOf hl (uniform_self k) hzn g hd⟩

theorem tFactors_eq_of_records {t : Term} {lhs lhs' : Op} {k k' : Nat} {h h' : HOp} {z z' : Op}
    {c : Place (tFactors k).length → Place (tFactors k).length → Nat}
    {c' : Place (tFactors k').length → Place (tFactors k').length → Nat}
    (r : Records t lhs (tFactors k) h z c) (r' : Records t lhs' (tFactors k') h' z' c') : k = k' := by
  obtain ⟨σ, r⟩ := r
  obtain ⟨σ', r'⟩ := r'
  have e1 : (t.ts.map T.rank).sum = k := by
    rw [r.tsE, List.map_map]
    have : (T.rank ∘ fun i => tEntry (tFactors k)[σ i] c (σ i)) = fun _ => rankOf k := by
      funext i
      exact (getElem_uniform (uniform_self k) (σ i)).1
    rw [this, List.map_const', List.sum_replicate, List.length_finRange, (uniform_tFactors k).len, smul_eq_mul, lenOf_mul]
  have e2 : (t.ts.map T.rank).sum = k' := by
    rw [r'.tsE, List.map_map]
    have : (T.rank ∘ fun i => tEntry (tFactors k')[σ' i] c' (σ' i)) = fun _ => rankOf k' := by
      funext i
      exact (getElem_uniform (uniform_self k') (σ' i)).1
    rw [this, List.map_const', List.sum_replicate, List.length_finRange, (uniform_tFactors k').len, smul_eq_mul, lenOf_mul]
  omega

theorem keys_termOf {N : Nat} {h h' : HOp} {L L' e e' : Nat} {z z' : Op} {d d' : Dist}
    (he : termOf N h L e z d = termOf N h' L' e' z' d') : h.m = h'.m ∧ h.n = h'.n ∧ z.m = z'.m ∧ d = d' := by
  simp only [termOf, Term.mk.injEq, HC.mk.injEq, zOf, mkZ, Z.mk.injEq] at he
  obtain ⟨_, _, h1, h2, _⟩ := he
  refine ⟨h1.2.1, h1.2.2.1, h2.2.1, ?_⟩
  cases d
  cases d'
  simp only [Dist.mk.injEq] at *
  tauto

theorem nodup_termsAt {lhs : Op} (hl : lhs.m = 0) {zs : List Op} (hz : GroundZ zs) (k : Nat) (h : HOp) :
    (termsAt lhs zs k h).Nodup := by
  unfold termsAt termsFor
  rw [List.nodup_flatMap]
  constructor
  · intro z _
    refine List.Nodup.map ?_ ((zPerms_nodup _ _ _ _).filter _)
    intro d d' hd
    exact (keys_termOf hd).2.2.2
  · have hnd : (zs.filter fun z => validPerm lhs (tFactors k) h z).Pairwise fun a b => a.m ≠ b.m := by
      have := hz.nodup
      rw [List.nodup_iff_pairwise_ne, List.pairwise_map] at this
      exact this.sublist List.filter_sublist
    refine hnd.imp ?_
    intro a b hab t ht ht'
    simp only [List.mem_map] at ht ht'
    obtain ⟨d, _, rfl⟩ := ht
    obtain ⟨d', _, h'⟩ := ht'
    exact hab (keys_termOf h').2.2.1.symm

theorem ts_termOf (N : Nat) (h : HOp) (k : Nat) (z : Op) (d : Dist) (hd : d.ts.length = lenOf k) :
    ((termOf N h (lenOf k) (rankOf k) z d).ts.map T.rank).sum = k := by
  simp only [termOf]
  rw [sum_sortT, List.map_map]
  have : T.rank ∘ tOf (rankOf k) = fun _ => rankOf k := by funext x; rfl
  rw [this, List.map_const', List.sum_replicate, hd, smul_eq_mul, lenOf_mul]

theorem nodup_all {lhs : Op} (hl : lhs.m = 0) {zs : List Op} (hz : GroundZ zs) {H : List HOp}
    (hH : (H.map fun h => (h.m, h.n)).Nodup) (K : Nat) :
    ((List.range (K + 1)).flatMap fun k => H.flatMap (termsAt lhs zs k)).Nodup := by
  rw [List.nodup_flatMap]
  constructor
  · intro k _
    rw [List.nodup_flatMap]
    refine ⟨fun h _ => nodup_termsAt hl hz k h, ?_⟩
    rw [List.nodup_iff_pairwise_ne, List.pairwise_map] at hH
    refine hH.imp ?_
    intro a b hab t ht ht'
    obtain ⟨z, _, d, _, _, _, rfl⟩ := (mem_termsAt hl hz).1 ht
    obtain ⟨z', _, d', _, _, _, h'⟩ := (mem_termsAt hl hz).1 ht'
    have := keys_termOf h'
    exact hab (by simp [this.1, this.2.1])
  · refine List.Pairwise.imp ?_ List.nodup_range
    intro a b hab t ht ht'
    simp only [List.mem_flatMap] at ht ht'
    obtain ⟨h, _, ht⟩ := ht
    obtain ⟨h', _, ht'⟩ := ht'
    obtain ⟨z, _, d, g, _, _, rfl⟩ := (mem_termsAt hl hz).1 ht
    obtain ⟨z', _, d', g', _, _, h''⟩ := (mem_termsAt hl hz).1 ht'
    have e1 := ts_termOf lhs.n h a z d g.len
    rw [h'', ts_termOf lhs.n h' b z' d' g'.len] at e1
    exact hab e1.symm

theorem taking_nodup {mode : Mode} {H : List HOp} (hH : (H.map fun h => (h.m, h.n)).Nodup) :
    ((taking mode H).map fun h => (h.m, h.n)).Nodup :=
  hH.sublist (List.filter_sublist.map _)

theorem HOp_key {H : List HOp} (hH : (H.map fun h => (h.m, h.n)).Nodup) {h h' : HOp} (a : h ∈ H) (b : h' ∈ H)
    (e : (h.m, h.n) = (h'.m, h'.n)) : h = h' := List.inj_on_of_nodup_map hH a b e

/-- **C35.** For every Taylor order, h operator and z operator and every full contraction of these
factors with the projection operator there is exactly one position in the generated list whose term
records it, although the program keeps only one assignment of the t factors for each assignment of z. -/
theorem eT_terms_exactly_once {lhs : Op} (hl : lhs.m = 0) {cc : Nat} {H : List HOp} (hH : (H.map fun h => (h.m, h.n)).Nodup)
    {mode : Mode} {K : Nat} (hK : 1 ≤ K) {ss : List Series} (hss : eTaylor 1 K = .ok ss) {l : List Term}
    (hts : allTerms lhs ss H (Zhz.zOps cc true) mode = .ok l)
    {k : Nat} (hk : k ≤ K) {h : HOp} (hh : h ∈ H) (htk : Takes mode h) {z : Op} (hz : z ∈ Zhz.zOps cc true)
    {c : Place (tFactors k).length → Place (tFactors k).length → Nat}
    (hc : IsPairing (creators lhs (tFactors k) h z) (annihilators lhs (tFactors k) h z) c) :
    ∃! i : Fin l.length, Records l[i] lhs (tFactors k) h z c := by
  have hzn := (groundZ cc).n z hz
  have hlen := (uniform_tFactors k).len
  have hl' := terms_ok hl hK hss hts
  obtain ⟨g, hb, hd, htab⟩ := good_distOf (facts hl (uniform_self k) hzn hc)
  have hrec : Records (termOf lhs.n h (lenOf k) (rankOf k) z (distOf c)) lhs (tFactors k) h z c := by
    have := records_termOf hl (uniform_self k) hzn g hd
    rw [htab] at this
    have e : termOf lhs.n h (tFactors k).length (rankOf k) z (distOf c) = termOf lhs.n h (lenOf k) (rankOf k) z (distOf c) :=
      congrArg (fun n => termOf lhs.n h n (rankOf k) z (distOf c)) hlen
    rwa [e] at this
  have hmem : termOf lhs.n h (lenOf k) (rankOf k) z (distOf c) ∈ l := by
    rw [hl']
    simp only [List.mem_flatMap, List.mem_range]
    refine ⟨k, by omega, h, mem_taking.2 ⟨hh, htk⟩, (mem_termsAt hl (groundZ cc)).2 ⟨z, hz, distOf c, ?_, ?_, hd, rfl⟩⟩
    · exact hlen ▸ g
    · rwa [hlen, lenOf_mul] at hb
  have huniq : ∀ t ∈ l, Records t lhs (tFactors k) h z c → t = termOf lhs.n h (lenOf k) (rankOf k) z (distOf c) := by
    intro t ht hr
    rw [hl'] at ht
    simp only [List.mem_flatMap, List.mem_range, mem_taking] at ht
    obtain ⟨k', hk', h', ⟨hh', htk'⟩, ht⟩ := ht
    obtain ⟨z', hz', d', g', hb', hd', rfl⟩ := (mem_termsAt hl (groundZ cc)).1 ht
    have hkk : k' = k := by
      have e1 := ts_termOf lhs.n h' k' z' d' g'.len
      obtain ⟨σ, r⟩ := hr
      rw [r.tsE, List.map_map] at e1
      have : (T.rank ∘ fun i => tEntry (tFactors k)[σ i] c (σ i)) = fun _ => rankOf k := by
        funext i
        exact (getElem_uniform (uniform_self k) (σ i)).1
      rw [this, List.map_const', List.sum_replicate, List.length_finRange, hlen, smul_eq_mul, lenOf_mul] at e1
      exact e1.symm
    subst hkk
    obtain ⟨σ, r⟩ := hr
    have e2 := r.hE
    have e3 := r.zE
    simp only [termOf, HC.mk.injEq, zOf, mkZ, Z.mk.injEq] at e2 e3
    have hheq : h' = h := HOp_key hH hh' hh (by simp [e2.2.1, e2.2.2.1])
    have hzeq : z' = z := List.inj_on_of_nodup_map (groundZ cc).nodup hz' hz e3.2.1
    subst hheq hzeq
    congr 1
    have o := g'.other
    cases d'
    simp only [distOf, Dist.mk.injEq]
    exact ⟨e3.2.2.2.1, e3.2.2.2.2.2.1, e3.2.2.2.2.2.2.2.1, o⟩
  have hnd : l.Nodup := by
    rw [hl']
    exact nodup_all hl (groundZ cc) (taking_nodup hH) K
  obtain ⟨i, hi, hil⟩ := List.getElem_of_mem hmem
  refine ⟨⟨i, hi⟩, ?_, ?_⟩
  · show Records l[i] _ _ _ _ _
    rw [hil]
    exact hrec
  · intro j hj
    have hj2 := huniq l[j] (List.getElem_mem _) hj
    have : l[j.val] = l[i] := by rw [hil]; exact hj2
    exact Fin.ext ((List.Nodup.getElem_inj_iff hnd).1 this)

/-- Non-trivial instance: for e^T of order 2 with one-particle h and doubles z, the projection with one
annihilation operator has nine terms, and the contraction in which the second t takes a creation operator
of z and the first one a creation operator of h is one of them. -/
example : ∃ ss l, eTaylor 1 2 = .ok ss ∧
    allTerms ⟨"", 1, 0, 1⟩ ss (Zhz.prunedH 1) (Zhz.zOps 2 true) .rhs = .ok l ∧ l.length = 9 ∧
    ((Zhz.prunedH 1).map fun h => (h.m, h.n)).Nodup ∧
    ∃ z ∈ Zhz.zOps 2 true, ∃ c : Place (tFactors 2).length → Place (tFactors 2).length → Nat,
      IsPairing (creators ⟨"", 1, 0, 1⟩ (tFactors 2) ⟨1, 1, 0⟩ z) (annihilators ⟨"", 1, 0, 1⟩ (tFactors 2) ⟨1, 1, 0⟩ z) c ∧
      c .h (.t ⟨0, by decide⟩) = 1 ∧ c .z (.t ⟨1, by decide⟩) = 1 := by
  refine ⟨_, _, rfl, rfl, by decide, by decide, ⟨"z^2", 2, 2, 0⟩, by decide, fun i j =>
    match i, j with
    | .h, .t i => if i.val = 0 then 1 else 0
    | .z, .t i => if i.val = 1 then 1 else 0
    | .z, .lhs => 1
    | _, _ => 0, ⟨?_, ?_, ?_⟩, rfl, rfl⟩
  · intro i; cases i <;> rfl
  · intro i
    cases i with
    | t i => revert i; decide
    | _ => decide
  · intro i
    cases i with
    | t i => revert i; decide
    | _ => decide

/-- The order of the t factors is not consistent within a term: here the list of t operators says that
the first t takes a creation operator of z while z says that it is the second one. -/
theorem eT_terms_misaligned : ∃ ss l, eTaylor 1 2 = .ok ss ∧
    allTerms ⟨"", 1, 0, 1⟩ ss (Zhz.prunedH 1) (Zhz.zOps 2 true) .rhs = .ok l ∧
    ∃ t ∈ l, t.ts.map T.n_r = [1, 0] ∧ t.z.m_t = [0, 1] := by
  refine ⟨_, _, rfl, rfl, ?_⟩
  decide +kernel

end TF.ET
