import Verif.Spec.Zhz
import Verif.Lemmas.FullCC.Terms

namespace TF.Zhz

open TF.Py
open TF.CC (Op HOp collect omegaJoinsItself hJoinsItself)
open TF.Spec.Zhz

/-! ## Distributions -/

theorem mem_dists {M : Nat} {d : Dist} : d ∈ dists M ↔ d.lhs + d.h + d.z = M := by
  obtain ⟨a, b, c⟩ := d
  simp only [dists, List.mem_map, List.mem_filter, List.mem_flatMap, List.mem_range, decide_eq_true_eq,
    Prod.exists, Prod.mk.injEq, Dist.mk.injEq]
  constructor
  · rintro ⟨x, y, ⟨_, h⟩, rfl, rfl, rfl⟩; omega
  · intro h
    exact ⟨a, b, ⟨⟨a, by omega, b, by omega, rfl, rfl⟩, by omega⟩, rfl, rfl, by omega⟩

theorem nodup_pairs {α β : Type} {xs : List α} {ys : List β} (hx : xs.Nodup) (hy : ys.Nodup) :
    (pairs xs ys).Nodup := by
  unfold pairs
  rw [List.nodup_flatMap]
  refine ⟨fun x _ => hy.map (fun a b h => (Prod.mk.inj h).2), hx.imp ?_⟩
  intro a b hab
  simp only [Function.onFun, List.disjoint_left, List.mem_map]
  rintro p ⟨y, _, rfl⟩ ⟨y', _, h⟩
  exact hab (Prod.mk.inj h).1.symm

theorem mem_pairs {α β : Type} {xs : List α} {ys : List β} {p : α × β} :
    p ∈ pairs xs ys ↔ p.1 ∈ xs ∧ p.2 ∈ ys := by
  obtain ⟨a, b⟩ := p
  simp [pairs]

theorem nodup_dists (M : Nat) : (dists M).Nodup := by
  unfold dists
  refine (List.Nodup.filter _ (nodup_pairs List.nodup_range List.nodup_range)).map_on ?_
  rintro ⟨a, b⟩ _ ⟨c, d⟩ _ h
  simp only [Dist.mk.injEq] at h
  simp [h.1, h.2.1]

/-! ## Closed form of the term lists -/

/-- the labelled operator of a slot -/
def zOf (z : Option Op) (u l : Dist) : Option Z :=
  z.map fun z => { rank := z.rank, m := z.m, n := z.n, m_lhs := u.lhs, m_h := u.h, m_z := u.z,
                   n_lhs := l.lhs, n_h := l.h, n_z := l.z }

theorem buildZ_eq {z : Option Op} {u l : Dist} (hu : u ∈ dists (slot z).m) (hl : l ∈ dists (slot z).n) :
    buildZ z u l = .ok (zOf z u l) := by
  cases z with
  | some z => rfl
  | none =>
    rw [mem_dists] at hu hl
    obtain ⟨a, b, c⟩ := u
    obtain ⟨a', b', c'⟩ := l
    simp only [slot] at hu hl
    have : a = 0 ∧ b = 0 ∧ c = 0 ∧ a' = 0 ∧ b' = 0 ∧ c' = 0 := by omega
    obtain ⟨rfl, rfl, rfl, rfl, rfl, rfl⟩ := this
    simp [buildZ, zOf]

/-- one choice of h, z operators and distributions -/
abbrev Choice := HOp × (Option Op × Option Op) × ((Dist × Dist) × (Dist × Dist))

/-- the distributions are numbers of a pairing -/
def Good (lhs : Op) (x : Choice) : Bool :=
  decide (x.2.2.1.1.z = x.2.2.2.2.z) && decide (x.2.2.2.1.z = x.2.2.1.2.z) &&
  decide (x.1.m + (x.2.2.1.1.lhs + x.2.2.1.2.lhs) = lhs.n + (x.2.2.2.1.h + x.2.2.2.2.h)) &&
  decide (x.1.n + (x.2.2.2.1.lhs + x.2.2.2.2.lhs) = lhs.m + (x.2.2.1.1.h + x.2.2.1.2.h))

/-- the term of a choice -/
def termOf (lhs : Op) (x : Choice) : Term :=
  { lhs := { rank := lhs.m + lhs.n, m := lhs.m, n := lhs.n,
             m_l := x.2.2.2.1.lhs, n_l := x.2.2.1.1.lhs, m_r := x.2.2.2.2.lhs, n_r := x.2.2.1.2.lhs,
             m_h := lhs.m - (x.2.2.2.1.lhs + x.2.2.2.2.lhs), n_h := lhs.n - (x.2.2.1.1.lhs + x.2.2.1.2.lhs) }
    h := { rank := x.1.m + x.1.n, m := x.1.m, n := x.1.n,
           m_l := x.2.2.2.1.h, n_l := x.2.2.1.1.h, m_r := x.2.2.2.2.h, n_r := x.2.2.1.2.h,
           m_lhs := x.1.m - (x.2.2.2.1.h + x.2.2.2.2.h), n_lhs := x.1.n - (x.2.2.1.1.h + x.2.2.1.2.h) }
    left := zOf x.2.1.1 x.2.2.1.1 x.2.2.2.1
    right := zOf x.2.1.2 x.2.2.1.2 x.2.2.2.2 }

/-- all choices the loops run through for one h -/
def choicesH (lhs : Op) (all : List (Option Op × Option Op)) (h : HOp) : List Choice :=
  (validPerms lhs h all).flatMap fun p =>
    (pairs (connectionPerms lhs h (slot p.1) (slot p.2)).1 (connectionPerms lhs h (slot p.1) (slot p.2)).2).map
      fun ul => (h, p, ul)

/-- The bounds met by every choice. -/
structure InRange (lhs : Op) (x : Choice) : Prop where
  lm : x.2.2.1.1.lhs + x.2.2.1.1.h + x.2.2.1.1.z = (slot x.2.1.1).m
  rm : x.2.2.1.2.lhs + x.2.2.1.2.h + x.2.2.1.2.z = (slot x.2.1.2).m
  ln : x.2.2.2.1.lhs + x.2.2.2.1.h + x.2.2.2.1.z = (slot x.2.1.1).n
  rn : x.2.2.2.2.lhs + x.2.2.2.2.h + x.2.2.2.2.z = (slot x.2.1.2).n
  hn : x.2.2.1.1.h + x.2.2.1.2.h ≤ x.1.n
  on : x.2.2.1.1.lhs + x.2.2.1.2.lhs ≤ lhs.n
  lz : x.2.2.1.1.z ≤ (slot x.2.1.2).n
  rz : x.2.2.1.2.z ≤ (slot x.2.1.1).n
  hm : x.2.2.2.1.h + x.2.2.2.2.h ≤ x.1.m
  om : x.2.2.2.1.lhs + x.2.2.2.2.lhs ≤ lhs.m
  lz' : x.2.2.2.1.z ≤ (slot x.2.1.2).m
  rz' : x.2.2.2.2.z ≤ (slot x.2.1.1).m

theorem mem_choicesH {lhs : Op} {all : List (Option Op × Option Op)} {h : HOp} {x : Choice} :
    x ∈ choicesH lhs all h ↔ x.1 = h ∧ x.2.1 ∈ validPerms lhs h all ∧ InRange lhs x := by
  obtain ⟨h', p, ⟨⟨a, b⟩, ⟨c, d⟩⟩⟩ := x
  simp only [choicesH, List.mem_flatMap, List.mem_map, mem_pairs, connectionPerms, List.mem_filter, mem_dists,
    Bool.and_eq_true, decide_eq_true_eq, Prod.mk.injEq, and_assoc]
  constructor
  · rintro ⟨p', hp, ⟨⟨a', b'⟩, ⟨c', d'⟩⟩, h1, h2, h3, h4, h5, h6, h7, h8, h9, h10, h11, h12, rfl, rfl, h13⟩
    simp only [Prod.mk.injEq] at h13
    obtain ⟨⟨rfl, rfl⟩, rfl, rfl⟩ := h13
    exact ⟨rfl, hp, ⟨h1, h2, h7, h8, h3, h4, h5, h6, h9, h10, h11, h12⟩⟩
  · rintro ⟨rfl, hp, ⟨⟩⟩
    refine ⟨p, hp, ((a, b), (c, d)), ?_⟩
    simp_all

theorem annotateOne_eq (p : Option Op × Option Op) (ul : (Dist × Dist) × (Dist × Dist))
    (h1 : ul.1.1 ∈ dists (slot p.1).m) (h2 : ul.2.1 ∈ dists (slot p.1).n)
    (h3 : ul.1.2 ∈ dists (slot p.2).m) (h4 : ul.2.2 ∈ dists (slot p.2).n) :
    annotateOne p ul = .ok (if zzAgree (zOf p.1 ul.1.1 ul.2.1) (zOf p.2 ul.1.2 ul.2.2)
      then [(zOf p.1 ul.1.1 ul.2.1, zOf p.2 ul.1.2 ul.2.2)] else []) := by
  unfold annotateOne
  rw [buildZ_eq h1 h2, buildZ_eq h3 h4]

theorem get_zOf {z : Option Op} {u l : Dist} (hu : u ∈ dists (slot z).m) (hl : l ∈ dists (slot z).n) :
    get Z.m_lhs (zOf z u l) = u.lhs ∧ get Z.m_h (zOf z u l) = u.h ∧ get Z.m_z (zOf z u l) = u.z ∧
    get Z.n_lhs (zOf z u l) = l.lhs ∧ get Z.n_h (zOf z u l) = l.h ∧ get Z.n_z (zOf z u l) = l.z := by
  cases z with
  | some z => simp [zOf, get]
  | none =>
    rw [mem_dists] at hu hl
    simp only [slot] at hu hl
    simp only [zOf, Option.map_none, get]
    omega

theorem zzAgree_eq {lhs : Op} {x : Choice} (hx : InRange lhs x) :
    zzAgree (zOf x.2.1.1 x.2.2.1.1 x.2.2.2.1) (zOf x.2.1.2 x.2.2.1.2 x.2.2.2.2) =
      (decide (x.2.2.1.1.z = x.2.2.2.2.z) && decide (x.2.2.2.1.z = x.2.2.1.2.z)) := by
  obtain ⟨h, ⟨l, r⟩, ⟨⟨a, b⟩, ⟨c, d⟩⟩⟩ := x
  obtain ⟨h1, h2, h3, h4, h5, h6, h7, h8, h9, h10, h11, h12⟩ := hx
  simp only at h1 h2 h3 h4 h5 h6 h7 h8 h9 h10 h11 h12
  cases l with
  | none =>
    simp only [slot] at h1 h3 h8 h12
    have e1 : a.z = d.z := by omega
    have e2 : c.z = b.z := by omega
    simp [zOf, zzAgree, e1, e2]
  | some l =>
    cases r with
    | none =>
      simp only [slot] at h2 h4 h7 h11
      have e1 : a.z = d.z := by omega
      have e2 : c.z = b.z := by omega
      simp [zOf, zzAgree, e1, e2]
    | some r => simp [zOf, zzAgree]

theorem explicitOne_eq {lhs : Op} {x : Choice} (hx : InRange lhs x) (hne : x.2.1 ≠ (none, none)) :
    explicitOne lhs x.1 (zOf x.2.1.1 x.2.2.1.1 x.2.2.2.1, zOf x.2.1.2 x.2.2.1.2 x.2.2.2.2) =
      .ok (if decide (x.1.m + (x.2.2.1.1.lhs + x.2.2.1.2.lhs) = lhs.n + (x.2.2.2.1.h + x.2.2.2.2.h)) &&
        decide (x.1.n + (x.2.2.2.1.lhs + x.2.2.2.2.lhs) = lhs.m + (x.2.2.1.1.h + x.2.2.1.2.h))
        then [termOf lhs x] else []) := by
  have hl := get_zOf (z := x.2.1.1) (mem_dists.2 hx.lm) (mem_dists.2 hx.ln)
  have hr := get_zOf (z := x.2.1.2) (mem_dists.2 hx.rm) (mem_dists.2 hx.rn)
  obtain ⟨h, ⟨l, r⟩, ⟨⟨a, b⟩, ⟨c, d⟩⟩⟩ := x
  obtain ⟨h1, h2, h3, h4, h5, h6, h7, h8, h9, h10, h11, h12⟩ := hx
  simp only at h1 h2 h3 h4 h5 h6 h7 h8 h9 h10 h11 h12 hl hr hne ⊢
  unfold explicitOne
  have hn : ¬ (zOf l a c = none ∧ zOf r b d = none) := by
    cases l <;> cases r <;> simp [zOf] at hne ⊢
  rw [if_neg hn]
  simp only [hl, hr, termOf]
  rw [if_pos (by omega), if_pos (by omega)]
  by_cases e1 : h.m + (a.lhs + b.lhs) = lhs.n + (c.h + d.h)
  · rw [if_neg (by omega)]
    by_cases e2 : h.n + (c.lhs + d.lhs) = lhs.m + (a.h + b.h)
    · rw [if_neg (by omega)]
      simp only [e1, e2, decide_true, Bool.and_self, if_true]
      congr 3
      · simp only [LhsC.mk.injEq, true_and]
        omega
      · simp only [HC.mk.injEq, true_and]
        omega
    · rw [if_pos (by omega)]
      simp [e2]
  · rw [if_pos (by omega)]
    simp [e1]

theorem flatMap_guard {α β : Type} (l : List α) (b : α → Bool) (f : α → β) :
    (l.flatMap fun a => if b a then [f a] else []) = (l.filter b).map f := by
  induction l with
  | nil => rfl
  | cons a l ih =>
    rw [List.flatMap_cons, ih, List.filter_cons]
    split <;> simp

theorem filterForH_eq (lhs : Op) (all : List (Option Op × Option Op)) (h : HOp)
    (hne : ∀ p ∈ all, p ≠ (none, none)) :
    filterForH lhs all h = .ok (((choicesH lhs all h).filter (Good lhs)).map (termOf lhs)) := by
  have hc : ∀ x ∈ choicesH lhs all h, InRange lhs x ∧ x.1 = h ∧ x.2.1 ≠ (none, none) := by
    intro x hx
    rw [mem_choicesH] at hx
    exact ⟨hx.2.2, hx.1, hne _ (List.mem_of_mem_filter hx.2.1)⟩
  have hann : annotate lhs h (validPerms lhs h all) = .ok ((choicesH lhs all h).flatMap fun x =>
      if zzAgree (zOf x.2.1.1 x.2.2.1.1 x.2.2.2.1) (zOf x.2.1.2 x.2.2.1.2 x.2.2.2.2)
      then [(zOf x.2.1.1 x.2.2.1.1 x.2.2.2.1, zOf x.2.1.2 x.2.2.1.2 x.2.2.2.2)] else []) := by
    unfold annotate choicesH
    rw [TF.CC.collect_ok_of (g := fun p => (pairs (connectionPerms lhs h (slot p.1) (slot p.2)).1
        (connectionPerms lhs h (slot p.1) (slot p.2)).2).flatMap fun ul =>
          if zzAgree (zOf p.1 ul.1.1 ul.2.1) (zOf p.2 ul.1.2 ul.2.2)
          then [(zOf p.1 ul.1.1 ul.2.1, zOf p.2 ul.1.2 ul.2.2)] else [])]
    · rw [List.flatMap_assoc]
      simp only [List.flatMap_map]
    · intro p hp
      refine TF.CC.collect_ok_of _ ?_
      intro ul hul
      have : (h, p, ul) ∈ choicesH lhs all h := by
        unfold choicesH
        rw [List.mem_flatMap]
        exact ⟨p, hp, List.mem_map.2 ⟨ul, hul, rfl⟩⟩
      have hr := (hc _ this).1
      exact annotateOne_eq p ul (mem_dists.2 hr.lm) (mem_dists.2 hr.ln) (mem_dists.2 hr.rm) (mem_dists.2 hr.rn)
  have hex : explicitConnections lhs h ((choicesH lhs all h).flatMap fun x =>
      if zzAgree (zOf x.2.1.1 x.2.2.1.1 x.2.2.2.1) (zOf x.2.1.2 x.2.2.1.2 x.2.2.2.2)
      then [(zOf x.2.1.1 x.2.2.1.1 x.2.2.2.1, zOf x.2.1.2 x.2.2.1.2 x.2.2.2.2)] else []) =
      .ok (((choicesH lhs all h).filter (Good lhs)).map (termOf lhs)) := by
    unfold explicitConnections
    generalize hL : choicesH lhs all h = L at hc
    clear hL hann
    induction L with
    | nil => rfl
    | cons x L ih =>
      have hx := hc x (by simp)
      have ih := ih (fun y hy => hc y (by simp [hy]))
      rw [List.flatMap_cons, zzAgree_eq hx.1, List.filter_cons]
      have hexp := explicitOne_eq hx.1 hx.2.2
      rw [hx.2.1] at hexp
      by_cases hz : (decide (x.2.2.1.1.z = x.2.2.2.2.z) && decide (x.2.2.2.1.z = x.2.2.1.2.z)) = true
      · rw [if_pos hz, List.singleton_append]
        unfold collect
        rw [hexp, ih]
        simp only [Good, Bool.and_assoc]
        rw [Bool.and_eq_true] at hz
        rw [hz.1, hz.2, hx.2.1, Bool.true_and, Bool.true_and]
        split <;> rfl
      · rw [if_neg hz, List.nil_append, ih]
        have : Good lhs x = false := by
          rw [Bool.not_eq_true] at hz
          simp only [Good]
          rw [hz]; rfl
        rw [this]; rfl
  unfold filterForH
  simp only []
  by_cases hv : validPerms lhs h all = []
  · rw [if_pos hv]
    have : choicesH lhs all h = [] := by unfold choicesH; rw [hv]; rfl
    rw [this]; rfl
  · rw [if_neg hv, hann]
    exact hex

/-- all choices for a Hamiltonian -/
def choices (lhs : Op) (H : List HOp) (all : List (Option Op × Option Op)) : List Choice :=
  H.flatMap (choicesH lhs all)

/-- the possible contents of a slot -/
def opts : Option (List Op) → List (Option Op)
  | none => [none]
  | some l => l.map some

/-- the combinations of z operators -/
def slotPairs (zl zr : Option (List Op)) : List (Option Op × Option Op) := pairs (opts zl) (opts zr)

theorem slots_ok_iff {zl zr : Option (List Op)} :
    slots zl zr = .ok (slotPairs zl zr) ↔ ¬ (zl = none ∧ zr = none) ∧ zl ≠ some [] ∧ zr ≠ some [] := by
  cases zl with
  | none =>
    cases zr with
    | none => simp [slots]
    | some r =>
      by_cases h : r = []
      · simp [slots, h]
      · simp [slots, h, slotPairs, pairs, opts]
  | some l =>
    cases zr with
    | none =>
      by_cases h : l = []
      · simp [slots, h]
      · simp only [slots, h, slotPairs, pairs, opts, if_false, List.flatMap_map, List.map_cons, List.map_nil]
        simp [List.map_eq_flatMap, h]
    | some r =>
      by_cases h : l = []
      · simp [slots, h]
      · by_cases h' : r = []
        · simp [slots, h']
        · simp [slots, h, h', slotPairs, opts]

theorem mem_opts {zs : Option (List Op)} {z : Option Op} : z ∈ opts zs ↔ Choices zs z := by
  cases zs with
  | none => simp [opts, Choices]
  | some l => simp only [opts, Choices, List.mem_map]; constructor <;> rintro ⟨x, hx, rfl⟩ <;> exact ⟨x, hx, rfl⟩

theorem mem_slotPairs {zl zr : Option (List Op)} {p : Option Op × Option Op} :
    p ∈ slotPairs zl zr ↔ Choices zl p.1 ∧ Choices zr p.2 := by
  rw [slotPairs, mem_pairs, mem_opts, mem_opts]

theorem slotPairs_ne {zl zr : Option (List Op)} (h : slots zl zr = .ok (slotPairs zl zr))
    {p : Option Op × Option Op} (hp : p ∈ slotPairs zl zr) : p ≠ (none, none) := by
  rw [mem_slotPairs] at hp
  rw [slots_ok_iff] at h
  rintro rfl
  cases zl <;> cases zr <;> simp_all [Choices]

theorem filterTerms_eq {zl zr : Option (List Op)} (lhs : Op) (H : List HOp)
    (h : slots zl zr = .ok (slotPairs zl zr)) :
    filterTerms lhs H zl zr = .ok (((choices lhs H (slotPairs zl zr)).filter (Good lhs)).map (termOf lhs)) := by
  unfold filterTerms
  rw [h]
  simp only []
  rw [TF.CC.collect_ok_of (g := fun h => ((choicesH lhs (slotPairs zl zr) h).filter (Good lhs)).map (termOf lhs))
    (fun a _ => filterForH_eq lhs _ a (fun p hp => slotPairs_ne h hp))]
  unfold choices
  rw [List.filter_flatMap, List.map_flatMap]

/-! ## Choices and pairings -/

theorem slot_m (lhs : Op) (h : HOp) (l r : Option Op) :
    creators lhs h l r .left = (slot l).m ∧ creators lhs h l r .right = (slot r).m ∧
    annihilators lhs h l r .left = (slot l).n ∧ annihilators lhs h l r .right = (slot r).n := by
  cases l <;> cases r <;> simp [creators, annihilators, slot]

theorem created_termOf {lhs : Op} {x : Choice} (hx : InRange lhs x) : created (termOf lhs x) = fun i j =>
    match i, j with
    | .lhs, .left => x.2.2.2.1.lhs
    | .lhs, .h => lhs.m - (x.2.2.2.1.lhs + x.2.2.2.2.lhs)
    | .lhs, .right => x.2.2.2.2.lhs
    | .left, .lhs => x.2.2.1.1.lhs
    | .left, .h => x.2.2.1.1.h
    | .left, .right => x.2.2.1.1.z
    | .h, .lhs => x.1.m - (x.2.2.2.1.h + x.2.2.2.2.h)
    | .h, .left => x.2.2.2.1.h
    | .h, .right => x.2.2.2.2.h
    | .right, .lhs => x.2.2.1.2.lhs
    | .right, .h => x.2.2.1.2.h
    | .right, .left => x.2.2.1.2.z
    | _, _ => 0 := by
  have hl := get_zOf (z := x.2.1.1) (mem_dists.2 hx.lm) (mem_dists.2 hx.ln)
  have hr := get_zOf (z := x.2.1.2) (mem_dists.2 hx.rm) (mem_dists.2 hx.rn)
  funext i j
  cases i <;> cases j <;> simp [created, termOf, hl, hr]

theorem annihilated_termOf {lhs : Op} {x : Choice} (hx : InRange lhs x) (hg : Good lhs x = true) (i j : Place) :
    annihilated (termOf lhs x) j i = created (termOf lhs x) i j := by
  have hl := get_zOf (z := x.2.1.1) (mem_dists.2 hx.lm) (mem_dists.2 hx.ln)
  have hr := get_zOf (z := x.2.1.2) (mem_dists.2 hx.rm) (mem_dists.2 hx.rn)
  simp only [Good, Bool.and_eq_true, decide_eq_true_eq] at hg
  obtain ⟨⟨⟨g1, g2⟩, g3⟩, g4⟩ := hg
  have := hx.hn; have := hx.on; have := hx.hm; have := hx.om
  cases i <;> cases j <;> simp [annihilated, created, termOf, hl, hr] <;> omega

theorem isPairing_termOf {lhs : Op} {x : Choice} (hx : InRange lhs x) (hg : Good lhs x = true) :
    IsPairing (creators lhs x.1 x.2.1.1 x.2.1.2) (annihilators lhs x.1 x.2.1.1 x.2.1.2) (created (termOf lhs x)) := by
  obtain ⟨s1, s2, s3, s4⟩ := slot_m lhs x.1 x.2.1.1 x.2.1.2
  simp only [Good, Bool.and_eq_true, decide_eq_true_eq] at hg
  obtain ⟨⟨⟨g1, g2⟩, g3⟩, g4⟩ := hg
  have h1 := hx.hn; have h2 := hx.on; have h3 := hx.hm; have h4 := hx.om
  have h5 := hx.lm; have h6 := hx.ln; have h7 := hx.rm; have h8 := hx.rn
  rw [created_termOf hx]
  constructor
  · intro i; cases i <;> rfl
  · intro i
    cases i
    · simp only [places, List.map_cons, List.map_nil, List.sum_cons, List.sum_nil, creators]; omega
    · rw [s1]; simp only [places, List.map_cons, List.map_nil, List.sum_cons, List.sum_nil]; omega
    · simp only [places, List.map_cons, List.map_nil, List.sum_cons, List.sum_nil, creators]; omega
    · rw [s2]; simp only [places, List.map_cons, List.map_nil, List.sum_cons, List.sum_nil]; omega
  · intro i
    cases i
    · simp only [places, List.map_cons, List.map_nil, List.sum_cons, List.sum_nil, annihilators]; omega
    · rw [s3]; simp only [places, List.map_cons, List.map_nil, List.sum_cons, List.sum_nil]; omega
    · simp only [places, List.map_cons, List.map_nil, List.sum_cons, List.sum_nil, annihilators]; omega
    · rw [s4]; simp only [places, List.map_cons, List.map_nil, List.sum_cons, List.sum_nil]; omega

theorem about_termOf (lhs : Op) (x : Choice) : About lhs x.1 x.2.1.1 x.2.1.2 (termOf lhs x) := by
  obtain ⟨h, ⟨l, r⟩, y⟩ := x
  constructor
  · rfl
  · rfl
  · cases l <;> rfl
  · cases r <;> rfl

/-- the choice that belongs to a table -/
def choiceOf (h : HOp) (p : Option Op × Option Op) (c : Place → Place → Nat) : Choice :=
  (h, p, ((⟨c .left .lhs, c .left .h, c .left .right⟩, ⟨c .right .lhs, c .right .h, c .right .left⟩),
          (⟨c .lhs .left, c .h .left, c .right .left⟩, ⟨c .lhs .right, c .h .right, c .left .right⟩)))

theorem pairing_lin {lhs : Op} {h : HOp} {p : Option Op × Option Op} {c : Place → Place → Nat}
    (hc : IsPairing (creators lhs h p.1 p.2) (annihilators lhs h p.1 p.2) c) :
    (c .lhs .lhs = 0 ∧ c .left .left = 0 ∧ c .h .h = 0 ∧ c .right .right = 0) ∧
    (c .lhs .left + c .lhs .h + c .lhs .right = lhs.m) ∧
    (c .left .lhs + c .left .h + c .left .right = (slot p.1).m) ∧
    (c .h .lhs + c .h .left + c .h .right = h.m) ∧
    (c .right .lhs + c .right .left + c .right .h = (slot p.2).m) ∧
    (c .left .lhs + c .h .lhs + c .right .lhs = lhs.n) ∧
    (c .lhs .left + c .h .left + c .right .left = (slot p.1).n) ∧
    (c .lhs .h + c .left .h + c .right .h = h.n) ∧
    (c .lhs .right + c .left .right + c .h .right = (slot p.2).n) := by
  obtain ⟨s1, s2, s3, s4⟩ := slot_m lhs h p.1 p.2
  have d1 := hc.self .lhs; have d2 := hc.self .left; have d3 := hc.self .h; have d4 := hc.self .right
  have r1 := hc.rows .lhs; have r2 := hc.rows .left; have r3 := hc.rows .h; have r4 := hc.rows .right
  have k1 := hc.cols .lhs; have k2 := hc.cols .left; have k3 := hc.cols .h; have k4 := hc.cols .right
  rw [s1] at r2; rw [s2] at r4; rw [s3] at k2; rw [s4] at k4
  simp only [places, List.map_cons, List.map_nil, List.sum_cons, List.sum_nil, creators, annihilators] at *
  omega

theorem inRange_choiceOf {lhs : Op} {h : HOp} {p : Option Op × Option Op} {c : Place → Place → Nat}
    (hc : IsPairing (creators lhs h p.1 p.2) (annihilators lhs h p.1 p.2) c) :
    InRange lhs (choiceOf h p c) ∧ Good lhs (choiceOf h p c) = true := by
  have := pairing_lin hc
  refine ⟨?_, ?_⟩
  · constructor <;> simp only [choiceOf] <;> omega
  · simp only [Good, Bool.and_eq_true, decide_eq_true_eq]
    simp only [choiceOf, true_and]
    omega

theorem created_choiceOf {lhs : Op} {h : HOp} {p : Option Op × Option Op} {c : Place → Place → Nat}
    (hc : IsPairing (creators lhs h p.1 p.2) (annihilators lhs h p.1 p.2) c) :
    created (termOf lhs (choiceOf h p c)) = c := by
  rw [created_termOf (inRange_choiceOf hc).1]
  have := pairing_lin hc
  funext i j
  cases i <;> cases j <;> simp only [choiceOf] <;> omega

theorem valid_choiceOf {lhs : Op} {h : HOp} {p : Option Op × Option Op} {c : Place → Place → Nat}
    {all : List (Option Op × Option Op)} (hp : p ∈ all)
    (hc : IsPairing (creators lhs h p.1 p.2) (annihilators lhs h p.1 p.2) c) : p ∈ validPerms lhs h all := by
  have hl := pairing_lin hc
  obtain ⟨⟨_, _, _, _⟩, r1, r2, r3, r4, k1, k2, k3, k4⟩ := hl
  unfold validPerms
  rw [List.mem_filter]
  refine ⟨hp, ?_⟩
  simp only [Bool.and_eq_true, decide_eq_true_eq, Bool.not_eq_true']
  refine ⟨⟨⟨by omega, ?_⟩, ?_⟩, ?_⟩
  · simp only [zJoinsItself, Bool.or_eq_false_iff, decide_eq_false_iff_not]; omega
  · unfold omegaJoinsItself
    split
    · rfl
    · next h1 =>
      simp only [Bool.or_eq_true, beq_iff_eq, not_or] at h1
      split
      · rfl
      · next h2 =>
        simp only [Bool.or_eq_true, Bool.and_eq_true, decide_eq_true_eq, not_or] at h2
        simp only [List.any_cons, List.any_nil, Bool.or_false, Bool.not_eq_false', Bool.or_eq_true, Bool.and_eq_true,
          decide_eq_true_eq]
        omega
  · unfold hJoinsItself
    split
    · rfl
    · next h1 =>
      simp only [Bool.or_eq_true, beq_iff_eq, not_or] at h1
      split
      · rfl
      · next h2 =>
        simp only [Bool.or_eq_true, Bool.and_eq_true, decide_eq_true_eq, not_or] at h2
        simp only [List.any_cons, List.any_nil, Bool.or_false, Bool.not_eq_false', Bool.or_eq_true, Bool.and_eq_true,
          decide_eq_true_eq]
        omega

theorem mem_choices {lhs : Op} {H : List HOp} {all : List (Option Op × Option Op)} {x : Choice} :
    x ∈ choices lhs H all ↔ x.1 ∈ H ∧ x.2.1 ∈ validPerms lhs x.1 all ∧ InRange lhs x := by
  unfold choices
  simp only [List.mem_flatMap, mem_choicesH]
  constructor
  · rintro ⟨h, hh, rfl, h1, h2⟩; exact ⟨hh, h1, h2⟩
  · rintro ⟨hh, h1, h2⟩; exact ⟨x.1, hh, rfl, h1, h2⟩

theorem nodup_choicesH {lhs : Op} {all : List (Option Op × Option Op)} (ha : all.Nodup) (h : HOp) :
    (choicesH lhs all h).Nodup := by
  unfold choicesH
  rw [List.nodup_flatMap]
  constructor
  · intro p _
    refine (nodup_pairs ?_ ?_).map (fun a b h => (Prod.mk.inj (Prod.mk.inj h).2).2)
    · exact List.Nodup.filter _ (nodup_pairs (nodup_dists _) (nodup_dists _))
    · exact List.Nodup.filter _ (nodup_pairs (nodup_dists _) (nodup_dists _))
  · refine (ha.filter _).imp ?_
    intro a b hab
    simp only [Function.onFun, List.disjoint_left, List.mem_map]
    rintro q ⟨y, _, rfl⟩ ⟨y', _, hq⟩
    exact hab (Prod.mk.inj (Prod.mk.inj hq).2).1.symm

theorem nodup_choices {lhs : Op} {H : List HOp} {all : List (Option Op × Option Op)} (hH : H.Nodup) (ha : all.Nodup) :
    (choices lhs H all).Nodup := by
  unfold choices
  rw [List.nodup_flatMap]
  refine ⟨fun h _ => nodup_choicesH ha h, hH.imp ?_⟩
  intro a b hab
  simp only [Function.onFun, List.disjoint_left, mem_choicesH]
  rintro x ⟨rfl, _⟩ ⟨h, _⟩
  exact hab h

theorem nodup_opts {zs : Option (List Op)} (h : ∀ l, zs = some l → l.Nodup) : (opts zs).Nodup := by
  cases zs with
  | none => simp [opts]
  | some l => exact (h l rfl).map (fun a b h => Option.some.inj h)

/-- the choice is determined by the term -/
theorem choice_unique {lhs : Op} {x y : Choice} (hx : InRange lhs x) (hy : InRange lhs y)
    (gx : Good lhs x = true) (gy : Good lhs y = true) (h1 : x.1 = y.1) (h2 : x.2.1 = y.2.1)
    (hc : created (termOf lhs x) = created (termOf lhs y)) : x = y := by
  have hx' := isPairing_termOf hx gx
  have hy' := isPairing_termOf hy gy
  have ex : x = choiceOf x.1 x.2.1 (created (termOf lhs x)) := by
    obtain ⟨h, p, ⟨⟨a, b⟩, ⟨c, d⟩⟩⟩ := x
    simp only [Good, Bool.and_eq_true, decide_eq_true_eq] at gx
    rw [created_termOf hx]
    simp only [choiceOf]
    obtain ⟨⟨⟨g1, g2⟩, _⟩, _⟩ := gx
    obtain ⟨a1, a2, a3⟩ := a
    obtain ⟨b1, b2, b3⟩ := b
    obtain ⟨c1, c2, c3⟩ := c
    obtain ⟨d1, d2, d3⟩ := d
    simp only at g1 g2
    subst g1 g2
    rfl
  have ey : y = choiceOf y.1 y.2.1 (created (termOf lhs y)) := by
    obtain ⟨h, p, ⟨⟨a, b⟩, ⟨c, d⟩⟩⟩ := y
    simp only [Good, Bool.and_eq_true, decide_eq_true_eq] at gy
    rw [created_termOf hy]
    simp only [choiceOf]
    obtain ⟨⟨⟨g1, g2⟩, _⟩, _⟩ := gy
    obtain ⟨a1, a2, a3⟩ := a
    obtain ⟨b1, b2, b3⟩ := b
    obtain ⟨c1, c2, c3⟩ := c
    obtain ⟨d1, d2, d3⟩ := d
    simp only at g1 g2
    subst g1 g2
    rfl
  rw [ex, ey, h1, h2, hc]

/-! ## Generated operators -/

theorem mem_zOps {cc : Nat} {gs : Bool} {z : Op} (h : z ∈ zOps cc gs) :
    z.rank = z.m + z.n ∧ z.m + z.n ≤ cc ∧ (gs = true → z.n = 0) := by
  simp only [zOps, List.mem_map, List.mem_filter, TF.CC.mem_mnPairs] at h
  obtain ⟨p, ⟨h1, h2⟩, rfl⟩ := h
  refine ⟨rfl, h1, ?_⟩
  rintro rfl
  simp only [Bool.true_and, Bool.not_eq_true', decide_eq_false_iff_not] at h2
  simp only; omega

theorem exists_zOps {cc : Nat} {gs : Bool} {m n : Nat} (h : m + n ≤ cc) (hg : gs = true → n = 0) :
    ∃ z ∈ zOps cc gs, z.rank = m + n ∧ z.m = m ∧ z.n = n := by
  refine ⟨_, List.mem_map.2 ⟨(m, n), List.mem_filter.2 ⟨TF.CC.mem_mnPairs.2 h, ?_⟩, rfl⟩, rfl, rfl, rfl⟩
  cases gs with
  | false => rfl
  | true => simp [hg rfl]

theorem zOps_keys_nodup (cc : Nat) (gs : Bool) : ((zOps cc gs).map fun z => (z.m, z.n)).Nodup := by
  unfold zOps
  rw [List.map_map]
  refine List.Nodup.map_on ?_ ((TF.CC.nodup_mnPairs cc).filter _)
  rintro ⟨a, b⟩ _ ⟨c, d⟩ _ h
  simpa using h

theorem zOps_ne_nil (cc : Nat) (gs : Bool) : zOps cc gs ≠ [] := by
  obtain ⟨z, hz, _⟩ := exists_zOps (cc := cc) (gs := gs) (m := 0) (n := 0) (Nat.zero_le _) (fun _ => rfl)
  exact List.ne_nil_of_mem hz

theorem prunedH_keys_nodup (k : Nat) : ((prunedH k).map fun h => (h.m, h.n)).Nodup :=
  (TF.CC.hamiltonian_keys_nodup k).sublist (List.filter_sublist.map _)

theorem mem_prunedH {k : Nat} {h : HOp} :
    h ∈ prunedH k ↔ h.rank = h.m + h.n ∧ h.rank ≤ k ∧ (h.rank < 3 ∨ h.m = 0) := by
  simp only [prunedH, List.mem_filter, TF.CC.mem_hamiltonian, Bool.or_eq_true, decide_eq_true_eq, beq_iff_eq]
  constructor
  · rintro ⟨⟨h1, h2⟩, h3⟩; omega
  · rintro ⟨h1, h2, h3⟩; omega

end TF.Zhz
