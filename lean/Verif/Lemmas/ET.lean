import Verif.Model.ET
import Verif.Lemmas.Py
import Verif.Lemmas.FullCC.Terms
import Verif.Lemmas.Zhz
import Mathlib.Algebra.BigOperators.Group.List.Basic
import Mathlib.Tactic.Ring

/-!
# Lemmas about the e^T z_t term generation

`e` is the number of annihilation operators of every t in the list: 1 for `T = 1`, 0 for the unit
operator of the zeroth Taylor order.  `L` is the length of the list.
-/
namespace TF.ET

open TF.Py TF.CC
open TF.Zhz (pairs mem_pairs nodup_pairs)

/-! ## z assignments -/

theorem mem_dists {k M : Nat} {d : Dist} :
    d ∈ dists k M ↔ d.ts.length = k ∧ d.lhs + d.h + d.ts.sum + d.other = M := by
  unfold dists
  simp only [List.mem_flatMap, List.mem_map, List.mem_filter, List.mem_range, decide_eq_true_eq,
    mem_productRepeat]
  constructor
  · rintro ⟨a, ha, b, hb, t, ⟨⟨h1, h2⟩, h3⟩, rfl⟩
    simp only
    exact ⟨h1, by omega⟩
  · rintro ⟨h1, h2⟩
    refine ⟨d.lhs, by omega, d.h, by omega, d.ts, ⟨⟨h1, ?_⟩, by omega⟩, ?_⟩
    · intro x hx
      have := List.single_le_sum (l := d.ts) (by simp) x hx
      omega
    · cases d
      simp only [Dist.mk.injEq, true_and]
      simp only at h2
      omega

theorem nodup_dists (k M : Nat) : (dists k M).Nodup := by
  unfold dists
  rw [List.nodup_flatMap]
  constructor
  · intro a _
    rw [List.nodup_flatMap]
    constructor
    · intro b _
      refine List.Nodup.map_on ?_ ((nodup_productRepeat List.nodup_range).filter _)
      intro x _ y _ h
      simp only [Dist.mk.injEq] at h
      exact h.2.1
    · refine List.Pairwise.imp ?_ List.nodup_range
      intro b b' hb d hd hd'
      simp only [List.mem_map] at hd hd'
      obtain ⟨t, _, rfl⟩ := hd
      obtain ⟨t', _, h⟩ := hd'
      simp only [Dist.mk.injEq] at h
      exact hb h.2.2.1.symm
  · refine List.Pairwise.imp ?_ List.nodup_range
    intro b b' hb d hd hd'
    simp only [List.mem_map, List.mem_flatMap] at hd hd'
    obtain ⟨c, _, t, _, rfl⟩ := hd
    obtain ⟨c', _, t', _, h⟩ := hd'
    simp only [Dist.mk.injEq] at h
    exact hb h.1.symm

/-- The lists of t operators that occur for `T = 1`. -/
structure Uniform (ts : List Op) (L e : Nat) : Prop where
  len : ts.length = L
  pos : 1 ≤ L
  small : e ≤ 1
  unit : e = 0 → L = 1
  all : ∃ nm, ts = List.replicate L ⟨nm, e, 0, e⟩

theorem Uniform.sumM {ts : List Op} {L e : Nat} (u : Uniform ts L e) : sumM ts = 0 := by
  obtain ⟨nm, h⟩ := u.all
  simp [ET.sumM, h]

theorem Uniform.sumN {ts : List Op} {L e : Nat} (u : Uniform ts L e) : sumN ts = L * e := by
  obtain ⟨nm, h⟩ := u.all
  simp [ET.sumN, h]

theorem zip_replicate {α β : Type} (a : α) (l : List β) : (List.replicate l.length a).zip l = l.map fun x => (a, x) := by
  induction l with
  | nil => rfl
  | cons x l ih => simp [List.replicate_succ, ih]

/-- The shares of z's creation operators that the program considers. -/
structure GoodDist (N : Nat) (h : HOp) (L e zm : Nat) (d : Dist) : Prop where
  len : d.ts.length = L
  sum : d.lhs + d.h + d.ts.sum = zm
  other : d.other = 0
  lhs : d.lhs ≤ N
  hle : d.h ≤ h.n
  le : ∀ x ∈ d.ts, x ≤ e
  cover : ∀ x ∈ d.ts, e ≤ h.m + x
  total : d.ts.sum ≤ L * e

theorem mem_upper {lhs : Op} (hl : lhs.m = 0) {ts : List Op} {L e : Nat} (u : Uniform ts L e) {h : HOp} {z : Op} {d : Dist} :
    d ∈ (zPerms lhs ts h z).1 ↔ GoodDist lhs.n h L e z.m d := by
  unfold zPerms eachUpper
  simp only [List.mem_filter, mem_dists, Bool.and_eq_true, decide_eq_true_eq, u.len, u.sumN]
  obtain ⟨nm, hts⟩ := u.all
  constructor
  · rintro ⟨⟨h1, h2⟩, ⟨⟨⟨h3, h4⟩, h5⟩, h6⟩, h7⟩
    rw [hts, ← h1, zip_replicate] at h6
    simp only [List.all_map, List.all_eq_true, Function.comp, Bool.and_eq_true, decide_eq_true_eq] at h6
    exact ⟨h1, by omega, by omega, h4, h3, fun x hx => (h6 x hx).2, fun x hx => by have := (h6 x hx).1; omega, h5⟩
  · intro g
    refine ⟨⟨g.len, by have := g.sum; have := g.other; omega⟩, ⟨⟨⟨g.hle, g.lhs⟩, g.total⟩, ?_⟩, by rw [g.other]⟩
    rw [hts, ← g.len, zip_replicate]
    simp only [List.all_map, List.all_eq_true, Function.comp, Bool.and_eq_true, decide_eq_true_eq]
    intro x hx
    exact ⟨by have := g.cover x hx; omega, g.le x hx⟩

theorem lower_eq {lhs : Op} {ts : List Op} {L e : Nat} (u : Uniform ts L e) {h : HOp} {z : Op} (hz : z.n = 0) :
    (zPerms lhs ts h z).2 = [⟨0, List.replicate L 0, 0, 0⟩] := by
  unfold zPerms eachLower dists
  simp only [hz, u.len, u.sumM]
  obtain ⟨nm, hts⟩ := u.all
  have : productRepeat (List.range (0 + 1)) L = [List.replicate L 0] := by
    unfold productRepeat
    have : ∀ k, product (List.replicate k (List.range (0 + 1))) = [List.replicate k 0] := by
      intro k
      induction k with
      | zero => rfl
      | succ k ih => rw [List.replicate_succ, product, ih]; rfl
    exact this L
  rw [this, hts]
  have h2 : (List.replicate L (⟨nm, e, 0, e⟩ : Op)).zip (List.replicate L 0) =
      (List.replicate L 0).map fun x => ((⟨nm, e, 0, e⟩ : Op), x) := by
    have := zip_replicate (⟨nm, e, 0, e⟩ : Op) (List.replicate L 0)
    rwa [List.length_replicate] at this
  simp [h2]

/-! ## t assignments -/

theorem filter_tDists (e : Nat) (bound : List Q → Bool) (l : List Nat) (hl : ∀ x ∈ l, x ≤ e) :
    ((product (l.map fun x => tDists e x)).filter fun q =>
      decide ((q.map Q.lhs).sum ≤ 0) && bound q) =
    ([l.map fun x => (⟨0, 0, e - x, x⟩ : Q)].filter bound) := by
  rw [← List.filter_filter]
  have key : ∀ l : List Nat, (∀ x ∈ l, x ≤ e) → ((product (l.map fun x => tDists e x)).filter fun q =>
      decide ((q.map Q.lhs).sum ≤ 0)) = [l.map fun x => (⟨0, 0, e - x, x⟩ : Q)] := by
    intro l
    induction l with
    | nil => intro _; rfl
    | cons x l ih =>
      intro hl
      have hx : x ≤ e := hl x (by simp)
      have ih := ih fun y hy => hl y (by simp [hy])
      simp only [List.map_cons, product, tDists, if_pos hx]
      rw [List.range_succ_eq_map, List.map_cons, List.flatMap_cons, List.filter_append]
      have h1 : ((product (l.map fun x => tDists e x)).map ((⟨0, 0, e - x - 0, x⟩ : Q) :: ·)).filter
          (fun q => decide ((q.map Q.lhs).sum ≤ 0)) = [(⟨0, 0, e - x, x⟩ : Q) :: l.map fun x => (⟨0, 0, e - x, x⟩ : Q)] := by
        rw [List.filter_map]
        have : ((fun q : List Q => decide ((q.map Q.lhs).sum ≤ 0)) ∘ ((⟨0, 0, e - x - 0, x⟩ : Q) :: ·)) =
            fun q => decide ((q.map Q.lhs).sum ≤ 0) := by
          funext q
          simp
        rw [this, ih]
        rfl
      unfold tDists at h1
      rw [h1]
      have h2 : ((((List.range (e - x)).map Nat.succ).map fun a => (⟨a, 0, e - x - a, x⟩ : Q)).flatMap fun a =>
          (product (l.map fun x => if x ≤ e then (List.range (e - x + 1)).map fun a => (⟨a, 0, e - x - a, x⟩ : Q) else [])).map (a :: ·)).filter
          (fun q => decide ((q.map Q.lhs).sum ≤ 0)) = [] := by
        rw [List.filter_eq_nil_iff]
        intro q hq
        simp only [List.mem_flatMap, List.mem_map, List.mem_range] at hq
        obtain ⟨a, ⟨b, ⟨c, _, rfl⟩, rfl⟩, r, _, rfl⟩ := hq
        simp
      rw [h2]
      rfl
  rw [show (List.filter (fun q : List Q => decide ((q.map Q.lhs).sum ≤ 0)) (List.filter bound
      (product (l.map fun x => tDists e x)))) = List.filter bound (List.filter (fun q : List Q => decide ((q.map Q.lhs).sum ≤ 0))
      (product (l.map fun x => tDists e x))) by
    rw [List.filter_filter, List.filter_filter]
    congr 1
    funext q
    exact Bool.and_comm _ _, key l hl]

theorem sum_tsub {e : Nat} : ∀ {l : List Nat}, (∀ x ∈ l, x ≤ e) → (l.map fun x => e - x).sum + l.sum = l.length * e
  | [], _ => by simp
  | x :: l, h => by
    have := sum_tsub (l := l) fun y hy => h y (by simp [hy])
    have hx := h x (by simp)
    simp only [List.map_cons, List.sum_cons, List.length_cons]
    rw [Nat.add_mul, Nat.one_mul]
    omega

theorem eq_of_sum_max {e : Nat} {l : List Nat} (h : ∀ x ∈ l, x ≤ e) (hs : l.sum = l.length * e) : ∀ x ∈ l, x = e := by
  have h2 := sum_tsub h
  have h3 : (l.map fun x => e - x).sum = 0 := by omega
  intro x hx
  have h4 := List.single_le_sum (l := l.map fun x => e - x) (by simp) (e - x) (List.mem_map.2 ⟨x, hx, rfl⟩)
  have := h x hx
  omega

/-- The labelled t of which `x` annihilation operators go to z and the others to h. -/
def tOf (e x : Nat) : T := ⟨e, 0, e, 0, 0, 0, 0, 0, e - x, 0, x⟩

/-- The labelled z for a share `d`. -/
def zOf (z : Op) (L : Nat) (d : Dist) : Z := mkZ z d ⟨0, List.replicate L 0, 0, 0⟩

theorem zList_eq {lhs : Op} {ts : List Op} {L e : Nat} (u : Uniform ts L e) {h : HOp} {z : Op} (hz : z.n = 0) :
    zList lhs h (ts, z) = (zPerms lhs ts h z).1.map (zOf z L) := by
  unfold zList
  rw [lower_eq u hz]
  simp only [pairs, List.map_flatMap, List.map_cons, List.map_nil]
  rw [← List.flatMap_pure_eq_map]
  rfl

/-- Balance of a combination with uniform t operators. -/
def Balanced (N : Nat) (h : HOp) (k zm : Nat) : Prop := h.m + zm = N + h.n + k

theorem GoodDist.rest {N : Nat} {h : HOp} {L e zm : Nat} {d : Dist} (g : GoodDist N h L e zm d)
    (hb : Balanced N h (L * e) zm) : (d.ts.map fun x => e - x).sum ≤ h.m := by
  have h1 := sum_tsub g.le
  have h2 := g.sum
  have h3 := g.lhs
  have h4 := g.hle
  have h5 := g.len
  unfold Balanced at hb
  rw [h5] at h1
  omega

theorem tPerms_ok {lhs : Op} {ts : List Op} {L e : Nat} (u : Uniform ts L e) (h : HOp) (z : Op) (d : Dist)
    : ∃ r, tPerms lhs ts h (zOf z L d) = .ok r := by
  unfold tPerms
  split
  · exact ⟨_, rfl⟩
  · rw [if_pos (by rw [u.sumM]; simp [zOf, mkZ])]
    exact ⟨_, rfl⟩

theorem tPerms_eq {lhs : Op} (hl : lhs.m = 0) {ts : List Op} {L e : Nat} (u : Uniform ts L e) {h : HOp} {z : Op}
    {d : Dist} (g : GoodDist lhs.n h L e z.m d) (hb : Balanced lhs.n h (L * e) z.m) :
    tPerms lhs ts h (zOf z L d) = .ok ([List.replicate L ⟨0, 0, 0, 0⟩], [d.ts.map fun x => ⟨0, 0, e - x, x⟩]) := by
  obtain ⟨nm, hts⟩ := u.all
  have hlen := g.len
  have zipn : ts.zip (zOf z L d).n_t = (List.replicate L 0).map fun x => ((⟨nm, e, 0, e⟩ : Op), x) := by
    rw [hts]
    have := zip_replicate (⟨nm, e, 0, e⟩ : Op) (List.replicate L 0)
    rwa [List.length_replicate] at this
  have zipm : ts.zip (zOf z L d).m_t = d.ts.map fun x => ((⟨nm, e, 0, e⟩ : Op), x) := by
    rw [hts]
    show (List.replicate L _).zip d.ts = _
    rw [← hlen, zip_replicate]
  have hn : sumM ts = (zOf z L d).n_t.sum := by rw [u.sumM]; simp [zOf, mkZ]
  have prodU : ∀ k, product (List.replicate k [(⟨0, 0, 0, 0⟩ : Q)]) = [List.replicate k ⟨0, 0, 0, 0⟩] := by
    intro k
    induction k with
    | zero => rfl
    | succ k ih => simp [List.replicate_succ, product, ih]
  unfold tPerms
  rw [zipn, zipm, u.sumN]
  by_cases hs : L * e = (zOf z L d).m_t.sum
  · rw [if_pos ⟨hs, hn⟩]
    have hs' : d.ts.sum = d.ts.length * e := by rw [hlen]; exact hs.symm
    have hx := eq_of_sum_max g.le hs'
    simp only [List.map_map, Except.ok.injEq, Prod.mk.injEq, List.cons.injEq, and_true]
    constructor
    · simp
    · refine List.map_congr_left fun x hx' => ?_
      simp [hx x hx']
  · rw [if_neg (fun c => hs c.1), if_pos hn]
    simp only [List.map_map, Except.ok.injEq, Prod.mk.injEq, Function.comp_def]
    constructor
    · have : (List.replicate L 0).map (fun x : Nat => tDists 0 x) = List.replicate L [(⟨0, 0, 0, 0⟩ : Q)] := by
        simp [tDists]
      rw [this, prodU]
      simp
    · rw [hl]
      have := filter_tDists e (fun q => decide ((q.map Q.h).sum ≤ h.m)) d.ts g.le
      rw [this]
      have h2 := g.rest hb
      simp only [List.filter_cons, List.map_map, Function.comp_def, List.filter_nil]
      rw [if_pos (by simpa using h2)]

theorem tPerms'_eq {lhs : Op} (hl : lhs.m = 0) {ts : List Op} {L e : Nat} (u : Uniform ts L e) {h : HOp} {z : Op}
    {d : Dist} (g : GoodDist lhs.n h L e z.m d) (hb : Balanced lhs.n h (L * e) z.m) :
    tPerms' lhs ts h (zOf z L d) = .ok ([List.replicate L ⟨0, 0, 0, 0⟩], [d.ts.map fun x => ⟨0, 0, e - x, x⟩]) := by
  unfold tPerms'
  split
  · next t =>
    split
    · next hr =>
      obtain ⟨nm, hts⟩ := u.all
      have hL : L = 1 := by have := u.len; simpa using this.symm
      subst hL
      have ht : t = ⟨nm, e, 0, e⟩ := by simpa using hts
      have he : e = 0 := by rw [ht] at hr; exact hr
      subst he
      have hlen := g.len
      match hd : d.ts, hlen with
      | [x], _ =>
        have := g.le x (by rw [hd]; simp)
        have : x = 0 := by omega
        subst this
        simp
    · exact tPerms_eq hl u g hb
  · exact tPerms_eq hl u g hb

theorem permList_eq {mode : Mode} {nm : String} {e : Nat} {z : Z} : ∀ (l : List Nat), (∀ x ∈ l, x ≤ e) →
    collect (fun p : Op × Q × Q × Nat × Nat => buildT mode p.1 p.2.1 p.2.2.1 p.2.2.2.1 p.2.2.2.2)
      ((List.replicate l.length (⟨nm, e, 0, e⟩ : Op)).zip ((List.replicate l.length (⟨0, 0, 0, 0⟩ : Q)).zip
        ((l.map fun x => (⟨0, 0, e - x, x⟩ : Q)).zip (l.zip (List.replicate l.length 0))))) = .ok (l.map (tOf e))
  | [], _ => rfl
  | x :: l, h => by
    have ih := permList_eq (mode := mode) (nm := nm) (z := z) l fun y hy => h y (by simp [hy])
    have hx := h x (by simp)
    simp only [List.length_cons, List.replicate_succ, List.map_cons, List.zip_cons_cons, collect]
    have : buildT mode (⟨nm, e, 0, e⟩ : Op) ⟨0, 0, 0, 0⟩ ⟨0, 0, e - x, x⟩ x 0 = .ok [tOf e x] := by
      unfold buildT
      simp only [Q.sum, ne_eq, not_true_eq_false, if_false]
      rw [if_neg (by simp; omega)]
      rfl
    simp only [this, ih]
    rfl

theorem lastPerm_eq {mode : Mode} {ts : List Op} {L e : Nat} (u : Uniform ts L e) {z : Op} {N : Nat} {h : HOp}
    {d : Dist} (g : GoodDist N h L e z.m d) (cur : Option (List T)) :
    lastPerm mode ts (zOf z L d) cur (pairs [List.replicate L ⟨0, 0, 0, 0⟩] [d.ts.map fun x => ⟨0, 0, e - x, x⟩]) =
      .ok (some (d.ts.map (tOf e))) := by
  obtain ⟨nm, hts⟩ := u.all
  simp only [pairs, List.flatMap_cons, List.map_cons, List.map_nil, List.flatMap_nil, List.append_nil, lastPerm, permList]
  have hlen := g.len
  have := permList_eq (mode := mode) (nm := nm) (z := zOf z L d) d.ts g.le
  rw [hlen] at this
  rw [hts]
  simp only [zOf, mkZ]
  rw [this]

theorem assignLoop_eq {lhs : Op} (hl : lhs.m = 0) {mode : Mode} {ts : List Op} {L e : Nat} (u : Uniform ts L e) {h : HOp} {z : Op}
    (hb : Balanced lhs.n h (L * e) z.m) : ∀ (ds : List Dist) (cur : Option (List T)),
    (∀ d ∈ ds, GoodDist lhs.n h L e z.m d) →
    ∃ cur', assignLoop lhs h mode ts cur (ds.map (zOf z L)) = .ok (ds.map (fun d => (d.ts.map (tOf e), zOf z L d)), cur')
  | [], cur, _ => ⟨cur, rfl⟩
  | d :: ds, cur, hg => by
    have g := hg d (by simp)
    obtain ⟨cur', h'⟩ := assignLoop_eq (mode := mode) hl u hb ds (some (d.ts.map (tOf e))) fun x hx => hg x (by simp [hx])
    refine ⟨cur', ?_⟩
    simp only [List.map_cons, assignLoop, tPerms'_eq hl u g hb, lastPerm_eq u g, h']

theorem annotate_eq {lhs : Op} (hl : lhs.m = 0) {mode : Mode} {ts : List Op} {L e : Nat} (u : Uniform ts L e) {h : HOp} {z : Op}
    (hz : z.n = 0) (hb : Balanced lhs.n h (L * e) z.m) :
    annotate lhs h mode [(ts, z)] = .ok ((zPerms lhs ts h z).1.map fun d => (d.ts.map (tOf e), zOf z L d)) := by
  unfold annotate
  simp only [annotateLoop, List.nil_append]
  rw [zList_eq u hz]
  have h1 : collect (probe lhs ts h) ((zPerms lhs ts h z).1.map (zOf z L)) = .ok [] := by
    have := collect_ok_of (f := probe lhs ts h) (l := (zPerms lhs ts h z).1.map (zOf z L)) (fun _ => []) (by
      intro y hy
      obtain ⟨d, _, rfl⟩ := List.mem_map.1 hy
      obtain ⟨r, hr⟩ := tPerms_ok (lhs := lhs) u h z d
      unfold probe
      rw [hr])
    rw [this]
    simp
  rw [h1]
  obtain ⟨cur', h2⟩ := assignLoop_eq (mode := mode) hl u hb (zPerms lhs ts h z).1 none fun d hd => (mem_upper hl u).1 hd
  rw [h2]
  simp

/-! ## Removing duplicates -/

theorem firsts_eq_self {α : Type} [DecidableEq α] : ∀ (l seen : List α), l.Nodup → (∀ x ∈ l, x ∉ seen) → firsts seen l = l
  | [], _, _, _ => rfl
  | a :: l, seen, hd, hs => by
    rw [List.nodup_cons] at hd
    rw [firsts, if_neg (hs a (by simp)), firsts_eq_self l (a :: seen) hd.2]
    intro x hx
    rw [List.mem_cons, not_or]
    exact ⟨fun c => hd.1 (c ▸ hx), hs x (by simp [hx])⟩

theorem zOf_inj {z : Op} {L : Nat} {d d' : Dist} (h : zOf z L d = zOf z L d') : d = d' := by
  simp only [zOf, mkZ, Z.mk.injEq] at h
  cases d
  cases d'
  simp_all

theorem removeDuplicates_eq {z : Op} {L e : Nat} {ds : List Dist} (hd : ds.Nodup) :
    removeDuplicates (ds.map fun d => (d.ts.map (tOf e), zOf z L d)) =
      ds.map fun d => ((sortT (d.ts.map (tOf e)), zOf z L d), 1) := by
  unfold removeDuplicates
  simp only [List.map_map, Function.comp_def]
  have hnd : (ds.map fun d => (sortT (d.ts.map (tOf e)), zOf z L d)).Nodup := by
    refine hd.map ?_
    intro a b hab
    simp only [Prod.mk.injEq] at hab
    exact zOf_inj hab.2
  rw [firsts_eq_self _ _ hnd (by simp), List.map_map]
  refine List.map_congr_left fun d hdm => ?_
  simp only [Function.comp_def, Prod.mk.injEq, true_and]
  exact List.count_eq_one_of_mem hnd (List.mem_map.2 ⟨d, hdm, rfl⟩)

theorem sortT_perm (l : List T) : (sortT l).Perm l := sortBy_perm _ l

theorem sum_sortT (f : T → Nat) (l : List T) : ((sortT l).map f).sum = (l.map f).sum :=
  ((sortT_perm l).map f).sum_eq

/-! ## The explicit connections -/

/-- The generated term for a share `d` of z's creation operators. -/
def termOf (N : Nat) (h : HOp) (L e : Nat) (z : Op) (d : Dist) : Term :=
  let ts := sortT (d.ts.map (tOf e))
  { lhs := { rank := N, m := 0, n := N, m_l := 0, n_l := 0, m_t := ts.map T.n_lhs, n_t := ts.map T.m_lhs,
             m_h := 0, n_h := N - d.lhs, m_r := 0, n_r := d.lhs }
    ts := ts
    h := { rank := h.m + h.n, m := h.m, n := h.n, m_lhs := N - d.lhs, n_lhs := 0,
           m_t := ts.map T.n_h, n_t := ts.map T.m_h, m_l := 0, n_l := 0, m_r := 0, n_r := h.n }
    z := zOf z L d, count := 1 }

theorem explicitOne_eq {lhs : Op} (hl : lhs.m = 0) {L e : Nat} {h : HOp} {z : Op} (hz : z.n = 0)
    {d : Dist} (g : GoodDist lhs.n h L e z.m d) (hb : Balanced lhs.n h (L * e) z.m) :
    explicitOne lhs h ((sortT (d.ts.map (tOf e)), zOf z L d), 1) =
      .ok (if d.h = h.n then [termOf lhs.n h L e z d] else []) := by
  have s1 : ((sortT (d.ts.map (tOf e))).map T.n_lhs).sum = 0 := by
    rw [sum_sortT]; simp [tOf, Function.comp_def]
  have s2 : ((sortT (d.ts.map (tOf e))).map T.m_lhs).sum = 0 := by
    rw [sum_sortT]; simp [tOf, Function.comp_def]
  have s3 : ((sortT (d.ts.map (tOf e))).map T.n_h).sum = (d.ts.map fun x => e - x).sum := by
    rw [sum_sortT]; simp [tOf, Function.comp_def]
  have s4 : ((sortT (d.ts.map (tOf e))).map T.m_h).sum = 0 := by
    rw [sum_sortT]; simp [tOf, Function.comp_def]
  have s5 : ((sortT (d.ts.map (tOf e))).map T.m).sum = 0 := by
    rw [sum_sortT]; simp [tOf, Function.comp_def]
  have s6 : ((sortT (d.ts.map (tOf e))).map T.n).sum = L * e := by
    rw [sum_sortT]; simp [tOf, Function.comp_def, g.len]
  have h1 := sum_tsub g.le
  have h2 := g.sum
  have h3 := g.lhs
  have h4 := g.hle
  have h5 := g.len
  have h6 := g.rest hb
  unfold Balanced at hb
  rw [h5] at h1
  unfold explicitOne
  simp only [s1, s2, s3, s4, s5, s6]
  simp only [zOf, mkZ, hl, hz]
  rw [if_pos (by omega), if_pos (by omega)]
  by_cases hh : d.h = h.n
  · rw [if_neg (by push Not; omega), if_neg (by push Not; omega), if_neg (by push Not; omega), if_pos hh]
    simp only [termOf, zOf, mkZ, hz, hh]
    congr 3
    · congr 1
      · omega
      · omega
    · congr 1
      · omega
      · omega
  · rw [if_neg hh]
    by_cases h7 : ((h.m : Int) - ((d.ts.map fun x => e - x).sum + 0 : Nat)) ≠ (lhs.n : Int) - (0 + d.lhs : Nat)
    · rw [if_pos h7]
    · rw [if_neg h7, if_pos (by omega)]

theorem filter_unique {α β : Type} [DecidableEq β] (l : List α) (f : α → β) (hd : (l.map f).Nodup) (p : α → Bool)
    (hp : ∀ x ∈ l, ∀ y ∈ l, p x → p y → f x = f y) : l.filter p = [] ∨ ∃ x ∈ l, p x = true ∧ l.filter p = [x] := by
  induction l with
  | nil => exact Or.inl rfl
  | cons a l ih =>
    rw [List.map_cons, List.nodup_cons] at hd
    have ih := ih hd.2 fun x hx y hy => hp x (by simp [hx]) y (by simp [hy])
    by_cases ha : p a = true
    · right
      refine ⟨a, by simp, ha, ?_⟩
      rw [List.filter_cons_of_pos ha]
      rw [List.filter_eq_nil_iff.2]
      intro x hx hpx
      exact hd.1 (List.mem_map.2 ⟨x, hx, hp x (by simp [hx]) a (by simp) hpx ha⟩)
    · rw [List.filter_cons_of_neg ha]
      rcases ih with h | ⟨x, hx, h1, h2⟩
      · exact Or.inl h
      · exact Or.inr ⟨x, by simp [hx], h1, h2⟩

/-- The z operators of the ground-state equations. -/
structure GroundZ (zs : List Op) : Prop where
  n : ∀ z ∈ zs, z.n = 0
  rank : ∀ z ∈ zs, z.rank = z.m
  nodup : (zs.map Op.m).Nodup

theorem validPerm_balanced {lhs : Op} (hl : lhs.m = 0) {ts : List Op} {L e : Nat} (u : Uniform ts L e) {h : HOp} {z : Op} (hz : z.n = 0)
    (hv : validPerm lhs ts h z = true) : Balanced lhs.n h (L * e) z.m := by
  unfold validPerm at hv
  split at hv
  · simp at hv
  · next hn =>
    rw [u.sumM, u.sumN] at hn
    unfold Balanced
    omega

/-- A combination that can be balanced is dropped only if h would have to join with itself. -/
theorem validPerm_iff {lhs : Op} (hl : lhs.m = 0) {ts : List Op} {L e : Nat} (u : Uniform ts L e) {h : HOp} {z : Op} (hz : z.n = 0) :
    validPerm lhs ts h z = true ↔ Balanced lhs.n h (L * e) z.m ∧
      ¬ (0 < h.m ∧ 0 < h.n ∧ z.m = 0 ∧ lhs.n = 0 ∧ e = 0) := by
  obtain ⟨nm, hts⟩ := u.all
  have hpos := u.pos
  have anyM : (ts.any fun t => decide (t.m > 0)) = false := by simp [hts]
  have anyN : (ts.any fun t => decide (t.n > 0)) = decide (0 < e) := by
    rw [hts]
    by_cases he : 0 < e
    · simp [he]; omega
    · simp; omega
  constructor
  · intro hv
    refine ⟨validPerm_balanced hl u hz hv, ?_⟩
    rintro ⟨h1, h2, h3, h4, h5⟩
    unfold validPerm at hv
    split at hv
    · simp at hv
    · have : hJoins lhs ts h z = true := by
        unfold hJoins
        rw [if_neg (by omega), anyM, anyN, if_neg (by simp [hl, h3]), if_neg (by simp [h4, hz, h5])]
      simp [this] at hv
  · rintro ⟨hb, hj⟩
    unfold Balanced at hb
    unfold validPerm
    rw [if_neg (by rw [u.sumM, u.sumN]; push Not; omega)]
    simp only [Bool.and_eq_true, Bool.not_eq_true']
    refine ⟨⟨⟨?_, ?_⟩, ?_⟩, ?_⟩
    · unfold zJoinsZ
      simp only [u.sumM, u.sumN, Bool.or_eq_false_iff, decide_eq_false_iff_not]
      omega
    · unfold tJoinsT
      simp only [u.sumM, u.sumN, Bool.or_eq_false_iff, decide_eq_false_iff_not]
      omega
    · unfold omegaJoins
      rw [if_pos (by omega)]
    · unfold hJoins
      rw [anyM, anyN]
      split
      · rfl
      · split
        · rfl
        · split
          · rfl
          · next a1 a2 a3 =>
            exfalso
            apply hj
            simp only [decide_eq_true_eq] at a2 a3
            have := u.small
            refine ⟨by omega, by omega, by omega, by omega, by omega⟩

/-- The terms generated for one `h`. -/
def termsFor (lhs : Op) (ts : List Op) (L e : Nat) (zs : List Op) (h : HOp) : List Term :=
  (zs.filter fun z => validPerm lhs ts h z).flatMap fun z =>
    ((zPerms lhs ts h z).1.filter fun d => decide (d.h = h.n)).map (termOf lhs.n h L e z)

theorem zPerms_nodup (lhs : Op) (ts : List Op) (h : HOp) (z : Op) : (zPerms lhs ts h z).1.Nodup :=
  (nodup_dists _ _).filter _

theorem filterForH_eq {lhs : Op} (hl : lhs.m = 0) {mode : Mode} {ts : List Op} {L e : Nat} (u : Uniform ts L e) {zs : List Op} (hz : GroundZ zs)
    (h : HOp) :
    filterForH lhs [ts] zs mode h = .ok (if mode = .lhs ∧ h.n ≠ 0 then [] else termsFor lhs ts L e zs h) := by
  unfold filterForH
  split
  · rfl
  · have hvp : validPerms lhs [ts] h zs = (zs.filter fun z => validPerm lhs ts h z).map fun z => (ts, z) := by
      simp only [validPerms, pairs, List.flatMap_cons, List.flatMap_nil, List.append_nil, List.filter_map]
      rfl
    rw [hvp]
    unfold termsFor
    rcases filter_unique zs Op.m hz.nodup (fun z => validPerm lhs ts h z) (by
        intro x hx y hy hpx hpy
        have h1 := validPerm_balanced hl u (hz.n x hx) hpx
        have h2 := validPerm_balanced hl u (hz.n y hy) hpy
        unfold Balanced at h1 h2
        omega) with h0 | ⟨z, hzm, hv, h1⟩
    · rw [h0]
      rfl
    · rw [h1]
      have hb := validPerm_balanced hl u (hz.n z hzm) hv
      simp only [List.map_cons, List.map_nil]
      rw [annotate_eq hl u (hz.n z hzm) hb]
      simp only [removeDuplicates_eq (zPerms_nodup lhs ts h z)]
      have := collect_ok_of (f := explicitOne lhs h)
        (l := (zPerms lhs ts h z).1.map fun d => ((sortT (d.ts.map (tOf e)), zOf z L d), 1))
        (fun p => if p.1.2.m_h = h.n then [termOf lhs.n h L e z ⟨p.1.2.m_lhs, p.1.2.m_t, p.1.2.m_h, p.1.2.m_l⟩] else []) (by
          intro p hp
          obtain ⟨d, hd, rfl⟩ := List.mem_map.1 hp
          rw [explicitOne_eq hl (hz.n z hzm) ((mem_upper hl u).1 hd) hb]
          rfl)
      rw [this]
      simp only [List.flatMap_cons, List.flatMap_nil, List.append_nil, List.flatMap_map, zOf, mkZ, Except.ok.injEq]
      generalize (zPerms lhs ts h z).1 = ds
      induction ds with
      | nil => rfl
      | cons d ds ih =>
        rw [List.flatMap_cons, ih]
        by_cases hd : d.h = h.n
        · rw [if_pos hd, List.filter_cons_of_pos (by simpa using hd)]
          rfl
        · rw [if_neg hd, List.filter_cons_of_neg (by simpa using hd)]
          rfl

end TF.ET
