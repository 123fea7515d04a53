import Verif.Lemmas.ETCollate
import Verif.Props.FullCC.Terms

/-! # Lemmas about the Python code of the e^T z_t equations: the generated module -/

namespace TF.ETPy

open TF.Py
open TF.CC (Op HOp Series summationIdx unlinkedIdx collect collect_ok_of collect_ok_iff omegaOps omegaOps_exact omegaOps_nodup)
open TF.ET (Mode Term Dist GoodDist lenOf rankOf termOf termsAt taking mem_taking groundZ seriesOf filterTerms filterTerms_eq mem_termsAt eTaylor eTaylor_one
  tableOf uniform_self uniform_tFactors)
open TF.Spec.ET TF.Spec.ETPy

/-! ## Pruning -/

theorem taking_taking (mode : Mode) (H : List HOp) : taking mode (taking mode H) = taking mode H := by
  unfold taking
  rw [List.filter_filter]
  simp

theorem taking_rhs (H : List HOp) : taking .rhs H = H := by
  unfold taking
  simp

theorem zOps_filter (cc : Nat) (gs : Bool) : ((Zhz.zOps cc gs).filter fun z => decide (z.n = 0)) = Zhz.zOps cc true := by
  unfold Zhz.zOps
  rw [List.filter_map, List.filter_filter]
  congr 1
  refine List.filter_congr fun p _ => ?_
  cases gs <;> by_cases h : p.2 = 0 <;> simp [h, Nat.pos_iff_ne_zero]

/-- no operator of the series creates anything -/
def Annihilating : Series → Prop
  | .one e => e.m = 0
  | .lin l => ∀ e ∈ l, e.m = 0
  | .prods l => ∀ e ∈ l, ∀ x ∈ e, x.m = 0

theorem pruneLoop_eq : ∀ (ss : List Series) (i : Nat), (∀ s ∈ ss, Annihilating s) → pruneLoop i 0 0 ss = (ss, 0)
  | [], i, _ => rfl
  | .one e :: ss, i, h => by
    have he : e.m = 0 := h (.one e) (by simp)
    simp only [pruneLoop, he]
    rw [if_neg (by omega), pruneLoop_eq ss _ (fun s hs => h s (List.mem_cons_of_mem _ hs))]
  | .lin l :: ss, i, h => by
    have he : ∀ e ∈ l, e.m = 0 := h (.lin l) (by simp)
    have hl : (l.filter fun e => decide (e.m > 0)) = [] := by
      rw [List.filter_eq_nil_iff]
      intro e h'
      simp [he e h']
    simp only [pruneLoop, hl, List.length_nil, Nat.add_zero, List.drop_zero]
    rw [pruneLoop_eq ss _ (fun s hs => h s (List.mem_cons_of_mem _ hs))]
  | .prods l :: ss, i, h => by
    have he : ∀ e ∈ l, ∀ x ∈ e, x.m = 0 := h (.prods l) (by simp)
    have hl : (l.map fun e => e.drop (e.filter fun x => decide (x.m > 0)).length) = l := by
      conv_rhs => rw [← List.map_id l]
      refine List.map_congr_left fun e h' => ?_
      have : (e.filter fun x => decide (x.m > 0)) = [] := by
        rw [List.filter_eq_nil_iff]
        intro x hx
        simp [he e h' x hx]
      rw [this]
      rfl
    simp only [pruneLoop, hl, List.drop_zero]
    rw [pruneLoop_eq ss _ (fun s hs => h s (List.mem_cons_of_mem _ hs))]

theorem annihilating_seriesOf (k : Nat) : Annihilating (seriesOf k) := by
  unfold seriesOf
  split
  · rfl
  · split
    · simp [Annihilating]
    · simp only [Annihilating, List.mem_singleton]
      rintro e rfl x hx
      rw [List.eq_of_mem_replicate hx]

/-- the series -/
def ssOf (K : Nat) : List Series := (List.range (K + 1)).map seriesOf

theorem pruned_ssOf (K : Nat) : pruned (ssOf K) = ssOf K := by
  unfold pruned
  rw [pruneLoop_eq]
  · rfl
  · intro s hs
    obtain ⟨k, _, rfl⟩ := List.mem_map.1 hs
    exact annihilating_seriesOf k

theorem filter_ssOf (K : Nat) : ((ssOf K).filter fun s => !isEmpty s) = ssOf K := by
  rw [List.filter_eq_self]
  intro s hs
  obtain ⟨k, _, rfl⟩ := List.mem_map.1 hs
  unfold seriesOf
  split
  · rfl
  · split <;> rfl

/-- the operator lists after the first pruning -/
def opsOf (mode : Mode) (hMax cc K : Nat) : Ops := ⟨taking mode (Zhz.prunedH hMax), Zhz.zOps cc true, ssOf K⟩

theorem pruneH_eq (mode : Mode) (H : List HOp) : (match mode with | .rhs => H | .lhs => H.filter fun h => decide (h.n = 0)) = taking mode H := by
  cases mode with
  | rhs => exact (taking_rhs H).symm
  | lhs =>
    unfold taking
    refine List.filter_congr fun h _ => ?_
    simp

theorem prune_operators (gs : Bool) (mode : Mode) (hMax cc K : Nat) : prune true mode (operators gs hMax cc (ssOf K)) = opsOf mode hMax cc K := by
  unfold prune operators opsOf
  simp only [if_true, Ops.mk.injEq]
  exact ⟨pruneH_eq mode _, zOps_filter cc gs, pruned_ssOf K⟩

theorem prune_opsOf (mode : Mode) (hMax cc K : Nat) : prune true mode (opsOf mode hMax cc K) = opsOf mode hMax cc K := by
  unfold prune opsOf
  simp only [if_true, Ops.mk.injEq]
  exact ⟨(pruneH_eq mode _).trans (taking_taking mode _), zOps_filter cc true, pruned_ssOf K⟩

/-! ## The parts of a projection operator -/

/-- the parts written for a projection operator -/
def partsOf (mode : Mode) (hMax cc K : Nat) (p : Op) : Except PyErr (Part × Part) :=
  einsumsOf hMax cc mode p (taking mode (Zhz.prunedH hMax)) (Zhz.zOps cc true) (ssOf K)

theorem generate_true {mode : Mode} {hMax cc K : Nat} {p : Op} {o : Ops} (ho : prune true mode o = opsOf mode hMax cc K) :
    generate hMax cc mode true p o = (match partsOf mode hMax cc K p with | .error e => .error e | .ok g => .ok (g, opsOf mode hMax cc K)) := by
  unfold generate
  simp only [ho, if_true]
  have : ((opsOf mode hMax cc K).ss.filter fun s => !isEmpty s) = ssOf K := filter_ssOf K
  rw [this]
  rfl

theorem generate_false {mode : Mode} {hMax cc K : Nat} {p : Op} :
    generate hMax cc mode false p (opsOf mode hMax cc K) =
      (match partsOf mode hMax cc K p with | .error e => .error e | .ok g => .ok (g, opsOf mode hMax cc K)) := by
  unfold generate prune
  rfl

/-- the functions of a projection operator -/
def fnOf (gs : Bool) (g : Op → Part × Part) (p : Op) : Fns := ⟨p, g p, if gs then none else some (g p)⟩

theorem construct_eq {mode : Mode} {gs : Bool} {hMax cc K : Nat} {p : Op} {o : Ops} (ho : prune true mode o = opsOf mode hMax cc K) :
    construct hMax cc mode gs p o = (match partsOf mode hMax cc K p with
      | .error e => .error e
      | .ok g => .ok (⟨p, g, if gs then none else some g⟩, opsOf mode hMax cc K)) := by
  unfold construct
  rw [generate_true ho]
  cases hp : partsOf mode hMax cc K p with
  | error e => rfl
  | ok g =>
    simp only
    cases gs with
    | true => rfl
    | false => simp only [generate_false, hp]; rfl

theorem wrap_iff {mode : Mode} {gs : Bool} {hMax cc K : Nat} : ∀ {ps : List Op} {o : Ops}, prune true mode o = opsOf mode hMax cc K →
    ∀ {fs o'}, wrap hMax cc mode gs ps o = .ok (fs, o') ↔ (∃ g, (∀ p ∈ ps, partsOf mode hMax cc K p = .ok (g p)) ∧ fs = ps.map (fnOf gs g)) ∧
      o' = if ps = [] then o else opsOf mode hMax cc K
  | [], o, ho, fs, o' => by
    simp only [wrap, Except.ok.injEq, Prod.mk.injEq, List.not_mem_nil, false_implies, implies_true, List.map_nil, true_and, if_true]
    constructor
    · rintro ⟨rfl, rfl⟩
      exact ⟨⟨fun _ => (.noTerms, .noTerms), rfl⟩, rfl⟩
    · rintro ⟨⟨_, rfl⟩, rfl⟩
      exact ⟨rfl, rfl⟩
  | p :: ps, o, ho, fs, o' => by
    simp only [wrap, construct_eq ho]
    have ih := @wrap_iff mode gs hMax cc K ps (opsOf mode hMax cc K) (prune_opsOf mode hMax cc K)
    have hc : (if (p :: ps) = [] then o else opsOf mode hMax cc K) = opsOf mode hMax cc K := by simp
    have hc' : (if ps = [] then opsOf mode hMax cc K else opsOf mode hMax cc K) = opsOf mode hMax cc K := by simp
    rw [hc]
    rw [hc'] at ih
    cases hp : partsOf mode hMax cc K p with
    | error e =>
      simp only [reduceCtorEq, false_iff]
      rintro ⟨⟨g, hg, _⟩, _⟩
      have := hg p (by simp)
      rw [hp] at this
      simp at this
    | ok x =>
      simp only
      constructor
      · intro h
        cases hw : wrap hMax cc mode gs ps (opsOf mode hMax cc K) with
        | error e => rw [hw] at h; simp at h
        | ok r =>
          obtain ⟨fs', o''⟩ := r
          rw [hw] at h
          simp only [Except.ok.injEq, Prod.mk.injEq] at h
          obtain ⟨h1, h2⟩ := h
          obtain ⟨⟨g, hg, hfs⟩, ho''⟩ := ih.1 hw
          refine ⟨⟨fun q => match partsOf mode hMax cc K q with | .ok y => y | .error _ => (.noTerms, .noTerms), ?_, ?_⟩, by rw [← h2, ho'']⟩
          · intro q hq
            rcases List.mem_cons.1 hq with rfl | hq
            · simp only [hp]
            · simp only [hg q hq]
          · rw [← h1, hfs, List.map_cons]
            congr 1
            · simp [fnOf, hp]
            · refine List.map_congr_left fun q hq => ?_
              simp [fnOf, hg q hq]
      · rintro ⟨⟨g, hg, hfs⟩, ho'⟩
        have h1 := hg p (by simp)
        rw [hp] at h1
        injection h1 with h1
        rw [ih.2 ⟨⟨g, fun q hq => hg q (List.mem_cons_of_mem _ hq), rfl⟩, rfl⟩]
        simp only [hfs, List.map_cons, fnOf, h1, ho']

theorem projections_ne (cc pMax : Nat) : projections cc pMax ≠ [] := by
  intro h
  have : (⟨TF.CC.rep 'd' 0 ++ TF.CC.rep 'b' 0, 0, 0, 0⟩ : Op) ∈ projections cc pMax := by
    unfold projections
    rw [List.mem_filter]
    exact ⟨(omegaOps_exact cc pMax _).2 ⟨rfl, rfl, by simp, by simp⟩, rfl⟩
  rw [h] at this
  simp at this

/-- **Closed form of the module**: both sets of functions are the same, and with hot bands both branches
are the same. -/
theorem module_iff {gs : Bool} {mode : Mode} {hMax cc K pMax : Nat} (hK : 1 ≤ K) {m : Module} :
    module gs mode hMax cc 1 K pMax = .ok m ↔ ∃ g, (∀ p ∈ projections cc pMax, partsOf mode hMax cc K p = .ok (g p)) ∧
      m = ⟨(projections cc pMax).map (fnOf gs g), (projections cc pMax).map (fnOf gs g)⟩ := by
  unfold module
  rw [eTaylor_one hK]
  simp only
  have hss : (List.range (K + 1)).map seriesOf = ssOf K := rfl
  rw [hss]
  have i1 := @wrap_iff mode gs hMax cc K (projections cc pMax) _ (prune_operators gs mode hMax cc K)
  have i2 := @wrap_iff mode gs hMax cc K (projections cc pMax) _ (prune_opsOf mode hMax cc K)
  rw [if_neg (projections_ne cc pMax)] at i1
  simp only [ite_self] at i2
  constructor
  · intro h
    cases hw : wrap hMax cc mode gs (projections cc pMax) (operators gs hMax cc (ssOf K)) with
    | error e => rw [hw] at h; simp at h
    | ok r =>
      obtain ⟨d, o⟩ := r
      obtain ⟨⟨g, hg, hd⟩, ho⟩ := i1.1 hw
      rw [hw] at h
      simp only at h
      rw [ho, i2.2 ⟨⟨g, hg, rfl⟩, rfl⟩] at h
      simp only [Except.ok.injEq] at h
      exact ⟨g, hg, by rw [← h, hd]⟩
  · rintro ⟨g, hg, rfl⟩
    rw [i1.2 ⟨⟨g, hg, rfl⟩, rfl⟩]
    simp only
    rw [i2.2 ⟨⟨g, hg, rfl⟩, rfl⟩]

/-! ## The terms of the two parts -/

/-- the terms without t after the removal of the derivative -/
def zeroTerms (mode : Mode) (hMax cc : Nat) (p : Op) : List Term :=
  ((taking mode (Zhz.prunedH hMax)).flatMap (termsAt p (Zhz.zOps cc true) 0)).eraseP isDerivative

/-- the terms with t -/
def tTerms (mode : Mode) (hMax cc K : Nat) (p : Op) : List Term :=
  (List.range K).flatMap fun k => (taking mode (Zhz.prunedH hMax)).flatMap (termsAt p (Zhz.zOps cc true) (k + 1))

theorem partsOf_eq {mode : Mode} {hMax cc K : Nat} {p : Op} (hp : p.m = 0) :
    partsOf mode hMax cc K p =
      if zeroTerms mode hMax cc p = [] ∧ tTerms mode hMax cc K p = [] then .ok (.allInvalid, .allInvalid)
      else
        match write hMax cc mode (zeroTerms mode hMax cc p) with
        | .error e => .error e
        | .ok a =>
          match write hMax cc mode (tTerms mode hMax cc K p) with
          | .error e => .error e
          | .ok b => .ok (a, b) := by
  unfold partsOf einsumsOf ssOf
  rw [List.range_succ_eq_map, List.map_cons, List.map_map]
  simp only [filterTerms_eq hp (groundZ cc) (Zhz.zOps_ne_nil cc true), taking_taking]
  have := collect_ok_of (f := fun s => filterTerms p s (taking mode (Zhz.prunedH hMax)) (Zhz.zOps cc true) .rhs)
    (l := (List.range K).map (seriesOf ∘ Nat.succ))
    (fun s => match filterTerms p s (taking mode (Zhz.prunedH hMax)) (Zhz.zOps cc true) .rhs with | .ok l => l | .error _ => []) (by
      intro s hs
      obtain ⟨k, _, rfl⟩ := List.mem_map.1 hs
      simp only [Function.comp_def, filterTerms_eq hp (groundZ cc) (Zhz.zOps_ne_nil cc true)])
  rw [this]
  have e2 : ((List.range K).map (seriesOf ∘ Nat.succ)).flatMap
      (fun s => match filterTerms p s (taking mode (Zhz.prunedH hMax)) (Zhz.zOps cc true) .rhs with | .ok l => l | .error _ => []) =
      tTerms mode hMax cc K p := by
    rw [List.flatMap_map]
    unfold tTerms
    congr 1
    funext k
    simp only [Function.comp_def, filterTerms_eq hp (groundZ cc) (Zhz.zOps_ne_nil cc true), taking_rhs]
  rw [e2]
  rfl

end TF.ETPy
