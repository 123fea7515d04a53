import Verif.Lemmas.WSourceFile
import Verif.Lemmas.WRun
import Verif.Lemmas.SourceRun
import Verif.Spec.WCall
import Verif.Spec.WValue

/-!
# Running the text of a generated W module: the functions that add contributions
-/

namespace TF.W

set_option maxRecDepth 10000

open TF.Py TF.Helper TF.Spec TF.Spec.Source TF.Spec.PyRun TF.Spec.Tensor TF.Spec.WCall
open TF.Spec.W (Done Multiplies einsumValue added returned overFactorials)
open TF.Spec.ResidualCall (tensor)

variable {R : Type} [CommRing R] [Algebra Rat R]

/-! ## Products -/

theorem subscripts_subsText {subs : List (List Char)} {out : List Char} (h : GoodEinsum subs out) (hne : subs ≠ []) : subscripts (subsText subs out) = some (subs, out) := by
  have hs : ∀ s ∈ subs, ∀ x, isWord x = false → x ∉ s := fun s hs x hx hm => isWord_ne (h.subs s hs x hm) hx rfl
  refine subscripts_of ?_ hne fun s hs' => ⟨hs s hs' _ rfl, hs s hs' _ rfl⟩
  have e : subsText subs out = [',', ' '].intercalate subs ++ ('-' :: '>' :: out) := by
    unfold subsText
    rw [String.toList_intercalate, List.map_map]
    simp [Function.comp_def]
  rw [e, List.filter_append, filter_intercalate fun s hs' => hs s hs' _ rfl]
  congr 1
  refine filter_clean ?_
  simp only [List.mem_cons, not_or]
  exact ⟨by decide, by decide, fun hm => isWord_ne (h.out _ hm) (x := ' ') rfl rfl⟩

section
variable {e : Einsum} {mid : List Char} {vs : List (List Char)} (h : Multiplies e mid vs)
include h

theorem length_vs : vs.length = mid.length + 1 := by
  have := congrArg List.length h.ranks
  rw [List.length_map] at this
  rw [this, h.chain_length]

theorem length_subs : e.subs.length = e.ts.length := by
  rw [h.chain]
  simp [length_vs h, ← h.chain_length]

theorem subs_at {i : Nat} (hi : i < e.ts.length) : e.subs[i]'(by rw [length_subs h]; exact hi) =
    ('a' :: mid)[i]'(by simp only [List.length_cons, h.chain_length]; exact hi) :: (mid ++ ['b'])[i]'(by simp only [List.length_append, List.length_singleton, h.chain_length]; exact hi) ::
      vs[i]'(by rw [length_vs h, h.chain_length]; exact hi) := by
  simp only [h.chain, List.getElem_zipWith, List.getElem_zip]

theorem vs_at {i : Nat} (hi : i < e.ts.length) : (vs[i]'(by rw [length_vs h, h.chain_length]; exact hi)).length = e.ts[i] := by
  simp only [← h.ranks, List.getElem_map]

omit [CommRing R] [Algebra Rat R] in
theorem mem_electronic {xs : List (Arr R)} (hxs : xs.length = e.ts.length) (c : Char) :
    c ∈ (e.subs.zip xs).flatMap (fun o => o.1.take 2) ↔ c ∈ 'a' :: mid ++ ['b'] := by
  rw [List.mem_flatMap]
  constructor
  · rintro ⟨o, ho, hc⟩
    have := (List.of_mem_zip ho).1
    obtain ⟨i, hi, hs⟩ := List.getElem_of_mem this
    rw [length_subs h] at hi
    rw [← hs, subs_at h hi] at hc
    simp only [List.take_succ_cons, List.take_zero, List.mem_cons, List.not_mem_nil, or_false] at hc
    rcases hc with rfl | rfl
    · exact List.mem_append_left _ (List.getElem_mem _)
    · have := List.getElem_mem (l := mid ++ ['b']) (n := i) (by simp only [List.length_append, List.length_singleton, h.chain_length]; exact hi)
      rw [List.cons_append]
      exact List.mem_cons_of_mem _ this
  · intro hc
    have key : ∀ i (hi : i < e.ts.length), c = ('a' :: mid)[i]'(by simp only [List.length_cons, h.chain_length]; exact hi) ∨
        c = (mid ++ ['b'])[i]'(by simp only [List.length_append, List.length_singleton, h.chain_length]; exact hi) → ∃ o ∈ e.subs.zip xs, c ∈ o.1.take 2 := by
      intro i hi hc
      refine ⟨(e.subs[i]'(by rw [length_subs h]; exact hi), xs[i]'(by rw [hxs]; exact hi)), ?_, ?_⟩
      · rw [List.mem_iff_getElem]
        exact ⟨i, by simp [length_subs h, hxs, hi], by simp⟩
      · simp only
        rw [subs_at h hi]
        simp only [List.take_succ_cons, List.take_zero, List.mem_cons, List.not_mem_nil, or_false]
        exact hc
    have hl := h.chain_length
    rcases List.mem_append.1 hc with hc | hc
    · obtain ⟨i, hi, rfl⟩ := List.getElem_of_mem hc
      exact key i (by simp at hi; omega) (.inl rfl)
    · obtain rfl := List.mem_singleton.1 hc
      exact key mid.length (by omega) (.inr (by simp))

omit [Algebra Rat R] in
theorem einsum_arrays (hg : GoodEinsum e.subs e.out) (A N : Nat) {xs : List (Arr R)} (hxs : xs.length = e.ts.length) :
    Spec.PyRun.einsum (subsText e.subs e.out) (List.zipWith (tensor A N) e.ts xs) = .ok (tensor A N e.ts.sum (Spec.Tensor.einsum A N (e.subs.zip xs) e.out)) := by
  have hl := h.chain_length
  have hel : ∀ c ∈ 'a' :: mid ++ ['b'], axisLength A N (e.subs.zip xs) c = A := by
    intro c hc
    unfold axisLength
    rw [if_pos ((mem_electronic h hxs c).2 hc)]
  have hvib : ∀ v ∈ vs, ∀ c ∈ v, axisLength A N (e.subs.zip xs) c = N := by
    intro v hv c hc
    unfold axisLength
    rw [if_neg]
    rw [mem_electronic h hxs]
    have hd := h.distinct
    have hm : c ∈ vs.flatten := List.mem_flatten.2 ⟨v, hv, hc⟩
    rw [List.nodup_append] at hd
    intro hc'
    refine hd.2.2 c ?_ c hm rfl
    simp only [List.mem_append, List.mem_cons, List.not_mem_nil, or_false] at hc' ⊢
    tauto
  have hfits : Fits (axisLength A N (e.subs.zip xs)) e.subs (List.zipWith (tensor A N) e.ts xs) := by
    unfold Fits
    rw [List.forall₂_iff_get]
    refine ⟨by simp [length_subs h, hxs], fun i h1 h2 => ?_⟩
    have hi : i < e.ts.length := by rw [← length_subs h]; exact h1
    simp only [List.get_eq_getElem, List.getElem_zipWith, tensor]
    rw [subs_at h hi]
    simp only [List.map_cons]
    rw [hel _ (List.mem_append_left _ (List.getElem_mem _)),
      hel _ (by rw [List.cons_append]; exact List.mem_cons_of_mem _ (List.getElem_mem _)),
      map_const (b := N) fun c hc => hvib _ (List.getElem_mem _) c hc, vs_at h hi]
  have hne : e.subs ≠ [] := by
    intro h0
    have := length_subs h
    rw [h0] at this
    simp at this
    omega
  have hflat : ∀ c ∈ e.out, c ∈ e.subs.flatten := by
    intro c hc
    rw [h.out] at hc
    have hmem : ∀ i (hi : i < e.ts.length), ∀ c ∈ e.subs[i]'(by rw [length_subs h]; exact hi), c ∈ e.subs.flatten :=
      fun i hi c hc => List.mem_flatten.2 ⟨_, List.getElem_mem _, hc⟩
    rcases List.mem_cons.1 hc with rfl | hc
    · exact hmem 0 (by omega) _ (by rw [subs_at h (by omega)]; simp)
    · rcases List.mem_cons.1 hc with rfl | hc
      · exact hmem mid.length (by omega) _ (by rw [subs_at h (by omega)]; simp)
      · obtain ⟨v, hv, hc⟩ := List.mem_flatten.1 hc
        obtain ⟨i, hi, rfl⟩ := List.getElem_of_mem hv
        have hi' : i < e.ts.length := by rw [length_vs h] at hi; omega
        exact hmem i hi' _ (by rw [subs_at h hi']; simp [hc])
  have hnd : e.out.Nodup := by
    rw [h.out]
    refine List.Nodup.sublist ?_ h.distinct
    exact List.Sublist.cons₂ _ (List.Sublist.cons₂ _ (List.sublist_append_right _ _))
  have := einsum_of (subscripts_subsText hg hne) hfits hnd hflat
  rw [this]
  unfold tensor
  congr 2
  · rw [h.out, List.map_cons, List.map_cons, hel _ (by simp), hel _ (by simp), map_const (b := N) fun c hc => by
      obtain ⟨v, hv, hc⟩ := List.mem_flatten.1 hc
      exact hvib v hv c hc]
    rw [List.length_flatten, h.ranks]
  · funext v
    unfold Spec.Tensor.einsum
    have e1 : (e.subs.zip xs).flatMap Prod.fst = e.subs.flatten := by
      rw [List.flatMap_def, List.map_fst_zip (by rw [length_subs h, hxs])]
    rw [e1]
    congr 1
    funext σ
    congr 1
    refine List.ext_getElem (by simp [hxs, length_subs h]) fun i h1 h2 => ?_
    simp

omit [Algebra Rat R] in
theorem einsum_w (hg : GoodEinsum e.subs e.out) (A N : Nat) (t : Nat → Arr R) :
    Spec.PyRun.einsum (subsText e.subs e.out) (e.ts.map fun n => tensor A N n (t n)) = .ok (tensor A N e.ts.sum (einsumValue A N t e)) := by
  have := einsum_arrays h hg A N (xs := e.ts.map t) (by simp)
  rw [List.zipWith_map_right, List.zipWith_self] at this
  exact this

end

/-! ## Statements -/

/-- the variables of a function with the amplitudes of the orders up to `m` -/
structure Scope (A N k m : Nat) (env : Spec.W.Env) (t : Nat → Arr R) (i : Nat) (vars : List Char → Option (Val R)) : Prop where
  W : vars (wName k).toList = some (.ref i)
  truncation : vars "truncation".toList = some (truncation env)
  t : ∀ n, 1 ≤ n → n ≤ m → vars (tString n).toList = some (.arr (tensor A N n (t n)))
  factorial : vars "factorial".toList = some (.imported [.word "math".toList] "factorial".toList)

theorem natural_nat (n : Nat) : natural (n : Rat) = some n := by simp [natural]

theorem number_t (n : Nat) : number (tString n).toList = Option.none := by
  rw [tString_toList]
  exact number_none (by decide)

section
variable {A N k m i : Nat} {env : Spec.W.Env} {t : Nat → Arr R} {vars : List Char → Option (Val R)}

theorem eval_fact (hf : vars "factorial".toList = some (.imported [.word "math".toList] "factorial".toList)) (heap : List (NArr R)) (n : Nat) : eval ⟨vars, heap⟩ (factExpr n) = .ok (.num ((n.factorial : Nat) : Rat)) := by
  simp only [factExpr, nameExpr, natWord, eval, evalList, number_nat, Except.map, hf, callImported, and_self, if_true, natural_nat]

theorem mulAll_facts (hf : vars "factorial".toList = some (.imported [.word "math".toList] "factorial".toList)) (heap : List (NArr R)) : ∀ (l : List Nat) (q : Rat),
    mulAll ⟨vars, heap⟩ (.num q) (l.map fun n => (false, factExpr n)) = .ok (.num (q * ((l.map Nat.factorial).prod : Nat)))
  | [], q => by simp [mulAll]
  | n :: l, q => by
    simp only [List.map_cons, mulAll, eval_fact hf heap, mulVal, Bool.false_eq_true, if_false]
    rw [mulAll_facts hf heap l]
    simp [mul_assoc]

theorem eval_denom (hf : vars "factorial".toList = some (.imported [.word "math".toList] "factorial".toList)) (heap : List (NArr R)) {l : List Nat} (hl : l ≠ []) :
    eval ⟨vars, heap⟩ (denomExpr l) = .ok (.num ((l.map Nat.factorial).prod : Nat)) := by
  match l, hl with
  | [n], _ =>
    have e : denomExpr [n] = factExpr n := rfl
    rw [e, eval_fact hf heap]
    simp
  | n :: n' :: l, _ =>
    have e : denomExpr (n :: n' :: l) = .prod ((false, factExpr n) :: (n' :: l).map fun n => (false, factExpr n)) := rfl
    rw [e, eval, evalProd, eval_fact hf heap]
    simp only
    rw [mulAll_facts hf heap]
    simp

theorem facts_ne (l : List Nat) : (((l.map Nat.factorial).prod : Nat) : Rat) ≠ 0 := by
  have : (l.map Nat.factorial).prod ≠ 0 := by
    rw [Ne, List.prod_eq_zero_iff]
    simp [Nat.factorial_ne_zero]
  exact_mod_cast this

/-- `1/.. * e` -/
theorem eval_pref (hf : vars "factorial".toList = some (.imported [.word "math".toList] "factorial".toList)) (heap : List (NArr R)) {l : List Nat} (hl : l ≠ []) {e : Expr} {x : NArr R} (he : eval ⟨vars, heap⟩ e = .ok (.arr x)) :
    eval ⟨vars, heap⟩ (.prod (prefTerm l e)) = .ok (.arr (x.smul (overFactorials l))) := by
  have h1 : number "1".toList = some 1 := number_nat 1
  simp only [prefTerm, nameExpr, eval, evalProd, mulAll, h1, eval_denom hf heap hl, he, mulVal, array, if_true, Bool.false_eq_true, if_false, if_neg (facts_ne l)]
  rfl

/-- the einsum can be executed -/
structure Runs (k m : Nat) (e : Einsum) : Prop where
  good : GoodEinsum e.subs e.out
  multiplies : ∃ mid vs, Multiplies e mid vs
  sum : e.ts.sum = k
  names : ∀ n ∈ e.ts, 1 ≤ n ∧ n ≤ m

theorem eval_einsum (sc : Scope A N k m env t i vars) (heap : List (NArr R)) {e : Einsum} (h : Runs k m e) :
    eval ⟨vars, heap⟩ (einsumExpr e) = .ok (.arr (tensor A N k (einsumValue A N t e))) := by
  obtain ⟨mid, vs, hm⟩ := h.multiplies
  have hl : evalList ⟨vars, heap⟩ (e.ts.map fun n => nameExpr (tString n)) = .ok ((e.ts.map fun n => tensor A N n (t n)).map .arr) := by
    have := evalList_names (vars := vars) (heap := heap) (ws := e.ts.map tString) (vs := (e.ts.map fun n => tensor A N n (t n)).map .arr) (by
      rw [List.map_map, List.forall₂_map_left_iff, List.forall₂_map_right_iff]
      exact List.forall₂_same.2 fun n hn => ⟨number_t n, sc.t n (h.names n hn).1 (h.names n hn).2⟩)
    rw [List.map_map] at this
    exact this
  have := einsum_w hm h.good A N t
  rw [h.sum] at this
  simp only [einsumExpr, nameExpr] at hl ⊢
  simp only [eval, evalList, hl, Except.map, if_true, callBuiltin, arrays_arr, Except.bind, this]

theorem addAll_einsums (sc : Scope A N k m env t i vars) (heap : List (NArr R)) : ∀ {l : List Einsum} {y : Arr R}, (∀ e ∈ l, Runs k m e) →
    addAll ⟨vars, heap⟩ (.arr (tensor A N k y)) (l.map fun e => (false, einsumExpr e)) =
      .ok (.arr (tensor A N k fun v => y v + (l.map fun e => einsumValue A N t e v).sum))
  | [], y, _ => by simp [addAll]
  | e :: l, y, h => by
    simp only [List.map_cons, addAll, eval_einsum sc heap (h e (by simp)), addVal, array, NArr.add, tensor, Except.map, if_true, Bool.false_eq_true, if_false]
    have := addAll_einsums sc heap (l := l) (y := fun v => y v + einsumValue A N t e v) fun e he => h e (by simp [he])
    simp only [tensor] at this
    rw [this]
    simp [add_assoc]

theorem eval_sum (sc : Scope A N k m env t i vars) (heap : List (NArr R)) {l : List Einsum} (hl : l ≠ []) (h : ∀ e ∈ l, Runs k m e) :
    eval ⟨vars, heap⟩ (einsumReading.sumExpr l) = .ok (.arr (tensor A N k fun v => (l.map fun e => einsumValue A N t e v).sum)) := by
  match l, hl with
  | [e], _ =>
    have : einsumReading.sumExpr [e] = einsumExpr e := rfl
    rw [this, eval_einsum sc heap (h e (by simp))]
    simp
  | e :: e' :: l, _ =>
    have : einsumReading.sumExpr (e :: e' :: l) = .sum ((false, einsumExpr e) :: (e' :: l).map fun e => (false, einsumExpr e)) := rfl
    rw [this, eval, evalSum, eval_einsum sc heap (h e (by simp))]
    simp only
    rw [addAll_einsums sc heap fun x hx => h x (by simp only [List.mem_cons] at hx ⊢; tauto)]
    rfl

variable {fs : Functions R}

theorem added_nil (A N : Nat) (t : Nat → Arr R) : added A N t [] = fun _ => 0 := by
  funext v
  simp [added]

theorem added_append (A N : Nat) (t : Nat → Arr R) (a b : List (Done Einsum)) : added A N t (a ++ b) = fun v => added A N t a v + added A N t b v := by
  funext v
  simp [added]

theorem added_items (A N : Nat) (t : Nat → Arr R) (p : List Nat) (l : List Einsum) :
    added A N t [⟨p, none, l⟩] = fun v => overFactorials p • (l.map fun e => einsumValue A N t e v).sum := by
  funext v
  simp [added]

theorem added_direct (A N : Nat) (t : Nat → Arr R) (p : List Nat) (n : Nat) : added A N t [⟨p, some n, []⟩] = fun v => overFactorials p • t n v := by
  funext v
  simp [added]

theorem adds_name {w : List Char} (hw : vars w = some (.ref i)) {S : List Nat} {e : Expr} {y : Arr R} (he : ∀ heap, eval ⟨vars, heap⟩ e = .ok (.arr ⟨S, y⟩)) :
    Adds fs vars i S [.add w e] y := by
  intro heap x hx
  rw [Spec.PyRun.execAll, exec]
  simp only [hw, he, hx, array, NArr.add, if_true, Spec.PyRun.execAll]

theorem adds_array (hW : vars (wName k).toList = some (.ref i)) {S : List Nat} {e : Expr} {y : Arr R} (he : ∀ heap, eval ⟨vars, heap⟩ e = .ok (.arr ⟨S, y⟩)) :
    Adds fs vars i S [.add (wName k).toList e] y := adds_name hW he

theorem flag_lookup {g : Nat} (h1 : 1 ≤ g) (h6 : g ≤ 6) :
    [("singles", env.fl 1), ("doubles", env.fl 2), ("triples", env.fl 3), ("quadruples", env.fl 4), ("quintuples", env.fl 5), ("sextuples", env.fl 6)].lookup ((orderTags[g]?).getD "") =
      some (env.fl g) := by
  interval_cases g <;> rfl

theorem eval_flag (ht : vars "truncation".toList = some (truncation env)) {g : Nat} (h1 : 1 ≤ g) (h6 : g ≤ 6) (heap : List (NArr R)) :
    eval ⟨vars, heap⟩ (.attr (nameExpr "truncation") ((orderTags[g]?).getD "").toList) = .ok (.bool (env.fl g)) := by
  have hn : number "truncation".toList = Option.none := number_none (by decide)
  simp only [nameExpr, eval, hn, ht, TF.Spec.WCall.truncation, String.ofList_toList, flag_lookup h1 h6]

theorem adds_block (sc : Scope A N k m env t i vars) {p : List Nat} (hg : ∀ g, gateOf p = some g → 1 ≤ g ∧ g ≤ 6) (hp : prefOf p ≠ []) {f : List Nat → Einsum}
    (hf : ∀ c, c.Perm p → Runs k m (f c)) :
    Adds fs vars i (A :: A :: List.replicate k N) [einsumReading.blockAst k (blk f p)] (added A N t (if live env.fl p then [doneOf f p] else [])) := by
  have hne : (combinations p).map f ≠ [] := by
    intro h
    have : p ∈ combinations p := mem_combinations.2 (List.Perm.refl p)
    rw [List.map_eq_nil_iff.1 h] at this
    simp at this
  have hruns : ∀ e ∈ (combinations p).map f, Runs k m e := by
    intro e he
    obtain ⟨c, hc, rfl⟩ := List.mem_map.1 he
    exact hf c (mem_combinations.1 hc)
  have hadd : Adds fs vars i (A :: A :: List.replicate k N) [einsumReading.addAst k (blk f p)] (added A N t [doneOf f p]) := by
    refine (adds_array (k := k) (y := fun v => overFactorials (prefOf p) • (((combinations p).map f).map fun e => einsumValue A N t e v).sum) sc.W fun heap => ?_).cast
      (added_items A N t (prefOf p) _).symm
    exact eval_pref sc.factorial heap hp (eval_sum sc heap hne hruns)
  unfold Reading.blockAst live
  have eg : (blk f p).gate = gateOf p := rfl
  rw [eg]
  cases hgp : gateOf p with
  | none => simpa using hadd
  | some g =>
    obtain ⟨g1, g2⟩ := hg g hgp
    refine Adds.branch (fun heap => eval_flag sc.truncation g1 g2 heap) ?_ ?_
    · intro hfl
      simpa [hfl] using hadd
    · intro hfl
      simp only [Option.all_some, hfl, Bool.false_eq_true, if_false]
      exact Adds.nil.cast (added_nil A N t).symm

theorem adds_blocks (sc : Scope A N k m env t i vars) {f : List Nat → Einsum} : ∀ {ps : List (List Nat)},
    (∀ p ∈ ps, (∀ g, gateOf p = some g → 1 ≤ g ∧ g ≤ 6) ∧ prefOf p ≠ [] ∧ ∀ c, c.Perm p → Runs k m (f c)) →
    Adds fs vars i (A :: A :: List.replicate k N) ((ps.map (blk f)).map (einsumReading.blockAst k)) (added A N t ((ps.filter (live env.fl)).map (doneOf f)))
  | [], _ => Adds.nil.cast (added_nil A N t).symm
  | p :: ps, h => by
    obtain ⟨h1, h2, h3⟩ := h p (by simp)
    have := (adds_block (fs := fs) sc h1 h2 h3).append (adds_blocks (ps := ps) sc fun q hq => h q (List.mem_cons_of_mem _ hq))
    refine this.cast ?_
    rw [← added_append]
    congr 1
    rw [List.filter_cons]
    split <;> rfl

end

end TF.W
