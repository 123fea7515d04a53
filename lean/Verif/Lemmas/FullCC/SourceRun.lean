import Verif.Lemmas.FullCC.SourceGood
import Verif.Lemmas.WSourceRun
import Verif.Props.FullCC.Value
import Verif.Spec.FullCCCall

/-!
# Running the text of a generated full-CC module
-/

namespace TF.CC

open TF.Py TF.Spec TF.Spec.CCRun TF.Spec.Tensor TF.Tensor TF.Spec.PyRun TF.Spec.CCCall
open TF.Spec.Source (Expr isWord isWord_ne Word nameExpr)
open TF.ETPy (gate operandExpr einsumExpr)

variable {R : Type} [CommRing R] [Algebra Rat R]

/-! ## One product -/

section
variable {P : List (Char × Char)} {V : List (List Char)}

theorem zip_take (h : P.length = V.length) : (List.zipWith (fun p v => p.1 :: p.2 :: v) P V).flatMap (fun s => s.take 2) = P.flatMap fun p => [p.1, p.2] := by
  induction P generalizing V with
  | nil => simp
  | cons p P ih =>
    cases V with
    | nil => simp at h
    | cons v V => simp [ih (V := V) (by simpa using h)]

theorem mem_zip_flatten (h : P.length = V.length) {c : Char} : c ∈ (List.zipWith (fun p v => p.1 :: p.2 :: v) P V).flatten ↔
    (∃ p ∈ P, c = p.1 ∨ c = p.2) ∨ ∃ v ∈ V, c ∈ v := by
  induction P generalizing V with
  | nil =>
    cases V with
    | nil => simp
    | cons v V => simp at h
  | cons p P ih =>
    cases V with
    | nil => simp at h
    | cons v V =>
      rw [List.zipWith_cons_cons, List.flatten_cons, List.mem_append, ih (by simpa using h)]
      simp only [List.mem_cons, exists_eq_or_imp]
      generalize (∃ p ∈ P, c = p.1 ∨ c = p.2) = X, (∃ v ∈ V, c ∈ v) = Y, (c ∈ v) = Z, (c = p.1) = U, (c = p.2) = W
      tauto

omit [CommRing R] [Algebra Rat R] in
theorem fits_zip {A N : Nat} {d : Char → Nat} {ops : List (NArr R)} (h : P.length = V.length) (hP : ∀ p ∈ P, d p.1 = A ∧ d p.2 = A)
    (hV : List.Forall₂ (fun v x => x.shape = A :: A :: List.replicate v.length N ∧ ∀ c ∈ v, d c = N) V ops) :
    TF.Spec.PyRun.Fits d (List.zipWith (fun p v => p.1 :: p.2 :: v) P V) ops := by
  induction hV generalizing P with
  | nil =>
    rw [List.zipWith_nil_right]
    exact .nil
  | @cons v x V ops h1 _ ih =>
    cases P with
    | nil => simp at h
    | cons p P =>
      rw [List.zipWith_cons_cons]
      refine .cons ?_ (ih (by simpa using h) fun q hq => hP q (by simp [hq]))
      rw [h1.1, List.map_cons, List.map_cons, map_const h1.2, (hP p (by simp)).1, (hP p (by simp)).2]

end

omit [CommRing R] [Algebra Rat R] in
theorem zipWith_get (σ : Char → Nat) : ∀ (ops : List (NArr R)) (subs : List (List Char)),
    List.zipWith (fun (x : NArr R) s => x.get (s.map σ)) ops subs = (subs.zip (ops.map NArr.get)).map fun o => o.2 (o.1.map σ)
  | [], subs => by simp
  | x :: ops, [] => by simp
  | x :: ops, s :: subs => by simp [zipWith_get σ ops subs]

/-- the array of an argument -/
def arrOf (A N : Nat) (x : Nat × Nat → Arr R) (k : Nat × Nat) : NArr R := ⟨A :: A :: List.replicate (k.1 + k.2) N, x k⟩

/-- the product is computed -/
def Runs (A N n : Nat) (h t : Nat × Nat → Arr R) (e : Einsum) : Prop :=
  Spec.PyRun.einsum e.plain.text (arrOf A N h e.h :: e.ts.map (arrOf A N t)) = .ok ⟨A :: A :: List.replicate n N, itemValue A N h t e⟩

omit [Algebra Rat R] in
theorem runs_of {x : Term} {e : Einsum} {mid vh : List Char} {order : List (T × List Char)} (hE : EinsumFor x e mid vh order)
    (hw : ∀ s ∈ e.subs, ∀ c ∈ s, isWord c = true) (hw' : ∀ c ∈ e.out, isWord c = true) (A N : Nat) (h t : Nat × Nat → Arr R) :
    Runs A N (x.omega.m + x.omega.n) h t e := by
  have hlen : ((('a' :: mid).zip (mid ++ ['b']))).length = (vh :: order.map Prod.snd).length := by
    simp [hE.chain_length]
  have hsl : e.subs.length = (h e.h :: e.ts.map t).length := by
    rw [hE.chain, List.length_zipWith, hlen, hE.t_keys]
    simp
  have hfst : (('a' :: mid).zip (mid ++ ['b'])).map Prod.fst = 'a' :: mid := List.map_fst_zip (by simp)
  have hsnd : (('a' :: mid).zip (mid ++ ['b'])).map Prod.snd = mid ++ ['b'] := List.map_snd_zip (by simp)
  have hel : ∀ c, c ∈ ((e.subs.zip (h e.h :: e.ts.map t)).flatMap fun o => o.1.take 2) ↔ c ∈ 'a' :: 'b' :: mid := by
    intro c
    have e1 : ((e.subs.zip (h e.h :: e.ts.map t)).flatMap fun o => o.1.take 2) = e.subs.flatMap fun s => s.take 2 := by
      have : e.subs = (e.subs.zip (h e.h :: e.ts.map t)).map Prod.fst := (List.map_fst_zip (le_of_eq hsl)).symm
      conv_rhs => rw [this, List.flatMap_map]
    rw [e1, hE.chain, zip_take hlen, List.mem_flatMap]
    simp only [List.mem_cons, List.not_mem_nil, or_false]
    constructor
    · rintro ⟨p, hp, rfl | rfl⟩
      · have := List.mem_map_of_mem (f := Prod.fst) hp
        rw [hfst] at this
        rcases List.mem_cons.1 this with h | h
        · exact .inl h
        · exact .inr (.inr h)
      · have := List.mem_map_of_mem (f := Prod.snd) hp
        rw [hsnd] at this
        rcases List.mem_append.1 this with h | h
        · exact .inr (.inr h)
        · exact .inr (.inl (by simpa using h))
    · rintro (rfl | rfl | hc)
      · have : 'a' ∈ (('a' :: mid).zip (mid ++ ['b'])).map Prod.fst := by rw [hfst]; simp
        obtain ⟨p, hp, h⟩ := List.mem_map.1 this
        exact ⟨p, hp, .inl h.symm⟩
      · have : 'b' ∈ (('a' :: mid).zip (mid ++ ['b'])).map Prod.snd := by rw [hsnd]; simp
        obtain ⟨p, hp, h⟩ := List.mem_map.1 this
        exact ⟨p, hp, .inr h.symm⟩
      · have : c ∈ (('a' :: mid).zip (mid ++ ['b'])).map Prod.fst := by rw [hfst]; simp [hc]
        obtain ⟨p, hp, h⟩ := List.mem_map.1 this
        exact ⟨p, hp, .inl h.symm⟩
  have hA : ∀ c ∈ 'a' :: 'b' :: mid, axisLength A N (e.subs.zip (h e.h :: e.ts.map t)) c = A := by
    intro c hc
    unfold axisLength
    rw [if_pos ((hel c).2 hc)]
  have hN : ∀ c, c ∉ 'a' :: 'b' :: mid → axisLength A N (e.subs.zip (h e.h :: e.ts.map t)) c = N := by
    intro c hc
    unfold axisLength
    rw [if_neg (fun h => hc ((hel c).1 h))]
  have hpairs : ∀ p ∈ ('a' :: mid).zip (mid ++ ['b']), p.1 ∈ 'a' :: 'b' :: mid ∧ p.2 ∈ 'a' :: 'b' :: mid := by
    intro p hp
    have h1 := List.mem_map_of_mem (f := Prod.fst) hp
    have h2 := List.mem_map_of_mem (f := Prod.snd) hp
    rw [hfst] at h1
    rw [hsnd] at h2
    simp only [List.mem_cons, List.mem_append, List.not_mem_nil, or_false] at h1 h2 ⊢
    tauto
  have hfits : TF.Spec.PyRun.Fits (axisLength A N (e.subs.zip (h e.h :: e.ts.map t))) e.subs (arrOf A N h e.h :: e.ts.map (arrOf A N t)) := by
    generalize axisLength A N (e.subs.zip (h e.h :: e.ts.map t)) = d at hA hN
    rw [hE.chain]
    refine fits_zip (N := N) hlen (fun p hp => ⟨hA _ (hpairs p hp).1, hA _ (hpairs p hp).2⟩) (.cons ⟨?_, ?_⟩ ?_)
    · rw [hE.h_rank.1, hE.h_key]
      rfl
    · exact fun c hc => hN c fun h' => (hE.alphabets c h').1 hc
    · rw [hE.t_keys, List.map_map, List.forall₂_map_left_iff, List.forall₂_map_right_iff, List.forall₂_same]
      intro p hp
      refine ⟨?_, fun c hc => hN c fun h' => (hE.alphabets c h').2.1 p hp hc⟩
      rw [(hE.t_rank p hp).1]
      have : ampRank p.1 = (p.1.m_h + p.1.m_o) + (p.1.n_h + p.1.n_o) := by unfold ampRank; omega
      rw [this]
      rfl
  have hclean : ∀ s ∈ e.subs, ' ' ∉ s ∧ ',' ∉ s ∧ '-' ∉ s := fun s hs =>
    ⟨fun hc => isWord_ne (hw s hs _ hc) (x := ' ') rfl rfl, fun hc => isWord_ne (hw s hs _ hc) (x := ',') rfl rfl, fun hc => isWord_ne (hw s hs _ hc) (x := '-') rfl rfl⟩
  have hout : ' ' ∉ 'a' :: 'b' :: e.out := by
    intro hc
    rcases List.mem_cons.1 hc with hc | hc
    · revert hc; decide
    · rcases List.mem_cons.1 hc with hc | hc
      · revert hc; decide
      · exact isWord_ne (hw' _ hc) (x := ' ') rfl rfl
  have hne : e.subs ≠ [] := by
    intro h0
    rw [h0] at hsl
    simp at hsl
  have hnd : ('a' :: 'b' :: e.out).Nodup := by
    refine List.nodup_cons.2 ⟨?_, List.nodup_cons.2 ⟨(hE.alphabets 'b' (by simp)).2.2, hE.out.1⟩⟩
    intro hc
    rcases List.mem_cons.1 hc with hc | hc
    · revert hc; decide
    · exact (hE.alphabets 'a' (by simp)).2.2 hc
  have hin : ∀ c ∈ 'a' :: 'b' :: e.out, c ∈ e.subs.flatten := by
    intro c hc
    rw [hE.chain, mem_zip_flatten hlen]
    have hcases : c ∈ 'a' :: 'b' :: mid ∨ c ∈ e.out := by
      simp only [List.mem_cons] at hc ⊢
      tauto
    rcases hcases with hc | hc
    · left
      have := (hel c).2 hc
      have e1 : ((e.subs.zip (h e.h :: e.ts.map t)).flatMap fun o => o.1.take 2) = e.subs.flatMap fun s => s.take 2 := by
        have : e.subs = (e.subs.zip (h e.h :: e.ts.map t)).map Prod.fst := (List.map_fst_zip (le_of_eq hsl)).symm
        conv_rhs => rw [this, List.flatMap_map]
      rw [e1, hE.chain, zip_take hlen, List.mem_flatMap] at this
      simpa using this
    · right
      have h1 : c ∈ vh ++ order.flatMap Prod.snd := by
        have := hE.external_once c hc
        exact List.count_pos_iff.1 (by omega)
      rcases List.mem_append.1 h1 with h1 | h1
      · exact ⟨vh, by simp, h1⟩
      · obtain ⟨p, hp, h1⟩ := List.mem_flatMap.1 h1
        exact ⟨p.2, by simp only [List.mem_cons, List.mem_map]; exact .inr ⟨p, hp, rfl⟩, h1⟩
  have := einsum_ok hne hclean hout hfits hnd hin
  unfold Runs
  rw [ETPy.text_eq]
  refine this.trans ?_
  have hshape : ('a' :: 'b' :: e.out).map (axisLength A N (e.subs.zip (h e.h :: e.ts.map t))) = A :: A :: List.replicate (x.omega.m + x.omega.n) N := by
    rw [List.map_cons, List.map_cons, hA 'a' (by simp), hA 'b' (by simp), ← hE.out.2]
    rw [map_const fun c hc => hN c fun h' => (hE.alphabets c h').2.2 hc]
  rw [hshape]
  congr 2
  funext v
  have hf : (e.subs.zip (h e.h :: e.ts.map t)).flatMap Prod.fst = e.subs.flatten := by
    rw [List.flatMap_def, List.map_fst_zip (le_of_eq hsl)]
  unfold itemValue Tensor.einsum
  rw [hf]
  refine congrArg (sumOver _ _ _) ?_
  funext σ
  congr 1
  rw [zipWith_get]
  simp [arrOf, Function.comp_def]

/-! ## Statements -/

/-- the variables of a function with terms -/
structure Scope (A N : Nat) (env : Caller) (h t : Nat × Nat → Arr R) (i : Nat) (vars : List Char → Option (Val R)) : Prop where
  tensor : vars "R".toList = some (.ref i)
  ansatz : vars "ansatz".toList = some (ansatz env)
  truncation : vars "truncation".toList = some (truncation env)
  h_args : vars "h_args".toList = some (argument A N env.h h)
  t_args : vars "t_args".toList = some (argument A N env.t t)
  factorial : vars "factorial".toList = some (.imported [.word "math".toList] "factorial".toList)

/-- the sum can be computed -/
structure GoodSum (A N n : Nat) (env : Caller) (h t : Nat × Nat → Arr R) (g : String × List Einsum) : Prop where
  pref : ∃ p, renderPyPrefactor p = g.1
  ne : g.2 ≠ []
  runs : ∀ e ∈ g.2, Runs A N n h t e
  keys : ∀ e ∈ g.2, env.h e.h = true ∧ ∀ k ∈ e.ts, env.t k = true

section
variable {A N n i : Nat} {env : Caller} {h t : Nat × Nat → Arr R} {vars : List Char → Option (Val R)}

theorem eval_h (sc : Scope A N env h t i vars) {k : Nat × Nat} (hk : env.h k = true) (heap : List (NArr R)) :
    eval ⟨vars, heap⟩ (operandExpr ⟨"h_args", k.1, k.2⟩) = .ok (.arr (arrOf A N h k)) := by
  have hn : number "h_args".toList = Option.none := number_none (by decide)
  simp only [operandExpr, eval, evalList, hn, sc.h_args, number_nat, Except.map]
  simp [getIndex, argument, hk, arrOf]

theorem eval_t (sc : Scope A N env h t i vars) {k : Nat × Nat} (hk : env.t k = true) (heap : List (NArr R)) :
    eval ⟨vars, heap⟩ (operandExpr ⟨"t_args", k.1, k.2⟩) = .ok (.arr (arrOf A N t k)) := by
  have hn : number "t_args".toList = Option.none := number_none (by decide)
  simp only [operandExpr, eval, evalList, hn, sc.t_args, number_nat, Except.map]
  simp [getIndex, argument, hk, arrOf]

theorem evalList_ts (sc : Scope A N env h t i vars) (heap : List (NArr R)) : ∀ {l : List (Nat × Nat)}, (∀ k ∈ l, env.t k = true) →
    evalList ⟨vars, heap⟩ ((l.map fun k => (⟨"t_args", k.1, k.2⟩ : ETPy.Operand)).map operandExpr) = .ok ((l.map (arrOf A N t)).map .arr)
  | [], _ => rfl
  | k :: l, hk => by
    rw [List.map_cons, List.map_cons, evalList, eval_t sc (hk k (by simp)), evalList_ts sc heap fun k hk' => hk k (by simp [hk'])]
    rfl

theorem eval_item (sc : Scope A N env h t i vars) (heap : List (NArr R)) {e : Einsum} (hr : Runs A N n h t e) (hk : env.h e.h = true ∧ ∀ k ∈ e.ts, env.t k = true) :
    eval ⟨vars, heap⟩ (einsumReading.expr e) = .ok (.arr ⟨A :: A :: List.replicate n N, itemValue A N h t e⟩) := by
  unfold Runs at hr
  have h1 : evalList ⟨vars, heap⟩ (e.plain.operands.map operandExpr) = .ok ((arrOf A N h e.h :: e.ts.map (arrOf A N t)).map .arr) := by
    show evalList ⟨vars, heap⟩ (operandExpr ⟨"h_args", e.h.1, e.h.2⟩ :: (e.ts.map fun k => (⟨"t_args", k.1, k.2⟩ : ETPy.Operand)).map operandExpr) = _
    rw [evalList, eval_h sc hk.1, evalList_ts sc heap hk.2]
    rfl
  show eval ⟨vars, heap⟩ (einsumExpr e.plain) = _
  simp only [einsumExpr, eval, evalList, h1, Except.map, if_true, callBuiltin, arrays_arr, Except.bind, hr]

theorem addAll_items (sc : Scope A N env h t i vars) (heap : List (NArr R)) : ∀ {l : List Einsum} {y : Arr R}, (∀ e ∈ l, Runs A N n h t e) →
    (∀ e ∈ l, env.h e.h = true ∧ ∀ k ∈ e.ts, env.t k = true) →
    addAll ⟨vars, heap⟩ (.arr ⟨A :: A :: List.replicate n N, y⟩) (l.map fun e => (false, einsumReading.expr e)) =
      .ok (.arr ⟨A :: A :: List.replicate n N, fun v => y v + (l.map fun e => itemValue A N h t e v).sum⟩)
  | [], y, _, _ => by simp [addAll]
  | e :: l, y, hr, hk => by
    simp only [List.map_cons, addAll, eval_item sc heap (hr e (by simp)) (hk e (by simp)), addVal, array, NArr.add, Except.map, if_true, Bool.false_eq_true, if_false]
    rw [addAll_items sc heap (fun x hx => hr x (by simp [hx])) fun x hx => hk x (by simp [hx])]
    simp [add_assoc]

theorem eval_items (sc : Scope A N env h t i vars) (heap : List (NArr R)) {l : List Einsum} (hne : l ≠ []) (hr : ∀ e ∈ l, Runs A N n h t e)
    (hk : ∀ e ∈ l, env.h e.h = true ∧ ∀ k ∈ e.ts, env.t k = true) :
    eval ⟨vars, heap⟩ (einsumReading.sumExpr l) = .ok (.arr ⟨A :: A :: List.replicate n N, fun v => (l.map fun e => itemValue A N h t e v).sum⟩) := by
  match l, hne with
  | [e], _ =>
    have : einsumReading.sumExpr [e] = einsumReading.expr e := rfl
    rw [this, eval_item sc heap (hr e (by simp)) (hk e (by simp))]
    simp
  | e :: e' :: l, _ =>
    have : einsumReading.sumExpr (e :: e' :: l) = .sum ((false, einsumReading.expr e) :: (e' :: l).map fun e => (false, einsumReading.expr e)) := rfl
    rw [this, eval, evalSum, eval_item sc heap (hr e (by simp)) (hk e (by simp))]
    simp only
    rw [addAll_items sc heap (fun x hx => hr x (List.mem_cons_of_mem _ hx)) fun x hx => hk x (List.mem_cons_of_mem _ hx)]
    simp

theorem eval_factors (sc : Scope A N env h t i vars) (heap : List (NArr R)) (l : List Nat) : eval ⟨vars, heap⟩ (factorsExpr l) = .ok (.num ((l.map Nat.factorial).prod : Nat)) := by
  unfold factorsExpr
  split
  · rename_i hl
    subst hl
    have : number "1".toList = some 1 := by
      exact (number_nat 1).trans (by norm_num)
    simp only [nameExpr, eval, this]
    simp
  · rename_i hl
    exact W.eval_denom sc.factorial heap hl

theorem eval_group (sc : Scope A N env h t i vars) (heap : List (NArr R)) {g : String × List Einsum} (hg : GoodSum A N n env h t g) :
    eval ⟨vars, heap⟩ (groupExpr einsumReading g) = .ok (.arr ⟨A :: A :: List.replicate n N, addedValue A N h t (.sum g.1 g.2)⟩) := by
  show _ = Except.ok (Val.arr ⟨A :: A :: List.replicate n N, fun v => textValue g.1 • (g.2.map fun e => itemValue A N h t e v).sum⟩)
  unfold groupExpr
  have hs := eval_items sc heap hg.ne hg.runs hg.keys
  split
  · rename_i h1
    have : textValue g.1 = 1 := textValue_eq (.inl ⟨h1, rfl⟩)
    rw [hs, this]
    simp
  · have hv : textValue g.1 = prefValue (prefOf g.1) := by
      rw [← textValue_eq (means_render (prefOf g.1)), prefOf_render hg.pref]
    rw [hv, eval, evalProd, eval_factors sc heap]
    have hz : (((((prefOf g.1).2).map Nat.factorial).prod : Nat) : Rat) ≠ 0 := W.facts_ne _
    simp only [mulAll, eval_factors sc heap, hs, mulVal, array, Bool.false_eq_true, if_false, if_true, if_neg hz]
    rfl

variable {fs : Functions R}

theorem adds_group (sc : Scope A N env h t i vars) {g : String × List Einsum} (hg : GoodSum A N n env h t g) :
    Adds fs vars i (A :: A :: List.replicate n N) [groupAst einsumReading g] (addedValue A N h t (.sum g.1 g.2)) := by
  intro heap x hx
  rw [execAll, groupAst, exec]
  simp only [sc.tensor, eval_group sc heap hg, hx, array, NArr.add, if_true, execAll]

theorem adds_plus (sc : Scope A N env h t i vars) {a : Nat × Nat} (ha : a.1 + a.2 = n) (hk : env.h a = true) :
    Adds fs vars i (A :: A :: List.replicate n N) [plusAst a] (addedValue A N h t (.h a)) := by
  intro heap x hx
  subst ha
  rw [execAll, plusAst, exec]
  simp only [sc.tensor, eval_h sc hk heap, hx, array, NArr.add, if_true, execAll, arrOf]
  rfl

theorem returned_append (A N : Nat) (h t : Nat × Nat → Arr R) (a b : List (Added Einsum)) :
    returned A N h t (a ++ b) = fun v => returned A N h t a v + returned A N h t b v := by
  funext v
  simp [returned]

theorem returned_nil (A N : Nat) (h t : Nat × Nat → Arr R) : returned A N h t [] = fun _ => 0 := by
  funext v
  simp [returned]

theorem Adds.maps {α : Type} {S : List Nat} {l : List α} {f : α → Spec.Source.Stmt} {g : α → List (Added Einsum)}
    (hl : ∀ a ∈ l, Adds fs vars i S [f a] (returned A N h t (g a))) : Adds fs vars i S (l.map f) (returned A N h t (l.flatMap g)) := by
  induction l with
  | nil => exact Adds.nil.cast (returned_nil A N h t).symm
  | cons a l ih =>
    rw [List.map_cons, List.flatMap_cons]
    exact ((hl a (by simp)).append (ih fun b hb => hl b (by simp [hb]))).cast (returned_append A N h t _ _).symm

theorem Adds.gated {S : List Nat} {c : Expr} {b : Bool} {body : List Spec.Source.Stmt} {r : List (Added Einsum)} (hc : ∀ heap, eval ⟨vars, heap⟩ c = .ok (.bool b))
    (hb : Adds fs vars i S body (returned A N h t r)) : Adds fs vars i S [.cond c body []] (returned A N h t (if b = true then r else [])) := by
  refine (hb.gate hc).cast ?_
  cases b
  · exact (returned_nil A N h t).symm
  · rfl

theorem eval_gate (sc : Scope A N env h t i vars) {x : String} {b : Bool} (hx : (attributes env).lookup x = some b) (heap : List (NArr R)) :
    eval ⟨vars, heap⟩ (gate x) = .ok (.bool b) := by
  have hn : number "truncation".toList = Option.none := number_none (by decide)
  simp only [gate, eval, hn, sc.truncation, CCCall.truncation, String.ofList_toList, hx]

theorem attr_t {j : Nat} (hj : 1 ≤ j ∧ j ≤ 6) : (attributes env).lookup (taylorTag.getD j "") = some (env.fl.t j) := by
  obtain ⟨h1, h2⟩ := hj
  interval_cases j <;> rfl

theorem attr_h {j : Nat} (hj : 1 ≤ j ∧ j ≤ 5) : (attributes env).lookup ("at_least_" ++ hamiltonianTag.getD j "") = some (env.fl.h j) := by
  obtain ⟨h1, h2⟩ := hj
  interval_cases j <;> rfl

/-- a sum as an addition -/
def sumOf (g : String × List Einsum) : Added Einsum := .sum g.1 g.2

theorem adds_groups (sc : Scope A N env h t i vars) {l : List (String × List Einsum)} (hl : ∀ g ∈ l, GoodSum A N n env h t g) :
    Adds fs vars i (A :: A :: List.replicate n N) (l.map (groupAst einsumReading)) (returned A N h t (l.map sumOf)) := by
  have := Adds.maps (A := A) (N := N) (h := h) (t := t) (l := l) (f := groupAst einsumReading) (g := fun g => [sumOf g]) fun g hg =>
    (adds_group (fs := fs) sc (hl g hg)).cast (by funext v; simp [returned, sumOf])
  rwa [← List.map_eq_flatMap] at this

theorem adds_c (sc : Scope A N env h t i vars) {c : CBlock Einsum} (hc : GoodC (GoodSum A N n env h t) c) :
    Adds fs vars i (A :: A :: List.replicate n N) [cAst (groupAst einsumReading) c] (returned A N h t ((if env.fl.t c.j = true then c.groups else []).map sumOf)) := by
  refine (Adds.gated (eval_gate sc (attr_t hc.j)) (adds_groups sc hc.groups)).cast ?_
  congr 1
  split <;> rfl

theorem adds_cs (sc : Scope A N env h t i vars) {l : List (CBlock Einsum)} (hl : ∀ c ∈ l, GoodC (GoodSum A N n env h t) c) :
    Adds fs vars i (A :: A :: List.replicate n N) (l.map (cAst (groupAst einsumReading))) (returned A N h t ((runC env.fl l).map sumOf)) := by
  have := Adds.maps (fs := fs) fun c hc => adds_c sc (hl c hc)
  refine this.cast ?_
  unfold runC
  rw [List.map_flatMap]

theorem adds_hb (sc : Scope A N env h t i vars) {b : HBlock Einsum} (hb : GoodH (GoodSum A N n env h t) b) :
    Adds fs vars i (A :: A :: List.replicate n N) [hAst (groupAst einsumReading) b]
      (returned A N h t ((if env.fl.h b.i = true then b.groups ++ runC env.fl b.cblocks else []).map sumOf)) := by
  have hbody := (adds_groups (fs := fs) sc hb.groups).append (adds_cs sc hb.cblocks)
  refine (Adds.gated (A := A) (N := N) (h := h) (t := t) (r := (b.groups ++ runC env.fl b.cblocks).map sumOf) (eval_gate sc (attr_h hb.i)) (hbody.cast ?_)).cast ?_
  · rw [List.map_append, returned_append]
  · congr 1
    split <;> rfl

theorem adds_program (sc : Scope A N env h t i vars) {p : Program Einsum} (hp : GoodProgram (GoodSum A N n env h t) p)
    (ha : ∀ a ∈ p.adds, a.1 + a.2 = n ∧ env.h a = true) :
    Adds fs vars i (A :: A :: List.replicate n N) (progAst (groupAst einsumReading) p) (returned A N h t (addsOf env.fl p)) := by
  have h0 : Adds fs vars i (A :: A :: List.replicate n N) (p.adds.map plusAst) (returned A N h t (p.adds.map Added.h)) := by
    have := Adds.maps (A := A) (N := N) (h := h) (t := t) (l := p.adds) (f := plusAst) (g := fun a => [.h a]) fun a hx =>
      (adds_plus (fs := fs) sc (ha a hx).1 (ha a hx).2).cast (by funext v; simp [returned])
    rwa [← List.map_eq_flatMap] at this
  have h3 : Adds fs vars i (A :: A :: List.replicate n N) (p.hblocks.map (hAst (groupAst einsumReading)))
      (returned A N h t ((p.hblocks.flatMap fun b => if env.fl.h b.i = true then b.groups ++ runC env.fl b.cblocks else []).map sumOf)) := by
    have := Adds.maps (fs := fs) fun b hb => adds_hb sc (hp.hblocks b hb)
    refine this.cast ?_
    rw [List.map_flatMap]
  have hall : Adds fs vars i (A :: A :: List.replicate n N) (stmtsOf (groupAst einsumReading) p) (returned A N h t (addsOf env.fl p)) := by
    refine (((h0.append (adds_groups sc hp.groups)).append (adds_cs sc hp.cblocks)).append h3).cast ?_
    unfold addsOf Spec.run
    show _ = returned A N h t (p.adds.map Added.h ++ List.map sumOf _)
    simp only [List.map_append, returned_append, add_assoc]
  unfold progAst
  split
  · rename_i he
    have he' : stmtsOf (groupAst einsumReading) p = [] := by simpa using he
    intro heap x hx
    have h1 := hall heap x hx
    rw [he'] at h1
    have h2 := Adds.pass (fs := fs) (vars := vars) heap x hx
    rw [h2, ← h1, ← Adds.nil (fs := fs) (vars := vars) heap x hx]
  · exact hall

end

end TF.CC
