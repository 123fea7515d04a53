import Verif.Lemmas.ETSourceGood
import Verif.Lemmas.SourceRun
import Verif.Spec.ETCall

/-!
# Running the text of a generated e^T module
-/

namespace TF.ETPy

open TF.Py TF.Spec.ETPy TF.Spec.ETRun TF.Spec.Tensor TF.Tensor TF.Spec.PyRun TF.Spec.ETCall
open TF.Spec.Source (Expr isWord isWord_ne Word)
open TF.CC (Op HOp summationIdx unlinkedIdx hamiltonianTag taylorTag)
open TF.ET (Mode)

variable {R : Type} [CommRing R] [Algebra Rat R]

/-! ## One product -/

/-- the axis of a letter -/
def axisOf (A N : Nat) (e : Einsum) : Char → Nat :=
  TF.Spec.ETValue.axis A N (List.zipWith (fun (o : Operand) s => (TF.Spec.ETValue.electronic o.name, s)) e.operands e.subs)

theorem axis_codeOf (A N : Nat) (mode : Mode) (P k : Nat) (h : HOp) (z : Op) (j hl : Nat) (c : Char) :
    axisOf A N (codeOf mode P k h z j hl) c = if c = 'c' ∨ (mode = .rhs ∧ c = 'a') then A else N := by
  unfold axisOf TF.Spec.ETValue.axis
  have : c ∈ (List.zipWith (fun (o : Operand) s => (TF.Spec.ETValue.electronic o.name, s)) (codeOf mode P k h z j hl).operands
    (codeOf mode P k h z j hl).subs).flatMap (fun o => o.2.take o.1) ↔ (c = 'c' ∨ (mode = .rhs ∧ c = 'a')) := by
    simp only [codeOf]
    rw [zipWith_same, List.mem_flatMap]
    simp only [List.mem_map]
    constructor
    · rintro ⟨_, ⟨p, hp, rfl⟩, hc⟩
      rw [take_electronic mode h z _ p hp] at hc
      cases mode <;> cases p <;> simp [elec] at hc ⊢ <;> tauto
    · intro hc
      have hzm : (.z : Pl k) ∈ factors mode k h := mem_factors.2 (.inr (.inr rfl))
      rcases hc with rfl | ⟨hm, rfl⟩
      · refine ⟨_, ⟨.z, hzm, rfl⟩, ?_⟩
        rw [take_electronic mode h z _ _ hzm]
        simp [elec]
      · subst hm
        have hhm : (.h : Pl k) ∈ factors .rhs k h := mem_factors.2 (.inr (.inl ⟨rfl, by simp [onZ]⟩))
        refine ⟨_, ⟨.h, hhm, rfl⟩, ?_⟩
        rw [take_electronic .rhs h z _ _ hhm]
        simp [elec]
  simp only [this]

/-- the array of an operand -/
def arrOf (A N : Nat) (args : String → Nat × Nat → Arr R) (o : Operand) : NArr R :=
  ⟨List.replicate (TF.Spec.ETValue.electronic o.name) A ++ List.replicate (o.m + o.n) N, args o.name (o.m, o.n)⟩

/-- the product is computed -/
def Runs (A N n : Nat) (args : String → Nat × Nat → Arr R) (e : Einsum) : Prop :=
  Spec.PyRun.einsum e.text (e.operands.map (arrOf A N args)) = .ok ⟨A :: List.replicate n N, TF.Spec.ETValue.einsum A N args e⟩

omit [Algebra Rat R] in
theorem runs_codeOf {mode : Mode} {lhs : Op} (hl0 : lhs.m = 0) {k : Nat} {h : HOp} {z : Op} (hz : z.n = 0) {j hl zl : Nat}
    (n : Nums lhs.n k h.m h.n z.m j hl zl) (cap : k + h.n ≤ 10) (capN : lhs.n ≤ 8) (A N : Nat) (args : String → Nat × Nat → Arr R) :
    Runs A N lhs.n args (codeOf mode lhs.n k h z j hl) := by
  have hr := readsAs_codeOf (mode := mode) hl0 hz n cap capN
  have n1 := n.le
  have n2 := n.onH
  have n4 := n.onN
  have hax := axis_codeOf A N mode lhs.n k h z j hl
  have hlab : ∀ p : Pl k, ∀ x ∈ labOf lhs.n k h.n j hl p, axisOf A N (codeOf mode lhs.n k h z j hl) x = N := by
    intro p x hx
    have := hr.vibrational p x hx
    rw [hax, if_neg]
    rintro (h | ⟨_, h⟩)
    · exact this.2 h
    · exact this.1 h
  have hfits : Fits (axisOf A N (codeOf mode lhs.n k h z j hl)) (codeOf mode lhs.n k h z j hl).subs ((codeOf mode lhs.n k h z j hl).operands.map (arrOf A N args)) := by
    unfold Fits
    simp only [codeOf, List.map_map]
    rw [List.forall₂_map_left_iff, List.forall₂_map_right_iff, List.forall₂_same]
    intro p hp
    have e1 : (arrOf A N args (operand mode h z p)).shape = List.replicate (TF.Spec.ETValue.electronic (operand mode h z p).name) A ++
      List.replicate ((operand mode h z p).m + (operand mode h z p).n) N := rfl
    show (arrOf A N args (operand mode h z p)).shape = (elec mode p ++ labOf lhs.n k h.n j hl p).map (axisOf A N (codeOf mode lhs.n k h z j hl))
    rw [e1, List.map_append, map_const (hlab p), hr.length p]
    have hel : (elec mode p).map (axisOf A N (codeOf mode lhs.n k h z j hl)) = List.replicate (TF.Spec.ETValue.electronic (operand mode h z p).name) A := by
      rcases mem_factors.1 hp with ⟨i, rfl, _⟩ | ⟨rfl, _⟩ | rfl
      · cases mode <;> rfl
      · cases mode
        · simp [elec, operand, TF.Spec.ETValue.electronic, hax]
        · rfl
      · by_cases ho : onZ mode h <;> simp [elec, operand, TF.Spec.ETValue.electronic, hax, ho]
    rw [hel]
    congr 2
    rcases mem_factors.1 hp with ⟨i, rfl, hk⟩ | ⟨rfl, _⟩ | rfl
    · have := TF.ET.getElem_uniform (TF.ET.uniform_self k) i
      simp only [operand, TF.Spec.ET.creators, TF.Spec.ET.annihilators, this.2.1, this.2.2, TF.ET.rankOf, if_neg hk]
    · rfl
    · rfl
  have hclean : ∀ s ∈ (codeOf mode lhs.n k h z j hl).subs, ' ' ∉ s ∧ ',' ∉ s ∧ '-' ∉ s := by
    intro s hs
    have hw := (goodCode_codeOf mode lhs.n k h z j hl).letters s hs
    exact ⟨fun hc => isWord_ne (hw _ hc) (x := ' ') rfl rfl, fun hc => isWord_ne (hw _ hc) (x := ',') rfl rfl, fun hc => isWord_ne (hw _ hc) (x := '-') rfl rfl⟩
  have hout : ' ' ∉ (codeOf mode lhs.n k h z j hl).out := fun hc => isWord_ne ((goodCode_codeOf mode lhs.n k h z j hl).out _ hc) (x := ' ') rfl rfl
  have hne : (codeOf mode lhs.n k h z j hl).subs ≠ [] := by
    intro e
    have := congrArg List.length e
    simp only [codeOf, List.length_map, length_factors, List.length_nil] at this
    omega
  have hnd : (codeOf mode lhs.n k h z j hl).out.Nodup := by
    rw [hr.out, List.nodup_append]
    refine ⟨by cases mode <;> simp [elec], hr.nodup _, ?_⟩
    rintro a ha b hb rfl
    have := hr.vibrational _ a hb
    cases mode <;> simp [elec] at ha <;> tauto
  have hin : ∀ c ∈ (codeOf mode lhs.n k h z j hl).out, c ∈ (codeOf mode lhs.n k h z j hl).subs.flatten := by
    intro c hc
    rw [hr.out] at hc
    rw [hr.subs, List.mem_flatten]
    have hzm : (.z : Pl k) ∈ factors mode k h := mem_factors.2 (.inr (.inr rfl))
    rcases List.mem_append.1 hc with hc | hc
    · cases mode with
      | rhs =>
        have hhm : (.h : Pl k) ∈ factors .rhs k h := mem_factors.2 (.inr (.inl ⟨rfl, by simp [onZ]⟩))
        refine ⟨_, List.mem_map.2 ⟨.h, hhm, rfl⟩, ?_⟩
        simp only [elec, List.mem_singleton] at hc
        subst hc
        simp [elec]
      | lhs =>
        refine ⟨_, List.mem_map.2 ⟨.z, hzm, rfl⟩, ?_⟩
        simp only [elec, List.mem_singleton] at hc
        subst hc
        simp [elec]
    · obtain ⟨i, _, hi2, hi⟩ := mem_at'.1 hc
      obtain ⟨o1, o2, o3, o4⟩ := onU n hi
      by_cases hlt : i < hl
      · have hh : ¬ onZ mode h := by
          rintro ⟨_, h1, _⟩
          omega
        exact ⟨_, List.mem_map.2 ⟨.h, mem_factors.2 (.inr (.inl ⟨rfl, hh⟩)), rfl⟩, List.mem_append.2 (.inr (o3.2 hlt))⟩
      · exact ⟨_, List.mem_map.2 ⟨.z, hzm, rfl⟩, List.mem_append.2 (.inr (o4.2 (by omega)))⟩
  have := einsum_ok hne hclean hout hfits hnd hin
  unfold Runs
  rw [text_eq]
  refine this.trans ?_
  have hshape : (codeOf mode lhs.n k h z j hl).out.map (axisOf A N (codeOf mode lhs.n k h z j hl)) = A :: List.replicate lhs.n N := by
    rw [hr.out, List.map_append, map_const (hlab .lhs), hr.length]
    simp only [TF.Spec.ET.creators, TF.Spec.ET.annihilators, hl0, Nat.zero_add]
    cases mode <;> simp [elec, hax]
  rw [hshape]
  congr 2
  funext v
  unfold TF.Spec.ETValue.einsum
  refine congrArg (sumOver _ _ _) ?_
  funext σ
  rw [List.zipWith_map_left]
  rfl

/-! ## Statements -/

/-- the variables of a function with terms -/
structure Scope (mode : Mode) (A N : Nat) (env : Caller) (args : String → Nat × Nat → Arr R) (i : Nat) (vars : List Char → Option (Val R)) : Prop where
  tensor : vars (tensor mode) = some (.ref i)
  ansatz : vars "ansatz".toList = some (ansatz env)
  truncation : vars "truncation".toList = some (truncation env)
  args : ∀ name ∈ argNames mode, vars name.toList = some (argument A N env args name)

theorem number_arg {mode : Mode} {name : String} (h : name ∈ argNames mode) : number name.toList = Option.none := by
  cases mode <;> simp only [argNames, List.mem_cons, List.not_mem_nil, or_false] at h
  · rcases h with rfl | rfl | rfl <;> exact number_none (by decide)
  · rcases h with rfl | rfl | rfl | rfl <;> exact number_none (by decide)

section
variable {mode : Mode} {A N n i : Nat} {env : Caller} {args : String → Nat × Nat → Arr R} {vars : List Char → Option (Val R)}

theorem eval_operand (sc : Scope mode A N env args i vars) {o : Operand} (ho : o.name ∈ argNames mode) (hh : env.has o.name (o.m, o.n) = true)
    (heap : List (NArr R)) : eval ⟨vars, heap⟩ (operandExpr o) = .ok (.arr (arrOf A N args o)) := by
  simp only [operandExpr, eval, evalList, number_arg ho, sc.args _ ho, number_nat, Except.map]
  simp [getIndex, argument, hh, arrOf]

theorem evalList_operands (sc : Scope mode A N env args i vars) (heap : List (NArr R)) : ∀ {l : List Operand},
    (∀ o ∈ l, o.name ∈ argNames mode ∧ env.has o.name (o.m, o.n) = true) →
    evalList ⟨vars, heap⟩ (l.map operandExpr) = .ok ((l.map (arrOf A N args)).map .arr)
  | [], _ => rfl
  | o :: l, h => by
    rw [List.map_cons, evalList, eval_operand sc (h o (by simp)).1 (h o (by simp)).2, evalList_operands sc heap fun o ho => h o (by simp [ho])]
    rfl

/-- the products of the statements can be computed -/
structure Good (mode : Mode) (A N n : Nat) (env : Caller) (args : String → Nat × Nat → Arr R) (e : Einsum) : Prop where
  runs : Runs A N n args e
  ops : ∀ o ∈ e.operands, o.name ∈ argNames mode ∧ env.has o.name (o.m, o.n) = true

theorem eval_einsum (sc : Scope mode A N env args i vars) (heap : List (NArr R)) {e : Einsum} (h : Good mode A N n env args e) :
    eval ⟨vars, heap⟩ (einsumExpr e) = .ok (.arr ⟨A :: List.replicate n N, TF.Spec.ETValue.einsum A N args e⟩) := by
  have h1 := h.runs
  unfold Runs at h1
  simp only [einsumExpr, eval, evalList, evalList_operands sc heap h.ops, Except.map, if_true, callBuiltin, arrays_arr, Except.bind, h1]

theorem addAll_codes (sc : Scope mode A N env args i vars) (heap : List (NArr R)) : ∀ {cs : List Einsum} {y : Arr R}, (∀ c ∈ cs, Good mode A N n env args c) →
    addAll ⟨vars, heap⟩ (.arr ⟨A :: List.replicate n N, y⟩) (cs.map fun c => (false, einsumExpr c)) =
      .ok (.arr ⟨A :: List.replicate n N, fun v => y v + (cs.map fun c => TF.Spec.ETValue.einsum A N args c v).sum⟩)
  | [], y, _ => by simp [addAll]
  | c :: cs, y, h => by
    simp only [List.map_cons, addAll, eval_einsum sc heap (h c (by simp)), addVal, array, NArr.add, Except.map, if_true, Bool.false_eq_true, if_false]
    rw [addAll_codes sc heap fun c hc => h c (by simp [hc])]
    simp [add_assoc]

theorem eval_codes (sc : Scope mode A N env args i vars) (heap : List (NArr R)) {cs : List Einsum} (hne : cs ≠ []) (h : ∀ c ∈ cs, Good mode A N n env args c) :
    eval ⟨vars, heap⟩ (codesExpr cs) = .ok (.arr ⟨A :: List.replicate n N, fun v => (cs.map fun c => TF.Spec.ETValue.einsum A N args c v).sum⟩) := by
  match cs, hne with
  | [c], _ =>
    have := eval_einsum sc heap (h c (by simp))
    simpa [codesExpr, Spec.Source.one] using this
  | c :: d :: cs, _ =>
    have e : codesExpr (c :: d :: cs) = .sum ((false, einsumExpr c) :: (d :: cs).map fun c => (false, einsumExpr c)) := rfl
    rw [e, eval, evalSum, eval_einsum sc heap (h c (by simp))]
    simp only
    rw [addAll_codes sc heap fun x hx => h x (by simp [List.mem_cons.1 hx])]
    simp

theorem eval_pref (heap : List (NArr R)) {q : Rat} (h : 0 ≤ q.num) : eval ⟨vars, heap⟩ (prefExpr q) = .ok (.num q) := by
  have hd : (q.den : Rat) ≠ 0 := by exact_mod_cast q.den_ne_zero
  simp only [prefExpr, eval, evalProd, mulAll, number_nat, mulVal, if_true, if_neg hd]
  congr 2
  have hn : ((q.num.toNat : Nat) : Rat) = (q.num : Rat) := by
    have : ((q.num.toNat : Nat) : Int) = q.num := Int.toNat_of_nonneg h
    exact_mod_cast congrArg (Int.cast : Int → Rat) this
  rw [hn]
  exact Rat.num_div_den q

theorem eval_stmt (sc : Scope mode A N env args i vars) (heap : List (NArr R)) {s : Stmt} (hq : 0 ≤ s.pref.num) (hne : s.codes ≠ [])
    (h : ∀ c ∈ s.codes, Good mode A N n env args c) :
    eval ⟨vars, heap⟩ (stmtExpr s) = .ok (.arr ⟨A :: List.replicate n N, TF.Spec.ETValue.returned A N args (runStmts [s])⟩) := by
  have hret : TF.Spec.ETValue.returned A N args (runStmts [s]) = fun v => s.pref • (s.codes.map fun c => TF.Spec.ETValue.einsum A N args c v).sum := by
    funext v
    simp only [TF.Spec.ETValue.returned, runStmts, List.flatMap_cons, List.flatMap_nil, List.append_nil, List.map_map, Function.comp_def]
    rw [List.smul_sum, List.map_map]
    rfl
  rw [hret]
  unfold stmtExpr
  split
  · rename_i h1
    rw [eval_codes sc heap hne h]
    simp [h1]
  · rw [eval, evalProd, eval_pref heap hq]
    simp only [mulAll, eval_codes sc heap hne h, mulVal, array, Bool.false_eq_true, if_false]
    rfl

/-! ## Statements in a sequence -/

variable {fs : Functions R} {S : List Nat}

theorem adds_stmt (sc : Scope mode A N env args i vars) {s : Stmt} (hq : 0 ≤ s.pref.num) (hne : s.codes ≠ []) (h : ∀ c ∈ s.codes, Good mode A N n env args c) :
    Adds fs vars i (A :: List.replicate n N) [stmtAst mode s] (TF.Spec.ETValue.returned A N args (runStmts [s])) := by
  intro heap x hx
  rw [execAll, stmtAst, exec]
  simp only [sc.tensor, eval_stmt sc heap hq hne h, hx, array, NArr.add, if_true, execAll]

theorem returned_append (A N : Nat) (args : String → Nat × Nat → Arr R) (a b : List (Rat × Einsum)) :
    TF.Spec.ETValue.returned A N args (a ++ b) = fun v => TF.Spec.ETValue.returned A N args a v + TF.Spec.ETValue.returned A N args b v := by
  funext v
  simp [TF.Spec.ETValue.returned]

theorem returned_nil (A N : Nat) (args : String → Nat × Nat → Arr R) : TF.Spec.ETValue.returned A N args [] = fun _ => 0 := by
  funext v
  simp [TF.Spec.ETValue.returned]

theorem Adds.flatMap {α : Type} {l : List α} {f : α → List Spec.Source.Stmt} {g : α → List (Rat × Einsum)}
    (h : ∀ a ∈ l, Adds fs vars i S (f a) (TF.Spec.ETValue.returned A N args (g a))) :
    Adds fs vars i S (l.flatMap f) (TF.Spec.ETValue.returned A N args (l.flatMap g)) := by
  induction l with
  | nil => exact Adds.nil.cast (returned_nil A N args).symm
  | cons a l ih =>
    rw [List.flatMap_cons, List.flatMap_cons]
    exact ((h a (by simp)).append (ih fun b hb => h b (by simp [hb]))).cast (returned_append A N args _ _).symm

theorem Adds.gated {c : Expr} {b : Bool} {body : List Spec.Source.Stmt} {r : List (Rat × Einsum)} (hc : ∀ heap, eval ⟨vars, heap⟩ c = .ok (.bool b))
    (h : Adds fs vars i S body (TF.Spec.ETValue.returned A N args r)) :
    Adds fs vars i S [.cond c body []] (TF.Spec.ETValue.returned A N args (if b = true then r else [])) := by
  refine (h.gate hc).cast ?_
  cases b
  · exact (returned_nil A N args).symm
  · rfl

/-! ## Gates -/

theorem eval_gate (sc : Scope mode A N env args i vars) {x : String} {b : Bool} (h : (attributes env).lookup x = some b) (heap : List (NArr R)) :
    eval ⟨vars, heap⟩ (gate x) = .ok (.bool b) := by
  have hn : number "truncation".toList = Option.none := number_none (by decide)
  simp only [gate, eval, hn, sc.truncation, truncation, String.ofList_toList, h]

theorem attr_z {k : Nat} (h0 : k ≠ 0) (h6 : k < 6) : (attributes env).lookup (zTag k) = some (env.z k) := by
  interval_cases k
  · exact absurd rfl h0
  all_goals rfl

theorem attr_h {k : Nat} (h0 : k ≠ 0) (h6 : k < 6) : (attributes env).lookup (hTag k) = some (env.h k) := by
  interval_cases k
  · exact absurd rfl h0
  all_goals rfl

theorem attr_t {k : Nat} (h0 : k ≠ 0) (h6 : k < 7) : (attributes env).lookup (tTag k) = some (env.t k) := by
  interval_cases k
  · exact absurd rfl h0
  all_goals rfl

/-! ## Parts -/

/-- all products of the statements can be computed -/
def AllGood (mode : Mode) (A N n : Nat) (env : Caller) (args : String → Nat × Nat → Arr R) (l : List Entry) : Prop :=
  ∀ e ∈ l, GoodEntry e ∧ Good mode A N n env args e.code

theorem adds_z (sc : Scope mode A N env args i vars) {h t : Nat} {l : List ZBlock} (hl : AllGood mode A N n env args (Spec.ETPy.blocks h t l)) (hs : ∀ b ∈ l, ShapeZ b) :
    Adds fs vars i (A :: List.replicate n N) (zAst mode l) (TF.Spec.ETValue.returned A N args (runZ env l)) := by
  refine Adds.flatMap fun b hb => ?_
  have hmem : ∀ s ∈ b.stmts, ∀ c ∈ s.codes, GoodEntry ⟨h, t, b.z, s.pref, c⟩ ∧ Good mode A N n env args c := fun s h1 c h2 =>
    hl _ (List.mem_flatMap.2 ⟨b, hb, List.mem_flatMap.2 ⟨s, h1, List.mem_map.2 ⟨c, h2, rfl⟩⟩⟩)
  have hst : Adds fs vars i (A :: List.replicate n N) (b.stmts.map (stmtAst mode)) (TF.Spec.ETValue.returned A N args (runStmts b.stmts)) := by
    have := Adds.flatMap (fs := fs) (vars := vars) (i := i) (S := A :: List.replicate n N) (A := A) (N := N) (args := args) (l := b.stmts)
      (f := fun s => [stmtAst mode s]) (g := fun s => runStmts [s]) (by
        intro s h1
        have hne := (hs b hb).codes s h1
        obtain ⟨c, hc⟩ := List.exists_mem_of_ne_nil _ hne
        exact adds_stmt sc (hmem s h1 c hc).1.pref hne fun c hc => (hmem s h1 c hc).2)
    rw [← List.map_eq_flatMap] at this
    refine this.cast ?_
    congr 1
    simp [runStmts]
  by_cases h0 : b.z = 0
  · rw [if_pos h0, if_pos (.inl h0)]
    exact hst
  · rw [if_neg h0]
    have := Adds.gated (eval_gate sc (attr_z h0 (hs b hb).z)) hst
    simpa only [h0, false_or] using this

theorem adds_h (sc : Scope mode A N env args i vars) {b : HBlock} (ht0 : ∀ q ∈ b.ts, q.1 ≠ 0)
    (hl : AllGood mode A N n env args (Spec.ETPy.blocks b.h 0 b.zero ++ b.ts.flatMap fun p => Spec.ETPy.blocks b.h p.1 p.2)) (hs : ShapeH b) :
    Adds fs vars i (A :: List.replicate n N) (hAst mode b) (TF.Spec.ETValue.returned A N args (runH env b)) := by
  have hbody : Adds fs vars i (A :: List.replicate n N) (hBody mode b)
      (TF.Spec.ETValue.returned A N args (runZ env b.zero ++ b.ts.flatMap fun p => if env.t p.1 = true then runZ env p.2 else [])) := by
    unfold hBody
    rw [returned_append]
    refine (adds_z sc (fun e he => hl e (List.mem_append.2 (.inl he))) hs.zero).append ?_
    rw [List.map_eq_flatMap]
    refine Adds.flatMap fun p hp => ?_
    have h1 := hs.ts p hp
    exact Adds.gated (eval_gate sc (attr_t (ht0 p hp) h1.1)) (adds_z sc (fun e he => hl e (List.mem_append.2 (.inr (List.mem_flatMap.2 ⟨p, hp, he⟩)))) h1.2.2)
  unfold hAst runH
  by_cases h0 : b.h = 0
  · rw [if_pos h0, if_pos (.inl h0)]
    exact hbody
  · rw [if_neg h0]
    split
    · rename_i he
      have he' : hBody mode b = [] := by simpa using he
      have hz : b.zero = [] := by
        unfold hBody at he'
        rw [List.append_eq_nil_iff] at he'
        by_contra hne
        refine zAst_ne (mode := mode) ?_ hne he'.1
        exact goodZ_of (fun e he => (hl e (List.mem_append.2 (.inl he))).1) hs.zero
      have hts : b.ts = [] := by
        unfold hBody at he'
        rw [List.append_eq_nil_iff, List.map_eq_nil_iff] at he'
        exact he'.2
      rw [hz, hts]
      refine Adds.nil.cast ?_
      rw [show (runZ env [] ++ ([] : List (Nat × List ZBlock)).flatMap fun p => if env.t p.1 = true then runZ env p.2 else []) = [] from rfl]
      simp only [ite_self]
      exact (returned_nil A N args).symm
    · have := Adds.gated (eval_gate sc (attr_h h0 hs.h)) hbody
      simpa only [h0, false_or] using this

theorem adds_part (sc : Scope mode A N env args i vars) {p : Part} (ht0 : ∀ l, p = .code l → ∀ b ∈ l, ∀ q ∈ b.ts, q.1 ≠ 0)
    (hl : AllGood mode A N n env args (statements p)) (hs : ShapePart p) :
    Adds fs vars i (A :: List.replicate n N) (partAst mode p) (TF.Spec.ETValue.returned A N args (runPart env p)) := by
  cases p with
  | allInvalid => exact Adds.pass.cast (returned_nil A N args).symm
  | noTerms => exact Adds.pass.cast (returned_nil A N args).symm
  | code l =>
    exact Adds.flatMap fun b hb => adds_h sc (ht0 l rfl b hb) (fun e he => hl e (List.mem_flatMap.2 ⟨b, hb, he⟩)) (hs.1 b hb)

end

end TF.ETPy
