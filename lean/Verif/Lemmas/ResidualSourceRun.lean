import Verif.Lemmas.ResidualSource
import Verif.Spec.ResidualCall
import Verif.Props.Residual
import Verif.Spec.DtValue
import Mathlib.Tactic.NormNum

/-!
# Running the text of a generated residual module
-/

namespace TF.Residual

open TF.Py TF.Spec.Source TF.Spec.PyRun TF.Spec.Tensor TF.Spec.ResidualCall
open TF.Spec.Dt (lineValue residualValue)
open TF.Spec.Residual (runLine runLines runQuad runStmt runStmts runFn value)
open TF.W (orderTags modeTags)

variable {R : Type} [CommRing R] [Algebra Rat R]

/-! ## Lines -/

/-- the line is the one for a term of the Hamiltonian -/
def LineOk (k : Nat) (l : Line) : Prop := ∃ o : HOp, o.m + o.n ≤ 2 ∧ o.m ≤ k ∧ Spec.Residual.Adds k o l

/-- the variables of a function -/
structure Scope (A N k : Nat) (env : Spec.Residual.Env) (h : Nat × Nat → Arr R) (w : Nat → Arr R) (i : Nat) (vars : List Char → Option (Val R)) : Prop where
  R : vars "R".toList = some (.ref i)
  truncation : vars "truncation".toList = some (truncation env)
  h : ∀ m n, m + n ≤ 2 → vars (hString (m, n)).toList = some (.arr (tensor A N (m + n) (h (m, n))))
  w : ∀ j, 1 ≤ j → j ≤ k + 2 → vars (wString j).toList = some (wOperator A N env w j)

theorem number_h (o : Nat × Nat) : number (hString o).toList = Option.none := by
  unfold hString
  split_ifs <;> exact number_none (by decide)

theorem number_w (j : Nat) : number (wString j).toList = Option.none := by
  rw [wString_toList]
  exact number_none (by decide)

theorem eval_pref (vars : List Char → Option (Val R)) (heap : List (NArr R)) {p : PTerm} (h : value p ≠ 0) : eval ⟨vars, heap⟩ (prefAst p) = .ok (.num (value p)) := by
  cases p with
  | one =>
    have : number "1.0".toList = some 1 := by
      have : number "1.0".toList = some (((1 : Nat) : Rat) + ((0 : Nat) : Rat) / 10 ^ 1) := rfl
      rw [this]
      norm_num
    simp only [prefAst, nameExpr, eval, this, value]
  | half =>
    have : number "0.5".toList = some (1 / 2) := by
      have : number "0.5".toList = some (((0 : Nat) : Rat) + ((5 : Nat) : Rat) / 10 ^ 1) := rfl
      rw [this]
      norm_num
    simp only [prefAst, nameExpr, eval, this, value]
  | frac a b =>
    have hb : (b : Rat) ≠ 0 := by
      intro e
      exact h (by simp [value, e])
    simp only [prefAst, natWord, eval, evalProd, mulAll, number_nat, mulVal, if_true, if_neg hb, value]
  | twice a b =>
    have hb : (2 * b : Rat) ≠ 0 := by
      intro e
      exact h (by simp only [value, e, div_zero])
    have h2 : number "2".toList = some 2 := number_nat 2
    simp only [prefAst, natWord, nameExpr, eval, evalProd, mulAll, number_nat, h2, mulVal, if_true, Bool.false_eq_true, if_false, if_neg hb, value]

section
variable {A N k i : Nat} {env : Spec.Residual.Env} {h : Nat × Nat → Arr R} {w : Nat → Arr R} {vars : List Char → Option (Val R)}

theorem coefficient_ne (m n p : Nat) : Spec.Residual.coefficient m n p ≠ 0 := by
  unfold Spec.Residual.coefficient
  have : (m.factorial * n.factorial * (p - m).factorial : Nat) ≠ 0 := by positivity
  exact one_div_ne_zero (by exact_mod_cast this)

omit [Algebra Rat R] in
theorem einsum_line {ks is js : List Char} (hd : (['a', 'b', 'c'] ++ ks ++ is ++ js).Nodup) (hw : ∀ x ∈ ks ++ is ++ js, isWord x = true) (x y : Arr R) {n p q : Nat}
    (h1 : ks.length + is.length = n) (h2 : ks.length + js.length = p) (h3 : is.length + js.length = q) :
    Spec.PyRun.einsum (lettersText (['a', 'c'] ++ ks ++ is) (['c', 'b'] ++ ks ++ js) (['a', 'b'] ++ is ++ js)) [tensor A N n x, tensor A N p y] =
      .ok (tensor A N q (Spec.Tensor.einsum A N [(['a', 'c'] ++ ks ++ is, x), (['c', 'b'] ++ ks ++ js, y)] (['a', 'b'] ++ is ++ js))) := by
  have hax : ∀ c, axisLength A N [(['a', 'c'] ++ ks ++ is, x), (['c', 'b'] ++ ks ++ js, y)] c = if c = 'a' ∨ c = 'b' ∨ c = 'c' then A else N := by
    intro c
    unfold axisLength
    have : c ∈ [(['a', 'c'] ++ ks ++ is, x), (['c', 'b'] ++ ks ++ js, y)].flatMap (fun o => o.1.take 2) ↔ (c = 'a' ∨ c = 'b' ∨ c = 'c') := by
      simp
      tauto
    simp only [this]
  have hmap : ∀ l : List Char, (∀ c ∈ l, c ∈ ks ++ is ++ js) → l.map (axisLength A N [(['a', 'c'] ++ ks ++ is, x), (['c', 'b'] ++ ks ++ js, y)]) = List.replicate l.length N := by
    intro l hl
    refine map_const fun c hc => ?_
    rw [hax, if_neg]
    have hm := hl c hc
    rw [List.append_assoc, List.append_assoc, List.nodup_append] at hd
    rw [List.append_assoc] at hm
    rintro (rfl | rfl | rfl)
    · exact hd.2.2 'a' (by simp) _ hm rfl
    · exact hd.2.2 'b' (by simp) _ hm rfl
    · exact hd.2.2 'c' (by simp) _ hm rfl
  have mk : ∀ c ∈ ks, c ∈ ks ++ is ++ js := fun c hc => by simp [hc]
  have mi : ∀ c ∈ is, c ∈ ks ++ is ++ js := fun c hc => by simp [hc]
  have mj : ∀ c ∈ js, c ∈ ks ++ is ++ js := fun c hc => by simp [hc]
  have hfits : Fits (axisLength A N [(['a', 'c'] ++ ks ++ is, x), (['c', 'b'] ++ ks ++ js, y)]) [['a', 'c'] ++ ks ++ is, ['c', 'b'] ++ ks ++ js] [tensor A N n x, tensor A N p y] := by
    refine .cons ?_ (.cons ?_ .nil)
    · simp only [tensor, List.map_append, hmap ks mk, hmap is mi, List.map_cons, List.map_nil, hax]
      simp [← h1]
    · simp only [tensor, List.map_append, hmap ks mk, hmap js mj, List.map_cons, List.map_nil, hax]
      simp [← h2]
  have hword : ∀ l : List Char, (∀ c ∈ l, isWord c = true) → ' ' ∉ l ∧ ',' ∉ l ∧ '-' ∉ l := fun l hl =>
    ⟨fun hc => isWord_ne (hl _ hc) (x := ' ') rfl rfl, fun hc => isWord_ne (hl _ hc) (x := ',') rfl rfl, fun hc => isWord_ne (hl _ hc) (x := '-') rfl rfl⟩
  have hel : ∀ c ∈ ['a', 'b', 'c'], isWord c = true := by decide
  have hsub := subscripts_tight (subs := [['a', 'c'] ++ ks ++ is, ['c', 'b'] ++ ks ++ js]) (out := ['a', 'b'] ++ is ++ js) (by simp)
    (by
      intro s hs
      rcases List.mem_cons.1 hs with rfl | hs
      · refine hword _ fun c hc => ?_
        rcases List.mem_append.1 hc with hc | hc
        · rcases List.mem_append.1 hc with hc | hc
          · exact hel c (by simp at hc ⊢; tauto)
          · exact hw c (mk c hc)
        · exact hw c (mi c hc)
      · obtain rfl := List.mem_singleton.1 hs
        refine hword _ fun c hc => ?_
        rcases List.mem_append.1 hc with hc | hc
        · rcases List.mem_append.1 hc with hc | hc
          · exact hel c (by simp at hc ⊢; tauto)
          · exact hw c (mk c hc)
        · exact hw c (mj c hc))
    (by
      refine (hword _ fun c hc => ?_).1
      rcases List.mem_append.1 hc with hc | hc
      · rcases List.mem_append.1 hc with hc | hc
        · exact hel c (by simp at hc ⊢; tauto)
        · exact hw c (mi c hc)
      · exact hw c (mj c hc))
  have htext : [','].intercalate [['a', 'c'] ++ ks ++ is, ['c', 'b'] ++ ks ++ js] ++ ('-' :: '>' :: (['a', 'b'] ++ is ++ js)) =
      lettersText (['a', 'c'] ++ ks ++ is) (['c', 'b'] ++ ks ++ js) (['a', 'b'] ++ is ++ js) := by
    simp [lettersText]
  rw [htext] at hsub
  have hnd : (['a', 'b'] ++ is ++ js).Nodup := by
    refine List.Nodup.sublist ?_ hd
    refine List.Sublist.append (List.Sublist.append ?_ (List.Sublist.refl is)) (List.Sublist.refl js)
    exact List.Sublist.trans (show ['a', 'b'].Sublist ['a', 'b', 'c'] by decide) (List.sublist_append_left _ _)
  have := einsum_of hsub hfits hnd (by
    intro c hc
    simp only [List.mem_append, List.mem_cons, List.not_mem_nil, or_false] at hc
    simp only [List.flatten_cons, List.flatten_nil, List.mem_append, List.mem_cons, List.not_mem_nil, or_false]
    tauto)
  rw [this]
  have hshape : (['a', 'b'] ++ is ++ js).map (axisLength A N [(['a', 'c'] ++ ks ++ is, x), (['c', 'b'] ++ ks ++ js, y)]) = A :: A :: List.replicate q N := by
    simp only [List.map_append, hmap is mi, hmap js mj, List.map_cons, List.map_nil, hax]
    simp [← h3]
  rw [hshape]
  rfl

theorem eval_product (sc : Scope A N k env h w i vars) (heap : List (NArr R)) {l : Line} (hl : LineOk k l) (hg : GoodLetters l) (hr : runLine env l = .ok [l]) :
    eval ⟨vars, heap⟩ (lineExpr l) = .ok (.arr (tensor A N k (lineValue A N h w l))) := by
  obtain ⟨o, ho, hk, ha⟩ := hl
  have hp : value l.pref ≠ 0 := by rw [ha.coefficient]; exact coefficient_ne _ _ _
  have key : eval ⟨vars, heap⟩ (productAst l) = .ok (.arr (tensor A N k (match l.product with
    | none => h l.h
    | some (j, s1, s2, out) => Spec.Tensor.einsum A N [(s1, h l.h), (s2, w j)] out))) := by
    have hh := sc.h o.m o.n ho
    rw [← ha.op] at hh
    by_cases h0 : k - o.m + o.n = 0
    · have e := ha.alone h0
      unfold productAst
      rw [e]
      simp only [nameExpr, eval, number_h, hh]
      rw [show o.m + o.n = k by omega]
    · obtain ⟨ks, is, js, e, l1, l2, l3, hd⟩ := ha.product (by omega)
      have hpr : env.present (k - o.m + o.n) = true := by
        unfold runLine at hr
        rw [e] at hr
        simp only at hr
        by_contra hc
        rw [if_neg hc] at hr
        cases hr
      have hw := sc.w (k - o.m + o.n) (by omega) (by omega)
      rw [wOperator, if_pos hpr] at hw
      unfold productAst
      rw [e]
      have hle := hg _ _ _ _ e
      have hei := einsum_line (A := A) (N := N) hd (fun x hx => hle x (by simp at hx ⊢; tauto)) (h l.h) (w (k - o.m + o.n)) (n := o.m + o.n) (p := k - o.m + o.n) (q := k)
        (by omega) (by omega) (by omega)
      simp only [nameExpr, eval, evalList, number_h, number_w, hh, hw, Except.map, if_true, callBuiltin, arrays, array, Except.bind]
      rw [hei]
  rw [lineExpr, eval, evalProd, eval_pref vars heap hp]
  simp only [mulAll, key, mulVal, array, Bool.false_eq_true, if_false, NArr.smul, tensor]
  congr 3
  funext v
  unfold lineValue
  cases l.product <;> rfl

/-! ## Statements -/

variable {fs : Functions R}

theorem residualValue_nil (A N : Nat) (h : Nat × Nat → Arr R) (w : Nat → Arr R) : residualValue A N h w [] = fun _ => 0 := by
  funext v
  simp [residualValue]

theorem residualValue_append (A N : Nat) (h : Nat × Nat → Arr R) (w : Nat → Arr R) (a b : List Line) :
    residualValue A N h w (a ++ b) = fun v => residualValue A N h w a v + residualValue A N h w b v := by
  funext v
  simp [residualValue]

/-- the line can be read and executed -/
structure GoodLine (k : Nat) (l : Line) : Prop where
  ok : LineOk k l
  letters : GoodLetters l

theorem runLine_ok {l : Line} {ls : List Line} (h : runLine env l = .ok ls) : ls = [l] := by
  unfold runLine at h
  split at h
  · injection h with h
    exact h.symm
  · split_ifs at h
    injection h with h
    exact h.symm

theorem adds_line (sc : Scope A N k env h w i vars) {l : Line} (hl : GoodLine k l) {ls : List Line} (hr : runLine env l = .ok ls) :
    Adds fs vars i (A :: A :: List.replicate k N) [lineAst l] (residualValue A N h w ls) := by
  obtain rfl := runLine_ok hr
  have e : residualValue A N h w [l] = lineValue A N h w l := by
    funext v
    simp [residualValue]
  rw [e]
  intro heap x hx
  rw [Spec.PyRun.execAll, lineAst, exec]
  simp only [sc.R, eval_product sc heap hl.ok hl.letters hr, hx, array, NArr.add, tensor, if_true, Spec.PyRun.execAll]

theorem adds_lines (sc : Scope A N k env h w i vars) : ∀ {l ls : List Line}, (∀ x ∈ l, GoodLine k x) → runLines env l = .ok ls →
    Adds fs vars i (A :: A :: List.replicate k N) (l.map lineAst) (residualValue A N h w ls)
  | [], ls, _, hr => by
    cases hr
    exact Adds.nil.cast (residualValue_nil A N h w).symm
  | x :: l, ls, hg, hr => by
    unfold runLines at hr
    split at hr
    · cases hr
    · cases hr
    · rename_i a b h1 h2
      cases hr
      have := (adds_line (fs := fs) sc (hg x (by simp)) h1).append (adds_lines sc (fun y hy => hg y (by simp [hy])) h2)
      exact this.cast (residualValue_append A N h w a b).symm

theorem eval_present (sc : Scope A N k env h w i vars) {j : Nat} (h1 : 1 ≤ j) (h2 : j ≤ k + 2) (heap : List (NArr R)) :
    eval ⟨vars, heap⟩ (.notNone (nameExpr (wString j))) = .ok (.bool (env.present j)) := by
  simp only [nameExpr, eval, number_w, sc.w j h1 h2, wOperator]
  cases env.present j <;> rfl

/-- the guards name W operators that are known -/
def GuardsOk (k : Nat) (ls : List (Option Nat × Line)) : Prop := ∀ x ∈ ls, GoodLine k x.2 ∧ ∀ j, x.1 = some j → 1 ≤ j ∧ j ≤ k + 2

theorem adds_quad (sc : Scope A N k env h w i vars) : ∀ {ls : List (Option Nat × Line)} {prev : Option Bool} {r : List Line}, Paired ls → GuardsOk k ls → runQuad env prev ls = .ok r →
    Adds fs vars i (A :: A :: List.replicate k N) (quadAst ls) (residualValue A N h w r)
  | [], prev, r, _, _, hr => by
    unfold runQuad at hr
    cases hr
    exact Adds.nil.cast (residualValue_nil A N h w).symm
  | [(some j, l)], prev, r, _, hg, hr => by
    obtain ⟨g1, g2⟩ := hg _ (List.mem_singleton.2 rfl)
    obtain ⟨g3, g4⟩ := g2 j rfl
    unfold quadAst
    refine Adds.branch (eval_present sc g3 g4) ?_ ?_
    · intro hp
      simp only [runQuad, hp, if_true] at hr
      cases hx : runLine env l with
      | error e => rw [hx] at hr; cases hr
      | ok a =>
        rw [hx] at hr
        cases hr
        rw [List.append_nil]
        exact adds_line sc g1 hx
    · intro hp
      simp only [runQuad, hp, Bool.false_eq_true, if_false] at hr
      cases hr
      exact Adds.nil.cast (residualValue_nil A N h w).symm
  | (some j, l) :: (none, l') :: t, prev, r, hpd, hg, hr => by
    obtain ⟨g1, g2⟩ := hg (some j, l) (by simp)
    obtain ⟨g3, g4⟩ := g2 j rfl
    obtain ⟨g5, _⟩ := hg (none, l') (by simp)
    have hg' : GuardsOk k t := fun x hx => hg x (by simp [hx])
    have hpd' : Paired t := hpd
    have key : ∃ a b, r = a ++ b ∧ runQuad env none t = .ok b ∧ (if env.present j = true then runLine env l else runLine env l') = .ok a := by
      cases hp : env.present j with
      | true =>
        simp only [runQuad, hp, if_true] at hr ⊢
        cases hx : runLine env l with
        | error e => rw [hx] at hr; cases hr
        | ok a =>
          rw [hx] at hr
          cases hy : runQuad env none t with
          | error e => simp only [hy] at hr; cases hr
          | ok b =>
            simp only [hy] at hr
            cases hr
            exact ⟨a, b, rfl, rfl, rfl⟩
      | false =>
        simp only [runQuad, hp, Bool.false_eq_true, if_false] at hr ⊢
        cases hx : runLine env l' with
        | error e => rw [hx] at hr; cases hr
        | ok a =>
          rw [hx] at hr
          cases hy : runQuad env none t with
          | error e => simp only [hy] at hr; cases hr
          | ok b =>
            simp only [hy] at hr
            cases hr
            exact ⟨a, b, rfl, rfl, rfl⟩
    obtain ⟨a, b, rfl, hb, ha⟩ := key
    unfold quadAst
    refine (Adds.append (a := [_]) (Adds.branch (eval_present sc g3 g4) ?_ ?_) (adds_quad sc hpd' hg' hb)).cast (residualValue_append A N h w a b).symm
    · intro hp
      rw [if_pos hp] at ha
      exact adds_line sc g1 ha
    · intro hp
      rw [if_neg (by simp [hp])] at ha
      exact adds_line sc g5 ha
  | (some j, l) :: (some j', l') :: t, prev, r, hpd, hg, hr => by
    obtain ⟨g1, g2⟩ := hg (some j, l) (by simp)
    obtain ⟨g3, g4⟩ := g2 j rfl
    have hg' : GuardsOk k ((some j', l') :: t) := fun x hx => hg x (List.mem_cons_of_mem _ hx)
    have hpd' : Paired ((some j', l') :: t) := hpd
    have key : ∃ a b p, r = a ++ b ∧ runQuad env p ((some j', l') :: t) = .ok b ∧ (if env.present j = true then runLine env l else .ok []) = .ok a := by
      rw [runQuad] at hr
      cases hx : (if env.present j = true then runLine env l else .ok []) with
      | error e => simp only [hx] at hr; cases hr
      | ok a =>
        simp only [hx] at hr
        cases hy : runQuad env (some (env.present j)) ((some j', l') :: t) with
        | error e => simp only [hy] at hr; cases hr
        | ok b =>
          simp only [hy] at hr
          cases hr
          exact ⟨a, b, _, rfl, hy, rfl⟩
    obtain ⟨a, b, p, rfl, hb, ha⟩ := key
    rw [quadAst]
    refine (Adds.append (a := [_]) (Adds.branch (eval_present sc g3 g4) ?_ ?_) (adds_quad sc hpd' hg' hb)).cast (residualValue_append A N h w a b).symm
    · intro hp
      rw [if_pos hp] at ha
      exact adds_line sc g1 ha
    · intro hp
      rw [if_neg (by simp [hp])] at ha
      cases ha
      exact Adds.nil.cast (residualValue_nil A N h w).symm
  | (none, _) :: _, _, _, hpd, _, _ => absurd hpd (by simp [Paired])

theorem eval_quadratic (sc : Scope A N k env h w i vars) (heap : List (NArr R)) :
    eval ⟨vars, heap⟩ (.attr (nameExpr "truncation") "quadratic".toList) = .ok (.bool env.quadratic) := by
  have hn : number "truncation".toList = Option.none := number_none (by decide)
  simp only [nameExpr, eval, hn, sc.truncation, TF.Spec.ResidualCall.truncation, String.ofList_toList]
  rfl

/-- the statement can be executed -/
def RunsStmt (k : Nat) : Stmt → Prop
  | .plain l => GoodLine k l
  | .quad ls => Paired ls ∧ GuardsOk k ls
  | .ifW j ls => 1 ≤ j ∧ j ≤ k + 2 ∧ ∀ l ∈ ls, GoodLine k l

theorem adds_stmt (sc : Scope A N k env h w i vars) {s : Stmt} (hs : RunsStmt k s) {ls : List Line} (hr : runStmt env s = .ok ls) :
    Adds fs vars i (A :: A :: List.replicate k N) [stmtAst s] (residualValue A N h w ls) := by
  cases s with
  | plain l => exact adds_line sc hs hr
  | quad l =>
    refine Adds.branch (eval_quadratic sc) ?_ ?_
    · intro hp
      simp only [runStmt, hp, if_true] at hr
      exact adds_quad sc hs.1 hs.2 hr
    · intro hp
      simp only [runStmt, hp, Bool.false_eq_true, if_false] at hr
      cases hr
      exact Adds.nil.cast (residualValue_nil A N h w).symm
  | ifW j l =>
    refine Adds.branch (eval_present sc hs.1 hs.2.1) ?_ ?_
    · intro hp
      simp only [runStmt, hp, if_true] at hr
      exact adds_lines sc hs.2.2 hr
    · intro hp
      simp only [runStmt, hp, Bool.false_eq_true, if_false] at hr
      cases hr
      exact Adds.nil.cast (residualValue_nil A N h w).symm

theorem adds_stmts (sc : Scope A N k env h w i vars) : ∀ {l : List Stmt} {ls : List Line}, (∀ s ∈ l, RunsStmt k s) → runStmts env l = .ok ls →
    Adds fs vars i (A :: A :: List.replicate k N) (l.map stmtAst) (residualValue A N h w ls)
  | [], ls, _, hr => by
    cases hr
    exact Adds.nil.cast (residualValue_nil A N h w).symm
  | x :: l, ls, hg, hr => by
    unfold runStmts at hr
    split at hr
    · cases hr
    · cases hr
    · rename_i a b h1 h2
      cases hr
      have := (adds_stmt (fs := fs) sc (hg x (by simp)) h1).append (adds_stmts sc (fun y hy => hg y (by simp [hy])) h2)
      exact this.cast (residualValue_append A N h w a b).symm

/-! ## Exceptions -/

theorem fails_line (sc : Scope A N k env h w i vars) {l : Line} (hl : GoodLine k l) {e : PyErr} (hr : runLine env l = .error e) :
    Fails fs vars i (A :: A :: List.replicate k N) [lineAst l] e := by
  obtain ⟨o, ho, hk, ha⟩ := hl.ok
  have hp : value l.pref ≠ 0 := by rw [ha.coefficient]; exact coefficient_ne _ _ _
  have h0 : ¬ k - o.m + o.n = 0 := by
    intro h0
    unfold runLine at hr
    rw [ha.alone h0] at hr
    cases hr
  obtain ⟨ks, is, js, ep, l1, l2, l3, hd⟩ := ha.product (by omega)
  unfold runLine at hr
  rw [ep] at hr
  simp only at hr
  split_ifs at hr with hpr
  cases hr
  have hw := sc.w (k - o.m + o.n) (by omega) (by omega)
  rw [wOperator, if_neg hpr] at hw
  have hh := sc.h o.m o.n ho
  rw [← ha.op] at hh
  have key : ∀ heap, eval ⟨vars, heap⟩ (productAst l) = .error .type := by
    intro heap
    unfold productAst
    rw [ep]
    simp only [nameExpr, eval, evalList, number_h, number_w, hh, hw, Except.map, if_true, callBuiltin, arrays, array, Except.bind]
  intro heap x hx
  rw [Spec.PyRun.execAll, lineAst, exec]
  simp only [sc.R, lineExpr, eval, evalProd, eval_pref vars heap hp, mulAll, key]

theorem fails_lines (sc : Scope A N k env h w i vars) : ∀ {l : List Line} {e : PyErr}, (∀ x ∈ l, GoodLine k x) → runLines env l = .error e →
    Fails fs vars i (A :: A :: List.replicate k N) (l.map lineAst) e
  | [], _, _, hr => by cases hr
  | x :: l, e, hg, hr => by
    have h2' := hr
    unfold runLines at hr
    cases hx : runLine env x with
    | error e' =>
      rw [hx] at hr
      cases hr
      exact (fails_line (fs := fs) sc (hg x (by simp)) hx).left (b := l.map lineAst)
    | ok a =>
      rw [hx] at hr
      cases hy : runLines env l with
      | error e' =>
        rw [hy] at hr
        cases hr
        exact Fails.right (a := [lineAst x]) (adds_line (fs := fs) sc (hg x (by simp)) hx) (fails_lines sc (fun y hy => hg y (by simp [hy])) hy)
      | ok b => rw [hy] at hr; cases hr

theorem fails_quad (sc : Scope A N k env h w i vars) : ∀ {ls : List (Option Nat × Line)} {prev : Option Bool} {e : PyErr}, Paired ls → GuardsOk k ls → runQuad env prev ls = .error e →
    Fails fs vars i (A :: A :: List.replicate k N) (quadAst ls) e
  | [], prev, e, _, _, hr => by
    unfold runQuad at hr
    cases hr
  | [(some j, l)], prev, e, _, hg, hr => by
    obtain ⟨g1, g2⟩ := hg _ (List.mem_singleton.2 rfl)
    obtain ⟨g3, g4⟩ := g2 j rfl
    unfold quadAst
    refine Fails.branch (eval_present sc g3 g4) ?_ ?_
    · intro hp
      simp only [runQuad, hp, if_true] at hr
      cases hx : runLine env l with
      | error e' =>
        rw [hx] at hr
        cases hr
        exact fails_line sc g1 hx
      | ok a => rw [hx] at hr; cases hr
    · intro hp
      simp only [runQuad, hp, Bool.false_eq_true, if_false] at hr
      cases hr
  | (some j, l) :: (none, l') :: t, prev, e, hpd, hg, hr => by
    obtain ⟨g1, g2⟩ := hg (some j, l) (by simp)
    obtain ⟨g3, g4⟩ := g2 j rfl
    obtain ⟨g5, _⟩ := hg (none, l') (by simp)
    have hg' : GuardsOk k t := fun x hx => hg x (by simp [hx])
    have hpd' : Paired t := hpd
    have key : (if env.present j = true then runLine env l else runLine env l') = .error e ∨
        ∃ a, (if env.present j = true then runLine env l else runLine env l') = .ok a ∧ runQuad env none t = .error e := by
      cases hp : env.present j with
      | true =>
        simp only [runQuad, hp, if_true] at hr ⊢
        cases hx : runLine env l with
        | error e' => rw [hx] at hr; cases hr; exact .inl rfl
        | ok a =>
          rw [hx] at hr
          cases hy : runQuad env none t with
          | error e' =>
            simp only [hy] at hr
            cases hr
            exact .inr ⟨a, rfl, rfl⟩
          | ok b => simp only [hy] at hr; cases hr
      | false =>
        simp only [runQuad, hp, Bool.false_eq_true, if_false] at hr ⊢
        cases hx : runLine env l' with
        | error e' => rw [hx] at hr; cases hr; exact .inl rfl
        | ok a =>
          rw [hx] at hr
          cases hy : runQuad env none t with
          | error e' =>
            simp only [hy] at hr
            cases hr
            exact .inr ⟨a, rfl, rfl⟩
          | ok b => simp only [hy] at hr; cases hr
    unfold quadAst
    rcases key with hx | ⟨a, ha, hb⟩
    · refine Fails.left (a := [_]) (Fails.branch (eval_present sc g3 g4) ?_ ?_)
      · intro hp
        rw [if_pos hp] at hx
        exact fails_line sc g1 hx
      · intro hp
        rw [if_neg (by simp [hp])] at hx
        exact fails_line sc g5 hx
    · refine Fails.right (a := [_]) (y := residualValue A N h w a) (Adds.branch (eval_present sc g3 g4) ?_ ?_) (fails_quad sc hpd' hg' hb)
      · intro hp
        rw [if_pos hp] at ha
        exact adds_line sc g1 ha
      · intro hp
        rw [if_neg (by simp [hp])] at ha
        exact adds_line sc g5 ha
  | (some j, l) :: (some j', l') :: t, prev, e, hpd, hg, hr => by
    obtain ⟨g1, g2⟩ := hg (some j, l) (by simp)
    obtain ⟨g3, g4⟩ := g2 j rfl
    have hg' : GuardsOk k ((some j', l') :: t) := fun x hx => hg x (List.mem_cons_of_mem _ hx)
    have hpd' : Paired ((some j', l') :: t) := hpd
    have key : (if env.present j = true then runLine env l else .ok []) = .error e ∨
        ∃ a p, (if env.present j = true then runLine env l else .ok []) = .ok a ∧ runQuad env p ((some j', l') :: t) = .error e := by
      rw [runQuad] at hr
      cases hx : (if env.present j = true then runLine env l else .ok []) with
      | error e' => simp only [hx] at hr; cases hr; exact .inl rfl
      | ok a =>
        simp only [hx] at hr
        cases hy : runQuad env (some (env.present j)) ((some j', l') :: t) with
        | error e' =>
          simp only [hy] at hr
          cases hr
          exact .inr ⟨a, _, rfl, hy⟩
        | ok b => simp only [hy] at hr; cases hr
    rw [quadAst]
    rcases key with hx | ⟨a, p, ha, hb⟩
    · refine Fails.left (a := [_]) (Fails.branch (eval_present sc g3 g4) ?_ ?_)
      · intro hp
        rw [if_pos hp] at hx
        exact fails_line sc g1 hx
      · intro hp
        rw [if_neg (by simp [hp])] at hx
        cases hx
    · refine Fails.right (a := [_]) (y := residualValue A N h w a) (Adds.branch (eval_present sc g3 g4) ?_ ?_) (fails_quad sc hpd' hg' hb)
      · intro hp
        rw [if_pos hp] at ha
        exact adds_line sc g1 ha
      · intro hp
        rw [if_neg (by simp [hp])] at ha
        cases ha
        exact Adds.nil.cast (residualValue_nil A N h w).symm
  | (none, _) :: _, _, _, hpd, _, _ => absurd hpd (by simp [Paired])

theorem fails_stmt (sc : Scope A N k env h w i vars) {s : Stmt} (hs : RunsStmt k s) {e : PyErr} (hr : runStmt env s = .error e) :
    Fails fs vars i (A :: A :: List.replicate k N) [stmtAst s] e := by
  cases s with
  | plain l => exact fails_line sc hs hr
  | quad l =>
    refine Fails.branch (eval_quadratic sc) ?_ ?_
    · intro hp
      simp only [runStmt, hp, if_true] at hr
      exact fails_quad sc hs.1 hs.2 hr
    · intro hp
      simp only [runStmt, hp, Bool.false_eq_true, if_false] at hr
      cases hr
  | ifW j l =>
    refine Fails.branch (eval_present sc hs.1 hs.2.1) ?_ ?_
    · intro hp
      simp only [runStmt, hp, if_true] at hr
      exact fails_lines sc hs.2.2 hr
    · intro hp
      simp only [runStmt, hp, Bool.false_eq_true, if_false] at hr
      cases hr

theorem fails_stmts (sc : Scope A N k env h w i vars) : ∀ {l : List Stmt} {e : PyErr}, (∀ s ∈ l, RunsStmt k s) → runStmts env l = .error e →
    Fails fs vars i (A :: A :: List.replicate k N) (l.map stmtAst) e
  | [], _, _, hr => by cases hr
  | x :: l, e, hg, hr => by
    unfold runStmts at hr
    cases hx : runStmt env x with
    | error e' =>
      rw [hx] at hr
      cases hr
      exact (fails_stmt (fs := fs) sc (hg x (by simp)) hx).left (b := l.map stmtAst)
    | ok a =>
      rw [hx] at hr
      cases hy : runStmts env l with
      | error e' =>
        rw [hy] at hr
        cases hr
        exact Fails.right (a := [stmtAst x]) (adds_stmt (fs := fs) sc (hg x (by simp)) hx) (fails_stmts sc (fun y hy => hg y (by simp [hy])) hy)
      | ok b => rw [hy] at hr; cases hr

/-! ## Functions -/

theorem runs_fnAt {r k : Nat} (hr : r ≤ 2) (hk : k ≤ 4) : ∀ s ∈ (fnAt r k).body, RunsStmt k s := by
  have hgood := (good_fnAt hr (show k ≤ 6 by omega)).body
  have hp : ∀ o : HOp, o.m + o.n ≤ 2 → o.m ≤ k → LineOk k (lineAt k o) := fun o h1 h2 => ⟨o, h1, h2, adds_at k hk o h1 h2⟩
  have hw : ∀ j hs, j ≤ k + 2 → (∀ o ∈ hs, o.m + o.n ≤ 2 ∧ o.m ≤ k) → ∀ s ∈ wsOf k j hs, GoodStmt s → RunsStmt k s := by
    intro j hs hj ho s h hg
    unfold wsOf at h
    split_ifs at h
    · obtain ⟨x, hx, rfl⟩ := List.mem_map.1 h
      exact ⟨hp x (ho x hx).1 (ho x hx).2, hg⟩
    · obtain rfl := List.mem_singleton.1 h
      refine ⟨by omega, hj, fun l hl => ?_⟩
      have hgl := hg.2 l hl
      obtain ⟨x, hx, rfl⟩ := List.mem_map.1 hl
      exact ⟨hp x (ho x hx).1 (ho x hx).2, hgl⟩
  have hq : ∀ s ∈ quadOf k, GoodStmt s → RunsStmt k s := by
    intro s h hg
    obtain rfl := List.mem_singleton.1 h
    refine ⟨hg.2.1, fun x hx => ?_⟩
    have hgx := hg.2.2 x hx
    rcases List.mem_cons.1 hx with rfl | hx
    · refine ⟨⟨hp _ (by simp) (by simp), hgx⟩, fun j hj => ?_⟩
      cases hj
      omega
    · split_ifs at hx
      · obtain rfl := List.mem_singleton.1 hx
        refine ⟨⟨hp _ (by simp) (by simpa), hgx⟩, fun j hj => ?_⟩
        cases hj
        omega
      · obtain rfl := List.mem_singleton.1 hx
        exact ⟨⟨hp _ (by simp) (by simpa), hgx⟩, fun j hj => by cases hj⟩
      · cases hx
  intro s hs
  have hg := hgood s hs
  have : s ∈ bodyOf r k := hs
  interval_cases r
  · exact hw _ _ (by omega) (by simp) s this hg
  · simp only [bodyOf, List.mem_append] at this
    rcases this with (h | h) | h
    · exact hw _ _ (by omega) (by simp) s h hg
    · exact hw _ _ (by omega) (by simp) s h hg
    · split_ifs at h
      · cases h
      · exact hw _ _ (by omega) (by simp; omega) s h hg
  · simp only [bodyOf] at this
    split_ifs at this
    · simp only [List.mem_append] at this
      rcases this with (h | h) | h
      · exact hw _ _ (by omega) (by simp) s h hg
      · exact hw _ _ (by omega) (by simp) s h hg
      · exact hq s h hg
    · simp only [List.mem_append] at this
      rcases this with (((h | h) | h) | h) | h
      · exact hw _ _ (by omega) (by simp) s h hg
      · exact hw _ _ (by omega) (by simp) s h hg
      · exact hq s h hg
      · exact hw _ _ (by omega) (by simp; omega) s h hg
      · exact hw _ _ (by omega) (by simp; omega) s h hg
    · simp only [List.mem_append] at this
      rcases this with ((h | h) | h) | h
      · exact hw _ _ (by omega) (by simp; omega) s h hg
      · exact hw _ _ (by omega) (by simp) s h hg
      · exact hq s h hg
      · exact hw _ _ (by omega) (by simp; omega) s h hg

/-! ## The beginning of a function -/

omit [CommRing R] [Algebra Rat R] in
/-- the variables before the header -/
def argVars (base : List Char → Option (Val R)) (A N : Nat) (env : Spec.Residual.Env) (h : Nat × Nat → Arr R) (w : Nat → Arr R) : List Char → Option (Val R) :=
  setAll base (fnParams.map String.toList) (inputs A N env h w)

/-- the arrays of the Hamiltonian -/
def hVals (A N : Nat) (h : Nat × Nat → Arr R) : List (Val R) := [(0, 0), (0, 1), (1, 0), (1, 1), (0, 2), (2, 0)].map fun o => .arr (tensor A N (o.1 + o.2) (h o))

def wVals (A N : Nat) (env : Spec.Residual.Env) (w : Nat → Arr R) : List (Val R) := (List.range env.wlen).map fun i => wOperator A N env w (i + 1)

/-- the variables after the header -/
def bodyVars (base : List Char → Option (Val R)) (A N n : Nat) (env : Spec.Residual.Env) (h : Nat × Nat → Arr R) (w : Nat → Arr R) : List Char → Option (Val R) :=
  Spec.PyRun.set (Spec.PyRun.set (setAll (setAll (argVars base A N env h w) (hNames.map String.toList) (hVals A N h)) ((wNames n).map String.toList) (wVals A N env w))
    "unusedargs".toList (.list ((wVals A N env w).drop n))) "R".toList (.ref 0)

theorem length_wNames (n : Nat) : (wNames n).length = n := by simp [wNames, range2]

theorem wNames_get {n j : Nat} (h1 : 1 ≤ j) (h2 : j ≤ n) : ((wNames n).map String.toList)[j - 1]? = some (wString j).toList := by
  simp only [wNames, range2, List.getElem?_map]
  rw [List.getElem?_range (by omega)]
  simp only [Option.map_some]
  rw [show j - 1 + 1 = j by omega]

theorem wNames_nodup {n : Nat} (h : n ≤ 8) : ((wNames n).map String.toList).Nodup := by
  have : ∀ n ≤ 8, ((wNames n).map String.toList).Nodup := by decide
  exact this n h

theorem not_mem_wNames {n : Nat} {s : List Char} (h : s.take 2 ≠ ['w', '_']) : s ∉ (wNames n).map String.toList := by
  intro hm
  obtain ⟨x, hx, rfl⟩ := List.mem_map.1 hm
  obtain ⟨k, _, rfl⟩ := List.mem_map.1 hx
  rw [wString_toList] at h
  exact h rfl

section
variable {A N k : Nat} {env : Spec.Residual.Env} {h : Nat × Nat → Arr R} {w : Nat → Arr R}

omit [CommRing R] [Algebra Rat R] in
theorem scope_body (base : List Char → Option (Val R)) (A N : Nat) (h : Nat × Nat → Arr R) (w : Nat → Arr R) (hk : k + 2 ≤ 8) (hw : k + 2 ≤ env.wlen) :
    Scope A N k env h w 0 (bodyVars base A N (k + 2) env h w) := by
  refine ⟨set_same _ _ _, ?_, ?_, ?_⟩
  · unfold bodyVars
    rw [set_other _ _ (by decide), set_other _ _ (by decide), setAll_other (not_mem_wNames (by decide)), setAll_other (by decide)]
    exact setAll_at (n := 2) (by decide) rfl rfl
  · intro m n hmn
    unfold bodyVars
    have key : ∀ o ∈ [(0, 0), (0, 1), (1, 0), (1, 1), (0, 2), (2, 0)], ∃ c l, (hString o).toList = 'h' :: '_' :: c :: l ∧ ∃ i : Nat, (hNames.map String.toList)[i]? = some (hString o).toList ∧
        (hVals A N h)[i]? = some (Val.arr (tensor A N (o.1 + o.2) (h o))) := by
      intro o ho
      simp only [List.mem_cons, List.not_mem_nil, or_false] at ho
      rcases ho with rfl | rfl | rfl | rfl | rfl | rfl
      · exact ⟨_, _, rfl, 0, rfl, rfl⟩
      · exact ⟨_, _, rfl, 1, rfl, rfl⟩
      · exact ⟨_, _, rfl, 2, rfl, rfl⟩
      · exact ⟨_, _, rfl, 3, rfl, rfl⟩
      · exact ⟨_, _, rfl, 4, rfl, rfl⟩
      · exact ⟨_, _, rfl, 5, rfl, rfl⟩
    have hmem : (m, n) ∈ [(0, 0), (0, 1), (1, 0), (1, 1), (0, 2), (2, 0)] := by
      have : m ≤ 2 := by omega
      have : n ≤ 2 := by omega
      interval_cases m <;> interval_cases n <;> first | decide | omega
    obtain ⟨c, l, e, i, h1, h2⟩ := key _ hmem
    rw [set_other _ _ (by rw [e]; simp), set_other _ _ (by rw [e]; simp), setAll_other (not_mem_wNames (by rw [e]; simp))]
    exact setAll_at (by decide) h1 h2
  · intro j h1 h2
    unfold bodyVars
    rw [set_other _ _ (by rw [wString_toList]; simp), set_other _ _ (by rw [wString_toList]; simp)]
    refine setAll_at (wNames_nodup hk) (wNames_get h1 h2) ?_
    unfold wVals
    rw [List.getElem?_map, List.getElem?_range (by omega)]
    simp only [Option.map_some]
    rw [show j - 1 + 1 = j by omega]

theorem flag_lookup {f : Fn} (h1 : 1 ≤ f.gate) (h6 : f.gate ≤ 6) : (flags env).lookup (gateName f) = some (env.fl f.gate) := by
  have : ∀ g, 1 ≤ g → g ≤ 6 → (flags env).lookup ((orderTags[g]?).getD "") = some (env.fl g) := by
    intro g h1 h6
    interval_cases g <;> rfl
  exact this _ h1 h6

variable {fs : Functions R}

/-- not enough W operators -/
theorem exec_head_short (base : List Char → Option (Val R)) {f : Fn} (hf : f.unpacked = f.order + 2) (hw : env.wlen < f.order + 2) (l : List Spec.Source.Stmt) :
    Spec.PyRun.execAll fs ⟨argVars base A N env h w, []⟩ (headAst f ++ l) = .error .value := by
  have a3 : number "h_args".toList = Option.none := number_none (by decide)
  have a4 : number "w_args".toList = Option.none := number_none (by decide)
  have v1 : argVars base A N env h w "h_args".toList = some (.tuple (hVals A N h)) := setAll_at (n := 3) (by decide) rfl rfl
  have v2 : setAll (argVars base A N env h w) (hNames.map String.toList) (hVals A N h) "w_args".toList = some (.tuple (wVals A N env w)) := by
    rw [setAll_other (by decide)]
    exact setAll_at (n := 4) (by decide) rfl rfl
  unfold headAst
  simp only [List.cons_append, List.nil_append]
  rw [execAll_cons (E' := ⟨argVars base A N env h w, []⟩) (by rw [exec])]
  rw [execAll_cons (E' := ⟨setAll (argVars base A N env h w) (hNames.map String.toList) (hVals A N h), []⟩) (by
    rw [exec]
    simp only [nameExpr, evalTop, eval, a3, v1, Except.map, hNames, List.map_cons, List.map_nil, itemsOf]
    rfl)]
  rw [Spec.PyRun.execAll, exec]
  simp only [nameExpr, evalTop, eval, a4, v2, Except.map, itemsOf, hf, List.length_map, length_wNames]
  rw [if_neg (by simp [wVals]; omega)]

/-- the statements before the terms -/
theorem exec_head (base : List Char → Option (Val R)) {f : Fn} (hf : f.unpacked = f.order + 2) (hk : f.order ≤ 6) (hw : f.order + 2 ≤ env.wlen) (h1 : 1 ≤ f.gate) (h6 : f.gate ≤ 6)
    (l : List Spec.Source.Stmt) :
    Spec.PyRun.execAll fs ⟨argVars base A N env h w, []⟩ (headAst f ++ l) =
      if env.fl f.gate = true then Spec.PyRun.execAll fs ⟨bodyVars base A N (f.order + 2) env h w, [⟨A :: A :: List.replicate f.order N, fun _ => 0⟩]⟩ l else .error .assertion := by
  have a1 : number "A".toList = Option.none := number_none (by decide)
  have a2 : number "N".toList = Option.none := number_none (by decide)
  have a3 : number "h_args".toList = Option.none := number_none (by decide)
  have a4 : number "w_args".toList = Option.none := number_none (by decide)
  have a5 : number "truncation".toList = Option.none := number_none (by decide)
  have v1 : argVars base A N env h w "h_args".toList = some (.tuple (hVals A N h)) := setAll_at (n := 3) (by decide) rfl rfl
  have v2 : setAll (argVars base A N env h w) (hNames.map String.toList) (hVals A N h) "w_args".toList = some (.tuple (wVals A N env w)) := by
    rw [setAll_other (by decide)]
    exact setAll_at (n := 4) (by decide) rfl rfl
  unfold headAst
  simp only [List.cons_append, List.nil_append]
  rw [execAll_cons (E' := ⟨argVars base A N env h w, []⟩) (by rw [exec])]
  rw [execAll_cons (E' := ⟨setAll (argVars base A N env h w) (hNames.map String.toList) (hVals A N h), []⟩) (by
    rw [exec]
    simp only [nameExpr, evalTop, eval, a3, v1, Except.map, hNames, List.map_cons, List.map_nil, itemsOf]
    rfl)]
  rw [execAll_cons (E' := ⟨Spec.PyRun.set (setAll (setAll (argVars base A N env h w) (hNames.map String.toList) (hVals A N h)) ((wNames (f.order + 2)).map String.toList) (wVals A N env w))
      "unusedargs".toList (.list ((wVals A N env w).drop (f.order + 2))), []⟩) (by
    rw [exec]
    simp only [nameExpr, evalTop, eval, a4, v2, Except.map, itemsOf, hf, List.length_map, length_wNames]
    rw [if_pos (by simp [wVals]; omega)])]
  have o1 : ∀ s ∈ ["A", "N"], Spec.PyRun.set (setAll (setAll (argVars base A N env h w) (hNames.map String.toList) (hVals A N h)) ((wNames (f.order + 2)).map String.toList) (wVals A N env w))
      "unusedargs".toList (.list ((wVals A N env w).drop (f.order + 2))) s.toList = argVars base A N env h w s.toList := by
    intro s hs
    have : s.toList ≠ "unusedargs".toList ∧ s.toList.take 2 ≠ ['w', '_'] ∧ s.toList ∉ hNames.map String.toList := by
      revert s
      decide
    rw [set_other _ _ this.1, setAll_other (not_mem_wNames this.2.1), setAll_other this.2.2]
  have o2 : argVars base A N env h w "A".toList = some (.num A) := setAll_at (n := 0) (by decide) rfl rfl
  have o3 : argVars base A N env h w "N".toList = some (.num N) := setAll_at (n := 1) (by decide) rfl rfl
  have hz := exec_zerosAt (fs := fs) (vars := Spec.PyRun.set (setAll (setAll (argVars base A N env h w) (hNames.map String.toList) (hVals A N h)) ((wNames (f.order + 2)).map String.toList)
      (wVals A N env w)) "unusedargs".toList (.list ((wVals A N env w).drop (f.order + 2)))) (heap := [])
    (ws := "A" :: "A" :: List.replicate f.order "N") (ns := A :: A :: List.replicate f.order N) (by simp)
    (by
      have hA := (o1 "A" (by simp)).trans o2
      have hN := (o1 "N" (by simp)).trans o3
      refine .cons ⟨a1, hA⟩ (.cons ⟨a1, hA⟩ ?_)
      generalize (Spec.PyRun.set (setAll (setAll (argVars base A N env h w) (hNames.map String.toList) (hVals A N h)) ((wNames (f.order + 2)).map String.toList)
        (wVals A N env w)) "unusedargs".toList (.list ((wVals A N env w).drop (f.order + 2)))) = vars at hN
      induction f.order with
      | zero => exact .nil
      | succ n ih => exact .cons ⟨a2, hN⟩ ih) "R".toList
  rw [execAll_cons hz]
  rw [Spec.PyRun.execAll, exec]
  have ht := (scope_body (R := R) (env := env) base A N h w (show f.order + 2 ≤ 8 by omega) hw).truncation
  have hev : eval ⟨bodyVars base A N (f.order + 2) env h w, [] ++ [⟨A :: A :: List.replicate f.order N, fun _ => 0⟩]⟩ (.attr (nameExpr "truncation") (gateName f).toList) =
      .ok (.bool (env.fl f.gate)) := by
    simp only [nameExpr, eval, a5, ht, TF.Spec.ResidualCall.truncation, String.ofList_toList, flag_lookup h1 h6]
  have hev' := hev
  unfold bodyVars at hev'
  simp only [List.length_nil]
  rw [hev']
  cases env.fl f.gate <;> rfl

end

/-! ## The file -/

theorem fnName_inj (a b : Nat) (e : (fnName a).toList = (fnName b).toList) : a = b := by
  have e := String.toList_injective e
  unfold fnName at e
  have := congrArg String.toList e
  simp only [String.toList_append] at this
  have := List.append_cancel_right this
  have := List.append_cancel_left this
  have := (number_nat a).symm.trans ((congrArg number this).trans (number_nat b))
  injection this with this
  exact_mod_cast this

theorem lookup_missing {n r k : Nat} (hk : n < k) : Spec.PyRun.lookup (importAst ++ ((List.range (n + 1)).map (fnAt r)).map fnAst) (fnName k).toList = none := by
  unfold Spec.PyRun.lookup
  rw [List.findSome?_eq_none_iff]
  intro s hs
  rw [List.mem_reverse, List.mem_append] at hs
  rcases hs with hs | hs
  · have : ∀ s ∈ importAst, definitionOf (fnName k).toList s = none := by
      unfold importAst
      intro s hs
      simp only [List.mem_cons, List.not_mem_nil, or_false] at hs
      rcases hs with rfl | rfl | rfl <;> rfl
    exact this s hs
  · obtain ⟨f, hf, rfl⟩ := List.mem_map.1 hs
    obtain ⟨j, hj, rfl⟩ := List.mem_map.1 hf
    have hj := List.mem_range.1 hj
    simp only [fnAst, definitionOf]
    rw [if_neg]
    intro e
    have : j = k := fnName_inj _ _ e
    omega

theorem lookup_file {n r k : Nat} (hk : k ≤ n) :
    Spec.PyRun.lookup (importAst ++ ((List.range (n + 1)).map (fnAt r)).map fnAst) (fnName k).toList = some (fnParams.map String.toList, fnBody (fnAt r k)) := by
  unfold Spec.PyRun.lookup
  rw [List.reverse_append, List.findSome?_append, ← List.map_reverse, ← List.map_reverse]
  have key : ∀ l : List Nat, k ∈ l → ((l.map (fnAt r)).map fnAst).findSome? (definitionOf (fnName k).toList) = some (fnParams.map String.toList, fnBody (fnAt r k)) := by
    intro l
    induction l with
    | nil => simp
    | cons a l ih =>
      intro hm
      rw [List.map_cons, List.map_cons, List.findSome?_cons]
      by_cases ha : a = k
      · subst ha
        simp only [fnAst, definitionOf]
        rw [if_pos (by rfl)]
      · simp only [fnAst, definitionOf]
        rw [if_neg (fun e => ha (fnName_inj (fnAt r a).order k e))]
        exact ih (by
          rcases List.mem_cons.1 hm with h | h
          · exact absurd h.symm ha
          · exact h)
  rw [key _ (by rw [List.mem_reverse, List.mem_range]; omega)]
  rfl

/-- a call of a residual function: the array, or the exception -/
theorem call_fn {n r k : Nat} (hr : r ≤ 2) (hk : k ≤ 4) (hkn : k ≤ n) (env : Spec.Residual.Env) (A N : Nat) (h : Nat × Nat → Arr R) (w : Nat → Arr R) :
    call (importAst ++ ((List.range (n + 1)).map (fnAt r)).map fnAst) 1 (fnName k).toList (inputs A N env h w) [] =
      (runFn env (fnAt r k)).map fun ls => (.ref 0, [tensor A N k (residualValue A N h w ls)]) := by
  have hg1 : 1 ≤ (fnAt r k).gate ∧ (fnAt r k).gate ≤ 6 := by
    unfold fnAt
    simp only
    split_ifs <;> omega
  rw [call]
  simp only [lookup_file hkn]
  rw [if_pos (by rfl)]
  have hv0 : setAll (globals (importAst ++ ((List.range (n + 1)).map (fnAt r)).map fnAst)) (fnParams.map String.toList) (inputs A N env h w) =
    argVars (globals (importAst ++ ((List.range (n + 1)).map (fnAt r)).map fnAst)) A N env h w := rfl
  rw [hv0]
  unfold fnBody runFn
  by_cases hw : env.wlen < k + 2
  · rw [exec_head_short _ (f := fnAt r k) rfl hw, if_pos (show env.wlen < (fnAt r k).unpacked from hw)]
    rfl
  rw [if_neg (show ¬ env.wlen < (fnAt r k).unpacked from hw)]
  rw [exec_head _ (f := fnAt r k) rfl (show k ≤ 6 by omega) (show k + 2 ≤ env.wlen by omega) hg1.1 hg1.2]
  cases hgt : env.fl (fnAt r k).gate with
  | false => rfl
  | true =>
    simp only [if_true, Bool.not_true, Bool.false_eq_true, if_false]
    have sc := scope_body (R := R) (env := env) (globals (importAst ++ ((List.range (n + 1)).map (fnAt r)).map fnAst)) A N h w (show k + 2 ≤ 8 by omega) (show k + 2 ≤ env.wlen by omega)
    cases hrun : runStmts env (fnAt r k).body with
    | error e =>
      have := (fails_stmts (fs := call (importAst ++ ((List.range (n + 1)).map (fnAt r)).map fnAst) 0) sc (runs_fnAt hr hk) hrun).left (b := [.ret (some (nameExpr "R"))])
        [⟨A :: A :: List.replicate k N, fun _ => 0⟩] _ rfl
      have e2 : (fnAt r k).order = k := rfl
      rw [e2, this]
      rfl
    | ok ls =>
      have := adds_stmts (fs := call (importAst ++ ((List.range (n + 1)).map (fnAt r)).map fnAst) 0) sc (runs_fnAt hr hk) hrun [⟨A :: A :: List.replicate k N, fun _ => 0⟩] _ rfl
      have e2 : (fnAt r k).order = k := rfl
      rw [e2, execAll_then this]
      have hR : number "R".toList = Option.none := number_none (by decide)
      rw [Spec.PyRun.execAll, exec]
      simp only [nameExpr, evalTop, eval, hR, sc.R, Except.map, List.set_cons_zero, zero_add]
      rfl

theorem imports_numpy (n r : Nat) : (importAst ++ ((List.range (n + 1)).map (fnAt r)).map fnAst).any importsNumpy = true := by
  rw [List.any_append]
  have : importAst.any importsNumpy = true := rfl
  rw [this, Bool.true_or]

/-- the same from outside -/
theorem call_source {n r k : Nat} (hr : r ≤ 2) (hk : k ≤ 4) (hkn : k ≤ n) (env : Spec.Residual.Env) (A N : Nat) (h : Nat × Nat → Arr R) (w : Nat → Arr R) :
    callArray (importAst ++ ((List.range (n + 1)).map (fnAt r)).map fnAst) 1 (fnName k).toList (inputs A N env h w) =
      (runFn env (fnAt r k)).map fun ls => tensor A N k (residualValue A N h w ls) := by
  unfold callArray
  rw [if_pos (imports_numpy n r), call_fn hr hk hkn]
  cases runFn env (fnAt r k) <;> rfl

end

end TF.Residual
