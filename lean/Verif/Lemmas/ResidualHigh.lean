import Verif.Lemmas.ResidualSourceRun

/-!
# Running the residual functions of the orders 5 and 6 of a generated residual module
-/

namespace TF.Residual

open TF.Py TF.Spec.Source TF.Spec.PyRun TF.Spec.Tensor TF.Spec.ResidualCall
open TF.Spec.Residual (value Belongs)
open TF.W (orderTags modeTags)

variable {R : Type} [CommRing R] [Algebra Rat R]

/-- there are only four letters for the modes: the prefactor and the letters of a line -/
theorem line_high : ∀ k < 7, 5 ≤ k → ∀ m < 3, ∀ n < 3, m + n ≤ 2 → value (lineAt k ⟨m, n⟩).pref ≠ 0 ∧ (lineAt k ⟨m, n⟩).h = (m, n) ∧
    ∃ a b c, (lineAt k ⟨m, n⟩).product = some (k - m + n, a, b, c) ∧ b.length < k - m + n + 2 := by
  have key1 : ∀ k < 7, 5 ≤ k → ∀ m < 3, ∀ n < 3, value (lineAt k ⟨m, n⟩).pref ≠ 0 := by decide +kernel
  have key2 : ∀ k < 7, 5 ≤ k → ∀ m < 3, ∀ n < 3, m + n ≤ 2 → (['c', 'b'] ++ kLetters.take n ++ slice iLetters m (m + (k - m))).length < k - m + n + 2 := by decide +kernel
  intro k hk h5 m hm n hn hmn
  have h1 := key1 k hk h5 m hm n hn
  have h2 := key2 k hk h5 m hm n hn hmn
  have h3 : (lineAt k ⟨m, n⟩).product = some (k - m + n, ['a', 'c'] ++ kLetters.take n ++ iLetters.take m, ['c', 'b'] ++ kLetters.take n ++ slice iLetters m (m + (k - m)),
      ['a', 'b'] ++ iLetters.take (m + (k - m))) := by
    unfold lineAt
    simp only
    rw [if_neg (by omega)]
  exact ⟨h1, rfl, _, _, _, h3, h2⟩

theorem good_letters (k : Nat) (l : HOp) : GoodLetters (lineAt k l) := by
  intro w a b c h
  unfold lineAt at h
  split_ifs at h
  cases h
  have h1 : ∀ x ∈ kLetters, isWord x = true := by decide
  have h2 : ∀ x ∈ iLetters, isWord x = true := by decide
  intro x hx
  simp only [List.mem_append, slice] at hx
  rcases hx with ((((hx | hx) | hx) | ((hx | hx) | hx)) | (hx | hx))
  · revert x; decide
  · exact h1 x (List.mem_of_mem_take hx)
  · exact h2 x (List.mem_of_mem_take hx)
  · revert x; decide
  · exact h1 x (List.mem_of_mem_take hx)
  · exact h2 x (List.mem_of_mem_take (List.mem_of_mem_drop hx))
  · revert x; decide
  · exact h2 x (List.mem_of_mem_take hx)

section
variable {A N k i : Nat} {env : Spec.Residual.Env} {h : Nat × Nat → Arr R} {w : Nat → Arr R} {vars : List Char → Option (Val R)} {fs : Functions R}

theorem fails_high (sc : Scope A N k env h w i vars) (h5 : 5 ≤ k) (h6 : k ≤ 6) {m n : Nat} (hmn : m + n ≤ 2) (hp : env.present (k - m + n) = true) :
    Fails fs vars i (A :: A :: List.replicate k N) [lineAst (lineAt k ⟨m, n⟩)] .value := by
  obtain ⟨h1, h2, a, b, c, h3, h4⟩ := line_high k (by omega) h5 m (by omega) n (by omega) hmn
  have hh := sc.h m n hmn
  have hw := sc.w (k - m + n) (by omega) (by omega)
  rw [wOperator, if_pos hp] at hw
  have hg : GoodLetters (lineAt k ⟨m, n⟩) := good_letters k ⟨m, n⟩
  have hle := hg _ _ _ _ h3
  have hword : ∀ l : List Char, (∀ c ∈ l, isWord c = true) → ' ' ∉ l ∧ ',' ∉ l ∧ '-' ∉ l := fun l hl =>
    ⟨fun hc => isWord_ne (hl _ hc) (x := ' ') rfl rfl, fun hc => isWord_ne (hl _ hc) (x := ',') rfl rfl, fun hc => isWord_ne (hl _ hc) (x := '-') rfl rfl⟩
  have hsub : subscripts (lettersText a b c) = some ([a, b], c) := by
    have := subscripts_tight (subs := [a, b]) (out := c) (by simp)
      (by
        intro s hs
        simp only [List.mem_cons, List.not_mem_nil, or_false] at hs
        rcases hs with rfl | rfl
        · exact hword _ fun x hx => hle x (by simp [hx])
        · exact hword _ fun x hx => hle x (by simp [hx])) (hword _ fun x hx => hle x (by simp [hx])).1
    rw [← this]
    simp [lettersText]
  have he : Spec.PyRun.einsum (lettersText a b c) [tensor A N (m + n) (h (m, n)), tensor A N (k - m + n) (w (k - m + n))] = .error .value := by
    unfold Spec.PyRun.einsum
    rw [hsub]
    simp only
    rw [if_neg]
    rintro ⟨hl, -⟩
    simp [tensor] at hl
    omega
  have key : ∀ heap, eval ⟨vars, heap⟩ (productAst (lineAt k ⟨m, n⟩)) = .error .value := by
    intro heap
    unfold productAst
    rw [h3, h2]
    simp only [nameExpr, eval, evalList, number_h, number_w, hh, hw, Except.map, if_true, callBuiltin, arrays, array, Except.bind]
    rw [he]
  intro heap x hx
  rw [Spec.PyRun.execAll, lineAst, exec]
  simp only [sc.R, lineExpr, eval, evalProd, eval_pref vars heap h1, mulAll, key]

/-- the statements raise `ValueError` if `P` holds, and do nothing otherwise -/
def Raises (fs : Functions R) (vars : List Char → Option (Val R)) (i : Nat) (S : List Nat) (ss : List Spec.Source.Stmt) (P : Prop) : Prop :=
  (P → Fails fs vars i S ss .value) ∧ (¬ P → Adds fs vars i S ss fun _ => 0)

theorem Raises.append {S : List Nat} {a b : List Spec.Source.Stmt} {P Q : Prop} (h1 : Raises fs vars i S a P) (h2 : Raises fs vars i S b Q) :
    Raises fs vars i S (a ++ b) (P ∨ Q) := by
  constructor
  · intro hpq
    by_cases hp : P
    · exact (h1.1 hp).left
    · exact Fails.right (h1.2 hp) (h2.1 (hpq.resolve_left hp))
  · intro hn
    rw [not_or] at hn
    exact ((h1.2 hn.1).append (h2.2 hn.2)).cast (by funext v; simp)

theorem raises_ws (sc : Scope A N k env h w i vars) (h5 : 5 ≤ k) (h6 : k ≤ 6) {m n : Nat} (hmn : m + n ≤ 2) {j : Nat} (hj : k - m + n = j) (hs : List HOp) :
    Raises fs vars i (A :: A :: List.replicate k N) ((wsOf k j (⟨m, n⟩ :: hs)).map stmtAst) (env.present j = true) := by
  have hw : wsOf k j (⟨m, n⟩ :: hs) = [.ifW j ((⟨m, n⟩ :: hs).map (lineAt k))] := by
    unfold wsOf
    rw [if_neg (by omega)]
  rw [hw]
  constructor
  · intro hp
    refine Fails.branch (eval_present sc (by omega) (by omega)) (fun _ => ?_) (fun hf => by simp [hp] at hf)
    exact (fails_high (fs := fs) sc h5 h6 hmn (by rw [hj]; exact hp)).left (b := (hs.map (lineAt k)).map lineAst)
  · intro hp
    exact Adds.branch (eval_present sc (by omega) (by omega)) (fun ht => absurd ht hp) fun _ => Adds.nil

theorem raises_quad (sc : Scope A N k env h w i vars) (h5 : 5 ≤ k) (h6 : k ≤ 6) :
    Raises fs vars i (A :: A :: List.replicate k N) ((quadOf k).map stmtAst) (env.quadratic = true ∧ (env.present (k + 2) = true ∨ env.present (k - 2) = true)) := by
  have hq : quadOf k = [.quad [(some (k + 2), lineAt k ⟨0, 2⟩), (some (k - 2), lineAt k ⟨2, 0⟩)]] := by
    unfold quadOf
    rw [if_pos (by omega), if_pos (by omega)]
  have one : ∀ m n j, m + n ≤ 2 → k - m + n = j → Raises fs vars i (A :: A :: List.replicate k N) [.cond (.notNone (nameExpr (wString j))) [lineAst (lineAt k ⟨m, n⟩)] []] (env.present j = true) := by
    intro m n j hmn hj
    constructor
    · intro hp
      exact Fails.branch (eval_present sc (by omega) (by omega)) (fun _ => fails_high sc h5 h6 hmn (by rw [hj]; exact hp)) (fun hf => by simp [hp] at hf)
    · intro hp
      exact Adds.branch (eval_present sc (by omega) (by omega)) (fun ht => absurd ht hp) fun _ => Adds.nil
  have both := (one 0 2 (k + 2) (by omega) (by omega)).append (one 2 0 (k - 2) (by omega) (by omega))
  rw [hq]
  constructor
  · rintro ⟨hqd, hp⟩
    exact Fails.branch (eval_quadratic sc) (fun _ => both.1 hp) (fun hf => by simp [hqd] at hf)
  · intro hn
    exact Adds.branch (eval_quadratic sc) (fun ht => both.2 fun hp => hn ⟨ht, hp⟩) fun _ => Adds.nil

theorem raises_body (sc : Scope A N k env h w i vars) {r : Nat} (hr : r ≤ 2) (h5 : 5 ≤ k) (h6 : k ≤ 6) :
    Raises fs vars i (A :: A :: List.replicate k N) ((fnAt r k).body.map stmtAst) (∃ o, Belongs env r k o) := by
  have a0 := raises_ws (fs := fs) sc h5 h6 (m := 0) (n := 0) (by omega) (j := k) (by omega)
  have a1 := raises_ws (fs := fs) sc h5 h6 (m := 0) (n := 1) (by omega) (j := k + 1) (by omega) []
  have a2 := raises_ws (fs := fs) sc h5 h6 (m := 1) (n := 0) (by omega) (j := k - 1) (by omega) []
  have a3 := raises_quad (fs := fs) sc h5 h6
  have hb : (fnAt r k).body = bodyOf r k := rfl
  rw [hb]
  have mk : ∀ m n, m + n ≤ r → (m + n = 2 → ¬ (m = 1 ∧ n = 1) → env.quadratic = true) → env.present (k - m + n) = true → ∃ o, Belongs env r k o := fun m n h1 h2 h3 =>
    ⟨⟨m, n⟩, h1, by show m ≤ k; omega, fun hq => h2 hq.1 fun e => hq.2 (by rw [e.1, e.2]), fun _ => h3⟩
  have use : ∀ o, Belongs env r k o → (env.present k = true) ∨ (1 ≤ r ∧ env.present (k + 1) = true) ∨ (r = 2 ∧ env.quadratic = true ∧ (env.present (k + 2) = true ∨ env.present (k - 2) = true)) ∨
      (1 ≤ r ∧ env.present (k - 1) = true) := by
    rintro ⟨m, n⟩ ⟨b1, b2, b3, b4⟩
    simp only at b1 b2 b3 b4
    have b4 := b4 (by omega)
    have hm : m ≤ 2 := by omega
    have hn : n ≤ 2 := by omega
    interval_cases m <;> interval_cases n <;> first | omega | skip
    · exact .inl (by simpa using b4)
    · exact .inr (.inl ⟨by omega, b4⟩)
    · exact .inr (.inr (.inl ⟨by omega, b3 ⟨rfl, by decide⟩, .inl b4⟩))
    · exact .inr (.inr (.inr ⟨by omega, by simpa using b4⟩))
    · exact .inl (by rwa [show k - 1 + 1 = k by omega] at b4)
    · exact .inr (.inr (.inl ⟨by omega, b3 ⟨rfl, by decide⟩, .inr (by simpa using b4)⟩))
  have fin : ∀ {ss : List Spec.Source.Stmt} {P : Prop}, Raises fs vars i (A :: A :: List.replicate k N) ss P → (P ↔ ∃ o, Belongs env r k o) →
      Raises fs vars i (A :: A :: List.replicate k N) ss (∃ o, Belongs env r k o) := fun hs e => ⟨fun hp => hs.1 (e.2 hp), fun hp => hs.2 fun h => hp (e.1 h)⟩
  have hr' : r = 0 ∨ r = 1 ∨ r = 2 := by omega
  rcases hr' with rfl | rfl | rfl
  · refine fin (a0 []) ⟨fun hp => mk 0 0 (by omega) (by omega) hp, ?_⟩
    rintro ⟨o, ho⟩
    have := use o ho
    simpa using this
  · unfold bodyOf
    simp only
    rw [if_neg (by omega), List.map_append, List.map_append]
    refine fin (((a0 []).append a1).append a2) ⟨?_, ?_⟩
    · rintro ((hp | hp) | hp)
      · exact mk 0 0 (by omega) (by omega) hp
      · exact mk 0 1 (by omega) (by omega) hp
      · exact mk 1 0 (by omega) (by omega) (by simpa using hp)
    · rintro ⟨o, ho⟩
      have := use o ho
      simp only [show ¬ (1 = 2) by omega, false_and, false_or, le_refl, true_and] at this
      tauto
  · unfold bodyOf
    simp only
    rw [if_neg (by omega), if_neg (by omega), List.map_append, List.map_append, List.map_append]
    refine fin ((((a0 [⟨1, 1⟩]).append a1).append a3).append a2) ⟨?_, ?_⟩
    · rintro (((hp | hp) | ⟨hq, hp | hp⟩) | hp)
      · exact mk 0 0 (by omega) (by omega) hp
      · exact mk 0 1 (by omega) (by omega) hp
      · exact mk 0 2 (by omega) (fun _ _ => hq) hp
      · exact mk 2 0 (by omega) (fun _ _ => hq) (by simpa using hp)
      · exact mk 1 0 (by omega) (by omega) (by simpa using hp)
    · rintro ⟨o, ho⟩
      have := use o ho
      simp only [true_and, show 1 ≤ 2 by omega] at this
      tauto

end

open Classical in
/-- a call of a residual function of order 5 or 6 -/
theorem call_fn_high {n r k : Nat} (hr : r ≤ 2) (h5 : 5 ≤ k) (h6 : k ≤ 6) (hkn : k ≤ n) (env : Spec.Residual.Env) (A N : Nat) (h : Nat × Nat → Arr R) (w : Nat → Arr R) :
    call (importAst ++ ((List.range (n + 1)).map (fnAt r)).map fnAst) 1 (fnName k).toList (inputs A N env h w) [] =
      if env.wlen < k + 2 then .error .value
      else if env.fl k = false then .error .assertion
      else if ∃ o, Belongs env r k o then .error .value
      else .ok (.ref 0, [tensor A N k fun _ => 0]) := by
  have hg : (fnAt r k).gate = k := by
    unfold fnAt
    simp only
    rw [if_neg (by omega)]
  rw [call]
  simp only [lookup_file hkn]
  rw [if_pos (by rfl)]
  have hv0 : setAll (globals (importAst ++ ((List.range (n + 1)).map (fnAt r)).map fnAst)) (fnParams.map String.toList) (inputs A N env h w) =
    argVars (globals (importAst ++ ((List.range (n + 1)).map (fnAt r)).map fnAst)) A N env h w := rfl
  rw [hv0]
  unfold fnBody
  by_cases hw : env.wlen < k + 2
  · rw [exec_head_short _ (f := fnAt r k) rfl hw, if_pos hw]
  rw [if_neg hw]
  rw [exec_head _ (f := fnAt r k) rfl (show k ≤ 6 by omega) (show k + 2 ≤ env.wlen by omega) (by omega) (by omega), hg]
  cases hgt : env.fl k with
  | false => rfl
  | true =>
    simp only [if_true, Bool.true_eq_false, if_false]
    have sc := scope_body (R := R) (env := env) (globals (importAst ++ ((List.range (n + 1)).map (fnAt r)).map fnAst)) A N h w (show k + 2 ≤ 8 by omega) (show k + 2 ≤ env.wlen by omega)
    have hb := raises_body (fs := call (importAst ++ ((List.range (n + 1)).map (fnAt r)).map fnAst) 0) sc hr h5 h6
    have e2 : (fnAt r k).order = k := rfl
    split_ifs with hp
    · have := (hb.1 hp).left (b := [.ret (some (nameExpr "R"))]) [⟨A :: A :: List.replicate k N, fun _ => 0⟩] _ rfl
      rw [e2, this]
    · have := hb.2 hp [⟨A :: A :: List.replicate k N, fun _ => 0⟩] _ rfl
      rw [e2, execAll_then this]
      have hR : number "R".toList = Option.none := number_none (by decide)
      rw [Spec.PyRun.execAll, exec]
      simp only [nameExpr, evalTop, eval, hR, sc.R, Except.map, List.set_cons_zero, zero_add]
      rfl

end TF.Residual
