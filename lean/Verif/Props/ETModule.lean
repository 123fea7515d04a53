import Verif.Props.ETPython
import Verif.Props.FullCC.Module
import Verif.Spec.ETRun

/-!
# Properties of running the generated e^T modules

C70: what `compute_m0_n_amplitude` adds up.  C71: the optimised functions.
-/

namespace TF.ETPy

open TF.Py
open TF.CC (Op HOp nm nm_inj Suf)
open TF.ET (Mode mem_taking groundZ)
open TF.Spec.ET TF.Spec.ETPy TF.Spec.ETRun

/-! ## Names -/

def isRhs : Mode → Bool
  | .rhs => true
  | .lhs => false

/-- the suffix of the names of the functions with terms -/
def tSuf (mode : Mode) (opt eT : Bool) : String :=
  match mode, opt, eT with
  | .rhs, false, false => "_HZ_terms"
  | .rhs, false, true => "_eT_HZ_terms"
  | .rhs, true, false => "_HZ_terms_optimized"
  | .rhs, true, true => "_eT_HZ_terms_optimized"
  | .lhs, false, false => "_HZ_LHS"
  | .lhs, false, true => "_eT_HZ_LHS"
  | .lhs, true, false => "_HZ_LHS_optimized"
  | .lhs, true, true => "_eT_HZ_LHS_optimized"

def aSuf (opt : Bool) : String := if opt then "_amplitude_optimized" else "_amplitude"

def kindOf (eT : Bool) : String := if eT then "eT_HZ" else "HZ"

theorem tSuf_ok (mode : Mode) (opt eT : Bool) : Suf (tSuf mode opt eT) := by
  cases mode <;> cases opt <;> cases eT <;> decide

theorem aSuf_ok (opt : Bool) : Suf (aSuf opt) := by cases opt <;> decide

theorem termsName_eq (mode : Mode) (opt eT : Bool) (p : Op) : termsName mode opt p (kindOf eT) = nm (isRhs mode) (p.m, p.n) (tSuf mode opt eT) := by
  apply String.toList_injective
  cases mode <;> cases opt <;> cases eT <;> simp [termsName, nm, tSuf, specifier, isRhs, kindOf]

/-- The definitions of one projection operator, one version. -/
theorem termsDefs_eq (mode : Mode) (opt : Bool) (f : Fns) : termsDefs mode opt f =
    [(nm (isRhs mode) (f.omega.m, f.omega.n) (tSuf mode opt false), .terms (argNames mode) opt f.ground.1 (f.excited.map Prod.fst)),
     (nm (isRhs mode) (f.omega.m, f.omega.n) (tSuf mode opt true), .terms (argNames mode) opt f.ground.2 (f.excited.map Prod.snd))] := by
  have h1 := termsName_eq mode opt false f.omega
  have h2 := termsName_eq mode opt true f.omega
  unfold termsDefs
  rw [← h1, ← h2]
  rfl

theorem masterDef_eq (mode : Mode) (opt : Bool) (p : Op) : masterDef mode opt p = (nm false (p.m, p.n) (aSuf opt),
    .amplitude (argNames mode) opt (confirms p) p.rank [nm (isRhs mode) (p.m, p.n) (tSuf mode opt false), nm (isRhs mode) (p.m, p.n) (tSuf mode opt true)]) := by
  unfold masterDef
  have e1 : "compute_" ++ specifier p ++ "_amplitude" ++ (if opt then "_optimized" else "") = nm false (p.m, p.n) (aSuf opt) := by
    apply String.toList_injective
    cases opt <;> simp [nm, aSuf, specifier]
  refine Prod.ext e1 ?_
  simp only [Body.amplitude.injEq, true_and, List.cons.injEq, and_true]
  constructor <;>
  · apply String.toList_injective
    cases mode <;> cases opt <;> simp [nm, tSuf, specifier, isRhs]

theorem mem_moduleDefs {mode : Mode} {m : Module} (ho : m.optimised = m.default) (x : String × Body) :
    x ∈ moduleDefs mode m ↔ ∃ opt, ∃ f ∈ m.default,
      x = (nm (isRhs mode) (f.omega.m, f.omega.n) (tSuf mode opt false), .terms (argNames mode) opt f.ground.1 (f.excited.map Prod.fst)) ∨
      x = (nm (isRhs mode) (f.omega.m, f.omega.n) (tSuf mode opt true), .terms (argNames mode) opt f.ground.2 (f.excited.map Prod.snd)) ∨
      x = (nm false (f.omega.m, f.omega.n) (aSuf opt), .amplitude (argNames mode) opt (confirms f.omega) f.omega.rank
        [nm (isRhs mode) (f.omega.m, f.omega.n) (tSuf mode opt false), nm (isRhs mode) (f.omega.m, f.omega.n) (tSuf mode opt true)]) := by
  unfold moduleDefs
  rw [ho]
  simp only [List.mem_append, List.mem_flatMap, List.mem_map, termsDefs_eq, masterDef_eq, List.mem_cons, List.not_mem_nil, or_false]
  constructor
  · rintro ((⟨f, hf, h | h⟩ | ⟨f, hf, h⟩) | (⟨f, hf, h | h⟩ | ⟨f, hf, h⟩))
    · exact ⟨false, f, hf, .inl h⟩
    · exact ⟨false, f, hf, .inr (.inl h)⟩
    · exact ⟨false, f, hf, .inr (.inr h.symm)⟩
    · exact ⟨true, f, hf, .inl h⟩
    · exact ⟨true, f, hf, .inr (.inl h)⟩
    · exact ⟨true, f, hf, .inr (.inr h.symm)⟩
  · rintro ⟨opt, f, hf, h | h | h⟩ <;> cases opt
    · exact .inl (.inl ⟨f, hf, .inl h⟩)
    · exact .inr (.inl ⟨f, hf, .inl h⟩)
    · exact .inl (.inl ⟨f, hf, .inr h⟩)
    · exact .inr (.inl ⟨f, hf, .inr h⟩)
    · exact .inl (.inr ⟨f, hf, h.symm⟩)
    · exact .inr (.inr ⟨f, hf, h.symm⟩)

theorem lookup_of {M : List (String × Body)} {f : String} {b : Body} (hm : (f, b) ∈ M) (hu : ∀ b', (f, b') ∈ M → b' = b) : lookup M f = some b := by
  unfold lookup
  cases h : M.reverse.find? fun d => d.1 == f with
  | none =>
    rw [List.find?_eq_none] at h
    exact absurd (h (f, b) (by simpa using hm)) (by simp)
  | some d =>
    have h1 := List.find?_some h
    have h2 := List.mem_of_find?_eq_some h
    obtain ⟨g, b'⟩ := d
    have : g = f := by simpa using h1
    subst this
    rw [Option.map_some, hu b' (by simpa using h2)]

theorem tSuf_inj {mode : Mode} {o o' e e' : Bool} (h : tSuf mode o e = tSuf mode o' e') : o = o' ∧ e = e' := by
  revert h
  cases mode <;> cases o <;> cases o' <;> cases e <;> cases e' <;> decide

theorem tSuf_ne (mode : Mode) (o o' e : Bool) : tSuf mode o e ≠ aSuf o' := by
  cases mode <;> cases o <;> cases o' <;> cases e <;> decide

theorem aSuf_inj {o o' : Bool} (h : aSuf o = aSuf o') : o = o' := by
  revert h
  cases o <;> cases o' <;> decide

/-- Every name of the module means the function it was written for. -/
theorem lookups {mode : Mode} {m : Module} (ho : m.optimised = m.default)
    (hn : ∀ f ∈ m.default, ∀ f' ∈ m.default, f.omega.m = f'.omega.m → f.omega.n = f'.omega.n → f = f') {f : Fns} (hf : f ∈ m.default) (opt : Bool) :
    lookup (moduleDefs mode m) (nm (isRhs mode) (f.omega.m, f.omega.n) (tSuf mode opt false)) =
      some (.terms (argNames mode) opt f.ground.1 (f.excited.map Prod.fst)) ∧
    lookup (moduleDefs mode m) (nm (isRhs mode) (f.omega.m, f.omega.n) (tSuf mode opt true)) =
      some (.terms (argNames mode) opt f.ground.2 (f.excited.map Prod.snd)) ∧
    lookup (moduleDefs mode m) (nm false (f.omega.m, f.omega.n) (aSuf opt)) = some (.amplitude (argNames mode) opt (confirms f.omega) f.omega.rank
        [nm (isRhs mode) (f.omega.m, f.omega.n) (tSuf mode opt false), nm (isRhs mode) (f.omega.m, f.omega.n) (tSuf mode opt true)]) := by
  have key : ∀ {f f' : Fns} {p p' : Bool} {s s' : String}, f ∈ m.default → f' ∈ m.default → Suf s → Suf s' →
      nm p (f.omega.m, f.omega.n) s = nm p' (f'.omega.m, f'.omega.n) s' → f = f' ∧ s = s' := by
    intro f f' p p' s s' h1 h2 h3 h4 h5
    obtain ⟨_, h6, h7⟩ := nm_inj h3 h4 h5
    injection h6 with h6 h8
    exact ⟨hn f h1 f' h2 h6 h8, h7⟩
  refine ⟨lookup_of ((mem_moduleDefs ho _).2 ⟨opt, f, hf, .inl rfl⟩) ?_, lookup_of ((mem_moduleDefs ho _).2 ⟨opt, f, hf, .inr (.inl rfl)⟩) ?_,
    lookup_of ((mem_moduleDefs ho _).2 ⟨opt, f, hf, .inr (.inr rfl)⟩) ?_⟩
  all_goals
    intro b' hb'
    obtain ⟨opt', f', hf', h | h | h⟩ := (mem_moduleDefs ho _).1 hb' <;> injection h with h h'
    all_goals
      obtain ⟨rfl, h5⟩ := key hf hf' (by first | exact tSuf_ok _ _ _ | exact aSuf_ok _) (by first | exact tSuf_ok _ _ _ | exact aSuf_ok _) h
      first
        | (obtain ⟨rfl, h6⟩ := tSuf_inj h5
           first | exact h' | (exact absurd h6 (by decide)))
        | exact absurd h5 (tSuf_ne _ _ _ _)
        | exact absurd h5.symm (tSuf_ne _ _ _ _)
        | (obtain rfl := aSuf_inj h5; exact h')

/-! ## Gates -/

/-- The gates of a statement are open. -/
def open' (env : Caller) (e : Entry) : Bool :=
  (decide (e.hRank = 0) || env.h e.hRank) && (decide (e.tRank = 0) || env.t e.tRank) && (decide (e.zRank = 0) || env.z e.zRank)

theorem runZ_eq (env : Caller) (h t : Nat) (l : List ZBlock) :
    ((blocks h t l).filter (open' env)).map (fun e => (e.pref, e.code)) =
      if (h = 0 ∨ env.h h = true) ∧ (t = 0 ∨ env.t t = true) then runZ env l else [] := by
  induction l with
  | nil => simp [blocks, runZ]
  | cons b l ih =>
    have e1 : blocks h t (b :: l) = (b.stmts.flatMap fun s => s.codes.map fun c => ⟨h, t, b.z, s.pref, c⟩) ++ blocks h t l := rfl
    have e2 : runZ env (b :: l) = (if b.z = 0 ∨ env.z b.z = true then runStmts b.stmts else []) ++ runZ env l := rfl
    rw [e1, List.filter_append, List.map_append, ih, e2]
    have e3 : ((b.stmts.flatMap fun s => s.codes.map fun c => (⟨h, t, b.z, s.pref, c⟩ : Entry)).filter (open' env)).map (fun e => (e.pref, e.code)) =
        if ((h = 0 ∨ env.h h = true) ∧ (t = 0 ∨ env.t t = true)) ∧ (b.z = 0 ∨ env.z b.z = true) then runStmts b.stmts else [] := by
      by_cases hc : ((h = 0 ∨ env.h h = true) ∧ (t = 0 ∨ env.t t = true)) ∧ (b.z = 0 ∨ env.z b.z = true)
      · rw [if_pos hc, List.filter_eq_self.2]
        · rw [List.map_flatMap]
          unfold runStmts
          simp [Function.comp_def]
        · intro e he
          simp only [List.mem_flatMap, List.mem_map] at he
          obtain ⟨s, _, c, _, rfl⟩ := he
          simp only [open', Bool.and_eq_true, Bool.or_eq_true, decide_eq_true_eq]
          exact hc
      · rw [if_neg hc, List.filter_eq_nil_iff.2, List.map_nil]
        intro e he
        simp only [List.mem_flatMap, List.mem_map] at he
        obtain ⟨s, _, c, _, rfl⟩ := he
        simp only [open', Bool.and_eq_true, Bool.or_eq_true, decide_eq_true_eq]
        exact hc
    rw [e3]
    by_cases h1 : (h = 0 ∨ env.h h = true) ∧ (t = 0 ∨ env.t t = true)
    · simp only [h1, true_and, and_self, if_true]
    · simp only [h1, false_and, if_false, List.append_nil]

theorem runPart_eq (env : Caller) (p : Part) (hp : ∀ l, p = .code l → ∀ b ∈ l, ∀ q ∈ b.ts, q.1 ≠ 0) :
    runPart env p = ((statements p).filter (open' env)).map fun e => (e.pref, e.code) := by
  cases p with
  | allInvalid => rfl
  | noTerms => rfl
  | code l =>
    have hp := hp l rfl
    simp only [runPart, statements]
    rw [List.filter_flatMap, List.map_flatMap]
    refine List.flatMap_congr fun b hb => ?_
    rw [List.filter_append, List.map_append, runZ_eq, List.filter_flatMap, List.map_flatMap]
    have e1 : (b.ts.flatMap fun q => ((blocks b.h q.1 q.2).filter (open' env)).map fun e => (e.pref, e.code)) =
        b.ts.flatMap fun q => if (b.h = 0 ∨ env.h b.h = true) ∧ env.t q.1 = true then runZ env q.2 else [] := by
      refine List.flatMap_congr fun q hq => ?_
      rw [runZ_eq]
      simp only [hp b hb q hq, false_or]
    rw [e1]
    unfold runH
    by_cases h1 : b.h = 0 ∨ env.h b.h = true
    · simp only [h1, true_and, true_or, and_self, if_true]
    · simp [h1]

theorem write_ts {hMax cc : Nat} {mode : Mode} {ts : List TF.ET.Term} {l : List HBlock} (h : write hMax cc mode ts = .ok (.code l)) :
    ∀ b ∈ l, ∀ q ∈ b.ts, q.1 ≠ 0 := by
  unfold write at h
  split at h
  · cases h
  · split at h
    · cases h
    · split at h
      · cases h
      · rename_i l' hl
        injection h with h
        injection h with h
        subst h
        intro b hb q hq
        obtain ⟨i, _, hi⟩ := TF.CC.forall₂_mem_right (TF.CC.collect_one.1 hl) b hb
        unfold hBlock at hi
        simp only at hi
        split at hi
        · injection hi with hi
          subst hi
          simp only [List.mem_filter, List.mem_map] at hq
          obtain ⟨⟨j, hj, rfl⟩, _⟩ := hq
          have := mem_range2.1 hj
          simp only
          omega
        · cases hi

theorem parts_ts {mode : Mode} {hMax cc K : Nat} {p : Op} {g : Part × Part} (hg : partsOf mode hMax cc K p = .ok g) :
    (∀ l, g.1 = .code l → ∀ b ∈ l, ∀ q ∈ b.ts, q.1 ≠ 0) ∧ (∀ l, g.2 = .code l → ∀ b ∈ l, ∀ q ∈ b.ts, q.1 ≠ 0) := by
  unfold partsOf einsumsOf at hg
  split at hg
  · cases hg
  · split at hg
    · cases hg
    · split at hg
      · cases hg
      · split at hg
        · injection hg with hg
          subst hg
          exact ⟨fun l h => by simp at h, fun l h => by simp at h⟩
        · split at hg
          · cases hg
          · rename_i a ha
            split at hg
            · cases hg
            · rename_i b hb
              injection hg with hg
              subst hg
              exact ⟨fun l h => write_ts (ha.trans (by rw [show a = _ from h])), fun l h => write_ts (hb.trans (by rw [show b = _ from h]))⟩

/-! ## Arguments -/

/-- The caller passes every tensor of the truncated equations. -/
def FullArgs (mode : Mode) (hMax cc : Nat) (env : Caller) : Prop :=
  match mode with
  | .rhs => env.has "t_args" (0, 1) = true ∧ (∀ m n, m + n ≤ hMax → env.has "h_args" (m, n) = true) ∧ ∀ m ≤ cc, env.has "z_args" (m, 0) = true
  | .lhs => env.has "t_conj" (0, 1) = true ∧ (∀ m, 1 ≤ m → m ≤ hMax → env.has "dT" (m, 0) = true) ∧
      (∀ m ≤ cc, env.has "z_args" (m, 0) = true) ∧ ∀ m ≤ cc, env.has "dz_args" (m, 0) = true

theorem evalOperands_cases {env : Caller} {args : List String} {l : List Operand} (h : ∀ o ∈ l, o.name ∈ args) :
    (evalOperands env args l = .ok () ∧ ∀ o ∈ l, env.has o.name (o.m, o.n) = true) ∨
    (evalOperands env args l = .error .key ∧ ∃ o ∈ l, env.has o.name (o.m, o.n) = false) := by
  induction l with
  | nil => exact .inl ⟨rfl, by simp⟩
  | cons o l ih =>
    unfold evalOperands
    rw [if_pos (h o (by simp))]
    cases ho : env.has o.name (o.m, o.n) with
    | false => exact .inr ⟨by simp, o, by simp, ho⟩
    | true =>
      simp only [if_true]
      rcases ih (fun x hx => h x (by simp [hx])) with ⟨h1, h2⟩ | ⟨h1, x, hx, h2⟩
      · exact .inl ⟨h1, by simpa [ho] using h2⟩
      · exact .inr ⟨h1, x, by simp [hx], h2⟩

theorem evalAll_cases {env : Caller} {args : List String} {l : List (Rat × Einsum)} (h : ∀ x ∈ l, ∀ o ∈ x.2.operands, o.name ∈ args) :
    (evalAll env args l = .ok () ∧ ∀ x ∈ l, ∀ o ∈ x.2.operands, env.has o.name (o.m, o.n) = true) ∨
    (evalAll env args l = .error .key ∧ ∃ x ∈ l, ∃ o ∈ x.2.operands, env.has o.name (o.m, o.n) = false) := by
  induction l with
  | nil => exact .inl ⟨rfl, by simp⟩
  | cons x l ih =>
    unfold evalAll
    rcases evalOperands_cases (env := env) (h x (by simp)) with ⟨h1, h2⟩ | ⟨h1, h2⟩
    · rw [h1]
      simp only
      rcases ih (fun y hy => h y (by simp [hy])) with ⟨h3, h4⟩ | ⟨h3, y, hy, h4⟩
      · refine .inl ⟨h3, fun y hy => ?_⟩
        rcases List.mem_cons.1 hy with rfl | hy
        · exact h2
        · exact h4 y hy
      · exact .inr ⟨h3, y, by simp [hy], h4⟩
    · rw [h1]
      exact .inr ⟨rfl, x, by simp, h2⟩

/-- The operands of a statement: names and keys. -/
theorem operands_of {gs : Bool} {mode : Mode} {hMax cc K pMax : Nat} (hcc1 : 1 ≤ cc) (hcc : cc ≤ 6) (hK : 1 ≤ K) {m : Module}
    (hm : module gs mode hMax cc 1 K pMax = .ok m) {f : Fns} (hf : f ∈ m.default) {e : Entry} (he : e ∈ allStatements f.ground) {o : Operand}
    (ho : o ∈ e.code.operands) : o.name ∈ argNames mode ∧ ∀ env, FullArgs mode hMax cc env → env.has o.name (o.m, o.n) = true := by
  obtain ⟨k, hk, h, hh, htk, z, hz, _, _, _, _, cs, hne, _, hcs, _⟩ := eT_python_statements hcc1 hcc hK hm hf he
  obtain ⟨c, hc⟩ := List.exists_mem_of_ne_nil cs hne
  obtain ⟨_, σ, lab, hr⟩ := (hcs c).1 hc
  rw [hr.operands] at ho
  obtain ⟨q, hq, rfl⟩ := List.mem_map.1 ho
  have h1 := Zhz.mem_prunedH.1 hh
  have h2 := Zhz.mem_zOps hz
  have h3 := h2.2.2 rfl
  cases q with
  | lhs =>
    exfalso
    unfold factors at hq
    simp only [List.mem_append, List.mem_singleton] at hq
    rcases hq with hq | hq | hq
    · split at hq
      · simp at hq
      · simp at hq
    · split at hq <;> simp at hq
    · simp at hq
  | t i =>
    cases mode with
    | rhs => exact ⟨by simp [operand, argNames], fun env he => he.1⟩
    | lhs => exact ⟨by simp [operand, argNames], fun env he => he.1⟩
  | h =>
    cases mode with
    | rhs => exact ⟨by simp [operand, argNames], fun env he => he.2.1 h.m h.n (by omega)⟩
    | lhs =>
      refine ⟨by simp [operand, argNames], fun env he => ?_⟩
      have h4 := htk rfl
      have h5 : ¬ onZ .lhs h := by
        intro hz
        unfold factors at hq
        rw [if_pos hz] at hq
        simp only [List.nil_append, List.mem_append, List.mem_singleton, reduceCtorEq, or_false] at hq
        split at hq
        · simp at hq
        · simp at hq
      unfold onZ at h5
      have h6 : h.m ≠ 0 := fun h0 => h5 ⟨rfl, h0, h4⟩
      show env.has "dT" (h.m, h.n) = true
      rw [h4]
      exact he.2.1 _ (by omega) (by omega)
  | z =>
    cases mode with
    | rhs =>
      have e1 : ¬ onZ .rhs h := by simp [onZ]
      refine ⟨by simp [operand, argNames, e1], fun env he => ?_⟩
      simp only [operand, if_neg e1, h3]
      exact he.2.2 _ (by omega)
    | lhs =>
      by_cases e1 : onZ .lhs h
      · refine ⟨by simp [operand, argNames, e1], fun env he => ?_⟩
        simp only [operand, if_pos e1, h3]
        exact he.2.2.2 _ (by omega)
      · refine ⟨by simp [operand, argNames, e1], fun env he => ?_⟩
        simp only [operand, if_neg e1, h3]
        exact he.2.2.1 _ (by omega)

/-! ## The calls -/

/-- the names of the orders -/
def orderNames : List String := ["singles", "doubles", "triples", "quadruples", "quintuples", "sextuples"]

theorem confirms_eq {p : Op} (hm : p.m = 0) (hn : p.n ≤ 6) : confirms p = orderNames.take (max 1 p.n) := by
  unfold confirms
  rw [hm]
  generalize p.n = n at hn
  interval_cases n <;> rfl

theorem module_facts {gs : Bool} {mode : Mode} {hMax cc K pMax : Nat} (hcc : cc ≤ 6) (hK : 1 ≤ K) {m : Module}
    (hm : module gs mode hMax cc 1 K pMax = .ok m) :
    m.optimised = m.default ∧ (∀ f ∈ m.default, ∀ f' ∈ m.default, f.omega.m = f'.omega.m → f.omega.n = f'.omega.n → f = f') ∧
    ∀ f ∈ m.default, f.omega.m = 0 ∧ f.omega.rank = f.omega.n ∧ f.omega.n ≤ 6 ∧ f.excited = (if gs then none else some f.ground) ∧
      (∀ l, f.ground.1 = .code l → ∀ b ∈ l, ∀ q ∈ b.ts, q.1 ≠ 0) ∧ (∀ l, f.ground.2 = .code l → ∀ b ∈ l, ∀ q ∈ b.ts, q.1 ≠ 0) := by
  obtain ⟨s1, s2, s3⟩ := eT_python_state hK hm
  refine ⟨s1, ?_, ?_⟩
  · intro f hf f' hf' e1 e2
    have : (m.default.map fun f => (f.omega.m, f.omega.n)).Nodup := by
      rw [s3]
      exact List.nodup_range.map fun a b h => by simpa using h
    exact List.inj_on_of_nodup_map this hf hf' (by simp [e1, e2])
  · intro f hf
    have hx := s2 f hf
    obtain ⟨g, hg, rfl⟩ := (module_iff hK).1 hm
    obtain ⟨p, hp, rfl⟩ := List.mem_map.1 hf
    have hpm := mem_projections hp
    have hts := parts_ts (hg p hp)
    exact ⟨hpm.1, hpm.2.1, by show p.n ≤ 6; omega, hx, hts.1, hts.2⟩

/-- what the two functions add -/
def addedBy (env : Caller) (g : Part × Part) : List (Rat × Einsum) :=
  ((allStatements g).filter (open' env)).map fun e => (e.pref, e.code)

theorem amplitude_names (n : Nat) (opt : Option Nat) :
    "compute_m0_n" ++ toString n ++ "_amplitude" ++ (if opt.isSome then "_optimized" else "") = nm false (0, n) (aSuf opt.isSome) := by
  apply String.toList_injective
  cases opt <;> simp [nm, aSuf]

/-- The call in full: which exception is raised, or what is returned. -/
theorem callAmplitude_eq {gs : Bool} {mode : Mode} {hMax cc K pMax : Nat} (hcc1 : 1 ≤ cc) (hcc : cc ≤ 6) (hK : 1 ≤ K) {m : Module}
    (hm : module gs mode hMax cc 1 K pMax = .ok m) {f : Fns} (hf : f ∈ m.default) (env : Caller) (opt : Option Nat) :
    let r := callAmplitude (moduleDefs mode m) env ("compute_m0_n" ++ toString f.omega.n ++ "_amplitude" ++ (if opt.isSome then "_optimized" else "")) opt
    if (orderNames.take (max 1 f.omega.n)).all env.confirm then
      if opt = none ∨ opt = some 2 then
        if env.ground = true ∨ gs = false then
          (r = .ok (f.omega.n, addedBy env f.ground) ∧ ∀ x ∈ addedBy env f.ground, ∀ o ∈ x.2.operands, env.has o.name (o.m, o.n) = true) ∨
          (r = .error .key ∧ ∃ x ∈ addedBy env f.ground, ∃ o ∈ x.2.operands, env.has o.name (o.m, o.n) = false)
        else r = .error .notImplemented
      else r = .error .value
    else r = .error .exception := by
  intro r
  obtain ⟨s1, s2, s3⟩ := module_facts hcc hK hm
  obtain ⟨f1, f2, f3, f4, f5, f6⟩ := s3 f hf
  obtain ⟨l0, l1, la⟩ := lookups (mode := mode) s1 s2 hf opt.isSome
  have hr : r = callAmplitude (moduleDefs mode m) env (nm false (f.omega.m, f.omega.n) (aSuf opt.isSome)) opt := by
    show callAmplitude _ _ _ _ = _
    rw [amplitude_names, f1]
  clear_value r
  subst hr
  unfold callAmplitude
  rw [la]
  simp only [if_true, confirms_eq f1 f3]
  cases hcf : (orderNames.take (max 1 f.omega.n)).all env.confirm with
  | false => simp
  | true =>
    simp only [if_true]
    by_cases ho : opt = none ∨ opt = some 2
    · simp only [if_pos ho]
      have hsel : ∀ (q : Part × Part → Part) , (if env.ground then some (q f.ground) else f.excited.map q) =
          if env.ground = true ∨ gs = false then some (q f.ground) else none := by
        intro q
        rw [f4]
        cases env.ground <;> cases gs <;> simp
      by_cases hg : env.ground = true ∨ gs = false
      · rw [if_pos hg]
        have hn1 : ∀ x ∈ runPart env f.ground.1, ∀ o ∈ x.2.operands, o.name ∈ argNames mode := by
          intro x hx o ho
          rw [runPart_eq env _ f5] at hx
          obtain ⟨e, he, rfl⟩ := List.mem_map.1 hx
          exact (operands_of hcc1 hcc hK hm hf (List.mem_append.2 (.inl (List.mem_filter.1 he).1)) ho).1
        have hn2 : ∀ x ∈ runPart env f.ground.2, ∀ o ∈ x.2.operands, o.name ∈ argNames mode := by
          intro x hx o ho
          rw [runPart_eq env _ f6] at hx
          obtain ⟨e, he, rfl⟩ := List.mem_map.1 hx
          exact (operands_of hcc1 hcc hK hm hf (List.mem_append.2 (.inr (List.mem_filter.1 he).1)) ho).1
        have hadd : addedBy env f.ground = runPart env f.ground.1 ++ runPart env f.ground.2 := by
          unfold addedBy allStatements
          rw [List.filter_append, List.map_append, runPart_eq env _ f5, runPart_eq env _ f6]
        have h1 := hsel Prod.fst
        have h2 := hsel Prod.snd
        rw [if_pos hg] at h1 h2
        simp only [callAll, callTerms, l0, l1, if_true, h1, h2]
        rw [hadd]
        rcases evalAll_cases (env := env) hn1 with ⟨a1, a2⟩ | ⟨a1, x, hx, a2⟩
        · rw [a1]
          simp only
          rcases evalAll_cases (env := env) hn2 with ⟨b1, b2⟩ | ⟨b1, x, hx, b2⟩
          · rw [b1]
            simp only [List.append_nil, f2, true_and]
            refine .inl fun x hx => ?_
            rcases List.mem_append.1 hx with hx | hx
            · exact a2 x hx
            · exact b2 x hx
          · rw [b1]
            exact .inr ⟨rfl, x, List.mem_append.2 (.inr hx), b2⟩
        · rw [a1]
          exact .inr ⟨rfl, x, List.mem_append.2 (.inl hx), a2⟩
      · rw [if_neg hg]
        have h1 := hsel Prod.fst
        rw [if_neg hg] at h1
        simp only [callAll, callTerms, l0, if_true, h1]
    · simp only [if_neg ho]

/-! ## C70 -/

theorem existsUnique_index {α : Type} {P : α → Prop} [DecidablePred P] (l : List α) : (∃! i : Fin l.length, P l[i]) ↔ l.countP P = 1 := by
  induction l with
  | nil =>
    simp only [List.countP_nil]
    constructor
    · rintro ⟨i, _⟩; exact i.elim0
    · intro h; omega
  | cons a l ih =>
    rw [List.countP_cons]
    by_cases ha : P a
    · simp only [ha, decide_true, if_true]
      constructor
      · rintro ⟨i, _, hu⟩
        have h0 := hu ⟨0, by simp⟩ ha
        have : l.countP P = 0 := by
          rw [List.countP_eq_zero]
          intro x hx hxP
          obtain ⟨j, hj, rfl⟩ := List.getElem_of_mem hx
          have h1 := hu ⟨j + 1, by simpa using hj⟩ (by simpa using hxP)
          rw [← h0] at h1
          simp at h1
        omega
      · intro h
        have h0 : l.countP P = 0 := by omega
        rw [List.countP_eq_zero] at h0
        refine ⟨⟨0, by simp⟩, ha, ?_⟩
        rintro ⟨j, hj⟩ hP
        cases j with
        | zero => rfl
        | succ j =>
          exfalso
          have hj' : j < l.length := by simpa using hj
          exact h0 l[j] (List.getElem_mem hj') (by simpa using hP)
    · simp only [ha, decide_false, Bool.false_eq_true, if_false, Nat.add_zero, ← ih]
      constructor
      · rintro ⟨⟨j, hj⟩, hP, hu⟩
        cases j with
        | zero => exact absurd hP ha
        | succ j =>
          have hj' : j < l.length := by simpa using hj
          refine ⟨⟨j, hj'⟩, by simpa using hP, ?_⟩
          rintro ⟨i, hi⟩ hPi
          have := hu ⟨i + 1, by simpa using hi⟩ (by simpa using hPi)
          simp only [Fin.mk.injEq, Nat.add_right_cancel_iff] at this
          exact Fin.ext this
      · rintro ⟨⟨j, hj⟩, hP, hu⟩
        refine ⟨⟨j + 1, by simpa using hj⟩, by simpa using hP, ?_⟩
        rintro ⟨i, hi⟩ hPi
        cases i with
        | zero => exact absurd hPi ha
        | succ i =>
          have hi' : i < l.length := by simpa using hi
          have := hu ⟨i, hi'⟩ (by simpa using hPi)
          simp only [Fin.mk.injEq] at this
          exact Fin.ext (by simpa using this)

/-- The statement that computes a contraction of these factors stands under the gates of their ranks. -/
theorem gates_of {gs : Bool} {mode : Mode} {hMax cc K pMax : Nat} (hcc1 : 1 ≤ cc) (hcc : cc ≤ 6) (hK : 1 ≤ K) {m : Module}
    (hm : module gs mode hMax cc 1 K pMax = .ok m) {f : Fns} (hf : f ∈ m.default) {k : Nat} {h : HOp} {z : Op} (hz : z ∈ Zhz.zOps cc true)
    {c : Pl k → Pl k → Nat} (hc : Contraction f.omega k h z c) {e : Entry} (he : e ∈ allStatements f.ground)
    (hcomp : Computes e.code mode f.omega k h z c) :
    e.hRank = max h.m h.n ∧ e.tRank = (if k = 0 then 0 else 1) ∧ e.zRank = z.m := by
  obtain ⟨g, hg, rfl⟩ := (module_iff hK).1 hm
  obtain ⟨p, hp, rfl⟩ := List.mem_map.1 hf
  have hpm := mem_projections hp
  obtain ⟨_, _, m0, m1⟩ := statements_parts hpm.1 (by omega) hcc hcc1 (hg p hp)
  have : ∃ k', EntryAt mode hMax cc p k' e := by
    simp only [allStatements, fnOf, List.mem_append] at he
    rcases he with he | he
    · exact ⟨0, (m0 e).1 he⟩
    · obtain ⟨k', _, h2⟩ := (m1 e).1 he
      exact ⟨k', h2⟩
  obtain ⟨k', h', hh', z', hz', c', hc', _, rfl⟩ := this
  have hzn := (groundZ cc).n z hz
  have hzn' := (groundZ cc).n z' hz'
  have n' := nums_of_facts (contraction_facts hpm.1 hzn' hc')
  obtain ⟨e1, e2, e3, e4, _, _⟩ := of_computes hpm.1 hzn hc n' (capacity hcc (mem_taking.1 hh').1 hz' n') (by omega) hzn' hcomp
  subst e1
  exact ⟨by show max h'.m h'.n = _; rw [e2, e3], rfl, e4.symm⟩

/-- The truncation object asks for the terms with these ranks. -/
def Asked (env : Caller) (k : Nat) (h : HOp) (z : Op) : Prop :=
  (max h.m h.n = 0 ∨ env.h (max h.m h.n) = true) ∧ (k = 0 ∨ env.t 1 = true) ∧ (z.m = 0 ∨ env.z z.m = true)

/-- **C70.** A call of `compute_m0_n_amplitude` of a generated module raises unless the truncation confirms all
orders up to `n` (at least singles), raises `NotImplementedError` for hot bands if the module was generated for
the ground state only, and otherwise, if the caller passes all tensors, returns a tensor with `n` vibrational
axes to which exactly this was added: each contraction the truncation object asks for (except the
derivative of z itself) is computed by exactly one of the added products, the others by none, and each
product has the sum of the weights of the contractions it computes as prefactor. -/
theorem eT_amplitude_run {gs : Bool} {mode : Mode} {hMax cc K pMax : Nat} (hcc1 : 1 ≤ cc) (hcc : cc ≤ 6) (hK : 1 ≤ K) {m : Module}
    (hm : module gs mode hMax cc 1 K pMax = .ok m) {f : Fns} (hf : f ∈ m.default) (env : Caller) :
    ((orderNames.take (max 1 f.omega.n)).all env.confirm = false →
      callAmplitude (moduleDefs mode m) env ("compute_m0_n" ++ toString f.omega.n ++ "_amplitude") none = .error .exception) ∧
    ((orderNames.take (max 1 f.omega.n)).all env.confirm = true → env.ground = false → gs = true →
      callAmplitude (moduleDefs mode m) env ("compute_m0_n" ++ toString f.omega.n ++ "_amplitude") none = .error .notImplemented) ∧
    ((orderNames.take (max 1 f.omega.n)).all env.confirm = true → (env.ground = true ∨ gs = false) → FullArgs mode hMax cc env →
      ∃ r, callAmplitude (moduleDefs mode m) env ("compute_m0_n" ++ toString f.omega.n ++ "_amplitude") none = .ok (f.omega.n, r) ∧
        (∀ k ≤ K, ∀ h ∈ Zhz.prunedH hMax, Takes mode h → ∀ z ∈ Zhz.zOps cc true, ∀ c : Pl k → Pl k → Nat, Contraction f.omega k h z c →
          ¬ IsDerivative f.omega k h z →
          (Asked env k h z → ∃! i : Fin r.length, Computes r[i].2 mode f.omega k h z c) ∧
          (¬ Asked env k h z → ∀ x ∈ r, ¬ Computes x.2 mode f.omega k h z c)) ∧
        ∀ x ∈ r, ∃ k ≤ K, ∃ h ∈ Zhz.prunedH hMax, Takes mode h ∧ ∃ z ∈ Zhz.zOps cc true, ¬ IsDerivative f.omega k h z ∧ Asked env k h z ∧
          ∃ cs, cs ≠ [] ∧ cs.Nodup ∧ (∀ c, c ∈ cs ↔ Contraction f.omega k h z c ∧ Computes x.2 mode f.omega k h z c) ∧
            x.1 = (cs.map weight).sum) := by
  have hcall := callAmplitude_eq hcc1 hcc hK hm hf env none
  have e0 : "compute_m0_n" ++ toString f.omega.n ++ "_amplitude" ++ (if (none : Option Nat).isSome then "_optimized" else "") =
      "compute_m0_n" ++ toString f.omega.n ++ "_amplitude" := by
    rw [Option.isSome_none]
    exact String.append_empty
  rw [e0] at hcall
  simp only [true_or, if_true] at hcall
  refine ⟨fun h => ?_, fun h h1 h2 => ?_, fun h h1 hfull => ?_⟩
  · rw [h] at hcall; exact hcall
  · rw [h, h1, h2] at hcall; exact hcall
  · rw [h, if_pos rfl, if_pos h1] at hcall
    have hok : callAmplitude (moduleDefs mode m) env ("compute_m0_n" ++ toString f.omega.n ++ "_amplitude") none = .ok (f.omega.n, addedBy env f.ground) := by
      rcases hcall with hcall | ⟨_, x, hx, o, ho, hno⟩
      · exact hcall.1
      · obtain ⟨e, he, rfl⟩ := List.mem_map.1 hx
        rw [(operands_of hcc1 hcc hK hm hf (List.mem_filter.1 he).1 ho).2 env hfull] at hno
        cases hno
    have hasked : ∀ {k : Nat} {h : HOp} {z : Op} {e : Entry}, e.hRank = max h.m h.n → e.tRank = (if k = 0 then 0 else 1) → e.zRank = z.m →
        (open' env e = true ↔ Asked env k h z) := by
      intro k h z e e1 e2 e3
      unfold open' Asked
      simp only [Bool.and_eq_true, Bool.or_eq_true, decide_eq_true_eq, e1, e2, e3, and_assoc]
      by_cases hk : k = 0
      · simp [hk]
      · simp [hk]
    refine ⟨_, hok, ?_, ?_⟩
    · intro k hk h hh htk z hz c hc hd
      have hg := @gates_of gs mode hMax cc K pMax hcc1 hcc hK m hm f hf k h z hz c hc
      constructor
      · intro hask
        classical
        have h1 := eT_python_exactly_once hcc1 hcc hK hm hf hk hh htk hz hc hd
        rw [existsUnique_index (P := fun e : Entry => Computes e.code mode f.omega k h z c)] at h1
        rw [existsUnique_index (P := fun x : Rat × Einsum => Computes x.2 mode f.omega k h z c)]
        unfold addedBy
        rw [List.countP_map, List.countP_filter, ← h1]
        refine List.countP_congr fun e he => ?_
        simp only [Function.comp, Bool.and_eq_true, decide_eq_true_eq]
        constructor
        · exact fun h => h.1
        · intro hcomp
          obtain ⟨e1, e2, e3⟩ := hg he hcomp
          exact ⟨hcomp, (hasked e1 e2 e3).2 hask⟩
      · intro hask x hx hcomp
        obtain ⟨e, he, rfl⟩ := List.mem_map.1 hx
        obtain ⟨he, hop⟩ := List.mem_filter.1 he
        obtain ⟨e1, e2, e3⟩ := hg he hcomp
        exact hask ((hasked e1 e2 e3).1 hop)
    · intro x hx
      obtain ⟨e, he, rfl⟩ := List.mem_map.1 hx
      obtain ⟨he, hop⟩ := List.mem_filter.1 he
      obtain ⟨k, hk, h, hh, htk, z, hz, hd, e1, e2, e3, rest⟩ := eT_python_statements hcc1 hcc hK hm hf he
      exact ⟨k, hk, h, hh, htk, z, hz, hd, (hasked e1 e2 e3).1 hop, rest⟩

/-- **C70.** A missing tensor gives `KeyError`, and only a tensor that is used can be missing; no name is
undefined and no argument list wrong, whatever the caller passes. -/
theorem eT_amplitude_errors {gs : Bool} {mode : Mode} {hMax cc K pMax : Nat} (hcc1 : 1 ≤ cc) (hcc : cc ≤ 6) (hK : 1 ≤ K) {m : Module}
    (hm : module gs mode hMax cc 1 K pMax = .ok m) {f : Fns} (hf : f ∈ m.default) (env : Caller) {e : PyErr}
    (h : callAmplitude (moduleDefs mode m) env ("compute_m0_n" ++ toString f.omega.n ++ "_amplitude") none = .error e) :
    e = .exception ∨ e = .notImplemented ∨ (e = .key ∧ ∃ s ∈ allStatements f.ground, ∃ o ∈ s.code.operands, env.has o.name (o.m, o.n) = false) := by
  have hcall := callAmplitude_eq hcc1 hcc hK hm hf env none
  have e0 : "compute_m0_n" ++ toString f.omega.n ++ "_amplitude" ++ (if (none : Option Nat).isSome then "_optimized" else "") =
      "compute_m0_n" ++ toString f.omega.n ++ "_amplitude" := by
    rw [Option.isSome_none]
    exact String.append_empty
  rw [e0] at hcall
  simp only [true_or, if_true, h] at hcall
  split at hcall
  · split at hcall
    · rcases hcall with ⟨h1, _⟩ | ⟨h1, x, hx, o, ho, hno⟩
      · cases h1
      · injection h1 with h1
        obtain ⟨s, hs, rfl⟩ := List.mem_map.1 hx
        exact .inr (.inr ⟨h1, s, (List.mem_filter.1 hs).1, o, ho, hno⟩)
    · injection hcall with h1; exact .inr (.inl h1)
  · injection hcall with h1; exact .inl h1

/-! ## C71 -/

/-- **C71.** `compute_m0_n_amplitude_optimized` with any `opt_paths` of length two does exactly what
`compute_m0_n_amplitude` does: the paths are never used.  Any other length raises `ValueError`. -/
theorem eT_optimised_run_partial {gs : Bool} {mode : Mode} {hMax cc K pMax : Nat} (hcc1 : 1 ≤ cc) (hcc : cc ≤ 6) (hK : 1 ≤ K) {m : Module}
    (hm : module gs mode hMax cc 1 K pMax = .ok m) {f : Fns} (hf : f ∈ m.default) (env : Caller) :
    callAmplitude (moduleDefs mode m) env ("compute_m0_n" ++ toString f.omega.n ++ "_amplitude_optimized") (some 2) =
      callAmplitude (moduleDefs mode m) env ("compute_m0_n" ++ toString f.omega.n ++ "_amplitude") none ∧
    ∀ l, l ≠ 2 → (orderNames.take (max 1 f.omega.n)).all env.confirm = true →
      callAmplitude (moduleDefs mode m) env ("compute_m0_n" ++ toString f.omega.n ++ "_amplitude_optimized") (some l) = .error .value := by
  have e0 : "compute_m0_n" ++ toString f.omega.n ++ "_amplitude" ++ (if (none : Option Nat).isSome then "_optimized" else "") =
      "compute_m0_n" ++ toString f.omega.n ++ "_amplitude" := by
    rw [Option.isSome_none]
    exact String.append_empty
  have e1 : ∀ l, "compute_m0_n" ++ toString f.omega.n ++ "_amplitude" ++ (if (some l : Option Nat).isSome then "_optimized" else "") =
      "compute_m0_n" ++ toString f.omega.n ++ "_amplitude_optimized" := by
    intro l
    rw [Option.isSome_some, if_pos rfl, String.append_assoc]
    rfl
  constructor
  · have h1 := callAmplitude_eq hcc1 hcc hK hm hf env none
    have h2 := callAmplitude_eq hcc1 hcc hK hm hf env (some 2)
    rw [e0] at h1
    rw [e1] at h2
    simp only [true_or, or_true, if_true] at h1 h2
    generalize callAmplitude (moduleDefs mode m) env ("compute_m0_n" ++ toString f.omega.n ++ "_amplitude") none = r1 at h1 ⊢
    generalize callAmplitude (moduleDefs mode m) env ("compute_m0_n" ++ toString f.omega.n ++ "_amplitude_optimized") (some 2) = r2 at h2 ⊢
    split at h1
    · rename_i hc
      rw [if_pos hc] at h2
      split at h1
      · rename_i hg
        rw [if_pos hg] at h2
        rcases h1 with ⟨a, b⟩ | ⟨a, x, hx, o, ho, b⟩ <;> rcases h2 with ⟨a', b'⟩ | ⟨a', x', hx', o', ho', b'⟩
        · rw [a, a']
        · rw [b x' hx' o' ho'] at b'; cases b'
        · rw [b' x hx o ho] at b; cases b
        · rw [a, a']
      · rename_i hg
        rw [if_neg hg] at h2
        rw [h1, h2]
    · rename_i hc
      rw [if_neg hc] at h2
      rw [h1, h2]
  · intro l hl hc
    have h2 := callAmplitude_eq hcc1 hcc hK hm hf env (some l)
    rw [e1] at h2
    simp only [hc, if_true] at h2
    rw [if_neg (by simpa using hl)] at h2
    exact h2

/-- **C71, what is missing.** No function of the module returns paths: the names are those of the term
functions and of the amplitude functions, default and optimised. -/
theorem eT_no_paths_function {gs : Bool} {mode : Mode} {hMax cc K pMax : Nat} (hcc : cc ≤ 6) (hK : 1 ≤ K) {m : Module}
    (hm : module gs mode hMax cc 1 K pMax = .ok m) (name : String) :
    (∃ b, (name, b) ∈ moduleDefs mode m) ↔ ∃ f ∈ m.default, ∃ opt : Bool,
      name = termsName mode opt f.omega "HZ" ∨ name = termsName mode opt f.omega "eT_HZ" ∨
      name = "compute_m0_n" ++ toString f.omega.n ++ "_amplitude" ++ (if opt then "_optimized" else "") := by
  obtain ⟨s1, s2, s3⟩ := module_facts hcc hK hm
  have ea : ∀ f ∈ m.default, ∀ opt : Bool, "compute_m0_n" ++ toString f.omega.n ++ "_amplitude" ++ (if opt then "_optimized" else "") =
      nm false (f.omega.m, f.omega.n) (aSuf opt) := by
    intro f hf opt
    rw [(s3 f hf).1]
    have := amplitude_names f.omega.n (if opt then some 0 else none)
    cases opt <;> exact this
  have e1 : ∀ (p : Op) opt, termsName mode opt p "HZ" = nm (isRhs mode) (p.m, p.n) (tSuf mode opt false) := fun p opt => termsName_eq mode opt false p
  have e2 : ∀ (p : Op) opt, termsName mode opt p "eT_HZ" = nm (isRhs mode) (p.m, p.n) (tSuf mode opt true) := fun p opt => termsName_eq mode opt true p
  constructor
  · rintro ⟨b, hb⟩
    obtain ⟨opt, f, hf, h | h | h⟩ := (mem_moduleDefs s1 _).1 hb <;> injection h with h _
    · exact ⟨f, hf, opt, .inl (by rw [e1]; exact h)⟩
    · exact ⟨f, hf, opt, .inr (.inl (by rw [e2]; exact h))⟩
    · exact ⟨f, hf, opt, .inr (.inr (by rw [ea f hf]; exact h))⟩
  · rintro ⟨f, hf, opt, h | h | h⟩
    · exact ⟨_, (mem_moduleDefs s1 _).2 ⟨opt, f, hf, .inl (by rw [h, e1])⟩⟩
    · exact ⟨_, (mem_moduleDefs s1 _).2 ⟨opt, f, hf, .inr (.inl (by rw [h, e2]))⟩⟩
    · exact ⟨_, (mem_moduleDefs s1 _).2 ⟨opt, f, hf, .inr (.inr (by rw [h, ea f hf]))⟩⟩

/-! ## Non-trivial cases -/

/-- a caller that passes everything, with all gates open -/
def exCaller : Caller := ⟨true, fun _ => true, fun _ => true, fun _ => true, fun _ => true, fun _ _ => true⟩

example (mode : Mode) : FullArgs mode 2 2 exCaller := by cases mode <;> simp [FullArgs, exCaller]

/-- The hypotheses of C70 are met and the result is not empty: with all gates open the function of the
single projection operator adds a product for the contraction of `h_(0, 1)` and `z_2`. -/
example : ∃ m f r, module true .rhs 2 2 1 2 2 = .ok m ∧ f ∈ m.default ∧ f.omega.n = 1 ∧
    callAmplitude (moduleDefs .rhs m) exCaller "compute_m0_n1_amplitude" none = .ok (1, r) ∧ r ≠ [] := by
  obtain ⟨m, hm⟩ := ok_two true .rhs
  obtain ⟨g, hg, rfl⟩ := (module_iff (by decide)).1 hm
  obtain ⟨p, hp, p1, p2⟩ := exists_projection (cc := 2) (pMax := 2) (n := 1) (by omega) (by omega)
  have hf : fnOf true g p ∈ (projections 2 2).map (fnOf true g) := List.mem_map.2 ⟨p, hp, rfl⟩
  obtain ⟨_, _, h3⟩ := eT_amplitude_run (by decide) (by decide) (by decide) hm hf exCaller
  have hall : ((orderNames.take (max 1 (fnOf true g p).omega.n)).all exCaller.confirm) = true := by
    rw [List.all_eq_true]; intro x _; rfl
  obtain ⟨r, hr, h4, _⟩ := h3 hall (.inl rfl) (by simp [FullArgs, exCaller])
  have ep : (fnOf true g p).omega.n = 1 := p2
  rw [ep] at hr
  refine ⟨_, _, r, hm, hf, p2, hr, ?_⟩
  obtain ⟨h, hh, z, hz, a1, a2, a3, c, hc, _, _, _⟩ := exists_entry (mode := .rhs) (hMax := 2) (cc := 2) (p := p) p1 (k := 0) (hm := 0) (hn := 1) (zm := 2)
    (j := 0) (hl := 0) (zl := 1) ⟨by omega, by omega⟩ (by simp) (by omega) ⟨by omega, by omega, by omega, by omega⟩ (by omega)
  obtain ⟨h5, _⟩ := h4 0 (by decide) h (mem_taking.1 hh).1 (mem_taking.1 hh).2 z hz c hc (by rintro ⟨_, _, h, _⟩; omega)
  obtain ⟨i, _, _⟩ := h5 (by simp [Asked, exCaller])
  intro h0
  subst h0
  exact i.elim0

end TF.ETPy
