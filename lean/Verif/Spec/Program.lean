import Verif.Model.Program
import Verif.Spec.Glue

/-!
# Specification vocabulary for runs of the driver

A command line is a list of options with their values, in any order; which runs end with a file of equations.
-/

namespace TF.Spec.Program

open TF.Program

/-- an option with its values; `long` selects the long spelling -/
inductive Item
  | logPath (long : Bool) (s : String)
  | stdlog (long : Bool)
  | t (first : Int) (rest : List Int)
  | ansatz (long : Bool) (s : String)
  | excited (long : Bool)
  | removeF (long : Bool) (s : String)
  | code (long : Bool)
  | lhs
  | path (long : Bool) (s : String)

/-- the words of an option -/
def Item.words : Item → List String
  | .logPath b s => [if b then "--log_path" else "-l", s]
  | .stdlog b => [if b then "--stdlog" else "-s"]
  | .t i l => "-t" :: (i :: l).map fun x => toString x
  | .ansatz b s => [if b then "--ansatz" else "-a", s]
  | .excited b => [if b then "--excited_state" else "-es"]
  | .removeF b s => [if b then "--remove_f_terms" else "-rf", s]
  | .code b => [if b then "--code" else "-c"]
  | .lhs => ["-lhs"]
  | .path b s => [if b then "--path" else "-p", s]

/-- the values do not start with a dash -/
def Item.Plain : Item → Prop
  | .logPath _ s => s.toList.head? ≠ some '-'
  | .ansatz _ s => s.toList.head? ≠ some '-'
  | .removeF _ s => s.toList.head? ≠ some '-'
  | .path _ s => s.toList.head? ≠ some '-'
  | _ => True

/-- what an option sets: a repeated option overwrites -/
def Item.set : Item → Parsed → Parsed
  | .logPath _ s, a => { a with logPath := s }
  | .stdlog _, a => { a with stdlog := true }
  | .t i l, a => { a with t := some (i :: l) }
  | .ansatz _ s, a => { a with ansatz := some s }
  | .excited _, a => { a with excited := true }
  | .removeF _ s, a => { a with removeF := some s }
  | .code _, a => { a with code := true }
  | .lhs, a => { a with lhs := true }
  | .path _ s, a => { a with path := some s }

/-- `1 ≤ i ≤ m` -/
def Between (i m : Int) : Prop := 1 ≤ i ∧ i ≤ m

/-- Which runs with `-t` end with a file of equations. -/
def Writes (excited code lhs : Bool) : List Int → Prop
  -- z_t: LaTeX only
  | [_, cc, p] => code = false ∧ (cc < 0 ∨ p < 0 ∨ (excited = false ∧ (cc ≤ 8 ∨ p ≤ 8)))
  -- full cc
  | [h, cc, s, p] => Between h 6 ∧ Between cc 6 ∧ Between s 6 ∧ Between p 6 ∧ (code = false → cc ≤ 3 ∨ p ≤ 3) ∧ (code = true → h ≤ 5)
  -- eT_z_t
  | [h, cc, t, k, p] => Between h 6 ∧ Between cc 6 ∧ t = 1 ∧ Between k 8 ∧ Between p 6 ∧ (code = false → excited = false) ∧
      (code = true → h ≤ 5 ∧ ¬ (cc = 6 ∧ 6 ≤ p + k + if lhs then 0 else h))
  | _ => False

end TF.Spec.Program

namespace TF.Spec.Program

open TF.Program TF.Trunc

/-- the entries of `../truncs.json` -/
def savedEntries : List Int → List (String × JVal)
  | [h, cc, p] => [("maximum_hamiltonian_rank", .int h), ("maximum_coupled_cluster_rank", .int cc), ("omega_max_order", .int p)]
  | [h, cc, s, p] => [("maximum_hamiltonian_rank", .int h), ("maximum_coupled_cluster_rank", .int cc), ("s_taylor_max_order", .int s), ("omega_max_order", .int p)]
  | [h, cc, t, k, p] => [("maximum_hamiltonian_rank", .int h), ("maximum_coupled_cluster_rank", .int cc), ("maximum_T_rank", .int t), ("eT_taylor_max_order", .int k), ("omega_max_order", .int p)]
  | _ => []

/-- the documented ranges of the values -/
def maxima : Nat → List Int
  | 3 => [6, 6, 6]
  | 4 => [6, 6, 6, 6]
  | 5 => [6, 6, 1, 8, 6]
  | _ => []

/-- `-a` is absent, empty or names the ansatz with this number of values -/
def AnsatzFits (a : Option String) (n : Nat) : Prop := a = none ∨ a = some "" ∨ ∃ s, TF.Spec.ansatzOf n = some s ∧ a = some s

/-- the name of a file whose name is made of the flags -/
def flagName (gs rf lhs : Bool) (kind rhsWord lhsWord ext : String) : String :=
  "./" ++ (if gs then "ground_state_" else "") ++ kind ++ (if lhs then lhsWord else rhsWord) ++ (if rf then "_no_f_terms" else "") ++ ext

/-- The file of equations: its name and what its generator makes of the values (the theorems about the generators say what that is). -/
def Equations (o : Orders) (gs rf code lhs : Bool) : List Int → String → Output → Prop
  | [h, cc, p], path, x => path = flagName gs rf lhs "z_t_" "symmetric_equations" "special_LHS_terms" ".tex" ∧ ∃ d, ztDocument gs rf h cc p = .ok d ∧ x = .ztLatex d
  | [h, cc, s, p], path, x =>
    if code then path = flagName gs rf lhs "full_cc_" "equations" "special_LHS_equations" ".py" ∧
      ∃ F, CC.pythonFile o.nat o.ts h.toNat cc.toNat s.toNat p.toNat = .ok F ∧ x = .fccPython (CC.fileText cc.toNat F)
    else path = flagName gs rf lhs "full_cc_" "symmetric_equations" "special_LHS_terms" ".tex" ∧
      ∃ d, CC.latexDocument o.nat o.ts o.pairs rf gs h.toNat cc.toNat s.toNat p.toNat = .ok d ∧ x = .fccLatex d
  | [h, cc, t, k, p], path, x =>
    if code then path = "./eT_zhz_eqs_" ++ (if lhs then "LHS" else "RHS") ++ "_H(" ++ toString h ++ ")_P(" ++ toString p ++ ")_T(" ++ toString t ++ ")_exp(" ++ toString k ++ ")_Z(" ++ toString cc ++ ").py" ∧
      ∃ m, ETPy.module gs (if lhs then .lhs else .rhs) h.toNat cc.toNat 1 k.toNat p.toNat = .ok m ∧ x = .eTPython (ETPy.fileText (if lhs then .lhs else .rhs) m)
    else path = flagName gs rf lhs "eT_z_t_" "symmetric_equations" "special_LHS_terms" ".tex" ∧
      ∃ d, ET.document gs rf (if lhs then .lhs else .rhs) h.toNat cc.toNat 1 k.toNat p.toNat = .ok d ∧ x = .eTLatex (if lhs then .lhs else .rhs) d
  | _, _, _ => False

end TF.Spec.Program
