import Verif.Model.FullCC.Python
import Verif.Spec.FullCCLatex

/-! # Specification vocabulary for the generated full-CC Python code -/

namespace TF.Spec

open TF.CC TF.Py

/-- The runtime truncation object: the values of `at_least_linear`, `at_least_quadratic`, ... (by
Hamiltonian rank) and of `singles`, `doubles`, ... (by cluster rank). -/
structure Flags where
  h : Nat → Bool
  t : Nat → Bool

/-- The sums executed by a list of blocks `if truncation.<singles, ...>:`. -/
def runC {ι : Type} (fl : Flags) (l : List (CBlock ι)) : List (String × List ι) :=
  l.flatMap fun c => if fl.t c.j then c.groups else []

/-- The sums `R += prefactor * (item + item + ...)` a program executes, in order (besides the lines
`R += h_args[..]`, which are unconditional). -/
def run {ι : Type} (fl : Flags) (p : Program ι) : List (String × List ι) :=
  p.groups ++ runC fl p.cblocks ++ p.hblocks.flatMap fun b => if fl.h b.i then b.groups ++ runC fl b.cblocks else []

/-- The items a program executes, in order. -/
def runItems {ι : Type} (fl : Flags) (p : Program ι) : List ι := (run fl p).flatMap Prod.snd

/-- All runtime conditions hold. -/
def allOn : Flags := ⟨fun _ => true, fun _ => true⟩

/-- `next(optimized_einsum)(..)` call by call on an iterator over `paths`: which expression serves
which call, and what is left of the iterator.  `none` is `StopIteration`. -/
def serve : List Path → List OptCall → Option (List (OptCall × Path) × List Path)
  | ps, [] => some ([], ps)
  | [], _ :: _ => none
  | p :: ps, c :: cs => (serve ps cs).map fun r => ((c, p) :: r.1, r.2)

/-- The einsum `e` evaluates the term `t`: `mid` are the inner electronic letters, `vh` the
vibrational letters of `h`, `order` the amplitudes in the order of the operands with their vibrational
letters. -/
structure EinsumFor (t : Term) (e : Einsum) (mid vh : List Char) (order : List (T × List Char)) : Prop where
  /-- the operands are `h` and the amplitudes of the term -/
  operands : (order.map Prod.fst).Perm t.ts
  h_key : e.h = (t.h.m, t.h.n)
  t_keys : e.ts = order.map fun p => (p.1.m_h + p.1.m_o, p.1.n_h + p.1.n_o)
  /-- one group of subscripts per operand: two electronic letters, then the vibrational ones; the
  electronic letters form a chain from `a` to `b` -/
  chain : e.subs = List.zipWith (fun p v => p.1 :: p.2 :: v) (('a' :: mid).zip (mid ++ ['b'])) (vh :: order.map Prod.snd)
  chain_length : mid.length = order.length
  chain_distinct : ('a' :: 'b' :: mid).Nodup
  /-- electronic letters are not used for vibrations -/
  alphabets : ∀ c ∈ 'a' :: 'b' :: mid, c ∉ vh ∧ (∀ p ∈ order, c ∉ p.2) ∧ c ∉ e.out
  /-- the number of letters is the number of vibrational axes of the tensor, no letter is repeated on
  one operand -/
  h_rank : vh.length = t.h.m + t.h.n ∧ vh.Nodup
  t_rank : ∀ p ∈ order, p.2.length = ampRank p.1 ∧ p.2.Nodup
  /-- external letters: as many as the projection operator has, each on exactly one operand -/
  out : e.out.Nodup ∧ e.out.length = t.omega.m + t.omega.n
  external_once : ∀ c ∈ e.out, (vh ++ order.flatMap Prod.snd).count c = 1
  /-- every other letter is summed over: it is on `h` and on exactly one amplitude -/
  summed_twice : ∀ c ∈ vh ++ order.flatMap Prod.snd, c ∉ e.out → vh.count c = 1 ∧ (order.flatMap Prod.snd).count c = 1
  /-- every amplitude shares with `h`, and with the projection operator, as many letters as it has
  pairs with it -/
  shared : ∀ p ∈ order, (p.2.filter fun c => c ∈ vh).length = p.1.m_h + p.1.n_h ∧
    (p.2.filter fun c => c ∈ e.out).length = p.1.m_o + p.1.n_o

/-- Terms of a list whose key (Hamiltonian rank, cluster rank, prefactor text) is not the key of a
later term; terms that are only `h` do not count. -/
def kept (so : SetOrder Nat) : List Term → List Term
  | [] => []
  | t :: l =>
    if onlyH t.ts || l.any (fun t' => !onlyH t'.ts && keyOf so t'.h t'.ts == keyOf so t.h t.ts) then kept so l
    else t :: kept so l

/-- The runtime conditions under which a term is evaluated. -/
def Enabled (fl : Flags) (t : Term) : Bool :=
  (max t.h.m t.h.n == 0 || fl.h (max t.h.m t.h.n)) &&
  ((t.ts.map ampRank).foldl max 0 == 0 || fl.t ((t.ts.map ampRank).foldl max 0))

end TF.Spec
