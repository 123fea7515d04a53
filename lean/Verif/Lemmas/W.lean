import Verif.Spec.W
import Verif.Props.Helper
import Verif.Lemmas.Perms

/-! # Lemmas about the W-operator model -/

namespace TF.W

open TF.Py TF.Helper TF.Spec

/-! ## collect -/

theorem collect_map_ok {α β : Type} (f : α → Except PyErr β) (g : α → β) (l : List α) (h : ∀ x ∈ l, f x = .ok (g x)) :
    collect (l.map f) = .ok (l.map g) := by
  induction l with
  | nil => rfl
  | cons a l ih =>
    rw [List.map_cons, h a (by simp), List.map_cons]
    show (collect (l.map f)).map (g a :: ·) = _
    rw [ih fun x hx => h x (by simp [hx])]
    rfl

theorem collect_ok_iff {β : Type} (l : List (Except PyErr β)) (r : List β) :
    collect l = .ok r ↔ l = r.map Except.ok := by
  induction l generalizing r with
  | nil => cases r <;> simp [collect]
  | cons a l ih =>
    cases a with
    | error e => cases r <;> simp [collect]
    | ok b =>
      show (collect l).map (b :: ·) = _ ↔ _
      cases h : collect l with
      | error e =>
        simp only [Except.map, reduceCtorEq, false_iff]
        intro h2
        cases r with
        | nil => simp at h2
        | cons c r =>
          simp only [List.map_cons, List.cons.injEq] at h2
          have := (ih r).2 h2.2
          rw [h] at this; cases this
      | ok l' =>
        have := (ih l').1 h
        simp only [Except.map, Except.ok.injEq]
        subst this
        cases r with
        | nil => simp
        | cons c r =>
          simp only [List.cons.injEq, List.map_cons, Except.ok.injEq]
          constructor
          · rintro ⟨rfl, rfl⟩; exact ⟨rfl, rfl⟩
          · rintro ⟨rfl, h2⟩
            exact ⟨rfl, (List.map_injective_iff.2 fun a b h => by injection h) h2⟩

theorem collect_error {β : Type} (l : List (Except PyErr β)) (e : PyErr) (h : collect l = .error e) :
    Except.error e ∈ l := by
  induction l with
  | nil => cases h
  | cons a l ih =>
    cases a with
    | error e' => injection h with h; subst h; simp
    | ok b =>
      have h : (collect l).map (b :: ·) = .error e := h
      cases h2 : collect l with
      | error e' => rw [h2] at h; injection h with h; subst h; exact List.mem_cons_of_mem _ (ih h2)
      | ok r => rw [h2] at h; cases h

theorem collect_tName (l : List Nat) (h : ∀ x ∈ l, 1 ≤ x ∧ x ≤ 8) : collect (l.map tName) = .ok l := by
  rw [collect_map_ok tName id l fun x hx => ?_, List.map_id]
  have := h x hx
  unfold tName
  rw [if_neg (by omega), if_pos (by omega)]; rfl

/-! ## Partitions -/

theorem le_sum_mem {l : List Nat} {x : Nat} (h : x ∈ l) : x ≤ l.sum := by
  induction l with
  | nil => simp at h
  | cons a l ih =>
    rw [List.sum_cons]
    rcases List.mem_cons.1 h with rfl | h
    · omega
    · have := ih h; omega

theorem part_le {n : Nat} {p : List Nat} (h : IsPartition n p) {x : Nat} (hx : x ∈ p) : 1 ≤ x ∧ x ≤ n :=
  ⟨h.pos x hx, h.sum_eq ▸ le_sum_mem hx⟩

theorem length_le_sum {p : List Nat} (h : ∀ x ∈ p, 1 ≤ x) : p.length ≤ p.sum := by
  induction p with
  | nil => simp
  | cons a p ih =>
    have := ih fun x hx => h x (by simp [hx])
    have := h a (by simp)
    simp only [List.length_cons, List.sum_cons]; omega

theorem partition_length {n : Nat} (hn : 1 ≤ n) {p : List Nat} (h : IsPartition n p) : 1 ≤ p.length ∧ p.length ≤ n :=
  ⟨List.length_pos_iff.2 (partitions_ne_nil hn h), h.sum_eq ▸ length_le_sum h.pos⟩

theorem length_one_iff {n : Nat} {p : List Nat} (h : IsPartition n p) : p.length = 1 ↔ p = [n] := by
  constructor
  · intro hl
    obtain ⟨a, rfl⟩ := List.length_eq_one_iff.1 hl
    have := h.sum_eq
    simp at this; rw [this]
  · rintro rfl; rfl

/-- the largest part -/
def maxPart (p : List Nat) : Nat := p.max?.getD 0

theorem maxPart_spec {p : List Nat} (hne : p ≠ []) : maxPart p ∈ p ∧ ∀ x ∈ p, x ≤ maxPart p := by
  unfold maxPart
  cases h : p.max? with
  | none => exact absurd (List.max?_eq_none_iff.1 h) hne
  | some m => exact List.max?_eq_some_iff.1 h

theorem pyMax_eq {p : List Nat} (hne : p ≠ []) : pyMax p = .ok (maxPart p) := by
  unfold pyMax maxPart
  cases h : p.max? with
  | none => exact absurd (List.max?_eq_none_iff.1 h) hne
  | some m => rfl

theorem part_linked {n : Nat} {p : List Nat} (h : IsPartition n p) (hne : p ≠ [n]) {x : Nat} (hx : x ∈ p) : x ≤ n - 1 := by
  have h1 := (part_le h hx)
  by_contra hlt
  have hxn : x = n := by omega
  subst hxn
  have hp : (x :: p.erase x).Perm p := (List.perm_cons_erase hx).symm
  have hs := hp.sum_nat
  rw [List.sum_cons, h.sum_eq] at hs
  have hz : p.erase x = [] := by
    cases he : p.erase x with
    | nil => rfl
    | cons a l =>
      have : 1 ≤ a := h.pos a (List.mem_of_mem_erase (by rw [he]; simp))
      rw [he, List.sum_cons] at hs; omega
  rw [hz] at hp
  exact hne (List.perm_singleton.1 hp.symm)

theorem part_unlinked {n : Nat} (hn : 4 ≤ n) {p : List Nat} (h : IsPartition n p) (hb : ¬ AtMostOneBig p) {x : Nat} (hx : x ∈ p) :
    x ≤ n - 2 := by
  have hp : (x :: p.erase x).Perm p := (List.perm_cons_erase hx).symm
  have hs := hp.sum_nat
  rw [List.sum_cons, h.sum_eq] at hs
  have hf := (hp.filter (fun y => decide (1 < y))).length_eq
  unfold AtMostOneBig at hb
  have hbig : ∃ y ∈ p.erase x, 1 < y := by
    by_contra hno
    have he : (p.erase x).filter (fun y => decide (1 < y)) = [] := by
      rw [List.filter_eq_nil_iff]
      intro y hy hd
      exact hno ⟨y, hy, by simpa using hd⟩
    rw [List.filter_cons, he] at hf
    split at hf <;> simp at hf <;> omega
  obtain ⟨y, hy, hy1⟩ := hbig
  have := le_sum_mem hy
  omega

/-! ## Subscripts -/

/-- the letters popped, as a pure function -/
def pops : List Char → List Nat → List (List Char)
  | _, [] => []
  | ls, n :: ns => ls.take n :: pops (ls.drop n) ns

theorem popAll_eq (ls : List Char) (ns : List Nat) (h : ns.sum ≤ ls.length) : popAll ls ns = .ok (pops ls ns) := by
  induction ns generalizing ls with
  | nil => rfl
  | cons n ns ih =>
    rw [List.sum_cons] at h
    unfold popAll
    rw [if_neg (by omega), ih _ (by rw [List.length_drop]; omega)]
    rfl

theorem pops_lengths (ls : List Char) (ns : List Nat) (h : ns.sum ≤ ls.length) : (pops ls ns).map List.length = ns := by
  induction ns generalizing ls with
  | nil => rfl
  | cons n ns ih =>
    rw [List.sum_cons] at h
    rw [pops, List.map_cons, ih _ (by rw [List.length_drop]; omega), List.length_take]
    congr 1; omega

theorem pops_flatten (ls : List Char) (ns : List Nat) (h : ns.sum = ls.length) : (pops ls ns).flatten = ls := by
  induction ns generalizing ls with
  | nil => simp at h; simp [pops, List.length_eq_zero_iff.1 h.symm]
  | cons n ns ih =>
    rw [List.sum_cons] at h
    rw [pops, List.flatten_cons, ih _ (by rw [List.length_drop]; omega), List.take_append_drop]

theorem length_pops (ls : List Char) (ns : List Nat) : (pops ls ns).length = ns.length := by
  induction ns generalizing ls with
  | nil => rfl
  | cons n ns ih => simp [pops, ih]

/-- inner electronic letters for `k` operands -/
def midOf (k : Nat) : List Char := surfaceTags.tail.take (k - 1)

/-- the electronic letters of `k` operands -/
def chainOf (k : Nat) : List (List Char) :=
  (('a' :: midOf k).zip (midOf k ++ ['b'])).map fun p => [p.1, p.2]

theorem surfaceIndex_eq (p : List Nat) (h1 : 1 ≤ p.length) (h2 : p.length ≤ 8) : surfaceIndex p = .ok (chainOf p.length) := by
  unfold surfaceIndex
  generalize p.length = k at *
  rcases k with _ | _ | _ | _ | _ | _ | _ | _ | _ | k
  all_goals first | omega | rfl

theorem length_midOf {k : Nat} (h1 : 1 ≤ k) (h2 : k ≤ 8) : (midOf k).length + 1 = k := by
  simp only [midOf, List.length_take, List.length_tail, surfaceTags, List.length_cons, List.length_nil]; omega

theorem length_chainOf {k : Nat} (h1 : 1 ≤ k) (h2 : k ≤ 8) : (chainOf k).length = k := by
  simp [chainOf, length_midOf h1 h2]

theorem letters_distinct (k n : Nat) (hk : k ≤ 6) (hn : n ≤ 6) : ('a' :: 'b' :: midOf k ++ modeTags.take n).Nodup := by
  have : ∀ k ≤ 6, ∀ n ≤ 6, ('a' :: 'b' :: midOf k ++ modeTags.take n).Nodup := by decide
  exact this k hk n hn

/-! ## The items for one partition -/

theorem mem_combinations {p c : List Nat} : c ∈ combinations p ↔ c.Perm p := uniquePermutations_exact _ _ _

theorem nodup_combinations (p : List Nat) : (combinations p).Nodup :=
  (sortBy_perm lexLe _).nodup_iff.2 (List.nodup_dedup _)

def mkE (k : Nat) (c : List Nat) : Einsum :=
  ⟨List.zipWith (· ++ ·) (chainOf c.length) (pops (modeTags.take k) c), 'a' :: 'b' :: modeTags.take k, c⟩
def mkP (k : Nat) (c : List Nat) : Path :=
  ⟨List.zipWith (· ++ ·) (chainOf c.length) (pops (modeTags.take k) c), 'a' :: 'b' :: modeTags.take k, c⟩

variable {k : Nat} {p : List Nat}

theorem modeIndex_eq (hk2 : k ≤ 6) (h : IsPartition k p) :
    modeIndex p k = .ok ((combinations p).map fun c => pops (modeTags.take k) c) := by
  unfold modeIndex
  rw [if_neg (by omega)]
  apply collect_map_ok
  intro c hc
  apply popAll_eq
  rw [(mem_combinations.1 hc).sum_nat, h.sum_eq, List.length_take, show modeTags.length = 8 from rfl]
  omega

theorem inDims_eq (hk1 : 1 ≤ k) (hk2 : k ≤ 6) (h : IsPartition k p) {c : List Nat} (hc : c ∈ combinations p) :
    inDims (chainOf p.length) (pops (modeTags.take k) c) =
      .ok (List.zipWith (· ++ ·) (chainOf c.length) (pops (modeTags.take k) c)) := by
  have hl := partition_length hk1 h
  have hcl := (mem_combinations.1 hc).length_eq
  unfold inDims
  rw [length_pops, length_chainOf hl.1 (by omega), if_neg (by omega), hcl]

theorem einsumList_eq (hk1 : 1 ≤ k) (hk2 : k ≤ 6) (h : IsPartition k p) :
    einsumList p k = .ok ((combinations p).map (mkE k)) := by
  have hl := partition_length hk1 h
  unfold einsumList
  rw [surfaceIndex_eq p hl.1 (by omega), modeIndex_eq hk2 h]
  simp only []
  rw [List.zipWith_map_right, List.zipWith_self]
  apply collect_map_ok
  intro c hc
  have hn : collect (c.map tName) = .ok c := collect_tName c fun x hx => by
    have := part_le h ((mem_combinations.1 hc).subset hx); omega
  unfold einsumOf
  rw [inDims_eq hk1 hk2 h hc, hn]
  rfl

theorem callList_eq (hk2 : k ≤ 6) (h : IsPartition k p) :
    callList p k = .ok ((combinations p).map Call.mk) := by
  unfold callList
  apply collect_map_ok
  intro c hc
  rw [collect_tName c fun x hx => by have := part_le h ((mem_combinations.1 hc).subset hx); omega]
  rfl

theorem pathList_eq (hk1 : 1 ≤ k) (hk2 : k ≤ 6) (h : IsPartition k p) :
    pathList p k = .ok ((combinations p).map (mkP k)) := by
  have hl := partition_length hk1 h
  unfold pathList
  rw [surfaceIndex_eq p hl.1 (by omega), modeIndex_eq hk2 h]
  simp only []
  rw [List.zipWith_map_right, List.zipWith_self]
  apply collect_map_ok
  intro c hc
  unfold pathOf
  rw [inDims_eq hk1 hk2 h hc]
  rfl

theorem zipWith_chain (A : List (Char × Char)) (vs : List (List Char)) :
    List.zipWith (· ++ ·) (A.map fun p => [p.1, p.2]) vs = List.zipWith (fun p v => p.1 :: p.2 :: v) A vs := by
  rw [List.zipWith_map_left]; rfl

theorem mkE_multiplies (hk1 : 1 ≤ k) (hk2 : k ≤ 6) (h : IsPartition k p) {c : List Nat} (hc : c.Perm p) :
    Spec.W.Multiplies (mkE k c) (midOf c.length) (pops (modeTags.take k) c) := by
  have hl := partition_length hk1 h
  have hcl := hc.length_eq
  have hs : c.sum = (modeTags.take k).length := by
    rw [hc.sum_nat, h.sum_eq, List.length_take, show modeTags.length = 8 from rfl]; omega
  refine ⟨zipWith_chain _ _, length_midOf (by omega) (by omega), pops_lengths _ _ hs.le, ?_, ?_⟩
  · rw [pops_flatten _ _ hs]; rfl
  · rw [pops_flatten _ _ hs]
    exact letters_distinct _ _ (by omega) hk2

/-! ## Prefactors -/

/-- value of the prefactor, without errors -/
def prefOf (p : List Nat) : List Nat :=
  if maxPart p = 1 ∧ p.length = 1 then []
  else if maxPart p = 1 then [p.length]
  else if p.length = 1 then [maxPart p]
  else p.length :: p.filter fun n => decide (n ≠ 1)

theorem prefactor_eq (hne : p ≠ []) : prefactor p = .ok (prefOf p) := by
  unfold prefactor prefOf
  rw [pyMax_eq hne]
  simp only []
  split
  · rfl
  · split
    · rfl
    · split <;> rfl

theorem prod_filter_factorial (l : List Nat) :
    ((l.filter fun n => decide (n ≠ 1)).map Nat.factorial).prod = (l.map Nat.factorial).prod := by
  induction l with
  | nil => rfl
  | cons a l ih =>
    rw [List.filter_cons]
    by_cases h : a = 1
    · subst h; rw [if_neg (by simp), ih]; simp
    · rw [if_pos (by simp [h]), List.map_cons, List.prod_cons, ih]; simp

theorem prefOf_prod (hne : p ≠ []) : ((prefOf p).map Nat.factorial).prod = p.length.factorial * (p.map Nat.factorial).prod := by
  have hm := maxPart_spec hne
  unfold prefOf
  have all1 : maxPart p = 1 → (p.map Nat.factorial).prod = 1 := by
    intro h
    apply List.prod_eq_one
    intro y hy
    obtain ⟨x, hx, rfl⟩ := List.mem_map.1 hy
    have := hm.2 x hx
    rw [h] at this
    rcases Nat.le_one_iff_eq_zero_or_eq_one.1 this with rfl | rfl <;> rfl
  by_cases h1 : maxPart p = 1
  · by_cases h2 : p.length = 1
    · rw [if_pos ⟨h1, h2⟩, all1 h1, h2]; rfl
    · rw [if_neg (by tauto), if_pos h1, all1 h1]; simp
  · rw [if_neg (by tauto), if_neg h1]
    by_cases h2 : p.length = 1
    · rw [if_pos h2]
      obtain ⟨a, rfl⟩ := List.length_eq_one_iff.1 h2
      simp [maxPart]
    · rw [if_neg h2, List.map_cons, List.prod_cons, prod_filter_factorial]

theorem prefOf_weight (hne : p ≠ []) : Spec.W.overFactorials (prefOf p) = Spec.W.weight p := by
  unfold Spec.W.overFactorials Spec.W.weight
  rw [prefOf_prod hne]

/-! ## Blocks -/

def gateOf (p : List Nat) : Option Nat := if maxPart p ≥ 2 then some (maxPart p) else none

def blk {ι : Type} (f : List Nat → ι) (p : List Nat) : WBlock ι :=
  ⟨gateOf p, prefOf p, none, (combinations p).map f⟩

theorem blockOf_eq {ι : Type} (mk : List Nat → Nat → Except PyErr (List ι)) (f : List Nat → ι)
    (hk1 : 1 ≤ k) (hk2 : k ≤ 6) (h : IsPartition k p) (hp : p ≠ [k]) (hmk : mk p k = .ok ((combinations p).map f)) :
    blockOf mk k p = .ok (blk f p) := by
  have hne := partitions_ne_nil hk1 h
  have hm := maxPart_spec hne
  unfold blockOf
  rw [pyMax_eq hne, prefactor_eq hne]
  simp only []
  have ht : ∃ s, orderTags[maxPart p]? = some s := by
    have := part_le h hm.1
    have : maxPart p < orderTags.length := by show _ < 7; omega
    exact ⟨_, List.getElem?_eq_getElem this⟩
  obtain ⟨s, hs⟩ := ht
  rw [hs]
  simp only []
  rw [if_neg (by rw [length_one_iff h]; exact hp), hmk]
  rfl

theorem range2_names {a b : Nat} (h1 : 1 ≤ a) (h2 : b ≤ 9) : collect ((range2 a b).map tName) = .ok (range2 a b) :=
  collect_tName _ fun x hx => by rw [mem_range2] at hx; omega

theorem vemx_eq {ι : Type} (mk : List Nat → Nat → Except PyErr (List ι)) (f : List Nat → ι)
    (hk1 : 1 ≤ k) (hk2 : k ≤ 6) (hmk : ∀ p, IsPartition k p → mk p k = .ok ((combinations p).map f)) :
    vemx mk k = .ok ⟨if k < 2 then [] else range2 1 k, if k < 2 then none else some ((linkedPartitions k).map (blk f))⟩ := by
  unfold vemx
  rw [if_neg (by omega), range2_names (by omega) (by omega)]
  simp only []
  split
  · rfl
  · rw [collect_map_ok (blockOf mk k) (blk f)]
    · rfl
    · intro p hp
      rw [linked_exact k hk1] at hp
      exact blockOf_eq mk f hk1 hk2 hp.1 hp.2.2 (hmk p hp.1)

theorem unlinked_ne (h : ¬ AtMostOneBig p) : p ≠ [k] := by
  rintro rfl
  apply h
  unfold AtMostOneBig
  exact (List.length_filter_le _ _).trans (by simp)

theorem vecc_eq {ι : Type} (mk : List Nat → Nat → Except PyErr (List ι)) (f : List Nat → ι)
    (hk1 : 1 ≤ k) (hk2 : k ≤ 6) (hmk : ∀ p, IsPartition k p → mk p k = .ok ((combinations p).map f)) :
    vecc mk k = .ok ⟨if k < 4 then [] else range2 1 (k - 1), if k < 4 then none else some ((unlinkedPartitions k).map (blk f))⟩ := by
  unfold vecc
  rw [if_neg (by omega), range2_names (by omega) (by omega)]
  simp only []
  split
  · rfl
  · rw [collect_map_ok (blockOf mk k) (blk f)]
    · rfl
    · intro p hp
      rw [unlinked_exact k hk1] at hp
      exact blockOf_eq mk f hk1 hk2 hp.1 (unlinked_ne hp.2) (hmk p hp.1)

def fnOf (k : Nat) : WFunction :=
  if k = 1 then ⟨1, range2 1 (k + 1), none, [], 1, (false, false), (false, false), none⟩
  else ⟨k, range2 1 (k + 1), some k, prefOf [k], k, (true, false), (true, if k < 4 then false else true), some k⟩

theorem wFunction_eq (hk1 : 1 ≤ k) (hk2 : k ≤ 6) : wFunction k = .ok (fnOf k) := by
  unfold wFunction
  rw [if_neg (by omega), range2_names (by omega) (by omega)]
  simp only []
  rw [if_neg (by omega)]
  unfold fnOf
  by_cases h : k = 1
  · subst h; rfl
  · rw [if_neg h, if_neg h, prefactor_eq (by simp)]
    unfold tName
    rw [if_neg (by omega), if_pos (by omega)]

theorem contractedExpressions_eq (hk1 : 1 ≤ k) (hk2 : k ≤ 6) (ps : List (List Nat))
    (h : ∀ p ∈ ps, IsPartition k p ∧ p ≠ [k]) :
    contractedExpressions ps k = .ok (ps.map fun p => (maxPart p, (combinations p).map (mkP k))) := by
  unfold contractedExpressions
  rw [List.filter_eq_self.2]
  · apply collect_map_ok
    intro p hp
    obtain ⟨h1, h2⟩ := h p hp
    have hne := partitions_ne_nil hk1 h1
    have hm := maxPart_spec hne
    rw [pathList_eq hk1 hk2 h1, pyMax_eq hne]
    simp only []
    have : maxPart p < orderTags.length := by have := part_le h1 hm.1; show _ < 7; omega
    rw [List.getElem?_eq_getElem this]
  · intro p hp
    obtain ⟨h1, h2⟩ := h p hp
    rw [decide_eq_true_iff, ne_eq, length_one_iff h1]; exact h2

theorem linked_mem (hk1 : 1 ≤ k) : ∀ p ∈ linkedPartitions k, IsPartition k p ∧ p ≠ [k] := by
  intro p hp
  rw [linked_exact k hk1] at hp
  exact ⟨hp.1, hp.2.2⟩

theorem unlinked_mem (hk1 : 1 ≤ k) : ∀ p ∈ unlinkedPartitions k, IsPartition k p ∧ p ≠ [k] := by
  intro p hp
  rw [unlinked_exact k hk1] at hp
  exact ⟨hp.1, unlinked_ne hp.2⟩

/-! ## The module -/

/-- the module, explicitly -/
def moduleOf (n : Nat) : WModule :=
  let ks := range2 1 (n + 1)
  { vemx := ks.map fun k => ⟨if k < 2 then [] else range2 1 k, if k < 2 then none else some ((linkedPartitions k).map (blk (mkE k)))⟩
    vecc := ks.map fun k => ⟨if k < 4 then [] else range2 1 (k - 1), if k < 4 then none else some ((unlinkedPartitions k).map (blk (mkE k)))⟩
    fns := ks.map fnOf
    master := master n
    vemxOpt := ks.map fun k => ⟨if k < 2 then [] else range2 1 k, if k < 2 then none else some ((linkedPartitions k).map (blk Call.mk))⟩
    veccOpt := ks.map fun k => ⟨if k < 4 then [] else range2 1 (k - 1), if k < 4 then none else some ((unlinkedPartitions k).map (blk Call.mk))⟩
    fnsOpt := ks.map fnOf
    masterOpt := master n
    vemxPaths := ⟨none, [] :: (range2 2 (n + 1)).map fun k =>
      (linkedPartitions k).map fun p => (maxPart p, (combinations p).map (mkP k))⟩
    veccPaths := ⟨some 2, [] :: [] :: [] :: (range2 4 (n + 1)).map fun k =>
      (unlinkedPartitions k).map fun p => (maxPart p, (combinations p).map (mkP k))⟩ }

theorem wModule_eq (n : Nat) (hn : n ≤ 6) : wModule n = .ok (moduleOf n) := by
  have hk : ∀ k ∈ range2 1 (n + 1), 1 ≤ k ∧ k ≤ 6 := fun k hk => by rw [mem_range2] at hk; omega
  unfold wModule
  simp only []
  rw [collect_map_ok (vemx einsumList) _ _ fun k h =>
      vemx_eq einsumList (mkE k) (hk k h).1 (hk k h).2 fun p hp => einsumList_eq (hk k h).1 (hk k h).2 hp,
    collect_map_ok (vecc einsumList) _ _ fun k h =>
      vecc_eq einsumList (mkE k) (hk k h).1 (hk k h).2 fun p hp => einsumList_eq (hk k h).1 (hk k h).2 hp,
    collect_map_ok wFunction _ _ fun k h => wFunction_eq (hk k h).1 (hk k h).2,
    collect_map_ok (vemx callList) _ _ fun k h =>
      vemx_eq callList Call.mk (hk k h).1 (hk k h).2 fun p hp => callList_eq (hk k h).2 hp,
    collect_map_ok (vecc callList) _ _ fun k h =>
      vecc_eq callList Call.mk (hk k h).1 (hk k h).2 fun p hp => callList_eq (hk k h).2 hp]
  have e1 : vemxPaths n = .ok (moduleOf n).vemxPaths := by
    unfold vemxPaths
    rw [if_neg (by omega), collect_map_ok _ (fun k => (linkedPartitions k).map fun p => (maxPart p, (combinations p).map (mkP k)))]
    · rfl
    · intro k hk
      rw [mem_range2] at hk
      exact contractedExpressions_eq (by omega) (by omega) _ (linked_mem (by omega))
  have e2 : veccPaths n = .ok (moduleOf n).veccPaths := by
    unfold veccPaths
    rw [if_neg (by omega), collect_map_ok _ (fun k => (unlinkedPartitions k).map fun p => (maxPart p, (combinations p).map (mkP k)))]
    · rfl
    · intro k hk
      rw [mem_range2] at hk
      exact contractedExpressions_eq (by omega) (by omega) _ (unlinked_mem (by omega))
  rw [e1, e2]
  rfl

end TF.W
