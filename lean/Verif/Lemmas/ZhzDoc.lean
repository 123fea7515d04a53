import Verif.Lemmas.ZhzGround
import Verif.Lemmas.ZhzLines
import Verif.Props.FullCC.Terms

/-! # The z_t document -/

namespace TF.Zhz

open TF.Py
open TF.CC (Op HOp hamiltonian collect_ok_of collect_ok_iff collect one omegaOps omegaOps_exact summationIdx rep)
open TF.Spec.Zhz

theorem map_getD_range (l : List Char) (a k : Nat) (h : a + k ≤ l.length) :
    (List.range k).map (fun i => l.getD (a + i) 'i') = slice l a (a + k) := by
  refine List.ext_getElem ?_ ?_
  · rw [length_slice]; simp; omega
  · intro i h1 h2
    rw [List.getElem_map, List.getElem_range]
    have h3 : a + i < l.length := by simp at h1; omega
    simp only [slice, List.getElem_drop, List.getElem_take]
    simp [h3]

theorem zip_replicate_range (c : Char) (k : Nat) (l : List Nat) (h : l.length = k) :
    (List.replicate k c).zip l = l.map fun i => (c, i) := by
  subst h
  induction l with
  | nil => rfl
  | cons a l ih => simp [List.replicate_succ, ih]

theorem zip_name (m n : Nat) :
    (List.replicate m 'd' ++ List.replicate n 'b').zip (List.range (m + n)) =
      ((List.range m).map fun i => ('d', i)) ++ ((List.range n).map fun i => ('b', m + i)) := by
  rw [List.range_add, List.zip_append (by simp), zip_replicate_range _ _ _ (by simp),
    zip_replicate_range _ _ _ (by simp), List.map_map]
  rfl

theorem omegaLetters_eq {omega : Op} (hn : omega.name = rep 'd' omega.m ++ rep 'b' omega.n)
    (h : omega.m + omega.n ≤ 10) :
    omegaLetters omega = .ok ((slice summationIdx 0 omega.m).map (fun c => (true, c)) ++
      (slice summationIdx omega.m (omega.m + omega.n)).map (fun c => (false, c))) := by
  unfold omegaLetters
  have e : omega.name.toList = List.replicate omega.m 'd' ++ List.replicate omega.n 'b' := by
    rw [hn]; simp [rep]
  rw [e]
  have hl : (List.replicate omega.m 'd' ++ List.replicate omega.n 'b').length = omega.m + omega.n := by simp
  rw [hl, zip_name]
  have hlen : summationIdx.length = 10 := rfl
  rw [collect_ok_of (fun p : Char × Nat => [(decide (p.1 = 'd'), summationIdx.getD p.2 'i')])]
  · congr 1
    rw [List.flatMap_append, List.flatMap_map, List.flatMap_map]
    have h1 := map_getD_range summationIdx 0 omega.m (by omega)
    have h2 := map_getD_range summationIdx omega.m omega.n (by omega)
    simp only [Nat.zero_add] at h1
    rw [← h1, ← h2, List.map_map, List.map_map, ← List.flatMap_pure_eq_map, ← List.flatMap_pure_eq_map]
    rfl
  · rintro ⟨c, k⟩ hp
    rw [List.mem_append, List.mem_map, List.mem_map] at hp
    rcases hp with ⟨i, hi, he⟩ | ⟨i, hi, he⟩ <;> rw [List.mem_range] at hi <;> injection he with h1 h2 <;> subst h1 <;>
      subst h2
    · have : i < summationIdx.length := by omega
      simp [List.getElem?_eq_getElem this]
    · have : omega.m + i < summationIdx.length := by omega
      simp [List.getElem?_eq_getElem this]

/-- the z operator of a ground-state term -/
def gsZ (lhs : Op) (h : HOp) : Z :=
  { rank := (lhs.n - h.m) + (h.n - lhs.m), m := (lhs.n - h.m) + (h.n - lhs.m), n := 0, m_lhs := lhs.n - h.m, n_lhs := 0
    m_h := h.n - lhs.m, n_h := 0, m_z := 0, n_z := 0 }

theorem gsTerm_right (lhs : Op) (h : HOp) : (gsTerm lhs h).right = some (gsZ lhs h) := rfl

theorem gsTerm_fits {lhs : Op} {cc : Nat} {h : HOp} (hg : contributes lhs cc h = true) : Fits (gsTerm lhs h) := by
  simp only [contributes, Bool.and_eq_true, decide_eq_true_eq] at hg
  refine ⟨?_, ?_, rfl, ?_, ?_, ?_, ?_⟩
  · intro i; cases i <;> rfl
  · intro i j; cases i <;> cases j <;> rfl
  · simp [gsTerm]
  · simp only [gsTerm]; omega
  · intro z hz; simp [gsTerm] at hz
  · intro z hz
    rw [gsTerm_right] at hz
    injection hz with hz
    subst hz
    simp [gsZ]

theorem thirdZ_gs (rf : Bool) (lhs : Op) (H : List HOp) (cc : Nat) :
    thirdZ rf lhs H (zOps cc true) = .ok (if H.filter (contributes lhs cc) = [] then none
      else some ((H.filter (contributes lhs cc)).map fun h => thirdP true (gsTerm lhs h) (gsZ lhs h))) := by
  unfold thirdZ
  rw [gs_terms, build_eq (f := fun t => match t.right with | none => [] | some r => [thirdP true t r])]
  · rw [List.flatMap_map]
    by_cases hE : H.filter (contributes lhs cc) = []
    · rw [hE]; rfl
    · rw [if_neg hE, if_neg (by rw [List.map_eq_nil_iff]; exact hE)]
      congr 2
      rw [← List.flatMap_pure_eq_map]
      rfl
  · intro t ht
    obtain ⟨h, hh, rfl⟩ := List.mem_map.1 ht
    rw [List.mem_filter] at hh
    have h0 : (gsTerm lhs h).h.m_r = 0 := rfl
    rw [thirdTerm_eq (gsTerm_right lhs h) (gsTerm_fits hh.2), h0, gsTerm_right]
    simp

/-- the section of a projection operator -/
def gsSection (H : List HOp) (cc : Nat) (omega prev : Op) : Section :=
  { omega := omega
    heading := if omega.rank > prev.rank then rankNames[omega.rank]? else none
    letters := (slice summationIdx 0 omega.m).map (fun c => (true, c)) ++
      (slice summationIdx omega.m (omega.m + omega.n)).map (fun c => (false, c))
    tUpper := slice summationIdx 0 omega.n, tLower := slice summationIdx omega.n omega.rank
    gUpper := slice summationIdx 0 omega.n, gLower := slice summationIdx omega.n omega.rank
    zUpper := slice summationIdx 0 omega.rank
    eqn := { first := firstZ omega
             third := if H.filter (contributes omega cc) = [] then none
               else some ((H.filter (contributes omega cc)).map fun h => thirdP true (gsTerm omega h) (gsZ omega h))
             fifth := fifthZ omega } }

theorem sectionFor_gs (rf : Bool) (H : List HOp) (cc : Nat) {omega : Op} (prev : Op)
    (hn : omega.name = rep 'd' omega.m ++ rep 'b' omega.n) (hr : omega.rank = omega.m + omega.n) (h8 : omega.rank ≤ 8) :
    sectionFor true rf H (zOps cc true) omega prev = .ok (gsSection H cc omega prev) := by
  have hlen : rankNames.length = 9 := rfl
  have hx : omega.rank < rankNames.length := by omega
  unfold sectionFor
  rw [List.getElem?_eq_getElem hx, omegaLetters_eq hn (by omega)]
  simp only [equation, Bool.not_true, Bool.false_eq_true, if_false]
  rw [thirdZ_gs]
  simp only [gsSection]
  rw [List.getElem?_eq_getElem hx]

theorem sectionFor_high (gs rf : Bool) (H : List HOp) (zs : List Op) {omega : Op} (prev : Op) (h : 8 < omega.rank) :
    sectionFor gs rf H zs omega prev = .error .index := by
  have hlen : rankNames.length = 9 := rfl
  unfold sectionFor
  rw [List.getElem?_eq_none (by omega)]

theorem previous_length (l : List Op) : (previous l).length = l.length := by
  unfold previous
  cases h : l.getLast? with
  | none => rw [List.getLast?_eq_none_iff] at h; simp [h]
  | some z =>
    have : l ≠ [] := by rintro rfl; simp at h
    have := List.length_pos_iff.2 this
    simp; omega

theorem mem_zip_left {a b : Op} {l l' : List Op} (h : (a, b) ∈ l.zip l') : a ∈ l := (List.of_mem_zip h).1

theorem document_gs (rf : Bool) (hMax cc pMax : Nat) (h : min cc pMax ≤ 8) :
    document true rf hMax cc pMax = .ok (((omegaOps cc pMax).zip (previous (omegaOps cc pMax))).map fun p =>
      gsSection (prunedH hMax) cc p.1 p.2) := by
  unfold document
  rw [collect_ok_of (fun p : Op × Op => [gsSection (prunedH hMax) cc p.1 p.2])]
  · congr 1
    rw [← List.flatMap_pure_eq_map]
    rfl
  · rintro ⟨a, b⟩ hp
    obtain ⟨h1, h2, h3, h4⟩ := (omegaOps_exact cc pMax a).1 (mem_zip_left hp)
    simp only []
    rw [sectionFor_gs rf _ cc b h1 h2 (by omega)]
    rfl

end TF.Zhz
