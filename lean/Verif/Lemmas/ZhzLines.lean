import Verif.Model.Zhz
import Verif.Lemmas.FullCC.Latex

/-! # The lines of a printed sum -/

namespace TF.Zhz

open TF.Py

theorem flatten_chunks {α : Type} (l : List α) (w k : Nat) :
    ((List.range k).map fun i => slice l (i * w) ((i + 1) * w)).flatten = l.take (k * w) := by
  induction k with
  | zero => simp
  | succ k ih =>
    rw [List.range_succ, List.map_append, List.flatten_append, ih]
    simp only [List.map_cons, List.map_nil, List.flatten_cons, List.flatten_nil, List.append_nil, slice]
    have h : k * w ≤ (k + 1) * w := Nat.mul_le_mul_right _ (Nat.le_succ k)
    conv_rhs => rw [← List.take_append_drop (k * w) (l.take ((k + 1) * w))]
    rw [List.take_take, Nat.min_eq_left h]

theorem lines_flatten {α : Type} (w : Nat) (l : List α) (h : w * 2 ≤ l.length) :
    (lines w l).flatten = l.take (l.length / w * w) ++ sliceFromEnd l (w - 1 - l.length % w) := by
  unfold lines
  rw [if_neg (by omega), List.flatten_append, flatten_chunks]
  simp

theorem lines_complete {α : Type} (w : Nat) (hw : 0 < w) (l : List α)
    (h : l.length < w * 2 ∨ 2 * (l.length % w) + 1 = w) (h2 : 2 ≤ w) : (lines w l).flatten = l := by
  by_cases h1 : l.length < w * 2
  · simp [lines, h1]
  · rw [lines_flatten w l (by omega)]
    have h3 : 2 * (l.length % w) + 1 = w := by omega
    have h4 : w - 1 - l.length % w = l.length % w := by omega
    have h5 : l.length % w ≠ 0 := by omega
    have h6 := Nat.div_add_mod l.length w
    rw [h4, sliceFromEnd, if_neg h5]
    have : l.length - l.length % w = l.length / w * w := by
      rw [Nat.mul_comm]; omega
    rw [this, List.take_append_drop]

theorem lines_length {α : Type} (w : Nat) (hw : 2 ≤ w) (l : List α) (h : w * 2 ≤ l.length) :
    (lines w l).flatten.length = l.length → 2 * (l.length % w) + 1 = w := by
  rw [lines_flatten w l h, List.length_append, List.length_take, sliceFromEnd]
  have h6 := Nat.div_add_mod l.length w
  have h7 := Nat.mod_lt l.length (show 0 < w by omega)
  have h8 : l.length / w * w = w * (l.length / w) := Nat.mul_comm _ _
  have h9 : 2 ≤ l.length / w := by
    rw [Nat.le_div_iff_mul_le (by omega)]; omega
  have h10 : 0 < w * (l.length / w) := Nat.mul_pos (by omega) (by omega)
  split
  · omega
  · rw [List.length_drop]
    omega

end TF.Zhz
