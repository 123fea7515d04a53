import Verif.Spec.Zhz
import Mathlib.Tactic.FieldSimp
import Mathlib.Tactic.Ring
import Mathlib.Data.Rat.Cast.Defs
import Mathlib.Data.Nat.Choose.Basic

/-! # The value of the prefactors of the z_t equations -/

namespace TF.Zhz

open TF.Spec.Zhz

/-- the value computed next to the text -/
def numericValue (p : Pref) : Rat := (p.numVal : Rat) / (p.denVal : Rat)

theorem up_value (p : Pref) (f : Fac) : prefValue (p.up f (facValue f)) = prefValue p * (facValue f : Rat) := by
  unfold prefValue Pref.up
  rw [List.map_append, List.prod_append]
  simp only [List.map_cons, List.map_nil, List.prod_cons, List.prod_nil, Nat.mul_one]
  push_cast
  ring

theorem down_value (p : Pref) (f : Fac) : prefValue (p.down f (facValue f)) = prefValue p / (facValue f : Rat) := by
  unfold prefValue Pref.down
  rw [List.map_append, List.prod_append]
  simp only [List.map_cons, List.map_nil, List.prod_cons, List.prod_nil, Nat.mul_one]
  push_cast
  rw [div_div]

theorem up_numeric (p : Pref) (f : Fac) (v : Nat) : numericValue (p.up f v) = numericValue p * (v : Rat) := by
  unfold numericValue Pref.up
  push_cast
  ring

theorem down_numeric (p : Pref) (f : Fac) (v : Nat) : numericValue (p.down f v) = numericValue p / (v : Rat) := by
  unfold numericValue Pref.down
  push_cast
  rw [div_div]

theorem choose_value (p : Pref) {a b : Nat} (h : b ≤ a) :
    prefValue (p.choose a b) = prefValue p * (Nat.choose a b : Rat) ∧
    numericValue (p.choose a b) = numericValue p * (Nat.choose a b : Rat) := by
  unfold Pref.choose
  split
  · exact ⟨up_value p (.num (Nat.choose a b)), up_numeric p _ _⟩
  · have : Nat.choose a b = 1 := by
      have := Nat.choose_pos h
      omega
    rw [this]; simp

theorem choose_fact {a b : Nat} (h : b ≤ a) :
    (Nat.choose a b : Rat) / (a.factorial : Rat) = 1 / ((b.factorial : Rat) * ((a - b).factorial : Rat)) := by
  have h1 := Nat.choose_mul_factorial_mul_factorial h
  have h2 : ((a.factorial : Nat) : Rat) ≠ 0 := by exact_mod_cast Nat.factorial_ne_zero a
  have h3 : ((b.factorial : Nat) : Rat) ≠ 0 := by exact_mod_cast Nat.factorial_ne_zero b
  have h4 : (((a - b).factorial : Nat) : Rat) ≠ 0 := by exact_mod_cast Nat.factorial_ne_zero (a - b)
  have h5 : (Nat.choose a b : Rat) * (b.factorial : Rat) * ((a - b).factorial : Rat) = (a.factorial : Rat) := by
    exact_mod_cast h1
  rw [div_eq_div_iff h2 (mul_ne_zero h3 h4), one_mul, ← h5]
  ring

theorem fact_le_one {m a : Nat} (hm : ¬ m > 1) (ha : a ≤ m) : a.factorial = 1 := by
  rw [Nat.factorial_eq_one]; omega

theorem hBlock_value (p : Pref) {m a b : Nat} (h : a + b = m) :
    prefValue (Pref.hBlock m a p) = prefValue p * (1 / ((a.factorial : Rat) * (b.factorial : Rat))) ∧
    numericValue (Pref.hBlock m a p) = numericValue p * (1 / ((a.factorial : Rat) * (b.factorial : Rat))) := by
  unfold Pref.hBlock
  have hb : b = m - a := by omega
  split
  · obtain ⟨h1, h2⟩ := choose_value (p.down (.fact m) m.factorial) (a := m) (b := a) (by omega)
    have h3 : prefValue (p.down (.fact m) m.factorial) = prefValue p / (m.factorial : Rat) := down_value p (.fact m)
    rw [h1, h2, h3, down_numeric, hb, ← choose_fact (by omega)]
    constructor <;> ring
  · rename_i hm
    rw [fact_le_one hm (by omega), fact_le_one hm (by omega)]
    simp

theorem zBlock_value (p : Pref) {m a b : Nat} (h : a + b = m) :
    prefValue (Pref.zBlock m a b p) = prefValue p * (1 / (a.factorial : Rat)) ∧
    numericValue (Pref.zBlock m a b p) = numericValue p * (1 / (a.factorial : Rat)) := by
  unfold Pref.zBlock
  have hb : m - a = b := by omega
  have hb0 : ((b.factorial : Nat) : Rat) ≠ 0 := by exact_mod_cast Nat.factorial_ne_zero b
  have ha0 : ((a.factorial : Nat) : Rat) ≠ 0 := by exact_mod_cast Nat.factorial_ne_zero a
  split
  · obtain ⟨h1, h2⟩ := choose_value (p.down (.fact m) m.factorial) (a := m) (b := a) (by omega)
    have h3 : prefValue (p.down (.fact m) m.factorial) = prefValue p / (m.factorial : Rat) := down_value p (.fact m)
    have h4 := choose_fact (a := m) (b := a) (by omega)
    rw [hb] at h4
    have e1 : ∀ x : Rat, x / (m.factorial : Rat) * (Nat.choose m a : Rat) =
        x * (1 / ((a.factorial : Rat) * (b.factorial : Rat))) := by
      intro x; rw [← h4]; ring
    have e2 : ∀ x : Rat, x * (1 / ((a.factorial : Rat) * (b.factorial : Rat))) * (b.factorial : Rat) =
        x * (1 / (a.factorial : Rat)) := by
      intro x; field_simp
    simp only []
    split
    · have h5 := up_value ((p.down (.fact m) m.factorial).choose m a) (.fact b)
      simp only [facValue] at h5
      rw [h5, up_numeric, h1, h2, h3, down_numeric, e1, e1, e2, e2]
      exact ⟨rfl, rfl⟩
    · rename_i hb1
      have : b.factorial = 1 := fact_le_one hb1 le_rfl
      rw [h1, h2, h3, down_numeric, e1, e1, this]
      simp
  · rename_i hm
    rw [fact_le_one hm (by omega)]
    simp

end TF.Zhz
