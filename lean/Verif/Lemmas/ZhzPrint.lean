import Verif.Lemmas.ZhzLabels

/-!
# Printing the terms of the z_t equations
-/

namespace TF.Zhz

open TF.Py
open TF.CC (Op HOp hamiltonian collect_ok_of collect)
open TF.Spec.Zhz

theorem contribution_some {z : Z} {a : Z → Nat} {b : Nat} (h : a z = b) (h0 : z.connected = false → b = 0) :
    contribution (some z) a b = .ok b := by
  unfold contribution
  cases hc : z.connected with
  | true => simp only [hc, h, if_true]
  | false => simp only [hc, Bool.false_eq_true, if_false, h0 hc, if_true]

theorem not_connected {z : Z} (h : z.connected = false) : z.m_h = 0 ∧ z.n_h = 0 := by
  unfold Z.connected at h
  simpa using h

/-- the printed form of a third-mode term -/
def thirdP (pp : Bool) (t : Term) (r : Z) : PTerm :=
  { disconnected := false, f := t.h.m_r, fbar := t.h.n_r
    pref := if pp then some (Pref.zBlock r.n r.n_lhs r.n_h (Pref.zBlock r.m r.m_lhs r.m_h
      (Pref.hBlock t.h.n t.h.n_r (Pref.hBlock t.h.m t.h.m_r ⟨[], [], 1, 1⟩)))) else none
    left := none, h := hLabels t.h ⟨0, 0, 0⟩
    right := some (rightLabels r ⟨0, 0, t.h.n_r, 0, t.h.m_lhs + t.h.n_lhs⟩) }

theorem thirdTerm_eq {t : Term} {r : Z} (hr : t.right = some r) (hf : Fits t) (rf pp : Bool) :
    thirdTerm rf pp t = .ok (if rf && decide (t.h.m_r > 0) then [] else [thirdP pp t r]) := by
  have a5 := hf.agree .right .h; have a6 := hf.agree .h .right
  simp only [created, annihilated, hr, get] at a5 a6
  unfold thirdTerm
  rw [hr, contribution_some (b := t.h.m_r) (by omega) (by intro h; have := not_connected h; omega),
    contribution_some (b := t.h.n_r) (by omega) (by intro h; have := not_connected h; omega)]
  simp only [hzPrefactor, ne_eq, not_true_eq_false, if_false]
  split <;> rfl

/-- the printed form of a second-mode term -/
def secondP (t : Term) (l : Z) : PTerm :=
  { disconnected := false, f := t.h.n_l, fbar := t.h.m_l, pref := none, left := some (leftLabels l)
    h := hLabels t.h ⟨l.m - l.m_lhs, l.rank - l.m_lhs - l.n_lhs, l.m_lhs + l.n_lhs⟩
    right := none }

theorem secondTerm_eq {t : Term} {l : Z} (hl : t.left = some l) (hf : Fits t) (rf : Bool) :
    secondTerm rf false t = .ok (if rf && decide (t.h.n_l > 0) then [] else [secondP t l]) := by
  have a5 := hf.agree .left .h; have a6 := hf.agree .h .left
  simp only [created, annihilated, hl, get] at a5 a6
  unfold secondTerm
  rw [hl, contribution_some (b := t.h.n_l) (by omega) (by intro h; have := not_connected h; omega),
    contribution_some (b := t.h.m_l) (by omega) (by intro h; have := not_connected h; omega)]
  simp only []
  split <;> rfl

/-- the printed form of a fourth-mode term -/
def fourthP (t : Term) (l r : Z) : PTerm :=
  let o : HOff := ⟨l.m - l.m_lhs, l.rank - l.m_lhs - l.n_lhs, l.m_lhs + l.n_lhs⟩
  { disconnected := !l.connected || !r.connected, f := t.h.n_l + t.h.m_r + l.m_z
    fbar := t.h.m_l + t.h.n_r + r.m_z, pref := none
    left := some (leftLabels l), h := hLabels t.h o
    right := some (rightLabels r ⟨l.m_h, o.left_upper + l.n_h, o.summation + t.h.n_r,
      o.summation, o.unlinked + t.h.m_lhs + t.h.n_lhs⟩) }

theorem fourthTerm_eq {t : Term} {l r : Z} (hl : t.left = some l) (hr : t.right = some r) (hf : Fits t) (rf : Bool) :
    fourthTerm rf false t =
      .ok (if rf && decide (t.h.n_l + t.h.m_r + l.m_z > 0) then [] else [fourthP t l r]) := by
  have a1 := hf.agree .left .h; have a2 := hf.agree .left .right; have a3 := hf.agree .h .left
  have a4 := hf.agree .right .left; have a5 := hf.agree .right .h; have a6 := hf.agree .h .right
  simp only [created, annihilated, hl, hr, get] at a1 a2 a3 a4 a5 a6
  unfold fourthTerm
  rw [hl, hr, contribution_some (b := t.h.n_l) (by omega) (by intro h; have := not_connected h; omega),
    contribution_some (b := t.h.m_r) (by omega) (by intro h; have := not_connected h; omega),
    contribution_some (b := t.h.m_l) (by omega) (by intro h; have := not_connected h; omega),
    contribution_some (b := t.h.n_r) (by omega) (by intro h; have := not_connected h; omega)]
  simp only [contributionZZ, a2, a4, if_true, add3, Bool.false_eq_true, if_false]
  split <;> rfl

theorem build_eq {prepare : Term → Except PyErr (List PTerm)} {f : Term → List PTerm} {ts : List Term}
    (h : ∀ t ∈ ts, prepare t = .ok (f t)) :
    build prepare (.ok ts) = .ok (if ts = [] then none else some (ts.flatMap f)) := by
  unfold build
  simp only []
  rw [collect_ok_of f h]
  split <;> rfl

end TF.Zhz
