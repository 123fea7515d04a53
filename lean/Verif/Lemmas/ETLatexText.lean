import Verif.Lemmas.ETLatex
import Verif.Lemmas.ETCollate

/-! # Lemmas about the LaTeX of the e^T z_t equations: texts determine the printed labels -/

namespace TF.ETLatex

open TF.Py
open TF.Zhz (Piece Lab Color zSummation zUnlinked Fac Pref at')
open TF.ET (Mode PTerm renderPref renderFac renderTs renderH renderZ labels deriv)
open TF.ETPy (split_first)

/-- the text of a sequence of groups -/
def pcs (l : List Piece) : List Char := l.flatMap fun p => p.render.toList

/-- no plain letters, no brace in a group -/
def Proper (p : Piece) : Prop := p.color ≠ .plain ∧ '}' ∉ p.letters

theorem pieces_cut : ∀ {l l' : List Piece} {r r' : List Char}, (∀ p ∈ l, Proper p) → (∀ p ∈ l', Proper p) →
    pcs l ++ '}' :: r = pcs l' ++ '}' :: r' → l = l' ∧ r = r'
  | [], [], r, r', _, _, e => by simpa [pcs] using e
  | [], p :: l', r, r', _, h, e => by
    obtain ⟨h1, _⟩ := h p (by simp)
    obtain ⟨c, ls⟩ := p
    cases c <;> simp [pcs, Piece.render] at h1 e
  | p :: l, [], r, r', h, _, e => by
    obtain ⟨h1, _⟩ := h p (by simp)
    obtain ⟨c, ls⟩ := p
    cases c <;> simp [pcs, Piece.render] at h1 e
  | p :: l, p' :: l', r, r', h, h', e => by
    obtain ⟨h1, h2⟩ := h p (by simp)
    obtain ⟨h1', h2'⟩ := h' p' (by simp)
    have step : ∀ {ls ls' : List Char}, '}' ∉ ls → '}' ∉ ls' → ls ++ '}' :: (pcs l ++ '}' :: r) = ls' ++ '}' :: (pcs l' ++ '}' :: r') →
        ls = ls' ∧ l = l' ∧ r = r' := by
      intro ls ls' a a' e
      obtain ⟨e1, e2⟩ := split_first a a' e
      exact ⟨e1, pieces_cut (fun p hp => h p (by simp [hp])) (fun p hp => h' p (by simp [hp])) e2⟩
    obtain ⟨c, ls⟩ := p
    obtain ⟨c', ls'⟩ := p'
    cases c <;> cases c' <;> simp [pcs, Piece.render] at h1 h1' e <;>
      · obtain ⟨e1, e2, e3⟩ := step h2 h2' (by simpa [pcs, Piece.render] using e)
        subst e1 e2
        exact ⟨rfl, e3⟩

theorem labels_toList (n : String) (u l : List Piece) : (labels n u l).toList = n.toList ++ '^' :: '{' :: (pcs u ++ '}' :: '_' :: '{' :: (pcs l ++ ['}'])) := by
  simp [labels, String.toList_join, pcs, List.flatMap_map]

/-! ## The parts of a text, with what follows them -/

theorem digits_clean (n : Nat) : '}' ∉ (toString n).toList := by
  intro h
  have h' : '}' ∈ Nat.toDigits 10 n := by rw [← Nat.toList_repr]; exact h
  have := Nat.isDigit_of_mem_toDigits (by decide) (by decide) h'
  exact absurd this (by decide)

theorem digits_inj {n n' : Nat} (h : (toString n).toList = (toString n').toList) : n = n' := by
  have h' : Nat.toDigits 10 n = Nat.toDigits 10 n' := by rw [← Nat.toList_repr, ← Nat.toList_repr]; exact h
  have e := congrArg (fun l => Nat.ofDigitChars 10 l 0) h'
  simpa [Nat.ofDigitChars_toDigits] using e

/-- the text of the factors f-bar -/
def fbarText (n : Nat) : List Char :=
  (if n > 0 then (if n = 1 then "\\bar{f}" else "\\bar{f}^{" ++ toString n ++ "}") else "" : String).toList

theorem fbar_cut {n n' : Nat} {a b c a' b' c' : Char} {r r' : List Char} (hb : ¬ (b = 'b' ∧ c = 'a')) (hb' : ¬ (b' = 'b' ∧ c' = 'a')) (ha : a = '\\') (ha' : a' = '\\')
    (e : fbarText n ++ a :: b :: c :: r = fbarText n' ++ a' :: b' :: c' :: r') : n = n' ∧ a :: b :: c :: r = a' :: b' :: c' :: r' := by
  subst ha ha'
  unfold fbarText at e
  by_cases h0 : n = 0 <;> by_cases h0' : n' = 0
  · subst h0 h0'
    simpa using e
  · subst h0
    by_cases h1' : n' = 1
    · subst h1'
      simp at e
      exact absurd ⟨e.1, e.2.1⟩ hb
    · simp [h1', Nat.pos_of_ne_zero h0'] at e
      exact absurd ⟨e.1, e.2.1⟩ hb
  · subst h0'
    by_cases h1 : n = 1
    · subst h1
      simp at e
      exact absurd ⟨e.1.symm, e.2.1.symm⟩ hb'
    · simp [h1, Nat.pos_of_ne_zero h0] at e
      exact absurd ⟨e.1.symm, e.2.1.symm⟩ hb'
  · by_cases h1 : n = 1 <;> by_cases h1' : n' = 1
    · subst h1 h1'
      simpa using e
    · subst h1
      simp [h1', Nat.pos_of_ne_zero h0'] at e
    · subst h1'
      simp [h1, Nat.pos_of_ne_zero h0] at e
    · have d1 := digits_clean n
      have d2 := digits_clean n'
      have d3 := @digits_inj n n'
      rw [if_pos (Nat.pos_of_ne_zero h0), if_pos (Nat.pos_of_ne_zero h0'), if_neg h1, if_neg h1'] at e
      simp only [String.toList_append, List.append_assoc] at e
      have e' := List.append_cancel_left e
      obtain ⟨e1, e2⟩ := split_first d1 d2 (by simpa using e')
      exact ⟨d3 e1, e2⟩

theorem facs_clean (l : List Fac) : '}' ∉ (String.join (l.map renderFac)).toList := by
  rw [String.toList_join, List.flatMap_map]
  intro h
  obtain ⟨f, _, hf⟩ := List.mem_flatMap.1 h
  cases f with
  | num k =>
    have := digits_clean k
    simp [renderFac] at hf this
    exact this hf
  | fact k =>
    have := digits_clean k
    simp [renderFac] at hf this
    exact this hf

theorem renderPref_form (q : Pref) : (renderPref q).toList = [] ∨ ∃ n d : List Char, '}' ∉ n ∧ '}' ∉ d ∧
    (renderPref q).toList = '\\' :: 'f' :: 'r' :: 'a' :: 'c' :: '{' :: (n ++ '}' :: '{' :: (d ++ ['}'])) := by
  unfold renderPref
  simp only
  have h1 : '}' ∉ (if q.num = [] then "1" else String.join (q.num.map renderFac)).toList := by
    split
    · decide
    · exact facs_clean _
  have h2 : '}' ∉ (if q.den = [] then "1" else String.join (q.den.map renderFac)).toList := by
    split
    · decide
    · exact facs_clean _
  generalize (if q.num = [] then "1" else String.join (q.num.map renderFac)) = n at *
  generalize (if q.den = [] then "1" else String.join (q.den.map renderFac)) = d at *
  split
  · exact Or.inl (by simp)
  · exact Or.inr ⟨n.toList, d.toList, h1, h2, by simp⟩

theorem pref_cut {p p' : Pref} {a b a' b' : Char} {r r' : List Char} (ha : a = '\\') (ha' : a' = '\\') (hb : b ≠ 'f') (hb' : b' ≠ 'f')
    (e : (renderPref p).toList ++ a :: b :: r = (renderPref p').toList ++ a' :: b' :: r') : a :: b :: r = a' :: b' :: r' := by
  subst ha ha'
  rcases renderPref_form p with h | ⟨n, d, h1, h2, h⟩ <;> rcases renderPref_form p' with h' | ⟨n', d', h1', h2', h'⟩ <;> rw [h, h'] at e
  · simpa using e
  · simp at e
    exact absurd e.1 hb
  · simp at e
    exact absurd e.1.symm hb'
  · have e2 : n ++ '}' :: ('{' :: (d ++ '}' :: ('\\' :: b :: r))) = n' ++ '}' :: ('{' :: (d' ++ '}' :: ('\\' :: b' :: r'))) := by simpa using e
    obtain ⟨_, e3⟩ := split_first h1 h1' e2
    simp only [List.cons.injEq, true_and] at e3
    exact (split_first h2 h2' e3).2

/-- The letter in the name of the t factors. -/
def tName : Mode → Char
  | .rhs => 't'
  | .lhs => 's'

theorem renderTs_toList (mode : Mode) (l : List (List Piece)) :
    (renderTs mode (some l)).toList = l.flatMap fun p => '\\' :: 'b' :: tName mode :: '^' :: '{' :: '}' :: '_' :: '{' :: (pcs p ++ ['}']) := by
  simp only [renderTs, String.toList_join, List.flatMap_map]
  congr 1
  funext p
  rw [labels_toList]
  cases mode <;> simp [pcs, tName]

/-- what h begins with is not what a t begins with -/
theorem ts_cut {mode : Mode} : ∀ {l l' : List (List Piece)} {a b c a' b' c' : Char} {r r' : List Char}, ¬ (a = '\\' ∧ b = 'b' ∧ c = tName mode) → ¬ (a' = '\\' ∧ b' = 'b' ∧ c' = tName mode) →
    (∀ p ∈ l, ∀ x ∈ p, Proper x) → (∀ p ∈ l', ∀ x ∈ p, Proper x) →
    (renderTs mode (some l)).toList ++ a :: b :: c :: r = (renderTs mode (some l')).toList ++ a' :: b' :: c' :: r' → l = l' ∧ a :: b :: c :: r = a' :: b' :: c' :: r'
  | [], [], a, b, c, a', b', c', r, r', _, _, _, _, e => by simpa [renderTs_toList] using e
  | [], p' :: l', a, b, c, a', b', c', r, r', h, _, _, _, e => by
    simp [renderTs_toList] at e
    exact absurd ⟨e.1, e.2.1, e.2.2.1⟩ h
  | p :: l, [], a, b, c, a', b', c', r, r', _, h, _, _, e => by
    simp [renderTs_toList] at e
    exact absurd ⟨e.1.symm, e.2.1.symm, e.2.2.1.symm⟩ h
  | p :: l, p' :: l', a, b, c, a', b', c', r, r', h, h', hp, hp', e => by
    have e2 : pcs p ++ '}' :: ((renderTs mode (some l)).toList ++ a :: b :: c :: r) = pcs p' ++ '}' :: ((renderTs mode (some l')).toList ++ a' :: b' :: c' :: r') := by
      simp only [renderTs_toList] at e ⊢
      simpa using e
    obtain ⟨e3, e4⟩ := pieces_cut (hp p (by simp)) (hp' p' (by simp)) e2
    obtain ⟨e5, e6⟩ := ts_cut h h' (fun q hq => hp q (by simp [hq])) (fun q hq => hp' q (by simp [hq])) e4
    exact ⟨by rw [e3, e5], e6⟩

/-- the groups of optional labels are proper -/
def ProperLab : Option Lab → Prop
  | none => True
  | some l => (∀ p ∈ l.upper, Proper p) ∧ ∀ p ∈ l.lower, Proper p

theorem lab_cut {l l' : Lab} {r r' : List Char} (h : ProperLab (some l)) (h' : ProperLab (some l'))
    (e : pcs l.upper ++ '}' :: '_' :: '{' :: (pcs l.lower ++ '}' :: r) = pcs l'.upper ++ '}' :: '_' :: '{' :: (pcs l'.lower ++ '}' :: r')) : l = l' ∧ r = r' := by
  obtain ⟨e1, e2⟩ := pieces_cut h.1 h'.1 e
  simp only [List.cons.injEq, true_and] at e2
  obtain ⟨e3, e4⟩ := pieces_cut h.2 h'.2 e2
  obtain ⟨u, lo⟩ := l
  obtain ⟨u', lo'⟩ := l'
  simp only at e1 e3
  subst e1 e3
  exact ⟨rfl, e4⟩

theorem h_cut {mode : Mode} {l l' : Option Lab} {r r' : List Char} (h : ProperLab l) (h' : ProperLab l')
    (e : (renderH mode l).toList ++ r = (renderH mode l').toList ++ r') : l = l' ∧ r = r' := by
  cases mode <;> rcases l with _ | l <;> rcases l' with _ | l'
  · simpa [renderH] using e
  · simp [renderH, labels_toList] at e
  · simp [renderH, labels_toList] at e
  · obtain ⟨e1, e2⟩ := lab_cut (r := r) (r' := r') h h' (by simpa [renderH, labels_toList] using e)
    exact ⟨by rw [e1], e2⟩
  · simpa [renderH] using e
  · simp [renderH, labels_toList, deriv] at e
  · simp [renderH, labels_toList, deriv] at e
  · obtain ⟨e1, e2⟩ := lab_cut h h' (by simpa [renderH, labels_toList, deriv] using e)
    exact ⟨by rw [e1], by simpa using e2⟩

/-- the text of z without the derivative -/
def zText : Option Lab → String
  | none => "\\bz_0"
  | some l => labels "\\bz" l.upper l.lower

theorem zText_cut {l l' : Option Lab} {r r' : List Char} (h : ProperLab l) (h' : ProperLab l') (e : (zText l).toList ++ r = (zText l').toList ++ r') : l = l' := by
  rcases l with _ | l <;> rcases l' with _ | l'
  · rfl
  · simp [zText, labels_toList] at e
  · simp [zText, labels_toList] at e
  · obtain ⟨e1, _⟩ := lab_cut (r := r) (r' := r') h h' (by simpa [zText, labels_toList] using e)
    rw [e1]

theorem renderZ_eq (mode : Mode) (o l : Option Lab) : renderZ mode o l = (if mode = .lhs ∧ o = none then deriv (zText l) else zText l) := by
  cases mode <;> rcases l with _ | l <;> rcases o with _ | o <;> simp [renderZ, zText]

theorem z_cut {mode : Mode} {o l l' : Option Lab} (h : ProperLab l) (h' : ProperLab l') (e : renderZ mode o l = renderZ mode o l') : l = l' := by
  have e' := congrArg String.toList e
  rw [renderZ_eq, renderZ_eq] at e'
  split at e'
  · unfold deriv at e'
    simp only [String.toList_append, List.append_assoc] at e'
    exact zText_cut h h' (List.append_cancel_left e')
  · exact zText_cut (r := []) (r' := []) h h' (by simpa using e')

/-- Printed terms whose text can be read. -/
structure Readable (p : PTerm) : Prop where
  f : p.f = 0
  ts : ∀ l, p.ts = some l → l ≠ [] ∧ ∀ q ∈ l, ∀ x ∈ q, Proper x
  h : ProperLab p.h
  z : ProperLab p.z

/-- The text of a term determines its labels. -/
theorem render_inj {mode : Mode} {p p' : PTerm} (hp : Readable p) (hp' : Readable p') (e : p.render mode = p'.render mode) :
    p.fbar = p'.fbar ∧ p.ts = p'.ts ∧ p.h = p'.h ∧ p.z = p'.z := by
  have key : ∀ {q : PTerm}, Readable q → (q.render mode).toList = fbarText q.fbar ++ ((renderPref q.pref).toList ++ ((renderTs mode q.ts).toList ++
      ((renderH mode q.h).toList ++ (renderZ mode q.h q.z).toList))) := by
    intro q hq
    simp only [PTerm.render, hq.f, fbarText, String.toList_append, List.append_assoc]
    simp
  -- what the parts begin with
  have hH : ∀ (l : Option Lab) (r : List Char), ∃ b c r', (renderH mode l).toList ++ r = '\\' :: b :: c :: r' ∧ ¬ (b = 'b' ∧ c = tName mode) := by
    intro l r
    cases mode <;> rcases l with _ | l
    · exact ⟨'b', 'h', '_' :: '0' :: r, by simp [renderH], by decide⟩
    · exact ⟨'b', 'h', '^' :: '{' :: (pcs l.upper ++ '}' :: '_' :: '{' :: (pcs l.lower ++ '}' :: r)), by simp [renderH, labels_toList], by decide⟩
    · exact ⟨'m', 'a', "thds1".toList ++ r, by simp [renderH], by decide⟩
    · exact ⟨'l', 'e', "ft(i\\dv{".toList ++ ((labels "\\bt" l.upper l.lower).toList ++ ("}{\\tau}\\right)".toList ++ r)), by simp [renderH, deriv], by decide⟩
  have hT : ∀ {q : PTerm}, Readable q → ∀ r : List Char, ∃ b c r', (renderTs mode q.ts).toList ++ r = '\\' :: b :: c :: r' ∧ b ≠ 'f' ∧ ¬ (b = 'b' ∧ c = 'a') := by
    intro q hq r
    rcases hts : q.ts with _ | l
    · exact ⟨'m', 'a', "thds{1}".toList ++ r, by simp [renderTs], by decide, by decide⟩
    · obtain ⟨h1, _⟩ := hq.ts l hts
      obtain ⟨x, l, rfl⟩ := List.exists_cons_of_ne_nil h1
      refine ⟨'b', tName mode, '^' :: '{' :: '}' :: '_' :: '{' :: (pcs x ++ '}' :: ((renderTs mode (some l)).toList ++ r)), ?_, by decide, ?_⟩
      · simp only [renderTs_toList]
        simp
      · cases mode <;> decide
  have hP : ∀ {q : PTerm}, Readable q → ∀ r : List Char, ∃ b c r', (renderPref q.pref).toList ++ ((renderTs mode q.ts).toList ++ r) = '\\' :: b :: c :: r' ∧ ¬ (b = 'b' ∧ c = 'a') := by
    intro q hq r
    obtain ⟨b, c, r', e1, e2, e3⟩ := hT hq r
    rw [e1]
    rcases renderPref_form q.pref with h | ⟨n, d, _, _, h⟩ <;> rw [h]
    · exact ⟨b, c, r', rfl, e3⟩
    · exact ⟨'f', 'r', _, rfl, by decide⟩
  have h1 := congrArg String.toList e
  rw [key hp, key hp'] at h1
  obtain ⟨b, c, r, x1, x2⟩ := hP hp ((renderH mode p.h).toList ++ (renderZ mode p.h p.z).toList)
  obtain ⟨b', c', r', x1', x2'⟩ := hP hp' ((renderH mode p'.h).toList ++ (renderZ mode p'.h p'.z).toList)
  rw [x1, x1'] at h1
  obtain ⟨f1, h2⟩ := fbar_cut x2 x2' rfl rfl h1
  rw [← x1, ← x1'] at h2
  obtain ⟨b, c, r, y1, y2, y3⟩ := hT hp ((renderH mode p.h).toList ++ (renderZ mode p.h p.z).toList)
  obtain ⟨b', c', r', y1', y2', y3'⟩ := hT hp' ((renderH mode p'.h).toList ++ (renderZ mode p'.h p'.z).toList)
  rw [y1, y1'] at h2
  have h3 := pref_cut rfl rfl y2 y2' h2
  rw [← y1, ← y1'] at h3
  have h4 : p.ts = p'.ts ∧ (renderH mode p.h).toList ++ (renderZ mode p.h p.z).toList = (renderH mode p'.h).toList ++ (renderZ mode p'.h p'.z).toList := by
    rcases hts : p.ts with _ | l <;> rcases hts' : p'.ts with _ | l'
    · rw [hts, hts'] at h3
      exact ⟨rfl, List.append_cancel_left h3⟩
    · rw [hts, hts'] at h3
      obtain ⟨g1, _⟩ := hp'.ts l' hts'
      obtain ⟨x, l', rfl⟩ := List.exists_cons_of_ne_nil g1
      rw [renderTs_toList] at h3
      simp [renderTs] at h3
    · rw [hts, hts'] at h3
      obtain ⟨g1, _⟩ := hp.ts l hts
      obtain ⟨x, l, rfl⟩ := List.exists_cons_of_ne_nil g1
      rw [renderTs_toList] at h3
      simp [renderTs] at h3
    · rw [hts, hts'] at h3
      obtain ⟨b, c, r, z1, z2⟩ := hH p.h (renderZ mode p.h p.z).toList
      obtain ⟨b', c', r', z1', z2'⟩ := hH p'.h (renderZ mode p'.h p'.z).toList
      rw [z1, z1'] at h3
      obtain ⟨w1, w2⟩ := ts_cut (fun h => z2 h.2) (fun h => z2' h.2) (hp.ts l hts).2 (hp'.ts l' hts').2 h3
      exact ⟨by rw [w1], by rw [z1, z1', w2]⟩
  obtain ⟨t1, h5⟩ := h4
  obtain ⟨s1, h6⟩ := h_cut hp.h hp'.h h5
  rw [← s1] at h6
  exact ⟨f1, t1, s1, z_cut hp.z hp'.z (String.toList_inj.1 h6)⟩

end TF.ETLatex
