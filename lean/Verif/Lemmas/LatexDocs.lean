import Verif.Lemmas.LatexText
import Verif.Lemmas.FullCC.Terms

/-!
# Brackets in the LaTeX documents: the texts of the three generators
-/

namespace TF.LatexText

open TF.CC TF.Py TF.Spec.Latex

/-! ## Full CC -/

theorem clean_sub (a b c d : Nat) : CleanSub ⟨TF.Py.slice summationIdx a b, TF.Py.slice unlinkedIdx c d⟩ :=
  ⟨Clean_slice clean_summation _ _, Clean_slice clean_unlinked _ _⟩

theorem clean_hLabels (h : CC.HC) (off : Nat) : CleanH (CC.hLabels h off) := by
  intro u d e
  unfold CC.hLabels at e
  split at e
  · cases e
  · simp only [] at e
    cases e
    exact ⟨clean_sub _ _ _ _, clean_sub _ _ _ _⟩

theorem clean_tLabels (t : CC.T) (o : Offs) : CleanTLab (CC.tLabels t o).1 := by
  unfold CC.tLabels
  simp only []
  constructor
  · intro u e
    simp only [] at e
    split at e
    · cases e
      exact clean_sub _ _ _ _
    · cases e
  · intro u e
    simp only [] at e
    split at e
    · cases e
      exact clean_sub _ _ _ _
    · cases e

theorem clean_tGroupLoop : ∀ (ts : List CC.T) (o : Offs), ∀ x ∈ tGroupLoop ts o, CleanTLab x
  | [], _, x, hx => by cases hx
  | t :: ts, o, x, hx => by
    rw [tGroupLoop] at hx
    split at hx
    · exact clean_tGroupLoop ts _ x hx
    · rcases List.mem_cons.1 hx with rfl | hx
      · exact clean_tLabels _ _
      · exact clean_tGroupLoop ts _ x hx

theorem clean_tGroup (ts : List CC.T) (h : Option CC.HC) (o : Offs) : ∀ x ∈ tGroup ts h o, CleanTLab x := by
  unfold tGroup
  split <;> exact clean_tGroupLoop _ _

theorem clean_plain (so : SetOrder Nat) (t : CC.Term) : CleanP (plainTerm so t) := by
  refine ⟨clean_hLabels _ _, ?_⟩
  unfold plainTerm
  dsimp only
  apply clean_tGroup

theorem clean_plains (so : SetOrder Nat) (l : List CC.Term) : ∀ p ∈ l.map (plainTerm so), CleanP p := by
  intro p hp
  obtain ⟨t, _, rfl⟩ := List.mem_map.1 hp
  exact clean_plain so t

def CleanG (g : List CC.PTerm × List TLab) : Prop := (∀ p ∈ g.1, CleanP p) ∧ ∀ t ∈ g.2, CleanTLab t

theorem clean_unlinkedGroup {so : SetOrder Nat} {l : List CC.Term} {g : List CC.PTerm × List TLab} (h : unlinkedGroup so l = .ok g) : CleanG g := by
  unfold unlinkedGroup at h
  split at h
  · cases h
  · simp only [] at h
    split at h
    · split at h
      · cases h
      · next lab rest hg =>
        cases h
        refine ⟨?_, ?_⟩
        · intro p hp
          obtain ⟨t, _, rfl⟩ := List.mem_map.1 hp
          exact ⟨(clean_plain so t).1, fun x hx => (clean_plain so t).2 x (List.mem_filter.1 hx).1⟩
        · intro x hx
          rw [List.mem_singleton.1 hx]
          exact clean_tGroup _ _ _ lab (by rw [hg]; exact List.mem_cons_self)
    · cases h

theorem clean_linkedTerm {so : SetOrder Nat} {factors : List (List CC.T)} {t : CC.Term} {r : Nat × CC.PTerm} (h : linkedTerm so factors t = .ok r) : CleanP r.2 := by
  unfold linkedTerm at h
  split at h
  · cases h
  · split at h
    · cases h
    · cases h
      refine ⟨clean_hLabels _ _, ?_⟩
      dsimp only
      apply clean_tGroup

theorem one_ok {β : Type} {r : Except PyErr β} {x : β} {l : List β} (h : one r = .ok l) (hx : x ∈ l) : r = .ok x := by
  cases r with
  | error e => cases h
  | ok y =>
    cases h
    rw [List.mem_singleton.1 hx]

theorem clean_linkedGroup {so : SetOrder Nat} {sol : SetOrder (List CC.T)} {l : List CC.Term} {gs : List (List CC.PTerm × List TLab)} (h : linkedGroup so sol l = .ok gs) : ∀ g ∈ gs, CleanG g := by
  unfold linkedGroup at h
  split at h
  · cases h
  · split at h
    · simp only [] at h
      split at h
      · cases h
      · next rs hrs =>
        cases h
        intro g hg
        obtain ⟨fi, _, rfl⟩ := List.mem_map.1 hg
        refine ⟨?_, by dsimp only; apply clean_tGroup⟩
        intro p hp
        obtain ⟨r, hr, rfl⟩ := List.mem_map.1 hp
        obtain ⟨f, hf, rfl⟩ := CC.collect_ok_iff.1 hrs
        obtain ⟨t, ht, hr⟩ := List.mem_flatMap.1 (List.mem_filter.1 hr).1
        exact clean_linkedTerm (one_ok (hf t ht) hr)
    · cases h

def CleanE : CC.Equation → Prop
  | .zero f l u => (∀ p ∈ f, CleanP p) ∧ (∀ p ∈ l, CleanP p) ∧ ∀ p ∈ u, CleanP p
  | .general f lp l u => (∀ p ∈ f, CleanP p) ∧ (∀ p ∈ lp, CleanP p) ∧ (∀ g ∈ l, CleanG g) ∧ ∀ g, u = some g → CleanG g

theorem clean_equation {so : SetOrder Nat} {sol : SetOrder (List CC.T)} {rank : Nat} {f l u : List CC.Term} {e : CC.Equation} (h : CC.equation so sol rank f l u = .ok e) : CleanE e := by
  unfold CC.equation at h
  split at h
  · cases h
    exact ⟨clean_plains so f, clean_plains so l, clean_plains so u⟩
  · simp only [] at h
    split at h
    · cases h
    · next lk hlk =>
      split at h
      · cases h
      · next ul hul =>
        cases h
        refine ⟨clean_plains so f, ?_, ?_, ?_⟩
        · split
          · intro p hp; cases hp
          · exact clean_plains so l
        · split at hlk
          · exact clean_linkedGroup hlk
          · cases hlk
            intro g hg; cases hg
        · rintro g rfl
          split at hul
          · cases hg : unlinkedGroup so u with
            | error e => rw [hg] at hul; cases hul
            | ok g' =>
              rw [hg] at hul
              cases hul
              exact clean_unlinkedGroup hg
          · cases hul

theorem T_fccBody {e : CC.Equation} (h : CleanE e) : T 0 0 0 0 (fccBody e) := by
  cases e with
  | zero f l u =>
    obtain ⟨h1, h2, h3⟩ := h
    refine T_joinPlus fun x hx => ?_
    simp only [List.mem_cons, List.not_mem_nil, or_false] at hx
    rcases hx with rfl | rfl | rfl
    · exact T_renderPlain h1
    · exact T_renderPlain h2
    · exact T_renderPlain h3
  | general f lp l u =>
    obtain ⟨h1, h2, h3, h4⟩ := h
    unfold fccBody
    refine T.app (b := 0) (q := 0) (T.app (b := 0) (q := 0) (T.app (b := 0) (q := 0) (T.app (b := 0) (q := 0) ?_ (L 0 0 0 0 _)) ?_) (L 0 0 0 0 _)) ?_
    · split
      · exact L 0 0 0 0 _
      · exact T_renderPlain h1
    · split
      · exact L 0 0 0 0 _
      · split
        · exact T_renderPlain h2
        · refine T_inter T_splitText fun x hx => ?_
          obtain ⟨g, hg, rfl⟩ := List.mem_map.1 hx
          exact T_condensed (h3 g hg)
    · cases u with
      | none => exact L 0 0 0 0 _
      | some g => exact T_condensed (h4 g rfl)

def CleanLhs (t : LhsTerm) : Prop := ∀ x ∈ t.ts, Clean x.1 ∧ Clean x.2

theorem clean_lhsLabels : ∀ (l : List (Nat × Nat)) (k : Nat), ∀ x ∈ lhsLabels l k, Clean x.1 ∧ Clean x.2
  | [], _, x, hx => by cases hx
  | t :: ts, k, x, hx => by
    rw [lhsLabels] at hx
    rcases List.mem_cons.1 hx with rfl | hx
    · exact ⟨Clean_slice clean_summation _ _, Clean_slice clean_summation _ _⟩
    · exact clean_lhsLabels ts _ x hx

theorem clean_lhsTerms (sop : SetOrder (List (Nat × Nat))) (omega : Op) : ∀ t ∈ lhsTerms sop omega, CleanLhs t := by
  unfold lhsTerms
  split
  · intro t ht
    rw [List.mem_singleton.1 ht]
    intro x hx
    cases hx
  · simp only []
    intro t ht
    have hg : ∀ g ∈ (lhsGroups sop omega).map fun g => lhsLabels g 0, ∀ x ∈ g, Clean x.1 ∧ Clean x.2 := by
      intro g hg
      obtain ⟨g', _, rfl⟩ := List.mem_map.1 hg
      exact clean_lhsLabels g' 0
    rcases List.mem_append.1 ht with ht | ht
    · obtain ⟨g, h1, h2⟩ := List.mem_flatMap.1 ht
      obtain ⟨i, _, rfl⟩ := List.mem_map.1 h2
      exact hg g h1
    · obtain ⟨g, h1, rfl⟩ := List.mem_map.1 ht
      exact hg g h1

theorem T_lhsT {t : List Char × List Char} (h : Clean t.1 ∧ Clean t.2) : T 0 0 0 0 (renderLhsT t) :=
  ((((L 0 1 0 0 "\\bt^{").app ((T_ofList h.1).at 1 0)).app (L 1 1 0 0 "}_{")).app ((T_ofList h.2).at 1 0)).app (L 1 0 0 0 "}")

theorem T_lhsTs {l : List (List Char × List Char)} (h : ∀ x ∈ l, Clean x.1 ∧ Clean x.2) : T 0 0 0 0 (String.join (l.map renderLhsT)) := by
  refine T_join fun x hx => ?_
  obtain ⟨t, ht, rfl⟩ := List.mem_map.1 hx
  exact T_lhsT (h t ht)

theorem T_lhsTerm {t : LhsTerm} (h : CleanLhs t) : T 0 0 0 0 t.render := by
  unfold LhsTerm.render
  split
  · exact (T_lhsTs h).app (L 0 0 0 0 _)
  · next i _ =>
    refine ((((T_lhsTs fun x hx => h x (List.mem_of_mem_take hx)).app (L 0 1 0 0 "\\dv{")).app (T.at ?_ 1 0)).app (L 1 0 0 0 "}{\\tau}")).app (T_lhsTs fun x hx => h x (List.mem_of_mem_drop hx))
    split
    · next x hx => exact T_lhsT (h x (List.mem_of_getElem? hx))
    · exact T_empty

theorem T_renderLhs {l : List LhsTerm} (h : ∀ t ∈ l, CleanLhs t) : T 0 0 0 0 (renderLhs l) := by
  refine ((L 0 0 0 1 "i\\left(").app (T.at ?_ 0 1)).app (L 0 0 1 0 "\\right)")
  refine T_joinPlus fun x hx => ?_
  obtain ⟨t, ht, rfl⟩ := List.mem_map.1 hx
  exact T_lhsTerm (h t ht)

theorem clean_letters {omega : Op} {l : List (Bool × Char)} (h : Zhz.omegaLetters omega = .ok l) : ∀ p ∈ l, Clean [p.2] := by
  intro p hp c hc
  rw [List.mem_singleton.1 hc]
  obtain ⟨f, hf, rfl⟩ := CC.collect_ok_iff.1 h
  obtain ⟨x, hx, hp⟩ := List.mem_flatMap.1 hp
  have h1 := hf x hx
  generalize f x = r at h1 hp
  split at h1
  · split at h1
    · cases h1
    · next c hc =>
      cases h1
      rw [List.mem_singleton.1 hp]
      exact clean_summation c (List.mem_of_getElem? hc)
  · split at h1
    · split at h1
      · cases h1
      · next c hc =>
        cases h1
        rw [List.mem_singleton.1 hp]
        exact clean_summation c (List.mem_of_getElem? hc)
    · cases h1
      cases hp

theorem T_omegaText {l : List (Bool × Char)} (h : ∀ p ∈ l, Clean [p.2]) : T 0 0 0 0 (omegaText l) := by
  unfold omegaText
  split
  · exact L 0 0 0 0 _
  · refine T_join fun x hx => ?_
    obtain ⟨p, hp, rfl⟩ := List.mem_map.1 hx
    refine (T.app (b := 1) (q := 0) ?_ ((T_ofList (h p hp)).at 1 0)).app (L 1 0 0 0 "}")
    split
    · exact L 0 1 0 0 _
    · exact L 0 1 0 0 _

theorem T_fccHeading (first : Bool) (rank : Nat) : T 0 0 0 0 (fccHeading first rank) := by
  unfold fccHeading
  split
  · refine (T.app (b := 1) (q := 0) (T.app (b := 0) (q := 0) ?_ (L 0 1 0 0 "\\subsection{")) (T.at ?_ 1 0)).app (L 1 0 0 0 " Equations}\n\n")
    · split
      · exact L 0 0 0 0 _
      · exact T_empty
    · match rank with
      | 0 => exact L 0 0 0 0 "0 order"
      | 1 => exact L 0 0 0 0 "Linear"
      | 2 => exact L 0 0 0 0 "Quadratic"
      | 3 => exact L 0 0 0 0 "Cubic"
      | 4 => exact L 0 0 0 0 "Quartic"
      | 5 => exact L 0 0 0 0 "Quintic"
      | 6 => exact L 0 0 0 0 "Sextic"
      | 7 => exact L 0 0 0 0 "Septic"
      | 8 => exact L 0 0 0 0 "Octic"
      | n + 9 => exact T_empty
  · exact T_empty

theorem S_fccEntry (first : Bool) (x : Op × List LhsTerm × CC.Equation) (h1 : ∀ t ∈ x.2.1, CleanLhs t) (h2 : CleanE x.2.2) : S 0 0 0 0 (fccEntry first x) := by
  have hl : T 0 0 0 0 (omegaText (fccLetters x.1)) := by
    refine T_omegaText ?_
    unfold fccLetters
    split
    · next l hl => exact clean_letters hl
    · intro p hp; cases hp
  refine S.app (b := 0) (q := 0) (S.app (b := 0) (q := 0) ?_ (S_strip (T_fccBody h2))) (L 0 0 0 0 "\n\\end{split}\\end{align}\n\n")
  exact ((((((L 0 0 0 0 "%\n%\n%\n%\n%\n\n").app (T_fccHeading first x.1.rank)).app (L 0 0 0 0 "\\begin{align}\\begin{split}\n    \\hat{\\Omega} = ")).app hl).app
    (L 0 0 0 0 "\n\\\\ LHS &=\n    ")).app (T_renderLhs h1)).app (L 0 0 0 0 "\n\\\\ RHS &=\n%\n%\n")

/-! ## z_t -/

def CleanPs (l : List Zhz.Piece) : Prop := ∀ p ∈ l, Clean p.letters

theorem T_piece {p : Zhz.Piece} (h : Clean p.letters) : T 0 0 0 0 p.render := by
  unfold Zhz.Piece.render
  split
  · exact T_ofList h
  · exact ((L 0 1 0 0 "\\blue{").app ((T_ofList h).at 1 0)).app (L 1 0 0 0 "}")
  · exact ((L 0 1 0 0 "\\red{").app ((T_ofList h).at 1 0)).app (L 1 0 0 0 "}")
  · exact ((L 0 1 0 0 "\\magenta{").app ((T_ofList h).at 1 0)).app (L 1 0 0 0 "}")

theorem T_pieces {l : List Zhz.Piece} (h : CleanPs l) : T 0 0 0 0 (String.join (l.map Zhz.Piece.render)) := by
  refine T_join fun x hx => ?_
  obtain ⟨p, hp, rfl⟩ := List.mem_map.1 hx
  exact T_piece (h p hp)

def CleanLab (x : Option Zhz.Lab) : Prop := ∀ l, x = some l → CleanPs l.upper ∧ CleanPs l.lower

theorem T_labels {name : String} (hn : T 0 0 0 0 name) {u l : List Zhz.Piece} (hu : CleanPs u) (hl : CleanPs l) :
    T 0 0 0 0 (name ++ "^{" ++ String.join (u.map Zhz.Piece.render) ++ "}_{" ++ String.join (l.map Zhz.Piece.render) ++ "}") :=
  ((((hn.app (L 0 1 0 0 "^{")).app ((T_pieces hu).at 1 0)).app (L 1 1 0 0 "}_{")).app ((T_pieces hl).at 1 0)).app (L 1 0 0 0 "}")

theorem T_renderLab {name : String} (hn : T 0 0 0 0 name) {x : Option Zhz.Lab} (h : CleanLab x) : T 0 0 0 0 (Zhz.renderLab name x) := by
  cases x with
  | none => exact hn.app (L 0 0 0 0 "_0")
  | some l => exact T_labels hn (h l rfl).1 (h l rfl).2

theorem T_fac (f : Zhz.Fac) : T 0 0 0 0 f.render := by
  cases f with
  | num k => exact T_nat k
  | fact k => exact (T_nat k).app (L 0 0 0 0 "!")

theorem T_fracIf {n d : String} (hn : T 0 0 0 0 n) (hd : T 0 0 0 0 d) : T 0 0 0 0 (if n = "1" ∧ d = "1" then "" else "\\frac{" ++ n ++ "}{" ++ d ++ "}") := by
  split
  · exact T_empty
  · exact T_frac hn hd

theorem T_facs (p : Zhz.Pref) : T 0 0 0 0 (p.render false) := by
  unfold Zhz.Pref.render
  simp only [Bool.false_eq_true, if_false]
  have hm : ∀ l : List Zhz.Fac, ∀ x ∈ l.map Zhz.Fac.render, T 0 0 0 0 x := by
    intro l x hx
    obtain ⟨f, _, rfl⟩ := List.mem_map.1 hx
    exact T_fac f
  refine T_fracIf ?_ ?_
  · split
    · exact L 0 0 0 0 _
    · exact T_inter (L 0 0 0 0 _) (hm _)
  · split
    · exact L 0 0 0 0 _
    · exact T_join (hm _)

def CleanZT (t : Zhz.PTerm) : Prop := CleanLab t.h ∧ (∀ l, t.left = some l → CleanLab l) ∧ ∀ l, t.right = some l → CleanLab l

theorem T_zterm {t : Zhz.PTerm} (h : CleanZT t) : T 0 0 0 0 t.render := by
  have hz : ∀ x : Option (Option Zhz.Lab), (∀ l, x = some l → CleanLab l) → T 0 0 0 0 (match x with | none => "" | some l => Zhz.renderLab "\\bz" l) := by
    intro x hx
    cases x with
    | none => exact T_empty
    | some l => exact T_renderLab (L 0 0 0 0 _) (hx l rfl)
  have hs := ((((T_renderF t.f t.fbar).app (show T 0 0 0 0 (match t.pref with | none => "" | some p => p.render false) from by
    split
    · exact T_empty
    · exact T_facs _)).app (hz t.left h.2.1)).app (T_renderLab (L 0 0 0 0 "\\bh") h.1)).app (hz t.right h.2.2)
  unfold Zhz.PTerm.render
  simp only []
  split
  · exact ((L 0 1 0 0 "\\disconnected{").app (hs.at 1 0)).app (L 1 0 0 0 "}")
  · exact hs

theorem T_zterms {l : List Zhz.PTerm} (h : ∀ p ∈ l, CleanZT p) : T 0 0 0 0 (joinPlus (l.map Zhz.PTerm.render)) := by
  refine T_joinPlus fun x hx => ?_
  obtain ⟨p, hp, rfl⟩ := List.mem_map.1 hx
  exact T_zterm (h p hp)

theorem mem_lines {α : Type} {w : Nat} {l : List α} {x : List α} {y : α} (hx : x ∈ Zhz.lines w l) (hy : y ∈ x) : y ∈ l := by
  unfold Zhz.lines at hx
  split at hx
  · rw [List.mem_singleton.1 hx] at hy
    exact hy
  · rcases List.mem_append.1 hx with hx | hx
    · obtain ⟨i, _, rfl⟩ := List.mem_map.1 hx
      unfold slice at hy
      exact List.mem_of_mem_take (List.mem_of_mem_drop hy)
    · rw [List.mem_singleton.1 hx] at hy
      unfold Zhz.sliceFromEnd at hy
      split at hy
      · exact hy
      · exact List.mem_of_mem_drop hy

theorem T_zsum {l : List Zhz.PTerm} (h : ∀ p ∈ l, CleanZT p) : T 0 0 0 (if l.length < 14 then 0 else 1) (Zhz.renderSum false l) := by
  unfold Zhz.renderSum
  by_cases hl : l.length < 14
  · rw [if_pos hl, if_pos hl]
    exact ((L 0 0 0 1 "(").app ((T_zterms h).at 0 1)).app (L 0 0 1 0 ")")
  · rw [if_neg hl, if_neg hl]
    refine (((L 0 0 0 1 "(\n").app (T.at ?_ 0 1)).app (L 0 0 1 1 "\n")).app (L 0 0 1 1 _)
    refine T_inter T_splitText fun x hx => ?_
    obtain ⟨line, hline, rfl⟩ := List.mem_map.1 hx
    exact T_zterms fun p hp => h p (mem_lines hline hp)

theorem cleanPs_nil : CleanPs [] := fun _ hp => by cases hp

theorem cleanPs_three {c1 c2 c3 : Zhz.Color} {a b c : List Char} (ha : Clean a) (hb : Clean b) (hc : Clean c) : CleanPs [⟨c1, a⟩, ⟨c2, b⟩, ⟨c3, c⟩] := by
  intro p hp
  simp only [List.mem_cons, List.not_mem_nil, or_false] at hp
  rcases hp with rfl | rfl | rfl
  · exact ha
  · exact hb
  · exact hc

theorem clean_zs (a k : Nat) : Clean (Zhz.at' Zhz.zSummation a k) := clean_at _ clean_zSummation _ _
theorem clean_zu (a k : Nat) : Clean (Zhz.at' Zhz.zUnlinked a k) := clean_at _ clean_zUnlinked _ _

theorem cleanPs_ite {c : Prop} [Decidable c] {l : List Zhz.Piece} (h : CleanPs l) : CleanPs (if c then l else []) := by
  split
  · exact h
  · exact cleanPs_nil

theorem clean_zhLabels (h : Zhz.HC) (o : Zhz.HOff) : CleanLab (Zhz.hLabels h o) := by
  intro l hl
  unfold Zhz.hLabels at hl
  split at hl
  · cases hl
  · cases hl
    exact ⟨cleanPs_ite (cleanPs_three (clean_zs _ _) (clean_zs _ _) (clean_zu _ _)), cleanPs_ite (cleanPs_three (clean_zs _ _) (clean_zs _ _) (clean_zu _ _))⟩

theorem clean_zrLabels (z : Zhz.Z) (o : Zhz.ROff) : CleanLab (Zhz.rightLabels z o) := by
  intro l hl
  unfold Zhz.rightLabels at hl
  split at hl
  · cases hl
  · cases hl
    exact ⟨cleanPs_ite (cleanPs_three (clean_zs _ _) (clean_zs _ _) (clean_zu _ _)), cleanPs_ite (cleanPs_three (clean_zs _ _) (clean_zs _ _) (clean_zu _ _))⟩

theorem clean_third {removeF pp : Bool} {t : Zhz.Term} {ps : List Zhz.PTerm} (h : Zhz.thirdTerm removeF pp t = .ok ps) : ∀ p ∈ ps, CleanZT p := by
  unfold Zhz.thirdTerm at h
  split at h
  · cases h
  · split at h
    · cases h
      intro p hp; cases hp
    · split at h
      · cases h
      · split at h
        · cases h
        · split at h
          · cases h
          · cases h
            intro p hp
            rw [List.mem_singleton.1 hp]
            refine ⟨clean_zhLabels _ _, (fun l hl => by cases hl), fun l hl => ?_⟩
            injection hl with hl
            rw [← hl]
            exact clean_zrLabels _ _

theorem clean_thirdZ {removeF : Bool} {lhs : Op} {H : List HOp} {zs : List Op} {l : List Zhz.PTerm} (h : Zhz.thirdZ removeF lhs H zs = .ok (some l)) : ∀ p ∈ l, CleanZT p := by
  unfold Zhz.thirdZ Zhz.build at h
  split at h
  · cases h
  · split at h
    · cases h
    · split at h
      · cases h
      · next l' hl =>
        cases h
        obtain ⟨f, hf, rfl⟩ := CC.collect_ok_iff.1 hl
        intro p hp
        obtain ⟨t, ht, hp⟩ := List.mem_flatMap.1 hp
        exact clean_third (hf t ht) p hp

def CleanF (x : Zhz.Fifth) : Prop := Clean x.tUpper ∧ Clean x.tLower ∧ Clean x.zUpper

theorem clean_sum (a b : Nat) : Clean (slice summationIdx a b) := Clean_slice clean_summation _ _

theorem clean_fifthZ (lhs : Op) : ∀ x ∈ Zhz.fifthZ lhs, CleanF x := by
  intro x hx
  obtain ⟨i, _, rfl⟩ := List.mem_map.1 hx
  exact ⟨clean_sum _ _, clean_sum _ _, clean_sum _ _⟩

theorem T_fifth (lhs : Op) (k : Nat) {x : Zhz.Fifth} (h : CleanF x) : T 0 0 0 0 (x.render lhs k) := by
  unfold Zhz.Fifth.render
  refine T.app (b := 0) (q := 0) (T.app (b := 1) (q := 0) (T.app (b := 1) (q := 0) (L 0 1 0 0 "\\dv{") (T.at ?_ 1 0)) (L 1 0 0 0 _)) ?_
  · split
    · exact L 0 0 0 0 _
    · refine T.app (b := 0) (q := 0) (T.app (b := 0) (q := 0) (L 0 0 0 0 _) ?_) ?_
      · split
        · exact T_empty
        · exact ((L 0 1 0 0 "^{").app ((T_ofList h.1).at 1 0)).app (L 1 0 0 0 "}")
      · split
        · exact L 0 0 0 0 _
        · exact ((L 0 1 0 0 "_{").app ((T_ofList h.2.1).at 1 0)).app (L 1 0 0 0 ", \\gamma}")
  · split
    · exact L 0 0 0 0 _
    · exact ((L 0 1 0 0 "\\hat{\\bz}^{").app ((T_ofList h.2.2).at 1 0)).app (L 1 0 0 0 "}_{\\gamma}")

theorem T_fifths (lhs : Op) {l : List Zhz.Fifth} (h : ∀ x ∈ l, CleanF x) : T 0 0 0 0 (fifthText lhs l) := by
  refine T_joinPlus fun x hx => ?_
  obtain ⟨p, hp, rfl⟩ := List.mem_map.1 hx
  exact T_fifth lhs p.2 (h p.1 (List.of_mem_zip hp).1)

theorem T_first {x : Option (List Char × List Char)} (h : ∀ u l, x = some (u, l) → Clean u ∧ Clean l) : T 0 0 0 0 (firstText x) := by
  match x with
  | none => exact L 0 0 0 0 "\\bh_{0,xb}(1-\\delta_{x\\gamma})"
  | some (u, l) =>
    exact ((((L 0 1 0 0 "\\bh^{").app ((T_ofList (h u l rfl).1).at 1 0)).app (L 1 1 0 0 "}_{")).app ((T_ofList (h u l rfl).2).at 1 0)).app (L 1 0 0 0 "}(1-\\delta_{x\\gamma})")

/-- how many parentheses the text of the equation leaves open -/
def openZ (e : Zhz.Equation) : Nat :=
  match e.third with
  | none => 0
  | some l => if l.length < 14 then 0 else 1

def CleanZE (e : Zhz.Equation) : Prop := (∀ u l, e.first = some (u, l) → Clean u ∧ Clean l) ∧ (∀ l, e.third = some l → ∀ p ∈ l, CleanZT p) ∧ ∀ x ∈ e.fifth, CleanF x

theorem T_ztBody (lhs : Op) {e : Zhz.Equation} (h : CleanZE e) : T 0 0 0 (openZ e) (ztBody lhs e) := by
  obtain ⟨h1, h2, h3⟩ := h
  have e1 := T_first h1
  have e3 : T 0 0 0 (openZ e) (thirdText e.third) := by
    unfold openZ
    cases h : e.third with
    | none => exact T_empty
    | some l => exact T_zsum (h2 l h)
  have e5 := T_fifths lhs h3
  generalize openZ e = k at e3 ⊢
  unfold ztBody
  have e3' : T 0 0 1 (1 + k) _ := S.up e3 0 1
  have c1 : T 0 0 (1 + k) k "\\Big)(1-\\delta_{cb})" := by
    rw [Nat.add_comm]; exact S.up (L 0 0 1 0 "\\Big)(1-\\delta_{cb})") 0 k
  have c2 : T 0 0 k (k + 1) "\\\\&-i\\sum\\Big(" := S.up (L 0 0 0 1 "\\\\&-i\\sum\\Big(") 0 k
  have c3 : T 0 0 (k + 1) k "\\Big)" := S.up (L 0 0 1 0 "\\Big)") 0 k
  exact (((((e1.app (L 0 0 0 1 "\\\\&+\\sum\\Big(")).app e3').app c1).app c2).app (e5.at 0 (k + 1))).app c3

theorem T_heading (x : Option String) (h : ∀ n, x = some n → n ∈ Zhz.rankNames) : T 0 0 0 0 (ztHeading x) := by
  have hh : ∀ n ∈ Zhz.rankNames, T 0 0 0 0 (n.toLower.capitalize) := by
    unfold T S
    decide +kernel
  cases x with
  | none => exact L 0 0 0 0 _
  | some n => exact ((L 0 1 0 0 "\\paragraph{").app ((hh n (h n rfl)).at 1 0)).app (L 1 0 0 0 " Equations}\n\n")

theorem T_head {heading : Option String} {letters : List (Bool × Char)} {tu tl gu gl : List Char} (h : ∀ n, heading = some n → n ∈ Zhz.rankNames) (hl : ∀ p ∈ letters, Clean [p.2])
    (h1 : Clean tu) (h2 : Clean tl) (h3 : Clean gu) (h4 : Clean gl) : T 0 0 0 0 (sectionHead heading letters tu tl gu gl) := by
  have a1 : T 0 0 0 0 (if tl = [] then "\\gamma" else String.ofList tl ++ ",\\gamma") := by
    split
    · exact L 0 0 0 0 _
    · exact (T_ofList h2).app (L 0 0 0 0 _)
  have a2 : T 0 0 0 0 (if gl = [] then "\\gamma\\gamma" else String.ofList gl ++ ", \\gamma\\gamma") := by
    split
    · exact L 0 0 0 0 _
    · exact (T_ofList h4).app (L 0 0 0 0 _)
  exact ((((((((((((T_heading heading h).app (L 0 0 0 0 _)).app (L 0 0 0 0 _)).app (T_omegaText hl)).app (L 0 2 0 0 _)).app ((T_ofList h1).at 2 0)).app (L 2 2 0 0 _)).app (a1.at 2 0)).app
    (L 2 1 0 0 _)).app ((T_ofList h3).at 1 0)).app (L 1 1 0 0 _)).app (a2.at 1 0)).app (L 1 0 0 0 _)

theorem T_lhsZ {u : List Char} (h : Clean u) : T 0 0 0 0 ("    i\\Big(\\dv{\\hat{\\bz}^{" ++ String.ofList u ++ "}_{\\gamma}}{\\tau}\\Big)\n\\\\ RHS &=\n%\n%\n") :=
  ((L 0 2 0 1 "    i\\Big(\\dv{\\hat{\\bz}^{").app ((T_ofList h).at 2 1)).app (L 2 0 1 0 _)

structure CleanZS (s : Zhz.Section) : Prop where
  heading : ∀ n, s.heading = some n → n ∈ Zhz.rankNames
  letters : ∀ p ∈ s.letters, Clean [p.2]
  tu : Clean s.tUpper
  tl : Clean s.tLower
  gu : Clean s.gUpper
  gl : Clean s.gLower
  zu : Clean s.zUpper
  eqn : CleanZE s.eqn

theorem S_ztSection {s : Zhz.Section} (h : CleanZS s) : S 0 0 0 (openZ s.eqn) (ztSection s) := by
  have h1 := (T_head h.heading h.letters h.tu h.tl h.gu h.gl).app (T_lhsZ h.zu)
  have h2 := S_strip (T_ztBody s.omega h.eqn)
  have h3 : S 0 0 (openZ s.eqn) (openZ s.eqn) "\n\\end{split}\\end{align}\n\n".toList := (L 0 0 0 0 "\n\\end{split}\\end{align}\n\n").at 0 _
  unfold ztSection
  rw [String.append_assoc, String.append_assoc]
  rw [String.append_assoc] at h1
  exact (S.app h1 h2).app h3

theorem clean_firstZ {lhs : Op} {u l : List Char} (h : Zhz.firstZ lhs = some (u, l)) : Clean u ∧ Clean l := by
  unfold Zhz.firstZ at h
  split at h
  · cases h
  · cases h
    exact ⟨clean_sum _ _, clean_sum _ _⟩

theorem clean_zSection {gs removeF : Bool} {H : List HOp} {zs : List Op} {omega prev : Op} {s : Zhz.Section} (h : Zhz.sectionFor gs removeF H zs omega prev = .ok s) : CleanZS s := by
  unfold Zhz.sectionFor at h
  split at h
  · cases h
  · next name hname =>
    split at h
    · cases h
    · next letters hl =>
      split at h
      · cases h
      · next e he =>
        cases h
        refine ⟨?_, clean_letters hl, clean_sum _ _, clean_sum _ _, clean_sum _ _, clean_sum _ _, clean_sum _ _, ?_⟩
        · intro n hn
          simp only [] at hn
          split at hn
          · cases hn
            exact List.mem_of_getElem? hname
          · cases hn
        · unfold Zhz.equation at he
          split at he
          · cases he
          · split at he
            · cases he
            · next t ht =>
              cases he
              refine ⟨fun u l hul => clean_firstZ hul, ?_, clean_fifthZ _⟩
              rintro l rfl
              exact clean_thirdZ ht

theorem S_count {α : Type} {f : α → List Char} {k : α → Nat} : ∀ {l : List α}, (∀ x ∈ l, S 0 0 0 (k x) (f x)) → S 0 0 0 (l.map k).sum (l.flatMap f)
  | [], _ => ⟨rfl, rfl⟩
  | x :: l, h => by
    rw [List.flatMap_cons, List.map_cons, List.sum_cons]
    exact (h x List.mem_cons_self).app (S.up (S_count fun y hy => h y (List.mem_cons_of_mem _ hy)) 0 (k x))

theorem S_ztText {gs removeF : Bool} {hMax cc pMax : Nat} {d : List Zhz.Section} (h : Zhz.document gs removeF hMax cc pMax = .ok d) : S 0 0 0 (d.map fun s => openZ s.eqn).sum (ztText d) := by
  refine S_count fun s hs => ?_
  obtain ⟨f, hf, rfl⟩ := CC.collect_ok_iff.1 h
  obtain ⟨p, hp, hs⟩ := List.mem_flatMap.1 hs
  exact S_ztSection (clean_zSection (one_ok (hf p hp) hs))

/-! ## eT_z_t -/

theorem T_parFac (f : Zhz.Fac) : T 0 0 0 0 (ET.renderFac f) := by
  cases f with
  | num k => exact ((L 0 0 0 1 "(").app ((T_nat k).at 0 1)).app (L 0 0 1 0 ")")
  | fact k => exact (T_nat k).app (L 0 0 0 0 "!")

theorem T_parFacs (p : Zhz.Pref) : T 0 0 0 0 (ET.renderPref p) := by
  unfold ET.renderPref
  have hm : ∀ l : List Zhz.Fac, ∀ x ∈ l.map ET.renderFac, T 0 0 0 0 x := by
    intro l x hx
    obtain ⟨f, _, rfl⟩ := List.mem_map.1 hx
    exact T_parFac f
  refine T_fracIf ?_ ?_
  · split
    · exact L 0 0 0 0 _
    · exact T_join (hm _)
  · split
    · exact L 0 0 0 0 _
    · exact T_join (hm _)

theorem T_deriv {s : String} (h : T 0 0 0 0 s) : T 0 0 0 0 (ET.deriv s) := ((L 0 1 0 1 "\\left(i\\dv{").app (h.at 1 1)).app (L 1 0 1 0 "}{\\tau}\\right)")

theorem T_eTs (mode : ET.Mode) {x : Option (List (List Zhz.Piece))} (h : ∀ l, x = some l → ∀ p ∈ l, CleanPs p) : T 0 0 0 0 (ET.renderTs mode x) := by
  cases x with
  | none => exact L 0 0 0 0 "\\mathds{1}"
  | some l =>
    refine T_join fun s hs => ?_
    obtain ⟨p, hp, rfl⟩ := List.mem_map.1 hs
    cases mode with
    | rhs => exact T_labels (L 0 0 0 0 "\\bt") cleanPs_nil (h l rfl p hp)
    | lhs => exact T_labels (L 0 0 0 0 "\\bs") cleanPs_nil (h l rfl p hp)

theorem T_eTh (mode : ET.Mode) {x : Option Zhz.Lab} (h : CleanLab x) : T 0 0 0 0 (ET.renderH mode x) := by
  cases x with
  | none =>
    cases mode with
    | rhs => exact L 0 0 0 0 "\\bh_0"
    | lhs => exact L 0 0 0 0 "\\mathds1"
  | some l =>
    cases mode with
    | rhs => exact T_labels (L 0 0 0 0 "\\bh") (h l rfl).1 (h l rfl).2
    | lhs => exact T_deriv (T_labels (L 0 0 0 0 "\\bt") (h l rfl).1 (h l rfl).2)

theorem T_eTz (mode : ET.Mode) (hh : Option Zhz.Lab) {x : Option Zhz.Lab} (h : CleanLab x) : T 0 0 0 0 (ET.renderZ mode hh x) := by
  cases x with
  | none =>
    cases mode with
    | rhs => exact L 0 0 0 0 "\\bz_0"
    | lhs =>
      unfold ET.renderZ
      dsimp only
      split
      · exact T_deriv (L 0 0 0 0 "\\bz_0")
      · exact L 0 0 0 0 "\\bz_0"
  | some l =>
    have hs : T 0 0 0 0 (ET.labels "\\bz" l.upper l.lower) := T_labels (L 0 0 0 0 "\\bz") (h l rfl).1 (h l rfl).2
    cases mode with
    | rhs => exact hs
    | lhs =>
      unfold ET.renderZ
      dsimp only
      split
      · exact T_deriv hs
      · exact hs

def CleanEP (t : ET.PTerm) : Prop := (∀ l, t.ts = some l → ∀ p ∈ l, CleanPs p) ∧ CleanLab t.h ∧ CleanLab t.z

theorem T_eTterm (mode : ET.Mode) {t : ET.PTerm} (h : CleanEP t) : T 0 0 0 0 (t.render mode) := by
  unfold ET.PTerm.render
  refine T.app (b := 0) (q := 0) (T.app (b := 0) (q := 0) (T.app (b := 0) (q := 0) (T.app (b := 0) (q := 0) (T.app (b := 0) (q := 0) ?_ ?_) (T_parFacs _)) (T_eTs mode h.1)) (T_eTh mode h.2.1)) (T_eTz mode _ h.2.2)
  · split
    · split
      · exact L 0 0 0 0 _
      · exact ((L 0 1 0 0 "f^{").app ((T_nat _).at 1 0)).app (L 1 0 0 0 "}")
    · exact T_empty
  · split
    · split
      · exact L 0 0 0 0 _
      · exact ((L 0 1 0 0 "\\bar{f}^{").app ((T_nat _).at 1 0)).app (L 1 0 0 0 "}")
    · exact T_empty

theorem T_eTsum {l : List String} (h : ∀ x ∈ l, T 0 0 0 0 x) : T 0 0 0 0 (ET.renderSum l) := by
  unfold ET.renderSum
  split
  · exact ((L 0 0 0 1 "(").app ((T_inter (L 0 0 0 0 " + ") h).at 0 1)).app (L 0 0 1 0 ")")
  · refine T.app (b := 0) (q := 0) (T.app (b := 0) (q := 0) (L 0 0 0 0 "\n") ?_) (L 0 0 0 0 "\n")
    refine T_inter (L 0 0 0 0 _) fun x hx => ?_
    obtain ⟨line, hline, rfl⟩ := List.mem_map.1 hx
    refine T_inter (L 0 0 0 0 " + ") fun y hy => h y ?_
    unfold ET.lines at hline
    rcases List.mem_append.1 hline with hline | hline
    · obtain ⟨i, _, rfl⟩ := List.mem_map.1 hline
      exact List.mem_of_mem_drop (List.mem_of_mem_take hy)
    · split at hline
      · rw [List.mem_singleton.1 hline] at hy
        exact List.mem_of_mem_drop hy
      · cases hline

def CleanO (o : ET.Off) : Prop := CleanPs o.upper_h ∧ CleanPs o.upper_z ∧ CleanPs o.lower_z

theorem cleanPs_append {l m : List Zhz.Piece} (h : CleanPs l) (g : CleanPs m) : CleanPs (l ++ m) := by
  intro p hp
  rcases List.mem_append.1 hp with hp | hp
  · exact h p hp
  · exact g p hp

theorem cleanPs_cons {c : Zhz.Color} {a : List Char} {l : List Zhz.Piece} (h : Clean a) (g : CleanPs l) : CleanPs (⟨c, a⟩ :: l) := by
  intro p hp
  rcases List.mem_cons.1 hp with rfl | hp
  · exact h
  · exact g p hp

theorem clean_tLabel {t : ET.T} {o : ET.Off} (h : CleanO o) : CleanPs (ET.tLabel t o).1 ∧ CleanO (ET.tLabel t o).2 := by
  obtain ⟨h1, h2, h3⟩ := h
  unfold ET.tLabel
  split
  · refine ⟨cleanPs_cons (clean_zs _ _) (cleanPs_three (clean_zs _ _) (clean_zs _ _) (clean_zu _ _)), ?_, ?_, h3⟩
    · exact cleanPs_append h1 (cleanPs_cons (clean_zs _ _) cleanPs_nil)
    · exact cleanPs_append h2 (cleanPs_cons (clean_zs _ _) cleanPs_nil)
  · exact ⟨cleanPs_nil, h1, h2, h3⟩

theorem clean_eTLabels : ∀ (ts : List ET.T) (o : ET.Off), CleanO o → (∀ l, (ET.tLabels ts o).1 = some l → ∀ p ∈ l, CleanPs p) ∧ CleanO (ET.tLabels ts o).2
  | [], o, h => ⟨fun l hl p hp => (by cases hl; cases hp), h⟩
  | t :: ts, o, h => by
    obtain ⟨h1, h2⟩ := clean_tLabel (t := t) h
    obtain ⟨g1, g2⟩ := clean_eTLabels ts _ h2
    rw [ET.tLabels]
    split
    · exact ⟨fun l hl => (by cases hl), h⟩
    · generalize ET.tLabels ts (ET.tLabel t o).2 = r at g1 g2 ⊢
      match r with
      | (none, o') => exact ⟨fun l hl => (by cases hl), g2⟩
      | (some l', o') =>
        refine ⟨fun l hl p hp => ?_, g2⟩
        cases hl
        rcases List.mem_cons.1 hp with rfl | hp
        · exact h1
        · exact g1 l' rfl p hp

theorem clean_eThLabel {hc : ET.HC} {o : ET.Off} (h : CleanO o) : CleanLab (ET.hLabel hc o).1 ∧ CleanO (ET.hLabel hc o).2 := by
  obtain ⟨h1, h2, h3⟩ := h
  unfold ET.hLabel
  split
  · exact ⟨fun l hl => (by cases hl), h1, h2, h3⟩
  · have ho : CleanO (if hc.n > 0 then { o with upper_z := o.upper_z ++ [⟨.blue, Zhz.at' Zhz.zSummation o.s hc.n_r⟩], s := o.s + hc.n_r, u := o.u + hc.n_lhs } else o) := by
      split
      · exact ⟨h1, cleanPs_append h2 (cleanPs_cons (clean_zs _ _) cleanPs_nil), h3⟩
      · exact ⟨h1, h2, h3⟩
    dsimp only
    generalize (if hc.n > 0 then { o with upper_z := o.upper_z ++ [⟨.blue, Zhz.at' Zhz.zSummation o.s hc.n_r⟩], s := o.s + hc.n_r, u := o.u + hc.n_lhs } else o : ET.Off) = o1 at ho ⊢
    refine ⟨?_, ?_⟩
    · intro l hl
      cases hl
      refine ⟨cleanPs_ite (cleanPs_append ho.1 (cleanPs_cons (clean_zs _ _) (cleanPs_cons (clean_zu _ _) cleanPs_nil))), cleanPs_ite (cleanPs_cons (clean_zs _ _) (cleanPs_cons (clean_zu _ _) cleanPs_nil))⟩
    · split
      · exact ⟨ho.1, ho.2.1, cleanPs_append ho.2.2 (cleanPs_cons (clean_zs _ _) cleanPs_nil)⟩
      · exact ho

theorem clean_eTzLabel {z : ET.Z} {o : ET.Off} (h : CleanO o) : CleanLab (ET.zLabel z o) := by
  intro l hl
  unfold ET.zLabel at hl
  split at hl
  · cases hl
  · cases hl
    exact ⟨cleanPs_ite (cleanPs_append h.2.1 (cleanPs_cons (clean_zu _ _) cleanPs_nil)), cleanPs_ite (cleanPs_append h.2.2 (cleanPs_cons (clean_zu _ _) cleanPs_nil))⟩

theorem clean_printOne {removeF : Bool} {t : ET.Term} {ps : List ET.PTerm} (h : ET.printOne removeF t = .ok ps) : ∀ p ∈ ps, CleanEP p := by
  unfold ET.printOne at h
  split at h
  · cases h
  · split at h
    · cases h
      intro p hp; cases hp
    · split at h
      · cases h
      · split at h
        · cases h
        · cases h
          intro p hp
          rw [List.mem_singleton.1 hp]
          have h0 : CleanO ⟨[], [], [], 0, 0⟩ := ⟨cleanPs_nil, cleanPs_nil, cleanPs_nil⟩
          obtain ⟨h1, h2⟩ := clean_eTLabels t.ts _ h0
          obtain ⟨h3, h4⟩ := clean_eThLabel (hc := t.h) h2
          exact ⟨h1, h3, clean_eTzLabel h4⟩

theorem mem_firstsBy {α : Type} (f : α → String) : ∀ (seen : List String) (l : List α), ∀ x ∈ ET.firstsBy f seen l, x ∈ l
  | _, [], x, hx => by cases hx
  | seen, a :: l, x, hx => by
    rw [ET.firstsBy] at hx
    split at hx
    · exact List.mem_cons_of_mem _ (mem_firstsBy f seen l x hx)
    · rcases List.mem_cons.1 hx with rfl | hx
      · exact List.mem_cons_self
      · exact List.mem_cons_of_mem _ (mem_firstsBy f _ l x hx)

theorem clean_printed {removeF : Bool} {mode : ET.Mode} {l : List ET.Term} {ps : List ET.PTerm} (h : ET.printed removeF mode l = .ok ps) : ∀ p ∈ ps, CleanEP p := by
  unfold ET.printed at h
  split at h
  · cases h
  · next qs hq =>
    cases h
    intro p hp
    obtain ⟨f, hf, rfl⟩ := CC.collect_ok_iff.1 hq
    obtain ⟨t, ht, hp⟩ := List.mem_flatMap.1 (mem_firstsBy _ _ _ p hp)
    exact clean_printOne (hf t ht) p hp

theorem clean_eTthird {removeF : Bool} {mode : ET.Mode} {lhs : Op} {ss : List Series} {H : List HOp} {zs : List Op} {l : List ET.PTerm} (h : ET.third removeF mode lhs ss H zs = .ok (some l)) :
    ∀ p ∈ l, CleanEP p := by
  unfold ET.third at h
  split at h
  · cases h
  · cases h
  · split at h
    · cases h
    · next ps hps =>
      cases h
      exact clean_printed hps

def CleanEE (e : ET.Equation) : Prop :=
  (∀ u l, e.first = some (some (u, l)) → Clean u ∧ Clean l) ∧ (∀ l, e.third = some l → ∀ p ∈ l, CleanEP p) ∧ ∀ f, e.fifth = some f → ∀ x ∈ f, CleanF x

theorem T_eTBody (mode : ET.Mode) (lhs : Op) {e : ET.Equation} (h : CleanEE e) : T 0 0 0 0 (eTBody mode lhs e) := by
  obtain ⟨h1, h2, h3⟩ := h
  have e1 : T 0 0 0 0 (eTFirst e.first) := by
    cases he : e.first with
    | none => exact T_empty
    | some x => exact T_first fun u l hx => h1 u l (by rw [he, hx])
  have e3 : T 0 0 0 0 (eTThird mode e.third) := by
    cases he : e.third with
    | none => exact T_empty
    | some l =>
      refine T_eTsum fun x hx => ?_
      obtain ⟨p, hp, rfl⟩ := List.mem_map.1 hx
      exact T_eTterm mode (h2 l he p hp)
  have e5 : T 0 0 0 0 (eTFifth lhs e.fifth) := by
    cases he : e.fifth with
    | none => exact T_empty
    | some f => exact ((L 0 0 0 1 "\\\\&-i\\sum\\Big(").app ((T_fifths lhs (h3 f he)).at 0 1)).app (L 0 0 1 0 "\\Big)")
  exact (((e1.app (L 0 0 0 1 "\\\\&+\\sum\\Big(")).app (e3.at 0 1)).app (L 0 0 1 0 "\\Big)")).app e5

theorem clean_eTEquation {gs removeF : Bool} {mode : ET.Mode} {lhs : Op} {ss : List Series} {H : List HOp} {zs : List Op} {e : ET.Equation} (h : ET.equation gs removeF mode lhs ss H zs = .ok e) : CleanEE e := by
  unfold ET.equation at h
  split at h
  · cases h
  · split at h
    · cases h
    · next t ht =>
      cases h
      refine ⟨fun u l hul => ?_, ?_, fun f hf => ?_⟩
      · dsimp only at hul
        split at hul
        · injection hul with hul
          exact clean_firstZ hul
        · cases hul
      · rintro l rfl
        exact clean_eTthird ht
      · dsimp only at hf
        split at hf
        · cases hf
          exact clean_fifthZ _
        · cases hf

theorem S_eTSection (mode : ET.Mode) {s : ET.Section} (h : ∀ n, s.heading = some n → n ∈ Zhz.rankNames) (hl : ∀ p ∈ s.letters, Clean [p.2])
    (h1 : Clean s.tUpper) (h2 : Clean s.tLower) (h3 : Clean s.gUpper) (h4 : Clean s.gLower) (h5 : Clean s.zUpper) (h6 : CleanEE s.eqn) : S 0 0 0 0 (eTSection mode s) := by
  have e : T 0 0 0 0 (eTLhs s.zUpper mode) := by
    cases mode with
    | rhs => exact ((L 0 2 0 1 "    i\\Big(\\dv{\\hat{\\bz}^{").app ((T_ofList h5).at 2 1)).app (L 2 0 1 0 _)
    | lhs => exact T_empty
  exact (S.app (((T_head h hl h1 h2 h3 h4).app e).app (L 0 0 0 0 "%\n%\n")) (S_strip (T_eTBody mode s.omega h6))).app (L 0 0 0 0 "\n\\end{split}\\end{align}\n\n")

end TF.LatexText
