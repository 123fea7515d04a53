import Verif.Spec.Latex
import Verif.Model.LatexText
import Verif.Lemmas.Json

/-!
# Lemmas about brackets in texts
-/

namespace TF.LatexText

open TF.CC TF.Spec.Latex

theorem depth_cons (o c x : Char) (l : List Char) (d : Nat) : depth o c (x :: l) d =
    if x = o then depth o c l (d + 1) else if x = c then (match d with | 0 => none | d + 1 => depth o c l d) else depth o c l d := rfl

theorem depth_append (o c : Char) : ∀ (l m : List Char) (d : Nat), depth o c (l ++ m) d = (depth o c l d).bind (depth o c m)
  | [], m, d => rfl
  | x :: l, m, d => by
    rw [List.cons_append, depth_cons, depth_cons]
    split
    · exact depth_append o c l m _
    · split
      · cases d with
        | zero => rfl
        | succ d => exact depth_append o c l m _
      · exact depth_append o c l m _

theorem depth_mono (o c : Char) : ∀ (l : List Char) (a b d : Nat), depth o c l a = some b → depth o c l (d + a) = some (d + b)
  | [], a, b, d, h => by
    injection h with h
    rw [depth, h]
  | x :: l, a, b, d, h => by
    rw [depth_cons] at h ⊢
    split at h
    · next hx =>
      rw [if_pos hx]
      exact depth_mono o c l _ b d h
    · next hx =>
      rw [if_neg hx]
      split at h
      · next hc =>
        rw [if_pos hc]
        cases a with
        | zero => cases h
        | succ a => exact depth_mono o c l a b d h
      · next hc =>
        rw [if_neg hc]
        exact depth_mono o c l a b d h

/-- braces from level `a` to level `b`, parentheses from level `p` to level `q` -/
def S (a b p q : Nat) (s : List Char) : Prop := depth '{' '}' s a = some b ∧ depth '(' ')' s p = some q

theorem S.up {a b p q : Nat} {s : List Char} (h : S a b p q s) (k j : Nat) : S (k + a) (k + b) (j + p) (j + q) s :=
  ⟨depth_mono _ _ _ _ _ _ h.1, depth_mono _ _ _ _ _ _ h.2⟩

theorem S.app {a b c p q r : Nat} {s t : List Char} (h : S a b p q s) (g : S b c q r t) : S a c p r (s ++ t) := by
  constructor
  · rw [depth_append, h.1]; exact g.1
  · rw [depth_append, h.2]; exact g.2

/-- the same for strings -/
abbrev T (a b p q : Nat) (s : String) : Prop := S a b p q s.toList

theorem T.app {a b c p q r : Nat} {s t : String} (h : T a b p q s) (g : T b c q r t) : T a c p r (s ++ t) := by
  unfold T
  rw [String.toList_append]
  exact S.app h g

/-- a neutral text at any level -/
theorem T.at {s : String} (h : T 0 0 0 0 s) (k j : Nat) : T k k j j s := S.up h k j

theorem L (a b p q : Nat) (s : String) (h : (decide (depth '{' '}' s.toList a = some b) && decide (depth '(' ')' s.toList p = some q)) = true := by decide +kernel) : T a b p q s := by
  rw [Bool.and_eq_true, decide_eq_true_iff, decide_eq_true_iff] at h
  exact h

/-- no brackets -/
def Clean (l : List Char) : Prop := ∀ c ∈ l, c ≠ '{' ∧ c ≠ '}' ∧ c ≠ '(' ∧ c ≠ ')'

theorem S_clean : ∀ {l : List Char}, Clean l → S 0 0 0 0 l
  | [], _ => ⟨rfl, rfl⟩
  | x :: l, h => by
    obtain ⟨h1, h2, h3, h4⟩ := h x List.mem_cons_self
    obtain ⟨g1, g2⟩ := S_clean (l := l) fun c hc => h c (List.mem_cons_of_mem _ hc)
    constructor
    · rw [depth, if_neg h1, if_neg h2]; exact g1
    · rw [depth, if_neg h3, if_neg h4]; exact g2

theorem T_ofList {l : List Char} (h : Clean l) : T 0 0 0 0 (String.ofList l) := by
  unfold T
  rw [String.toList_ofList]
  exact S_clean h

theorem T_nat (k : Nat) : T 0 0 0 0 (toString k) := by
  have h := (TF.Trunc.word_toString (k : Int)).2
  refine S_clean fun c hc => ?_
  have := (h c hc).2
  refine ⟨?_, ?_, ?_, ?_⟩ <;> rintro rfl <;> rcases this with h | h <;> revert h <;> decide

theorem T_foldl : ∀ (l : List String) (s : String), T 0 0 0 0 s → (∀ x ∈ l, T 0 0 0 0 x) → T 0 0 0 0 (l.foldl (fun r s => r ++ s) s)
  | [], _, h, _ => h
  | x :: l, s, h, hl => T_foldl l (s ++ x) (h.app (hl x List.mem_cons_self)) fun y hy => hl y (List.mem_cons_of_mem _ hy)

theorem T_empty : T 0 0 0 0 "" := L 0 0 0 0 _

theorem T_join {l : List String} (hl : ∀ x ∈ l, T 0 0 0 0 x) : T 0 0 0 0 (String.join l) := by
  have := T_foldl l "" T_empty hl
  exact this

theorem T_inter {sep : String} (hs : T 0 0 0 0 sep) : ∀ {l : List String}, (∀ x ∈ l, T 0 0 0 0 x) → T 0 0 0 0 (sep.intercalate l)
  | [], _ => by rw [String.intercalate_nil]; exact T_empty
  | [x], h => by rw [String.intercalate_singleton]; exact h x List.mem_cons_self
  | x :: y :: l, h => by
    rw [String.intercalate_cons_cons]
    exact ((h x List.mem_cons_self).app hs).app (T_inter hs fun z hz => h z (List.mem_cons_of_mem _ hz))

theorem depth_remove3 {o c' a b c : Char} (h : ∀ d, depth o c' [a, b, c] d = some d) : ∀ (l : List Char) (d : Nat), depth o c' (remove3 a b c l) d = depth o c' l d
  | [], _ => rfl
  | [_], _ => rfl
  | [_, _], _ => rfl
  | x :: y :: z :: l, d => by
    rw [remove3]
    split
    · next hx =>
      obtain ⟨rfl, rfl, rfl⟩ := hx
      rw [depth_remove3 h l d]
      have := depth_append o c' [x, y, z] l d
      rw [h d] at this
      exact this.symm
    · rw [depth_cons, depth_cons]
      split
      · exact depth_remove3 h _ _
      · split
        · cases d with
          | zero => rfl
          | succ d => exact depth_remove3 h _ _
        · exact depth_remove3 h _ _

theorem S_strip {p q : Nat} {s : String} (h : T 0 0 p q s) : S 0 0 p q (strip s) := by
  have h1 : ∀ (x : Char) (d : Nat), x = '_' ∨ x = '^' → depth '{' '}' [x, '{', '}'] d = some d ∧ depth '(' ')' [x, '{', '}'] d = some d := by
    rintro x d (rfl | rfl) <;> exact ⟨rfl, rfl⟩
  constructor
  · rw [strip, depth_remove3 (fun d => (h1 _ d (Or.inl rfl)).1), depth_remove3 (fun d => (h1 _ d (Or.inr rfl)).1)]
    exact h.1
  · rw [strip, depth_remove3 (fun d => (h1 _ d (Or.inl rfl)).2), depth_remove3 (fun d => (h1 _ d (Or.inr rfl)).2)]
    exact h.2

theorem S_flatMap {α : Type} {f : α → List Char} : ∀ {l : List α}, (∀ x ∈ l, S 0 0 0 0 (f x)) → S 0 0 0 0 (l.flatMap f)
  | [], _ => ⟨rfl, rfl⟩
  | x :: l, h => by
    rw [List.flatMap_cons]
    exact (h x List.mem_cons_self).app (S_flatMap fun y hy => h y (List.mem_cons_of_mem _ hy))

theorem Clean_slice {l : List Char} (h : Clean l) (a b : Nat) : Clean (TF.Py.slice l a b) := by
  intro c hc
  refine h c ?_
  unfold TF.Py.slice at hc
  exact List.mem_of_mem_take (List.mem_of_mem_drop hc)

theorem clean_summation : Clean summationIdx := by unfold Clean; decide
theorem clean_unlinked : Clean unlinkedIdx := by unfold Clean; decide
theorem clean_zSummation : Clean Zhz.zSummation := by unfold Clean; decide
theorem clean_zUnlinked : Clean Zhz.zUnlinked := by unfold Clean; decide

theorem clean_at (l : List Char) (h : Clean l) (a k : Nat) : Clean (Zhz.at' l a k) := Clean_slice h _ _

/-! ## Full CC -/

def CleanSub (x : Sub) : Prop := Clean x.s ∧ Clean x.x

theorem T_sub {x : Sub} (h : CleanSub x) : T 0 0 0 0 x.render :=
  ((((L 0 1 0 0 "\\blue{").app ((T_ofList h.1).at 1 0)).app (L 1 1 0 0 "}\\red{")).app ((T_ofList h.2).at 1 0)).app (L 1 0 0 0 "}")

def CleanTLab (x : TLab) : Prop := (∀ u, x.up = some u → CleanSub u) ∧ ∀ u, x.down = some u → CleanSub u

theorem T_tlab {x : TLab} (h : CleanTLab x) : T 0 0 0 0 x.render := by
  have hs : ∀ o : Option Sub, (∀ u, o = some u → CleanSub u) → T 0 0 0 0 (match o with | none => "" | some u => u.render) := by
    intro o ho
    cases o with
    | none => exact T_empty
    | some u => exact T_sub (ho u rfl)
  exact ((((((L 0 0 0 0 "\\bt").app (L 0 1 0 0 "^{")).app ((hs _ h.1).at 1 0)).app (L 1 1 0 0 "}_{")).app ((hs _ h.2).at 1 0)).app (L 1 0 0 0 "}"))

def CleanH (x : Option (Sub × Sub)) : Prop := ∀ u d, x = some (u, d) → CleanSub u ∧ CleanSub d

theorem T_renderH {x : Option (Sub × Sub)} (h : CleanH x) : T 0 0 0 0 (CC.renderH x) := by
  match x, h with
  | none, _ => exact L 0 0 0 0 _
  | some (u, d), h =>
    obtain ⟨h1, h2⟩ := h u d rfl
    exact ((((((L 0 0 0 0 "\\bh").app (L 0 1 0 0 "^{")).app ((T_sub h1).at 1 0)).app (L 1 0 0 0 "}")).app (L 0 1 0 0 "_{")).app ((T_sub h2).at 1 0)).app (L 1 0 0 0 "}")

theorem T_factors (l : List Nat) : T 0 0 0 0 (renderFactors l) := by
  unfold renderFactors
  split
  · exact L 0 0 0 0 _
  · refine T_join fun x hx => ?_
    obtain ⟨k, _, rfl⟩ := List.mem_map.1 hx
    exact (T_nat k).app (L 0 0 0 0 "!")

theorem T_frac {a b : String} (ha : T 0 0 0 0 a) (hb : T 0 0 0 0 b) : T 0 0 0 0 ("\\frac{" ++ a ++ "}{" ++ b ++ "}") :=
  ((((L 0 1 0 0 "\\frac{").app (ha.at 1 0)).app (L 1 1 0 0 "}{")).app (hb.at 1 0)).app (L 1 0 0 0 "}")

theorem T_prefactor (p : List Nat × List Nat) : T 0 0 0 0 (renderPrefactor p) := by
  unfold renderPrefactor
  split
  · exact T_empty
  · exact T_frac (T_factors _) (T_factors _)

theorem T_renderF (f g : Nat) : T 0 0 0 0 (renderF f g) := by
  unfold renderF
  refine T.app (b := 0) (q := 0) ?_ ?_
  · split
    · exact T_empty
    · split
      · exact L 0 0 0 0 _
      · exact ((L 0 1 0 0 "f^{").app ((T_nat f).at 1 0)).app (L 1 0 0 0 "}")
  · split
    · exact T_empty
    · split
      · exact L 0 0 0 0 _
      · exact ((L 0 1 0 0 "\\bar{f}^{").app ((T_nat g).at 1 0)).app (L 1 0 0 0 "}")

def CleanP (p : CC.PTerm) : Prop := CleanH p.h ∧ ∀ t ∈ p.ts, CleanTLab t

theorem T_tlabs {l : List TLab} (h : ∀ t ∈ l, CleanTLab t) : T 0 0 0 0 (String.join (l.map TLab.render)) := by
  refine T_join fun x hx => ?_
  obtain ⟨t, ht, rfl⟩ := List.mem_map.1 hx
  exact T_tlab (h t ht)

theorem T_pterm {p : CC.PTerm} (h : CleanP p) : T 0 0 0 0 p.render :=
  (((T_renderF _ _).app (T_prefactor _)).app (T_renderH h.1)).app (T_tlabs h.2)

theorem T_joinPlus {l : List String} (h : ∀ x ∈ l, T 0 0 0 0 x) : T 0 0 0 0 (joinPlus l) := T_inter (L 0 0 0 0 _) h

theorem T_pterms {l : List CC.PTerm} (h : ∀ p ∈ l, CleanP p) : T 0 0 0 0 (joinPlus (l.map CC.PTerm.render)) := by
  refine T_joinPlus fun x hx => ?_
  obtain ⟨p, hp, rfl⟩ := List.mem_map.1 hx
  exact T_pterm (h p hp)

theorem T_splitText : T 0 0 0 0 splitText := by
  unfold splitText
  exact L 0 0 0 0 _

theorem T_renderPlain {l : List CC.PTerm} (h : ∀ p ∈ l, CleanP p) : T 0 0 0 0 (CC.renderPlain l) := by
  unfold CC.renderPlain
  split
  · exact ((L 0 0 0 1 "(").app ((T_pterms h).at 0 1)).app (L 0 0 1 0 ")")
  · next hl =>
    refine ((L 0 0 0 1 "(\n").app (T.at ?_ 0 1)).app (L 0 0 1 0 "\n)")
    refine T_inter T_splitText fun x hx => ?_
    obtain ⟨line, hline, rfl⟩ := List.mem_map.1 hx
    refine T_pterms fun p hp => h p ?_
    unfold splitLines at hline
    rw [if_neg hl] at hline
    obtain ⟨i, _, rfl⟩ := List.mem_map.1 hline
    unfold TF.Py.slice at hp
    exact List.mem_of_mem_take (List.mem_of_mem_drop hp)

theorem T_condensed {g : List CC.PTerm × List TLab} (h : (∀ p ∈ g.1, CleanP p) ∧ ∀ t ∈ g.2, CleanTLab t) : T 0 0 0 0 (CC.renderCondensed g) :=
  (((L 0 0 0 1 "(").app ((T_pterms h.1).at 0 1)).app (L 0 0 1 0 ")")).app (T_tlabs h.2)

end TF.LatexText
