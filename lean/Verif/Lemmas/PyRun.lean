import Verif.Spec.PyRun
import Verif.Lemmas.SourceLex
import Mathlib.Data.List.Forall2
import Mathlib.Data.List.Dedup
import Mathlib.Tactic.Ring

/-!
# Lemmas about running Python source
-/

namespace TF.Spec.PyRun

open TF.Spec.Source TF.Spec.Tensor

variable {R : Type} [CommRing R] [Algebra Rat R]

/-! ## Numbers -/

theorem takeWhile_all {α : Type} {q : α → Bool} : ∀ {l : List α}, (∀ x ∈ l, q x = true) → l.takeWhile q = l ∧ l.dropWhile q = []
  | [], _ => ⟨rfl, rfl⟩
  | a :: l, h => by
    have ih := takeWhile_all (q := q) (l := l) fun x hx => h x (by simp [hx])
    simp [h a (by simp), ih.1, ih.2]

theorem number_nat (n : Nat) : number (toString n).toList = some (n : Rat) := by
  have hd : ∀ c ∈ (toString n).toList, c.isDigit = true := by
    rw [Nat.toString_eq_ofList_toDigits, String.toList_ofList]
    exact fun c hc => Nat.isDigit_of_mem_toDigits (b := 10) (by decide) (by decide) hc
  obtain ⟨h1, h2⟩ := takeWhile_all hd
  have hne := (nat_word n).1
  unfold number
  rw [h1, h2, if_neg hne, Nat.toString_eq_ofList_toDigits, String.toList_ofList]
  simp only [Nat.ofDigitChars_ten_toDigits]

theorem number_none {c : Char} {l : List Char} (h : c.isDigit = false) : number (c :: l) = Option.none := by
  unfold number
  rw [List.takeWhile_cons_of_neg (by simp [h])]
  rfl

/-! ## einsum -/

/-- the text of the letters -/
def letters (subs : List (List Char)) (out : List Char) : List Char := [',', ' '].intercalate subs ++ (' ' :: '-' :: '>' :: ' ' :: out)

theorem filter_intercalate : ∀ {subs : List (List Char)}, (∀ s ∈ subs, ' ' ∉ s) →
    ([',', ' '].intercalate subs).filter (fun c => decide (c ≠ ' ')) = [','].intercalate subs
  | [], _ => rfl
  | [a], h => by
    rw [List.intercalate_singleton, List.intercalate_singleton, List.filter_eq_self]
    intro c hc
    simp only [decide_eq_true_eq]
    rintro rfl
    exact h a (by simp) hc
  | a :: b :: l, h => by
    have ih := filter_intercalate (subs := b :: l) fun s hs => h s (by simp [List.mem_cons.1 hs])
    rw [List.intercalate_cons_cons, List.intercalate_cons_cons, List.filter_append, List.filter_append, ih]
    congr 1
    rw [List.filter_eq_self.2]
    · rfl
    · intro c hc
      simp only [decide_eq_true_eq]
      rintro rfl
      exact h a (by simp) hc

theorem not_mem_intercalate {c x : Char} (hx : x ≠ c) : ∀ {subs : List (List Char)}, (∀ s ∈ subs, x ∉ s) → x ∉ [c].intercalate subs
  | [], _ => by simp
  | [a], h => by simpa using h
  | a :: b :: l, h => by
    rw [List.intercalate_cons_cons]
    have := not_mem_intercalate hx (subs := b :: l) fun s hs => h s (by simp [List.mem_cons.1 hs])
    simp only [List.mem_append, List.mem_singleton, not_or]
    exact ⟨⟨h a (by simp), hx⟩, this⟩

theorem subscripts_of {s : List Char} {subs : List (List Char)} {out : List Char} (hf : s.filter (fun c => decide (c ≠ ' ')) = [','].intercalate subs ++ ('-' :: '>' :: out))
    (hne : subs ≠ []) (h1 : ∀ s ∈ subs, ',' ∉ s ∧ '-' ∉ s) : subscripts s = some (subs, out) := by
  have hm : ∀ c ∈ [','].intercalate subs, decide (c ≠ '-') = true := by
    intro c hc
    simp only [decide_eq_true_eq]
    rintro rfl
    exact not_mem_intercalate (by decide) (fun s hs => (h1 s hs).2) hc
  unfold subscripts
  simp only [hf]
  rw [List.dropWhile_append, List.takeWhile_append]
  obtain ⟨t1, t2⟩ := takeWhile_all hm
  rw [t1, t2]
  simp only [List.isEmpty_nil, if_true]
  have hd : ('-' :: '>' :: out).dropWhile (fun c => decide (c ≠ '-')) = '-' :: '>' :: out := by
    rw [List.dropWhile_cons_of_neg (by simp)]
  have ht : ('-' :: '>' :: out).takeWhile (fun c => decide (c ≠ '-')) = [] := by
    rw [List.takeWhile_cons_of_neg (by simp)]
  rw [hd, ht]
  simp only [List.append_nil]
  rw [List.splitOn_intercalate ',' (fun s hs => (h1 s hs).1) hne]

theorem filter_clean {l : List Char} (h : ' ' ∉ l) : l.filter (fun c => decide (c ≠ ' ')) = l := by
  rw [List.filter_eq_self]
  intro c hc
  simp only [decide_eq_true_eq]
  rintro rfl
  exact h hc

theorem subscripts_letters {subs : List (List Char)} {out : List Char} (hne : subs ≠ []) (h1 : ∀ s ∈ subs, ' ' ∉ s ∧ ',' ∉ s ∧ '-' ∉ s) (h2 : ' ' ∉ out) :
    subscripts (letters subs out) = some (subs, out) := by
  refine subscripts_of ?_ hne fun s hs => (h1 s hs).2
  unfold letters
  rw [List.filter_append, filter_intercalate fun s hs => (h1 s hs).1]
  congr 1
  rw [show (' ' :: '-' :: '>' :: ' ' :: out) = [' ', '-', '>', ' '] ++ out from rfl, List.filter_append, filter_clean h2]
  rfl

/-- without spaces -/
theorem subscripts_tight {subs : List (List Char)} {out : List Char} (hne : subs ≠ []) (h1 : ∀ s ∈ subs, ' ' ∉ s ∧ ',' ∉ s ∧ '-' ∉ s) (h2 : ' ' ∉ out) :
    subscripts ([','].intercalate subs ++ ('-' :: '>' :: out)) = some (subs, out) := by
  refine subscripts_of (filter_clean ?_) hne fun s hs => (h1 s hs).2
  simp only [List.mem_append, List.mem_cons, not_or]
  exact ⟨not_mem_intercalate (by decide) fun s hs => (h1 s hs).1, by decide, by decide, h2⟩

/-- the operands have the shapes the letters say -/
def Fits (d : Char → Nat) (subs : List (List Char)) (ops : List (NArr R)) : Prop := List.Forall₂ (fun s x => x.shape = s.map d) subs ops

omit [CommRing R] [Algebra Rat R] in
theorem mem_axes {d : Char → Nat} {subs : List (List Char)} {ops : List (NArr R)} (h : Fits d subs ops) :
    (∀ p ∈ axes subs ops, p.2 = d p.1) ∧ ∀ c ∈ subs.flatten, (c, d c) ∈ axes subs ops := by
  have hz : ∀ s : List Char, s.zip (s.map d) = s.map fun c => (c, d c) := by
    intro s
    induction s with
    | nil => rfl
    | cons a s ih => simp [ih]
  unfold Fits at h
  induction h with
  | nil => exact ⟨by simp [axes], by simp⟩
  | @cons s x subs ops hs h ih =>
    have e : axes (s :: subs) (x :: ops) = (s.map fun c => (c, d c)) ++ axes subs ops := by
      unfold axes
      rw [List.zipWith_cons_cons, List.flatten_cons, hs, hz]
    rw [e]
    constructor
    · intro p hp
      rcases List.mem_append.1 hp with hp | hp
      · obtain ⟨c, _, rfl⟩ := List.mem_map.1 hp
        rfl
      · exact ih.1 p hp
    · intro c hc
      rw [List.flatten_cons] at hc
      rcases List.mem_append.1 hc with hc | hc
      · exact List.mem_append.2 (.inl (List.mem_map.2 ⟨c, hc, rfl⟩))
      · exact List.mem_append.2 (.inr (ih.2 c hc))

theorem dim_of {d : Char → Nat} {c : Char} : ∀ {ax : List (Char × Nat)}, (∀ p ∈ ax, p.2 = d p.1) → (c, d c) ∈ ax → dim ax c = d c
  | [], _, h => by simp at h
  | (a, n) :: ax, h1, h2 => by
    unfold dim
    by_cases hc : c = a
    · subst hc
      have := h1 (c, n) (by simp)
      simp only at this
      simp [List.lookup, this]
    · have h3 : (c, d c) ∈ ax := by
        rcases List.mem_cons.1 h2 with h | h
        · exact absurd (Prod.mk.inj h).1 hc
        · exact h
      have ih := dim_of (fun p hp => h1 p (by simp [hp])) h3
      unfold dim at ih
      rw [List.lookup_cons, show (c == a) = false by simpa using hc]
      exact ih

omit [Algebra Rat R] in
theorem sumOver_dims {d d' : Char → Nat} : ∀ {l : List Char}, (∀ c ∈ l, d c = d' c) → ∀ (σ : Char → Nat) (F : (Char → Nat) → R), sumOver d l σ F = sumOver d' l σ F
  | [], _, _, _ => rfl
  | c :: l, h, σ, F => by
    unfold sumOver
    rw [h c (by simp)]
    exact Finset.sum_congr rfl fun i _ => sumOver_dims (fun c hc => h c (by simp [hc])) _ _

omit [Algebra Rat R] in
theorem einsum_of {s : List Char} {subs : List (List Char)} {out : List Char} {ops : List (NArr R)} {d : Char → Nat} (hsub : subscripts s = some (subs, out))
    (hf : Fits d subs ops) (hn : out.Nodup) (ho : ∀ c ∈ out, c ∈ subs.flatten) :
    einsum s ops = .ok ⟨out.map d, fun v =>
      sumOver d (subs.flatten.filter fun c => decide (c ∉ out)).dedup (fun c => v.getD (out.idxOf c) 0)
        fun σ => (List.zipWith (fun (x : NArr R) s => x.get (s.map σ)) ops subs).prod⟩ := by
  obtain ⟨a1, a2⟩ := mem_axes hf
  have hd : ∀ c ∈ subs.flatten, dim (axes subs ops) c = d c := fun c hc => dim_of a1 (a2 c hc)
  have hlen : subs.map List.length = ops.map (fun x => x.shape.length) := by
    unfold Fits at hf
    clear hsub hn ho a1 a2 hd
    induction hf with
    | nil => rfl
    | cons hs _ ih => simp [hs, ih]
  have hmem : ∀ p ∈ axes subs ops, p.1 ∈ subs.flatten := by
    intro p hp
    unfold axes at hp
    clear hsub hn ho a1 a2 hd hlen
    unfold Fits at hf
    induction hf with
    | nil => simp at hp
    | @cons s x subs ops hs _ ih =>
      rw [List.zipWith_cons_cons, List.flatten_cons] at hp
      rw [List.flatten_cons]
      rcases List.mem_append.1 hp with hp | hp
      · exact List.mem_append.2 (.inl (List.of_mem_zip (b := p.2) hp).1)
      · exact List.mem_append.2 (.inr (ih hp))
  unfold einsum
  rw [hsub]
  simp only
  rw [if_pos ⟨hlen, fun p hp => by rw [hd _ (hmem p hp)]; exact a1 p hp, hn, ho⟩]
  congr 2
  · exact List.map_congr_left fun c hc => hd c (ho c hc)
  · funext v
    refine sumOver_dims (fun c hc => hd c ?_) _ _
    exact (List.mem_filter.1 (List.mem_dedup.1 hc)).1

omit [Algebra Rat R] in
theorem einsum_ok {subs : List (List Char)} {out : List Char} {ops : List (NArr R)} {d : Char → Nat} (hne : subs ≠ [])
    (h1 : ∀ s ∈ subs, ' ' ∉ s ∧ ',' ∉ s ∧ '-' ∉ s) (h2 : ' ' ∉ out) (hf : Fits d subs ops) (hn : out.Nodup) (ho : ∀ c ∈ out, c ∈ subs.flatten) :
    einsum (letters subs out) ops = .ok ⟨out.map d, fun v =>
      sumOver d (subs.flatten.filter fun c => decide (c ∉ out)).dedup (fun c => v.getD (out.idxOf c) 0)
        fun σ => (List.zipWith (fun (x : NArr R) s => x.get (s.map σ)) ops subs).prod⟩ :=
  einsum_of (subscripts_letters hne h1 h2) hf hn ho

end TF.Spec.PyRun
