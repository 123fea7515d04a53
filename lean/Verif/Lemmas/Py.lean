import Verif.Py

/-! # Lemmas about the Python primitives -/

set_option linter.unusedVariables false

namespace TF.Py

variable {α : Type}

/-- A total order given as a Boolean comparison. -/
structure TotalOrderB (le : α → α → Bool) : Prop where
  total : ∀ a b, le a b = true ∨ le b a = true
  trans : ∀ a b c, le a b = true → le b c = true → le a c = true

structure LinearOrderB (le : α → α → Bool) : Prop extends TotalOrderB le where
  antisymm : ∀ a b, le a b = true → le b a = true → a = b

theorem insertBy_perm (le : α → α → Bool) (a : α) (l : List α) :
    (insertBy le a l).Perm (a :: l) := by
  induction l with
  | nil => exact List.Perm.refl _
  | cons b l ih =>
    unfold insertBy; split
    · exact List.Perm.refl _
    · exact (List.Perm.cons b ih).trans (List.Perm.swap a b l)

theorem sortBy_perm (le : α → α → Bool) (l : List α) : (sortBy le l).Perm l := by
  induction l with
  | nil => exact List.Perm.refl _
  | cons a l ih => exact (insertBy_perm le a _).trans (List.Perm.cons a ih)

@[simp] theorem mem_sortBy (le : α → α → Bool) (l : List α) (x : α) :
    x ∈ sortBy le l ↔ x ∈ l := (sortBy_perm le l).mem_iff

@[simp] theorem length_sortBy (le : α → α → Bool) (l : List α) :
    (sortBy le l).length = l.length := (sortBy_perm le l).length_eq

theorem insertBy_pairwise {le : α → α → Bool} (h : TotalOrderB le) (a : α) (l : List α)
    (hl : l.Pairwise (fun x y => le x y = true)) :
    (insertBy le a l).Pairwise (fun x y => le x y = true) := by
  induction l with
  | nil => simp [insertBy]
  | cons b l ih =>
    unfold insertBy
    rw [List.pairwise_cons] at hl
    split
    · next hab =>
      rw [List.pairwise_cons, List.pairwise_cons]
      refine ⟨?_, hl⟩
      intro x hx
      rcases List.mem_cons.1 hx with rfl | hx
      · exact hab
      · exact h.trans _ _ _ hab (hl.1 x hx)
    · next hab =>
      rw [List.pairwise_cons]
      refine ⟨?_, ih hl.2⟩
      intro x hx
      rcases List.mem_cons.1 ((insertBy_perm le a l).mem_iff.1 hx) with rfl | hx
      · rcases h.total x b with h' | h'
        · exact absurd h' hab
        · exact h'
      · exact hl.1 x hx

theorem sortBy_pairwise {le : α → α → Bool} (h : TotalOrderB le) (l : List α) :
    (sortBy le l).Pairwise (fun x y => le x y = true) := by
  induction l with
  | nil => simp [sortBy]
  | cons a l ih => exact insertBy_pairwise h a _ ih

theorem sorted_eq_of_perm {le : α → α → Bool} (h : LinearOrderB le) {l₁ l₂ : List α}
    (h₁ : l₁.Pairwise (fun x y => le x y = true)) (h₂ : l₂.Pairwise (fun x y => le x y = true))
    (hp : l₁.Perm l₂) : l₁ = l₂ :=
  List.Perm.eq_of_pairwise (fun a b _ _ => h.antisymm a b) h₁ h₂ hp

theorem sortBy_eq_iff_perm {le : α → α → Bool} (h : LinearOrderB le) (l₁ l₂ : List α) :
    sortBy le l₁ = sortBy le l₂ ↔ l₁.Perm l₂ := by
  constructor
  · intro e
    exact (sortBy_perm le l₁).symm.trans (e ▸ sortBy_perm le l₂)
  · intro hp
    exact sorted_eq_of_perm h (sortBy_pairwise h.toTotalOrderB _) (sortBy_pairwise h.toTotalOrderB _)
      ((sortBy_perm le l₁).trans (hp.trans (sortBy_perm le l₂).symm))

theorem sortBy_eq_self {le : α → α → Bool} (h : LinearOrderB le) {l : List α}
    (hl : l.Pairwise (fun x y => le x y = true)) : sortBy le l = l :=
  sorted_eq_of_perm h (sortBy_pairwise h.toTotalOrderB _) hl (sortBy_perm le l)

theorem LinearOrderB.flip {le : α → α → Bool} (h : LinearOrderB le) :
    LinearOrderB (fun a b => le b a) where
  total a b := (h.total a b).symm
  trans a b c h₁ h₂ := h.trans _ _ _ h₂ h₁
  antisymm a b h₁ h₂ := h.antisymm _ _ h₂ h₁

theorem lexLe_linear : LinearOrderB lexLe where
  total a b := by
    induction a generalizing b with
    | nil => simp [lexLe]
    | cons x xs ih =>
      cases b with
      | nil => simp [lexLe]
      | cons y ys =>
        simp only [lexLe]
        rcases Nat.lt_trichotomy x y with h | h | h
        · simp [h]
        · subst h; simpa using ih ys
        · have h1 : ¬ x < y := by omega
          have h2 : x ≠ y := by omega
          simp [h]
  trans a b c := by
    induction a generalizing b c with
    | nil => simp [lexLe]
    | cons x xs ih =>
      cases b with
      | nil => simp [lexLe]
      | cons y ys =>
        cases c with
        | nil => simp [lexLe]
        | cons z zs =>
          simp only [lexLe]
          intro h₁ h₂
          split at h₁
          · split at h₂
            · rw [if_pos (by omega)]
            · split at h₂
              · rw [if_pos (by omega)]
              · exact absurd h₂ (by simp)
          · split at h₁
            · subst_vars
              split at h₂
              · rw [if_pos (by omega)]
              · split at h₂
                · subst_vars
                  rw [if_neg (by omega), if_pos rfl]; exact ih _ _ h₁ h₂
                · exact absurd h₂ (by simp)
            · exact absurd h₁ (by simp)
  antisymm a b := by
    induction a generalizing b with
    | nil => cases b <;> simp [lexLe]
    | cons x xs ih =>
      cases b with
      | nil => simp [lexLe]
      | cons y ys =>
        simp only [lexLe]
        intro h₁ h₂
        split at h₁
        · rw [if_neg (by omega), if_neg (by omega)] at h₂; exact absurd h₂ (by simp)
        · split at h₁
          · subst_vars
            rw [if_neg (by omega), if_pos rfl] at h₂
            rw [ih _ h₁ h₂]
          · exact absurd h₁ (by simp)

theorem natLe_linear : LinearOrderB (fun a b : Nat => decide (a ≤ b)) where
  total a b := by simp; omega
  trans a b c := by simp; omega
  antisymm a b := by simp; omega

/-- A comparison by an injective key is linear. -/
theorem LinearOrderB.comap {β : Type} {le : β → β → Bool} (h : LinearOrderB le) (f : α → β)
    (hf : ∀ a b, f a = f b → a = b) : LinearOrderB (fun a b => le (f a) (f b)) where
  total a b := h.total _ _
  trans a b c := h.trans _ _ _
  antisymm a b h₁ h₂ := hf _ _ (h.antisymm _ _ h₁ h₂)

/-! ## product -/

theorem mem_product {ls : List (List α)} {x : List α} :
    x ∈ product ls ↔ List.Forall₂ (· ∈ ·) x ls := by
  induction ls generalizing x with
  | nil => simp [product]
  | cons l ls ih =>
    simp only [product, List.mem_flatMap, List.mem_map]
    constructor
    · rintro ⟨a, ha, y, hy, rfl⟩
      exact List.Forall₂.cons ha (ih.1 hy)
    · intro h
      cases h with
      | cons ha hx => exact ⟨_, ha, _, ih.2 hx, rfl⟩

theorem nodup_product {ls : List (List α)} (h : ∀ l ∈ ls, l.Nodup) : (product ls).Nodup := by
  induction ls with
  | nil => simp [product]
  | cons l ls ih =>
    simp only [product]
    rw [List.nodup_flatMap]
    refine ⟨?_, ?_⟩
    · intro a _
      exact (ih fun l hl => h l (List.mem_cons_of_mem _ hl)).map (fun _ _ h => (List.cons.inj h).2)
    · have := h l List.mem_cons_self
      refine List.Pairwise.imp ?_ this
      intro a b hab
      simp only [Function.onFun, List.disjoint_left, List.mem_map]
      rintro x ⟨y, _, rfl⟩ ⟨z, _, hz⟩
      exact hab (List.cons.inj hz).1.symm

theorem mem_productRepeat {l : List α} {k : Nat} {x : List α} :
    x ∈ productRepeat l k ↔ x.length = k ∧ ∀ a ∈ x, a ∈ l := by
  unfold productRepeat
  rw [mem_product]
  induction k generalizing x with
  | zero => cases x <;> simp
  | succ k ih =>
    cases x with
    | nil => simp
    | cons a x =>
      rw [List.replicate_succ, List.forall₂_cons, ih]
      simp only [List.length_cons, List.mem_cons, forall_eq_or_imp]
      constructor
      · rintro ⟨h1, h2, h3⟩; exact ⟨by omega, h1, h3⟩
      · rintro ⟨h2, h1, h3⟩; exact ⟨h1, by omega, h3⟩

theorem nodup_productRepeat {l : List α} {k : Nat} (h : l.Nodup) : (productRepeat l k).Nodup :=
  nodup_product (by intro l' hl'; rw [List.eq_of_mem_replicate hl']; exact h)

/-! ## permutations -/

theorem picks_perm {l : List α} {p : α × List α} (h : p ∈ picks l) : (p.1 :: p.2).Perm l := by
  induction l generalizing p with
  | nil => simp [picks] at h
  | cons a l ih =>
    simp only [picks, List.mem_cons, List.mem_map] at h
    rcases h with rfl | ⟨q, hq, rfl⟩
    · exact List.Perm.refl _
    · exact (List.Perm.swap _ _ _).trans (List.Perm.cons a (ih hq))

theorem mem_picks_of_mem {l : List α} {a : α} (h : a ∈ l) : ∃ r, (a, r) ∈ picks l := by
  induction l with
  | nil => simp at h
  | cons b l ih =>
    rcases List.mem_cons.1 h with rfl | h
    · exact ⟨l, by simp [picks]⟩
    · obtain ⟨r, hr⟩ := ih h
      exact ⟨b :: r, by simp only [picks, List.mem_cons, List.mem_map]; exact Or.inr ⟨_, hr, rfl⟩⟩

theorem mem_permsAux {n : Nat} {l x : List α} (hn : l.length = n) :
    x ∈ permsAux n l ↔ x.Perm l := by
  induction n generalizing l x with
  | zero =>
    have : l = [] := List.length_eq_zero_iff.1 hn
    subst this; simp [permsAux]
  | succ n ih =>
    simp only [permsAux, List.mem_flatMap, List.mem_map]
    constructor
    · rintro ⟨p, hp, y, hy, rfl⟩
      have h1 := picks_perm hp
      have h2 : p.2.length = n := by have := h1.length_eq; simp at this; omega
      exact (List.Perm.cons _ ((ih h2).1 hy)).trans h1
    · intro h
      cases x with
      | nil => have := h.length_eq; simp at this; omega
      | cons a y =>
        obtain ⟨r, hr⟩ := mem_picks_of_mem (h.mem_iff.1 List.mem_cons_self)
        refine ⟨_, hr, y, ?_, rfl⟩
        have h1 := picks_perm hr
        have h2 : r.length = n := by have := h1.length_eq; simp at this; omega
        exact (ih h2).2 (List.Perm.cons_inv (h.trans h1.symm))

theorem mem_permutations {l x : List α} : x ∈ permutations l ↔ x.Perm l := mem_permsAux rfl

/-! ## ranges and slices -/

theorem mem_range2 {a b x : Nat} : x ∈ range2 a b ↔ a ≤ x ∧ x < b := by
  simp only [range2, List.mem_map, List.mem_range]
  constructor
  · rintro ⟨y, h, rfl⟩; omega
  · rintro ⟨h1, h2⟩; exact ⟨x - a, by omega, by omega⟩

theorem nodup_range2 (a b : Nat) : (range2 a b).Nodup :=
  (List.nodup_range).map (fun _ _ h => by simpa using h)

theorem length_slice (xs : List α) (a b : Nat) :
    (slice xs a b).length = min b xs.length - a := by
  simp [slice]

theorem sum_perm {l₁ l₂ : List Nat} (h : l₁.Perm l₂) : l₁.sum = l₂.sum := h.sum_nat

end TF.Py
