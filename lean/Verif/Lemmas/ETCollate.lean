import Verif.Lemmas.ETComputes

/-! # Lemmas about the Python code of the e^T z_t equations: the collation of the strings -/

namespace TF.ETPy

open TF.Py
open TF.CC (Op HOp summationIdx unlinkedIdx hamiltonianTag taylorTag collect collect_ok_of collect_ok_iff)
open TF.ET (Mode Term lenOf rankOf)
open TF.Spec.ET TF.Spec.ETPy

/-! ## Texts determine the labels -/

theorem split_first {α : Type} {c : α} : ∀ {a a' x x' : List α}, c ∉ a → c ∉ a' → a ++ c :: x = a' ++ c :: x' → a = a' ∧ x = x'
  | [], [], x, x', _, _, e => by simpa using e
  | [], b :: a', x, x', _, h, e => by
    simp only [List.nil_append, List.cons_append, List.cons.injEq] at e
    exact absurd (by simp [e.1]) h
  | b :: a, [], x, x', h, _, e => by
    simp only [List.nil_append, List.cons_append, List.cons.injEq] at e
    exact absurd (by simp [e.1]) h
  | b :: a, b' :: a', x, x', h, h', e => by
    simp only [List.cons_append, List.cons.injEq] at e
    obtain ⟨e1, e2⟩ := split_first (fun hc => h (List.mem_cons_of_mem _ hc)) (fun hc => h' (List.mem_cons_of_mem _ hc)) e.2
    exact ⟨by rw [e.1, e1], e2⟩

theorem mem_intercalate {α : Type} {s : List α} {x : α} : ∀ {l : List (List α)}, x ∈ s.intercalate l → x ∈ s ∨ ∃ a ∈ l, x ∈ a
  | [], h => by simp at h
  | [a], h => by
    rw [List.intercalate_singleton] at h
    exact Or.inr ⟨a, by simp, h⟩
  | a :: b :: l, h => by
    rw [List.intercalate_cons_cons, List.mem_append, List.mem_append] at h
    rcases h with (h | h) | h
    · exact Or.inr ⟨a, by simp, h⟩
    · exact Or.inl h
    · rcases mem_intercalate h with h | ⟨a', h1, h2⟩
      · exact Or.inl h
      · exact Or.inr ⟨a', List.mem_cons_of_mem _ h1, h2⟩

theorem intercalate_inj {α : Type} {c : α} {s : List α} : ∀ {l l' : List (List α)}, l ≠ [] → l' ≠ [] →
    (∀ a ∈ l, c ∉ a) → (∀ a ∈ l', c ∉ a) → (c :: s).intercalate l = (c :: s).intercalate l' → l = l'
  | [], _, h, _, _, _, _ => absurd rfl h
  | _, [], _, h, _, _, _ => absurd rfl h
  | [a], [a'], _, _, _, _, e => by simpa using e
  | [a], a' :: b' :: l', _, _, h, _, e => by
    rw [List.intercalate_singleton, List.intercalate_cons_cons] at e
    exact absurd (by rw [e]; simp) (h a (by simp))
  | a :: b :: l, [a'], _, _, _, h, e => by
    rw [List.intercalate_singleton, List.intercalate_cons_cons] at e
    exact absurd (by rw [← e]; simp) (h a' (by simp))
  | a :: b :: l, a' :: b' :: l', _, _, h, h', e => by
    rw [List.intercalate_cons_cons, List.intercalate_cons_cons, List.append_assoc, List.append_assoc, List.cons_append,
      List.cons_append] at e
    obtain ⟨e1, e2⟩ := split_first (h a (by simp)) (h' a' (by simp)) e
    have := intercalate_inj (by simp) (by simp) (fun x hx => h x (List.mem_cons_of_mem _ hx))
      (fun x hx => h' x (List.mem_cons_of_mem _ hx)) (List.append_cancel_left e2)
    rw [e1, this]

/-- Two calls with the same text have the same labels. -/
theorem render_subs {e e' : Einsum} (h : ∀ s ∈ e.subs, ',' ∉ s ∧ '-' ∉ s) (h' : ∀ s ∈ e'.subs, ',' ∉ s ∧ '-' ∉ s)
    (hn : e.subs ≠ []) (hn' : e'.subs ≠ []) (hr : e.render = e'.render) : e.subs = e'.subs := by
  have key : ∀ e : Einsum, e.render.toList = "np.einsum('".toList ++ (([',', ' '].intercalate e.subs ++ [' ']) ++ '-' ::
      (['>', ' '] ++ e.out ++ "', ".toList ++ (", ".intercalate (e.operands.map Operand.render)).toList ++ ")".toList)) := by
    intro e
    simp only [Einsum.render, String.toList_append, String.toList_intercalate, List.map_map, String.toList_ofList]
    have : (String.toList ∘ String.ofList) = id := by funext l; simp
    rw [this, List.map_id]
    simp
  have hA : ∀ e : Einsum, (∀ s ∈ e.subs, ',' ∉ s ∧ '-' ∉ s) → '-' ∉ [',', ' '].intercalate e.subs ++ [' '] := by
    intro e h hm
    rw [List.mem_append] at hm
    rcases hm with hm | hm
    · rcases mem_intercalate hm with hm | ⟨a, h1, h2⟩
      · revert hm; decide
      · exact (h a h1).2 h2
    · revert hm; decide
  have h1 := congrArg String.toList hr
  rw [key, key] at h1
  obtain ⟨h2, _⟩ := split_first (hA e h) (hA e' h') (List.append_cancel_left h1)
  exact intercalate_inj hn hn' (fun s hs => (h s hs).1) (fun s hs => (h' s hs).1) (List.append_cancel_right h2)

section
variable {N k hm hn zm j hl zl : Nat}

theorem S_count_h (n : Nums N k hm hn zm j hl zl) (cap : k + hn ≤ 10) :
    ((labOf N k hn j hl .h : List Char).filter fun x => decide (x ∈ summationIdx)).length = (k - j) + hn := by
  have n1 := n.le
  have hS : summationIdx.length = 10 := rfl
  simp only [labOf, hLab, List.filter_append, List.length_append]
  rw [filter_all (fun x hx => mem_of_at' hx), filter_all (fun x hx => mem_of_at' hx),
    filter_none (fun x hx h => S_not_U x h (mem_of_at' hx)), length_at' (by omega), length_at' (by omega)]
  omega

theorem S_count_z (n : Nums N k hm hn zm j hl zl) (cap : k + hn ≤ 10) :
    ((labOf N k hn j hl .z : List Char).filter fun x => decide (x ∈ summationIdx)).length = j + hn := by
  have n1 := n.le
  have hS : summationIdx.length = 10 := rfl
  simp only [labOf, zLab, List.filter_append, List.length_append]
  rw [filter_all (fun x hx => mem_of_at' hx), filter_all (fun x hx => mem_of_at' hx),
    filter_none (fun x hx h => S_not_U x h (mem_of_at' hx)), length_at' (by omega), length_at' (by omega)]
  omega

end

theorem length_factors (mode : Mode) (k : Nat) (h : HOp) : (factors mode k h).length = k + ((if onZ mode h then 0 else 1) + 1) := by
  unfold factors
  rw [List.length_append, List.length_append]
  congr 1
  · by_cases hk : k = 0
    · simp [hk]
    · rw [if_neg hk, List.length_map, List.length_finRange, tFactors_length hk]
  · split <;> rfl

theorem labels_clean {N k hn j hl : Nat} {mode : Mode} {p : Pl k} : ',' ∉ elec mode p ++ labOf N k hn j hl p ∧ '-' ∉ elec mode p ++ labOf N k hn j hl p := by
  have hS : ',' ∉ summationIdx ∧ '-' ∉ summationIdx := by decide
  have hU : ',' ∉ unlinkedIdx ∧ '-' ∉ unlinkedIdx := by decide
  have he : ∀ x ∈ elec mode p, x = 'a' ∨ x = 'c' := by
    intro x hx
    cases p <;> cases mode <;> simp [elec] at hx <;> tauto
  have key : ∀ x ∈ elec mode p ++ labOf N k hn j hl p, x ≠ ',' ∧ x ≠ '-' := by
    intro x hx
    rw [List.mem_append] at hx
    rcases hx with hx | hx
    · rcases he x hx with rfl | rfl <;> decide
    · rcases letter_cases hx with ⟨i, hi⟩ | ⟨i, hi⟩
      · have := List.mem_of_getElem? hi
        exact ⟨fun e => hS.1 (e ▸ this), fun e => hS.2 (e ▸ this)⟩
      · have := List.mem_of_getElem? hi
        exact ⟨fun e => hU.1 (e ▸ this), fun e => hU.2 (e ▸ this)⟩
  exact ⟨fun h => (key _ h).1 rfl, fun h => (key _ h).2 rfl⟩

/-- The text of a call determines the class, among terms with the same rank of h and the same rank of z. -/
theorem render_inj {mode : Mode} {N k k' : Nat} {h h' : HOp} {z z' : Op} {j j' hl hl' zl zl' : Nat}
    (n : Nums N k h.m h.n z.m j hl zl) (n' : Nums N k' h'.m h'.n z'.m j' hl' zl') (cap : k + h.n ≤ 10) (cap' : k' + h'.n ≤ 10)
    (htk : Takes mode h) (htk' : Takes mode h')
    (hh : max h.m h.n = max h'.m h'.n) (hz : z.m = z'.m)
    (hr : (codeOf mode N k h z j hl).render = (codeOf mode N k' h' z' j' hl').render) :
    k = k' ∧ h.m = h'.m ∧ h.n = h'.n ∧ j = j' ∧ hl = hl' := by
  have hon : onZ mode h ↔ onZ mode h' := by
    unfold onZ
    constructor
    · rintro ⟨a, b, c⟩
      have : max h'.m h'.n = 0 := by rw [← hh, b, c]; rfl
      refine ⟨a, ?_, ?_⟩ <;> omega
    · rintro ⟨a, b, c⟩
      have : max h.m h.n = 0 := by rw [hh, b, c]; rfl
      refine ⟨a, ?_, ?_⟩ <;> omega
  have hsubs := render_subs (e := codeOf mode N k h z j hl) (e' := codeOf mode N k' h' z' j' hl') (by
      intro s hs
      obtain ⟨p, _, rfl⟩ := List.mem_map.1 hs
      exact labels_clean) (by
      intro s hs
      obtain ⟨p, _, rfl⟩ := List.mem_map.1 hs
      exact labels_clean) (by simp [codeOf, factors]) (by simp [codeOf, factors]) hr
  have hkk : k = k' := by
    have := congrArg List.length hsubs
    simp only [codeOf, List.length_map, length_factors] at this
    by_cases a : onZ mode h
    · rw [if_pos a, if_pos (hon.1 a)] at this; omega
    · rw [if_neg a, if_neg (fun b => a (hon.2 b))] at this; omega
  subst hkk
  have hfac : factors mode k h = factors mode k h' := by
    unfold factors
    by_cases a : onZ mode h
    · rw [if_pos a, if_pos (hon.1 a)]
    · rw [if_neg a, if_neg (fun b => a (hon.2 b))]
  have hlab : ∀ p ∈ factors mode k h, labOf N k h.n j hl p = labOf N k h'.n j' hl' p := by
    intro p hp
    simp only [codeOf] at hsubs
    rw [← hfac] at hsubs
    have := List.map_inj_left.1 hsubs p hp
    simpa using this
  have hzf : (.z : Pl k) ∈ factors mode k h := by simp [factors]
  have e1 := S_count_z n cap
  rw [hlab _ hzf, S_count_z n' cap'] at e1
  have n1 := n.onH
  have n2 := n.onZ
  have n3 := n.onN
  have n4 := n.le
  have m1 := n'.onH
  have m2 := n'.onZ
  have m3 := n'.onN
  have m4 := n'.le
  by_cases a : onZ mode h
  · have b := hon.1 a
    have a1 := a.2.1
    have a2 := a.2.2
    have b1 := b.2.1
    have b2 := b.2.2
    refine ⟨rfl, ?_, ?_, ?_, ?_⟩ <;> omega
  · have hhf : (.h : Pl k) ∈ factors mode k h := by simp [factors, a]
    have e2 := S_count_h n cap
    rw [hlab _ hhf, S_count_h n' cap'] at e2
    refine ⟨rfl, ?_, ?_, ?_, ?_⟩ <;> omega

/-! ## Removal of duplicates and sorting -/

theorem mem_of_distinctBy {α : Type} {f : α → String} {x : α} : ∀ {l : List α}, x ∈ distinctBy f l → x ∈ l
  | [], h => h
  | a :: l, h => by
    simp only [distinctBy, List.mem_cons, List.mem_filter] at h
    rcases h with h | ⟨h, _⟩
    · exact h ▸ List.mem_cons_self
    · exact List.mem_cons_of_mem _ (mem_of_distinctBy h)

theorem mem_distinctBy {α : Type} {f : α → String} {x : α} : ∀ {l : List α}, (∀ a ∈ l, ∀ b ∈ l, f a = f b → a = b) → x ∈ l → x ∈ distinctBy f l
  | [], _, h => h
  | a :: l, hi, h => by
    simp only [distinctBy, List.mem_cons, List.mem_filter, decide_eq_true_eq]
    by_cases e : x = a
    · exact Or.inl e
    · have hx : x ∈ l := by
        rcases List.mem_cons.1 h with h | h
        · exact absurd h e
        · exact h
      exact Or.inr ⟨mem_distinctBy (fun b hb c hc => hi b (List.mem_cons_of_mem _ hb) c (List.mem_cons_of_mem _ hc)) hx,
        fun e' => e (hi x h a List.mem_cons_self e')⟩

theorem nodup_distinctBy {α : Type} (f : α → String) : ∀ l : List α, (distinctBy f l).Nodup
  | [] => List.nodup_nil
  | a :: l => by
    simp only [distinctBy]
    rw [List.nodup_cons]
    refine ⟨fun h => ?_, (nodup_distinctBy f l).filter _⟩
    simp at h

theorem sublist_distinctBy {α : Type} (f : α → String) : ∀ l : List α, List.Sublist (distinctBy f l) l
  | [] => List.Sublist.slnil
  | _ :: l => (List.filter_sublist.trans (sublist_distinctBy f l)).cons_cons _

theorem mem_uniqueCodes {l : List Einsum} (hi : ∀ a ∈ l, ∀ b ∈ l, a.render = b.render → a = b) {x : Einsum} :
    x ∈ uniqueCodes l ↔ x ∈ l := by
  unfold uniqueCodes
  simp only
  split
  · rfl
  · rw [mem_sortBy]
    exact ⟨mem_of_distinctBy, mem_distinctBy hi⟩

theorem nodup_uniqueCodes (l : List Einsum) : (uniqueCodes l).Nodup := by
  unfold uniqueCodes
  simp only
  split
  · rename_i h
    rw [length_sortBy] at h
    have := (sublist_distinctBy Einsum.render l).eq_of_length h.symm
    rw [← this]
    exact nodup_distinctBy _ _
  · exact (sortBy_perm _ _).nodup_iff.2 (nodup_distinctBy _ _)

/-- Within one place of the collation, the text determines the call. -/
def TextInj (es : List Entry) : Prop :=
  ∀ a ∈ es, ∀ b ∈ es, a.hRank = b.hRank → a.zRank = b.zRank → a.code.render = b.code.render → a.code = b.code

theorem mem_bucket {es : List Entry} (hi : TextInj es) {i j : Nat} {e : Entry} :
    e ∈ blocks i j (bucket es i j) ↔ e ∈ es ∧ e.hRank = i ∧ e.tRank = j := by
  have inner : ∀ z q, ∀ a ∈ ((((es.filter fun e => decide (e.hRank = i) && decide (e.tRank = j)).filter fun e => decide (e.zRank = z)).filter
      fun e => decide (e.pref = q)).map Entry.code), ∀ b ∈ ((((es.filter fun e => decide (e.hRank = i) && decide (e.tRank = j)).filter
      fun e => decide (e.zRank = z)).filter fun e => decide (e.pref = q)).map Entry.code), a.render = b.render → a = b := by
    intro z q a ha b hb hr
    simp only [List.mem_map, List.mem_filter, Bool.and_eq_true, decide_eq_true_eq] at ha hb
    obtain ⟨a', ⟨⟨⟨a1, a2, a3⟩, a4⟩, a5⟩, rfl⟩ := ha
    obtain ⟨b', ⟨⟨⟨b1, b2, b3⟩, b4⟩, b5⟩, rfl⟩ := hb
    exact hi a' a1 b' b1 (a2.trans b2.symm) (a4.trans b4.symm) hr
  unfold blocks bucket
  simp only [List.mem_flatMap, List.mem_map, mem_sortBy, List.mem_dedup]
  constructor
  · rintro ⟨b, ⟨z, _, rfl⟩, s, hs, c, hc, rfl⟩
    simp only [List.mem_map, mem_sortBy] at hs
    obtain ⟨q, _, rfl⟩ := hs
    simp only [mem_uniqueCodes (inner z q)] at hc
    simp only [List.mem_map, List.mem_filter, Bool.and_eq_true, decide_eq_true_eq] at hc
    obtain ⟨⟨eh, et, ez, ep, ec⟩, ⟨⟨⟨a1, a2, a3⟩, a4⟩, a5⟩, rfl⟩ := hc
    simp only at a2 a3 a4 a5
    subst a2 a3 a4 a5
    exact ⟨a1, rfl, rfl⟩
  · rintro ⟨h1, h2, h3⟩
    have hl : e ∈ es.filter fun e => decide (e.hRank = i) && decide (e.tRank = j) := by
      simp [h1, h2, h3]
    refine ⟨_, ⟨e.zRank, ⟨e, hl, rfl⟩, rfl⟩, ⟨e.pref, uniqueCodes _⟩, List.mem_map.2 ⟨e.pref, ?_, rfl⟩, e.code, ?_, ?_⟩
    · rw [mem_sortBy, List.mem_dedup]
      exact List.mem_map.2 ⟨e, by simp [h1, h2, h3], rfl⟩
    · simp only [mem_uniqueCodes (inner e.zRank e.pref)]
      exact List.mem_map.2 ⟨e, by simp [h1, h2, h3], rfl⟩
    · cases e
      simp only at h2 h3
      subst h2 h3
      rfl

theorem nodup_sortBy {α : Type} {le : α → α → Bool} {l : List α} (h : l.Nodup) : (sortBy le l).Nodup :=
  (sortBy_perm le l).nodup_iff.2 h

theorem nodup_bucket (es : List Entry) (i j : Nat) : (blocks i j (bucket es i j)).Nodup := by
  unfold blocks bucket
  simp only
  rw [List.flatMap_map, List.nodup_flatMap]
  constructor
  · intro z _
    rw [List.flatMap_map, List.nodup_flatMap]
    constructor
    · intro q _
      refine List.Nodup.map ?_ (nodup_uniqueCodes _)
      intro a b e
      simpa using e
    · refine (nodup_sortBy (List.nodup_dedup _)).imp ?_
      intro q q' hq x hx hx'
      simp only [List.mem_map] at hx hx'
      obtain ⟨_, _, rfl⟩ := hx
      obtain ⟨_, _, e⟩ := hx'
      simp only [Entry.mk.injEq] at e
      exact hq e.2.2.2.1.symm
  · refine (nodup_sortBy (List.nodup_dedup _)).imp ?_
    intro z z' hz x hx hx'
    simp only [List.flatMap_map, List.mem_flatMap, List.mem_map] at hx hx'
    obtain ⟨_, _, _, _, rfl⟩ := hx
    obtain ⟨_, _, _, _, e⟩ := hx'
    simp only [Entry.mk.injEq] at e
    exact hz e.2.2.1.symm

theorem gates_of_blocks {h t : Nat} {l : List ZBlock} {e : Entry} (he : e ∈ blocks h t l) : e.hRank = h ∧ e.tRank = t := by
  simp only [blocks, List.mem_flatMap, List.mem_map] at he
  obtain ⟨_, _, _, _, _, _, rfl⟩ := he
  exact ⟨rfl, rfl⟩

/-- The block for one rank of h. -/
def hb (cc : Nat) (es : List Entry) (i : Nat) : HBlock :=
  ⟨i, bucket es i 0, ((range2 1 (cc + 1)).map fun j => (j, bucket es i j)).filter fun p => decide (p.2 ≠ [])⟩

theorem mem_hb {es : List Entry} (hi : TextInj es) {cc i : Nat} {e : Entry} :
    (e ∈ blocks i 0 (hb cc es i).zero ++ (hb cc es i).ts.flatMap fun p => blocks i p.1 p.2) ↔
      e ∈ es ∧ e.hRank = i ∧ e.tRank ≤ cc := by
  simp only [hb, List.mem_append, mem_bucket hi, List.mem_flatMap, List.mem_filter, List.mem_map, mem_range2, decide_eq_true_eq]
  constructor
  · rintro (⟨h1, h2, h3⟩ | ⟨p, ⟨⟨j, hj, rfl⟩, _⟩, h⟩)
    · exact ⟨h1, h2, by omega⟩
    · obtain ⟨h1, h2, h3⟩ := (mem_bucket hi).1 h
      exact ⟨h1, h2, by omega⟩
  · rintro ⟨h1, h2, h3⟩
    by_cases h0 : e.tRank = 0
    · exact Or.inl ⟨h1, h2, h0⟩
    · have hm : e ∈ blocks i e.tRank (bucket es i e.tRank) := (mem_bucket hi).2 ⟨h1, h2, rfl⟩
      refine Or.inr ⟨_, ⟨⟨e.tRank, by omega, rfl⟩, ?_⟩, hm⟩
      intro h
      simp only at h
      rw [h] at hm
      simp [blocks] at hm

theorem nodup_hb (es : List Entry) (cc i : Nat) :
    (blocks i 0 (hb cc es i).zero ++ (hb cc es i).ts.flatMap fun p => blocks i p.1 p.2).Nodup := by
  rw [List.nodup_append]
  have hts : ∀ p ∈ (hb cc es i).ts, 1 ≤ p.1 ∧ p.2 = bucket es i p.1 := by
    intro p hp
    simp only [hb, List.mem_filter, List.mem_map, mem_range2] at hp
    obtain ⟨⟨j, hj, rfl⟩, _⟩ := hp
    exact ⟨hj.1, rfl⟩
  refine ⟨nodup_bucket es i 0, ?_, ?_⟩
  · rw [List.nodup_flatMap]
    constructor
    · intro p hp
      rw [(hts p hp).2]
      exact nodup_bucket _ _ _
    · have : (hb cc es i).ts.Pairwise fun a b => a.1 ≠ b.1 := by
        simp only [hb]
        refine List.Pairwise.sublist List.filter_sublist ?_
        rw [List.pairwise_map]
        exact nodup_range2 _ _
      refine this.imp ?_
      intro a b hab x hx hx'
      exact hab ((gates_of_blocks hx).2.symm.trans (gates_of_blocks hx').2)
  · intro a ha b hb' e
    subst e
    simp only [List.mem_flatMap] at hb'
    obtain ⟨p, hp, hm⟩ := hb'
    have h1 := (gates_of_blocks ha).2
    have h2 := (gates_of_blocks hm).2
    have h3 := (hts p hp).1
    omega

/-- The statements are the strings, each once. -/
theorem statements_code {es : List Entry} (hi : TextInj es) {hMax cc : Nat} :
    (statements (.code ((List.range (hMax + 1)).map (hb cc es)))).Nodup ∧
    ∀ e, e ∈ statements (.code ((List.range (hMax + 1)).map (hb cc es))) ↔ e ∈ es ∧ e.hRank ≤ hMax ∧ e.tRank ≤ cc := by
  have hh : ∀ i, (hb cc es i).h = i := fun i => rfl
  simp only [statements, List.flatMap_map, hh]
  constructor
  · rw [List.nodup_flatMap]
    refine ⟨fun i _ => nodup_hb es cc i, ?_⟩
    refine List.nodup_range.imp ?_
    intro a b hab x hx hx'
    exact hab (((mem_hb hi).1 hx).2.1.symm.trans ((mem_hb hi).1 hx').2.1)
  · intro e
    simp only [List.mem_flatMap, List.mem_range, mem_hb hi]
    constructor
    · rintro ⟨i, h1, h2, h3, h4⟩
      exact ⟨h2, by omega, h4⟩
    · rintro ⟨h1, h2, h3⟩
      exact ⟨e.hRank, by omega, h1, rfl, h3⟩

/-! ## When the tags suffice -/

theorem hBlock_ok {cc : Nat} {es : List Entry} {i : Nat} (hi : i < 6) (hz : ∀ e ∈ es, e.zRank < 6) (ht : ∀ e ∈ es, e.tRank < 7) :
    hBlock cc es i = .ok (hb cc es i) := by
  have hzt : ∀ j, zTagsOk (bucket es i j) = true := by
    intro j
    simp only [zTagsOk, bucket, List.all_eq_true, List.mem_map, mem_sortBy, List.mem_dedup, decide_eq_true_eq]
    rintro b ⟨z, ⟨e, he, rfl⟩, rfl⟩
    exact hz e (List.mem_filter.1 he).1
  unfold hBlock
  simp only
  rw [if_pos]
  · rfl
  · refine ⟨hi, hzt 0, ?_⟩
    simp only [List.all_eq_true, List.mem_filter, List.mem_map, Bool.and_eq_true, decide_eq_true_eq]
    rintro p ⟨⟨j, _, rfl⟩, hne⟩
    refine ⟨hzt j, ?_⟩
    have : ∃ e ∈ es, e.tRank = j := by
      by_contra hcon
      push Not at hcon
      apply hne
      have : (es.filter fun e => decide (e.hRank = i) && decide (e.tRank = j)) = [] := by
        rw [List.filter_eq_nil_iff]
        intro e he
        simp [hcon e he]
      simp only [bucket, this]
      rfl
    obtain ⟨e, he, rfl⟩ := this
    exact ht e he

theorem hBlock_of_ok {cc : Nat} {es : List Entry} {i : Nat} {b : HBlock} (h : hBlock cc es i = .ok b) :
    i < 6 ∧ ∀ e ∈ es, e.hRank = i → e.tRank ≤ cc → e.zRank < 6 := by
  unfold hBlock at h
  simp only at h
  split at h
  · rename_i hc
    obtain ⟨h1, h2, h3⟩ := hc
    refine ⟨h1, ?_⟩
    have hzt : ∀ j, zTagsOk (bucket es i j) = true → ∀ e ∈ es, e.hRank = i → e.tRank = j → e.zRank < 6 := by
      intro j hj e he h4 h5
      simp only [zTagsOk, bucket, List.all_eq_true, List.mem_map, mem_sortBy, List.mem_dedup, decide_eq_true_eq] at hj
      exact hj _ ⟨e.zRank, ⟨e, by simp [he, h4, h5], rfl⟩, rfl⟩
    intro e he h4 h5
    by_cases h0 : e.tRank = 0
    · exact hzt 0 h2 e he h4 h0
    · refine hzt e.tRank ?_ e he h4 rfl
      simp only [List.all_eq_true, List.mem_filter, List.mem_map, Bool.and_eq_true, decide_eq_true_eq, mem_range2] at h3
      refine (h3 _ ⟨⟨e.tRank, by omega, rfl⟩, ?_⟩).1
      intro hb
      simp only [bucket, List.map_eq_nil_iff] at hb
      have hm : e.zRank ∈ sortBy (fun a b => decide (a ≤ b))
          ((es.filter fun e' => decide (e'.hRank = i) && decide (e'.tRank = e.tRank)).map Entry.zRank).dedup := by
        rw [mem_sortBy, List.mem_dedup]
        exact List.mem_map.2 ⟨e, by simp [he, h4], rfl⟩
      rw [hb] at hm
      simp at hm
  · simp at h

theorem write_eq {hMax cc : Nat} {mode : Mode} {ts : List Term} {f : Term → List Entry} (hne : ts ≠ [])
    (hf : ∀ t ∈ ts, entriesOf mode t = .ok (f t)) (h6 : hMax < 6) (hz : ∀ t ∈ ts, ∀ e ∈ f t, e.zRank < 6)
    (ht : ∀ t ∈ ts, ∀ e ∈ f t, e.tRank < 7) :
    write hMax cc mode ts = .ok (.code ((List.range (hMax + 1)).map (hb cc (ts.flatMap f)))) := by
  unfold write
  rw [if_neg hne, collect_ok_of f hf]
  simp only
  have := collect_ok_of (f := fun i => TF.CC.one (hBlock cc (ts.flatMap f) i)) (l := List.range (hMax + 1))
    (fun i => [hb cc (ts.flatMap f) i]) (by
      intro i hi
      rw [List.mem_range] at hi
      rw [hBlock_ok (by omega)]
      · rfl
      · intro e he
        obtain ⟨t, h1, h2⟩ := List.mem_flatMap.1 he
        exact hz t h1 e h2
      · intro e he
        obtain ⟨t, h1, h2⟩ := List.mem_flatMap.1 he
        exact ht t h1 e h2)
  rw [this]
  simp only [Except.ok.injEq, Part.code.injEq]
  induction List.range (hMax + 1) with
  | nil => rfl
  | cons a l ih => rw [List.flatMap_cons, ih]; rfl

theorem write_of_ok {hMax cc : Nat} {mode : Mode} {ts : List Term} {f : Term → List Entry} (hne : ts ≠ [])
    (hf : ∀ t ∈ ts, entriesOf mode t = .ok (f t)) {p : Part} (h : write hMax cc mode ts = .ok p) :
    hMax < 6 ∧ ∀ t ∈ ts, ∀ e ∈ f t, e.hRank ≤ hMax → e.tRank ≤ cc → e.zRank < 6 := by
  unfold write at h
  rw [if_neg hne, collect_ok_of f hf] at h
  simp only at h
  have hall : ∀ i ∈ List.range (hMax + 1), ∃ b, hBlock cc (ts.flatMap f) i = .ok b := by
    cases hc : collect (fun i => TF.CC.one (hBlock cc (ts.flatMap f) i)) (List.range (hMax + 1)) with
    | error e => rw [hc] at h; simp at h
    | ok l =>
      obtain ⟨g, hg, _⟩ := collect_ok_iff.1 hc
      intro i hi
      have := hg i hi
      cases hb : hBlock cc (ts.flatMap f) i with
      | error e => rw [hb] at this; simp [TF.CC.one] at this
      | ok b => exact ⟨b, rfl⟩
  constructor
  · obtain ⟨b, hb⟩ := hall hMax (by simp)
    exact (hBlock_of_ok hb).1
  · intro t ht e he h1 h2
    obtain ⟨b, hb⟩ := hall e.hRank (by simp; omega)
    exact (hBlock_of_ok hb).2 e (List.mem_flatMap.2 ⟨t, ht, he⟩) rfl h2

end TF.ETPy
