import Verif.Lemmas.FullCC.Python

/-! # Lemmas about the table of strings and the generated programs -/

set_option linter.unusedVariables false

namespace TF.CC

open TF.Py TF.Spec

variable {ι κ : Type}

/-! ## Naturality: the structure of the program does not depend on the items -/

/-- replace the items of a group -/
def mapG (f : ι → κ) (g : String × List ι) : String × List κ := (g.1, g.2.map f)
def mapC (f : ι → κ) (c : CBlock ι) : CBlock κ := ⟨c.j, c.groups.map (mapG f)⟩
def mapH (f : ι → κ) (b : HBlock ι) : HBlock κ := ⟨b.i, b.groups.map (mapG f), b.cblocks.map (mapC f)⟩
def mapP (f : ι → κ) (p : Program ι) : Program κ :=
  ⟨p.adds, p.groups.map (mapG f), p.cblocks.map (mapC f), p.hblocks.map (mapH f)⟩
/-- replace the items of a table -/
def mapT (f : ι → κ) (p : Key × List ι) : Key × List κ := (p.1, p.2.map f)

theorem assign_map (f : ι → κ) (tab : List (Key × List ι)) (k : Key) (v : List ι) :
    assign (tab.map (mapT f)) k (v.map f) = (assign tab k v).map (mapT f) := by
  unfold assign
  have : ((tab.map (mapT f)).any fun p => p.1 == k) = tab.any fun p => p.1 == k := by
    rw [List.any_map]; rfl
  rw [this]
  split
  · rw [List.map_map, List.map_map]
    apply List.map_congr_left
    intro p hp
    by_cases hk : p.1 = k <;> simp [mapT, hk]
  · simp [mapT]

theorem fillTable_map (so : SetOrder Nat) (hMax cc : Nat) (f : ι → κ)
    (it₁ : HC → List T → Except PyErr (List ι)) (it₂ : HC → List T → Except PyErr (List κ)) (l : List Term)
    (h : ∀ t ∈ l, onlyH t.ts = false → ∃ x, it₁ t.h t.ts = .ok x ∧ it₂ t.h t.ts = .ok (x.map f))
    (adds : List (Nat × Nat)) (tab : List (Key × List ι)) :
    fillTable so hMax cc it₂ l adds (tab.map (mapT f)) =
      Except.map (fun r => (r.1, r.2.map (mapT f))) (fillTable so hMax cc it₁ l adds tab) := by
  induction l generalizing adds tab with
  | nil => rfl
  | cons t l ih =>
    unfold fillTable
    have ih' := fun a tb => ih (fun x hx => h x (by simp [hx])) a tb
    cases ho : onlyH t.ts with
    | true => simp only [if_true]; exact ih' _ _
    | false =>
      simp only [Bool.false_eq_true, if_false]
      split
      · rfl
      · split
        · rfl
        · obtain ⟨x, h1, h2⟩ := h t (by simp) ho
          rw [h1, h2]
          simp only []
          rw [assign_map, ih']

theorem bucket_map (f : ι → κ) (tab : List (Key × List ι)) (i j : Nat) :
    bucket (tab.map (mapT f)) i j = (bucket tab i j).map (mapG f) := by
  unfold bucket
  rw [List.filter_map, List.map_map, List.map_map]
  rfl

theorem cblocks_map (f : ι → κ) (tab : List (Key × List ι)) (cc i : Nat) :
    cblocks (tab.map (mapT f)) cc i = (cblocks tab cc i).map (mapC f) := by
  unfold cblocks
  simp only [bucket_map, List.isEmpty_map]
  rw [List.map_map]
  rfl

theorem any_mapC (f : ι → κ) (l : List (CBlock ι)) :
    ((l.map (mapC f)).any fun c => decide (taylorTag.length ≤ c.j)) = l.any fun c => decide (taylorTag.length ≤ c.j) := by
  rw [List.any_map]; rfl

theorem collect_congr_map {α β γ : Type} (f : β → γ) (g₁ : α → Except PyErr (List β)) (g₂ : α → Except PyErr (List γ))
    (l : List α) (h : ∀ a ∈ l, g₂ a = Except.map (List.map f) (g₁ a)) :
    collect g₂ l = Except.map (List.map f) (collect g₁ l) := by
  induction l with
  | nil => rfl
  | cons a l ih =>
    unfold collect
    rw [h a (by simp), ih (fun b hb => h b (by simp [hb]))]
    cases g₁ a with
    | error e => rfl
    | ok x =>
      simp only []
      cases collect g₁ l with
      | error e => rfl
      | ok y => simp [Except.map]

theorem hblocks_map (f : ι → κ) (tab : List (Key × List ι)) (hMax cc : Nat) :
    hblocks (tab.map (mapT f)) hMax cc =
      Except.map (List.map (mapH f)) (hblocks tab hMax cc) := by
  unfold hblocks
  apply collect_congr_map
  intro i hi
  cases hamiltonianTag[i]? with
  | none => rfl
  | some s =>
    simp only [cblocks_map, any_mapC, bucket_map, List.isEmpty_map]
    split
    · rfl
    · split <;> rfl

theorem writeProgram_map (so : SetOrder Nat) (hMax cc : Nat) (f : ι → κ)
    (it₁ : HC → List T → Except PyErr (List ι)) (it₂ : HC → List T → Except PyErr (List κ)) (l : List Term)
    (h : ∀ t ∈ l, onlyH t.ts = false → ∃ x, it₁ t.h t.ts = .ok x ∧ it₂ t.h t.ts = .ok (x.map f)) :
    writeProgram so hMax cc it₂ l =
      Except.map (mapP f) (writeProgram so hMax cc it₁ l) := by
  unfold writeProgram
  split
  · rfl
  · have := fillTable_map so hMax cc f it₁ it₂ l h [] []
    simp only [List.map_nil] at this
    rw [this]
    cases fillTable so hMax cc it₁ l [] [] with
    | error e => rfl
    | ok r =>
      obtain ⟨adds, tab⟩ := r
      simp only [Except.map, cblocks_map, any_mapC]
      split
      · rfl
      · rw [hblocks_map]
        cases hblocks tab hMax cc with
        | error e => rfl
        | ok hb => simp only [Except.map, mapP, bucket_map]

theorem runC_map (f : ι → κ) (fl : Flags) (l : List (CBlock ι)) :
    runC fl (l.map (mapC f)) = (runC fl l).map (mapG f) := by
  unfold runC
  rw [List.flatMap_map, List.map_flatMap]
  congr 1
  funext c
  by_cases h : fl.t c.j = true <;> simp [mapC, h]

theorem run_map (f : ι → κ) (fl : Flags) (p : Program ι) : run fl (mapP f p) = (run fl p).map (mapG f) := by
  unfold run
  simp only [mapP, List.map_append, runC_map, List.flatMap_map, List.map_flatMap]
  congr 2
  funext b
  by_cases h : fl.h b.i = true <;> simp [mapH, runC_map, h]

theorem runItems_map (f : ι → κ) (fl : Flags) (p : Program ι) : runItems fl (mapP f p) = (runItems fl p).map f := by
  unfold runItems
  rw [run_map, List.flatMap_map, List.map_flatMap]
  rfl

/-! ## The contents of the table -/

theorem assign_perm (tab : List (Key × List ι)) (k : Key) (v : List ι) (hn : (tab.map Prod.fst).Nodup) :
    (assign tab k v).Perm ((tab.filter fun p => !(p.1 == k)) ++ [(k, v)]) ∧
    ((assign tab k v).map Prod.fst).Nodup := by
  have hp : (assign tab k v).Perm ((tab.filter fun p => !(p.1 == k)) ++ [(k, v)]) := by
    unfold assign
    split
    · next hany =>
      induction tab with
      | nil => simp at hany
      | cons a tab ih =>
        rw [List.map_cons, List.nodup_cons] at hn
        by_cases ha : a.1 = k
        · -- the rest does not contain the key
          have hno : ∀ p ∈ tab, p.1 ≠ k := by
            intro p hp e
            exact hn.1 (List.mem_map.2 ⟨p, hp, by rw [e, ha]⟩)
          have h1 : tab.map (fun p => if p.1 = k then (k, v) else p) = tab := by
            conv_rhs => rw [← List.map_id tab]
            apply List.map_congr_left
            intro p hp
            rw [if_neg (hno p hp)]; rfl
          have h2 : (tab.filter fun p => !(p.1 == k)) = tab := by
            rw [List.filter_eq_self]
            intro p hp
            simpa using hno p hp
          rw [List.map_cons, if_pos ha, h1, List.filter_cons_of_neg (by simp [ha]), h2]
          exact (List.perm_append_singleton _ _).symm
        · have hany' : (tab.any fun p => p.1 == k) = true := by
            rw [List.any_cons] at hany
            simpa [ha] using hany
          rw [List.map_cons, if_neg ha, List.filter_cons_of_pos (by simp [ha]), List.cons_append]
          exact (ih hn.2 hany').cons _
    · next hany =>
      have h2 : (tab.filter fun p => !(p.1 == k)) = tab := by
        rw [List.filter_eq_self]
        intro p hp
        simp only [List.any_eq_true, not_exists, not_and] at hany
        simpa using hany p hp
      rw [h2]
  refine ⟨hp, ?_⟩
  rw [(hp.map Prod.fst).nodup_iff, List.map_append, List.nodup_append]
  refine ⟨hn.sublist ((List.filter_sublist).map _), by simp, ?_⟩
  intro a ha b hb
  simp only [List.map_cons, List.map_nil, List.mem_singleton] at hb
  obtain ⟨p, hp, rfl⟩ := List.mem_map.1 ha
  have := (List.mem_filter.1 hp).2
  subst hb
  simpa using this

/-- the keys of the terms with amplitudes -/
def keysOf (so : SetOrder Nat) (l : List Term) : List Key :=
  (l.filter fun t => !onlyH t.ts).map fun t => keyOf so t.h t.ts

theorem kept_sublist (so : SetOrder Nat) (l : List Term) : (kept so l).Sublist l := by
  induction l with
  | nil => exact .slnil
  | cons t l ih =>
    unfold kept
    split
    · exact ih.cons _
    · exact ih.cons_cons _

theorem kept_keys (so : SetOrder Nat) (l : List Term) :
    ∀ t ∈ kept so l, onlyH t.ts = false ∧ keyOf so t.h t.ts ∈ keysOf so l := by
  induction l with
  | nil => simp [kept]
  | cons t l ih =>
    intro x hx
    have hsub : ∀ k ∈ keysOf so l, k ∈ keysOf so (t :: l) := by
      intro k hk
      unfold keysOf at *
      rw [List.filter_cons]
      split
      · simp only [List.map_cons, List.mem_cons]; exact .inr hk
      · exact hk
    unfold kept at hx
    split at hx
    · exact ⟨(ih x hx).1, hsub _ (ih x hx).2⟩
    · next hc =>
      rcases List.mem_cons.1 hx with rfl | hx
      · simp only [Bool.or_eq_true, not_or, Bool.not_eq_true] at hc
        refine ⟨hc.1, ?_⟩
        unfold keysOf
        rw [List.filter_cons_of_pos (by simp [hc.1])]
        simp
      · exact ⟨(ih x hx).1, hsub _ (ih x hx).2⟩

/-- The table after the loop: what was there under other keys, and the items of the surviving terms;
and the keys are within the bounds. -/
theorem fillTable_spec (so : SetOrder Nat) (hMax cc : Nat) (it : HC → List T → Except PyErr (List ι)) (l : List Term)
    (adds : List (Nat × Nat)) (tab : List (Key × List ι)) (r : List (Nat × Nat) × List (Key × List ι))
    (h : fillTable so hMax cc it l adds tab = .ok r) (hn : (tab.map Prod.fst).Nodup)
    (hb : ∀ p ∈ tab, p.1.hr ≤ hMax ∧ p.1.tr ≤ cc) :
    r.1 = adds ++ ((l.filter fun t => onlyH t.ts).map fun t => (t.h.m, t.h.n)) ∧
    (r.2.map Prod.fst).Nodup ∧ (∀ p ∈ r.2, p.1.hr ≤ hMax ∧ p.1.tr ≤ cc) ∧
    ∃ g : Term → List ι, (∀ t ∈ l, onlyH t.ts = false → it t.h t.ts = .ok (g t)) ∧
      r.2.Perm ((tab.filter fun p => !(keysOf so l).contains p.1) ++
        (kept so l).map fun t => (keyOf so t.h t.ts, g t)) := by
  induction l generalizing adds tab with
  | nil =>
    cases h
    refine ⟨by simp, hn, hb, fun _ => [], by simp, ?_⟩
    simp [keysOf, kept]
  | cons t l ih =>
    unfold fillTable at h
    cases ho : onlyH t.ts with
    | true =>
      rw [ho] at h
      simp only [if_true] at h
      obtain ⟨h1, h2, h3, g, h4, h5⟩ := ih _ _ h hn hb
      refine ⟨?_, h2, h3, g, ?_, ?_⟩
      · rw [h1, List.filter_cons_of_pos (by simpa using ho)]
        simp
      · intro x hx hox
        rcases List.mem_cons.1 hx with rfl | hx
        · rw [ho] at hox; cases hox
        · exact h4 x hx hox
      · have e1 : keysOf so (t :: l) = keysOf so l := by
          unfold keysOf; rw [List.filter_cons_of_neg (by simp [ho])]
        have e2 : kept so (t :: l) = kept so l := by
          conv_lhs => unfold kept
          simp [ho]
        rw [e1, e2]; exact h5
    | false =>
      rw [ho] at h
      simp only [Bool.false_eq_true, if_false] at h
      split at h
      · cases h
      · next hhr =>
        split at h
        · cases h
        · next htr =>
          split at h
          · cases h
          · next is his =>
            obtain ⟨hap, han⟩ := assign_perm tab (keyOf so t.h t.ts) is hn
            have hb' : ∀ p ∈ assign tab (keyOf so t.h t.ts) is, p.1.hr ≤ hMax ∧ p.1.tr ≤ cc := by
              intro p hp
              rw [hap.mem_iff, List.mem_append] at hp
              rcases hp with hp | hp
              · exact hb p (List.mem_filter.1 hp).1
              · simp only [List.mem_singleton] at hp
                subst hp
                simp only []; omega
            obtain ⟨h1, h2, h3, g, h4, h5⟩ := ih _ _ h han hb'
            classical
            refine ⟨?_, h2, h3, fun x => if x ∈ l then g x else is, ?_, ?_⟩
            · rw [h1, List.filter_cons_of_neg (by simp [ho])]
            · intro x hx hox
              simp only []
              by_cases hxl : x ∈ l
              · rw [if_pos hxl]; exact h4 x hxl hox
              · rw [if_neg hxl]
                rcases List.mem_cons.1 hx with rfl | hx
                · exact his
                · exact absurd hx hxl
            · have e1 : keysOf so (t :: l) = keyOf so t.h t.ts :: keysOf so l := by
                unfold keysOf; rw [List.filter_cons_of_pos (by simp [ho])]; rfl
              have hc : (l.any fun t' => !onlyH t'.ts && keyOf so t'.h t'.ts == keyOf so t.h t.ts) =
                  (keysOf so l).contains (keyOf so t.h t.ts) := by
                rw [Bool.eq_iff_iff]
                unfold keysOf
                simp only [List.any_eq_true, Bool.and_eq_true, Bool.not_eq_true', beq_iff_eq, List.contains_iff_mem,
                  List.mem_map, List.mem_filter]
                constructor
                · rintro ⟨x, hx, h1, h2⟩; exact ⟨x, ⟨hx, h1⟩, h2⟩
                · rintro ⟨x, ⟨hx, h1⟩, h2⟩; exact ⟨x, hx, h1, h2⟩
              have esurv : (kept so l).map (fun t => (keyOf so t.h t.ts, if t ∈ l then g t else is)) =
                  (kept so l).map fun t => (keyOf so t.h t.ts, g t) := by
                apply List.map_congr_left
                intro x hx
                rw [if_pos ((kept_sublist so l).subset hx)]
              refine h5.trans ?_
              have hfl : ((assign tab (keyOf so t.h t.ts) is).filter fun p => !(keysOf so l).contains p.1).Perm
                  ((tab.filter fun p => !(keysOf so (t :: l)).contains p.1) ++
                    if (keysOf so l).contains (keyOf so t.h t.ts) then [] else [(keyOf so t.h t.ts, is)]) := by
                refine (hap.filter _).trans ?_
                rw [List.filter_append, List.filter_filter, e1]
                have : ∀ p : Key × List ι, ((!(keysOf so l).contains p.1) && !(p.1 == keyOf so t.h t.ts)) =
                    !(keyOf so t.h t.ts :: keysOf so l).contains p.1 := by
                  intro p
                  rw [List.contains_cons, Bool.not_or, Bool.and_comm]
                simp only [this]
                apply List.Perm.append_left
                cases hcc : (keysOf so l).contains (keyOf so t.h t.ts) <;> simp only [List.filter_cons, hcc] <;> simp
              refine (hfl.append_right _).trans ?_
              conv_rhs => unfold kept
              rw [ho, Bool.false_or, hc]
              cases hcc : (keysOf so l).contains (keyOf so t.h t.ts) with
              | true => simp only [if_true, List.append_nil]; rw [esurv]
              | false =>
                simp only [Bool.false_eq_true, if_false, List.map_cons]
                rw [esurv]
                by_cases htl : t ∈ l
                · exfalso
                  have : keyOf so t.h t.ts ∈ keysOf so l := by
                    unfold keysOf
                    exact List.mem_map.2 ⟨t, List.mem_filter.2 ⟨htl, by simp [ho]⟩, rfl⟩
                  rw [← List.contains_iff_mem, hcc] at this
                  cases this
                · rw [if_neg htl]; simp

/-! ## What a program executes -/

/-- the runtime conditions of a table entry -/
def keyOn (fl : Flags) (k : Key) : Bool := (k.hr == 0 || fl.h k.hr) && (k.tr == 0 || fl.t k.tr)

theorem filter_flatMap_perm {α : Type} (l : List α) (f : α → Nat) (n : Nat) (hf : ∀ a ∈ l, f a < n)
    (q : Nat → Bool) :
    ((List.range n).flatMap fun i => if q i then l.filter fun a => f a == i else []).Perm (l.filter fun a => q (f a)) := by
  have h1 : ((List.range n).flatMap fun i => if q i then l.filter fun a => f a == i else []) =
      (List.range n).flatMap fun i => (l.filter fun a => q (f a)).filter fun a => f a == i := by
    congr 1
    funext i
    rw [List.filter_filter]
    split
    · next hq =>
      apply List.filter_congr
      intro a ha
      by_cases e : f a = i <;> simp [e, hq]
    · next hq =>
      symm
      rw [List.filter_eq_nil_iff]
      intro a ha
      by_cases e : f a = i <;> simp [e, hq]
  rw [h1]
  exact filter_by_key_perm _ f (List.range n) List.nodup_range
    (fun a ha => by rw [List.mem_range]; exact hf a (List.mem_filter.1 ha).1)

/-- the executed part of the buckets of one Hamiltonian rank -/
theorem runC_cblocks (fl : Flags) (tab : List (Key × List ι)) (cc i : Nat) :
    runC fl (cblocks tab cc i) = (range2 1 (cc + 1)).flatMap fun j => if fl.t j then bucket tab i j else [] := by
  unfold runC cblocks
  rw [List.flatMap_map]
  simp only []
  induction range2 1 (cc + 1) with
  | nil => rfl
  | cons j l ih =>
    rw [List.filter_cons, List.flatMap_cons, ← ih]
    by_cases he : (bucket tab i j) = []
    · simp [he]
    · have : (bucket tab i j).isEmpty = false := by simpa using he
      simp [this]

theorem range_succ_split (n : Nat) : List.range (n + 1) = 0 :: range2 1 (n + 1) := by
  unfold range2
  rw [List.range_succ_eq_map]
  simp

theorem rank_groups (fl : Flags) (tab : List (Key × List ι)) (cc i : Nat) (hb : ∀ p ∈ tab, p.1.tr ≤ cc) :
    (bucket tab i 0 ++ runC fl (cblocks tab cc i)).Perm
      ((tab.filter fun p => p.1.hr == i && (p.1.tr == 0 || fl.t p.1.tr)).map fun p => (p.1.pref, p.2)) := by
  rw [runC_cblocks]
  have h := filter_flatMap_perm (tab.filter fun p => p.1.hr == i) (fun p => p.1.tr) (cc + 1)
    (fun a ha => by have := hb a (List.mem_filter.1 ha).1; omega) (fun j => j == 0 || fl.t j)
  rw [range_succ_split, List.flatMap_cons] at h
  have h2 := h.map fun p => (p.1.pref, p.2)
  simp only [List.map_append] at h2
  have e0 : List.map (fun p => (p.1.pref, p.2)) (if ((0 : Nat) == 0 || fl.t 0) = true then
      (tab.filter fun p => p.1.hr == i).filter fun a => a.1.tr == 0 else []) = bucket tab i 0 := by
    simp only [beq_self_eq_true, Bool.true_or, if_true, bucket, List.filter_filter, Bool.and_comm]
  have e1 : List.map (fun p => (p.1.pref, p.2)) ((range2 1 (cc + 1)).flatMap fun j =>
      if (j == 0 || fl.t j) = true then (tab.filter fun p => p.1.hr == i).filter fun a => a.1.tr == j else []) =
      (range2 1 (cc + 1)).flatMap fun j => if fl.t j then bucket tab i j else [] := by
    rw [List.map_flatMap]
    apply List.flatMap_congr
    intro j hj
    have : j ≠ 0 := by have := (mem_range2.1 hj).1; omega
    have hj0 : (j == 0) = false := by simpa using this
    rw [hj0, Bool.false_or]
    by_cases hf : fl.t j = true
    · simp only [hf, if_true, bucket, List.filter_filter, Bool.and_comm]
    · simp [hf]
  rw [e0, e1, List.filter_filter] at h2
  refine h2.trans (List.Perm.of_eq ?_)
  congr 1
  apply List.filter_congr
  intro a ha
  rw [Bool.and_comm]

theorem hblocks_ok (tab : List (Key × List ι)) (hMax cc : Nat) (hb : List (HBlock ι))
    (h : hblocks tab hMax cc = .ok hb) :
    hb = (range2 1 (hMax + 1)).flatMap fun i =>
      if ((bucket tab i 0).isEmpty && (cblocks tab cc i).isEmpty) then [] else [⟨i, bucket tab i 0, cblocks tab cc i⟩] := by
  unfold hblocks at h
  obtain ⟨g, hg, rfl⟩ := collect_ok_iff.1 h
  apply List.flatMap_congr
  intro i hi
  have := hg i hi
  split at this
  · cases this
  · simp only [] at this
    split at this
    · cases this
    · split at this
      · next he => rw [if_pos he]; injection this with this; exact this.symm
      · next he => rw [if_neg he]; injection this with this; exact this.symm

/-- The groups a program executes are those of the table entries whose conditions hold. -/
theorem run_perm (fl : Flags) (tab : List (Key × List ι)) (hMax cc : Nat) (adds : List (Nat × Nat))
    (hb : List (HBlock ι)) (h : hblocks tab hMax cc = .ok hb) (hbd : ∀ p ∈ tab, p.1.hr ≤ hMax ∧ p.1.tr ≤ cc) :
    (run fl ⟨adds, bucket tab 0 0, cblocks tab cc 0, hb⟩).Perm
      ((tab.filter fun p => keyOn fl p.1).map fun p => (p.1.pref, p.2)) := by
  have hbt : ∀ p ∈ tab, p.1.tr ≤ cc := fun p hp => (hbd p hp).2
  unfold run
  simp only []
  rw [hblocks_ok tab hMax cc hb h, List.flatMap_assoc]
  have e : ((range2 1 (hMax + 1)).flatMap fun i => (if ((bucket tab i 0).isEmpty && (cblocks tab cc i).isEmpty) then []
      else [(⟨i, bucket tab i 0, cblocks tab cc i⟩ : HBlock ι)]).flatMap fun b =>
        if fl.h b.i then b.groups ++ runC fl b.cblocks else []) =
      (range2 1 (hMax + 1)).flatMap fun i => if fl.h i then bucket tab i 0 ++ runC fl (cblocks tab cc i) else [] := by
    apply List.flatMap_congr
    intro i hi
    by_cases h1 : ((bucket tab i 0).isEmpty && (cblocks tab cc i).isEmpty) = true
    · rw [if_pos h1]
      rw [Bool.and_eq_true, List.isEmpty_iff, List.isEmpty_iff] at h1
      simp [h1.1, h1.2, runC]
    · rw [if_neg h1]; simp
  rw [e]
  have h0 := rank_groups fl tab cc 0 hbt
  have hrest : ((range2 1 (hMax + 1)).flatMap fun i => if fl.h i then bucket tab i 0 ++ runC fl (cblocks tab cc i) else []).Perm
      ((range2 1 (hMax + 1)).flatMap fun i => if fl.h i then
        (tab.filter fun p => p.1.hr == i && (p.1.tr == 0 || fl.t p.1.tr)).map fun p => (p.1.pref, p.2) else []) := by
    apply List.Perm.flatMap_left
    intro i hi
    split
    · exact rank_groups fl tab cc i hbt
    · exact .refl _
  refine (h0.append hrest).trans ?_
  have hk := filter_flatMap_perm (tab.filter fun p => p.1.tr == 0 || fl.t p.1.tr) (fun p => p.1.hr) (hMax + 1)
    (fun a ha => by have := (hbd a (List.mem_filter.1 ha).1).1; omega) (fun i => i == 0 || fl.h i)
  rw [range_succ_split, List.flatMap_cons] at hk
  have hk2 := hk.map fun p => (p.1.pref, p.2)
  refine (List.Perm.of_eq ?_).trans (hk2.trans (List.Perm.of_eq ?_))
  · rw [List.map_append, List.map_flatMap]
    congr 1
    · simp only [beq_self_eq_true, Bool.true_or, if_true, List.filter_filter]
    · apply List.flatMap_congr
      intro i hi
      have : i ≠ 0 := by have := (mem_range2.1 hi).1; omega
      have hi0 : (i == 0) = false := by simpa using this
      rw [hi0, Bool.false_or]
      by_cases hf : fl.h i = true
      · simp only [hf, if_true, List.filter_filter]
      · simp [hf]
  · rw [List.filter_filter]; rfl

end TF.CC
