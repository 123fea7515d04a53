import Verif.Lemmas.W

/-! # Lemmas about running the generated W module -/

namespace TF.W

open TF.Py TF.Helper TF.Spec TF.Spec.W

def live (fl : Nat → Bool) (p : List Nat) : Bool := (gateOf p).all fl

def doneOf {ι : Type} (f : List Nat → ι) (p : List Nat) : Done ι := ⟨prefOf p, none, (combinations p).map f⟩

variable {ι : Type} {k : Nat}

theorem runBlock_blk (ts : ι → List Nat) (f : List Nat → ι) (hf : ∀ c, ts (f c) = c) (names : List Nat) (fl : Nat → Bool)
    (p : List Nat) (h : ∀ x ∈ p, x ∈ names) :
    runBlock ts names fl (blk f p) = .ok (if live fl p then [doneOf f p] else []) := by
  unfold runBlock blk live
  simp only []
  split
  · rw [if_pos]
    · rfl
    · rw [List.all_eq_true]
      intro x hx
      simp only [Option.toList_none, List.nil_append, List.mem_flatMap, List.mem_map] at hx
      obtain ⟨i, ⟨c, hc, rfl⟩, hx⟩ := hx
      rw [hf] at hx
      exact List.contains_iff_mem.2 (h x ((mem_combinations.1 hc).subset hx))
  · rfl

theorem runBlocks_blk (ts : ι → List Nat) (f : List Nat → ι) (hf : ∀ c, ts (f c) = c) (names : List Nat) (fl : Nat → Bool)
    (ps : List (List Nat)) (h : ∀ p ∈ ps, ∀ x ∈ p, x ∈ names) :
    runBlocks ts names fl (ps.map (blk f)) = .ok ((ps.filter (live fl)).map (doneOf f)) := by
  induction ps with
  | nil => rfl
  | cons p ps ih =>
    rw [List.map_cons]
    unfold runBlocks
    rw [runBlock_blk ts f hf names fl p (h p (by simp)), ih fun q hq => h q (by simp [hq])]
    simp only [List.filter_cons]
    split <;> rfl

theorem getElem_range2 {n : Nat} (h1 : 1 ≤ k) (h2 : k ≤ n) : (range2 1 (n + 1))[k - 1]? = some k := by
  unfold range2
  rw [List.getElem?_map, List.getElem?_range (by omega)]
  simp; omega

theorem getElem_range2_ge {n : Nat} (h2 : n < k) : (range2 1 (n + 1))[k - 1]? = none := by
  unfold range2
  rw [List.getElem?_eq_none]
  simp; omega

theorem linked_one : linkedPartitions 1 = [] := by decide
theorem unlinked_lt (h : k < 4) : unlinkedPartitions k = [] := by
  rcases k with _ | _ | _ | _ | k
  · decide
  · decide
  · decide
  · decide
  · omega

/-- lists of functions of a module -/
def vemxOf (f : Nat → List Nat → ι) (n : Nat) : List (WContributions ι) :=
  (range2 1 (n + 1)).map fun k => ⟨if k < 2 then [] else range2 1 k, if k < 2 then none else some ((linkedPartitions k).map (blk (f k)))⟩
def veccOf (f : Nat → List Nat → ι) (n : Nat) : List (WContributions ι) :=
  (range2 1 (n + 1)).map fun k => ⟨if k < 4 then [] else range2 1 (k - 1), if k < 4 then none else some ((unlinkedPartitions k).map (blk (f k)))⟩

theorem call_vemx (ts : ι → List Nat) (f : Nat → List Nat → ι) (hf : ∀ k c, ts (f k c) = c) (fl : Nat → Bool) (tlen n : Nat)
    (h1 : 2 ≤ k) (h2 : k ≤ n) (ht : k ≤ tlen) :
    callNth ts fl tlen k true (vemxOf f n) = .ok (((linkedPartitions k).filter (live fl)).map (doneOf (f k))) := by
  unfold callNth vemxOf
  rw [if_pos rfl, List.getElem?_map, getElem_range2 (by omega) h2]
  simp only [Option.map_some]
  rw [if_neg (show ¬ k < 2 by omega)]
  unfold runContributions
  simp only []
  rw [if_neg (by unfold range2; simp; omega), if_neg (by omega)]
  simp only []
  apply runBlocks_blk ts (f k) (hf k)
  intro p hp x hx
  obtain ⟨h3, h4⟩ := linked_mem (k := k) (by omega) p hp
  have := part_linked h3 h4 hx
  have := h3.pos x hx
  rw [mem_range2]; omega

theorem call_vecc (ts : ι → List Nat) (f : Nat → List Nat → ι) (hf : ∀ k c, ts (f k c) = c) (fl : Nat → Bool) (tlen n : Nat)
    (h1 : 4 ≤ k) (h2 : k ≤ n) (ht : k ≤ tlen) :
    callNth ts fl tlen k true (veccOf f n) = .ok (((unlinkedPartitions k).filter (live fl)).map (doneOf (f k))) := by
  unfold callNth veccOf
  rw [if_pos rfl, List.getElem?_map, getElem_range2 (by omega) h2]
  simp only [Option.map_some]
  rw [if_neg (show ¬ k < 4 by omega)]
  unfold runContributions
  simp only []
  rw [if_neg (by unfold range2; simp; omega), if_neg (by omega)]
  simp only []
  apply runBlocks_blk ts (f k) (hf k)
  intro p hp x hx
  rw [unlinked_exact k (by omega)] at hp
  have := part_unlinked h1 hp.1 hp.2 hx
  have := hp.1.pos x hx
  rw [mem_range2]; omega

def veciDone (env : Env) (k : Nat) : List (Done ι) :=
  if live env.fl [k] then [⟨prefOf [k], some k, []⟩] else []
def mixedDone (f : Nat → List Nat → ι) (env : Env) (k : Nat) : List (Done ι) :=
  if env.mixed || env.cc then ((linkedPartitions k).filter (live env.fl)).map (doneOf (f k)) else []
def ccDone (f : Nat → List Nat → ι) (env : Env) (k : Nat) : List (Done ι) :=
  if !env.mixed && env.cc then ((unlinkedPartitions k).filter (live env.fl)).map (doneOf (f k)) else []

theorem runFunction_eq (ts : ι → List Nat) (f : Nat → List Nat → ι) (hf : ∀ k c, ts (f k c) = c) (env : Env) (n : Nat)
    (h1 : 1 ≤ k) (h2 : k ≤ n) :
    runFunction ts env (vemxOf f n) (veccOf f n) (fnOf k) =
      if env.tlen < k then .error .value else .ok (veciDone env k, mixedDone f env k, ccDone f env k) := by
  unfold runFunction
  by_cases hk : k = 1
  · subst hk
    have e : fnOf 1 = ⟨1, [1], none, [], 1, (false, false), (false, false), none⟩ := rfl
    rw [e]
    simp only [List.length_singleton]
    split
    · rfl
    · have ec : (if env.mixed = true then (false, false) else if env.cc = true then (false, false) else (false, false)) = (false, false) := by
        split
        · rfl
        · split <;> rfl
      rw [ec]
      simp only [callNth, runBlock]
      have : (mixedDone f env 1, ccDone f env 1) = ([], []) := by
        unfold mixedDone ccDone
        rw [linked_one, unlinked_lt (by omega)]
        simp
      rw [Prod.mk.injEq] at this
      rw [this.1, this.2]
      rfl
  · have e : fnOf k = ⟨k, range2 1 (k + 1), some k, prefOf [k], k, (true, false), (true, if k < 4 then false else true), some k⟩ := by
      unfold fnOf; rw [if_neg hk]
    rw [e]
    simp only []
    have hl : (range2 1 (k + 1)).length = k := by unfold range2; simp
    rw [hl]
    split
    · rfl
    · rename_i htl
      have hv : runBlock (ι := ι) ts (range2 1 (k + 1)) env.fl ⟨some k, prefOf [k], some k, []⟩ = .ok (veciDone env k) := by
        unfold runBlock veciDone live
        have hg : gateOf [k] = some k := by
          unfold gateOf
          have : maxPart [k] = k := rfl
          rw [this, if_pos (by omega)]
        rw [hg]
        simp only []
        split
        · rw [if_pos]
          simp only [Option.toList_some, List.flatMap_nil, List.append_nil, List.all_cons, List.all_nil, Bool.and_true]
          rw [List.contains_iff_mem, mem_range2]; omega
        · rfl
      rw [hv]
      have hnc : ∀ l : List (WContributions ι), callNth ts env.fl env.tlen k false l = .ok [] := fun l => rfl
      unfold mixedDone ccDone
      cases env.mixed
      · cases env.cc
        · simp [hnc]
        · by_cases h4 : k < 4
          · simp [h4, hnc, call_vemx ts f hf env.fl env.tlen n (by omega) h2 (by omega), unlinked_lt h4]
          · simp [h4, call_vemx ts f hf env.fl env.tlen n (by omega) h2 (by omega),
              call_vecc ts f hf env.fl env.tlen n (by omega) h2 (by omega)]
      · simp [hnc, call_vemx ts f hf env.fl env.tlen n (by omega) h2 (by omega)]

theorem runOrder_eq (ts : ι → List Nat) (f : Nat → List Nat → ι) (hf : ∀ k c, ts (f k c) = c) (env : Env) (n : Nat)
    (h1 : 1 ≤ k) :
    runOrder ts env (vemxOf f n) (veccOf f n) ((range2 1 (n + 1)).map fnOf) k =
      if n < k then .error .name else if env.tlen < k then .error .value
      else .ok (k, veciDone env k, mixedDone f env k, ccDone f env k) := by
  unfold runOrder
  rw [List.getElem?_map]
  by_cases h : n < k
  · rw [getElem_range2_ge h, if_pos h]; rfl
  · rw [getElem_range2 h1 (by omega), if_neg h]
    simp only [Option.map_some]
    rw [runFunction_eq ts f hf env n h1 (by omega)]
    split <;> rfl

theorem live_iff {p : List Nat} (h : IsPartition k p) (hk : 1 ≤ k) (fl : Nat → Bool) :
    live fl p = true ↔ ∀ x ∈ p, (∀ y ∈ p, y ≤ x) → x = 1 ∨ fl x = true := by
  have hne := partitions_ne_nil hk h
  have hm := maxPart_spec hne
  have hpos := h.pos _ hm.1
  unfold live gateOf
  constructor
  · intro hl x hx hmax
    have : x = maxPart p := le_antisymm (hm.2 x hx) (hmax _ hm.1)
    subst this
    by_cases h2 : maxPart p ≥ 2
    · rw [if_pos h2] at hl; exact .inr (by simpa using hl)
    · left; omega
  · intro hl
    rcases hl _ hm.1 hm.2 with h1 | h1
    · rw [if_neg (by omega)]; rfl
    · split
      · simpa using h1
      · rfl

/-- the contributing partitions, in program order -/
def contributing (env : Env) (k : Nat) : List (List Nat) :=
  (if live env.fl [k] then [[k]] else []) ++
  (if env.mixed || env.cc then (linkedPartitions k).filter (live env.fl) else []) ++
  (if !env.mixed && env.cc then (unlinkedPartitions k).filter (live env.fl) else [])

theorem nodup_contributing (env : Env) (hk : 1 ≤ k) : (contributing env k).Nodup := by
  have h := (partition_classes_split k hk).nodup_iff.2 (partitions_nodup k)
  have hs : (contributing env k).Sublist ([k] :: (linkedPartitions k ++ unlinkedPartitions k)) := by
    unfold contributing
    rw [List.append_assoc]
    apply List.Sublist.append (l₂ := [[k]])
    · split
      · exact List.Sublist.refl _
      · exact List.nil_sublist _
    · apply List.Sublist.append
      · split
        · exact List.filter_sublist
        · exact List.nil_sublist _
      · split
        · exact List.filter_sublist
        · exact List.nil_sublist _
  exact hs.nodup h

theorem isPartition_single (hk : 1 ≤ k) : IsPartition k [k] := ⟨by simp, by simpa using hk, by simp⟩

theorem atMostOneBig_single : AtMostOneBig [k] := by
  unfold AtMostOneBig
  exact (List.length_filter_le _ _).trans (by simp)

theorem mem_contributing (env : Env) (hk : 1 ≤ k) (p : List Nat) : p ∈ contributing env k ↔ Contributes env k p := by
  have hs := isPartition_single hk
  unfold contributing
  rw [List.mem_append, List.mem_append]
  have e1 : p ∈ (if live env.fl [k] then [[k]] else []) ↔ p = [k] ∧ live env.fl [k] = true := by
    split <;> simp_all
  have e2 : p ∈ (if (env.mixed || env.cc) = true then (linkedPartitions k).filter (live env.fl) else []) ↔
      (env.mixed || env.cc) = true ∧ p ∈ linkedPartitions k ∧ live env.fl p = true := by
    split
    · rename_i h; rw [List.mem_filter]; simp [h]
    · rename_i h; simp [h]
  have e3 : p ∈ (if (!env.mixed && env.cc) = true then (unlinkedPartitions k).filter (live env.fl) else []) ↔
      (!env.mixed && env.cc) = true ∧ p ∈ unlinkedPartitions k ∧ live env.fl p = true := by
    split
    · rename_i h; rw [List.mem_filter]; simp [h]
    · rename_i h; simp [h]
  rw [e1, e2, e3, linked_exact k hk, unlinked_exact k hk]
  constructor
  · rintro ((⟨rfl, h⟩ | ⟨h1, ⟨h2, h3, _⟩, h4⟩) | ⟨h1, ⟨h2, h3⟩, h4⟩)
    · exact ⟨hs, .inl rfl, (live_iff hs hk _).1 h⟩
    · refine ⟨h2, ?_, (live_iff h2 hk _).1 h4⟩
      cases hm : env.mixed
      · right; right; simpa [hm] using h1
      · right; left; exact ⟨rfl, h3⟩
    · exact ⟨h2, .inr (.inr (by simpa using h1)), (live_iff h2 hk _).1 h4⟩
  · rintro ⟨h1, h2, h3⟩
    rw [← live_iff h1 hk] at h3
    by_cases hp : p = [k]
    · subst hp; exact .inl (.inl ⟨rfl, h3⟩)
    · rcases h2 with h2 | ⟨h2, h4⟩ | ⟨h2, h4⟩
      · exact absurd h2 hp
      · exact .inl (.inr ⟨by simp [h2], ⟨h1, h4, hp⟩, h3⟩)
      · by_cases hb : AtMostOneBig p
        · exact .inl (.inr ⟨by simp [h4], ⟨h1, hb, hp⟩, h3⟩)
        · exact .inr ⟨by simp [h2, h4], ⟨h1, hb⟩, h3⟩

theorem masterOrders_cases (n : Nat) (fl : Nat → Bool) :
    masterOrders (master n) fl =
      if fl 1 then
        if fl 2 then
          if fl 3 then
            if fl 4 then if fl 5 then .error .notImplemented else .ok [1, 2, 3, 4, 5, 6]
            else .ok [1, 2, 3, 4, 5]
          else .ok [1, 2, 3, 4]
        else .ok [1, 2, 3]
      else .error .exception := by
  unfold masterOrders master
  simp only [List.takeWhile_cons, List.takeWhile_nil]
  cases fl 1 <;> cases fl 2 <;> cases fl 3 <;> cases fl 4 <;> cases fl 5 <;> rfl

theorem masterOrders_bounds {n : Nat} {fl : Nat → Bool} {ks : List Nat} (h : masterOrders (master n) fl = .ok ks) :
    fl 1 = true ∧ ∀ k ∈ ks, 1 ≤ k ∧ k ≤ 6 ∧ (4 ≤ k → fl 2 = true) := by
  rw [masterOrders_cases] at h
  by_cases h1 : fl 1 = true
  · refine ⟨h1, ?_⟩
    rw [if_pos h1] at h
    by_cases h2 : fl 2 = true
    · rw [if_pos h2] at h
      split at h
      · split at h
        · split at h
          · cases h
          · injection h with h; subst h
            intro k hk; simp at hk; refine ⟨by omega, by omega, fun _ => h2⟩
        · injection h with h; subst h
          intro k hk; simp at hk; refine ⟨by omega, by omega, fun _ => h2⟩
      · injection h with h; subst h
        intro k hk; simp at hk; refine ⟨by omega, by omega, fun _ => h2⟩
    · rw [if_neg h2] at h
      injection h with h; subst h
      intro k hk; simp at hk; refine ⟨by omega, by omega, fun _ => by omega⟩
  · rw [if_neg h1] at h; cases h

/-! ## Paths -/

theorem serve_exact {α : Type} (l : List α) (f : α → Call) (g : α → Path) :
    serve (l.map g) (l.map f) = some (l.map fun a => (f a, g a), []) := by
  induction l with
  | nil => rfl
  | cons a l ih => simp [serve, ih]

theorem paths_vemx {n : Nat} (fl : Nat → Bool) (h1 : fl 1 = true) (hk1 : 1 ≤ k) (hk2 : k ≤ n) :
    runPaths (moduleOf n).vemxPaths fl k = .ok (((linkedPartitions k).filter (live fl)).flatMap fun p => (combinations p).map (mkP k)) := by
  unfold runPaths
  show runPaths.entry (moduleOf n).vemxPaths fl k = _
  unfold runPaths.entry
  have : (moduleOf n).vemxPaths.lists[k - 1]? = some ((linkedPartitions k).map fun p => (maxPart p, (combinations p).map (mkP k))) := by
    show ([] :: (range2 2 (n + 1)).map fun k => (linkedPartitions k).map fun p => (maxPart p, (combinations p).map (mkP k)))[k - 1]? = _
    by_cases h : k = 1
    · subst h; rw [linked_one]; rfl
    · obtain ⟨j, rfl⟩ : ∃ j, k = j + 2 := ⟨k - 2, by omega⟩
      rw [show j + 2 - 1 = j + 1 from rfl, List.getElem?_cons_succ, List.getElem?_map]
      unfold range2
      rw [List.getElem?_map, List.getElem?_range (by omega)]
      rfl
  rw [this]
  simp only []
  congr 1
  rw [List.flatMap_map]
  have hm := linked_mem hk1
  generalize linkedPartitions k = ps at hm
  induction ps with
  | nil => rfl
  | cons p ps ih =>
    rw [List.flatMap_cons, ih (fun q hq => hm q (by simp [hq])), List.filter_cons]
    have hlive : live fl p = fl (maxPart p) := by
      have hp := (hm p (by simp)).1
      have hmx := maxPart_spec (partitions_ne_nil hk1 hp)
      unfold live gateOf
      split
      · rfl
      · have : maxPart p = 1 := by have := hp.pos _ hmx.1; omega
        rw [this, h1]; rfl
    rw [hlive]
    cases fl (maxPart p) <;> simp

theorem paths_vecc {n : Nat} (fl : Nat → Bool) (h1 : fl 1 = true) (hk1 : 1 ≤ k) (hk2 : k ≤ n) (hk6 : k ≤ 6) (h4 : 4 ≤ k → fl 2 = true) :
    runPaths (moduleOf n).veccPaths fl k = .ok (((unlinkedPartitions k).filter (live fl)).flatMap fun p => (combinations p).map (mkP k)) := by
  by_cases hk4 : 4 ≤ k
  · unfold runPaths
    show (if fl 2 then runPaths.entry (moduleOf n).veccPaths fl k else _) = _
    rw [if_pos (h4 hk4)]
    unfold runPaths.entry
    have : (moduleOf n).veccPaths.lists[k - 1]? = some ((unlinkedPartitions k).map fun p => (maxPart p, (combinations p).map (mkP k))) := by
      show ([] :: [] :: [] :: (range2 4 (n + 1)).map fun k => (unlinkedPartitions k).map fun p => (maxPart p, (combinations p).map (mkP k)))[k - 1]? = _
      obtain ⟨j, rfl⟩ : ∃ j, k = j + 4 := ⟨k - 4, by omega⟩
      rw [show j + 4 - 1 = j + 1 + 1 + 1 from rfl, List.getElem?_cons_succ, List.getElem?_cons_succ, List.getElem?_cons_succ,
        List.getElem?_map]
      unfold range2
      rw [List.getElem?_map, List.getElem?_range (by omega)]
      rfl
    rw [this]
    simp only []
    congr 1
    rw [List.flatMap_map]
    have hm := unlinked_mem hk1
    generalize unlinkedPartitions k = ps at hm
    induction ps with
    | nil => rfl
    | cons p ps ih =>
      rw [List.flatMap_cons, ih (fun q hq => hm q (by simp [hq])), List.filter_cons]
      have hlive : live fl p = fl (maxPart p) := by
        have hp := (hm p (by simp)).1
        have hmx := maxPart_spec (partitions_ne_nil hk1 hp)
        unfold live gateOf
        split
        · rfl
        · have : maxPart p = 1 := by have := hp.pos _ hmx.1; omega
          rw [this, h1]; rfl
      rw [hlive]
      cases fl (maxPart p) <;> simp
  · rw [unlinked_lt (by omega)]
    unfold runPaths
    show (if fl 2 then runPaths.entry (moduleOf n).veccPaths fl k else _) = _
    have e : runPaths.entry (moduleOf n).veccPaths fl k = .ok [] := by
      unfold runPaths.entry
      have : (moduleOf n).veccPaths.lists[k - 1]? = some [] := by
        rcases k with _ | _ | _ | _ | k
        · omega
        · rfl
        · rfl
        · rfl
        · omega
      rw [this]; rfl
    rw [e, if_pos (show k - 1 < 6 by omega)]
    simp

end TF.W
