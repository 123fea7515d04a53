import Verif.Lemmas.SourceCode

/-!
# Lemmas about the reader of Python source: fixed pieces of code
-/

namespace TF.Spec.Source

open TF.CC (tabs)

/-! ## Lines that are read as a whole -/

theorem flat_lines : ∀ (t : List Tok) (ls : List (Nat × List Tok)) (u : List Tok), lines t = (u, ls) → Flat u ∧ t = u ++ flat ls ∧ ∀ x ∈ ls, Flat x.2
  | [], ls, u, h => by
    simp only [lines, Prod.mk.injEq] at h
    obtain ⟨rfl, rfl⟩ := h
    exact ⟨fun k hk => by simp at hk, rfl, by simp⟩
  | .line k :: l, ls, u, h => by
    simp only [lines, Prod.mk.injEq] at h
    obtain ⟨rfl, rfl⟩ := h
    obtain ⟨h1, h2, h3⟩ := flat_lines l _ _ rfl
    refine ⟨fun k hk => by simp at hk, ?_, ?_⟩
    · simp only [flat, List.flatMap_cons, List.nil_append, List.cons_append] at h2 ⊢
      rw [← h2]
    · intro x hx
      rcases List.mem_cons.1 hx with rfl | hx
      · exact h1
      · exact h3 x hx
  | .word w :: l, ls, u, h => flat_lines_cons (.word w) (by simp) rfl h (flat_lines l)
  | .str w :: l, ls, u, h => flat_lines_cons (.str w) (by simp) rfl h (flat_lines l)
  | .fstr w :: l, ls, u, h => flat_lines_cons (.fstr w) (by simp) rfl h (flat_lines l)
  | .doc :: l, ls, u, h => flat_lines_cons .doc (by simp) rfl h (flat_lines l)
  | .sym c :: l, ls, u, h => flat_lines_cons (.sym c) (by simp) rfl h (flat_lines l)
where
  flat_lines_cons (x : Tok) (hx : ∀ k, x ≠ .line k) {l : List Tok} {ls : List (Nat × List Tok)} {u : List Tok}
      (e : lines (x :: l) = (x :: (lines l).1, (lines l).2)) (h : lines (x :: l) = (u, ls))
      (ih : ∀ ls u, lines l = (u, ls) → Flat u ∧ l = u ++ flat ls ∧ ∀ x ∈ ls, Flat x.2) : Flat u ∧ x :: l = u ++ flat ls ∧ ∀ x ∈ ls, Flat x.2 := by
    rw [e, Prod.mk.injEq] at h
    obtain ⟨rfl, rfl⟩ := h
    obtain ⟨h1, h2, h3⟩ := ih _ _ rfl
    exact ⟨Flat.cons hx h1, by rw [List.cons_append, ← h2], h3⟩

theorem takeWhile_append_nil {α : Type} {p : α → Bool} {b : List α} (h : b.takeWhile p = []) : ∀ a : List α, (a ++ b).takeWhile p = a.takeWhile p
  | [] => by simpa using h
  | x :: a => by
    rw [List.cons_append, List.takeWhile_cons, List.takeWhile_cons, takeWhile_append_nil h a]

theorem dropWhile_append_self {α : Type} {p : α → Bool} {b : List α} (h : b.dropWhile p = b) : ∀ a : List α, (a ++ b).dropWhile p = a.dropWhile p ++ b
  | [] => by simpa using h
  | x :: a => by
    rw [List.cons_append, List.dropWhile_cons, List.dropWhile_cons, dropWhile_append_self h a]
    split <;> simp

theorem Follows.le {k kk : Nat} {r : List (Nat × Stmt)} (hk : k ≤ kk) (h : Follows k r) : Follows kk r := by
  rcases hk.lt_or_eq with h' | rfl
  · exact h.mono h'
  · exact h

theorem withElse_append {k : Nat} {c : Expr} {b : List Stmt} {r : List (Nat × Stmt)} (h : Follows k r) (f : Stmt → Stmt) :
    ∀ a : List (Nat × Stmt), withElse k c b (a ++ r) f = withElse k c b a f ++ r
  | [] => by
    rw [List.nil_append, withElse_follows h]
    rfl
  | (k', s) :: a => by
    cases s with
    | orelse b' =>
      show (if k' = k then _ else _) = (if k' = k then _ else _) ++ r
      split <;> simp
    | _ => rfl

theorem block_append {k : Nat} {h : Head} {a r r1 : List (Nat × Stmt)} (hf : Follows k r) (hb : block k h a = some r1) : block k h (a ++ r) = some (r1 ++ r) := by
  have e1 := takeWhile_append_nil (p := fun x : Nat × Stmt => decide (k < x.1)) hf.takeWhile a
  have e2 := dropWhile_append_self (p := fun x : Nat × Stmt => decide (k < x.1)) hf.dropWhile a
  unfold block at hb ⊢
  rw [e1, e2]
  cases h with
  | simple s =>
    simp only at hb ⊢
    split at hb
    · rename_i hi
      rw [if_pos hi, ← Option.some.inj hb]
      rfl
    · cases hb
  | orelse =>
    simp only [Option.map_eq_some_iff] at hb ⊢
    obtain ⟨b, h1, rfl⟩ := hb
    exact ⟨b, h1, rfl⟩
  | defn g ps =>
    simp only [Option.map_eq_some_iff] at hb ⊢
    obtain ⟨b, h1, rfl⟩ := hb
    exact ⟨b, h1, rfl⟩
  | cond c =>
    simp only [Option.map_eq_some_iff] at hb ⊢
    obtain ⟨b, h1, rfl⟩ := hb
    exact ⟨b, h1, withElse_append hf _ _⟩
  | elif c =>
    simp only [Option.map_eq_some_iff] at hb ⊢
    obtain ⟨b, h1, rfl⟩ := hb
    exact ⟨b, h1, withElse_append hf _ _⟩

theorem blocks_append {k : Nat} {ls' : List (Nat × List Tok)} {r : List (Nat × Stmt)} (hr : blocks ls' = some r) (hf : Follows k r) :
    ∀ (ls : List (Nat × List Tok)) (r0 : List (Nat × Stmt)), blocks ls = some r0 → (∀ x ∈ ls, k ≤ x.1) → blocks (ls ++ ls') = some (r0 ++ r)
  | [], r0, h, _ => by
    simp only [blocks, Option.some.injEq] at h
    subst h
    simpa using hr
  | l :: ls, r0, h, hk => by
    rw [blocks] at h
    rw [List.cons_append, blocks]
    cases hh : head l.2 with
    | none => rw [hh] at h; simp at h
    | some hd =>
      cases hb : blocks ls with
      | none => rw [hh, hb] at h; simp at h
      | some r1 =>
        rw [hh, hb] at h
        rw [blocks_append hr hf ls r1 hb fun x hx => hk x (by simp [hx])]
        exact block_append (hf.le (hk l (by simp))) h

/-- the lines of a text -/
def lexed (strs : List String) : List Tok × List (Nat × List Tok) := lines (run ⟨0, .start 0⟩ (strs.flatMap fun s => s.toList ++ ['\n'])).1

/-- Lines that can be read by computing. -/
theorem Code.const {k : Nat} {strs : List String} {ls : List (Nat × List Tok)} {ss : List Stmt} (h : LexLines strs (flat ls)) (hf : ∀ x ∈ ls, Flat x.2)
    (hk : ∀ x ∈ ls, k ≤ x.1) (hb : blocks ls = some (ss.map (k, ·))) (he : ∀ s ∈ ss, s.isElse = false) : Code k strs ss :=
  ⟨ls, h, hf, he, fun _ _ hr hfo => blocks_append hr hfo ls _ hb hk⟩

theorem Code.computed {k : Nat} {strs : List String} {ss : List Stmt} (h1 : (run ⟨0, .start 0⟩ (strs.flatMap fun s => s.toList ++ ['\n'])).2 = ⟨0, .start 0⟩)
    (h2 : (lexed strs).1 = []) (hk : ((lexed strs).2.all fun x => decide (k ≤ x.1)) = true) (hb : blocks (lexed strs).2 = some (ss.map (k, ·)))
    (he : (ss.all fun s => !s.isElse) = true) : Code k strs ss := by
  obtain ⟨_, h4, h5⟩ := flat_lines (run ⟨0, .start 0⟩ (strs.flatMap fun s : String => s.toList ++ ['\n'])).1 (lexed strs).2 [] (Prod.ext h2 rfl)
  refine Code.const (ls := (lexed strs).2) ?_ h5 (fun x hx => by simpa using List.all_eq_true.1 hk x hx) hb fun s hs => by simpa using List.all_eq_true.1 he s hs
  exact Prod.ext h4 h1

/-! ## Comparing statements -/

mutual

def Expr.same : Expr → Expr → Bool
  | .word a, .word b => a == b
  | .str a, .str b => a == b
  | .fmt a, .fmt b => a == b
  | .attr e a, .attr f b => e.same f && a == b
  | .call e l, .call f m => e.same f && Expr.sameAll l m
  | .index e l, .index f m => e.same f && Expr.sameAll l m
  | .tuple l, .tuple m => Expr.sameAll l m
  | .list l, .list m => Expr.sameAll l m
  | .sum l, .sum m => Expr.samePairs l m
  | .prod l, .prod m => Expr.samePairs l m
  | .kw a e, .kw b f => a == b && e.same f
  | .dict l, .dict m => Expr.sameAll l m
  | .not e, .not f => e.same f
  | .notNone e, .notNone f => e.same f
  | _, _ => false

def Expr.sameAll : List Expr → List Expr → Bool
  | [], [] => true
  | e :: l, f :: m => e.same f && Expr.sameAll l m
  | _, _ => false

def Expr.samePairs : List (Bool × Expr) → List (Bool × Expr) → Bool
  | [], [] => true
  | (a, e) :: l, (b, f) :: m => a == b && e.same f && Expr.samePairs l m
  | _, _ => false

end

mutual

theorem Expr.eq_of_same : ∀ e f : Expr, e.same f = true → e = f
  | .word a, f, h => by cases f <;> simp_all [Expr.same]
  | .str a, f, h => by cases f <;> simp_all [Expr.same]
  | .fmt a, f, h => by cases f <;> simp_all [Expr.same]
  | .attr e a, f, h => by
    cases f with
    | attr f b =>
      simp only [Expr.same, Bool.and_eq_true, beq_iff_eq] at h
      rw [Expr.eq_of_same e f h.1, h.2]
    | _ => simp [Expr.same] at h
  | .call e l, f, h => by
    cases f with
    | call f m =>
      simp only [Expr.same, Bool.and_eq_true] at h
      rw [Expr.eq_of_same e f h.1, Expr.eq_of_sameAll l m h.2]
    | _ => simp [Expr.same] at h
  | .index e l, f, h => by
    cases f with
    | index f m =>
      simp only [Expr.same, Bool.and_eq_true] at h
      rw [Expr.eq_of_same e f h.1, Expr.eq_of_sameAll l m h.2]
    | _ => simp [Expr.same] at h
  | .tuple l, f, h => by
    cases f with
    | tuple m => rw [Expr.eq_of_sameAll l m (by simpa [Expr.same] using h)]
    | _ => simp [Expr.same] at h
  | .list l, f, h => by
    cases f with
    | list m => rw [Expr.eq_of_sameAll l m (by simpa [Expr.same] using h)]
    | _ => simp [Expr.same] at h
  | .sum l, f, h => by
    cases f with
    | sum m => rw [Expr.eq_of_samePairs l m (by simpa [Expr.same] using h)]
    | _ => simp [Expr.same] at h
  | .prod l, f, h => by
    cases f with
    | prod m => rw [Expr.eq_of_samePairs l m (by simpa [Expr.same] using h)]
    | _ => simp [Expr.same] at h
  | .kw a e, f, h => by
    cases f with
    | kw b f =>
      simp only [Expr.same, Bool.and_eq_true, beq_iff_eq] at h
      rw [Expr.eq_of_same e f h.2, h.1]
    | _ => simp [Expr.same] at h
  | .dict l, f, h => by
    cases f with
    | dict m => rw [Expr.eq_of_sameAll l m (by simpa [Expr.same] using h)]
    | _ => simp [Expr.same] at h
  | .not e, f, h => by
    cases f with
    | not f => rw [Expr.eq_of_same e f (by simpa [Expr.same] using h)]
    | _ => simp [Expr.same] at h
  | .notNone e, f, h => by
    cases f with
    | notNone f => rw [Expr.eq_of_same e f (by simpa [Expr.same] using h)]
    | _ => simp [Expr.same] at h

theorem Expr.eq_of_sameAll : ∀ l m : List Expr, Expr.sameAll l m = true → l = m
  | [], [], _ => rfl
  | [], _ :: _, h => by simp [Expr.sameAll] at h
  | _ :: _, [], h => by simp [Expr.sameAll] at h
  | e :: l, f :: m, h => by
    simp only [Expr.sameAll, Bool.and_eq_true] at h
    rw [Expr.eq_of_same e f h.1, Expr.eq_of_sameAll l m h.2]

theorem Expr.eq_of_samePairs : ∀ l m : List (Bool × Expr), Expr.samePairs l m = true → l = m
  | [], [], _ => rfl
  | [], _ :: _, h => by simp [Expr.samePairs] at h
  | _ :: _, [], h => by simp [Expr.samePairs] at h
  | (a, e) :: l, (b, f) :: m, h => by
    simp only [Expr.samePairs, Bool.and_eq_true, beq_iff_eq] at h
    rw [Expr.eq_of_same e f h.1.2, Expr.eq_of_samePairs l m h.2, h.1.1]

end

def Expr.sameOpt : Option Expr → Option Expr → Bool
  | none, none => true
  | some e, some f => e.same f
  | _, _ => false

theorem Expr.eq_of_sameOpt : ∀ e f : Option Expr, Expr.sameOpt e f = true → e = f
  | none, none, _ => rfl
  | none, some _, h => by simp [Expr.sameOpt] at h
  | some _, none, h => by simp [Expr.sameOpt] at h
  | some e, some f, h => by rw [Expr.eq_of_same e f h]

mutual

def Stmt.same : Stmt → Stmt → Bool
  | .pass, .pass => true
  | .doc, .doc => true
  | .imp l, .imp m => l == m
  | .expr e, .expr f => e.same f
  | .assign a e, .assign b f => a == b && e.same f
  | .add a e, .add b f => a == b && e.same f
  | .sub a e, .sub b f => a == b && e.same f
  | .unpack a x e, .unpack b y f => a == b && x == y && e.same f
  | .setItem e l v, .setItem f m w => e.same f && Expr.sameAll l m && v.same w
  | .assert c m, .assert d n => c.same d && m.same n
  | .ret e, .ret f => Expr.sameOpt e f
  | .raise e, .raise f => e.same f
  | .cond c l m, .cond d l' m' => c.same d && Stmt.sameAll l l' && Stmt.sameAll m m'
  | .orelse l, .orelse m => Stmt.sameAll l m
  | .defn a x l, .defn b y m => a == b && x == y && Stmt.sameAll l m
  | _, _ => false

def Stmt.sameAll : List Stmt → List Stmt → Bool
  | [], [] => true
  | e :: l, f :: m => e.same f && Stmt.sameAll l m
  | _, _ => false

end

mutual

theorem Stmt.eq_of_same : ∀ s t : Stmt, s.same t = true → s = t
  | .pass, t, h => by cases t <;> simp_all [Stmt.same]
  | .doc, t, h => by cases t <;> simp_all [Stmt.same]
  | .imp l, t, h => by cases t <;> simp_all [Stmt.same]
  | .expr e, t, h => by
    cases t with
    | expr f => rw [Expr.eq_of_same e f (by simpa [Stmt.same] using h)]
    | _ => simp [Stmt.same] at h
  | .assign a e, t, h => by
    cases t with
    | assign b f =>
      simp only [Stmt.same, Bool.and_eq_true, beq_iff_eq] at h
      rw [h.1, Expr.eq_of_same e f h.2]
    | _ => simp [Stmt.same] at h
  | .add a e, t, h => by
    cases t with
    | add b f =>
      simp only [Stmt.same, Bool.and_eq_true, beq_iff_eq] at h
      rw [h.1, Expr.eq_of_same e f h.2]
    | _ => simp [Stmt.same] at h
  | .sub a e, t, h => by
    cases t with
    | sub b f =>
      simp only [Stmt.same, Bool.and_eq_true, beq_iff_eq] at h
      rw [h.1, Expr.eq_of_same e f h.2]
    | _ => simp [Stmt.same] at h
  | .unpack a x e, t, h => by
    cases t with
    | unpack b y f =>
      simp only [Stmt.same, Bool.and_eq_true, beq_iff_eq] at h
      rw [h.1.1, h.1.2, Expr.eq_of_same e f h.2]
    | _ => simp [Stmt.same] at h
  | .setItem e l v, t, h => by
    cases t with
    | setItem f m w =>
      simp only [Stmt.same, Bool.and_eq_true] at h
      rw [Expr.eq_of_same e f h.1.1, Expr.eq_of_sameAll l m h.1.2, Expr.eq_of_same v w h.2]
    | _ => simp [Stmt.same] at h
  | .assert c m, t, h => by
    cases t with
    | assert d n =>
      simp only [Stmt.same, Bool.and_eq_true] at h
      rw [Expr.eq_of_same c d h.1, Expr.eq_of_same m n h.2]
    | _ => simp [Stmt.same] at h
  | .ret e, t, h => by
    cases t with
    | ret f => rw [Expr.eq_of_sameOpt e f (by simpa [Stmt.same] using h)]
    | _ => simp [Stmt.same] at h
  | .raise e, t, h => by
    cases t with
    | raise f => rw [Expr.eq_of_same e f (by simpa [Stmt.same] using h)]
    | _ => simp [Stmt.same] at h
  | .cond c l m, t, h => by
    cases t with
    | cond d l' m' =>
      simp only [Stmt.same, Bool.and_eq_true] at h
      rw [Expr.eq_of_same c d h.1.1, Stmt.eq_of_sameAll l l' h.1.2, Stmt.eq_of_sameAll m m' h.2]
    | _ => simp [Stmt.same] at h
  | .orelse l, t, h => by
    cases t with
    | orelse m => rw [Stmt.eq_of_sameAll l m (by simpa [Stmt.same] using h)]
    | _ => simp [Stmt.same] at h
  | .defn a x l, t, h => by
    cases t with
    | defn b y m =>
      simp only [Stmt.same, Bool.and_eq_true, beq_iff_eq] at h
      rw [h.1.1, h.1.2, Stmt.eq_of_sameAll l m h.2]
    | _ => simp [Stmt.same] at h

theorem Stmt.eq_of_sameAll : ∀ l m : List Stmt, Stmt.sameAll l m = true → l = m
  | [], [], _ => rfl
  | [], _ :: _, h => by simp [Stmt.sameAll] at h
  | _ :: _, [], h => by simp [Stmt.sameAll] at h
  | e :: l, f :: m, h => by
    simp only [Stmt.sameAll, Bool.and_eq_true] at h
    rw [Stmt.eq_of_same e f h.1, Stmt.eq_of_sameAll l m h.2]

end

def Head.same : Head → Head → Bool
  | .cond c, .cond d => c.same d
  | .orelse, .orelse => true
  | .elif c, .elif d => c.same d
  | .defn f ps, .defn g qs => f == g && ps == qs
  | .simple s, .simple t => s.same t
  | _, _ => false

theorem Head.eq_of_same (s t : Head) (h : s.same t = true) : s = t := by
  cases s <;> cases t <;> simp_all [Head.same, Expr.eq_of_same, Stmt.eq_of_same]
  · exact Expr.eq_of_same _ _ h
  · exact Expr.eq_of_same _ _ h
  · exact Stmt.eq_of_same _ _ h

/-- the statements that were read -/
def sameBlocks (k : Nat) (ss : List Stmt) : Option (List (Nat × Stmt)) → Bool
  | none => false
  | some r => (r.all fun x => x.1 == k) && Stmt.sameAll (r.map Prod.snd) ss

theorem eq_of_sameBlocks {k : Nat} {ss : List Stmt} {r : Option (List (Nat × Stmt))} (h : sameBlocks k ss r = true) : r = some (ss.map (k, ·)) := by
  cases r with
  | none => simp [sameBlocks] at h
  | some r =>
    simp only [sameBlocks, Bool.and_eq_true] at h
    rw [← Stmt.eq_of_sameAll _ _ h.2, List.map_map]
    congr 1
    conv_lhs => rw [← List.map_id r]
    refine List.map_congr_left fun x hx => ?_
    have := List.all_eq_true.1 h.1 x hx
    simp only [beq_iff_eq] at this
    simp [← this]

/-- everything that has to be computed -/
def reads (k : Nat) (strs : List String) (ss : List Stmt) : Bool :=
  let t := run ⟨0, .start 0⟩ (strs.flatMap fun s => s.toList ++ ['\n'])
  let ls := lines t.1
  decide (t.2 = ⟨0, .start 0⟩) && decide (ls.1 = []) && (ls.2.all fun x => decide (k ≤ x.1)) && sameBlocks k ss (blocks ls.2) && ss.all fun s => !s.isElse

theorem code_reads {k : Nat} {strs : List String} {ss : List Stmt} (h : reads k strs ss = true) : Code k strs ss := by
  simp only [reads, Bool.and_eq_true, decide_eq_true_eq] at h
  exact Code.computed h.1.1.1.1 h.1.1.1.2 h.1.1.2 (eq_of_sameBlocks h.1.2) h.2

/-! ## Other pieces -/

/-- a line with a comment -/
theorem code_comment {k n : Nat} {s : String} {w : List Char} (h : s.toList = (tabs n).toList ++ '#' :: w) (hw : '\n' ∉ w) : Code k [s] [] := by
  refine ⟨[], ?_, Block.nil k⟩
  have h1 : Lex ⟨0, .start (4 * n)⟩ ['#'] [] ⟨0, .comment⟩ := rfl
  have h2 : Lex ⟨0, .comment⟩ ['\n'] [] ⟨0, .start 0⟩ := rfl
  exact ((lex_tabs n 0).append (h1.append ((lex_comment w 0 hw).append h2))).cast (by simp [h]) (by simp [flat])

/-- items separated by an operator -/
theorem lex_seps {α : Type} {d : Nat} {sep : String} {c : Char} (hs : Lex ⟨d, .plain⟩ sep.toList [.sym c] ⟨d, .plain⟩) (f : α → String) (t : α → List Tok) :
    ∀ (a : α) (l : List α), (∀ x ∈ a :: l, Lex ⟨d, .plain⟩ (f x).toList (t x) ⟨d, .plain⟩) →
    Lex ⟨d, .plain⟩ (sep.intercalate ((a :: l).map f)).toList (t a ++ l.flatMap fun x => .sym c :: t x) ⟨d, .plain⟩
  | a, [], h => by
    simpa [String.intercalate_singleton] using h a (by simp)
  | a, b :: l, h => by
    have ih := lex_seps hs f t b l fun x hx => h x (by simp [List.mem_cons.1 hx])
    rw [List.map_cons, List.map_cons, String.intercalate_cons_cons, String.toList_append, String.toList_append, List.append_assoc]
    refine (h a (by simp)).append ?_
    exact (hs.append ih).cast rfl (by simp)

/-- a list with a comma after its last item -/
theorem Args.listComma {u : List Tok} {es : List Expr} (h' : Args u es) : Atom (.sym '[' :: (u ++ [.sym ',', .sym ']'])) (.list es) := by
  intro f st h1 h2
  obtain ⟨g, a, b, c, d⟩ := h' .list (f :: st) rfl
  refine Reads.append (a := [.sym '[']) (Reads.one (s' := ({ opened := .list }, f :: st)) (by simp [read, h1])) (a.append ?_)
  refine Reads.append (a := [.sym ',']) (Reads.one (s' := ({ opened := .list, items := es }, f :: st)) ?_) (Reads.one ?_)
  · simp [read, Frame.comma, b, Opened.isDict]
  · simp [read, Frame.close, Opened.closer, Frame.fresh]

end TF.Spec.Source
