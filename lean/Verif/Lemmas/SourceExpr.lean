import Verif.Lemmas.SourceLex

/-!
# Lemmas about the reader of Python source: expressions and blocks
-/

namespace TF.Spec.Source

/-! ## Expressions -/

/-- reading tokens -/
def Reads (s : Frame × List Frame) (t : List Tok) (s' : Frame × List Frame) : Prop := t.foldlM read s = some s'

theorem Reads.append {s s' s'' : Frame × List Frame} {a b : List Tok} (h : Reads s a s') (h' : Reads s' b s'') : Reads s (a ++ b) s'' := by
  unfold Reads at *
  rw [List.foldlM_append, h]
  exact h'

theorem Reads.one {s s' : Frame × List Frame} {t : Tok} (h : read s t = some s') : Reads s [t] s' := by
  unfold Reads
  simp [h]

theorem Reads.nil (s : Frame × List Frame) : Reads s [] s := rfl

/-- The tokens of a name, a call, a bracket and so on. -/
def Atom (t : List Tok) (e : Expr) : Prop :=
  ∀ (f : Frame) (st : List Frame), f.atom = none → f.dot = false → Reads (f, st) t ({ f with atom := some e }, st)

theorem Atom.word (w : List Char) : Atom [.word w] (.word w) := fun f st h _ => Reads.one (by simp [read, h])

theorem Atom.str (s : List Char) : Atom [.str s] (.str s) := fun f st h _ => Reads.one (by simp [read, h])

theorem Atom.fmt (s : List Char) : Atom [.fstr s] (.fmt s) := fun f st h _ => Reads.one (by simp [read, h])

theorem Atom.attr {t : List Tok} {e : Expr} (h : Atom t e) (w : List Char) : Atom (t ++ [.sym '.', .word w]) (.attr e w) := by
  intro f st h1 h2
  refine (h f st h1 h2).append (Reads.append (a := [.sym '.']) (s' := ({ f with atom := some e, dot := true }, st)) ?_ ?_)
  · exact Reads.one (by simp [read, h2])
  · refine Reads.one ?_
    simp [read, h2]

/-- Before an item. -/
def Frame.Clean (f : Frame) : Prop :=
  f.atom = none ∧ f.dot = false ∧ f.prod = [] ∧ f.div = false ∧ f.sum = [] ∧ f.minus = false ∧ f.kw = none

/-- The tokens of an item. -/
def Item (t : List Tok) (e : Expr) : Prop :=
  ∀ (f : Frame) (st : List Frame), f.Clean → ∃ f', Reads (f, st) t (f', st) ∧ f'.endItem = some { f with items := f.items ++ [e] } ∧ f'.fresh = false ∧
    f'.opened = f.opened

/-- The tokens of a product. -/
def Term (t : List Tok) (l : List (Bool × Expr)) : Prop :=
  ∀ (f : Frame) (st : List Frame), f.atom = none → f.dot = false → f.prod = [] → f.div = false →
    ∃ f', Reads (f, st) t (f', st) ∧ f'.endFactor = some { f with prod := l } ∧ f'.atom ≠ none ∧ f'.opened = f.opened

theorem Atom.term {t : List Tok} {e : Expr} (h : Atom t e) : Term t [(false, e)] := by
  intro f st h1 h2 h3 h4
  exact ⟨_, h f st h1 h2, by simp [Frame.endFactor, h1, h2, h3, h4], by simp, rfl⟩

theorem Term.mul {t u : List Tok} {l : List (Bool × Expr)} {e : Expr} (h : Term t l) (h' : Atom u e) (div : Bool) :
    Term (t ++ .sym (if div then '/' else '*') :: u) (l ++ [(div, e)]) := by
  intro f st h1 h2 h3 h4
  obtain ⟨f', a, b, c, d⟩ := h f st h1 h2 h3 h4
  refine ⟨{ f with prod := l, div := div, atom := some e }, ?_, by simp [Frame.endFactor, h1, h2, h4], by simp, rfl⟩
  refine a.append (Reads.append (a := [.sym _]) (s' := ({ f with prod := l, div := div }, st)) ?_ ?_)
  · refine Reads.one ?_
    cases div <;> simp [read, b]
  · exact h' _ st h1 h2

/-- The tokens of a sum. -/
def Sum (t : List Tok) (l : List (Bool × Expr)) : Prop :=
  ∀ (f : Frame) (st : List Frame), f.atom = none → f.dot = false → f.prod = [] → f.div = false → f.sum = [] → f.minus = false →
    ∃ f', Reads (f, st) t (f', st) ∧ f'.endTerm = some { f with sum := l } ∧ f'.atom ≠ none ∧ f'.opened = f.opened

theorem Term.sum {t : List Tok} {l : List (Bool × Expr)} (h : Term t l) : Sum t [(false, Source.one .prod l)] := by
  intro f st h1 h2 h3 h4 h5 h6
  obtain ⟨f', a, b, c, d⟩ := h f st h1 h2 h3 h4
  refine ⟨f', a, ?_, c, d⟩
  unfold Frame.endTerm
  rw [b]
  simp [h3, h5, h6]

theorem Sum.add {t u : List Tok} {l m : List (Bool × Expr)} (h : Sum t l) (h' : Term u m) : Sum (t ++ .sym '+' :: u) (l ++ [(false, Source.one .prod m)]) := by
  intro f st h1 h2 h3 h4 h5 h6
  obtain ⟨f', a, b, c, d⟩ := h f st h1 h2 h3 h4 h5 h6
  obtain ⟨f'', a', b', c', d'⟩ := h' { f with sum := l } st h1 h2 h3 h4
  refine ⟨f'', ?_, ?_, c', d'⟩
  · refine a.append (Reads.append (a := [.sym '+']) (s' := ({ f with sum := l }, st)) ?_ a')
    refine Reads.one ?_
    simp [read, b]
    rw [h6]
  · unfold Frame.endTerm
    rw [b']
    simp [h3, h6]

theorem Sum.item {t : List Tok} {l : List (Bool × Expr)} (h : Sum t l) : Item t (Source.one .sum l) := by
  rintro f st ⟨h1, h2, h3, h4, h5, h6, h7⟩
  obtain ⟨f', a, b, c, d⟩ := h f st h1 h2 h3 h4 h5 h6
  refine ⟨f', a, ?_, ?_, d⟩
  · unfold Frame.endItem
    rw [b]
    simp [h5, h7]
  · unfold Frame.fresh
    cases hf : f'.atom with
    | none => exact absurd hf c
    | some x => rfl

theorem Term.item {t : List Tok} {l : List (Bool × Expr)} (h : Term t l) : Item t (Source.one .prod l) := h.sum.item

theorem Atom.item {t : List Tok} {e : Expr} (h : Atom t e) : Item t e := h.term.item

/-- `w=e` -/
theorem Sum.kw {t : List Tok} {l : List (Bool × Expr)} (h : Sum t l) (w : List Char) : Item (.word w :: .sym '=' :: t) (.kw w (Source.one .sum l)) := by
  rintro f st ⟨h1, h2, h3, h4, h5, h6, h7⟩
  obtain ⟨f', a, b, c, d⟩ := h { f with kw := some w } st h1 h2 h3 h4 h5 h6
  refine ⟨f', ?_, ?_, ?_, d⟩
  · refine Reads.append (a := [.word w]) (Reads.one (s' := ({ f with atom := some (.word w) }, st)) (by simp [read, h1])) ?_
    refine Reads.append (a := [.sym '=']) (Reads.one (s' := ({ f with kw := some w, atom := none }, st)) (by simp [read, h3, h5, h7])) ?_
    rw [show ({ f with kw := some w, atom := none } : Frame) = { f with kw := some w } by rw [← h1]]
    exact a
  · unfold Frame.endItem
    rw [b]
    simp [h5, h7]
  · unfold Frame.fresh
    cases hf : f'.atom with
    | none => exact absurd hf c
    | some x => rfl

/-- The tokens between brackets. -/
def Args (t : List Tok) (es : List Expr) : Prop :=
  ∀ (o : Opened) (st : List Frame), o.isDict = false → ∃ f, Reads ({ opened := o }, st) t (f, st) ∧ f.endItem = some { opened := o, items := es } ∧ f.fresh = false ∧ f.opened = o

theorem Item.args {t : List Tok} {e : Expr} (h : Item t e) : Args t [e] := by
  intro o st _
  obtain ⟨f, a, b, c, d⟩ := h { opened := o } st ⟨rfl, rfl, rfl, rfl, rfl, rfl, rfl⟩
  exact ⟨f, a, b, c, d⟩

theorem Args.snoc {t u : List Tok} {es : List Expr} {e : Expr} (h : Args t es) (h' : Item u e) : Args (t ++ .sym ',' :: u) (es ++ [e]) := by
  intro o st ho
  obtain ⟨f, a, b, c, d⟩ := h o st ho
  obtain ⟨f', a', b', c', d'⟩ := h' { opened := o, items := es } st ⟨rfl, rfl, rfl, rfl, rfl, rfl, rfl⟩
  refine ⟨f', ?_, b', c', d'⟩
  refine a.append (Reads.append (a := [.sym ',']) (s' := ({ opened := o, items := es }, st)) ?_ a')
  refine Reads.one ?_
  simp [read, Frame.comma, b, ho]

theorem Args.snocs {t : List Tok} {es : List Expr} (h : Args t es) {α : Type} (l : List α) (u : α → List Tok) (e : α → Expr) (hl : ∀ a ∈ l, Item (u a) (e a)) :
    Args (t ++ l.flatMap fun a => .sym ',' :: u a) (es ++ l.map e) := by
  induction l generalizing t es with
  | nil => simpa using h
  | cons a l ih =>
    have := ih (h.snoc (hl a (by simp))) fun b hb => hl b (by simp [hb])
    simpa using this

theorem Atom.call {t u : List Tok} {e : Expr} {es : List Expr} (h : Atom t e) (h' : Args u es) : Atom (t ++ .sym '(' :: (u ++ [.sym ')'])) (.call e es) := by
  intro f st h1 h2
  obtain ⟨g, a, b, c, d⟩ := h' (.call e) ({ f with atom := some e } :: st) rfl
  refine (h f st h1 h2).append (Reads.append (a := [.sym '(']) (Reads.one (s' := ({ opened := .call e }, { f with atom := some e } :: st)) (by simp [read, h2])) (a.append (Reads.one ?_)))
  simp [read, Frame.close, Opened.closer, d, c, b]

theorem Atom.callNone {t : List Tok} {e : Expr} (h : Atom t e) : Atom (t ++ [.sym '(', .sym ')']) (.call e []) := by
  intro f st h1 h2
  refine (h f st h1 h2).append (Reads.append (a := [.sym '(']) (Reads.one (s' := ({ opened := .call e }, { f with atom := some e } :: st)) (by simp [read, h2])) (Reads.one ?_))
  simp [read, Frame.close, Opened.closer, Frame.fresh]

theorem Atom.index {t u : List Tok} {e : Expr} {es : List Expr} (h : Atom t e) (h' : Args u es) : Atom (t ++ .sym '[' :: (u ++ [.sym ']'])) (.index e es) := by
  intro f st h1 h2
  obtain ⟨g, a, b, c, d⟩ := h' (.index e) ({ f with atom := some e } :: st) rfl
  refine (h f st h1 h2).append (Reads.append (a := [.sym '[']) (Reads.one (s' := ({ opened := .index e }, { f with atom := some e } :: st)) (by simp [read, h2])) (a.append (Reads.one ?_)))
  simp [read, Frame.close, Opened.closer, d, c, b]

/-- a list -/
theorem Args.list {u : List Tok} {es : List Expr} (h' : Args u es) : Atom (.sym '[' :: (u ++ [.sym ']'])) (.list es) := by
  intro f st h1 h2
  obtain ⟨g, a, b, c, d⟩ := h' .list (f :: st) rfl
  refine Reads.append (a := [.sym '[']) (Reads.one (s' := ({ opened := .list }, f :: st)) (by simp [read, h1])) (a.append (Reads.one ?_))
  simp [read, Frame.close, Opened.closer, d, c, b]

theorem Atom.emptyList : Atom [.sym '[', .sym ']'] (.list []) := by
  intro f st h1 h2
  refine Reads.append (a := [.sym '[']) (Reads.one (s' := ({ opened := .list }, f :: st)) (by simp [read, h1])) (Reads.one ?_)
  simp [read, Frame.close, Opened.closer, Frame.fresh]

/-- a dictionary with one entry -/
theorem Atom.dict {u v : List Tok} {k e : Expr} (hk : Item u k) (he : Item v e) : Atom (.sym '{' :: (u ++ .sym ':' :: (v ++ [.sym '}']))) (.dict [k, e]) := by
  intro f st h1 h2
  obtain ⟨g, a, b, c, d⟩ := hk { opened := .dict } (f :: st) ⟨rfl, rfl, rfl, rfl, rfl, rfl, rfl⟩
  obtain ⟨g', a', b', c', d'⟩ := he { opened := .dict, items := [k] } (f :: st) ⟨rfl, rfl, rfl, rfl, rfl, rfl, rfl⟩
  refine Reads.append (a := [.sym '{']) (Reads.one (s' := ({ opened := .dict }, f :: st)) (by simp [read, h1])) (a.append ?_)
  refine Reads.append (a := [.sym ':']) (Reads.one (s' := ({ opened := .dict, items := [k] }, f :: st)) ?_) (a'.append (Reads.one ?_))
  · simp [read, Frame.colon, d, b, Opened.isDict]
  · simp [read, Frame.close, Opened.closer, d', c', b']

/-- what a bracket around items means -/
def group : List Expr → Expr
  | [e] => e
  | l => .tuple l

theorem Args.group {u : List Tok} {es : List Expr} (h' : Args u es) : Atom (.sym '(' :: (u ++ [.sym ')'])) (Source.group es) := by
  intro f st h1 h2
  obtain ⟨g, a, b, c, d⟩ := h' .group (f :: st) rfl
  refine Reads.append (a := [.sym '(']) (Reads.one (s' := ({ opened := .group }, f :: st)) (by simp [read, h1])) (a.append (Reads.one ?_))
  simp only [read, Frame.close, Opened.closer, d, c, b]
  match es with
  | [] => simp [Source.group]
  | [e] => simp [Source.group]
  | _ :: _ :: _ => simp [Source.group]

theorem expr_item {t : List Tok} {e : Expr} (h : Item t e) (hk : ∀ w x, e ≠ .kw w x) : expr t = some e := by
  obtain ⟨f, a, b, c, d⟩ := h.args .top [] rfl
  unfold expr
  rw [show t.foldlM read (({ opened := .top } : Frame), []) = some (f, []) from a]
  simp only [b, Option.bind_some]

theorem expr_tuple {t : List Tok} {es : List Expr} (h : Args t es) (hl : 2 ≤ es.length) : expr t = some (.tuple es) := by
  obtain ⟨f, a, b, c, d⟩ := h .top [] rfl
  unfold expr
  rw [show t.foldlM read (({ opened := .top } : Frame), []) = some (f, []) from a]
  simp only [b, Option.bind_some]
  match es, hl with
  | _ :: _ :: _, _ => simp

/-! ## Blocks -/

/-- What may follow lines with indentation `k`. -/
def Follows (k : Nat) (r : List (Nat × Stmt)) : Prop := ∀ x ∈ r.head?, x.1 ≤ k ∧ (x.1 = k → x.2.isElse = false)

/-- The lines of statements with indentation `k`. -/
structure Block (k : Nat) (ls : List (Nat × List Tok)) (ss : List Stmt) : Prop where
  flat : ∀ x ∈ ls, Flat x.2
  noElse : ∀ s ∈ ss, s.isElse = false
  reads : ∀ ls' r, blocks ls' = some r → Follows k r → blocks (ls ++ ls') = some (ss.map (k, ·) ++ r)

theorem Block.nil (k : Nat) : Block k [] [] := ⟨by simp, by simp, fun ls' r h _ => by simpa using h⟩

theorem Follows.head {k : Nat} {ss : List Stmt} {r : List (Nat × Stmt)} (h : ∀ s ∈ ss, s.isElse = false) (h' : Follows k r) : Follows k (ss.map (k, ·) ++ r) := by
  cases ss with
  | nil => simpa using h'
  | cons s ss =>
    intro x hx
    simp at hx
    subst hx
    exact ⟨Nat.le_refl _, fun _ => h s (by simp)⟩

theorem Block.append {k : Nat} {a b : List (Nat × List Tok)} {s t : List Stmt} (h : Block k a s) (h' : Block k b t) : Block k (a ++ b) (s ++ t) := by
  refine ⟨fun x hx => (List.mem_append.1 hx).elim (h.flat x) (h'.flat x), fun x hx => (List.mem_append.1 hx).elim (h.noElse x) (h'.noElse x), fun ls' r hr hf => ?_⟩
  rw [List.append_assoc, h.reads _ _ (h'.reads _ _ hr hf) (hf.head h'.noElse)]
  simp

theorem Block.flatMap {α : Type} {k : Nat} {l : List α} {f : α → List (Nat × List Tok)} {g : α → List Stmt} (h : ∀ a ∈ l, Block k (f a) (g a)) :
    Block k (l.flatMap f) (l.flatMap g) := by
  induction l with
  | nil => exact Block.nil k
  | cons a l ih => exact (h a (by simp)).append (ih fun b hb => h b (by simp [hb]))

theorem Follows.takeWhile {k : Nat} {r : List (Nat × Stmt)} (h : Follows k r) : r.takeWhile (fun x => decide (k < x.1)) = [] := by
  cases r with
  | nil => rfl
  | cons x r =>
    have := (h x (by simp)).1
    rw [List.takeWhile_cons, if_neg (by simp; omega)]

theorem Follows.dropWhile {k : Nat} {r : List (Nat × Stmt)} (h : Follows k r) : r.dropWhile (fun x => decide (k < x.1)) = r := by
  cases r with
  | nil => rfl
  | cons x r =>
    have := (h x (by simp)).1
    rw [List.dropWhile_cons, if_neg (by simp; omega)]

theorem Block.simple {k : Nat} {t : List Tok} {s : Stmt} (hf : Flat t) (h : head t = some (.simple s)) (he : s.isElse = false) : Block k [(k, t)] [s] := by
  refine ⟨by simpa using hf, by simpa using he, fun ls' r hr hfo => ?_⟩
  show (match head t, blocks ls' with | some h, some r => block k h r | _, _ => none) = _
  rw [h, hr]
  simp only [block, hfo.takeWhile, hfo.dropWhile]
  simp

theorem inner_take {k k' : Nat} (hk : k < k') {ss : List Stmt} {r : List (Nat × Stmt)} (h : Follows k r) :
    (ss.map (k', ·) ++ r).takeWhile (fun x => decide (k < x.1)) = ss.map (k', ·) := by
  induction ss with
  | nil => simpa using h.takeWhile
  | cons s ss ih => rw [List.map_cons, List.cons_append, List.takeWhile_cons, if_pos (by simpa using hk), ih]

theorem inner_drop {k k' : Nat} (hk : k < k') {ss : List Stmt} {r : List (Nat × Stmt)} (h : Follows k r) :
    (ss.map (k', ·) ++ r).dropWhile (fun x => decide (k < x.1)) = r := by
  induction ss with
  | nil => simpa using h.dropWhile
  | cons s ss ih => rw [List.map_cons, List.cons_append, List.dropWhile_cons, if_pos (by simpa using hk), ih]

theorem body_map {k : Nat} {ss : List Stmt} (hne : ss ≠ []) (h : ∀ s ∈ ss, s.isElse = false) : body (ss.map (k, ·)) = some ss := by
  match ss, hne with
  | s :: ss, _ =>
    show (if _ then _ else _) = _
    rw [if_pos]
    · simp [Function.comp_def]
    · simp only [List.all_cons, List.all_map, Bool.and_eq_true, List.all_eq_true, Function.comp, beq_self_eq_true, implies_true, true_and, Bool.not_eq_true']
      exact ⟨h s (by simp), fun x hx => h x (by simp [hx])⟩

theorem Follows.mono {k k' : Nat} {r : List (Nat × Stmt)} (hk : k < k') (h : Follows k r) : Follows k' r :=
  fun x hx => ⟨by have := (h x hx).1; omega, fun e => by have := (h x hx).1; omega⟩

theorem Block.cond {k k' : Nat} (hk : k < k') {t : List Tok} {c : Expr} {ls : List (Nat × List Tok)} {ss : List Stmt} (hf : Flat t)
    (h : head t = some (.cond c)) (hb : Block k' ls ss) (hne : ss ≠ []) : Block k ((k, t) :: ls) [.cond c ss []] := by
  refine ⟨?_, by simp [Stmt.isElse], fun ls' r hr hfo => ?_⟩
  · intro x hx
    rcases List.mem_cons.1 hx with rfl | hx
    · exact hf
    · exact hb.flat x hx
  · show (match head t, blocks (ls ++ ls') with | some h, some r => block k h r | _, _ => none) = _
    rw [h, hb.reads _ _ hr (hfo.mono hk)]
    simp only [block, withElse, inner_take hk hfo, inner_drop hk hfo, body_map hne hb.noElse, Option.map_some]
    cases r with
    | nil => rfl
    | cons x r =>
      obtain ⟨n, s⟩ := x
      cases s with
      | orelse b =>
        have hx := hfo (n, .orelse b) (by simp)
        have : n ≠ k := fun e => by have := hx.2 e; simp [Stmt.isElse] at this
        simp [this]
      | _ => rfl

/-- The lines of an `else` or `elif`. -/
structure Else (k : Nat) (ls : List (Nat × List Tok)) (b : List Stmt) : Prop where
  flat : ∀ x ∈ ls, Flat x.2
  reads : ∀ ls' r, blocks ls' = some r → Follows k r → blocks (ls ++ ls') = some ((k, .orelse b) :: r)

theorem take_else {k k' : Nat} (hk : k < k') {ss b : List Stmt} {r : List (Nat × Stmt)} :
    ((ss.map (k', ·) : List (Nat × Stmt)) ++ (k, .orelse b) :: r).takeWhile (fun x => decide (k < x.1)) = ss.map (k', ·) := by
  rw [List.takeWhile_append_of_pos (by simp [hk])]
  simp

theorem drop_else {k k' : Nat} (hk : k < k') {ss b : List Stmt} {r : List (Nat × Stmt)} :
    ((ss.map (k', ·) : List (Nat × Stmt)) ++ (k, .orelse b) :: r).dropWhile (fun x => decide (k < x.1)) = (k, .orelse b) :: r := by
  rw [List.dropWhile_append_of_pos (by simp [hk])]
  simp

theorem Follows.orelse {k k' : Nat} (hk : k < k') {b : List Stmt} {r : List (Nat × Stmt)} : Follows k' ((k, .orelse b) :: r) := by
  intro x hx
  simp at hx
  subst hx
  exact ⟨by simp; omega, fun e => by simp at e; omega⟩

theorem withElse_follows {k : Nat} {c : Expr} {b : List Stmt} {r : List (Nat × Stmt)} (hfo : Follows k r) (f : Stmt → Stmt) :
    withElse k c b r f = (k, f (.cond c b [])) :: r := by
  unfold withElse
  cases r with
  | nil => rfl
  | cons x r =>
    obtain ⟨n, s⟩ := x
    cases s with
    | orelse b =>
      have hx := hfo (n, .orelse b) (by simp)
      have : n ≠ k := fun e => by have := hx.2 e; simp [Stmt.isElse] at this
      simp [this]
    | _ => rfl

theorem Else.orelse {k k' : Nat} (hk : k < k') {u : List Tok} {ls : List (Nat × List Tok)} {ss : List Stmt} (hf : Flat u)
    (hu : head u = some .orelse) (hb : Block k' ls ss) (hne : ss ≠ []) : Else k ((k, u) :: ls) ss := by
  refine ⟨?_, fun ls' r hr hfo => ?_⟩
  · intro x hx
    rcases List.mem_cons.1 hx with rfl | hx
    · exact hf
    · exact hb.flat x hx
  · show (match head u, blocks (ls ++ ls') with | some h, some r => block k h r | _, _ => none) = _
    rw [hu, hb.reads _ _ hr (hfo.mono hk)]
    simp only [block, inner_take hk hfo, inner_drop hk hfo, body_map hne hb.noElse, Option.map_some]

theorem Else.elif {k k' : Nat} (hk : k < k') {u : List Tok} {c : Expr} {ls : List (Nat × List Tok)} {ss : List Stmt} (hf : Flat u)
    (hu : head u = some (.elif c)) (hb : Block k' ls ss) (hne : ss ≠ []) : Else k ((k, u) :: ls) [.cond c ss []] := by
  refine ⟨?_, fun ls' r hr hfo => ?_⟩
  · intro x hx
    rcases List.mem_cons.1 hx with rfl | hx
    · exact hf
    · exact hb.flat x hx
  · show (match head u, blocks (ls ++ ls') with | some h, some r => block k h r | _, _ => none) = _
    rw [hu, hb.reads _ _ hr (hfo.mono hk)]
    simp only [block, inner_take hk hfo, inner_drop hk hfo, body_map hne hb.noElse, Option.map_some, withElse_follows hfo]

theorem Else.elifElse {k k' : Nat} (hk : k < k') {u : List Tok} {c : Expr} {ls ls2 : List (Nat × List Tok)} {ss b : List Stmt} (hf : Flat u)
    (hu : head u = some (.elif c)) (hb : Block k' ls ss) (hne : ss ≠ []) (he : Else k ls2 b) : Else k ((k, u) :: ls ++ ls2) [.cond c ss b] := by
  refine ⟨?_, fun ls' r hr hfo => ?_⟩
  · intro x hx
    rcases List.mem_append.1 hx with hx | hx
    · rcases List.mem_cons.1 hx with rfl | hx
      · exact hf
      · exact hb.flat x hx
    · exact he.flat x hx
  · rw [List.append_assoc]
    show (match head u, blocks (ls ++ (ls2 ++ ls')) with | some h, some r => block k h r | _, _ => none) = _
    rw [hu, hb.reads _ _ (he.reads _ _ hr hfo) (Follows.orelse hk)]
    simp only [block, withElse, take_else hk, drop_else hk, body_map hne hb.noElse, Option.map_some, if_true]

theorem Block.condThen {k k' : Nat} (hk : k < k') {t : List Tok} {c : Expr} {ls ls2 : List (Nat × List Tok)} {ss b : List Stmt} (hf : Flat t)
    (h : head t = some (.cond c)) (hb : Block k' ls ss) (hne : ss ≠ []) (he : Else k ls2 b) : Block k ((k, t) :: ls ++ ls2) [.cond c ss b] := by
  refine ⟨?_, by simp [Stmt.isElse], fun ls' r hr hfo => ?_⟩
  · intro x hx
    rcases List.mem_append.1 hx with hx | hx
    · rcases List.mem_cons.1 hx with rfl | hx
      · exact hf
      · exact hb.flat x hx
    · exact he.flat x hx
  · rw [List.append_assoc]
    show (match head t, blocks (ls ++ (ls2 ++ ls')) with | some h, some r => block k h r | _, _ => none) = _
    rw [h, hb.reads _ _ (he.reads _ _ hr hfo) (Follows.orelse hk)]
    simp only [block, withElse, take_else hk, drop_else hk, body_map hne hb.noElse, Option.map_some, if_true]
    rfl

theorem Block.condElse {k k' : Nat} (hk : k < k') {t u : List Tok} {c : Expr} {ls ls2 : List (Nat × List Tok)} {ss ss2 : List Stmt} (hf : Flat t) (hfu : Flat u)
    (h : head t = some (.cond c)) (hu : head u = some .orelse) (hb : Block k' ls ss) (hb2 : Block k' ls2 ss2) (hne : ss ≠ []) (hne2 : ss2 ≠ []) :
    Block k ((k, t) :: ls ++ (k, u) :: ls2) [.cond c ss ss2] := Block.condThen hk hf h hb hne (Else.orelse hk hfu hu hb2 hne2)

theorem Block.defn {k k' : Nat} (hk : k < k') {t : List Tok} {f : List Char} {ps : List (List Char)} {ls : List (Nat × List Tok)} {ss : List Stmt} (hf : Flat t)
    (h : head t = some (.defn f ps)) (hb : Block k' ls ss) (hne : ss ≠ []) : Block k ((k, t) :: ls) [.defn f ps ss] := by
  refine ⟨?_, by simp [Stmt.isElse], fun ls' r hr hfo => ?_⟩
  · intro x hx
    rcases List.mem_cons.1 hx with rfl | hx
    · exact hf
    · exact hb.flat x hx
  · show (match head t, blocks (ls ++ ls') with | some h, some r => block k h r | _, _ => none) = _
    rw [h, hb.reads _ _ hr (hfo.mono hk)]
    simp only [block, inner_take hk hfo, inner_drop hk hfo, body_map hne hb.noElse, Option.map_some]
    rfl

/-- The whole file. -/
theorem file_eq {text : List Char} {ls : List (Nat × List Tok)} {ss : List Stmt} (h : Lex ⟨0, .start 0⟩ (text ++ ['\n']) (flat ls) ⟨0, .start 0⟩)
    (hb : Block 0 ls ss) : file text = some ss := by
  unfold file tokens
  rw [show run ⟨0, .start 0⟩ (text ++ ['\n']) = (flat ls, ⟨0, .start 0⟩) from h]
  simp only
  rw [lines_flat ls hb.flat]
  simp only
  have := hb.reads [] [] rfl (by intro x hx; simp at hx)
  rw [List.append_nil] at this
  rw [this]
  simp only [List.append_nil, Option.bind_some]
  by_cases hne : ss = []
  · simp [hne]
  · rw [if_neg (by simpa using hne), if_pos (by simp), body_map hne hb.noElse]

end TF.Spec.Source
