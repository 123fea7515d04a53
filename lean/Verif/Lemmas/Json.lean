import Verif.Model.TruncText
import Verif.Props.Truncations

/-!
# Reading back the text of a dictionary
-/

namespace TF.Trunc

open TF.Spec TF.Spec.Json

/-! ## Tokens -/

/-- reading `text` in mode `m` gives the tokens `t` and leaves mode `m'` -/
def Reads (m : Mode) (text : List Char) (t : List Tok) (m' : Mode) : Prop := ∀ rest, lex m (text ++ rest) = (lex m' rest).map (t ++ ·)

theorem Reads.nil (m : Mode) : Reads m [] [] m := fun rest => by simp

theorem Reads.append {m m' m'' : Mode} {a b : List Char} {t u : List Tok} (h : Reads m a t m') (h' : Reads m' b u m'') : Reads m (a ++ b) (t ++ u) m'' := by
  intro rest
  rw [List.append_assoc, h, h', Option.map_map]
  congr 1
  funext x
  simp

theorem lex_cons (m : Mode) (c : Char) (l : List Char) : lex m (c :: l) =
    match step m c with
    | none => none
    | some (t, m') => (lex m' l).map (t ++ ·) := by
  cases m <;> rfl

theorem Reads.char {m m' : Mode} {c : Char} {t : List Tok} (h : step m c = some (t, m')) : Reads m [c] t m' := by
  intro rest
  rw [List.singleton_append, lex_cons, h]

theorem reads_spaces {s : List Char} (h : ∀ c ∈ s, isSpace c = true) : Reads .idle s [] .idle := by
  induction s with
  | nil => exact Reads.nil _
  | cons c s ih =>
    have h1 : step .idle c = some ([], .idle) := by
      rw [step, start, if_pos (h c (by simp))]
    exact (Reads.char h1).append (ih fun x hx => h x (by simp [hx]))

theorem reads_plain {s acc : List Char} (h : ∀ c ∈ s, isPlain c = true) : Reads (.str acc) s [] (.str (acc ++ s)) := by
  induction s generalizing acc with
  | nil => rw [List.append_nil]; exact Reads.nil _
  | cons c s ih =>
    have hc := h c (by simp)
    have h1 : step (.str acc) c = some ([], .str (acc ++ [c])) := by
      rw [step, if_neg (by rintro rfl; simp [isPlain] at hc), if_pos hc]
    have := (Reads.char h1).append (ih (acc := acc ++ [c]) fun x hx => h x (by simp [hx]))
    simpa using this

theorem reads_string {s : List Char} (h : ∀ c ∈ s, isPlain c = true) : Reads .idle ('"' :: s ++ ['"']) [.str s] .idle := by
  have h1 : step .idle '"' = some ([], .str []) := by decide
  have h2 : step (.str s) '"' = some ([.str s], .idle) := by
    rw [step, if_pos rfl]
  have := ((Reads.char h1).append (reads_plain (acc := []) h)).append (Reads.char h2)
  simpa using this

theorem reads_letters {s acc : List Char} (h : ∀ c ∈ s, isWord c = true) : Reads (.word acc) s [] (.word (acc ++ s)) := by
  induction s generalizing acc with
  | nil => rw [List.append_nil]; exact Reads.nil _
  | cons c s ih =>
    have hc := h c (by simp)
    have h1 : step (.word acc) c = some ([], .word (acc ++ [c])) := by
      rw [step, if_pos hc]
    have := (Reads.char h1).append (ih (acc := acc ++ [c]) fun x hx => h x (by simp [hx]))
    simpa using this

theorem start_word {c : Char} (h : isWord c = true) : start c = some ([], .word [c]) := by
  have e : ∀ x : Char, isWord x = false → c ≠ x := by
    rintro x hx rfl
    rw [h] at hx
    cases hx
  unfold start
  have hs : isSpace c = false := by
    unfold isSpace
    simp [e ' ' (by decide), e '\n' (by decide), e '\t' (by decide), e '\r' (by decide)]
  rw [if_neg (by simp [hs]), if_neg (e _ (by decide)), if_neg (e _ (by decide)), if_neg (e _ (by decide)), if_neg (e _ (by decide)), if_neg (e _ (by decide)), if_pos h]

theorem reads_word {s : List Char} (hne : s ≠ []) (h : ∀ c ∈ s, isWord c = true) : Reads .idle s [] (.word s) := by
  cases s with
  | nil => exact absurd rfl hne
  | cons c s =>
    have := (Reads.char (m := .idle) (start_word (h c (by simp)))).append (reads_letters (s := s) (acc := [c]) fun x hx => h x (by simp [hx]))
    simpa using this

/-- the end of a word: spaces and then a comma or a brace -/
theorem reads_after {w s : List Char} {c : Char} {t : Tok} (h : ∀ c ∈ s, isSpace c = true) (hc : isWord c = false) (ht : start c = some ([t], .idle)) :
    Reads (.word w) (s ++ [c]) [.word w, t] .idle := by
  cases s with
  | nil =>
    refine Reads.char ?_
    rw [step, if_neg (by simp [hc]), ht]
    rfl
  | cons a s =>
    have ha := h a (by simp)
    have hw : isWord a = false := by
      unfold isSpace at ha
      simp only [Bool.or_eq_true, beq_iff_eq] at ha
      rcases ha with ((rfl | rfl) | rfl) | rfl <;> decide
    have h1 : step (.word w) a = some ([.word w], .idle) := by
      rw [step, if_neg (by simp [hw])]
      unfold start
      rw [if_pos ha]
      rfl
    have := ((Reads.char h1).append (reads_spaces (s := s) fun x hx => h x (by simp [hx]))).append (Reads.char (m := .idle) (c := c) ht)
    simpa using this

/-! ## Values -/

theorem toString_int (i : Int) : ∃ n : Nat, (i = n ∧ (toString i).toList = Nat.toDigits 10 n) ∨ (i = -n ∧ (toString i).toList = '-' :: Nat.toDigits 10 n) := by
  cases i with
  | ofNat n =>
    refine ⟨n, .inl ⟨rfl, ?_⟩⟩
    show (toString n).toList = _
    rw [Nat.toString_eq_ofList_toDigits, String.toList_ofList]
  | negSucc n =>
    refine ⟨n + 1, .inr ⟨rfl, ?_⟩⟩
    show ("-" ++ toString (n + 1)).toList = _
    rw [String.toList_append, Nat.toString_eq_ofList_toDigits, String.toList_ofList (l := Nat.toDigits 10 (n + 1))]
    rfl

theorem head_toDigits_pos (n : Nat) : 0 < n → (Nat.toDigits 10 n).head? ≠ some '0' := by
  induction n using Nat.strongRecOn with
  | _ n ih =>
    intro hn
    by_cases h10 : n < 10
    · rw [Nat.toDigits_of_lt_base h10]
      have : ∀ n < 10, 0 < n → [n.digitChar].head? ≠ some '0' := by decide
      exact this n h10 hn
    · rw [Nat.toDigits_of_base_le (by decide) (by omega)]
      have h := ih (n / 10) (by omega) (by omega)
      have hne : Nat.toDigits 10 (n / 10) ≠ [] := Nat.toDigits_ne_nil
      cases hd : Nat.toDigits 10 (n / 10) with
      | nil => exact absurd hd hne
      | cons c l =>
        rw [hd] at h
        simpa using h

theorem head_toDigits (n : Nat) (h : (Nat.toDigits 10 n).head? = some '0') : Nat.toDigits 10 n = ['0'] := by
  rcases Nat.eq_zero_or_pos n with rfl | hn
  · exact Nat.toDigits_zero 10
  · exact absurd h (head_toDigits_pos n hn)

theorem natural_toDigits (n : Nat) : natural (Nat.toDigits 10 n) = some n := by
  have h : (Nat.toDigits 10 n).all Char.isDigit = true := List.all_eq_true.2 fun c hc => Nat.isDigit_of_mem_toDigits (b := 10) (by decide) (by decide) hc
  unfold natural
  rw [if_pos ⟨Nat.toDigits_ne_nil, h, head_toDigits n⟩, Nat.ofDigitChars_ten_toDigits]

theorem digit_word {c : Char} (h : c.isDigit = true) : isWord c = true := by
  unfold isWord Char.isAlphanum
  simp [h]

theorem integer_toString (i : Int) : integer (toString i).toList = some i := by
  obtain ⟨n, ⟨rfl, h⟩ | ⟨rfl, h⟩⟩ := toString_int i
  · rw [h]
    unfold integer
    split
    · next l e =>
      have : '-' ∈ Nat.toDigits 10 n := by rw [e]; simp
      have := Nat.isDigit_of_mem_toDigits (b := 10) (by decide) (by decide) this
      exact absurd this (by decide)
    · rw [natural_toDigits]
      rfl
  · rw [h]
    simp only [integer, natural_toDigits, Option.map_some]
    rfl

theorem word_toString (i : Int) : (toString i).toList ≠ [] ∧ ∀ c ∈ (toString i).toList, isWord c = true ∧ (c = '-' ∨ c.isDigit = true) := by
  have hd : ∀ n : Nat, ∀ c ∈ Nat.toDigits 10 n, c.isDigit = true := fun n c hc => Nat.isDigit_of_mem_toDigits (b := 10) (by decide) (by decide) hc
  obtain ⟨n, ⟨rfl, h⟩ | ⟨rfl, h⟩⟩ := toString_int i
  · rw [h]
    exact ⟨Nat.toDigits_ne_nil, fun c hc => ⟨digit_word (hd n c hc), .inr (hd n c hc)⟩⟩
  · rw [h]
    refine ⟨by simp, fun c hc => ?_⟩
    rcases List.mem_cons.1 hc with rfl | hc
    · exact ⟨by decide, .inl rfl⟩
    · exact ⟨digit_word (hd n c hc), .inr (hd n c hc)⟩

/-- the text of a value is one word, with this value -/
theorem valueText_word {v : JVal} {t : List Char} (h : valueText v = some t) : t ≠ [] ∧ (∀ c ∈ t, isWord c = true) ∧ value (.word t) = some v := by
  cases v with
  | int i =>
    cases h
    obtain ⟨h1, h2⟩ := word_toString i
    refine ⟨h1, fun c hc => (h2 c hc).1, ?_⟩
    have hne : ∀ (a : Char) (l : List Char), a ≠ '-' → a.isDigit = false → (toString i).toList ≠ a :: l := by
      intro a l ha hb e
      rcases (h2 a (by rw [e]; simp)).2 with h | h
      · exact ha h
      · rw [hb] at h
        cases h
    rw [value, if_neg (show (toString i).toList ≠ "true".toList from hne 't' _ (by decide) (by decide)), if_neg (show (toString i).toList ≠ "false".toList from hne 'f' _ (by decide) (by decide)), if_neg (show (toString i).toList ≠ "null".toList from hne 'n' _ (by decide) (by decide)), integer_toString]
    rfl
  | bool b =>
    cases h
    cases b <;> decide
  | float q => cases h
  | other => cases h

/-- the text of a key is one string -/
theorem keyText_string {s : String} {t : List Char} (h : keyText (.str s) = some t) : Reads .idle t [.str s.toList] .idle := by
  unfold keyText at h
  simp only at h
  split_ifs at h with hp
  cases h
  rw [List.all_eq_true] at hp
  refine reads_string fun c hc => ?_
  have := hp c hc
  simp only [Bool.and_eq_true] at this
  exact this.1

/-! ## Objects -/

/-- the texts of the entries -/
def Texts (es : List (String × JVal)) (ps : List (List Char × List Char)) : Prop :=
  List.Forall₂ (fun e p => keyText (.str e.1) = some p.1 ∧ valueText e.2 = some p.2) es ps

theorem spaced_cons {p : List Char} {ps : List (List Char)} {text : List Char} (h : Spaced (p :: ps) text) :
    ∃ s rest, (∀ c ∈ s, isSpace c = true) ∧ Spaced ps rest ∧ text = s ++ p ++ rest := by
  cases h with
  | cons h1 h2 => exact ⟨_, _, h1, h2, rfl⟩

theorem spaced_nil {text : List Char} (h : Spaced [] text) : ∀ c ∈ text, isSpace c = true := by
  cases h with
  | nil h => exact h

theorem lex_spaces {s : List Char} (h : ∀ c ∈ s, isSpace c = true) : lex .idle s = some [] := by
  have := reads_spaces h []
  rw [List.append_nil] at this
  rw [this]
  rfl

/-- one entry and what follows it -/
theorem reads_entry {k : String} {v : JVal} {p q s1 s2 s3 s4 : List Char} {c : Char} {t : Tok} (hk : keyText (.str k) = some p) (hv : valueText v = some q)
    (h1 : ∀ c ∈ s1, isSpace c = true) (h2 : ∀ c ∈ s2, isSpace c = true) (h3 : ∀ c ∈ s3, isSpace c = true) (h4 : ∀ c ∈ s4, isSpace c = true)
    (hc : isWord c = false) (ht : start c = some ([t], .idle)) :
    Reads .idle (s1 ++ p ++ (s2 ++ [':'] ++ (s3 ++ q ++ (s4 ++ [c])))) [.str k.toList, .colon, .word q, t] .idle := by
  obtain ⟨v1, v2, _⟩ := valueText_word hv
  have hcol : step .idle ':' = some ([.colon], .idle) := by decide
  exact ((reads_spaces h1).append (keyText_string hk)).append (((reads_spaces h2).append (Reads.char hcol)).append (((reads_spaces h3).append (reads_word v1 v2)).append (reads_after h4 hc ht)))

theorem members_spaced : ∀ {es : List (String × JVal)} {ps : List (List Char × List Char)} {text : List Char}, es ≠ [] → Texts es ps → Spaced (pieces ps) text →
    ∃ ts, lex .idle text = some ts ∧ members ts = some es ∧ ts ≠ [.right]
  | [], _, _, hne, _, _ => absurd rfl hne
  | [(k, v)], ps, text, _, hps, hs => by
    obtain ⟨⟨p, q⟩, ps, ⟨hk, hv⟩, hn, rfl⟩ := List.forall₂_cons_left_iff.1 hps
    obtain rfl := List.forall₂_nil_left_iff.1 hn
    rw [pieces] at hs
    obtain ⟨s1, r1, h1, hs1, rfl⟩ := spaced_cons hs
    obtain ⟨s2, r2, h2, hs2, rfl⟩ := spaced_cons hs1
    obtain ⟨s3, r3, h3, hs3, rfl⟩ := spaced_cons hs2
    obtain ⟨s4, r4, h4, hs4, rfl⟩ := spaced_cons hs3
    have he := reads_entry (c := '}') (t := .right) hk hv h1 h2 h3 h4 (by decide) (by decide) r4
    have hq := (valueText_word hv).2.2
    refine ⟨[.str k.toList, .colon, .word q, .right], ?_, ?_, by simp⟩
    · rw [lex_spaces (spaced_nil hs4)] at he
      simpa [List.append_assoc] using he
    · rw [members, hq]
      simp
  | (k, v) :: (k', v') :: es, ps, text, _, hps, hs => by
    obtain ⟨⟨p, q⟩, ps, ⟨hk, hv⟩, hn, rfl⟩ := List.forall₂_cons_left_iff.1 hps
    obtain ⟨⟨p', q'⟩, ps', _, _, rfl⟩ := List.forall₂_cons_left_iff.1 hn
    rw [pieces] at hs
    · obtain ⟨s1, r1, h1, hs1, rfl⟩ := spaced_cons hs
      obtain ⟨s2, r2, h2, hs2, rfl⟩ := spaced_cons hs1
      obtain ⟨s3, r3, h3, hs3, rfl⟩ := spaced_cons hs2
      obtain ⟨s4, r4, h4, hs4, rfl⟩ := spaced_cons hs3
      have he := reads_entry (c := ',') (t := .comma) hk hv h1 h2 h3 h4 (by decide) (by decide) r4
      have hq := (valueText_word hv).2.2
      obtain ⟨ts, e1, e2, _⟩ := members_spaced (es := (k', v') :: es) (by simp) hn hs4
      refine ⟨.str k.toList :: .colon :: .word q :: .comma :: ts, ?_, ?_, by simp⟩
      · rw [e1] at he
        simpa [List.append_assoc] using he
      · rw [members, hq, e2]
        simp
    · simp

/-- the entries of a text with any white space -/
theorem object_spaced {es : List (String × JVal)} {ps : List (List Char × List Char)} {text : List Char} (hps : Texts es ps) (hs : Spaced (['{'] :: pieces ps) text) :
    object text = some es := by
  obtain ⟨s, r, h, hs0, rfl⟩ := spaced_cons hs
  have hl : step .idle '{' = some ([.left], .idle) := by decide
  have he := (reads_spaces h).append (Reads.char hl) r
  unfold object
  rw [he]
  cases es with
  | nil =>
    obtain rfl := List.forall₂_nil_left_iff.1 hps
    rw [pieces] at hs0
    obtain ⟨s', r', h', hs1, rfl⟩ := spaced_cons hs0
    have hr : step .idle '}' = some ([.right], .idle) := by decide
    have he' := (reads_spaces h').append (Reads.char hr) r'
    rw [lex_spaces (spaced_nil hs1)] at he'
    rw [he']
    rfl
  | cons e es =>
    obtain ⟨ts, e1, e2, e3⟩ := members_spaced (by simp) hps hs0
    rw [e1]
    simp only [Option.map_some, List.nil_append, List.cons_append]
    exact e2

/-! ## Dictionaries -/

def strKey (e : String × JVal) : PyKey × JVal := (.str e.1, e.2)

theorem loads_distinct {text : List Char} {es : List (String × JVal)} (h : object text = some es) (hd : (es.map Prod.fst).Nodup) : loads text = some (es.map strKey) := by
  unfold loads
  rw [h, Option.map_some]
  have key : ∀ (es done : List (String × JVal)), ((done ++ es).map Prod.fst).Nodup →
      es.foldl (fun d e => Dict.set d (.str e.1) e.2) (done.map strKey) = (done ++ es).map strKey := by
    intro es
    induction es with
    | nil => simp
    | cons e es ih =>
      intro done hn
      rw [List.foldl_cons, set_of_not_mem]
      · have := ih (done ++ [e]) (by simpa using hn)
        simpa [strKey] using this
      · simp only [List.map_map, List.mem_map, Function.comp_apply, strKey, not_exists, not_and]
        intro x hx e'
        rw [List.map_append, List.nodup_append] at hn
        exact hn.2.2 x.1 (List.mem_map_of_mem hx) e.1 (by simp) (by simpa using e')
  have := key es [] (by simpa using hd)
  simpa using this

end TF.Trunc
