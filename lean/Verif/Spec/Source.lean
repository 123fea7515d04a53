import Mathlib.Data.List.Basic

/-!
# Reading Python source

The fragment of Python used by the generated modules: tokens, logical lines with their indentation, expressions,
statements.  (The rules are those of the Python language reference, chapters 2, 6, 7 and 8, without the parts the modules do not use.)
-/

namespace TF.Spec.Source

/-! ## Tokens -/

inductive Tok
  /-- beginning of a logical line with its indentation -/
  | line (k : Nat)
  /-- a name, a keyword or a number -/
  | word (w : List Char)
  | str (s : List Char)
  /-- a string with the prefix `f` -/
  | fstr (s : List Char)
  /-- a string in triple quotes; its text is not kept -/
  | doc
  | sym (c : Char)
  deriving DecidableEq, Repr

/-- What has been read of the current token. -/
inductive LexMode
  /-- only `k` spaces of the line -/
  | start (k : Nat)
  | plain
  | word (w : List Char)
  /-- a string that began with `q` -/
  | quote (q : Char) (s : List Char)
  /-- the same with the prefix `f` -/
  | fquote (q : Char) (s : List Char)
  | comment
  /-- one or two double quotes -/
  | quotes (n : Nat)
  /-- a string in triple quotes that ends with `n` double quotes so far -/
  | doc (n : Nat)
  /-- a backslash outside of strings -/
  | backslash
  /-- after a backslash at the end of a line -/
  | joined
  deriving DecidableEq, Repr

/-- `depth` is the number of open brackets; inside brackets the end of a line means nothing. -/
structure St where
  depth : Nat
  mode : LexMode
  deriving DecidableEq, Repr

def isWord (c : Char) : Bool := c.isAlphanum || c == '_'

/-- A character where a token begins. -/
def begins (d : Nat) (c : Char) : List Tok × St :=
  if c = ' ' then ([], ⟨d, .plain⟩)
  else if c = '\n' then ([], ⟨d, if d = 0 then .start 0 else .plain⟩)
  else if c = '#' then ([], ⟨d, .comment⟩)
  else if c = '\'' then ([], ⟨d, .quote '\'' []⟩)
  else if c = '"' then ([], ⟨d, .quotes 1⟩)
  else if isWord c then ([], ⟨d, .word [c]⟩)
  else if c = '(' ∨ c = '[' ∨ c = '{' then ([.sym c], ⟨d + 1, .plain⟩)
  else if c = ')' ∨ c = ']' ∨ c = '}' then ([.sym c], ⟨d - 1, .plain⟩)
  else if c = '\\' then ([], ⟨d, .backslash⟩)
  else ([.sym c], ⟨d, .plain⟩)

/-- One character.  (Strings have no escaped quotes, and their other escape sequences are kept as they are written.  A line that ends with a backslash
continues on the next line that is not empty.  A string that does not end on its line is an error: the end of the line becomes a symbol that
no expression contains.) -/
def step (s : St) (c : Char) : List Tok × St :=
  match s.mode with
  | .start k =>
    if c = ' ' then ([], ⟨s.depth, .start (k + 1)⟩)
    else if c = '\n' ∨ c = '#' then begins s.depth c
    else (.line k :: (begins s.depth c).1, (begins s.depth c).2)
  | .plain => begins s.depth c
  | .word w =>
    if isWord c || (c == '.' && w.all Char.isDigit) then ([], ⟨s.depth, .word (w ++ [c])⟩)
    else if c = '\'' ∨ c = '"' then
      if w = ['f'] then ([], ⟨s.depth, .fquote c []⟩) else (.word w :: (begins s.depth c).1, (begins s.depth c).2)
    else (.word w :: (begins s.depth c).1, (begins s.depth c).2)
  | .quote q t =>
    if c = '\n' then (.sym c :: (begins s.depth c).1, (begins s.depth c).2)
    else if c = q then ([.str t], ⟨s.depth, .plain⟩)
    else ([], ⟨s.depth, .quote q (t ++ [c])⟩)
  | .fquote q t =>
    if c = '\n' then (.sym c :: (begins s.depth c).1, (begins s.depth c).2)
    else if c = q then ([.fstr t], ⟨s.depth, .plain⟩)
    else ([], ⟨s.depth, .fquote q (t ++ [c])⟩)
  | .comment => if c = '\n' then begins s.depth c else ([], s)
  | .quotes n =>
    if c = '"' then ([], ⟨s.depth, if n = 1 then .quotes 2 else .doc 0⟩)
    else if n = 1 then if c = '\n' then (.sym c :: (begins s.depth c).1, (begins s.depth c).2) else ([], ⟨s.depth, .quote '"' [c]⟩)
    else (.str [] :: (begins s.depth c).1, (begins s.depth c).2)
  | .doc n =>
    if c = '"' then if n = 2 then ([.doc], ⟨s.depth, .plain⟩) else ([], ⟨s.depth, .doc (n + 1)⟩)
    else ([], ⟨s.depth, .doc 0⟩)
  | .backslash => if c = '\n' then ([], ⟨s.depth, .joined⟩) else (.sym '\\' :: (begins s.depth c).1, (begins s.depth c).2)
  | .joined => if c = '\n' ∨ c = ' ' then ([], s) else begins s.depth c

def run : St → List Char → List Tok × St
  | s, [] => ([], s)
  | s, c :: cs => ((step s c).1 ++ (run (step s c).2 cs).1, (run (step s c).2 cs).2)

/-- The tokens of a text. -/
def tokens (text : List Char) : List Tok := (run ⟨0, .start 0⟩ (text ++ ['\n'])).1

/-- The logical lines: indentation and tokens. -/
def lines : List Tok → List Tok × List (Nat × List Tok)
  | [] => ([], [])
  | .line k :: l => ([], (k, (lines l).1) :: (lines l).2)
  | t :: l => (t :: (lines l).1, (lines l).2)

/-! ## Expressions -/

inductive Expr
  /-- a name or a number -/
  | word (w : List Char)
  | str (s : List Char)
  /-- a string with replacement fields -/
  | fmt (s : List Char)
  /-- `e.w` -/
  | attr (e : Expr) (w : List Char)
  | call (f : Expr) (args : List Expr)
  | index (e : Expr) (args : List Expr)
  | tuple (l : List Expr)
  | list (l : List Expr)
  /-- `true` marks the subtracted ones -/
  | sum (l : List (Bool × Expr))
  /-- `true` marks the divisors -/
  | prod (l : List (Bool × Expr))
  /-- `w=e` among the arguments of a call -/
  | kw (w : List Char) (e : Expr)
  /-- `{k1: v1, k2: v2, ..}` as `k1, v1, k2, v2, ..` -/
  | dict (l : List Expr)
  /-- `not e` -/
  | not (e : Expr)
  /-- `e is not None` -/
  | notNone (e : Expr)
  deriving Repr

/-- The bracket that is open. -/
inductive Opened
  | top
  | group
  | list
  | call (f : Expr)
  | index (e : Expr)
  | dict

/-- the bracket that closes it -/
def Opened.closer : Opened → Char
  | .top => '\n'
  | .group => ')'
  | .list => ']'
  | .call _ => ')'
  | .index _ => ']'
  | .dict => '}'

def Opened.isDict : Opened → Bool
  | .dict => true
  | _ => false

/-- What has been read since a bracket was opened: the items before the last comma, then a sum of products. -/
structure Frame where
  opened : Opened
  items : List Expr := []
  kw : Option (List Char) := none
  sum : List (Bool × Expr) := []
  minus : Bool := false
  prod : List (Bool × Expr) := []
  div : Bool := false
  atom : Option Expr := none
  dot : Bool := false

def one (f : List (Bool × Expr) → Expr) : List (Bool × Expr) → Expr
  | [(false, e)] => e
  | l => f l

/-- the end of a factor -/
def Frame.endFactor (f : Frame) : Option Frame :=
  match f.atom with
  | some a => if f.dot then none else some { f with prod := f.prod ++ [(f.div, a)], div := false, atom := none }
  | none => none

/-- the end of a summand -/
def Frame.endTerm (f : Frame) : Option Frame :=
  f.endFactor.map fun f => { f with sum := f.sum ++ [(f.minus, one .prod f.prod)], minus := false, prod := [] }

/-- the end of an item -/
def Frame.endItem (f : Frame) : Option Frame :=
  f.endTerm.map fun f => { f with
    items := f.items ++ [match f.kw with | none => one .sum f.sum | some w => .kw w (one .sum f.sum)], sum := [], kw := none }

/-- nothing follows the last comma -/
def Frame.fresh (f : Frame) : Bool := f.atom.isNone && f.prod.isEmpty && f.sum.isEmpty && f.kw.isNone

/-- what a closed bracket means -/
def Frame.close (f : Frame) : Option Expr :=
  match f.opened with
  | .top => none
  | .group =>
    if f.fresh then some (.tuple f.items)
    else f.endItem.map fun f => match f.items with | [e] => e | l => .tuple l
  | .list => if f.fresh then some (.list f.items) else f.endItem.map fun f => .list f.items
  | .call g => if f.fresh then some (.call g f.items) else f.endItem.map fun f => .call g f.items
  | .index e => if f.fresh then none else f.endItem.map fun f => .index e f.items
  | .dict =>
    if f.fresh then if f.items.length % 2 = 0 then some (.dict f.items) else none
    else f.endItem.bind fun f => if f.items.length % 2 = 0 then some (.dict f.items) else none

/-- After a comma in braces there are as many keys as values. -/
def Frame.comma (f : Frame) : Option Frame :=
  f.endItem.bind fun f => if f.opened.isDict then if f.items.length % 2 = 0 then some f else none else some f

/-- A colon after a key. -/
def Frame.colon (f : Frame) : Option Frame :=
  if f.opened.isDict then f.endItem.bind fun f => if f.items.length % 2 = 1 then some f else none else none

/-- One token of an expression. -/
def read (s : Frame × List Frame) (t : Tok) : Option (Frame × List Frame) :=
  let f := s.1
  match t with
  | .word w =>
    match f.atom with
    | none => some ({ f with atom := some (.word w) }, s.2)
    | some a => if f.dot then some ({ f with atom := some (.attr a w), dot := false }, s.2) else none
  | .str t =>
    match f.atom with
    | none => some ({ f with atom := some (.str t) }, s.2)
    | some (.str t') => some ({ f with atom := some (.str (t' ++ t)) }, s.2)
    | some (.fmt t') => some ({ f with atom := some (.fmt (t' ++ t)) }, s.2)
    | some _ => none
  | .fstr t =>
    match f.atom with
    | none => some ({ f with atom := some (.fmt t) }, s.2)
    | some (.str t') => some ({ f with atom := some (.fmt (t' ++ t)) }, s.2)
    | some (.fmt t') => some ({ f with atom := some (.fmt (t' ++ t)) }, s.2)
    | some _ => none
  | .sym c =>
    if c = '.' then if f.atom.isSome && !f.dot then some ({ f with dot := true }, s.2) else none
    else if c = '(' then
      match f.atom with
      | none => some ({ opened := .group }, f :: s.2)
      | some a => if f.dot then none else some ({ opened := .call a }, f :: s.2)
    else if c = '[' then
      match f.atom with
      | none => some ({ opened := .list }, f :: s.2)
      | some a => if f.dot then none else some ({ opened := .index a }, f :: s.2)
    else if c = '{' then
      match f.atom with
      | none => some ({ opened := .dict }, f :: s.2)
      | some _ => none
    else if c = ')' ∨ c = ']' ∨ c = '}' then
      match s.2 with
      | [] => none
      | g :: st => if f.opened.closer = c then f.close.map fun e => ({ g with atom := some e }, st) else none
    else if c = '*' ∨ c = '/' then f.endFactor.map fun f => ({ f with div := c == '/' }, s.2)
    else if c = '+' ∨ c = '-' then f.endTerm.map fun f => ({ f with minus := c == '-' }, s.2)
    else if c = ',' then f.comma.map fun f => (f, s.2)
    else if c = ':' then f.colon.map fun f => (f, s.2)
    else if c = '=' then
      match f.atom with
      | some (.word w) => if f.prod.isEmpty && f.sum.isEmpty && f.kw.isNone then some ({ f with kw := some w, atom := none }, s.2) else none
      | _ => none
    else none
  | _ => none

/-- `a, b, ..` or a single expression -/
def expr (l : List Tok) : Option Expr :=
  match l.foldlM read (({ opened := .top } : Frame), []) with
  | some (f, []) => f.endItem.bind fun f =>
    match f.items with
    | [.kw _ _] => none
    | [e] => some e
    | l => some (.tuple l)
  | _ => none

/-- `e`, `not e` or `e is not None` -/
def condition (l : List Tok) : Option Expr :=
  match expr l with
  | some e => some e
  | none =>
    if l.take 1 = [.word "not".toList] then (expr (l.drop 1)).map .not
    else if l.drop (l.length - 3) = [.word "is".toList, .word "not".toList, .word "None".toList] then (expr (l.take (l.length - 3))).map .notNone
    else none

/-! ## Statements -/

inductive Stmt
  | pass
  | doc
  /-- `import ..` or `from .. import ..` -/
  | imp (l : List Tok)
  | expr (e : Expr)
  /-- `x, y = e` -/
  | assign (targets : List (List Char)) (e : Expr)
  /-- `x += e` -/
  | add (target : List Char) (e : Expr)
  /-- `x -= e` -/
  | sub (target : List Char) (e : Expr)
  /-- `x, y, *z = e` -/
  | unpack (targets : List (List Char)) (rest : List Char) (e : Expr)
  /-- `e[i] = v` -/
  | setItem (e : Expr) (args : List Expr) (v : Expr)
  /-- `assert c, message` -/
  | assert (c message : Expr)
  | ret (e : Option Expr)
  | raise (e : Expr)
  | cond (c : Expr) (body orelse : List Stmt)
  /-- an `else` that has not yet met its `if` -/
  | orelse (body : List Stmt)
  /-- a definition: name, parameters -/
  | defn (name : List Char) (params : List (List Char)) (body : List Stmt)

/-- The first lines of compound statements, and the simple statements. -/
inductive Head
  | cond (c : Expr)
  | orelse
  | elif (c : Expr)
  | defn (name : List Char) (params : List (List Char))
  | simple (s : Stmt)

/-- names separated by commas -/
def names : List Tok → Option (List (List Char))
  | [.word w] => some [w]
  | .word w :: .sym c :: l => if c = ',' then (names l).map (w :: ·) else none
  | _ => none

/-- `x, y, *z` -/
def starred : List Tok → Option (List (List Char) × List Char)
  | [.sym c, .word w] => if c = '*' then some ([], w) else none
  | .word w :: .sym c :: l => if c = ',' then (starred l).map fun x => (w :: x.1, x.2) else none
  | _ => none

/-- the text of a word -/
def isWordTok (s : String) (t : Tok) : Bool := t == .word s.toList

/-- a line that ends with a colon -/
def colon (l : List Tok) : Option (List Tok) := if l.getLast? = some (.sym ':') then some l.dropLast else none

/-- an assignment or an expression -/
def plainHead (l : List Tok) : Option Head :=
  match l.takeWhile (· ≠ .sym '='), l.dropWhile (· ≠ .sym '=') with
  | [.word w, .sym '+'], _ :: r => (expr r).map fun e => .simple (.add w e)
  | [.word w, .sym '-'], _ :: r => (expr r).map fun e => .simple (.sub w e)
  | lhs, _ :: r =>
    match names lhs with
    | some ws => (expr r).map fun e => .simple (.assign ws e)
    | none =>
      match starred lhs with
      | some x => (expr r).map fun e => .simple (.unpack x.1 x.2 e)
      | none =>
        match expr lhs with
        | some (.index e args) => (expr r).map fun v => .simple (.setItem e args v)
        | _ => (expr l).map fun e => .simple (.expr e)
  | _, [] => (expr l).map fun e => .simple (.expr e)

/-- The first line of a statement. -/
def head (l : List Tok) : Option Head :=
  match l with
  | [] => none
  | t :: r =>
    if t = .doc then if r = [] then some (.simple .doc) else none
    else if isWordTok "import" t || isWordTok "from" t then some (.simple (.imp l))
    else if isWordTok "pass" t then if r = [] then some (.simple .pass) else none
    else if isWordTok "return" t then if r = [] then some (.simple (.ret none)) else (expr r).map fun e => .simple (.ret (some e))
    else if isWordTok "raise" t then (expr r).map fun e => .simple (.raise e)
    else if isWordTok "if" t then ((colon r).bind condition).map .cond
    else if isWordTok "elif" t then ((colon r).bind condition).map .elif
    else if isWordTok "assert" t then
      match condition (r.takeWhile (· ≠ .sym ',')), expr ((r.dropWhile (· ≠ .sym ',')).drop 1) with
      | some c, some m => some (.simple (.assert c m))
      | _, _ => none
    else if isWordTok "else" t then if r = [.sym ':'] then some .orelse else none
    else if isWordTok "def" t then
      match (colon r).bind expr with
      | some (.call (.word f) args) => (args.mapM fun (a : Expr) => match a with | .word w => some w | _ => none).map (.defn f)
      | _ => none
    else
      plainHead l

def Stmt.isElse : Stmt → Bool
  | .orelse _ => true
  | _ => false

/-- The lines below a head form its body: at least one, all with the same indentation, no `else` without `if`. -/
def body : List (Nat × Stmt) → Option (List Stmt)
  | [] => none
  | b :: bs => if (bs.all fun x => x.1 == b.1) && ((b :: bs).all fun x => !x.2.isElse) then some ((b :: bs).map Prod.snd) else none

/-- An `if` takes the `else` that follows it; `elif` is an `else` with an `if` in it. -/
def withElse (k : Nat) (c : Expr) (b : List Stmt) (rest : List (Nat × Stmt)) (f : Stmt → Stmt) : List (Nat × Stmt) :=
  match rest with
  | (k', .orelse b') :: rest' => if k' = k then (k, f (.cond c b b')) :: rest' else (k, f (.cond c b [])) :: rest
  | rest => (k, f (.cond c b [])) :: rest

/-- One more line before lines that have been read: the deeper ones that follow belong to it. -/
def block (k : Nat) (h : Head) (r : List (Nat × Stmt)) : Option (List (Nat × Stmt)) :=
  let inner := r.takeWhile fun x => k < x.1
  let rest := r.dropWhile fun x => k < x.1
  match h with
  | .simple s => if inner = [] then some ((k, s) :: rest) else none
  | .orelse => (body inner).map fun b => (k, .orelse b) :: rest
  | .defn f ps => (body inner).map fun b => (k, .defn f ps b) :: rest
  | .cond c => (body inner).map fun b => withElse k c b rest id
  | .elif c => (body inner).map fun b => withElse k c b rest fun s => .orelse [s]

/-- The statements of the lines, with their indentation. -/
def blocks : List (Nat × List Tok) → Option (List (Nat × Stmt))
  | [] => some []
  | l :: ls =>
    match head l.2, blocks ls with
    | some h, some r => block l.1 h r
    | _, _ => none

/-- The statements of a file. -/
def file (text : List Char) : Option (List Stmt) :=
  match lines (tokens text) with
  | ([], ls) => (blocks ls).bind fun r => if r = [] then some [] else if r.all (fun x => x.1 == 0) then body r else none
  | _ => none

end TF.Spec.Source
