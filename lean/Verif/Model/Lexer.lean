import Verif.Model.Token
/-
Model of `src/syntax/lexer.rs`, character by character, with byte positions.
-/
namespace Pemdas

/-- `Lexer` (lexer.rs:12-21). `chars` is what the char iterator has left. -/
structure Lexer where
  src : Text
  chars : Text
  curr : Option Token
  line : Nat
  col : Nat
  pos : Nat
  prevLoc : Loc
  deriving DecidableEq, Repr

namespace Lexer

/-- `curr_loc` (lexer.rs:48-54). -/
def currLoc (l : Lexer) : Loc := ⟨l.line, l.col, l.pos⟩

/-- `loc_span` (lexer.rs:56-61). -/
def locSpan (l : Lexer) : LocSpan := ⟨l.prevLoc, l.currLoc⟩

/-- `on_char` with a character (lexer.rs:86-88). -/
def onChar (l : Lexer) (c : Char) : Bool :=
  match l.chars with
  | d :: _ => d == c
  | [] => false

/-- `on_char` with a predicate (lexer.rs:86-88). -/
def onPred (l : Lexer) (p : Char → Bool) : Bool :=
  match l.chars with
  | d :: _ => p d
  | [] => false

/-- `current_char` (lexer.rs:82-84): NUL stands for end of input. -/
def currentChar (l : Lexer) : Char := l.chars.headD '\x00'

/-- Skip one `\r`, as done after a newline (lexer.rs:96-98): the skipped character is
*not* counted in `pos`. -/
def dropCR : Text → Text
  | '\r' :: cs => cs
  | cs => cs

/-- `bump_char` (lexer.rs:90-106); `none` is `Char::Eof`. -/
def bumpChar (l : Lexer) : Option Char × Lexer :=
  match l.chars with
  | [] => (none, l)
  | c :: cs =>
    if c = '\n' then
      (some c, { l with chars := dropCR cs, pos := l.pos + c.utf8Size,
                        col := 1, line := l.line + 1 })
    else
      (some c, { l with chars := cs, pos := l.pos + c.utf8Size, col := l.col + 1 })

/-- `bump_char` where the character is ignored. -/
def advance (l : Lexer) : Lexer := l.bumpChar.2

/-- Worker of `eat_while` (lexer.rs:121-127); the fuel is the number of characters left. -/
def eatWhileN (p : Char → Bool) : Nat → Lexer → Lexer
  | 0, l => l
  | n + 1, l =>
    match l.chars with
    | [] => l
    | c :: _ => if p c then eatWhileN p n l.advance else l

/-- `eat_while` (lexer.rs:121-127). The code returns the byte positions before and after;
callers here read them off the lexers. -/
def eatWhile (l : Lexer) (p : Char → Bool) : Lexer := eatWhileN p l.chars.length l

/-- `eat_whitespace` (lexer.rs:129-132). -/
def eatWhitespace (l : Lexer) : Lexer :=
  let l := l.eatWhile isWhitespace
  { l with prevLoc := l.currLoc }

/-- `eat_with_trailing` (lexer.rs:179-183). -/
def eatWithTrailing (l : Lexer) (p : Char → Bool) : Lexer := (l.eatWhile p).eatWhile isTrailing

/-- `Lexer::new` (lexer.rs:26-38). -/
def new (src : Text) : Lexer :=
  eatWhitespace
    { src := src, chars := src, curr := none, line := 1, col := 1, pos := 0,
      prevLoc := Loc.default }

/-- Result of lexing: a token and the new state, or a panic. -/
abbrev Res := Except Panic (Token × Lexer)

/-- `&self.src[start..end]`. -/
def slice (l : Lexer) (a b : Nat) : Except Panic Text := byteSlice! l.src a b

/-! ### numbers -/

/-- `usize::MAX + 1` on a 64-bit target. -/
def usizeBound : Nat := 2 ^ 64

/-- The digit loop of `usize::from_str` (std): first failing digit decides the error;
overflow of the multiplication is only reported after the digit itself was valid. -/
def parseUsizeLoop : Text → Nat → Except IntError Nat
  | [], acc => .ok acc
  | c :: cs, acc =>
    if isDigit10 c then
      let v := acc * 10 + (c.toNat - 48)
      if v < usizeBound then parseUsizeLoop cs v else .error .posOverflow
    else .error .invalidDigit

/-- `str::parse::<usize>` (std), with the error mapping of token.rs:397-410. -/
def parseUsize (s : Text) : Except IntError Nat :=
  match s with
  | [] => .error .incomplete
  | ['+'] => .error .invalidDigit
  | '+' :: cs => parseUsizeLoop cs 0
  | cs => parseUsizeLoop cs 0

/-- `number` (lexer.rs:185-192). -/
def number (l : Lexer) : Res := do
  let loc := l.prevLoc
  let l' := l.eatWhile isDigit10
  let s ← l.slice l.pos l'.pos
  match parseUsize s with
  | .ok n => .ok (.lit (.int n), l')
  | .error e => .ok (.error (.invalidInt loc e), l')

/-! ### comments -/

/-- `line_comment` (lexer.rs:413-415). -/
def lineComment (l : Lexer) : Lexer := l.eatWhile (· != '\n')

/-- The loop of `block_comment` (lexer.rs:422-450): `(interrupted, end, lexer)`.
`depth` is unbounded here (justified by C137). The fuel bounds the iterations, each of which consumes a character. -/
def blockLoop : Nat → Lexer → Nat → Loc → Bool × Loc × Lexer
  | 0, l, _, e => (true, e, l)
  | n + 1, l, depth, e =>
    if depth = 0 then (false, e, l)
    else match l.chars with
      | [] => (true, e, l)
      | c :: _ =>
        if c = '~' then
          let l := l.advance
          if l.onChar '{' then blockLoop n l (depth + 1) e else blockLoop n l depth e
        else if c = '}' then
          let l := l.advance
          if l.onChar '~' then blockLoop n l.advance (depth - 1) e else blockLoop n l depth e
        else blockLoop n l.advance depth l.prevLoc

/-- `block_comment` (lexer.rs:417-459). -/
def blockComment (l : Lexer) : Option LexError × Lexer :=
  let start := l.prevLoc
  match blockLoop (l.chars.length + 1) l 1 l.prevLoc with
  | (true, e, l) => (some (.unterminatedComment start e), l)
  | (false, _, l) => (none, l.advance)

/-! ### operators and identifiers -/

/-- What an operator turns into: a token, or a comment that was skipped, after which the
code calls `self.lex()` again (lexer.rs:205,213). -/
inductive OpRes where
  | tok (t : Token) (l : Lexer)
  | skipped (l : Lexer)
  deriving DecidableEq, Repr

/-- `operator` (lexer.rs:195-221). -/
def operator (l : Lexer) : Except Panic OpRes := do
  let start := l.pos
  let l := l.eatWithTrailing isInfixChar
  let s ← l.slice start l.pos
  if s = t!"~" then
    if l.onChar '{' then
      match l.advance.blockComment with
      | (some err, l) => .ok (.tok (.error err) l)
      | (none, l) => .ok (.skipped l)
    else .ok (.tok (.affix t!"~" false) l)
  else if s = t!"~~" then .ok (.skipped l.lineComment)
  else if s = t!"\\" ∨ s = t!"λ" then .ok (.tok .lambda l)
  else if s = t!"-" then .ok (.tok .dash l)
  else if s = t!"->" ∨ s = t!"→" ∨ s = t!"⟶" ∨ s = t!"↦" ∨ s = t!"⟼" then .ok (.tok .arrow l)
  else if s = t!"@" then .ok (.tok .at_ l)
  else .ok (.tok (.affix s false) l)

section
variable [CharTables]

/-- `promoted_operator` (lexer.rs:230-244). -/
def promotedOperator (l : Lexer) : Res := do
  let loc := l.currLoc
  let start := l.pos
  let l := l.advance
  let l := l.eatWithTrailing isIdentChar
  let sym ← l.slice start l.pos
  if l.onChar '`' then .ok (.affix sym true, l.advance)
  else .ok (.error (.invalidPromotedInfix loc sym), l)

/-- `identifier` (lexer.rs:463-477), including the assertion on the first character. -/
def identifier (c : Char) (s : Text) : Except Panic Token :=
  if isLowercase c then .ok (if isUppercase c then .upper s else .lower s)
  else .error .identAssert

/-- `ident` (lexer.rs:246-257). -/
def ident (l : Lexer) (c : Char) : Res := do
  let start := l.pos
  let l := l.eatWithTrailing isIdentChar
  let s ← l.slice start l.pos
  if s = t!"_" then .ok (.underscore, l)
  else if s = t!"infixl" then .ok (.infixL, l)
  else if s = t!"infixr" then .ok (.infixR, l)
  else if s = t!"infix" then .ok (.infix_, l)
  else if s = t!"let" then .ok (.let_, l)
  else if s = t!"in" then .ok (.in_, l)
  else
    let t ← identifier c s
    .ok (t, l)
end

/-! ### character and string literals -/

/-- Value of a hexadecimal digit. -/
def hexVal (c : Char) : Nat := (toDigit 16 c).getD 0

/-- Value of a string of hexadecimal digits. -/
def hexNum (s : Text) : Nat := s.foldl (fun a c => a * 16 + hexVal c) 0

/-- `u32::from_str_radix(s, 16)` (std) on at most six characters (no overflow possible);
a leading `+` is accepted. -/
def fromHexStr (s : Text) : Option Nat :=
  let d := match s with
    | '+' :: cs => cs
    | cs => cs
  if d ≠ [] ∧ d.all isHexDigit then some (hexNum d) else none

/-- `char::from_u32` (std). -/
def charFromU32 (n : Nat) : Option Char :=
  if h : n.isValidChar then some (Char.ofNatAux n h) else none

section
variable [CharTables]

/-- The unicode-escape part of `char` (lexer.rs:275-332), entered just before the `u`.
`loc` is the position of the opening quote. -/
def unicodeEscape (l : Lexer) (loc : Loc) : Res := do
  let l := l.advance
  let l := if l.onChar '+' then l.advance else l
  let escLoc := l.currLoc
  let c := l.currentChar
  if isHexDigit c then
    let a := l.pos
    let l := l.eatWhile isHexDigit
    let b := l.pos
    if l.onChar '\'' then
      let l := l.advance
      if a = b then .ok (.error (.invalidUnicode escLoc .empty), l.advance)
      else if b - a ≤ 6 then
        let l := l.advance
        let s ← l.slice a b
        match fromHexStr s with
        | none => .error .hexExpect
        | some int =>
          match charFromU32 int with
          | some c => .ok (.lit (.char c), l)
          | none => .ok (.error (.invalidUnicode escLoc (.notInCharRange s int)), l)
      else
        let s ← l.slice a b
        .ok (.error (.invalidUnicode escLoc (.tooLong s)), l)
    else
      let l := l.eatWhile (· != '\'')
      .ok (.error (.unterminatedChar loc l.currLoc), l)
  else
    let l := l.eatWhile (· != '\'')
    .ok (.error (.invalidUnicode escLoc (.badConnector c)), l)

/-- The escape part of `char` (lexer.rs:274-351), entered after the backslash. -/
def charEscape (l : Lexer) (loc : Loc) : Res :=
  match l.chars with
  | c :: _ =>
    if c = 'u' ∨ c = 'U' then l.unicodeEscape loc
    else if isEscapable c then
      let esc := getEscaped c
      let l := l.advance
      if l.onChar '\'' then .ok (.lit (.char esc), l.advance)
      else
        let l := l.eatWhile (· != '\'')
        .ok (.error (.unterminatedChar loc l.prevLoc), l.advance)
    else
      let l := l.eatWhile (· != '\'')
      .ok (.error (.invalidEscape c loc l.prevLoc), l.advance)
  | [] => .ok (.error (.unterminatedChar loc l.prevLoc), l)

/-- `char` (lexer.rs:259-378), entered on the opening apostrophe. -/
def charLit (l : Lexer) : Res := do
  let loc := l.prevLoc
  let l := l.advance
  let c := l.currentChar
  if c = '\'' then
    let l := l.advance
    .ok (.error (.emptyChar loc l.prevLoc), l)
  else if c = '\\' then l.advance.charEscape loc
  else if c = '\x00' then .ok (.error (.unterminatedChar loc l.prevLoc), l)
  else
    let idCandidate := isIdentStart c
    let start := l.pos
    let l := l.advance
    if l.onChar '\'' then .ok (.lit (.char c), l.advance)
    else if l.onPred isWhitespace then
      let l := l.advance
      let s ← l.slice start l.pos
      .ok (.affix s true, l)
    else if idCandidate then
      let l := l.eatWithTrailing isIdentChar
      let s ← l.slice start l.pos
      .ok (.affix s true, l)
    else
      let e := l.prevLoc
      let l := l.eatWhile (fun c => (c != '\'' && isAlphanumeric c) || c == '_')
      .ok (.error (.unterminatedChar loc e), l)
end

/-- The loop of `string` (lexer.rs:386-404): `(terminated, buf, lexer)`. The fuel bounds the
iterations, each of which consumes a character or ends. -/
def stringLoop : Nat → Lexer → Bool → Text → Bool × Text × Lexer
  | 0, l, _, buf => (false, buf, l)
  | n + 1, l, escaped, buf =>
    match l.bumpChar with
    | (none, l) => (false, buf, l)
    | (some c, l) =>
      if escaped then
        if isEscapable c then stringLoop n l false (buf ++ [getEscaped c])
        else if c = '\n' then stringLoop n l.eatWhitespace false buf
        else stringLoop n l false (buf ++ [c])
      else if c = '"' then (true, buf, l)
      else if c = '\\' then stringLoop n l true buf
      else stringLoop n l false (buf ++ [c])

/-- `string` (lexer.rs:380-410), entered on the opening quote. -/
def string (l : Lexer) : Token × Lexer :=
  let start := l.prevLoc
  let l := l.advance
  match stringLoop (l.chars.length + 1) l false [] with
  | (true, buf, l) => (.lit (.str buf), l)
  | (false, _, l) => (.error (.unterminatedString start), l)

/-! ### the main dispatch -/

section
variable [CharTables]

/-- The backtick case of `lex` (lexer.rs:143-162). -/
def backtick (l : Lexer) : Res := do
  let l := l.advance
  let loc := l.currLoc
  if l.onPred isIdentStart then l.promotedOperator
  else
    let start := l.pos
    let l := l.eatWhile (· != '`')
    let e := l.pos
    let l := if l.onChar '`' then l.advance else l
    let s ← l.slice start e
    .ok (.error (.invalidPromotedInfix loc s), l)

/-- A token result as an operator result. -/
def Res.toOp (r : Res) : Except Panic OpRes := r.map fun x => .tok x.1 x.2

/-- One pass of `lex` on a state whose next character is `c` (lexer.rs:138-173). -/
def dispatch (l : Lexer) (c : Char) : Except Panic OpRes :=
  if c = ';' then .ok (.tok .semi l.advance)
  else if c = '\'' then l.charLit.toOp
  else if c = '"' then .ok (.tok l.string.1 l.string.2)
  else if isDigit10 c then l.number.toOp
  else if c = '`' then l.backtick.toOp
  else if isIdentStart c then (l.ident c).toOp
  else if c = '(' then .ok (.tok .parenL l.advance)
  else if c = ')' then .ok (.tok .parenR l.advance)
  else if c = '[' then .ok (.tok .brackL l.advance)
  else if c = ']' then .ok (.tok .brackR l.advance)
  else if c = '{' then .ok (.tok .curlyL l.advance)
  else if c = '}' then .ok (.tok .curlyR l.advance)
  else if c = ',' then .ok (.tok .comma l.advance)
  else if isInfixChar c then l.operator
  else .ok (.tok (.error .unknown) l)

/-- `lex` (lexer.rs:134-177). Only a skipped comment makes the code call itself
(lexer.rs:205,213); the fuel bounds those calls (`lex` below provides enough). -/
def lexN : Nat → Lexer → Res
  | 0, l => .ok (.eof, l)
  | n + 1, l =>
    match l.eatWhitespace.chars with
    | [] => .ok (.eof, l.eatWhitespace)
    | c :: _ =>
      match l.eatWhitespace.dispatch c with
      | .error p => .error p
      | .ok (.tok t l) => .ok (t, l)
      | .ok (.skipped l) => lexN n l

/-- `lex` (lexer.rs:134-177). -/
def lex (l : Lexer) : Res := lexN (l.chars.length + 1) l

/-- `peek` (lexer.rs:63-75). -/
def peek (l : Lexer) : Except Panic (Option Token × Lexer) :=
  match l.curr with
  | some t => .ok (some t, l)
  | none =>
    match l.lex with
    | .error p => .error p
    | .ok (.eof, l) => .ok (none, l)
    | .ok (t, l) => .ok (some t, { l with curr := some t })

/-- `bump` (lexer.rs:108-113). -/
def bump (l : Lexer) : Token × Lexer :=
  match l.curr with
  | some t => (t, { l with curr := none })
  | none => (.eof, l)

/-- `Iterator::next` (lexer.rs:482-491). -/
def next (l : Lexer) : Except Panic (Option (Token × LocSpan) × Lexer) :=
  match l.lex with
  | .error p => .error p
  | .ok (t, l) => if t = .eof then .ok (none, l) else .ok (some (t, ⟨l.prevLoc, l.currLoc⟩), l)
end

/-- `is_done` (lexer.rs:40-42). -/
def isDone (l : Lexer) : Bool := l.chars.isEmpty

end Lexer
end Pemdas
