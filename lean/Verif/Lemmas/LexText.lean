import Verif.Lemmas.LexPos
/-
The lexer as a function of the remaining text only, and the proof that on sources without
"\n\r" the lexer with positions and slices computes it.
-/
namespace Pemdas

/-! ### the lexer on plain text -/
namespace TLex

/-- Longest run of `p`, then of trailing characters; and the rest. -/
def munch (p : Char → Bool) (s : Text) : Text × Text :=
  (s.takeWhile p ++ (s.dropWhile p).takeWhile isTrailing, (s.dropWhile p).dropWhile isTrailing)

def block : Text → Nat → Option Text
  | s, 0 => some s
  | [], _ + 1 => none
  | '~' :: cs, d + 1 => if cs.head? = some '{' then block cs (d + 2) else block cs (d + 1)
  | '}' :: '~' :: cs, d + 1 => block cs d
  | _ :: cs, d + 1 => block cs (d + 1)

def str : Nat → Text → Bool → Text → Bool × Text × Text
  | 0, s, _, buf => (false, buf, s)
  | _ + 1, [], _, buf => (false, buf, [])
  | n + 1, c :: cs, esc, buf =>
    if esc then
      if isEscapable c then str n cs false (buf ++ [getEscaped c])
      else if c = '\n' then str n (cs.dropWhile isWhitespace) false buf
      else str n cs false (buf ++ [c])
    else if c = '"' then (true, buf, cs)
    else if c = '\\' then str n cs true buf
    else str n cs false (buf ++ [c])

inductive R where
  | tok (t : Token) (rest : Text)
  | skipped (rest : Text)

def err (e : LexError) : Token := .error e.noLoc

def number (s : Text) : Token × Text :=
  (match Lexer.parseUsize (s.takeWhile isDigit10) with
   | .ok n => .lit (.int n)
   | .error e => err (.invalidInt .default e), s.dropWhile isDigit10)

def operator (s : Text) : R :=
  let m := munch isInfixChar s
  if m.1 = t!"~" then
    if m.2.head? = some '{' then
      match block m.2.tail 1 with
      | none => .tok (err (.unterminatedComment .default .default)) []
      | some r => .skipped r.tail
    else .tok (.affix t!"~" false) m.2
  else if m.1 = t!"~~" then .skipped (m.2.dropWhile (· != '\n'))
  else if m.1 = t!"\\" ∨ m.1 = t!"λ" then .tok .lambda m.2
  else if m.1 = t!"-" then .tok .dash m.2
  else if m.1 = t!"->" ∨ m.1 = t!"→" ∨ m.1 = t!"⟶" ∨ m.1 = t!"↦" ∨ m.1 = t!"⟼" then .tok .arrow m.2
  else if m.1 = t!"@" then .tok .at_ m.2
  else .tok (.affix m.1 false) m.2

def unicode (s : Text) : Token × Text :=
  let s := s.tail
  let s := if s.head? = some '+' then s.tail else s
  if isHexDigit (s.headD '\x00') then
    let ds := s.takeWhile isHexDigit
    let r := s.dropWhile isHexDigit
    if r.head? = some '\'' then
      if ds.length ≤ 6 then
        (match Lexer.charFromU32 (Lexer.hexNum ds) with
         | some c => .lit (.char c)
         | none => err (.invalidUnicode .default (.notInCharRange ds (Lexer.hexNum ds))), r.tail.tail)
      else (err (.invalidUnicode .default (.tooLong ds)), r.tail)
    else (err (.unterminatedChar .default .default), r.dropWhile (· != '\''))
  else (err (.invalidUnicode .default (.badConnector (s.headD '\x00'))), s.dropWhile (· != '\''))

def charEscape (s : Text) : Token × Text :=
  match s with
  | c :: _ =>
    if c = 'u' ∨ c = 'U' then unicode s
    else if isEscapable c then
      if s.tail.head? = some '\'' then (.lit (.char (getEscaped c)), s.tail.tail)
      else (err (.unterminatedChar .default .default), (s.tail.dropWhile (· != '\'')).tail)
    else (err (.invalidEscape c .default .default), (s.dropWhile (· != '\'')).tail)
  | [] => (err (.unterminatedChar .default .default), s)

section
variable [CharTables]

def charLit (s : Text) : Token × Text :=
  let s := s.tail
  let c := s.headD '\x00'
  if c = '\'' then (err (.emptyChar .default .default), s.tail)
  else if c = '\\' then charEscape s.tail
  else if c = '\x00' then (err (.unterminatedChar .default .default), s)
  else
    let r := s.tail
    if r.head? = some '\'' then (.lit (.char c), r.tail)
    else if r.head?.any isWhitespace then (.affix (c :: r.take 1) true, r.tail)
    else if isIdentStart c then
      (.affix (c :: (munch isIdentChar r).1) true, (munch isIdentChar r).2)
    else (err (.unterminatedChar .default .default),
      r.dropWhile (fun c => (c != '\'' && isAlphanumeric c) || c == '_'))

def backtick (s : Text) : Token × Text :=
  let s := s.tail
  if s.head?.any isIdentStart then
    let m := munch isIdentChar s.tail
    let sym := s.take 1 ++ m.1
    if m.2.head? = some '`' then (.affix sym true, m.2.tail)
    else (err (.invalidPromotedInfix .default sym), m.2)
  else
    (err (.invalidPromotedInfix .default (s.takeWhile (· != '`'))),
      if (s.dropWhile (· != '`')).head? = some '`' then (s.dropWhile (· != '`')).tail
      else s.dropWhile (· != '`'))

def word (c : Char) (s : Text) : Except Panic Token :=
  if s = t!"_" then .ok .underscore
  else if s = t!"infixl" then .ok .infixL
  else if s = t!"infixr" then .ok .infixR
  else if s = t!"infix" then .ok .infix_
  else if s = t!"let" then .ok .let_
  else if s = t!"in" then .ok .in_
  else Lexer.identifier c s

def ident (c : Char) (s : Text) : Except Panic R :=
  match word c (munch isIdentChar s).1 with
  | .ok t => .ok (.tok t (munch isIdentChar s).2)
  | .error p => .error p

def string (s : Text) : Token × Text :=
  match str (s.tail.length + 1) s.tail false [] with
  | (true, buf, r) => (.lit (.str buf), r)
  | (false, _, r) => (err (.unterminatedString .default), r)

def R.of (x : Token × Text) : R := .tok x.1 x.2

def dispatch (s : Text) (c : Char) : Except Panic R :=
  if c = ';' then .ok (.tok .semi s.tail)
  else if c = '\'' then .ok (.of (charLit s))
  else if c = '"' then .ok (.of (string s))
  else if isDigit10 c then .ok (.of (number s))
  else if c = '`' then .ok (.of (backtick s))
  else if isIdentStart c then ident c s
  else if c = '(' then .ok (.tok .parenL s.tail)
  else if c = ')' then .ok (.tok .parenR s.tail)
  else if c = '[' then .ok (.tok .brackL s.tail)
  else if c = ']' then .ok (.tok .brackR s.tail)
  else if c = '{' then .ok (.tok .curlyL s.tail)
  else if c = '}' then .ok (.tok .curlyR s.tail)
  else if c = ',' then .ok (.tok .comma s.tail)
  else if isInfixChar c then .ok (operator s)
  else .ok (.tok (.error .unknown) s)

def lexN : Nat → Text → Except Panic (Token × Text)
  | 0, s => .ok (.eof, s)
  | n + 1, s =>
    match s.dropWhile isWhitespace with
    | [] => .ok (.eof, [])
    | c :: cs =>
      match dispatch (c :: cs) c with
      | .error p => .error p
      | .ok (.tok t r) => .ok (t, r)
      | .ok (.skipped r) => lexN n r

def lex (s : Text) : Except Panic (Token × Text) := lexN (s.length + 1) s

end
end TLex

/-! ### agreement -/
namespace Lexer

/-- The counters agree with the consumed text. -/
structure Sync (l : Lexer) : Prop where
  at_ : ∃ pre, l.At pre
  clean : NoLFCR l.src

theorem Sync.reach {l l' : Lexer} (h : l.Sync) (hr : Reach true l l') : l'.Sync := by
  obtain ⟨⟨pre, hp⟩, hc⟩ := h
  obtain ⟨u, _, hat⟩ := hp.reach hr
  exact ⟨⟨_, hat⟩, by rw [hr.src]; exact hc⟩

theorem Sync.advance {l : Lexer} (h : l.Sync) : l.advance.Sync := h.reach (Reach.one l)

theorem Sync.pos {l : Lexer} (h : l.Sync) :
    ∃ pre, l.src = pre ++ l.chars ∧ l.currLoc = locOf pre := by
  obtain ⟨⟨pre, hp⟩, hc⟩ := h
  refine ⟨pre, hp.src, ?_⟩
  rw [hp.loc, unCR_of_noLFCR (hc.infix ?_)]
  exact ⟨[], l.chars, by simp [hp.src]⟩

theorem Sync.slice {l l' : Lexer} (h : l.Sync) (hr : Reach true l l') {used : Text}
    (hu : l.chars = used ++ l'.chars) (m : Lexer) (hm : m.src = l.src) :
    m.slice l.pos l'.pos = .ok used := by
  rw [slice_ok_iff, hm, byteSlice_eq_some]
  obtain ⟨pre, hs, hl⟩ := h.pos
  obtain ⟨pre', hs', hl'⟩ := (h.reach hr).pos
  have hpre : pre' = pre ++ used := by
    rw [hr.src, hs, hu, ← List.append_assoc] at hs'
    exact (List.append_cancel_right hs').symm
  refine ⟨pre, l'.chars, by rw [hs, hu]; simp, ?_, ?_⟩
  · exact (congrArg Loc.pos hl).symm
  · have := congrArg Loc.pos hl'
    rw [hpre] at this
    simp only [locOf, utf8Len_append] at this
    exact this.symm

theorem Sync.advance_chars {l : Lexer} (h : l.Sync) : l.advance.chars = l.chars.tail := by
  unfold Lexer.advance bumpChar
  split
  · rename_i h'; rw [h']; rfl
  · rename_i c cs h'
    rw [h']
    split
    · rename_i hc
      simp only [List.tail_cons]
      unfold dropCR
      split
      · rename_i ds
        exfalso
        obtain ⟨⟨pre, hp⟩, hcl⟩ := h
        apply hcl
        exact ⟨pre, ds, by rw [hp.src, h', hc]; simp⟩
      · rfl
    · rfl

theorem Sync.eatWhileN {p : Char → Bool} {n : Nat} {l : Lexer} (h : l.Sync)
    (hn : l.chars.length ≤ n) : (eatWhileN p n l).chars = l.chars.dropWhile p := by
  induction n generalizing l with
  | zero => 
    have : l.chars = [] := List.length_eq_zero_iff.1 (by omega)
    simp [Lexer.eatWhileN, this]
  | succ n ih =>
    unfold Lexer.eatWhileN
    split
    · rename_i h'; simp [h']
    · rename_i c cs h'
      split
      · rename_i hp
        rw [ih h.advance (by rw [h.advance_chars, h'] ; rw [h'] at hn; simpa using hn),
          h.advance_chars, h']
        simp [hp]
      · rename_i hp; rw [h']; simp [hp]

theorem Sync.eatWhile {l : Lexer} (h : l.Sync) (p : Char → Bool) :
    (l.eatWhile p).chars = l.chars.dropWhile p := h.eatWhileN (Nat.le_refl _)

theorem Sync.eatWhitespace {l : Lexer} (h : l.Sync) :
    l.eatWhitespace.chars = l.chars.dropWhile isWhitespace := h.eatWhile _

theorem Sync.trailing {l : Lexer} (h : l.Sync) (p : Char → Bool) :
    (l.eatWithTrailing p).chars = (TLex.munch p l.chars).2 := by
  unfold eatWithTrailing TLex.munch
  rw [(h.reach (reach_eatWhile l p)).eatWhile, h.eatWhile]

theorem munch_append (p : Char → Bool) (s : Text) :
    s = (TLex.munch p s).1 ++ (TLex.munch p s).2 := by
  unfold TLex.munch
  simp

theorem Sync.slice_trailing {l : Lexer} (h : l.Sync) (p : Char → Bool) (m : Lexer)
    (hm : m.src = l.src) :
    m.slice l.pos (l.eatWithTrailing p).pos = .ok (TLex.munch p l.chars).1 :=
  h.slice (reach_eatWithTrailing l p) (by rw [h.trailing]; exact munch_append p _) m hm

theorem onChar_eq (l : Lexer) (c : Char) : l.onChar c = (l.chars.head? = some c) := by
  unfold onChar
  split <;> rename_i h <;> simp [h]

theorem onPred_eq (l : Lexer) (p : Char → Bool) : l.onPred p = l.chars.head?.any p := by
  unfold onPred
  split <;> rename_i h <;> simp [h]

/-- Projection of a result to text only. -/
def proj (r : Res) : Except Panic (Token × Text) := r.map fun x => (x.1.noLoc, x.2.chars)

def projR : OpRes → TLex.R
  | .tok t l => .tok t.noLoc l.chars
  | .skipped l => .skipped l.chars

theorem sync_number {l : Lexer} (h : l.Sync) : proj l.number = .ok (TLex.number l.chars) := by
  unfold number TLex.number
  have hs := h.slice (reach_eatWhile l isDigit10) (used := l.chars.takeWhile isDigit10)
    (by rw [h.eatWhile]; simp) l rfl
  simp only [hs, bind, Except.bind]
  split
  · rename_i n hn; rw [hn]; simp [proj, Except.map, h.eatWhile, Token.noLoc]
  · rename_i e hn; rw [hn]; simp [proj, Except.map, h.eatWhile, Token.noLoc, TLex.err, LexError.noLoc]

theorem sync_blockLoop {n : Nat} {l : Lexer} (h : l.Sync) (d : Nat) (e : Loc)
    (hn : l.chars.length < n) :
    TLex.block l.chars d =
      if (blockLoop n l d e).1 then none else some (blockLoop n l d e).2.2.chars := by
  induction n generalizing l d e with
  | zero => omega
  | succ n ih =>
    unfold blockLoop
    cases d with
    | zero => simp [TLex.block]
    | succ d =>
      rw [if_neg (Nat.succ_ne_zero d)]
      split
      · rename_i h'; rw [h']; simp [TLex.block]
      · rename_i c cs h'
        have hlen := advance_length_lt h'
        have hadv : l.advance.chars = cs := by rw [h.advance_chars, h']; rfl
        split
        · rename_i hc; subst hc
          simp only [onChar_eq]
          split
          · rename_i h2
            have := ih h.advance (d + 2) e (by omega)
            rw [hadv] at this h2
            rw [h', TLex.block, if_pos (by simpa using h2)]; exact this
          · rename_i h2
            have := ih h.advance (d + 1) e (by omega)
            rw [hadv] at this h2
            rw [h', TLex.block, if_neg (by simpa using h2)]; exact this
        · rename_i hc
          split
          · rename_i hc; subst hc
            simp only [onChar_eq]
            split
            · rename_i h2
              rw [hadv] at h2
              have hlen2 := advance_length_lt (l := l.advance) (c := '~') (cs := cs.tail) (by
                rw [hadv]; cases cs with
                | nil => simp at h2
                | cons a b => simp at h2; simp [h2])
              have := ih h.advance.advance d e (by omega)
              rw [h.advance.advance_chars, hadv] at this
              cases cs with
              | nil => simp at h2
              | cons a b =>
                have : a = '~' := by simpa using h2
                subst this
                rw [h', TLex.block]; simpa using this
            · rename_i h2
              have := ih h.advance (d + 1) e (by omega)
              rw [hadv] at this h2
              rw [h', TLex.block]
              · exact this
              · exact hc
              · intro cs' _ hcs; subst hcs; simp at h2
          · rename_i hc2
            have := ih h.advance (d + 1) l.prevLoc (by omega)
            rw [hadv] at this
            rw [h', TLex.block]
            · exact this
            · exact hc
            · intro cs' hcs _; exact hc2 hcs

theorem blockLoop_interrupted {n : Nat} {l m : Lexer} {d : Nat} {e e' : Loc}
    (hn : l.chars.length < n) (h : blockLoop n l d e = (true, e', m)) : m.chars = [] := by
  induction n generalizing l d e with
  | zero => omega
  | succ n ih =>
    unfold blockLoop at h
    split at h
    · cases h
    · split at h
      · rename_i h'; cases h; exact h'
      · rename_i c cs h'
        have hlen := advance_length_lt h'
        have hlen2 := (advance_chars_suffix l.advance).length_le
        split at h
        · simp only at h
          split at h
          · exact ih (by omega) h
          · exact ih (by omega) h
        · split at h
          · simp only at h
            split at h
            · exact ih (by omega) h
            · exact ih (by omega) h
          · exact ih (by omega) h

theorem sync_blockComment {l : Lexer} (h : l.Sync) :
    (TLex.block l.chars 1 = none ∧ (∃ e, l.blockComment.1 = some e ∧
        e.noLoc = .unterminatedComment .default .default) ∧ l.blockComment.2.chars = []) ∨
    (∃ r, TLex.block l.chars 1 = some r ∧ l.blockComment.1 = none ∧
      l.blockComment.2.chars = r.tail) := by
  have hb := sync_blockLoop h 1 l.prevLoc (n := l.chars.length + 1) (by omega)
  have hr := reach_blockLoop (b := true) (l.chars.length + 1) l 1 l.prevLoc
  unfold blockComment
  generalize hx : blockLoop (l.chars.length + 1) l 1 l.prevLoc = x at *
  obtain ⟨i, e, m⟩ := x
  cases i with
  | true =>
    left
    refine ⟨by simpa using hb, ⟨_, rfl, rfl⟩, ?_⟩
    exact blockLoop_interrupted (by omega) hx
  | false =>
    right
    refine ⟨m.chars, by simpa using hb, rfl, ?_⟩
    exact (h.reach hr).advance_chars

theorem sync_stringLoop {n : Nat} {l : Lexer} (h : l.Sync) (esc : Bool) (buf : Text) :
    TLex.str n l.chars esc buf =
      ((stringLoop n l esc buf).1, (stringLoop n l esc buf).2.1, (stringLoop n l esc buf).2.2.chars) := by
  induction n generalizing l esc buf with
  | zero => simp [TLex.str, stringLoop]
  | succ n ih =>
    have hadv2 : l.bumpChar.2 = l.advance := rfl
    cases hch : l.chars with
    | nil =>
      have : l.bumpChar = (none, l) := by unfold bumpChar; rw [hch]
      simp [TLex.str, stringLoop, this, hch]
    | cons c cs =>
      have hb : l.bumpChar = (some c, l.advance) := by
        unfold advance bumpChar; rw [hch]; simp only; split <;> rfl
      have hadv : l.advance.chars = cs := by rw [h.advance_chars, hch]; rfl
      have hws : l.advance.eatWhitespace.chars = cs.dropWhile isWhitespace := by
        rw [h.advance.eatWhitespace, hadv]
      unfold TLex.str stringLoop
      rw [hb]
      simp only
      split
      · split
        · rw [← ih h.advance, hadv]
        · split
          · rw [← ih (h.advance.reach (reach_eatWhitespace _)), hws]
          · rw [← ih h.advance, hadv]
      · split
        · rw [hadv]
        · split
          · rw [← ih h.advance, hadv]
          · rw [← ih h.advance, hadv]

theorem sync_string {l : Lexer} (h : l.Sync) :
    (l.string.1.noLoc, l.string.2.chars) = TLex.string l.chars := by
  have := sync_stringLoop h.advance (n := l.advance.chars.length + 1) false []
  unfold string TLex.string
  rw [h.advance_chars] at this
  simp only [h.advance_chars]
  rw [this]
  generalize stringLoop (l.chars.tail.length + 1) l.advance false [] = x
  obtain ⟨i, b, m⟩ := x
  cases i <;> rfl

theorem sync_operator {l : Lexer} (h : l.Sync) :
    l.operator.map projR = .ok (TLex.operator l.chars) := by
  have hs := h.slice_trailing isInfixChar (l.eatWithTrailing isInfixChar)
    (reach_eatWithTrailing (b := true) l _).src
  have hch := h.trailing isInfixChar
  have hsync := h.reach (reach_eatWithTrailing l isInfixChar)
  unfold operator TLex.operator
  simp only [hs, bind, Except.bind, onChar_eq, hch]
  split
  · split
    · have hb := sync_blockComment hsync.advance
      rw [hsync.advance_chars, hch] at hb
      rcases hb with ⟨h1, ⟨e, h2, h3⟩, h4⟩ | ⟨r, h1, h2, h3⟩
      · simp only [h1]
        split
        · rename_i e' m hx; rw [hx] at h2 h4; cases h2
          simp only at h4
          show Except.ok (TLex.R.tok (.error e.noLoc) m.chars) = _
          rw [h3, h4]; rfl
        · rename_i m hx; rw [hx] at h2; cases h2
      · simp only [h1]
        split
        · rename_i e' m hx; rw [hx] at h2; cases h2
        · rename_i m hx; rw [hx] at h3
          simp only at h3
          simp [Except.map, projR, h3]
    · simp [Except.map, projR, hch, Token.noLoc]
  · split
    · simp only [Except.map, projR, lineComment, hsync.eatWhile, hch]
    · repeat' split
      all_goals simp [Except.map, projR, hch, Token.noLoc]

theorem utf8Size_ascii {c : Char} (h : c.toNat < 128) : c.utf8Size = 1 := by
  rw [Char.utf8Size_eq_one_iff]
  rw [UInt32.le_iff_toNat_le]
  show c.toNat ≤ 127
  omega

theorem isHexDigit_ascii {c : Char} (h : isHexDigit c = true) : c.toNat < 128 := by
  simp only [isHexDigit, Bool.or_eq_true, Bool.and_eq_true, decide_eq_true_eq, toNat_le_iff,
    Char.reduceToNat] at h
  omega

theorem utf8Len_hex {s : Text} (h : s.all isHexDigit = true) : utf8Len s = s.length := by
  induction s with
  | nil => rfl
  | cons c s ih =>
    simp only [List.all_cons, Bool.and_eq_true] at h
    simp only [utf8Len_cons, utf8Size_ascii (isHexDigit_ascii h.1), ih h.2, List.length_cons]
    omega

theorem all_takeWhile (p : Char → Bool) (s : Text) : (s.takeWhile p).all p = true := by
  induction s with
  | nil => rfl
  | cons c s ih =>
    rw [List.takeWhile_cons]
    split
    · rename_i h; simp [h, ih]
    · rfl

theorem fromHexStr_hex {s : Text} (h : s.all isHexDigit = true) (hne : s ≠ []) :
    fromHexStr s = some (hexNum s) := by
  unfold fromHexStr
  have hp : ∀ cs, s = '+' :: cs → False := by
    intro cs hs; rw [hs] at h; simp [isHexDigit] at h
  split
  · exact (hp _ rfl).elim
  · simp only [hne, h, ne_eq, not_false_eq_true, and_self, if_true]

theorem currentChar_eq (l : Lexer) : l.currentChar = l.chars.headD '\x00' := rfl

theorem sync_unicodeEscape {l : Lexer} (h : l.Sync) (loc : Loc) :
    proj (l.unicodeEscape loc) = .ok (TLex.unicode l.chars) := by
  have hplus : Reach true l (if l.advance.onChar '+' then l.advance.advance else l.advance) := by
    split
    · exact (Reach.one l).adv
    · exact Reach.one l
  have hch : (if l.advance.onChar '+' then l.advance.advance else l.advance).chars =
      if l.chars.tail.head? = some '+' then l.chars.tail.tail else l.chars.tail := by
    simp only [onChar_eq, h.advance_chars]
    split
    · rw [h.advance.advance_chars, h.advance_chars]
    · rw [h.advance_chars]
  have hm := h.reach hplus
  unfold unicodeEscape TLex.unicode
  simp only [bind, Except.bind]
  revert hplus hm hch
  generalize (if l.advance.onChar '+' then l.advance.advance else l.advance) = m
  generalize (if l.chars.tail.head? = some '+' then l.chars.tail.tail else l.chars.tail) = s
  intro _ hch hm
  have he := hm.eatWhile isHexDigit
  have hsync := hm.reach (reach_eatWhile m isHexDigit)
  simp only [currentChar_eq, hch]
  rw [hch] at he
  split
  · rename_i hx
    simp only [onChar_eq, he]
    have hds : (s.takeWhile isHexDigit) ≠ [] := by
      cases s with
      | nil => simp [isHexDigit] at hx
      | cons c cs => simp at hx; simp [hx]
    split
    · have hsl : ∀ m' : Lexer, m'.src = m.src →
          m'.slice m.pos (m.eatWhile isHexDigit).pos = .ok (s.takeWhile isHexDigit) := by
        intro m' hm'
        exact hm.slice (reach_eatWhile m isHexDigit) (by rw [he, hch]; simp) m' hm'
      have hpos : (m.eatWhile isHexDigit).pos = m.pos + (s.takeWhile isHexDigit).length := by
        have := slice_ok_iff.1 (hsl m rfl)
        obtain ⟨x, y, _, hx, hy⟩ := byteSlice_eq_some.1 this
        rw [utf8Len_hex (all_takeWhile _ _)] at hy
        omega
      have hlen : 0 < (s.takeWhile isHexDigit).length := List.length_pos_iff.2 hds
      have hne : ¬ m.pos = (m.eatWhile isHexDigit).pos := by rw [hpos]; omega
      have hsub : (m.eatWhile isHexDigit).pos - m.pos = (s.takeWhile isHexDigit).length := by
        rw [hpos]; omega
      rw [if_neg hne, hsub]
      have hsrc1 : (m.eatWhile isHexDigit).advance.src = m.src := by
        rw [advance_src, (reach_eatWhile (b := true) m isHexDigit).src]
      split
      · rw [hsl _ (by rw [advance_src, hsrc1])]
        simp only [fromHexStr_hex (all_takeWhile isHexDigit s) hds]
        split
        · rename_i c hc
          simp only [proj, Except.map, Token.noLoc, hsync.advance.advance_chars,
            hsync.advance_chars, he, hc]
        · rename_i hc
          simp only [proj, Except.map, Token.noLoc, hsync.advance.advance_chars,
            hsync.advance_chars, he, hc]
          rfl
      · rw [hsl _ hsrc1]
        simp only [proj, Except.map, Token.noLoc, hsync.advance_chars, he]
        rfl
    · simp only [proj, Except.map, hsync.eatWhile, he]
      rfl
  · simp only [proj, Except.map, hm.eatWhile, hch]
    rfl

theorem sync_charEscape {l : Lexer} (h : l.Sync) (loc : Loc) :
    proj (l.charEscape loc) = .ok (TLex.charEscape l.chars) := by
  unfold charEscape TLex.charEscape
  have h1 := h.advance_chars
  have h2 := h.advance.advance_chars
  have h3 := h.advance.eatWhile (· != '\'')
  have h4 := (h.advance.reach (reach_eatWhile _ (· != '\''))).advance_chars
  have h5 := h.eatWhile (· != '\'')
  have h6 := (h.reach (reach_eatWhile _ (· != '\''))).advance_chars
  simp only [onChar_eq]
  cases hch : l.chars with
  | nil => simp only [proj, Except.map, hch]; rfl
  | cons c cs =>
    simp only
    rw [hch] at h1 h5
    split
    · rw [sync_unicodeEscape h, hch]
    · split
      · simp only [h1]
        split
        · simp only [proj, Except.map, h2, h1]; rfl
        · simp only [proj, Except.map, h4, h3, h1]; rfl
      · simp only [proj, Except.map, h6, h5]; rfl

theorem map_toOp (r : Res) : r.toOp.map projR = (proj r).map TLex.R.of := by
  cases r <;> rfl

section
variable [CharTables]

theorem sync_charLit {l : Lexer} (h : l.Sync) :
    proj l.charLit = .ok (TLex.charLit l.chars) := by
  unfold charLit TLex.charLit
  simp only [bind, Except.bind, onChar_eq, onPred_eq, currentChar_eq]
  have h1 := h.advance_chars
  have hs2 := h.advance.advance
  have h2 := h.advance.advance_chars
  rw [h1] at h2 
  have h3 := hs2.advance_chars
  rw [h2] at h3
  simp only [h1]
  split
  · simp only [proj, Except.map, h2]; rfl
  · split
    · rw [sync_charEscape hs2, h2]
    · split
      · simp only [proj, Except.map, h1]; rfl
      · rename_i hc0
        simp only [h2]
        split
        · simp only [proj, Except.map, h3]; rfl
        · have hcons : ∃ c cs, l.chars.tail = c :: cs := by
            cases hc : l.chars.tail with
            | nil => rw [hc] at hc0; simp at hc0
            | cons c cs => exact ⟨c, cs, rfl⟩
          obtain ⟨c, cs, hc⟩ := hcons
          split
          · rename_i hw
            have hsl := h.advance.slice ((Reach.one l.advance).adv) (used := c :: cs.take 1) (by
              rw [h1, hc, h3, hc]; cases cs <;> simp) l.advance.advance.advance (by simp)
            rw [hsl]
            simp only [proj, Except.map, h3, hc]; rfl
          · split
            · have hsl := h.advance.slice ((Reach.one l.advance).trans
                (reach_eatWithTrailing _ isIdentChar)) (used := c :: (TLex.munch isIdentChar cs).1) (by
                rw [h1, hc, hs2.trailing, h2, hc]
                simp only [List.tail_cons, List.cons_append]
                rw [← munch_append]) (l.advance.advance.eatWithTrailing isIdentChar)
                  (by rw [(reach_eatWithTrailing (b := true) _ _).src]; simp)
              rw [hsl]
              simp only [proj, Except.map, hs2.trailing, h2, hc]; rfl
            · simp only [proj, Except.map, hs2.eatWhile, h2]; rfl

theorem sync_backtick {l : Lexer} (h : l.Sync) :
    proj l.backtick = .ok (TLex.backtick l.chars) := by
  unfold backtick TLex.backtick
  simp only [bind, Except.bind, onChar_eq, onPred_eq]
  have h1 := h.advance_chars
  have hs2 := h.advance.advance
  have h2 := h.advance.advance_chars
  rw [h1] at h2
  simp only [h1]
  split
  · rename_i hid
    obtain ⟨c, cs, hc⟩ : ∃ c cs, l.chars.tail = c :: cs := by
      cases hc : l.chars.tail with
      | nil => rw [hc] at hid; simp at hid
      | cons c cs => exact ⟨c, cs, rfl⟩
    unfold promotedOperator
    simp only [bind, Except.bind, onChar_eq]
    have hsl := h.advance.slice ((Reach.one l.advance).trans
        (reach_eatWithTrailing _ isIdentChar)) (used := c :: (TLex.munch isIdentChar cs).1) (by
        rw [h1, hc, hs2.trailing, h2, hc]
        simp only [List.tail_cons, List.cons_append]
        rw [← munch_append]) (l.advance.advance.eatWithTrailing isIdentChar)
          (by rw [(reach_eatWithTrailing (b := true) _ _).src]; simp)
    rw [hsl]
    have htr := hs2.trailing isIdentChar
    rw [h2, hc] at htr
    simp only [htr, hc, List.tail_cons]
    split
    · simp only [proj, Except.map, (hs2.reach (reach_eatWithTrailing _ isIdentChar)).advance_chars,
        htr]; rfl
    · simp only [proj, Except.map, htr]; rfl
  · have he := h.advance.eatWhile (· != '`')
    have hsy := h.advance.reach (reach_eatWhile l.advance (· != '`'))
    rw [h1] at he
    have hsl := h.advance.slice (reach_eatWhile l.advance (· != '`'))
      (used := l.chars.tail.takeWhile (· != '`')) (by rw [h1, he]; simp)
      (if (l.advance.eatWhile (· != '`')).chars.head? = some '`'
        then (l.advance.eatWhile (· != '`')).advance else l.advance.eatWhile (· != '`')) (by
        split
        · rw [advance_src, (reach_eatWhile (b := true) _ _).src]
        · rw [(reach_eatWhile (b := true) _ _).src])
    rw [hsl]
    simp only [he]
    simp only [proj, Except.map]
    split
    · simp only [hsy.advance_chars, he]; rfl
    · simp only [he]; rfl

theorem sync_ident {l : Lexer} (h : l.Sync) (c : Char) :
    (l.ident c).toOp.map projR = TLex.ident c l.chars := by
  unfold ident TLex.ident TLex.word
  have hs := h.slice_trailing isIdentChar (l.eatWithTrailing isIdentChar)
    (reach_eatWithTrailing (b := true) l _).src
  have hch := h.trailing isIdentChar
  simp only [hs, bind, Except.bind]
  have key : ∀ (x : Except Panic Token), (∀ t, x = .ok t → t.noLoc = t) →
      Except.map projR (Res.toOp (match x with
        | .error p => .error p
        | .ok t => .ok (t, l.eatWithTrailing isIdentChar))) =
      match x with
      | .ok t => .ok (.tok t (TLex.munch isIdentChar l.chars).2)
      | .error p => .error p := by
    intro x hx
    cases x with
    | error p => rfl
    | ok t => simp only [Res.toOp, Except.map, projR, hch, hx t rfl]
  have hid : ∀ t, identifier c (TLex.munch isIdentChar l.chars).1 = .ok t → t.noLoc = t := by
    intro t ht
    unfold identifier at ht
    split at ht
    · cases ht; split <;> rfl
    · cases ht
  split
  · exact key (.ok .underscore) (by intro t h; cases h; rfl)
  split
  · exact key (.ok .infixL) (by intro t h; cases h; rfl)
  split
  · exact key (.ok .infixR) (by intro t h; cases h; rfl)
  split
  · exact key (.ok .infix_) (by intro t h; cases h; rfl)
  split
  · exact key (.ok .let_) (by intro t h; cases h; rfl)
  split
  · exact key (.ok .in_) (by intro t h; cases h; rfl)
  have := key _ hid
  revert this
  generalize identifier c (TLex.munch isIdentChar l.chars).1 = x
  intro this
  cases x <;> exact this

theorem sync_dispatch {l : Lexer} (h : l.Sync) (c : Char) :
    (l.dispatch c).map projR = TLex.dispatch l.chars c := by
  unfold dispatch TLex.dispatch
  have ha := h.advance_chars
  have hadv : ∀ t : Token, t.noLoc = t →
      Except.map projR (.ok (.tok t l.advance) : Except Panic OpRes) = .ok (.tok t l.chars.tail) := by
    intro t ht; simp only [Except.map, projR, ha, ht]
  by_cases hc : c = ';'
  · rw [if_pos hc, if_pos hc]; exact hadv _ rfl
  rw [if_neg hc, if_neg hc]; clear hc
  by_cases hc : c = '\''
  · rw [if_pos hc, if_pos hc]; rw [map_toOp, sync_charLit h]; rfl
  rw [if_neg hc, if_neg hc]; clear hc
  by_cases hc : c = '"'
  · rw [if_pos hc, if_pos hc]; rw [← sync_string h]; rfl
  rw [if_neg hc, if_neg hc]; clear hc
  by_cases hc : isDigit10 c = true
  · rw [if_pos hc, if_pos hc]; rw [map_toOp, sync_number h]; rfl
  rw [if_neg hc, if_neg hc]; clear hc
  by_cases hc : c = '`'
  · rw [if_pos hc, if_pos hc]; rw [map_toOp, sync_backtick h]; rfl
  rw [if_neg hc, if_neg hc]; clear hc
  by_cases hc : isIdentStart c = true
  · rw [if_pos hc, if_pos hc]; exact sync_ident h c
  rw [if_neg hc, if_neg hc]; clear hc
  by_cases hc : c = '('
  · rw [if_pos hc, if_pos hc]; exact hadv _ rfl
  rw [if_neg hc, if_neg hc]; clear hc
  by_cases hc : c = ')'
  · rw [if_pos hc, if_pos hc]; exact hadv _ rfl
  rw [if_neg hc, if_neg hc]; clear hc
  by_cases hc : c = '['
  · rw [if_pos hc, if_pos hc]; exact hadv _ rfl
  rw [if_neg hc, if_neg hc]; clear hc
  by_cases hc : c = ']'
  · rw [if_pos hc, if_pos hc]; exact hadv _ rfl
  rw [if_neg hc, if_neg hc]; clear hc
  by_cases hc : c = '{'
  · rw [if_pos hc, if_pos hc]; exact hadv _ rfl
  rw [if_neg hc, if_neg hc]; clear hc
  by_cases hc : c = '}'
  · rw [if_pos hc, if_pos hc]; exact hadv _ rfl
  rw [if_neg hc, if_neg hc]; clear hc
  by_cases hc : c = ','
  · rw [if_pos hc, if_pos hc]; exact hadv _ rfl
  rw [if_neg hc, if_neg hc]; clear hc
  by_cases hc : isInfixChar c = true
  · rw [if_pos hc, if_pos hc]; exact sync_operator h
  rw [if_neg hc, if_neg hc]; clear hc
  rfl

theorem sync_lexN {n : Nat} {l : Lexer} (h : l.Sync) : proj (lexN n l) = TLex.lexN n l.chars := by
  induction n generalizing l with
  | zero => rfl
  | succ n ih =>
    unfold lexN TLex.lexN
    have hw := h.eatWhitespace
    have hs := h.reach (reach_eatWhitespace l)
    rw [← hw]
    split
    · rename_i h'; simp only [proj, Except.map, h', Token.noLoc]
    · rename_i c cs h'
      have hd := sync_dispatch hs c
      rw [h'] at hd
      rw [h']
      simp only
      rw [← hd]
      cases hx : l.eatWhitespace.dispatch c with
      | error p => rfl
      | ok r =>
        cases r with
        | tok t m => rfl
        | skipped m => exact ih (hs.reach (reach_dispatch hx))

/-- On sources without "\n\r" the lexer computes the text-only lexer. -/
theorem sync_lex {l : Lexer} (h : l.Sync) : proj l.lex = TLex.lex l.chars := sync_lexN h

end

theorem At.eatWhitespace_new (src : Text) :
    ∃ pre, (new src).At pre := by
  have h0 : At (⟨src, src, none, 1, 1, 0, Loc.default⟩ : Lexer) [] := ⟨rfl, rfl, by simp⟩
  obtain ⟨u, _, h⟩ := h0.reach (reach_eatWhitespace _)
  exact ⟨_, h⟩

theorem sync_new {src : Text} (h : NoLFCR src) : (new src).Sync :=
  ⟨At.eatWhitespace_new src, by rw [new, (reach_eatWhitespace _).src]; exact h⟩

end Lexer
end Pemdas
