import Verif.Lemmas.LexGrammar
/-
The lexer as a function of the text without the carriage returns it does not see; the text of names,
operators and numbers is looked up in the source. What the lexer answers with a panic or an error is
left out.
-/
namespace Pemdas

/-! ### the lexer on plain text -/
namespace GLex
open TLex (munch block str)

/-- How far from the start `s` is what is left. -/
def off (src s : Text) : Nat := utf8Len (unCR src) - utf8Len s

/-- The text that is found for what lies between `s` and `r`. -/
def tx (src s r : Text) : Option Text := byteSlice src (off src s) (off src r)

inductive R where
  | tok (t : Token) (rest : Text)
  | skipped (rest : Text)

def number (src s : Text) : Option (Token × Text) :=
  (tx src s (s.dropWhile isDigit10)).bind fun y =>
    match Lexer.parseUsize y with
    | .ok n => some (.lit (.int n), s.dropWhile isDigit10)
    | .error _ => none

def operator (src s : Text) : Option R :=
  (tx src s (munch isInfixChar s).2).bind fun y =>
    if y = t!"~" then
      if (munch isInfixChar s).2.head? = some '{' then
        (block (munch isInfixChar s).2.tail 1).map fun r => .skipped r.tail
      else some (.tok (.affix t!"~" false) (munch isInfixChar s).2)
    else if y = t!"~~" then some (.skipped ((munch isInfixChar s).2.dropWhile (· != '\n')))
    else if y = t!"\\" ∨ y = t!"λ" then some (.tok .lambda (munch isInfixChar s).2)
    else if y = t!"-" then some (.tok .dash (munch isInfixChar s).2)
    else if y = t!"->" ∨ y = t!"→" ∨ y = t!"⟶" ∨ y = t!"↦" ∨ y = t!"⟼" then
      some (.tok .arrow (munch isInfixChar s).2)
    else if y = t!"@" then some (.tok .at_ (munch isInfixChar s).2)
    else some (.tok (.affix y false) (munch isInfixChar s).2)

def unicode (src s : Text) : Option (Token × Text) :=
  let s := s.tail
  let s := if s.head? = some '+' then s.tail else s
  if isHexDigit (s.headD '\x00') then
    if (s.dropWhile isHexDigit).head? = some '\'' then
      if (s.takeWhile isHexDigit).length ≤ 6 then
        (tx src s (s.dropWhile isHexDigit)).bind fun y =>
          (Lexer.fromHexStr y).bind fun n =>
            (Lexer.charFromU32 n).map fun c => (.lit (.char c), (s.dropWhile isHexDigit).tail.tail)
      else none
    else none
  else none

def charEscape (src s : Text) : Option (Token × Text) :=
  match s with
  | c :: _ =>
    if c = 'u' ∨ c = 'U' then unicode src s
    else if isEscapable c then
      if s.tail.head? = some '\'' then some (.lit (.char (getEscaped c)), s.tail.tail) else none
    else none
  | [] => none

section
variable [CharTables]

def charLit (src s : Text) : Option (Token × Text) :=
  let s := s.tail
  let c := s.headD '\x00'
  if c = '\'' then none
  else if c = '\\' then charEscape src s.tail
  else if c = '\x00' then none
  else
    if s.tail.head? = some '\'' then some (.lit (.char c), s.tail.tail)
    else if s.tail.head?.any isWhitespace then
      (tx src s s.tail.tail).map fun y => (.affix y true, s.tail.tail)
    else if isIdentStart c then
      (tx src s (munch isIdentChar s.tail).2).map fun y => (.affix y true, (munch isIdentChar s.tail).2)
    else none

def backtick (src s : Text) : Option (Token × Text) :=
  let s := s.tail
  if s.head?.any isIdentStart then
    (tx src s (munch isIdentChar s.tail).2).bind fun y =>
      if (munch isIdentChar s.tail).2.head? = some '`' then
        some (.affix y true, (munch isIdentChar s.tail).2.tail)
      else none
  else none

def ident (src : Text) (c : Char) (s : Text) : Option (Token × Text) :=
  (tx src s (munch isIdentChar s).2).bind fun y =>
    match TLex.word c y with
    | .ok t => some (t, (munch isIdentChar s).2)
    | .error _ => none

def string (s : Text) : Option (Token × Text) :=
  match str (s.tail.length + 1) s.tail false [] with
  | (true, buf, r) => some (.lit (.str buf), r)
  | (false, _, _) => none

def R.of (x : Token × Text) : R := .tok x.1 x.2

def dispatch (src s : Text) (c : Char) : Option R :=
  if c = ';' then some (.tok .semi s.tail)
  else if c = '\'' then (charLit src s).map .of
  else if c = '"' then (string s).map .of
  else if isDigit10 c then (number src s).map .of
  else if c = '`' then (backtick src s).map .of
  else if isIdentStart c then (ident src c s).map .of
  else if c = '(' then some (.tok .parenL s.tail)
  else if c = ')' then some (.tok .parenR s.tail)
  else if c = '[' then some (.tok .brackL s.tail)
  else if c = ']' then some (.tok .brackR s.tail)
  else if c = '{' then some (.tok .curlyL s.tail)
  else if c = '}' then some (.tok .curlyR s.tail)
  else if c = ',' then some (.tok .comma s.tail)
  else if isInfixChar c then operator src s
  else none

def lexN (src : Text) : Nat → Text → Option (Token × Text)
  | 0, s => some (.eof, s)
  | n + 1, s =>
    match s.dropWhile isWhitespace with
    | [] => some (.eof, [])
    | c :: cs =>
      match dispatch src (c :: cs) c with
      | none => none
      | some (.tok t r) => some (t, r)
      | some (.skipped r) => lexN src n r

def lex (src s : Text) : Option (Token × Text) := lexN src (s.length + 1) s

end
end GLex

/-! ### agreement -/
namespace Lexer

/-- What the lexer sees of what is left. -/
def view (l : Lexer) : Text := unCR l.chars

/-- A lexer of `src` whose counters agree with what it has consumed. -/
structure On (src : Text) (l : Lexer) : Prop where
  src_eq : l.src = src
  at_ : ∃ pre, l.At pre

variable {src : Text}

theorem On.reach {l l' : Lexer} (h : l.On src) (hr : Reach true l l') : l'.On src := by
  obtain ⟨hs, pre, hp⟩ := h
  obtain ⟨u, _, hat⟩ := hp.reach hr
  exact ⟨by rw [hr.src, hs], _, hat⟩

theorem On.advance {l : Lexer} (h : l.On src) : l.advance.On src := h.reach (Reach.one l)

theorem unCR_split {l : Lexer} {pre : Text} (h : l.At pre) : unCR l.src = unCR pre ++ l.view := by
  rw [h.src]; exact unCR_append _ _ h.edge

theorem On.pos {l : Lexer} (h : l.On src) : l.pos = GLex.off src l.view := by
  obtain ⟨hs, pre, hp⟩ := h
  have h1 := unCR_split hp
  have h2 := congrArg Loc.pos hp.loc
  rw [hs] at h1
  unfold GLex.off
  rw [h1, utf8Len_append]
  have : l.pos = utf8Len (unCR pre) := h2
  omega

theorem On.slice {l l' m : Lexer} (h : l.On src) (h' : l'.On src) (hm : m.src = src) :
    m.slice l.pos l'.pos = byteSlice! src (GLex.off src l.view) (GLex.off src l'.view) := by
  rw [h.pos, h'.pos, Lexer.slice, hm]

theorem slice_some {s r y : Text} (h : GLex.tx src s r = some y) :
    byteSlice! src (GLex.off src s) (GLex.off src r) = .ok y := by
  unfold GLex.tx at h; unfold byteSlice!; rw [h]

theorem slice_none {s r : Text} (h : GLex.tx src s r = none) :
    byteSlice! src (GLex.off src s) (GLex.off src r) = .error .badSlice := by
  unfold GLex.tx at h; unfold byteSlice!; rw [h]

theorem head_unCR (s : Text) : (unCR s).head? = s.head? := by
  cases s using unCR.induct with
  | case1 cs ih => simp [unCR]
  | case2 c cs hne ih => rw [unCR.eq_2 c cs hne]; rfl
  | case3 => rfl

theorem unCR_nil {s : Text} (h : unCR s = []) : s = [] := by
  cases s using unCR.induct with
  | case1 cs ih => simp [unCR] at h
  | case2 c cs hne ih => rw [unCR.eq_2 c cs hne] at h; cases h
  | case3 => rfl

theorem length_unCR (s : Text) : (unCR s).length ≤ s.length := by
  induction s using unCR.induct with
  | case1 cs ih => simp [unCR]; omega
  | case2 c cs hne ih => rw [unCR.eq_2 c cs hne]; simpa using ih
  | case3 => simp [unCR]

theorem view_advance (l : Lexer) : l.advance.view = l.view.tail := by
  unfold view advance bumpChar
  split
  · rename_i h; simp [h, unCR]
  · rename_i c cs h
    rw [h]
    split
    · rename_i hc
      subst hc
      unfold dropCR
      split
      · simp [unCR]
      · rename_i hne
        rw [unCR.eq_2 '\n' cs (fun ds _ he => hne ds he)]
        rfl
    · rename_i hc
      rw [unCR.eq_2 c cs (fun _ h _ => hc h)]
      rfl

theorem view_cons {l : Lexer} {c : Char} {cs : Text} (h : l.chars = c :: cs) :
    ∃ ds, l.view = c :: ds := by
  have := head_unCR l.chars
  rw [h] at this
  unfold view
  rw [h]
  cases hv : unCR (c :: cs) with
  | nil => rw [hv] at this; cases this
  | cons d ds => rw [hv] at this; injection this with this; exact ⟨ds, by rw [← this]⟩

theorem view_eatWhileN {p : Char → Bool} {n : Nat} {l : Lexer} (hn : l.chars.length ≤ n) :
    (eatWhileN p n l).view = l.view.dropWhile p := by
  induction n generalizing l with
  | zero =>
    have : l.chars = [] := List.length_eq_zero_iff.1 (by omega)
    simp [Lexer.eatWhileN, view, this, unCR]
  | succ n ih =>
    unfold Lexer.eatWhileN
    split
    · rename_i h'; simp [view, h', unCR]
    · rename_i c cs h'
      obtain ⟨ds, hv⟩ := view_cons h'
      split
      · rename_i hp
        rw [ih (by have := advance_length_lt h'; omega), view_advance, hv]
        simp [hp]
      · rename_i hp; rw [hv]; simp [hp]

theorem view_eatWhile (l : Lexer) (p : Char → Bool) : (l.eatWhile p).view = l.view.dropWhile p :=
  view_eatWhileN (Nat.le_refl _)

theorem view_eatWhitespace (l : Lexer) : l.eatWhitespace.view = l.view.dropWhile isWhitespace :=
  view_eatWhile l _

theorem view_trailing (l : Lexer) (p : Char → Bool) :
    (l.eatWithTrailing p).view = (TLex.munch p l.view).2 := by
  unfold eatWithTrailing TLex.munch
  rw [view_eatWhile, view_eatWhile]

theorem onChar_view (l : Lexer) (c : Char) : l.onChar c = (l.view.head? = some c) := by
  rw [onChar_eq, view, head_unCR]

theorem onPred_view (l : Lexer) (p : Char → Bool) : l.onPred p = l.view.head?.any p := by
  rw [onPred_eq, view, head_unCR]

theorem currentChar_view (l : Lexer) : l.currentChar = l.view.headD '\x00' := by
  rw [currentChar_eq, List.headD_eq_head?_getD, List.headD_eq_head?_getD, view, head_unCR]

/-- A result as seen by the grammar. -/
def gproj : Res → Option (Token × Text)
  | .error _ => none
  | .ok (.error _, _) => none
  | .ok (t, l) => some (t, l.view)

def gprojR : Except Panic OpRes → Option GLex.R
  | .error _ => none
  | .ok (.tok (.error _) _) => none
  | .ok (.tok t l) => some (.tok t l.view)
  | .ok (.skipped l) => some (.skipped l.view)

theorem gproj_toOp (r : Res) : gprojR r.toOp = (gproj r).map GLex.R.of := by
  cases r with
  | error p => rfl
  | ok x =>
    obtain ⟨t, l⟩ := x
    cases t <;> rfl

theorem any_number {l : Lexer} (h : l.On src) : gproj l.number = GLex.number src l.view := by
  unfold number GLex.number
  simp only
  rw [h.slice (h.reach (reach_eatWhile l isDigit10)) h.src_eq, view_eatWhile]
  cases hy : GLex.tx src l.view (l.view.dropWhile isDigit10) with
  | none => rw [slice_none hy]; rfl
  | some y =>
    rw [slice_some hy]
    simp only [bind, Except.bind, Option.bind]
    cases parseUsize y with
    | error e => rfl
    | ok n => simp only [gproj, view_eatWhile]

theorem any_blockLoop {n : Nat} {l : Lexer} (d : Nat) (e : Loc) (hn : l.chars.length < n) :
    TLex.block l.view d =
      if (blockLoop n l d e).1 then none else some (blockLoop n l d e).2.2.view := by
  induction n generalizing l d e with
  | zero => omega
  | succ n ih =>
    unfold blockLoop
    cases d with
    | zero => simp [TLex.block]
    | succ d =>
      rw [if_neg (Nat.succ_ne_zero d)]
      split
      · rename_i h'
        have : l.view = [] := by unfold view; rw [h']; rfl
        rw [this]; simp [TLex.block]
      · rename_i c cs h'
        have hlen := advance_length_lt h'
        obtain ⟨ds, hv⟩ := view_cons h'
        have hadv : l.advance.view = ds := by rw [view_advance, hv]; rfl
        split
        · rename_i hc; subst hc
          simp only [onChar_view]
          split
          · rename_i h2
            have := ih (l := l.advance) (d + 2) e (by omega)
            rw [hadv] at this h2
            rw [hv, TLex.block, if_pos (by simpa using h2)]; exact this
          · rename_i h2
            have := ih (l := l.advance) (d + 1) e (by omega)
            rw [hadv] at this h2
            rw [hv, TLex.block, if_neg (by simpa using h2)]; exact this
        · rename_i hc
          split
          · rename_i hc; subst hc
            simp only [onChar_view]
            split
            · rename_i h2
              rw [hadv] at h2
              have hle := (advance_chars_suffix l.advance).length_le
              have := ih (l := l.advance.advance) d e (by omega)
              rw [view_advance, hadv] at this
              cases ds with
              | nil => simp at h2
              | cons a b =>
                have : a = '~' := by simpa using h2
                subst this
                rw [hv, TLex.block]; simpa using this
            · rename_i h2
              have := ih (l := l.advance) (d + 1) e (by omega)
              rw [hadv] at this h2
              rw [hv, TLex.block]
              · exact this
              · exact hc
              · intro cs' _ hcs; subst hcs; simp at h2
          · rename_i hc2
            have := ih (l := l.advance) (d + 1) l.prevLoc (by omega)
            rw [hadv] at this
            rw [hv, TLex.block]
            · exact this
            · exact hc
            · intro cs' hcs _; exact hc2 hcs

theorem any_blockComment (l : Lexer) :
    (TLex.block l.view 1 = none ∧ ∃ e, l.blockComment.1 = some e) ∨
    (∃ r, TLex.block l.view 1 = some r ∧ l.blockComment.1 = none ∧ l.blockComment.2.view = r.tail) := by
  have hb := any_blockLoop (l := l) 1 l.prevLoc (n := l.chars.length + 1) (by omega)
  unfold blockComment
  generalize hx : blockLoop (l.chars.length + 1) l 1 l.prevLoc = x at *
  obtain ⟨i, e, m⟩ := x
  cases i with
  | true => exact .inl ⟨by simpa using hb, _, rfl⟩
  | false => exact .inr ⟨m.view, by simpa using hb, rfl, view_advance m⟩

theorem any_stringLoop {n : Nat} {l : Lexer} (esc : Bool) (buf : Text) :
    TLex.str n l.view esc buf =
      ((stringLoop n l esc buf).1, (stringLoop n l esc buf).2.1, (stringLoop n l esc buf).2.2.view) := by
  induction n generalizing l esc buf with
  | zero => simp [TLex.str, stringLoop]
  | succ n ih =>
    cases hch : l.chars with
    | nil =>
      have : l.bumpChar = (none, l) := by unfold bumpChar; rw [hch]
      have hv : l.view = [] := by unfold view; rw [hch]; rfl
      simp [TLex.str, stringLoop, this, hv]
    | cons c cs =>
      obtain ⟨ds, hv⟩ := view_cons hch
      have hadv : l.advance.view = ds := by rw [view_advance, hv]; rfl
      have hws : l.advance.eatWhitespace.view = ds.dropWhile isWhitespace := by
        rw [view_eatWhitespace, hadv]
      rw [hv]
      unfold TLex.str stringLoop
      rw [bumpChar_of hch]
      simp only
      split
      · split
        · rw [← ih, hadv]
        · split
          · rw [← ih, hws]
          · rw [← ih, hadv]
      · split
        · rw [hadv]
        · split
          · rw [← ih, hadv]
          · rw [← ih, hadv]

theorem stringLoop_fuel {n k : Nat} {s : Text} {esc : Bool} {buf : Text} (hn : s.length < n)
    (hk : s.length < k) : TLex.str n s esc buf = TLex.str k s esc buf := by
  induction n generalizing s k esc buf with
  | zero => omega
  | succ n ih =>
    cases k with
    | zero => omega
    | succ k =>
      cases s with
      | nil => rfl
      | cons c cs =>
        have := (List.dropWhile_suffix (l := cs) isWhitespace).length_le
        simp only [List.length_cons] at hn hk
        unfold TLex.str
        rw [ih (s := cs) (k := k) (esc := false) (by omega) (by omega),
          ih (s := cs) (k := k) (esc := true) (by omega) (by omega),
          ih (s := cs) (k := k) (esc := false) (buf := buf ++ [c]) (by omega) (by omega),
          ih (s := cs.dropWhile isWhitespace) (k := k) (esc := false) (by omega) (by omega)]

theorem any_string (l : Lexer) : gproj (.ok l.string) = GLex.string l.view := by
  have h1 := any_stringLoop (l := l.advance) (n := l.advance.chars.length + 1) false []
  have hle := length_unCR l.advance.chars
  rw [stringLoop_fuel (k := l.advance.view.length + 1) (by unfold view; omega) (by omega)] at h1
  unfold string GLex.string
  rw [← view_advance, h1]
  simp only
  generalize stringLoop (l.advance.chars.length + 1) l.advance false [] = x
  obtain ⟨i, b, m⟩ := x
  cases i <;> rfl

theorem any_operator {l : Lexer} (h : l.On src) :
    gprojR l.operator = GLex.operator src l.view := by
  have ho := h.reach (reach_eatWithTrailing l isInfixChar)
  have hch := view_trailing l isInfixChar
  unfold operator GLex.operator
  simp only
  rw [h.slice ho ho.src_eq, hch]
  cases hy : GLex.tx src l.view (TLex.munch isInfixChar l.view).2 with
  | none => rw [slice_none hy]; rfl
  | some y =>
    rw [slice_some hy]
    simp only [bind, Except.bind, Option.bind, onChar_view, hch]
    split
    · split
      · rcases any_blockComment (l.eatWithTrailing isInfixChar).advance with ⟨h1, e, h2⟩ | ⟨r, h1, h2, h3⟩
        · rw [view_advance, hch] at h1
          rw [h1]
          split
          · rfl
          · rename_i m hx; rw [hx] at h2; cases h2
        · rw [view_advance, hch] at h1
          rw [h1]
          split
          · rename_i e' m hx; rw [hx] at h2; cases h2
          · rename_i m hx; rw [hx] at h3; simp only at h3
            simp only [gprojR, Option.map, h3]
      · simp only [gprojR, hch]
    · repeat' split
      all_goals simp only [gprojR, lineComment, view_eatWhile, hch]

theorem any_unicode {l : Lexer} (h : l.On src) (loc : Loc) :
    gproj (l.unicodeEscape loc) = GLex.unicode src l.view := by
  have hplus : Reach true l (if l.advance.onChar '+' then l.advance.advance else l.advance) := by
    split
    · exact (Reach.one l).adv
    · exact Reach.one l
  have hch : (if l.advance.onChar '+' then l.advance.advance else l.advance).view =
      if l.view.tail.head? = some '+' then l.view.tail.tail else l.view.tail := by
    simp only [onChar_view, view_advance]
    split
    · rw [view_advance, view_advance]
    · rw [view_advance]
  have hm := h.reach hplus
  unfold unicodeEscape GLex.unicode
  simp only [bind, Except.bind]
  revert hplus hm hch
  generalize (if l.advance.onChar '+' then l.advance.advance else l.advance) = m
  generalize (if l.view.tail.head? = some '+' then l.view.tail.tail else l.view.tail) = s
  intro _ hch hm
  have he := view_eatWhile m isHexDigit
  have ho := hm.reach (reach_eatWhile m isHexDigit)
  simp only [currentChar_view, hch]
  rw [hch] at he
  split
  · rename_i hx
    simp only [onChar_view, he]
    split
    · have hpos : (m.eatWhile isHexDigit).pos = m.pos + (s.takeWhile isHexDigit).length := by
        obtain ⟨_, pre, hp⟩ := hm
        obtain ⟨u, hu, hp'⟩ := hp.reach (reach_eatWhile m isHexDigit)
        have e1 := unCR_split hp
        have e2 := unCR_split hp'
        rw [(reach_eatWhile (b := true) m isHexDigit).src, e1, he, hch] at e2
        have hpre : unCR (pre ++ u) = unCR pre ++ s.takeWhile isHexDigit := by
          have : unCR pre ++ (s.takeWhile isHexDigit ++ s.dropWhile isHexDigit) =
              unCR (pre ++ u) ++ s.dropWhile isHexDigit := by
            rw [List.takeWhile_append_dropWhile]; exact e2
          rw [← List.append_assoc] at this
          exact (List.append_cancel_right this).symm
        have l1 : m.pos = utf8Len (unCR pre) := congrArg Loc.pos hp.loc
        have l2 : (m.eatWhile isHexDigit).pos = utf8Len (unCR (pre ++ u)) := congrArg Loc.pos hp'.loc
        rw [l2, hpre, utf8Len_append, utf8Len_hex (all_takeWhile _ _), ← l1]
      have hds : (s.takeWhile isHexDigit) ≠ [] := by
        cases s with
        | nil => simp [isHexDigit] at hx
        | cons c cs => simp at hx; simp [hx]
      have hlen : 0 < (s.takeWhile isHexDigit).length := List.length_pos_iff.2 hds
      rw [if_neg (by omega), show (m.eatWhile isHexDigit).pos - m.pos = (s.takeWhile isHexDigit).length by omega]
      split
      · rw [hm.slice ho ho.advance.advance.src_eq, he, hch]
        cases hy : GLex.tx src s (s.dropWhile isHexDigit) with
        | none => rw [slice_none hy]; rfl
        | some y =>
          rw [slice_some hy]
          simp only [Option.bind]
          cases hf : fromHexStr y with
          | none => rfl
          | some n =>
            simp only
            cases hc : charFromU32 n with
            | none => rfl
            | some c => simp only [gproj, view_advance, he, Option.map]
      · rw [hm.slice ho ho.advance.src_eq, he, hch]
        cases hy : GLex.tx src s (s.dropWhile isHexDigit) with
        | none => rw [slice_none hy]; rfl
        | some y => rw [slice_some hy]; rfl
    · rfl
  · rfl

theorem any_charEscape {l : Lexer} (h : l.On src) (loc : Loc) :
    gproj (l.charEscape loc) = GLex.charEscape src l.view := by
  unfold charEscape GLex.charEscape
  cases hch : l.chars with
  | nil =>
    have : l.view = [] := by unfold view; rw [hch]; rfl
    rw [this]; rfl
  | cons c cs =>
    obtain ⟨ds, hv⟩ := view_cons hch
    rw [hv]
    simp only
    split
    · rw [any_unicode h, hv]
    · split
      · simp only [onChar_view, view_advance, hv]
        split
        · simp only [gproj, view_advance, hv]
        · rfl
      · rfl

section
variable [CharTables]

theorem any_charLit {l : Lexer} (h : l.On src) : gproj l.charLit = GLex.charLit src l.view := by
  unfold charLit GLex.charLit
  simp only [onChar_view, onPred_view, currentChar_view, view_advance]
  split
  · rfl
  split
  · rw [any_charEscape h.advance.advance, view_advance, view_advance]
  split
  · rfl
  split
  · simp only [gproj, view_advance]
  split
  · rw [h.advance.slice h.advance.advance.advance h.advance.advance.advance.src_eq]
    simp only [view_advance]
    cases hy : GLex.tx src l.view.tail l.view.tail.tail.tail with
    | none => rw [slice_none hy]; rfl
    | some y => rw [slice_some hy]; simp only [bind, Except.bind, gproj, view_advance, Option.map]
  split
  · have ho := h.advance.advance.reach (reach_eatWithTrailing _ isIdentChar)
    rw [h.advance.slice ho ho.src_eq]
    simp only [view_advance, view_trailing]
    cases hy : GLex.tx src l.view.tail (TLex.munch isIdentChar l.view.tail.tail).2 with
    | none => rw [slice_none hy]; rfl
    | some y =>
      rw [slice_some hy]
      simp only [bind, Except.bind, gproj, view_advance, view_trailing, Option.map]
  · rfl

theorem any_backtick {l : Lexer} (h : l.On src) : gproj l.backtick = GLex.backtick src l.view := by
  unfold backtick GLex.backtick promotedOperator
  simp only [onChar_view, onPred_view, view_advance, view_trailing]
  split
  · have ho := h.advance.advance.reach (reach_eatWithTrailing _ isIdentChar)
    rw [h.advance.slice ho ho.src_eq]
    simp only [view_advance, view_trailing]
    cases hy : GLex.tx src l.view.tail (TLex.munch isIdentChar l.view.tail.tail).2 with
    | none => rw [slice_none hy]; rfl
    | some y =>
      rw [slice_some hy]
      simp only [bind, Except.bind, Option.bind]
      split
      · simp only [gproj, view_advance, view_trailing]
      · rfl
  · generalize hx : slice _ _ _ = x
    cases x <;> rfl

theorem any_ident {l : Lexer} (h : l.On src) (c : Char) :
    gproj (l.ident c) = GLex.ident src c l.view := by
  have ho := h.reach (reach_eatWithTrailing l isIdentChar)
  have hch := view_trailing l isIdentChar
  unfold ident GLex.ident
  simp only
  rw [h.slice ho ho.src_eq, hch]
  cases hy : GLex.tx src l.view (TLex.munch isIdentChar l.view).2 with
  | none => rw [slice_none hy]; rfl
  | some y =>
    rw [slice_some hy]
    simp only [bind, Except.bind, Option.bind, TLex.word]
    split
    · simp only [gproj, hch]
    split
    · simp only [gproj, hch]
    split
    · simp only [gproj, hch]
    split
    · simp only [gproj, hch]
    split
    · simp only [gproj, hch]
    split
    · simp only [gproj, hch]
    unfold identifier
    by_cases hl : isLowercase c = true
    · by_cases hu : isUppercase c = true
      · simp only [hl, hu, if_true, gproj, hch]
      · simp only [hl, hu, if_true, gproj, hch, Bool.false_eq_true, if_false]
    · simp only [hl, Bool.false_eq_true, if_false, gproj]

theorem any_dispatch {l : Lexer} (h : l.On src) (c : Char) :
    gprojR (l.dispatch c) = GLex.dispatch src l.view c := by
  unfold dispatch GLex.dispatch
  rw [← view_advance]
  by_cases hc : c = ';'
  · rw [if_pos hc, if_pos hc]; rfl
  rw [if_neg hc, if_neg hc]; clear hc
  by_cases hc : c = '\''
  · rw [if_pos hc, if_pos hc]; rw [gproj_toOp, any_charLit h]
  rw [if_neg hc, if_neg hc]; clear hc
  by_cases hc : c = '"'
  · rw [if_pos hc, if_pos hc]
    rw [← any_string]
    show gprojR (.ok (.tok l.string.1 l.string.2)) = _
    generalize l.string = x
    obtain ⟨t, m⟩ := x
    cases t <;> rfl
  rw [if_neg hc, if_neg hc]; clear hc
  by_cases hc : isDigit10 c = true
  · rw [if_pos hc, if_pos hc]; rw [gproj_toOp, any_number h]
  rw [if_neg hc, if_neg hc]; clear hc
  by_cases hc : c = '`'
  · rw [if_pos hc, if_pos hc]; rw [gproj_toOp, any_backtick h]
  rw [if_neg hc, if_neg hc]; clear hc
  by_cases hc : isIdentStart c = true
  · rw [if_pos hc, if_pos hc]; rw [gproj_toOp, any_ident h]
  rw [if_neg hc, if_neg hc]; clear hc
  by_cases hc : c = '('
  · rw [if_pos hc, if_pos hc]; rfl
  rw [if_neg hc, if_neg hc]; clear hc
  by_cases hc : c = ')'
  · rw [if_pos hc, if_pos hc]; rfl
  rw [if_neg hc, if_neg hc]; clear hc
  by_cases hc : c = '['
  · rw [if_pos hc, if_pos hc]; rfl
  rw [if_neg hc, if_neg hc]; clear hc
  by_cases hc : c = ']'
  · rw [if_pos hc, if_pos hc]; rfl
  rw [if_neg hc, if_neg hc]; clear hc
  by_cases hc : c = '{'
  · rw [if_pos hc, if_pos hc]; rfl
  rw [if_neg hc, if_neg hc]; clear hc
  by_cases hc : c = '}'
  · rw [if_pos hc, if_pos hc]; rfl
  rw [if_neg hc, if_neg hc]; clear hc
  by_cases hc : c = ','
  · rw [if_pos hc, if_pos hc]; rfl
  rw [if_neg hc, if_neg hc]; clear hc
  by_cases hc : isInfixChar c = true
  · rw [if_pos hc, if_pos hc]; exact any_operator h
  rw [if_neg hc, if_neg hc]; clear hc
  rfl

theorem any_lexN {n : Nat} {l : Lexer} (h : l.On src) :
    gproj (lexN n l) = GLex.lexN src n l.view := by
  induction n generalizing l with
  | zero => rfl
  | succ n ih =>
    unfold lexN GLex.lexN
    have hs := h.reach (reach_eatWhitespace l)
    rw [← view_eatWhitespace]
    cases h' : l.eatWhitespace.chars with
    | nil =>
      have : l.eatWhitespace.view = [] := by unfold view; rw [h']; rfl
      simp only [gproj, this]
    | cons c cs =>
      obtain ⟨ds, hv⟩ := view_cons h'
      have hd := any_dispatch hs c
      rw [hv] at hd ⊢
      simp only
      rw [← hd]
      cases hx : l.eatWhitespace.dispatch c with
      | error p => rfl
      | ok r =>
        cases r with
        | tok t m => cases t <;> rfl
        | skipped m => exact ih (hs.reach (reach_dispatch hx))

end
end Lexer

/-! ### fuel -/
namespace GLex
open TLex (munch block str)

theorem operator_skipped {src : Text} {c : Char} {cs r : Text} (hc : isInfixChar c = true)
    (h : operator src (c :: cs) = some (.skipped r)) : r.length < (c :: cs).length := by
  have hm := TLex.munch_length (cs := cs) hc
  unfold operator at h
  rw [Option.bind_eq_some_iff] at h
  obtain ⟨y, _, h⟩ := h
  split at h
  · split at h
    · rw [Option.map_eq_some_iff] at h
      obtain ⟨r', hr, h⟩ := h
      injection h with h
      have := TLex.block_length hr
      subst h
      simp only [List.length_tail, List.length_cons] at *
      omega
    · cases h
  · split at h
    · injection h with h
      injection h with h
      subst h
      have := (List.dropWhile_suffix (l := (munch isInfixChar (c :: cs)).2) (· != '\n')).length_le
      simp only [List.length_cons] at *
      omega
    · repeat' split at h
      all_goals cases h

section
variable [CharTables]

theorem dispatch_skipped {src : Text} {c : Char} {s r : Text}
    (h : dispatch src s c = some (.skipped r)) :
    isInfixChar c = true ∧ operator src s = some (.skipped r) := by
  have key : ∀ x : Option (Token × Text), x.map R.of ≠ some (.skipped r) := by
    intro x hx
    cases x <;> cases hx
  unfold dispatch at h
  by_cases hc : c = ';'
  · rw [if_pos hc] at h; cases h
  rw [if_neg hc] at h; clear hc
  by_cases hc : c = '\''
  · rw [if_pos hc] at h; exact absurd h (key _)
  rw [if_neg hc] at h; clear hc
  by_cases hc : c = '"'
  · rw [if_pos hc] at h; exact absurd h (key _)
  rw [if_neg hc] at h; clear hc
  by_cases hc : isDigit10 c = true
  · rw [if_pos hc] at h; exact absurd h (key _)
  rw [if_neg hc] at h; clear hc
  by_cases hc : c = '`'
  · rw [if_pos hc] at h; exact absurd h (key _)
  rw [if_neg hc] at h; clear hc
  by_cases hc : isIdentStart c = true
  · rw [if_pos hc] at h; exact absurd h (key _)
  rw [if_neg hc] at h; clear hc
  by_cases hc : c = '('
  · rw [if_pos hc] at h; cases h
  rw [if_neg hc] at h; clear hc
  by_cases hc : c = ')'
  · rw [if_pos hc] at h; cases h
  rw [if_neg hc] at h; clear hc
  by_cases hc : c = '['
  · rw [if_pos hc] at h; cases h
  rw [if_neg hc] at h; clear hc
  by_cases hc : c = ']'
  · rw [if_pos hc] at h; cases h
  rw [if_neg hc] at h; clear hc
  by_cases hc : c = '{'
  · rw [if_pos hc] at h; cases h
  rw [if_neg hc] at h; clear hc
  by_cases hc : c = '}'
  · rw [if_pos hc] at h; cases h
  rw [if_neg hc] at h; clear hc
  by_cases hc : c = ','
  · rw [if_pos hc] at h; cases h
  rw [if_neg hc] at h; clear hc
  by_cases hc : isInfixChar c = true
  · rw [if_pos hc] at h; exact ⟨hc, h⟩
  rw [if_neg hc] at h; clear hc
  cases h

theorem lexN_fuel {src : Text} {n k : Nat} {s : Text} (hn : s.length < n) (hk : s.length < k) :
    lexN src n s = lexN src k s := by
  induction n generalizing s k with
  | zero => omega
  | succ n ih =>
    cases k with
    | zero => omega
    | succ k =>
      unfold lexN
      cases hch : s.dropWhile isWhitespace with
      | nil => rfl
      | cons c cs =>
        simp only
        cases hd : dispatch src (c :: cs) c with
        | none => rfl
        | some r =>
          cases r with
          | tok t m => rfl
          | skipped m =>
            obtain ⟨h1, h2⟩ := dispatch_skipped hd
            have h3 := operator_skipped h1 h2
            have h4 := (List.dropWhile_suffix (l := s) isWhitespace).length_le
            rw [hch] at h4
            exact ih (by omega) (by omega)

theorem lex_eq {src : Text} {n : Nat} {s : Text} (h : s.length < n) : lexN src n s = lex src s :=
  lexN_fuel h (Nat.lt_succ_self _)

theorem lex_cons {src : Text} {c : Char} {cs : Text} (h : isWhitespace c = false) :
    lex src (c :: cs) = match dispatch src (c :: cs) c with
      | none => none
      | some (.tok t r) => some (t, r)
      | some (.skipped r) => lex src r := by
  unfold lex
  rw [lexN]
  simp only [List.dropWhile_cons, h, Bool.false_eq_true, if_false]
  cases hd : dispatch src (c :: cs) c with
  | none => rfl
  | some x =>
    cases x with
    | tok t r => rfl
    | skipped r =>
      obtain ⟨h1, h2⟩ := dispatch_skipped hd
      exact lex_eq (operator_skipped h1 h2)

theorem lex_space {src : Text} {c : Char} {cs : Text} (h : isWhitespace c = true) :
    lex src (c :: cs) = lex src cs := by
  rw [← lex_eq (n := (c :: cs).length + 1) (s := cs) (by simp; omega), lex, lexN, lexN]
  simp only [List.dropWhile_cons, h, if_true]

theorem lex_dropWhile (src s : Text) : lex src (s.dropWhile isWhitespace) = lex src s := by
  induction s with
  | nil => rfl
  | cons c s ih =>
    rw [List.dropWhile_cons]
    split
    · rename_i h; rw [ih, lex_space h]
    · rfl

theorem lex_nil (src : Text) : lex src [] = some (.eof, []) := rfl

end
end GLex

namespace Lexer
variable [CharTables]

theorem any_lex {src : Text} {l : Lexer} (h : l.On src) : gproj l.lex = GLex.lex src l.view := by
  unfold lex
  rw [any_lexN h]
  have := length_unCR l.chars
  exact GLex.lex_eq (by unfold view; omega)

omit [CharTables] in
theorem on_new (src : Text) : (new src).On src :=
  ⟨by unfold Lexer.new; exact (reach_eatWhitespace _).src, At.eatWhitespace_new src⟩

omit [CharTables] in
theorem view_new (src : Text) : (new src).view = (unCR src).dropWhile isWhitespace := by
  unfold new
  exact view_eatWhitespace _

end Lexer
end Pemdas
