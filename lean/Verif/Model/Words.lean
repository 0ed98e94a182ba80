import Verif.Model.Lexer
/-
The counters of the lexer as machine words. `Model/Lexer` counts with natural numbers; here the
additions are checked, the way they are in a debug build, where an overflow is a panic.
-/
namespace Pemdas
namespace Lexer

/-- Greatest `u32` (`Row`, `Col`, token.rs:5-6), `usize` (`BytePos`, token.rs:7; 64 bits) and `i32`
(the type of `depth`, lexer.rs:418, an integer variable without a declared type). -/
def maxU32 : Nat := 2 ^ 32 - 1
def maxUsize : Nat := 2 ^ 64 - 1
def maxI32 : Nat := 2 ^ 31 - 1

/-- `bump_char` (lexer.rs:90-106) with the additions of lines 92, 95 and 100 checked; `none` is
the panic "attempt to add with overflow". -/
def bumpCharChecked (l : Lexer) : Option (Option Char × Lexer) :=
  match l.chars with
  | [] => some (none, l)
  | c :: cs =>
    if maxUsize < l.pos + c.utf8Size then none
    else if c = '\n' then
      if maxU32 < l.line + 1 then none
      else some (some c, { l with chars := dropCR cs, pos := l.pos + c.utf8Size,
                                  col := 1, line := l.line + 1 })
    else if maxU32 < l.col + 1 then none
    else some (some c, { l with chars := cs, pos := l.pos + c.utf8Size, col := l.col + 1 })

/-- The loop of `block_comment` (lexer.rs:422-450) with the addition of line 434 checked; `none`
is the panic "attempt to add with overflow". -/
def blockLoopChecked : Nat → Lexer → Nat → Loc → Option (Bool × Loc × Lexer)
  | 0, l, _, e => some (true, e, l)
  | n + 1, l, depth, e =>
    if depth = 0 then some (false, e, l)
    else
      match l.chars with
      | [] => some (true, e, l)
      | c :: _ =>
        if c = '~' then
          let l := l.advance
          if l.onChar '{' then
            if maxI32 < depth + 1 then none else blockLoopChecked n l (depth + 1) e
          else blockLoopChecked n l depth e
        else if c = '}' then
          let l := l.advance
          if l.onChar '~' then blockLoopChecked n l.advance (depth - 1) e
          else blockLoopChecked n l depth e
        else blockLoopChecked n l.advance depth l.prevLoc

end Lexer
end Pemdas
