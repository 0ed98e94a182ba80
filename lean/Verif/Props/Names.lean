import Verif.Props.LexerTokens
import Verif.Props.SessionCmds
/-
C71 for names of one character, C58 for all arguments.
-/
namespace Pemdas
namespace Lexer
section
variable [CharTables] [LawfulTables]

/-- C71 exactly, for names of one character after an apostrophe in sources without "\n\r": whitespace
after it becomes part of the name, an apostrophe makes it a character literal, and otherwise, if it
is not continued, it is the name. -/
theorem C71_one_character_partial {src : Text} (hc : NoLFCR src) {l : Lexer} (hl : Point src l)
    {c : Char} (hid : isIdentStart c = true) (rest : Text) :
    (∀ w, isWhitespace w = true → l.chars = '\'' :: c :: w :: rest →
      ∃ sp l', l.next = .ok (some (.affix [c, w] true, sp), l') ∧ l'.chars = rest) ∧
    (l.chars = '\'' :: c :: '\'' :: rest →
      ∃ sp l', l.next = .ok (some (.lit (.char c), sp), l') ∧ l'.chars = rest) ∧
    ((∀ e ∈ rest.head?, isIdentChar e = false ∧ isTrailing e = false ∧ isWhitespace e = false) →
      l.chars = '\'' :: c :: rest →
      ∃ sp l', l.next = .ok (some (.affix [c] true, sp), l') ∧ l'.chars = rest) := by
  have hasc : ∀ e : Char, e.toNat < 128 → (e == '_' || (asciiUpper e || asciiLower e)) = false →
      c ≠ e := by
    rintro e hd1 hd2 rfl
    rw [TLex.ascii_identStart hd1, hd2] at hid
    cases hid
  have h1 := hasc '\'' (by decide) (by decide)
  have h2 := hasc '\\' (by decide) (by decide)
  have h3 := hasc '\x00' (by decide) (by decide)
  have fin : ∀ {t : Token}, TLex.lex l.chars = .ok (t, rest) → t ≠ .eof → t.noLoc = t →
      (∀ t', Token.noLoc t' = t.noLoc → t' = t) →
      ∃ sp l', l.next = .ok (some (t, sp), l') ∧ l'.chars = rest := by
    intro t hlex hne hnl hinj
    obtain ⟨t', sp, l', h1, h2, h3⟩ := (hl.sync hc).next hlex hne
    exact ⟨sp, l', by rw [h1, hinj t' (by rw [h2, hnl])], h3⟩
  have hq : isWhitespace '\'' = false := by decide
  refine ⟨fun w hw h => ?_, fun h => ?_, fun hr h => ?_⟩
  · have hwq : w ≠ '\'' := by rintro rfl; rw [hq] at hw; cases hw
    refine fin (t := .affix [c, w] true) ?_ (by simp) rfl
      (by intro t'; cases t' <;> simp [Token.noLoc])
    rw [h, TLex.lex_cons (by decide)]
    unfold TLex.dispatch
    rw [if_neg (by decide), if_pos rfl]
    unfold TLex.charLit
    simp only [List.tail_cons, List.headD_cons, if_neg h1, if_neg h2, if_neg h3, List.head?_cons,
      Option.some.injEq, if_neg hwq, Option.any_some, hw, if_true, TLex.R.of]
    simp
  · refine fin (t := .lit (.char c)) ?_ (by simp) rfl
      (by intro t'; cases t' <;> simp [Token.noLoc])
    rw [h, TLex.lex_cons (by decide)]
    unfold TLex.dispatch
    rw [if_neg (by decide), if_pos rfl]
    unfold TLex.charLit
    simp only [List.tail_cons, List.headD_cons, if_neg h1, if_neg h2, if_neg h3, List.head?_cons,
      if_true, TLex.R.of]
  · have hm := TLex.munch_eq (p := isIdentChar) (x := []) (r := rest) ⟨[], [], rfl, rfl, rfl⟩
      (fun e he => ⟨(hr e he).1, (hr e he).2.1⟩)
    refine fin (t := .affix [c] true) ?_ (by simp) rfl
      (by intro t'; cases t' <;> simp [Token.noLoc])
    rw [h, TLex.lex_cons (by decide)]
    unfold TLex.dispatch
    rw [if_neg (by decide), if_pos rfl]
    unfold TLex.charLit
    have hne : rest.head? ≠ some '\'' := by
      intro he
      have := (hr '\'' he).1
      rw [TLex.ascii_identChar (by decide)] at this
      revert this; decide
    have hnw : rest.head?.any isWhitespace = false := by
      cases rest with
      | nil => rfl
      | cons e rest => exact (hr e rfl).2.2
    rw [List.nil_append] at hm
    simp only [List.tail_cons, List.headD_cons, if_neg h1, if_neg h2, if_neg h3, if_neg hne, hnw, hid,
      if_true, hm, TLex.R.of]
    simp

example : @isIdentStart asciiTables 'f' = true ∧ isWhitespace ' ' = true := by decide

end
end Lexer

namespace Session
section
variable [CharTables] [LawfulTables]

/-- C58 for all arguments: the files opened by `:load` are its arguments, in order, except that an
argument that starts and ends with a double quote loses its first character only. -/
theorem C58_opened_partial {w : World} {s s' : Session} {line o : Text} {ws : List Text} {b : Bool}
    {fx : List Effect} (hb : s.buffer = []) (hl : SaysWith line t!":load" o)
    (h1 : o ≠ t!"--math") (h2 : o ≠ t!"--prelude") (hw : Words o ws)
    (h : step w s line = .ok (b, s', fx)) :
    filesRead fx = ws.map fun p => if t!"\"" <+: p ∧ t!"\"" <:+ p then p.tail else p :=
  load_reads hb hl h1 h2 hw h

end
end Session
end Pemdas
