import Verif.Props.ListingUnique
import Verif.Props.SessionMore
import Verif.Props.Setup
/-
What is shown for an operator (C174), where files are (C79, C125), and spans the wrong way round (C116).
-/
namespace Pemdas

/-! ### C174 -/

/-- **C174** A symbolic operator is shown as it is, a promoted one after an apostrophe, and the one
whose name is an apostrophe between backticks. -/
theorem C174_text (op : Infix) : op.text = match op with
    | .standard s => s
    | .promoted s => if s = t!"'" then t!"`'`" else '\'' :: s := by
  cases op with
  | standard s => rfl
  | promoted s =>
    unfold Infix.text
    simp only
    by_cases h : s = t!"'"
    · subst h; decide
    · rw [if_neg h, if_neg]
      rintro ⟨h1, h2⟩
      obtain ⟨x, rfl⟩ : ∃ x, x ++ t!"'" = s := by
        rw [endsWith, List.isSuffixOf_iff_suffix] at h2
        exact h2
      rw [utf8Len_append] at h1
      have h3 : utf8Len t!"'" = 1 := rfl
      have : x = [] := (utf8Len_eq_zero x).1 (by omega)
      subst this
      exact h rfl

section
variable [CharTables] [LawfulTables]

/-- **C174** (the part that holds) Of the operators read from sources without a line feed directly
followed by a carriage return, different ones are shown differently. Missing: other sources, see
`C174_wrong`. -/
theorem C174_shown_partial {src src' : Text} (hc : NoLFCR src) (hc' : NoLFCR src') {n n' : Nat}
    {xs xs' : List (Token × LocSpan)} (h : Lexer.items n (Lexer.new src) = .ok xs)
    (h' : Lexer.items n' (Lexer.new src') = .ok xs') {x x' : Token × LocSpan} (hx : x ∈ xs) (hx' : x' ∈ xs')
    {op op' : Infix} (ho : OpTok op x.1) (ho' : OpTok op' x'.1) : op.text = op'.text ↔ op = op' := by
  refine ⟨fun e => ?_, fun e => e ▸ rfl⟩
  have k := Lexer.items_lexed hc .new h x hx
  have k' := Lexer.items_lexed hc' .new h' x' hx'
  have std : ∀ {src : Text} {t : Token} {s : Text}, t.LexedFrom src → OpTok (.standard s) t →
      s.head? ≠ some '\'' ∧ s.head? ≠ some '`' := by
    intro src t s hl ho
    cases ho with
    | dash => decide
    | at_ => decide
    | standard s =>
      obtain ⟨c, y, rfl, hc, -⟩ := hl
      constructor <;>
      · intro e
        simp only [List.head?_cons, Option.some.injEq] at e
        subst e
        exact absurd hc (by decide)
  rw [C174_text, C174_text] at e
  cases op with
  | standard s =>
    cases op' with
    | standard s' => exact congrArg _ e
    | promoted s' =>
      obtain ⟨h1, h2⟩ := std k ho
      simp only at e
      split at e <;> subst e
      · exact absurd rfl h2
      · exact absurd rfl h1
  | promoted s =>
    cases op' with
    | standard s' =>
      obtain ⟨h1, h2⟩ := std k' ho'
      simp only at e
      split at e <;> subst e
      · exact absurd rfl h2
      · exact absurd rfl h1
    | promoted s' =>
      simp only at e
      split at e <;> split at e
      · rename_i a b; rw [a, b]
      · cases e
      · cases e
      · cases e; rfl

end

section
attribute [local instance] asciiTables asciiTables_lawful

/-- C174 is false for other sources: here two different operators are both shown as `'+`. -/
theorem C174_shown_wrong :
    (parse t!"\n\r'a'++ \n\r\n\r'+'`f` 'b'").value? = some ⟨[.expr], [],
      [.bin (.lit (.char 'a')) (.standard t!"'+")
        (.bin (.lit (.char '+')) (.promoted t!"+") (.lit (.char 'b')))]⟩ ∧
    (Infix.standard t!"'+").text = (Infix.promoted t!"+").text := by decide +kernel

/-- An operator whose name is an apostrophe can be read, too. -/
example : (parse t!"\n\ra 'b(c)").value? = some ⟨[.expr], [],
    [.bin (.var (.lower t!"\r")) (.promoted t!"'") (.grp (.var (.lower t!"(")))]⟩ := by decide +kernel

/-- The hypotheses of C174 are met. -/
example : ∃ xs x, NoLFCR t!"a 'bc d" ∧ Lexer.items 4 (Lexer.new t!"a 'bc d") = .ok xs ∧ x ∈ xs ∧
    OpTok (.promoted t!"bc") x.1 :=
  ⟨[(.lower t!"a", ⟨⟨1, 1, 0⟩, ⟨1, 2, 1⟩⟩), (.affix t!"bc" true, ⟨⟨1, 3, 2⟩, ⟨1, 6, 5⟩⟩),
    (.lower t!"d", ⟨⟨1, 7, 6⟩, ⟨1, 8, 7⟩⟩)], _,
    fun h => absurd (h.subset (by simp : '\n' ∈ ['\n', '\r'])) (by decide), rfl,
    List.mem_cons_of_mem _ List.mem_cons_self, .promoted _⟩

end

/-! ### C79, C125, C116 -/

/-- Where a file is in a directory. -/
theorem pathJoin_eq (p q : Text) :
    p = [] ∧ pathJoin p q = q ∨ (∃ x, p = x ++ t!"/" ∧ pathJoin p q = x ++ t!"/" ++ q) ∨
      p ≠ [] ∧ (∀ x, p ≠ x ++ t!"/") ∧ pathJoin p q = p ++ t!"/" ++ q := by
  by_cases h1 : p = []
  · exact .inl ⟨h1, by rw [pathJoin, if_pos h1]⟩
  · by_cases h2 : p.getLast? = some '/'
    · obtain ⟨x, rfl⟩ := List.getLast?_eq_some_iff.1 h2
      exact .inr (.inl ⟨x, rfl, by rw [pathJoin, if_neg h1, if_pos h2]⟩)
    · refine .inr (.inr ⟨h1, ?_, by rw [pathJoin, if_neg h1, if_neg h2]⟩)
      rintro x rfl
      exact h2 (by simp)

/-- **C79** The directory in the home directory: there is one slash between the two, and none if the
home directory is the empty path. -/
theorem C79_directory {fs : FileSystem} {h d : Text} (hd : CfgDir fs (some h) d) :
    d = t!"." ∨ h = [] ∧ d = t!".pemdas" ∨ (∃ x, h = x ++ t!"/" ∧ d = x ++ t!"/.pemdas") ∨
      h ≠ [] ∧ (∀ x, h ≠ x ++ t!"/") ∧ d = h ++ t!"/.pemdas" := by
  have key : d = pathJoin h t!".pemdas" → d = t!"." ∨ h = [] ∧ d = t!".pemdas" ∨
      (∃ x, h = x ++ t!"/" ∧ d = x ++ t!"/.pemdas") ∨
      h ≠ [] ∧ (∀ x, h ≠ x ++ t!"/") ∧ d = h ++ t!"/.pemdas" := by
    rintro rfl
    rcases pathJoin_eq h t!".pemdas" with ⟨h1, h2⟩ | ⟨x, h1, h2⟩ | ⟨h1, h3, h2⟩
    · exact .inr (.inl ⟨h1, h2⟩)
    · exact .inr (.inr (.inl ⟨x, h1, by rw [h2, List.append_assoc]; rfl⟩))
    · exact .inr (.inr (.inr ⟨h1, h3, by rw [h2, List.append_assoc]; rfl⟩))
  cases hd with
  | home _ _ => exact key rfl
  | noDir _ _ => exact .inl rfl

example : CfgDir ⟨fun _ => false, fun _ => false, fun _ => true, fun _ => true⟩ (some t!"/root/")
    t!"/root/.pemdas" := .home (h := t!"/root/") (by simp) (by simp)

/-- **C125** The path in the message about a deleted file: there is one slash between the directory
and the file. -/
theorem C125_path {w : DirWorld} {path : Text} {u : Uninstalled} (h : uninstallArtifacts w path = some u)
    {e : Text} (he : e ∈ u.deleted) (hp : path ≠ []) :
    ∃ x, .err (t!"deleting history file found at " ++ x ++ t!"/" ++ e ++ t!"\n") ∈ u.said ∧
      (path = x ++ t!"/" ∨ path = x ∧ ∀ y, path ≠ y ++ t!"/") := by
  have hm : .err (t!"deleting history file found at " ++ pathJoin path e ++ t!"\n") ∈ u.said := by
    rw [C125_said h]
    exact List.mem_append_left _ (List.mem_append_right _ (List.mem_map.2 ⟨e, he, rfl⟩))
  rcases pathJoin_eq path e with ⟨h1, -⟩ | ⟨x, h1, h2⟩ | ⟨h1, h3, h2⟩
  · exact absurd h1 hp
  · rw [h2] at hm
    exact ⟨x, by simpa using hm, .inl h1⟩
  · rw [h2] at hm
    exact ⟨path, by simpa using hm, .inr ⟨rfl, h3⟩⟩

example : uninstallArtifacts ⟨.ok false, .ok [t!".history"], fun _ => true, fun _ => true, true, true⟩
    t!"/x/" = some ⟨[t!".history"], true,
      [.err t!"deleting history file found at /x/.history\n"]⟩ := by decide

/-- **C116** `lines` is the distance between the two lines, whichever comes first. -/
theorem C116_lines (s : LocSpan) :
    s.lo.line + s.lines = s.hi.line ∨ s.hi.line + s.lines = s.lo.line := by
  unfold LocSpan.lines
  split <;> omega

end Pemdas
