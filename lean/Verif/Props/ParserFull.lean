import Verif.Props.Parser
import Verif.Props.Ast
import Verif.Lemmas.LexCols
/-
C81 the parser accepts exactly the grammar.
-/
namespace Pemdas
open Lexer

section
variable [CharTables] [LawfulTables]

/-! ### C81 -/

/-- C81: a program is accepted exactly if its tokens, with the columns at which they end, are
derived by the layout grammar; the result holds the declarations derived, in order. -/
theorem C81_program (src : Text) (ast : Ast) :
    (∃ l', parse src = .ok ast l') ↔
      ∃ ts ds, Lexes src ts ∧ WrittenProg ds ts ∧ ast = Ast.ofDecls ds := by
  constructor
  · rintro ⟨l', h⟩
    obtain ⟨xs, _, hi, _, _⟩ := C73_program h
    have hl : Lexes src (xs.map ctok) := by
      refine ⟨xs, src.length + 1, ?_, hi _ (Nat.le_succ _), rfl⟩
      have := items_length (hi src.length (Nat.le_refl _))
      omega
    have hs := parseInto_sees (Parser.fuelFor src) hl.strm Ast.empty
    unfold parse at h
    rw [h] at hs
    obtain ⟨us, rest, h1, _, rfl, ds, h2, h3⟩ := hs
    rw [List.append_nil] at h1
    subst h1
    exact ⟨_, ds, hl, h2, h3⟩
  · rintro ⟨ts, ds, hl, hw, rfl⟩
    rcases parseInto_gives hw (Parser.fuelFor src) _ hl.strm.1 Ast.empty with h | ⟨l', h, _⟩
    · exact absurd h (C37_terminates src).1
    · exact ⟨l', h⟩

/-- C81: `parse_expr` succeeds exactly if a prefix of the tokens is derived by the layout grammar
for an expression that starts at the first character that is no whitespace, and what follows
cannot be part of it. -/
theorem C81_expression {src : Text} {ts : List CTok} (hl : Lexes src ts) (e : Expr) :
    (∃ l', parseExpr src = .ok e l') ↔
      ∃ us rest m, ts = us ++ rest ∧ Written .chain (startCol src) m e us ∧ Follow m rest := by
  rw [← new_col]
  constructor
  · rintro ⟨l', h⟩
    have hs := (exactSpec (Parser.fuelFor src)).expression _ _ hl.strm
    unfold parseExpr at h
    rw [h] at hs
    obtain ⟨us, rest, h1, _, m, h2, h3⟩ := hs
    exact ⟨us, rest, m, h1, h2, h3⟩
  · rintro ⟨us, rest, m, rfl, hw, hf⟩
    rcases hw.run.expression hl.strm.1 rfl hf (Parser.fuelFor src) with h | ⟨l', h, _⟩
    · exact absurd h (C37_terminates src).2.1
    · exact ⟨l', h⟩

omit [CharTables] [LawfulTables] in
/-- Two lists of declarations that build the same AST are equal. -/
theorem ofDecls_inj {ds ds' : List Decl} (h : Ast.ofDecls ds = Ast.ofDecls ds') : ds = ds' := by
  have h1 := C25_iter_is_deque ds (List.replicate (ds.length + ds'.length) true)
  have h2 := C25_iter_is_deque ds' (List.replicate (ds.length + ds'.length) true)
  rw [h] at h1
  have h3 := h1.1.symm.trans h2.1
  have key : ∀ n (ds : List Decl), ds.length ≤ n →
      (dequeRun (List.replicate n true) ds).1 = ds.map some ++ List.replicate (n - ds.length) none := by
    intro n
    induction n with
    | zero => intro ds hn; cases ds with
      | nil => rfl
      | cons => simp at hn
    | succ n ih =>
      intro ds hn
      cases ds with
      | nil =>
        have := ih [] (Nat.zero_le _)
        simp only [List.length_nil, Nat.sub_zero, List.map_nil, List.nil_append] at this
        simp [List.replicate_succ, dequeRun, this]
      | cons d ds =>
        have := ih ds (by simpa using hn)
        simp [List.replicate_succ, dequeRun, this]
  rw [key _ _ (by omega), key _ _ (by omega)] at h3
  have h4 := congrArg (·.filterMap id) h3
  simpa [List.filterMap_append, List.filterMap_replicate] using h4

/-- C81: the layout grammar is unambiguous. The tokens of a source are derived for at most one list
of declarations. -/
theorem C81_unambiguous {src : Text} {ts : List CTok} (hl : Lexes src ts) {ds ds' : List Decl}
    (h : WrittenProg ds ts) (h' : WrittenProg ds' ts) : ds = ds' := by
  obtain ⟨l1, h1⟩ := (C81_program src _).2 ⟨ts, ds, hl, h, rfl⟩
  obtain ⟨l2, h2⟩ := (C81_program src _).2 ⟨ts, ds', hl, h', rfl⟩
  rw [h1] at h2
  injection h2 with h2 _
  exact ofDecls_inj h2

/-- C81: on one line columns do not matter. A program without line feeds is accepted exactly if its
tokens are derived by the column-free grammar. -/
theorem C81_one_line {src : Text} (hn : '\n' ∉ src) (ast : Ast) :
    (∃ l', parse src = .ok ast l') ↔
      ∃ ts ds, Lexes src ts ∧ LineProg ds (ts.map (·.1)) ∧ ast = Ast.ofDecls ds := by
  rw [C81_program]
  constructor
  · rintro ⟨ts, ds, hl, hw, h⟩
    exact ⟨ts, ds, hl, hw.line (hl.inc hn).1, h⟩
  · rintro ⟨ts, ds, hl, hw, h⟩
    exact ⟨ts, ds, hl, hw.written ts rfl (hl.inc hn).1, h⟩

/-- C81 for `parse_expr` on one line. -/
theorem C81_one_line_expression {src : Text} (hn : '\n' ∉ src) {ts : List CTok} (hl : Lexes src ts)
    (e : Expr) : (∃ l', parseExpr src = .ok e l') ↔
      ∃ us rest, ts.map (·.1) = us ++ rest ∧ Line .chain e us ∧ Closed rest := by
  obtain ⟨hi, hc⟩ := hl.inc hn
  rw [new_col] at hc
  have first : ∀ us rest, ts = us ++ rest → us ≠ [] → startCol src ≤ firstCol us := by
    rintro us rest rfl hne
    obtain ⟨x, hx, h⟩ := firstCol_mem hne
    rw [h]
    exact Nat.le_of_lt (hc x (List.mem_append.2 (.inl hx)))
  rw [C81_expression hl]
  constructor
  · rintro ⟨us, rest, m, rfl, hw, hf⟩
    obtain ⟨h1, h2⟩ := hw.line hi.left (first _ _ rfl hw.ne_nil)
    exact ⟨us.map (·.1), rest.map (·.1), by simp, h1, hf.closed hi h2⟩
  · rintro ⟨us, rest, he, hw, hc'⟩
    obtain ⟨a, b, rfl, rfl, rfl⟩ := cols_append he
    have hne : a ≠ [] := by rintro rfl; exact hw.ne_nil rfl
    obtain ⟨m, hm, _⟩ := hw.written a (startCol src) rfl hi.left (first _ _ rfl hne)
    exact ⟨a, b, m, rfl, hm, Closed.follow hc'⟩

end

/-! ### concrete cases -/

section
attribute [local instance] asciiTables asciiTables_lawful

/-- C81: the same tokens in two layouts are different programs. -/
example :
    (parse t!"f x\n y").value? = some (Ast.ofDecls
      [.expr (.app (.app (.var (.lower t!"f")) (.var (.lower t!"x"))) (.var (.lower t!"y")))]) ∧
    (parse t!"f x\ny").value? = some (Ast.ofDecls
      [.expr (.app (.var (.lower t!"f")) (.var (.lower t!"x"))), .expr (.var (.lower t!"y"))]) := by
  decide +kernel

/-- C81_expression: a source and its tokens with their columns. -/
example : Lexes t!"(a\n)" [(.parenL, 2), (.lower t!"a", 3), (.parenR, 2)] :=
  ⟨[(.parenL, ⟨⟨1, 1, 0⟩, ⟨1, 2, 1⟩⟩), (.lower t!"a", ⟨⟨1, 2, 1⟩, ⟨1, 3, 2⟩⟩),
    (.parenR, ⟨⟨2, 1, 3⟩, ⟨2, 2, 4⟩⟩)], 9, by decide, by decide +kernel, rfl⟩

/-- C81_unambiguous: a derivation. -/
example : WrittenProg [.expr (.grp (.var (.lower t!"a")))]
    [(.parenL, 2), (.lower t!"a", 3), (.parenR, 2)] :=
  .expr (ts := [(.parenL, 2), (.lower t!"a", 3), (.parenR, 2)]) none
    (.last (.head (.grp (ts := [(.lower t!"a", 3)]) (.last (.head (.lower _ _ _))))))
    .nil (fun _ => trivial)

end

end Pemdas
