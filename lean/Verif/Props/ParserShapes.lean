import Verif.Props.ParserFull
import Verif.Lemmas.ParseShapes
/-
C41 chains of operators, C42 lambdas, C70 the layout rule.
-/
namespace Pemdas
open Lexer

section
variable [CharTables] [LawfulTables]

omit [CharTables] [LawfulTables] in
theorem mem_ofDecls {ds : List Decl} {e : Expr} :
    e ∈ (Ast.ofDecls ds).exprs ↔ .expr e ∈ ds := by
  have key : ∀ (ds : List Decl) (a : Ast),
      (ds.foldl Ast.push a).exprs = a.exprs ++ ds.filterMap fun | .expr e => some e | _ => none := by
    intro ds
    induction ds with
    | nil => intro a; simp
    | cons d ds ih =>
      intro a
      rw [List.foldl_cons, ih]
      cases d <;> simp [Ast.push]
  unfold Ast.ofDecls
  rw [key]
  simp only [Ast.empty, List.nil_append, List.mem_filterMap]
  constructor
  · rintro ⟨d, hd, h⟩
    cases d <;> simp_all
  · intro h
    exact ⟨_, h, rfl⟩

/-! ### C41 -/

/-- C41: a source that consists of operands (applications of atoms) separated by operators is
parsed as one expression, the chain nested to the right with these operands and operators in
order. -/
theorem C41_chain {src : Text} {e : Expr} {us : List CTok} {xs : List Link}
    (hl : Lexes src (us ++ (xs.map (·.all)).flatten))
    (he : Written .operand (firstCol us) (firstCol us) e us)
    (hx : ∀ x ∈ xs, OpTok x.op x.tok ∧
      Written .operand (firstCol x.toks) (firstCol x.toks) x.expr x.toks) :
    ∃ r l', parse src = .ok (Ast.ofDecls [.expr r]) l' ∧
      r = chainOf e (xs.map fun x => (x.op, x.expr)) ∧
      r.chainOperands = e :: xs.map (·.expr) ∧ r.chainOperators = xs.map (·.op) := by
  obtain ⟨m, hm⟩ := chainOf_written e us xs he hx
  have hf : firstCol (us ++ (xs.map (·.all)).flatten) = firstCol us := firstCol_append he.ne_nil
  rw [← hf] at hm
  have hp := WrittenProg.expr none hm .nil (fun _ => trivial)
  obtain ⟨l', h⟩ := (C81_program src _).2 ⟨_, _, hl, by simpa [semiToks] using hp, rfl⟩
  have hops := chainOf_operands e (xs.map fun x => (x.op, x.expr)) (he.nonBin (by simp)) (by
    intro y hy
    obtain ⟨x, hx', rfl⟩ := List.mem_map.1 hy
    exact (hx x hx').2.nonBin (by simp))
  exact ⟨_, l', h, rfl, by simpa [Function.comp_def] using hops.1,
    by simpa [Function.comp_def] using hops.2⟩

/-- C41: a source that consists of literals and variables separated by operators, however it is laid
out, is parsed as the chain of exactly these, in order. -/
theorem C41_atoms {src : Text} {ts : List CTok} (hl : Lexes src ts) {e : Expr} {t : Token}
    {xs : List ((Infix × Token) × (Expr × Token))} (he : AtomTok e t)
    (hx : ∀ x ∈ xs, OpTok x.1.1 x.1.2 ∧ AtomTok x.2.1 x.2.2)
    (hts : ts.map (·.1) = t :: (xs.map fun x => [x.1.2, x.2.2]).flatten) :
    ∃ r l', parse src = .ok (Ast.ofDecls [.expr r]) l' ∧
      r.chainOperands = e :: xs.map (·.2.1) ∧ r.chainOperators = xs.map (·.1.1) := by
  have atom : ∀ {e t} (c k : Nat), AtomTok e t → Written .operand c c e [(t, k)] := by
    intro e t c k h
    cases h with
    | lit l => exact .head (.lit c k l)
    | lower s => exact .head (.lower c k s)
  obtain ⟨k, ts, rfl, h1⟩ := cols_cons hts
  have key : ∃ ls : List Link, ts = (ls.map (·.all)).flatten ∧
      ls.map (·.expr) = xs.map (·.2.1) ∧ ls.map (·.op) = xs.map (·.1.1) ∧
      ∀ x ∈ ls, OpTok x.op x.tok ∧
        Written .operand (firstCol x.toks) (firstCol x.toks) x.expr x.toks := by
    clear hl hts
    induction xs generalizing ts with
    | nil => exact ⟨[], by simpa using h1, rfl, rfl, by simp⟩
    | cons x xs ih =>
      obtain ⟨k1, ts1, rfl, h2⟩ := cols_cons (by simpa using h1)
      obtain ⟨k2, ts2, rfl, h3⟩ := cols_cons h2
      obtain ⟨ls, rfl, g1, g2, g3⟩ := ih (fun y hy => hx y (by simp [hy])) ts2 (by simpa using h3)
      obtain ⟨ho, ha⟩ := hx x (by simp)
      refine ⟨⟨x.1.1, x.1.2, k1, x.2.1, [(x.2.2, k2)]⟩ :: ls, by simp [Link.all], by simp [g1],
        by simp [g2], ?_⟩
      intro y hy
      rcases List.mem_cons.1 hy with rfl | hy
      · exact ⟨ho, atom _ _ ha⟩
      · exact g3 y hy
  obtain ⟨ls, rfl, g1, g2, g3⟩ := key
  obtain ⟨r, l', h, _, h4, h5⟩ := C41_chain (us := [(t, k)]) hl (atom _ _ he) g3
  exact ⟨r, l', h, by rw [h4, g1], by rw [h5, g2]⟩

/-- C41: in every accepted program, the operands and operators of the chain an expression spells
out, in order, are those of a part of the token sequence. -/
theorem C41_source_order {src : Text} {ast : Ast} {l' : Lexer} (h : parse src = .ok ast l') :
    ∃ ts, Lexes src ts ∧ ∀ e ∈ ast.exprs, ∃ (e₀ : Expr) (us : List CTok) (xs : List Link),
      us ++ (xs.map (·.all)).flatten <:+: ts ∧
      e.chainOperands = e₀ :: xs.map (·.expr) ∧ e.chainOperators = xs.map (·.op) ∧
      (∃ cat c m, cat ≠ .chain ∧ Written cat c m e₀ us) ∧
      ∀ x ∈ xs, OpTok x.op x.tok ∧ ∃ cat c m, cat ≠ .chain ∧ Written cat c m x.expr x.toks := by
  obtain ⟨ts, ds, hl, hw, rfl⟩ := (C81_program src ast).1 ⟨l', h⟩
  refine ⟨ts, hl, fun e he => ?_⟩
  obtain ⟨us, m, hi, hm⟩ := hw.mem (mem_ofDecls.1 he)
  obtain ⟨e₀, vs, xs, h1, h2⟩ := hm.chain_split rfl
  exact ⟨e₀, vs, xs, h1 ▸ hi, h2⟩

/-! ### C42 -/

/-- C42: a source that consists of a lambda with one or more patterns and a body that takes up the
rest is parsed as one expression, one lambda per pattern in order around the body. -/
theorem C42_curry {src : Text} {k₀ k m : Nat} {ps : List (Pat × List Token)} {pts us : List CTok}
    {b : Expr} (hl : Lexes src ((.lambda, k₀) :: pts ++ (.arrow, k) :: us)) (hne : ps ≠ [])
    (hp : ∀ x ∈ ps, PatWritten x.1 x.2) (hpts : pts.map (·.1) = (ps.map (·.2)).flatten)
    (hb : Written .chain k m b us) :
    ∃ l', parse src = .ok (Ast.ofDecls [.expr ((ps.map (·.1)).foldr .lam b)]) l' := by
  have h1 := Written.lam (c := k₀) (k₀ := k₀) hne hp hpts hb
  have h2 := WrittenProg.expr (ts := (.lambda, k₀) :: pts ++ (.arrow, k) :: us) none (.lastOpen h1)
    .nil (fun _ => trivial)
  exact (C81_program src _).2 ⟨_, _, hl, by simpa [semiToks] using h2, rfl⟩

/-- C42 on one line, for a lambda anywhere at the end: whatever operands and operators come before
it, everything after the arrow is its body. -/
theorem C42_body_to_end {src : Text} (hn : '\n' ∉ src) {ts : List CTok} (hl : Lexes src ts)
    {xs : List (Expr × List Token × Infix × Token)} {ps : List (Pat × List Token)} {b : Expr}
    {us : List Token} (hx : ∀ x ∈ xs, Line .operand x.1 x.2.1 ∧ OpTok x.2.2.1 x.2.2.2)
    (hne : ps ≠ []) (hp : ∀ x ∈ ps, PatWritten x.1 x.2) (hb : Line .chain b us)
    (hts : ts.map (·.1) = (xs.map fun x => x.2.1 ++ [x.2.2.2]).flatten ++
      .lambda :: (ps.map (·.2)).flatten ++ .arrow :: us) :
    ∃ r l', parse src = .ok (Ast.ofDecls [.expr r]) l' ∧
      r.chainOperators = xs.map (·.2.2.1) ∧
      r.chainOperands = xs.map (·.1) ++ [(ps.map (·.1)).foldr .lam b] := by
  have key : ∃ r, Line .chain r (ts.map (·.1)) ∧ r.chainOperators = xs.map (·.2.2.1) ∧
      r.chainOperands = xs.map (·.1) ++ [(ps.map (·.1)).foldr .lam b] := by
    rw [hts]
    clear hts hl
    induction xs with
    | nil =>
      obtain ⟨p, c, h⟩ := foldr_lam_cases (ps.map (·.1)) (by simpa using hne) b
      refine ⟨(ps.map (·.1)).foldr .lam b, .lastOpen (Line.lam hne hp hb), ?_, ?_⟩ <;>
        rw [h] <;> rfl
    | cons x xs ih =>
      obtain ⟨r, h1, h2, h3⟩ := ih fun y hy => hx y (by simp [hy])
      obtain ⟨h4, h5⟩ := hx x (by simp)
      refine ⟨.bin x.1 x.2.2.1 r, ?_, by simp [Expr.chainOperators, h2],
        by simp [Expr.chainOperands, h3]⟩
      simpa using Line.bin h4 h5 h1
  obtain ⟨r, h1, h2, h3⟩ := key
  have hp := LineProg.expr false h1 .nil (fun _ => trivial)
  obtain ⟨l', h⟩ := (C81_one_line hn _).2 ⟨ts, _, hl, by simpa using hp, rfl⟩
  exact ⟨r, l', h, h2, h3⟩

/-- C42: in every accepted program a body extends over every operator after it: no lambda (and no
`let`) is the left operand of an operator unless it is in parentheses. -/
theorem C42_never_left_operand {src : Text} {ast : Ast} {l' : Lexer} (h : parse src = .ok ast l') :
    ∀ e ∈ ast.exprs, e.BodiesLast false := by
  obtain ⟨ts, ds, hl, hw, rfl⟩ := (C81_program src ast).1 ⟨l', h⟩
  intro e he
  obtain ⟨us, m, hi, hm⟩ := hw.mem (mem_ofDecls.1 he)
  exact hm.bodies.1

/-- C42: on one line it also extends over every argument after it: no lambda (and no `let`) is
applied unless it is in parentheses. -/
theorem C42_never_applied_on_line {src : Text} (hn : '\n' ∉ src) {ast : Ast} {l' : Lexer}
    (h : parse src = .ok ast l') : ∀ e ∈ ast.exprs, e.BodiesLast true := by
  obtain ⟨ts, ds, hl, hw, rfl⟩ := (C81_one_line hn ast).1 ⟨l', h⟩
  intro e he
  obtain ⟨us, hi, hm⟩ := hw.mem (mem_ofDecls.1 he)
  exact hm.bodies.1

/-! ### C70 -/

/-- C70: a source of juxtaposed arguments (literals, variables, anything in brackets) is split into
applications by the layout rule: a piece is an argument exactly if its first token ends beyond the
column at which the first token of the application ends. -/
theorem C70_layout {src : Text} {ps : List ArgPiece} (hl : Lexes src (ps.map (·.2)).flatten)
    (hp : ∀ x ∈ ps, Written .arg 0 0 x.1 x.2) :
    ∃ l', parse src = .ok (Ast.ofDecls ((layout ps).map .expr)) l' :=
  (C81_program src _).2 ⟨_, _, hl, layout_written ps hp, rfl⟩

/-- C70 for `parse_expr`: the first application ends where the layout rule says, except that it
starts at the first character of the first token instead of at its end. -/
theorem C70_layout_expression {src : Text} {x : ArgPiece} {ps : List ArgPiece}
    (hl : Lexes src (x.2 ++ (ps.map (·.2)).flatten)) (hx : Written .arg 0 0 x.1 x.2)
    (hp : ∀ x ∈ ps, Written .arg 0 0 x.1 x.2) :
    ∃ e l', parseExpr src = .ok e l' ∧ (layoutFrom (startCol src) x.1 ps).head? = some e := by
  obtain ⟨e, es, vs, ws, h1, h2, h3, h4⟩ :=
    layoutFrom_first (c := startCol src) ps (.head (hx.arg_any _)) hp
  obtain ⟨l', h⟩ := (C81_expression hl e).2 ⟨vs, ws, _, h2, .last h3, h4⟩
  exact ⟨e, l', h, by rw [h1]; rfl⟩

/-- C70 on one line: juxtaposed arguments always are one application, nested to the left. -/
theorem C70_one_line {src : Text} (hn : '\n' ∉ src) {x : ArgPiece} {ps : List ArgPiece}
    (hl : Lexes src (x.2 ++ (ps.map (·.2)).flatten)) (hx : Written .arg 0 0 x.1 x.2)
    (hp : ∀ x ∈ ps, Written .arg 0 0 x.1 x.2) :
    ∃ l', parse src = .ok (Ast.ofDecls [.expr ((ps.map (·.1)).foldl .app x.1)]) l' := by
  have h1 := C70_layout (ps := x :: ps) (by simpa using hl) (by
    intro y hy
    rcases List.mem_cons.1 hy with rfl | hy
    · exact hx
    · exact hp y hy)
  have h2 : layout (x :: ps) = [(ps.map (·.1)).foldl .app x.1] := by
    refine layoutFrom_line ps fun y hy => ?_
    have hi := (hl.inc hn).1
    obtain ⟨a, ha, h3⟩ := firstCol_mem hx.ne_nil
    obtain ⟨b, hb, h4⟩ := firstCol_mem (hp y hy).ne_nil
    rw [h3, h4]
    exact hi.lt ha (List.mem_flatten.2 ⟨_, List.mem_map.2 ⟨y, hy, rfl⟩, hb⟩)
  rw [h2] at h1
  exact h1

end

/-! ### concrete cases -/

section
attribute [local instance] asciiTables asciiTables_lawful

theorem lexes_of {src : Text} {ts : List CTok} (n : Nat)
    (h : (items n (Lexer.new src)).toOption.map (·.map ctok) = some ts) (hn : ts.length < n) :
    Lexes src ts := by
  cases hi : items n (Lexer.new src) with
  | error p => rw [hi] at h; cases h
  | ok xs =>
    rw [hi] at h
    cases h
    exact ⟨xs, n, by simpa using hn, hi, rfl⟩

/-- C41_atoms: a chain over two lines. -/
example : ∃ r l', parse t!"a + 1\n# b" = .ok (Ast.ofDecls [.expr r]) l' ∧
    r.chainOperands = [.var (.lower t!"a"), .lit (.int 1), .var (.lower t!"b")] ∧
    r.chainOperators = [.standard t!"+", .standard t!"#"] :=
  C41_atoms (ts := [(.lower t!"a", 2), (.affix t!"+" false, 4), (.lit (.int 1), 6),
      (.affix t!"#" false, 2), (.lower t!"b", 4)]) (lexes_of 9 (by decide +kernel) (by decide))
    (xs := [((.standard t!"+", .affix t!"+" false), (.lit (.int 1), .lit (.int 1))),
      ((.standard t!"#", .affix t!"#" false), (.var (.lower t!"b"), .lower t!"b"))])
    (.lower _) (by
      intro x hx
      simp only [List.mem_cons, List.not_mem_nil, or_false] at hx
      rcases hx with rfl | rfl
      · exact ⟨.standard _, .lit _⟩
      · exact ⟨.standard _, .lower _⟩) rfl

/-- C41_chain: operands that are applications. -/
example : ∃ r l', parse t!"f x * y" = .ok (Ast.ofDecls [.expr r]) l' ∧
    r = .bin (.app (.var (.lower t!"f")) (.var (.lower t!"x"))) (.standard t!"*") (.var (.lower t!"y")) ∧
    r.chainOperands = [.app (.var (.lower t!"f")) (.var (.lower t!"x")), .var (.lower t!"y")] ∧
    r.chainOperators = [.standard t!"*"] :=
  C41_chain (us := [(.lower t!"f", 2), (.lower t!"x", 4)])
    (xs := [⟨.standard t!"*", .affix t!"*" false, 6, .var (.lower t!"y"), [(.lower t!"y", 8)]⟩])
    (lexes_of 9 (by decide +kernel) (by decide))
    (.app (.head (.lower 2 2 _)) (.lower 2 4 _) (by decide)) (by
      intro x hx
      simp only [List.mem_cons, List.not_mem_nil, or_false] at hx
      subst hx
      exact ⟨.standard _, .head (.lower _ _ _)⟩)

/-- C42_curry: two patterns. -/
example : ∃ l', parse t!"\\x y -> x" =
    .ok (Ast.ofDecls [.expr (.lam (.var t!"x") (.lam (.var t!"y") (.var (.lower t!"x"))))]) l' :=
  C42_curry (ps := [(.var t!"x", [.lower t!"x"]), (.var t!"y", [.lower t!"y"])])
    (pts := [(.lower t!"x", 3), (.lower t!"y", 5)]) (us := [(.lower t!"x", 10)]) (k₀ := 2) (k := 8)
    (lexes_of 9 (by decide +kernel) (by decide)) (by simp) (by
      intro x hx
      simp only [List.mem_cons, List.not_mem_nil, or_false] at hx
      rcases hx with rfl | rfl <;> exact ⟨.var _, by simp⟩) rfl (.last (.head (.lower _ _ _)))

/-- C42_body_to_end: the operator after the arrow belongs to the body. -/
example : ∃ r l', parse t!"a * \\x -> x + b" = .ok (Ast.ofDecls [.expr r]) l' ∧
    r.chainOperators = [.standard t!"*"] ∧
    r.chainOperands = [.var (.lower t!"a"), .lam (.var t!"x")
      (.bin (.var (.lower t!"x")) (.standard t!"+") (.var (.lower t!"b")))] :=
  C42_body_to_end (by decide) (ts := [(.lower t!"a", 2), (.affix t!"*" false, 4), (.lambda, 6),
      (.lower t!"x", 7), (.arrow, 10), (.lower t!"x", 12), (.affix t!"+" false, 14),
      (.lower t!"b", 16)])
    (lexes_of 19 (by decide +kernel) (by decide))
    (xs := [(.var (.lower t!"a"), [.lower t!"a"], .standard t!"*", .affix t!"*" false)])
    (ps := [(.var t!"x", [.lower t!"x"])])
    (us := [.lower t!"x", .affix t!"+" false, .lower t!"b"]) (by
      intro x hx
      simp only [List.mem_cons, List.not_mem_nil, or_false] at hx
      subst hx
      exact ⟨.head (.lower _), .standard _⟩) (by simp) (by
      intro x hx
      simp only [List.mem_cons, List.not_mem_nil, or_false] at hx
      subst hx
      exact ⟨.var _, by simp⟩)
    (.bin (ts := [.lower t!"x"]) (.head (.lower _)) (.standard _) (.last (.head (.lower _)))) rfl

/-- C70_layout: `x` continues the application, `y` and `z` do not. -/
example : ∃ l', parse t!"f\n x\ny\nz 1" = .ok (Ast.ofDecls
    [.expr (.app (.var (.lower t!"f")) (.var (.lower t!"x"))), .expr (.var (.lower t!"y")),
     .expr (.app (.var (.lower t!"z")) (.lit (.int 1)))]) l' :=
  C70_layout (ps := [(.var (.lower t!"f"), [(.lower t!"f", 2)]),
      (.var (.lower t!"x"), [(.lower t!"x", 3)]), (.var (.lower t!"y"), [(.lower t!"y", 2)]),
      (.var (.lower t!"z"), [(.lower t!"z", 2)]), (.lit (.int 1), [(.lit (.int 1), 4)])])
    (lexes_of 9 (by decide +kernel) (by decide)) (by
      intro x hx
      simp only [List.mem_cons, List.not_mem_nil, or_false] at hx
      rcases hx with rfl | rfl | rfl | rfl | rfl <;>
        first | exact .lower _ _ _ | exact .lit _ _ _)

/-- C70_layout_expression: here `y` ends beyond the start of `f`. -/
example : ∃ e l', parseExpr t!"f\ny" = .ok e l' ∧
    some (.app (.var (.lower t!"f")) (.var (.lower t!"y"))) = some e :=
  have ⟨e, l', h1, h2⟩ := C70_layout_expression (x := (.var (.lower t!"f"), [(.lower t!"f", 2)]))
    (ps := [(.var (.lower t!"y"), [(.lower t!"y", 2)])])
    (lexes_of 9 (by decide +kernel) (by decide)) (.lower _ _ _) (by
      intro x hx
      simp only [List.mem_cons, List.not_mem_nil, or_false] at hx
      subst hx
      exact .lower _ _ _)
  ⟨e, l', h1, h2⟩

/-- C70_one_line. -/
example : ∃ l', parse t!"f x (y)" = .ok (Ast.ofDecls
    [.expr (.app (.app (.var (.lower t!"f")) (.var (.lower t!"x"))) (.grp (.var (.lower t!"y"))))]) l' :=
  C70_one_line (by decide) (x := (.var (.lower t!"f"), [(.lower t!"f", 2)]))
    (ps := [(.var (.lower t!"x"), [(.lower t!"x", 4)]),
      (.grp (.var (.lower t!"y")), [(.parenL, 6), (.lower t!"y", 7), (.parenR, 8)])])
    (lexes_of 9 (by decide +kernel) (by decide)) (.lower _ _ _) (by
      intro x hx
      simp only [List.mem_cons, List.not_mem_nil, or_false] at hx
      rcases hx with rfl | rfl
      · exact .lower _ _ _
      · exact .grp (ts := [(.lower t!"y", 7)]) (.last (.head (.lower _ _ _))))

/-- A lambda over two lines can be applied: the hypothesis of `C42_never_applied_on_line` is
needed. -/
example : (parse t!"  \\x ->\n      x\n   y").value? = some (Ast.ofDecls
    [.expr (.app (.lam (.var t!"x") (.var (.lower t!"x"))) (.var (.lower t!"y")))]) := by
  decide +kernel

end

end Pemdas
