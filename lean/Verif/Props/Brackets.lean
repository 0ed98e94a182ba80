import Verif.Props.Spellings
/-
C104 for all programs: brackets match except after an empty list pattern.
-/
namespace Pemdas
open Lexer Parser

/-- Brackets match, except that `[]` may be followed by one more `]`. -/
inductive MatchedBut : List Token → Prop
  | nil : MatchedBut []
  | flat {t ts} : t.flat = true → MatchedBut ts → MatchedBut (t :: ts)
  | paren {ts us} : MatchedBut ts → MatchedBut us → MatchedBut (.parenL :: ts ++ .parenR :: us)
  | brack {ts us} : MatchedBut ts → MatchedBut us → MatchedBut (.brackL :: ts ++ .brackR :: us)
  | emptyList {ts} : MatchedBut ts → MatchedBut (.brackL :: .brackR :: .brackR :: ts)

namespace MatchedBut

theorem append {ts us : List Token} (h : MatchedBut ts) (h' : MatchedBut us) :
    MatchedBut (ts ++ us) := by
  induction h with
  | nil => exact h'
  | flat ht _ ih => exact .flat ht ih
  | paren ha _ _ ih => simpa using MatchedBut.paren ha ih
  | brack ha _ _ ih => simpa using MatchedBut.brack ha ih
  | emptyList _ ih => exact .emptyList ih

theorem of_matched {ts : List Token} (h : Matched ts) : MatchedBut ts := by
  induction h with
  | nil => exact .nil
  | flat ht _ ih => exact .flat ht ih
  | paren _ _ ih ih' => exact .paren ih ih'
  | brack _ _ ih ih' => exact .brack ih ih'

theorem flatten {tss : List (List Token)} (h : ∀ ts ∈ tss, MatchedBut ts) :
    MatchedBut tss.flatten := by
  induction tss with
  | nil => exact .nil
  | cons ts rest ih =>
    rw [List.flatten_cons]
    exact (h ts (by simp)).append (ih fun us hu => h us (by simp [hu]))

theorem sep {tss : List (List Token)} (h : ∀ ts ∈ tss, MatchedBut ts) :
    MatchedBut (sepBy .comma tss) := by
  induction tss with
  | nil => exact .nil
  | cons ts rest ih =>
    have h1 := h ts (by simp)
    have h2 := ih fun us hu => h us (by simp [hu])
    cases rest with
    | nil => exact h1
    | cons us rest => exact h1.append (.flat rfl h2)

theorem inParens {ts : List Token} (h : MatchedBut ts) :
    MatchedBut (.parenL :: ts ++ [.parenR]) := .paren h .nil

theorem inBracks {ts : List Token} (h : MatchedBut ts) :
    MatchedBut (.brackL :: ts ++ [.brackR]) := .brack h .nil

/-- Where `[]` is not followed by `]`, brackets match. -/
theorem matched {ts : List Token} (h : MatchedBut ts)
    (hn : ¬ Contains ts [.brackL, .brackR, .brackR]) : Matched ts := by
  induction h with
  | nil => exact .nil
  | flat ht _ ih =>
    refine .flat ht (ih ?_)
    rintro ⟨a, b, rfl⟩
    exact hn ⟨_ :: a, b, rfl⟩
  | @paren ts us _ _ ih ih' =>
    refine .paren (ih ?_) (ih' ?_)
    · rintro ⟨a, b, rfl⟩
      exact hn ⟨.parenL :: a, b ++ .parenR :: us, by simp⟩
    · rintro ⟨a, b, rfl⟩
      exact hn ⟨.parenL :: ts ++ .parenR :: a, b, by simp⟩
  | @brack ts us _ _ ih ih' =>
    refine .brack (ih ?_) (ih' ?_)
    · rintro ⟨a, b, rfl⟩
      exact hn ⟨.brackL :: a, b ++ .brackR :: us, by simp⟩
    · rintro ⟨a, b, rfl⟩
      exact hn ⟨.brackL :: ts ++ .brackR :: a, b, by simp⟩
  | emptyList _ _ => exact (hn ⟨[], _, rfl⟩).elim

end MatchedBut

theorem PatToks.matchedBut {cat : PatCat} {p : Pat} {ts : List Token} (h : PatToks cat p ts) :
    MatchedBut ts := by
  induction h with
  | wild | con0 | var | firstOp | lit => exact .flat rfl .nil
  | as_ _ _ ih => exact .flat rfl (.flat rfl ih)
  | firstNeg _ ih | minus _ ih => exact .flat rfl ih
  | firstCon _ ih | first _ ih | inner _ ih | innerCon _ ih => exact ih
  | paren _ ih => exact ih.inParens
  | tup _ _ _ ih ihs =>
    refine (MatchedBut.sep ?_).inParens
    intro us hu
    rcases List.mem_cons.1 hu with rfl | hu
    · exact ih
    · obtain ⟨x, hx, rfl⟩ := List.mem_map.1 hu
      exact ihs x hx
  | arrNil => exact .emptyList .nil
  | arr _ _ ihs =>
    refine (MatchedBut.sep ?_).inBracks
    intro us hu
    obtain ⟨x, hx, rfl⟩ := List.mem_map.1 hu
    exact ihs x hx
  | con _ _ ihs =>
    refine .flat rfl (MatchedBut.flatten ?_)
    intro us hu
    obtain ⟨x, hx, rfl⟩ := List.mem_map.1 hu
    exact ihs x hx
  | conTup _ _ _ ih ihs =>
    refine MatchedBut.sep ?_
    intro us hu
    rcases List.mem_cons.1 hu with rfl | hu
    · exact ih
    · obtain ⟨x, hx, rfl⟩ := List.mem_map.1 hu
      exact ihs x hx

theorem Written.matchedBut {cat : ExprCat} {c m : Nat} {e : Expr} {ts : List CTok}
    (h : Written cat c m e ts) : MatchedBut (ts.map (·.1)) := by
  induction h with
  | last _ ih | lastOpen _ ih | head _ ih => exact ih
  | bin _ ho _ ih1 ih2 =>
    simp only [List.map_append, List.map_cons]
    exact ih1.append (.flat ho.flat ih2)
  | app _ _ _ ih1 ih2 | appOpen _ _ _ _ ih1 ih2 =>
    simp only [List.map_append]
    exact ih1.append ih2
  | lam _ hp hpt _ ih =>
    simp only [List.map_append, List.map_cons, hpt]
    refine .flat rfl (.append (.flatten ?_) (.flat rfl ih))
    intro us hu
    obtain ⟨x, hx, rfl⟩ := List.mem_map.1 hu
    exact (hp x hx).1.matchedBut
  | let_ hd _ ih =>
    simp only [List.map_append, List.map_cons]
    exact .flat rfl ((MatchedBut.of_matched hd.1.matched).append (.flat rfl ih))
  | lit | upper | lower => exact .flat rfl .nil
  | unit => exact MatchedBut.inParens .nil
  | op => exact MatchedBut.inParens (.flat rfl .nil)
  | commas =>
    simp only [List.map_append, List.map_cons, List.map_map]
    refine MatchedBut.inParens (.of_matched (.of_flat ?_))
    intro t ht
    obtain ⟨j, _, rfl⟩ := List.mem_map.1 ht; rfl
  | grp _ ih =>
    simp only [List.map_append, List.map_cons]
    exact MatchedBut.inParens ih
  | tup _ _ _ ih ihs =>
    simp only [List.map_append, List.map_cons, List.map_flatten, List.map_map]
    rw [List.cons_append]
    refine MatchedBut.inParens (.append ih (.flatten ?_))
    intro us hu
    obtain ⟨x, hx, rfl⟩ := List.mem_map.1 hu
    exact .flat rfl (ihs x hx)
  | list _ _ ihs =>
    simp only [List.map_append, List.map_cons, List.map_flatten, List.map_map]
    refine MatchedBut.inBracks (.flatten ?_)
    intro us hu
    obtain ⟨x, hx, rfl⟩ := List.mem_map.1 hu
    simp only [Function.comp_apply, ListItem.all, List.map_append]
    refine .append (ihs x hx) ?_
    cases x.comma
    · exact .nil
    · exact .flat rfl .nil

theorem WrittenProg.matchedBut {ds : List Decl} {ts : List CTok} (h : WrittenProg ds ts) :
    MatchedBut (ts.map (·.1)) := by
  have hs : ∀ semi, MatchedBut ((semiToks semi).map (·.1)) := by
    intro semi
    cases semi
    · exact .nil
    · exact .flat rfl .nil
  induction h with
  | nil => exact .nil
  | infix_ semi hd _ ih =>
    simp only [List.map_append]
    exact .append (.append (.of_matched hd.1.matched) (hs semi)) ih
  | expr semi he _ _ ih =>
    simp only [List.map_append]
    exact .append (.append he.matchedBut (hs semi)) ih

section
variable [CharTables] [LawfulTables]

/-- C104, what holds of all programs: in an accepted program all parentheses and square brackets
match, except that `[]` may be followed by one more `]`; so they match wherever that does not
occur. -/
theorem C104_all_partial {src : Text} {cs : List CTok} (hl : Lexes src cs) {ast : Ast} {l' : Lexer}
    (h : parse src = .ok ast l') :
    MatchedBut (cs.map (·.1)) ∧
    (¬ Contains (cs.map (·.1)) [.brackL, .brackR, .brackR] → Matched (cs.map (·.1))) := by
  obtain ⟨cs', ds, h1, h2, _⟩ := (C81_program src ast).1 ⟨l', h⟩
  obtain rfl := hl.unique h1
  exact ⟨h2.matchedBut, h2.matchedBut.matched⟩

/-- C103 exactly: on one line, a text is read as a list if and only if it consists, in square brackets
(and perhaps before a semicolon), of the elements, each followed by a comma or not; a comma may be
missing only after the last element and before a lambda or `let`. -/
theorem C103_exactly_partial {src : Text} (hn : '\n' ∉ src) (es : List Expr) :
    (∃ l', parse src = .ok ⟨[.expr], [], [.list es]⟩ l') ↔
    ∃ (xs : List (Expr × List Token × Bool)) (semi : List Token), es = xs.map (·.1) ∧
      (∀ x ∈ xs, Line .chain x.1 x.2.1) ∧
      (∀ a x y b, xs = a ++ x :: y :: b → x.2.2 = false →
        y.2.1.head? = some .lambda ∨ y.2.1.head? = some .let_) ∧
      (semi = [] ∨ semi = [.semi]) ∧
      Tokenizes src (.brackL :: (xs.map fun x => x.2.1 ++ if x.2.2 then [.comma] else []).flatten ++
        .brackR :: semi) := by
  constructor
  · rintro ⟨l', h⟩
    obtain ⟨ts, ds, ht, hp, he⟩ := (C96_one_line_programs hn _).1 ⟨l', h⟩
    have : (⟨[.expr], [], [.list es]⟩ : Ast) = Ast.ofDecls [.expr (.list es)] := rfl
    rw [this] at he
    rw [← ofDecls_inj he] at hp
    cases hp with
    | @expr _ _ us vs semi hw hr hc =>
      cases hr with
      | nil =>
        obtain ⟨xs, rfl, rfl, g1, g2⟩ := hw.list_inv
        refine ⟨xs, if semi then [.semi] else [], rfl, g1, ?_, by cases semi <;> simp, ?_⟩
        · intro a x y b hx hf
          have h1 := g2 a x (y :: b) hx hf
          obtain ⟨t, ts', h2, h3⟩ := (g1 y (by rw [hx]; simp)).starts
          rw [h2]
          simp only [List.map_cons, List.flatten_cons, elemToks, h2, List.cons_append, Closed] at h1
          rcases h3 with h3 | rfl | rfl
          · rw [h3] at h1; exact absurd h1.2 (by simp)
          · exact .inl rfl
          · exact .inr rfl
        · have e1 : (xs.map elemToks) = xs.map fun x => x.2.1 ++ if x.2.2 then [.comma] else [] := rfl
          rw [e1] at ht
          simpa using ht
  · rintro ⟨xs, semi, rfl, g1, g2, g3, ht⟩
    have hl : Line .arg (.list (xs.map (·.1))) (.brackL :: (xs.map elemToks).flatten ++ [.brackR]) := by
      refine .list g1 ?_
      intro a x b hx hf
      cases b with
      | nil => exact ⟨rfl, rfl⟩
      | cons y b =>
        obtain ⟨t, ts', h2, _⟩ := (g1 y (by rw [hx]; simp)).starts
        have h3 := g2 a x y b hx hf
        rw [h2] at h3
        simp only [List.map_cons, List.flatten_cons, elemToks, h2, List.cons_append, Closed]
        simp only [List.head?_cons, Option.some.injEq] at h3
        rcases h3 with rfl | rfl <;> exact ⟨rfl, rfl⟩
    refine (C96_one_line_programs hn _).2 ⟨_, [.expr (.list (xs.map (·.1)))], ht, ?_, rfl⟩
    have e1 : (xs.map elemToks) = xs.map fun x => x.2.1 ++ if x.2.2 then [.comma] else [] := rfl
    rw [← e1]
    rcases g3 with rfl | rfl
    · simpa using LineProg.expr (ds := []) (us := []) false (.last (.head hl)) .nil (fun _ => trivial)
    · simpa using LineProg.expr (ds := []) (us := []) true (.last (.head hl)) .nil (fun h => by cases h)

omit [CharTables] [LawfulTables] in
theorem Written.list_inv {c m : Nat} {es : List Expr} {ts : List CTok}
    (h : Written .chain c m (.list es) ts) :
    ∃ (xs : List ListItem) (k₀ k : Nat), es = xs.map (·.expr) ∧
      ts = (.brackL, k₀) :: (xs.map (·.all)).flatten ++ [(.brackR, k)] ∧
      (∀ x ∈ xs, Written .chain (firstCol x.toks) x.edge x.expr x.toks) ∧
      ∀ a x b, xs = a ++ x :: b → x.comma = none →
        Follow x.edge ((b.map (·.all)).flatten ++ [(.brackR, k)]) := by
  cases h with
  | last h =>
    cases h with
    | head h => cases h with | list h1 h2 => exact ⟨_, _, _, rfl, rfl, h1, h2⟩
  | lastOpen h =>
    generalize he : Expr.list es = e at h
    cases h with
    | lam hne => exact (foldr_lam_ne (by simpa using hne) he.symm).elim
    | let_ => cases he

/-- C103 exactly, for every source: a text is read as a list if and only if it consists, in square
brackets (and perhaps before a semicolon), of the elements, each followed by a comma or not; a comma
may be missing only after the last element, before a lambda or `let`, and before an element the first
token of which does not end beyond the edge of the element before. -/
theorem C103_lines_partial (src : Text) (es : List Expr) :
    (∃ l', parse src = .ok ⟨[.expr], [], [.list es]⟩ l') ↔
    ∃ (xs : List ListItem) (k₀ k : Nat) (semi : Option Nat), es = xs.map (·.expr) ∧
      (∀ x ∈ xs, Written .chain (firstCol x.toks) x.edge x.expr x.toks) ∧
      (∀ a x y b, xs = a ++ x :: y :: b → x.comma = none →
        (∃ t ∈ y.toks.head?, t.1 = .lambda ∨ t.1 = .let_) ∨ firstCol y.toks ≤ x.edge) ∧
      Lexes src ((.brackL, k₀) :: (xs.map fun x => x.toks ++ match x.comma with
        | some j => [(.comma, j)]
        | none => []).flatten ++ (.brackR, k) :: match semi with
        | some j => [(.semi, j)]
        | none => []) := by
  have e1 : ∀ xs : List ListItem, (xs.map fun x => x.toks ++ match x.comma with
      | some j => [(Token.comma, j)]
      | none => []) = xs.map (·.all) := by
    intro xs
    refine List.map_congr_left fun x _ => ?_
    unfold ListItem.all commaToks
    cases x.comma <;> rfl
  have e2 : ∀ semi : Option Nat, (match semi with
      | some j => [(Token.semi, j)]
      | none => []) = semiToks semi := by
    intro semi
    cases semi <;> rfl
  simp only [e1, e2]
  constructor
  · rintro ⟨l', h⟩
    obtain ⟨ts, ds, ht, hp, he⟩ := (C81_program src _).1 ⟨l', h⟩
    have : (⟨[.expr], [], [.list es]⟩ : Ast) = Ast.ofDecls [.expr (.list es)] := rfl
    rw [this] at he
    rw [← ofDecls_inj he] at hp
    cases hp with
    | @expr _ m _ us vs semi hw hr hc =>
      cases hr with
      | nil =>
        obtain ⟨xs, k₀, k, rfl, rfl, g1, g2⟩ := hw.list_inv
        refine ⟨xs, k₀, k, semi, rfl, g1, ?_, by simpa using ht⟩
        intro a x y b hx hf
        have h1 := g2 a x (y :: b) hx hf
        obtain ⟨t, j, ts', h2, h3, _⟩ := (g1 y (by rw [hx]; simp)).starts
        rw [h2]
        simp only [List.map_cons, List.flatten_cons, ListItem.all, h2, List.cons_append, Follow] at h1
        by_cases hs : t.startsArg = true
        · exact .inr (h1.2 hs)
        · refine .inl ⟨_, rfl, ?_⟩
          cases t <;> simp [beginsExpr, Token.startsArg] at h3 hs ⊢
  · rintro ⟨xs, k₀, k, semi, rfl, g1, g2, ht⟩
    have hl : ∀ c, Written .arg c c (.list (xs.map (·.expr)))
        ((.brackL, k₀) :: (xs.map (·.all)).flatten ++ [(.brackR, k)]) := by
      intro c
      refine .list g1 ?_
      intro a x b hx hf
      cases b with
      | nil => exact ⟨rfl, fun h => by cases h⟩
      | cons y b =>
        obtain ⟨t, j, ts', h2, h3, _⟩ := (g1 y (by rw [hx]; simp)).starts
        have h4 := g2 a x y b hx hf
        rw [h2] at h4
        simp only [List.map_cons, List.flatten_cons, ListItem.all, h2, List.cons_append, Follow]
        rcases h4 with ⟨z, hz, h4⟩ | h4
        · cases hz
          rcases h4 with rfl | rfl
          · exact ⟨rfl, fun h => by cases h⟩
          · exact ⟨rfl, fun h => by cases h⟩
        · exact ⟨by cases t <;> simp [beginsExpr, Token.joins] at h3 ⊢, fun _ => h4⟩
    refine (C81_program src _).2 ⟨_, [.expr (.list (xs.map (·.expr)))], ht, ?_, rfl⟩
    have := WrittenProg.expr (ds := []) (us := [])
      (ts := (.brackL, k₀) :: (xs.map (·.all)).flatten ++ [(.brackR, k)]) semi (.last (.head (hl _))) .nil
      (fun _ => trivial)
    simpa using this

end

section
attribute [local instance] asciiTables asciiTables_lawful

/-- C103 is false on several lines: a new line may stand for a comma. -/
theorem C103_line_wrong :
    (∃ l, parse t!"[f x\n,y]" = .ok ⟨[.expr], [], [.list [.app (.var (.lower t!"f"))
      (.var (.lower t!"x")), .var (.lower t!"y")]]⟩ l) ∧
    ∃ l, parse t!"[f x\ny]" = .ok ⟨[.expr], [], [.list [.app (.var (.lower t!"f"))
      (.var (.lower t!"x")), .var (.lower t!"y")]]⟩ l :=
  ⟨of_value (by decide +kernel), of_value (by decide +kernel)⟩

end
end Pemdas
