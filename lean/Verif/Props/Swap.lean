import Verif.Lemmas.SwapLayout
import Verif.Lemmas.Prefix
import Verif.Props.LineEnds
import Verif.Props.Rename
/-
C161 Only the order of columns matters to parsing. C162 Names do not matter to parsing.
-/
namespace Pemdas
open Resolver

namespace Swap

variable {ρ : Swap}

/-- The column that corresponds to a column. -/
private def colOf (cs cs' : List CTok) (c : Nat) : Nat :=
  match (cs.zip cs').find? fun z => z.1.2 == c with
  | some z => z.2.2
  | none => 0

private theorem colOf_eq {cs cs' : List CTok} (ho : OrderedAlike cs cs') {i : Nat} {x y : CTok}
    (hx : cs[i]? = some x) (hy : cs'[i]? = some y) : colOf cs cs' x.2 = y.2 := by
  have hi : (cs.zip cs')[i]? = some (x, y) := List.getElem?_zip_eq_some.2 ⟨hx, hy⟩
  unfold colOf
  cases hf : (cs.zip cs').find? fun z => z.1.2 == x.2 with
  | none =>
    have := List.find?_eq_none.1 hf _ (List.mem_of_getElem? hi)
    simp at this
  | some z =>
    have h1 := List.find?_some hf
    obtain ⟨j, hj⟩ := List.getElem?_of_mem (List.mem_of_find?_eq_some hf)
    obtain ⟨h2, h3⟩ := List.getElem?_zip_eq_some.1 hj
    have h4 : z.1.2 = x.2 := by simpa using h1
    have h5 := ho _ _ _ _ _ _ h2 hx h3 hy
    have h6 := ho _ _ _ _ _ _ hx h2 hy h3
    show z.2.2 = y.2
    omega

/-- Tokens that correspond, at columns that are ordered alike, in the form in which
`Lemmas/SwapLayout` needs them. -/
private theorem pairing {cs cs' : List CTok} (ht : OneByOne ρ.tok (cs.map (·.1)) (cs'.map (·.1)))
    (ho : OrderedAlike cs cs') : ∃ (f : Nat → Nat) (P : Nat → Prop) (zs : List (CTok × Token)),
      Keep f P ∧ zs.map (·.1) = cs ∧ ρ.Good P zs ∧ zs.map (put f) = cs' := by
  obtain ⟨ps, hp1, hp2, hp3⟩ := ht
  have hlen : cs.length = cs'.length := by
    have h1 := congrArg List.length hp1
    have h2 := congrArg List.length hp2
    simp at h1 h2
    omega
  refine ⟨colOf cs cs', fun c => ∃ (i : Nat) (x : CTok), cs[i]? = some x ∧ x.2 = c,
    (cs.zip cs').map fun z => (z.1, z.2.1), ?_, ?_, ?_, ?_⟩
  · rintro a b ⟨i, x, hx, rfl⟩ ⟨j, y, hy, rfl⟩ hlt
    have hi : i < cs'.length := hlen ▸ (List.getElem?_eq_some_iff.1 hx).1
    have hj : j < cs'.length := hlen ▸ (List.getElem?_eq_some_iff.1 hy).1
    rw [colOf_eq ho hx (List.getElem?_eq_getElem hi), colOf_eq ho hy (List.getElem?_eq_getElem hj)]
    exact (ho _ _ _ _ _ _ hx hy (List.getElem?_eq_getElem hi) (List.getElem?_eq_getElem hj)).1 hlt
  · rw [List.map_map]
    exact List.map_fst_zip (by omega)
  · intro z hz
    obtain ⟨y, hy, rfl⟩ := List.mem_map.1 hz
    obtain ⟨i, hi⟩ := List.getElem?_of_mem hy
    obtain ⟨h4, h5⟩ := List.getElem?_zip_eq_some.1 hi
    refine ⟨?_, i, y.1, h4, rfl⟩
    have h6 : (ps.map (·.1))[i]? = some y.1.1 := by rw [hp1, List.getElem?_map, h4]; rfl
    have h7 : (ps.map (·.2))[i]? = some y.2.1 := by rw [hp2, List.getElem?_map, h5]; rfl
    rw [List.getElem?_map] at h6 h7
    cases h8 : ps[i]? with
    | none => rw [h8] at h6; cases h6
    | some p =>
      rw [h8] at h6 h7
      have := hp3 p (List.mem_of_getElem? h8)
      have e1 : p.1 = y.1.1 := Option.some.inj h6
      have e2 : p.2 = y.2.1 := Option.some.inj h7
      rw [e1, e2] at this
      exact this
  · rw [List.map_map]
    conv => rhs; rw [← List.map_snd_zip (l₁ := cs) (l₂ := cs') (by omega)]
    refine List.map_congr_left fun z hz => ?_
    obtain ⟨i, hi⟩ := List.getElem?_of_mem hz
    obtain ⟨h4, h5⟩ := List.getElem?_zip_eq_some.1 hi
    show (z.2.1, colOf cs cs' z.1.2) = z.2
    rw [colOf_eq ho h4 h5]

theorem prog_alike (hρ : ρ.Sound) {cs cs' : List CTok} (ht : OneByOne ρ.tok (cs.map (·.1)) (cs'.map (·.1)))
    (ho : OrderedAlike cs cs') {ds : List Decl} (h : WrittenProg ds cs) :
    ∃ ds', WrittenProg ds' cs' ∧ ρ.ast (Ast.ofDecls ds) (Ast.ofDecls ds') := by
  obtain ⟨f, P, zs, hkeep, hz1, hz2, hz3⟩ := pairing ht ho
  obtain ⟨qs, h1, h2, h3⟩ := writtenProg hρ hkeep h zs hz1 hz2
  rw [hz3] at h2
  refine ⟨_, h2, ?_⟩
  rw [← h1]
  exact ofDecls qs h3

theorem expr_alike (hρ : ρ.Sound) {k k' : Nat} {cs cs' us rest : List CTok}
    (ht : OneByOne ρ.tok (cs.map (·.1)) (cs'.map (·.1)))
    (ho : OrderedAlike ((.semi, k) :: cs) ((.semi, k') :: cs')) {e : Expr} {m : Nat}
    (hc : cs = us ++ rest) (h : Written .chain k m e us) (hr : Follow m rest) :
    ∃ us' rest' m' e', cs' = us' ++ rest' ∧ Written .chain k' m' e' us' ∧ Follow m' rest' ∧
      ρ.expr e e' := by
  have ht' : OneByOne ρ.tok (((Token.semi, k) :: cs).map (·.1)) (((Token.semi, k') :: cs').map (·.1)) := by
    obtain ⟨ps, h1, h2, h3⟩ := ht
    refine ⟨(.semi, .semi) :: ps, by simp [h1], by simp [h2], ?_⟩
    intro p hp
    cases hp with
    | head => exact .same (by simp) (by simp) (by simp) (by simp)
    | tail _ hp => exact h3 p hp
  obtain ⟨f, P, zs, hkeep, hz1, hz2, hz3⟩ := pairing ht' ho
  cases zs with
  | nil => cases hz1
  | cons z zs =>
    have hg := hz2.cons.2
    have hk := hz2.cons.1.2
    simp only [List.map_cons, List.cons.injEq] at hz1 hz3
    obtain ⟨e1, hz1⟩ := hz1
    obtain ⟨e2, hz3⟩ := hz3
    rw [e1] at hk
    have e3 : f k = k' := by
      have := congrArg Prod.snd e2
      simpa [put, e1] using this
    obtain ⟨za, zb, rfl, hza, hzb⟩ := List.map_eq_append_iff.1 (hz1.trans hc)
    obtain ⟨h1, e', h2, h3⟩ := written hρ hkeep h za hk hza hg.left
    rw [e3] at h2
    exact ⟨_, _, _, e', by rw [← hz3, List.map_append], h2, follow hkeep h1 hzb hg.right hr, h3⟩

theorem OneByOne.map {α β : Type} {R : α → β → Prop} {g : α → β} (hR : ∀ a b, R a b → b = g a)
    {xs : List α} {ys : List β} (h : OneByOne R xs ys) : ys = xs.map g := by
  obtain ⟨ps, rfl, rfl, h3⟩ := h
  rw [List.map_map]
  exact List.map_congr_left fun p hp => hR _ _ (h3 p hp)

/-- The names and literals that functions give. -/
def graph (g : Text → Text) (lit : Literal → Literal) : Swap :=
  ⟨fun s s' => s' = g s, fun l l' => l' = lit l⟩

variable {g : Text → Text} {lit : Literal → Literal}

theorem op_graph {a b : Infix} (h : (graph g lit).op a b) : b = (Renaming.names g lit).op a := by
  cases h with
  | standard h => rw [show _ = _ from h]; rfl
  | promoted h => rw [show _ = _ from h]; rfl

theorem ident_graph {a b : Ident} (h : (graph g lit).ident a b) : b = (Renaming.names g lit).var a := by
  cases h with
  | nil => rfl
  | commas => rfl
  | upper h => rw [show _ = _ from h]; rfl
  | lower h => rw [show _ = _ from h]; rfl
  | infix_ h => rw [show _ = _ from h]; rfl

theorem renamedAll_eq (ps : List Pat) : Pat.renamedAll g lit ps = ps.map (Pat.renamed g lit) := by
  induction ps with
  | nil => rfl
  | cons p ps ih => rw [Pat.renamedAll, ih]; rfl

theorem exprs_eq (ρ : Renaming) (es : List Expr) : ρ.exprs es = es.map ρ.expr := by
  induction es with
  | nil => rfl
  | cons p ps ih => rw [Renaming.exprs, ih]; rfl

theorem pat_graph {a b : Pat} (h : (graph g lit).pat a b) : b = a.renamed g lit := by
  induction h with
  | wild => rfl
  | lit h => rw [show _ = _ from h]; rfl
  | var h => rw [show _ = _ from h]; rfl
  | neg _ ih => rw [ih]; rfl
  | con h _ ih =>
    rw [show _ = _ from h, Pat.renamed, renamedAll_eq, List.map_map]
    exact congrArg _ (List.map_congr_left ih)
  | tup _ ih =>
    rw [Pat.renamed, renamedAll_eq, List.map_map]; exact congrArg _ (List.map_congr_left ih)
  | arr _ ih =>
    rw [Pat.renamed, renamedAll_eq, List.map_map]; exact congrArg _ (List.map_congr_left ih)
  | lnk _ _ ih ih' => rw [ih, ih']; rfl
  | as_ h _ ih => rw [show _ = _ from h, ih]; rfl

theorem decl_graph {a b : InfixDecl} (h : (graph g lit).decl a b) :
    b = (Renaming.names g lit).decl a := by
  obtain ⟨h1, h2⟩ := h
  obtain ⟨os, fx⟩ := a
  obtain ⟨os', fx'⟩ := b
  cases h1
  rw [Renaming.decl]
  congr 1
  exact OneByOne.map (R := (graph g lit).op) (fun _ _ h => op_graph h) h2

theorem expr_graph {a b : Expr} (h : (graph g lit).expr a b) :
    b = (Renaming.names g lit).expr a := by
  induction h with
  | lit h => rw [show _ = _ from h]; rfl
  | var h => rw [ident_graph h]; rfl
  | app _ _ ih ih' => rw [ih, ih']; rfl
  | bin _ h _ ih ih' => rw [ih, ih', op_graph h]; rfl
  | lam h _ ih => rw [ih, pat_graph h]; rfl
  | grp _ ih => rw [ih]; rfl
  | neg _ ih => rw [ih]; rfl
  | tup _ ih =>
    rw [Renaming.expr, exprs_eq, List.map_map]; exact congrArg _ (List.map_congr_left ih)
  | list _ ih =>
    rw [Renaming.expr, exprs_eq, List.map_map]; exact congrArg _ (List.map_congr_left ih)
  | let_ h _ ih => rw [ih, decl_graph h]; rfl

theorem ast_graph {a b : Ast} (h : (graph g lit).ast a b) : b = (Renaming.names g lit).ast a := by
  obtain ⟨h1, h2, h3⟩ := h
  obtain ⟨ks, ds, es⟩ := a
  obtain ⟨ks', ds', es'⟩ := b
  cases h1
  rw [Renaming.ast, exprs_eq]
  congr 1
  · exact OneByOne.map (R := (graph g lit).decl) (fun _ _ h => decl_graph h) h2
  · exact OneByOne.map (R := (graph g lit).expr) (fun _ _ h => expr_graph h) h3

theorem tok_graph (t : Token) : (graph g lit).tok t (t.renamed g lit) := by
  cases t <;> first | exact .same (by simp) (by simp) (by simp) (by simp) | skip
  · exact .upper rfl
  · exact .lower rfl
  · exact .affix _ rfl
  · exact .lit rfl

theorem graph_sound (h : KeepsFixed g lit) : (graph g lit).Sound :=
  ⟨h.dash.symm, h.at_.symm, by
    rintro l l' rfl n
    exact (h.int l n).symm⟩

mutual
private theorem pat_same : ∀ p : Pat, p.renamed id id = p
  | .wild => rfl
  | .lit _ => rfl
  | .var _ => rfl
  | .neg p => by rw [Pat.renamed, pat_same p]
  | .con s ps => by rw [Pat.renamed, pats_same ps]; rfl
  | .tup ps => by rw [Pat.renamed, pats_same ps]
  | .arr ps => by rw [Pat.renamed, pats_same ps]
  | .lnk p q => by rw [Pat.renamed, pat_same p, pat_same q]
  | .as_ s p => by rw [Pat.renamed, pat_same p]; rfl
private theorem pats_same : ∀ ps : List Pat, Pat.renamedAll id id ps = ps
  | [] => rfl
  | p :: ps => by rw [Pat.renamedAll, pat_same p, pats_same ps]
end

private theorem op_same (o : Infix) : (Renaming.names id id).op o = o := by cases o <;> rfl

private theorem decl_same (d : InfixDecl) : (Renaming.names id id).decl d = d := by
  rw [Renaming.decl, show (Renaming.names id id).op = id from funext op_same, List.map_id]

mutual
private theorem expr_same : ∀ e : Expr, (Renaming.names id id).expr e = e
  | .lit _ => rfl
  | .var i => by cases i <;> rfl
  | .app f x => by rw [Renaming.expr, expr_same f, expr_same x]
  | .bin l o r => by rw [Renaming.expr, expr_same l, expr_same r, op_same]
  | .lam p e => by rw [Renaming.expr, expr_same e]; exact congrArg (Expr.lam · e) (pat_same p)
  | .grp e => by rw [Renaming.expr, expr_same e]
  | .neg e => by rw [Renaming.expr, expr_same e]
  | .tup es => by rw [Renaming.expr, exprs_same es]
  | .list es => by rw [Renaming.expr, exprs_same es]
  | .let_ d e => by rw [Renaming.expr, expr_same e, decl_same]
private theorem exprs_same : ∀ es : List Expr, (Renaming.names id id).exprs es = es
  | [] => rfl
  | e :: es => by rw [Renaming.exprs, expr_same e, exprs_same es]
end

theorem ast_same (a : Ast) : (Renaming.names id id).ast a = a := by
  rw [Renaming.ast, exprs_same, show (Renaming.names id id).decl = id from funext decl_same, List.map_id]

end Swap

section
variable [CharTables] [LawfulTables]

/-! ### C162 -/

/-- **C162.** Which names and literals a program has does not matter to parsing: if two sources
consist of tokens of the same classes, integers and punctuation being the same, and the columns of
the tokens are ordered alike, then where one is read as a program, the other is read as a program
that differs in the same names and literals only. -/
theorem C162_same_shape {ρ : Swap} (hρ : ρ.Sound) {src src' : Text} {cs cs' : List CTok}
    (h : Lexes src cs) (h' : Lexes src' cs')
    (ht : OneByOne ρ.tok (cs.map (·.1)) (cs'.map (·.1))) (ho : OrderedAlike cs cs') {ast : Ast}
    {l : Lexer} (hp : parse src = .ok ast l) :
    ∃ ast' l', parse src' = .ok ast' l' ∧ ρ.ast ast ast' := by
  obtain ⟨ts, ds, h1, h2, rfl⟩ := (C81_program src _).1 ⟨l, hp⟩
  rw [h1.unique h] at h2
  obtain ⟨ds', h3, h4⟩ := Swap.prog_alike hρ ht ho h2
  obtain ⟨l', h5⟩ := (C81_program src' _).2 ⟨cs', ds', h', h3, rfl⟩
  exact ⟨_, l', h5, h4⟩

/-- **C162.** Whether a source is accepted depends on the classes of its tokens, its integers and
the order of its columns only. -/
theorem C162_accepted {src src' : Text} {cs cs' : List CTok} (h : Lexes src cs) (h' : Lexes src' cs')
    (ht : OneByOne Swap.any.tok (cs.map (·.1)) (cs'.map (·.1))) (ho : OrderedAlike cs cs') :
    (∃ ast l, parse src = .ok ast l) ↔ ∃ ast l, parse src' = .ok ast l := by
  have hs : Swap.any.Sound := ⟨trivial, trivial, fun _ _ h => h⟩
  constructor
  · rintro ⟨ast, l, hp⟩
    obtain ⟨ast', l', h1, _⟩ := C162_same_shape hs h h' ht ho hp
    exact ⟨ast', l', h1⟩
  · rintro ⟨ast, l, hp⟩
    obtain ⟨ps, h1, h2, h3⟩ := ht
    have ht' : OneByOne Swap.any.tok (cs'.map (·.1)) (cs.map (·.1)) := by
      refine ⟨ps.map fun p => (p.2, p.1), by rw [← h2, List.map_map]; rfl,
        by rw [← h1, List.map_map]; rfl, ?_⟩
      intro p hp
      obtain ⟨q, hq, rfl⟩ := List.mem_map.1 hp
      obtain ⟨t, t'⟩ := q
      have h4 : Swap.any.tok t t' := h3 _ hq
      show Swap.any.tok t' t
      cases h4 with
      | upper => exact .upper trivial
      | lower => exact .lower trivial
      | affix b => exact .affix b trivial
      | lit hl => exact .lit fun n => (hl n).symm
      | same a b c d => exact .same a b c d
    obtain ⟨ast', l', h4, _⟩ := C162_same_shape hs h' h ht'
      (fun i j x y x' y' a b c d => (ho i j x' y' x y c d a b).symm) hp
    exact ⟨ast', l', h4⟩

/-- **C162.** If the names and literals of a source are replaced throughout, the names and literals
of the program that is read are replaced accordingly. Different names may be replaced by one. -/
theorem C162_renamed {g : Text → Text} {lit : Literal → Literal} (hg : KeepsFixed g lit)
    {src src' : Text} {cs cs' : List CTok} (h : Lexes src cs) (h' : Lexes src' cs')
    (ht : cs'.map (·.1) = (cs.map (·.1)).map (Token.renamed g lit)) (ho : OrderedAlike cs cs')
    {ast : Ast} {l : Lexer} (hp : parse src = .ok ast l) :
    ∃ l', parse src' = .ok ((Renaming.names g lit).ast ast) l' := by
  obtain ⟨ast', l', h1, h2⟩ := C162_same_shape (Swap.graph_sound hg) h h'
    ⟨(cs.map (·.1)).map fun t => (t, t.renamed g lit), by simp, by rw [ht, List.map_map]; rfl, by
      intro p hp
      obtain ⟨t, _, rfl⟩ := List.mem_map.1 hp
      exact Swap.tok_graph t⟩ ho hp
  exact ⟨l', by rw [h1, Swap.ast_graph h2]⟩

omit [CharTables] [LawfulTables] in
private theorem orderedAlike_of_inc {cs cs' : List CTok} (h : Inc cs) (h' : Inc cs') :
    OrderedAlike cs cs' := by
  have key : ∀ {cs : List CTok}, Inc cs → ∀ {i j : Nat} {x y : CTok}, cs[i]? = some x → cs[j]? = some y →
      (x.2 < y.2 ↔ i < j) := by
    intro cs h i j x y hx hy
    obtain ⟨hi, rfl⟩ := List.getElem?_eq_some_iff.1 hx
    obtain ⟨hj, rfl⟩ := List.getElem?_eq_some_iff.1 hy
    have := List.pairwise_iff_getElem.1 h
    constructor
    · intro hlt
      rcases Nat.lt_or_ge i j with hij | hij
      · exact hij
      · rcases Nat.lt_or_eq_of_le hij with hij | rfl
        · have := this j i hj hi hij; omega
        · omega
    · exact this i j hi hj
  intro i j x y x' y' hx hy hx' hy'
  rw [key h hx hy, key h' hx' hy']

/-- **C162** on one line, where columns do not matter. -/
theorem C162_line {g : Text → Text} {lit : Literal → Literal} (hg : KeepsFixed g lit)
    {src src' : Text} (hn : '\n' ∉ src) (hn' : '\n' ∉ src') {ts : List Token} (h : Tokenizes src ts)
    (h' : Tokenizes src' (ts.map (Token.renamed g lit))) {ast : Ast} {l : Lexer}
    (hp : parse src = .ok ast l) : ∃ l', parse src' = .ok ((Renaming.names g lit).ast ast) l' := by
  obtain ⟨cs, h1, rfl, _⟩ := (C95_lexical_grammar (noLFCR_of_noLF hn) ts).2 h
  obtain ⟨cs', h2, h3, _⟩ := (C95_lexical_grammar (noLFCR_of_noLF hn') _).2 h'
  exact C162_renamed hg h1 h2 h3 (orderedAlike_of_inc (h1.inc hn).1 (h2.inc hn').1) hp

/-- **C162** with resolving: if different names are replaced by different names, the program that is
read from the other source is resolved, with the table in which names are replaced, to the program
in which names are replaced, with the same errors. -/
theorem C162_resolved {g : Text → Text} {lit : Literal → Literal} (hg : KeepsFixed g lit)
    (hi : ∀ a b, g a = g b → a = b) {src src' : Text} {cs cs' : List CTok} (h : Lexes src cs)
    (h' : Lexes src' cs') (ht : cs'.map (·.1) = (cs.map (·.1)).map (Token.renamed g lit))
    (ho : OrderedAlike cs cs') {ast : Ast} {l : Lexer} (hp : parse src = .ok ast l) (r : Resolver) :
    ∃ ast' l', parse src' = .ok ast' l' ∧
      resolveAst ((Renaming.names g lit).resolver r) ast' =
        (resolveAst r ast).map fun x => ((Renaming.names g lit).resolver x.1,
          (Renaming.names g lit).ast x.2.1, x.2.2.map (Renaming.names g lit).error) := by
  obtain ⟨l', h1⟩ := C162_renamed hg h h' ht ho hp
  refine ⟨_, l', h1, C134_programs ?_ r ast⟩
  have key : ∀ o : Infix, ((Renaming.names g lit).op o).symbol = g o.symbol := by
    intro o; cases o <;> rfl
  intro a b
  rw [key, key]
  exact ⟨hi _ _, congrArg g⟩

/-- **C162** for `parse_expr`, for which the column where the first token begins matters too. What is
left over corresponds as well. -/
theorem C162_expression {ρ : Swap} (hρ : ρ.Sound) {src src' : Text} {cs cs' : List CTok}
    (h : Lexes src cs) (h' : Lexes src' cs') (ht : OneByOne ρ.tok (cs.map (·.1)) (cs'.map (·.1)))
    (ho : OrderedAlike ((.semi, startCol src) :: cs) ((.semi, startCol src') :: cs')) {e : Expr}
    {l : Lexer} (hp : parseExpr src = .ok e l) :
    ∃ e' l', parseExpr src' = .ok e' l' ∧ ρ.expr e e' := by
  obtain ⟨us, rest, m, h1, h2, h3⟩ := (C81_expression h _).1 ⟨l, hp⟩
  obtain ⟨us', rest', m', e', h4, h5, h6, h7⟩ := Swap.expr_alike hρ ht ho h1 h2 h3
  obtain ⟨l', h8⟩ := (C81_expression h' _).2 ⟨us', rest', m', h4, h5, h6⟩
  exact ⟨e', l', h8, h7⟩

/-- **C162** for `parse_expr`: replacing names and literals throughout. -/
theorem C162_expression_renamed {g : Text → Text} {lit : Literal → Literal} (hg : KeepsFixed g lit)
    {src src' : Text} {cs cs' : List CTok} (h : Lexes src cs) (h' : Lexes src' cs')
    (ht : cs'.map (·.1) = (cs.map (·.1)).map (Token.renamed g lit))
    (ho : OrderedAlike ((.semi, startCol src) :: cs) ((.semi, startCol src') :: cs')) {e : Expr}
    {l : Lexer} (hp : parseExpr src = .ok e l) :
    ∃ l', parseExpr src' = .ok ((Renaming.names g lit).expr e) l' := by
  obtain ⟨e', l', h1, h2⟩ := C162_expression (Swap.graph_sound hg) h h'
    ⟨(cs.map (·.1)).map fun t => (t, t.renamed g lit), by simp, by rw [ht, List.map_map]; rfl, by
      intro p hp
      obtain ⟨t, _, rfl⟩ := List.mem_map.1 hp
      exact Swap.tok_graph t⟩ ho hp
  exact ⟨l', by rw [h1, Swap.expr_graph h2]⟩

/-! ### C161 -/

/-- **C161.** Only the order of columns matters to parsing: two sources with the same tokens, one of
which ends further to the right than another exactly if it does so in the other source, are read
alike, however the tokens are spread over lines. -/
theorem C161_order {src src' : Text} {cs cs' : List CTok} (h : Lexes src cs) (h' : Lexes src' cs')
    (ht : cs.map (·.1) = cs'.map (·.1)) (ho : OrderedAlike cs cs') (ast : Ast) :
    (∃ l, parse src = .ok ast l) ↔ ∃ l, parse src' = .ok ast l := by
  have hs : KeepsFixed id id := ⟨rfl, rfl, fun _ _ => Iff.rfl⟩
  have hr : Token.renamed id id = id := by funext t; cases t <;> rfl
  constructor
  · rintro ⟨l, hp⟩
    obtain ⟨l', h1⟩ := C162_renamed hs h h' (by rw [hr, List.map_id, ht]) ho hp
    exact ⟨l', by rw [h1, Swap.ast_same]⟩
  · rintro ⟨l, hp⟩
    obtain ⟨l', h1⟩ := C162_renamed hs h' h (by rw [hr, List.map_id, ht])
      (fun i j x y x' y' a b c d => (ho i j x' y' x y c d a b).symm) hp
    exact ⟨l', by rw [h1, Swap.ast_same]⟩

/-- **C161** for `parse_expr`. -/
theorem C161_expression {src src' : Text} {cs cs' : List CTok} (h : Lexes src cs) (h' : Lexes src' cs')
    (ht : cs.map (·.1) = cs'.map (·.1))
    (ho : OrderedAlike ((.semi, startCol src) :: cs) ((.semi, startCol src') :: cs')) (e : Expr) :
    (∃ l, parseExpr src = .ok e l) ↔ ∃ l, parseExpr src' = .ok e l := by
  have hs : KeepsFixed id id := ⟨rfl, rfl, fun _ _ => Iff.rfl⟩
  have hr : Token.renamed id id = id := by funext t; cases t <;> rfl
  constructor
  · rintro ⟨l, hp⟩
    obtain ⟨l', h1⟩ := C162_expression_renamed hs h h' (by rw [hr, List.map_id, ht]) ho hp
    exact ⟨l', by rw [h1, Swap.expr_same]⟩
  · rintro ⟨l, hp⟩
    obtain ⟨l', h1⟩ := C162_expression_renamed hs h' h (by rw [hr, List.map_id, ht])
      (fun i j x y x' y' a b c d => (ho i j x' y' x y c d a b).symm) hp
    exact ⟨l', by rw [h1, Swap.expr_same]⟩

omit [CharTables] [LawfulTables] in
private theorem colAfter_one {p : Text} (h : '\n' ∉ p) : colAfter p = 1 + p.length := by
  unfold colAfter
  rw [takeWhile_all, List.length_reverse]
  intro c hc
  rw [List.mem_reverse] at hc
  simp only [bne_iff_ne, ne_eq]
  rintro rfl
  exact h hc

/-- Tokens further to the right, except those that end where a line begins. -/
private def further (k : Nat) (cs : List CTok) : List CTok :=
  cs.map fun x => (x.1, if x.2 ≤ 1 then x.2 else x.2 + k)

omit [CharTables] [LawfulTables] in
private theorem further_cons {k : Nat} {t : Token} {c c' : Nat} {cs : List CTok}
    (h : c' = if c ≤ 1 then c else c + k) : (t, c') :: further k cs = further k ((t, c) :: cs) := by
  rw [h]; rfl

/-- A line with the line end after it, and what follows. -/
private theorem placed_line {pre l : Text} {cs₀ : List CTok} (h : Placed pre l cs₀) :
    '\n' ∉ pre → '\n' ∉ l → ∃ cs, ∀ g, '\n' ∉ g → ∀ r us, Placed [] r us →
      Placed (g ++ pre) (l ++ '\n' :: r) (further g.length cs ++ us) := by
  induction h with
  | @nil pre =>
    intro _ _
    refine ⟨[], fun g _ r us hr => .space (by decide) ?_⟩
    exact Placed.newline.2 hr
  | @space c pre s cs hw _ ih =>
    intro hp hs
    obtain ⟨cs, ih⟩ := ih (by simp_all) (by simp_all)
    refine ⟨cs, fun g hg r us hr => .space hw ?_⟩
    simpa using ih g hg r us hr
  | @line pre b s cs hb hm hs hs' ih =>
    intro hp hl
    cases s with
    | cons d s => exact absurd (hs d rfl) (by rintro rfl; simp at hl)
    | nil =>
      obtain ⟨cs, ih⟩ := ih (by simp_all) (by simp)
      refine ⟨cs, fun g hg r us hr => ?_⟩
      have hmax := maximal_gap (g := t!"\n") (r := r) (by simpa using hm) (by decide) (by simp)
      have := Placed.line (pre := g ++ pre) (b := b) (s := '\n' :: r) hb (by simpa using hmax)
        (by simp) (by simpa using ih g hg r us hr)
      simpa using this
  | @block pre b x s cs hb hx hs' ih =>
    intro hp hl
    rcases hx with hx | ⟨rfl, rfl⟩
    · obtain ⟨cs, ih⟩ := ih (by simp_all) (by simp_all)
      refine ⟨cs, fun g hg r us hr => ?_⟩
      have := Placed.block (pre := g ++ pre) (x := x) (s := s ++ '\n' :: r) hb (.inl hx)
        (by simpa using ih g hg r us hr)
      simpa using this
    · refine ⟨[], fun g hg r us hr => ?_⟩
      have := Placed.block (pre := g ++ pre) (x := ['\n']) (s := r) (cs := us) hb (.inl rfl) (by
        have := (Placed.newline (p := g ++ pre ++ (t!"~{" ++ b ++ t!"}~"))).2 hr
        simpa using this)
      simpa [further] using this
  | @token t pre w s cs₁ ht hs' ih =>
    intro hp hl
    obtain ⟨cs, ih⟩ := ih (by simp_all) (by simp_all)
    have hw := ht.ne_nil
    have hcol : ∀ g : Text, '\n' ∉ g → colAfter (g ++ pre ++ w) =
        if colAfter (pre ++ w) ≤ 1 then colAfter (pre ++ w) else colAfter (pre ++ w) + g.length := by
      intro g hg
      have := List.length_pos_iff.2 hw
      rw [colAfter_one (by simp_all), colAfter_one (by simp_all)]
      simp only [List.length_append]
      rw [if_neg (by omega)]
      omega
    have hlost : ∀ p : Text, colAfter (p ++ ['\n']) = 1 := by
      intro p; rw [colAfter_newline p []]; rfl
    -- the token as it is
    have asIs : (∀ r, TokenAt t w (s ++ '\n' :: r)) → ∃ cs, ∀ g, '\n' ∉ g → ∀ r us, Placed [] r us →
        Placed (g ++ pre) (w ++ s ++ '\n' :: r) (further g.length cs ++ us) := by
      intro h
      refine ⟨(t, colAfter (pre ++ w)) :: cs, fun g hg r us hr => ?_⟩
      have := Placed.token (pre := g ++ pre) (h r) (by simpa using ih g hg r us hr)
      rw [← further_cons (hcol g hg)]
      simpa using this
    -- the line end is part of the token
    have more : s = [] → ∀ t' : Token, (∀ r, TokenAt t' (w ++ ['\n']) r) →
        ∃ cs, ∀ g, '\n' ∉ g → ∀ r us, Placed [] r us →
          Placed (g ++ pre) (w ++ s ++ '\n' :: r) (further g.length cs ++ us) := by
      rintro rfl t' h
      refine ⟨[(t', 1)], fun g hg r us hr => ?_⟩
      have h1 := (Placed.newline (p := g ++ pre ++ w)).2 hr
      have := Placed.token (pre := g ++ pre) (h r) (by simpa using h1)
      rw [show g ++ pre ++ (w ++ ['\n']) = (g ++ pre ++ w) ++ ['\n'] by simp, hlost] at this
      simpa [further] using this
    by_cases hq : s = [] ∧ ∃ c, w = ['\'', c] ∧ t = .affix [c] true
    · obtain ⟨hs0, c, rfl, rfl⟩ := hq
      refine more hs0 (.affix [c, '\n'] true) fun r => .blank ?_ (by decide)
      cases ht with
      | keyword h => simp [keywordTokens] at h
      | reserved h => simp [reservedTokens] at h
      | apostrophe h1 _ _ =>
        obtain ⟨_, _, h2, h3, _⟩ := h1
        cases h2
        simp only [List.mem_cons, List.not_mem_nil, or_false]
        rintro (rfl | rfl | rfl) <;> exact absurd h3 (by rw [TLex.ascii_identStart (by decide)]; decide)
    · by_cases hx : ∃ x, s = [] ∧ t = .affix x true ∧ x.length = 1
      · obtain ⟨x, rfl, rfl, hx⟩ := hx
        refine asIs fun r => ?_
        cases ht with
        | punct h => simp [punctuation] at h
        | keyword h => simp [keywordTokens] at h
        | reserved h => simp [reservedTokens] at h
        | backticks h => exact .backticks h
        | blank h1 h2 => simp at hx
        | apostrophe h1 h2 h3 =>
          obtain ⟨c, rfl⟩ := List.length_eq_one_iff.1 hx
          exact absurd ⟨rfl, c, rfl, rfl⟩ hq
      · rcases ht.followAll (d := '\n') (Seals.of_ws (by decide))
          (fun h1 _ x h2 h3 => hx ⟨x, h1, h2, h3⟩) with h | ⟨h1, _, h2⟩
        · exact asIs h
        · exact more h1 t h2

private theorem placed_last {g pre s : Text} {cs : List CTok} (hg : '\n' ∉ g)
    (h : Placed pre s cs) : '\n' ∉ pre → '\n' ∉ s → Placed (g ++ pre) s (further g.length cs) := by
  induction h with
  | nil => exact fun _ _ => .nil
  | space hc _ ih =>
    intro hp hs
    refine .space hc ?_
    have := ih (by simp_all) (by simp_all)
    simpa using this
  | line h1 h2 h3 _ ih =>
    intro hp hs
    refine .line h1 h2 h3 ?_
    have := ih (by simp_all) (by simp_all)
    simpa using this
  | block h1 h2 _ ih =>
    intro hp hs
    refine .block h1 h2 ?_
    have := ih (by simp_all) (by simp_all)
    simpa using this
  | @token t pre w s cs h1 _ ih =>
    intro hp hs
    have h2 := ih (by simp_all) (by simp_all)
    have h3 := Placed.token h1 (pre := g ++ pre) (by simpa using h2)
    rw [← further_cons]
    · exact h3
    · have := List.length_pos_iff.2 h1.ne_nil
      rw [colAfter_one (by simp_all), colAfter_one (by simp_all)]
      simp only [List.length_append]
      rw [if_neg (by omega)]
      omega

private theorem placed_indent {g : Text} (hw : g.all isWhitespace = true) (hg : '\n' ∉ g) {last : Text}
    {cs' : List CTok} (hn : '\n' ∉ last) (hl : Placed [] last cs') :
    ∀ (ls : List Text), (∀ l ∈ ls, LineOfTokens l) →
      ∃ cs, Placed [] (withEol t!"\n" ls last) cs ∧
        Placed [] (withEol t!"\n" (ls.map (g ++ ·)) (g ++ last)) (further g.length cs)
  | [], _ => ⟨cs', by simpa [withEol] using hl, by
      have := Placed.blank hw (pre := []) (by simpa using placed_last hg hl (by simp) hn)
      simpa [withEol] using this⟩
  | l :: ls, h => by
    obtain ⟨us, ih, ih'⟩ := placed_indent hw hg hn hl ls fun l hl => h l (by simp [hl])
    obtain ⟨ts, h3⟩ := (h l (by simp)).whole
    obtain ⟨_, _, h1⟩ := h3.placed []
    obtain ⟨cs, h2⟩ := placed_line h1 (by simp) (h l (by simp)).lf
    refine ⟨cs ++ us, ?_, ?_⟩
    · have := h2 [] (by simp) _ us ih
      have e : further 0 cs = cs := by simp [further]
      simpa [withEol, e] using this
    · have := Placed.blank hw (pre := []) (by simpa using h2 g hg _ _ ih')
      simpa [withEol, further] using this

omit [CharTables] [LawfulTables] in
private theorem noLFCR_lines : ∀ {ls : List Text} {last : Text},
    (∀ l ∈ ls, '\n' ∉ l ∧ l.head? ≠ some '\r') → '\n' ∉ last → last.head? ≠ some '\r' →
      NoLFCR (withEol t!"\n" ls last) ∧ (withEol t!"\n" ls last).head? ≠ some '\r'
  | [], last, _, hn, hr => by simpa [withEol] using ⟨noLFCR_of_noLF hn, hr⟩
  | l :: ls, last, h, hn, hr => by
    obtain ⟨h1, h2⟩ := noLFCR_lines (ls := ls) (fun l hl => h l (by simp [hl])) hn hr
    have e : withEol t!"\n" (l :: ls) last = l ++ '\n' :: withEol t!"\n" ls last := by simp [withEol]
    obtain ⟨h3, h4⟩ := h l (by simp)
    rw [e]
    refine ⟨noLFCR_append (noLFCR_of_noLF h3) (noLFCR_cons (fun _ => h2) h1) (by simp), ?_⟩
    cases l with
    | nil => simp
    | cons c l => simpa using h4

/-- **C161 for texts.** Indenting all lines of a text alike does not change what is read, if every
line consists of whole tokens, whitespace and comments. -/
theorem C161_indent {g : Text} (hw : g.all isWhitespace = true) (hg : '\n' ∉ g)
    (hr : g.head? ≠ some '\r') {ls : List Text} {last : Text} (h : ∀ l ∈ ls, LineOfTokens l)
    (hl : LineOfTokens last) (ast : Ast) :
    (∃ l', parse (withEol t!"\n" (ls.map (g ++ ·)) (g ++ last)) = .ok ast l') ↔
      ∃ l', parse (withEol t!"\n" ls last) = .ok ast l' := by
  obtain ⟨_, hl'⟩ := hl.whole
  obtain ⟨cs', _, hl'⟩ := hl'.placed []
  obtain ⟨cs, h1, h2⟩ := placed_indent hw hg hl.lf hl' ls h
  have head : ∀ l : Text, l.head? ≠ some '\r' → (g ++ l).head? ≠ some '\r' := by
    intro l hl
    cases g with
    | nil => exact hl
    | cons c g => simpa using hr
  have e1 := (noLFCR_lines (fun l hl => ⟨(h l hl).lf, (h l hl).cr⟩) hl.lf hl.cr).1
  have e2 := (noLFCR_lines (ls := ls.map (g ++ ·)) (last := g ++ last) (by
    intro l hl
    obtain ⟨l, hl, rfl⟩ := List.mem_map.1 hl
    exact ⟨by simp [hg, (h _ (by assumption)).lf], head _ (h _ (by assumption)).cr⟩)
    (by simp [hg, hl.lf]) (head _ hl.cr)).1
  refine C161_order (h2.lexes e2) (h1.lexes e1) (by simp [further]) ?_ ast
  intro i j x y x' y' hx hy hx' hy'
  rw [further, List.getElem?_map, hx'] at hx
  rw [further, List.getElem?_map, hy'] at hy
  cases hx
  cases hy
  simp only
  split <;> split <;> omega

end
section
attribute [local instance] asciiTables asciiTables_lawful

/-- The order of columns does matter: the same tokens, of which the second is further to the right
than the first in one source only. -/
theorem C161_order_needed : ∃ ast ast' l l' cs cs',
    Lexes t!"f\n x" cs ∧ Lexes t!"f\nx" cs' ∧ cs.map (·.1) = cs'.map (·.1) ∧
    parse t!"f\n x" = .ok ast l ∧ parse t!"f\nx" = .ok ast' l' ∧
    ast.exprs = [.app (.var (.lower t!"f")) (.var (.lower t!"x"))] ∧
    ast'.exprs = [.var (.lower t!"f"), .var (.lower t!"x")] := by
  obtain ⟨l, h⟩ := of_value (src := t!"f\n x")
    (ast := ⟨[.expr], [], [.app (.var (.lower t!"f")) (.var (.lower t!"x"))]⟩) (by decide +kernel)
  obtain ⟨l', h'⟩ := of_value (src := t!"f\nx")
    (ast := ⟨[.expr, .expr], [], [.var (.lower t!"f"), .var (.lower t!"x")]⟩) (by decide +kernel)
  exact ⟨_, _, l, l', [(.lower t!"f", 2), (.lower t!"x", 3)], [(.lower t!"f", 2), (.lower t!"x", 2)],
    lexes_of 9 (by decide +kernel) (by decide), lexes_of 9 (by decide +kernel) (by decide), rfl,
    h, h', rfl, rfl⟩

/-- The hypotheses of `C161_order` are met by the same tokens on different lines. -/
example : ∃ cs cs', Lexes t!"f\n x y" cs ∧ Lexes t!"f x\n    y" cs' ∧ cs.map (·.1) = cs'.map (·.1) ∧
    OrderedAlike cs cs' := by
  refine ⟨[(.lower t!"f", 2), (.lower t!"x", 3), (.lower t!"y", 5)],
    [(.lower t!"f", 2), (.lower t!"x", 4), (.lower t!"y", 6)],
    lexes_of 9 (by decide +kernel) (by decide), lexes_of 9 (by decide +kernel) (by decide), rfl, ?_⟩
  intro i j x y x' y' hx hy hx' hy'
  match i, j with
  | 0, 0 | 0, 1 | 0, 2 | 1, 0 | 1, 1 | 1, 2 | 2, 0 | 2, 1 | 2, 2 =>
    cases hx; cases hy; cases hx'; cases hy'; decide
  | n + 3, _ => simp at hx
  | 0, n + 3 | 1, n + 3 | 2, n + 3 => simp at hy

/-- The hypotheses of `C161_indent` are met, by a line that ends in a code as well. -/
example : LineOfTokens t!"f '\\u41'" ∧ LineOfTokens t!"  x" ∧ LineOfTokens [] ∧
    withEol t!"\n" ([t!"f '\\u41'", []].map (t!"  " ++ ·)) (t!"  " ++ t!"  x") =
      t!"  f '\\u41'\n  \n    x" := by
  refine ⟨⟨by decide, by decide, [.lower t!"f", .lit (.char 'A')], ?_⟩,
    ⟨by decide, by decide, [.lower t!"x"], ?_⟩, ⟨by decide, by decide, [], .nil⟩, rfl⟩ <;>
  exact exTokens 9 (by decide +kernel) (by decide) (by simp)

/-- Every name but two gets longer. -/
def exNames (s : Text) : Text := if s = t!"-" ∨ s = t!"@" then s else s ++ s

theorem exNames_keeps : KeepsFixed exNames id := ⟨rfl, rfl, fun _ _ => Iff.rfl⟩

/-- The hypotheses of C162 are met. -/
example : ∃ cs cs', Lexes t!"a * 1 - b" cs ∧ Lexes t!"aa ** 1 - bb" cs' ∧
    cs'.map (·.1) = (cs.map (·.1)).map (Token.renamed exNames id) ∧
    Tokenizes t!"a * 1 - b" (cs.map (·.1)) :=
  ⟨[(.lower t!"a", 2), (.affix t!"*" false, 4), (.lit (.int 1), 6), (.dash, 8), (.lower t!"b", 10)],
    [(.lower t!"aa", 3), (.affix t!"**" false, 6), (.lit (.int 1), 8), (.dash, 10), (.lower t!"bb", 13)],
    lexes_of 9 (by decide +kernel) (by decide), lexes_of 9 (by decide +kernel) (by decide), by decide,
    exTokens 9 (by decide +kernel) (by decide) (by simp)⟩

/-- The hypotheses of `C161_expression` are met, by texts that are not read to their end. -/
example : ∃ cs cs', Lexes t!"f\n x; y" cs ∧ Lexes t!"  f x;\n       y" cs' ∧ cs.map (·.1) = cs'.map (·.1) ∧
    OrderedAlike ((.semi, startCol t!"f\n x; y") :: cs) ((.semi, startCol t!"  f x;\n       y") :: cs') := by
  refine ⟨[(.lower t!"f", 2), (.lower t!"x", 3), (.semi, 4), (.lower t!"y", 6)],
    [(.lower t!"f", 4), (.lower t!"x", 6), (.semi, 7), (.lower t!"y", 9)],
    lexes_of 9 (by decide +kernel) (by decide), lexes_of 9 (by decide +kernel) (by decide), rfl, ?_⟩
  exact orderedAlike_of_inc (by unfold Inc; decide +kernel) (by unfold Inc; decide +kernel)

/-- Different names may be given different names throughout. -/
example : KeepsFixed (fun s => if s = t!"+" then t!"*" else if s = t!"*" then t!"+" else s) id ∧
    ∀ a b : Text, (if a = t!"+" then t!"*" else if a = t!"*" then t!"+" else a) =
      (if b = t!"+" then t!"*" else if b = t!"*" then t!"+" else b) → a = b := by
  refine ⟨⟨by decide, by decide, fun _ _ => Iff.rfl⟩, ?_⟩
  intro a b h
  by_cases h1 : a = t!"+" <;> by_cases h2 : a = t!"*" <;> by_cases h3 : b = t!"+" <;>
    by_cases h4 : b = t!"*" <;> simp_all

/-- Integers do matter, as precedences. -/
theorem C162_integers_needed : (∃ ast l, parse t!"infixl 9 +" = .ok ast l) ∧
    ¬ ∃ ast l, parse t!"infixl 10 +" = .ok ast l := by
  obtain ⟨l, h⟩ := of_value (src := t!"infixl 9 +")
    (ast := ⟨[.infix_], [⟨[.standard t!"+"], ⟨9, .left⟩⟩], []⟩) (by decide +kernel)
  refine ⟨⟨_, l, h⟩, ?_⟩
  rintro ⟨ast, l, h⟩
  have h1 : (parse t!"infixl 10 +").value? = none := by decide +kernel
  rw [h] at h1
  cases h1

end
end Pemdas
