import Verif.Spec.Readme
import Verif.Props.Spellings
/-
C138 The grammar in the README.
-/
namespace Pemdas
namespace Readme

/-! ### operators and declarations -/

theorem op_iff {t : Token} : Op t ↔ ∃ op, OpTok op t := by
  constructor
  · rintro (⟨s, b⟩ | _ | _)
    · cases b
      · exact ⟨_, .standard s⟩
      · exact ⟨_, .promoted s⟩
    · exact ⟨_, .dash⟩
    · exact ⟨_, .at_⟩
  · rintro ⟨_, h⟩
    cases h with
    | dash => exact .dash
    | at_ => exact .at_
    | standard s => exact .affix s _
    | promoted s => exact .affix s _

theorem ops_iff {ts : List Token} : Ops ts ↔ ∃ ops : List (Infix × Token), ops ≠ [] ∧
    (∀ x ∈ ops, OpTok x.1 x.2) ∧ ts = sepBy .comma (ops.map fun x => [x.2]) := by
  constructor
  · intro h
    induction h with
    | @one t h =>
      obtain ⟨op, ho⟩ := op_iff.1 h
      exact ⟨[(op, t)], by simp, by simpa using ho, rfl⟩
    | @more t ts h _ ih =>
      obtain ⟨op, ho⟩ := op_iff.1 h
      obtain ⟨ops, h1, h2, rfl⟩ := ih
      refine ⟨(op, t) :: ops, by simp, List.forall_mem_cons.2 ⟨ho, h2⟩, ?_⟩
      cases ops with
      | nil => exact absurd rfl h1
      | cons x xs => rfl
  · rintro ⟨ops, h1, h2, rfl⟩
    induction ops with
    | nil => exact absurd rfl h1
    | cons x xs ih =>
      have hx := op_iff.2 ⟨_, h2 x (by simp)⟩
      cases xs with
      | nil => exact .one hx
      | cons y ys => exact .more hx (ih (by simp) fun z hz => h2 z (by simp [hz]))

theorem kw_iff {k : Token} : k ∈ keywords ↔ ∃ a : Assoc, k = a.kwTok := by
  constructor
  · intro h
    simp only [keywords, List.mem_cons, List.not_mem_nil, or_false] at h
    rcases h with rfl | rfl | rfl
    · exact ⟨.left, rfl⟩
    · exact ⟨.right, rfl⟩
    · exact ⟨.neither, rfl⟩
  · rintro ⟨a, rfl⟩
    cases a <;> simp [keywords, Assoc.kwTok]

theorem Even.part {a b c : List Token} (h : Even (a ++ b ++ c)) : Even b := by
  rintro us ho ⟨x, y, rfl⟩
  exact h us ho ⟨a ++ x, y ++ c, by simp⟩

theorem Even.left {a b : List Token} (h : Even (a ++ b)) : Even a :=
  Even.part (a := []) (c := b) (by simpa using h)

theorem Even.right {a b : List Token} (h : Even (a ++ b)) : Even b :=
  Even.part (a := a) (c := []) (by simpa using h)

/-- What declarations the README derives, in terms of the grammar of the code. -/
theorem fix_iff {ts : List Token} : Fix ts ↔ ∃ d, DeclToks d ts := by
  constructor
  · rintro (⟨hk, hn, ho⟩ | ⟨hk, ho⟩)
    · obtain ⟨a, rfl⟩ := kw_iff.1 hk
      obtain ⟨ops, h1, h2, rfl⟩ := ops_iff.1 ho
      exact ⟨_, .withPrec hn h1 h2⟩
    · obtain ⟨a, rfl⟩ := kw_iff.1 hk
      obtain ⟨ops, h1, h2, rfl⟩ := ops_iff.1 ho
      exact ⟨_, .noPrec h1 h2⟩
  · rintro ⟨d, h⟩
    cases h with
    | withPrec hn h1 h2 => exact .digit (kw_iff.2 ⟨_, rfl⟩) hn (ops_iff.2 ⟨_, h1, h2, rfl⟩)
    | noPrec h1 h2 => exact .none (kw_iff.2 ⟨_, rfl⟩) (ops_iff.2 ⟨_, h1, h2, rfl⟩)

/-- **C138** Declarations: apart from `-` and `@` directly after the keyword, the README's
declarations are those of the code. -/
theorem declarations {ts : List Token} (he : Even ts) : Fix ts ↔ ∃ d, DeclWritten d ts := by
  rw [fix_iff]
  refine ⟨?_, fun ⟨d, h, _⟩ => ⟨d, h⟩⟩
  rintro ⟨d, h⟩
  have key : ∀ (a : Assoc) (us : List Token) (t : Token), ts = a.kwTok :: us → us[0]? = some t →
      ¬ (t = .dash ∨ t = .at_) := by
    rintro a us t rfl hu ht
    cases us with
    | nil => simp at hu
    | cons u us =>
      simp only [List.getElem?_cons_zero, Option.some.injEq] at hu
      subst hu
      exact he _ (.declared (kw_iff.2 ⟨a, rfl⟩) ht) ⟨[], us, rfl⟩
  refine ⟨d, h, fun e => ?_, fun e => ?_⟩ <;> cases h with
  | withPrec => simp at e
  | noPrec => exact key _ _ _ rfl (by simpa using e) (by simp)

/-! ### from the README to the code -/

theorem _root_.Pemdas.Line.ne_nil' {cat : ExprCat} {e : Expr} {ts : List Token} (h : Line cat e ts) :
    ts ≠ [] := by
  induction h <;> simp_all

/-- Expressions end with a name, a literal or a closing bracket. -/
theorem line_ends {cat : ExprCat} {e : Expr} {ts : List Token} (h : Line cat e ts) :
    ∃ a t, ts = a ++ [t] ∧ t.endsExpr = true := by
  induction h with
  | last _ ih | lastOpen _ ih | head _ ih => exact ih
  | @bin l op t r ts us _ _ _ _ ih =>
    obtain ⟨a, x, rfl, hx⟩ := ih
    exact ⟨ts ++ t :: a, x, by simp, hx⟩
  | @app f x ts us _ _ _ ih =>
    obtain ⟨a, y, rfl, hy⟩ := ih
    exact ⟨ts ++ a, y, by simp, hy⟩
  | @lam ps e ts _ _ _ ih =>
    obtain ⟨a, y, rfl, hy⟩ := ih
    exact ⟨.lambda :: (ps.map (·.2)).flatten ++ .arrow :: a, y, by simp, hy⟩
  | @let_ d e ds ts _ _ ih =>
    obtain ⟨a, y, rfl, hy⟩ := ih
    exact ⟨.let_ :: ds ++ .in_ :: a, y, by simp, hy⟩
  | lit l => exact ⟨[], _, rfl, rfl⟩
  | upper l => exact ⟨[], _, rfl, rfl⟩
  | lower l => exact ⟨[], _, rfl, rfl⟩
  | unit => exact ⟨[_], _, rfl, rfl⟩
  | op s b => exact ⟨[_, _], _, rfl, rfl⟩
  | commas | grp | tup | list => exact ⟨_, _, rfl, rfl⟩

/-- A chain can be continued by an operator and another chain. -/
theorem line_join {e r : Expr} {ts us : List Token} {op : Infix} {t : Token} (h : Line .chain e ts)
    (ho : OpTok op t) (hr : Line .chain r us) : ∃ e', Line .chain e' (ts ++ t :: us) := by
  suffices key : ∀ {cat e ts}, Line cat e ts →
      (cat = .chain → ∃ e', Line .chain e' (ts ++ t :: us)) ∧
      (cat = .atom → ∃ e', Line .atom e' (ts ++ t :: us)) from (key h).1 rfl
  intro cat e ts h
  induction h with
  | last h _ => exact ⟨fun _ => ⟨_, .bin h ho hr⟩, nofun⟩
  | lastOpen _ ih =>
    obtain ⟨e', h'⟩ := ih.2 rfl
    exact ⟨fun _ => ⟨e', .lastOpen h'⟩, nofun⟩
  | bin hl ho' _ _ ih =>
    obtain ⟨e', h'⟩ := ih.1 rfl
    exact ⟨fun _ => ⟨_, by simpa using Line.bin hl ho' h'⟩, nofun⟩
  | lam h1 h2 _ ih =>
    obtain ⟨e', h'⟩ := ih.1 rfl
    exact ⟨nofun, fun _ => ⟨_, by simpa using Line.lam h1 h2 h'⟩⟩
  | let_ h1 _ ih =>
    obtain ⟨e', h'⟩ := ih.1 rfl
    exact ⟨nofun, fun _ => ⟨_, by simpa using Line.let_ h1 h'⟩⟩
  | _ => exact ⟨nofun, nofun⟩

/-- A chain can be continued by an argument. -/
theorem line_arg {e x : Expr} {ts us : List Token} (h : Line .chain e ts) (hx : Line .arg x us) :
    ∃ e', Line .chain e' (ts ++ us) := by
  suffices key : ∀ {cat e ts}, Line cat e ts →
      (cat = .chain → ∃ e', Line .chain e' (ts ++ us)) ∧
      (cat = .atom → ∃ e', Line .atom e' (ts ++ us)) from (key h).1 rfl
  intro cat e ts h
  induction h with
  | last h _ => exact ⟨fun _ => ⟨_, .last (.app h hx)⟩, nofun⟩
  | lastOpen _ ih =>
    obtain ⟨e', h'⟩ := ih.2 rfl
    exact ⟨fun _ => ⟨e', .lastOpen h'⟩, nofun⟩
  | bin hl ho' _ _ ih =>
    obtain ⟨e', h'⟩ := ih.1 rfl
    exact ⟨fun _ => ⟨_, by simpa using Line.bin hl ho' h'⟩, nofun⟩
  | lam h1 h2 _ ih =>
    obtain ⟨e', h'⟩ := ih.1 rfl
    exact ⟨nofun, fun _ => ⟨_, by simpa using Line.lam h1 h2 h'⟩⟩
  | let_ h1 _ ih =>
    obtain ⟨e', h'⟩ := ih.1 rfl
    exact ⟨nofun, fun _ => ⟨_, by simpa using Line.let_ h1 h'⟩⟩
  | _ => exact ⟨nofun, nofun⟩

/-- A chain can be continued by an operand. -/
theorem line_operand {e x : Expr} {ts us : List Token} (h : Line .chain e ts)
    (hx : Line .operand x us) : ∃ e', Line .chain e' (ts ++ us) := by
  suffices key : ∀ {cat x us}, Line cat x us → cat = .operand →
      ∃ e', Line .chain e' (ts ++ us) from key hx rfl
  intro cat x us hx
  induction hx with
  | head hx _ => exact fun _ => line_arg h hx
  | app _ hx ih _ =>
    intro _
    obtain ⟨e1, h1⟩ := ih rfl
    obtain ⟨e2, h2⟩ := line_arg h1 hx
    exact ⟨e2, by simpa using h2⟩
  | _ => exact nofun

/-- A lambda or `let` starts with its keyword. -/
theorem line_atom {e : Expr} {ts : List Token} (h : Line .atom e ts) :
    ∃ u us, ts = u :: us ∧ (u = .lambda ∨ u = .let_) := by
  cases h with
  | lam => exact ⟨_, _, rfl, .inl rfl⟩
  | let_ => exact ⟨_, _, rfl, .inr rfl⟩

/-- An expression starts with a token an argument can start with, a lambda or `let`. -/
theorem line_start {cat : ExprCat} {e : Expr} {ts : List Token} (h : Line cat e ts) :
    ∃ u us, ts = u :: us ∧ (u.startsArg = true ∨ u = .lambda ∨ u = .let_) := by
  induction h with
  | last _ ih | lastOpen _ ih | head _ ih => exact ih
  | bin _ _ _ ih _ | app _ _ ih _ =>
    obtain ⟨u, us, rfl, h⟩ := ih
    exact ⟨u, _, rfl, h⟩
  | lam | let_ => exact ⟨_, _, rfl, by simp⟩
  | lit | upper | lower | unit | op | commas | grp | tup | list => exact ⟨_, _, rfl, .inl rfl⟩

/-- A chain can be continued by a chain that does not start with a lambda or `let`. -/
theorem line_app {e x : Expr} {ts us : List Token} (h : Line .chain e ts) (hx : Line .chain x us)
    (he : Even (ts ++ us)) : ∃ e', Line .chain e' (ts ++ us) := by
  cases hx with
  | last hx => exact line_operand h hx
  | lastOpen hx =>
    exfalso
    obtain ⟨u, us', rfl, hu⟩ := line_atom hx
    obtain ⟨a, t, rfl, ht⟩ := line_ends h
    exact he _ (.opens ht hu) ⟨a, us', by simp⟩
  | @bin l op t r ls rs hl ho hr =>
    obtain ⟨e1, h1⟩ := line_operand h hl
    obtain ⟨e2, h2⟩ := line_join h1 ho hr
    exact ⟨e2, by simpa using h2⟩

/-- What each nonterminal of the README is for the code. -/
def Read : Cat → List Token → Prop
  | .exprs, ts => ∃ x : Expr × List Token, ∃ xs : List (Expr × List Token),
      Line .chain x.1 x.2 ∧ (∀ y ∈ xs, Line .chain y.1 y.2) ∧
        ts = x.2 ++ (xs.map fun y => .comma :: y.2).flatten
  | _, ts => ∃ e, Line .chain e ts

theorem tail_list (x : Expr × List Token) (xs : List (Expr × List Token)) :
    ∃ ys : List (Expr × List Token × Bool), ys ≠ [] ∧
      (∀ y ∈ ys, y.2.1 = x.2 ∧ y.1 = x.1 ∨ ∃ z ∈ xs, y.2.1 = z.2 ∧ y.1 = z.1) ∧
      (∀ a y b, ys = a ++ y :: b → y.2.2 = false → b = []) ∧
      (ys.map elemToks).flatten = x.2 ++ (xs.map fun y => .comma :: y.2).flatten := by
  induction xs generalizing x with
  | nil =>
    refine ⟨[(x.1, x.2, false)], by simp, by simp, ?_, by simp [elemToks]⟩
    intro a y b h _
    cases a with
    | nil => simp at h; exact h.2.symm ▸ rfl
    | cons a as => simp at h
  | cons z zs ih =>
    obtain ⟨ys, h1, h2, h3, h4⟩ := ih z
    refine ⟨(x.1, x.2, true) :: ys, by simp, ?_, ?_, by simp [elemToks, h4]⟩
    · intro y hy
      rcases List.mem_cons.1 hy with rfl | hy
      · exact .inl ⟨rfl, rfl⟩
      · rcases h2 y hy with h | ⟨w, hw, h⟩
        · exact .inr ⟨z, by simp, h⟩
        · exact .inr ⟨w, by simp [hw], h⟩
    · intro a y b h hf
      cases a with
      | nil =>
        simp only [List.nil_append, List.cons.injEq] at h
        obtain ⟨rfl, _⟩ := h
        cases hf
      | cons a as =>
        simp only [List.cons_append, List.cons.injEq] at h
        exact h3 as y b h.2 hf

theorem derives_read {cat : Cat} {ts : List Token} (h : Derives cat ts) (he : Even ts) :
    Read cat ts := by
  induction h with
  | @lambda pats ts hne hp _ ih =>
    obtain ⟨e, h⟩ := ih (Even.right (a := .lambda :: pats.flatten ++ [.arrow]) (by simpa using he))
    have : ∃ ps : List (Pat × List Token), ps.map (·.2) = pats ∧ ∀ x ∈ ps, PatWritten x.1 x.2 := by
      clear hne he
      induction pats with
      | nil => exact ⟨[], rfl, by simp⟩
      | cons p pats ihp =>
        obtain ⟨ps, h1, h2⟩ := ihp fun q hq => hp q (by simp [hq])
        obtain ⟨q, hq⟩ := hp p (by simp)
        exact ⟨(q, p) :: ps, by simp [h1], List.forall_mem_cons.2 ⟨hq, h2⟩⟩
    obtain ⟨ps, rfl, h2⟩ := this
    exact ⟨_, .lastOpen (.lam (by rintro rfl; exact hne rfl) h2 h)⟩
  | @let_ fs ts hf _ ih =>
    obtain ⟨e, h⟩ := ih (Even.right (a := .let_ :: fs ++ [.in_]) (by simpa using he))
    obtain ⟨d, hd⟩ := (declarations (Even.part (a := [.let_]) (c := .in_ :: ts)
      (by simpa using he))).1 hf
    exact ⟨_, .lastOpen (.let_ hd h)⟩
  | fexp _ ih => exact ih he
  | aexp _ ih => exact ih he
  | app _ _ ih1 ih2 =>
    obtain ⟨e1, h1⟩ := ih1 he.left
    obtain ⟨e2, h2⟩ := ih2 he.right
    exact line_app h1 h2 he
  | lower s => exact ⟨_, .last (.head (.lower s))⟩
  | upper s => exact ⟨_, .last (.head (.upper s))⟩
  | lit s => exact ⟨_, .last (.head (.lit s))⟩
  | op ho =>
    cases ho with
    | affix s b => exact ⟨_, .last (.head (.op s b))⟩
    | dash => exact absurd ⟨[], [], by simp⟩ (he _ (.name (.inl rfl)))
    | at_ => exact absurd ⟨[], [], by simp⟩ (he _ (.name (.inr rfl)))
  | grp _ ih =>
    obtain ⟨e, h⟩ := ih (Even.part (a := [.parenL]) (by simpa using he))
    exact ⟨_, .last (.head (.grp h))⟩
  | @tup ts us _ _ ih1 ih2 =>
    obtain ⟨e, h⟩ := ih1 (Even.part (a := [.parenL]) (c := .comma :: us ++ [.parenR])
      (by simpa using he))
    obtain ⟨x, xs, h1, h2, rfl⟩ := ih2 (Even.part (a := .parenL :: ts ++ [.comma]) (c := [.parenR])
      (by simpa using he))
    have := Line.tup (xs := x :: xs) h (by simp) (List.forall_mem_cons.2 ⟨h1, h2⟩)
    exact ⟨_, .last (.head (by simpa using this))⟩
  | @list ts _ ih =>
    obtain ⟨x, xs, h1, h2, rfl⟩ := ih (Even.part (a := [.brackL]) (by simpa using he))
    obtain ⟨ys, -, h4, h5, h6⟩ := tail_list x xs
    rw [← h6]
    refine ⟨_, .last (.head (.list (xs := ys) ?_ ?_))⟩
    · intro y hy
      rcases h4 y hy with ⟨e1, e2⟩ | ⟨z, hz, e1, e2⟩
      · rw [e1, e2]; exact h1
      · rw [e1, e2]; exact h2 z hz
    · intro a y b h hf
      rw [h5 a y b h hf]
      exact ⟨rfl, rfl⟩
  | bin _ ho _ ih1 ih2 =>
    obtain ⟨e1, h1⟩ := ih1 he.left
    obtain ⟨e2, h2⟩ := ih2 (Even.right (a := _ ++ [_]) (by simpa using he))
    obtain ⟨op, ho⟩ := op_iff.1 ho
    exact line_join h1 ho h2
  | one _ ih =>
    obtain ⟨e, h⟩ := ih he
    exact ⟨(e, _), [], h, by simp, by simp⟩
  | more _ _ ih1 ih2 =>
    obtain ⟨e, h⟩ := ih1 he.left
    obtain ⟨x, xs, h1, h2, rfl⟩ := ih2 (Even.right (a := _ ++ [.comma]) (by simpa using he))
    exact ⟨(e, _), x :: xs, h, List.forall_mem_cons.2 ⟨h1, h2⟩, by simp⟩

/-! ### from the code to the README -/

theorem fexp_of_aexp {cat : Cat} {ts : List Token} (h : Derives .aexp ts) (hc : cat ≠ .exprs) :
    Derives cat ts := by
  cases cat with
  | expr => exact .fexp (.aexp h)
  | fexp => exact .aexp h
  | aexp => exact h
  | exprs => exact absurd rfl hc

/-- The README's nonterminal for each kind of expression. -/
def catOf : ExprCat → Cat
  | .chain | .atom => .expr
  | .operand => .fexp
  | .arg => .aexp

theorem list_exprs {xs : List (Expr × List Token × Bool)} {pre : List Token} (hne : xs ≠ [])
    (hd : ∀ x ∈ xs, Even x.2.1 → Derives .expr x.2.1)
    (hl : ∀ x ∈ xs, Line .chain x.1 x.2.1)
    (hc : ∀ a x b, xs = a ++ x :: b → x.2.2 = false →
      Closed ((b.map elemToks).flatten ++ [.brackR]))
    (he : Even (pre ++ (xs.map elemToks).flatten ++ [.brackR])) :
    Derives .exprs (xs.map elemToks).flatten := by
  induction xs generalizing pre with
  | nil => exact absurd rfl hne
  | cons x xs ih =>
    obtain ⟨e, ts, b⟩ := x
    have het : Even ts := Even.part (a := pre)
      (c := (if b then [Token.comma] else []) ++ (xs.map elemToks).flatten ++ [.brackR])
      (by simpa [elemToks] using he)
    have hdt := hd (e, ts, b) (by simp) het
    have hlt : Line .chain e ts := hl (e, ts, b) (by simp)
    obtain ⟨a, t, rfl, ht⟩ := line_ends hlt
    cases b with
    | true =>
      cases xs with
      | nil =>
        exfalso
        exact he _ .trailing ⟨pre ++ a ++ [t], [], by simp [elemToks]⟩
      | cons y ys =>
        have := ih (pre := pre ++ elemToks (e, a ++ [t], true)) (by simp)
          (fun z hz => hd z (by simp [hz])) (fun z hz => hl z (by simp [hz]))
          (fun a' z b' h hf => hc (_ :: a') z b' (by rw [h]; rfl) hf)
          (by simpa [List.append_assoc] using he)
        have h2 := Derives.more hdt this
        simpa [elemToks] using h2
    | false =>
      cases xs with
      | nil => simpa [elemToks] using Derives.one hdt
      | cons y ys =>
        exfalso
        have hcl := hc [] _ _ rfl rfl
        obtain ⟨ey, ty, by'⟩ := y
        have hly := hl (ey, ty, by') (by simp)
        obtain ⟨u, us, h1, h2⟩ := line_start hly
        simp only at h1
        subst h1
        simp only [List.map_cons, List.flatten_cons, elemToks, List.cons_append] at hcl
        rcases h2 with h2 | h2
        · exact absurd (h2.symm.trans hcl.2) (by simp)
        · refine he _ (.opens ht h2) ⟨pre ++ a, us ++ (if by' then [.comma] else []) ++
            (ys.map elemToks).flatten ++ [.brackR], ?_⟩
          simp [elemToks]

theorem line_derives {cat : ExprCat} {e : Expr} {ts : List Token} (h : Line cat e ts)
    (he : Even ts) : Derives (catOf cat) ts := by
  induction h with
  | last _ ih => exact .fexp (ih he)
  | lastOpen _ ih => exact ih he
  | bin _ ho _ ih1 ih2 =>
    exact .fexp (.aexp (.bin (.fexp (ih1 he.left)) (op_iff.2 ⟨_, ho⟩)
      (ih2 (Even.right (a := _ ++ [_]) (by simpa using he)))))
  | head _ ih => exact .aexp (ih he)
  | app _ _ ih1 ih2 => exact .app (ih1 he.left) (ih2 he.right)
  | @lam ps e ts hne hp _ ih =>
    refine .lambda (by simpa using hne) ?_
      (ih (Even.right (a := .lambda :: (ps.map (·.2)).flatten ++ [.arrow]) (by simpa using he)))
    intro p hm
    obtain ⟨x, hx, rfl⟩ := List.mem_map.1 hm
    exact ⟨_, hp x hx⟩
  | @let_ d e ds ts hd _ ih =>
    exact .let_ (fix_iff.2 ⟨d, hd.1⟩)
      (ih (Even.right (a := .let_ :: ds ++ [.in_]) (by simpa using he)))
  | lit l => exact .lit l
  | upper l => exact .upper l
  | lower l => exact .lower l
  | unit => exact absurd ⟨[], [], rfl⟩ (he _ .unit)
  | op s b => exact .op (.affix s b)
  | @commas k hk =>
    obtain ⟨j, rfl⟩ : ∃ j, k = j + 1 := ⟨k - 1, by omega⟩
    exact absurd ⟨[], List.replicate j .comma ++ [.parenR], by simp [List.replicate_succ]⟩
      (he _ .commas)
  | grp _ ih => exact .grp (ih (Even.part (a := [.parenL]) (by simpa using he)))
  | @tup e ts xs _ hne _ ih1 ih2 =>
    have h1 := ih1 (Even.part (a := [.parenL])
      (c := (xs.map fun x => .comma :: x.2).flatten ++ [.parenR]) (by simpa using he))
    have key : ∀ (pre : List Token) (xs : List (Expr × List Token)), xs ≠ [] →
        (∀ x ∈ xs, Even x.2 → Derives .expr x.2) →
        Even (pre ++ (xs.map fun x => .comma :: x.2).flatten) →
        ∃ us, (xs.map fun x => .comma :: x.2).flatten = .comma :: us ∧ Derives .exprs us := by
      intro pre xs hne hd he
      induction xs generalizing pre with
      | nil => exact absurd rfl hne
      | cons y ys ih =>
        have hy := hd y (by simp) (Even.part (a := pre ++ [.comma])
          (c := (ys.map fun x => .comma :: x.2).flatten) (by simpa using he))
        cases ys with
        | nil => exact ⟨y.2, by simp, .one hy⟩
        | cons z zs =>
          obtain ⟨us, h1, h2⟩ := ih (pre ++ .comma :: y.2) (by simp)
            (fun w hw => hd w (by simp [hw])) (by simpa using he)
          exact ⟨y.2 ++ .comma :: us, by rw [List.map_cons, List.flatten_cons, h1]; rfl, .more hy h2⟩
    obtain ⟨us, h2, h3⟩ := key (.parenL :: ts) xs hne (fun x hx => ih2 x hx)
      (Even.left (b := [.parenR]) (by simpa using he))
    rw [h2]
    exact .tup h1 h3
  | @list xs hl hc ih =>
    refine .list (list_exprs (pre := [.brackL]) ?_ (fun x hx => ih x hx) hl hc (by simpa using he))
    rintro rfl
    exact he _ .nil ⟨[], [], rfl⟩

end Readme

/-! ### C138 -/

/-- **C138** On tokens: apart from the places listed by `Readme.Odd`, the expressions of the
README's grammar are those of the code. -/
theorem C138_tokens_partial {ts : List Token} (he : Readme.Even ts) :
    Readme.Derives .expr ts ↔ ∃ e, Line .chain e ts :=
  ⟨fun h => Readme.derives_read h he, fun ⟨_, h⟩ => Readme.line_derives h he⟩

section
variable [CharTables] [LawfulTables]

/-- **C138** A one-line input without any of the places listed by `Readme.Odd` is accepted as an
expression exactly if the README's grammar derives it. (Missing: those places, where the README and
the code disagree, see `C138_rejected_wrong` and `C138_undocumented_wrong`.) -/
theorem C138_accepted_partial {src : Text} (hn : '\n' ∉ src) {ts : List Token}
    (ht : Tokenizes src ts) (he : Readme.Even ts) :
    (∃ e l', parse src = .ok ⟨[.expr], [], [e]⟩ l') ↔ Readme.Derives .expr ts := by
  rw [C138_tokens_partial he]
  constructor
  · rintro ⟨e, h⟩
    obtain ⟨ts', ds, h1, h2, h3⟩ := (C96_one_line_programs hn _).1 h
    rw [C95_unambiguous h1 ht] at h2
    have hds : ds = [.expr e] := (ofDecls_inj (ds := [.expr e]) h3).symm
    subst hds
    cases h2 with
    | expr semi he' hp _ =>
      cases hp
      cases semi with
      | true => exact absurd ⟨_, [], rfl⟩ (he _ .semi)
      | false => exact ⟨e, by simpa using he'⟩
  · rintro ⟨e, h⟩
    obtain ⟨l', h'⟩ := accepts hn ht h
    exact ⟨e, l', h'⟩

/-- **C138** The same for declarations. -/
theorem C138_declared_partial {src : Text} (hn : '\n' ∉ src) {ts : List Token}
    (ht : Tokenizes src ts) (he : Readme.Even ts) :
    (∃ d l', parse src = .ok ⟨[.infix_], [d], []⟩ l') ↔ Readme.Fix ts := by
  rw [Readme.declarations he]
  constructor
  · rintro ⟨d, h⟩
    obtain ⟨ts', ds, h1, h2, h3⟩ := (C96_one_line_programs hn _).1 h
    rw [C95_unambiguous h1 ht] at h2
    have hds : ds = [.infix_ d] := (ofDecls_inj (ds := [.infix_ d]) h3).symm
    subst hds
    cases h2 with
    | infix_ semi he' hp =>
      cases hp
      cases semi with
      | true => exact absurd ⟨_, [], rfl⟩ (he _ .semi)
      | false => exact ⟨d, by simpa using he'⟩
  · rintro ⟨d, h⟩
    obtain ⟨l', h'⟩ := (C96_one_line_programs hn _).2 ⟨ts, [.infix_ d], ht, by
      simpa using LineProg.infix_ (ds := []) (us := []) false h .nil, rfl⟩
    exact ⟨d, l', h'⟩

end

/-! ### where the README and the code disagree -/

namespace Readme

theorem Derives.start {cat : Cat} {ts : List Token} (h : Derives cat ts) :
    ∃ u us, ts = u :: us ∧ (u.startsArg = true ∨ u = .lambda ∨ u = .let_) := by
  induction h with
  | lambda | let_ => exact ⟨_, _, rfl, by simp⟩
  | fexp _ ih | aexp _ ih | one _ ih => exact ih
  | app _ _ ih _ | bin _ _ _ ih _ | more _ _ ih _ =>
    obtain ⟨u, us, rfl, h⟩ := ih
    exact ⟨u, _, rfl, h⟩
  | lower | upper | lit | op | grp | tup | list => exact ⟨_, _, rfl, .inl rfl⟩

/-- The README has no empty brackets. -/
theorem no_empty {cat : Cat} {ts : List Token} (h : Derives cat ts) (a b : Token)
    (ha : a = .parenL ∨ a = .brackL) (hb : b = .parenR ∨ b = .brackR) : ts ≠ [a, b] := by
  induction h with
  | lambda | let_ =>
    intro h
    have := (List.cons.inj h).1
    subst this
    simp at ha
  | fexp _ ih | aexp _ ih | one _ ih => exact ih
  | app h1 h2 _ _ =>
    obtain ⟨u, us, rfl, _⟩ := h1.start
    obtain ⟨v, vs, rfl, hv⟩ := h2.start
    intro h
    cases us with
    | nil =>
      simp only [List.cons_append, List.nil_append, List.cons.injEq] at h
      obtain ⟨-, rfl, -⟩ := h
      rcases hb with rfl | rfl <;> simp [Token.startsArg] at hv
    | cons => simp at h
  | bin h1 ho h2 _ _ =>
    obtain ⟨u, us, rfl, _⟩ := h1.start
    obtain ⟨v, vs, rfl, _⟩ := h2.start
    intro h
    have := congrArg List.length h
    simp only [List.length_append, List.length_cons, List.length_nil] at this
    omega
  | more h1 h2 _ _ =>
    obtain ⟨u, us, rfl, _⟩ := h1.start
    obtain ⟨v, vs, rfl, _⟩ := h2.start
    intro h
    have := congrArg List.length h
    simp only [List.length_append, List.length_cons, List.length_nil] at this
    omega
  | lower | upper | lit | op => simp
  | grp h1 _ | list h1 _ =>
    obtain ⟨u, us, rfl, _⟩ := h1.start
    simp
  | tup h1 h2 _ _ =>
    obtain ⟨u, us, rfl, _⟩ := h1.start
    simp

end Readme

/-- A check for `Even`, for the example below. -/
def Readme.oddPair : Token × Token → Bool
  | (.parenL, .parenR) | (.brackL, .brackR) | (.parenL, .comma) | (.comma, .brackR)
  | (.parenL, .dash) | (.parenL, .at_) => true
  | (k, .dash) | (k, .at_) => Readme.keywords.contains k
  | (t, .lambda) | (t, .let_) => t.endsExpr
  | _ => false

theorem Readme.even_of_check {ts : List Token} (h : ∀ p ∈ ts.zip ts.tail, Readme.oddPair p = false)
    (hs : .semi ∉ ts) : Readme.Even ts := by
  have pair : ∀ {x y : Token} {us : List Token}, Contains ts (x :: y :: us) →
      Readme.oddPair (x, y) = false := by
    rintro x y us ⟨a, b, rfl⟩
    apply h
    clear h hs
    induction a with
    | nil => simp
    | cons c cs ih =>
      cases cs with
      | nil => simp
      | cons d ds => simp only [List.cons_append, List.tail_cons, List.zip_cons_cons] at ih ⊢
                     exact List.mem_cons_of_mem _ ih
  intro us ho hc
  cases ho with
  | semi => obtain ⟨a, b, rfl⟩ := hc; simp at hs
  | name ht => rcases ht with rfl | rfl <;> exact absurd (pair hc) (by decide)
  | declared hk ht =>
    simp only [Readme.keywords, List.mem_cons, List.not_mem_nil, or_false] at hk
    rcases hk with rfl | rfl | rfl <;> rcases ht with rfl | rfl <;>
      exact absurd (pair hc) (by decide)
  | opens ht hu =>
    have := pair hc
    rename_i t u
    rcases hu with rfl | rfl <;> cases t <;> simp [Token.endsExpr] at ht <;>
      simp [Readme.oddPair, Token.endsExpr] at this
  | _ => exact absurd (pair hc) (by decide)

section
attribute [local instance] asciiTables asciiTables_lawful

/-- **C138** fails: `(-)`, `infixl -` and `(f \x -> x + y)` are in the README's grammar, but are
rejected. -/
theorem C138_rejected_wrong :
    (Tokenizes t!"(-)" [.parenL, .dash, .parenR] ∧
      Readme.Derives .expr [.parenL, .dash, .parenR] ∧ (parse t!"(-)").value? = none) ∧
    (Tokenizes t!"infixl -" [.infixL, .dash] ∧ Readme.Fix [.infixL, .dash] ∧
      (parse t!"infixl -").value? = none) ∧
    ∃ ts, Tokenizes t!"(f \\x -> x + y)" ts ∧ Readme.Derives .expr ts ∧
      (parse t!"(f \\x -> x + y)").value? = none := by
  refine ⟨⟨exTokens 9 (by decide +kernel) (by decide) (by simp), .fexp (.aexp (.op .dash)),
    by decide +kernel⟩, ⟨exTokens 9 (by decide +kernel) (by decide) (by simp),
    .none (by simp [Readme.keywords]) (.one .dash), by decide +kernel⟩, _,
    exTokens (ts := .parenL :: ([.lower t!"f"] ++ ((.lambda :: [[.lower t!"x"]].flatten ++ .arrow ::
      [.lower t!"x"]) ++ .affix t!"+" false :: [.lower t!"y"])) ++ [.parenR]) 19
      (by decide +kernel) (by decide) (by simp), ?_, by decide +kernel⟩
  refine .fexp (.aexp (.grp (.fexp (.app (.aexp (.lower _)) (.bin (.lambda (by simp) ?_
    (.fexp (.aexp (.lower _)))) (.affix _ _) (.fexp (.aexp (.lower _))))))))
  intro p hp
  rw [List.mem_singleton.1 hp]
  exact ⟨_, .var _, by simp⟩

/-- **C138** fails the other way round, too: `()` and `[]` are accepted, but are not in the README's
grammar. -/
theorem C138_undocumented_wrong :
    (Tokenizes t!"()" [.parenL, .parenR] ∧ ¬ Readme.Derives .expr [.parenL, .parenR] ∧
      (parse t!"()").value?.isSome) ∧
    Tokenizes t!"[]" [.brackL, .brackR] ∧ ¬ Readme.Derives .expr [.brackL, .brackR] ∧
      (parse t!"[]").value?.isSome :=
  ⟨⟨exTokens 9 (by decide +kernel) (by decide) (by simp),
    fun h => Readme.no_empty h _ _ (.inl rfl) (.inl rfl) rfl, by decide +kernel⟩,
    exTokens 9 (by decide +kernel) (by decide) (by simp),
    fun h => Readme.no_empty h _ _ (.inr rfl) (.inr rfl) rfl, by decide +kernel⟩

/-- **C138** The README allows `_` as an identifier and so as an expression; the code does not. -/
theorem C138_underscore_wrong : Tokenizes t!"_" [.underscore] ∧ (parse t!"_").value? = none ∧
    (parse t!"f _").value? = none :=
  ⟨exTokens 9 (by decide +kernel) (by decide) (by simp), by decide +kernel, by decide +kernel⟩

/-- **C138** The README says nothing about lines, but to the code they matter: in a list a new line
may stand for a comma. -/
theorem C138_lines_wrong :
    Tokenizes t!"[f\nx]" [.brackL, .lower t!"f", .lower t!"x", .brackR] ∧
    Tokenizes t!"[f x]" [.brackL, .lower t!"f", .lower t!"x", .brackR] ∧
    (∃ l, parse t!"[f\nx]" = .ok ⟨[.expr], [],
      [.list [.var (.lower t!"f"), .var (.lower t!"x")]]⟩ l) ∧
    ∃ l, parse t!"[f x]" = .ok ⟨[.expr], [],
      [.list [.app (.var (.lower t!"f")) (.var (.lower t!"x"))]]⟩ l :=
  ⟨exTokens 9 (by decide +kernel) (by decide) (by simp),
    exTokens 9 (by decide +kernel) (by decide) (by simp),
    of_value (by decide +kernel), of_value (by decide +kernel)⟩

/-- An input on which the README and the code agree, with all kinds of expressions. -/
example : ∃ ts, Tokenizes t!"let infixl 6 + in \\x -> f (x, [1]) + (+) (y)" ts ∧ Readme.Even ts ∧
    Readme.Derives .expr ts := by
  refine ⟨_, exTokens (ts := .let_ :: [.infixL, .lit (.int 6), .affix t!"+" false] ++ .in_ ::
    (.lambda :: [[.lower t!"x"]].flatten ++ .arrow ::
      (([.lower t!"f"] ++ (.parenL :: [.lower t!"x"] ++ .comma ::
          (.brackL :: [.lit (.int 1)] ++ [.brackR]) ++ [.parenR])) ++ .affix t!"+" false ::
        ([.parenL, .affix t!"+" false, .parenR] ++ (.parenL :: [.lower t!"y"] ++ [.parenR]))))) 29
      (by decide +kernel) (by decide) (by simp),
    Readme.even_of_check (by decide) (by decide), ?_⟩
  refine .let_ (.digit (by simp [Readme.keywords]) (by decide) (.one (.affix _ _))) (.lambda (by simp)
    ?_ (.fexp (.aexp (.bin (.fexp (.app (.aexp (.lower _)) (.tup (.fexp (.aexp (.lower _)))
      (.one (.fexp (.aexp (.list (.one (.fexp (.aexp (.lit _))))))))))) (.affix _ _)
      (.fexp (.app (.aexp (.op (.affix _ _))) (.grp (.fexp (.aexp (.lower _))))))))))
  intro p hp
  rw [List.mem_singleton.1 hp]
  exact ⟨_, .var _, by simp⟩

end
end Pemdas
