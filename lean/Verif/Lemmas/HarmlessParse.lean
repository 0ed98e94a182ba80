import Verif.Lemmas.HarmlessText
import Verif.Props.SessionMore
/-
Helper lemmas: what tokens, programs and results take over from the source.
-/
namespace Pemdas
open Lexer

/-! ### tokens -/
namespace Lexer

theorem slice_subset {l : Lexer} {a b : Nat} {s : Text} (h : l.slice a b = .ok s) (hs : '\x1b' ∉ l.src) :
    '\x1b' ∉ s := by
  obtain ⟨x, y, he, -⟩ := byteSlice_eq_some.1 (slice_ok_iff.1 h)
  exact fun hm => hs (by rw [he]; simp [hm])

theorem eatWhile_src (l : Lexer) (p : Char → Bool) : (l.eatWhile p).src = l.src :=
  (reach_eatWhile (b := true) l p).src

theorem eatWithTrailing_src (l : Lexer) (p : Char → Bool) : (l.eatWithTrailing p).src = l.src :=
  (reach_eatWithTrailing (b := true) l p).src

theorem number_raw {l l' : Lexer} {t : Token} (h : l.number = .ok (t, l')) : '\x1b' ∉ t.raw := by
  unfold number at h
  simp only [bind, Except.bind] at h
  repeat' split at h
  all_goals cases h
  all_goals exact List.not_mem_nil

theorem string_raw (l : Lexer) : '\x1b' ∉ l.string.1.raw := by
  unfold string
  simp only
  split <;> exact List.not_mem_nil

theorem operator_raw {l l' : Lexer} {t : Token} (hs : '\x1b' ∉ l.src)
    (h : l.operator = .ok (.tok t l')) : '\x1b' ∉ t.raw := by
  unfold operator at h
  simp only [bind, Except.bind] at h
  repeat' split at h
  all_goals cases h
  all_goals first
    | exact List.not_mem_nil
    | decide
    | (refine slice_subset (by assumption) ?_
       simpa [advance_src, eatWhile_src, eatWithTrailing_src] using hs)
    | skip
  rename_i hb
  unfold blockComment at hb
  simp only at hb
  split at hb
  · injection hb with hb; injection hb with hb; subst hb; exact List.not_mem_nil
  · injection hb with hb; cases hb

theorem unicodeEscape_raw {l l' : Lexer} {loc : Loc} {t : Token} (hs : '\x1b' ∉ l.src)
    (h : l.unicodeEscape loc = .ok (t, l')) : '\x1b' ∉ t.raw := by
  have hplus : '\x1b' ∉ (if l.advance.onChar '+' then l.advance.advance else l.advance).src := by
    split <;> simpa using hs
  unfold unicodeEscape at h
  simp only [bind, Except.bind] at h
  revert h hplus
  generalize (if l.advance.onChar '+' then l.advance.advance else l.advance) = m
  intro h hm
  repeat' split at h
  all_goals cases h
  all_goals first
    | exact List.not_mem_nil
    | (refine slice_subset (by assumption) ?_
       simpa [advance_src, eatWhile_src, eatWithTrailing_src] using hm)

theorem charEscape_raw {l l' : Lexer} {loc : Loc} {t : Token} (hs : '\x1b' ∉ l.src)
    (h : l.charEscape loc = .ok (t, l')) : '\x1b' ∉ t.raw := by
  unfold charEscape at h
  simp only at h
  repeat' split at h
  all_goals first | exact unicodeEscape_raw hs h | cases h
  all_goals exact List.not_mem_nil

section
variable [CharTables]

theorem charLit_raw {l l' : Lexer} {t : Token} (hs : '\x1b' ∉ l.src)
    (h : l.charLit = .ok (t, l')) : '\x1b' ∉ t.raw := by
  unfold charLit at h
  simp only [bind, Except.bind] at h
  repeat' split at h
  all_goals first | exact charEscape_raw (by simpa using hs) h | cases h
  all_goals first
    | exact List.not_mem_nil
    | (refine slice_subset (by assumption) ?_
       simpa [advance_src, eatWhile_src, eatWithTrailing_src] using hs)

theorem backtick_raw {l l' : Lexer} {t : Token} (hs : '\x1b' ∉ l.src)
    (h : l.backtick = .ok (t, l')) : '\x1b' ∉ t.raw := by
  unfold backtick promotedOperator at h
  simp only [bind, Except.bind] at h
  repeat' split at h
  all_goals cases h
  all_goals
    refine slice_subset (by assumption) ?_
    first
      | simpa [advance_src, eatWhile_src, eatWithTrailing_src] using hs
      | (split <;> simpa [advance_src, eatWhile_src, eatWithTrailing_src] using hs)

theorem ident_raw {l l' : Lexer} {c : Char} {t : Token} (hs : '\x1b' ∉ l.src)
    (h : l.ident c = .ok (t, l')) : '\x1b' ∉ t.raw := by
  unfold ident identifier at h
  simp only [bind, Except.bind] at h
  repeat' split at h
  all_goals first
    | (cases h; exact List.not_mem_nil)
    | (cases h; done)
    | skip
  cases h
  rename_i h2
  split at h2
  · injection h2 with h2
    have : ∀ s, '\x1b' ∉ s → '\x1b' ∉ (if isUppercase c = true then Token.upper s else Token.lower s).raw := by
      intro s h; split <;> exact h
    rw [← h2]
    apply this
    refine slice_subset (by assumption) ?_
    simpa [advance_src, eatWhile_src, eatWithTrailing_src] using hs
  · cases h2

/-- What a token shows of a source without escape characters has none. -/
theorem lex_raw [LawfulTables] {l l' : Lexer} {t : Token} (hs : '\x1b' ∉ l.src) (h : l.lex = .ok (t, l')) :
    '\x1b' ∉ t.raw := by
  obtain ⟨m, hr, -, h1⟩ := lexN_land h (Nat.lt_succ_self _)
  have hs : '\x1b' ∉ m.src := by rw [hr.src]; exact hs
  rcases h1 with ⟨-, rfl, -⟩ | ⟨c, cs, -, -, hd⟩
  · exact List.not_mem_nil
  · cases dispatch_pass hd with
    | punct hc =>
      simp only [List.mem_cons, Prod.mk.injEq, List.mem_nil_iff, or_false] at hc
      rcases hc with h|h|h|h|h|h|h|h <;> rw [h.2] <;> exact List.not_mem_nil
    | char _ hx => exact charLit_raw hs hx
    | string => exact string_raw m
    | number _ hx => exact number_raw hx
    | backtick _ hx => exact backtick_raw hs hx
    | ident _ hx => exact ident_raw hs hx
    | op _ hx => exact operator_raw hs hx
    | unknown => exact List.not_mem_nil

end
end Lexer

section
variable [CharTables] [LawfulTables]

/-- What a token shows of a source without "\n\r" does nothing to the terminal, unless it is an error
about what stands between backticks. -/
theorem Token.LexedFrom.inert {src : Text} {t : Token} (h : t.LexedFrom src)
    (hp : ∀ a n, t ≠ .error (.invalidPromotedInfix a n)) : Inert t.raw := by
  have clean : t.LexedFrom [] → ∀ n ∈ t.names, Inert n := fun h n hn =>
    .of_noEsc (lexed_clean (src := []) (fun _ _ _ _ ⟨a, b, h⟩ => by simp at h) h n hn).noEsc
  have hex : ∀ s : Text, s.all isHexDigit = true → Inert s := fun s hs =>
    .of_noEsc fun hm => absurd (List.all_eq_true.1 hs _ hm) (by decide)
  cases t with
  | lower s => exact clean h s (by simp [Token.names])
  | upper s => exact h.elim
  | affix s b =>
    cases b with
    | false => exact clean h s (by simp [Token.names])
    | true =>
      rcases h with h | ⟨c, w, rfl, hw, -⟩
      · exact clean (.inl h) s (by simp [Token.names])
      · refine .any_cons c ?_ ?_ .nil
        · rintro rfl; exact absurd hw (by decide)
        · rintro rfl; exact absurd hw (by decide)
  | error e =>
    cases e with
    | invalidPromotedInfix a n => exact absurd rfl (hp a n)
    | invalidUnicode a k =>
      cases k with
      | tooLong s => exact hex s h
      | notInCharRange s n => exact hex s h
      | _ => exact .nil
    | _ => exact .nil
  | _ => exact .nil

theorem raw_inert {src : Text} (hd : '\x1b' ∉ src ∨ NoLFCR src) {l l' : Lexer} (hl : Point src l) {t : Token}
    {sp : LocSpan} (h : l.next = .ok (some (t, sp), l'))
    (hp : '\x1b' ∈ src → ∀ a n, t ≠ .error (.invalidPromotedInfix a n)) : Inert t.raw := by
  by_cases he : '\x1b' ∈ src
  · rcases hd with hd | hd
    · exact absurd he hd
    · exact (Lexer.next_lexed hd hl h).inert (hp he)
  · refine .of_noEsc (Lexer.lex_raw ?_ (Lexer.next_some h).1)
    rw [hl.inv.1]; exact he

omit [LawfulTables] in
theorem items_points {src : Text} {n : Nat} {l : Lexer} (hl : Point src l)
    {xs : List (Token × LocSpan)} (h : Lexer.items n l = .ok xs) :
    ∀ x ∈ xs, ∃ k k', Point src k ∧ k.next = .ok (some x, k') := by
  induction n generalizing l xs with
  | zero => cases h; simp
  | succ n ih =>
    unfold Lexer.items at h
    split at h
    · cases h
    · cases h; simp
    · rename_i x l' hn
      split at h
      · cases h
      · rename_i ys hy
        cases h
        intro z hz
        rcases List.mem_cons.1 hz with rfl | hz
        · exact ⟨l, l', hl, hn⟩
        · exact ih (hl.next hn) hy z hz

/-! ### programs -/

/-- No operator that a declaration names does something to the terminal. -/
def Expr.InertLets (e : Expr) : Prop := ∀ d ∈ e.lets, ∀ op ∈ d.infixes, Inert op.symbol

/-- The same for names. -/
def Expr.InertNames (e : Expr) : Prop := ∀ n ∈ e.names, Inert n

omit [CharTables] [LawfulTables] in
theorem DeclToks.tokens {d : InfixDecl} {ts : List Token} (h : DeclToks d ts) :
    ∀ op ∈ d.infixes, ∃ t ∈ ts, OpTok op t := by
  intro op ho
  cases h with
  | withPrec _ _ h =>
    obtain ⟨x, hx, rfl⟩ := List.mem_map.1 ho
    exact ⟨x.2, List.mem_cons_of_mem _ (List.mem_cons_of_mem _
      (mem_sepBy (List.mem_map_of_mem (f := fun x : Infix × Token => [x.2]) hx) List.mem_cons_self)), h x hx⟩
  | noPrec _ h =>
    obtain ⟨x, hx, rfl⟩ := List.mem_map.1 ho
    exact ⟨x.2, List.mem_cons_of_mem _
      (mem_sepBy (List.mem_map_of_mem (f := fun x : Infix × Token => [x.2]) hx) List.mem_cons_self), h x hx⟩

omit [CharTables] [LawfulTables] in
theorem names_raw {t : Token} {n : Text} (h : n ∈ t.names) (hr : Inert t.raw) : Inert n := by
  unfold Token.names at h
  split at h
  all_goals first
    | (obtain rfl := List.mem_singleton.1 h; exact hr)
    | (obtain rfl := List.mem_singleton.1 h; exact .of_noEsc (by decide))
    | cases h

omit [CharTables] [LawfulTables] in
theorem push_exprs (x : Expr) : ∀ (ds : List Decl) (a : Ast), x ∈ (ds.foldl Ast.push a).exprs →
    x ∈ a.exprs ∨ Decl.expr x ∈ ds := by
  intro ds
  induction ds with
  | nil => intro a h; exact .inl h
  | cons d ds ih =>
    intro a h
    rcases ih (a.push d) h with h | h
    · cases d with
      | infix_ i => exact .inl (by simpa [Ast.push] using h)
      | expr e =>
        have : x ∈ a.exprs ∨ x = e := by simpa [Ast.push] using h
        rcases this with h | rfl
        · exact .inl h
        · exact .inr List.mem_cons_self
    · exact .inr (List.mem_cons_of_mem _ h)

/-- A parsed program takes over nothing from a `Docile` source that does something to the terminal. -/
theorem parsed_inert {src : Text} (hd : '\x1b' ∉ src ∨ NoLFCR src) {ast : Ast} {lx : Lexer}
    (h : parse src = .ok ast lx) :
    (∀ e ∈ ast.exprs, e.InertNames) ∧ ∀ d ∈ ast.allDecls, ∀ op ∈ d.infixes, Inert op.symbol := by
  obtain ⟨xs, ds, h1, h2, rfl⟩ := C73_program h
  have key : ∀ t ∈ xs.map (·.1), ∀ n ∈ t.names, Inert n := by
    intro t ht n hn
    obtain ⟨x, hx, rfl⟩ := List.mem_map.1 ht
    obtain ⟨k, k', hk, hk'⟩ := items_points .new (h1 _ (Nat.le_refl _)) x hx
    refine names_raw hn (raw_inert hd hk hk' ?_)
    rintro - a m he
    rw [he] at hn
    cases hn
  refine ⟨fun e he n hn => ?_, fun d hd' op ho => ?_⟩
  · rcases push_exprs e ds _ he with he | he
    · cases he
    · obtain ⟨t, ht, hn⟩ := h2.names e he n hn
      exact key t ht n hn
  · obtain ⟨ys, ts, h3, h4, h5⟩ := C38_written h hd'
    rw [h1 _ (Nat.le_refl _)] at h3
    cases h3
    obtain ⟨t, ht, hot⟩ := h5.tokens op ho
    exact key t (h4.subset ht) _ hot.names

theorem message_inert {src : Text} (hd : Docile src) {e : ParseError} {lx : Lexer}
    (h : parse src = .err e lx) : (∀ f loc, e = .unexpected f loc → Inert f.raw) ∧
      ∀ t loc f, e = .expected t loc f → Inert t.raw ∧ Inert f.raw := by
  have hp : ErrAt (Lexer.new src) e lx := by
    have := parse_run src; rw [h] at this; exact this
  obtain ⟨f, loc, h1, h2⟩ := hp.token
  have hf : Inert f.raw := by
    rcases h2 with rfl | ⟨l, m, sp, hl, hn⟩
    · exact .nil
    · refine raw_inert (hd.imp id And.left) hl hn fun he a n hfe => ?_
      rcases hd with hd | ⟨-, hd⟩
      · exact hd he
      · subst hfe
        refine hd e lx h ?_
        rcases h1 with rfl | ⟨t, -, rfl⟩
        · exact .unexpected
        · exact .expected
  refine ⟨?_, ?_⟩
  · rintro f' loc' rfl
    rcases h1 with h1 | ⟨t, -, h1⟩
    · cases h1; exact hf
    · cases h1
  · rintro t' loc' f' rfl
    rcases h1 with h1 | ⟨t, ht, h1⟩
    · cases h1
    · cases h1
      refine ⟨?_, hf⟩
      simp only [wanted, List.mem_cons, List.not_mem_nil, or_false] at ht
      rcases ht with rfl | rfl | rfl | rfl <;> exact .nil

theorem Complains.inert {e : ParseError} {short long : Text} (h : Complains e short long)
    (h1 : ∀ f loc, e = .unexpected f loc → Inert f.raw)
    (h2 : ∀ t loc f, e = .expected t loc f → Inert t.raw ∧ Inert f.raw) : Inert short ∧ Inert long := by
  cases h with
  | unexpected hf =>
    have := Token.text_inert hf (h1 _ _ rfl)
    exact ⟨.append (.append (.of_noEsc (by decide)) this) (.of_noEsc (by decide)),
      .append (.append (.append (.of_noEsc (by decide)) this) (.of_noEsc (by decide))) (inert_shown _)⟩
  | expected ht hf =>
    have a := Token.text_inert ht (h2 _ _ _ rfl).1
    have b := Token.text_inert hf (h2 _ _ _ rfl).2
    exact ⟨.append (.append (.append (.append (.of_noEsc (by decide)) a) (.of_noEsc (by decide))) b)
        (.of_noEsc (by decide)),
      .append (.append (.append (.append (.append (.of_noEsc (by decide)) a) (.of_noEsc (by decide))) b)
        (.of_noEsc (by decide))) (inert_shown _)⟩

end

/-! ### resolution -/

theorem enter_inert {l : Ledger} {x : Infix × Fixity} (hl : l.Inert) (hx : Inert x.1.symbol) :
    Ledger.Inert (l.enter x) := by
  intro y hy
  unfold Ledger.enter at hy
  split at hy
  · obtain ⟨z, hz, rfl⟩ := List.mem_map.1 hy
    split
    · exact hl z hz
    · exact hl z hz
  · rcases List.mem_append.1 hy with hy | hy
    · exact hl y hy
    · cases List.mem_singleton.1 hy; exact hx

theorem enterAll_inert {l : Ledger} {xs : List (Infix × Fixity)} (hl : l.Inert)
    (hx : ∀ x ∈ xs, Inert x.1.symbol) : Ledger.Inert (l.enterAll xs) := by
  unfold Ledger.enterAll
  induction xs generalizing l with
  | nil => exact hl
  | cons x xs ih =>
    exact ih (enter_inert hl (hx x List.mem_cons_self)) fun y hy => hx y (List.mem_cons_of_mem _ hy)

theorem seconds_mem {seen : List Symbol} {ops : List Infix} {op : Infix} (h : op ∈ seconds seen ops) :
    op ∈ ops := by
  induction ops generalizing seen with
  | nil => cases h
  | cons o ops ih =>
    unfold seconds at h
    rcases List.mem_append.1 h with h | h
    · split at h
      · cases List.mem_singleton.1 h; exact List.mem_cons_self
      · cases h
    · exact List.mem_cons_of_mem _ (ih h)

theorem afterLet_inert {l l' : Ledger} {d : InfixDecl} (hl : l'.Inert)
    (hd : ∀ op ∈ d.infixes, Inert op.symbol) : Ledger.Inert (l.afterLet d l') := by
  intro y hy
  unfold Ledger.afterLet at hy
  obtain ⟨op, ho, rfl⟩ := List.mem_map.1 hy
  rcases List.mem_append.1 ho with ho | ho
  · obtain ⟨z, hz, rfl⟩ := List.mem_map.1 (List.mem_filter.1 ho).1
    exact hl z hz
  · exact hd op (seconds_mem (List.mem_filter.1 ho).1)

/-- Both operators of the error have names that do nothing to the terminal. -/
def AssocError.Inert (e : AssocError) : Prop := Pemdas.Inert e.prev.1.symbol ∧ Pemdas.Inert e.curr.1.symbol

theorem firstClash_mem {fx : Env} {ops : List Infix} {p c : Infix} (h : FirstClash fx ops p c) :
    p ∈ ops ∧ c ∈ ops := by
  obtain ⟨pre, mid, post, rfl, -⟩ := h
  simp

/-- Nothing in the expression does something to the terminal. -/
def Expr.Inert (e : Expr) : Prop := e.InertNames ∧ e.InertLets

theorem chain_parts [CharTables] [LawfulTables] {x y : Expr} {op o : Infix} {s t : OpTree}
    (ho : (OpTree.node s o t).operators = (Expr.bin x op y).chainOperators)
    (hs : (OpTree.node s o t).operands = (Expr.bin x op y).chainOperands)
    (h : (Expr.bin x op y).Inert) : s.toExpr.Inert ∧ Pemdas.Inert o.symbol ∧ t.toExpr.Inert := by
  have h1 : ∀ n ∈ (OpTree.node s o t).toExpr.names, Pemdas.Inert n := by
    intro n hn
    rw [Resolver.names_toExpr, ho, hs, ← Resolver.names_chain] at hn
    exact h.1 n hn
  have h2 : ∀ d ∈ (OpTree.node s o t).toExpr.lets, ∀ op ∈ d.infixes, Pemdas.Inert op.symbol := by
    intro d hd
    rw [lets_toExpr, hs, ← lets_chain] at hd
    exact h.2 d hd
  simp only [OpTree.toExpr, Expr.names, Expr.lets, List.mem_append, List.mem_cons] at h1 h2
  exact ⟨⟨fun n hn => h1 n (.inl hn), fun d hd => h2 d (.inl hd)⟩, h1 _ (.inr (.inl rfl)),
    ⟨fun n hn => h1 n (.inr (.inr hn)), fun d hd => h2 d (.inr hd)⟩⟩

theorem chain_operator {e : Expr} (h : e.InertNames) {op : Infix} (ho : op ∈ e.chainOperators) :
    Pemdas.Inert op.symbol := h _ ((Resolver.names_chain e _).2 (.inr ⟨op, ho, rfl⟩))

theorem Expr.Inert.list {xs : List Expr} (h : (Expr.tup xs).Inert) : ∀ x ∈ xs, x.Inert := by
  intro x hx
  refine ⟨fun n hn => h.1 n ?_, fun d hd => h.2 d ?_⟩
  · simp only [Expr.names]; exact mem_namesList.2 ⟨x, hx, hn⟩
  · simp only [Expr.lets]; exact mem_letsList.2 ⟨x, hx, hd⟩

theorem Expr.Inert.of_list {xs : List Expr} (h : ∀ x ∈ xs, x.Inert) :
    (Expr.tup xs).Inert ∧ (Expr.list xs).Inert := by
  have h1 : ∀ n ∈ Expr.namesList xs, Pemdas.Inert n := by
    intro n hn
    obtain ⟨x, hx, hn⟩ := mem_namesList.1 hn
    exact (h x hx).1 n hn
  have h2 : ∀ d ∈ Expr.letsList xs, ∀ op ∈ d.infixes, Pemdas.Inert op.symbol := by
    intro d hd
    obtain ⟨x, hx, hd⟩ := mem_letsList.1 hd
    exact (h x hx).2 d hd
  exact ⟨⟨by simpa [Expr.InertNames, Expr.names] using h1, by simpa [Expr.InertLets, Expr.lets] using h2⟩,
    ⟨by simpa [Expr.InertNames, Expr.names] using h1, by simpa [Expr.InertLets, Expr.lets] using h2⟩⟩

set_option linter.unusedSectionVars false in
variable [CharTables] [LawfulTables] in
mutual
theorem Turns.inert : ∀ {l : Ledger} {e e' : Expr} {es : List AssocError} {l' : Ledger},
    Turns l e e' es l' → l.Inert → e.Inert → e'.Inert ∧ (∀ x ∈ es, x.Inert) ∧ l'.Inert
  | _, _, _, _, _, .lit, hl, he => ⟨he, fun x hx => (by cases hx), hl⟩
  | _, _, _, _, _, .var, hl, he => ⟨he, fun x hx => (by cases hx), hl⟩
  | _, _, _, _, _, .app h1 h2, hl, he => by
    obtain ⟨a1, a2, a3⟩ := Turns.inert h1 hl
      ⟨fun n hn => he.1 n (List.mem_append_left _ hn), fun d hd => he.2 d (List.mem_append_left _ hd)⟩
    obtain ⟨b1, b2, b3⟩ := Turns.inert h2 a3
      ⟨fun n hn => he.1 n (List.mem_append_right _ hn), fun d hd => he.2 d (List.mem_append_right _ hd)⟩
    refine ⟨⟨fun n hn => ?_, fun d hd => ?_⟩, fun x hx => ?_, b3⟩
    · exact (List.mem_append.1 hn).elim (a1.1 n) (b1.1 n)
    · exact (List.mem_append.1 hd).elim (a1.2 d) (b1.2 d)
    · exact (List.mem_append.1 hx).elim (a2 x) (b2 x)
  | _, _, _, _, _, .lam h1, hl, he => by
    obtain ⟨a1, a2, a3⟩ := Turns.inert h1 hl ⟨fun n hn => he.1 n (List.mem_append_right _ hn), he.2⟩
    refine ⟨⟨fun n hn => ?_, a1.2⟩, a2, a3⟩
    rcases List.mem_append.1 hn with hn | hn
    · exact he.1 n (by simp [Expr.names, hn])
    · exact a1.1 n hn
  | _, _, _, _, _, .grp h1, hl, he => by
    obtain ⟨a1, a2, a3⟩ := Turns.inert h1 hl ⟨he.1, he.2⟩
    exact ⟨⟨a1.1, a1.2⟩, a2, a3⟩
  | _, _, _, _, _, .neg h1, hl, he => by
    obtain ⟨a1, a2, a3⟩ := Turns.inert h1 hl ⟨he.1, he.2⟩
    exact ⟨⟨a1.1, a1.2⟩, a2, a3⟩
  | _, _, _, _, _, .tup h1, hl, he => by
    obtain ⟨a1, a2, a3⟩ := TurnAll.inert h1 hl (Expr.Inert.list he)
    exact ⟨(Expr.Inert.of_list a1).1, a2, a3⟩
  | _, _, _, _, _, .list h1, hl, he => by
    obtain ⟨a1, a2, a3⟩ := TurnAll.inert h1 hl (Expr.Inert.list he)
    exact ⟨(Expr.Inert.of_list a1).2, a2, a3⟩
  | _, _, _, _, _, .let_ (d := d) h1, hl, he => by
    have hd : ∀ op ∈ d.infixes, Inert op.symbol := he.2 d List.mem_cons_self
    obtain ⟨a1, a2, a3⟩ := Turns.inert h1 (enterAll_inert hl fun x hx => by
        obtain ⟨op, ho, rfl⟩ := List.mem_map.1 hx
        exact hd op ho) ⟨he.1, fun d hd => he.2 d (List.mem_cons_of_mem _ hd)⟩
    refine ⟨⟨a1.1, fun d' hd' => ?_⟩, a2, afterLet_inert a3 hd⟩
    rcases List.mem_cons.1 hd' with rfl | hd'
    · exact hd
    · exact a1.2 d' hd'
  | _, _, _, _, _, .ambiguous h, hl, he => by
    refine ⟨he, fun x hx => ?_, hl⟩
    cases List.mem_singleton.1 hx
    exact ⟨chain_operator he.1 (firstClash_mem h).1, chain_operator he.1 (firstClash_mem h).2⟩
  | _, _, _, _, _, .grouped _ h2 h3 h4 h5, hl, he => by
    obtain ⟨k1, k2, k3⟩ := chain_parts h2 h3 he
    obtain ⟨a1, a2, a3⟩ := Turns.inert h4 hl k1
    obtain ⟨b1, b2, b3⟩ := Turns.inert h5 a3 k3
    refine ⟨⟨fun n hn => ?_, fun d hd => ?_⟩, fun x hx => ?_, b3⟩
    · rcases List.mem_append.1 hn with hn | hn
      · exact a1.1 n hn
      · rcases List.mem_cons.1 hn with rfl | hn
        · exact k2
        · exact b1.1 n hn
    · exact (List.mem_append.1 hd).elim (a1.2 d) (b1.2 d)
    · exact (List.mem_append.1 hx).elim (a2 x) (b2 x)
theorem TurnAll.inert : ∀ {l : Ledger} {xs xs' : List Expr} {es : List AssocError} {l' : Ledger},
    TurnAll l xs xs' es l' → l.Inert → (∀ x ∈ xs, x.Inert) →
      (∀ x ∈ xs', x.Inert) ∧ (∀ x ∈ es, x.Inert) ∧ l'.Inert
  | _, _, _, _, _, .nil, hl, _ => ⟨fun x hx => (by cases hx), fun x hx => (by cases hx), hl⟩
  | _, _, _, _, _, .cons h1 h2, hl, he => by
    obtain ⟨a1, a2, a3⟩ := Turns.inert h1 hl (he _ List.mem_cons_self)
    obtain ⟨b1, b2, b3⟩ := TurnAll.inert h2 a3 fun x hx => he x (List.mem_cons_of_mem _ hx)
    refine ⟨fun x hx => ?_, fun x hx => ?_, b3⟩
    · rcases List.mem_cons.1 hx with rfl | hx
      · exact a1
      · exact b1 x hx
    · exact (List.mem_append.1 hx).elim (a2 x) (b2 x)
end

end Pemdas
