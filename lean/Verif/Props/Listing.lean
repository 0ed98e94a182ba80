import Verif.Props.Join
import Verif.Props.Printer
import Verif.Lemmas.ResolverMore
import Verif.Lemmas.Expressible
/-
C113 a listing of fixities can be read back.
-/
namespace Pemdas
open Lexer Printer

/-! ### Helper lemmas -/

section
variable [CharTables] [LawfulTables]

/-- What comes after an operator in a listing. -/
def ListEnd (rest : Text) : Prop := ∀ c ∈ rest.head?, c ∈ t!",\n"

theorem ListEnd.ident {rest : Text} (h : ListEnd rest) :
    ∀ c ∈ rest.head?, isIdentChar c = false ∧ isTrailing c = false := by
  intro c hc
  have hm := h c hc
  refine ⟨?_, by clear hc; revert hm; revert c; decide⟩
  rw [TLex.ascii_identChar (by clear hc; revert hm; revert c; decide)]
  clear hc; revert hm; revert c; decide

omit [CharTables] [LawfulTables] in
theorem ListEnd.infix_ {rest : Text} (h : ListEnd rest) :
    ∀ c ∈ rest.head?, isInfixChar c = false ∧ isTrailing c = false := by
  intro c hc
  have hm := h c hc
  clear hc; revert hm; revert c; decide

omit [CharTables] [LawfulTables] in
theorem ListEnd.brace {rest : Text} (h : ListEnd rest) : rest.head? ≠ some '{' :=
  fun he => absurd (h _ he) (by decide)

omit [CharTables] [LawfulTables] in
theorem ListEnd.cons {c : Char} {rest : Text} (h : c ∈ t!",\n") : ListEnd (c :: rest) := by
  intro d hd; cases hd; exact h

theorem Infix.Rereads.token {op : Infix} (h : op.Rereads) :
    ∃ t, OpTok op t ∧ ∀ rest, ListEnd rest → TokenAt t op.text rest := by
  cases op with
  | standard s =>
    rcases h with h | rfl | rfl
    · exact ⟨_, .standard s, fun rest hr =>
        .op h (TLex.Maximal.of_head hr.infix_) fun _ => hr.brace⟩
    · exact ⟨_, .dash, fun rest hr => .reserved (by decide) (TLex.Maximal.of_head hr.infix_)⟩
    · exact ⟨_, .at_, fun rest hr => .reserved (by decide) (TLex.Maximal.of_head hr.infix_)⟩
  | promoted s =>
    refine ⟨_, .promoted s, fun rest hr => ?_⟩
    have two : ∀ c d y, s = c :: d :: y → (Infix.promoted s).text = '\'' :: s := by
      intro c d y hs
      have h1 := Char.utf8Size_pos c
      have h2 := Char.utf8Size_pos d
      simp only [Infix.text, hs, utf8Len_cons]
      rw [if_neg (fun h => by have := h.1; omega)]
    rcases h with ⟨c, d, y, hs, hid, hd, hy⟩ | ⟨c, w, hs, hw, _, _, _, hc⟩
    · rw [two c d y hs]
      refine .apostrophe ⟨c, d :: y, hs, hid, hy⟩ (TLex.Maximal.of_head hr.ident) ?_
      intro e he
      rw [hs] at he
      cases he
      exact ⟨hd, TLex.shape_not_ws hy⟩
    · rw [two c w [] hs, hs]
      exact .blank hc hw

theorem Infix.Rereads.no_newline {op : Infix} (h : op.Rereads) : '\n' ∉ op.text := by
  cases op with
  | standard s =>
    rcases h with h | rfl | rfl
    · exact OpName.not_newline h
    · decide
    · decide
  | promoted s =>
    have hs : '\n' ∉ s := by
      rcases h with ⟨c, d, y, rfl, hid, hd, hy⟩ | ⟨c, w, rfl, hw, h1, h2, _⟩
      · exact PromotedName.not_newline ⟨c, d :: y, rfl, hid, hy⟩
      · simp [Ne.symm h1, Ne.symm h2]
    simp only [Infix.text]
    split <;> simp [hs]

omit [LawfulTables] in
/-- The operators of a line, separated by commas. -/
theorem tokenizes_ops : ∀ {xs : List (Infix × Token)}, xs ≠ [] →
    (∀ x ∈ xs, ∀ rest, ListEnd rest → TokenAt x.2 x.1.text rest) →
    ∀ {rest : Text} {us : List Token}, (∀ c ∈ rest.head?, c = '\n') → Tokenizes rest us →
      Tokenizes (List.intercalate t!", " (xs.map fun x => x.1.text) ++ rest)
        (sepBy .comma (xs.map fun x => [x.2]) ++ us)
  | [], hne, _, _, _, _, _ => (hne rfl).elim
  | [x], _, h, rest, us, hr, ht => by
    have := Tokenizes.token (h x (by simp) rest (fun c hc => by rw [hr c hc]; decide)) ht
    simpa [sepBy, List.intercalate] using this
  | x :: y :: xs, _, h, rest, us, hr, ht => by
    have ih := tokenizes_ops (xs := y :: xs) (by simp) (fun z hz => h z (List.mem_cons_of_mem _ hz)) hr ht
    have h1 : Tokenizes (t!", " ++ (List.intercalate t!", " ((y :: xs).map fun x => x.1.text) ++ rest))
        (.comma :: (sepBy .comma ((y :: xs).map fun x => [x.2]) ++ us)) :=
      Tokenizes.token (w := t!",") (.punct (by decide)) (.space (by decide) ih)
    have := Tokenizes.token (h x (by simp) _ (ListEnd.cons (by decide))) h1
    simpa [sepBy, List.intercalate, List.intersperse] using this

/-- A line of a listing. -/
theorem tokenizes_line {fx : Fixity} (hp : fx.prec ≤ 9) {xs : List (Infix × Token)} (hne : xs ≠ [])
    (h : ∀ x ∈ xs, ∀ rest, ListEnd rest → TokenAt x.2 x.1.text rest)
    {rest : Text} {us : List Token} (hr : ∀ c ∈ rest.head?, c = '\n') (ht : Tokenizes rest us) :
    Tokenizes (fx.line (xs.map (·.1)) ++ rest)
      (fx.assoc.kwTok :: .lit (.int fx.prec) :: sepBy .comma (xs.map fun x => [x.2]) ++ us) := by
  have h1 := tokenizes_ops hne h hr ht
  have sp : ∀ (x rest : Text), Maximal isIdentChar x (' ' :: rest) := fun x rest =>
    TLex.Maximal.of_head (by rintro c hc; cases hc; exact ⟨space_ident, by decide⟩)
  obtain ⟨hd, hn, hv⟩ := TLex.decText_digits fx.prec
  have h2 : Tokenizes (decText fx.prec ++ (t!" " ++ (List.intercalate t!", "
      (xs.map fun x => x.1.text) ++ rest)))
      (.lit (.int fx.prec) :: (sepBy .comma (xs.map fun x => [x.2]) ++ us)) := by
    have := TokenAt.int (rest := ' ' :: (List.intercalate t!", " (xs.map fun x => x.1.text) ++ rest))
      hn hd (by rw [hv]; omega) (by rintro c hc; cases hc; decide)
    rw [hv] at this
    exact .token this (.space (by decide) h1)
  unfold Fixity.line
  rw [List.map_map]
  cases ha : fx.assoc with
  | left =>
    have := Tokenizes.token (w := t!"infixl") (.keyword (t := .infixL) (by decide) (sp _ _))
      (.space (by decide) h2)
    simpa [Assoc.shown, Assoc.kwTok, Function.comp_def] using this
  | right =>
    have := Tokenizes.token (w := t!"infixr") (.keyword (t := .infixR) (by decide) (sp _ _))
      (.space (by decide) h2)
    simpa [Assoc.shown, Assoc.kwTok, Function.comp_def] using this
  | neither =>
    have := Tokenizes.token (w := t!"infix") (.keyword (t := .infix_) (by decide) (sp _ _))
      (.space (c := ' ') (by decide) (.space (c := ' ') (by decide) h2))
    simpa [Assoc.shown, Assoc.kwTok, Function.comp_def] using this

/-- Lines for fixities and operators, which stand for declarations. -/
theorem tokenizes_lines : ∀ {ls : List (Fixity × List Infix)},
    (∀ l ∈ ls, l.1.prec ≤ 9 ∧ l.2 ≠ [] ∧ ∀ op ∈ l.2, op.Rereads) →
    ∃ tss : List (InfixDecl × List Token), tss.map (·.1) = ls.map (fun l => ⟨l.2, l.1⟩) ∧
      (∀ x ∈ tss, DeclWritten x.1 x.2) ∧
      Tokenizes (List.intercalate t!"\n" (ls.map fun l => l.1.line l.2)) (tss.map (·.2)).flatten
  | [], _ => ⟨[], rfl, by simp, .nil⟩
  | (fx, ops) :: ls, h => by
    obtain ⟨tss, h1, h2, h3⟩ := tokenizes_lines (ls := ls) fun l hl => h l (List.mem_cons_of_mem _ hl)
    obtain ⟨hp, hne, hops⟩ := h (fx, ops) (by simp)
    obtain ⟨xs, hx, hall⟩ := zip_exists (P := fun op t => OpTok op t ∧ ∀ rest, ListEnd rest →
      TokenAt t op.text rest) (l := ops) fun op hop => (hops op hop).token
    have hxs : xs ≠ [] := by rintro rfl; exact hne hx.symm
    refine ⟨(⟨ops, fx⟩, fx.assoc.kwTok :: .lit (.int fx.prec) :: sepBy .comma (xs.map fun x => [x.2])) :: tss,
      by simp [h1], ?_, ?_⟩
    · intro y hy
      rcases List.mem_cons.1 hy with rfl | hy
      · refine ⟨?_, by simp, by simp⟩
        have := DeclToks.withPrec (a := fx.assoc) hp hxs (fun x hx => (hall x hx).1)
        rw [hx] at this
        exact this
      · exact h2 y hy
    · have line := fun {rest us} => tokenizes_line (fx := fx) hp hxs (fun x hx => (hall x hx).2)
        (rest := rest) (us := us)
      rw [hx] at line
      cases ls with
      | nil =>
        have : tss = [] := by simpa using h1
        subst this
        have := line (rest := []) (by simp) .nil
        simpa [List.intercalate] using this
      | cons l ls =>
        have := line (rest := '\n' :: List.intercalate t!"\n" ((l :: ls).map fun l => l.1.line l.2))
          (by rintro c hc; cases hc; rfl) (.space (by decide) h3)
        simpa [List.intercalate, List.intersperse] using this

omit [CharTables] [LawfulTables] in
theorem noLFCR_lines : ∀ {ls : List Text}, (∀ l ∈ ls, '\n' ∉ l ∧ l.head? = some 'i') →
    NoLFCR (List.intercalate t!"\n" ls)
  | [], _ => by simp [NoLFCR, List.intercalate]
  | [l], h => by
    rintro ⟨a, b, he⟩
    refine (h l (by simp)).1 ?_
    have : l = a ++ ['\n', '\r'] ++ b := by simpa [List.intercalate] using he.symm
    rw [this]; simp
  | l :: m :: ls, h => by
    have ih := noLFCR_lines (ls := m :: ls) fun x hx => h x (List.mem_cons_of_mem _ hx)
    have hl := (h l (by simp)).1
    have hm := (h m (by simp)).2
    have e : List.intercalate t!"\n" (l :: m :: ls) =
        l ++ '\n' :: List.intercalate t!"\n" (m :: ls) := by
      simp [List.intercalate, List.intersperse]
    have hh : (List.intercalate t!"\n" (m :: ls)).head? = some 'i' := by
      cases m with
      | nil => cases hm
      | cons c m =>
        cases hm
        cases ls with
        | nil => simp [List.intercalate]
        | cons k ls => simp [List.intercalate, List.intersperse]
    rw [e]
    generalize List.intercalate t!"\n" (m :: ls) = r at ih hh ⊢
    rintro ⟨a, b, he⟩
    have he' : a ++ '\n' :: ('\r' :: b) = l ++ '\n' :: r := by simpa using he
    rcases List.append_eq_append_iff.1 he' with ⟨z, h1, h2⟩ | ⟨z, h1, h2⟩
    · cases z with
      | nil =>
        injection h2 with _ h3
        rw [← h3] at hh; cases hh
      | cons y z => injection h2 with h3 h4; subst h3; exact hl (by rw [h1]; simp)
    · cases z with
      | nil =>
        injection h2 with _ h3
        rw [h3] at hh; cases hh
      | cons y z =>
        injection h2 with h3 h4
        exact ih ⟨z, b, by rw [h4]; simp⟩

omit [CharTables] [LawfulTables] in
theorem getDefined_iff {m : Fixities} (hw : m.Wf) (op : Infix) (fx : Fixity) :
    m.getDefined op = some fx ↔ ∃ e ∈ m, e.1.symbol = op.symbol ∧ e.2 = fx := by
  induction m with
  | nil => simp [Fixities.getDefined]
  | cons e m ih =>
    obtain ⟨k, v⟩ := e
    have hw' : k.symbol ∉ Fixities.keys m ∧ Fixities.Wf m := List.nodup_cons.1 hw
    unfold Fixities.getDefined
    split
    · rename_i hk
      constructor
      · intro h; exact ⟨(k, v), by simp, hk, Option.some.inj h⟩
      · rintro ⟨e, he, h1, rfl⟩
        rcases List.mem_cons.1 he with rfl | he
        · rfl
        · exact absurd (List.mem_map.2 ⟨e, he, by rw [h1, hk]⟩) hw'.1
    · rename_i hk
      rw [ih hw'.2]
      constructor
      · rintro ⟨e, he, h⟩; exact ⟨e, List.mem_cons_of_mem _ he, h⟩
      · rintro ⟨e, he, h1, h2⟩
        rcases List.mem_cons.1 he with rfl | he
        · exact absurd h1 hk
        · exact ⟨e, he, h1, h2⟩

/-! ### C113 -/

/-- The declarations that a listing of fixities consists of. -/
def listingDecls (es : List (Infix × Fixity)) : List InfixDecl :=
  (distinctFixities es).map fun fx => ⟨(es.filter (·.2 = fx)).map (·.1), fx⟩

/-- C113: a listing of fixities is a program: the declarations on its lines. (Missing: promoted
names of one character, promoted names whose second character is an apostrophe, and promoted names
with special characters, see `C113_listing_wrong`.) -/
theorem C113_listing_partial {es : List (Infix × Fixity)}
    (h : ∀ e ∈ es, e.1.Rereads ∧ e.2.prec ≤ 9) :
    ∃ l', parse (listing es) = .ok (Ast.ofDecls ((listingDecls es).map .infix_)) l' := by
  have hls : ∀ l ∈ (distinctFixities es).map fun fx => (fx, (es.filter (·.2 = fx)).map (·.1)),
      l.1.prec ≤ 9 ∧ l.2 ≠ [] ∧ ∀ op ∈ l.2, op.Rereads := by
    intro l hl
    obtain ⟨fx, hfx, rfl⟩ := List.mem_map.1 hl
    obtain ⟨e, he, rfl⟩ := List.mem_map.1 (mem_eraseDups.1 hfx)
    refine ⟨(h e he).2, ?_, ?_⟩
    · exact List.ne_nil_of_mem (List.mem_map.2 ⟨e, List.mem_filter.2 ⟨he, by simp⟩, rfl⟩)
    · intro op hop
      obtain ⟨e', he', rfl⟩ := List.mem_map.1 hop
      exact (h e' (List.mem_filter.1 he').1).1
  obtain ⟨tss, h1, h2, h3⟩ := tokenizes_lines hls
  rw [List.map_map] at h1 h3
  replace h3 : Tokenizes (listing es) (tss.map (·.2)).flatten := h3
  have hc : NoLFCR (listing es) := by
    refine noLFCR_lines fun l hl => ?_
    obtain ⟨fx, hfx, rfl⟩ := List.mem_map.1 hl
    constructor
    · unfold Fixity.line
      have hk : '\n' ∉ fx.assoc.shown ++ List.replicate (6 - fx.assoc.shown.length) ' ' := by
        cases fx.assoc <;> decide
      have hd : '\n' ∉ decText fx.prec := fun hm => by
        have := List.all_eq_true.1 (TLex.decText_digits fx.prec).1 _ hm
        revert this; decide
      have hi : ∀ ops : List Infix, (∀ op ∈ ops, op.Rereads) →
          '\n' ∉ List.intercalate t!", " (ops.map Infix.text) := by
        intro ops ho hm
        unfold List.intercalate at hm
        obtain ⟨t, ht, hm⟩ := List.mem_flatten.1 hm
        have key : ∀ (xs : List Text) (t : Text), t ∈ xs.intersperse t!", " → t ∈ xs ∨ t = t!", " := by
          intro xs
          induction xs with
          | nil => intro t h; simp at h
          | cons x xs ih =>
            intro t ht
            cases xs with
            | nil => exact .inl ht
            | cons y ys =>
              rw [List.intersperse_cons_cons] at ht
              rcases List.mem_cons.1 ht with rfl | ht
              · exact .inl (by simp)
              · rcases List.mem_cons.1 ht with rfl | ht
                · exact .inr rfl
                · exact (ih t ht).imp (List.mem_cons_of_mem _) id
        rcases key _ t ht with ht | rfl
        · obtain ⟨op, hop, rfl⟩ := List.mem_map.1 ht
          exact (ho op hop).no_newline hm
        · revert hm; decide
      have := hi ((es.filter (·.2 = fx)).map (·.1)) (hls _ (List.mem_map_of_mem hfx)).2.2
      simp only [List.mem_append, not_or] at hk ⊢
      exact ⟨⟨⟨⟨hk, by decide⟩, hd⟩, by decide⟩, this⟩
    · unfold Fixity.line
      cases fx.assoc <;> rfl
  rw [C96_texts hc]
  obtain ⟨cs, h4, h5⟩ := h3.placed []
  refine ⟨cs, _, h5, ?_, rfl⟩
  have hd : listingDecls es = tss.map (·.1) := by rw [h1]; rfl
  rw [hd]
  clear h1 h5 hd hc hls
  clear h3
  induction tss generalizing cs with
  | nil =>
    have : cs = [] := by simpa using h4
    subst this
    exact .nil
  | cons x tss ih =>
    simp only [List.map_cons, List.flatten_cons] at h4
    obtain ⟨as, bs, rfl, ha, hb⟩ := List.map_eq_append_iff.1 h4
    have := WrittenProg.infix_ none (d := x.1) (ts := as) (by rw [ha]; exact h2 x (by simp))
      (ih (fun y hy => h2 y (List.mem_cons_of_mem _ hy)) bs hb)
    simpa [semiToks] using this

/-- C113: reading a listing of the fixities of a resolver into a new resolver defines the same
operators with the same fixities. (Missing: as above.) -/
theorem C113_round_trip_partial {m : Fixities} (hw : (m.map (·.1.symbol)).Nodup)
    (h : ∀ e ∈ m, e.1.Rereads ∧ e.2.prec ≤ 9) :
    ∃ ast l', parse (listing m) = .ok ast l' ∧
      ∀ op, (Resolver.loadFixities Resolver.new ast).fixities.getDefined op = m.getDefined op := by
  obtain ⟨l', hp⟩ := C113_listing_partial h
  refine ⟨_, l', hp, fun op => ?_⟩
  have hinf : ∀ (ds : List InfixDecl) (a : Ast),
      ((ds.map Decl.infix_).foldl Ast.push a).infxs = a.infxs ++ ds := by
    intro ds
    induction ds with
    | nil => intro a; simp
    | cons d ds ih => intro a; rw [List.map_cons, List.foldl_cons, ih]; simp [Ast.push]
  have hi : (Ast.ofDecls ((listingDecls m).map .infix_)).infxs = listingDecls m := by
    unfold Ast.ofDecls; rw [hinf]; rfl
  unfold Resolver.loadFixities
  rw [hi]
  show (Resolver.loadDecls [] (listingDecls m)).getDefined op = _
  rw [Resolver.getDefined_loadDecls]
  have key : ∀ d ∈ listingDecls m, op.symbol ∈ d.infixes.map Infix.symbol →
      m.getDefined op = some d.fixity := by
    intro d hd hop
    obtain ⟨fx, _, rfl⟩ := List.mem_map.1 hd
    rw [List.map_map] at hop
    obtain ⟨e, he, hs⟩ := List.mem_map.1 hop
    obtain ⟨he, hf⟩ := List.mem_filter.1 he
    exact (getDefined_iff hw op _).2 ⟨e, he, hs, by simpa using hf⟩
  split
  · rename_i d hd
    have hm := List.mem_of_find?_eq_some hd
    have hs := List.find?_some hd
    exact (key d (List.mem_reverse.1 hm) (by simpa using hs)).symm
  · rename_i hnone
    have hnone := List.find?_eq_none.1 hnone
    cases hg : m.getDefined op with
    | none => rfl
    | some fx =>
      exfalso
      obtain ⟨e, he, hs, rfl⟩ := (getDefined_iff hw op fx).1 hg
      refine hnone ⟨(m.filter (·.2 = e.2)).map (·.1), e.2⟩ (List.mem_reverse.2 ?_) ?_
      · exact List.mem_map.2 ⟨e.2, mem_eraseDups.2 (List.mem_map.2 ⟨e, he, rfl⟩), rfl⟩
      · simp only [decide_eq_true_eq, List.map_map]
        exact List.mem_map.2 ⟨e, List.mem_filter.2 ⟨he, by simp⟩, hs⟩

/-- C113 for what the terminal shows when fixities are listed. (Missing: as above.) -/
theorem C113_shown_partial {m : Fixities} (hw : (m.map (·.1.symbol)).Nodup)
    (h : ∀ e ∈ m, e.1.Rereads ∧ e.2.prec ≤ 9) (he : ∀ e ∈ m, '\x1b' ∉ e.1.text) :
    ∃ ast l', parse (Term.visible (writeFixities m)) = .ok ast l' ∧
      ∀ op, (Resolver.loadFixities Resolver.new ast).fixities.getDefined op = m.getDefined op := by
  rw [C49_listing m he]
  exact C113_round_trip_partial hw h

end

section
attribute [local instance] asciiTables asciiTables_lawful

/-- C113 is false for promoted names of one character on a line that is not the last, to which the
line break is added; and for promoted names whose second character is an apostrophe, which look
like characters. All of these names can be declared. -/
theorem C113_listing_wrong :
    (∃ m l l', parse t!"infixl 6 `f`; infixl 7 +" = .ok ⟨[.infix_, .infix_],
        [⟨[.promoted t!"f"], ⟨6, .left⟩⟩, ⟨[.standard t!"+"], ⟨7, .left⟩⟩], []⟩ l ∧
      m = [(Infix.promoted t!"f", ⟨6, .left⟩), (.standard t!"+", ⟨7, .left⟩)] ∧
      parse (listing m) = .ok ⟨[.infix_, .infix_],
        [⟨[.promoted t!"f\n"], ⟨6, .left⟩⟩, ⟨[.standard t!"+"], ⟨7, .left⟩⟩], []⟩ l') ∧
    ∃ m l, parse t!"infixl 6 `f'`" = .ok ⟨[.infix_], [⟨[.promoted t!"f'"], ⟨6, .left⟩⟩], []⟩ l ∧
      m = [(Infix.promoted t!"f'", ⟨6, .left⟩)] ∧ ¬ ∃ ast l', parse (listing m) = .ok ast l' := by
  obtain ⟨l, h⟩ := of_value (src := t!"infixl 6 `f`; infixl 7 +")
    (ast := ⟨[.infix_, .infix_], [⟨[.promoted t!"f"], ⟨6, .left⟩⟩, ⟨[.standard t!"+"], ⟨7, .left⟩⟩], []⟩)
    (by decide +kernel)
  obtain ⟨l', h'⟩ := of_value
    (src := listing [(Infix.promoted t!"f", ⟨6, .left⟩), (.standard t!"+", ⟨7, .left⟩)])
    (ast := ⟨[.infix_, .infix_],
      [⟨[.promoted t!"f\n"], ⟨6, .left⟩⟩, ⟨[.standard t!"+"], ⟨7, .left⟩⟩], []⟩) (by decide +kernel)
  obtain ⟨l₂, h₂⟩ := of_value (src := t!"infixl 6 `f'`")
    (ast := ⟨[.infix_], [⟨[.promoted t!"f'"], ⟨6, .left⟩⟩], []⟩) (by decide +kernel)
  refine ⟨⟨_, l, l', h, rfl, h'⟩, _, l₂, h₂, rfl, ?_⟩
  rintro ⟨ast, l', h⟩
  have : (parse (listing [(Infix.promoted t!"f'", ⟨6, .left⟩)])).value? = none := by decide +kernel
  rw [h] at this
  cases this

/-- The hypotheses of C113 are met. -/
example : ∃ m : Fixities, m = [(.standard t!"+", ⟨6, .left⟩), (.promoted t!"div", ⟨7, .neither⟩),
      (.standard t!"-", ⟨6, .left⟩), (.promoted t!"f ", ⟨7, .neither⟩)] ∧
    listing m = t!"infixl 6 +, -\ninfix  7 'div, 'f " ∧ (m.map (·.1.symbol)).Nodup ∧
    ∀ e ∈ m, e.1.Rereads ∧ e.2.prec ≤ 9 := by
  refine ⟨_, rfl, by decide +kernel, by decide, ?_⟩
  intro e he
  simp at he
  rcases he with rfl | rfl | rfl | rfl
  · exact ⟨.inl ⟨'+', [], rfl, by decide, ⟨[], [], rfl, rfl, rfl⟩, by decide⟩, by decide⟩
  · exact ⟨.inl ⟨'d', 'i', t!"v", rfl, by decide, by decide, ⟨t!"iv", [], rfl, by decide, rfl⟩⟩, by decide⟩
  · exact ⟨.inr (.inl rfl), by decide⟩
  · exact ⟨.inr ⟨'f', ' ', rfl, by decide, by decide, by decide, by decide, by decide⟩, by decide⟩

end
end Pemdas
