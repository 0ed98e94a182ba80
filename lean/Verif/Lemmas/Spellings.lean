import Verif.Spec.Spellings
import Verif.Lemmas.GrammarSound
import Verif.Lemmas.ParseFullPats
/-
Helper lemmas: what follows a lambda or the keyword of a fixity declaration in an accepted program;
brackets in accepted programs; commas in lists.
-/
namespace Pemdas

/-- Tokens that are neither lambdas nor keywords of fixity declarations. -/
def Token.plain : Token → Bool
  | .lambda | .infixL | .infixR | .infix_ => false
  | _ => true

/-- After every lambda there is a pattern, after every keyword of a fixity declaration something
that is neither `-` nor `@`. -/
def Heads (ts : List Token) : Prop := ∀ a t b, ts = a ++ t :: b →
  (t = .lambda → ∃ p ps c, PatWritten p ps ∧ b = ps ++ c) ∧
  (t.isFixityKw = true → ∃ u c, b = u :: c ∧ u ≠ .dash ∧ u ≠ .at_)

theorem Heads.nil : Heads [] := by intro a t b h; simp at h

theorem Heads.append {ts us : List Token} (h : Heads ts) (h' : Heads us) : Heads (ts ++ us) := by
  intro a t b he
  rcases List.append_eq_append_iff.1 he with ⟨c, rfl, hc⟩ | ⟨c, rfl, hc⟩
  · exact h' c t b hc
  · cases c with
    | nil => exact h' [] t b (by simpa using hc.symm)
    | cons x c =>
      simp only [List.cons_append, List.cons.injEq] at hc
      obtain ⟨rfl, rfl⟩ := hc
      have := h a t c rfl
      refine ⟨fun ht => ?_, fun ht => ?_⟩
      · obtain ⟨p, ps, d, h1, rfl⟩ := this.1 ht
        exact ⟨p, ps, d ++ us, h1, by simp⟩
      · obtain ⟨u, d, rfl, h1⟩ := this.2 ht
        exact ⟨u, d ++ us, rfl, h1⟩

theorem Heads.of_plain {ts : List Token} (h : ∀ t ∈ ts, t.plain = true) : Heads ts := by
  intro a t b he
  have ht := h t (by simp [he])
  refine ⟨?_, ?_⟩
  · rintro rfl; simp [Token.plain] at ht
  · intro h; cases t <;> simp_all [Token.plain, Token.isFixityKw]

theorem Heads.cons {t : Token} {us : List Token} (h : t.plain = true) (h' : Heads us) :
    Heads (t :: us) :=
  Heads.append (ts := [t]) (.of_plain (by simpa using h)) h'

theorem Heads.flatten {tss : List (List Token)} (h : ∀ ts ∈ tss, Heads ts) : Heads tss.flatten := by
  induction tss with
  | nil => exact .nil
  | cons ts rest ih =>
    rw [List.flatten_cons]
    exact (h ts (by simp)).append (ih fun us hu => h us (by simp [hu]))

/-- All tokens are plain. -/
def AllPlain (ts : List Token) : Prop := ∀ t ∈ ts, t.plain = true

theorem AllPlain.append {ts us : List Token} (h : AllPlain ts) (h' : AllPlain us) :
    AllPlain (ts ++ us) := fun t ht => (List.mem_append.1 ht).elim (h t) (h' t)

theorem AllPlain.cons {t : Token} {us : List Token} (h : t.plain = true) (h' : AllPlain us) :
    AllPlain (t :: us) := fun u hu => (List.mem_cons.1 hu).elim (fun e => e ▸ h) (h' u)

theorem AllPlain.nil : AllPlain [] := by simp [AllPlain]

theorem AllPlain.flatten {tss : List (List Token)} (h : ∀ ts ∈ tss, AllPlain ts) :
    AllPlain tss.flatten := by
  intro t ht
  obtain ⟨ts, h1, h2⟩ := List.mem_flatten.1 ht
  exact h ts h1 t h2

theorem AllPlain.sepBy {sep : Token} {tss : List (List Token)} (hs : sep.plain = true)
    (h : ∀ ts ∈ tss, AllPlain ts) : AllPlain (sepBy sep tss) := by
  induction tss with
  | nil => exact .nil
  | cons ts rest ih =>
    cases rest with
    | nil => exact h ts (by simp)
    | cons us rest =>
      exact (h ts (by simp)).append (.cons hs (ih fun vs hv => h vs (by simp [hv])))

theorem PatToks.plain {c : PatCat} {p : Pat} {ts : List Token} (h : PatToks c p ts) :
    AllPlain ts := by
  induction h with
  | wild | con0 | var | firstOp | lit => exact .cons rfl .nil
  | as_ _ _ ih => exact .cons rfl (.cons rfl ih)
  | firstNeg _ ih | minus _ ih => exact .cons rfl ih
  | firstCon _ ih | first _ ih | inner _ ih | innerCon _ ih => exact ih
  | paren _ ih => exact .cons rfl (ih.append (.cons rfl .nil))
  | tup _ _ _ ih ihs =>
    refine .cons rfl (.append (.sepBy rfl ?_) (.cons rfl .nil))
    intro us hu
    rcases List.mem_cons.1 hu with rfl | hu
    · exact ih
    · obtain ⟨x, hx, rfl⟩ := List.mem_map.1 hu; exact ihs x hx
  | arrNil => exact .cons rfl (.cons rfl (.cons rfl .nil))
  | arr _ _ ihs =>
    refine .cons rfl (.append (.sepBy rfl ?_) (.cons rfl .nil))
    intro us hu
    obtain ⟨x, hx, rfl⟩ := List.mem_map.1 hu; exact ihs x hx
  | con _ _ ihs =>
    refine .cons rfl (.flatten ?_)
    intro us hu
    obtain ⟨x, hx, rfl⟩ := List.mem_map.1 hu; exact ihs x hx
  | conTup _ _ _ ih ihs =>
    refine .sepBy rfl ?_
    intro us hu
    rcases List.mem_cons.1 hu with rfl | hu
    · exact ih
    · obtain ⟨x, hx, rfl⟩ := List.mem_map.1 hu; exact ihs x hx

theorem OpTok.plain {op : Infix} {t : Token} (h : OpTok op t) : t.plain = true := by
  cases h <;> rfl

/-- A fixity declaration is a keyword and plain tokens. -/
theorem DeclToks.plain {d : InfixDecl} {ts : List Token} (h : DeclToks d ts) :
    ∃ k us, ts = k :: us ∧ us ≠ [] ∧ k.isFixityKw = true ∧ AllPlain us := by
  have hops : ∀ ops : List (Infix × Token), (∀ x ∈ ops, OpTok x.1 x.2) →
      AllPlain (Pemdas.sepBy .comma (ops.map fun x => [x.2])) := by
    intro ops h
    refine .sepBy rfl fun us hu => ?_
    obtain ⟨x, hx, rfl⟩ := List.mem_map.1 hu
    exact .cons (h x hx).plain .nil
  have hk : ∀ a : Assoc, a.kwTok.isFixityKw = true := by intro a; cases a <;> rfl
  cases h with
  | withPrec hp hne hall => exact ⟨_, _, rfl, by simp, hk _, .cons rfl (hops _ hall)⟩
  | noPrec hne hall =>
    refine ⟨_, _, rfl, ?_, hk _, hops _ hall⟩
    rename_i a ops
    cases ops with
    | nil => exact (hne rfl).elim
    | cons x ops => cases ops <;> simp [sepBy]

theorem DeclWritten.heads {d : InfixDecl} {ts : List Token} (h : DeclWritten d ts) : Heads ts := by
  obtain ⟨k, us, rfl, hne, hk, hp⟩ := h.1.plain
  intro a t b he
  cases a with
  | nil =>
    simp only [List.nil_append, List.cons.injEq] at he
    obtain ⟨rfl, rfl⟩ := he
    refine ⟨?_, fun _ => ?_⟩
    · rintro rfl; simp [Token.isFixityKw] at hk
    · cases us with
      | nil => exact (hne rfl).elim
      | cons u us =>
        exact ⟨u, us, rfl, by intro h'; subst h'; exact h.2.1 rfl, by
          intro h'; subst h'; exact h.2.2 rfl⟩
  | cons x a =>
    simp only [List.cons_append, List.cons.injEq] at he
    exact Heads.of_plain hp a t b he.2

theorem Written.heads {cat : ExprCat} {c m : Nat} {e : Expr} {ts : List CTok}
    (h : Written cat c m e ts) : Heads (ts.map (·.1)) := by
  induction h with
  | last _ ih | lastOpen _ ih | head _ ih => exact ih
  | bin _ ho _ ih1 ih2 =>
    rw [List.map_append]; exact ih1.append (.cons ho.plain ih2)
  | app _ _ _ ih1 ih2 | appOpen _ _ _ _ ih1 ih2 => rw [List.map_append]; exact ih1.append ih2
  | @lam c k₀ k m ps pts e ts hne hp he _ ih =>
    simp only [List.map_append, List.map_cons, he]
    cases ps with
    | nil => exact (hne rfl).elim
    | cons x ps =>
      have h1 : Heads (Token.lambda :: x.2) := by
        intro a t b he
        cases a with
        | nil =>
          simp only [List.nil_append, List.cons.injEq] at he
          obtain ⟨rfl, rfl⟩ := he
          exact ⟨fun _ => ⟨x.1, x.2, [], hp x (by simp), by simp⟩, by simp [Token.isFixityKw]⟩
        | cons y a =>
          simp only [List.cons_append, List.cons.injEq] at he
          exact Heads.of_plain (hp x (by simp)).1.plain a t b he.2
      have h2 : Heads ((ps.map (·.2)).flatten) := by
        refine .of_plain (AllPlain.flatten fun us hu => ?_)
        obtain ⟨y, hy, rfl⟩ := List.mem_map.1 hu
        exact (hp y (by simp [hy])).1.plain
      have := h1.append (h2.append (.cons (t := .arrow) rfl ih))
      simpa using this
  | let_ hd _ ih =>
    simp only [List.map_append, List.map_cons]
    exact .cons rfl (hd.heads.append (.cons rfl ih))
  | lit | upper | lower => exact .cons rfl .nil
  | unit => exact .cons rfl (.cons rfl .nil)
  | op => exact .cons rfl (.cons rfl (.cons rfl .nil))
  | commas =>
    simp only [List.map_append, List.map_cons, List.map_map]
    refine .cons rfl (.append (.of_plain ?_) (.cons rfl .nil))
    intro t ht
    obtain ⟨j, _, rfl⟩ := List.mem_map.1 ht; rfl
  | grp _ ih =>
    simp only [List.map_append, List.map_cons]
    exact .cons rfl (ih.append (.cons rfl .nil))
  | tup _ _ _ ih ihs =>
    simp only [List.map_append, List.map_cons, List.map_flatten, List.map_map]
    refine .append (.append (.cons rfl ih) (.flatten ?_)) (.cons rfl .nil)
    intro us hu
    obtain ⟨x, hx, rfl⟩ := List.mem_map.1 hu
    exact .cons rfl (ihs x hx)
  | list _ _ ihs =>
    simp only [List.map_append, List.map_cons, List.map_flatten, List.map_map]
    refine .cons rfl (.append (.flatten ?_) (.cons rfl .nil))
    intro us hu
    obtain ⟨x, hx, rfl⟩ := List.mem_map.1 hu
    simp only [Function.comp_apply, ListItem.all, List.map_append]
    refine .append (ihs x hx) ?_
    cases x.comma
    · exact .nil
    · exact .cons rfl .nil

theorem WrittenProg.heads {ds : List Decl} {ts : List CTok} (h : WrittenProg ds ts) :
    Heads (ts.map (·.1)) := by
  have hs : ∀ semi, Heads ((semiToks semi).map (·.1)) := by
    intro semi
    cases semi
    · exact .nil
    · exact .cons rfl .nil
  induction h with
  | nil => exact .nil
  | infix_ semi hd _ ih =>
    simp only [List.map_append]
    exact .append (.append hd.heads (hs semi)) ih
  | expr semi he _ _ ih =>
    simp only [List.map_append]
    exact .append (.append he.heads (hs semi)) ih

/-! ### Brackets -/

theorem Matched.append {ts us : List Token} (h : Matched ts) (h' : Matched us) :
    Matched (ts ++ us) := by
  induction h with
  | nil => exact h'
  | flat ht _ ih => exact .flat ht ih
  | paren ha _ _ ih => simpa using Matched.paren ha ih
  | brack ha _ _ ih => simpa using Matched.brack ha ih

theorem Matched.of_flat {ts : List Token} (h : ∀ t ∈ ts, t.flat = true) : Matched ts := by
  induction ts with
  | nil => exact .nil
  | cons t ts ih => exact .flat (h t (by simp)) (ih fun u hu => h u (by simp [hu]))

theorem Matched.flatten {tss : List (List Token)} (h : ∀ ts ∈ tss, Matched ts) :
    Matched tss.flatten := by
  induction tss with
  | nil => exact .nil
  | cons ts rest ih =>
    rw [List.flatten_cons]
    exact (h ts (by simp)).append (ih fun us hu => h us (by simp [hu]))

theorem Matched.inParens {ts : List Token} (h : Matched ts) :
    Matched (.parenL :: ts ++ [.parenR]) := .paren h .nil

theorem Matched.inBracks {ts : List Token} (h : Matched ts) :
    Matched (.brackL :: ts ++ [.brackR]) := .brack h .nil

theorem OpTok.flat {op : Infix} {t : Token} (h : OpTok op t) : t.flat = true := by
  cases h <;> rfl

theorem DeclToks.matched {d : InfixDecl} {ts : List Token} (h : DeclToks d ts) : Matched ts := by
  have hops : ∀ ops : List (Infix × Token), (∀ x ∈ ops, OpTok x.1 x.2) →
      Matched (sepBy .comma (ops.map fun x => [x.2])) := by
    intro ops h
    induction ops with
    | nil => exact .nil
    | cons x ops ih =>
      have hx := (h x (by simp)).flat
      have := ih fun y hy => h y (by simp [hy])
      cases ops with
      | nil => exact .flat hx .nil
      | cons y ops => exact .flat hx (.flat rfl this)
  have hk : ∀ a : Assoc, a.kwTok.flat = true := by intro a; cases a <;> rfl
  cases h with
  | withPrec hp hne hall => exact .flat (hk _) (.flat rfl (hops _ hall))
  | noPrec hne hall => exact .flat (hk _) (hops _ hall)

theorem Written.matched {cat : ExprCat} {c m : Nat} {e : Expr} {ts : List CTok}
    (h : Written cat c m e ts) : .lambda ∉ ts.map (·.1) → Matched (ts.map (·.1)) := by
  induction h with
  | last _ ih | lastOpen _ ih | head _ ih => exact ih
  | bin _ ho _ ih1 ih2 =>
    intro h
    simp only [List.map_append, List.map_cons, List.mem_append, List.mem_cons, not_or] at h ⊢
    exact (ih1 h.1).append (.flat ho.flat (ih2 h.2.2))
  | app _ _ _ ih1 ih2 | appOpen _ _ _ _ ih1 ih2 =>
    intro h
    simp only [List.map_append, List.mem_append, not_or] at h ⊢
    exact (ih1 h.1).append (ih2 h.2)
  | lam => intro h; simp at h
  | let_ hd _ ih =>
    intro h
    simp only [List.map_append, List.map_cons, List.mem_append, List.mem_cons, not_or] at h ⊢
    exact .flat rfl (hd.1.matched.append (.flat rfl (ih h.2.2)))
  | lit | upper | lower => intro _; exact .flat rfl .nil
  | unit => intro _; exact Matched.inParens .nil
  | op => intro _; exact Matched.inParens (.flat rfl .nil)
  | commas =>
    intro _
    simp only [List.map_append, List.map_cons, List.map_map]
    refine Matched.inParens (.of_flat ?_)
    intro t ht
    obtain ⟨j, _, rfl⟩ := List.mem_map.1 ht; rfl
  | grp _ ih =>
    intro h
    simp only [List.map_append, List.map_cons, List.mem_append, List.mem_cons, not_or] at h ⊢
    exact Matched.inParens (ih h.1.2)
  | tup _ _ _ ih ihs =>
    intro h
    simp only [List.map_append, List.map_cons, List.map_flatten, List.map_map, List.mem_append,
      List.mem_cons, not_or] at h ⊢
    rw [List.cons_append]
    refine Matched.inParens (.append (ih h.1.1.2) (.flatten ?_))
    intro us hu
    have hnot := h.1.2
    obtain ⟨x, hx, rfl⟩ := List.mem_map.1 hu
    refine .flat rfl (ihs x hx fun hm => hnot ?_)
    exact List.mem_flatten.2 ⟨_, hu, by simp [TupItem.all, hm]⟩
  | list _ _ ihs =>
    intro h
    simp only [List.map_append, List.map_cons, List.map_flatten, List.map_map, List.mem_append,
      List.mem_cons, not_or] at h ⊢
    refine Matched.inBracks (.flatten ?_)
    intro us hu
    have hnot := h.1.2
    obtain ⟨x, hx, rfl⟩ := List.mem_map.1 hu
    have hx' : Token.lambda ∉ x.toks.map (·.1) := fun hm =>
      hnot (List.mem_flatten.2 ⟨_, hu, by
        simp only [Function.comp_apply, ListItem.all, List.map_append, List.mem_append]
        exact .inl hm⟩)
    simp only [Function.comp_apply, ListItem.all, List.map_append]
    refine .append (ihs x hx hx') ?_
    cases x.comma
    · exact .nil
    · exact .flat rfl .nil

theorem WrittenProg.matched {ds : List Decl} {ts : List CTok} (h : WrittenProg ds ts) :
    .lambda ∉ ts.map (·.1) → Matched (ts.map (·.1)) := by
  have hs : ∀ semi, Matched ((semiToks semi).map (·.1)) := by
    intro semi
    cases semi
    · exact .nil
    · exact .flat rfl .nil
  induction h with
  | nil => intro _; exact .nil
  | infix_ semi hd _ ih =>
    intro h
    simp only [List.map_append, List.mem_append, not_or] at h ⊢
    exact .append (.append hd.1.matched (hs semi)) (ih h.2)
  | expr semi he _ _ ih =>
    intro h
    simp only [List.map_append, List.mem_append, not_or] at h ⊢
    exact .append (.append (he.matched h.1.1) (hs semi)) (ih h.2)

/-! ### Lists -/

theorem Line.starts {cat : ExprCat} {e : Expr} {ts : List Token} (h : Line cat e ts) :
    ∃ t ts', ts = t :: ts' ∧ (t.startsArg = true ∨ t = .lambda ∨ t = .let_) := by
  induction h with
  | last _ ih | lastOpen _ ih | head _ ih => exact ih
  | bin _ _ _ ih | app _ _ ih =>
    obtain ⟨t, ts', rfl, h⟩ := ih
    exact ⟨t, _, rfl, h⟩
  | _ => exact ⟨_, _, rfl, by simp [Token.startsArg]⟩

/-- Elements without lambdas and `let`s are separated by commas. -/
theorem elems_commas : ∀ {xs : List (Expr × List Token × Bool)},
    (∀ x ∈ xs, Line .chain x.1 x.2.1) →
    (∀ a x b, xs = a ++ x :: b → x.2.2 = false → Closed ((b.map elemToks).flatten ++ [.brackR])) →
    (∀ x ∈ xs, .lambda ∉ x.2.1 ∧ .let_ ∉ x.2.1) →
    ∃ trail : List Token, (trail = [] ∨ (trail = [.comma] ∧ xs ≠ [])) ∧
      (xs.map elemToks).flatten = sepBy .comma (xs.map (·.2.1)) ++ trail
  | [], _, _, _ => ⟨[], .inl rfl, rfl⟩
  | [(e, ts, b)], _, _, _ => by
    cases b
    · exact ⟨[], .inl rfl, by simp [elemToks, sepBy]⟩
    · exact ⟨[.comma], .inr ⟨rfl, by simp⟩, by simp [elemToks, sepBy]⟩
  | (e, ts, b) :: y :: xs, h1, h2, h3 => by
    obtain ⟨trail, ht, he⟩ := elems_commas (xs := y :: xs)
      (fun x hx => h1 x (List.mem_cons_of_mem _ hx))
      (fun a x c hs => h2 ((e, ts, b) :: a) x c (by rw [hs]; rfl))
      (fun x hx => h3 x (List.mem_cons_of_mem _ hx))
    refine ⟨trail, ht.imp id fun h => ⟨h.1, by simp⟩, ?_⟩
    rw [List.map_cons, List.flatten_cons, he]
    cases b with
    | true => simp [elemToks, sepBy]
    | false =>
      have hc := h2 [] (e, ts, false) (y :: xs) rfl rfl
      obtain ⟨t, ts', hts, hst⟩ := (h1 y (by simp)).starts
      have hy := h3 y (by simp)
      rw [hts] at hy
      simp only [List.map_cons, List.flatten_cons, elemToks, hts, List.cons_append, Closed] at hc
      rcases hst with h | rfl | rfl
      · rw [h] at hc; exact absurd hc.2 (by simp)
      · exact (hy.1 (by simp)).elim
      · exact (hy.2 (by simp)).elim

theorem foldr_lam_ne {ps : List Pat} {e : Expr} {es : List Expr} (h : ps ≠ []) :
    ps.foldr .lam e ≠ .list es := by
  cases ps with
  | nil => exact (h rfl).elim
  | cons p ps => simp

theorem Line.list_inv {es : List Expr} {ts : List Token} (h : Line .chain (.list es) ts) :
    ∃ xs : List (Expr × List Token × Bool), es = xs.map (·.1) ∧
      ts = .brackL :: (xs.map elemToks).flatten ++ [.brackR] ∧
      (∀ x ∈ xs, Line .chain x.1 x.2.1) ∧
      ∀ a x b, xs = a ++ x :: b → x.2.2 = false →
        Closed ((b.map elemToks).flatten ++ [.brackR]) := by
  cases h with
  | last h =>
    cases h with
    | head h => cases h with | list h1 h2 => exact ⟨_, rfl, rfl, h1, h2⟩
  | lastOpen h =>
    generalize he : Expr.list es = e at h
    cases h with
    | lam hne _ _ => exact (foldr_lam_ne (by simpa using hne) he.symm).elim
    | let_ => cases he

end Pemdas
