import Verif.Lemmas.ParseProg
import Verif.Spec.Parsed
/-
Consequences of the grammar for the shape of trees and token sequences.
-/
namespace Pemdas

theorem parsedList_iff {es : List Expr} : Expr.ParsedList es ↔ ∀ e ∈ es, e.Parsed := by
  induction es with
  | nil => simp [Expr.ParsedList]
  | cons e es ih => simp [Expr.ParsedList, ih]

theorem mem_letsList {es : List Expr} {d : InfixDecl} :
    d ∈ Expr.letsList es ↔ ∃ e ∈ es, d ∈ e.lets := by
  induction es with
  | nil => simp [Expr.letsList]
  | cons e es ih => simp [Expr.letsList, ih]

theorem foldr_lam_cases (ps : List Pat) (hne : ps ≠ []) (e : Expr) :
    ∃ p b, ps.foldr Expr.lam e = .lam p b := by
  cases ps with
  | nil => exact absurd rfl hne
  | cons p ps => exact ⟨p, _, rfl⟩

theorem foldr_lam_parsed {ps : List Pat} {e : Expr} (h : e.Parsed) :
    (ps.foldr Expr.lam e).Parsed := by
  induction ps with
  | nil => exact h
  | cons p ps ih => simpa [Expr.Parsed] using ih

theorem foldr_lam_lets (ps : List Pat) (e : Expr) : (ps.foldr Expr.lam e).lets = e.lets := by
  induction ps with
  | nil => rfl
  | cons p ps ih => simpa [Expr.lets] using ih

theorem ExprToks.parsed {c : ExprCat} {e : Expr} {ts : List Token} (h : ExprToks c e ts) :
    e.Parsed ∧ (c ≠ .chain → e.NonBin) ∧ (c = .arg → e.isArg = true) := by
  induction h with
  | single _ ih => exact ⟨ih.1, by simp, by simp⟩
  | bin _ _ _ ih1 ih2 =>
    exact ⟨by simp [Expr.Parsed, ih1.1, ih2.1, ih1.2.1], by simp, by simp⟩
  | head _ ih => exact ⟨ih.1, fun _ => ih.2.1 (by simp), by simp⟩
  | app _ _ ih1 ih2 =>
    exact ⟨by simp [Expr.Parsed, ih1.1, ih2.1, ih1.2.1, ih2.2.2], fun _ => rfl, by simp⟩
  | arg _ ih => exact ⟨ih.1, fun _ => ih.2.1 (by simp), by simp⟩
  | @lam ps e ts hne _ _ ih =>
    refine ⟨foldr_lam_parsed ih.1, fun _ => ?_, by simp⟩
    obtain ⟨p, b, h⟩ := foldr_lam_cases (ps.map (·.1)) (by simpa using hne) e
    rw [h]; rfl
  | let_ _ _ ih => exact ⟨by simpa [Expr.Parsed] using ih.1, fun _ => rfl, by simp⟩
  | lit | upper | lower | op | commas =>
    exact ⟨by simp [Expr.Parsed], fun _ => rfl, fun _ => rfl⟩
  | unit => exact ⟨by simp [Expr.Parsed, Expr.ParsedList], fun _ => rfl, fun _ => rfl⟩
  | grp _ ih => exact ⟨by simpa [Expr.Parsed] using ih.1, fun _ => rfl, fun _ => rfl⟩
  | tup hl _ ih =>
    refine ⟨?_, fun _ => rfl, fun _ => rfl⟩
    simp only [Expr.Parsed, parsedList_iff, List.length_map]
    refine ⟨by omega, fun e he => ?_⟩
    obtain ⟨x, hx, rfl⟩ := List.mem_map.1 he
    exact (ih x hx).1
  | list _ ih =>
    refine ⟨?_, fun _ => rfl, fun _ => rfl⟩
    simp only [Expr.Parsed, parsedList_iff]
    intro e he
    obtain ⟨x, hx, rfl⟩ := List.mem_map.1 he
    exact (ih x hx).1

/-! ### declarations inside -/

/-- The declaration `d` is written somewhere in `ts`. -/
def Declares (ts : List Token) (d : InfixDecl) : Prop := ∃ us, us <:+: ts ∧ DeclToks d us

theorem Declares.mono {ts ts' : List Token} {d : InfixDecl} (h : Declares ts d) (hi : ts <:+: ts') :
    Declares ts' d := by
  obtain ⟨us, h1, h2⟩ := h
  exact ⟨us, h1.trans hi, h2⟩

theorem sepBy_infix {sep : Token} {tss : List (List Token)} {ts : List Token} (h : ts ∈ tss) :
    ts <:+: sepBy sep tss := by
  cases tss with
  | nil => cases h
  | cons us rest =>
    rw [sepBy_cons]
    rcases List.mem_cons.1 h with rfl | h
    · exact List.infix_append' [] ts _
    · obtain ⟨a, b, rfl⟩ := List.append_of_mem h
      refine ⟨us ++ (a.map (sep :: ·)).flatten ++ [sep], (b.map (sep :: ·)).flatten, ?_⟩
      simp

theorem flatten_infix {tss : List (List Token)} {ts : List Token} (h : ts ∈ tss) :
    ts <:+: tss.flatten := by
  obtain ⟨a, b, rfl⟩ := List.append_of_mem h
  exact ⟨a.flatten, b.flatten, by simp⟩

theorem ExprToks.declares {c : ExprCat} {e : Expr} {ts : List Token} (h : ExprToks c e ts) :
    ∀ d ∈ e.lets, Declares ts d := by
  induction h with
  | single _ ih => exact ih
  | @bin l op t r ts us _ _ _ ih1 ih2 =>
    intro d hd
    simp only [Expr.lets, List.mem_append] at hd
    rcases hd with hd | hd
    · exact (ih1 d hd).mono ⟨[], t :: us, by simp⟩
    · exact (ih2 d hd).mono ⟨ts ++ [t], [], by simp⟩
  | head _ ih => exact ih
  | @app f x ts us _ _ ih1 ih2 =>
    intro d hd
    simp only [Expr.lets, List.mem_append] at hd
    rcases hd with hd | hd
    · exact (ih1 d hd).mono ⟨[], us, by simp⟩
    · exact (ih2 d hd).mono ⟨ts, [], by simp⟩
  | arg _ ih => exact ih
  | @lam ps e ts _ _ _ ih =>
    intro d hd
    rw [foldr_lam_lets] at hd
    exact (ih d hd).mono ⟨Token.lambda :: (ps.map (·.2)).flatten ++ [Token.arrow], [], by simp⟩
  | @let_ d e ds ts h1 _ ih =>
    intro d' hd
    simp only [Expr.lets, List.mem_cons] at hd
    rcases hd with rfl | hd
    · exact ⟨ds, ⟨[Token.let_], Token.in_ :: ts, by simp⟩, h1⟩
    · exact (ih d' hd).mono ⟨Token.let_ :: ds ++ [Token.in_], [], by simp⟩
  | lit | upper | lower | op | commas => intro d hd; simp [Expr.lets] at hd
  | unit => intro d hd; simp [Expr.lets, Expr.letsList] at hd
  | @grp e ts _ ih =>
    intro d hd
    exact (ih d hd).mono ⟨[Token.parenL], [Token.parenR], by simp⟩
  | @tup es _ _ ih =>
    intro d hd
    simp only [Expr.lets, mem_letsList, List.mem_map] at hd
    obtain ⟨_, ⟨x, hx, rfl⟩, hd⟩ := hd
    refine ((ih x hx) d hd).mono ?_
    obtain ⟨a, b, h⟩ := sepBy_infix (sep := .comma) (List.mem_map.2 ⟨x, hx, rfl⟩ : x.2 ∈ es.map (·.2))
    exact ⟨Token.parenL :: a, b ++ [Token.parenR], by rw [← h]; simp⟩
  | @list es _ ih =>
    intro d hd
    simp only [Expr.lets, mem_letsList, List.mem_map] at hd
    obtain ⟨_, ⟨x, hx, rfl⟩, hd⟩ := hd
    refine ((ih x hx) d hd).mono ?_
    obtain ⟨a, b, h⟩ := flatten_infix (List.mem_map.2 ⟨x, hx, rfl⟩ :
      x.2.1 ++ (if x.2.2 then [Token.comma] else []) ∈
        es.map fun x => x.2.1 ++ if x.2.2 then [Token.comma] else [])
    refine ⟨Token.brackL :: a, (if x.2.2 then [Token.comma] else []) ++ b ++ [Token.brackR], ?_⟩
    rw [← h]; simp

theorem push_all (a : Ast) (d : Decl) (x : InfixDecl) (h : x ∈ (a.push d).allDecls) :
    x ∈ a.allDecls ∨ d = .infix_ x ∨ ∃ e, d = .expr e ∧ x ∈ e.lets := by
  cases d with
  | infix_ y =>
    simp only [Ast.push, Ast.allDecls, List.mem_append, List.mem_singleton] at h ⊢
    rcases h with (h | rfl) | h
    · exact .inl (.inl h)
    · exact .inr (.inl rfl)
    · exact .inl (.inr h)
  | expr e =>
    simp only [Ast.push, Ast.allDecls, List.mem_append, mem_letsList, List.mem_singleton] at h ⊢
    rcases h with h | ⟨e', h | rfl, h'⟩
    · exact .inl (.inl h)
    · exact .inl (.inr ⟨e', h, h'⟩)
    · exact .inr (.inr ⟨e', rfl, h'⟩)

theorem ProgToks.declares {ds : List Decl} {ts : List Token} (h : ProgToks ds ts) :
    ∀ (a : Ast) (x), x ∈ (ds.foldl Ast.push a).allDecls → x ∈ a.allDecls ∨ Declares ts x := by
  induction h with
  | nil => intro a x hx; exact .inl hx
  | @infix_ d ds ts us semi h1 _ ih =>
    intro a x hx
    rcases ih _ x hx with h | h
    · rcases push_all _ _ _ h with h | h | ⟨e, h, _⟩
      · exact .inl h
      · cases h
        exact .inr ⟨ts, ⟨[], (if semi then [.semi] else []) ++ us, by simp⟩, h1⟩
      · cases h
    · exact .inr (h.mono ⟨ts ++ if semi then [.semi] else [], [], by simp⟩)
  | @expr e ds ts us semi h1 _ ih =>
    intro a x hx
    rcases ih _ x hx with h | h
    · rcases push_all _ _ _ h with h | h | ⟨e, h, hl⟩
      · exact .inl h
      · cases h
      · cases h
        exact .inr ((h1.declares x hl).mono ⟨[], (if semi then [.semi] else []) ++ us, by simp⟩)
    · exact .inr (h.mono ⟨ts ++ if semi then [.semi] else [], [], by simp⟩)

theorem ProgToks.exprs {ds : List Decl} {ts : List Token} (h : ProgToks ds ts) :
    ∀ (a : Ast) (e), e ∈ (ds.foldl Ast.push a).exprs → e ∈ a.exprs ∨ e.Parsed := by
  induction h with
  | nil => intro a x hx; exact .inl hx
  | infix_ _ _ _ ih =>
    intro a x hx
    rw [List.foldl_cons] at hx
    exact ih (a.push _) x hx
  | expr _ h1 _ ih =>
    intro a x hx
    rcases ih _ x hx with h | h
    · simp only [Ast.push, List.mem_append, List.mem_singleton] at h
      rcases h with h | rfl
      · exact .inl h
      · exact .inr h1.parsed.1
    · exact .inr h

/-! ### precedences -/

/-- Every fixity keyword directly followed by an integer is followed by one up to 9, and the
sequence does not end in a fixity keyword. -/
def PrecOk (ts : List Token) : Prop :=
  (∀ a b k n, ts = a ++ k :: .lit (.int n) :: b → k.isFixityKeyword = true → n ≤ 9) ∧
  (∀ a k, ts = a ++ [k] → k.isFixityKeyword = false)

theorem PrecOk.append {ts us : List Token} (h1 : PrecOk ts) (h2 : PrecOk us) :
    PrecOk (ts ++ us) := by
  refine ⟨?_, ?_⟩
  · intro a b k n h hk
    rcases List.append_eq_append_iff.1 h with ⟨c, rfl, h'⟩ | ⟨c, rfl, h'⟩
    · exact h2.1 c b k n h' hk
    · cases c with
      | nil => exact h2.1 [] b k n h'.symm hk
      | cons k' c =>
        injection h' with h h'
        subst h
        cases c with
        | nil =>
          have := h1.2 a k (by simp)
          rw [hk] at this; cases this
        | cons y c =>
          injection h' with h h'
          subst h
          exact h1.1 a c k n (by simp) hk
  · intro a k h
    rcases List.append_eq_append_iff.1 h with ⟨c, rfl, h'⟩ | ⟨c, rfl, h'⟩
    · exact h2.2 c k h'
    · cases c with
      | nil => exact h2.2 [] k h'.symm
      | cons k' c =>
        injection h' with h h'
        subst h
        obtain ⟨rfl, rfl⟩ := List.append_eq_nil_iff.1 h'.symm
        exact h1.2 a k (by simp)

theorem PrecOk.nil : PrecOk [] := by
  refine ⟨?_, ?_⟩
  · intro a b k n h; cases a <;> cases h
  · intro a k h; cases a <;> cases h

theorem PrecOk.cons {t : Token} {ts : List Token} (h : t.isFixityKeyword = false) (h2 : PrecOk ts) :
    PrecOk (t :: ts) := by
  refine PrecOk.append (ts := [t]) ⟨?_, ?_⟩ h2
  · intro a b k n h'
    cases a with
    | nil => cases h'
    | cons x a => cases a <;> cases h'
  · intro a k h'
    cases a with
    | nil => cases h'; exact h
    | cons x a => cases a <;> cases h'

theorem PrecOk.flatten {tss : List (List Token)} (h : ∀ ts ∈ tss, PrecOk ts) : PrecOk tss.flatten := by
  induction tss with
  | nil => exact .nil
  | cons ts tss ih =>
    rw [List.flatten_cons]
    exact (h ts (by simp)).append (ih fun us hu => h us (by simp [hu]))

theorem PrecOk.sepBy {sep : Token} {tss : List (List Token)} (hs : sep.isFixityKeyword = false)
    (h : ∀ ts ∈ tss, PrecOk ts) : PrecOk (sepBy sep tss) := by
  cases tss with
  | nil => exact .nil
  | cons ts rest =>
    rw [sepBy_cons]
    refine (h ts (by simp)).append (.flatten ?_)
    intro us hu
    obtain ⟨vs, hv, rfl⟩ := List.mem_map.1 hu
    exact .cons hs (h vs (by simp [hv]))

theorem OpTok.notKeyword {op : Infix} {t : Token} (h : OpTok op t) : t.isFixityKeyword = false := by
  cases h <;> rfl

theorem PatToks.precOk {c : PatCat} {p : Pat} {ts : List Token} (h : PatToks c p ts) : PrecOk ts := by
  induction h with
  | wild | con0 | var | firstOp | lit => exact .cons rfl .nil
  | as_ _ _ ih => exact .cons rfl (.cons rfl ih)
  | firstNeg _ ih | minus _ ih => exact .cons rfl ih
  | firstCon _ ih | first _ ih | inner _ ih | innerCon _ ih => exact ih
  | paren _ ih => exact .cons rfl (ih.append (.cons rfl .nil))
  | tup _ _ _ ih ihs =>
    refine .cons rfl (.append (.sepBy rfl ?_) (.cons rfl .nil))
    intro us hu
    rcases List.mem_cons.1 hu with rfl | hu
    · exact ih
    · obtain ⟨x, hx, rfl⟩ := List.mem_map.1 hu; exact ihs x hx
  | arrNil => exact .cons rfl (.cons rfl (.cons rfl .nil))
  | arr _ _ ihs =>
    refine .cons rfl (.append (.sepBy rfl ?_) (.cons rfl .nil))
    intro us hu
    obtain ⟨x, hx, rfl⟩ := List.mem_map.1 hu; exact ihs x hx
  | con _ _ ihs =>
    refine .cons rfl (.flatten ?_)
    intro us hu
    obtain ⟨x, hx, rfl⟩ := List.mem_map.1 hu; exact ihs x hx
  | conTup _ _ _ ih ihs =>
    refine .sepBy rfl ?_
    intro us hu
    rcases List.mem_cons.1 hu with rfl | hu
    · exact ih
    · obtain ⟨x, hx, rfl⟩ := List.mem_map.1 hu; exact ihs x hx

theorem DeclToks.precOk {d : InfixDecl} {ts : List Token} (h : DeclToks d ts) : PrecOk ts := by
  have hops : ∀ ops : List (Infix × Token), (∀ x ∈ ops, OpTok x.1 x.2) →
      PrecOk (Pemdas.sepBy .comma (ops.map fun x => [x.2])) := by
    intro ops h
    refine .sepBy rfl fun us hu => ?_
    obtain ⟨x, hx, rfl⟩ := List.mem_map.1 hu
    exact .cons (h x hx).notKeyword .nil
  cases h with
  | @withPrec a p ops hp hne hall =>
    have h1 := PrecOk.cons (t := .lit (.int p)) rfl (hops ops hall)
    refine ⟨?_, ?_⟩
    · intro x b k n h hk
      cases x with
      | nil => injection h with _ h; injection h with h _; cases h; exact hp
      | cons y x => injection h with _ h; exact h1.1 x b k n h hk
    · intro x k h
      cases x with
      | nil => injection h with _ h; cases h
      | cons y x => injection h with _ h; exact h1.2 x k h
  | @noPrec a ops hne hall =>
    have h1 := hops ops hall
    have h2 : ∃ x xs, Pemdas.sepBy .comma (ops.map fun x => [x.2]) = x :: xs ∧
        (∀ n, x ≠ .lit (.int n)) := by
      cases ops with
      | nil => exact absurd rfl hne
      | cons o ops =>
        rw [List.map_cons, sepBy_cons]
        refine ⟨o.2, _, rfl, fun n h => ?_⟩
        have := hall o (by simp)
        rw [h] at this
        generalize o.1 = x at this
        cases this
    obtain ⟨y, ys, h2, h3⟩ := h2
    refine ⟨?_, ?_⟩
    · intro x b k n h hk
      cases x with
      | nil => injection h with _ h; rw [h2] at h; injection h with h _; exact absurd h (h3 n)
      | cons z x => injection h with _ h; exact h1.1 x b k n h hk
    · intro x k h
      cases x with
      | nil => injection h with _ h; rw [h2] at h; cases h
      | cons z x => injection h with _ h; exact h1.2 x k h

theorem ExprToks.precOk {c : ExprCat} {e : Expr} {ts : List Token} (h : ExprToks c e ts) :
    PrecOk ts := by
  induction h with
  | single _ ih | head _ ih | arg _ ih => exact ih
  | bin _ ht _ ih1 ih2 => exact ih1.append (.cons ht.notKeyword ih2)
  | app _ _ ih1 ih2 => exact ih1.append ih2
  | lam _ hps _ ih =>
    refine .cons rfl (.append (.flatten ?_) (.cons rfl ih))
    intro us hu
    obtain ⟨x, hx, rfl⟩ := List.mem_map.1 hu
    exact (hps x hx).precOk
  | let_ hd _ ih => exact .cons rfl (hd.precOk.append (.cons rfl ih))
  | lit | upper | lower => exact .cons rfl .nil
  | unit => exact .cons rfl (.cons rfl .nil)
  | op => exact .cons rfl (.cons rfl (.cons rfl .nil))
  | @commas k _ =>
    refine .cons rfl (.append ?_ (.cons rfl .nil))
    rename_i h
    clear h
    induction k with
    | zero => exact .nil
    | succ k ih => exact .cons rfl ih
  | grp _ ih => exact .cons rfl (ih.append (.cons rfl .nil))
  | tup _ _ ih =>
    refine .cons rfl (.append (.sepBy rfl ?_) (.cons rfl .nil))
    intro us hu
    obtain ⟨x, hx, rfl⟩ := List.mem_map.1 hu; exact ih x hx
  | list _ ih =>
    refine .cons rfl (.append (.flatten ?_) (.cons rfl .nil))
    intro us hu
    obtain ⟨x, hx, rfl⟩ := List.mem_map.1 hu
    refine (ih x hx).append ?_
    split
    · exact .cons rfl .nil
    · exact .nil

theorem ProgToks.precOk {ds : List Decl} {ts : List Token} (h : ProgToks ds ts) : PrecOk ts := by
  have hsemi : ∀ b : Bool, PrecOk (if b = true then [.semi] else []) := by
    intro b
    split
    · exact .cons rfl .nil
    · exact .nil
  induction h with
  | nil => exact .nil
  | infix_ semi h1 _ ih => exact (h1.precOk.append (hsemi semi)).append ih
  | expr semi h1 _ ih => exact (h1.precOk.append (hsemi semi)).append ih

end Pemdas
