import Verif.Lemmas.ParseSound
/-
Soundness and adequacy of the fuel for the pattern parsing functions.
-/
namespace Pemdas
open Lexer
variable [CharTables]

/-- Patterns of one kind with their tokens, one after the other. -/
def PatSeq (c : PatCat) (sep : List Token) (ps ps' : List Pat) (ts : List Token) : Prop :=
  ∃ xs : List (Pat × List Token), (∀ x ∈ xs, PatToks c x.1 x.2) ∧ ps' = ps ++ xs.map (·.1) ∧
    ts = (xs.map fun x => sep ++ x.2).flatten

omit [CharTables] in
theorem PatSeq.nil {c : PatCat} {sep : List Token} {ps : List Pat} : PatSeq c sep ps ps [] :=
  ⟨[], by simp, by simp, by simp⟩

omit [CharTables] in
theorem PatSeq.cons {c : PatCat} {sep : List Token} {ps ps' : List Pat} {p : Pat}
    {ts us : List Token} (hp : PatToks c p ts) (h : PatSeq c sep (ps ++ [p]) ps' us) :
    PatSeq c sep ps ps' (sep ++ ts ++ us) := by
  obtain ⟨xs, h1, rfl, rfl⟩ := h
  exact ⟨(p, ts) :: xs, by simpa [hp] using h1, by simp, by simp⟩

omit [CharTables] in
theorem PatToks.length_pos {c : PatCat} {p : Pat} {ts : List Token} (h : PatToks c p ts) :
    0 < ts.length := by
  induction h with
  | conTup _ _ _ ih => rw [sepBy_cons, List.length_append]; omega
  | _ => simp_all

/-- What the pattern functions do with fuel `n`. -/
structure PatSpec (n : Nat) : Prop where
  pattern : ∀ l, 8 * l.weight + 2 ≤ n →
    Run l (fun p ts _ => PatToks .pattern p ts) (Parser.pattern n l)
  inner : ∀ l, 8 * l.weight + 2 ≤ n →
    Run l (fun p ts _ => PatToks .inner p ts) (Parser.innerPat n l)
  brack : ∀ l, 8 * l.weight + 1 ≤ n → Shows l .brackL →
    Run l (fun p ts _ => PatToks .pattern p ts) (Parser.brackPat n l)
  paren : ∀ l, 8 * l.weight + 1 ≤ n → Shows l .parenL →
    Run l (fun p ts _ => PatToks .pattern p ts) (Parser.parenPat n l)
  upper : ∀ l s, 8 * l.weight + 1 ≤ n → Shows l (.upper s) →
    Run l (fun p ts _ => PatToks .con p ts) (Parser.upperPat n s l)
  lower : ∀ l s, 8 * l.weight + 1 ≤ n → Shows l (.lower s) →
    Run l (fun p ts _ => PatToks .pattern p ts) (Parser.lowerPat n s l)
  args : ∀ l ps, 8 * l.weight + 3 ≤ n →
    Run l (fun ps' ts _ => PatSeq .pattern [] ps ps' ts) (Parser.patArgs n ps l)
  patTail : ∀ l ps, 8 * l.weight + 1 ≤ n →
    Run l (fun ps' ts _ => PatSeq .pattern [.comma] ps ps' ts ∧ (Shows l .comma → ts ≠ []))
      (Parser.patTail n ps l)
  innerTail : ∀ l ps, 8 * l.weight + 1 ≤ n →
    Run l (fun ps' ts _ => PatSeq .inner [.comma] ps ps' ts ∧ (Shows l .comma → ts ≠ []))
      (Parser.innerTail n ps l)

variable [LawfulTables]

/-- What follows for fuel and tokens consumed. -/
theorem Eats.weight_le {l l' : Lexer} {ts : List Token} (h : Eats l ts l') : l'.weight ≤ l.weight := by
  have := h.weight; omega

theorem patTail_step {n : Nat} (ih : PatSpec n) (l : Lexer) (ps : List Pat)
    (hn : 8 * l.weight + 1 ≤ n + 1) :
    Run l (fun ps' ts _ => PatSeq .pattern [.comma] ps ps' ts ∧ (Shows l .comma → ts ≠ []))
      (Parser.patTail (n + 1) ps l) := by
  unfold Parser.patTail
  refine Run.bind (Run.bumpOn' l .comma (by simp) (by simp)) ?_
  rintro b ts l1 h1 ⟨rfl, hb⟩
  cases b with
  | false => exact Run.ret ⟨.nil, fun h => by cases hb h⟩
  | true =>
    simp only [if_true] at h1 ⊢
    have hw1 := h1.weight
    simp only [List.length_singleton] at hw1
    refine Run.bind (ih.pattern l1 (by omega)) ?_
    intro p ts l2 h2 hp
    have hw2 := h2.weight
    refine Run.mono (ih.patTail l2 _ (by omega)) ?_
    intro ps' us l3 h3 h4
    exact ⟨by simpa using PatSeq.cons hp h4.1, by simp⟩

theorem innerTail_step {n : Nat} (ih : PatSpec n) (l : Lexer) (ps : List Pat)
    (hn : 8 * l.weight + 1 ≤ n + 1) :
    Run l (fun ps' ts _ => PatSeq .inner [.comma] ps ps' ts ∧ (Shows l .comma → ts ≠ []))
      (Parser.innerTail (n + 1) ps l) := by
  unfold Parser.innerTail
  refine Run.bind (Run.bumpOn' l .comma (by simp) (by simp)) ?_
  rintro b ts l1 h1 ⟨rfl, hb⟩
  cases b with
  | false => exact Run.ret ⟨.nil, fun h => by cases hb h⟩
  | true =>
    simp only [if_true] at h1 ⊢
    have hw1 := h1.weight
    simp only [List.length_singleton] at hw1
    refine Run.bind (ih.inner l1 (by omega)) ?_
    intro p ts l2 h2 hp
    have hw2 := h2.weight
    refine Run.mono (ih.innerTail l2 _ (by omega)) ?_
    intro ps' us l3 h3 h4
    exact ⟨by simpa using PatSeq.cons hp h4.1, by simp⟩

theorem args_step {n : Nat} (ih : PatSpec n) (l : Lexer) (ps : List Pat)
    (hn : 8 * l.weight + 3 ≤ n + 1) :
    Run l (fun ps' ts _ => PatSeq .pattern [] ps ps' ts) (Parser.patArgs (n + 1) ps l) := by
  unfold Parser.patArgs
  refine Run.look fun t l1 h0 hs hp => ?_
  have hw0 := h0.weight
  split
  · refine Run.from h0 ?_
    refine Run.bind (ih.pattern l1 (by omega)) ?_
    intro p ts l2 h2 hp
    have hw2 := h2.weight
    have := hp.length_pos
    refine Run.mono (ih.args l2 _ (by omega)) ?_
    intro ps' us l3 h3 h4
    simpa using PatSeq.cons hp h4
  · exact Run.pure h0 .nil

theorem lower_step {n : Nat} (ih : PatSpec n) (l : Lexer) (s : Symbol)
    (hn : 8 * l.weight + 1 ≤ n + 1) (hs : Shows l (.lower s)) :
    Run l (fun p ts _ => PatToks .pattern p ts) (Parser.lowerPat (n + 1) s l) := by
  unfold Parser.lowerPat
  refine Run.bump .refl hs (by simp) (by simp) fun l1 h1 => ?_
  have hw1 := h1.weight
  refine Run.bind (Run.bumpOn l1 .at_ (by simp) (by simp)) ?_
  rintro b ts l2 h2 rfl
  cases b with
  | false => exact Run.ret (.var s)
  | true =>
    simp only [if_true, List.length_singleton] at h2 hw1 ⊢
    have hw2 := h2.weight
    simp only [List.length_singleton] at hw2
    refine Run.bind (ih.pattern l2 (by omega)) ?_
    intro p ts l3 h3 hp
    refine Run.ret ?_
    simpa using PatToks.as_ s hp

theorem upper_step {n : Nat} (ih : PatSpec n) (l : Lexer) (s : Symbol)
    (hn : 8 * l.weight + 1 ≤ n + 1) (hs : Shows l (.upper s)) :
    Run l (fun p ts _ => PatToks .con p ts) (Parser.upperPat (n + 1) s l) := by
  unfold Parser.upperPat
  refine Run.bump .refl hs (by simp) (by simp) fun l1 h1 => ?_
  have hw1 := h1.weight
  simp only [List.length_singleton] at hw1
  refine Run.bind (ih.args l1 [] (by omega)) ?_
  rintro args _ l2 h2 ⟨xs, h3, rfl, rfl⟩
  have hw2 := h2.weight
  have hcon := PatToks.con s h3
  refine Run.bind (Run.peekOn l2 .comma) ?_
  rintro b _ l3 h4 ⟨rfl, t, hst, hb⟩
  have hw4 := h4.weight
  cases b with
  | false =>
    refine Run.ret ?_
    simpa using hcon
  | true =>
    simp only [if_true]
    obtain rfl := hb.1 rfl
    refine Run.bind (ih.patTail l3 _ (by omega)) ?_
    rintro ps' ts l4 h5 ⟨⟨ys, h6, rfl, rfl⟩, hne⟩
    refine Run.ret ?_
    have hy : ys ≠ [] := by rintro rfl; exact hne hst rfl
    have := PatToks.conTup hcon hy h6
    rw [sepBy_cons, List.map_map] at this
    simpa [Function.comp_def] using this

theorem brack_step {n : Nat} (ih : PatSpec n) (l : Lexer) (hn : 8 * l.weight + 1 ≤ n + 1)
    (hs : Shows l .brackL) :
    Run l (fun p ts _ => PatToks .pattern p ts) (Parser.brackPat (n + 1) l) := by
  unfold Parser.brackPat
  refine Run.bind (Run.eatShown l .brackL (by simp) (by simp) hs) ?_
  rintro _ _ l1 h1 rfl
  have hw1 := h1.weight
  simp only [List.length_singleton] at hw1
  refine Run.bind (Q := fun p ts _ => PatToks .pattern p (.brackL :: ts ++ [.brackR])) ?_ ?_
  · refine Run.bind (Run.bumpOn l1 .brackR (by simp) (by simp)) ?_
    rintro b ts l2 h2 rfl
    cases b with
    | true => exact Run.ret .arrNil
    | false =>
      simp only [Bool.false_eq_true, if_false] at h2 ⊢
      have hw2 := h2.weight
      refine Run.bind (ih.inner l2 (by omega)) ?_
      intro p ts l3 h3 hp
      have hw3 := h3.weight
      refine Run.bind (ih.innerTail l3 [p] (by omega)) ?_
      rintro _ _ l4 h4 ⟨⟨ys, h5, rfl, rfl⟩, _⟩
      refine Run.ret ?_
      have := PatToks.arr (ps := (p, ts) :: ys) (by simp) (by simpa [hp] using h5)
      rw [List.map_cons, List.map_cons, sepBy_cons, List.map_map] at this
      simpa [Function.comp_def] using this
  · intro p ts l2 h2 hp
    refine Run.bind (Run.eat l2 .brackR (by simp [wanted]) (by simp)) ?_
    rintro _ _ l3 h3 rfl
    refine Run.ret ?_
    simpa using hp

theorem paren_step {n : Nat} (ih : PatSpec n) (l : Lexer) (hn : 8 * l.weight + 1 ≤ n + 1)
    (hs : Shows l .parenL) :
    Run l (fun p ts _ => PatToks .pattern p ts) (Parser.parenPat (n + 1) l) := by
  unfold Parser.parenPat
  refine Run.bind (Run.eatShown l .parenL (by simp) (by simp) hs) ?_
  rintro _ _ l1 h1 rfl
  have hw1 := h1.weight
  simp only [List.length_singleton] at hw1
  refine Run.loc ?_
  refine Run.bind (Q := fun p ts _ => PatToks .first p ts) ?_ ?_
  · refine Run.look fun t l2 h0 hs hp => ?_
    have hw2 := h0.weight
    split
    · exact Run.bump h0 hs (by simp) (by simp) fun l3 h3 => Run.ret (.firstOp _ _)
    · refine Run.from h0 ?_
      exact Run.mono (ih.upper l2 _ (by omega) hs) fun _ _ _ _ h => .firstCon h
    · refine Run.bump h0 hs (by simp) (by simp) fun l3 h3 => ?_
      have hw3 := h3.weight
      refine Run.bind (ih.pattern l3 (by omega)) ?_
      intro p ts l4 h4 hp
      refine Run.ret ?_
      simpa using PatToks.firstNeg hp
    · split
      · refine Run.from h0 ?_
        exact Run.mono (ih.pattern l2 (by omega)) fun _ _ _ _ h => .first h
      · exact Run.fail hp
  intro p ts l2 h2 hp
  have hw2 := h2.weight
  refine Run.bind (Q := fun p us _ => PatToks .pattern p (.parenL :: (ts ++ us) ++ [.parenR])) ?_ ?_
  · refine Run.bind (Run.peekOn l2 .comma) ?_
    rintro b _ l3 h4 ⟨rfl, t, hst, hb⟩
    have hw4 := h4.weight
    cases b with
    | false =>
      refine Run.ret ?_
      simpa using PatToks.paren hp
    | true =>
      simp only [if_true]
      obtain rfl := hb.1 rfl
      refine Run.bind (ih.innerTail l3 _ (by omega)) ?_
      rintro ps' ts l4 h5 ⟨⟨ys, h6, rfl, rfl⟩, hne⟩
      refine Run.ret ?_
      have hy : ys ≠ [] := by rintro rfl; exact hne hst rfl
      have := PatToks.tup hp hy h6
      rw [sepBy_cons, List.map_map] at this
      simpa [Function.comp_def] using this
  · intro p us l3 h3 hp
    refine Run.bind (Run.eat l3 .parenR (by simp [wanted]) (by simp)) ?_
    rintro _ _ l4 h4 rfl
    refine Run.ret ?_
    simpa using hp

theorem pattern_step {n : Nat} (ih : PatSpec n) (l : Lexer) (hn : 8 * l.weight + 2 ≤ n + 1) :
    Run l (fun p ts _ => PatToks .pattern p ts) (Parser.pattern (n + 1) l) := by
  unfold Parser.pattern
  refine Run.loc ?_
  refine Run.look fun t l1 h0 hs hp => ?_
  have hw := h0.weight
  split
  · exact Run.bump h0 hs (by simp) (by simp) fun l3 h3 => Run.ret .wild
  · exact Run.from h0 (ih.paren l1 (by omega) hs)
  · exact Run.from h0 (ih.brack l1 (by omega) hs)
  · exact Run.bump h0 hs (by simp) (by simp) fun l3 h3 => Run.ret (.con0 _)
  · exact Run.from h0 (ih.lower l1 _ (by omega) hs)
  · exact Run.fail hp

theorem inner_step {n : Nat} (ih : PatSpec n) (l : Lexer) (hn : 8 * l.weight + 2 ≤ n + 1) :
    Run l (fun p ts _ => PatToks .inner p ts) (Parser.innerPat (n + 1) l) := by
  unfold Parser.innerPat
  refine Run.loc ?_
  refine Run.look fun t l1 h0 hs hp => ?_
  have hw := h0.weight
  split
  · exact Run.bump h0 hs (by simp) (by simp) fun l3 h3 => Run.ret (.inner .wild)
  · exact Run.from h0 ((ih.paren l1 (by omega) hs).mono fun _ _ _ _ h => .inner h)
  · exact Run.from h0 ((ih.brack l1 (by omega) hs).mono fun _ _ _ _ h => .inner h)
  · exact Run.from h0 ((ih.upper l1 _ (by omega) hs).mono fun _ _ _ _ h => .innerCon h)
  · exact Run.from h0 ((ih.lower l1 _ (by omega) hs).mono fun _ _ _ _ h => .inner h)
  · exact Run.bump h0 hs (by simp) (by simp) fun l3 h3 => Run.ret (.lit _)
  · refine Run.bump h0 hs (by simp) (by simp) fun l3 h3 => ?_
    have hw3 := h3.weight
    simp only [List.length_singleton] at hw3
    exact (ih.pattern l3 (by omega)).mono fun _ _ _ _ h => .minus h
  · exact Run.fail hp

theorem patSpec (n : Nat) : PatSpec n := by
  induction n with
  | zero => constructor <;> intros <;> omega
  | succ n ih =>
    exact ⟨pattern_step ih, inner_step ih, brack_step ih, paren_step ih, upper_step ih,
      lower_step ih, args_step ih, patTail_step ih, innerTail_step ih⟩

end Pemdas
