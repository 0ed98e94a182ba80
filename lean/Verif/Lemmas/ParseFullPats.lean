import Verif.Lemmas.ParseStream
import Verif.Lemmas.ParsePats
/-
Completeness of the pattern parsing functions and of fixity declarations.
-/
namespace Pemdas
open Lexer Parser
set_option linter.unusedSectionVars false

/-! ### splitting token lists with columns -/

theorem cols_cons {cts : List CTok} {t : Token} {ts : List Token} (h : cts.map (·.1) = t :: ts) :
    ∃ c cts', cts = (t, c) :: cts' ∧ cts'.map (·.1) = ts := by
  cases cts with
  | nil => cases h
  | cons x cts => cases h; exact ⟨x.2, cts, rfl, rfl⟩

theorem cols_append {cts : List CTok} {ts us : List Token} (h : cts.map (·.1) = ts ++ us) :
    ∃ a b, cts = a ++ b ∧ a.map (·.1) = ts ∧ b.map (·.1) = us := by
  induction ts generalizing cts with
  | nil => exact ⟨[], cts, rfl, rfl, h⟩
  | cons t ts ih =>
    obtain ⟨c, cts', rfl, h'⟩ := cols_cons (by simpa using h)
    obtain ⟨a, b, rfl, h1, h2⟩ := ih h'
    exact ⟨(t, c) :: a, b, rfl, by simp [h1], h2⟩

theorem cols_nil {cts : List CTok} (h : cts.map (·.1) = []) : cts = [] := by simpa using h

theorem cols_single {cts : List CTok} {t : Token} (h : cts.map (·.1) = [t]) :
    ∃ c, cts = [(t, c)] := by
  obtain ⟨c, cts', rfl, h'⟩ := cols_cons h
  exact ⟨c, by rw [cols_nil h']⟩

/-! ### first tokens of patterns -/

/-- Tokens that patterns start with. -/
def Token.startsPat : Token → Bool
  | .underscore | .parenL | .brackL | .upper _ | .lower _ => true
  | _ => false

/-- Tokens that patterns in collections start with. -/
def Token.startsInner : Token → Bool
  | .affix _ _ | .dash | .lit _ => true
  | t => t.startsPat

theorem PatToks.starts {c : PatCat} {p : Pat} {ts : List Token} (h : PatToks c p ts) :
    ∃ t ts', ts = t :: ts' ∧ t.startsInner = true ∧ (c = .pattern → t.startsPat = true) ∧
      (c = .con → ∃ s, t = .upper s) := by
  induction h with
  | firstCon _ ih | innerCon _ ih =>
    obtain ⟨t, ts', h1, h2, h3, h4⟩ := ih
    obtain ⟨s, rfl⟩ := h4 rfl
    exact ⟨_, ts', h1, h2, by simp, by simp⟩
  | first _ ih | inner _ ih =>
    obtain ⟨t, ts', h1, h2, h3, h4⟩ := ih
    exact ⟨t, ts', h1, h2, by simp, by simp⟩
  | conTup _ _ _ ih =>
    obtain ⟨t, ts', rfl, h2, h3, h4⟩ := ih
    rw [sepBy_cons]
    exact ⟨t, _, rfl, h2, by simp, fun _ => h4 rfl⟩
  | con => exact ⟨_, _, rfl, rfl, by simp, fun _ => ⟨_, rfl⟩⟩
  | _ => exact ⟨_, _, rfl, rfl, by simp [Token.startsPat], by simp⟩

variable [CharTables]

/-- The part of `parenPat` after the parenthesis. -/
def firstPat (n : Nat) (loc : Loc) : P Pat := do
  match ← P.peek with
  | .affix s _ => let _ ← P.bump; return .var s
  | .upper con => upperPat n con
  | .dash => let _ ← P.bump; let p ← pattern n; return .neg p
  | t => if beginsPat t true then pattern n else P.fail (.unexpected t loc)

/-- The part of `parenPat` after the first pattern. -/
def restPat (n : Nat) (pat : Pat) : P Pat := do
  if ← P.peekOn .comma then
    let ps ← innerTail n [pat]
    return .tup ps
  else return pat

theorem parenPat_eq (n : Nat) : parenPat (n + 1) = (do
    P.eat .parenL
    let loc ← P.loc
    let pat ← firstPat n loc
    let pat ← restPat n pat
    P.eat .parenR
    return pat) := rfl

/-- The part of `brackPat` between the brackets. -/
def midPat (n : Nat) : P Pat := do
  if ← P.bumpOn .brackR then return .arr []
  else
    let first ← innerPat n
    let ps ← innerTail n [first]
    return .arr ps

theorem brackPat_eq (n : Nat) : brackPat (n + 1) = (do
    P.eat .brackL
    let pat ← midPat n
    P.eat .brackR
    return pat) := rfl

/-- What the pattern functions do on the tokens `ts` of `p`. -/
def PatRun (c : PatCat) (p : Pat) (ts : List Token) : Prop :=
  ∀ (l : Lexer) (cts rest : List CTok), cts.map (·.1) = ts → Stream l (cts ++ rest) →
    nextTok rest ≠ .at_ →
    match c with
    | .pattern => ∀ n, Gives (pattern n l) p (Stream · rest)
    | .inner => ∀ n, Gives (innerPat n l) p (Stream · rest)
    | .first => ∀ n loc, Gives (firstPat n loc l) p (Stream · rest)
    | .con => True

variable [LawfulTables]

theorem innerTail_gives {xs : List (Pat × List Token)} (hx : ∀ x ∈ xs, PatRun .inner x.1 x.2)
    (n : Nat) (l : Lexer) (acc : List Pat) (cts rest : List CTok)
    (hc : cts.map (·.1) = (xs.map fun x => Token.comma :: x.2).flatten)
    (hs : Stream l (cts ++ rest)) (h1 : nextTok rest ≠ .comma) (h2 : nextTok rest ≠ .at_) :
    Gives (innerTail n acc l) (acc ++ xs.map (·.1)) (Stream · rest) := by
  induction xs generalizing n l acc cts with
  | nil =>
    have := cols_nil hc
    subst this
    cases n with
    | zero => exact .inl rfl
    | succ n =>
      unfold innerTail
      refine Gives.bind (Gives.bumpOn_false hs (Ne.symm h1)) ?_
      rintro l' ⟨h, _⟩
      simpa using Gives.ret h
  | cons x xs ih =>
    cases n with
    | zero => exact .inl rfl
    | succ n =>
      rw [List.map_cons, List.flatten_cons, List.cons_append] at hc
      obtain ⟨k, cts', rfl, hc'⟩ := cols_cons hc
      obtain ⟨a, b, rfl, ha, hb⟩ := cols_append hc'
      simp only [List.cons_append, List.append_assoc] at hs
      unfold innerTail
      refine Gives.bind (Gives.bumpOn_true (c := k) hs) ?_
      rintro l' ⟨h, _⟩
      simp only [if_true]
      have hnext : nextTok (b ++ rest) ≠ .at_ := by
        cases xs with
        | nil => rw [cols_nil hb]; exact h2
        | cons y ys =>
          rw [List.map_cons, List.flatten_cons, List.cons_append] at hb
          obtain ⟨k, b', rfl, _⟩ := cols_cons hb
          simp [nextTok]
      refine Gives.bind ((hx x (by simp)) l' a (b ++ rest) ha h hnext n) ?_
      intro l'' h
      have := ih (fun y hy => hx y (by simp [hy])) n l'' (acc ++ [x.1]) b hb h
      simpa using this

theorem inner_eq_pattern {l : Lexer} {ts : List CTok} (hs : Stream l ts)
    (h : (nextTok ts).startsPat = true) (hu : ∀ s, nextTok ts ≠ .upper s) (n : Nat) :
    innerPat n l = pattern n l := by
  cases n with
  | zero => rfl
  | succ n =>
    obtain ⟨l', h1, _⟩ := hs.peek
    unfold pattern innerPat
    show (P.peek >>= _) l = (P.peek >>= _) l
    rw [P.bind_ok h1, P.bind_ok h1]
    cases ht : nextTok ts <;> rw [ht] at h hu <;> first | exact absurd rfl (hu _) | rfl | cases h

theorem first_eq_pattern {l : Lexer} {ts : List CTok} (hs : Stream l ts)
    (h : (nextTok ts).startsPat = true) (hu : ∀ s, nextTok ts ≠ .upper s) (n : Nat) (loc : Loc) :
    ∃ l', Stream l' ts ∧ firstPat n loc l = pattern n l' := by
  obtain ⟨l', h1, h2, _⟩ := hs.peek
  refine ⟨l', h2, ?_⟩
  unfold firstPat
  rw [P.bind_ok h1]
  cases ht : nextTok ts <;> rw [ht] at h hu <;> first | exact absurd rfl (hu _) | rfl | cases h

theorem nextTok_append {cts rest : List CTok} {t : Token} {ts : List Token}
    (h : cts.map (·.1) = t :: ts) : nextTok (cts ++ rest) = t := by
  obtain ⟨c, cts', rfl, _⟩ := cols_cons h
  rfl

theorem PatToks.run {c : PatCat} {p : Pat} {ts : List Token} (h : PatToks c p ts)
    (hu : ∀ s, .upper s ∉ ts) : PatRun c p ts := by
  induction h with
  | wild =>
    intro l cts rest hc hs _ n
    obtain ⟨k, rfl⟩ := cols_single hc
    cases n with
    | zero => exact .inl rfl
    | succ n =>
      unfold Parser.pattern
      exact Gives.loc (Gives.look hs fun l' h1 h2 => Gives.bump h1 h2 fun _ h => Gives.ret h.1)
  | con0 s => exact absurd (by simp) (hu s)
  | var s =>
    intro l cts rest hc hs hr n
    obtain ⟨k, rfl⟩ := cols_single hc
    cases n with
    | zero => exact .inl rfl
    | succ n =>
      unfold Parser.pattern
      refine Gives.loc (Gives.look hs fun l' h1 h2 => ?_)
      show Gives (lowerPat n s l') _ _
      cases n with
      | zero => exact .inl rfl
      | succ n =>
        unfold lowerPat
        refine Gives.bump h1 h2 fun l2 h => ?_
        refine Gives.bind (Gives.bumpOn_false h.1 (Ne.symm hr)) ?_
        rintro l3 ⟨h3, _⟩
        exact Gives.ret h3
  | @as_ s p ts hp ih =>
    intro l cts rest hc hs hr n
    obtain ⟨k, cts1, rfl, hc1⟩ := cols_cons hc
    obtain ⟨k', cts2, rfl, hc2⟩ := cols_cons hc1
    cases n with
    | zero => exact .inl rfl
    | succ n =>
      unfold Parser.pattern
      refine Gives.loc (Gives.look hs fun l' h1 h2 => ?_)
      show Gives (lowerPat n s l') _ _
      cases n with
      | zero => exact .inl rfl
      | succ n =>
        unfold lowerPat
        refine Gives.bump h1 h2 fun l2 h => ?_
        refine Gives.bind (Gives.bumpOn_true h.1) ?_
        rintro l3 h3
        simp only [if_true]
        refine Gives.bind (ih (fun s h => hu s (by simp [h])) l3 cts2 rest hc2 h3.1 hr n) ?_
        intro l4 h4
        exact Gives.ret h4
  | firstOp s b =>
    intro l cts rest hc hs hr n loc
    obtain ⟨k, rfl⟩ := cols_single hc
    unfold firstPat
    refine Gives.look hs fun l' h1 h2 => ?_
    exact Gives.bump h1 h2 fun l2 h => Gives.ret h.1
  | @firstNeg p ts hp ih =>
    intro l cts rest hc hs hr n loc
    obtain ⟨k, cts1, rfl, hc1⟩ := cols_cons hc
    unfold firstPat
    refine Gives.look hs fun l' h1 h2 => ?_
    refine Gives.bump h1 h2 fun l2 h => ?_
    refine Gives.bind (ih (fun s h => hu s (by simp [h])) l2 cts1 rest hc1 h.1 hr n) ?_
    intro l4 h4
    exact Gives.ret h4
  | firstCon hp ih | innerCon hp ih =>
    obtain ⟨t, ts', rfl, _, _, h4⟩ := hp.starts
    obtain ⟨s, rfl⟩ := h4 rfl
    exact absurd (by simp) (hu s)
  | @first p ts hp ih =>
    intro l cts rest hc hs hr n loc
    obtain ⟨t, ts', rfl, _, h3, _⟩ := hp.starts
    obtain ⟨l', h1, h2⟩ := first_eq_pattern hs (by rw [nextTok_append hc]; exact h3 rfl)
      (by rw [nextTok_append hc]; rintro s rfl; exact hu s (by simp)) n loc
    rw [h2]
    exact ih hu l' cts rest hc h1 hr n
  | @inner p ts hp ih =>
    intro l cts rest hc hs hr n
    obtain ⟨t, ts', rfl, _, h3, _⟩ := hp.starts
    rw [inner_eq_pattern hs (by rw [nextTok_append hc]; exact h3 rfl)
      (by rw [nextTok_append hc]; rintro s rfl; exact hu s (by simp)) n]
    exact ih hu l cts rest hc hs hr n
  | lit x =>
    intro l cts rest hc hs hr n
    obtain ⟨k, rfl⟩ := cols_single hc
    cases n with
    | zero => exact .inl rfl
    | succ n =>
      unfold innerPat
      exact Gives.loc (Gives.look hs fun l' h1 h2 => Gives.bump h1 h2 fun _ h => Gives.ret h.1)
  | @minus p ts hp ih =>
    intro l cts rest hc hs hr n
    obtain ⟨k, cts1, rfl, hc1⟩ := cols_cons hc
    cases n with
    | zero => exact .inl rfl
    | succ n =>
      unfold innerPat
      refine Gives.loc (Gives.look hs fun l' h1 h2 => Gives.bump h1 h2 fun l2 h => ?_)
      exact ih (fun s h => hu s (by simp [h])) l2 cts1 rest hc1 h.1 hr n
  | @paren p ts hp ih =>
    intro l cts rest hc hs hr n
    obtain ⟨k, cts1, rfl, hc1⟩ := cols_cons hc
    obtain ⟨a, b, rfl, ha, hb⟩ := cols_append hc1
    obtain ⟨k', rfl⟩ := cols_single hb
    simp only [List.cons_append, List.append_assoc, List.nil_append] at hs
    cases n with
    | zero => exact .inl rfl
    | succ n =>
      unfold Parser.pattern
      refine Gives.loc (Gives.look hs fun l1 h1 _ => ?_)
      show Gives (parenPat n l1) _ _
      cases n with
      | zero => exact .inl rfl
      | succ n =>
        rw [parenPat_eq]
        refine Gives.bind (Gives.eat h1) fun l2 h2 => Gives.loc ?_
        have h2 := h2.1
        refine Gives.bind (ih (fun s h => hu s (by simp [h])) l2 a _ ha h2 (by simp [nextTok]) n _) ?_
        intro l3 h3
        refine Gives.bind (a := p) (Q := (Stream · ((.parenR, k') :: rest))) ?_ ?_
        · unfold restPat
          refine Gives.bind (Gives.peekOn _ h3) ?_
          rintro l4 ⟨h4, _⟩
          exact Gives.ret h4
        · intro l4 h4
          exact Gives.bind (Gives.eat h4) fun l5 h5 => Gives.ret h5.1
  | @tup p ts ps hp hne hall ih ihs =>
    intro l cts rest hc hs hr n
    rw [sepBy_cons] at hc hu
    obtain ⟨k, cts1, rfl, hc1⟩ := cols_cons hc
    obtain ⟨a, b, rfl, ha, hb⟩ := cols_append hc1
    obtain ⟨k', rfl⟩ := cols_single hb
    obtain ⟨a1, a2, rfl, ha1, ha2⟩ := cols_append ha
    have hcomma : ∃ j a3, a2 = (.comma, j) :: a3 := by
      cases ps with
      | nil => exact absurd rfl hne
      | cons x ps =>
        simp only [List.map_cons, List.flatten_cons, List.cons_append] at ha2
        obtain ⟨j, a3, rfl, _⟩ := cols_cons ha2
        exact ⟨j, a3, rfl⟩
    simp only [List.cons_append, List.append_assoc, List.nil_append] at hs
    cases n with
    | zero => exact .inl rfl
    | succ n =>
      unfold Parser.pattern
      refine Gives.loc (Gives.look hs fun l1 h1 _ => ?_)
      show Gives (parenPat n l1) _ _
      cases n with
      | zero => exact .inl rfl
      | succ n =>
        rw [parenPat_eq]
        refine Gives.bind (Gives.eat h1) fun l2 h2 => Gives.loc ?_
        have h2 := h2.1
        obtain ⟨j, a3, rfl⟩ := hcomma
        refine Gives.bind (ih (fun s h => hu s (by simp [h])) l2 a1 _ ha1 h2 (by simp [nextTok]) n _) ?_
        intro l3 h3
        refine Gives.bind (a := .tup (p :: ps.map (·.1))) (Q := (Stream · ((.parenR, k') :: rest))) ?_ ?_
        · unfold restPat
          refine Gives.bind (Gives.peekOn _ h3) ?_
          rintro l4 ⟨h4, _⟩
          simp only [nextTok, List.cons_append, decide_true, if_true]
          refine Gives.bind (innerTail_gives (xs := ps) (fun x hx => ihs x hx fun s h => hu s ?_)
            n l4 [p] _ _ ?_ h4 (by simp [nextTok]) (by simp [nextTok])) fun l5 h5 => Gives.ret h5
          · simp only [List.cons_append, List.mem_cons, List.mem_append, List.mem_flatten]
            exact .inr (.inl (.inr ⟨_, List.mem_map.2 ⟨_, List.mem_map.2 ⟨x, hx, rfl⟩, rfl⟩, by simp [h]⟩))
          · rw [ha2, List.map_map]; rfl
        · intro l4 h4
          exact Gives.bind (Gives.eat h4) fun l5 h5 => Gives.ret h5.1
  | arrNil =>
    intro l cts rest hc hs hr n
    obtain ⟨k1, cts1, rfl, hc1⟩ := cols_cons hc
    obtain ⟨k2, cts2, rfl, hc2⟩ := cols_cons hc1
    obtain ⟨k3, rfl⟩ := cols_single hc2
    cases n with
    | zero => exact .inl rfl
    | succ n =>
      unfold Parser.pattern
      refine Gives.loc (Gives.look hs fun l1 h1 _ => ?_)
      show Gives (brackPat n l1) _ _
      cases n with
      | zero => exact .inl rfl
      | succ n =>
        rw [brackPat_eq]
        refine Gives.bind (Gives.eat h1) fun l2 h2 => ?_
        refine Gives.bind (a := .arr []) (Q := (Stream · ((.brackR, k3) :: rest))) ?_ ?_
        · unfold midPat
          exact Gives.bind (Gives.bumpOn_true h2.1) fun l3 h3 => Gives.ret h3.1
        · intro l4 h4
          exact Gives.bind (Gives.eat h4) fun l5 h5 => Gives.ret h5.1
  | @arr ps hne hall ihs =>
    intro l cts rest hc hs hr n
    cases ps with
    | nil => exact absurd rfl hne
    | cons x ps =>
    rw [List.map_cons, sepBy_cons] at hc hu
    obtain ⟨k, cts1, rfl, hc1⟩ := cols_cons hc
    obtain ⟨a, b, rfl, ha, hb⟩ := cols_append hc1
    obtain ⟨k', rfl⟩ := cols_single hb
    obtain ⟨a1, a2, rfl, ha1, ha2⟩ := cols_append ha
    obtain ⟨t, ts', hxt, hst, _⟩ := (hall x (by simp)).starts
    simp only [List.cons_append, List.append_assoc, List.nil_append] at hs
    cases n with
    | zero => exact .inl rfl
    | succ n =>
      unfold Parser.pattern
      refine Gives.loc (Gives.look hs fun l1 h1 _ => ?_)
      show Gives (brackPat n l1) _ _
      cases n with
      | zero => exact .inl rfl
      | succ n =>
        rw [brackPat_eq]
        refine Gives.bind (Gives.eat h1) fun l2 h2 => ?_
        have h2 := h2.1
        refine Gives.bind (a := .arr ((x :: ps).map (·.1))) (Q := (Stream · ((.brackR, k') :: rest))) ?_ ?_
        · unfold midPat
          have hnb : Token.brackR ≠ nextTok (a1 ++ (a2 ++ ((Token.brackR, k') :: rest))) := by
            rw [nextTok_append (ha1.trans hxt)]
            rintro rfl; cases hst
          refine Gives.bind (Gives.bumpOn_false h2 hnb) ?_
          rintro l3 ⟨h3, _⟩
          simp only [Bool.false_eq_true, if_false]
          have hat : nextTok (a2 ++ ((Token.brackR, k') :: rest)) ≠ .at_ := by
            cases ps with
            | nil => rw [cols_nil ha2]; simp [nextTok]
            | cons y ps =>
              simp only [List.map_cons, List.flatten_cons, List.cons_append] at ha2
              rw [nextTok_append ha2]; simp
          refine Gives.bind (ihs x (by simp) (fun s h => hu s (by simp [h])) l3 a1 _ ha1 h3 hat n) ?_
          intro l4 h4
          refine Gives.bind (innerTail_gives (xs := ps) (fun y hy => ihs y (by simp [hy]) fun s h => hu s ?_)
            n l4 [x.1] a2 _ ?_ h4 (by simp [nextTok]) (by simp [nextTok])) fun l5 h5 => Gives.ret h5
          · simp only [List.cons_append, List.mem_cons, List.mem_append, List.mem_flatten]
            exact .inr (.inl (.inr ⟨_, List.mem_map.2 ⟨_, List.mem_map.2 ⟨y, hy, rfl⟩, rfl⟩, by simp [h]⟩))
          · rw [ha2, List.map_map]; rfl
        · intro l4 h4
          exact Gives.bind (Gives.eat h4) fun l5 h5 => Gives.ret h5.1
  | con | conTup => intro l cts rest hc hs hr; trivial

end Pemdas
