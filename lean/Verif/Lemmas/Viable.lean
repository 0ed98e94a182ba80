import Verif.Lemmas.ParseTop
import Verif.Lemmas.Join
import Verif.Lemmas.Local
/-
Where the parser fails at the end of the tokens, the tokens can be continued to something it
accepts.
-/
namespace Pemdas
open Lexer Parser
set_option linter.unusedSectionVars false
variable [CharTables] [LawfulTables]

/-- The tokens used to continue. -/
def fillers : List Token :=
  [.lower t!"x", .lit (.int 9), .affix t!"+" false, .underscore, .infixL, .in_, .arrow, .parenR,
   .brackR]

/-- The tokens can be continued with tokens at any columns such that `R` holds. -/
def Compl (R : List CTok → Prop) (ts : List CTok) : Prop :=
  ∃ vs : List Token, (∀ v ∈ vs, v ∈ fillers) ∧ ∀ cs : List CTok, cs.map (·.1) = vs → R (ts ++ cs)

/-- If the outcome is an error at the end of the tokens `ts`, they satisfy `V`. -/
def Dies {α : Type} (V : List CTok → Prop) (ts : List CTok) : PRes α → Prop
  | .err e _ => e.found = .eof → V ts
  | _ => True

omit [CharTables] [LawfulTables] in
theorem Compl.imp {R S : List CTok → Prop} {ts : List CTok} (h : Compl R ts)
    (hi : ∀ cs, R (ts ++ cs) → S (ts ++ cs)) : Compl S ts := by
  obtain ⟨vs, h1, h2⟩ := h
  exact ⟨vs, h1, fun cs hc => hi cs (h2 cs hc)⟩

omit [CharTables] [LawfulTables] in
/-- More tokens after those that continue. -/
theorem Compl.andThen {R S : List CTok → Prop} {ts : List CTok} (h : Compl R ts) (ws : List Token)
    (hw : ∀ w ∈ ws, w ∈ fillers)
    (hs : ∀ cs ds, R (ts ++ cs) → ds.map (·.1) = ws → S (ts ++ cs ++ ds)) : Compl S ts := by
  obtain ⟨vs, h1, h2⟩ := h
  refine ⟨vs ++ ws, ?_, fun cs hc => ?_⟩
  · intro v hv
    rcases List.mem_append.1 hv with hv | hv
    · exact h1 v hv
    · exact hw v hv
  · obtain ⟨as, bs, rfl, ha, hb⟩ := List.map_eq_append_iff.1 hc
    rw [← List.append_assoc]
    exact hs as bs (h2 as ha) hb

omit [CharTables] [LawfulTables] in
theorem Compl.filled {R : List CTok → Prop} {ts : List CTok} (h : Compl R ts) :
    Compl (fun us => R us ∧ ∀ x ∈ us, x ∈ ts ∨ x.1 ∈ fillers) ts := by
  obtain ⟨vs, h1, h2⟩ := h
  refine ⟨vs, h1, fun cs hc => ⟨h2 cs hc, fun x hx => ?_⟩⟩
  rcases List.mem_append.1 hx with hx | hx
  · exact .inl hx
  · exact .inr (h1 _ (by rw [← hc]; exact List.mem_map.2 ⟨x, hx, rfl⟩))

omit [CharTables] [LawfulTables] in
/-- Tokens before those that are continued. -/
theorem Compl.before {S : List CTok → Prop} {us ts : List CTok}
    (h : Compl (fun r => S (us ++ r)) ts) : Compl S (us ++ ts) := by
  obtain ⟨vs, h1, h2⟩ := h
  exact ⟨vs, h1, fun cs hc => by rw [List.append_assoc]; exact h2 cs hc⟩

omit [CharTables] [LawfulTables] in
theorem Compl.now {S : List CTok → Prop} {ts : List CTok} (vs : List Token)
    (hv : ∀ v ∈ vs, v ∈ fillers) (h : ∀ cs : List CTok, cs.map (·.1) = vs → S (ts ++ cs)) :
    Compl S ts := ⟨vs, hv, h⟩

theorem Dies.bind {α β : Type} {ts : List CTok} {Q : α → List CTok → List CTok → Lexer → Prop}
    {V : List CTok → Prop} {m : P α} {f : α → P β} {l : Lexer}
    (hs : Sees ts Q (m l)) (hm : Dies V ts (m l))
    (hf : ∀ a us rest l1, ts = us ++ rest → Strm l1 rest → Q a us rest l1 →
      Dies (fun r => V (us ++ r)) rest (f a l1)) :
    Dies V ts ((m >>= f) l) := by
  show Dies V ts (P.bind m f l)
  unfold P.bind
  cases hr : m l with
  | ok a l1 =>
    rw [hr] at hs
    obtain ⟨us, rest, h1, h2, h3⟩ := hs
    have := hf a us rest l1 h1 h2 h3
    simp only
    cases hr' : f a l1 with
    | err e l2 =>
      rw [hr'] at this
      intro he
      rw [h1]
      exact this he
    | _ => trivial
  | err e l1 => rw [hr] at hm; exact hm
  | _ => trivial

omit [CharTables] [LawfulTables] in
theorem Dies.ret {α : Type} {ts : List CTok} {V : List CTok → Prop} {a : α} {l : Lexer} :
    Dies V ts ((pure a : P α) l) := trivial

omit [CharTables] [LawfulTables] in
theorem Dies.mono {α : Type} {ts : List CTok} {V W : List CTok → Prop} {r : PRes α}
    (h : Dies V ts r) (hv : V ts → W ts) : Dies W ts r := by
  cases r with
  | err e l => exact fun he => hv (h he)
  | _ => trivial

omit [CharTables] [LawfulTables] in
theorem Dies.loc {β : Type} {ts : List CTok} {V : List CTok → Prop} {f : Loc → P β} {l : Lexer}
    (h : Dies V ts (f l.currLoc l)) : Dies V ts ((P.loc >>= f) l) := h

theorem Dies.fail {α : Type} {ts : List CTok} {V : List CTok → Prop} {e : ParseError} {l : Lexer}
    (hs : Strm l ts) (he : e.found = nextTok ts) (h : ts = [] → V []) :
    Dies V ts ((P.fail e : P α) l) := by
  intro hf
  cases ts with
  | nil => exact h rfl
  | cons x ts => rw [hf] at he; exact absurd he.symm hs.1.1

theorem Dies.look {β : Type} {ts : List CTok} {V : List CTok → Prop} {f : Token → P β} {l : Lexer}
    (h : Strm l ts) (hf : ∀ l', Strm l' ts → Ready l' ts → Dies V ts (f (nextTok ts) l')) :
    Dies V ts ((P.peek >>= f) l) := by
  obtain ⟨l', h1, h2, h3⟩ := h.peek
  rw [P.bind_ok h1]
  exact hf l' h2 h3

theorem Dies.bump {β : Type} {t : Token} {c : Nat} {ts : List CTok} {V : List CTok → Prop}
    {f : Token → P β} {l : Lexer} (h : Strm l ((t, c) :: ts)) (hr : Ready l ((t, c) :: ts))
    (hf : ∀ l', Strm l' ts → l'.col = c → Dies (fun r => V ((t, c) :: r)) ts (f t l'))
    (hx : ∀ er, t ≠ .error er := by intro _ h; cases h) :
    Dies V ((t, c) :: ts) ((P.bump >>= f) l) := by
  rw [P.bump_bind hr.1]
  exact hf _ (h.suffix (us := [(t, c)]) (h.1.bump hr hx) (by simp)) hr.2

theorem Dies.peekOn {ts : List CTok} {V : List CTok → Prop} {l : Lexer} (t : Token)
    (h : Strm l ts) : Dies V ts (P.peekOn t l) := by
  unfold P.peekOn
  exact Dies.look h fun l' h1 h2 => Dies.ret

theorem Dies.isDone {ts : List CTok} {V : List CTok → Prop} {l : Lexer}
    (h : Strm l ts) : Dies V ts (P.isDone l) := by
  unfold P.isDone
  exact Dies.look h fun l' h1 h2 => Dies.ret

theorem Dies.bumpOn {ts : List CTok} {V : List CTok → Prop} {l : Lexer} {t : Token}
    (hne : t ≠ .eof) (h : Strm l ts) (hx : ∀ er, t ≠ .error er := by intro _ h; cases h) :
    Dies V ts (P.bumpOn t l) := by
  unfold P.bumpOn
  refine Dies.bind (Sees.peekOn t h) (Dies.peekOn t h) ?_
  rintro b us rest l1 rfl h1 ⟨rfl, hr, rfl⟩
  by_cases ht : t = nextTok rest
  · obtain ⟨c, ts', rfl⟩ := nextTok_cons ht.symm hne
    simp only [nextTok, decide_true, if_true]
    exact Dies.bump h1 hr (fun l2 h2 hc => Dies.ret) hx
  · simp only [ht, decide_false, if_false, Bool.false_eq_true]
    exact Dies.ret

theorem Dies.eat {ts : List CTok} {V : List CTok → Prop} {l : Lexer} {t : Token}
    (hne : t ≠ .eof) (h : Strm l ts) (hv : ts = [] → V []) (hx : ∀ er, t ≠ .error er := by intro _ h; cases h) :
    Dies V ts (P.eat t l) := by
  unfold P.eat
  refine Dies.loc (Dies.look h fun l1 h1 hr => ?_)
  by_cases ht : nextTok ts = t
  · rw [if_pos ht]
    obtain ⟨c, ts', rfl⟩ := nextTok_cons ht hne
    exact Dies.bump h1 hr (fun l2 h2 hc => Dies.ret) hx
  · rw [if_neg ht]
    exact Dies.fail h1 rfl hv

theorem infixOp_dies {ts : List CTok} {V : List CTok → Prop} {l : Lexer} (h : Strm l ts)
    (hv : ts = [] → V []) : Dies V ts (infixOp l) := by
  unfold infixOp
  refine Dies.loc (Dies.look h fun l1 h1 hr => ?_)
  have key : ∀ t (op : Infix), nextTok ts = t → t ≠ .eof ∧ (∀ er, t ≠ .error er) →
      Dies V ts ((P.bump >>= fun _ => (pure op : P Infix)) l1) := by
    intro t op ht hne
    obtain ⟨c, ts', rfl⟩ := nextTok_cons ht hne.1
    exact Dies.bump h1 hr (fun l2 h2 hc => Dies.ret) hne.2
  cases ht : nextTok ts with
  | dash => exact key _ _ ht (by simp)
  | at_ => exact key _ _ ht (by simp)
  | affix s b => exact key _ _ ht (by simp)
  | _ => exact Dies.fail h1 ht.symm hv

theorem tryInfix_dies {ts : List CTok} {V : List CTok → Prop} {l : Lexer} :
    Dies V ts (tryInfix l) := by
  unfold tryInfix
  split <;> trivial

theorem Dies.fuel {α : Type} {m : Nat → P α} {l : Lexer} {ts : List CTok} {V : List CTok → Prop}
    (hb : ∀ n, P.Below (m n) (m (n + 1))) {n k : Nat} (hk : n ≤ k) (h : Dies V ts (m k l)) :
    Dies V ts (m n l) := by
  by_cases hn : m n l = .fuel
  · rw [hn]; trivial
  · rwa [same_of_below hb hn hk] at h

/-! ### fixity declarations -/

theorem fixityAssoc_dies {ts : List CTok} {V : List CTok → Prop} {l : Lexer} (h : Strm l ts)
    (hv : ts = [] → V []) : Dies V ts (fixityAssoc l) := by
  unfold fixityAssoc
  refine Dies.loc (Dies.look h fun l1 h1 hr => ?_)
  have key : ∀ t (a : Assoc), nextTok ts = t → t ≠ .eof ∧ (∀ er, t ≠ .error er) →
      Dies V ts ((P.bump >>= fun _ => (pure a : P Assoc)) l1) := by
    intro t op ht hne
    obtain ⟨c, ts', rfl⟩ := nextTok_cons ht hne.1
    exact Dies.bump h1 hr (fun l2 h2 hc => Dies.ret) hne.2
  cases ht : nextTok ts with
  | infixL => exact key _ _ ht (by simp)
  | infixR => exact key _ _ ht (by simp)
  | infix_ => exact key _ _ ht (by simp)
  | _ => exact Dies.fail h1 ht.symm hv

theorem fixityPrec_dies {ts : List CTok} {V : List CTok → Prop} {l : Lexer} (h : Strm l ts)
    (hv : ts = [] → V []) : Dies V ts (fixityPrec l) := by
  unfold fixityPrec
  refine Dies.loc (Dies.look h fun l1 h1 hr => ?_)
  cases ht : nextTok ts with
  | lit x =>
    cases x with
    | int p =>
      obtain ⟨c, ts', rfl⟩ := nextTok_cons ht (by simp)
      refine Dies.bump h1 hr fun l2 h2 hc => ?_
      split
      · exact Dies.ret
      · trivial
    | _ => exact Dies.fail h1 ht.symm hv
  | affix s b => exact Dies.ret
  | _ => exact Dies.fail h1 ht.symm hv

/-- A comma and an operator, any number of times. -/
def OpTail (us : List CTok) : Prop :=
  ∃ xs : List (Infix × Token), (∀ x ∈ xs, OpTok x.1 x.2) ∧
    us.map (·.1) = (xs.map fun x => [Token.comma, x.2]).flatten

theorem infixLoop_dies (n : Nat) {l : Lexer} {ts : List CTok} (h : Strm l ts) (ops : List Infix) :
    Dies (Compl OpTail) ts (infixLoop n ops l) := by
  induction n generalizing l ts ops with
  | zero => trivial
  | succ n ih =>
    unfold infixLoop
    refine Dies.bind (Sees.bumpOn (by simp) h) (Dies.bumpOn (by simp) h) ?_
    rintro b us rest l1 rfl h1 (⟨rfl, c, rfl, hc⟩ | ⟨rfl, rfl, _, hr⟩)
    · simp only [if_true]
      refine Dies.bind (infixOp_sees h1) (infixOp_dies h1 ?_) ?_
      · rintro rfl
        refine Compl.now [.affix t!"+" false] (by decide) fun cs hc => ?_
        exact ⟨[(.standard t!"+", .affix t!"+" false)], by simp [OpTok.standard], by simp [hc]⟩
      rintro op us rest l2 rfl h2 ⟨t, k, ho, rfl⟩
      refine Dies.mono (ih h2 _) fun hc => ?_
      rw [← List.append_assoc]
      refine Compl.before (hc.imp ?_)
      rintro cs ⟨xs, h3, h4⟩
      exact ⟨(op, t) :: xs, by simpa [ho] using h3, by simp [← h4]⟩
    · simp only [if_false, Bool.false_eq_true]
      exact Dies.ret

/-- The tokens of a fixity declaration. -/
def DeclDone (us : List CTok) : Prop := ∃ d, DeclWritten d (us.map (·.1))

theorem infixDecl_dies (n : Nat) {l : Lexer} {ts : List CTok} (h : Strm l ts) :
    Dies (Compl DeclDone) ts (infixDecl n l) := by
  have split : ∀ (op : Infix) (t : Token) (xs : List (Infix × Token)),
      sepBy .comma (((op, t) :: xs).map fun x => [x.2]) =
        t :: (xs.map fun x => [Token.comma, x.2]).flatten := by
    intro op t xs
    obtain ⟨x, xs', h1, h2⟩ := opsToks_split (ops := (op, t) :: xs) (by simp)
    cases h1
    exact h2
  have full : ∀ (a : Assoc) (p : Nat) (xs : List (Infix × Token)), p ≤ 9 → xs ≠ [] →
      (∀ x ∈ xs, OpTok x.1 x.2) → ∃ d, DeclWritten d
        (a.kwTok :: .lit (.int p) :: sepBy .comma (xs.map fun x => [x.2])) :=
    fun a p xs hp hne hx => ⟨_, .withPrec hp hne hx, by simp, by simp⟩
  have hplus : ∀ x ∈ [((.standard t!"+" : Infix), (.affix t!"+" false : Token))], OpTok x.1 x.2 := by
    simp [OpTok.standard]
  unfold infixDecl fixity
  have hsees : Sees ts (fun fx us rest _ => ∃ k, (∃ k', us = [(fx.assoc.kwTok, k),
    (.lit (.int fx.prec), k')] ∧ fx.prec ≤ 9) ∨ (fx.prec = 9 ∧ us = [(fx.assoc.kwTok, k)] ∧
      nextTok rest ≠ .dash ∧ nextTok rest ≠ .at_ ∧ rest ≠ [])) (fixity l) := by
    unfold fixity
    refine Sees.bind (fixityAssoc_sees h) ?_
    rintro a us rest l1 rfl h1 ⟨k, rfl⟩
    have hne : Sees rest (fun p us rest _ => us = [] → rest ≠ []) (fixityPrec l1) := by
      unfold fixityPrec
      refine Sees.loc (Sees.look h1 fun l2 h2 hr => ?_)
      cases ht : nextTok rest with
      | lit x =>
        cases x with
        | int p =>
          obtain ⟨c, ts', rfl⟩ := nextTok_cons ht (by simp)
          refine Sees.bump h2 hr fun l2 h2 hc => ?_
          by_cases hp : p ≤ precMax
          · rw [if_pos hp]
            exact Sees.ret h2 (by simp)
          · rw [if_neg hp]; trivial
        | _ => exact Sees.fail
      | affix s b => exact Sees.ret h2 fun _ h => by rw [h] at ht; cases ht
      | _ => exact Sees.fail
    have hboth : Sees rest (fun p us rest _ => ((p ≤ 9 ∧ ∃ k, us = [(.lit (.int p), k)]) ∨
      (p = 9 ∧ us = [] ∧ nextTok rest ≠ .dash ∧ nextTok rest ≠ .at_)) ∧ (us = [] → rest ≠ []))
        (fixityPrec l1) := by
      have hp := fixityPrec_sees h1
      cases hx : fixityPrec l1 with
      | ok a l2 =>
        rw [hx] at hp hne
        obtain ⟨us, r, h3, h4, h5⟩ := hp
        obtain ⟨us', r', h3', h4', h5'⟩ := hne
        rcases h5 with h5 | h5
        · refine ⟨us, r, h3, h4, .inl h5, ?_⟩
          rintro rfl
          obtain ⟨_, k, h⟩ := h5; cases h
        · refine ⟨us, r, h3, h4, .inr h5, ?_⟩
          rintro rfl hr
          subst hr
          simp only [List.append_nil] at h3
          subst h3
          obtain ⟨h6, h7⟩ := List.append_eq_nil_iff.1 h3'.symm
          exact h5' h6 h7
      | _ => trivial
    refine Sees.bind hboth ?_
    rintro p us rest l2 rfl h2 ⟨⟨hp, k', rfl⟩ | ⟨rfl, rfl, h3, h4⟩, h5⟩
    · exact Sees.ret h2 ⟨k, .inl ⟨k', rfl, hp⟩⟩
    · exact Sees.ret h2 ⟨k, .inr ⟨rfl, rfl, h3, h4, h5 rfl⟩⟩
  refine Dies.bind hsees ?_ ?_
  · refine Dies.bind (fixityAssoc_sees h) (fixityAssoc_dies h ?_) ?_
    · rintro rfl
      refine Compl.now [.infixL, .lit (.int 9), .affix t!"+" false] (by decide) fun cs hc => ?_
      rw [List.nil_append]
      unfold DeclDone
      rw [hc]
      exact full .left 9 _ (by simp) (by simp) hplus
    rintro a us rest l1 rfl h1 ⟨k, rfl⟩
    refine Dies.bind (fixityPrec_sees h1) (fixityPrec_dies h1 ?_) fun _ _ _ _ _ _ _ => Dies.ret
    rintro rfl
    refine Compl.now [.lit (.int 9), .affix t!"+" false] (by decide) fun cs hc => ?_
    unfold DeclDone
    rw [List.map_append, hc]
    exact full a 9 _ (by simp) (by simp) hplus
  · rintro ⟨p, a⟩ us rest l1 rfl h1 ⟨k, hk⟩
    refine Dies.bind (infixOp_sees h1) (infixOp_dies h1 ?_) ?_
    · rintro rfl
      rcases hk with ⟨k', rfl, hp⟩ | ⟨_, _, _, _, h⟩
      · refine Compl.now [.affix t!"+" false] (by decide) fun cs hc => ?_
        unfold DeclDone
        rw [List.map_append, hc]
        exact full a p _ hp (by simp) hplus
      · exact absurd rfl h
    rintro op us' rest' l2 rfl h2 ⟨t, k2, ho, rfl⟩
    refine Dies.bind (infixLoop_sees n h2 _) (Dies.mono (infixLoop_dies n h2 _) fun hc => ?_)
      fun _ _ _ _ _ _ _ => Dies.ret
    rw [← List.append_assoc]
    refine Compl.before (hc.imp ?_)
    rintro cs ⟨xs, hx, h4⟩
    have hall : ∀ x ∈ (op, t) :: xs, OpTok x.1 x.2 := by
      intro x hx'
      rcases List.mem_cons.1 hx' with rfl | hx'
      · exact ho
      · exact hx x hx'
    unfold DeclDone
    rcases hk with ⟨k', rfl, hp⟩ | ⟨hp, rfl, h5, h6, _⟩
    · have := full a p ((op, t) :: xs) hp (by simp) hall
      rw [split, ← h4] at this
      simpa using this
    · have := DeclToks.noPrec (a := a) (ops := (op, t) :: xs) (by simp) hall
      rw [split] at this
      refine ⟨⟨(op :: xs.map (·.1)), ⟨9, a⟩⟩, ?_, ?_, ?_⟩
      · rw [← h4] at this
        simpa using this
      · simpa [nextTok] using h5
      · simpa [nextTok] using h6

/-! ### patterns -/

/-- The tokens of a pattern of some kind. -/
def PatDone (c : PatCat) (us : List CTok) : Prop := ∃ p, PatToks c p (us.map (·.1))

/-- A comma and a pattern, any number of times. -/
def PatTail (us : List CTok) : Prop := ∃ ps ps', PatSeq .inner [.comma] ps ps' (us.map (·.1))

theorem pattern_sees' (n : Nat) {l : Lexer} {ts : List CTok} (h : Strm l ts) :
    Sees ts (fun p us _ _ => PatToks .pattern p (us.map (·.1))) (Parser.pattern n l) :=
  Sees.mono (pattern_sees n h) fun _ _ _ _ _ h => h.1

theorem innerPat_sees (n : Nat) {l : Lexer} {ts : List CTok} (h : Strm l ts) :
    Sees ts (fun p us _ _ => PatToks .inner p (us.map (·.1))) (Parser.innerPat n l) := by
  refine Sees.fuel (k := max n (8 * l.weight + 2)) (fun n => (patBelow n).innerPat) (by omega) ?_
  exact Run.sees ((patSpec _).inner l (by omega)) h

theorem innerTail_sees (n : Nat) {l : Lexer} {ts : List CTok} (h : Strm l ts) (ps : List Pat) :
    Sees ts (fun ps' us _ _ => PatSeq .inner [.comma] ps ps' (us.map (·.1)))
      (Parser.innerTail n ps l) := by
  refine Sees.fuel (m := fun n => Parser.innerTail n ps) (k := max n (8 * l.weight + 1))
    (fun n => (patBelow n).innerTail ps) (by omega) ?_
  exact Sees.mono (Run.sees ((patSpec _).innerTail l ps (by omega)) h) fun _ _ _ _ _ h => h.1

/-- What happens when the pattern functions fail at the end of the tokens. -/
structure PatDies (n : Nat) : Prop where
  pattern : ∀ l ts, Strm l ts → Dies (Compl (PatDone .pattern)) ts (Parser.pattern n l)
  innerPat : ∀ l ts, Strm l ts → Dies (Compl (PatDone .inner)) ts (Parser.innerPat n l)
  brackPat : ∀ l ts, Strm l ts → nextTok ts = .brackL →
    Dies (Compl (PatDone .pattern)) ts (Parser.brackPat n l)
  lowerPat : ∀ l s c ts, Strm l ((.lower s, c) :: ts) → Ready l ((.lower s, c) :: ts) →
    Dies (Compl (PatDone .pattern)) ((.lower s, c) :: ts) (Parser.lowerPat n s l)
  parenPat : ∀ l ts, Strm l ts → nextTok ts = .parenL →
    Dies (Compl (PatDone .pattern)) ts (Parser.parenPat n l)
  innerTail : ∀ l ts ps, Strm l ts → Dies (Compl PatTail) ts (Parser.innerTail n ps l)

theorem Strm.not_upper {l : Lexer} {ts : List CTok} (h : Strm l ts) {s : Symbol}
    (ht : nextTok ts = .upper s) : False := by
  obtain ⟨c, ts', rfl⟩ := nextTok_cons ht (by simp)
  exact h.2.1 s c (by simp)

theorem patDone_wild {V : List CTok → Prop} {us : List CTok} {vs : List Token}
    (hv : ∀ v ∈ vs, v ∈ fillers)
    (h : ∀ cs ds : List CTok, PatDone .pattern cs → ds.map (·.1) = vs → V (us ++ cs ++ ds)) :
    Compl V us := by
  refine Compl.now (.underscore :: vs) ?_ fun cs hc => ?_
  · intro v hm
    rcases List.mem_cons.1 hm with rfl | hm
    · decide
    · exact hv v hm
  · obtain ⟨x, ds, rfl, hx, hd⟩ := List.map_eq_cons_iff.1 hc
    have := h [x] ds ⟨.wild, by simp only [List.map_cons, hx, List.map_nil]; exact .wild⟩ hd
    simpa using this

theorem pattern_dies {n : Nat} (ih : PatDies n) (l : Lexer) (ts : List CTok) (h : Strm l ts) :
    Dies (Compl (PatDone .pattern)) ts (Parser.pattern (n + 1) l) := by
  unfold Parser.pattern
  refine Dies.loc (Dies.look h fun l1 h1 hr => ?_)
  have one : ∀ t (p : Pat), nextTok ts = t → t ≠ .eof ∧ (∀ er, t ≠ .error er) →
      Dies (Compl (PatDone .pattern)) ts ((P.bump >>= fun _ => (pure p : P Pat)) l1) := by
    intro t op ht hne
    obtain ⟨c, ts', rfl⟩ := nextTok_cons ht hne.1
    exact Dies.bump h1 hr (fun l2 h2 hc => Dies.ret) hne.2
  cases ht : nextTok ts with
  | underscore => exact one _ _ ht (by simp)
  | parenL => exact ih.parenPat l1 ts h1 ht
  | brackL => exact ih.brackPat l1 ts h1 ht
  | upper s => exact (h.not_upper ht).elim
  | lower s =>
    obtain ⟨c, ts', rfl⟩ := nextTok_cons ht (by simp)
    exact ih.lowerPat l1 s c ts' h1 hr
  | _ =>
    refine Dies.fail h1 ht.symm ?_
    rintro rfl
    exact patDone_wild (vs := []) (by simp) fun cs ds h hd => by
      rw [List.map_eq_nil_iff.1 hd]; simpa using h

theorem innerPat_dies {n : Nat} (ih : PatDies n) (l : Lexer) (ts : List CTok) (h : Strm l ts) :
    Dies (Compl (PatDone .inner)) ts (Parser.innerPat (n + 1) l) := by
  unfold Parser.innerPat
  refine Dies.loc (Dies.look h fun l1 h1 hr => ?_)
  have one : ∀ t (p : Pat), nextTok ts = t → t ≠ .eof ∧ (∀ er, t ≠ .error er) →
      Dies (Compl (PatDone .inner)) ts ((P.bump >>= fun _ => (pure p : P Pat)) l1) := by
    intro t op ht hne
    obtain ⟨c, ts', rfl⟩ := nextTok_cons ht hne.1
    exact Dies.bump h1 hr (fun l2 h2 hc => Dies.ret) hne.2
  have up : ∀ ts, Compl (PatDone .pattern) ts → Compl (PatDone .inner) ts := fun ts hc =>
    hc.imp fun cs ⟨p, hp⟩ => ⟨p, .inner hp⟩
  cases ht : nextTok ts with
  | underscore => exact one _ _ ht (by simp)
  | lit x => exact one _ _ ht (by simp)
  | parenL => exact Dies.mono (ih.parenPat l1 ts h1 ht) (up _)
  | brackL => exact Dies.mono (ih.brackPat l1 ts h1 ht) (up _)
  | upper s => exact (h.not_upper ht).elim
  | lower s =>
    obtain ⟨c, ts', rfl⟩ := nextTok_cons ht (by simp)
    exact Dies.mono (ih.lowerPat l1 s c ts' h1 hr) (up _)
  | dash =>
    obtain ⟨c, ts', rfl⟩ := nextTok_cons ht (by simp)
    refine Dies.bump h1 hr fun l2 h2 hc => ?_
    refine Dies.mono (ih.pattern l2 ts' h2) fun hc => ?_
    exact Compl.before (us := [(Token.dash, c)]) (hc.imp fun cs ⟨p, hp⟩ => ⟨p, by
      simpa using PatToks.minus hp⟩)
  | _ =>
    refine Dies.fail h1 ht.symm ?_
    rintro rfl
    exact patDone_wild (vs := []) (by simp) fun cs ds ⟨p, h⟩ hd => by
      rw [List.map_eq_nil_iff.1 hd]; exact ⟨p, by simpa using PatToks.inner h⟩

theorem lowerPat_dies {n : Nat} (ih : PatDies n) (l : Lexer) (s : Symbol) (c : Nat)
    (ts : List CTok) (h : Strm l ((.lower s, c) :: ts)) (hr : Ready l ((.lower s, c) :: ts)) :
    Dies (Compl (PatDone .pattern)) ((.lower s, c) :: ts) (Parser.lowerPat (n + 1) s l) := by
  unfold Parser.lowerPat
  refine Dies.bump h hr fun l1 h1 hc => ?_
  refine Dies.bind (Sees.bumpOn (by simp) h1) (Dies.bumpOn (by simp) h1) ?_
  rintro b us rest l2 rfl h2 (⟨rfl, k, rfl, hc⟩ | ⟨rfl, rfl, _, hr⟩)
  · simp only [if_true]
    refine Dies.bind (pattern_sees' n h2) (Dies.mono (ih.pattern l2 rest h2) fun hc => ?_)
      fun _ _ _ _ _ _ _ => Dies.ret
    refine Compl.before (us := [(Token.lower s, c), (Token.at_, k)]) (hc.imp ?_)
    rintro cs ⟨p, hp⟩
    exact ⟨_, by simpa using PatToks.as_ s hp⟩
  · simp only [if_false, Bool.false_eq_true]
    exact Dies.ret

theorem innerTail_dies {n : Nat} (ih : PatDies n) (l : Lexer) (ts : List CTok) (ps : List Pat)
    (h : Strm l ts) : Dies (Compl PatTail) ts (Parser.innerTail (n + 1) ps l) := by
  unfold Parser.innerTail
  refine Dies.bind (Sees.bumpOn (by simp) h) (Dies.bumpOn (by simp) h) ?_
  rintro b us rest l2 rfl h2 (⟨rfl, k, rfl, hc⟩ | ⟨rfl, rfl, _, hr⟩)
  · simp only [if_true]
    refine Dies.bind (innerPat_sees n h2) (Dies.mono (ih.innerPat l2 rest h2) fun hc => ?_) ?_
    · refine Compl.before (hc.imp ?_)
      rintro cs ⟨p, hp⟩
      exact ⟨[], _, by simpa using PatSeq.cons hp (.nil (sep := [.comma]))⟩
    rintro p us rest l3 rfl h3 hp
    refine Dies.mono (ih.innerTail l3 rest _ h3) fun hc => ?_
    rw [← List.append_assoc]
    refine Compl.before (hc.imp ?_)
    rintro cs ⟨ps, ps', xs, h1, rfl, h3⟩
    exact ⟨[], _, (p, us.map (·.1)) :: xs, by simpa [hp] using h1, rfl, by simp [h3]⟩
  · simp only [if_false, Bool.false_eq_true]
    exact Dies.ret

omit [CharTables] [LawfulTables] in
theorem PatTail.cons {us : List CTok} (h : PatTail us) : ∃ xs : List (Pat × List Token),
    (∀ x ∈ xs, PatToks .inner x.1 x.2) ∧
      us.map (·.1) = ((xs.map (·.2)).map (Token.comma :: ·)).flatten := by
  obtain ⟨_, _, xs, h1, _, h2⟩ := h
  exact ⟨xs, h1, by rw [h2]; simp [Function.comp_def]⟩

omit [CharTables] [LawfulTables] in
/-- A first pattern, others and the closing parenthesis. -/
theorem patDone_paren {k : Nat} {us vs ds : List CTok} {p : Pat} (hp : PatToks .first p (us.map (·.1)))
    (ht : PatTail vs) (hd : ds.map (·.1) = [.parenR]) :
    PatDone .pattern ([(Token.parenL, k)] ++ us ++ vs ++ ds) := by
  obtain ⟨xs, h1, h2⟩ := ht.cons
  unfold PatDone
  simp only [List.map_append, List.map_cons, List.map_nil, hd, h2]
  cases xs with
  | nil => exact ⟨_, by simpa using PatToks.paren hp⟩
  | cons x xs =>
    have := PatToks.tup hp (by simp) h1
    rw [sepBy_cons] at this
    exact ⟨_, by simpa using this⟩

omit [CharTables] [LawfulTables] in
/-- A first pattern, others and the closing bracket. -/
theorem patDone_brack {k : Nat} {us vs ds : List CTok} {p : Pat} (hp : PatToks .inner p (us.map (·.1)))
    (ht : PatTail vs) (hd : ds.map (·.1) = [.brackR]) :
    PatDone .pattern ([(Token.brackL, k)] ++ us ++ vs ++ ds) := by
  obtain ⟨xs, h1, h2⟩ := ht.cons
  unfold PatDone
  simp only [List.map_append, List.map_cons, List.map_nil, hd, h2]
  have := PatToks.arr (ps := (p, us.map (·.1)) :: xs) (by simp) (by simpa [hp] using h1)
  rw [List.map_cons, List.map_cons, sepBy_cons] at this
  exact ⟨_, by simpa using this⟩

omit [CharTables] [LawfulTables] in
theorem PatTail.nil : PatTail [] := ⟨[], [], .nil⟩

theorem brackPat_dies {n : Nat} (ih : PatDies n) (l : Lexer) (ts : List CTok) (h : Strm l ts)
    (ht : nextTok ts = .brackL) :
    Dies (Compl (PatDone .pattern)) ts (Parser.brackPat (n + 1) l) := by
  unfold Parser.brackPat
  refine Dies.bind (Sees.eat (by simp) h) (Dies.eat (by simp) h (by rintro rfl; cases ht)) ?_
  rintro _ us ts l1 rfl h1 ⟨k, rfl, _⟩
  refine Dies.bind (Q := fun _ us rest _ => (∃ p vs ws, us = vs ++ ws ∧
    PatToks .inner p (vs.map (·.1)) ∧ PatTail ws) ∨ ∃ k', us = [(.brackR, k')]) ?_ ?_ ?_
  · refine Sees.bind (Sees.bumpOn (by simp) h1) ?_
    rintro b us rest l2 rfl h2 (⟨rfl, k, rfl, hc⟩ | ⟨rfl, rfl, _, hr⟩)
    · exact Sees.ret h2 (.inr ⟨k, rfl⟩)
    · simp only [if_false, Bool.false_eq_true]
      refine Sees.bind (innerPat_sees n h2) ?_
      rintro p us rest l3 rfl h3 hp
      refine Sees.bind (innerTail_sees n h3 _) ?_
      rintro ps us' rest l4 rfl h4 hps
      exact Sees.ret h4 (.inl ⟨p, us, us', by simp, hp, _, _, hps⟩)
  · refine Dies.bind (Sees.bumpOn (by simp) h1) (Dies.bumpOn (by simp) h1) ?_
    rintro b us rest l2 rfl h2 (⟨rfl, k, rfl, hc⟩ | ⟨rfl, rfl, _, hr⟩)
    · exact Dies.ret
    · simp only [if_false, Bool.false_eq_true]
      refine Dies.bind (innerPat_sees n h2) (Dies.mono (ih.innerPat l2 rest h2) fun hc => ?_) ?_
      · refine Compl.before (hc.andThen [.brackR] (by decide) ?_)
        rintro cs ds ⟨p, hp⟩ hd
        have := patDone_brack (k := k) hp .nil hd
        simpa using this
      rintro p us rest l3 rfl h3 hp
      refine Dies.bind (innerTail_sees n h3 _) (Dies.mono (ih.innerTail l3 rest _ h3) fun hc => ?_)
        fun _ _ _ _ _ _ _ => Dies.ret
      rw [List.nil_append, ← List.append_assoc]
      refine Compl.before (hc.andThen [.brackR] (by decide) ?_)
      intro cs ds hps hd
      have := patDone_brack (k := k) hp hps hd
      simpa using this
  · rintro pat us rest l2 rfl h2 hq
    refine Dies.bind (Sees.eat (by simp) h2) (Dies.eat (by simp) h2 ?_)
      fun _ _ _ _ _ _ _ => Dies.ret
    rintro rfl
    refine Compl.now [.brackR] (by decide) fun cs hc => ?_
    rcases hq with ⟨p, vs, ws, rfl, hp, hw⟩ | ⟨k', rfl⟩
    · have := patDone_brack (k := k) hp hw hc
      simpa using this
    · exact ⟨.arr [], by simpa [hc] using PatToks.arrNil⟩

theorem parenPat_dies {n : Nat} (ih : PatDies n) (l : Lexer) (ts : List CTok) (h : Strm l ts)
    (ht : nextTok ts = .parenL) :
    Dies (Compl (PatDone .pattern)) ts (Parser.parenPat (n + 1) l) := by
  unfold Parser.parenPat
  refine Dies.bind (Sees.eat (by simp) h) (Dies.eat (by simp) h (by rintro rfl; cases ht)) ?_
  rintro _ us ts l1 rfl h1 ⟨k, rfl, _⟩
  refine Dies.loc ?_
  -- what a pattern that fails is continued with
  have close : ∀ us ts, (Compl (PatDone .pattern) ts) →
      (∀ p ws, PatToks .pattern p ws → ∃ p', PatToks .first p' (us.map (·.1) ++ ws)) →
      Compl (PatDone .pattern) ([(Token.parenL, k)] ++ (us ++ ts)) := by
    intro us ts hc hf
    rw [← List.append_assoc]
    refine Compl.before (hc.andThen [.parenR] (by decide) ?_)
    rintro cs ds ⟨p, hp⟩ hd
    obtain ⟨p', hp'⟩ := hf _ _ hp
    have := patDone_paren (k := k) (us := us ++ (ts ++ cs)) (by simpa using hp') .nil hd
    simpa using this
  refine Dies.bind (Q := fun p us _ _ => PatToks .first p (us.map (·.1))) ?_ ?_ ?_
  · refine Sees.look h1 fun l2 h2 hr => ?_
    cases ht : nextTok ts with
    | affix s b =>
      obtain ⟨c, ts', rfl⟩ := nextTok_cons ht (by simp)
      exact Sees.bump h2 hr fun l3 h3 hc => Sees.ret h3 (by simpa using PatToks.firstOp s b)
    | upper s => exact (h1.not_upper ht).elim
    | dash =>
      obtain ⟨c, ts', rfl⟩ := nextTok_cons ht (by simp)
      refine Sees.bump h2 hr fun l3 h3 hc => ?_
      refine Sees.bind (pattern_sees' n h3) ?_
      rintro p us rest l4 rfl h4 hp
      exact Sees.ret h4 (by simpa using PatToks.firstNeg hp)
    | _ =>
      simp only
      split
      · exact Sees.mono (pattern_sees' n h2) fun _ _ _ _ _ h => .first h
      · exact Sees.fail
  · refine Dies.look h1 fun l2 h2 hr => ?_
    have other : ∀ t, nextTok ts = t → Dies (fun r => Compl (PatDone .pattern) ([(Token.parenL, k)] ++ r)) ts
        ((if beginsPat t true = true then Parser.pattern n else
          P.fail (ParseError.unexpected t l1.currLoc)) l2) := by
      intro t ht
      split
      · exact Dies.mono (ih.pattern l2 ts h2) fun hc =>
          close [] ts hc fun p ws hp => ⟨p, by simpa using PatToks.first hp⟩
      · refine Dies.fail h2 ht.symm ?_
        rintro rfl
        refine patDone_wild (vs := [.parenR]) (by decide) ?_
        rintro cs ds ⟨p, hp⟩ hd
        have := patDone_paren (k := k) (.first hp) .nil hd
        simpa using this
    cases ht : nextTok ts with
    | affix s b =>
      obtain ⟨c, ts', rfl⟩ := nextTok_cons ht (by simp)
      exact Dies.bump h2 hr fun l3 h3 hc => Dies.ret
    | upper s => exact (h1.not_upper ht).elim
    | dash =>
      obtain ⟨c, ts', rfl⟩ := nextTok_cons ht (by simp)
      refine Dies.bump h2 hr fun l3 h3 hc => ?_
      refine Dies.bind (pattern_sees' n h3) (Dies.mono (ih.pattern l3 ts' h3) fun hc => ?_)
        fun _ _ _ _ _ _ _ => Dies.ret
      exact close [(.dash, c)] ts' hc fun p ws hp => ⟨_, by simpa using PatToks.firstNeg hp⟩
    | _ => exact other _ ht
  · rintro pat us rest l2 rfl h2 hp
    refine Dies.bind (Q := fun _ us _ _ => PatTail us) ?_ ?_ ?_
    · refine Sees.bind (Sees.peekOn _ h2) ?_
      rintro b vs rest l3 rfl h3 ⟨rfl, _, rfl⟩
      split
      · refine Sees.bind (innerTail_sees n h3 _) ?_
        rintro ps us rest l4 rfl h4 hps
        exact Sees.ret h4 ⟨_, _, by simpa using hps⟩
      · exact Sees.ret h3 .nil
    · refine Dies.bind (Sees.peekOn _ h2) (Dies.peekOn _ h2) ?_
      rintro b vs rest l3 rfl h3 ⟨rfl, _, rfl⟩
      split
      · refine Dies.bind (innerTail_sees n h3 _) (Dies.mono (ih.innerTail l3 rest _ h3) fun hc => ?_)
          fun _ _ _ _ _ _ _ => Dies.ret
        rw [List.nil_append, ← List.append_assoc]
        refine Compl.before (hc.andThen [.parenR] (by decide) ?_)
        intro cs ds hps hd
        have := patDone_paren (k := k) hp hps hd
        simpa using this
      · exact Dies.ret
    · rintro pat' vs rest l3 rfl h3 hw
      refine Dies.bind (Sees.eat (by simp) h3) (Dies.eat (by simp) h3 ?_)
        fun _ _ _ _ _ _ _ => Dies.ret
      rintro rfl
      refine Compl.now [.parenR] (by decide) fun cs hc => ?_
      have := patDone_paren (k := k) hp hw hc
      simpa using this

theorem patDies (n : Nat) : PatDies n := by
  induction n with
  | zero => constructor <;> intros <;> trivial
  | succ n ih =>
    exact ⟨pattern_dies ih, innerPat_dies ih, brackPat_dies ih, lowerPat_dies ih, parenPat_dies ih,
      innerTail_dies ih⟩

theorem patArgs_dies (n : Nat) {l : Lexer} {ts : List CTok} (h : Strm l ts) (ps : List Pat) :
    Dies (Compl fun us => ∃ xs : List (Pat × List Token), (∀ x ∈ xs, PatToks .pattern x.1 x.2) ∧
      us.map (·.1) = (xs.map (·.2)).flatten) ts (patArgs n ps l) := by
  induction n generalizing l ts ps with
  | zero => trivial
  | succ n ih =>
    unfold patArgs
    refine Dies.look h fun l1 h1 hr => ?_
    split
    · refine Dies.bind (pattern_sees' n h1) (Dies.mono ((patDies n).pattern l1 ts h1) fun hc => ?_) ?_
      · exact hc.imp fun cs ⟨p, hp⟩ => ⟨[(p, _)], by simpa using hp, by simp⟩
      rintro p us rest l2 rfl h2 hp
      refine Dies.mono (ih h2 _) fun hc => ?_
      refine Compl.before (hc.imp ?_)
      rintro cs ⟨xs, hx, he⟩
      exact ⟨(p, us.map (·.1)) :: xs, by simpa [hp] using hx, by simp [← he]⟩
    · exact Dies.ret

/-! ### expressions -/

omit [CharTables] [LawfulTables] in
/-- A variable. -/
theorem written_x {V : List CTok → Prop} {us : List CTok} {ws : List Token}
    (hw : ∀ w ∈ ws, w ∈ fillers)
    (h : ∀ cs ds : List CTok, (∃ e, ∀ c, Written .arg c c e cs) → ds.map (·.1) = ws →
      V (us ++ cs ++ ds)) : Compl V us := by
  refine Compl.now (.lower t!"x" :: ws) ?_ fun cs hc => ?_
  · intro v hm
    rcases List.mem_cons.1 hm with rfl | hm
    · decide
    · exact hw v hm
  · obtain ⟨x, ds, rfl, hx, hd⟩ := List.map_eq_cons_iff.1 hc
    obtain ⟨t, k⟩ := x
    cases hx
    have := h [(.lower t!"x", k)] ds ⟨_, fun c => .lower c k _⟩ hd
    simpa using this

theorem Ready.col' {l : Lexer} {ts : List CTok} (h : Ready l ts) (hne : ts ≠ []) :
    l.col = firstCol ts := by
  cases ts with
  | nil => exact absurd rfl hne
  | cons x ts => exact h.2

omit [CharTables] [LawfulTables] in
theorem map_two {cs : List CTok} {a b : Token} (h : cs.map (·.1) = [a, b]) :
    ∃ k k', cs = [(a, k), (b, k')] := by
  cases cs with
  | nil => cases h
  | cons x cs =>
    cases cs with
    | nil => cases h
    | cons y cs =>
      cases cs with
      | nil => cases h; exact ⟨_, _, rfl⟩
      | cons => cases h

omit [CharTables] [LawfulTables] in
theorem map_one {cs : List CTok} {a : Token} (h : cs.map (·.1) = [a]) : ∃ k, cs = [(a, k)] := by
  cases cs with
  | nil => cases h
  | cons x cs =>
    cases cs with
    | nil => cases h; exact ⟨_, rfl⟩
    | cons => cases h

/-- The tokens of an expression. -/
def ExprDone (c : Nat) (us : List CTok) : Prop := ∃ e m, Written .chain c m e us

/-- The tokens of an argument. -/
def ArgDone (us : List CTok) : Prop := ∃ e, ∀ c, Written .arg c c e us

omit [CharTables] [LawfulTables] in
theorem ArgDone.expr {us : List CTok} (h : ArgDone us) (c : Nat) : ExprDone c us := by
  obtain ⟨e, h⟩ := h
  exact ⟨e, c, .last (.head (h c))⟩

/-- The tokens of a lambda or `let`. -/
def OpenDone (us : List CTok) : Prop := ∃ e m, ∀ c, Written .atom c m e us

/-- The tokens of an operand. -/
def SubDone (c : Nat) (us : List CTok) : Prop :=
  ∃ e m, Written .operand c c e us ∨ Written .atom c m e us

omit [CharTables] [LawfulTables] in
theorem SubDone.expr {c : Nat} {us : List CTok} (h : SubDone c us) : ExprDone c us := by
  obtain ⟨e, m, h | h⟩ := h
  · exact ⟨e, c, .last h⟩
  · exact ⟨e, min c m, .lastOpen h⟩

/-- An operator and the tokens of an expression. -/
def BinDone (us : List CTok) : Prop :=
  ∃ op t k us', us = (t, k) :: us' ∧ OpTok op t ∧ ExprDone (firstCol us') us'

/-- A comma and an expression, any number of times. -/
def TupDone (us : List CTok) : Prop := ∃ xs : List TupItem,
  (∀ x ∈ xs, Written .chain x.comma x.edge x.expr x.toks) ∧ us = (xs.map (·.all)).flatten

/-- The elements of a list, the last one followed by a bracket. -/
def ListDone (us : List CTok) : Prop := ∃ xs : List ListItem,
  (∀ x ∈ xs, Written .chain (firstCol x.toks) x.edge x.expr x.toks) ∧
  (∀ a x b k, xs = a ++ x :: b → x.comma = none →
    Follow x.edge ((b.map (·.all)).flatten ++ [(.brackR, k)])) ∧ us = (xs.map (·.all)).flatten

/-- What happens when the expression functions fail at the end of the tokens. -/
structure ExprDies (n : Nat) : Prop where
  expression : ∀ l ts, Strm l ts → Dies (Compl (ExprDone l.col)) ts (Parser.expression n l)
  binaryLoop : ∀ l ts left stack, Strm l ts →
    Dies (fun ts => ts ≠ [] ∧ Compl BinDone ts) ts (binaryLoop n left stack l)
  subexpression : ∀ l ts, Strm l ts → Dies (Compl (SubDone l.col)) ts (subexpression n l)
  appLoop : ∀ l ts start e us₀, Strm l ts →
    (Written .operand start.col start.col e us₀ ∨
      ∃ m, Written .atom start.col m e us₀ ∧ Follow m ts) →
    Dies (fun ts => Compl (SubDone start.col) (us₀ ++ ts)) ts (appLoop n start e l)
  atom : ∀ l ts, Strm l ts →
    Dies (fun ts => Compl ArgDone ts ∨ ((nextTok ts).startsArg = false ∧ Compl OpenDone ts)) ts
      (atom n l)
  lambda : ∀ l ts, Strm l ts → nextTok ts = .lambda → Dies (Compl OpenDone) ts (lambda n l)
  parenExpr : ∀ l ts, Strm l ts → nextTok ts = .parenL → Dies (Compl ArgDone) ts (parenExpr n l)
  exprTail : ∀ l ts es, Strm l ts → Dies (fun ts => ts ≠ [] ∧ Compl TupDone ts) ts (exprTail n es l)
  brackExpr : ∀ l ts, Strm l ts → nextTok ts = .brackL → Dies (Compl ArgDone) ts (brackExpr n l)
  brackLoop : ∀ l ts es, Strm l ts → Dies (fun ts => ts ≠ [] ∧ Compl ListDone ts) ts (brackLoop n es l)

theorem expression_dies {n : Nat} (ih : ExprDies n) (l : Lexer) (ts : List CTok) (h : Strm l ts) :
    Dies (Compl (ExprDone l.col)) ts (Parser.expression (n + 1) l) := by
  unfold Parser.expression
  refine Dies.bind ((exactSpec n).subexpression l ts h)
    (Dies.mono (ih.subexpression l ts h) fun hc => hc.imp fun _ h => h.expr) ?_
  rintro x us rest l1 rfl h1 ⟨hx, _⟩
  refine Dies.mono (ih.binaryLoop l1 rest x [] h1) ?_
  rintro ⟨hne, hc⟩
  refine Compl.before (hc.imp ?_)
  rintro cs ⟨op, t, k, us', he, ho, r, m, hr⟩
  rcases hx with hx | ⟨m', _, hf⟩
  · rw [he]
    exact ⟨_, m, .bin hx ho hr⟩
  · cases rest with
    | nil => exact absurd rfl hne
    | cons y rest =>
      cases he
      have := hf.1
      rw [joins_of_op ho] at this
      cases this

theorem binaryLoop_dies {n : Nat} (ih : ExprDies n) (l : Lexer) (ts : List CTok) (left : Expr)
    (stack : List (Expr × Infix)) (h : Strm l ts) :
    Dies (fun ts => ts ≠ [] ∧ Compl BinDone ts) ts (binaryLoop (n + 1) left stack l) := by
  unfold binaryLoop
  refine Dies.bind (tryInfix_sees h) tryInfix_dies ?_
  rintro o us rest l1 rfl h1 ho
  cases o with
  | none => exact Dies.ret
  | some op =>
    obtain ⟨t, k, ho, rfl⟩ := ho
    refine Dies.loc (Dies.look h1 fun l2 h2 hr => ?_)
    split
    · rename_i hb
      have hne : rest ≠ [] := by rintro rfl; cases hb
      have hcol : l2.col = firstCol rest := Ready.col' hr hne
      refine Dies.bind ((exactSpec n).subexpression l2 rest h2)
        (Dies.mono (ih.subexpression l2 rest h2) fun hc => ⟨by simp, ?_⟩) ?_
      · refine Compl.before (hc.imp ?_)
        intro cs h
        refine ⟨op, t, k, rest ++ cs, rfl, ho, ?_⟩
        rw [firstCol_append hne, ← hcol]
        exact h.expr
      rintro x us rest' l3 rfl h3 ⟨hx, _⟩
      refine Dies.mono (ih.binaryLoop l3 rest' x _ h3) ?_
      rintro ⟨hne', hc⟩
      refine ⟨by simp, ?_⟩
      rw [← List.append_assoc]
      refine Compl.before (hc.imp ?_)
      rintro cs ⟨op', t', k', us', he, ho', r, m, hr'⟩
      refine ⟨op, t, k, us ++ (rest' ++ cs), by simp, ho, ?_⟩
      have hfc : firstCol (us ++ (rest' ++ cs)) = l2.col := by
        rw [← List.append_assoc, firstCol_append hne, hcol]
      rw [hfc]
      rcases hx with hx | ⟨m', _, hf⟩
      · rw [he]
        exact ⟨_, m, .bin hx ho' hr'⟩
      · cases rest' with
        | nil => exact absurd rfl hne'
        | cons y rest =>
          cases he
          have := hf.1
          rw [joins_of_op ho'] at this
          cases this
    · refine Dies.fail h2 rfl ?_
      rintro rfl
      refine ⟨by simp, ?_⟩
      refine written_x (ws := []) (by simp) fun cs ds hx hd => ?_
      rw [List.map_eq_nil_iff.1 hd]
      exact ⟨op, t, k, cs, by simp, ho, ArgDone.expr hx _⟩

theorem subexpression_dies {n : Nat} (ih : ExprDies n) (l : Lexer) (ts : List CTok)
    (h : Strm l ts) : Dies (Compl (SubDone l.col)) ts (subexpression (n + 1) l) := by
  unfold subexpression
  refine Dies.loc (Dies.bind ((exactSpec n).atom l ts h) (Dies.mono (ih.atom l ts h) ?_) ?_)
  · rintro (hc | ⟨_, hc⟩)
    · exact hc.imp fun cs ⟨e, h⟩ => ⟨e, 0, .inl (.head (h _))⟩
    · exact hc.imp fun cs ⟨e, m, h⟩ => ⟨e, m, .inr (h _)⟩
  rintro x us rest l1 rfl h1 hx
  refine ih.appLoop l1 rest l.currLoc x us h1 ?_
  rcases hx with hx | ⟨m, hx, hf, _⟩
  · exact .inl (.head (hx _))
  · exact .inr ⟨m, hx _, hf⟩

theorem appLoop_dies {n : Nat} (ih : ExprDies n) (l : Lexer) (ts : List CTok) (start : Loc)
    (e : Expr) (us₀ : List CTok) (h : Strm l ts)
    (hw : Written .operand start.col start.col e us₀ ∨
      ∃ m, Written .atom start.col m e us₀ ∧ Follow m ts) :
    Dies (fun ts => Compl (SubDone start.col) (us₀ ++ ts)) ts (appLoop (n + 1) start e l) := by
  unfold appLoop
  refine Dies.look h fun l1 h1 hr => Dies.loc ?_
  by_cases hc : argExprTok (nextTok ts) = true ∧ start.col < l1.currLoc.col
  · rw [if_pos hc]
    obtain ⟨hc, hlt⟩ := hc
    rw [argExprTok_eq] at hc
    have hne : ts ≠ [] := by rintro rfl; cases hc
    refine Dies.bind ((exactSpec n).atom l1 ts h1) (Dies.mono (ih.atom l1 ts h1) ?_) ?_
    · rintro (hx | ⟨hx, _⟩)
      · refine Compl.before (hx.imp ?_)
        rintro cs ⟨x, hx⟩
        have hcol : start.col < firstCol (ts ++ cs) := by
          rw [firstCol_append hne]
          have : l1.col = firstCol ts := Ready.col' hr hne
          rw [← this]; exact hlt
        rcases hw with hw | ⟨m, hw, hf⟩
        · exact ⟨_, 0, .inl (.app hw (hx _) hcol)⟩
        · refine ⟨_, 0, .inl (.appOpen hw (hx _) hcol ?_)⟩
          rw [firstCol_append hne]
          exact hf.args hc
      · rw [hx] at hc; cases hc
    rintro x us rest l2 rfl h2 hx
    rcases hx with hx | ⟨m, hx, _, hx'⟩
    · have hne := (hx 0).ne_nil
      have hlt : start.col < firstCol us := by
        have : l1.col = firstCol us := hr.col hne
        rw [← this]; exact hlt
      refine Dies.mono (ih.appLoop l2 rest start (.app e x) (us₀ ++ us) h2 (.inl ?_)) ?_
      · rcases hw with hw | ⟨m, hw, hf⟩
        · exact .app hw (hx _) hlt
        · refine .appOpen hw (hx _) hlt ?_
          have := hf.args hc
          rwa [firstCol_append hne] at this
      · intro h; rwa [List.append_assoc] at h
    · have := (hx 0).ne_nil
      cases us with
      | nil => exact absurd rfl this
      | cons y us =>
        rw [show nextTok (y :: us ++ rest) = nextTok (y :: us) from rfl, hx'] at hc
        cases hc
  · rw [if_neg hc]
    exact Dies.ret

theorem atom_dies {n : Nat} (ih : ExprDies n) (l : Lexer) (ts : List CTok) (h : Strm l ts) :
    Dies (fun ts => Compl ArgDone ts ∨ ((nextTok ts).startsArg = false ∧ Compl OpenDone ts)) ts
      (Parser.atom (n + 1) l) := by
  unfold Parser.atom
  refine Dies.loc (Dies.look h fun l1 h1 hr => ?_)
  have one : ∀ t (e : Expr) V, nextTok ts = t → t ≠ .eof ∧ (∀ er, t ≠ .error er) →
      Dies V ts ((P.bump >>= fun _ => (pure e : P Expr)) l1) := by
    intro t op V ht hne
    obtain ⟨c, ts', rfl⟩ := nextTok_cons ht hne.1
    exact Dies.bump h1 hr (fun l2 h2 hc => Dies.ret) hne.2
  cases ht : nextTok ts with
  | lambda => exact Dies.mono (ih.lambda l1 ts h1 ht) fun h => .inr ⟨by rw [ht]; rfl, h⟩
  | parenL => exact Dies.mono (ih.parenExpr l1 ts h1 ht) fun h => .inl h
  | brackL => exact Dies.mono (ih.brackExpr l1 ts h1 ht) fun h => .inl h
  | let_ =>
    obtain ⟨c, ts', rfl⟩ := nextTok_cons ht (by simp)
    have body : ∀ k ds us cs, ∀ d, DeclWritten d (List.map (·.1) ds) → ExprDone k (us ++ cs) →
        OpenDone ((.let_, c) :: (ds ++ (.in_, k) :: us) ++ cs) := by
      rintro k ds us cs d hd ⟨e, m, he⟩
      refine ⟨.let_ d e, m, fun c' => ?_⟩
      have := Written.let_ (c := c') (k₀ := c) hd he
      simpa using this
    have full : ∀ ts' ds, DeclDone (ts' ++ ds) → Compl OpenDone ((Token.let_, c) :: (ts' ++ ds)) := by
      rintro ts' ds ⟨d, hd⟩
      refine Compl.now [.in_, .lower t!"x"] (by decide) fun cs hc => ?_
      obtain ⟨k, k', rfl⟩ := map_two hc
      have := body k (ts' ++ ds) [] [(.lower t!"x", k')] d hd
        (ArgDone.expr ⟨_, fun c => .lower c k' _⟩ k)
      simpa using this
    refine Dies.bump h1 hr fun l2 h2 hc => ?_
    refine Dies.bind (infixDecl_sees n h2) (Dies.mono (infixDecl_dies n h2) fun hc => .inr ⟨rfl, ?_⟩) ?_
    · refine Compl.before (us := [(Token.let_, c)])
        (hc.andThen [.in_, .lower t!"x"] (by decide) ?_)
      rintro cs ds ⟨d, hd⟩ hc
      obtain ⟨k, k', rfl⟩ := map_two hc
      have := body k (ts' ++ cs) [] [(.lower t!"x", k')] d hd
        (ArgDone.expr ⟨_, fun c => .lower c k' _⟩ k)
      simpa using this
    rintro d ds rest l3 rfl h3 hd
    refine Dies.bind (Sees.eat (by simp) h3) (Dies.eat (by simp) h3 ?_) ?_
    · rintro rfl
      exact .inr ⟨rfl, full ds [] ⟨d, by simpa using hd⟩⟩
    rintro _ us rest l4 rfl h4 ⟨k, rfl, hk⟩
    refine Dies.bind ((exactSpec n).expression l4 rest h4)
      (Dies.mono (ih.expression l4 rest h4) fun hc => .inr ⟨rfl, ?_⟩) fun _ _ _ _ _ _ _ => Dies.ret
    rw [hk] at hc
    have := Compl.before (S := OpenDone) (us := (.let_, c) :: ds ++ [(.in_, k)]) (ts := rest)
      (hc.imp fun cs h => by
        have := body k ds rest cs d hd h
        simpa using this)
    simpa using this
  | lit x => exact one _ _ _ ht (by simp)
  | upper x => exact one _ _ _ ht (by simp)
  | lower x => exact one _ _ _ ht (by simp)
  | _ =>
    refine Dies.fail h1 ht.symm fun _ => .inl ?_
    refine written_x (ws := []) (by simp) fun cs ds hx hd => ?_
    rw [List.map_eq_nil_iff.1 hd, List.append_nil]
    exact hx

theorem Strm.no_up {l : Lexer} {us ts : List CTok} (h : Strm l us) (hf : ∀ x ∈ ts, x ∈ us ∨ x.1 ∈ fillers)
    (s : Symbol) : .upper s ∉ ts.map (·.1) := by
  intro hm
  obtain ⟨⟨t, k⟩, hx, he⟩ := List.mem_map.1 hm
  cases he
  rcases hf _ hx with hx | hx
  · exact h.2.1 s k hx
  · exact absurd hx (by simp [fillers])

theorem lambda_dies {n : Nat} (ih : ExprDies n) (l : Lexer) (ts : List CTok) (h : Strm l ts)
    (ht : nextTok ts = .lambda) : Dies (Compl OpenDone) ts (Parser.lambda (n + 1) l) := by
  unfold Parser.lambda
  refine Dies.bind (Sees.eat (by simp) h) (Dies.eat (by simp) h (by rintro rfl; cases ht)) ?_
  rintro _ us ts l1 rfl h1 ⟨k₀, rfl, hk₀⟩
  have body : ∀ (xs : List (Pat × List Token)) (pts : List CTok) k us, xs ≠ [] →
      (∀ x ∈ xs, PatWritten x.1 x.2) → pts.map (·.1) = (xs.map (·.2)).flatten →
      ExprDone k us → OpenDone ((.lambda, k₀) :: pts ++ (.arrow, k) :: us) := by
    rintro xs pts k us hne hx hp ⟨e, m, he⟩
    exact ⟨(xs.map (·.1)).foldr .lam e, m, fun c => .lam hne hx hp he⟩
  have arrow : ∀ (xs : List (Pat × List Token)) (pts ds : List CTok), xs ≠ [] →
      (∀ x ∈ xs, PatWritten x.1 x.2) → pts.map (·.1) = (xs.map (·.2)).flatten →
      ds.map (·.1) = [.arrow, .lower t!"x"] → OpenDone ((.lambda, k₀) :: pts ++ ds) := by
    intro xs pts ds hne hx hp hd
    obtain ⟨k, k', rfl⟩ := map_two hd
    exact body xs pts k _ hne hx hp (ArgDone.expr ⟨_, fun c => .lower c k' _⟩ k)
  refine Dies.bind (pattern_sees n h1) (Dies.mono ((patDies n).pattern l1 ts h1) fun hc => ?_) ?_
  · refine Compl.before (hc.filled.andThen [.arrow, .lower t!"x"] (by decide) ?_)
    rintro cs ds ⟨⟨p, hp⟩, hf⟩ hd
    have := arrow [(p, (ts ++ cs).map (·.1))] (ts ++ cs) ds (by simp)
      (by intro x hx; rw [List.mem_singleton.1 hx]; exact ⟨hp, h1.no_up hf⟩) (by simp) hd
    simpa using this
  rintro p pts rest l2 rfl h2 hp
  refine Dies.bind (patArgs_sees n h2 [p]) (Dies.mono (patArgs_dies n h2 [p]) fun hc => ?_) ?_
  · rw [← List.append_assoc]
    refine Compl.before (hc.filled.andThen [.arrow, .lower t!"x"] (by decide) ?_)
    rintro cs ds ⟨⟨xs, hx, he⟩, hf⟩ hd
    have hup := h2.no_up hf
    have := arrow ((p, pts.map (·.1)) :: xs) (pts ++ (rest ++ cs)) ds (by simp) ?_
      (by rw [List.map_append, he]; simp) hd
    · simpa using this
    · intro x hx'
      rcases List.mem_cons.1 hx' with rfl | hx'
      · exact hp
      · refine ⟨hx x hx', fun s hm => hup s ?_⟩
        rw [he]
        exact List.mem_flatten.2 ⟨x.2, List.mem_map.2 ⟨x, hx', rfl⟩, hm⟩
  rintro ps us rest l3 rfl h3 ⟨xs, hx, rfl, hu⟩
  have hall : ∀ x ∈ (p, pts.map (·.1)) :: xs, PatWritten x.1 x.2 := by
    intro x hx'
    rcases List.mem_cons.1 hx' with rfl | hx'
    · exact hp
    · exact hx x hx'
  have hmap : (pts ++ us).map (·.1) = (((p, pts.map (·.1)) :: xs).map (·.2)).flatten := by
    rw [List.map_append, hu]; simp
  refine Dies.bind (Sees.eat (by simp) h3) (Dies.eat (by simp) h3 ?_) ?_
  · rintro rfl
    refine Compl.now [.arrow, .lower t!"x"] (by decide) fun cs hc => ?_
    have := arrow _ _ cs (by simp) hall hmap hc
    simpa using this
  rintro _ vs rest l4 rfl h4 ⟨k, rfl, hk⟩
  refine Dies.bind ((exactSpec n).expression l4 rest h4)
    (Dies.mono (ih.expression l4 rest h4) fun hc => ?_) fun _ _ _ _ _ _ _ => Dies.ret
  rw [hk] at hc
  have := Compl.before (S := OpenDone) (us := (.lambda, k₀) :: (pts ++ us) ++ [(.arrow, k)])
    (ts := rest) (hc.imp fun cs h => by
      have := body _ _ k _ (by simp) hall hmap h
      simpa using this)
  simpa using this

omit [CharTables] [LawfulTables] in
/-- A first component, others and the closing parenthesis. -/
theorem argDone_paren {k₀ : Nat} {us vs ds : List CTok} (hu : ExprDone (firstCol us) us)
    (hv : TupDone vs) (hd : ds.map (·.1) = [.parenR]) :
    ArgDone ([(Token.parenL, k₀)] ++ us ++ vs ++ ds) := by
  obtain ⟨e, m, he⟩ := hu
  obtain ⟨xs, hx, rfl⟩ := hv
  obtain ⟨k, rfl⟩ := map_one hd
  cases xs with
  | nil => exact ⟨.grp e, fun c => by simpa using Written.grp (c := c) (k₀ := k₀) (k := k) he⟩
  | cons x xs =>
    exact ⟨_, fun c => by
      simpa using Written.tup (c := c) (k₀ := k₀) (k := k) he (by simp) hx⟩

omit [CharTables] [LawfulTables] in
theorem TupDone.nil : TupDone [] := ⟨[], by simp, by simp⟩

theorem commaLoop_dies (n : Nat) {l : Lexer} {ts : List CTok} {V : List CTok → Prop}
    (h : Strm l ts) (j : Nat) : Dies V ts (commaLoop n j l) := by
  induction n generalizing l ts j V with
  | zero => trivial
  | succ n ih =>
    unfold commaLoop
    refine Dies.bind (Sees.bumpOn (by simp) h) (Dies.bumpOn (by simp) h) ?_
    rintro b us rest l1 rfl h1 (⟨rfl, c, rfl, hc⟩ | ⟨rfl, rfl, hne, hr⟩)
    · simp only [if_true]; exact ih h1 _
    · simp only [if_false, Bool.false_eq_true]; exact Dies.ret

theorem parenExpr_dies {n : Nat} (ih : ExprDies n) (l : Lexer) (ts : List CTok) (h : Strm l ts)
    (ht : nextTok ts = .parenL) : Dies (Compl ArgDone) ts (Parser.parenExpr (n + 1) l) := by
  unfold Parser.parenExpr
  refine Dies.bind (Sees.eat (by simp) h) (Dies.eat (by simp) h (by rintro rfl; cases ht)) ?_
  rintro _ us ts l1 rfl h1 ⟨k₀, rfl, hk₀⟩
  refine Dies.loc (Dies.look h1 fun l2 h2 hr => ?_)
  have other : ts ≠ [] → Dies (fun r => Compl ArgDone ([(Token.parenL, k₀)] ++ r)) ts
      ((do
        let first ← Parser.expression n
        if ← P.peekOn .comma then
          let es ← exprTail n [first]
          P.eat .parenR
          return .tup es
        else
          P.eat .parenR
          return .grp first : P Expr) l2) := by
    intro hne
    have hcol : l2.col = firstCol ts := Ready.col' hr hne
    refine Dies.bind ((exactSpec n).expression l2 ts h2)
      (Dies.mono (ih.expression l2 ts h2) fun hc => ?_) ?_
    · refine Compl.before (hc.andThen [.parenR] (by decide) ?_)
      intro cs ds he hd
      rw [hcol, ← firstCol_append hne (rest := cs)] at he
      have := argDone_paren (k₀ := k₀) he .nil hd
      simpa using this
    rintro e us rest l3 rfl h3 ⟨m, he, hf⟩
    have hcol : l2.col = firstCol us := hr.col he.ne_nil
    rw [hcol] at he
    refine Dies.bind (Sees.peekOn .comma h3) (Dies.peekOn _ h3) ?_
    rintro b vs rest l4 rfl h4 ⟨rfl, _, rfl⟩
    by_cases hb : Token.comma = nextTok rest
    · simp only [hb, decide_true, if_true]
      refine Dies.bind ((exactSpec n).exprTail l4 rest [e] h4)
        (Dies.mono (ih.exprTail l4 rest [e] h4) fun hc => ?_) ?_
      · rw [List.nil_append, ← List.append_assoc]
        refine Compl.before (hc.2.andThen [.parenR] (by decide) ?_)
        intro cs ds hv hd
        have := argDone_paren (k₀ := k₀) ⟨e, m, he⟩ hv hd
        simpa using this
      rintro es vs rest l5 rfl h5 ⟨xs, hx, rfl, rfl, hne⟩
      refine Dies.bind (Sees.eat (by simp) h5) (Dies.eat (by simp) h5 ?_)
        fun _ _ _ _ _ _ _ => Dies.ret
      rintro rfl
      refine Compl.now [.parenR] (by decide) fun cs hc => ?_
      have := argDone_paren (k₀ := k₀) ⟨e, m, he⟩ ⟨xs, hx, rfl⟩ hc
      simpa using this
    · simp only [hb, decide_false, if_false, Bool.false_eq_true]
      refine Dies.bind (Sees.eat (by simp) h4) (Dies.eat (by simp) h4 ?_)
        fun _ _ _ _ _ _ _ => Dies.ret
      rintro rfl
      refine Compl.now [.parenR] (by decide) fun cs hc => ?_
      have := argDone_paren (k₀ := k₀) ⟨e, m, he⟩ .nil hc
      simpa using this
  have rest : ∀ t, nextTok ts = t → Dies (fun r => Compl ArgDone ([(Token.parenL, k₀)] ++ r)) ts
      ((if beginsExpr t true then (do
        let first ← Parser.expression n
        if ← P.peekOn .comma then
          let es ← exprTail n [first]
          P.eat .parenR
          return .tup es
        else
          P.eat .parenR
          return .grp first : P Expr) else P.fail (.unexpected t l1.currLoc)) l2) := by
    intro t ht
    by_cases hb : beginsExpr t true = true
    · rw [if_pos hb]
      exact other (by rintro rfl; cases ht; cases hb)
    · rw [if_neg hb]
      refine Dies.fail h2 ht.symm ?_
      rintro rfl
      refine Compl.now [.parenR] (by decide) fun cs hc => ?_
      obtain ⟨k, rfl⟩ := map_one hc
      exact ⟨_, fun c => .unit c k₀ k⟩
  cases ht : nextTok ts with
  | parenR =>
    obtain ⟨k, ts', rfl⟩ := nextTok_cons ht (by simp)
    exact Dies.bump h2 hr fun l3 h3 hc => Dies.ret
  | affix s b =>
    obtain ⟨k, ts', rfl⟩ := nextTok_cons ht (by simp)
    refine Dies.bump h2 hr fun l3 h3 hc => ?_
    refine Dies.bind (Sees.eat (by simp) h3) (Dies.eat (by simp) h3 ?_)
      fun _ _ _ _ _ _ _ => Dies.ret
    rintro rfl
    refine Compl.now [.parenR] (by decide) fun cs hc => ?_
    obtain ⟨k', rfl⟩ := map_one hc
    exact ⟨_, fun c => .op c k₀ k k' s b⟩
  | comma =>
    refine Dies.bind (commaLoop_sees n h2 0) (commaLoop_dies n h2 0) ?_
    rintro j us rest l3 rfl h3 ⟨ks, rfl, rfl, hne⟩
    refine Dies.bind (Sees.eat (by simp) h3) (Dies.eat (by simp) h3 ?_)
      fun _ _ _ _ _ _ _ => Dies.ret
    rintro rfl
    refine Compl.now [.parenR] (by decide) fun cs hc => ?_
    obtain ⟨k', rfl⟩ := map_one hc
    refine ⟨.var (.commas ks.length), fun c => ?_⟩
    have := Written.commas (c := c) (k₀ := k₀) (k := k') (hne ht)
    simpa using this
  | _ => exact rest _ ht

theorem exprTail_dies {n : Nat} (ih : ExprDies n) (l : Lexer) (ts : List CTok) (es : List Expr)
    (h : Strm l ts) : Dies (fun ts => ts ≠ [] ∧ Compl TupDone ts) ts (exprTail (n + 1) es l) := by
  unfold exprTail
  refine Dies.bind (Sees.bumpOn (by simp) h) (Dies.bumpOn (by simp) h) ?_
  rintro b us rest l1 rfl h1 (⟨rfl, c, rfl, hc⟩ | ⟨rfl, rfl, hne, hr⟩)
  · simp only [if_true]
    refine Dies.bind ((exactSpec n).expression l1 rest h1)
      (Dies.mono (ih.expression l1 rest h1) fun hx => ⟨by simp, ?_⟩) ?_
    · rw [hc] at hx
      refine Compl.before (hx.imp ?_)
      rintro cs ⟨e, m, he⟩
      exact ⟨[⟨c, e, rest ++ cs, m⟩], by simpa using he, by simp [TupItem.all]⟩
    rintro e us rest l2 rfl h2 ⟨m, he, hf⟩
    rw [hc] at he
    refine Dies.mono (ih.exprTail l2 rest _ h2) fun hx => ⟨by simp, ?_⟩
    rw [← List.append_assoc]
    refine Compl.before (hx.2.imp ?_)
    rintro cs ⟨xs, hxs, hcs⟩
    refine ⟨⟨c, e, us, m⟩ :: xs, ?_, by rw [hcs]; simp [TupItem.all]⟩
    intro x hx'
    rcases List.mem_cons.1 hx' with rfl | hx'
    · exact he
    · exact hxs x hx'
  · simp only [if_false, Bool.false_eq_true]
    exact Dies.ret

theorem brackLoop_dies {n : Nat} (ih : ExprDies n) (l : Lexer) (ts : List CTok) (es : List Expr)
    (h : Strm l ts) : Dies (fun ts => ts ≠ [] ∧ Compl ListDone ts) ts (brackLoop (n + 1) es l) := by
  unfold brackLoop
  refine Dies.bind (Sees.isDone h) (Dies.isDone h) ?_
  rintro b us ts l1 rfl h1 ⟨rfl, _, rfl⟩
  by_cases hb : nextTok ts = .eof
  · simp only [hb, decide_true, if_true]
    exact Dies.ret
  have hne : ts ≠ [] := by rintro rfl; exact hb rfl
  simp only [hb, decide_false, if_false, Bool.false_eq_true]
  refine Dies.bind (Sees.peekOn _ h1) (Dies.peekOn _ h1) ?_
  rintro b us ts l2 rfl h2 ⟨rfl, hr, rfl⟩
  replace hne : ts ≠ [] := by simpa using hne
  by_cases hb : Token.brackR = nextTok ts
  · simp only [hb, decide_true, if_true]
    exact Dies.ret
  simp only [hb, decide_false, if_false, Bool.false_eq_true]
  have hcol : l2.col = firstCol ts := Ready.col' hr hne
  refine Dies.bind ((exactSpec n).expression l2 ts h2)
    (Dies.mono (ih.expression l2 ts h2) fun hx => ⟨by simpa using hne, ?_⟩) ?_
  · rw [List.nil_append, List.nil_append]
    refine hx.imp ?_
    rintro cs ⟨e, m, he⟩
    rw [hcol, ← firstCol_append hne (rest := cs)] at he
    refine ⟨[⟨e, ts ++ cs, m, none⟩], by simpa using he, ?_, by simp [ListItem.all, commaToks]⟩
    intro a x b k hab _
    cases a with
    | nil => cases hab; exact ⟨rfl, by intro h; cases h⟩
    | cons y a => cases a <;> cases hab
  rintro e us rest l3 rfl h3 ⟨m, he, hf⟩
  replace hcol : l2.col = firstCol us := hr.col he.ne_nil
  rw [hcol] at he
  refine Dies.bind (Sees.bumpOn (by simp) h3) (Dies.bumpOn (by simp) h3) ?_
  rintro b vs rest l4 rfl h4 hb
  refine Dies.mono (ih.brackLoop l4 rest _ h4) ?_
  rintro ⟨hne', hc⟩
  refine ⟨by simp [he.ne_nil], ?_⟩
  have hall : ∀ c (xs : List ListItem),
      (∀ x ∈ xs, Written .chain (firstCol x.toks) x.edge x.expr x.toks) →
      ∀ x ∈ (⟨e, us, m, c⟩ :: xs : List ListItem),
      Written .chain (firstCol x.toks) x.edge x.expr x.toks := by
    intro c xs hx x hm
    rcases List.mem_cons.1 hm with rfl | hm
    · exact he
    · exact hx x hm
  have := Compl.before (S := ListDone) (us := us ++ vs) (ts := rest) (hc.imp ?_)
  · simpa using this
  rintro cs ⟨xs, hx, hx', hcs⟩
  rcases hb with ⟨rfl, c, rfl, _⟩ | ⟨rfl, rfl, _, _⟩
  · refine ⟨⟨e, us, m, some c⟩ :: xs, hall _ _ hx, ?_, by rw [hcs]; simp [ListItem.all, commaToks]⟩
    intro a x b k hab hn
    cases a with
    | nil => cases hab; cases hn
    | cons y a => cases hab; exact hx' a x b k rfl hn
  · refine ⟨⟨e, us, m, none⟩ :: xs, hall _ _ hx, ?_, by rw [hcs]; simp [ListItem.all, commaToks]⟩
    intro a x b k hab hn
    cases a with
    | nil =>
      cases hab
      rw [← hcs, List.append_assoc]
      exact Follow.right hne' (by simpa using hf)
    | cons y a => cases hab; exact hx' a x b k rfl hn

theorem brackExpr_dies {n : Nat} (ih : ExprDies n) (l : Lexer) (ts : List CTok) (h : Strm l ts)
    (ht : nextTok ts = .brackL) : Dies (Compl ArgDone) ts (brackExpr (n + 1) l) := by
  unfold brackExpr
  refine Dies.bind (Sees.eat (by simp) h) (Dies.eat (by simp) h (by rintro rfl; cases ht)) ?_
  rintro _ us ts l1 rfl h1 ⟨k₀, rfl, _⟩
  refine Dies.bind ((exactSpec n).brackLoop l1 ts [] h1)
    (Dies.mono (ih.brackLoop l1 ts [] h1) fun hc => ?_) ?_
  · refine Compl.before (hc.2.andThen [.brackR] (by decide) ?_)
    rintro cs ds ⟨xs, hx, hx', hcs⟩ hd
    obtain ⟨k, rfl⟩ := map_one hd
    refine ⟨.list (xs.map (·.expr)), fun c => ?_⟩
    have := Written.list (c := c) (k₀ := k₀) (k := k) hx fun a x b hab hn => hx' a x b k hab hn
    rw [← hcs] at this
    simpa using this
  rintro es us rest l2 rfl h2 ⟨xs, hx, hx', rfl, rfl⟩
  refine Dies.bind (Sees.eat (by simp) h2) (Dies.eat (by simp) h2 ?_)
    fun _ _ _ _ _ _ _ => Dies.ret
  rintro rfl
  refine Compl.now [.brackR] (by decide) fun cs hc => ?_
  obtain ⟨k, rfl⟩ := map_one hc
  refine ⟨.list (xs.map (·.expr)), fun c => ?_⟩
  have := Written.list (c := c) (k₀ := k₀) (k := k) hx fun a x b hab hn => by
    have := hx' a x b hab hn
    rw [List.append_nil] at this
    cases hb : (b.map (·.all)).flatten with
    | nil => exact ⟨rfl, by intro h; cases h⟩
    | cons y ys => rw [← hb]; exact Follow.right (by simp [hb]) this
  simpa using this

theorem exprDies (n : Nat) : ExprDies n := by
  induction n with
  | zero => constructor <;> intros <;> trivial
  | succ n ih =>
    exact ⟨expression_dies ih, binaryLoop_dies ih, subexpression_dies ih, appLoop_dies ih,
      atom_dies ih, lambda_dies ih, parenExpr_dies ih, exprTail_dies ih, brackExpr_dies ih,
      brackLoop_dies ih⟩

/-! ### programs -/

theorem decl_dies (n : Nat) {l : Lexer} {ts : List CTok} (h : Strm l ts) (hne : ts ≠ []) :
    Dies (Compl fun us => DeclDone us ∨ ExprDone (firstCol us) us) ts (decl n l) := by
  unfold decl
  refine Dies.loc (Dies.look h fun l1 h1 hr => ?_)
  have inf : Dies (Compl fun us => DeclDone us ∨ ExprDone (firstCol us) us) ts
      ((infixDecl n >>= fun d => (pure (.infix_ d) : P Decl)) l1) :=
    Dies.bind (infixDecl_sees n h1) (Dies.mono (infixDecl_dies n h1) fun hc =>
      hc.imp fun _ h => .inl h) fun _ _ _ _ _ _ _ => Dies.ret
  have exp : ∀ t, nextTok ts = t → Dies (Compl fun us => DeclDone us ∨ ExprDone (firstCol us) us) ts
      ((if beginsExpr t true = true then (do
        let e ← Parser.expression n
        return .expr e : P Decl) else P.fail (.unexpected t l.currLoc)) l1) := by
    intro t ht
    split
    · refine Dies.bind ((exactSpec n).expression l1 ts h1)
        (Dies.mono ((exprDies n).expression l1 ts h1) fun hc => hc.imp fun cs h => .inr ?_)
        fun _ _ _ _ _ _ _ => Dies.ret
      rw [firstCol_append hne, ← Ready.col' hr hne]
      exact h
    · exact Dies.fail h1 ht.symm fun h => absurd h hne
  cases ht : nextTok ts with
  | infixL => exact inf
  | infixR => exact inf
  | infix_ => exact inf
  | _ => exact exp _ ht

/-- The tokens of a program. -/
def ProgDone (us : List CTok) : Prop := ∃ ds, WrittenProg ds us

theorem parseInto_dies (n : Nat) {l : Lexer} {ts : List CTok} (h : Strm l ts) (ast : Ast) :
    Dies (fun ts => ts ≠ [] ∧ Compl ProgDone ts) ts (parseInto n ast l) := by
  induction n generalizing l ts ast with
  | zero => trivial
  | succ n ih =>
    unfold parseInto
    refine Dies.bind (Sees.isDone h) (Dies.isDone h) ?_
    rintro b us ts l1 rfl h1 ⟨rfl, _, rfl⟩
    by_cases hb : nextTok ts = .eof
    · simp only [hb, decide_true, if_true]
      exact Dies.ret
    · simp only [hb, decide_false, if_false, Bool.false_eq_true]
      have hne : ts ≠ [] := by rintro rfl; exact hb rfl
      refine Dies.bind (decl_sees n h1) (Dies.mono (decl_dies n h1 hne) fun hc => ⟨by simpa using hne, ?_⟩) ?_
      · rw [List.nil_append]
        refine hc.imp ?_
        rintro cs (⟨d, hd⟩ | ⟨e, m, he⟩)
        · exact ⟨[.infix_ d], by simpa [semiToks] using WrittenProg.infix_ none hd .nil⟩
        · exact ⟨[.expr e], by simpa [semiToks] using WrittenProg.expr none he .nil fun _ => trivial⟩
      rintro d us rest l2 rfl h2 hd
      refine Dies.bind (Sees.bumpOn (by simp) h2) (Dies.bumpOn (by simp) h2) ?_
      rintro b vs rest l3 rfl h3 hb
      refine Dies.mono (ih h3 _) ?_
      rintro ⟨hne', hc⟩
      have hs : ∃ semi, vs = semiToks semi ∧ (semi = none → vs = []) := by
        rcases hb with ⟨_, c, rfl, _⟩ | ⟨_, rfl, _⟩
        · exact ⟨some c, rfl, by simp⟩
        · exact ⟨none, rfl, by simp⟩
      obtain ⟨semi, rfl, hsemi⟩ := hs
      refine ⟨by simp [hne'], ?_⟩
      have := Compl.before (S := ProgDone) (us := us ++ semiToks semi) (ts := rest) (hc.imp ?_)
      · simpa using this
      rintro cs ⟨ds, hds⟩
      rcases hd with ⟨x, rfl, hx⟩ | ⟨e, m, rfl, he, hf⟩
      · exact ⟨_, .infix_ semi hx hds⟩
      · refine ⟨_, .expr semi he hds fun hn => ?_⟩
        rw [hsemi hn] at hf
        exact Follow.right hne' (by simpa using hf)

end Pemdas
