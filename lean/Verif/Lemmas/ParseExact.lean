import Verif.Lemmas.ParseFull
import Verif.Lemmas.ParseFuel
/-
Soundness of the parser with layout: what it accepts is `Written`.
-/
namespace Pemdas
open Lexer Parser
set_option linter.unusedSectionVars false
variable [CharTables] [LawfulTables]

/-- The tokens ahead, none of which is an upper-case identifier. -/
def Strm (l : Lexer) (ts : List CTok) : Prop :=
  Stream l ts ∧ (∀ s k, (.upper s, k) ∉ ts) ∧ l.curr ≠ some .eof

/-- If the outcome is a success, it consumed `us` and left `rest`, and `Q` holds. -/
def Sees {α : Type} (ts : List CTok) (Q : α → List CTok → List CTok → Lexer → Prop) : PRes α → Prop
  | .ok a l => ∃ us rest, ts = us ++ rest ∧ Strm l rest ∧ Q a us rest l
  | _ => True

theorem Strm.suffix {l l' : Lexer} {us rest : List CTok} (h : Strm l (us ++ rest))
    (h' : Stream l' rest) (hc : l'.curr ≠ some .eof) : Strm l' rest :=
  ⟨h', fun s k hm => h.2.1 s k (List.mem_append.2 (.inr hm)), hc⟩

theorem peek_curr_ne {l l' : Lexer} {r : Option Token} (h : l.peek = .ok (r, l'))
    (hc : l.curr ≠ some .eof) : l'.curr ≠ some .eof := by
  unfold Lexer.peek at h
  repeat' split at h
  · cases h; exact hc
  · cases h
  · rename_i hc _ m hx
    cases h
    rw [(reach_lex hx).curr, hc]; simp
  · rename_i t m hne hx
    cases h
    intro h
    exact hne (by injection h)

theorem Strm.peek {l : Lexer} {ts : List CTok} (h : Strm l ts) :
    ∃ l', P.peek l = .ok (nextTok ts) l' ∧ Strm l' ts ∧ Ready l' ts := by
  obtain ⟨l', h1, h2, h3⟩ := h.1.peek
  refine ⟨l', h1, ⟨h2, h.2.1, ?_⟩, h3⟩
  unfold P.peek at h1
  cases hp : l.peek with
  | error p => rw [hp] at h1; cases h1
  | ok x =>
    obtain ⟨r, l1⟩ := x
    have := peek_curr_ne hp h.2.2
    rw [hp] at h1
    cases r <;> (injection h1 with _ h1; rw [← h1]; exact this)

theorem Sees.bind {α β : Type} {ts : List CTok} {Q : α → List CTok → List CTok → Lexer → Prop}
    {R : β → List CTok → List CTok → Lexer → Prop} {m : P α} {f : α → P β} {l : Lexer}
    (hm : Sees ts Q (m l))
    (hf : ∀ a us rest l1, ts = us ++ rest → Strm l1 rest → Q a us rest l1 →
      Sees rest (fun b us' rest' l2 => R b (us ++ us') rest' l2) (f a l1)) :
    Sees ts R ((m >>= f) l) := by
  show Sees ts R (P.bind m f l)
  unfold P.bind
  cases hr : m l with
  | ok a l1 =>
    rw [hr] at hm
    obtain ⟨us, rest, h1, h2, h3⟩ := hm
    have := hf a us rest l1 h1 h2 h3
    simp only
    cases hr' : f a l1 with
    | ok b l2 =>
      rw [hr'] at this
      obtain ⟨us', rest', h4, h5, h6⟩ := this
      exact ⟨us ++ us', rest', by rw [h1, h4, List.append_assoc], h5, h6⟩
    | _ => trivial
  | _ => trivial

theorem Sees.ret {α : Type} {ts : List CTok} {Q : α → List CTok → List CTok → Lexer → Prop}
    {a : α} {l : Lexer} (h : Strm l ts) (hq : Q a [] ts l) : Sees ts Q ((pure a : P α) l) :=
  ⟨[], ts, rfl, h, hq⟩

theorem Sees.mono {α : Type} {ts : List CTok} {Q R : α → List CTok → List CTok → Lexer → Prop}
    {r : PRes α} (h : Sees ts Q r) (hq : ∀ a us rest l, ts = us ++ rest → Q a us rest l → R a us rest l) :
    Sees ts R r := by
  cases r with
  | ok a l =>
    obtain ⟨us, rest, h1, h2, h3⟩ := h
    exact ⟨us, rest, h1, h2, hq _ _ _ _ h1 h3⟩
  | _ => trivial

theorem Sees.loc {β : Type} {ts : List CTok} {R : β → List CTok → List CTok → Lexer → Prop}
    {f : Loc → P β} {l : Lexer} (h : Sees ts R (f l.currLoc l)) : Sees ts R ((P.loc >>= f) l) := h

theorem Sees.fail {α : Type} {ts : List CTok} {Q : α → List CTok → List CTok → Lexer → Prop}
    {e : ParseError} {l : Lexer} : Sees ts Q ((P.fail e : P α) l) := trivial

theorem Sees.look {β : Type} {ts : List CTok} {R : β → List CTok → List CTok → Lexer → Prop}
    {f : Token → P β} {l : Lexer} (h : Strm l ts)
    (hf : ∀ l', Strm l' ts → Ready l' ts → Sees ts R (f (nextTok ts) l')) :
    Sees ts R ((P.peek >>= f) l) := by
  obtain ⟨l', h1, h2, h3⟩ := h.peek
  rw [P.bind_ok h1]
  exact hf l' h2 h3

theorem Sees.bump {β : Type} {t : Token} {c : Nat} {ts : List CTok}
    {R : β → List CTok → List CTok → Lexer → Prop} {f : Token → P β} {l : Lexer}
    (h : Strm l ((t, c) :: ts)) (hr : Ready l ((t, c) :: ts))
    (hf : ∀ l', Strm l' ts → l'.col = c →
      Sees ts (fun b us rest l2 => R b ((t, c) :: us) rest l2) (f t l'))
    (hx : ∀ er, t ≠ .error er := by intro _ h; cases h) :
    Sees ((t, c) :: ts) R ((P.bump >>= f) l) := by
  rw [P.bump_bind hr.1]
  have := hf { l with curr := none } (h.suffix (us := [(t, c)]) (h.1.bump hr hx) (by simp)) hr.2
  cases hx : f t { l with curr := none } with
  | ok a l' =>
    rw [hx] at this
    obtain ⟨us, rest, h1, h2, h3⟩ := this
    exact ⟨(t, c) :: us, rest, by rw [h1]; rfl, h2, h3⟩
  | _ => trivial

theorem nextTok_cons {ts : List CTok} {t : Token} (h : nextTok ts = t) (hne : t ≠ .eof) :
    ∃ c ts', ts = (t, c) :: ts' := by
  cases ts with
  | nil => exact absurd h.symm hne
  | cons x ts => exact ⟨x.2, ts, by rw [← h]; rfl⟩

theorem Sees.peekOn {ts : List CTok} {l : Lexer} (t : Token) (h : Strm l ts) :
    Sees ts (fun b us rest l' => us = [] ∧ Ready l' rest ∧ b = decide (t = nextTok rest))
      (P.peekOn t l) := by
  unfold P.peekOn
  exact Sees.look h fun l' h1 h2 => Sees.ret h1 ⟨rfl, h2, rfl⟩

theorem Sees.isDone {ts : List CTok} {l : Lexer} (h : Strm l ts) :
    Sees ts (fun b us rest l' => us = [] ∧ Ready l' rest ∧ b = decide (nextTok rest = .eof))
      (P.isDone l) := by
  unfold P.isDone
  exact Sees.look h fun l' h1 h2 => Sees.ret h1 ⟨rfl, h2, rfl⟩

theorem Sees.bumpOn {ts : List CTok} {l : Lexer} {t : Token} (hne : t ≠ .eof) (h : Strm l ts)
    (hx : ∀ er, t ≠ .error er := by intro _ h; cases h) :
    Sees ts (fun b us rest l' => (b = true ∧ ∃ c, us = [(t, c)] ∧ l'.col = c) ∨
      (b = false ∧ us = [] ∧ t ≠ nextTok rest ∧ Ready l' rest)) (P.bumpOn t l) := by
  unfold P.bumpOn
  refine Sees.bind (Sees.peekOn t h) ?_
  rintro b us rest l1 rfl h1 ⟨rfl, hr, rfl⟩
  by_cases ht : t = nextTok rest
  · obtain ⟨c, ts', rfl⟩ := nextTok_cons ht.symm hne
    simp only [nextTok, decide_true, if_true]
    exact Sees.bump h1 hr (fun l2 h2 hc => Sees.ret h2 (.inl ⟨rfl, c, rfl, hc⟩)) hx
  · simp only [ht, decide_false, if_false, Bool.false_eq_true]
    exact Sees.ret h1 (.inr ⟨rfl, rfl, ht, hr⟩)

theorem Sees.eat {ts : List CTok} {l : Lexer} {t : Token} (hne : t ≠ .eof) (h : Strm l ts)
    (hx : ∀ er, t ≠ .error er := by intro _ h; cases h) :
    Sees ts (fun _ us _ l' => ∃ c, us = [(t, c)] ∧ l'.col = c) (P.eat t l) := by
  unfold P.eat
  refine Sees.loc (Sees.look h fun l1 h1 hr => ?_)
  by_cases ht : nextTok ts = t
  · rw [if_pos ht]
    obtain ⟨c, ts', rfl⟩ := nextTok_cons ht hne
    exact Sees.bump h1 hr (fun l2 h2 hc => Sees.ret h2 ⟨c, rfl, hc⟩) hx
  · rw [if_neg ht]
    exact Sees.fail

theorem infixOp_sees {ts : List CTok} {l : Lexer} (h : Strm l ts) :
    Sees ts (fun op us _ _ => ∃ t k, OpTok op t ∧ us = [(t, k)]) (infixOp l) := by
  unfold infixOp
  refine Sees.loc (Sees.look h fun l1 h1 hr => ?_)
  have key : ∀ t op, nextTok ts = t → t ≠ .eof → OpTok op t →
      Sees ts (fun op us _ _ => ∃ t k, OpTok op t ∧ us = [(t, k)])
        ((P.bump >>= fun _ => (pure op : P Infix)) l1) := by
    intro t op ht hne ho
    obtain ⟨c, ts', rfl⟩ := nextTok_cons ht hne
    exact Sees.bump h1 hr (fun l2 h2 hc => Sees.ret h2 ⟨t, c, ho, rfl⟩) (by rintro er rfl; cases ho)
  cases ht : nextTok ts with
  | dash => exact key _ _ ht (by simp) .dash
  | at_ => exact key _ _ ht (by simp) .at_
  | affix s b =>
    cases b with
    | true => exact key _ _ ht (by simp) (.promoted s)
    | false => exact key _ _ ht (by simp) (.standard s)
  | _ => exact Sees.fail

theorem tryInfix_sees {ts : List CTok} {l : Lexer} (h : Strm l ts) :
    Sees ts (fun o us rest _ => match o with
      | some op => ∃ t k, OpTok op t ∧ us = [(t, k)]
      | none => us = [] ∧ (nextTok rest).joins = false) (tryInfix l) := by
  obtain ⟨l', h1, h2, h3⟩ := h.peek
  cases hj : (nextTok ts).joins with
  | false =>
    have : infixOp l = .err (.unexpected (nextTok ts) l.currLoc) l' := by
      unfold infixOp
      show (P.peek >>= _) l = _
      rw [P.bind_ok h1]
      cases ht : nextTok ts <;> rw [ht] at hj <;> first | rfl | cases hj
    unfold tryInfix
    rw [this]
    exact ⟨[], ts, rfl, h2, rfl, hj⟩
  | true =>
    have hne : nextTok ts ≠ .eof := by rintro h; rw [h] at hj; cases hj
    have : ∃ op, OpTok op (nextTok ts) := by
      generalize nextTok ts = t at hj
      cases t <;> first | cases hj | skip
      · exact ⟨_, .dash⟩
      · exact ⟨_, .at_⟩
      · rename_i s b
        cases b
        · exact ⟨_, .standard s⟩
        · exact ⟨_, .promoted s⟩
    obtain ⟨op, ho⟩ := this
    generalize ht : nextTok ts = t at ho hne
    obtain ⟨c, ts', rfl⟩ := nextTok_cons ht hne
    rcases tryInfix_some ho h.1 with h4 | ⟨l1, h4, h5, h6, _⟩
    · rw [h4]; trivial
    · rw [h4]
      exact ⟨[_], _, rfl, h.suffix (us := [_]) h5 (by simp [h6]), _, _, ho, rfl⟩

theorem Eats.strm {l l' : Lexer} {ts : List Token} (h : Eats l ts l') {cts : List CTok}
    (hs : Strm l cts) : ∃ us rest, cts = us ++ rest ∧ us.map (·.1) = ts ∧ Strm l' rest := by
  induction h with
  | refl => exact ⟨[], cts, rfl, rfl, hs⟩
  | @peek ts m m' r _ hp ih =>
    obtain ⟨us, rest, h1, h2, h3⟩ := ih
    refine ⟨us, rest, h1, h2, ?_⟩
    obtain ⟨l1, h4, h5, _⟩ := h3.peek
    unfold P.peek at h4
    rw [hp] at h4
    cases r <;> (injection h4 with _ h4; rw [h4]; exact h5)
  | @bump ts m t _ hc he ih =>
    obtain ⟨us, rest, h1, h2, h3⟩ := ih
    cases rest with
    | nil =>
      obtain ⟨l1, h4⟩ := h3.1
      rw [P.peek_curr hc] at h4
      injection h4 with h4 _
      exact absurd (h4 ▸ hc) h3.2.2
    | cons x rest =>
      have h4 := h3.suffix (l' := { m with curr := none }) (us := [x]) (rest := rest) ?_ (by simp)
      · obtain ⟨hne, l1, h5, h6, h7, h8⟩ := h3.1
        rw [P.peek_curr hc] at h5
        injection h5 with h5 _
        exact ⟨us ++ [x], rest, by simp [h1], by simp [h2, h5], h4⟩
      · obtain ⟨hne, l1, h5, h6, h7, h8⟩ := h3.1
        rw [P.peek_curr hc] at h5
        injection h5 with h5 h9
        rw [h9]; exact h8 (h5 ▸ he)

/-- What a parsing function does on the tokens ahead, from what it does in general. -/
theorem Run.sees {α : Type} {l : Lexer} {ts : List CTok} {Q : α → List Token → Lexer → Prop}
    {r : PRes α} (h : Run l Q r) (hs : Strm l ts) :
    Sees ts (fun a us _ l' => Q a (us.map (·.1)) l') r := by
  cases r with
  | ok a l' =>
    obtain ⟨us, h1, h2⟩ := h
    obtain ⟨vs, rest, h3, rfl, h4⟩ := h1.strm hs
    exact ⟨vs, rest, h3, h4, h2⟩
  | _ => trivial

/-- The same for a function with too little fuel. -/
theorem Sees.fuel {α : Type} {m : Nat → P α} {l : Lexer} {ts : List CTok}
    {Q : α → List CTok → List CTok → Lexer → Prop} (hb : ∀ n, P.Below (m n) (m (n + 1)))
    {n k : Nat} (hk : n ≤ k) (h : Sees ts Q (m k l)) : Sees ts Q (m n l) := by
  by_cases hn : m n l = .fuel
  · rw [hn]; trivial
  · rwa [same_of_below hb hn hk] at h

/-! ### patterns and fixity declarations -/

theorem Strm.no_upper {l : Lexer} {us rest : List CTok} (h : Strm l (us ++ rest)) (s : Symbol) :
    .upper s ∉ us.map (·.1) := by
  intro hm
  obtain ⟨x, hx, he⟩ := List.mem_map.1 hm
  exact h.2.1 s x.2 (List.mem_append.2 (.inl (by rw [← he]; exact hx)))

theorem pattern_sees (n : Nat) {l : Lexer} {ts : List CTok} (h : Strm l ts) :
    Sees ts (fun p us _ _ => PatWritten p (us.map (·.1))) (Parser.pattern n l) := by
  refine Sees.fuel (k := max n (8 * l.weight + 2)) (fun n => (patBelow n).pattern) (by omega) ?_
  refine Sees.mono (Run.sees ((patSpec _).pattern l (by omega)) h) ?_
  rintro p us rest l' rfl hp
  exact ⟨hp, h.no_upper⟩

theorem patArgs_sees (n : Nat) {l : Lexer} {ts : List CTok} (h : Strm l ts) (ps : List Pat) :
    Sees ts (fun ps' us _ _ => ∃ xs : List (Pat × List Token), (∀ x ∈ xs, PatWritten x.1 x.2) ∧
      ps' = ps ++ xs.map (·.1) ∧ us.map (·.1) = (xs.map (·.2)).flatten) (patArgs n ps l) := by
  refine Sees.fuel (m := fun n => patArgs n ps) (k := max n (8 * l.weight + 3))
    (fun n => (patBelow n).patArgs ps) (by omega) ?_
  refine Sees.mono (Run.sees ((patSpec _).args l ps (by omega)) h) ?_
  rintro p us rest l' rfl ⟨xs, h1, h2, h3⟩
  simp only [List.nil_append] at h3
  refine ⟨xs, fun x hx => ⟨h1 x hx, fun s hm => ?_⟩, h2, h3⟩
  refine h.no_upper s ?_
  rw [h3]
  exact List.mem_flatten.2 ⟨x.2, List.mem_map.2 ⟨x, hx, rfl⟩, hm⟩

theorem fixityAssoc_sees {l : Lexer} {ts : List CTok} (h : Strm l ts) :
    Sees ts (fun a us _ _ => ∃ k, us = [(a.kwTok, k)]) (fixityAssoc l) := by
  unfold fixityAssoc
  refine Sees.loc (Sees.look h fun l1 h1 hr => ?_)
  have key : ∀ a : Assoc, nextTok ts = a.kwTok →
      Sees ts (fun a us _ _ => ∃ k, us = [(a.kwTok, k)])
        ((P.bump >>= fun _ => (pure a : P Assoc)) l1) := by
    intro a ht
    obtain ⟨c, ts', rfl⟩ := nextTok_cons ht (by cases a <;> simp [Assoc.kwTok])
    exact Sees.bump h1 hr (fun l2 h2 hc => Sees.ret h2 ⟨c, rfl⟩)
      (by intro er h; cases a <;> cases h)
  cases ht : nextTok ts with
  | infixL => exact key .left ht
  | infixR => exact key .right ht
  | infix_ => exact key .neither ht
  | _ => exact Sees.fail

theorem fixityPrec_sees {l : Lexer} {ts : List CTok} (h : Strm l ts) :
    Sees ts (fun p us rest _ => (p ≤ 9 ∧ ∃ k, us = [(.lit (.int p), k)]) ∨
      (p = 9 ∧ us = [] ∧ nextTok rest ≠ .dash ∧ nextTok rest ≠ .at_)) (fixityPrec l) := by
  unfold fixityPrec
  refine Sees.loc (Sees.look h fun l1 h1 hr => ?_)
  cases ht : nextTok ts with
  | lit x =>
    cases x with
    | int p =>
      obtain ⟨c, ts', rfl⟩ := nextTok_cons ht (by simp)
      refine Sees.bump h1 hr fun l2 h2 hc => ?_
      by_cases hp : p ≤ precMax
      · rw [if_pos hp]
        exact Sees.ret h2 (.inl ⟨hp, c, rfl⟩)
      · rw [if_neg hp]; trivial
    | _ => exact Sees.fail
  | affix s b => exact Sees.ret h1 (.inr ⟨rfl, rfl, by rw [ht]; simp, by rw [ht]; simp⟩)
  | _ => exact Sees.fail

theorem infixLoop_sees (n : Nat) {l : Lexer} {ts : List CTok} (h : Strm l ts) (ops : List Infix) :
    Sees ts (fun ops' us _ _ => ∃ xs : List (Infix × Token), (∀ x ∈ xs, OpTok x.1 x.2) ∧
      ops' = ops ++ xs.map (·.1) ∧
      us.map (·.1) = (xs.map fun x => [Token.comma, x.2]).flatten) (infixLoop n ops l) := by
  induction n generalizing l ts ops with
  | zero => trivial
  | succ n ih =>
    unfold infixLoop
    refine Sees.bind (Sees.bumpOn (by simp) h) ?_
    rintro b us rest l1 rfl h1 (⟨rfl, c, rfl, hc⟩ | ⟨rfl, rfl, _, hr⟩)
    · simp only [if_true]
      refine Sees.bind (infixOp_sees h1) ?_
      rintro op us rest l2 rfl h2 ⟨t, k, ho, rfl⟩
      refine Sees.mono (ih h2 _) ?_
      rintro ops' us rest l3 rfl ⟨xs, h3, h4, h5⟩
      refine ⟨(op, t) :: xs, by simpa [ho] using h3, by simpa using h4, ?_⟩
      simpa using h5
    · simp only [if_false, Bool.false_eq_true]
      exact Sees.ret h1 ⟨[], by simp, by simp, by simp⟩

theorem infixDecl_sees (n : Nat) {l : Lexer} {ts : List CTok} (h : Strm l ts) :
    Sees ts (fun d us _ _ => DeclWritten d (us.map (·.1))) (infixDecl n l) := by
  have split : ∀ (op : Infix) (t : Token) (xs : List (Infix × Token)),
      sepBy .comma (((op, t) :: xs).map fun x => [x.2]) =
        t :: (xs.map fun x => [Token.comma, x.2]).flatten := by
    intro op t xs
    obtain ⟨x, xs', h1, h2⟩ := opsToks_split (ops := (op, t) :: xs) (by simp)
    cases h1
    exact h2
  unfold infixDecl fixity
  refine Sees.bind (Q := fun fx us rest _ => ∃ k, (∃ k', us = [(fx.assoc.kwTok, k),
    (.lit (.int fx.prec), k')] ∧ fx.prec ≤ 9) ∨ (fx.prec = 9 ∧ us = [(fx.assoc.kwTok, k)] ∧
      nextTok rest ≠ .dash ∧ nextTok rest ≠ .at_)) ?_ ?_
  · refine Sees.bind (fixityAssoc_sees h) ?_
    rintro a us rest l1 rfl h1 ⟨k, rfl⟩
    refine Sees.bind (fixityPrec_sees h1) ?_
    rintro p us rest l2 rfl h2 (⟨hp, k', rfl⟩ | ⟨rfl, rfl, h3, h4⟩)
    · exact Sees.ret h2 ⟨k, .inl ⟨k', rfl, hp⟩⟩
    · exact Sees.ret h2 ⟨k, .inr ⟨rfl, rfl, h3, h4⟩⟩
  · rintro ⟨p, a⟩ us rest l1 rfl h1 ⟨k, hk⟩
    refine Sees.bind (infixOp_sees h1) ?_
    rintro op us' rest' l2 rfl h2 ⟨t, k2, ho, rfl⟩
    refine Sees.bind (infixLoop_sees n h2 _) ?_
    rintro ops' us2 rest2 l3 rfl h3 ⟨xs, hx, rfl, h4⟩
    refine Sees.ret h3 ?_
    have hall : ∀ x ∈ (op, t) :: xs, OpTok x.1 x.2 := by
      intro x hx'
      rcases List.mem_cons.1 hx' with rfl | hx'
      · exact ho
      · exact hx x hx'
    rcases hk with ⟨k', rfl, hp⟩ | ⟨hp, rfl, h5, h6⟩
    · have := DeclToks.withPrec (a := a) hp (ops := (op, t) :: xs) (by simp) hall
      rw [split] at this
      simp only [List.append_nil, List.map_append, h4]
      exact ⟨this, by simp, by simp⟩
    · have := DeclToks.noPrec (a := a) (ops := (op, t) :: xs) (by simp) hall
      rw [split] at this
      simp only at hp
      subst hp
      simp only [List.append_nil, List.map_append, h4]
      refine ⟨this, ?_, ?_⟩
      · simpa [nextTok] using h5
      · simpa [nextTok] using h6

/-! ### expressions -/

theorem joins_of_op {op : Infix} {t : Token} (h : OpTok op t) : t.joins = true := by
  cases h <;> rfl

/-- What `subexpression` has read, and what may come next. -/
def SubPost (c : Nat) (e : Expr) (us rest : List CTok) : Prop :=
  (Written .operand c c e us ∨ ∃ m, Written .atom c m e us ∧ Follow m rest) ∧
    ((nextTok rest).startsArg = true → firstCol rest ≤ c)

/-- What the loop of `binary` has read after an operand. -/
def BinPost (left : Expr) (stack : List (Expr × Infix)) (e : Expr) (us rest : List CTok) : Prop :=
  (us = [] ∧ e = reduce stack left ∧ (nextTok rest).joins = false) ∨
  ∃ op t k us' r m, us = (t, k) :: us' ∧ OpTok op t ∧ Written .chain (firstCol us') m r us' ∧
    Follow m rest ∧ e = reduce stack (.bin left op r)

theorem Follow.of {m : Nat} {rest : List CTok} (h : (nextTok rest).joins = false)
    (h' : (nextTok rest).startsArg = true → firstCol rest ≤ m) : Follow m rest := by
  cases rest with
  | nil => trivial
  | cons x rest => exact ⟨h, h'⟩

theorem Follow.joins {m : Nat} {rest : List CTok} (h : Follow m rest) :
    (nextTok rest).joins = false := by
  cases rest with
  | nil => rfl
  | cons x rest => exact h.1

/-- An operand and what comes after it form a chain. -/
theorem SubPost.chain {c : Nat} {x e : Expr} {stack : List (Expr × Infix)} {us us' rest : List CTok}
    (h : SubPost c x us (us' ++ rest)) (hb : BinPost x stack e us' rest) :
    ∃ m r, Written .chain c m r (us ++ us') ∧ Follow m rest ∧ e = reduce stack r := by
  obtain ⟨h1, h2⟩ := h
  rcases hb with ⟨rfl, rfl, hj⟩ | ⟨op, t, k, us', r, m, rfl, ho, hw, hf, rfl⟩
  · rw [List.append_nil]
    simp only [List.nil_append] at h1 h2
    rcases h1 with h1 | ⟨m, h1, h3⟩
    · exact ⟨c, x, .last h1, Follow.of hj h2, rfl⟩
    · refine ⟨min c m, x, .lastOpen h1, Follow.of hj fun h => ?_, rfl⟩
      have := h2 h
      have := h3.args h
      omega
  · rcases h1 with h1 | ⟨m', _, h3⟩
    · exact ⟨m, _, .bin h1 ho hw, hf, rfl⟩
    · have := h3.joins
      rw [show (nextTok ((t, k) :: us' ++ rest)) = t from rfl, joins_of_op ho] at this
      cases this

/-- What the expression functions have read with fuel `n`. -/
structure ExactSpec (n : Nat) : Prop where
  expression : ∀ l ts, Strm l ts →
    Sees ts (fun e us rest _ => ∃ m, Written .chain l.col m e us ∧ Follow m rest)
      (Parser.expression n l)
  binaryLoop : ∀ l ts left stack, Strm l ts →
    Sees ts (fun e us rest _ => BinPost left stack e us rest) (binaryLoop n left stack l)
  subexpression : ∀ l ts, Strm l ts →
    Sees ts (fun e us rest _ => SubPost l.col e us rest) (subexpression n l)
  appLoop : ∀ l ts start e us₀, Strm l ts →
    (Written .operand start.col start.col e us₀ ∨
      ∃ m, Written .atom start.col m e us₀ ∧ Follow m ts) →
    Sees ts (fun e' us rest _ => SubPost start.col e' (us₀ ++ us) rest) (appLoop n start e l)
  atom : ∀ l ts, Strm l ts →
    Sees ts (fun e us rest _ => (∀ c, Written .arg c c e us) ∨
      ∃ m, (∀ c, Written .atom c m e us) ∧ Follow m rest ∧ (nextTok us).startsArg = false)
      (atom n l)
  lambda : ∀ l ts, Strm l ts →
    Sees ts (fun e us rest _ =>
      ∃ m, (∀ c, Written .atom c m e us) ∧ Follow m rest ∧ (nextTok us).startsArg = false)
      (lambda n l)
  parenExpr : ∀ l ts, Strm l ts →
    Sees ts (fun e us _ _ => ∀ c, Written .arg c c e us) (parenExpr n l)
  exprTail : ∀ l ts es, Strm l ts →
    Sees ts (fun es' us _ _ => ∃ xs : List TupItem,
      (∀ x ∈ xs, Written .chain x.comma x.edge x.expr x.toks) ∧ es' = es ++ xs.map (·.expr) ∧
      us = (xs.map (·.all)).flatten ∧ (nextTok ts = .comma → xs ≠ [])) (exprTail n es l)
  brackExpr : ∀ l ts, Strm l ts →
    Sees ts (fun e us _ _ => ∀ c, Written .arg c c e us) (brackExpr n l)
  brackLoop : ∀ l ts es, Strm l ts →
    Sees ts (fun es' us rest _ => ∃ xs : List ListItem,
      (∀ x ∈ xs, Written .chain (firstCol x.toks) x.edge x.expr x.toks) ∧
      (∀ a x b, xs = a ++ x :: b → x.comma = none →
        Follow x.edge ((b.map (·.all)).flatten ++ rest)) ∧
      es' = es ++ xs.map (·.expr) ∧ us = (xs.map (·.all)).flatten) (brackLoop n es l)

omit [CharTables] [LawfulTables] in
theorem Written.ne_nil {cat : ExprCat} {c m : Nat} {e : Expr} {ts : List CTok}
    (h : Written cat c m e ts) : ts ≠ [] := by
  obtain ⟨t, k, ts', rfl, _⟩ := h.starts; simp

theorem expression_exact {n : Nat} (ih : ExactSpec n) (l : Lexer) (ts : List CTok) (h : Strm l ts) :
    Sees ts (fun e us rest _ => ∃ m, Written .chain l.col m e us ∧ Follow m rest)
      (Parser.expression (n + 1) l) := by
  unfold Parser.expression
  refine Sees.bind (ih.subexpression l ts h) ?_
  rintro x us rest l1 rfl h1 hx
  refine Sees.mono (ih.binaryLoop l1 rest x [] h1) ?_
  rintro e us' rest' _ rfl hb
  obtain ⟨m, r, h2, h3, rfl⟩ := hx.chain hb
  exact ⟨m, h2, h3⟩

theorem binaryLoop_exact {n : Nat} (ih : ExactSpec n) (l : Lexer) (ts : List CTok) (left : Expr)
    (stack : List (Expr × Infix)) (h : Strm l ts) :
    Sees ts (fun e us rest _ => BinPost left stack e us rest) (binaryLoop (n + 1) left stack l) := by
  unfold binaryLoop
  refine Sees.bind (tryInfix_sees h) ?_
  rintro o us rest l1 rfl h1 ho
  cases o with
  | none =>
    obtain ⟨rfl, hj⟩ := ho
    exact Sees.ret h1 (.inl ⟨rfl, rfl, hj⟩)
  | some op =>
    obtain ⟨t, k, ho, rfl⟩ := ho
    refine Sees.loc (Sees.look h1 fun l2 h2 hr => ?_)
    split
    · refine Sees.bind (ih.subexpression l2 rest h2) ?_
      rintro x us rest' l3 rfl h3 hx
      refine Sees.mono (ih.binaryLoop l3 rest' x _ h3) ?_
      rintro e us' rest2 _ rfl hb
      obtain ⟨m, r, h4, h5, rfl⟩ := hx.chain hb
      have : l2.col = firstCol (us ++ us') := by
        refine Ready.col (rest := rest2) ?_ h4.ne_nil
        rwa [List.append_assoc]
      rw [this] at h4
      exact .inr ⟨op, t, k, us ++ us', r, m, rfl, ho, h4, h5, reduce_snoc _ _ _ _⟩
    · exact Sees.fail

theorem subexpression_exact {n : Nat} (ih : ExactSpec n) (l : Lexer) (ts : List CTok)
    (h : Strm l ts) :
    Sees ts (fun e us rest _ => SubPost l.col e us rest) (subexpression (n + 1) l) := by
  unfold subexpression
  refine Sees.loc (Sees.bind (ih.atom l ts h) ?_)
  rintro x us rest l1 rfl h1 hx
  refine ih.appLoop l1 rest l.currLoc x us h1 ?_
  rcases hx with hx | ⟨m, hx, hf, _⟩
  · exact .inl (.head (hx _))
  · exact .inr ⟨m, hx _, hf⟩

omit [CharTables] [LawfulTables] in
theorem firstCol_append {us rest : List CTok} (h : us ≠ []) : firstCol (us ++ rest) = firstCol us := by
  cases us with
  | nil => exact absurd rfl h
  | cons x us => rfl

theorem appLoop_exact {n : Nat} (ih : ExactSpec n) (l : Lexer) (ts : List CTok) (start : Loc)
    (e : Expr) (us₀ : List CTok) (h : Strm l ts)
    (hw : Written .operand start.col start.col e us₀ ∨
      ∃ m, Written .atom start.col m e us₀ ∧ Follow m ts) :
    Sees ts (fun e' us rest _ => SubPost start.col e' (us₀ ++ us) rest)
      (appLoop (n + 1) start e l) := by
  unfold appLoop
  refine Sees.look h fun l1 h1 hr => Sees.loc ?_
  by_cases hc : argExprTok (nextTok ts) = true ∧ start.col < l1.currLoc.col
  · rw [if_pos hc]
    refine Sees.bind (ih.atom l1 ts h1) ?_
    rintro x us rest l2 rfl h2 hx
    obtain ⟨hc, hlt⟩ := hc
    rw [argExprTok_eq] at hc
    rcases hx with hx | ⟨m, hx, _, hx'⟩
    · have hne := (hx 0).ne_nil
      have hlt : start.col < firstCol us := by
        have : l1.col = firstCol us := hr.col hne
        rw [← this]; exact hlt
      refine Sees.mono (ih.appLoop l2 rest start (.app e x) (us₀ ++ us) h2 (.inl ?_)) ?_
      · rcases hw with hw | ⟨m, hw, hf⟩
        · exact .app hw (hx _) hlt
        · refine .appOpen hw (hx _) hlt ?_
          have := hf.args hc
          rwa [firstCol_append hne] at this
      · rintro e' us' rest' _ rfl h3
        rwa [List.append_assoc] at h3
    · have := (hx 0).ne_nil
      cases us with
      | nil => exact absurd rfl this
      | cons y us =>
        rw [show nextTok (y :: us ++ rest) = nextTok (y :: us) from rfl, hx'] at hc
        cases hc
  · rw [if_neg hc]
    refine Sees.ret h1 ⟨by rwa [List.append_nil], fun ha => ?_⟩
    rw [argExprTok_eq] at hc
    have : ¬ start.col < l1.col := fun h => hc ⟨ha, h⟩
    cases ts with
    | nil => cases ha
    | cons y ts =>
      have h2 : l1.col = y.2 := hr.2
      show y.2 ≤ _
      omega

theorem atom_exact {n : Nat} (ih : ExactSpec n) (l : Lexer) (ts : List CTok) (h : Strm l ts) :
    Sees ts (fun e us rest _ => (∀ c, Written .arg c c e us) ∨
      ∃ m, (∀ c, Written .atom c m e us) ∧ Follow m rest ∧ (nextTok us).startsArg = false)
      (Parser.atom (n + 1) l) := by
  unfold Parser.atom
  refine Sees.loc (Sees.look h fun l1 h1 hr => ?_)
  have one : ∀ t e, nextTok ts = t → t ≠ .eof ∧ (∀ er, t ≠ .error er) →
      (∀ c k, Written .arg c c e [(t, k)]) →
      Sees ts (fun e us rest _ => (∀ c, Written .arg c c e us) ∨
        ∃ m, (∀ c, Written .atom c m e us) ∧ Follow m rest ∧ (nextTok us).startsArg = false)
        ((P.bump >>= fun _ => (pure e : P Expr)) l1) := by
    intro t e ht hne hw
    obtain ⟨c, ts', rfl⟩ := nextTok_cons ht hne.1
    exact Sees.bump h1 hr (fun l2 h2 hc => Sees.ret h2 (.inl fun c' => hw c' c)) hne.2
  cases ht : nextTok ts with
  | lambda => exact Sees.mono (ih.lambda l1 ts h1) fun _ _ _ _ _ h => .inr h
  | parenL => exact Sees.mono (ih.parenExpr l1 ts h1) fun _ _ _ _ _ h => .inl h
  | brackL => exact Sees.mono (ih.brackExpr l1 ts h1) fun _ _ _ _ _ h => .inl h
  | let_ =>
    obtain ⟨c, ts', rfl⟩ := nextTok_cons ht (by simp)
    refine Sees.bump h1 hr fun l2 h2 hc => ?_
    refine Sees.bind (infixDecl_sees n h2) ?_
    rintro d ds rest l3 rfl h3 hd
    refine Sees.bind (Sees.eat (by simp) h3) ?_
    rintro _ us rest l4 rfl h4 ⟨k, rfl, hk⟩
    refine Sees.bind (ih.expression l4 rest h4) ?_
    rintro e us rest l5 rfl h5 ⟨m, he, hf⟩
    refine Sees.ret h5 (.inr ⟨m, fun c' => ?_, hf, rfl⟩)
    rw [hk] at he
    have := Written.let_ (c := c') (k₀ := c) hd he
    simpa using this
  | lit x => exact one _ _ ht (by simp) fun c k => .lit c k x
  | upper x => exact one _ _ ht (by simp) fun c k => .upper c k x
  | lower x => exact one _ _ ht (by simp) fun c k => .lower c k x
  | _ => exact Sees.fail

theorem lambda_exact {n : Nat} (ih : ExactSpec n) (l : Lexer) (ts : List CTok) (h : Strm l ts) :
    Sees ts (fun e us rest _ =>
      ∃ m, (∀ c, Written .atom c m e us) ∧ Follow m rest ∧ (nextTok us).startsArg = false)
      (Parser.lambda (n + 1) l) := by
  unfold Parser.lambda
  refine Sees.bind (Sees.eat (by simp) h) ?_
  rintro _ us rest l1 rfl h1 ⟨k₀, rfl, hk₀⟩
  refine Sees.bind (pattern_sees n h1) ?_
  rintro p pts rest l2 rfl h2 hp
  refine Sees.bind (patArgs_sees n h2 [p]) ?_
  rintro ps us rest l3 rfl h3 ⟨xs, hx, rfl, hu⟩
  refine Sees.bind (Sees.eat (by simp) h3) ?_
  rintro _ vs rest l4 rfl h4 ⟨k, rfl, hk⟩
  refine Sees.bind (ih.expression l4 rest h4) ?_
  rintro e es rest l5 rfl h5 ⟨m, he, hf⟩
  refine Sees.ret h5 ⟨m, fun c' => ?_, hf, rfl⟩
  rw [hk] at he
  have := Written.lam (c := c') (k₀ := k₀) (ps := (p, pts.map (·.1)) :: xs) (pts := pts ++ us)
    (by simp) (by simpa [hp] using hx) (by simp [hu]) he
  simpa using this

theorem commaLoop_sees (n : Nat) {l : Lexer} {ts : List CTok} (h : Strm l ts) (j : Nat) :
    Sees ts (fun k us _ _ => ∃ ks : List Nat, k = j + ks.length ∧
      us = ks.map (fun i => (.comma, i)) ∧ (nextTok ts = .comma → ks ≠ [])) (commaLoop n j l) := by
  induction n generalizing l ts j with
  | zero => trivial
  | succ n ih =>
    unfold commaLoop
    refine Sees.bind (Sees.bumpOn (by simp) h) ?_
    rintro b us rest l1 rfl h1 (⟨rfl, c, rfl, hc⟩ | ⟨rfl, rfl, hne, hr⟩)
    · simp only [if_true]
      refine Sees.mono (ih h1 _) ?_
      rintro k us rest l2 rfl ⟨ks, h2, h3, _⟩
      refine ⟨c :: ks, by simp [h2]; omega, by simp [h3], by simp⟩
    · simp only [if_false, Bool.false_eq_true]
      exact Sees.ret h1 ⟨[], by simp, by simp, fun h => absurd h.symm hne⟩

theorem parenExpr_exact {n : Nat} (ih : ExactSpec n) (l : Lexer) (ts : List CTok) (h : Strm l ts) :
    Sees ts (fun e us _ _ => ∀ c, Written .arg c c e us) (Parser.parenExpr (n + 1) l) := by
  unfold Parser.parenExpr
  refine Sees.bind (Sees.eat (by simp) h) ?_
  rintro _ us ts l1 rfl h1 ⟨k₀, rfl, hk₀⟩
  refine Sees.loc (Sees.look h1 fun l2 h2 hr => ?_)
  have other : Sees ts (fun e us _ _ => ∀ c, Written .arg c c e ([(Token.parenL, k₀)] ++ us))
      ((do
        let first ← Parser.expression n
        if ← P.peekOn .comma then
          let es ← exprTail n [first]
          P.eat .parenR
          return .tup es
        else
          P.eat .parenR
          return .grp first : P Expr) l2) := by
    refine Sees.bind (ih.expression l2 ts h2) ?_
    rintro e us rest l3 rfl h3 ⟨m, he, hf⟩
    have hcol : l2.col = firstCol us := hr.col he.ne_nil
    rw [hcol] at he
    refine Sees.bind (Sees.peekOn .comma h3) ?_
    rintro b vs rest l4 rfl h4 ⟨rfl, _, rfl⟩
    by_cases hb : Token.comma = nextTok rest
    · simp only [hb, decide_true, if_true]
      refine Sees.bind (ih.exprTail l4 rest [e] h4) ?_
      rintro es vs rest l5 rfl h5 ⟨xs, hx, rfl, rfl, hne⟩
      refine Sees.bind (Sees.eat (by simp) h5) ?_
      rintro _ ws rest l6 rfl h6 ⟨k, rfl, _⟩
      refine Sees.ret h6 fun c => ?_
      have := Written.tup (c := c) (k₀ := k₀) (k := k) he (hne hb.symm) hx
      simpa using this
    · simp only [hb, decide_false, if_false, Bool.false_eq_true]
      refine Sees.bind (Sees.eat (by simp) h4) ?_
      rintro _ ws rest l6 rfl h6 ⟨k, rfl, _⟩
      refine Sees.ret h6 fun c => ?_
      have := Written.grp (c := c) (k₀ := k₀) (k := k) he
      simpa using this
  have rest : ∀ t, Sees ts (fun e us _ _ => ∀ c, Written .arg c c e ([(Token.parenL, k₀)] ++ us))
      ((if beginsExpr t true then (do
        let first ← Parser.expression n
        if ← P.peekOn .comma then
          let es ← exprTail n [first]
          P.eat .parenR
          return .tup es
        else
          P.eat .parenR
          return .grp first : P Expr) else P.fail (.unexpected t l1.currLoc)) l2) := by
    intro t
    cases beginsExpr t true
    · exact Sees.fail
    · exact other
  cases ht : nextTok ts with
  | parenR =>
    obtain ⟨k, ts', rfl⟩ := nextTok_cons ht (by simp)
    exact Sees.bump h2 hr fun l3 h3 hc => Sees.ret h3 fun c => .unit c k₀ k
  | affix s b =>
    obtain ⟨k, ts', rfl⟩ := nextTok_cons ht (by simp)
    refine Sees.bump h2 hr fun l3 h3 hc => ?_
    refine Sees.bind (Sees.eat (by simp) h3) ?_
    rintro _ us rest l4 rfl h4 ⟨k', rfl, _⟩
    exact Sees.ret h4 fun c => .op c k₀ k k' s b
  | comma =>
    refine Sees.bind (commaLoop_sees n h2 0) ?_
    rintro j us rest l3 rfl h3 ⟨ks, rfl, rfl, hne⟩
    refine Sees.bind (Sees.eat (by simp) h3) ?_
    rintro _ us rest l4 rfl h4 ⟨k', rfl, _⟩
    refine Sees.ret h4 fun c => ?_
    have := Written.commas (c := c) (k₀ := k₀) (k := k') (hne ht)
    simpa using this
  | _ => exact rest _

theorem exprTail_exact {n : Nat} (ih : ExactSpec n) (l : Lexer) (ts : List CTok) (es : List Expr)
    (h : Strm l ts) :
    Sees ts (fun es' us _ _ => ∃ xs : List TupItem,
      (∀ x ∈ xs, Written .chain x.comma x.edge x.expr x.toks) ∧ es' = es ++ xs.map (·.expr) ∧
      us = (xs.map (·.all)).flatten ∧ (nextTok ts = .comma → xs ≠ []))
      (exprTail (n + 1) es l) := by
  unfold exprTail
  refine Sees.bind (Sees.bumpOn (by simp) h) ?_
  rintro b us rest l1 rfl h1 (⟨rfl, c, rfl, hc⟩ | ⟨rfl, rfl, hne, hr⟩)
  · simp only [if_true]
    refine Sees.bind (ih.expression l1 rest h1) ?_
    rintro e us rest l2 rfl h2 ⟨m, he, hf⟩
    refine Sees.mono (ih.exprTail l2 rest _ h2) ?_
    rintro es' vs rest l3 rfl ⟨xs, hx, rfl, rfl, _⟩
    rw [hc] at he
    refine ⟨⟨c, e, us, m⟩ :: xs, ?_, by simp, by simp [TupItem.all], by simp⟩
    intro x hx'
    rcases List.mem_cons.1 hx' with rfl | hx'
    · exact he
    · exact hx x hx'
  · simp only [if_false, Bool.false_eq_true]
    exact Sees.ret h1 ⟨[], by simp, by simp, by simp, fun h => absurd h.symm hne⟩

theorem brackLoop_exact {n : Nat} (ih : ExactSpec n) (l : Lexer) (ts : List CTok) (es : List Expr)
    (h : Strm l ts) :
    Sees ts (fun es' us rest _ => ∃ xs : List ListItem,
      (∀ x ∈ xs, Written .chain (firstCol x.toks) x.edge x.expr x.toks) ∧
      (∀ a x b, xs = a ++ x :: b → x.comma = none →
        Follow x.edge ((b.map (·.all)).flatten ++ rest)) ∧
      es' = es ++ xs.map (·.expr) ∧ us = (xs.map (·.all)).flatten) (brackLoop (n + 1) es l) := by
  have stop : ∀ l ts, Strm l ts → Sees ts (fun es' us rest _ => ∃ xs : List ListItem,
      (∀ x ∈ xs, Written .chain (firstCol x.toks) x.edge x.expr x.toks) ∧
      (∀ a x b, xs = a ++ x :: b → x.comma = none →
        Follow x.edge ((b.map (·.all)).flatten ++ rest)) ∧
      es' = es ++ xs.map (·.expr) ∧ us = (xs.map (·.all)).flatten) ((pure es : P (List Expr)) l) :=
    fun l ts h => Sees.ret h ⟨[], by simp, by simp, by simp, by simp⟩
  unfold brackLoop
  refine Sees.bind (Sees.isDone h) ?_
  rintro b us ts l1 rfl h1 ⟨rfl, _, rfl⟩
  by_cases hb : nextTok ts = .eof
  · simp only [hb, decide_true, if_true]
    exact stop _ _ h1
  simp only [hb, decide_false, if_false, Bool.false_eq_true]
  refine Sees.bind (Sees.peekOn _ h1) ?_
  rintro b us ts l2 rfl h2 ⟨rfl, hr, rfl⟩
  by_cases hb : Token.brackR = nextTok ts
  · simp only [hb, decide_true, if_true]
    exact stop _ _ h2
  simp only [hb, decide_false, if_false, Bool.false_eq_true]
  refine Sees.bind (ih.expression l2 ts h2) ?_
  rintro e us rest l3 rfl h3 ⟨m, he, hf⟩
  have hcol : l2.col = firstCol us := hr.col he.ne_nil
  rw [hcol] at he
  refine Sees.bind (Sees.bumpOn (by simp) h3) ?_
  rintro b vs rest l4 rfl h4 hb
  refine Sees.mono (ih.brackLoop l4 rest _ h4) ?_
  rintro es' ws rest l5 rfl ⟨xs, hx, hx', rfl, rfl⟩
  have hall : ∀ c, ∀ x ∈ (⟨e, us, m, c⟩ :: xs : List ListItem),
      Written .chain (firstCol x.toks) x.edge x.expr x.toks := by
    intro c x hm
    rcases List.mem_cons.1 hm with rfl | hm
    · exact he
    · exact hx x hm
  rcases hb with ⟨rfl, c, rfl, _⟩ | ⟨rfl, rfl, hne, _⟩
  · refine ⟨⟨e, us, m, some c⟩ :: xs, hall _, ?_, by simp, by simp [ListItem.all, commaToks]⟩
    intro a x b hab hn
    cases a with
    | nil => cases hab; cases hn
    | cons y a => cases hab; exact hx' a x b rfl hn
  · refine ⟨⟨e, us, m, none⟩ :: xs, hall _, ?_, by simp, by simp [ListItem.all, commaToks]⟩
    intro a x b hab hn
    cases a with
    | nil => cases hab; exact hf
    | cons y a => cases hab; exact hx' a x b rfl hn

theorem Follow.cut {m : Nat} {us rest : List CTok} {y : CTok} (h : Follow m (us ++ ([y] ++ rest))) :
    Follow m (us ++ [y]) := by
  cases us with
  | nil => exact h
  | cons x us => exact h

theorem brackExpr_exact {n : Nat} (ih : ExactSpec n) (l : Lexer) (ts : List CTok) (h : Strm l ts) :
    Sees ts (fun e us _ _ => ∀ c, Written .arg c c e us) (brackExpr (n + 1) l) := by
  unfold brackExpr
  refine Sees.bind (Sees.eat (by simp) h) ?_
  rintro _ us ts l1 rfl h1 ⟨k₀, rfl, _⟩
  refine Sees.bind (ih.brackLoop l1 ts [] h1) ?_
  rintro es us rest l2 rfl h2 ⟨xs, hx, hx', rfl, rfl⟩
  refine Sees.bind (Sees.eat (by simp) h2) ?_
  rintro _ us rest l3 rfl h3 ⟨k, rfl, _⟩
  refine Sees.ret h3 fun c => ?_
  have := Written.list (c := c) (k₀ := k₀) (k := k) hx fun a x b hab hn => (hx' a x b hab hn).cut
  simpa using this

theorem exactSpec (n : Nat) : ExactSpec n := by
  induction n with
  | zero => constructor <;> intros <;> trivial
  | succ n ih =>
    exact ⟨expression_exact ih, binaryLoop_exact ih, subexpression_exact ih, appLoop_exact ih,
      atom_exact ih, lambda_exact ih, parenExpr_exact ih, exprTail_exact ih, brackExpr_exact ih,
      brackLoop_exact ih⟩

end Pemdas
