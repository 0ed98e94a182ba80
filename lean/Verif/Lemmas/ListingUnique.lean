import Verif.Lemmas.HarmlessParse
import Verif.Props.Alike
import Verif.Props.Ledger
/-
Listings of fixities are different for different tables: how to take one apart.
-/
namespace Pemdas

/-- Names without a comma and a line end. -/
def Unbroken (s : Text) : Prop := s ≠ [] ∧ ',' ∉ s ∧ '\n' ∉ s

/-- The operators as a source without a carriage return after a line feed names them: a promoted name of
one character may have taken in the white space after it. -/
def Infix.Sourced : Infix → Prop
  | .standard s => Unbroken s ∧ s.head? ≠ some '\''
  | .promoted s => (Unbroken s ∧ s.head? ≠ some '\'') ∨ ∃ c w, s = [c, w] ∧ isWhitespace w = true

/-- What can be after an operator in a listing. -/
def Halts (r : Text) : Prop := r = [] ∨ (∃ r', r = ',' :: r') ∨ ∃ r', r = '\n' :: '\x1b' :: r'

theorem unbroken_unique {s s' r r' : Text} (h : s ++ r = s' ++ r') (hs : ',' ∉ s ∧ '\n' ∉ s)
    (hs' : ',' ∉ s' ∧ '\n' ∉ s') (hr : Halts r) (hr' : Halts r') : s = s' := by
  induction s generalizing s' with
  | nil =>
    cases s' with
    | nil => rfl
    | cons c s' =>
      simp only [List.nil_append, List.cons_append] at h
      subst h
      rcases hr with h | ⟨_, h⟩ | ⟨_, h⟩ <;> simp only [List.cons.injEq, reduceCtorEq] at h
      · exact absurd (h.1 ▸ List.mem_cons_self) hs'.1
      · exact absurd (h.1 ▸ List.mem_cons_self) hs'.2
  | cons c s ih =>
    cases s' with
    | nil =>
      simp only [List.nil_append, List.cons_append] at h
      subst h
      rcases hr' with h | ⟨_, h⟩ | ⟨_, h⟩ <;> simp only [List.cons.injEq, reduceCtorEq] at h
      · exact absurd (h.1 ▸ List.mem_cons_self) hs.1
      · exact absurd (h.1 ▸ List.mem_cons_self) hs.2
    | cons c' s' =>
      simp only [List.cons_append, List.cons.injEq] at h
      simp only [List.mem_cons, not_or] at hs hs'
      rw [h.1, ih h.2 ⟨hs.1.2, hs.2.2⟩ ⟨hs'.1.2, hs'.2.2⟩]

theorem taken_unique {s r r' : Text} {c w : Char} (h : s ++ r = c :: w :: r') (hs : Unbroken s)
    (hw : isWhitespace w = true) (hr : Halts r) (hr' : Halts r') : s = [c, w] := by
  obtain ⟨h0, h1, h2⟩ := hs
  cases s with
  | nil => exact absurd rfl h0
  | cons a s =>
    simp only [List.cons_append, List.cons.injEq] at h
    obtain ⟨rfl, h⟩ := h
    cases s with
    | nil =>
      simp only [List.nil_append] at h
      subst h
      rcases hr with h | ⟨_, h⟩ | ⟨_, h⟩ <;> simp only [List.cons.injEq, reduceCtorEq] at h
      · rw [h.1] at hw; exact absurd hw (by decide)
      · rw [h.2] at hr'
        rcases hr' with h | ⟨_, h⟩ | ⟨_, h⟩ <;>
          simp only [List.cons.injEq, reduceCtorEq] at h
        · exact absurd h.1 (by decide)
        · exact absurd h.1 (by decide)
    | cons b s =>
      simp only [List.cons_append, List.cons.injEq] at h
      obtain ⟨rfl, h⟩ := h
      cases s with
      | nil => rfl
      | cons d s =>
        simp only [List.cons_append] at h
        subst h
        simp only [List.mem_cons, not_or] at h1 h2
        rcases hr' with h | ⟨_, h⟩ | ⟨_, h⟩ <;> simp only [List.cons.injEq, reduceCtorEq] at h
        · exact absurd h.1.symm h1.2.2.1
        · exact absurd h.1.symm h2.2.2.1

theorem sourced_text {s : Text} (h : (Infix.promoted s).Sourced) : (Infix.promoted s).text = '\'' :: s := by
  unfold Infix.text
  simp only
  split
  · rename_i hc
    obtain ⟨h1, h2⟩ := hc
    exfalso
    rcases h with ⟨⟨h0, -⟩, h3⟩ | ⟨c, w, rfl, hw⟩
    · cases s with
      | nil => exact h0 rfl
      | cons c s =>
        cases s with
        | nil =>
          have := endsWith_iff.1 h2
          obtain ⟨p, hp⟩ := this
          cases p with
          | nil => simp only [List.nil_append, List.cons.injEq] at hp; rw [← hp.1] at h3; exact h3 rfl
          | cons a p => simp at hp
        | cons d s =>
          simp only [utf8Len_cons] at h1
          have := Char.utf8Size_pos c
          have := Char.utf8Size_pos d
          omega
    · simp only [utf8Len_cons] at h1
      have := Char.utf8Size_pos c
      have := Char.utf8Size_pos w
      omega
  · rfl

/-- Operators can be told apart in a listing. -/
theorem text_unique {a b : Infix} {r r' : Text} (h : a.text ++ r = b.text ++ r') (ha : a.Sourced)
    (hb : b.Sourced) (hr : Halts r) (hr' : Halts r') : a = b := by
  have clash : ∀ {s t u v : Text}, s ≠ [] → s.head? ≠ some '\'' → s ++ u = '\'' :: t ++ v → False := by
    intro s t u v h0 h1 h2
    cases s with
    | nil => exact h0 rfl
    | cons c s =>
      simp only [List.cons_append, List.cons.injEq] at h2
      rw [h2.1] at h1
      exact h1 rfl
  cases a with
  | standard s =>
    cases b with
    | standard t => rw [unbroken_unique (s := s) (s' := t) h ha.1.2 hb.1.2 hr hr']
    | promoted t => rw [sourced_text hb] at h; exact (clash ha.1.1 ha.2 h).elim
  | promoted s =>
    cases b with
    | standard t => rw [sourced_text ha] at h; exact (clash hb.1.1 hb.2 h.symm).elim
    | promoted t =>
      rw [sourced_text ha, sourced_text hb] at h
      simp only [List.cons_append, List.cons.injEq, true_and] at h
      congr 1
      rcases ha with ⟨ha, -⟩ | ⟨c, w, rfl, hw⟩
      · rcases hb with ⟨hb, -⟩ | ⟨c, w, rfl, hw⟩
        · exact unbroken_unique h ha.2 hb.2 hr hr'
        · exact taken_unique h ha hw hr hr'
      · rcases hb with ⟨hb, -⟩ | ⟨c', w', rfl, hw'⟩
        · exact (taken_unique h.symm hb hw hr' hr).symm
        · simp only [List.cons_append, List.cons.injEq] at h
          rw [h.1, h.2.1]

/-- What can be after a line of a listing. -/
def Ends2 (r : Text) : Prop := r = [] ∨ ∃ r', r = '\n' :: '\x1b' :: r'

theorem Ends2.halts {r : Text} (h : Ends2 r) : Halts r := h.elim .inl fun h => .inr (.inr h)

theorem intercalate_step (sep x : Text) (y : Text) (ys : List Text) (r : Text) :
    List.intercalate sep (x :: y :: ys) ++ r = x ++ (sep ++ (List.intercalate sep (y :: ys) ++ r)) := by
  simp [List.intercalate, List.intersperse, List.append_assoc]

theorem intercalate_one (sep x r : Text) : List.intercalate sep [x] ++ r = x ++ r := by
  simp [List.intercalate]

theorem ops_unique : ∀ {as bs : List Infix} {r r' : Text}, as ≠ [] → bs ≠ [] →
    (∀ a ∈ as, a.Sourced) → (∀ b ∈ bs, b.Sourced) → Ends2 r → Ends2 r' →
    List.intercalate t!", " (as.map Infix.text) ++ r = List.intercalate t!", " (bs.map Infix.text) ++ r' →
    as = bs ∧ r = r'
  | [], _, _, _, h, _, _, _, _, _, _ => absurd rfl h
  | _ :: _, [], _, _, _, h, _, _, _, _, _ => absurd rfl h
  | [a], [b], r, r', _, _, ha, hb, hr, hr', h => by
    simp only [List.map_cons, List.map_nil, intercalate_one] at h
    obtain rfl := text_unique h (ha a (by simp)) (hb b (by simp)) hr.halts hr'.halts
    exact ⟨rfl, List.append_cancel_left h⟩
  | [a], b :: b' :: bs, r, r', _, _, ha, hb, hr, hr', h => by
    simp only [List.map_cons, List.map_nil, intercalate_one, intercalate_step] at h
    obtain rfl := text_unique h (ha a (by simp)) (hb b (by simp)) hr.halts (.inr (.inl ⟨_, rfl⟩))
    have := List.append_cancel_left h
    subst this
    rcases hr with h | ⟨_, h⟩ <;> simp only [List.cons_append, List.cons.injEq, reduceCtorEq] at h
    exact absurd h.1 (by decide)
  | a :: a' :: as, [b], r, r', _, _, ha, hb, hr, hr', h => by
    simp only [List.map_cons, List.map_nil, intercalate_one, intercalate_step] at h
    obtain rfl := text_unique h (ha a (by simp)) (hb b (by simp)) (.inr (.inl ⟨_, rfl⟩)) hr'.halts
    have := (List.append_cancel_left h).symm
    subst this
    rcases hr' with h | ⟨_, h⟩ <;> simp only [List.cons_append, List.cons.injEq, reduceCtorEq] at h
    exact absurd h.1 (by decide)
  | a :: a' :: as, b :: b' :: bs, r, r', _, _, ha, hb, hr, hr', h => by
    simp only [List.map_cons, intercalate_step] at h
    obtain rfl := text_unique h (ha a (by simp)) (hb b (by simp)) (.inr (.inl ⟨_, rfl⟩))
      (.inr (.inl ⟨_, rfl⟩))
    have h2 := List.append_cancel_left (List.append_cancel_left h)
    have := ops_unique (as := a' :: as) (bs := b' :: bs) (List.cons_ne_nil _ _) (List.cons_ne_nil _ _)
      (fun x hx => ha x (List.mem_cons_of_mem _ hx)) (fun x hx => hb x (List.mem_cons_of_mem _ hx)) hr hr' h2
    exact ⟨by rw [this.1], this.2⟩

/-- The beginning of a line. -/
def Fixity.heading (fx : Fixity) : Text :=
  (painted t!"31" fx.assoc.shown ++ List.replicate (6 - fx.assoc.shown.length) ' ') ++ t!" " ++
    painted t!"38;2;128;0;128" (decText fx.prec) ++ t!" "

theorem heading_unique {fx fx' : Fixity} (h : fx.prec ≤ 9) (h' : fx'.prec ≤ 9) :
    fx.heading.length = fx'.heading.length ∧ (fx.heading = fx'.heading → fx = fx') := by
  have key : ∀ p < 10, ∀ q < 10, ∀ a ∈ [Assoc.left, .right, .neither], ∀ b ∈ [Assoc.left, .right, .neither],
      (Fixity.mk p a).heading.length = (Fixity.mk q b).heading.length ∧
      ((Fixity.mk p a).heading = (Fixity.mk q b).heading → p = q ∧ a = b) := by decide +kernel
  obtain ⟨p, a⟩ := fx
  obtain ⟨q, b⟩ := fx'
  have := key p (Nat.lt_succ_of_le h) q (Nat.lt_succ_of_le h') a (by cases a <;> decide) b
    (by cases b <;> decide)
  exact ⟨this.1, fun e => by rw [(this.2 e).1, (this.2 e).2]⟩

theorem heading_esc (fx : Fixity) : ∃ t, fx.heading = '\x1b' :: t := ⟨_, rfl⟩

theorem line_unique {fx fx' : Fixity} {as bs : List Infix} {r r' : Text} (h : fx.prec ≤ 9)
    (h' : fx'.prec ≤ 9) (h1 : as ≠ []) (h2 : bs ≠ []) (ha : ∀ a ∈ as, a.Sourced)
    (hb : ∀ b ∈ bs, b.Sourced) (hr : Ends2 r) (hr' : Ends2 r')
    (he : fx.written as ++ r = fx'.written bs ++ r') : fx = fx' ∧ as = bs ∧ r = r' := by
  obtain ⟨k1, k2⟩ := heading_unique h h'
  have he : fx.heading ++ (List.intercalate t!", " (as.map Infix.text) ++ r) =
      fx'.heading ++ (List.intercalate t!", " (bs.map Infix.text) ++ r') := by
    simpa only [Fixity.written, Fixity.heading, List.append_assoc] using he
  obtain ⟨e1, e2⟩ := List.append_inj he k1
  exact ⟨k2 e1, ops_unique h1 h2 ha hb hr hr' e2⟩

/-- A line of a listing that can be taken apart. -/
def LineOk (x : Fixity × List Infix) : Prop := x.1.prec ≤ 9 ∧ x.2 ≠ [] ∧ ∀ a ∈ x.2, a.Sourced

theorem written_esc (fx : Fixity) (ops : List Infix) : ∃ t, fx.written ops = '\x1b' :: t := ⟨_, rfl⟩

theorem lines_unique : ∀ {xs ys : List (Fixity × List Infix)}, (∀ x ∈ xs, LineOk x) → (∀ y ∈ ys, LineOk y) →
    List.intercalate t!"\n" (xs.map fun x => x.1.written x.2) =
      List.intercalate t!"\n" (ys.map fun x => x.1.written x.2) → xs = ys := by
  have step : ∀ {x : Text} {xs : List Text}, (∀ y ∈ xs, ∃ t, y = '\x1b' :: t) →
      ∃ r, List.intercalate t!"\n" (x :: xs) = x ++ r ∧ Ends2 r ∧ (r = [] ↔ xs = []) ∧
        ∀ y ys, xs = y :: ys → r = '\n' :: List.intercalate t!"\n" xs := by
    intro x xs hxs
    cases xs with
    | nil => exact ⟨[], by simp [List.intercalate], .inl rfl, by simp, by simp⟩
    | cons y ys =>
      obtain ⟨t, ht⟩ := hxs y List.mem_cons_self
      refine ⟨'\n' :: List.intercalate t!"\n" (y :: ys), ?_, ?_, by simp, fun _ _ _ => rfl⟩
      · simp [List.intercalate, List.intersperse]
      · refine .inr ?_
        subst ht
        cases ys with
        | nil => exact ⟨t, by simp [List.intercalate]⟩
        | cons z zs => exact ⟨_, by simp [List.intercalate, List.intersperse]; rfl⟩
  have esc : ∀ (xs : List (Fixity × List Infix)), ∀ y ∈ xs.map fun x => x.1.written x.2, ∃ t, y = '\x1b' :: t := by
    intro xs y hy
    obtain ⟨x, _, rfl⟩ := List.mem_map.1 hy
    exact written_esc _ _
  intro xs
  induction xs with
  | nil =>
    intro ys _ _ h
    cases ys with
    | nil => rfl
    | cons y ys =>
      obtain ⟨r, hr, -⟩ := step (x := y.1.written y.2) (esc ys)
      rw [List.map_cons, hr] at h
      obtain ⟨t, ht⟩ := written_esc y.1 y.2
      rw [ht] at h
      simp [List.intercalate] at h
  | cons x xs ih =>
    intro ys hx hy h
    obtain ⟨r, hr, hr1, hr2, hr3⟩ := step (x := x.1.written x.2) (esc xs)
    rw [List.map_cons, hr] at h
    cases ys with
    | nil =>
      obtain ⟨t, ht⟩ := written_esc x.1 x.2
      rw [ht] at h
      simp [List.intercalate] at h
    | cons y ys =>
      obtain ⟨q, hq, hq1, hq2, hq3⟩ := step (x := y.1.written y.2) (esc ys)
      rw [List.map_cons, hq] at h
      have h1 := hx x List.mem_cons_self
      have h2 := hy y List.mem_cons_self
      obtain ⟨e1, e2, rfl⟩ := line_unique h1.1 h2.1 h1.2.1 h2.2.1 h1.2.2 h2.2.2 hr1 hq1 h
      have hxs : xs = ys := by
        refine ih (fun z hz => hx z (List.mem_cons_of_mem _ hz)) (fun z hz => hy z (List.mem_cons_of_mem _ hz)) ?_
        by_cases hn : r = []
        · rw [hr2.1 hn, hq2.1 hn]
        · cases hxs : xs.map (fun x => x.1.written x.2) with
          | nil => exact absurd (hr2.2 hxs) hn
          | cons a as =>
            cases hys : ys.map (fun x => x.1.written x.2) with
            | nil => exact absurd (hq2.2 hys) hn
            | cons b bs =>
              have := (hr3 a as hxs).symm.trans (hq3 b bs hys)
              rw [hxs, hys] at this
              exact (List.cons.inj this).2
      rw [hxs, show x = y from Prod.ext e1 e2]

/-- What a listing shows decides the table, but for the order of its entries. -/
theorem listing_unique {l l' : Ledger} (h : ∀ x ∈ l, x.1.Sourced ∧ x.2.prec ≤ 9)
    (h' : ∀ x ∈ l', x.1.Sourced ∧ x.2.prec ≤ 9) (he : listingSent l = listingSent l') :
    ∀ x, x ∈ l ↔ x ∈ l' := by
  have ok : ∀ {l : Ledger}, (∀ x ∈ l, x.1.Sourced ∧ x.2.prec ≤ 9) →
      ∀ y ∈ (distinctFixities l).map (fun fx => (fx, (l.filter (·.2 = fx)).map (·.1))), LineOk y := by
    intro l h y hy
    obtain ⟨fx, hfx, rfl⟩ := List.mem_map.1 hy
    obtain ⟨e, he, rfl⟩ := List.mem_map.1 (mem_eraseDups.1 hfx)
    refine ⟨(h e he).2, ?_, ?_⟩
    · exact List.ne_nil_of_mem (List.mem_map.2 ⟨e, List.mem_filter.2 ⟨he, by simp⟩, rfl⟩)
    · intro op hop
      obtain ⟨e', he', rfl⟩ := List.mem_map.1 hop
      exact (h e' (List.mem_filter.1 he').1).1
  have eq := lines_unique (ok h) (ok h') (by
    simpa only [listingSent, List.map_map, Function.comp_def] using he)
  have sub : ∀ {l l' : Ledger}, (distinctFixities l).map (fun fx => (fx, (l.filter (·.2 = fx)).map (·.1))) =
      (distinctFixities l').map (fun fx => (fx, (l'.filter (·.2 = fx)).map (·.1))) → ∀ x ∈ l, x ∈ l' := by
    intro l l' eq x hx
    have h1 : (x.2, (l.filter (·.2 = x.2)).map (·.1)) ∈
        (distinctFixities l).map (fun fx => (fx, (l.filter (·.2 = fx)).map (·.1))) :=
      List.mem_map.2 ⟨x.2, mem_eraseDups.2 (List.mem_map_of_mem hx), rfl⟩
    rw [eq] at h1
    obtain ⟨fx, -, hf⟩ := List.mem_map.1 h1
    simp only [Prod.mk.injEq] at hf
    obtain ⟨rfl, hf⟩ := hf
    have h2 : x.1 ∈ (l.filter (·.2 = x.2)).map (·.1) :=
      List.mem_map.2 ⟨x, List.mem_filter.2 ⟨hx, by simp⟩, rfl⟩
    rw [← hf] at h2
    obtain ⟨y, hy, he⟩ := List.mem_map.1 h2
    obtain ⟨hy, hyf⟩ := List.mem_filter.1 hy
    have : y = x := Prod.ext he (by simpa using hyf)
    exact this ▸ hy
  exact fun x => ⟨sub eq x, sub eq.symm x⟩

/-! ### which operators get into the table -/

/-- All operators with an entry have the property. -/
def Ledger.Every (P : Infix → Prop) (l : Ledger) : Prop := ∀ x ∈ l, P x.1

section
variable {P : Infix → Prop}

theorem enterAll_every {l : Ledger} {xs : List (Infix × Fixity)} (hl : l.Every P) (hx : ∀ x ∈ xs, P x.1) :
    Ledger.Every P (l.enterAll xs) := by
  unfold Ledger.enterAll
  induction xs generalizing l with
  | nil => exact hl
  | cons x xs ih =>
    refine ih (fun y hy => ?_) fun y hy => hx y (List.mem_cons_of_mem _ hy)
    unfold Ledger.enter at hy
    split at hy
    · obtain ⟨z, hz, rfl⟩ := List.mem_map.1 hy
      split
      · exact hl z hz
      · exact hl z hz
    · rcases List.mem_append.1 hy with hy | hy
      · exact hl y hy
      · cases List.mem_singleton.1 hy; exact hx _ List.mem_cons_self

theorem afterLet_every {l l' : Ledger} {d : InfixDecl} (hl : l'.Every P) (hd : ∀ op ∈ d.infixes, P op) :
    Ledger.Every P (l.afterLet d l') := by
  intro y hy
  unfold Ledger.afterLet at hy
  obtain ⟨op, ho, rfl⟩ := List.mem_map.1 hy
  rcases List.mem_append.1 ho with ho | ho
  · obtain ⟨z, hz, rfl⟩ := List.mem_map.1 (List.mem_filter.1 ho).1
    exact hl z hz
  · exact hd op (seconds_mem (List.mem_filter.1 ho).1)

variable [CharTables] [LawfulTables]

set_option linter.unusedSectionVars false in
mutual
theorem Turns.every : ∀ {l : Ledger} {e e' : Expr} {es : List AssocError} {l' : Ledger},
    Turns l e e' es l' → l.Every P → (∀ d ∈ e.lets, ∀ op ∈ d.infixes, P op) → l'.Every P
  | _, _, _, _, _, .lit, hl, _ | _, _, _, _, _, .var, hl, _ | _, _, _, _, _, .ambiguous _, hl, _ => hl
  | _, _, _, _, _, .app h1 h2, hl, he =>
    Turns.every h2 (Turns.every h1 hl fun d hd => he d (List.mem_append_left _ hd))
      fun d hd => he d (List.mem_append_right _ hd)
  | _, _, _, _, _, .lam h1, hl, he | _, _, _, _, _, .grp h1, hl, he | _, _, _, _, _, .neg h1, hl, he =>
    Turns.every h1 hl he
  | _, _, _, _, _, .tup h1, hl, he | _, _, _, _, _, .list h1, hl, he =>
    TurnAll.every h1 hl fun x hx d hd => he d (mem_letsList.2 ⟨x, hx, hd⟩)
  | _, _, _, _, _, .let_ (d := d) h1, hl, he => by
    have hd : ∀ op ∈ d.infixes, P op := he d List.mem_cons_self
    refine afterLet_every (Turns.every h1 (enterAll_every hl fun x hx => ?_)
      fun d hd => he d (List.mem_cons_of_mem _ hd)) hd
    obtain ⟨op, ho, rfl⟩ := List.mem_map.1 hx
    exact hd op ho
  | _, _, _, _, _, .grouped (x := x) (op := op) (y := y) (s := s) (o := o) (t := t) _ h2 h3 h4 h5, hl, he => by
    have : ∀ d ∈ (OpTree.node s o t).toExpr.lets, ∀ op ∈ d.infixes, P op := by
      intro d hd
      rw [lets_toExpr, h3, ← lets_chain] at hd
      exact he d hd
    exact Turns.every h5 (Turns.every h4 hl fun d hd => this d (List.mem_append_left _ hd))
      fun d hd => this d (List.mem_append_right _ hd)
theorem TurnAll.every : ∀ {l : Ledger} {xs xs' : List Expr} {es : List AssocError} {l' : Ledger},
    TurnAll l xs xs' es l' → l.Every P → (∀ x ∈ xs, ∀ d ∈ x.lets, ∀ op ∈ d.infixes, P op) → l'.Every P
  | _, _, _, _, _, .nil, hl, _ => hl
  | _, _, _, _, _, .cons h1 h2, hl, he =>
    TurnAll.every h2 (Turns.every h1 hl (he _ List.mem_cons_self))
      fun x hx => he x (List.mem_cons_of_mem _ hx)
end
end

section
variable [CharTables] [LawfulTables]

omit [CharTables] [LawfulTables] in
theorem unbroken_trailing {t : Text} (h : t.all isTrailing = true) : ',' ∉ t ∧ '\n' ∉ t :=
  ⟨fun hm => absurd (List.all_eq_true.1 h _ hm) (by decide),
    fun hm => absurd (List.all_eq_true.1 h _ hm) (by decide)⟩

theorem Token.sourced {src : Text} {t : Token} (h : t.LexedFrom src) {op : Infix} (ho : OpTok op t) :
    op.Sourced := by
  cases ho with
  | dash => exact ⟨⟨by decide, by decide, by decide⟩, by decide⟩
  | at_ => exact ⟨⟨by decide, by decide, by decide⟩, by decide⟩
  | standard s =>
    obtain ⟨c, y, rfl, hc, ⟨b, t, rfl, hb, ht⟩, -⟩ := h
    obtain ⟨t1, t2⟩ := unbroken_trailing ht
    have key : ∀ d : Char, isInfixChar d = false → d ∉ t → d ∉ c :: (b ++ t) := by
      intro d hd ht hm
      rcases List.mem_cons.1 hm with rfl | hm
      · rw [hc] at hd; cases hd
      · rcases List.mem_append.1 hm with hm | hm
        · rw [List.all_eq_true.1 hb _ hm] at hd; cases hd
        · exact ht hm
    refine ⟨⟨List.cons_ne_nil _ _, key _ (by decide) t1, key _ (by decide) t2⟩, ?_⟩
    intro e
    simp only [List.head?_cons, Option.some.injEq] at e
    subst e
    exact absurd hc (by decide)
  | promoted s =>
    rcases h with ⟨c, y, rfl, hc, ⟨b, t, rfl, hb, ht⟩⟩ | ⟨c, w, rfl, hw, -⟩
    · obtain ⟨t1, t2⟩ := unbroken_trailing ht
      have key : ∀ d : Char, isIdentStart d = false → isIdentChar d = false → d ∉ t → d ∉ c :: (b ++ t) := by
        intro d hd hd' ht hm
        rcases List.mem_cons.1 hm with rfl | hm
        · rw [hc] at hd; cases hd
        · rcases List.mem_append.1 hm with hm | hm
          · rw [List.all_eq_true.1 hb _ hm] at hd'; cases hd'
          · exact ht hm
      refine .inl ⟨⟨List.cons_ne_nil _ _, key _ ?_ ?_ t1, key _ ?_ ?_ t2⟩, ?_⟩
      · rw [TLex.ascii_identStart (by decide)]; decide
      · rw [TLex.ascii_identChar (by decide)]; decide
      · rw [TLex.ascii_identStart (by decide)]; decide
      · rw [TLex.ascii_identChar (by decide)]; decide
      · intro e
        simp only [List.head?_cons, Option.some.injEq] at e
        subst e
        rw [TLex.ascii_identStart (by decide)] at hc
        exact absurd hc (by decide)
    · exact .inr ⟨c, w, rfl, hw⟩

theorem parsed_sourced {src : Text} (hc : NoLFCR src) {ast : Ast} {lx : Lexer} (h : parse src = .ok ast lx) :
    ∀ d ∈ ast.allDecls, ∀ op ∈ d.infixes, op.Sourced := by
  intro d hd op ho
  obtain ⟨xs, ts, h1, h2, h3⟩ := C38_written h hd
  obtain ⟨t, ht, hot⟩ := h3.tokens op ho
  obtain ⟨x, hx, rfl⟩ := List.mem_map.1 (h2.subset ht)
  exact Token.sourced (Lexer.items_lexed hc .new h1 x hx) hot

/-- An event without a carriage return directly after a line feed. -/
def Event.Tidy : Event → Prop
  | .text t => NoLFCR t
  | _ => True

theorem books_sourced {l l' : Ledger} {evs : List Event} (h : Books l evs l') (he : ∀ ev ∈ evs, ev.Tidy)
    (hl : l.Every Infix.Sourced) : l'.Every Infix.Sourced := by
  have dec : ∀ x ∈ mathEntries ++ preludeEntries,
      (x.1.symbol ≠ [] ∧ ',' ∉ x.1.symbol ∧ '\n' ∉ x.1.symbol) ∧ x.1.symbol.head? ≠ some '\'' := by
    decide +kernel
  have src : ∀ x ∈ mathEntries ++ preludeEntries, x.1.Sourced := by
    intro x hx
    obtain ⟨h1, h2⟩ := dec x hx
    obtain ⟨op, fx⟩ := x
    cases op with
    | standard s => exact ⟨h1, h2⟩
    | promoted s => exact .inl ⟨h1, h2⟩
  induction h with
  | nil => exact hl
  | wrong _ _ ih => exact ih (fun ev hev => he ev (List.mem_cons_of_mem _ hev)) hl
  | input h1 h2 _ ih =>
    have hs := parsed_sourced (he _ List.mem_cons_self) h1
    refine ih (fun ev hev => he ev (List.mem_cons_of_mem _ hev)) ?_
    refine TurnAll.every h2 (enterAll_every hl ?_) ?_
    · intro x hx
      obtain ⟨ys, hys, hx⟩ := List.mem_flatten.1 hx
      obtain ⟨d, hd, rfl⟩ := List.mem_map.1 hys
      obtain ⟨op, ho, rfl⟩ := List.mem_map.1 hx
      exact hs d (List.mem_append_left _ hd) op ho
    · intro x hx d hd
      exact hs d (List.mem_append_right _ (mem_letsList.2 ⟨x, hx, hd⟩))
  | clear _ ih => exact ih (fun ev hev => he ev (List.mem_cons_of_mem _ hev)) fun x hx => by cases hx
  | math _ ih =>
    exact ih (fun ev hev => he ev (List.mem_cons_of_mem _ hev))
      (enterAll_every hl fun x hx => src x (List.mem_append_left _ hx))
  | prelude _ ih =>
    exact ih (fun ev hev => he ev (List.mem_cons_of_mem _ hev))
      (enterAll_every hl fun x hx => src x (List.mem_append_right _ hx))

end

end Pemdas
