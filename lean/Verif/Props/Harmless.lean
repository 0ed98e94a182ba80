import Verif.Lemmas.HarmlessParse
import Verif.Props.Confined
/-
C167: what is typed and what is in files cannot change how the terminal shows text.
-/
namespace Pemdas
open Session

section
variable [CharTables] [LawfulTables]

/-! ### helpers: one input -/

omit [CharTables] [LawfulTables] in
theorem tag_harmless : Harmless (painted t!"0" (painted t!"31" t!"[Error]:" ++ t!" ")) :=
  .painted (by decide) ((Whole.painted (by decide) (Inert.of_noEsc (by decide)).whole).append
    (Inert.of_noEsc (by decide)).whole)

omit [CharTables] [LawfulTables] in
theorem firstOfEach_subset {es : List AssocError} : ∀ e ∈ firstOfEach es, e ∈ es := by
  induction es with
  | nil => intro e h; exact h
  | cons a es ih =>
    intro e h
    simp only [firstOfEach, List.mem_cons] at h
    rcases h with rfl | h
    · exact List.mem_cons_self
    · exact List.mem_cons_of_mem _ (ih e (List.mem_filter.1 h).1)

theorem answer_harmless {kinds : List DeclKind} {xs : List Expr} {es : List AssocError}
    (hx : ∀ x ∈ xs, x.Inert) (he : ∀ e ∈ es, e.Inert) : ∀ x ∈ answer kinds xs es, x.Harmless := by
  have hf : ∀ e ∈ firstOfEach es, e.Inert := fun e h => he e (firstOfEach_subset e h)
  have nl : Harmless t!"\n" := (Inert.of_noEsc (by decide)).harmless
  intro x h
  unfold answer at h
  simp only at h
  split at h
  · cases List.mem_singleton.1 h
    exact .append (.append (Inert.of_noEsc (by decide)).harmless
      (drawn_harmless (hx _ List.mem_cons_self).1)) nl
  · cases h
  · rename_i hq
    cases List.mem_singleton.1 h
    have := hf _ (by rw [hq]; exact List.mem_cons_self)
    exact .append (.append tag_harmless (AssocError.inert this.1 this.2).harmless) nl
  · cases List.mem_singleton.1 h
    refine .append (.append tag_harmless (.flatMap fun e h => ?_)) nl
    have := hf e h
    exact .append (Inert.of_noEsc (by decide)).harmless (AssocError.inert this.1 this.2).harmless

omit [LawfulTables] [CharTables] in
theorem declared_inert {ds : List InfixDecl} (h : ∀ d ∈ ds, ∀ op ∈ d.infixes, Inert op.symbol) :
    Ledger.Inert (declared ds) := by
  intro x hx
  unfold declared at hx
  obtain ⟨ys, hy, hx⟩ := List.mem_flatten.1 hx
  obtain ⟨d, hd, rfl⟩ := List.mem_map.1 hy
  obtain ⟨op, ho, rfl⟩ := List.mem_map.1 hx
  exact h d hd op ho

theorem turned_inert {src : Text} (hd : Docile src) {l l' : Ledger} {ast : Ast} {lx : Lexer}
    (hl : l.Inert) (h : parse src = .ok ast lx) {xs : List Expr} {es : List AssocError}
    (ht : TurnAll (l.enterAll (declared ast.infxs)) ast.exprs xs es l') :
    Ledger.Inert (declared ast.infxs) ∧ (∀ x ∈ xs, x.Inert) ∧ (∀ x ∈ es, x.Inert) ∧ l'.Inert := by
  obtain ⟨h1, h2⟩ := parsed_inert (hd.imp id And.left) h
  have hdl : Ledger.Inert (declared ast.infxs) :=
    declared_inert fun d hd => h2 d (List.mem_append_left _ hd)
  refine ⟨hdl, ht.inert (enterAll_inert hl hdl) fun x hx => ⟨h1 x hx, fun d hd => ?_⟩⟩
  exact h2 d (List.mem_append_right _ (mem_letsList.2 ⟨x, hx, hd⟩))

theorem replies_harmless {src : Text} (hd : Docile src) {l l' : Ledger} {fx : List Effect} (hl : l.Inert)
    (h : Replies l src fx l') : (∀ x ∈ fx, x.Harmless) ∧ l'.Inert := by
  cases h with
  | wrong h1 h2 =>
    refine ⟨fun x hx => ?_, hl⟩
    cases List.mem_singleton.1 hx
    obtain ⟨a, b⟩ := message_inert hd h1
    exact .append (.append tag_harmless (h2.inert a b).2.harmless) (Inert.of_noEsc (by decide)).harmless
  | input h1 h2 =>
    obtain ⟨-, a, b, c⟩ := turned_inert hd hl h1 h2
    exact ⟨answer_harmless a b, c⟩

theorem begun_inert {src : Text} (hd : Docile src) {e : ParseError} {lx : Lexer} {m : Text}
    (h : parse src = .err e lx) (hb : Begun e m) : Inert m := by
  cases hb with
  | unexpected => exact .of_noEsc (by decide)
  | expected ht =>
    have := Token.text_inert ht ((message_inert hd h).2 _ _ _ rfl).1
    exact .append (.append (.of_noEsc (by decide)) this) (.of_noEsc (by decide))

theorem snaps_harmless {src : Text} (hd : Docile src) {fx : List Effect} {p : Panic}
    (h : Snaps src fx p) : ∀ x ∈ fx, x.Harmless := by
  intro x hx
  cases h with
  | silently => cases hx
  | speaking h1 h2 =>
    cases List.mem_singleton.1 hx
    exact .append tag_harmless (begun_inert hd h1 h2).harmless

/-! ### helpers: files -/

omit [CharTables] [LawfulTables] in
theorem opens_subset {word p : Text} (h : Opens word p) (hw : '\x1b' ∉ word) : '\x1b' ∉ p := by
  unfold Opens at h
  split at h
  · rw [h] at hw
    exact fun hm => hw (List.mem_cons_of_mem _ hm)
  · rw [h]; exact hw

omit [CharTables] [LawfulTables] in
theorem place_harmless {p : Text} (hp : Inert p) (e : ParseError) : Harmless (painted t!"31" t!"[Error]:" ++ t!"  " ++
      painted t!"34" (t!"(" ++ p ++ t!":" ++ decText e.loc.line ++ t!":" ++ decText e.loc.col ++ t!") ")) :=
  .append (.append (.painted (by decide) (Inert.of_noEsc (by decide)).whole)
    (Inert.of_noEsc (by decide)).harmless) (.painted (by decide) (Inert.whole
    (.append (.append (.append (.append (.append (.append (.of_noEsc (by decide)) hp) (.of_noEsc (by decide)))
      (inert_dec _)) (.of_noEsc (by decide))) (inert_dec _)) (.of_noEsc (by decide)))))

theorem file_harmless {w : World} (hw : Calm w) {l l' : Ledger} {word : Text} {fx : List Effect}
    (he : '\x1b' ∉ word) (hl : l.Inert) (h : RepliesFile w l word fx l') :
    (∀ x ∈ fx, x.Harmless) ∧ l'.Inert := by
  cases h with
  | missing h1 h2 =>
    have hp := Inert.of_noEsc (opens_subset h1 he)
    refine ⟨fun x hx => ?_, hl⟩
    simp only [List.mem_cons, List.not_mem_nil, or_false] at hx
    rcases hx with rfl | rfl | rfl
    · trivial
    · exact (Inert.append (.append (.of_noEsc (by decide)) hp) (.of_noEsc (by decide))).harmless
    · exact (Inert.append (.of_noEsc (hw.unread _ _ h2)) (.of_noEsc (by decide))).harmless
  | wrong h1 h2 h3 h4 h5 =>
    have hp := Inert.of_noEsc (opens_subset h1 he)
    obtain ⟨a, b⟩ := message_inert (hw.files _ _ _ h2 h3) h4
    refine ⟨fun x hx => ?_, hl⟩
    simp only [List.mem_cons, List.not_mem_nil, or_false] at hx
    rcases hx with rfl | rfl
    · trivial
    · exact .append (.append (place_harmless hp _) (h5.inert a b).1.harmless)
        (Inert.of_noEsc (by decide)).harmless
  | accepted h1 h2 h3 h4 h5 =>
    have hp := Inert.of_noEsc (opens_subset h1 he)
    obtain ⟨a, -, -, b⟩ := turned_inert (hw.files _ _ _ h2 h3) hl h4 h5
    refine ⟨fun x hx => ?_, b⟩
    simp only [List.mem_cons, List.not_mem_nil, or_false] at hx
    rcases hx with rfl | rfl | rfl
    · trivial
    · exact (Inert.append (.append (.append (inert_dec _) (.of_noEsc (by decide))) hp)
        (.of_noEsc (by decide))).harmless
    · exact .append (listing_harmless a) (Inert.of_noEsc (by decide)).harmless
  | ambiguous h1 h2 h3 h4 h5 =>
    have hp := Inert.of_noEsc (opens_subset h1 he)
    obtain ⟨-, -, a, b⟩ := turned_inert (hw.files _ _ _ h2 h3) hl h4 h5
    refine ⟨fun x hx => ?_, b⟩
    simp only [List.mem_cons, List.not_mem_nil, or_false] at hx
    rcases hx with rfl | rfl
    · trivial
    · refine .append (.append (.append (.append (.painted (by decide) (Inert.of_noEsc (by decide)).whole)
        (Inert.of_noEsc (by decide)).harmless) (.painted (by decide) (Inert.whole
        (.append (.append (.of_noEsc (by decide)) hp) (.of_noEsc (by decide)))))) (.flatMap fun e h => ?_))
        (Inert.of_noEsc (by decide)).harmless
      have := a e (firstOfEach_subset e h)
      exact .append (Inert.of_noEsc (by decide)).harmless (AssocError.inert this.1 this.2).harmless

theorem files_harmless {w : World} (hw : Calm w) {l l' : Ledger} {ws : List Text} {fx : List Effect}
    (h : RepliesFiles w l ws fx l') (he : ∀ word ∈ ws, '\x1b' ∉ word) (hl : l.Inert) :
    (∀ x ∈ fx, x.Harmless) ∧ l'.Inert := by
  induction h with
  | nil => exact ⟨fun x hx => (by cases hx), hl⟩
  | cons h1 h2 ih =>
    obtain ⟨a, b⟩ := file_harmless hw (he _ List.mem_cons_self) hl h1
    obtain ⟨c, d⟩ := ih (fun word h => he word (List.mem_cons_of_mem _ h)) b
    exact ⟨fun x hx => (List.mem_append.1 hx).elim (a x) (c x), d⟩

theorem snapsFile_harmless {w : World} (hw : Calm w) {word : Text} {fx : List Effect} {p : Panic}
    (he : '\x1b' ∉ word) (h : SnapsFile w word fx p) : ∀ x ∈ fx, x.Harmless := by
  intro x hx
  cases h with
  | silently => cases List.mem_singleton.1 hx; trivial
  | speaking h1 h2 h3 h4 h5 =>
    simp only [List.mem_cons, List.not_mem_nil, or_false] at hx
    rcases hx with rfl | rfl
    · trivial
    · exact .append (place_harmless (.of_noEsc (opens_subset h1 he)) _)
        (begun_inert (hw.files _ _ _ h2 h3) h4 h5).harmless

/-! ### helpers: lines -/

omit [CharTables] [LawfulTables] in
theorem says_noEsc {line c : Text} (h : Says line c) (hl : '\x1b' ∉ line) : '\x1b' ∉ c := by
  obtain ⟨a, b, rfl, -⟩ := h
  exact fun hm => hl (by simp [hm])

omit [CharTables] [LawfulTables] in
theorem asks_noEsc {line word o : Text} (h : Asks line word o) (hl : '\x1b' ∉ line) : '\x1b' ∉ o := by
  rcases h with ⟨b, h, -⟩ | ⟨-, rfl⟩
  · have := says_noEsc h hl
    exact fun hm => this (by simp [hm])
  · exact List.not_mem_nil

omit [CharTables] [LawfulTables] in
theorem words_noEsc {o : Text} {ws : List Text} (h : Words o ws) (ho : '\x1b' ∉ o) :
    ∀ w ∈ ws, '\x1b' ∉ w := by
  induction h with
  | nil => intro w hw; cases hw
  | cons h1 h2 h3 h4 h5 ih =>
    intro w hw
    rcases List.mem_cons.1 hw with rfl | hw
    · exact fun hm => ho (by simp [hm])
    · exact ih (fun hm => ho (by simp [hm])) w hw

/-- What a session has does nothing to the terminal. -/
structure Desk.Inert (d : Desk) : Prop where
  ledger : d.ledger.Inert
  pending : '\x1b' ∉ d.pending
  history : '\x1b' ∉ d.history

omit [CharTables] [LawfulTables] in
theorem said_noEsc {t : Text} (h : '\x1b' ∉ t) : Harmless t := (Inert.of_noEsc h).harmless

omit [CharTables] [LawfulTables] in
theorem noEsc_append {a b : Text} (ha : '\x1b' ∉ a) (hb : '\x1b' ∉ b) : '\x1b' ∉ a ++ b := fun h =>
  (List.mem_append.1 h).elim ha hb

omit [CharTables] [LawfulTables] in
theorem math_noEsc : ∀ x ∈ mathEntries, '\x1b' ∉ x.1.symbol := by decide +kernel

omit [CharTables] [LawfulTables] in
theorem prelude_noEsc : ∀ x ∈ preludeEntries, '\x1b' ∉ x.1.symbol := by decide +kernel

omit [CharTables] [LawfulTables] in
theorem enters_harmless {d : Desk} {xs : List (Infix × Fixity)} {t : Text} (hd : d.Inert)
    (h : ∀ x ∈ xs, '\x1b' ∉ x.1.symbol) (ht : '\x1b' ∉ t) :
    (∀ x ∈ [Effect.out t], x.Harmless) ∧ ({ d with ledger := d.ledger.enterAll xs } : Desk).Inert := by
  refine ⟨fun x hx => ?_, ⟨enterAll_inert hd.1 fun x hx => .of_noEsc (h x hx), hd.2, hd.3⟩⟩
  cases List.mem_singleton.1 hx
  exact said_noEsc ht

theorem obeys_harmless {w : World} (hw : Calm w) {d d' : Desk} {word o : Text} {fx : List Effect}
    (ho : '\x1b' ∉ o) (hd : d.Inert) (h : Obeys w d word o d' fx) :
    (∀ x ∈ fx, x.Harmless) ∧ d'.Inert := by
  cases h with
  | cd h1 h2 => refine ⟨fun x hx => ?_, hd⟩; cases List.mem_singleton.1 hx; trivial
  | cdFails h1 h2 =>
    refine ⟨fun x hx => ?_, hd⟩
    simp only [List.mem_cons, List.not_mem_nil, or_false] at hx
    rcases hx with rfl | rfl
    · trivial
    · exact said_noEsc (noEsc_append (noEsc_append (noEsc_append (noEsc_append (by decide) ho) (by decide))
        (hw.chdir _ _ h2)) (by decide))
  | cdNowhere =>
    refine ⟨fun x hx => ?_, hd⟩; cases List.mem_singleton.1 hx; exact said_noEsc (by decide)
  | clearHistory =>
    refine ⟨fun x hx => ?_, hd⟩
    simp only [List.mem_cons, List.not_mem_nil, or_false] at hx
    rcases hx with rfl | rfl
    · trivial
    · exact said_noEsc (by decide)
  | clearFixities =>
    refine ⟨fun x hx => ?_, ⟨fun x hx => (by cases hx), hd.2, hd.3⟩⟩
    cases List.mem_singleton.1 hx
    exact said_noEsc (noEsc_append (decText_noEsc _) (by decide))
  | clearSession h1 =>
    refine ⟨fun x hx => ?_, ⟨fun x hx => (by cases hx), hd.2, hd.3⟩⟩
    simp only [List.mem_cons, List.not_mem_nil, or_false] at hx
    rcases hx with rfl | rfl
    · trivial
    · exact said_noEsc (noEsc_append (decText_noEsc _) (by decide))
  | clearOther =>
    refine ⟨fun x hx => ?_, hd⟩; cases List.mem_singleton.1 hx
    exact said_noEsc (noEsc_append (noEsc_append (by decide) ho) (by decide))
  | forget =>
    refine ⟨fun x hx => ?_, hd⟩
    simp only [List.mem_cons, List.not_mem_nil, or_false] at hx
    rcases hx with rfl | rfl
    · trivial
    · exact said_noEsc (by decide)
  | forgetFile =>
    refine ⟨fun x hx => ?_, hd⟩
    simp only [List.mem_cons, List.not_mem_nil, or_false] at hx
    rcases hx with rfl | rfl | rfl
    · trivial
    · trivial
    · exact said_noEsc (by decide)
  | setNothing =>
    refine ⟨fun x hx => ?_, hd⟩; cases List.mem_singleton.1 hx; exact said_noEsc (by decide)
  | set h1 h2 =>
    have hp := fun hm => ho (List.mem_append_right _ hm)
    refine ⟨fun x hx => ?_, ⟨hd.1, hd.2, hp⟩⟩
    cases List.mem_singleton.1 hx
    exact said_noEsc (noEsc_append (noEsc_append (by decide) hp) (by decide))
  | save =>
    refine ⟨fun x hx => ?_, hd⟩
    simp only [List.mem_cons, List.not_mem_nil, or_false] at hx
    rcases hx with rfl | rfl
    · trivial
    · exact said_noEsc (noEsc_append (noEsc_append (by decide) hd.3) (by decide))
  | saveTo h1 h2 h3 =>
    refine ⟨fun x hx => ?_, hd⟩
    simp only [List.mem_cons, List.not_mem_nil, or_false] at hx
    rcases hx with rfl | rfl
    · trivial
    · exact said_noEsc (noEsc_append (noEsc_append (by decide) hd.3) (by decide))
  | historyOther =>
    refine ⟨fun x hx => ?_, hd⟩
    simp only [List.mem_cons, List.not_mem_nil, or_false] at hx
    rcases hx with rfl | rfl
    · exact said_noEsc (noEsc_append (noEsc_append (by decide) ho) (by decide))
    · exact said_noEsc (by decide)
  | loadNothing =>
    refine ⟨fun x hx => ?_, hd⟩; cases List.mem_singleton.1 hx; exact said_noEsc (by decide)
  | math => exact enters_harmless hd math_noEsc (by decide)
  | prelude => exact enters_harmless hd prelude_noEsc (by decide)
  | files h1 h2 h3 =>
    obtain ⟨a, b⟩ := files_harmless hw h3 (words_noEsc h2 ho) hd.1
    exact ⟨a, ⟨b, hd.2, hd.3⟩⟩
  | shell h1 h2 =>
    refine ⟨fun x hx => ?_, hd⟩
    simp only [List.mem_cons, List.not_mem_nil, or_false] at hx
    rcases hx with rfl | rfl <;> trivial
  | shellFails h1 h2 =>
    refine ⟨fun x hx => ?_, hd⟩
    simp only [List.mem_cons, List.not_mem_nil, or_false] at hx
    rcases hx with rfl | rfl
    · trivial
    · exact said_noEsc (noEsc_append (hw.spawn _ _ _ h2) (by decide))
  | shellNothing =>
    refine ⟨fun x hx => ?_, hd⟩
    simp only [List.mem_cons, List.not_mem_nil, or_false] at hx
    rcases hx with rfl | rfl <;> exact said_noEsc (by decide)

omit [CharTables] [LawfulTables] in
theorem entry_mem {l : Ledger} {n : Text} {x : Infix × Fixity} (h : l.entry n = some x) : x ∈ l :=
  List.mem_of_find?_eq_some h

omit [CharTables] [LawfulTables] in
theorem entries_inert {l : Ledger} (h : l.Inert) (ws : List Text) :
    Ledger.Inert (ws.filterMap l.entry) := by
  intro x hx
  obtain ⟨n, -, hn⟩ := List.mem_filterMap.1 hx
  exact h x (entry_mem hn)

theorem does_harmless {w : World} (hw : Calm w) {d d' : Desk} {line : Text} {go : Bool}
    {fx : List Effect} (hl : '\x1b' ∉ line) (hd : d.Inert) (h : Does w d line go d' fx) :
    (∀ x ∈ fx, x.Harmless) ∧ d'.Inert := by
  have body : ∀ {b fx l}, '\x1b' ∉ b → Replies d.ledger (d.pending ++ b) fx l →
      (∀ x ∈ fx, x.Harmless) ∧ l.Inert := fun hb h =>
    replies_harmless (.inl (noEsc_append hd.2 hb)) hd.1 h
  cases h with
  | blank => exact ⟨fun x hx => (by cases hx), hd⟩
  | busy =>
    refine ⟨fun x hx => ?_, hd⟩; cases List.mem_singleton.1 hx; exact said_noEsc (by decide)
  | continues h1 =>
    refine ⟨fun x hx => (by cases hx), ⟨hd.1, noEsc_append hd.2 ?_, hd.3⟩⟩
    cases h1 with
    | decl h1 =>
      have := says_noEsc h1 hl
      exact noEsc_append (fun hm => this (List.mem_append_left _ hm)) (by decide)
    | other h1 =>
      have := says_noEsc h1 hl
      exact noEsc_append (fun hm => this (List.mem_append_left _ hm)) (by decide)
  | opens h1 =>
    have := says_noEsc h1 hl
    exact ⟨fun x hx => (by cases hx), ⟨hd.1, noEsc_append hd.2 fun hm => this (List.mem_append_right _ hm),
      hd.3⟩⟩
  | ends h1 h2 =>
    cases h1 with
    | plain h1 =>
      obtain ⟨a, b⟩ := body (says_noEsc h1 hl) h2
      exact ⟨a, ⟨b, List.not_mem_nil, hd.3⟩⟩
  | block h1 h2 =>
    obtain ⟨n, m, h1, -⟩ := h1
    have := says_noEsc h1 hl
    obtain ⟨a, b⟩ := body (fun hm => this (List.mem_append_left _ (List.mem_append_right _ hm))) h2
    exact ⟨a, ⟨b, List.not_mem_nil, hd.3⟩⟩
  | help =>
    refine ⟨fun x hx => ?_, hd⟩; cases List.mem_singleton.1 hx
    exact said_noEsc (by decide +kernel)
  | quit h1 h2 h3 =>
    refine ⟨fun x hx => ?_, hd⟩
    simp only [List.mem_cons, List.not_mem_nil, or_false] at hx
    rcases hx with rfl | rfl
    · trivial
    · exact said_noEsc (by decide)
  | quitOnly =>
    refine ⟨fun x hx => ?_, hd⟩; cases List.mem_singleton.1 hx; exact said_noEsc (by decide)
  | reset =>
    refine ⟨fun x hx => ?_, ⟨fun x hx => (by cases hx), hd.2, hd.3⟩⟩
    cases List.mem_singleton.1 hx
    exact said_noEsc (noEsc_append (decText_noEsc _) (by decide))
  | fixities =>
    refine ⟨fun x hx => ?_, hd⟩; cases List.mem_singleton.1 hx
    exact .append (listing_harmless hd.1) (said_noEsc (by decide))
  | info =>
    refine ⟨fun x hx => ?_, hd⟩; cases List.mem_singleton.1 hx
    exact .append (listing_harmless (entries_inert hd.1 _)) (said_noEsc (by decide))
  | infoPartly h1 h2 h3 h4 h5 =>
    refine ⟨fun x hx => ?_, hd⟩
    have hw := words_noEsc h4 fun hm => asks_noEsc (.inl h3) hl (List.mem_filter.1 hm).1
    simp only [List.mem_cons, List.not_mem_nil, or_false] at hx
    rcases hx with rfl | rfl
    · exact .append (listing_harmless (entries_inert hd.1 _)) (said_noEsc (by decide))
    · refine (Inert.append (.of_noEsc (by decide)) (.intercalate (.of_noEsc (by decide)) ?_)).harmless
      intro t ht
      obtain ⟨n, hn, rfl⟩ := List.mem_map.1 ht
      refine Infix.inert (.of_noEsc ?_)
      have := hw n (List.mem_filter.1 hn).1
      unfold asked
      split <;> exact this
  | obeys h1 h2 h3 => exact obeys_harmless hw (asks_noEsc h2 hl) hd h3
  | unknown h1 h2 =>
    refine ⟨fun x hx => ?_, hd⟩; cases List.mem_singleton.1 hx
    exact said_noEsc (noEsc_append (noEsc_append (by decide) (says_noEsc h2 hl)) (by decide))

theorem falls_harmless {w : World} (hw : Calm w) {d : Desk} {line : Text} {fx : List Effect} {p : Panic}
    (hl : '\x1b' ∉ line) (hd : d.Inert) (h : Falls w d line fx p) : ∀ x ∈ fx, x.Harmless := by
  cases h with
  | ends h1 h2 =>
    cases h1 with
    | plain h1 => exact snaps_harmless (.inl (noEsc_append hd.2 (says_noEsc h1 hl))) h2
  | block h1 h2 =>
    obtain ⟨n, m, h1, -⟩ := h1
    have := says_noEsc h1 hl
    exact snaps_harmless (.inl (noEsc_append hd.2
      fun hm => this (List.mem_append_left _ (List.mem_append_right _ hm)))) h2
  | files h1 h2 h3 h4 h5 h6 =>
    have ws := words_noEsc h4 (asks_noEsc (.inl h2) hl)
    intro x hx
    rcases List.mem_append.1 hx with hx | hx
    · exact (files_harmless hw h5 (fun w h => ws w (List.mem_append_left _ h)) hd.1).1 x hx
    · exact snapsFile_harmless hw (ws _ (List.mem_append_right _ List.mem_cons_self)) h6 x hx

theorem sits_harmless {d d' : Desk} {ins : List (World × Input)} {go : Bool} {fx : List Effect}
    (h : Sits d ins go d' fx) (hl : ∀ l ∈ typed ins, '\x1b' ∉ l)
    (he : ∀ w e, (w, Input.error e) ∈ ins → '\x1b' ∉ e) (hw : ∀ w i, (w, i) ∈ ins → Calm w)
    (hd : d.Inert) : (∀ x ∈ fx, x.Harmless) ∧ d'.Inert := by
  induction h with
  | nothing => exact ⟨fun x hx => (by cases hx), hd⟩
  | eof => exact ⟨fun x hx => (by cases hx), hd⟩
  | interrupted => exact ⟨fun x hx => (by cases hx), hd⟩
  | error h ih =>
    obtain ⟨h1, h2⟩ := ih hl (fun w e h => he w e (List.mem_cons_of_mem _ h))
      (fun w i h => hw w i (List.mem_cons_of_mem _ h)) hd
    refine ⟨fun x hx => ?_, h2⟩
    rcases List.mem_cons.1 hx with rfl | hx
    · exact said_noEsc (noEsc_append (noEsc_append (by decide) (he _ _ List.mem_cons_self)) (by decide))
    · exact h1 x hx
  | quits h =>
    exact does_harmless (hw _ _ List.mem_cons_self) (hl _ (by simp [typed])) hd h
  | line h h' ih =>
    obtain ⟨h1, h2⟩ := does_harmless (hw _ _ List.mem_cons_self) (hl _ (by simp [typed])) hd h
    obtain ⟨h3, h4⟩ := ih (fun l h => hl l (by simp only [typed] at h ⊢; simp [h]))
      (fun w e h => he w e (List.mem_cons_of_mem _ h)) (fun w i h => hw w i (List.mem_cons_of_mem _ h)) h2
    exact ⟨fun x hx => (List.mem_append.1 hx).elim (h1 x) (h3 x), h4⟩

omit [CharTables] [LawfulTables] in
theorem housed_harmless {fs : FileSystem} {home dir : Option Text} {fx : List Effect}
    (hh : ∀ h, home = some h → '\x1b' ∉ h) (h : Housed fs home dir fx) :
    (∀ x ∈ fx, x.Harmless) ∧ ∀ p, dir = some p → '\x1b' ∉ p := by
  have hj : ∀ h, home = some h → '\x1b' ∉ pathJoin h t!".pemdas" := by
    intro h he
    have := hh h he
    unfold pathJoin
    repeat' split
    all_goals simp_all
  cases h with
  | found => exact ⟨fun x hx => (by cases hx), fun p hp => (by cases hp; exact hj _ rfl)⟩
  | file =>
    refine ⟨fun x hx => ?_, fun p hp => (by cases hp; decide)⟩
    simp only [List.mem_cons, List.not_mem_nil, or_false] at hx
    rcases hx with rfl | rfl <;> exact said_noEsc (by decide)
  | made => exact ⟨fun x hx => (by cases hx), fun p hp => (by cases hp; exact hj _ rfl)⟩
  | fails => exact ⟨fun x hx => (by cases hx), fun p hp => (by cases hp)⟩
  | homeless =>
    refine ⟨fun x hx => ?_, fun p hp => (by cases hp; decide)⟩
    simp only [List.mem_cons, List.not_mem_nil, or_false] at hx
    rcases hx with rfl | rfl <;> exact said_noEsc (by decide)

omit [CharTables] [LawfulTables] in
theorem keeps_harmless {fs : FileSystem} {home : Option Text} {path : Text} {fx : List Effect}
    (hh : ∀ h, home = some h → '\x1b' ∉ h) (h : Keeps fs home path fx) :
    (∀ x ∈ fx ++ greeting path, x.Harmless) ∧ '\x1b' ∉ path := by
  have key : (∀ x ∈ fx, x.Harmless) ∧ '\x1b' ∉ path := by
    cases h with
    | kept h1 => exact ⟨(housed_harmless hh h1).1, noEsc_append ((housed_harmless hh h1).2 _ rfl) (by decide)⟩
    | noFile h1 => exact ⟨(housed_harmless hh h1).1, List.not_mem_nil⟩
    | noDir h1 => exact ⟨(housed_harmless hh h1).1, List.not_mem_nil⟩
  refine ⟨fun x hx => ?_, key.2⟩
  rcases List.mem_append.1 hx with hx | hx
  · exact key.1 x hx
  · simp only [greeting, List.mem_cons, List.not_mem_nil, or_false] at hx
    rcases hx with rfl | rfl | rfl
    · exact said_noEsc (by decide)
    · exact said_noEsc (noEsc_append (noEsc_append (by decide) key.2) (by decide))
    · exact said_noEsc (by decide +kernel)

/-! ### C167 -/

/-- **C167**, part that holds, for one input: what is answered leaves the terminal as it was, even if
the source has escape characters (in comments, in literals), as long as it has no "\n\r" and is not
rejected because of what stands between backticks; and if it has no escape characters, always. (Missing:
see `C167_file_wrong`, `C167_shifted_wrong`.) -/
theorem C167_input_partial {src : Text} (hd : Docile src) {l l' : Ledger} {fx : List Effect}
    (hl : ∀ x ∈ l, '\x1b' ∉ x.1.symbol) (h : Replies l src fx l') : ∀ x ∈ fx, x.Harmless :=
  (replies_harmless hd (fun x hx => .of_noEsc (hl x hx)) h).1

/-- **C167**, part that holds, for whole sessions, including those that panic: if no escape character is
typed or comes from the system, and the files are `Docile`, everything that is written leaves the terminal
as it was. -/
theorem C167_session_partial (fs : FileSystem) (home : Option Text) (ins : List (World × Input))
    (h : Unescaped home ins) : ∀ x ∈ (runReplT fs home ins).done, x.Harmless := by
  have start : ∀ {path : Text}, '\x1b' ∉ path → (Desk.mk [] [] .initial path).Inert := fun hp =>
    ⟨fun x hx => (by cases hx), List.not_mem_nil, hp⟩
  cases hr : runReplT fs home ins with
  | mk done result =>
    cases result with
    | ok y =>
      obtain ⟨go, s'⟩ := y
      rw [← (C159_same ⟨fun _ => .ok [], fun _ => .ok (), fun _ _ => .ok []⟩
        (Session.new fs home).1 [] fs home ins).2.2.1, C158_session] at hr
      obtain ⟨path, fx₀, fx₁, d, h1, h2, -, rfl⟩ := hr
      obtain ⟨k1, k2⟩ := keeps_harmless h.home h1
      intro x hx
      rcases List.mem_append.1 hx with hx | hx
      · exact k1 x hx
      · exact (sits_harmless h2 h.lines h.errors h.worlds (start k2)).1 x hx
    | error e =>
      rw [C159_session] at hr
      obtain ⟨path, fx₀, before, w, line, after, d, fx₁, fx₂, p, h1, rfl, h2, h3, rfl, -⟩ := hr
      obtain ⟨k1, k2⟩ := keeps_harmless h.home h1
      obtain ⟨k3, k4⟩ := sits_harmless h2 (fun l hl => h.lines l (by simp only [typed] at hl ⊢; simp [hl]))
        (fun w e hm => h.errors w e (List.mem_append_left _ hm))
        (fun w i hm => h.worlds w i (List.mem_append_left _ hm)) (start k2)
      intro x hx
      rcases List.mem_append.1 hx with hx | hx
      · exact k1 x hx
      · rcases List.mem_append.1 hx with hx | hx
        · exact k3 x hx
        · exact falls_harmless (h.worlds w _ (List.mem_append_right _ List.mem_cons_self))
            (h.lines _ (by simp [typed])) k4 h3 x hx

end

attribute [local instance] asciiTables asciiTables_lawful

/-- Where every file has that content. -/
private def holding (t : Text) : World := { exWorld with readFile := fun _ => .ok t }

/-- What a terminal has after the text: how it paints what comes next. -/
private def penAfter (t : Text) : Pen := (Term.run ⟨.ground, Pen.default, []⟩ t).pen

theorem harmless_pen {t : Text} (h : Harmless t) : penAfter t = Pen.default := by
  obtain ⟨sc, h⟩ := h []
  unfold penAfter
  rw [h]

/-- **C167 does not hold** for files with an escape sequence between backticks: the message repeats it
as it is, and everything that is shown afterwards is red. Nothing but `:load f` was typed. -/
theorem C167_file_wrong : ∃ w : World, (∀ p, w.readFile p = .ok t!"`\x1b[31m`") ∧
    ∃ t, Effect.out t ∈ (runReplT exFs (some t!"/home/u") [(w, .line t!":load f")]).done ∧ ¬ Harmless t := by
  have key : ((runReplT exFs (some t!"/home/u") [(holding t!"`\x1b[31m`", .line t!":load f")]).done.any
      fun x => match x with
        | .out t => decide (penAfter t ≠ Pen.default)
        | _ => false) = true := by decide +kernel
  refine ⟨holding t!"`\x1b[31m`", fun _ => rfl, ?_⟩
  obtain ⟨x, hx, h⟩ := List.any_eq_true.1 key
  split at h
  · exact ⟨_, hx, fun hh => of_decide_eq_true h (harmless_pen hh)⟩
  · cases h

/-- Seven "\n\r", each of which moves the names by one character. -/
private def moved : Text := t!"x\n\r\n\r\n\r\n\r\n\r\n\r\n\r\"\x1b[31m\" abcde"

/-- **C167 does not hold** for sources with "\n\r": the name `abcde` is taken from inside the string, and
is shown as it is. -/
theorem C167_shifted_wrong : (∃ ast lx, parse moved = .ok ast lx) ∧ ∃ go s' t,
    step exWorld exStart moved = .ok (go, s', [.out t]) ∧ ¬ Harmless t := by
  have key : (match step exWorld exStart moved with
      | .ok (_, _, [.out t]) => decide (penAfter t ≠ Pen.default)
      | _ => false) = true := by decide +kernel
  have ok : ((parse moved).value?).isSome = true := by decide +kernel
  refine ⟨?_, ?_⟩
  · obtain ⟨ast, h⟩ := Option.isSome_iff_exists.1 ok
    exact ⟨ast, of_value h⟩
  · split at key
    · rename_i h
      exact ⟨_, _, _, h, fun hh => of_decide_eq_true key (harmless_pen hh)⟩
    · cases key

/-- A source with escape characters in comments and in literals. -/
private def colourful : Text := t!"1 + \"\x1b[31m\" '\x1b' ~~ \x1b[34m"

private theorem colourful_docile : Docile colourful := by
  have ok : ((parse colourful).value?).isSome = true := by decide +kernel
  refine .inr ⟨fun h => ?_, fun e lx h => ?_⟩
  · have : '\r' ∈ colourful := h.subset (by decide)
    revert this; decide
  · rw [h] at ok; cases ok

/-- C167, inputs: it is not vacuous, and something is shown. -/
example : Docile colourful ∧ '\x1b' ∈ colourful ∧
    exShown [colourful] = some [t!"  1 + (\"\\u{1b}[31m\" '\\u{1b}')\n"] :=
  ⟨colourful_docile, by decide, by decide +kernel⟩

/-- Where there is one file. -/
private def oneFile : World :=
  { exWorld with readFile := fun p => if p = t!"f" then .ok colourful else .error t!"no file" }

/-- C167, sessions: a file with escape characters is loaded. -/
example : Unescaped (some t!"/home/u") [(oneFile, .line t!":load f"), (oneFile, .line t!"1 + 2"),
    (oneFile, .error t!"oops"), (oneFile, .eof)] := by
  have calm : Calm oneFile := by
    refine ⟨fun p k h => (by cases h), fun p a k h => (by cases h), fun p k h => ?_, fun p c t' h1 h2 => ?_⟩
    · simp only [oneFile] at h
      split at h
      · cases h
      · cases h; decide
    · simp only [oneFile] at h1
      split at h1
      · rename_i hp
        subst hp
        cases h1
        cases h2 with
        | plain => exact colourful_docile
        | haskell h =>
          obtain ⟨dir, name, rest, h, hn, -⟩ := h
          have := congrArg List.length h
          simp only [List.length_append, List.length_cons, List.length_nil] at this
          have : name.length ≠ 0 := fun h => hn (List.length_eq_zero_iff.1 h)
          omega
      · cases h1
  refine ⟨fun h hh => (by cases hh; decide), by decide, fun w e h => ?_, fun w i h => ?_⟩
  · simp only [List.mem_cons, List.not_mem_nil, or_false, Prod.mk.injEq, reduceCtorEq, and_false,
      false_or, Input.error.injEq] at h
    rw [h.2]; decide
  · simp only [List.mem_cons, List.not_mem_nil, or_false, Prod.mk.injEq] at h
    rcases h with ⟨rfl, -⟩ | ⟨rfl, -⟩ | ⟨rfl, -⟩ | ⟨rfl, -⟩ <;> exact calm

end Pemdas
