import Verif.Lemmas.Printer
import Verif.Lemmas.LexKinds
import Verif.Lemmas.ParseShape
/-
Helper lemmas: brackets are balanced in what is printed.
-/
namespace Pemdas
open Printer

/-- What a piece puts on the screen. -/
def Piece.screen : Piece → List (Char × Pen)
  | .txt t => t.map (·, Pen.default)
  | .par d c => [(c, Pen.apply (Config.params (Config.default.setFgColor (colorAt d))) Pen.default)]

/-- What pieces put on the screen. -/
def screen (ps : List Piece) : List (Char × Pen) := ps.flatMap Piece.screen

theorem screen_append (a b : List Piece) : screen (a ++ b) = screen a ++ screen b := by
  simp [screen]

/-- No escape character. -/
def Piece.NoEsc : Piece → Prop
  | .txt t => '\x1b' ∉ t
  | .par _ c => c ≠ '\x1b'

theorem run_render {ps : List Piece} (h : ∀ p ∈ ps, p.NoEsc) :
    Term.run Term.start (render ps) = ⟨.ground, Pen.default, screen ps⟩ := by
  unfold render
  rw [C48_fragments]
  · congr 1
    simp only [screen, List.flatMap, List.map_map]
    congr 1
    apply List.map_congr_left
    intro p hp
    cases p <;> simp [Piece.frag, Piece.screen, Style.new, Style.setFg]
  · intro f hf
    obtain ⟨p, hp, rfl⟩ := List.mem_map.1 hf
    have := h p hp
    cases p with
    | txt t => exact this
    | par d c => simpa [Piece.NoEsc, Piece.frag, Style.new, Style.setFg, eq_comm] using this

section
variable [CharTables]

omit [CharTables] in
theorem hexText_mem {n : Nat} {c : Char} (h : c ∈ hexText n) : isHexDigit c = true := by
  have hd : ∀ d, d < 16 → isHexDigit (Nat.digitChar d) = true := by decide
  unfold hexText at h
  induction n using Nat.strongRecOn with
  | ind n ih =>
    rw [Nat.toDigits_eq_if (by decide)] at h
    split at h
    · rename_i hn
      rw [List.mem_singleton.1 h]; exact hd _ hn
    · rename_i hn
      rcases List.mem_append.1 h with h | h
      · exact ih _ (by omega) h
      · rw [List.mem_singleton.1 h]; exact hd _ (Nat.mod_lt _ (by decide))

omit [CharTables] in
theorem decText_mem {n : Nat} {c : Char} (h : c ∈ decText n) : c.isDigit = true :=
  Nat.isDigit_of_mem_toDigits (by decide) (by decide) h

theorem escapeDebug_noEsc [LawfulTables] (a b : Bool) (c : Char) : '\x1b' ∉ escapeDebug a b c := by
  have hhex : '\x1b' ∉ hexText c.toNat := fun h => absurd (hexText_mem h) (by decide)
  unfold escapeDebug
  repeat' split
  all_goals first
    | decide
    | skip
  · simp [hhex]
  · rename_i h
    intro hm
    have : c = '\x1b' := by simpa [eq_comm] using hm
    subst this
    rw [LawfulTables.ascii_printable _ (by decide)] at h
    exact absurd h (by decide)
  · simp [hhex]

theorem literal_noEsc [LawfulTables] (l : Literal) : '\x1b' ∉ l.text := by
  have hdec : ∀ n, '\x1b' ∉ decText n := fun n h => absurd (decText_mem h) (by decide)
  have hint : ∀ i, '\x1b' ∉ intText i := by
    intro i
    cases i <;> simp [intText, hdec]
  cases l with
  | char c => simp [Literal.text, debugChar, escapeDebug_noEsc]
  | str s => simp [Literal.text, debugStr, escapeDebug_noEsc]
  | int n => exact hdec n
  | frac f =>
    simp only [Literal.text, FloatRep.text, List.mem_append, not_or]
    refine ⟨⟨hdec _, ?_⟩, ?_⟩
    · split <;> simp [hdec]
    · split <;> simp [hint]

/-- Pieces without escape characters whose brackets are balanced. -/
def Good (ps : List Piece) : Prop := (∀ p ∈ ps, p.NoEsc) ∧ Balanced (screen ps)

namespace Good

theorem nil : Good [] := ⟨by simp, .nil⟩

theorem append {a b : List Piece} (ha : Good a) (hb : Good b) : Good (a ++ b) :=
  ⟨fun p hp => (List.mem_append.1 hp).elim (ha.1 p) (hb.1 p),
    by rw [screen_append]; exact ha.2.append hb.2⟩

/-- No bracket and no escape character. -/
def Clean (t : Text) : Prop := ∀ c ∈ t, c ∉ special

omit [CharTables] in
theorem Clean.noEsc {t : Text} (h : Clean t) : '\x1b' ∉ t := fun hm => h _ hm (by decide)

theorem balanced_clean {t : Text} (h : Clean t) (p : Pen) : Balanced (t.map (·, p)) := by
  induction t with
  | nil => exact .nil
  | cons c t ih =>
    exact (Balanced.char (h c (by simp))).append (ih fun d hd => h d (by simp [hd]))

theorem txt {t : Text} (h : Clean t) : Good [.txt t] :=
  ⟨by simpa [Piece.NoEsc] using h.noEsc,
    by simpa [screen, Piece.screen] using balanced_clean h Pen.default⟩

theorem lit [LawfulTables] (l : Literal) : Good [.txt l.text] :=
  ⟨by simpa [Piece.NoEsc] using literal_noEsc l,
    by simpa [screen, Piece.screen] using Balanced.lit l Pen.default⟩

theorem cons_txt {t : Text} {ps : List Piece} (h : Clean t) (hp : Good ps) : Good (.txt t :: ps) :=
  append (txt h) hp

/-- Parentheses written as plain text. -/
theorem parens {t u : Text} {ps : List Piece} (ht : Clean t) (hu : Clean u) (h : Good ps) :
    Good (.txt ('(' :: t) :: (ps ++ [.txt (u ++ t!")")])) := by
  constructor
  · intro p hp
    simp only [List.mem_cons, List.mem_append, List.not_mem_nil, or_false] at hp
    rcases hp with rfl | hp | rfl
    · simpa [Piece.NoEsc] using ht.noEsc
    · exact h.1 p hp
    · simpa [Piece.NoEsc] using hu.noEsc
  · have := ((balanced_clean ht Pen.default).append (h.2.append (balanced_clean hu Pen.default))).parens
      (p := Pen.default)
    simpa [screen, Piece.screen] using this

/-- Square brackets written as plain text. -/
theorem brackets {ps : List Piece} (h : Good ps) :
    Good (.txt t!"[" :: (ps ++ [.txt t!"]"])) := by
  constructor
  · intro p hp
    simp only [List.mem_cons, List.mem_append, List.not_mem_nil, or_false] at hp
    rcases hp with rfl | hp | rfl
    · simp [Piece.NoEsc]
    · exact h.1 p hp
    · simp [Piece.NoEsc]
  · have := h.2.brackets (p := Pen.default)
    simpa [screen, Piece.screen] using this

/-- Coloured parentheses. -/
theorem inParens {d : Nat} {ps : List Piece} (h : Good ps) : Good (inParens d ps) := by
  constructor
  · intro p hp
    simp only [Pemdas.inParens, List.mem_cons, List.mem_append, List.not_mem_nil, or_false] at hp
    rcases hp with (rfl | hp) | rfl
    · simp [Piece.NoEsc]
    · exact h.1 p hp
    · simp [Piece.NoEsc]
  · have := h.2.parens (p := Pen.apply (Config.params (Config.default.setFgColor (colorAt d))) Pen.default)
    simpa [screen, Piece.screen, Pemdas.inParens] using this

theorem parIf {b : Bool} {d : Nat} {ps : List Piece} (h : Good ps) : Good (parIf b d ps) := by
  unfold Pemdas.parIf
  split
  · exact h.inParens
  · exact h

end Good

open Good (Clean)

section
variable [LawfulTables]

set_option linter.unusedSectionVars false in
mutual
theorem ppPat_good : ∀ (p : Pat) (d : Nat), (∀ n ∈ p.names, Clean n) → Good (ppPat d p)
  | .wild, d, _ => by rw [ppPat]; exact .txt (by unfold Clean; decide)
  | .lit l, d, _ => by rw [ppPat]; exact .lit l
  | .var s, d, h => by rw [ppPat]; exact .txt (h s (by simp [Pat.names]))
  | .neg p, d, h => by
    rw [ppPat]
    exact .parens (t := []) (u := []) (by simp [Clean]) (by simp [Clean])
      (.cons_txt (t := t!"-") (by unfold Clean; decide) (.parIf (ppPat_good p d h)))
  | .con c [], d, h => by rw [ppPat]; exact .txt (h c (by simp [Pat.names]))
  | .con c (p :: ps), d, h => by
    rw [ppPat]
    exact .parens (t := c) (u := []) (h c (by simp [Pat.names])) (by simp [Clean])
      (ppPatArgs_good (p :: ps) d (fun n hn => h n (by simp only [Pat.names, List.mem_cons]; exact .inr hn)))
  | .tup ps, d, h => by
    rw [ppPat]
    exact .parens (t := []) (u := []) (by simp [Clean]) (by simp [Clean]) (ppPats_good ps d true h)
  | .arr ps, d, h => by
    rw [ppPat]
    exact .brackets (ppPats_good ps d true h)
  | .lnk l r, d, h => by
    rw [ppPat]
    refine .inParens (.append (.append (.parIf (ppPat_good l _ ?_)) (.txt (by unfold Clean; decide)))
      (.parIf (ppPat_good r _ ?_)))
    · exact fun n hn => h n (by simp [Pat.names, hn])
    · exact fun n hn => h n (by simp [Pat.names, hn])
  | .as_ s p, d, h => by
    rw [ppPat]
    refine .cons_txt ?_ (ppPat_good p d fun n hn => h n (by simp [Pat.names, hn]))
    intro c hc
    rcases List.mem_append.1 hc with hc | hc
    · exact h s (by simp [Pat.names]) c hc
    · rw [List.mem_singleton.1 hc]; decide
theorem ppPats_good : ∀ (ps : List Pat) (d : Nat) (first : Bool),
    (∀ n ∈ Pat.namesList ps, Clean n) → Good (ppPats d first ps)
  | [], d, first, _ => by rw [ppPats]; exact .nil
  | p :: ps, d, first, h => by
    rw [ppPats]
    refine .append (.append ?_ (ppPat_good p d fun n hn => h n (by simp [Pat.namesList, hn])))
      (ppPats_good ps d false fun n hn => h n (by simp [Pat.namesList, hn]))
    split
    · exact .nil
    · exact .txt (by unfold Clean; decide)
theorem ppPatArgs_good : ∀ (ps : List Pat) (d : Nat),
    (∀ n ∈ Pat.namesList ps, Clean n) → Good (ppPatArgs d ps)
  | [], d, _ => by rw [ppPatArgs]; exact .nil
  | p :: ps, d, h => by
    rw [ppPatArgs]
    exact .cons_txt (by unfold Clean; decide)
      (.append (ppPat_good p d fun n hn => h n (by simp [Pat.namesList, hn]))
        (ppPatArgs_good ps d fun n hn => h n (by simp [Pat.namesList, hn])))
end

omit [LawfulTables] in
theorem ppEnter_good (lams : Option Nat) : Good (ppEnter lams) := by
  unfold ppEnter
  split
  · exact .nil
  · exact .txt (by unfold Clean; decide)

omit [CharTables] [LawfulTables] in
theorem Infix.text_clean {op : Infix} (h : Clean op.symbol) : Clean op.text := by
  cases op with
  | standard s => exact h
  | promoted s =>
    have h : Clean s := h
    intro c hc
    simp only [Infix.text] at hc
    split at hc
    · simp only [List.mem_cons, List.mem_append, List.not_mem_nil, or_false] at hc
      rcases hc with rfl | hc | rfl
      · decide
      · exact h c hc
      · decide
    · rcases List.mem_cons.1 hc with rfl | hc
      · decide
      · exact h c hc

omit [LawfulTables] in
theorem ident_good {i : Ident} (h : ∀ n ∈ i.names, Clean n) :
    Good [.txt (if i.isInfix then t!"(" ++ i.text ++ t!")" else i.text)] := by
  have split2 : ∀ {t u : Text}, Good [.txt t, .txt u] → Good [.txt (t ++ u)] := by
    intro t u hg
    refine ⟨?_, by simpa [screen, Piece.screen] using hg.2⟩
    have h1 := hg.1 (.txt t) (by simp)
    have h2 := hg.1 (.txt u) (by simp)
    simp only [Piece.NoEsc] at h1 h2
    simpa [Piece.NoEsc] using ⟨h1, h2⟩
  cases i with
  | nil => exact split2 (t := t!"[") (u := t!"]") (.brackets .nil)
  | commas k =>
    refine split2 (t := t!"(") (u := List.replicate k ',' ++ t!")")
      (.parens (t := []) (u := List.replicate k ',') (by simp [Clean]) ?_ .nil)
    intro c hc
    rw [List.eq_of_mem_replicate hc]; decide
  | upper s => exact .txt (h s (by simp [Ident.names]))
  | lower s => exact .txt (h s (by simp [Ident.names]))
  | infix_ s =>
    exact split2 (t := t!"(") (u := s ++ t!")")
      (.parens (t := []) (u := s) (by simp [Clean]) (h s (by simp [Ident.names])) .nil)

set_option linter.unusedSectionVars false in
mutual
theorem ppGo_good : ∀ (e : Expr) (d : Nat) (lams : Option Nat), (∀ n ∈ e.names, Clean n) →
    Good (ppGo d lams e)
  | .lit l, d, lams, h => by rw [ppGo]; exact .append (ppEnter_good _) (.lit l)
  | .var i, d, lams, h => by rw [ppGo]; exact .append (ppEnter_good _) (ident_good h)
  | .app f x, d, lams, h => by
    rw [ppGo]
    exact .append (ppEnter_good _) (.append (.append
      (ppGo_good f _ none fun n hn => h n (by simp [Expr.names, hn])) (.txt (by unfold Clean; decide)))
      (ppGo_good x _ none fun n hn => h n (by simp [Expr.names, hn])))
  | .bin l op r, d, lams, h => by
    rw [ppGo]
    refine .append (ppEnter_good _) (.append (.append
      (.parIf (ppGo_good l _ none fun n hn => h n (by simp [Expr.names, hn]))) (.txt ?_))
      (.parIf (ppGo_good r _ none fun n hn => h n (by simp [Expr.names, hn]))))
    have ho := Infix.text_clean (h op.symbol (by simp [Expr.names]))
    intro c hc
    simp only [List.mem_append, List.mem_singleton] at hc
    rcases hc with (rfl | hc) | rfl
    · decide
    · exact ho c hc
    · decide
  | .lam p b, d, some k, h => by
    rw [ppGo]
    exact .cons_txt (by unfold Clean; decide)
      (.append (ppPat_good p d fun n hn => h n (by simp [Expr.names, hn]))
        (ppGo_good b d (some k) fun n hn => h n (by simp [Expr.names, hn])))
  | .lam p b, d, none, h => by
    rw [ppGo]
    have hb := Good.append (ppPat_good p 0 fun n hn => h n (by simp [Expr.names, hn]))
      (ppGo_good b 0 (some d) fun n hn => h n (by simp [Expr.names, hn]))
    by_cases hd : d = 0
    · rw [if_pos hd, if_pos hd]
      exact .cons_txt (by unfold Clean; decide) (.append hb (.txt (by unfold Clean; decide)))
    · rw [if_neg hd, if_neg hd]
      exact .parens (t := t!"\\") (u := []) (by unfold Clean; decide) (by simp [Clean]) hb
  | .grp e, d, lams, h => by
    rw [ppGo]; exact .append (ppEnter_good _) (.inParens (ppGo_good e _ none h))
  | .neg e, d, lams, h => by
    rw [ppGo]; exact .append (ppEnter_good _) (ppGo_good e _ none h)
  | .tup es, d, lams, h => by
    rw [ppGo]
    exact .append (ppEnter_good _)
      (.parens (t := []) (u := []) (by simp [Clean]) (by simp [Clean]) (ppList_good es true h))
  | .list es, d, lams, h => by
    rw [ppGo]; exact .append (ppEnter_good _) (.brackets (ppList_good es true h))
  | .let_ _ b, d, lams, h => by
    rw [ppGo]; exact .append (ppEnter_good _) (ppGo_good b _ none h)
theorem ppList_good : ∀ (es : List Expr) (first : Bool), (∀ n ∈ Expr.namesList es, Clean n) →
    Good (ppList first es)
  | [], first, _ => by rw [ppList]; exact .nil
  | e :: es, first, h => by
    rw [ppList]
    refine .append (.append ?_ (ppGo_good e 0 none fun n hn => h n (by simp [Expr.namesList, hn])))
      (ppList_good es false fun n hn => h n (by simp [Expr.namesList, hn]))
    split
    · exact .nil
    · exact .txt (by unfold Clean; decide)
end

/-! ### names come from tokens -/

omit [CharTables] [LawfulTables] in
theorem mem_patNamesList {ps : List Pat} {n : Text} :
    n ∈ Pat.namesList ps ↔ ∃ p ∈ ps, n ∈ p.names := by
  induction ps with
  | nil => simp [Pat.namesList]
  | cons p ps ih => simp [Pat.namesList, ih]

omit [CharTables] [LawfulTables] in
theorem mem_namesList {es : List Expr} {n : Text} :
    n ∈ Expr.namesList es ↔ ∃ e ∈ es, n ∈ e.names := by
  induction es with
  | nil => simp [Expr.namesList]
  | cons e es ih => simp [Expr.namesList, ih]

/-- The name in a token. -/
def Token.names : Token → List Text
  | .upper s | .lower s | .affix s _ => [s]
  | .dash => [t!"-"]
  | .at_ => [t!"@"]
  | _ => []

omit [CharTables] [LawfulTables] in
theorem mem_sepBy {sep : Token} {tss : List (List Token)} {ts : List Token} {t : Token} (h : ts ∈ tss)
    (ht : t ∈ ts) : t ∈ sepBy sep tss := (sepBy_infix h).subset ht

omit [CharTables] [LawfulTables] in
theorem PatToks.names {c : PatCat} {p : Pat} {ts : List Token} (h : PatToks c p ts) :
    ∀ n ∈ p.names, ∃ t ∈ ts, n ∈ t.names := by
  induction h with
  | wild => simp [Pat.names]
  | con0 s => simp [Pat.names, Pat.namesList, Token.names]
  | var s => simp [Pat.names, Token.names]
  | as_ s _ ih =>
    intro n hn
    rcases List.mem_cons.1 hn with rfl | hn
    · exact ⟨_, List.mem_cons_self, by simp [Token.names]⟩
    · obtain ⟨t, h1, h2⟩ := ih n hn
      exact ⟨t, by simp [h1], h2⟩
  | firstOp s b => simp [Pat.names, Token.names]
  | firstNeg _ ih | minus _ ih =>
    intro n hn
    obtain ⟨t, h1, h2⟩ := ih n hn
    exact ⟨t, by simp [h1], h2⟩
  | firstCon _ ih | first _ ih | inner _ ih | innerCon _ ih => exact ih
  | paren _ ih =>
    intro n hn
    obtain ⟨t, h1, h2⟩ := ih n hn
    exact ⟨t, by simp [h1], h2⟩
  | tup _ _ _ ih ihs =>
    intro n hn
    simp only [Pat.names, Pat.namesList, List.mem_append] at hn
    rcases hn with hn | hn
    · obtain ⟨t, h1, h2⟩ := ih n hn
      exact ⟨t, List.mem_append_left _ (List.mem_cons_of_mem _
        (mem_sepBy (List.mem_cons_self) h1)), h2⟩
    · obtain ⟨p, hp, hn⟩ := mem_patNamesList.1 hn
      obtain ⟨x, hx, rfl⟩ := List.mem_map.1 hp
      obtain ⟨t, h1, h2⟩ := ihs x hx n hn
      exact ⟨t, List.mem_append_left _ (List.mem_cons_of_mem _ (mem_sepBy
        (List.mem_cons_of_mem _ (List.mem_map_of_mem hx)) h1)), h2⟩
  | arrNil => simp [Pat.names, Pat.namesList]
  | arr _ _ ihs =>
    intro n hn
    obtain ⟨p, hp, hn⟩ := mem_patNamesList.1 hn
    obtain ⟨x, hx, rfl⟩ := List.mem_map.1 hp
    obtain ⟨t, h1, h2⟩ := ihs x hx n hn
    exact ⟨t, List.mem_append_left _ (List.mem_cons_of_mem _ (mem_sepBy
      (List.mem_map_of_mem hx) h1)), h2⟩
  | con s _ ihs =>
    intro n hn
    rcases List.mem_cons.1 hn with rfl | hn
    · exact ⟨_, List.mem_cons_self, by simp [Token.names]⟩
    · obtain ⟨p, hp, hn⟩ := mem_patNamesList.1 hn
      obtain ⟨x, hx, rfl⟩ := List.mem_map.1 hp
      obtain ⟨t, h1, h2⟩ := ihs x hx n hn
      exact ⟨t, List.mem_cons_of_mem _ (List.mem_flatten.2 ⟨_, List.mem_map_of_mem hx, h1⟩), h2⟩
  | conTup _ _ _ ih ihs =>
    intro n hn
    simp only [Pat.names, Pat.namesList, List.mem_append] at hn
    rcases hn with hn | hn
    · obtain ⟨t, h1, h2⟩ := ih n hn
      exact ⟨t, mem_sepBy (List.mem_cons_self) h1, h2⟩
    · obtain ⟨p, hp, hn⟩ := mem_patNamesList.1 hn
      obtain ⟨x, hx, rfl⟩ := List.mem_map.1 hp
      obtain ⟨t, h1, h2⟩ := ihs x hx n hn
      exact ⟨t, mem_sepBy (List.mem_cons_of_mem _ (List.mem_map_of_mem hx)) h1, h2⟩
  | lit l => simp [Pat.names]

omit [CharTables] [LawfulTables] in
theorem foldr_lam_names (ps : List Pat) (e : Expr) :
    (ps.foldr Expr.lam e).names = Pat.namesList ps ++ e.names := by
  induction ps with
  | nil => rfl
  | cons p ps ih => simp [Expr.names, Pat.namesList, ih]

omit [CharTables] [LawfulTables] in
theorem OpTok.names {op : Infix} {t : Token} (h : OpTok op t) : op.symbol ∈ t.names := by
  cases h <;> simp [Token.names, Infix.symbol]

omit [CharTables] [LawfulTables] in
theorem ExprToks.names {c : ExprCat} {e : Expr} {ts : List Token} (h : ExprToks c e ts) :
    ∀ n ∈ e.names, ∃ t ∈ ts, n ∈ t.names := by
  induction h with
  | single _ ih | head _ ih | arg _ ih => exact ih
  | bin _ ho _ ihl ihr =>
    intro n hn
    simp only [Expr.names, List.mem_append, List.mem_cons] at hn
    rcases hn with hn | rfl | hn
    · obtain ⟨t, h1, h2⟩ := ihl n hn
      exact ⟨t, by simp [h1], h2⟩
    · exact ⟨_, by simp, ho.names⟩
    · obtain ⟨t, h1, h2⟩ := ihr n hn
      exact ⟨t, by simp [h1], h2⟩
  | app _ _ ihl ihr =>
    intro n hn
    rcases List.mem_append.1 hn with hn | hn
    · obtain ⟨t, h1, h2⟩ := ihl n hn
      exact ⟨t, by simp [h1], h2⟩
    · obtain ⟨t, h1, h2⟩ := ihr n hn
      exact ⟨t, by simp [h1], h2⟩
  | lam _ hps _ ih =>
    intro n hn
    rw [foldr_lam_names] at hn
    rcases List.mem_append.1 hn with hn | hn
    · obtain ⟨p, hp, hn⟩ := mem_patNamesList.1 hn
      obtain ⟨x, hx, rfl⟩ := List.mem_map.1 hp
      obtain ⟨t, h1, h2⟩ := (hps x hx).names n hn
      exact ⟨t, List.mem_append_left _ (List.mem_cons_of_mem _
        (List.mem_flatten.2 ⟨_, List.mem_map_of_mem hx, h1⟩)), h2⟩
    · obtain ⟨t, h1, h2⟩ := ih n hn
      exact ⟨t, by simp [h1], h2⟩
  | let_ _ _ ih =>
    intro n hn
    obtain ⟨t, h1, h2⟩ := ih n hn
    exact ⟨t, by simp [h1], h2⟩
  | lit l => simp [Expr.names]
  | upper s | lower s => simp [Expr.names, Ident.names, Token.names]
  | unit => simp [Expr.names, Expr.namesList]
  | op s b => simp [Expr.names, Ident.names, Token.names]
  | commas _ => simp [Expr.names, Ident.names]
  | grp _ ih =>
    intro n hn
    obtain ⟨t, h1, h2⟩ := ih n hn
    exact ⟨t, by simp [h1], h2⟩
  | tup _ _ ihs =>
    intro n hn
    obtain ⟨p, hp, hn⟩ := mem_namesList.1 hn
    obtain ⟨x, hx, rfl⟩ := List.mem_map.1 hp
    obtain ⟨t, h1, h2⟩ := ihs x hx n hn
    exact ⟨t, List.mem_append_left _ (List.mem_cons_of_mem _ (mem_sepBy
      (List.mem_map_of_mem hx) h1)), h2⟩
  | list _ ihs =>
    intro n hn
    obtain ⟨p, hp, hn⟩ := mem_namesList.1 hn
    obtain ⟨x, hx, rfl⟩ := List.mem_map.1 hp
    obtain ⟨t, h1, h2⟩ := ihs x hx n hn
    exact ⟨t, List.mem_append_left _ (List.mem_cons_of_mem _
      (List.mem_flatten.2 ⟨_, List.mem_map_of_mem hx, by simp [h1]⟩)), h2⟩

omit [CharTables] [LawfulTables] in
theorem ProgToks.names {ds : List Decl} {ts : List Token} (h : ProgToks ds ts) :
    ∀ e, Decl.expr e ∈ ds → ∀ n ∈ e.names, ∃ t ∈ ts, n ∈ t.names := by
  induction h with
  | nil => simp
  | infix_ semi _ _ ih =>
    intro e he n hn
    obtain ⟨t, h1, h2⟩ := ih e (by simpa using he) n hn
    exact ⟨t, by simp [h1], h2⟩
  | expr semi hx _ ih =>
    intro e he n hn
    rcases List.mem_cons.1 he with he | he
    · cases he
      obtain ⟨t, h1, h2⟩ := hx.names n hn
      exact ⟨t, by simp [h1], h2⟩
    · obtain ⟨t, h1, h2⟩ := ih e he n hn
      exact ⟨t, by simp [h1], h2⟩

/-- Characters of a name in a token of a source in which no bracket or escape character directly
with whitespace after it follows an apostrophe. -/
theorem lexed_clean {src : Text} (hq : ∀ c ∈ special, ∀ w, isWhitespace w = true → ¬ ['\'', c, w] <:+: src) {t : Token}
    (h : t.LexedFrom src) : ∀ n ∈ t.names, Clean n := by
  have hshape : ∀ (p : Char → Bool) (y : Text), (∀ c ∈ special, p c = false) → Shape p y → Clean y := by
    rintro p y hp ⟨b, t, rfl, hb, ht⟩ c hc hs
    rcases List.mem_append.1 hc with hc | hc
    · have := List.all_eq_true.1 hb c hc
      rw [hp c hs] at this; cases this
    · have := List.all_eq_true.1 ht c hc
      rw [(by decide : ∀ c ∈ special, isTrailing c = false) c hs] at this; cases this
  have hic : ∀ c ∈ special, isIdentChar c = false := by
    intro c hc
    rw [TLex.ascii_identChar (by revert hc; revert c; decide)]
    revert hc; revert c; decide
  have his : ∀ c ∈ special, isIdentStart c = false := by
    intro c hc
    rw [TLex.ascii_identStart (by revert hc; revert c; decide)]
    revert hc; revert c; decide
  have hop : ∀ c ∈ special, isInfixChar c = false := by decide
  intro n hn
  unfold Token.names at hn
  split at hn
  · cases h
  · obtain rfl := List.mem_singleton.1 hn
    obtain ⟨c, y, rfl, h1, h2, _⟩ := h
    intro d hd
    rcases List.mem_cons.1 hd with rfl | hd
    · intro hs
      have := hic d hs
      rw [TLex.lower_identChar h1] at this; cases this
    · exact hshape _ _ hic h2 d hd
  · rename_i s b
    obtain rfl := List.mem_singleton.1 hn
    cases b with
    | false =>
      obtain ⟨c, y, rfl, h1, h2, _⟩ := h
      intro d hd
      rcases List.mem_cons.1 hd with rfl | hd
      · intro hs
        rw [hop d hs] at h1; cases h1
      · exact hshape _ _ hop h2 d hd
    | true =>
      rcases h with ⟨c, y, rfl, h1, h2⟩ | ⟨c, w, rfl, h1, h2⟩
      · intro d hd
        rcases List.mem_cons.1 hd with rfl | hd
        · intro hs
          rw [his d hs] at h1; cases h1
        · exact hshape _ _ hic h2 d hd
      · intro d hd hs
        simp only [List.mem_cons, List.not_mem_nil, or_false] at hd
        rcases hd with rfl | rfl
        · exact hq d hs w h1 h2
        · rw [(by decide : ∀ c ∈ special, isWhitespace c = false) d hs] at h1; cases h1
  · obtain rfl := List.mem_singleton.1 hn
    unfold Clean; decide
  · obtain rfl := List.mem_singleton.1 hn
    unfold Clean; decide
  · cases hn

end
end
end Pemdas
