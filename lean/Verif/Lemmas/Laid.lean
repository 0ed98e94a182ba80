import Verif.Lemmas.Expressible
import Verif.Lemmas.Placed
/-
Helper lemmas: the syntax trees that can be written on several lines.
-/
namespace Pemdas
section
variable [CharTables]

/-! ### from tokens to trees -/

omit [CharTables] in
theorem ctok_infix {ts : List CTok} {tss : List (List CTok)} (h : ts ∈ tss) :
    ts.map (·.1) <:+: tss.flatten.map (·.1) := by
  obtain ⟨a, b, rfl⟩ := List.append_of_mem h
  exact ⟨a.flatten.map (·.1), b.flatten.map (·.1), by simp⟩

theorem Written.expressible {cat : ExprCat} {c m : Nat} {e : Expr} {ts : List CTok}
    (h : Written cat c m e ts) : AllW true (ts.map (·.1)) →
      e.Expressible true ∧ (cat ≠ .chain → e.NonBin) ∧
      (cat = .operand ∨ cat = .arg → e.isOpen = false) ∧ (cat = .arg → e.isArg = true) := by
  have fin : ∀ {cat : ExprCat} {e : Expr}, e.Expressible true → e.isArg = true →
      e.Expressible true ∧ (cat ≠ .chain → e.NonBin) ∧
      (cat = .operand ∨ cat = .arg → e.isOpen = false) ∧ (cat = .arg → e.isArg = true) := by
    intro cat e h1 h2
    refine ⟨h1, fun _ => ?_, fun _ => ?_, fun _ => h2⟩ <;> cases e <;> first | rfl | cases h2
  induction h with
  | last _ ih | lastOpen _ ih => exact fun h => ⟨(ih h).1, by simp, by simp, by simp⟩
  | @bin _ _ _ op t k _ ts us _ ho _ ih1 ih2 =>
    intro h
    rw [List.map_append, List.map_cons] at h
    have h1 := ih1 h.left
    exact ⟨⟨ho.expressible (h _ (by simp)), h1.2.1 (by simp), h1.2.2.1 (.inl rfl), h1.1,
      (ih2 h.right.tail).1⟩, by simp, by simp, by simp⟩
  | head _ ih =>
    exact fun h => ⟨(ih h).1, fun _ => (ih h).2.1 (by simp), fun _ => (ih h).2.2.1 (.inr rfl), by simp⟩
  | app _ _ _ ih1 ih2 =>
    intro h
    rw [List.map_append] at h
    have h1 := ih1 h.left
    have h2 := ih2 h.right
    exact ⟨⟨h1.2.1 (by simp), .inl rfl, h2.2.2.2 rfl, h1.1, h2.1⟩, fun _ => rfl, fun _ => rfl, by simp⟩
  | appOpen _ _ _ _ ih1 ih2 =>
    intro h
    rw [List.map_append] at h
    have h1 := ih1 h.left
    have h2 := ih2 h.right
    exact ⟨⟨h1.2.1 (by simp), .inl rfl, h2.2.2.2 rfl, h1.1, h2.1⟩, fun _ => rfl, fun _ => rfl, by simp⟩
  | @lam _ _ _ _ ps pts e ts hne hp hpt _ ih =>
    intro h
    rw [List.map_append, List.map_cons, List.map_cons, hpt] at h
    refine ⟨foldr_lam_expressible ?_ (ih h.right.tail).1, fun _ => ?_, by simp, by simp⟩
    · intro p hp'
      obtain ⟨x, hx, rfl⟩ := List.mem_map.1 hp'
      exact ((hp x hx).1.expressible (h.left.tail.infix (flatten_infix (List.mem_map_of_mem hx)))).2.1
        (by simp)
    · cases ps with
      | nil => exact absurd rfl hne
      | cons => rfl
  | let_ hd _ ih =>
    intro h
    rw [List.map_append, List.map_cons, List.map_cons] at h
    exact ⟨⟨hd.1.expressible h.left.tail, (ih h.right.tail).1⟩, fun _ => rfl, by simp, by simp⟩
  | lit _ _ l => exact fun h => fin (h (.lit l) (by simp)) rfl
  | upper _ _ s => exact fun h => (h (.upper s) (by simp)).elim
  | lower _ _ s => exact fun h => fin (h (.lower s) (by simp)) rfl
  | unit => exact fun h => fin ⟨by simp, trivial⟩ rfl
  | op _ _ _ _ s b =>
    intro h
    have := h (.affix s b) (by simp)
    cases b with
    | false => exact fin (.inl this) rfl
    | true => exact fin (.inr this) rfl
  | commas hk => exact fun h => fin (List.length_pos_iff.2 hk) rfl
  | @grp _ _ _ _ e ts _ ih =>
    intro h
    rw [List.map_append, List.map_cons] at h
    exact fin (show e.Expressible true from (ih h.left.tail).1) rfl
  | @tup _ _ _ _ e ts xs _ hne _ ih ihs =>
    intro h
    rw [List.map_append, List.map_append, List.map_cons] at h
    refine fin ⟨?_, ?_⟩ rfl
    · cases xs with
      | nil => exact absurd rfl hne
      | cons => simp
    · rw [expressibleList_iff]
      intro e' he'
      rcases List.mem_cons.1 he' with rfl | he'
      · exact (ih h.left.left.tail).1
      · obtain ⟨x, hx, rfl⟩ := List.mem_map.1 he'
        have h' := h.left.right.infix (ctok_infix (List.mem_map_of_mem hx))
        exact (ihs x hx h'.tail).1
  | @list _ _ _ xs _ _ ihs =>
    intro h
    rw [List.map_append, List.map_cons] at h
    refine fin (show Expr.ExpressibleList true _ from ?_) rfl
    rw [expressibleList_iff]
    intro e' he'
    obtain ⟨x, hx, rfl⟩ := List.mem_map.1 he'
    have h' := h.left.tail.infix (ctok_infix (List.mem_map_of_mem hx))
    simp only [ListItem.all, List.map_append] at h'
    exact (ihs x hx h'.left).1

theorem WrittenProg.expressible {ds : List Decl} {ts : List CTok} (h : WrittenProg ds ts) :
    AllW true (ts.map (·.1)) → ∀ d ∈ ds, d.Expressible true := by
  induction h with
  | nil => simp
  | infix_ semi hd _ ih =>
    intro h d hd'
    simp only [List.map_append] at h
    rcases List.mem_cons.1 hd' with rfl | hd'
    · exact hd.1.expressible h.left.left
    · exact ih h.right d hd'
  | expr semi he _ _ ih =>
    intro h d hd'
    simp only [List.map_append] at h
    rcases List.mem_cons.1 hd' with rfl | hd'
    · exact (he.expressible h.left.left).1
    · exact ih h.right d hd'

/-! ### from trees to tokens with columns -/

/-- A token that can be written on a line of its own such that it ends at the given column. -/
def CTok.Fits (x : CTok) : Prop :=
  ∃ n w, (∀ rest, TokenAt x.1 w (' ' :: rest)) ∧ NoLFCR w ∧
    ∀ pre, colAfter (pre ++ ('\n' :: ' ' :: List.replicate n ' ' ++ w)) = x.2

/-- All tokens can be written in this way. -/
def Fitted (ts : List CTok) : Prop := ∀ x ∈ ts, CTok.Fits x

theorem Fitted.nil : Fitted [] := by simp [Fitted]
theorem Fitted.cons {x : CTok} {ts : List CTok} (h : CTok.Fits x) (h' : Fitted ts) : Fitted (x :: ts) :=
  fun y hy => (List.mem_cons.1 hy).elim (fun e => e ▸ h) (h' y)
theorem Fitted.append {ts us : List CTok} (h : Fitted ts) (h' : Fitted us) : Fitted (ts ++ us) :=
  fun y hy => (List.mem_append.1 hy).elim (h y) (h' y)
theorem Fitted.flatten {tss : List (List CTok)} (h : ∀ ts ∈ tss, Fitted ts) : Fitted tss.flatten := by
  intro t ht
  obtain ⟨ts, h1, h2⟩ := List.mem_flatten.1 ht
  exact h ts h1 t h2

omit [CharTables] in
theorem colAfter_line {pre w : Text} (n : Nat) (hw : '\n' ∉ w) :
    colAfter (pre ++ ('\n' :: ' ' :: List.replicate n ' ' ++ w)) = 2 + n + w.length := by
  have h : ∀ (a : Text), '\n' ∉ a → colAfter (pre ++ '\n' :: a) = 1 + a.length := by
    intro a ha
    unfold colAfter
    rw [List.reverse_append, List.reverse_cons, List.append_assoc, List.takeWhile_append_of_pos]
    · simp
    · intro c hc
      have : c ≠ '\n' := fun e => ha (by simpa [e] using hc)
      simpa using this
  have := h (' ' :: List.replicate n ' ' ++ w) (by simp [hw])
  rw [show '\n' :: ' ' :: List.replicate n ' ' ++ w = '\n' :: (' ' :: List.replicate n ' ' ++ w) from rfl,
    this]
  simp; omega

omit [CharTables] in
theorem noLFCR_of_noLF {w : Text} (h : '\n' ∉ w) : NoLFCR w := fun hi => h (hi.subset (by simp))

section
variable [LawfulTables]

/-- Tokens without newlines can end at every column from some column on. -/
theorem Token.Writable.fits {t : Token} (h : t.Writable false) : ∃ N, ∀ k, N ≤ k → CTok.Fits (t, k) := by
  obtain ⟨w, h1, h2⟩ := h.written
  refine ⟨2 + w.length, fun k hk => ⟨k - (2 + w.length), w, h2, noLFCR_of_noLF h1, fun pre => ?_⟩⟩
  rw [colAfter_line _ h1]
  simp only
  omega

/-- Every token that can be written can end at some column. -/
theorem Token.Writable.some_fits {t : Token} (h : t.Writable true) : ∃ k, CTok.Fits (t, k) := by
  by_cases hf : t.Writable false
  · obtain ⟨N, hN⟩ := hf.fits
    exact ⟨N, hN N (Nat.le_refl _)⟩
  · cases t with
    | affix s b =>
      cases b with
      | false => exact absurd h hf
      | true =>
        rcases h with h | ⟨c, w, rfl, h1, h2, h3⟩
        · exact absurd (.inl h) hf
        · have h3 : [c, w] ≠ t!"\n\r" := h3
          refine ⟨colAfter ['\'', c, w], 0, ['\'', c, w], fun rest => .blank h1 h2, ?_, ?_⟩
          · intro hi
            rw [List.infix_cons_iff] at hi
            rcases hi with hi | hi
            · simp at hi
            · rw [List.infix_cons_iff] at hi
              rcases hi with hi | hi
              · exact h3 (hi.eq_of_length (by simp)).symm
              · have := hi.length_le; simp at this
          · intro pre
            have hn : '\n' ∈ [c, w] := by
              refine Decidable.byContradiction fun hn => hf (.inr ⟨c, w, rfl, h1, h2, hn⟩)
            have h4 : ∀ p : Text, colAfter (p ++ [c, w]) = colAfter ['\'', c, w] := by
              intro p
              simp only [colAfter, List.reverse_append, List.reverse_cons, List.reverse_nil,
                List.nil_append, List.cons_append, List.takeWhile_cons]
              simp at hn
              by_cases hw : w = '\n'
              · simp [hw]
              · rcases hn with hn | hn
                · simp [← hn]
                · exact absurd hn.symm hw
            have := h4 (pre ++ ('\n' :: ' ' :: List.replicate 0 ' ' ++ ['\'']))
            simpa using this
    | lit l => exact absurd h hf
    | _ => exact absurd h hf

theorem AllW.fitted {ts : List Token} (h : AllW true ts) :
    ∃ cs : List CTok, cs.map (·.1) = ts ∧ Fitted cs := by
  induction ts with
  | nil => exact ⟨[], rfl, .nil⟩
  | cons t ts ih =>
    obtain ⟨cs, h1, h2⟩ := ih h.tail
    obtain ⟨k, hk⟩ := (h t (by simp)).some_fits
    exact ⟨(t, k) :: cs, by simp [h1], .cons hk h2⟩

/-- An expression that can be written such that its application starts at any column, and its first
token ends at any column, from some column on. -/
def Expr.Laid (e : Expr) : Prop :=
  ∃ N, ∀ c f, N ≤ c → N ≤ f → ∃ ts, Written .chain c c e ts ∧
    (e.NonBin → e.isOpen = false → Written .operand c c e ts) ∧
    (e.isArg = true → Written .arg c c e ts) ∧
    (e.isOpen = true → ∀ c', Written .atom c' c e ts) ∧ firstCol ts = f ∧ Fitted ts

omit [LawfulTables] in
theorem Expr.Laid.arg {e : Expr} (ho : e.isOpen = false) {N : Nat}
    (h : ∀ f, N ≤ f → ∃ ts, (∀ c, Written .arg c c e ts) ∧ firstCol ts = f ∧ Fitted ts) : e.Laid := by
  refine ⟨N, fun c f _ hf => ?_⟩
  obtain ⟨ts, h1, h2, h3⟩ := h f hf
  exact ⟨ts, .last (.head (h1 c)), fun _ _ => .head (h1 c), fun _ => h1 c, by simp [ho], h2, h3⟩

omit [LawfulTables] in
theorem Expr.Laid.open_ {e : Expr} (ho : e.isOpen = true) (ha : e.isArg = false) {N : Nat}
    (h : ∀ c f, N ≤ c → N ≤ f → ∃ ts, (∀ c', Written .atom c' c e ts) ∧ firstCol ts = f ∧ Fitted ts) :
    e.Laid := by
  refine ⟨N, fun c f hc hf => ?_⟩
  obtain ⟨ts, h1, h2, h3⟩ := h c f hc hf
  have := Written.lastOpen (h1 c)
  rw [Nat.min_self] at this
  exact ⟨ts, this, by simp [ho], by simp [ha], fun _ => h1, h2, h3⟩

/-- One way to write an expression after a comma. -/
theorem Expr.Laid.item {e : Expr} (h : e.Laid) : ∃ c ts, Written .chain c c e ts ∧ firstCol ts = c ∧
    Fitted ts ∧ CTok.Fits (.comma, c) := by
  obtain ⟨N, hN⟩ := h
  obtain ⟨M, hM⟩ := Token.Writable.fits (t := .comma) trivial
  obtain ⟨ts, h1, _, _, _, h2, h3⟩ := hN (max N M) (max N M) (by omega) (by omega)
  exact ⟨_, ts, h1, h2, h3, hM _ (by omega)⟩

set_option linter.unusedSectionVars false in
mutual
theorem Expr.Expressible.laid : ∀ {e : Expr}, e.Expressible true → e.Laid
  | .lit l, h => by
    obtain ⟨N, hN⟩ := Token.Writable.fits (t := .lit l) h
    exact .arg rfl fun f hf => ⟨[(.lit l, f)], fun c => .lit c f l, rfl, .cons (hN f hf) .nil⟩
  | .var i, h => by
    obtain ⟨N, hN⟩ := Token.Writable.fits (t := .parenL) trivial
    obtain ⟨k, hk⟩ := Token.Writable.some_fits (t := .parenR) trivial
    cases i with
    | lower s =>
      obtain ⟨N, hN⟩ := Token.Writable.fits (t := .lower s) h
      exact .arg rfl fun f hf => ⟨[(.lower s, f)], fun c => .lower c f s, rfl, .cons (hN f hf) .nil⟩
    | infix_ s =>
      have : ∃ b, (Token.affix s b).Writable true := h.elim (fun h => ⟨false, h⟩) (fun h => ⟨true, h⟩)
      obtain ⟨b, hb⟩ := this
      obtain ⟨j, hj⟩ := hb.some_fits
      exact .arg rfl fun f hf => ⟨_, fun c => .op c f j k s b, rfl,
        .cons (hN f hf) (.cons hj (.cons hk .nil))⟩
    | commas n =>
      obtain ⟨j, hj⟩ := Token.Writable.some_fits (t := .comma) trivial
      refine .arg rfl fun f hf => ⟨(.parenL, f) :: (List.replicate n j).map (fun j => (.comma, j)) ++
        [(.parenR, k)], fun c => ?_, rfl, .append (.cons (hN f hf) ?_) (.cons hk .nil)⟩
      · have h : 0 < n := h
        have := Written.commas (c := c) (k₀ := f) (k := k) (ks := List.replicate n j)
          (by intro he; have := congrArg List.length he; simp at this; omega)
        rwa [List.length_replicate] at this
      · intro x hx
        obtain ⟨j', h1, rfl⟩ := List.mem_map.1 hx
        rw [List.eq_of_mem_replicate h1]; exact hj
    | upper s => exact h.elim
    | nil => exact h.elim
  | .app f x, h => by
    obtain ⟨h1, _, h3, h4, h5⟩ := h
    obtain ⟨N, hN⟩ := Expr.Expressible.laid (e := f) h4
    obtain ⟨M, hM⟩ := Expr.Expressible.laid (e := x) h5
    refine ⟨max N M, fun c k hc hk => ?_⟩
    obtain ⟨us, _, _, hu, _, hu1, hu2⟩ := hM c (c + 1) (by omega) (by omega)
    have fin : ∀ ts, Written .operand c c (.app f x) (ts ++ us) → firstCol ts = k → Fitted ts →
        ts ≠ [] → ∃ ts, Written .chain c c (.app f x) ts ∧
    ((Expr.app f x).NonBin → (Expr.app f x).isOpen = false → Written .operand c c (.app f x) ts) ∧
    ((Expr.app f x).isArg = true → Written .arg c c (.app f x) ts) ∧
    ((Expr.app f x).isOpen = true → ∀ c', Written .atom c' c (.app f x) ts) ∧ firstCol ts = k ∧
      Fitted ts := by
      intro ts hw hf hft hne
      refine ⟨_, .last hw, fun _ _ => hw, by simp [Expr.isArg], by simp [Expr.isOpen], ?_,
        hft.append hu2⟩
      cases ts with
      | nil => exact absurd rfl hne
      | cons a ts => exact hf
    have ne : ∀ {cat : ExprCat} {a b : Nat} {e ts}, Written cat a b e ts → ts ≠ [] := by
      intro cat a b e ts h
      induction h <;> simp [*]
    by_cases ho : f.isOpen = true
    · obtain ⟨ts, _, _, _, ht, ht1, ht2⟩ := hN (c + 1) k (by omega) (by omega)
      exact fin ts (.appOpen (ht ho c) (hu h3) (by omega) (by omega)) ht1 ht2 (ne (ht ho c))
    · obtain ⟨ts, _, ht, _, _, ht1, ht2⟩ := hN c k (by omega) (by omega)
      have := ht h1 (by simpa using ho)
      exact fin ts (.app this (hu h3) (by omega)) ht1 ht2 (ne this)
  | .bin l op r, h => by
    obtain ⟨h1, h2, h3, h4, h5⟩ := h
    obtain ⟨N, hN⟩ := Expr.Expressible.laid (e := l) h4
    obtain ⟨M, hM⟩ := Expr.Expressible.laid (e := r) h5
    obtain ⟨t, ho, hx⟩ := h1.tok
    obtain ⟨j, hj⟩ := hx.some_fits
    refine ⟨max N M, fun c k hc hk => ?_⟩
    obtain ⟨us, hu, _, _, _, hu1, hu2⟩ := hM c c (by omega) (by omega)
    obtain ⟨ts, _, ht, _, _, ht1, ht2⟩ := hN c k (by omega) (by omega)
    refine ⟨ts ++ (t, j) :: us, .bin (ht h2 h3) ho (by rw [hu1]; exact hu),
      by simp [Expr.NonBin, Expr.rootOp], by simp [Expr.isArg], by simp [Expr.isOpen], ?_,
      ht2.append (.cons hj hu2)⟩
    have ne : ∀ {cat : ExprCat} {a b : Nat} {e ts}, Written cat a b e ts → ts ≠ [] := by
      intro cat a b e ts h
      induction h <;> simp [*]
    cases ts with
    | nil => exact absurd rfl (ne (ht h2 h3))
    | cons a ts => exact ht1
  | .lam p b, h => by
    obtain ⟨ts, ht, hw⟩ := Pat.Expressible.toks h.1
    obtain ⟨cs, hc1, hc2⟩ := hw.fitted
    obtain ⟨N, hN⟩ := Expr.Expressible.laid (e := b) h.2
    obtain ⟨N1, hN1⟩ := Token.Writable.fits (t := .lambda) trivial
    obtain ⟨N2, hN2⟩ := Token.Writable.fits (t := .arrow) trivial
    refine .open_ (N := max N (max N1 N2)) rfl rfl fun c f hc hf => ?_
    obtain ⟨us, hu, _, _, _, _, hu2⟩ := hN c c (by omega) (by omega)
    exact ⟨(.lambda, f) :: cs ++ (.arrow, c) :: us,
      fun c' => Written.lam (ps := [(p, ts)]) (by simp) (by simpa using ⟨ht, hw.noUpper⟩) (by simpa using hc1) hu,
      rfl, .append (.cons (hN1 f (by omega)) hc2) (.cons (hN2 c (by omega)) hu2)⟩
  | .grp e, h => by
    obtain ⟨c, ts, h1, h2, h3, _⟩ := (Expr.Expressible.laid (e := e) h).item
    obtain ⟨N, hN⟩ := Token.Writable.fits (t := .parenL) trivial
    obtain ⟨k, hk⟩ := Token.Writable.some_fits (t := .parenR) trivial
    exact .arg rfl fun f hf => ⟨_, fun _ => .grp (by rw [h2]; exact h1), rfl,
      .append (.cons (hN f hf) h3) (.cons hk .nil)⟩
  | .neg _, h => h.elim
  | .tup [], _ => by
    obtain ⟨N, hN⟩ := Token.Writable.fits (t := .parenL) trivial
    obtain ⟨k, hk⟩ := Token.Writable.some_fits (t := .parenR) trivial
    exact .arg rfl fun f hf => ⟨_, fun c => .unit c f k, rfl, .cons (hN f hf) (.cons hk .nil)⟩
  | .tup (e :: es), h => by
    obtain ⟨h1, h2⟩ := h
    obtain ⟨c, ts, ht1, ht2, ht3, _⟩ := (Expr.Expressible.laid (e := e) h2.1).item
    obtain ⟨N, hN⟩ := Token.Writable.fits (t := .parenL) trivial
    obtain ⟨k, hk⟩ := Token.Writable.some_fits (t := .parenR) trivial
    have := zip_exists (P := fun e (x : TupItem) => x.expr = e ∧ Written .chain x.comma x.edge e x.toks ∧
      Fitted x.all) (l := es) (by
        intro e he
        obtain ⟨c, ts, h1, _, h2, h3⟩ := (Expr.expressibleList_laid es h2.2 e he).item
        exact ⟨⟨c, e, ts, c⟩, rfl, h1, .cons h3 h2⟩)
    obtain ⟨xs, h3, h4⟩ := this
    have he : (xs.map (·.2)).map (·.expr) = es := by
      rw [← h3, List.map_map]
      exact List.map_congr_left fun x hx => (h4 x hx).1
    refine .arg (N := N) rfl fun f hf => ⟨(.parenL, f) :: ts ++ ((xs.map (·.2)).map (·.all)).flatten ++ [(.parenR, k)],
      fun c' => ?_, ?_, ?_⟩
    · rw [← he]
      refine .tup (by rw [ht2]; exact ht1) ?_ ?_
      · intro hx
        have := congrArg List.length hx
        have h5 := congrArg List.length he
        simp at this h5 h1
        exact h1 (by simpa [this] using h5.symm)
      · intro y hy
        obtain ⟨x, hx, rfl⟩ := List.mem_map.1 hy
        have := (h4 x hx).2.1
        rwa [← (h4 x hx).1] at this
    · rfl
    · refine .append (.append (.cons (hN f hf) ht3) (.flatten ?_)) (.cons hk .nil)
      intro us hu
      obtain ⟨y, hy, rfl⟩ := List.mem_map.1 hu
      obtain ⟨x, hx, rfl⟩ := List.mem_map.1 hy
      exact (h4 x hx).2.2
  | .list es, h => by
    obtain ⟨N, hN⟩ := Token.Writable.fits (t := .brackL) trivial
    obtain ⟨k, hk⟩ := Token.Writable.some_fits (t := .brackR) trivial
    have := zip_exists (P := fun e (x : ListItem) => x.expr = e ∧
      Written .chain (firstCol x.toks) x.edge e x.toks ∧ Fitted x.all ∧ x.comma ≠ none) (l := es) (by
        intro e he
        obtain ⟨c, ts, h1, h2, h3, h4⟩ := (Expr.expressibleList_laid es h e he).item
        exact ⟨⟨e, ts, c, some c⟩, rfl, by simp only [h2]; exact h1, .append h3 (.cons h4 .nil), by simp⟩)
    obtain ⟨xs, h3, h4⟩ := this
    have he : (xs.map (·.2)).map (·.expr) = es := by
      rw [← h3, List.map_map]
      exact List.map_congr_left fun x hx => (h4 x hx).1
    refine .arg (N := N) rfl fun f hf => ⟨(.brackL, f) :: ((xs.map (·.2)).map (·.all)).flatten ++ [(.brackR, k)],
      fun c' => ?_, ?_, ?_⟩
    · rw [← he]
      refine .list ?_ ?_
      · intro y hy
        obtain ⟨x, hx, rfl⟩ := List.mem_map.1 hy
        have := (h4 x hx).2.1
        rwa [← (h4 x hx).1] at this
      · intro a y b hab hn
        have : y ∈ xs.map (·.2) := by rw [hab]; simp
        obtain ⟨x, hx, rfl⟩ := List.mem_map.1 this
        exact absurd hn (h4 x hx).2.2.2
    · rfl
    · refine .append (.cons (hN f hf) (.flatten ?_)) (.cons hk .nil)
      intro us hu
      obtain ⟨y, hy, rfl⟩ := List.mem_map.1 hu
      obtain ⟨x, hx, rfl⟩ := List.mem_map.1 hy
      exact (h4 x hx).2.2.1
  | .let_ d b, h => by
    obtain ⟨ts, ht, hw⟩ := h.1.toks
    obtain ⟨cs, hc1, hc2⟩ := hw.fitted
    obtain ⟨N, hN⟩ := Expr.Expressible.laid (e := b) h.2
    obtain ⟨N1, hN1⟩ := Token.Writable.fits (t := .let_) trivial
    obtain ⟨N2, hN2⟩ := Token.Writable.fits (t := .in_) trivial
    refine .open_ (N := max N (max N1 N2)) rfl rfl fun c f hc hf => ?_
    obtain ⟨us, hu, _, _, _, _, hu2⟩ := hN c c (by omega) (by omega)
    exact ⟨(.let_, f) :: cs ++ (.in_, c) :: us, fun c' => Written.let_ (by rw [hc1]; exact ht) hu,
      rfl, .append (.cons (hN1 f (by omega)) hc2) (.cons (hN2 c (by omega)) hu2)⟩
theorem Expr.expressibleList_laid : ∀ (es : List Expr), Expr.ExpressibleList true es →
    ∀ e ∈ es, e.Laid
  | [], _ => by simp
  | e :: es, h => fun x hx => (List.mem_cons.1 hx).elim
      (fun he => he ▸ Expr.Expressible.laid (e := e) h.1) (Expr.expressibleList_laid es h.2 x)
end

theorem decls_laid {ds : List Decl} (h : ∀ d ∈ ds, d.Expressible true) :
    ∃ ts, WrittenProg ds ts ∧ Fitted ts := by
  obtain ⟨k, hk⟩ := Token.Writable.some_fits (t := .semi) trivial
  have hs : Fitted (semiToks (some k)) := .cons hk .nil
  induction ds with
  | nil => exact ⟨[], .nil, .nil⟩
  | cons d ds ih =>
    obtain ⟨us, h1, h2⟩ := ih fun d hd => h d (by simp [hd])
    have hd := h d (by simp)
    cases d with
    | infix_ d =>
      obtain ⟨ts, h3, h4⟩ := InfixDecl.Expressible.toks hd
      obtain ⟨cs, h5, h6⟩ := h4.fitted
      exact ⟨_, .infix_ (some k) (by rw [h5]; exact h3) h1, (h6.append hs).append h2⟩
    | expr e =>
      obtain ⟨c, ts, h3, h4, h5, _⟩ := (Expr.Expressible.laid hd).item
      exact ⟨_, .expr (some k) (by rw [h4]; exact h3) h1 (by simp), (h5.append hs).append h2⟩

omit [CharTables] [LawfulTables] in
theorem noLFCR_cons {c : Char} {s : Text} (h1 : c = '\n' → s.head? ≠ some '\r') (h2 : NoLFCR s) :
    NoLFCR (c :: s) := by
  intro hi
  rw [List.infix_cons_iff] at hi
  rcases hi with hi | hi
  · rw [List.cons_prefix_cons] at hi
    obtain ⟨rfl, hi⟩ := hi
    cases s with
    | nil => simp at hi
    | cons a s =>
      rw [List.cons_prefix_cons] at hi
      exact h1 rfl (by simp [← hi.1])
  · exact h2 hi

omit [CharTables] [LawfulTables] in
theorem NoLFCR.tail {c : Char} {s : Text} (h : NoLFCR (c :: s)) : NoLFCR s :=
  h.infix (List.suffix_cons ..).isInfix

omit [CharTables] [LawfulTables] in
theorem noLFCR_append {a b : Text} (ha : NoLFCR a) (hb : NoLFCR b) (h : b.head? ≠ some '\r') :
    NoLFCR (a ++ b) := by
  induction a with
  | nil => exact hb
  | cons c a ih =>
    refine noLFCR_cons ?_ (ih ha.tail)
    rintro rfl
    cases a with
    | nil => exact h
    | cons x a => exact fun he => ha ⟨[], a, by simp at he; simp [he]⟩

omit [LawfulTables] in
/-- Tokens that fit can be written, whatever the text before. -/
theorem Fitted.placed {cs : List CTok} (h : Fitted cs) :
    ∃ src, NoLFCR src ∧ src.head? ≠ some '\r' ∧ ∀ pre, Placed pre src cs := by
  induction cs with
  | nil => exact ⟨[], by simp [NoLFCR], by simp, fun _ => .nil⟩
  | cons x cs ih =>
    obtain ⟨s, h1, _, h2⟩ := ih fun y hy => h y (by simp [hy])
    obtain ⟨n, w, h3, h4, h5⟩ := h x (by simp)
    have h6 : NoLFCR (' ' :: s) := noLFCR_cons (by simp) h1
    have h7 : NoLFCR (w ++ ' ' :: s) := noLFCR_append h4 h6 (by simp)
    have h8 : ∀ n, NoLFCR (' ' :: List.replicate n ' ' ++ (w ++ ' ' :: s)) := by
      intro n
      refine noLFCR_cons (by simp) ?_
      induction n with
      | zero => exact h7
      | succ n ih => rw [List.replicate_succ]; exact noLFCR_cons (by simp) ih
    refine ⟨'\n' :: (' ' :: List.replicate n ' ' ++ (w ++ ' ' :: s)), noLFCR_cons (by simp) (h8 n),
      by simp, fun pre => ?_⟩
    have sp : ∀ n pre, Placed (pre ++ List.replicate n ' ') (w ++ ' ' :: s) (x :: cs) →
        Placed pre (List.replicate n ' ' ++ (w ++ ' ' :: s)) (x :: cs) := by
      intro n
      induction n with
      | zero => intro pre hp; simpa using hp
      | succ n ih =>
        intro pre hp
        rw [List.replicate_succ] at hp ⊢
        refine .space (by decide) (ih _ ?_)
        simpa using hp
    refine .space (by decide) (.space (by decide) (sp n _ ?_))
    have := Placed.token (pre := pre ++ ['\n'] ++ [' '] ++ List.replicate n ' ') (h3 s)
      (.space (by decide) (h2 _))
    rw [show pre ++ ['\n'] ++ [' '] ++ List.replicate n ' ' ++ w =
      pre ++ ('\n' :: ' ' :: List.replicate n ' ' ++ w) by simp, h5 pre] at this
    exact this

end
end
end Pemdas
