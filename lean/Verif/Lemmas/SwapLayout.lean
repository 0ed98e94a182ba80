import Verif.Lemmas.Swap
import Verif.Lemmas.ParseExact
/-
Swapping names and literals, and moving tokens without changing the order of their columns: the
grammar with layout.
-/
namespace Pemdas
namespace Swap

variable {ρ : Swap} {f : Nat → Nat} {P : Nat → Prop}

/-- The order of columns is kept. -/
def Keep (f : Nat → Nat) (P : Nat → Prop) : Prop := ∀ a b, P a → P b → a < b → f a < f b

theorem Keep.le (hf : Keep f P) {a b : Nat} (ha : P a) (hb : P b) (h : a ≤ b) : f a ≤ f b := by
  rcases Nat.lt_or_ge a b with h' | h'
  · exact Nat.le_of_lt (hf a b ha hb h')
  · rw [Nat.le_antisymm h h']; exact Nat.le_refl _

theorem Keep.min (hf : Keep f P) {a b : Nat} (ha : P a) (hb : P b) :
    P (min a b) ∧ f (min a b) = min (f a) (f b) := by
  rcases Nat.le_total a b with h | h
  · rw [Nat.min_eq_left h, Nat.min_eq_left (hf.le ha hb h)]; exact ⟨ha, rfl⟩
  · rw [Nat.min_eq_right h, Nat.min_eq_right (hf.le hb ha h)]; exact ⟨hb, rfl⟩

/-- The token that is written instead, at its place. -/
def put (f : Nat → Nat) (z : CTok × Token) : CTok := (z.2, f z.1.2)

/-- Tokens at columns that are considered, with the tokens that correspond. -/
def Good (ρ : Swap) (P : Nat → Prop) (zs : List (CTok × Token)) : Prop :=
  ∀ z ∈ zs, ρ.tok z.1.1 z.2 ∧ P z.1.2

theorem Good.left {a b : List (CTok × Token)} (h : ρ.Good P (a ++ b)) : ρ.Good P a :=
  fun z hz => h z (List.mem_append_left _ hz)

theorem Good.right {a b : List (CTok × Token)} (h : ρ.Good P (a ++ b)) : ρ.Good P b :=
  fun z hz => h z (List.mem_append_right _ hz)

theorem Good.cons {z : CTok × Token} {a : List (CTok × Token)} (h : ρ.Good P (z :: a)) :
    (ρ.tok z.1.1 z.2 ∧ P z.1.2) ∧ ρ.Good P a := ⟨h z (by simp), fun z hz => h z (by simp [hz])⟩

theorem Good.toks {zs : List (CTok × Token)} (h : ρ.Good P zs) :
    ρ.Toks (zs.map fun z => (z.1.1, z.2)) := by
  intro z hz
  obtain ⟨y, hy, rfl⟩ := List.mem_map.1 hz
  exact (h y hy).1

theorem map_left (zs : List (CTok × Token)) :
    (zs.map fun z => (z.1.1, z.2)).map (·.1) = (zs.map (·.1)).map (·.1) := by simp

theorem map_right (f : Nat → Nat) (zs : List (CTok × Token)) :
    (zs.map fun z => (z.1.1, z.2)).map (·.2) = (zs.map (put f)).map (·.1) := by simp [put]

theorem firstCol_put {ts : List CTok} {zs : List (CTok × Token)} (hz : zs.map (·.1) = ts)
    (hg : ρ.Good P zs) (hne : ts ≠ []) : P (firstCol ts) ∧ firstCol (zs.map (put f)) = f (firstCol ts) := by
  cases zs with
  | nil => exact absurd hz.symm hne
  | cons z zs => subst hz; exact ⟨(hg z (by simp)).2, rfl⟩

theorem follow (hf : Keep f P) {m : Nat} (hm : P m) {ts : List CTok} {zs : List (CTok × Token)}
    (hz : zs.map (·.1) = ts) (hg : ρ.Good P zs) (h : Follow m ts) : Follow (f m) (zs.map (put f)) := by
  subst hz
  cases zs with
  | nil => trivial
  | cons z zs =>
    obtain ⟨⟨t, k⟩, t'⟩ := z
    obtain ⟨h1, h2⟩ := hg _ List.mem_cons_self
    obtain ⟨e1, e2, _⟩ := tok_refl h1
    obtain ⟨h3, h4⟩ := h
    exact ⟨e1 ▸ h3, fun h5 => hf.le h2 hm (h4 (e2.trans h5))⟩

theorem patWritten {p : Pat} {ts : List Token} (h : PatWritten p ts)
    (zs : List (Token × Token)) (hz : zs.map (·.1) = ts) (hs : ρ.Toks zs) :
    ∃ p', PatWritten p' (zs.map (·.2)) ∧ ρ.pat p p' := by
  obtain ⟨p', h1, h2⟩ := patToks h.1 zs hz hs
  refine ⟨p', ⟨h1, ?_⟩, h2⟩
  intro s hm
  obtain ⟨z, hz', he⟩ := List.mem_map.1 hm
  obtain ⟨s', hs'⟩ := (tok_refl (hs z hz')).2.2.2.2.2 ⟨s, he⟩
  exact h.2 s' (by rw [← hz]; exact List.mem_map.2 ⟨z, hz', hs'⟩)

theorem declWritten (hρ : ρ.Sound) {d : InfixDecl} {ts : List Token} (h : DeclWritten d ts)
    (zs : List (Token × Token)) (hz : zs.map (·.1) = ts) (hs : ρ.Toks zs) :
    ∃ d', DeclWritten d' (zs.map (·.2)) ∧ ρ.decl d d' := by
  obtain ⟨d', h1, h2⟩ := declToks hρ h.1 zs hz hs
  have key : ∀ u, (∀ t t', ρ.tok t t' → t' = u → t = u) → ts[1]? ≠ some u → (zs.map (·.2))[1]? ≠ some u := by
    intro u hu hne he
    rw [List.getElem?_map] at he
    cases hi : zs[1]? with
    | none => rw [hi] at he; cases he
    | some z =>
      rw [hi] at he
      refine hne ?_
      rw [← hz, List.getElem?_map, hi]
      exact congrArg some (hu _ _ (hs z (List.mem_of_getElem? hi)) (Option.some.inj he))
  exact ⟨d', ⟨h1, key _ (fun t t' h => (tok_refl h).2.2.1.2) h.2.1,
    key _ (fun t t' h => (tok_refl h).2.2.2.1.2) h.2.2⟩, h2⟩

/-- The items of a tuple. -/
theorem tupItems {Q : Nat → Nat → Expr → List CTok → Prop} :
    ∀ (xs : List TupItem) (zs : List (CTok × Token)),
      (∀ x ∈ xs, ∀ zs : List (CTok × Token), P x.comma → zs.map (·.1) = x.toks → ρ.Good P zs →
        P x.edge ∧ ∃ e', Q (f x.comma) (f x.edge) e' (zs.map (put f)) ∧ ρ.expr x.expr e') →
      zs.map (·.1) = (xs.map (·.all)).flatten → ρ.Good P zs →
      ∃ ys : List (Expr × TupItem), ys.map (·.1) = xs.map (·.expr) ∧
        zs.map (put f) = (ys.map (·.2.all)).flatten ∧
        ∀ y ∈ ys, Q y.2.comma y.2.edge y.2.expr y.2.toks ∧ ρ.expr y.1 y.2.expr
  | [], zs, _, h, _ => ⟨[], rfl, by simp at h; simp [h], by simp⟩
  | x :: xs, zs, hx, h, hg => by
    rw [List.map_cons, List.flatten_cons, TupItem.all] at h
    obtain ⟨z₁, z₂, rfl, h1, h2⟩ := List.map_eq_append_iff.1 h
    obtain ⟨⟨z, t'⟩, z₃, rfl, h3, h4⟩ := List.map_eq_cons_iff.1 h1
    cases h3
    obtain ⟨⟨h5, h6⟩, h7⟩ := hg.left.cons
    obtain ⟨h8, e', h9, h10⟩ := hx x (by simp) z₃ h6 h4 h7
    obtain ⟨ys, e1, e2, e3⟩ := tupItems xs z₂ (fun x hx' => hx x (by simp [hx'])) h2 hg.right
    cases h5
    refine ⟨(x.expr, ⟨f x.comma, e', z₃.map (put f), f x.edge⟩) :: ys, by simp [e1], ?_, ?_⟩
    · simp [e2, TupItem.all, put]
    · intro y hy
      rcases List.mem_cons.1 hy with rfl | hy
      · exact ⟨h9, h10⟩
      · exact e3 y hy

/-- The items of a list. -/
theorem listItems (hf : Keep f P) {Q : Nat → Nat → Expr → List CTok → Prop} (last : CTok × Token)
    (hl : ρ.Good P [last]) :
    ∀ (xs : List ListItem) (zs : List (CTok × Token)),
      (∀ x ∈ xs, x.toks ≠ [] ∧ ∀ zs : List (CTok × Token), P (firstCol x.toks) →
        zs.map (·.1) = x.toks → ρ.Good P zs →
        P x.edge ∧ ∃ e', Q (f (firstCol x.toks)) (f x.edge) e' (zs.map (put f)) ∧ ρ.expr x.expr e') →
      (∀ a x b, xs = a ++ x :: b → x.comma = none →
        Follow x.edge ((b.map (·.all)).flatten ++ [last.1])) →
      zs.map (·.1) = (xs.map (·.all)).flatten → ρ.Good P zs →
      ∃ ys : List (Expr × ListItem), ys.map (·.1) = xs.map (·.expr) ∧
        zs.map (put f) = (ys.map (·.2.all)).flatten ∧
        (∀ y ∈ ys, Q (firstCol y.2.toks) y.2.edge y.2.expr y.2.toks ∧ ρ.expr y.1 y.2.expr) ∧
        ∀ a x b, ys.map (·.2) = a ++ x :: b → x.comma = none →
          Follow x.edge ((b.map (·.all)).flatten ++ [put f last])
  | [], zs, _, _, h, _ => ⟨[], rfl, by simp at h; simp [h], by simp, by simp⟩
  | x :: xs, zs, hx, hfo, h, hg => by
    rw [List.map_cons, List.flatten_cons, ListItem.all] at h
    obtain ⟨z₁, z₂, rfl, h1, h2⟩ := List.map_eq_append_iff.1 h
    obtain ⟨z₃, z₄, rfl, h3, h4⟩ := List.map_eq_append_iff.1 h1
    obtain ⟨hne, hx'⟩ := hx x (by simp)
    obtain ⟨h5, h6⟩ := firstCol_put (f := f) h3 hg.left.left hne
    obtain ⟨h8, e', h9, h10⟩ := hx' z₃ h5 h3 hg.left.left
    obtain ⟨ys, e1, e2, e3, e4⟩ := listItems hf last hl xs z₂ (fun x hx' => hx x (by simp [hx']))
      (fun a y b he hc => hfo (x :: a) y b (by rw [he]; rfl) hc) h2 hg.right
    have hcomma : z₄.map (put f) = commaToks (x.comma.map f) := by
      cases hc : x.comma with
      | none =>
        rw [hc] at h4
        have := List.map_eq_nil_iff.1 h4
        subst this; rfl
      | some k =>
        rw [hc] at h4
        obtain ⟨⟨z, t'⟩, z₅, rfl, h11, h12⟩ := List.map_eq_cons_iff.1 h4
        have := List.map_eq_nil_iff.1 h12
        subst this
        cases h11
        have h13 : ρ.tok Token.comma t' := (hg.left.right _ List.mem_cons_self).1
        cases h13
        rfl
    refine ⟨(x.expr, ⟨e', z₃.map (put f), f x.edge, x.comma.map f⟩) :: ys, by simp [e1], ?_, ?_, ?_⟩
    · simp [e2, ListItem.all, hcomma]
    · intro y hy
      rcases List.mem_cons.1 hy with rfl | hy
      · exact ⟨by simpa [h6] using h9, h10⟩
      · exact e3 y hy
    · intro a y b he hc
      cases a with
      | nil =>
        simp only [List.map_cons, List.nil_append, List.cons.injEq] at he
        obtain ⟨rfl, rfl⟩ := he
        have hc' : x.comma = none := by cases hc' : x.comma <;> simp_all
        have h11 := hfo [] x xs rfl hc'
        rw [← h2] at h11
        have := follow (f := f) hf h8 (zs := z₂ ++ [last]) (by simp) (by
          intro z hz
          rcases List.mem_append.1 hz with hz | hz
          · exact hg.right z hz
          · exact hl z hz) h11
        rw [List.map_append, e2] at this
        rw [List.map_map]
        exact this
      | cons w a =>
        simp only [List.map_cons, List.cons_append, List.cons.injEq] at he
        exact e4 a y b he.2 hc

theorem expr_foldr {e e' : Expr} (h : ρ.expr e e') :
    ∀ qs : List (Pat × Pat), (∀ q ∈ qs, ρ.pat q.1 q.2) →
      ρ.expr ((qs.map (·.1)).foldr .lam e) ((qs.map (·.2)).foldr .lam e')
  | [], _ => h
  | q :: qs, hq => .lam (hq q (by simp)) (expr_foldr h qs fun q hq' => hq q (by simp [hq']))

theorem written (hρ : ρ.Sound) (hf : Keep f P) {cat : ExprCat} {c m : Nat} {e : Expr}
    {ts : List CTok} (h : Written cat c m e ts) :
    ∀ zs : List (CTok × Token), P c → zs.map (·.1) = ts → ρ.Good P zs →
      P m ∧ ∃ e', Written cat (f c) (f m) e' (zs.map (put f)) ∧ ρ.expr e e' := by
  induction h with
  | last _ ih =>
    intro zs hc hz hg
    obtain ⟨h1, e', h2, h3⟩ := ih zs hc hz hg
    exact ⟨h1, e', .last h2, h3⟩
  | lastOpen _ ih =>
    intro zs hc hz hg
    obtain ⟨h1, e', h2, h3⟩ := ih zs hc hz hg
    obtain ⟨h4, h5⟩ := hf.min hc h1
    rw [h5]
    exact ⟨h4, e', .lastOpen h2, h3⟩
  | bin _ ho hr ih ih' =>
    intro zs hc hz hg
    obtain ⟨z₁, z₂, rfl, h1, h2⟩ := List.map_eq_append_iff.1 hz
    obtain ⟨⟨z, t'⟩, z₃, rfl, h3, h4⟩ := List.map_eq_cons_iff.1 h2
    cases h3
    obtain ⟨⟨h5, h6⟩, h7⟩ := hg.right.cons
    obtain ⟨_, l', h8, h9⟩ := ih z₁ hc h1 hg.left
    obtain ⟨h10, h11⟩ := firstCol_put (f := f) h4 h7 hr.ne_nil
    obtain ⟨h12, r', h13, h14⟩ := ih' z₃ h10 h4 h7
    obtain ⟨o', h15, h16⟩ := opTok hρ ho h5
    refine ⟨h12, .bin l' o' r', ?_, .bin h9 h16 h14⟩
    rw [← h11] at h13
    rw [List.map_append, List.map_cons]
    exact .bin h8 h15 h13
  | head _ ih =>
    intro zs hc hz hg
    obtain ⟨h1, e', h2, h3⟩ := ih zs hc hz hg
    exact ⟨h1, e', .head h2, h3⟩
  | app _ hx hlt ih ih' =>
    intro zs hc hz hg
    obtain ⟨z₁, z₂, rfl, h1, h2⟩ := List.map_eq_append_iff.1 hz
    obtain ⟨h3, f', h4, h5⟩ := ih z₁ hc h1 hg.left
    obtain ⟨_, x', h6, h7⟩ := ih' z₂ hc h2 hg.right
    obtain ⟨h8, h9⟩ := firstCol_put (f := f) h2 hg.right hx.ne_nil
    refine ⟨h3, .app f' x', ?_, .app h5 h7⟩
    rw [List.map_append]
    exact .app h4 h6 (by rw [h9]; exact hf _ _ hc h8 hlt)
  | appOpen _ hx hlt hle ih ih' =>
    intro zs hc hz hg
    obtain ⟨z₁, z₂, rfl, h1, h2⟩ := List.map_eq_append_iff.1 hz
    obtain ⟨h3, f', h4, h5⟩ := ih z₁ hc h1 hg.left
    obtain ⟨_, x', h6, h7⟩ := ih' z₂ hc h2 hg.right
    obtain ⟨h8, h9⟩ := firstCol_put (f := f) h2 hg.right hx.ne_nil
    refine ⟨hc, .app f' x', ?_, .app h5 h7⟩
    rw [List.map_append]
    exact .appOpen h4 h6 (by rw [h9]; exact hf _ _ hc h8 hlt) (by rw [h9]; exact hf.le h8 h3 hle)
  | @lam c k₀ k m ps pts e ts hne hp hpts _ ih =>
    intro zs hc hz hg
    obtain ⟨⟨z, t'⟩, z₁, rfl, h1, h2⟩ := List.map_eq_cons_iff.1 hz
    obtain ⟨z₂, z₃, rfl, h3, h4⟩ := List.map_eq_append_iff.1 h2
    obtain ⟨⟨y, u'⟩, z₄, rfl, h5, h6⟩ := List.map_eq_cons_iff.1 h4
    cases h1
    cases h5
    obtain ⟨⟨g1, _⟩, g2⟩ := hg.cons
    obtain ⟨⟨g3, g4⟩, g5⟩ := g2.right.cons
    obtain ⟨h7, e', h8, h9⟩ := ih z₄ g4 h6 g5
    obtain ⟨qs, e1, e2, e3⟩ := flatten_swap (Q := PatWritten) (R := ρ.pat) ps
      (z₂.map fun z => (z.1.1, z.2)) (fun x hx zs hz hs => patWritten (hp x hx) zs hz hs)
      (by rw [map_left, h3, hpts]) g2.left.toks
    rw [map_right f] at e2
    have h10 := expr_foldr h9 (qs.map (·.1)) (by
      intro q hq
      obtain ⟨y, hy, rfl⟩ := List.mem_map.1 hq
      exact (e3 y hy).2)
    have f3 : (qs.map (·.1)).map (·.1) = ps.map (·.1) := by rw [← e1]; simp
    rw [f3] at h10
    refine ⟨h7, _, ?_, h10⟩
    cases g1
    cases g3
    have := Written.lam (c := f c) (k₀ := f k₀) (k := f k) (ps := qs.map fun q => (q.1.2, q.2))
      (pts := z₂.map (put f)) (by
        intro hq
        have hq := List.map_eq_nil_iff.1 hq
        subst hq
        exact hne (List.map_eq_nil_iff.1 e1.symm)) (by
        intro x hx
        obtain ⟨y, hy, rfl⟩ := List.mem_map.1 hx
        exact (e3 y hy).1) (by rw [e2, List.map_map]; rfl) h8
    simpa [put, Function.comp_def] using this
  | @let_ c k₀ k m d e ds ts hd _ ih =>
    intro zs hc hz hg
    obtain ⟨⟨z, t'⟩, z₁, rfl, h1, h2⟩ := List.map_eq_cons_iff.1 hz
    obtain ⟨z₂, z₃, rfl, h3, h4⟩ := List.map_eq_append_iff.1 h2
    obtain ⟨⟨y, u'⟩, z₄, rfl, h5, h6⟩ := List.map_eq_cons_iff.1 h4
    cases h1
    cases h5
    obtain ⟨⟨g1, _⟩, g2⟩ := hg.cons
    obtain ⟨⟨g3, g4⟩, g5⟩ := g2.right.cons
    obtain ⟨h7, e', h8, h9⟩ := ih z₄ g4 h6 g5
    obtain ⟨d', h10, h11⟩ := declWritten hρ hd (z₂.map fun z => (z.1.1, z.2)) (by rw [map_left, h3])
      g2.left.toks
    rw [map_right f] at h10
    refine ⟨h7, .let_ d' e', ?_, .let_ h11 h9⟩
    cases g1
    cases g3
    have := Written.let_ (c := f c) (k₀ := f k₀) h10 h8
    simpa [put] using this
  | lit c k l =>
    intro zs hc hz hg
    obtain ⟨⟨z, t'⟩, z₁, rfl, h1, h2⟩ := List.map_eq_cons_iff.1 hz
    have := List.map_eq_nil_iff.1 h2
    subst this
    cases h1
    refine ⟨hc, ?_⟩
    have h3 : ρ.tok (.lit l) t' := hg.cons.1.1
    cases h3 with
    | lit h => exact ⟨_, .lit _ _ _, .lit h⟩
    | same _ _ _ h => exact absurd rfl (h _)
  | upper c k s =>
    intro zs hc hz hg
    obtain ⟨⟨z, t'⟩, z₁, rfl, h1, h2⟩ := List.map_eq_cons_iff.1 hz
    have := List.map_eq_nil_iff.1 h2
    subst this
    cases h1
    refine ⟨hc, ?_⟩
    have h3 : ρ.tok (.upper s) t' := hg.cons.1.1
    cases h3 with
    | upper h => exact ⟨_, .upper _ _ _, .var (.upper h)⟩
    | same h => exact absurd rfl (h _)
  | lower c k s =>
    intro zs hc hz hg
    obtain ⟨⟨z, t'⟩, z₁, rfl, h1, h2⟩ := List.map_eq_cons_iff.1 hz
    have := List.map_eq_nil_iff.1 h2
    subst this
    cases h1
    refine ⟨hc, ?_⟩
    have h3 : ρ.tok (.lower s) t' := hg.cons.1.1
    cases h3 with
    | lower h => exact ⟨_, .lower _ _ _, .var (.lower h)⟩
    | same _ h => exact absurd rfl (h _)
  | unit c k₀ k =>
    intro zs hc hz hg
    obtain ⟨⟨z, t'⟩, z₁, rfl, h1, h2⟩ := List.map_eq_cons_iff.1 hz
    obtain ⟨⟨y, u'⟩, z₂, rfl, h3, h4⟩ := List.map_eq_cons_iff.1 h2
    have := List.map_eq_nil_iff.1 h4
    subst this
    cases h1
    cases h3
    refine ⟨hc, ?_⟩
    obtain ⟨⟨g1, _⟩, g2⟩ := hg.cons
    have g3 := g2.cons.1.1
    cases g1
    cases g3
    exact ⟨_, .unit _ _ _, .tup (es := []) (by simp)⟩
  | op c k₀ k₁ k s b =>
    intro zs hc hz hg
    obtain ⟨⟨z, t'⟩, z₁, rfl, h1, h2⟩ := List.map_eq_cons_iff.1 hz
    obtain ⟨⟨y, u'⟩, z₂, rfl, h3, h4⟩ := List.map_eq_cons_iff.1 h2
    obtain ⟨⟨x, v'⟩, z₃, rfl, h5, h6⟩ := List.map_eq_cons_iff.1 h4
    have := List.map_eq_nil_iff.1 h6
    subst this
    cases h1
    cases h3
    cases h5
    refine ⟨hc, ?_⟩
    obtain ⟨⟨g1, _⟩, g2⟩ := hg.cons
    obtain ⟨⟨g3, _⟩, g4⟩ := g2.cons
    have g5 := g4.cons.1.1
    cases g1
    cases g5
    cases g3 with
    | affix _ h => exact ⟨_, .op _ _ _ _ _ _, .var (.infix_ h)⟩
    | same _ _ h => exact absurd rfl (h _ _)
  | @commas c k₀ k ks hne =>
    intro zs hc hz hg
    obtain ⟨⟨z, t'⟩, z₁, rfl, h1, h2⟩ := List.map_eq_cons_iff.1 hz
    obtain ⟨z₂, z₃, rfl, h3, h4⟩ := List.map_eq_append_iff.1 h2
    obtain ⟨⟨y, u'⟩, z₄, rfl, h5, h6⟩ := List.map_eq_cons_iff.1 h4
    have := List.map_eq_nil_iff.1 h6
    subst this
    cases h1
    cases h5
    refine ⟨hc, ?_⟩
    obtain ⟨⟨g1, _⟩, g2⟩ := hg.cons
    have g3 := g2.right.cons.1.1
    have h7 : z₂.map (put f) = (ks.map f).map fun j => (Token.comma, j) := by
      have g4 := g2.left
      clear h2 h4 hz hne g2 hg
      induction ks generalizing z₂ with
      | nil => simp at h3; simp [h3]
      | cons j ks ih =>
        obtain ⟨⟨x, v'⟩, z₅, rfl, h8, h9⟩ := List.map_eq_cons_iff.1 h3
        cases h8
        obtain ⟨⟨g5, _⟩, g6⟩ := g4.cons
        cases g5
        simp [put, ih z₅ h9 g6]
    cases g1
    cases g3
    refine ⟨.var (.commas ks.length), ?_, .var (.commas _)⟩
    have := Written.commas (c := f c) (k₀ := f k₀) (k := f k) (ks := ks.map f) (by simpa using hne)
    rw [← h7] at this
    simpa [put] using this
  | @grp c k₀ k m e ts he ih =>
    intro zs hc hz hg
    obtain ⟨⟨z, t'⟩, z₁, rfl, h1, h2⟩ := List.map_eq_cons_iff.1 hz
    obtain ⟨z₂, z₃, rfl, h3, h4⟩ := List.map_eq_append_iff.1 h2
    obtain ⟨⟨y, u'⟩, z₄, rfl, h5, h6⟩ := List.map_eq_cons_iff.1 h4
    have := List.map_eq_nil_iff.1 h6
    subst this
    cases h1
    cases h5
    refine ⟨hc, ?_⟩
    obtain ⟨⟨g1, _⟩, g2⟩ := hg.cons
    have g3 := g2.right.cons.1.1
    obtain ⟨h7, h8⟩ := firstCol_put (f := f) h3 g2.left he.ne_nil
    obtain ⟨h9, e', h10, h11⟩ := ih z₂ h7 h3 g2.left
    cases g1
    cases g3
    refine ⟨.grp e', ?_, .grp h11⟩
    rw [← h8] at h10
    have := Written.grp (c := f c) (k₀ := f k₀) (k := f k) h10
    simpa [put] using this
  | @tup c k₀ k m e ts xs he hne hxs ih ihs =>
    intro zs hc hz hg
    rw [List.cons_append, List.cons_append, List.append_assoc] at hz
    obtain ⟨⟨z, t'⟩, z₁, rfl, h1, h2⟩ := List.map_eq_cons_iff.1 hz
    obtain ⟨z₂, z₃, rfl, h3, h4⟩ := List.map_eq_append_iff.1 h2
    obtain ⟨z₅, z₆, rfl, h12, h13⟩ := List.map_eq_append_iff.1 h4
    obtain ⟨⟨y, u'⟩, z₄, rfl, h5, h6⟩ := List.map_eq_cons_iff.1 h13
    have := List.map_eq_nil_iff.1 h6
    subst this
    cases h1
    cases h5
    refine ⟨hc, ?_⟩
    obtain ⟨⟨g1, _⟩, g2⟩ := hg.cons
    have g3 := g2.right.right.cons.1.1
    obtain ⟨h7, h8⟩ := firstCol_put (f := f) h3 g2.left he.ne_nil
    obtain ⟨h9, e', h10, h11⟩ := ih z₂ h7 h3 g2.left
    obtain ⟨ys, e1, e2, e3⟩ := tupItems (f := f) (Q := Written .chain) xs z₅ ihs h12 g2.right.left
    have hys : ys ≠ [] := by
      rintro rfl
      exact hne (List.map_eq_nil_iff.1 e1.symm)
    cases g1
    cases g3
    refine ⟨.tup (e' :: ys.map (·.2.expr)), ?_, ?_⟩
    · rw [← h8] at h10
      have := Written.tup (c := f c) (k₀ := f k₀) (k := f k) h10 (xs := ys.map (·.2))
        (by simpa using hys) (by
          intro x hx
          obtain ⟨y, hy, rfl⟩ := List.mem_map.1 hx
          exact (e3 y hy).1)
      rw [List.map_map, List.map_map] at this
      simp only [List.map_cons, List.map_append, e2]
      simpa [put, Function.comp_def] using this
    · have := expr.tup (ρ := ρ) (es := (e, e') :: ys.map fun y => (y.1, y.2.expr)) (by
        intro x hx
        rcases List.mem_cons.1 hx with rfl | hx
        · exact h11
        · obtain ⟨y, hy, rfl⟩ := List.mem_map.1 hx
          exact (e3 y hy).2)
      rw [List.map_cons, List.map_cons, List.map_map, List.map_map] at this
      rw [← e1]
      exact this
  | @list c k₀ k xs hxs hfo ihs =>
    intro zs hc hz hg
    obtain ⟨⟨z, t'⟩, z₁, rfl, h1, h2⟩ := List.map_eq_cons_iff.1 hz
    obtain ⟨z₂, z₃, rfl, h3, h4⟩ := List.map_eq_append_iff.1 h2
    obtain ⟨⟨y, u'⟩, z₄, rfl, h5, h6⟩ := List.map_eq_cons_iff.1 h4
    have := List.map_eq_nil_iff.1 h6
    subst this
    cases h1
    cases h5
    refine ⟨hc, ?_⟩
    obtain ⟨⟨g1, _⟩, g2⟩ := hg.cons
    obtain ⟨ys, e1, e2, e3, e4⟩ := listItems hf (Q := Written .chain) ((.brackR, k), u') g2.right
      xs z₂ (fun x hx => ⟨(hxs x hx).ne_nil, ihs x hx⟩) hfo h3 g2.left
    have g3 := g2.right.cons.1.1
    cases g1
    cases g3
    refine ⟨.list (ys.map (·.2.expr)), ?_, ?_⟩
    · have := Written.list (c := f c) (k₀ := f k₀) (k := f k) (xs := ys.map (·.2)) (by
          intro x hx
          obtain ⟨y, hy, rfl⟩ := List.mem_map.1 hx
          exact (e3 y hy).1) e4
      rw [List.map_map, List.map_map] at this
      simp only [List.map_cons, List.map_append, e2]
      simpa [put, Function.comp_def] using this
    · have := expr.list (ρ := ρ) (es := ys.map fun y => (y.1, y.2.expr)) (by
        intro x hx
        obtain ⟨y, hy, rfl⟩ := List.mem_map.1 hx
        exact (e3 y hy).2)
      rw [List.map_map, List.map_map] at this
      rw [← e1]
      exact this

/-- Declarations that correspond. -/
inductive unit_ (ρ : Swap) : Decl → Decl → Prop
  | infix_ {d d'} : ρ.decl d d' → ρ.unit_ (.infix_ d) (.infix_ d')
  | expr {e e'} : ρ.expr e e' → ρ.unit_ (.expr e) (.expr e')

private theorem semi {o : Option Nat} {zs : List (CTok × Token)} (hz : zs.map (·.1) = semiToks o)
    (hg : ρ.Good P zs) : zs.map (put f) = semiToks (o.map f) := by
  cases o with
  | none => have := List.map_eq_nil_iff.1 hz; subst this; rfl
  | some k =>
    obtain ⟨⟨z, t'⟩, z₅, rfl, h11, h12⟩ := List.map_eq_cons_iff.1 hz
    have := List.map_eq_nil_iff.1 h12
    subst this
    cases h11
    have h13 : ρ.tok Token.semi t' := (hg _ List.mem_cons_self).1
    cases h13
    rfl

theorem writtenProg (hρ : ρ.Sound) (hf : Keep f P) {ds : List Decl} {ts : List CTok}
    (h : WrittenProg ds ts) : ∀ zs : List (CTok × Token), zs.map (·.1) = ts → ρ.Good P zs →
      ∃ ps : List (Decl × Decl), ps.map (·.1) = ds ∧ WrittenProg (ps.map (·.2)) (zs.map (put f)) ∧
        ∀ p ∈ ps, ρ.unit_ p.1 p.2 := by
  induction h with
  | nil => intro zs hz _; have := List.map_eq_nil_iff.1 hz; subst this; exact ⟨[], rfl, .nil, by simp⟩
  | infix_ o hd _ ih =>
    intro zs hz hg
    obtain ⟨z₁, z₂, rfl, h1, h2⟩ := List.map_eq_append_iff.1 hz
    obtain ⟨z₃, z₄, rfl, h3, h4⟩ := List.map_eq_append_iff.1 h1
    obtain ⟨ps, e1, e2, e3⟩ := ih z₂ h2 hg.right
    obtain ⟨d', h5, h6⟩ := declWritten hρ hd (z₃.map fun z => (z.1.1, z.2)) (by rw [map_left, h3])
      hg.left.left.toks
    rw [map_right f] at h5
    refine ⟨(.infix_ _, .infix_ d') :: ps, by rw [List.map_cons, e1], ?_, ?_⟩
    · rw [List.map_append, List.map_append, semi h4 hg.left.right]
      exact .infix_ _ h5 e2
    · intro p hp
      rcases List.mem_cons.1 hp with rfl | hp
      · exact .infix_ h6
      · exact e3 p hp
  | expr o he _ hfo ih =>
    intro zs hz hg
    obtain ⟨z₁, z₂, rfl, h1, h2⟩ := List.map_eq_append_iff.1 hz
    obtain ⟨z₃, z₄, rfl, h3, h4⟩ := List.map_eq_append_iff.1 h1
    obtain ⟨ps, e1, e2, e3⟩ := ih z₂ h2 hg.right
    obtain ⟨h7, h8⟩ := firstCol_put (f := f) h3 hg.left.left he.ne_nil
    obtain ⟨h9, e', h10, h11⟩ := written hρ hf he z₃ h7 h3 hg.left.left
    rw [← h8] at h10
    refine ⟨(.expr _, .expr e') :: ps, by rw [List.map_cons, e1], ?_, ?_⟩
    · rw [List.map_append, List.map_append, semi h4 hg.left.right]
      exact .expr _ h10 e2 fun ho => follow hf h9 h2 hg.right (hfo (by simpa using ho))
    · intro p hp
      rcases List.mem_cons.1 hp with rfl | hp
      · exact .expr h11
      · exact e3 p hp

theorem OneByOne.snoc {α β : Type} {R : α → β → Prop} {xs : List α} {ys : List β} {x : α} {y : β}
    (h : OneByOne R xs ys) (hr : R x y) : OneByOne R (xs ++ [x]) (ys ++ [y]) := by
  obtain ⟨ps, rfl, rfl, h3⟩ := h
  refine ⟨ps ++ [(x, y)], by simp, by simp, ?_⟩
  intro p hp
  rcases List.mem_append.1 hp with hp | hp
  · exact h3 p hp
  · cases List.mem_singleton.1 hp; exact hr

theorem ofDecls (ps : List (Decl × Decl)) (h : ∀ p ∈ ps, ρ.unit_ p.1 p.2) :
    ρ.ast (Ast.ofDecls (ps.map (·.1))) (Ast.ofDecls (ps.map (·.2))) := by
  have go : ∀ (ps : List (Decl × Decl)), (∀ p ∈ ps, ρ.unit_ p.1 p.2) → ∀ a a', ρ.ast a a' →
      ρ.ast ((ps.map (·.1)).foldl Ast.push a) ((ps.map (·.2)).foldl Ast.push a') := by
    intro ps
    induction ps with
    | nil => intro _ _ _ h; exact h
    | cons p ps ih =>
      intro h a a' ha
      refine ih (fun p hp => h p (by simp [hp])) _ _ ?_
      obtain ⟨d, d'⟩ := p
      have := h (d, d') (by simp)
      obtain ⟨h1, h2, h3⟩ := ha
      cases this with
      | infix_ hd => exact ⟨by simp [Ast.push, Decl.kind, h1], OneByOne.snoc h2 hd, h3⟩
      | expr he => exact ⟨by simp [Ast.push, Decl.kind, h1], h2, OneByOne.snoc h3 he⟩
  exact go ps h _ _ ⟨rfl, ⟨[], rfl, rfl, by simp⟩, ⟨[], rfl, rfl, by simp⟩⟩

end Swap
end Pemdas
