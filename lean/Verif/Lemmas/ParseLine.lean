import Verif.Lemmas.ParseTop
import Verif.Spec.Line
/-
Sources on one line: columns increase, so the layout grammar is the grammar without columns.
-/
namespace Pemdas
open Lexer Parser
set_option linter.unusedSectionVars false

/-- Columns increase. -/
def Inc (ts : List CTok) : Prop := ts.Pairwise fun a b => a.2 < b.2

theorem Inc.left {ts us : List CTok} (h : Inc (ts ++ us)) : Inc ts := (List.pairwise_append.1 h).1
theorem Inc.right {ts us : List CTok} (h : Inc (ts ++ us)) : Inc us := (List.pairwise_append.1 h).2.1
theorem Inc.lt {ts us : List CTok} (h : Inc (ts ++ us)) {x y : CTok} (hx : x ∈ ts) (hy : y ∈ us) :
    x.2 < y.2 := (List.pairwise_append.1 h).2.2 x hx y hy
theorem Inc.tail {x : CTok} {ts : List CTok} (h : Inc (x :: ts)) : Inc ts := (List.pairwise_cons.1 h).2
theorem Inc.head {x : CTok} {ts : List CTok} (h : Inc (x :: ts)) {y : CTok} (hy : y ∈ ts) :
    x.2 < y.2 := (List.pairwise_cons.1 h).1 y hy

theorem firstCol_mem {ts : List CTok} (h : ts ≠ []) : ∃ x ∈ ts, firstCol ts = x.2 := by
  cases ts with
  | nil => exact absurd rfl h
  | cons x ts => exact ⟨x, by simp, rfl⟩

theorem Inc.firstCol_le {ts : List CTok} (h : Inc ts) {x : CTok} (hx : x ∈ ts) :
    firstCol ts ≤ x.2 := by
  cases ts with
  | nil => cases hx
  | cons y ts =>
    rcases List.mem_cons.1 hx with rfl | hx
    · exact Nat.le_refl _
    · exact Nat.le_of_lt (h.head hx)

theorem Closed.follow {m : Nat} {ts : List CTok} (h : Closed (ts.map (·.1))) : Follow m ts := by
  cases ts with
  | nil => trivial
  | cons x ts => exact ⟨h.1, fun h' => by rw [h.2] at h'; cases h'⟩

theorem Follow.closed {m : Nat} {ts us : List CTok} (h : Follow m us) (hi : Inc (ts ++ us))
    (hm : ∃ x ∈ ts, m ≤ x.2) : Closed (us.map (·.1)) := by
  cases us with
  | nil => trivial
  | cons y us =>
    refine ⟨h.1, ?_⟩
    cases hy : y.1.startsArg with
    | false => rfl
    | true =>
      obtain ⟨x, hx, hm⟩ := hm
      have h1 := h.2 hy
      have h2 := hi.lt hx (List.mem_cons_self ..)
      omega

theorem Line.ne_nil {cat : ExprCat} {e : Expr} {ts : List Token} (h : Line cat e ts) : ts ≠ [] := by
  induction h with
  | app _ _ ih _ => simp [ih]
  | _ => simp_all

/-- With increasing columns, what the grammar for lines derives is derived with columns. -/
theorem Line.written {cat : ExprCat} {e : Expr} {us : List Token} (h : Line cat e us) :
    ∀ (ts : List CTok) (c : Nat), ts.map (·.1) = us → Inc ts → c ≤ firstCol ts →
      ∃ m, Written cat c m e ts ∧ (cat = .arg ∨ cat = .operand → m = c) := by
  induction h with
  | last _ ih =>
    intro ts c hts hi hc
    obtain ⟨m, hw, hm⟩ := ih ts c hts hi hc
    cases hm (.inr rfl)
    exact ⟨c, .last hw, fun _ => rfl⟩
  | lastOpen _ ih =>
    intro ts c hts hi hc
    obtain ⟨m, hw, _⟩ := ih ts c hts hi hc
    exact ⟨_, .lastOpen hw, by rintro (h | h) <;> cases h⟩
  | @bin l op t r us vs hl ho _ ih1 ih2 =>
    intro ts c hts hi hc
    obtain ⟨a, b, rfl, ha, q1⟩ := cols_append hts
    obtain ⟨k, b, rfl, hb⟩ := cols_cons q1
    have hne : a ≠ [] := by rintro rfl; exact hl.ne_nil ha.symm
    rw [firstCol_append hne] at hc
    obtain ⟨m, hw, hm⟩ := ih1 a c ha hi.left hc
    cases hm (.inr rfl)
    obtain ⟨m', hw', _⟩ := ih2 b (firstCol b) hb hi.right.tail (Nat.le_refl _)
    exact ⟨m', .bin hw ho hw', by rintro (h | h) <;> cases h⟩
  | head _ ih =>
    intro ts c hts hi hc
    obtain ⟨m, hw, hm⟩ := ih ts c hts hi hc
    cases hm (.inl rfl)
    exact ⟨c, .head hw, fun _ => rfl⟩
  | @app f x us vs hf hx ih1 ih2 =>
    intro ts c hts hi hc
    obtain ⟨a, b, rfl, ha, hb⟩ := cols_append hts
    have hne : a ≠ [] := by rintro rfl; exact hf.ne_nil ha.symm
    have hne' : b ≠ [] := by rintro rfl; exact hx.ne_nil hb.symm
    rw [firstCol_append hne] at hc
    have hlt : c < firstCol b := by
      obtain ⟨x, hx, h1⟩ := firstCol_mem hne
      obtain ⟨y, hy, h2⟩ := firstCol_mem hne'
      have := hi.lt hx hy
      omega
    obtain ⟨m, hw, hm⟩ := ih1 a c ha hi.left hc
    cases hm (.inr rfl)
    obtain ⟨m', hw', hm'⟩ := ih2 b c hb hi.right (Nat.le_of_lt hlt)
    cases hm' (.inl rfl)
    exact ⟨c, .app hw hw' hlt, fun _ => rfl⟩
  | @lam ps e us hne hps hl ih =>
    intro ts c hts hi hc
    rw [List.cons_append] at hts
    obtain ⟨k₀, a, rfl, q2⟩ := cols_cons hts
    obtain ⟨a, b, rfl, ha, q3⟩ := cols_append q2
    obtain ⟨k, b, rfl, hb⟩ := cols_cons q3
    have hi' := hi.tail.right
    have hne' : b ≠ [] := by rintro rfl; exact hl.ne_nil hb.symm
    obtain ⟨y, hy, h2⟩ := firstCol_mem hne'
    have hlt := hi'.head hy
    obtain ⟨m, hw, _⟩ := ih b k hb hi'.tail (by simp only at hlt; omega)
    exact ⟨m, .lam hne hps ha hw, by rintro (h | h) <;> cases h⟩
  | @let_ d e ds us hd hl ih =>
    intro ts c hts hi hc
    rw [List.cons_append] at hts
    obtain ⟨k₀, a, rfl, q4⟩ := cols_cons hts
    obtain ⟨a, b, rfl, ha, q5⟩ := cols_append q4
    obtain ⟨k, b, rfl, hb⟩ := cols_cons q5
    have hi' := hi.tail.right
    have hne' : b ≠ [] := by rintro rfl; exact hl.ne_nil hb.symm
    obtain ⟨y, hy, h2⟩ := firstCol_mem hne'
    have hlt := hi'.head hy
    obtain ⟨m, hw, _⟩ := ih b k hb hi'.tail (by simp only at hlt; omega)
    exact ⟨m, .let_ (by rwa [ha]) hw, by rintro (h | h) <;> cases h⟩
  | lit l =>
    intro ts c hts _ _
    obtain ⟨k, rfl⟩ := cols_single hts
    exact ⟨c, .lit _ _ _, fun _ => rfl⟩
  | upper l =>
    intro ts c hts _ _
    obtain ⟨k, rfl⟩ := cols_single hts
    exact ⟨c, .upper _ _ _, fun _ => rfl⟩
  | lower l =>
    intro ts c hts _ _
    obtain ⟨k, rfl⟩ := cols_single hts
    exact ⟨c, .lower _ _ _, fun _ => rfl⟩
  | unit =>
    intro ts c hts _ _
    obtain ⟨k₀, ts, rfl, q6⟩ := cols_cons hts
    obtain ⟨k, rfl⟩ := cols_single q6
    exact ⟨c, .unit _ _ _, fun _ => rfl⟩
  | op s b =>
    intro ts c hts _ _
    obtain ⟨k₀, ts, rfl, q7⟩ := cols_cons hts
    obtain ⟨k₁, ts, rfl, q8⟩ := cols_cons q7
    obtain ⟨k, rfl⟩ := cols_single q8
    exact ⟨c, .op _ _ _ _ _ _, fun _ => rfl⟩
  | @commas j hj =>
    intro ts c hts _ _
    rw [List.cons_append] at hts
    obtain ⟨k₀, a, rfl, q9⟩ := cols_cons hts
    obtain ⟨a, b, rfl, ha, q10⟩ := cols_append q9
    obtain ⟨k, rfl⟩ := cols_single q10
    have : a = (a.map (·.2)).map (fun i => (Token.comma, i)) := by
      have : ∀ x ∈ a, x.1 = Token.comma := by
        intro x hx
        have : x.1 ∈ a.map (·.1) := List.mem_map.2 ⟨x, hx, rfl⟩
        rw [ha] at this
        exact List.eq_of_mem_replicate this
      rw [List.map_map]
      conv => lhs; rw [← List.map_id a]
      refine List.map_congr_left fun x hx => ?_
      have := this x hx
      obtain ⟨t, k⟩ := x
      simp only at this
      subst this
      rfl
    have hlen : (a.map (·.2)).length = j := by
      have := congrArg List.length ha
      simpa using this
    have hne : a.map (·.2) ≠ [] := by
      intro h; rw [h] at hlen; simp at hlen; omega
    have hw := Written.commas (c := c) (k₀ := k₀) (k := k) hne
    rw [hlen, ← this] at hw
    exact ⟨c, hw, fun _ => rfl⟩
  | @grp e us hl ih =>
    intro ts c hts hi _
    rw [List.cons_append] at hts
    obtain ⟨k₀, a, rfl, q11⟩ := cols_cons hts
    obtain ⟨a, b, rfl, ha, q12⟩ := cols_append q11
    obtain ⟨k, rfl⟩ := cols_single q12
    obtain ⟨m, hw, _⟩ := ih a (firstCol a) ha hi.tail.left (Nat.le_refl _)
    exact ⟨c, .grp hw, fun _ => rfl⟩
  | @tup e us xs hl hne hxs ih ihx =>
    intro ts c hts hi _
    rw [List.cons_append, List.cons_append, List.append_assoc] at hts
    obtain ⟨k₀, a, rfl, q13⟩ := cols_cons hts
    obtain ⟨a, b, rfl, ha, q14⟩ := cols_append q13
    obtain ⟨b, d, rfl, hb, q15⟩ := cols_append q14
    obtain ⟨k, rfl⟩ := cols_single q15
    obtain ⟨m, hw, _⟩ := ih a (firstCol a) ha hi.tail.left (Nat.le_refl _)
    have key : ∀ (xs : List (Expr × List Token)) (b : List CTok),
        (∀ x ∈ xs, Line .chain x.1 x.2) →
        (∀ x ∈ xs, ∀ (ts : List CTok) (c : Nat), ts.map (·.1) = x.2 → Inc ts → c ≤ firstCol ts →
          ∃ m, Written .chain c m x.1 ts ∧ (ExprCat.chain = .arg ∨ ExprCat.chain = .operand → m = c)) →
        b.map (·.1) = (xs.map fun x => Token.comma :: x.2).flatten → Inc b →
        ∃ ys : List TupItem, (∀ y ∈ ys, Written .chain y.comma y.edge y.expr y.toks) ∧
          ys.map (·.expr) = xs.map (·.1) ∧ (ys.map (·.all)).flatten = b := by
      intro xs
      induction xs with
      | nil => intro b _ _ hb _; exact ⟨[], by simp, rfl, (cols_nil hb).symm⟩
      | cons x xs ihl =>
        intro b hl' hx q hi
        rw [List.map_cons, List.flatten_cons, List.cons_append] at q
        obtain ⟨j, b, rfl, q16⟩ := cols_cons q
        obtain ⟨a, b, rfl, ha, hb⟩ := cols_append q16
        have hne : a ≠ [] := by rintro rfl; exact (hl' x (by simp)).ne_nil ha.symm
        obtain ⟨y, hy, h2⟩ := firstCol_mem hne
        have hlt := hi.head (List.mem_append.2 (.inl hy))
        obtain ⟨m, hw, _⟩ := hx x (by simp) a j ha hi.tail.left (by simp only at hlt; omega)
        obtain ⟨ys, h3, h4, h5⟩ := ihl b (fun x h => hl' x (by simp [h])) (fun x h => hx x (by simp [h]))
          hb hi.tail.right
        refine ⟨⟨j, x.1, a, m⟩ :: ys, ?_, by simp [h4], by rw [List.map_cons, List.flatten_cons, h5]; rfl⟩
        intro y hy
        rcases List.mem_cons.1 hy with rfl | hy
        · exact hw
        · exact h3 y hy
    obtain ⟨ys, h3, h4, rfl⟩ := key xs b hxs ihx hb hi.tail.right.left
    have hne' : ys ≠ [] := by rintro rfl; simp at h4; exact hne h4
    have := Written.tup (c := c) (k₀ := k₀) (k := k) hw hne' h3
    rw [h4] at this
    exact ⟨c, by simpa using this, fun _ => rfl⟩
  | @list xs hxs hcl ihx =>
    intro ts c hts hi _
    rw [List.cons_append] at hts
    obtain ⟨k₀, a, rfl, q17⟩ := cols_cons hts
    obtain ⟨a, b, rfl, ha, q18⟩ := cols_append q17
    obtain ⟨k, rfl⟩ := cols_single q18
    have key : ∀ (xs : List (Expr × List Token × Bool)) (b : List CTok),
        (∀ x ∈ xs, ∀ (ts : List CTok) (c : Nat), ts.map (·.1) = x.2.1 → Inc ts → c ≤ firstCol ts →
          ∃ m, Written .chain c m x.1 ts ∧ (ExprCat.chain = .arg ∨ ExprCat.chain = .operand → m = c)) →
        (∀ a x b, xs = a ++ x :: b → x.2.2 = false →
          Closed ((b.map elemToks).flatten ++ [.brackR])) →
        b.map (·.1) = (xs.map elemToks).flatten → Inc b →
        ∃ ys : List ListItem,
          (∀ y ∈ ys, Written .chain (firstCol y.toks) y.edge y.expr y.toks) ∧
          (∀ a y b, ys = a ++ y :: b → y.comma = none →
            Follow y.edge ((b.map (·.all)).flatten ++ [(.brackR, k)])) ∧
          ys.map (·.expr) = xs.map (·.1) ∧ (ys.map (·.all)).flatten = b := by
      intro xs
      induction xs with
      | nil => intro b _ _ hb _; exact ⟨[], by simp, by simp, rfl, (cols_nil hb).symm⟩
      | cons x xs ihl =>
        intro b hx hcl q hi
        obtain ⟨e, us, comma⟩ := x
        rw [List.map_cons, List.flatten_cons, elemToks, List.append_assoc] at q
        obtain ⟨a, b, rfl, ha, q19⟩ := cols_append q
        obtain ⟨d, b, rfl, hd, hb⟩ := cols_append q19
        obtain ⟨m, hw, _⟩ := hx _ (by simp) a (firstCol a) ha hi.left (Nat.le_refl _)
        obtain ⟨ys, h3, h6, h4, h5⟩ := ihl b (fun x h => hx x (by simp [h]))
          (fun a x b h => hcl (_ :: a) x b (by rw [h]; rfl)) hb hi.right.right
        have hall : ∀ co, ∀ y ∈ (⟨e, a, m, co⟩ :: ys : List ListItem),
            Written .chain (firstCol y.toks) y.edge y.expr y.toks := by
          intro co y hy
          rcases List.mem_cons.1 hy with rfl | hy
          · exact hw
          · exact h3 y hy
        cases comma with
        | true =>
          obtain ⟨j, rfl⟩ := cols_single (hd.trans rfl)
          refine ⟨⟨e, a, m, some j⟩ :: ys, hall _, ?_, by simp [h4], by
            rw [List.map_cons, List.flatten_cons, h5]; simp [ListItem.all, commaToks]⟩
          intro a y b hab hn
          cases a with
          | nil => cases hab; cases hn
          | cons z a => cases hab; exact h6 a y b rfl hn
        | false =>
          cases cols_nil (hd.trans rfl)
          refine ⟨⟨e, a, m, none⟩ :: ys, hall _, ?_, by simp [h4], by
            rw [List.map_cons, List.flatten_cons, h5]; simp [ListItem.all, commaToks]⟩
          intro a y b' hab hn
          cases a with
          | nil =>
            cases hab
            refine Closed.follow ?_
            rw [List.map_append, h5, hb]
            exact hcl [] _ xs rfl rfl
          | cons z a => cases hab; exact h6 a y b' rfl hn
    obtain ⟨ys, h3, h6, h4, rfl⟩ := key xs a ihx hcl ha hi.tail.left
    have := Written.list (c := c) (k₀ := k₀) (k := k) h3 h6
    rw [h4] at this
    exact ⟨c, this, fun _ => rfl⟩

/-- With increasing columns, what is derived with columns is derived by the grammar for lines, and
the edge is not beyond the last token. -/
theorem Written.line {cat : ExprCat} {c m : Nat} {e : Expr} {ts : List CTok}
    (h : Written cat c m e ts) : Inc ts → c ≤ firstCol ts →
      Line cat e (ts.map (·.1)) ∧ ∃ x ∈ ts, m ≤ x.2 := by
  have start : ∀ {cat c m e ts}, Written cat c m e ts → c ≤ firstCol ts → ∃ x ∈ ts, c ≤ x.2 := by
    intro cat c m e ts h hc
    obtain ⟨x, hx, he⟩ := firstCol_mem h.ne_nil
    exact ⟨x, hx, by omega⟩
  induction h with
  | last hw ih => exact fun hi hc => ⟨.last (ih hi hc).1, start hw hc⟩
  | lastOpen hw ih =>
    intro hi hc
    obtain ⟨x, hx, h⟩ := (ih hi hc).2
    exact ⟨.lastOpen (ih hi hc).1, x, hx, by omega⟩
  | @bin c m l op t k r ts us hl ho hr ih1 ih2 =>
    intro hi hc
    rw [firstCol_append hl.ne_nil] at hc
    obtain ⟨h1, _⟩ := ih1 hi.left hc
    obtain ⟨h2, x, hx, h⟩ := ih2 hi.right.tail (Nat.le_refl _)
    refine ⟨by simpa using Line.bin h1 ho h2, x, by simp [hx], h⟩
  | head hw ih => exact fun hi hc => ⟨.head (ih hi hc).1, start hw hc⟩
  | @app c f x ts us hf hx hlt ih1 ih2 =>
    intro hi hc
    rw [firstCol_append hf.ne_nil] at hc
    obtain ⟨h1, y, hy, h⟩ := ih1 hi.left hc
    obtain ⟨h2, _⟩ := ih2 hi.right (Nat.le_of_lt hlt)
    exact ⟨by simpa using Line.app h1 h2, y, by simp [hy], h⟩
  | @appOpen c m f x ts us hf hx hlt hle ih1 ih2 =>
    intro hi hc
    rw [firstCol_append hf.ne_nil] at hc
    obtain ⟨_, y, hy, h⟩ := ih1 hi.left hc
    obtain ⟨z, hz, he⟩ := firstCol_mem hx.ne_nil
    have := hi.lt hy hz
    omega
  | @lam c k₀ k m ps pts e ts hne hps hp hw ih =>
    intro hi hc
    have hi' := hi.tail.right
    obtain ⟨y, hy, h2⟩ := firstCol_mem hw.ne_nil
    have hlt := hi'.head hy
    obtain ⟨h1, x, hx, h⟩ := ih hi'.tail (by simp only at hlt; omega)
    refine ⟨?_, x, by simp [hx], h⟩
    have := Line.lam hne hps h1
    rw [← hp] at this
    simpa using this
  | @let_ c k₀ k m d e ds ts hd hw ih =>
    intro hi hc
    have hi' := hi.tail.right
    obtain ⟨y, hy, h2⟩ := firstCol_mem hw.ne_nil
    have hlt := hi'.head hy
    obtain ⟨h1, x, hx, h⟩ := ih hi'.tail (by simp only at hlt; omega)
    refine ⟨?_, x, by simp [hx], h⟩
    have := Line.let_ hd h1
    simpa using this
  | lit c k l => exact fun _ hc => ⟨.lit l, start (.lit c k l) hc⟩
  | upper c k s => exact fun _ hc => ⟨.upper s, start (.upper c k s) hc⟩
  | lower c k s => exact fun _ hc => ⟨.lower s, start (.lower c k s) hc⟩
  | unit c k₀ k => exact fun _ hc => ⟨.unit, start (.unit c k₀ k) hc⟩
  | op c k₀ k₁ k s b => exact fun _ hc => ⟨.op s b, start (.op c k₀ k₁ k s b) hc⟩
  | @commas c k₀ k ks hne =>
    intro _ hc
    refine ⟨?_, start (.commas (k := k) hne) hc⟩
    have := Line.commas (k := ks.length) (by
      cases ks with
      | nil => exact absurd rfl hne
      | cons => simp)
    have he : List.map (fun x => x.1) (List.map (fun j => (Token.comma, j)) ks) =
        List.replicate ks.length Token.comma := by
      rw [List.map_map]
      exact List.map_const' ..
    rw [List.map_append, List.map_cons, he]
    exact this
  | @grp c k₀ k m e ts hw ih =>
    intro hi hc
    refine ⟨?_, start (.grp (k := k) hw) hc⟩
    obtain ⟨h1, _⟩ := ih hi.tail.left (Nat.le_refl _)
    simpa using Line.grp h1
  | @tup c k₀ k m e ts xs hw hne hxs ih ihx =>
    intro hi hc
    refine ⟨?_, start (.tup (k := k) hw hne hxs) hc⟩
    rw [List.append_assoc, List.cons_append] at hi
    obtain ⟨h1, _⟩ := ih hi.tail.left (Nat.le_refl _)
    have key : ∀ xs : List TupItem,
        (∀ x ∈ xs, Written .chain x.comma x.edge x.expr x.toks) →
        (∀ x ∈ xs, Inc x.toks → x.comma ≤ firstCol x.toks →
          Line .chain x.expr (x.toks.map (·.1)) ∧ ∃ y ∈ x.toks, x.edge ≤ y.2) →
        Inc (xs.map (·.all)).flatten → ∀ x ∈ xs, Line .chain x.expr (x.toks.map (·.1)) := by
      intro xs
      induction xs with
      | nil => intro _ _ _ x hx; cases hx
      | cons y xs ihl =>
        intro hxs hx hi x hx'
        rw [List.map_cons, List.flatten_cons] at hi
        rcases List.mem_cons.1 hx' with rfl | hx'
        · obtain ⟨z, hz, h2⟩ := firstCol_mem (hxs x (by simp)).ne_nil
          have hlt := hi.left.head hz
          exact (hx x (by simp) hi.left.tail (by simp only at hlt; omega)).1
        · exact ihl (fun x h => hxs x (by simp [h])) (fun x h => hx x (by simp [h])) hi.right x hx'
    have hx := key xs hxs ihx hi.tail.right.left
    have := Line.tup (xs := xs.map fun x => (x.expr, x.toks.map (·.1))) h1 (by simpa using hne)
      (by
        intro y hy
        obtain ⟨x, hx', rfl⟩ := List.mem_map.1 hy
        exact hx x hx')
    have he : List.map (fun x => x.1) (xs.map (·.all)).flatten =
        ((xs.map fun x => (x.expr, x.toks.map (·.1))).map fun x => Token.comma :: x.2).flatten := by
      rw [List.map_flatten, List.map_map, List.map_map]
      rfl
    rw [← he] at this
    simpa [Function.comp_def] using this
  | @list c k₀ k xs hxs hf ihx =>
    intro hi hc
    refine ⟨?_, start (.list hxs hf) hc⟩
    have he : ∀ ys : List ListItem, List.map (fun x => x.1) (ys.map (·.all)).flatten =
        ((ys.map fun x => (x.expr, x.toks.map (·.1), x.comma.isSome)).map elemToks).flatten := by
      intro ys
      rw [List.map_flatten, List.map_map, List.map_map]
      congr 1
      refine List.map_congr_left fun x _ => ?_
      simp only [Function.comp_def, ListItem.all, elemToks, List.map_append]
      cases x.comma <;> rfl
    have hitem : ∀ a x b, xs = a ++ x :: b → Inc x.toks ∧
        Inc (x.toks ++ ((commaToks x.comma ++ (b.map (·.all)).flatten) ++ [(Token.brackR, k)])) := by
      rintro a x b rfl
      have : Inc ((a.map (·.all)).flatten ++ (x.toks ++ ((commaToks x.comma ++
          (b.map (·.all)).flatten) ++ [(Token.brackR, k)]))) := by
        have : Inc (((a ++ x :: b).map (·.all)).flatten ++ [(Token.brackR, k)]) := hi.tail
        simpa only [List.map_append, List.map_cons, List.flatten_append, List.flatten_cons,
          ListItem.all, List.append_assoc] using this
      exact ⟨this.right.left, this.right⟩
    have hx : ∀ x ∈ xs, Line .chain x.expr (x.toks.map (·.1)) ∧ ∃ y ∈ x.toks, x.edge ≤ y.2 := by
      intro x hm
      obtain ⟨a, b, hab⟩ := List.append_of_mem hm
      exact ihx x hm (hitem a x b hab).1 (Nat.le_refl _)
    have := Line.list (xs := xs.map fun x => (x.expr, x.toks.map (·.1), x.comma.isSome))
      (by
        intro y hy
        obtain ⟨x, hx', rfl⟩ := List.mem_map.1 hy
        exact (hx x hx').1)
      (by
        intro a y b hab hn
        obtain ⟨a', b', hxs', rfl, hb⟩ := List.map_eq_append_iff.1 hab
        obtain ⟨x, b'', hb', rfl, rfl⟩ := List.map_eq_cons_iff.1 hb
        subst hb'
        have hnone : x.comma = none := by
          cases hco : x.comma with
          | none => rfl
          | some j => simp [hco] at hn
        have h1 := hf a' x b'' hxs' hnone
        have h2 := (hitem a' x b'' hxs').2
        rw [hnone] at h2
        simp only [commaToks, List.nil_append] at h2
        have := h1.closed h2 (hx x (by rw [hxs']; simp)).2
        rw [List.map_append, he] at this
        exact this)
    rw [← he] at this
    simpa [Function.comp_def] using this

theorem LineProg.written {ds : List Decl} {us : List Token} (h : LineProg ds us) :
    ∀ ts : List CTok, ts.map (·.1) = us → Inc ts → WrittenProg ds ts := by
  have semi : ∀ {ts : List CTok} {b : Bool}, ts.map (·.1) = (if b then [Token.semi] else []) →
      ∃ s, ts = semiToks s ∧ (s = none → b = false) := by
    intro ts b h
    cases b with
    | false => exact ⟨none, cols_nil h, fun _ => rfl⟩
    | true =>
      obtain ⟨k, rfl⟩ := cols_single h
      exact ⟨some k, rfl, by simp⟩
  induction h with
  | nil => intro ts hts _; rw [cols_nil hts]; exact .nil
  | @infix_ d ds ts us b hd _ ih =>
    intro cts hts hi
    rw [List.append_assoc] at hts
    obtain ⟨a, x, rfl, ha, q20⟩ := cols_append hts
    obtain ⟨x, y, rfl, hx, hy⟩ := cols_append q20
    obtain ⟨s, rfl, _⟩ := semi hx
    rw [← List.append_assoc]
    exact .infix_ s (by rwa [ha]) (ih y hy hi.right.right)
  | @expr e ds ts us b he _ hc ih =>
    intro cts hts hi
    rw [List.append_assoc] at hts
    obtain ⟨a, x, rfl, ha, q21⟩ := cols_append hts
    obtain ⟨x, y, rfl, hx, hy⟩ := cols_append q21
    obtain ⟨s, rfl, hs⟩ := semi hx
    obtain ⟨m, hw, _⟩ := he.written a (firstCol a) ha hi.left (Nat.le_refl _)
    rw [← List.append_assoc]
    exact .expr s hw (ih y hy hi.right.right) fun h => Closed.follow (by rw [hy]; exact hc (hs h))

theorem WrittenProg.line {ds : List Decl} {ts : List CTok} (h : WrittenProg ds ts) (hi : Inc ts) :
    LineProg ds (ts.map (·.1)) := by
  have semi : ∀ s : Option Nat, (semiToks s).map (·.1) = if s.isSome then [Token.semi] else [] := by
    intro s; cases s <;> rfl
  induction h with
  | nil => exact .nil
  | @infix_ d ds us ts s hd _ ih =>
    rw [List.append_assoc] at hi
    have := LineProg.infix_ s.isSome hd (ih hi.right.right)
    rw [← semi] at this
    simpa using this
  | @expr e m ds ts us s he _ hf ih =>
    rw [List.append_assoc] at hi
    obtain ⟨h1, h2⟩ := he.line hi.left (Nat.le_refl _)
    have := LineProg.expr s.isSome h1 (ih hi.right.right) (by
      intro hn
      have hs : s = none := by cases s <;> simp_all
      subst hs
      exact (hf rfl).closed hi h2)
    rw [← semi] at this
    simpa using this

end Pemdas
