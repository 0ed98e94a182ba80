import Verif.Spec.Line
/-
Helper lemmas: the grammars derive no error tokens, and semicolons only between declarations.
-/
namespace Pemdas

/-- No errors. -/
def Sound (ts : List Token) : Prop := ∀ t ∈ ts, ∀ e, t ≠ .error e

theorem Sound.append {ts us : List Token} (h : Sound ts) (h' : Sound us) : Sound (ts ++ us) :=
  fun t ht => (List.mem_append.1 ht).elim (h t) (h' t)

theorem Sound.cons {t : Token} {us : List Token} (h : ∀ e, t ≠ .error e) (h' : Sound us) :
    Sound (t :: us) := fun u hu => (List.mem_cons.1 hu).elim (fun e => e ▸ h) (h' u)

theorem Sound.nil : Sound [] := by simp [Sound]

/-- No errors and no semicolons. -/
def Inner (ts : List Token) : Prop := ∀ t ∈ ts, t ≠ .semi ∧ ∀ e, t ≠ .error e

theorem Inner.sound {ts : List Token} (h : Inner ts) : Sound ts := fun t ht => (h t ht).2

theorem Inner.append {ts us : List Token} (h : Inner ts) (h' : Inner us) : Inner (ts ++ us) :=
  fun t ht => (List.mem_append.1 ht).elim (h t) (h' t)

theorem Inner.cons {t : Token} {us : List Token} (h : t ≠ .semi ∧ ∀ e, t ≠ .error e) (h' : Inner us) :
    Inner (t :: us) := fun u hu => (List.mem_cons.1 hu).elim (fun e => e ▸ h) (h' u)

theorem Inner.nil : Inner [] := by simp [Inner]

theorem Inner.flatten {tss : List (List Token)} (h : ∀ ts ∈ tss, Inner ts) : Inner tss.flatten := by
  intro t ht
  obtain ⟨ts, h1, h2⟩ := List.mem_flatten.1 ht
  exact h ts h1 t h2

theorem Inner.sepBy {sep : Token} {tss : List (List Token)} (hs : sep ≠ .semi ∧ ∀ e, sep ≠ .error e)
    (h : ∀ ts ∈ tss, Inner ts) : Inner (sepBy sep tss) := by
  induction tss with
  | nil => exact .nil
  | cons ts rest ih =>
    cases rest with
    | nil => exact h ts (by simp)
    | cons us rest =>
      exact (h ts (by simp)).append (.cons hs (ih fun vs hv => h vs (by simp [hv])))

theorem OpTok.inner {op : Infix} {t : Token} (h : OpTok op t) : t ≠ .semi ∧ ∀ e, t ≠ .error e := by
  cases h <;> simp

theorem PatToks.noSemi {c : PatCat} {p : Pat} {ts : List Token} (h : PatToks c p ts) : Inner ts := by
  induction h with
  | wild | con0 | var | firstOp | lit => exact .cons (by simp) .nil
  | as_ _ _ ih => exact .cons (by simp) (.cons (by simp) ih)
  | firstNeg _ ih | minus _ ih => exact .cons (by simp) ih
  | firstCon _ ih | first _ ih | inner _ ih | innerCon _ ih => exact ih
  | paren _ ih => exact .cons (by simp) (ih.append (.cons (by simp) .nil))
  | tup _ _ _ ih ihs =>
    refine .cons (by simp) (.append (.sepBy (by simp) ?_) (.cons (by simp) .nil))
    intro us hu
    rcases List.mem_cons.1 hu with rfl | hu
    · exact ih
    · obtain ⟨x, hx, rfl⟩ := List.mem_map.1 hu; exact ihs x hx
  | arrNil => exact .cons (by simp) (.cons (by simp) (.cons (by simp) .nil))
  | arr _ _ ihs =>
    refine .cons (by simp) (.append (.sepBy (by simp) ?_) (.cons (by simp) .nil))
    intro us hu
    obtain ⟨x, hx, rfl⟩ := List.mem_map.1 hu; exact ihs x hx
  | con _ _ ihs =>
    refine .cons (by simp) (.flatten ?_)
    intro us hu
    obtain ⟨x, hx, rfl⟩ := List.mem_map.1 hu; exact ihs x hx
  | conTup _ _ _ ih ihs =>
    refine .sepBy (by simp) ?_
    intro us hu
    rcases List.mem_cons.1 hu with rfl | hu
    · exact ih
    · obtain ⟨x, hx, rfl⟩ := List.mem_map.1 hu; exact ihs x hx

theorem DeclToks.inner {d : InfixDecl} {ts : List Token} (h : DeclToks d ts) : Inner ts := by
  have hops : ∀ ops : List (Infix × Token), (∀ x ∈ ops, OpTok x.1 x.2) →
      Inner (Pemdas.sepBy .comma (ops.map fun x => [x.2])) := by
    intro ops h
    refine .sepBy (by simp) fun us hu => ?_
    obtain ⟨x, hx, rfl⟩ := List.mem_map.1 hu
    exact .cons (h x hx).inner .nil
  have hk : ∀ a : Assoc, a.kwTok ≠ .semi ∧ ∀ e, a.kwTok ≠ .error e := by
    intro a; cases a <;> simp [Assoc.kwTok]
  cases h with
  | withPrec hp hne hall => exact .cons (hk _) (.cons (by simp) (hops _ hall))
  | noPrec hne hall => exact .cons (hk _) (hops _ hall)

theorem Line.inner {cat : ExprCat} {e : Expr} {ts : List Token} (h : Line cat e ts) : Inner ts := by
  induction h with
  | last _ ih | lastOpen _ ih | head _ ih => exact ih
  | bin _ ho _ ih1 ih2 => exact ih1.append (.cons ho.inner ih2)
  | app _ _ ih1 ih2 => exact ih1.append ih2
  | lam _ hp _ ih =>
    refine .cons (by simp) (.append (.flatten ?_) (.cons (by simp) ih))
    intro us hu
    obtain ⟨x, hx, rfl⟩ := List.mem_map.1 hu; exact (hp x hx).1.noSemi
  | let_ hd _ ih => exact .cons (by simp) (hd.1.inner.append (.cons (by simp) ih))
  | lit | upper | lower => exact .cons (by simp) .nil
  | unit => exact .cons (by simp) (.cons (by simp) .nil)
  | op => exact .cons (by simp) (.cons (by simp) (.cons (by simp) .nil))
  | commas =>
    refine .cons (by simp) (.append ?_ (.cons (by simp) .nil))
    intro t ht
    rw [List.eq_of_mem_replicate ht]; simp
  | grp _ ih => exact .cons (by simp) (ih.append (.cons (by simp) .nil))
  | tup _ _ _ ih ihs =>
    refine .append (.append (.cons (by simp) ih) (.flatten ?_)) (.cons (by simp) .nil)
    intro us hu
    obtain ⟨x, hx, rfl⟩ := List.mem_map.1 hu; exact .cons (by simp) (ihs x hx)
  | list _ _ ihs =>
    refine .cons (by simp) (.append (.flatten ?_) (.cons (by simp) .nil))
    intro us hu
    obtain ⟨x, hx, rfl⟩ := List.mem_map.1 hu
    refine .append (ihs x hx) ?_
    split
    · exact .cons (by simp) .nil
    · exact .nil

theorem LineProg.sound {ds : List Decl} {ts : List Token} (h : LineProg ds ts) : Sound ts := by
  induction h with
  | nil => exact .nil
  | infix_ semi hd _ ih =>
    refine .append (.append hd.1.inner.sound ?_) ih
    cases semi
    · exact .nil
    · exact .cons (by simp) .nil
  | expr semi he _ _ ih =>
    refine .append (.append he.inner.sound ?_) ih
    cases semi
    · exact .nil
    · exact .cons (by simp) .nil

theorem Written.inner {cat : ExprCat} {c m : Nat} {e : Expr} {ts : List CTok}
    (h : Written cat c m e ts) : Inner (ts.map (·.1)) := by
  induction h with
  | last _ ih | lastOpen _ ih | head _ ih => exact ih
  | bin _ ho _ ih1 ih2 =>
    rw [List.map_append]; exact ih1.append (.cons ho.inner ih2)
  | app _ _ _ ih1 ih2 | appOpen _ _ _ _ ih1 ih2 => rw [List.map_append]; exact ih1.append ih2
  | lam _ hp he _ ih =>
    simp only [List.map_append, List.map_cons, he]
    refine .cons (by simp) (.append (.flatten ?_) (.cons (by simp) ih))
    intro us hu
    obtain ⟨x, hx, rfl⟩ := List.mem_map.1 hu; exact (hp x hx).1.noSemi
  | let_ hd _ ih =>
    simp only [List.map_append, List.map_cons]
    exact .cons (by simp) (hd.1.inner.append (.cons (by simp) ih))
  | lit | upper | lower => exact .cons (by simp) .nil
  | unit => exact .cons (by simp) (.cons (by simp) .nil)
  | op => exact .cons (by simp) (.cons (by simp) (.cons (by simp) .nil))
  | commas =>
    simp only [List.map_append, List.map_cons, List.map_map]
    refine .cons (by simp) (.append ?_ (.cons (by simp) .nil))
    intro t ht
    obtain ⟨j, _, rfl⟩ := List.mem_map.1 ht; simp
  | grp _ ih =>
    simp only [List.map_append, List.map_cons]
    exact .cons (by simp) (ih.append (.cons (by simp) .nil))
  | tup _ _ _ ih ihs =>
    simp only [List.map_append, List.map_cons, List.map_flatten, List.map_map]
    refine .append (.append (.cons (by simp) ih) (.flatten ?_)) (.cons (by simp) .nil)
    intro us hu
    obtain ⟨x, hx, rfl⟩ := List.mem_map.1 hu
    exact .cons (by simp) (ihs x hx)
  | list _ _ ihs =>
    simp only [List.map_append, List.map_cons, List.map_flatten, List.map_map]
    refine .cons (by simp) (.append (.flatten ?_) (.cons (by simp) .nil))
    intro us hu
    obtain ⟨x, hx, rfl⟩ := List.mem_map.1 hu
    simp only [Function.comp_apply, ListItem.all, List.map_append]
    refine .append (ihs x hx) ?_
    cases x.comma
    · exact .nil
    · exact .cons (by simp) .nil

theorem WrittenProg.sound {ds : List Decl} {ts : List CTok} (h : WrittenProg ds ts) :
    Sound (ts.map (·.1)) := by
  have hs : ∀ semi, Sound ((semiToks semi).map (·.1)) := by
    intro semi
    cases semi
    · exact .nil
    · exact .cons (by simp) .nil
  induction h with
  | nil => exact .nil
  | infix_ semi hd _ ih =>
    simp only [List.map_append]
    exact .append (.append hd.1.inner.sound (hs semi)) ih
  | expr semi he _ _ ih =>
    simp only [List.map_append]
    exact .append (.append he.inner.sound (hs semi)) ih

end Pemdas
