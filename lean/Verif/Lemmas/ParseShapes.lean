import Verif.Spec.Shapes
import Verif.Lemmas.LexCols
import Verif.Lemmas.ParseShape
/-
Consequences of the layout grammar.
-/
namespace Pemdas

theorem Written.edge {cat : ExprCat} {c m : Nat} {e : Expr} {ts : List CTok}
    (h : Written cat c m e ts) : cat = .arg ∨ cat = .operand → m = c := by
  cases h <;> simp

/-- Where an argument starts does not matter for what it is. -/
theorem Written.arg_any {c m : Nat} {e : Expr} {ts : List CTok} (h : Written .arg c m e ts)
    (c' : Nat) : Written .arg c' c' e ts := by
  generalize hcat : ExprCat.arg = cat at h
  cases h with
  | lit _ k l => exact .lit c' k l
  | upper _ k s => exact .upper c' k s
  | lower _ k s => exact .lower c' k s
  | unit _ k₀ k => exact .unit c' k₀ k
  | op _ k₀ k₁ k s b => exact .op c' k₀ k₁ k s b
  | commas h => exact .commas h
  | grp h => exact .grp h
  | tup h1 h2 h3 => exact .tup h1 h2 h3
  | list h1 h2 => exact .list h1 h2
  | _ => cases hcat

theorem startsArg_joins {t : Token} (h : t.startsArg = true) : t.joins = false := by
  cases t <;> simp_all [Token.startsArg, Token.joins]

/-- A new application starts where the layout rule says. -/
theorem Written.arg_follow {c c' m : Nat} {e : Expr} {ts us : List CTok} (h : Written .arg c m e ts)
    (hc : ¬ c' < firstCol ts) : Follow c' (ts ++ us) := by
  obtain ⟨t, k, ts', rfl, _, h2⟩ := h.starts
  exact ⟨startsArg_joins (h2 rfl), fun _ => by simpa [firstCol] using hc⟩

theorem layoutFrom_written {c : Nat} {e : Expr} {us : List CTok} (rest : List ArgPiece)
    (he : Written .operand c c e us) (hc : firstCol us = c)
    (hr : ∀ x ∈ rest, Written .arg 0 0 x.1 x.2) :
    WrittenProg ((layoutFrom c e rest).map .expr) (us ++ (rest.map (·.2)).flatten) := by
  induction rest generalizing c e us with
  | nil =>
    subst hc
    have := WrittenProg.expr none (.last he) .nil (fun _ => trivial)
    simpa [semiToks, layoutFrom] using this
  | cons x rest ih =>
    have hx := hr x (by simp)
    have hrest : ∀ y ∈ rest, Written .arg 0 0 y.1 y.2 := fun y hy => hr y (by simp [hy])
    unfold layoutFrom
    split
    · rename_i hlt
      have := ih (.app he (hx.arg_any c) hlt) (by rw [firstCol_append he.ne_nil, hc]) hrest
      simpa using this
    · rename_i hlt
      have h1 := ih (.head (hx.arg_any (firstCol x.2))) rfl hrest
      subst hc
      have := WrittenProg.expr none (.last he) h1 (fun _ => hx.arg_follow hlt)
      simpa [semiToks] using this

theorem layout_written (ps : List ArgPiece) (h : ∀ x ∈ ps, Written .arg 0 0 x.1 x.2) :
    WrittenProg ((layout ps).map .expr) (ps.map (·.2)).flatten := by
  cases ps with
  | nil => exact .nil
  | cons x rest =>
    exact layoutFrom_written rest (.head ((h x (by simp)).arg_any _)) rfl
      fun y hy => h y (by simp [hy])

/-- The first application, and what is left after it. -/
theorem layoutFrom_first {c : Nat} {e : Expr} {us : List CTok} (rest : List ArgPiece)
    (he : Written .operand c c e us) (hr : ∀ x ∈ rest, Written .arg 0 0 x.1 x.2) :
    ∃ e' es vs ws, layoutFrom c e rest = e' :: es ∧ us ++ (rest.map (·.2)).flatten = vs ++ ws ∧
      Written .operand c c e' vs ∧ Follow c ws := by
  induction rest generalizing e us with
  | nil => exact ⟨e, [], us, [], rfl, by simp, he, trivial⟩
  | cons x rest ih =>
    have hx := hr x (by simp)
    unfold layoutFrom
    split
    · rename_i hlt
      obtain ⟨e', es, vs, ws, h1, h2, h3⟩ := ih (.app he (hx.arg_any c) hlt)
        fun y hy => hr y (by simp [hy])
      exact ⟨e', es, vs, ws, h1, by rw [← h2]; simp, h3⟩
    · rename_i hlt
      exact ⟨e, _, us, _, rfl, rfl, he, hx.arg_follow hlt⟩

theorem layoutFrom_line {c : Nat} {e : Expr} (rest : List ArgPiece)
    (h : ∀ x ∈ rest, c < firstCol x.2) :
    layoutFrom c e rest = [(rest.map (·.1)).foldl .app e] := by
  induction rest generalizing e with
  | nil => rfl
  | cons x rest ih =>
    unfold layoutFrom
    rw [if_pos (h x (by simp)), ih fun y hy => h y (by simp [hy])]
    rfl

/-! ### chains -/

theorem chainOf_written (e : Expr) (us : List CTok) (xs : List Link)
    (he : Written .operand (firstCol us) (firstCol us) e us)
    (hx : ∀ x ∈ xs, OpTok x.op x.tok ∧
      Written .operand (firstCol x.toks) (firstCol x.toks) x.expr x.toks) :
    ∃ m, Written .chain (firstCol us) m (chainOf e (xs.map fun x => (x.op, x.expr)))
      (us ++ (xs.map (·.all)).flatten) := by
  induction xs generalizing e us with
  | nil => exact ⟨_, by simpa [chainOf] using Written.last he⟩
  | cons x xs ih =>
    obtain ⟨ho, hw⟩ := hx x (by simp)
    obtain ⟨m, hm⟩ := ih x.expr x.toks hw fun y hy => hx y (by simp [hy])
    have hf : firstCol (x.toks ++ (xs.map (·.all)).flatten) = firstCol x.toks :=
      firstCol_append hw.ne_nil
    rw [← hf] at hm
    exact ⟨m, by simpa [chainOf, Link.all] using Written.bin (k := x.col) he ho hm⟩

theorem chainOf_operands (e : Expr) (xs : List (Infix × Expr)) (he : e.NonBin)
    (hx : ∀ x ∈ xs, x.2.NonBin) : (chainOf e xs).chainOperands = e :: xs.map (·.2) ∧
      (chainOf e xs).chainOperators = xs.map (·.1) := by
  have single : ∀ {e : Expr}, e.NonBin → e.chainOperands = [e] ∧ e.chainOperators = [] := by
    intro e h
    cases e <;> simp_all [Expr.NonBin, Expr.rootOp, Expr.chainOperands, Expr.chainOperators]
  induction xs generalizing e with
  | nil => exact single he
  | cons x xs ih =>
    have := ih x.2 (hx x (by simp)) fun y hy => hx y (by simp [hy])
    simp [chainOf, Expr.chainOperands, Expr.chainOperators, this]

theorem Written.nonBin {cat : ExprCat} {c m : Nat} {e : Expr} {ts : List CTok}
    (h : Written cat c m e ts) : cat ≠ .chain → e.NonBin := by
  induction h with
  | @lam c k₀ k m ps pts e ts hne _ _ _ ih =>
    intro _
    obtain ⟨p, b, h⟩ := foldr_lam_cases (ps.map (·.1)) (by simpa using hne) e
    rw [h]; rfl
  | head _ ih => exact fun _ => ih (by simp)
  | _ => first | exact fun h => absurd rfl h | exact fun _ => rfl

/-- The operands and operators of a chain are those of its tokens, in order. -/
theorem Written.chain_split {cat : ExprCat} {c m : Nat} {e : Expr} {ts : List CTok}
    (h : Written cat c m e ts) : cat = .chain →
    ∃ (e₀ : Expr) (us : List CTok) (xs : List Link), ts = us ++ (xs.map (·.all)).flatten ∧
      e.chainOperands = e₀ :: xs.map (·.expr) ∧ e.chainOperators = xs.map (·.op) ∧
      (∃ cat c m, cat ≠ .chain ∧ Written cat c m e₀ us) ∧
      ∀ x ∈ xs, OpTok x.op x.tok ∧ ∃ cat c m, cat ≠ .chain ∧ Written cat c m x.expr x.toks := by
  have single : ∀ {e : Expr}, e.NonBin → e.chainOperands = [e] ∧ e.chainOperators = [] := by
    intro e h
    cases e <;> simp_all [Expr.NonBin, Expr.rootOp, Expr.chainOperands, Expr.chainOperators]
  induction h with
  | @last c e ts h _ | @lastOpen c m e ts h _ =>
    intro _
    obtain ⟨h1, h2⟩ := single (h.nonBin (by simp))
    exact ⟨e, ts, [], by simp, by simp [h1], by simp [h2], ⟨_, _, _, by simp, h⟩, by simp⟩
  | @bin c m l op t k r ts us hl ho hr _ ih =>
    intro _
    obtain ⟨e₀, vs, xs, h1, h2, h3, h4, h5⟩ := ih rfl
    refine ⟨l, ts, ⟨op, t, k, e₀, vs⟩ :: xs, ?_, ?_, ?_, ⟨_, _, _, by simp, hl⟩, ?_⟩
    · simp [Link.all, h1]
    · simp [Expr.chainOperands, h2]
    · simp [Expr.chainOperators, h3]
    · intro x hx
      rcases List.mem_cons.1 hx with rfl | hx
      · exact ⟨ho, h4⟩
      · exact h5 x hx
  | _ => intro h; cases h

/-! ### bodies -/

theorem bodiesLastList_iff {s : Bool} {es : List Expr} :
    Expr.BodiesLastList s es ↔ ∀ e ∈ es, e.BodiesLast s := by
  induction es with
  | nil => simp [Expr.BodiesLastList]
  | cons e es ih => simp [Expr.BodiesLastList, ih]

theorem foldr_lam_bodies {s : Bool} {ps : List Pat} {e : Expr} (h : e.BodiesLast s) :
    (ps.foldr Expr.lam e).BodiesLast s := by
  induction ps with
  | nil => exact h
  | cons p ps ih => simpa [Expr.BodiesLast] using ih

theorem Written.bodies {cat : ExprCat} {c m : Nat} {e : Expr} {ts : List CTok}
    (h : Written cat c m e ts) :
    e.BodiesLast false ∧ (cat = .arg ∨ cat = .operand → e.isOpen = false) := by
  induction h with
  | last _ ih => exact ⟨ih.1, by simp⟩
  | lastOpen _ ih => exact ⟨ih.1, by simp⟩
  | bin _ _ _ ih1 ih2 => exact ⟨by simp [Expr.BodiesLast, ih1.1, ih2.1, ih1.2], by simp⟩
  | head _ ih => exact ⟨ih.1, fun _ => ih.2 (by simp)⟩
  | app _ _ _ ih1 ih2 => exact ⟨by simp [Expr.BodiesLast, ih1.1, ih2.1], fun _ => rfl⟩
  | appOpen _ _ _ _ ih1 ih2 => exact ⟨by simp [Expr.BodiesLast, ih1.1, ih2.1], fun _ => rfl⟩
  | lam _ _ _ _ ih => exact ⟨foldr_lam_bodies ih.1, by simp⟩
  | let_ _ _ ih => exact ⟨by simpa [Expr.BodiesLast] using ih.1, by simp⟩
  | grp _ ih => exact ⟨by simpa [Expr.BodiesLast] using ih.1, fun _ => rfl⟩
  | tup _ _ _ ih1 ih2 =>
    refine ⟨?_, fun _ => rfl⟩
    simp only [Expr.BodiesLast, Expr.BodiesLastList, bodiesLastList_iff]
    refine ⟨ih1.1, fun e he => ?_⟩
    obtain ⟨x, hx, rfl⟩ := List.mem_map.1 he
    exact (ih2 x hx).1
  | list _ _ ih =>
    refine ⟨?_, fun _ => rfl⟩
    simp only [Expr.BodiesLast, bodiesLastList_iff]
    intro e he
    obtain ⟨x, hx, rfl⟩ := List.mem_map.1 he
    exact (ih x hx).1
  | _ => exact ⟨by simp [Expr.BodiesLast, Expr.BodiesLastList], fun _ => rfl⟩

theorem Line.bodies {cat : ExprCat} {e : Expr} {ts : List Token} (h : Line cat e ts) :
    e.BodiesLast true ∧ (cat = .arg ∨ cat = .operand → e.isOpen = false) := by
  induction h with
  | last _ ih => exact ⟨ih.1, by simp⟩
  | lastOpen _ ih => exact ⟨ih.1, by simp⟩
  | bin _ _ _ ih1 ih2 => exact ⟨by simp [Expr.BodiesLast, ih1.1, ih2.1, ih1.2], by simp⟩
  | head _ ih => exact ⟨ih.1, fun _ => ih.2 (by simp)⟩
  | app _ _ ih1 ih2 => exact ⟨by simp [Expr.BodiesLast, ih1.1, ih2.1, ih1.2], fun _ => rfl⟩
  | lam _ _ _ ih => exact ⟨foldr_lam_bodies ih.1, by simp⟩
  | let_ _ _ ih => exact ⟨by simpa [Expr.BodiesLast] using ih.1, by simp⟩
  | grp _ ih => exact ⟨by simpa [Expr.BodiesLast] using ih.1, fun _ => rfl⟩
  | tup _ _ _ ih1 ih2 =>
    refine ⟨?_, fun _ => rfl⟩
    simp only [Expr.BodiesLast, Expr.BodiesLastList, bodiesLastList_iff]
    refine ⟨ih1.1, fun e he => ?_⟩
    obtain ⟨x, hx, rfl⟩ := List.mem_map.1 he
    exact (ih2 x hx).1
  | list _ _ ih =>
    refine ⟨?_, fun _ => rfl⟩
    simp only [Expr.BodiesLast, bodiesLastList_iff]
    intro e he
    obtain ⟨x, hx, rfl⟩ := List.mem_map.1 he
    exact (ih x hx).1
  | _ => exact ⟨by simp [Expr.BodiesLast, Expr.BodiesLastList], fun _ => rfl⟩

/-! ### declarations -/

theorem WrittenProg.mem {ds : List Decl} {ts : List CTok} (h : WrittenProg ds ts) {e : Expr}
    (he : .expr e ∈ ds) :
    ∃ us m, us <:+: ts ∧ Written .chain (firstCol us) m e us := by
  induction h with
  | nil => cases he
  | @infix_ d ds us ts semi _ _ ih =>
    rcases List.mem_cons.1 he with h | h
    · cases h
    · obtain ⟨vs, m, ⟨a, b, hab⟩, hw⟩ := ih h
      exact ⟨vs, m, ⟨ts ++ semiToks semi ++ a, b, by simp [← hab]⟩, hw⟩
  | @expr e' m ds ts us semi hw _ _ ih =>
    rcases List.mem_cons.1 he with h | h
    · cases h
      exact ⟨ts, m, ⟨[], semiToks semi ++ us, by simp⟩, hw⟩
    · obtain ⟨vs, m, ⟨a, b, hab⟩, hw⟩ := ih h
      exact ⟨vs, m, ⟨ts ++ semiToks semi ++ a, b, by simp [← hab]⟩, hw⟩

theorem LineProg.mem {ds : List Decl} {ts : List Token} (h : LineProg ds ts) {e : Expr}
    (he : .expr e ∈ ds) : ∃ us, us <:+: ts ∧ Line .chain e us := by
  induction h with
  | nil => cases he
  | @infix_ d ds ts us semi _ _ ih =>
    rcases List.mem_cons.1 he with h | h
    · cases h
    · obtain ⟨vs, ⟨a, b, hab⟩, hw⟩ := ih h
      exact ⟨vs, ⟨ts ++ (if semi then [.semi] else []) ++ a, b, by simp [← hab]⟩, hw⟩
  | @expr e' ds ts us semi hw _ _ ih =>
    rcases List.mem_cons.1 he with h | h
    · cases h
      exact ⟨ts, ⟨[], (if semi then [.semi] else []) ++ us, by simp⟩, hw⟩
    · obtain ⟨vs, ⟨a, b, hab⟩, hw⟩ := ih h
      exact ⟨vs, ⟨ts ++ (if semi then [.semi] else []) ++ a, b, by simp [← hab]⟩, hw⟩

end Pemdas
