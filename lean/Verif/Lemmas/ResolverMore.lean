import Verif.Lemmas.ResolverMain
/-
Helper lemmas: congruence of visiting in the table, idempotence, error lists.
-/
namespace Pemdas
open OpTree

namespace Resolver

/-! ### Operators used -/

theorem usesOp_toExpr (t : OpTree) (o : Infix) :
    UsesOp o t.toExpr ↔ o ∈ t.operators ∨ ∃ x ∈ t.operands, UsesOp o x := by
  induction t with
  | leaf e => simp [toExpr, operators, operands]
  | node l op r ihl ihr =>
    simp only [toExpr, operators, operands, List.mem_append, List.mem_cons]
    constructor
    · intro h
      cases h with
      | here => exact .inl (.inr (.inl rfl))
      | binL h =>
        rcases ihl.1 h with h | ⟨x, hx, h⟩
        · exact .inl (.inl h)
        · exact .inr ⟨x, .inl hx, h⟩
      | binR h =>
        rcases ihr.1 h with h | ⟨x, hx, h⟩
        · exact .inl (.inr (.inr h))
        · exact .inr ⟨x, .inr hx, h⟩
    · rintro ((h | rfl | h) | ⟨x, hx | hx, h⟩)
      · exact .binL (ihl.2 (.inl h))
      · exact .here
      · exact .binR (ihr.2 (.inl h))
      · exact .binL (ihl.2 (.inr ⟨x, hx, h⟩))
      · exact .binR (ihr.2 (.inr ⟨x, hx, h⟩))

theorem usesOp_chain (e : Expr) (o : Infix) :
    UsesOp o e ↔ o ∈ e.chainOperators ∨ ∃ x ∈ e.chainOperands, UsesOp o x := by
  fun_induction Expr.chainOperands e with
  | case1 l op r ih =>
    simp only [Expr.chainOperators, List.mem_cons]
    constructor
    · intro h
      cases h with
      | here => exact .inl (.inl rfl)
      | binL h => exact .inr ⟨l, .inl rfl, h⟩
      | binR h =>
        rcases ih.1 h with h | ⟨x, hx, h⟩
        · exact .inl (.inr h)
        · exact .inr ⟨x, .inr hx, h⟩
    · rintro ((rfl | h) | ⟨x, rfl | hx, h⟩)
      · exact .here
      · exact .binR (ih.2 (.inl h))
      · exact .binL h
      · exact .binR (ih.2 (.inr ⟨x, hx, h⟩))
  | case2 e h => cases e <;> simp_all [Expr.chainOperators]

theorem rewrite_usesOp {m : Fixities} {e e' : Expr} (h : m.rewrite e = .ok (.ok e')) (o : Infix) :
    UsesOp o e' ↔ UsesOp o e := by
  obtain ⟨t, rfl, hg, _⟩ := rewrite_ok_grouping h
  rw [usesOp_toExpr, usesOp_chain e, hg.1, hg.2]

/-! ### Congruence in the table -/

theorem rewrite_congr {m m' : Fixities} {e : Expr}
    (h : ∀ op ∈ e.chainOperators, m.get op = m'.get op) : m.rewrite e = m'.rewrite e := by
  rw [rewrite_eq, rewrite_eq, machine_congr (fx' := m'.get)]
  · simp
  · intro x hx
    apply h
    rw [Expr.chainOperators_eq]
    exact List.mem_map_of_mem hx

/-- The two tables give the same fixity to the operators whose text satisfies `S`. -/
def Agree (S : Symbol → Prop) (m m' : Fixities) : Prop :=
  ∀ op : Infix, S op.symbol → m.get op = m'.get op

theorem agree_insertMany {S : Symbol → Prop} {m m' : Fixities} (h : Agree S m m') (d : InfixDecl) :
    Agree S (m.insertMany d.fixity d.infixes) (m'.insertMany d.fixity d.infixes) := by
  intro op hs
  rw [get_insertMany, get_insertMany]
  unfold Env.extend
  rw [h op hs]

theorem get_undo {m : Fixities} (hw : m.Wf) (op o : Infix) (old : Option Fixity) :
    (undo op old m).get o = if op.symbol = o.symbol then old.getD Fixity.dflt else m.get o := by
  cases old with
  | none =>
    unfold undo Fixities.get
    rw [Fixities.getDefined_remove hw]
    split <;> rfl
  | some v => exact Fixities.get_insert m op o v

theorem wf_undo {m : Fixities} (hw : m.Wf) (op : Infix) (old : Option Fixity) :
    (undo op old m).Wf := by
  cases old with
  | none => exact Fixities.wf_remove hw op
  | some v => exact Fixities.wf_insert hw op v

theorem wf_restore {m : Fixities} (hw : m.Wf) (olds) : (restore olds m).Wf := by
  induction olds generalizing m with
  | nil => exact hw
  | cons x olds ih =>
    obtain ⟨op, old⟩ := x
    rw [restore_cons]
    exact ih (wf_undo hw op old)

theorem agree_restore {S : Symbol → Prop} {fx : Fixity} {ops : List Infix} {m m' r r' : Fixities}
    (hm : Agree S m m') (hr : Agree S r r') (hw : r.Wf) (hw' : r'.Wf) :
    Agree S (restore (insertLocal fx ops m).1 r) (restore (insertLocal fx ops m').1 r') := by
  induction ops generalizing m m' r r' with
  | nil => exact hr
  | cons op ops ih =>
    simp only [insertLocal, restore_cons, Fixities.insert_old]
    apply ih
    · intro o ho
      rw [Fixities.get_insert, Fixities.get_insert, hm o ho]
    · intro o ho
      rw [get_undo hw, get_undo hw']
      split
      · rename_i hs
        have := hm op (by rw [hs]; exact ho)
        exact this
      · exact hr o ho
    · exact wf_undo hw _ _
    · exact wf_undo hw' _ _

/-- Statement carried through a visit by `visit_congr`. -/
def CongrAt (S : Symbol → Prop) (r : Resolver) (e : Expr) (r' : Resolver) (e' : Expr) : Prop :=
  ∀ m, r.fixities.Wf → Fixities.Wf m → Agree S r.fixities m → (∀ o, UsesOp o e → S o.symbol) →
    ∃ m', visit ⟨m, r.errors⟩ e = .ok (⟨m', r'.errors⟩, e') ∧ r'.fixities.Wf ∧ Fixities.Wf m' ∧
      Agree S r'.fixities m'

theorem thread_congr {S : Symbol → Prop} {r es r' es'} (h : Thread (CongrAt S) r es r' es') :
    ∀ m, r.fixities.Wf → Fixities.Wf m → Agree S r.fixities m →
      (∀ x ∈ es, ∀ o, UsesOp o x → S o.symbol) →
      ∃ m', walkList visit ⟨m, r.errors⟩ es = .ok (⟨m', r'.errors⟩, es') ∧ r'.fixities.Wf ∧
        Fixities.Wf m' ∧ Agree S r'.fixities m' := by
  induction h with
  | nil => intro m h1 h2 h3 _; exact ⟨m, rfl, h1, h2, h3⟩
  | cons hp _ ih =>
    intro m h1 h2 h3 hu
    obtain ⟨m₁, v₁, a₁, b₁, c₁⟩ := hp m h1 h2 h3 (hu _ (by simp))
    obtain ⟨m₂, v₂, a₂, b₂, c₂⟩ := ih m₁ a₁ b₁ c₁ (fun x hx => hu x (by simp [hx]))
    refine ⟨m₂, ?_, a₂, b₂, c₂⟩
    simp only [walkList, bind, Except.bind, v₁, v₂]

theorem storeError_errors (r : Resolver) (m : Fixities) (err : AssocError) :
    storeError ⟨m, r.errors⟩ err = ⟨m, (storeError r err).errors⟩ := by
  unfold storeError
  simp only
  split <;> rfl

theorem visit_congr (S : Symbol → Prop) :
    ∀ e r r' e', visit r e = .ok (r', e') → CongrAt S r e r' e' := by
  apply visit_induct (P := CongrAt S)
  case lit => intro r l m h1 h2 h3 _; exact ⟨m, by rw [visit_eq]; rfl, h1, h2, h3⟩
  case var => intro r l m h1 h2 h3 _; exact ⟨m, by rw [visit_eq]; rfl, h1, h2, h3⟩
  case app =>
    intro r f x r₁ f' r₂ x' hf hx m h1 h2 h3 hu
    obtain ⟨m₁, v₁, a₁, b₁, c₁⟩ := hf m h1 h2 h3 (fun o ho => hu o (.appL ho))
    obtain ⟨m₂, v₂, a₂, b₂, c₂⟩ := hx m₁ a₁ b₁ c₁ (fun o ho => hu o (.appR ho))
    refine ⟨m₂, ?_, a₂, b₂, c₂⟩
    rw [visit_eq]
    simp only [walkExpr, bind, Except.bind, v₁, v₂]
  case lam =>
    intro r p b r₁ b' hb m h1 h2 h3 hu
    obtain ⟨m₁, v₁, a₁, b₁, c₁⟩ := hb m h1 h2 h3 (fun o ho => hu o (.lam ho))
    exact ⟨m₁, by rw [visit_eq]; simp only [walkExpr, bind, Except.bind, v₁], a₁, b₁, c₁⟩
  case grp =>
    intro r b r₁ b' hb m h1 h2 h3 hu
    obtain ⟨m₁, v₁, a₁, b₁, c₁⟩ := hb m h1 h2 h3 (fun o ho => hu o (.grp ho))
    exact ⟨m₁, by rw [visit_eq]; simp only [walkExpr, bind, Except.bind, v₁], a₁, b₁, c₁⟩
  case neg =>
    intro r b r₁ b' hb m h1 h2 h3 hu
    obtain ⟨m₁, v₁, a₁, b₁, c₁⟩ := hb m h1 h2 h3 (fun o ho => hu o (.neg ho))
    exact ⟨m₁, by rw [visit_eq]; simp only [walkExpr, bind, Except.bind, v₁], a₁, b₁, c₁⟩
  case tup =>
    intro r es r₁ es' ht m h1 h2 h3 hu
    obtain ⟨m₁, v₁, a₁, b₁, c₁⟩ := thread_congr ht m h1 h2 h3 (fun x hx o ho => hu o (.tup hx ho))
    exact ⟨m₁, by rw [visit_eq]; simp only [walkExpr, bind, Except.bind, v₁], a₁, b₁, c₁⟩
  case list =>
    intro r es r₁ es' ht m h1 h2 h3 hu
    obtain ⟨m₁, v₁, a₁, b₁, c₁⟩ := thread_congr ht m h1 h2 h3 (fun x hx o ho => hu o (.list hx ho))
    exact ⟨m₁, by rw [visit_eq]; simp only [walkExpr, bind, Except.bind, v₁], a₁, b₁, c₁⟩
  case let_ =>
    intro r d b r₁ b' hb m h1 h2 h3 hu
    have hw1 := Fixities.wf_insertMany h1 d.fixity d.infixes
    have hw2 := Fixities.wf_insertMany h2 d.fixity d.infixes
    rw [insertLocal_snd] at hb
    obtain ⟨m₁, v₁, a₁, b₁, c₁⟩ := hb _ hw1 hw2 (agree_insertMany h3 d)
      (fun o ho => hu o (.let_ ho))
    refine ⟨restore (insertLocal d.fixity d.infixes m).1 m₁, ?_, wf_restore a₁ _,
      wf_restore b₁ _, agree_restore h3 c₁ a₁ b₁⟩
    rw [visit_eq]
    simp only [bind, Except.bind, insertLocal_snd, v₁]
  case bad =>
    intro r a op b err hr m h1 h2 h3 hu
    have : m.rewrite (.bin a op b) = .ok (.error err) := by
      rw [← hr]
      exact (rewrite_congr (fun o ho => h3 o (hu o ((usesOp_chain _ o).2 (.inl ho))))).symm
    refine ⟨m, ?_, by rw [storeError_fixities]; exact h1, h2,
      by rw [storeError_fixities]; exact h3⟩
    rw [visit_eq]
    simp only [this, storeError_errors r m err]
  case bin =>
    intro r a op b a₁ op₁ b₁ r₁ a₂ r₂ b₂ hr ha hb m h1 h2 h3 hu
    have hrw : m.rewrite (.bin a op b) = .ok (.ok (.bin a₁ op₁ b₁)) := by
      rw [← hr]
      exact (rewrite_congr (fun o ho => h3 o (hu o ((usesOp_chain _ o).2 (.inl ho))))).symm
    have hu' : ∀ o, UsesOp o (.bin a₁ op₁ b₁) → S o.symbol :=
      fun o ho => hu o ((rewrite_usesOp hr o).1 ho)
    obtain ⟨m₁, v₁, x₁, y₁, z₁⟩ := ha m h1 h2 h3 (fun o ho => hu' o (.binL ho))
    obtain ⟨m₂, v₂, x₂, y₂, z₂⟩ := hb m₁ x₁ y₁ z₁ (fun o ho => hu' o (.binR ho))
    refine ⟨m₂, ?_, x₂, y₂, z₂⟩
    rw [visit_eq]
    simp only [hrw, walkExpr, bind, Except.bind, v₁, v₂]

/-! ### Resolving a grouped expression -/

theorem tree_vis {m : Fixities} {t : OpTree} (hw : t.WellGrouped m.get)
    (hx : ∀ x ∈ t.operands, x.NonBin ∧ Vis m x [] x) : Vis m t.toExpr [] t.toExpr := by
  induction t with
  | leaf e => exact (hx e (by simp [operands])).2
  | node l op r ihl ihr =>
    have h1 := ihl hw.1 (fun x h => hx x (by simp [operands, h]))
    have h2 := ihr hw.2.1 (fun x h => hx x (by simp [operands, h]))
    exact vis_bin_of (rewrite_wellGrouped (t := .node l op r) (fun x h => (hx x h).1) hw) h1 h2

theorem list_vis {m : Fixities} {xs : List Expr} (hx : ∀ x ∈ xs, Vis m x [] x) :
    VisList m xs [] xs := by
  induction xs with
  | nil => exact visList_nil m
  | cons x xs ih =>
    exact visList_cons (hx x (by simp)) (ih (fun x h => hx x (by simp [h])))

theorem grouped_vis : ∀ (e : Expr) (m : Fixities), e.LetsDistinct → e.Grouped m.get →
    Vis m e [] e := by
  intro e
  induction hn : e.size using Nat.strongRecOn generalizing e with
  | ind n ih =>
    subst hn
    intro m hd hg
    cases e with
    | lit l => exact vis_lit m l
    | var i => exact vis_var m i
    | app f x =>
      have := f.size_pos; have := x.size_pos
      exact vis_app (ih _ (by simp only [Expr.size]; omega) f rfl m hd.1 hg.1)
        (ih _ (by simp only [Expr.size]; omega) x rfl m hd.2 hg.2)
    | lam p b => exact vis_lam (ih _ (by simp only [Expr.size]; omega) b rfl m hd hg)
    | grp b => exact vis_grp (ih _ (by simp only [Expr.size]; omega) b rfl m hd hg)
    | neg b => exact vis_neg (ih _ (by simp only [Expr.size]; omega) b rfl m hd hg)
    | let_ d b =>
      refine vis_let hd.1 (ih _ (by simp only [Expr.size]; omega) b rfl _ hd.2 ?_)
      rw [get_insertMany]; exact hg
    | tup xs =>
      refine vis_tup (list_vis fun x hx => ?_)
      exact ih _ (by have := mem_sizeList hx; simp only [Expr.size]; omega) x rfl m
        ((letsDistinctList_iff xs).1 hd x hx) ((groupedList_iff _ xs).1 hg x hx)
    | list xs =>
      refine vis_list (list_vis fun x hx => ?_)
      exact ih _ (by have := mem_sizeList hx; simp only [Expr.size]; omega) x rfl m
        ((letsDistinctList_iff xs).1 hd x hx) ((groupedList_iff _ xs).1 hg x hx)
    | bin l op r =>
      have hg' := (grouped_iff_tree _ _).1 hg
      have hd' := hd
      rw [← Expr.tree_toExpr (.bin l op r), letsDistinct_toExpr] at hd'
      have := tree_vis hg'.1 (fun x hx => ⟨Expr.tree_operands _ x hx,
        ih _ (tree_size_lt (by simp [Expr.NonBin, Expr.rootOp]) x hx) x rfl m
          (hd' x hx) (hg'.2 x hx)⟩)
      rwa [Expr.tree_toExpr] at this

theorem thread_letsDistinct {r es r' es'}
    (h : Thread (fun _ e _ e' => e.LetsDistinct → e'.LetsDistinct) r es r' es') :
    Expr.LetsDistinctList es → Expr.LetsDistinctList es' := by
  induction h with
  | nil => exact fun h => h
  | cons hp _ ih => intro hd; exact ⟨hp hd.1, ih hd.2⟩

theorem visit_letsDistinct : ∀ e r r' e', visit r e = .ok (r', e') → e.LetsDistinct →
    e'.LetsDistinct := by
  apply visit_induct (P := fun _ e _ e' => e.LetsDistinct → e'.LetsDistinct)
  case bin =>
    intro r a op b a₁ op₁ b₁ r₁ a₂ r₂ b₂ hr h1 h2 hd
    have := (rewrite_letsDistinct hr).2 hd
    exact ⟨h1 this.1, h2 this.2⟩
  case tup => intro r es r₁ es' h hd; exact thread_letsDistinct h hd
  case list => intro r es r₁ es' h hd; exact thread_letsDistinct h hd
  case let_ => intro r d b r₁ b' h hd; exact ⟨hd.1, h hd.2⟩
  case app => intro r f x r₁ f' r₂ x' h1 h2 hd; exact ⟨h1 hd.1, h2 hd.2⟩
  case lam => intro r p b r₁ b' h hd; exact h hd
  case grp => intro r b r₁ b' h hd; exact h hd
  case neg => intro r b r₁ b' h hd; exact h hd
  case bad => intro r a op b err _ hd; exact hd
  all_goals intros; trivial

/-! ### Lists of errors -/

theorem storeAll_eq_nil (es : List AssocError) : storeAll [] es = [] ↔ es = [] := by
  constructor
  · intro h
    cases es with
    | nil => rfl
    | cons e es =>
      have : ∀ (es errs : List AssocError), errs ≠ [] → storeAll errs es ≠ [] := by
        intro es
        induction es with
        | nil => intro errs h; exact h
        | cons e es ih =>
          intro errs h
          apply ih
          unfold addErr
          split
          · exact h
          · simp
      exact absurd h (this es [e] (by simp))
  · rintro rfl; rfl

theorem mem_storeAll (es errs : List AssocError) (e : AssocError) (h : e ∈ storeAll errs es) :
    e ∈ errs ∨ e ∈ es := by
  induction es generalizing errs with
  | nil => exact .inl h
  | cons x es ih =>
    rcases ih _ h with h | h
    · unfold addErr at h
      split at h
      · exact .inl h
      · rcases List.mem_append.1 h with h | h
        · exact .inl h
        · simp only [List.mem_singleton] at h; simp [h]
    · simp [h]

/-- No two entries are equal (in the sense of the derived `PartialEq`). -/
def NoRepeat (errs : List AssocError) : Prop := errs.Pairwise fun a b => a.same b = false

theorem noRepeat_storeAll (es errs : List AssocError) (h : NoRepeat errs) :
    NoRepeat (storeAll errs es) := by
  induction es generalizing errs with
  | nil => exact h
  | cons e es ih =>
    apply ih
    unfold addErr
    split
    · exact h
    · rename_i hn
      unfold NoRepeat
      rw [List.pairwise_append]
      refine ⟨h, by simp, ?_⟩
      intro a ha b hb
      simp only [List.mem_singleton] at hb
      subst hb
      simp only [List.any_eq_true, not_exists, not_and, Bool.not_eq_true] at hn
      exact hn a ha

/-! ### Loading declarations -/

theorem getDefined_loadDecls (m : Fixities) (ds : List InfixDecl) (op : Infix) :
    (loadDecls m ds).getDefined op =
      match ds.reverse.find? (fun d => decide (op.symbol ∈ d.infixes.map Infix.symbol)) with
      | some d => some d.fixity
      | none => m.getDefined op := by
  induction ds generalizing m with
  | nil => rfl
  | cons d ds ih =>
    simp only [loadDecls, ih, List.reverse_cons, List.find?_append]
    cases hf : ds.reverse.find? (fun d => decide (op.symbol ∈ d.infixes.map Infix.symbol)) with
    | some d' => rfl
    | none =>
      simp only [Option.none_or, List.find?_singleton]
      rw [Fixities.getDefined_insertMany]
      by_cases h : op.symbol ∈ d.infixes.map Infix.symbol
      · simp [h]
      · simp [h]

theorem wf_loadDecls {m : Fixities} (h : m.Wf) (ds : List InfixDecl) : (loadDecls m ds).Wf := by
  induction ds generalizing m with
  | nil => exact h
  | cons d ds ih => exact ih (Fixities.wf_insertMany h _ _)

theorem mem_keys_insertMany {m : Fixities} {fx : Fixity} {ops : List Infix} {s : Symbol}
    (h : s ∈ m.keys ∨ s ∈ ops.map Infix.symbol) : s ∈ (m.insertMany fx ops).keys := by
  induction ops generalizing m with
  | nil => simpa [Fixities.insertMany] using h
  | cons o ops ih =>
    apply ih
    rw [Fixities.keys_insert]
    simp only [List.map_cons, List.mem_cons] at h
    rcases h with h | rfl | h
    · left; split <;> simp [h]
    · left; split
      · assumption
      · simp
    · exact .inr h

theorem mem_keys_loadDecls {m : Fixities} {ds : List InfixDecl} {s : Symbol}
    (h : s ∈ m.keys ∨ ∃ d ∈ ds, s ∈ d.infixes.map Infix.symbol) : s ∈ (loadDecls m ds).keys := by
  induction ds generalizing m with
  | nil => simpa [loadDecls] using h
  | cons d ds ih =>
    apply ih
    rcases h with h | ⟨d', hd, h⟩
    · exact .inl (mem_keys_insertMany (.inl h))
    · rcases List.mem_cons.1 hd with rfl | hd
      · exact .inl (mem_keys_insertMany (.inr h))
      · exact .inr ⟨d', hd, h⟩

theorem map_fst_insertMany_of_mem {m : Fixities} (fx : Fixity) {ops : List Infix}
    (h : ∀ o ∈ ops, o.symbol ∈ m.keys) : (m.insertMany fx ops).map (·.1) = m.map (·.1) := by
  induction ops generalizing m with
  | nil => rfl
  | cons o ops ih =>
    simp only [Fixities.insertMany]
    rw [ih, Fixities.map_fst_insert_of_mem (h o (by simp))]
    intro o' ho'
    rw [Fixities.keys_insert]
    have := h o' (by simp [ho'])
    split <;> simp [this]

theorem map_fst_loadDecls_of_mem {m : Fixities} {ds : List InfixDecl}
    (h : ∀ d ∈ ds, ∀ o ∈ d.infixes, o.symbol ∈ m.keys) :
    (loadDecls m ds).map (·.1) = m.map (·.1) := by
  induction ds generalizing m with
  | nil => rfl
  | cons d ds ih =>
    simp only [loadDecls]
    rw [ih, map_fst_insertMany_of_mem _ (h d (by simp))]
    intro d' hd' o ho
    exact mem_keys_insertMany (.inl (h d' (by simp [hd']) o ho))

theorem loadDecls_twice {m : Fixities} (hw : m.Wf) (ds : List InfixDecl) :
    loadDecls (loadDecls m ds) ds = loadDecls m ds := by
  refine Fixities.values_ext (wf_loadDecls (wf_loadDecls hw ds) ds) ?_ ?_
  · apply map_fst_loadDecls_of_mem
    intro d hd o ho
    exact mem_keys_loadDecls (.inr ⟨d, hd, List.mem_map_of_mem ho⟩)
  · intro op
    rw [getDefined_loadDecls (loadDecls m ds), getDefined_loadDecls m]
    cases ds.reverse.find? (fun d => decide (op.symbol ∈ d.infixes.map Infix.symbol)) <;> rfl

/-! ### A conflict anywhere excludes any regrouping -/

theorem subAt_chain (e : Expr) : ∀ (fx fx' : Env) (e' : Expr), SubAt fx e fx' e' →
    (fx' = fx ∧ ∃ pre, e.chainOperators = pre ++ e'.chainOperators) ∨
    ∃ x ∈ e.chainOperands, SubAt fx x fx' e' := by
  fun_induction Expr.chainOperands e with
  | case1 l op r ih =>
    intro fx fx' e' h
    cases h with
    | here => exact .inl ⟨rfl, [], rfl⟩
    | binL h => exact .inr ⟨l, by simp, h⟩
    | binR h =>
      rcases ih fx fx' e' h with ⟨h1, pre, h2⟩ | ⟨x, hx, h⟩
      · exact .inl ⟨h1, op :: pre, by simp [Expr.chainOperators, h2]⟩
      · exact .inr ⟨x, by simp [hx], h⟩
  | case2 e h => intro fx fx' e' h; exact .inr ⟨e, by simp, h⟩

theorem clashIn_prefix {fx : Env} {pre ops : List Infix} {p c : Infix} (h : ClashIn fx ops p c) :
    ClashIn fx (pre ++ ops) p c := by
  obtain ⟨a, b, d, rfl, h2, h3⟩ := h
  exact ⟨pre ++ a, b, d, by simp, h2, h3⟩

theorem not_clashIn_nil {fx : Env} {p c : Infix} : ¬ ClashIn fx [] p c := by
  rintro ⟨a, b, d, h, _⟩
  simp at h

theorem conflict_no_regroup : ∀ (e : Expr) (fx : Env) (p c), e.RightNested → Conflict fx e p c →
    ∀ g : Expr, g.toks = e.toks → ¬ g.Grouped fx := by
  intro e
  induction hn : e.size using Nat.strongRecOn generalizing e with
  | ind n ih =>
    subst hn
    rintro fx p c hr ⟨fx', e', hs, hp, hc, hcl⟩ g hg hG
    have hlist : ∀ (xs gs : List Expr), (∀ x ∈ xs, x.size < e.size ∧ x.RightNested) →
        Expr.toksList gs = Expr.toksList xs → Expr.GroupedList fx gs →
        ∀ x ∈ xs, ¬ SubAt fx x fx' e' := by
      intro xs
      induction xs with
      | nil => intro _ _ _ _ x hx; simp at hx
      | cons y xs ihx =>
        intro gs hsz ht hg x hx hs
        cases gs with
        | nil => simp [Expr.toksList] at ht
        | cons z gs =>
          simp only [Expr.toksList, List.cons.injEq] at ht
          rcases List.mem_cons.1 hx with rfl | hx
          · exact ih _ (hsz x (by simp)).1 x rfl fx p c (hsz x (by simp)).2
              ⟨fx', e', hs, hp, hc, hcl⟩ z ht.1 hg.1
          · exact ihx gs (fun w hw => hsz w (by simp [hw])) ht.2 hg.2 x hx hs
    by_cases hb : e.NonBin
    · have hb' : g.NonBin := by
        obtain ⟨k, hk⟩ := toks_nonBin hb
        exact nonBin_of_toks (hg.trans hk)
      cases e <;> cases g <;> simp only [Expr.NonBin, Expr.rootOp, reduceCtorEq] at hb hb' <;>
        simp only [Expr.toks, List.cons.injEq, and_true, reduceCtorEq, Tok.lit.injEq,
          Tok.var.injEq, Tok.app.injEq, Tok.lam.injEq, Tok.grp.injEq, Tok.neg.injEq,
          Tok.tup.injEq, Tok.list.injEq, Tok.let_.injEq] at hg
      · cases hs; exact not_clashIn_nil hcl
      · cases hs; exact not_clashIn_nil hcl
      · rename_i f x f' x'
        have := f.size_pos; have := x.size_pos
        cases hs with
        | here => exact not_clashIn_nil hcl
        | appL hs =>
          exact ih _ (by simp only [Expr.size]; omega) f rfl fx p c hr.1
            ⟨fx', e', hs, hp, hc, hcl⟩ f' hg.1 hG.1
        | appR hs =>
          exact ih _ (by simp only [Expr.size]; omega) x rfl fx p c hr.2
            ⟨fx', e', hs, hp, hc, hcl⟩ x' hg.2 hG.2
      · rename_i q b q' b'
        cases hs with
        | here => exact not_clashIn_nil hcl
        | lam hs =>
          exact ih _ (by simp only [Expr.size]; omega) b rfl fx p c hr
            ⟨fx', e', hs, hp, hc, hcl⟩ b' hg.2 hG
      · rename_i b b'
        cases hs with
        | here => exact not_clashIn_nil hcl
        | grp hs =>
          exact ih _ (by simp only [Expr.size]; omega) b rfl fx p c hr
            ⟨fx', e', hs, hp, hc, hcl⟩ b' hg hG
      · rename_i b b'
        cases hs with
        | here => exact not_clashIn_nil hcl
        | neg hs =>
          exact ih _ (by simp only [Expr.size]; omega) b rfl fx p c hr
            ⟨fx', e', hs, hp, hc, hcl⟩ b' hg hG
      · rename_i xs ys
        cases hs with
        | here => exact not_clashIn_nil hcl
        | tup hm hs =>
          exact hlist xs ys (fun x hx => ⟨by
            have := mem_sizeList hx; simp only [Expr.size]; omega,
            (rightNestedList_iff xs).1 hr x hx⟩) hg hG _ hm hs
      · rename_i xs ys
        cases hs with
        | here => exact not_clashIn_nil hcl
        | list hm hs =>
          exact hlist xs ys (fun x hx => ⟨by
            have := mem_sizeList hx; simp only [Expr.size]; omega,
            (rightNestedList_iff xs).1 hr x hx⟩) hg hG _ hm hs
      · rename_i d b d' b'
        obtain ⟨rfl, hg⟩ := hg
        cases hs with
        | here => exact not_clashIn_nil hcl
        | let_ hs =>
          exact ih _ (by simp only [Expr.size]; omega) b rfl _ p c hr
            ⟨fx', e', hs, hp, hc, hcl⟩ b' hg hG
    · have hct := chain_tree hr
      have h1 := toks_tree_operators g.tree_operands (Expr.tree_operands e)
        (by rw [Expr.tree_toExpr, Expr.tree_toExpr, hg])
      rw [hct.1, hct.2] at h1
      have hG' := (grouped_iff_tree _ g).1 hG
      rcases subAt_chain e fx fx' e' hs with ⟨rfl, pre, hpre⟩ | ⟨x, hx, hs⟩
      · refine no_clash_of_wellGrouped hG'.1 (p := p.1) (c := c.1) ?_
        rw [h1.1, hpre]
        exact clashIn_prefix hcl
      · have hsz : x.size < e.size := by
          rw [← hct.2] at hx
          exact tree_size_lt hb x hx
        have : x.toks ∈ e.chainOperands.map Expr.toks := List.mem_map_of_mem hx
        rw [← h1.2] at this
        obtain ⟨z, hz, hzx⟩ := List.mem_map.1 this
        exact ih _ hsz x rfl fx p c (rightNested_chain hr x hx).2
          ⟨fx', e', hs, hp, hc, hcl⟩ z hzx (hG'.2 z hz)

end Resolver
end Pemdas
