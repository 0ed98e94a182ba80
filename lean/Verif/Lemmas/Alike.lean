import Verif.Lemmas.ResolverMore
import Verif.Lemmas.Session
import Verif.Spec.Alike
import Verif.Props.Printer
/-
Sessions with tables that cannot be told apart run alike.
-/
namespace Pemdas

/-! ### relations between tables -/

/-- A relation between tables that no operation on tables can tell apart. -/
structure TableSim (R : Fixities → Fixities → Prop) : Prop where
  nil : R [] []
  insert : ∀ {m m'} (op : Infix) (fx : Fixity), R m m' → R (m.insert op fx).2 (m'.insert op fx).2
  remove : ∀ {m m'} (op : Infix), R m m' → R (m.remove op).2 (m'.remove op).2
  lookup : ∀ {m m'} (op : Infix), R m m' → m.getKeyValue op = m'.getKeyValue op
  length : ∀ {m m'}, R m m' → m.length = m'.length

theorem TableSim.eq : TableSim (· = ·) where
  nil := rfl
  insert := fun _ _ h => by subst h; rfl
  remove := fun _ h => by subst h; rfl
  lookup := fun _ h => by subst h; rfl
  length := fun h => by subst h; rfl

namespace Fixities

theorem getDefined_keyValue (m : Fixities) (op : Infix) :
    m.getDefined op = (m.getKeyValue op).map (·.2) := by
  induction m with
  | nil => rfl
  | cons x m ih =>
    obtain ⟨k, v⟩ := x
    simp only [getDefined, getKeyValue]
    split
    · rfl
    · exact ih

theorem wf_perm {m m' : Fixities} (h : m.Perm m') : m.Wf → m'.Wf := by
  unfold Wf keys
  exact (h.map _).nodup_iff.1

theorem perm_lookup {m m' : Fixities} (h : m.Perm m') (hw : m.Wf) (op : Infix) :
    m.getKeyValue op = m'.getKeyValue op := by
  induction h with
  | nil => rfl
  | cons x _ ih =>
    obtain ⟨k, v⟩ := x
    simp only [getKeyValue]
    rw [ih (List.nodup_cons.1 hw).2]
  | swap x y l =>
    obtain ⟨k, v⟩ := x
    obtain ⟨k', v'⟩ := y
    have hne : k'.symbol ≠ k.symbol := fun e => (List.nodup_cons.1 hw).1 (by simp [e])
    simp only [getKeyValue]
    by_cases h1 : k'.symbol = op.symbol
    · rw [if_pos h1, if_neg (fun h => hne (h1.trans h.symm))]
      simp [h1]
    · rw [if_neg h1]
      split <;> simp [*]
  | trans h1 _ ih1 ih2 => exact (ih1 hw).trans (ih2 (wf_perm h1 hw))

theorem perm_insert {m m' : Fixities} (h : m.Perm m') (hw : m.Wf) (op : Infix) (fx : Fixity) :
    (m.insert op fx).2.Perm (m'.insert op fx).2 := by
  induction h with
  | nil => exact .refl _
  | cons x h ih =>
    obtain ⟨k, v⟩ := x
    simp only [insert]
    split
    · exact h.cons _
    · exact (ih (List.nodup_cons.1 hw).2).cons _
  | swap x y l =>
    obtain ⟨k, v⟩ := x
    obtain ⟨k', v'⟩ := y
    have hne : k'.symbol ≠ k.symbol := fun e => (List.nodup_cons.1 hw).1 (by simp [e])
    simp only [insert]
    by_cases h1 : k'.symbol = op.symbol
    · have h2 : ¬ k.symbol = op.symbol := fun h => hne (h1.trans h.symm)
      simp only [h1, h2, if_true, if_false]
      exact .swap _ _ _
    · by_cases h2 : k.symbol = op.symbol
      · simp only [h1, h2, if_true, if_false]
        exact .swap _ _ _
      · simp only [h1, h2, if_false]
        exact .swap _ _ _
  | trans h1 _ ih1 ih2 => exact (ih1 hw).trans (ih2 (wf_perm h1 hw))

theorem perm_remove {m m' : Fixities} (h : m.Perm m') (hw : m.Wf) (op : Infix) :
    (m.remove op).2.Perm (m'.remove op).2 := by
  induction h with
  | nil => exact .refl _
  | cons x h ih =>
    obtain ⟨k, v⟩ := x
    simp only [remove]
    split
    · exact h
    · exact (ih (List.nodup_cons.1 hw).2).cons _
  | swap x y l =>
    obtain ⟨k, v⟩ := x
    obtain ⟨k', v'⟩ := y
    have hne : k'.symbol ≠ k.symbol := fun e => (List.nodup_cons.1 hw).1 (by simp [e])
    simp only [remove]
    by_cases h1 : k'.symbol = op.symbol
    · have h2 : ¬ k.symbol = op.symbol := fun h => hne (h1.trans h.symm)
      simp only [h1, h2, if_true, if_false]
      exact .refl _
    · by_cases h2 : k.symbol = op.symbol
      · simp only [h1, h2, if_true, if_false]
        exact .refl _
      · simp only [h1, h2, if_false]
        exact .swap _ _ _
  | trans h1 _ ih1 ih2 => exact (ih1 hw).trans (ih2 (wf_perm h1 hw))

end Fixities

theorem TableSim.perm : TableSim (fun m m' => Fixities.Wf m ∧ m.Perm m') where
  nil := ⟨by simp [Fixities.Wf, Fixities.keys], .refl _⟩
  insert := fun op fx h => ⟨Fixities.wf_insert h.1 op fx, Fixities.perm_insert h.2 h.1 op fx⟩
  remove := fun op h => ⟨Fixities.wf_remove h.1 op, Fixities.perm_remove h.2 h.1 op⟩
  lookup := fun op h => Fixities.perm_lookup h.2 h.1 op
  length := fun h => h.2.length_eq

namespace TableSim
variable {R : Fixities → Fixities → Prop} (hR : TableSim R)
include hR

theorem defined {m m' : Fixities} (op : Infix) (h : R m m') : m.getDefined op = m'.getDefined op := by
  rw [Fixities.getDefined_keyValue, Fixities.getDefined_keyValue, hR.lookup op h]

theorem get {m m' : Fixities} (op : Infix) (h : R m m') : Fixities.get m op = Fixities.get m' op := by
  unfold Fixities.get
  rw [hR.defined op h]

theorem insertMany {m m' : Fixities} (fx : Fixity) (ops : List Infix) (h : R m m') :
    R (m.insertMany fx ops) (m'.insertMany fx ops) := by
  induction ops generalizing m m' with
  | nil => exact h
  | cons op ops ih => exact ih (hR.insert op fx h)

theorem loadDecls {m m' : Fixities} (ds : List InfixDecl) (h : R m m') :
    R (Resolver.loadDecls m ds) (Resolver.loadDecls m' ds) := by
  induction ds generalizing m m' with
  | nil => exact h
  | cons d ds ih => exact ih (hR.insertMany d.fixity d.infixes h)

theorem insertLocal {m m' : Fixities} (fx : Fixity) (ops : List Infix) (h : R m m') :
    (Resolver.insertLocal fx ops m).1 = (Resolver.insertLocal fx ops m').1 ∧
    R (Resolver.insertLocal fx ops m).2 (Resolver.insertLocal fx ops m').2 := by
  induction ops generalizing m m' with
  | nil => exact ⟨rfl, h⟩
  | cons op ops ih =>
    obtain ⟨h1, h2⟩ := ih (hR.insert op fx h)
    simp only [Resolver.insertLocal, Fixities.insert_old]
    exact ⟨by rw [hR.defined op h, h1], h2⟩

theorem restore {m m' : Fixities} (olds : List (Infix × Option Fixity)) (h : R m m') :
    R (Resolver.restore olds m) (Resolver.restore olds m') := by
  induction olds generalizing m m' with
  | nil => exact h
  | cons x olds ih =>
    obtain ⟨op, old⟩ := x
    cases old with
    | none => exact ih (hR.remove op h)
    | some v => exact ih (hR.insert op v h)

end TableSim

/-! ### the resolver -/

namespace Resolver

/-- Resolvers with indistinguishable tables. -/
def SimR (R : Fixities → Fixities → Prop) (r r' : Resolver) : Prop :=
  r.errors = r'.errors ∧ R r.fixities r'.fixities

/-- Outcomes that agree but for the tables. -/
def SimOut {α : Type} (R : Fixities → Fixities → Prop) :
    Except Stop (Resolver × α) → Except Stop (Resolver × α) → Prop
  | .ok (r, a), .ok (r', a') => SimR R r r' ∧ a = a'
  | .error e, .error e' => e = e'
  | _, _ => False

theorem storeError_sim {R r r'} (h : SimR R r r') (e : AssocError) :
    SimR R (storeError r e) (storeError r' e) := by
  unfold storeError
  rw [h.1]
  split
  · exact h
  · exact ⟨by simp, h.2⟩

theorem SimOut.bind {α β : Type} {R} {x x' : Except Stop (Resolver × α)} {f f'}
    (h : SimOut R x x')
    (hf : ∀ r r' a, SimR R r r' → SimOut (α := β) R (f (r, a)) (f' (r', a))) :
    SimOut R (x >>= f) (x' >>= f') := by
  match x, x', h with
  | .ok (r, a), .ok (r', _), h => obtain ⟨h1, rfl⟩ := h; exact hf _ _ _ h1
  | .error e, .error _, h => cases h; rfl

theorem walkList_sim {R} {v : Resolver → Expr → Visit}
    (hv : ∀ r r' e, SimR R r r' → SimOut R (v r e) (v r' e)) (es : List Expr) :
    ∀ r r', SimR R r r' → SimOut R (walkList v r es) (walkList v r' es) := by
  induction es with
  | nil => intro r r' h; exact ⟨h, rfl⟩
  | cons e es ih =>
    intro r r' h
    simp only [walkList]
    exact (hv r r' e h).bind fun _ _ _ h => (ih _ _ h).bind fun _ _ _ h => ⟨h, rfl⟩

theorem walkExpr_sim {R} {v : Resolver → Expr → Visit}
    (hv : ∀ r r' e, SimR R r r' → SimOut R (v r e) (v r' e)) (e : Expr) (r r' : Resolver)
    (h : SimR R r r') : SimOut R (walkExpr v r e) (walkExpr v r' e) := by
  cases e with
  | lit | var => exact ⟨h, rfl⟩
  | app f x =>
    simp only [walkExpr]
    exact (hv _ _ _ h).bind fun _ _ _ h => (hv _ _ _ h).bind fun _ _ _ h => ⟨h, rfl⟩
  | bin a op b =>
    simp only [walkExpr]
    exact (hv _ _ _ h).bind fun _ _ _ h => (hv _ _ _ h).bind fun _ _ _ h => ⟨h, rfl⟩
  | lam | grp | neg | let_ =>
    simp only [walkExpr]
    exact (hv _ _ _ h).bind fun _ _ _ h => ⟨h, rfl⟩
  | tup es | list es =>
    simp only [walkExpr]
    exact (walkList_sim hv es _ _ h).bind fun _ _ _ h => ⟨h, rfl⟩

theorem visitN_sim {R} (hR : TableSim R) (n : Nat) :
    ∀ r r' e, SimR R r r' → SimOut R (visitN n r e) (visitN n r' e) := by
  induction n with
  | zero => intro r r' e _; rfl
  | succ n ih =>
    intro r r' e h
    have hw := walkExpr_sim ih
    unfold visitN
    cases e with
    | bin a op b =>
      simp only
      have hrw : r'.fixities.rewrite (.bin a op b) = r.fixities.rewrite (.bin a op b) :=
        (rewrite_congr fun op _ => hR.get op h.2).symm
      rw [hrw]
      split
      · rfl
      · exact hw _ _ _ h
      · exact ⟨storeError_sim h _, rfl⟩
    | let_ d b =>
      simp only
      obtain ⟨h1, h2⟩ := hR.insertLocal d.fixity d.infixes h.2
      rw [h1]
      refine SimOut.bind (ih _ _ b ?_) fun _ _ _ h => ⟨⟨h.1, hR.restore _ h.2⟩, rfl⟩
      exact ⟨h.1, h2⟩
    | lit | var | app | lam | grp | neg | tup | list => exact hw _ _ _ h

theorem visit_sim {R} (hR : TableSim R) (r r' : Resolver) (e : Expr) (h : SimR R r r') :
    SimOut R (visit r e) (visit r' e) := visitN_sim hR e.size r r' e h

theorem loadHsPrelude_sim {R} (hR : TableSim R) {r r' : Resolver} (h : SimR R r r') :
    SimR R (loadHsPrelude r).2 (loadHsPrelude r').2 := by
  simp only [SimR, loadHsPrelude]
  refine ⟨h.1, ?_⟩
  refine hR.insertMany _ _ ?_
  refine hR.insertMany _ _ ?_
  refine hR.insertMany _ _ ?_
  refine hR.insert _ _ ?_
  refine hR.insertMany _ _ ?_
  refine hR.insertMany _ _ ?_
  refine hR.insert _ _ ?_
  refine hR.insert _ _ ?_
  refine hR.insert _ _ ?_
  refine hR.insertMany _ _ ?_
  refine hR.insert _ _ ?_
  exact h.2

theorem loadArithmetic_sim {R} (hR : TableSim R) {r r' : Resolver} (h : SimR R r r') :
    SimR R (loadArithmetic r).2 (loadArithmetic r').2 :=
  ⟨h.1, hR.insertMany _ _ (hR.insertMany _ _ (hR.insertMany _ _ h.2))⟩

theorem resolveAst_sim {R} (hR : TableSim R) (a : Ast) (r r' : Resolver) (h : SimR R r r') :
    SimOut R (resolveAst (loadFixities r a) a) (resolveAst (loadFixities r' a) a) := by
  have hv : SimOut R (visitAst (loadFixities r a) a) (visitAst (loadFixities r' a) a) := by
    unfold visitAst loadFixities
    refine SimOut.bind (walkList_sim (visit_sim hR) a.exprs _ _ ?_)
      fun _ _ _ h => ⟨h, rfl⟩
    exact ⟨h.1, hR.loadDecls _ (hR.loadDecls _ h.2)⟩
  unfold resolveAst
  refine hv.bind fun r r' a h => ?_
  simp only
  rw [← h.1]
  split
  · exact ⟨h, rfl⟩
  · simp only [takeErrors]
    exact ⟨⟨rfl, h.2⟩, by rw [h.1]⟩

end Resolver

/-! ### the session -/

namespace Session
section
variable [CharTables] {R : Fixities → Fixities → Prop}

/-- Sessions that agree but for the prompt and the tables, which are related. -/
def SimS (R : Fixities → Fixities → Prop) (s s' : Session) : Prop :=
  s.buffer = s'.buffer ∧ s.historyPath = s'.historyPath ∧ Resolver.SimR R s.resolver s'.resolver

/-- Outcomes of parts of a round that agree but for what `SimS` permits. -/
def SimE {α : Type} (R : Fixities → Fixities → Prop) :
    Except Stop (Session × α) → Except Stop (Session × α) → Prop
  | .ok (s, a), .ok (s', a') => SimS R s s' ∧ a = a'
  | .error e, .error e' => e = e'
  | _, _ => False

/-- Outcomes of a round that agree but for what `SimS` permits. -/
def SimC (R : Fixities → Fixities → Prop) : Cmd → Cmd → Prop
  | .ok (b, s, fx), .ok (b', s', fx') => b = b' ∧ SimS R s s' ∧ fx = fx'
  | .error e, .error e' => e = e'
  | _, _ => False

omit [CharTables] in
theorem SimE.cmd {x x' : Except Stop (Session × List Effect)} (h : SimE R x x') (b : Bool) :
    SimC R (x >>= fun r => .ok (b, r)) (x' >>= fun r => .ok (b, r)) := by
  match x, x', h with
  | .ok (r, a), .ok (r', _), h => obtain ⟨h1, rfl⟩ := h; exact ⟨rfl, h1, rfl⟩
  | .error e, .error _, h => cases h; rfl

omit [CharTables] in
theorem SimE.bind {α β : Type} {x x' : Except Stop (Session × α)} {f f'} (h : SimE R x x')
    (hf : ∀ s s' a, SimS R s s' → SimE (α := β) R (f (s, a)) (f' (s', a))) :
    SimE R (x >>= f) (x' >>= f') := by
  match x, x', h with
  | .ok (r, a), .ok (r', _), h => obtain ⟨h1, rfl⟩ := h; exact hf _ _ _ h1
  | .error e, .error _, h => cases h; rfl

omit [CharTables] in
theorem slice_cmd {x : Except Stop Text} {f f' : Text → Cmd}
    (h : ∀ t, SimC R (f t) (f' t)) : SimC R (x >>= f) (x >>= f') := by
  cases x with
  | ok t => exact h t
  | error e => rfl

/-- `feed_input`, with the results in the other order. -/
theorem feedInput_sim (hR : TableSim R) {s s' : Session} (h : SimS R s s') (t : Text) :
    SimE R ((feedInput s t).map Prod.swap) ((feedInput s' t).map Prod.swap) := by
  unfold feedInput
  cases hp : parse t with
  | ok ast st =>
    simp only
    have hr := Resolver.resolveAst_sim hR ast _ _ h.2.2
    cases h1 : Resolver.resolveAst (s.resolver.loadFixities ast) ast with
    | error e =>
      cases h2 : Resolver.resolveAst (s'.resolver.loadFixities ast) ast with
      | error e' => rw [h1, h2] at hr; exact hr
      | ok y => rw [h1, h2] at hr; exact hr.elim
    | ok x =>
      cases h2 : Resolver.resolveAst (s'.resolver.loadFixities ast) ast with
      | error e' => rw [h1, h2] at hr; exact hr.elim
      | ok y =>
        rw [h1, h2] at hr
        obtain ⟨r, a, es⟩ := x
        obtain ⟨r', a', es'⟩ := y
        obtain ⟨hr1, hr2⟩ := hr
        cases hr2
        cases es with
        | nil => exact ⟨⟨h.1, h.2.1, hr1⟩, rfl⟩
        | cons e es => exact ⟨⟨h.1, h.2.1, hr1⟩, rfl⟩
  | err e st => exact ⟨h, rfl⟩
  | panic p => rfl
  | fuel => rfl

theorem feedInput_cases (hR : TableSim R) {s s' : Session} (h : SimS R s s') (t : Text) :
    (∃ e, feedInput s t = .error e ∧ feedInput s' t = .error e) ∨
    ∃ x s₁ s₁', feedInput s t = .ok (x, s₁) ∧ feedInput s' t = .ok (x, s₁') ∧ SimS R s₁ s₁' := by
  have := feedInput_sim hR h t
  cases h1 : feedInput s t with
  | error e =>
    cases h2 : feedInput s' t with
    | error e' => rw [h1, h2] at this; exact .inl ⟨e, rfl, by cases this; rfl⟩
    | ok y => rw [h1, h2] at this; exact this.elim
  | ok x =>
    cases h2 : feedInput s' t with
    | error e' => rw [h1, h2] at this; exact this.elim
    | ok y =>
      rw [h1, h2] at this
      exact .inr ⟨x.1, x.2, y.2, rfl, by rw [this.2], this.1⟩

theorem echo_table (s s' : Session) (a : Ast) : echo s a = echo s' a := by
  unfold echo
  split
  · rw [(C44_table_irrelevant s.resolver.fixities s'.resolver.fixities _).2]
  · rfl

theorem readBuffer_sim (hR : TableSim R) {s s' : Session} (h : SimS R s s') :
    SimE R (readBuffer s) (readBuffer s') := by
  unfold readBuffer
  rw [← h.1]
  have h0 : SimS R { s with buffer := [] } { s' with buffer := [] } := ⟨rfl, h.2⟩
  rcases feedInput_cases hR h0 s.buffer with ⟨e, h1, h2⟩ | ⟨x, s₁, s₁', h1, h2, h3⟩
  · rw [h1, h2]; rfl
  · rw [h1, h2]
    cases x with
    | ok a =>
      simp only
      rw [echo_table s₁' s₁]
      split
      · exact ⟨h3, rfl⟩
      · rfl
    | error e =>
      simp only
      split
      · exact ⟨h3, rfl⟩
      · rfl

theorem readFile_sim (hR : TableSim R) (w : World) {s s' : Session} (h : SimS R s s') (p : Text) :
    SimE R (readFile w s p) (readFile w s' p) := by
  unfold readFile
  cases w.readFile p with
  | error k => exact ⟨h, rfl⟩
  | ok content =>
    simp only
    rcases feedInput_cases hR h (fileInput p content) with ⟨e, h1, h2⟩ | ⟨x, s₁, s₁', h1, h2, h3⟩
    · rw [h1, h2]; rfl
    · rw [h1, h2]
      cases x with
      | ok a => exact ⟨h3, rfl⟩
      | error e =>
        simp only
        split
        · exact ⟨h3, rfl⟩
        · rfl

theorem loadPaths_sim (hR : TableSim R) (w : World) (ps : List Text) :
    ∀ {s s' : Session}, SimS R s s' → SimE R (loadPaths w s ps) (loadPaths w s' ps) := by
  induction ps with
  | nil => intro s s' h; exact ⟨h, rfl⟩
  | cons p ps ih =>
    intro s s' h
    simp only [loadPaths]
    cases unquote p with
    | error e => rfl
    | ok p =>
      exact (readFile_sim hR w h p).bind fun _ _ _ h => (ih h).bind fun _ _ _ h => ⟨h, rfl⟩

theorem loadArg_sim (hR : TableSim R) (w : World) {s s' : Session} (h : SimS R s s') (o : Text) :
    SimE R (loadArg w s o) (loadArg w s' o) := by
  unfold loadArg
  split
  · exact ⟨h, rfl⟩
  split
  · exact ⟨⟨h.1, h.2.1, Resolver.loadHsPrelude_sim hR h.2.2⟩, rfl⟩
  split
  · exact ⟨⟨h.1, h.2.1, Resolver.loadArithmetic_sim hR h.2.2⟩, rfl⟩
  · exact loadPaths_sim hR w _ h

omit [CharTables] in
theorem clear_sim (hR : TableSim R) {s s' : Session} (h : SimS R s s') :
    s.resolver.clear.1 = s'.resolver.clear.1 ∧
    SimS R { s with resolver := s.resolver.clear.2 } { s' with resolver := s'.resolver.clear.2 } :=
  ⟨hR.length h.2.2.2, h.1, h.2.1, h.2.2.1, hR.nil⟩

omit [CharTables] in
theorem clearOpt_sim (hR : TableSim R) {s s' : Session} (h : SimS R s s') (o : Text) :
    SimE R (.ok (clearOpt s o)) (.ok (clearOpt s' o)) := by
  obtain ⟨h1, h2⟩ := clear_sim hR h
  unfold clearOpt
  split
  · exact ⟨h, rfl⟩
  split
  · exact ⟨h2, by simp only [Resolver.clear] at h1 ⊢; rw [h1]⟩
  split
  · exact ⟨h2, by simp only [Resolver.clear] at h1 ⊢; rw [h1]⟩
  · exact ⟨h, rfl⟩

omit [CharTables] in
theorem historyOpt_sim {s s' : Session} (h : SimS R s s') (o : Text) :
    SimE R (historyOpt s o) (historyOpt s' o) := by
  unfold historyOpt
  split
  · exact ⟨h, rfl⟩
  split
  · exact ⟨h, by rw [h.2.1]⟩
  split
  · unfold historySet
    cases sliceFrom o (utf8Len t!"--set") with
    | error e => rfl
    | ok p =>
      simp only [bind, Except.bind]
      split
      · exact ⟨h, rfl⟩
      · exact ⟨⟨h.1, rfl, h.2.2⟩, rfl⟩
  split
  · unfold historySave
    simp only
    split
    · exact ⟨h, by rw [h.2.1]⟩
    · cases sliceFrom o (utf8Len t!"--save") with
      | error e => rfl
      | ok p => exact ⟨h, by rw [h.2.1]⟩
  · exact ⟨h, rfl⟩

theorem infoArg_sim (hR : TableSim R) {s s' : Session} (h : SimS R s s') (arg : Text) :
    infoArg s arg = infoArg s' arg := by
  have h1 : s.resolver.fixities.has = s'.resolver.fixities.has := by
    funext op
    unfold Fixities.has
    rw [hR.defined op h.2.2.2]
  have h2 : s.resolver.fixities.getKeyValue = s'.resolver.fixities.getKeyValue := by
    funext op
    exact hR.lookup op h.2.2.2
  unfold infoArg Resolver.entriesFor
  rw [h1, h2]

theorem byKind_sim (hR : TableSim R) (w : World) {s s' : Session} (h : SimS R s s') (c : Text)
    {k : Kind} (hk : k ≠ .fixities) : SimC R (byKind w s c k) (byKind w s' c k) := by
  have hi : ∀ fx b, SimC R (.ok (b, s, fx)) (.ok (b, s', fx)) := fun _ _ => ⟨rfl, h, rfl⟩
  cases k with
  | fixities => exact absurd rfl hk
  | cd => change SimC R (cmdCd w s c) (cmdCd w s' c); unfold cmdCd; exact slice_cmd fun t => hi _ _
  | help => exact hi _ _
  | quit =>
    change SimC R (cmdQuit s c) (cmdQuit s' c)
    unfold cmdQuit
    rw [h.2.1]
    split
    · exact hi _ _
    split <;> exact hi _ _
  | clear =>
    change SimC R (cmdClear s c) (cmdClear s' c)
    unfold cmdClear
    exact slice_cmd fun t => (clearOpt_sim hR h (trim t)).cmd true
  | history =>
    change SimC R (cmdHistory s c) (cmdHistory s' c)
    unfold cmdHistory
    exact slice_cmd fun t => (historyOpt_sim h (trim t)).cmd true
  | reset =>
    obtain ⟨h1, h2⟩ := clear_sim hR h
    exact ⟨rfl, h2, by simp only [Resolver.clear] at h1 ⊢; rw [h1]⟩
  | info =>
    change SimC R (cmdInfo s c) (cmdInfo s' c)
    unfold cmdInfo
    refine slice_cmd fun t => ?_
    rw [infoArg_sim hR h]
    exact hi _ _
  | load =>
    change SimC R (cmdLoad w s c) (cmdLoad w s' c)
    unfold cmdLoad
    exact slice_cmd fun t => (loadArg_sim hR w h (trim t)).cmd true
  | shell => change SimC R (cmdShell w s c) (cmdShell w s' c); unfold cmdShell; exact slice_cmd fun t => hi _ _
  | unknown => exact ⟨rfl, ⟨rfl, h.2⟩, rfl⟩

theorem process_sim (hR : TableSim R) {s s' : Session} (h : SimS R s s') :
    SimC R (process s) (process s') := (readBuffer_sim hR h).cmd true

/-- A round that does not list all fixities cannot tell the sessions apart. -/
theorem step_sim (hR : TableSim R) (w : World) {s s' : Session} (h : SimS R s s') (line : Text)
    (hk : s.buffer = [] → kind (trim (trim line)) ≠ .fixities) :
    SimC R (step w s line) (step w s' line) := by
  unfold step
  simp only
  split
  · exact ⟨rfl, h, rfl⟩
  split
  · rw [← h.1]
    split
    · rename_i hb
      unfold readCommand
      rw [command_eq, command_eq]
      exact byKind_sim hR w h _ (hk hb)
    · exact ⟨rfl, h, rfl⟩
  split
  · unfold contLine
    rw [h.1]
    exact slice_cmd fun t => ⟨rfl, ⟨rfl, h.2⟩, rfl⟩
  split
  · unfold contLine
    rw [h.1]
    exact slice_cmd fun t => ⟨rfl, ⟨rfl, h.2⟩, rfl⟩
  split
  · unfold braceLine
    rw [h.1]
    simp only
    split
    · exact ⟨rfl, ⟨rfl, h.2⟩, rfl⟩
    · exact process_sim hR ⟨rfl, h.2⟩
  · unfold plainLine
    rw [h.1]
    exact process_sim hR ⟨rfl, h.2⟩

end
end Session
end Pemdas
