import Verif.Spec.Ledger
import Verif.Lemmas.Becomes
/-
Helper lemmas: the table of the resolver is the ledger of the rules.
-/
namespace Pemdas
open OpTree Resolver

namespace Ledger

theorem fixity_eq (m : Fixities) : Ledger.fixity m = m.get := by
  funext op
  induction m with
  | nil => rfl
  | cons x m ih =>
    obtain ⟨k, v⟩ := x
    unfold fixity Fixities.get at *
    by_cases h : k.symbol = op.symbol
    · simp [Fixities.getDefined, h]
    · simp only [Fixities.getDefined, h, if_false, ← ih]
      rw [List.find?_cons_of_neg (by simpa using h)]

theorem knows_iff (m : Fixities) (op : Infix) : Ledger.Knows m op ↔ op.symbol ∈ m.keys := Iff.rfl

theorem enter_eq {m : Fixities} (hw : m.Wf) (op : Infix) (fx : Fixity) :
    Ledger.enter m (op, fx) = (m.insert op fx).2 := by
  induction m with
  | nil => rfl
  | cons x m ih =>
    obtain ⟨k, v⟩ := x
    have hw' : k.symbol ∉ Fixities.keys m ∧ Fixities.Wf m := by
      simpa [Fixities.Wf, Fixities.keys_cons] using hw
    have ih := ih hw'.2
    unfold enter at *
    simp only [Fixities.insert]
    by_cases h : k.symbol = op.symbol
    · have hk : Ledger.Knows ((k, v) :: m) op := by simp [Knows, h]
      simp only [if_pos hk, h, if_true, List.map_cons]
      congr 1
      refine (List.map_congr_left fun y hy => ?_).trans (List.map_id _)
      rw [if_neg]
      · rfl
      · intro e
        exact hw'.1 (by rw [h, ← e]; exact List.mem_map_of_mem (f := (·.1.symbol)) hy)
    · have h' : ¬ op.symbol = k.symbol := fun e => h e.symm
      simp only [h, if_false]
      by_cases hk : Ledger.Knows m op
      · have hk' : Ledger.Knows ((k, v) :: m) op := by
          simp only [Knows, List.map_cons, List.mem_cons] at hk ⊢; exact .inr hk
        simp only [if_pos hk] at ih
        simp only [if_pos hk', List.map_cons, h, if_false, ih]
      · have hk' : ¬ Ledger.Knows ((k, v) :: m) op := by
          simp only [Knows, List.map_cons, List.mem_cons, h', false_or] at hk ⊢; exact hk
        simp only [if_neg hk] at ih
        simp only [if_neg hk', List.cons_append, ih]

theorem enterAll_insertMany {m : Fixities} (hw : m.Wf) (fx : Fixity) (ops : List Infix) :
    Ledger.enterAll m (ops.map fun op => (op, fx)) = m.insertMany fx ops := by
  induction ops generalizing m with
  | nil => rfl
  | cons o ops ih =>
    simp only [enterAll, List.map_cons, List.foldl_cons, Fixities.insertMany, enter_eq hw]
    exact ih (Fixities.wf_insert hw _ _)

theorem enterAll_append (l : Ledger) (xs ys : List (Infix × Fixity)) :
    l.enterAll (xs ++ ys) = (l.enterAll xs).enterAll ys := List.foldl_append

theorem enterAll_loadDecls {m : Fixities} (hw : m.Wf) (ds : List InfixDecl) :
    Ledger.enterAll m (ds.flatMap InfixDecl.entries) = loadDecls m ds := by
  induction ds generalizing m with
  | nil => rfl
  | cons d ds ih =>
    rw [List.flatMap_cons, enterAll_append, InfixDecl.entries, enterAll_insertMany hw, loadDecls]
    exact ih (Fixities.wf_insertMany hw _ _)

end Ledger

/-- A table is its keys with the fixities that it gives them. -/
theorem Fixities.eta {m : Fixities} (hw : m.Wf) :
    m = (m.map (·.1)).map fun op => (op, m.get op) := by
  induction m with
  | nil => rfl
  | cons x m ih =>
    obtain ⟨k, v⟩ := x
    have hw' : k.symbol ∉ keys m ∧ Wf m := by simpa [Wf, keys_cons] using hw
    simp only [List.map_cons, List.cons.injEq, Prod.mk.injEq, true_and]
    refine ⟨by simp [get, getDefined], ?_⟩
    conv => lhs; rw [ih hw'.2]
    simp only [List.map_map]
    refine List.map_congr_left fun y hy => ?_
    have : ¬ k.symbol = y.1.symbol := fun e =>
      hw'.1 (by rw [e]; exact List.mem_map_of_mem (f := (·.1.symbol)) hy)
    simp [get, getDefined, this]

theorem Fixities.map_fst_remove {m : Fixities} (hw : m.Wf) (op : Infix) :
    (m.remove op).2.map (·.1) = (m.map (·.1)).filter fun o => o.symbol ≠ op.symbol := by
  induction m with
  | nil => rfl
  | cons x m ih =>
    obtain ⟨k, v⟩ := x
    have hw' : k.symbol ∉ keys m ∧ Wf m := by simpa [Wf, keys_cons] using hw
    simp only [remove]
    by_cases h : k.symbol = op.symbol
    · simp only [h, if_true, List.map_cons, ne_eq, not_true, decide_false, Bool.false_eq_true,
        not_false_eq_true, List.filter_cons_of_neg]
      symm
      apply List.filter_eq_self.2
      intro a ha
      simp only [decide_eq_true_eq]
      intro e
      obtain ⟨y, hy, rfl⟩ := List.mem_map.1 ha
      exact hw'.1 (by rw [h, ← e]; exact List.mem_map_of_mem (f := (·.1.symbol)) hy)
    · rw [if_neg h]
      simp only [List.map_cons, ih hw'.2]
      rw [List.filter_cons_of_pos (by simpa using h)]

theorem Fixities.map_fst_insert_of_not_mem {m : Fixities} {op : Infix} (h : op.symbol ∉ m.keys)
    (fx : Fixity) : (m.insert op fx).2.map (·.1) = m.map (·.1) ++ [op] := by
  induction m with
  | nil => rfl
  | cons x m ih =>
    obtain ⟨k, v⟩ := x
    simp only [keys_cons, List.mem_cons, not_or] at h
    have hk : ¬ k.symbol = op.symbol := fun e => h.1 e.symm
    simp only [insert, hk, if_false, List.map_cons, ih h.2, List.cons_append]

theorem keys_eq_map (m : Fixities) : m.keys = (m.map (·.1)).map Infix.symbol := by
  simp [Fixities.keys]

/-- The operators in the table after the undoing of a `let`, of which `seen` has been undone. -/
theorem map_fst_restore (fx : Fixity) (k : List Symbol) : ∀ (ops : List Infix) (seen : List Symbol)
    (c n : Fixities), n.Wf →
    (∀ op, (c.getDefined op).isSome ↔ op.symbol ∈ k ∨ op.symbol ∈ seen) →
    (∀ s ∈ k, s ∈ n.keys) →
    (∀ s, s ∉ k → seen.count s = 1 → s ∉ n.keys) →
    (∀ s, s ∉ k → 2 ≤ seen.count s → s ∈ n.keys) →
    (restore (insertLocal fx ops c).1 n).map (·.1) =
      (n.map (·.1)).filter (fun op => op.symbol ∈ k ∨ op.symbol ∈ seen ∨
        op.symbol ∉ ops.map Infix.symbol) ++
      (seconds seen ops).filter (fun op => op.symbol ∉ k)
  | [], seen, c, n, _, _, _, _, _ => by
    simp only [insertLocal, restore, seconds, List.filter_nil, List.append_nil, List.map_nil,
      List.not_mem_nil, not_false_eq_true, or_true, decide_true]
    exact (List.filter_eq_self.2 fun _ _ => rfl).symm
  | o :: ops, seen, c, n, hw, hc, hk, h1, h2 => by
    have hc' : ∀ op, (((c.insert o fx).2.getDefined op).isSome) ↔
        op.symbol ∈ k ∨ op.symbol ∈ o.symbol :: seen := by
      intro op
      rw [Fixities.getDefined_insert]
      by_cases h : o.symbol = op.symbol
      · simp [h]
      · have h' : ¬ op.symbol = o.symbol := fun e => h e.symm
        simp only [h, if_false, hc op, List.mem_cons, h', false_or]
    have hcount : ∀ s, s ≠ o.symbol → (o.symbol :: seen).count s = seen.count s := by
      intro s hs
      rw [List.count_cons_of_ne (Ne.symm hs)]
    simp only [insertLocal, restore_cons, Fixities.insert_old]
    by_cases hok : o.symbol ∈ k
    · -- known before
      obtain ⟨v, hv⟩ := Option.isSome_iff_exists.1 ((hc o).2 (.inl hok))
      rw [hv]
      simp only [undo]
      have hkeys : (n.insert o v).2.keys = n.keys := by
        rw [Fixities.keys_insert, if_pos (hk _ hok)]
      rw [map_fst_restore fx k ops (o.symbol :: seen) _ _ (Fixities.wf_insert hw _ _) hc'
        (by rw [hkeys]; exact hk)
        (by
          intro s hs hn
          rw [hkeys]
          have : s ≠ o.symbol := fun e => hs (e ▸ hok)
          exact h1 s hs (by rwa [hcount s this] at hn))
        (by
          intro s hs hn
          rw [hkeys]
          have : s ≠ o.symbol := fun e => hs (e ▸ hok)
          exact h2 s hs (by rwa [hcount s this] at hn)),
        Fixities.map_fst_insert_of_mem (hk _ hok)]
      congr 1
      · refine List.filter_congr fun a _ => ?_
        by_cases e : a.symbol = o.symbol
        · simp [e, hok]
        · simp [e]
      · simp only [seconds, List.filter_append]
        have : List.filter (fun op : Infix => decide (op.symbol ∉ k))
            (if seen.count o.symbol = 1 then [o] else []) = [] := by
          split <;> simp [hok]
        rw [this, List.nil_append]
    · by_cases h0 : seen.count o.symbol = 0
      · -- new: taken out
        have hns : o.symbol ∉ seen := List.count_eq_zero.1 h0
        have hnone : c.getDefined o = none := by
          cases he : c.getDefined o with
          | none => rfl
          | some v => exact absurd ((hc o).1 (by simp [he])) (by simp [hok, hns])
        rw [hnone]
        simp only [undo]
        have hkeys : (n.remove o).2.keys = n.keys.erase o.symbol := Fixities.keys_remove n o
        have hmem : ∀ s, s ∈ (n.remove o).2.keys ↔ s ≠ o.symbol ∧ s ∈ n.keys := by
          intro s
          rw [hkeys]
          exact List.Nodup.mem_erase_iff hw
        rw [map_fst_restore fx k ops (o.symbol :: seen) _ _ (Fixities.wf_remove hw _) hc'
          (by
            intro s hs
            exact (hmem s).2 ⟨fun e => hok (e ▸ hs), hk s hs⟩)
          (by
            intro s hs hn hm
            obtain ⟨ne, hm⟩ := (hmem s).1 hm
            exact h1 s hs (by rwa [hcount s ne] at hn) hm)
          (by
            intro s hs hn
            by_cases e : s = o.symbol
            · subst e
              simp [h0] at hn
            · exact (hmem s).2 ⟨e, h2 s hs (by rwa [hcount s e] at hn)⟩),
          Fixities.map_fst_remove hw]
        congr 1
        · rw [List.filter_filter]
          refine List.filter_congr fun a _ => ?_
          by_cases e : a.symbol = o.symbol
          · simp [e, hok, hns]
          · simp [e]
        · simp [seconds, h0]
      · have hs : o.symbol ∈ seen := List.count_pos_iff.1 (by omega)
        obtain ⟨v, hv⟩ := Option.isSome_iff_exists.1 ((hc o).2 (.inr hs))
        rw [hv]
        simp only [undo]
        by_cases hone : seen.count o.symbol = 1
        · -- for the second time: put last
          have hnm : o.symbol ∉ n.keys := h1 _ hok hone
          have hkeys : (n.insert o v).2.keys = n.keys ++ [o.symbol] := by
            rw [Fixities.keys_insert, if_neg hnm]
          rw [map_fst_restore fx k ops (o.symbol :: seen) _ _ (Fixities.wf_insert hw _ _) hc'
            (by rw [hkeys]; intro s hs; exact List.mem_append_left _ (hk s hs))
            (by
              intro s hs' hn
              rw [hkeys]
              by_cases e : s = o.symbol
              · subst e
                simp [hone] at hn
              · simp only [List.mem_append, List.mem_singleton, e, or_false]
                exact h1 s hs' (by rwa [hcount s e] at hn))
            (by
              intro s hs' hn
              rw [hkeys]
              by_cases e : s = o.symbol
              · simp [e]
              · exact List.mem_append_left _ (h2 s hs' (by rwa [hcount s e] at hn))),
            Fixities.map_fst_insert_of_not_mem hnm]
          rw [List.filter_append, List.append_assoc]
          congr 1
          · refine List.filter_congr fun a ha => ?_
            have : ¬ a.symbol = o.symbol := by
              intro e
              apply hnm
              rw [← e, keys_eq_map]
              exact List.mem_map_of_mem ha
            simp [this]
          · simp [seconds, hone, hok]
        · -- once more: nothing happens
          have hm : o.symbol ∈ n.keys := h2 _ hok (by omega)
          have hkeys : (n.insert o v).2.keys = n.keys := by
            rw [Fixities.keys_insert, if_pos hm]
          rw [map_fst_restore fx k ops (o.symbol :: seen) _ _ (Fixities.wf_insert hw _ _) hc'
            (by rw [hkeys]; exact hk)
            (by
              intro s hs' hn
              rw [hkeys]
              by_cases e : s = o.symbol
              · subst e
                simp at hn
                omega
              · exact h1 s hs' (by rwa [hcount s e] at hn))
            (by
              intro s hs' hn
              rw [hkeys]
              by_cases e : s = o.symbol
              · rw [e]; exact hm
              · exact h2 s hs' (by rwa [hcount s e] at hn)),
            Fixities.map_fst_insert_of_mem hm]
          congr 1
          · refine List.filter_congr fun a _ => ?_
            by_cases e : a.symbol = o.symbol
            · simp [e, hs]
            · simp [e]
          · simp [seconds, hone]

theorem get_restore (d : InfixDecl) (m n : Fixities) (hw : n.Wf) :
    (restore (insertLocal d.fixity d.infixes m).1 n).get = Env.afterLet m.get d n.get := by
  funext op
  have := getDefined_restore d.fixity d.infixes op m n hw
  simp only [Fixities.get, this, Env.afterLet, InfixDecl.times]
  generalize (d.infixes.map Infix.symbol).count op.symbol = n
  rcases n with _ | _ | n <;> rfl

/-- The undoing of a `let` leaves the ledger of the rules. -/
theorem restore_afterLet (d : InfixDecl) {m n : Fixities} (hw : n.Wf) (hk : ∀ s ∈ m.keys, s ∈ n.keys) :
    restore (insertLocal d.fixity d.infixes m).1 n = Ledger.afterLet m d n := by
  have hr : (restore (insertLocal d.fixity d.infixes m).1 n).Wf := wf_restore hw _
  rw [Fixities.eta hr, get_restore d m n hw, map_fst_restore d.fixity m.keys d.infixes [] m n hw
    (by
      intro op
      rw [← Option.ne_none_iff_isSome]
      simp [Fixities.getDefined_eq_none])
    hk (by simp) (by simp)]
  simp only [Ledger.afterLet, Ledger.fixity_eq]
  congr 2
  refine List.filter_congr fun a _ => ?_
  simp only [InfixDecl.times, List.count_eq_zero, Ledger.Knows, Fixities.keys, List.not_mem_nil,
    false_or]
  by_cases h : a.symbol ∈ List.map (fun x => x.1.symbol) m <;> simp [h]

mutual
theorem Turns.unique : ∀ {l : Ledger} {e e₁ e₂ : Expr} {es₁ es₂ : List AssocError} {f₁ f₂ : Ledger},
    Turns l e e₁ es₁ f₁ → Turns l e e₂ es₂ f₂ → e₁ = e₂ ∧ es₁ = es₂ ∧ f₁ = f₂
  | _, _, _, _, _, _, _, _, .lit, h => by cases h; exact ⟨rfl, rfl, rfl⟩
  | _, _, _, _, _, _, _, _, .var, h => by cases h; exact ⟨rfl, rfl, rfl⟩
  | _, _, _, _, _, _, _, _, .app a b, h => by
    cases h with
    | app a' b' =>
      obtain ⟨rfl, rfl, rfl⟩ := a.unique a'
      obtain ⟨rfl, rfl, rfl⟩ := b.unique b'
      exact ⟨rfl, rfl, rfl⟩
  | _, _, _, _, _, _, _, _, .lam a, h => by
    cases h with
    | lam a' => obtain ⟨rfl, rfl, rfl⟩ := a.unique a'; exact ⟨rfl, rfl, rfl⟩
  | _, _, _, _, _, _, _, _, .grp a, h => by
    cases h with
    | grp a' => obtain ⟨rfl, rfl, rfl⟩ := a.unique a'; exact ⟨rfl, rfl, rfl⟩
  | _, _, _, _, _, _, _, _, .neg a, h => by
    cases h with
    | neg a' => obtain ⟨rfl, rfl, rfl⟩ := a.unique a'; exact ⟨rfl, rfl, rfl⟩
  | _, _, _, _, _, _, _, _, .tup a, h => by
    cases h with
    | tup a' => obtain ⟨rfl, rfl, rfl⟩ := a.unique a'; exact ⟨rfl, rfl, rfl⟩
  | _, _, _, _, _, _, _, _, .list a, h => by
    cases h with
    | list a' => obtain ⟨rfl, rfl, rfl⟩ := a.unique a'; exact ⟨rfl, rfl, rfl⟩
  | _, _, _, _, _, _, _, _, .let_ a, h => by
    cases h with
    | let_ a' => obtain ⟨rfl, rfl, rfl⟩ := a.unique a'; exact ⟨rfl, rfl, rfl⟩
  | _, _, _, _, _, _, _, _, .ambiguous c, h => by
    cases h with
    | ambiguous c' =>
      obtain ⟨rfl, rfl⟩ := c.unique c'
      exact ⟨rfl, rfl, rfl⟩
    | grouped w o _ _ _ => exact absurd (o ▸ c.clashIn) (no_clash_of_wellGrouped w)
  | _, _, _, _, _, _, _, _, .grouped w o n a b, h => by
    cases h with
    | ambiguous c => exact absurd (o ▸ c.clashIn) (no_clash_of_wellGrouped w)
    | grouped w' o' n' a' b' =>
      cases tree_unique (n.trans n'.symm) (o.trans o'.symm) w w'
      obtain ⟨rfl, rfl, rfl⟩ := a.unique a'
      obtain ⟨rfl, rfl, rfl⟩ := b.unique b'
      exact ⟨rfl, rfl, rfl⟩
theorem TurnAll.unique : ∀ {l : Ledger} {e e₁ e₂ : List Expr} {es₁ es₂ : List AssocError}
    {f₁ f₂ : Ledger}, TurnAll l e e₁ es₁ f₁ → TurnAll l e e₂ es₂ f₂ →
      e₁ = e₂ ∧ es₁ = es₂ ∧ f₁ = f₂
  | _, _, _, _, _, _, _, _, .nil, h => by cases h; exact ⟨rfl, rfl, rfl⟩
  | _, _, _, _, _, _, _, _, .cons a b, h => by
    cases h with
    | cons a' b' =>
      obtain ⟨rfl, rfl, rfl⟩ := a.unique a'
      obtain ⟨rfl, rfl, rfl⟩ := b.unique b'
      exact ⟨rfl, rfl, rfl⟩
end

/-- What a visit does, with the table as it is listed. -/
def TurnsAt (r : Resolver) (e : Expr) (r' : Resolver) (e' : Expr) : Prop :=
  r.fixities.Wf → r'.fixities.Wf ∧ (∀ s ∈ r.fixities.keys, s ∈ r'.fixities.keys) ∧
    ∃ es, Turns r.fixities e e' es r'.fixities ∧ r'.errors = storeAll r.errors es

theorem thread_turns {r xs r' xs'} (h : Thread TurnsAt r xs r' xs') :
    r.fixities.Wf → r'.fixities.Wf ∧ (∀ s ∈ r.fixities.keys, s ∈ r'.fixities.keys) ∧
      ∃ es, TurnAll r.fixities xs xs' es r'.fixities ∧ r'.errors = storeAll r.errors es := by
  induction h with
  | nil => exact fun hw => ⟨hw, fun _ h => h, [], .nil, rfl⟩
  | cons hp _ ih =>
    intro hw
    obtain ⟨w1, k1, es, b1, e1⟩ := hp hw
    obtain ⟨w2, k2, es', b2, e2⟩ := ih w1
    exact ⟨w2, fun s h => k2 s (k1 s h), es ++ es', .cons b1 b2, by rw [storeAll_append, ← e1, e2]⟩

theorem visit_turns : ∀ e r r' e', visit r e = .ok (r', e') → TurnsAt r e r' e' := by
  apply visit_induct (P := TurnsAt)
  case lit => exact fun r l hw => ⟨hw, fun _ h => h, [], .lit, rfl⟩
  case var => exact fun r l hw => ⟨hw, fun _ h => h, [], .var, rfl⟩
  case app =>
    intro r f x r₁ f' r₂ x' h1 h2 hw
    obtain ⟨w1, k1, es, b1, e1⟩ := h1 hw
    obtain ⟨w2, k2, es', b2, e2⟩ := h2 w1
    exact ⟨w2, fun s h => k2 s (k1 s h), es ++ es', .app b1 b2, by rw [storeAll_append, ← e1, e2]⟩
  case lam =>
    exact fun r p b r₁ b' h hw => (h hw).imp id (And.imp id fun ⟨es, a, e⟩ => ⟨es, .lam a, e⟩)
  case grp =>
    exact fun r b r₁ b' h hw => (h hw).imp id (And.imp id fun ⟨es, a, e⟩ => ⟨es, .grp a, e⟩)
  case neg =>
    exact fun r b r₁ b' h hw => (h hw).imp id (And.imp id fun ⟨es, a, e⟩ => ⟨es, .neg a, e⟩)
  case tup =>
    exact fun r xs r₁ xs' h hw =>
      (thread_turns h hw).imp id (And.imp id fun ⟨es, a, e⟩ => ⟨es, .tup a, e⟩)
  case list =>
    exact fun r xs r₁ xs' h hw =>
      (thread_turns h hw).imp id (And.imp id fun ⟨es, a, e⟩ => ⟨es, .list a, e⟩)
  case let_ =>
    intro r d b r₁ b' h hw
    rw [insertLocal_snd] at h
    obtain ⟨w1, k1, es, b1, e1⟩ := h (Fixities.wf_insertMany hw _ _)
    have hk : ∀ s ∈ r.fixities.keys, s ∈ r₁.fixities.keys := fun s hs =>
      k1 s (mem_keys_insertMany (.inl hs))
    have he := restore_afterLet d w1 hk
    refine ⟨wf_restore w1 _, ?_, es, ?_, e1⟩
    · intro s hs
      show s ∈ (restore (insertLocal d.fixity d.infixes r.fixities).1 r₁.fixities).keys
      obtain ⟨x, hx, rfl⟩ := List.mem_map.1 hs
      rw [he, keys_eq_map, Ledger.afterLet, List.map_map, List.map_map]
      obtain ⟨y, hy, hxy⟩ := List.mem_map.1 (hk _ hs)
      refine List.mem_map.2 ⟨y.1, List.mem_append_left _ (List.mem_filter.2
        ⟨List.mem_map_of_mem hy, ?_⟩), hxy⟩
      simp only [decide_eq_true_eq]
      exact .inr (by unfold Ledger.Knows; rw [hxy]; exact hs)
    · show Turns _ _ _ _ (restore (insertLocal d.fixity d.infixes r.fixities).1 r₁.fixities)
      rw [he]
      refine .let_ ?_
      rw [InfixDecl.entries, Ledger.enterAll_insertMany hw]
      exact b1
  case bad =>
    intro r a op b err h hw
    obtain ⟨p, c, rfl, hc⟩ := rewrite_first h
    have : r.storeError (clashError r.fixities.get p c) = ⟨r.fixities, storeAll r.errors [_]⟩ :=
      storeError_mk r.fixities r.errors _
    rw [this]
    rw [← Ledger.fixity_eq] at hc
    refine ⟨hw, fun _ h => h, _, .ambiguous hc, ?_⟩
    rw [Ledger.fixity_eq]
  case bin =>
    intro r a op b a₁ op₁ b₁ r₁ a₂ r₂ b₂ hr h1 h2 hw
    obtain ⟨w1, k1, es, c1, e1⟩ := h1 hw
    obtain ⟨w2, k2, es', c2, e2⟩ := h2 w1
    obtain ⟨t, ht, hg, hk⟩ := rewrite_ok_grouping hr
    cases t with
    | leaf e => have := hg.2; simp [operators, Expr.chainOperators] at this
    | node s o t =>
      simp only [OpTree.toExpr, Expr.bin.injEq] at ht
      obtain ⟨rfl, rfl, rfl⟩ := ht
      rw [← Ledger.fixity_eq] at hk
      exact ⟨w2, fun s h => k2 s (k1 s h), es ++ es', .grouped hk hg.2 hg.1 c1 c2,
        by rw [storeAll_append, ← e1, e2]⟩

end Pemdas
