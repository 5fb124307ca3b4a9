/-
C80: `replace` replaces exactly the occurrences of the pattern, all of them, from left to right.
-/
import Verif.Spec.Rewrite
import Verif.Props.Graph
import Verif.Props.Pipeline

set_option linter.unusedSectionVars false

namespace AB
namespace GE
variable {V D : Type} [DecidableEq V] {deq : D → D → Bool} {cb : V → V → Bool}

theorem renamedVar_app {P S : List (Op V D)} {m : VMap V} (h : matchOps deq cb P S = some m) (v : V) :
    RenamedVar P m.app v (m.app v) := by
  refine ⟨fun _ => rfl, fun hv => ?_⟩
  have : ¬ (m v).isSome = true := by
    rw [(C36_match_sound h).2.2 v]
    rintro ⟨p, hp, h1 | h1⟩
    · exact hv (Or.inl ⟨p, hp, h1⟩)
    · exact hv (Or.inr ⟨p, hp, h1⟩)
  unfold VMap.app
  rw [Option.not_isSome_iff_eq_none.1 this]
  rfl

theorem renamedOp_subs {P S : List (Op V D)} {m : VMap V} (h : matchOps deq cb P S = some m) (o : Op V D) :
    RenamedOp P m.app o (o.subs m) where
  data := rfl
  inputs := by
    show List.Forall₂ _ o.inputs (o.inputs.map m.app)
    rw [List.forall₂_map_right_iff, List.forall₂_same]
    exact fun v _ => renamedVar_app h v
  outputs := by
    show List.Forall₂ _ o.outputs (o.outputs.map m.app)
    rw [List.forall₂_map_right_iff, List.forall₂_same]
    exact fun v _ => renamedVar_app h v

theorem occursAtStart_iff {P ops : List (Op V D)} :
    OccursAtStart deq cb P ops ↔ ∃ m, matchOps deq cb P (ops.take P.length) = some m := by
  constructor
  · rintro ⟨occ, rest, m, rfl, h⟩
    rw [List.take_left' h.same.length_eq.symm]
    obtain ⟨m', hm', -⟩ := C37_match_complete h
    exact ⟨m', hm'⟩
  · rintro ⟨m, h⟩
    exact ⟨ops.take P.length, ops.drop P.length, m.app, (List.take_append_drop _ _).symm, (C36_match_sound h).1⟩

theorem loop_rewritten {P R ops : List (Op V D)} : ∀ (fuel i : ℕ) (out r : List (Op V D)),
    replaceLoop deq cb P R ops fuel i out = some r → ∃ r', r = out ++ r' ∧ Rewritten deq cb P R (ops.drop i) r' := by
  intro fuel
  induction fuel with
  | zero => intro i out r h; cases h
  | succ fuel ih =>
    intro i out r h
    unfold replaceLoop at h
    split at h
    · rename_i hlt
      cases hm : matchOps deq cb P ((ops.drop i).take P.length) with
      | some m =>
        rw [hm] at h
        obtain ⟨r', rfl, h2⟩ := ih _ _ _ h
        refine ⟨R.map (·.subs m) ++ r', by simp, ?_⟩
        have := Rewritten.occurrence (C36_match_sound hm).1
          (replacement := R) (new := R.map (·.subs m))
          (by rw [List.forall₂_map_right_iff, List.forall₂_same]; exact fun o _ => renamedOp_subs hm o) h2
        rwa [← List.drop_drop, List.take_append_drop] at this
      | none =>
        rw [hm] at h
        obtain ⟨r', rfl, h2⟩ := ih _ _ _ h
        refine ⟨ops[i] :: r', by simp, ?_⟩
        rw [List.drop_eq_getElem_cons hlt]
        refine Rewritten.keep ?_ h2
        rw [← List.drop_eq_getElem_cons hlt, occursAtStart_iff, hm]
        rintro ⟨m, h⟩
        cases h
    · cases h
      refine ⟨[], by simp, ?_⟩
      rw [List.drop_eq_nil_of_le (by omega)]
      exact Rewritten.done

theorem renamedVar_unique {P : List (Op V D)} {m m' : V → V} (hm : ∀ v, varsOf P v → m v = m' v) {v u u' : V}
    (h : RenamedVar P m v u) (h' : RenamedVar P m' v u') : u = u' := by
  by_cases hv : varsOf P v
  · rw [h.1 hv, h'.1 hv, hm v hv]
  · rw [h.2 hv, h'.2 hv]

theorem forall₂_unique {α β : Type} {Q Q' : α → β → Prop} (hq : ∀ a b b', Q a b → Q' a b' → b = b') :
    ∀ {l : List α} {r r' : List β}, List.Forall₂ Q l r → List.Forall₂ Q' l r' → r = r' := by
  intro l r r' h
  induction h generalizing r' with
  | nil => intro h'; cases h'; rfl
  | cons h1 _ ih => intro h'; cases h' with | cons h2 h3 => rw [hq _ _ _ h1 h2, ih h3]

theorem renamedOp_unique {P : List (Op V D)} {m m' : V → V} (hm : ∀ v, varsOf P v → m v = m' v) {o q q' : Op V D}
    (h : RenamedOp P m o q) (h' : RenamedOp P m' o q') : q = q' := by
  obtain ⟨d, i, o⟩ := q
  obtain ⟨d', i', o'⟩ := q'
  have h1 : d = d' := h.data.trans h'.data.symm
  have h2 : i = i' := forall₂_unique (Q := RenamedVar P m) (Q' := RenamedVar P m') (fun _ _ _ => renamedVar_unique hm) h.inputs h'.inputs
  have h3 : o = o' := forall₂_unique (Q := RenamedVar P m) (Q' := RenamedVar P m') (fun _ _ _ => renamedVar_unique hm) h.outputs h'.outputs
  rw [h1, h2, h3]

theorem match_unique {P S : List (Op V D)} {m m' : V → V} (h : IsMatch deq cb P S m) (h' : IsMatch deq cb P S m') :
    ∀ v, varsOf P v → m v = m' v := by
  intro v hv
  obtain ⟨d, h1, h2⟩ := C37_match_complete h
  obtain ⟨d', h1', h2'⟩ := C37_match_complete h'
  rw [h1] at h1'
  cases h1'
  rcases hv with ⟨p, hp, hv⟩ | ⟨p, hp, hv⟩
  · exact Option.some.inj ((h2 p hp v (Or.inl hv)).symm.trans (h2' p hp v (Or.inl hv)))
  · exact Option.some.inj ((h2 p hp v (Or.inr hv)).symm.trans (h2' p hp v (Or.inr hv)))

/-- The specification determines the result. -/
theorem rewritten_unique {P R : List (Op V D)} (hP : P ≠ []) {ops r r' : List (Op V D)}
    (h : Rewritten deq cb P R ops r) (h' : Rewritten deq cb P R ops r') : r = r' := by
  induction h generalizing r' with
  | done =>
    generalize he : ([] : List (Op V D)) = l at h'
    cases h' with
    | done => rfl
    | @occurrence occ rest new result m h _ _ =>
      have := h.same.length_eq
      have h0 : occ = [] := by
        cases occ with
        | nil => rfl
        | cons _ _ => cases he
      rw [h0] at this
      exact absurd (List.length_eq_zero_iff.1 this) hP
    | keep => cases he
  | @occurrence occ rest new result m h hnew hrest ih =>
    have hl := h.same.length_eq
    generalize he : occ ++ rest = l at h'
    cases h' with
    | done =>
      have : occ = [] := (List.append_eq_nil_iff.1 he).1
      rw [this] at hl
      exact absurd (List.length_eq_zero_iff.1 hl) hP
    | @occurrence occ' rest' new' result' m' h' hnew' hrest' =>
      have hl' := h'.same.length_eq
      obtain ⟨rfl, rfl⟩ := List.append_inj he (by rw [← hl, ← hl'])
      rw [forall₂_unique (Q := RenamedOp P m) (Q' := RenamedOp P m') (fun _ _ _ => renamedOp_unique (match_unique h h')) hnew
        hnew', ih hrest']
    | keep hno _ => exact absurd ⟨_, _, _, he.symm, h⟩ hno
  | @keep o rest result hno hrest ih =>
    generalize he : o :: rest = l at h'
    cases h' with
    | done => cases he
    | occurrence h' _ _ => exact absurd ⟨_, _, _, he, h'⟩ hno
    | keep _ hrest' => cases he; rw [ih hrest']

/-- **C80.** With a non-empty pattern, `replace` returns `g'` if and only if `g'` has the inputs, outputs and data of
the graph, and its operations are those of the graph with the occurrences of the pattern replaced from left to right. -/
theorem C80_replace {G : Type} {P R : List (Op V D)} (hP : P ≠ []) (g g' : Graph V D G) :
    (∃ fuel, replace deq cb P R g fuel = some g') ↔
      g'.inputs = g.inputs ∧ g'.outputs = g.outputs ∧ g'.data = g.data ∧
      Rewritten deq cb P R g.operations g'.operations := by
  have key : ∀ {fuel r}, replace deq cb P R g fuel = some r → r.inputs = g.inputs ∧ r.outputs = g.outputs ∧
      r.data = g.data ∧ Rewritten deq cb P R g.operations r.operations := by
    intro fuel r h
    unfold replace at h
    obtain ⟨ops, hl, rfl⟩ := Option.map_eq_some_iff.1 h
    obtain ⟨r', rfl, hr⟩ := loop_rewritten _ _ _ _ hl
    exact ⟨rfl, rfl, rfl, by simpa using hr⟩
  constructor
  · rintro ⟨fuel, h⟩
    exact key h
  · rintro ⟨h1, h2, h3, h4⟩
    obtain ⟨r, hr⟩ := C39_terminates (deq := deq) (cb := cb) (R := R) hP g
    obtain ⟨k1, k2, k3, k4⟩ := key hr
    refine ⟨_, hr.trans (congrArg some ?_)⟩
    obtain ⟨i, o, ops, d⟩ := r
    obtain ⟨i', o', ops', d'⟩ := g'
    simp only at h1 h2 h3 h4 k1 k2 k3 k4
    rw [h1, h2, h3, k1, k2, k3, rewritten_unique hP k4 h4]

/-- **C80.** A graph without an occurrence of the pattern is returned unchanged. -/
theorem C80_unchanged {G : Type} {P R : List (Op V D)} (hP : P ≠ []) (g : Graph V D G)
    (hno : ∀ A B, g.operations = A ++ B → B ≠ [] → ¬ OccursAtStart deq cb P B) :
    ∃ fuel, replace deq cb P R g fuel = some g := by
  refine (C80_replace hP g g).2 ⟨rfl, rfl, rfl, ?_⟩
  have : ∀ (ops : List (Op V D)), (∀ A B, ops = A ++ B → B ≠ [] → ¬ OccursAtStart deq cb P B) →
      Rewritten deq cb P R ops ops := by
    intro ops
    induction ops with
    | nil => exact fun _ => Rewritten.done
    | cons o ops ih =>
      intro h
      exact Rewritten.keep (h [] _ rfl (by simp)) (ih fun A B e hB => h (o :: A) B (by rw [e]; rfl) hB)
  exact this _ hno

/-- the result operation by operation, when pattern and replacement are one operation each -/
theorem rewritten_single {p q : Op V D} {ops r : List (Op V D)} (h : Rewritten deq cb [p] [q] ops r) :
    List.Forall₂ (fun o o' => ((¬ ∃ m, IsMatch deq cb [p] [o] m) ∧ o' = o) ∨
      ∃ m, IsMatch deq cb [p] [o] m ∧ RenamedOp [p] m q o') ops r := by
  induction h with
  | done => exact .nil
  | @occurrence occ rest new result m h hnew _ ih =>
    have hl := h.same.length_eq
    obtain ⟨o, rfl⟩ := List.length_eq_one_iff.1 hl.symm
    cases hnew with
    | cons h1 h2 => cases h2; exact .cons (Or.inr ⟨m, h, h1⟩) ih
  | keep hno _ ih =>
    exact .cons (Or.inl ⟨fun ⟨m, hm⟩ => hno ⟨_, _, m, rfl, hm⟩, rfl⟩) ih

end GE

namespace JE
variable {C P : Type} [DecidableEq C] [DecidableEq P]

theorem OneEqnRule.ok {r : PRule C P} {e : Eqn C P} (h : OneEqnRule r e) : r.Ok noMeaning where
  vars := h.vars
  rule := {
    consts := h.consts
    input := h.input
    output := h.output
    ssa := h.ssa
    wellScoped := h.wellScoped
    counts := h.counts
    used := ⟨e, by rw [h.eqns]; simp, h.used⟩
    computed := ⟨e, by rw [h.eqns]; simp, by rw [h.result]; simp⟩
    same := by
      intro x ys hy
      exfalso
      unfold Meaning.eval at hy
      rw [h.eqns, h.input, h.consts] at hy
      simp [Meaning.step, noMeaning] at hy }

theorem rule_eqns {r : PRule C P} {p : Eqn C P} (h : OneEqnRule r p) {subject : Jaxpr C P} (hssa : subject.SSA)
    (hs : subject.CountsIdentify) (hd : subject.DropsUnused) (hns : subject.NoSelfReads) (fresh : ℕ) :
    ∃ j', replace r.pattern r.pair.2 subject fresh (subject.eqns.length + 1) = some (.ok j') ∧
      j'.SSA ∧ j'.CountsIdentify ∧ j'.DropsUnused ∧ j'.NoSelfReads ∧
      List.Forall₂ (fun e e' => ((¬ ∃ m, IsOccurrence p e m) ∧ SameEqn e e') ∨
        ∃ m, IsOccurrence p e m ∧ AppliesPrimitive r m e') subject.eqns j'.eqns := by
  have hcl := single_closed h.ok h.eqns h.result hns
  obtain ⟨g', j', k1, k2, k3, k4, -⟩ := rule_step noMeaning_respects h.ok hssa hs hd hcl fresh
  have hns' := single_noSelfReads h.eqns h.result h.used k1 k2 hns
  refine ⟨j', k3, k4.ssa, k4.counts, k4.drops, hns', ?_⟩
  have hops : (jaxprToGraph r.pattern).operations = [eqnOp 0 p] := by
    show r.pattern.eqns.map (eqnOp 0) = _
    rw [h.eqns]; rfl
  rw [hops] at k1
  obtain ⟨-, -, -, hrw⟩ := (GE.C80_replace (List.cons_ne_nil _ _) _ _).1 ⟨_, k1⟩
  rw [← k2] at hrw
  have := GE.rewritten_single hrw
  replace this : List.Forall₂ _ (subject.eqns.map (eqnOp 0)) (j'.eqns.map (eqnOp 0)) := this
  rw [List.forall₂_map_left_iff, List.forall₂_map_right_iff] at this
  refine this.imp ?_
  rintro e e' (⟨h1, h2⟩ | ⟨m, h1, h2⟩)
  · exact Or.inl ⟨h1, h2.symm⟩
  · refine Or.inr ⟨m, h1, ?_⟩
    have hx : GE.varsOf [eqnOp 0 p] (varVertex 0 r.px) :=
      Or.inl ⟨_, List.mem_singleton.2 rfl, List.mem_map.2 ⟨_, h.used, rfl⟩⟩
    have ho : GE.varsOf [eqnOp (C := C) 0 p] (varVertex 0 r.po) :=
      Or.inr ⟨_, List.mem_singleton.2 rfl, List.mem_map.2 ⟨r.po, by rw [h.result]; simp, rfl⟩⟩
    obtain ⟨d, i, o⟩ := h2
    refine ⟨congrArg EqnData.primitive d, congrArg EqnData.params d, ?_, ?_⟩
    · replace i : List.Forall₂ _ [varVertex 0 r.px] (e'.invars.map (atomVertex 0)) := i
      generalize e'.invars.map (atomVertex 0) = l at i
      cases i with
      | cons a b => cases b; rw [a.1 hx]
    · replace o : List.Forall₂ _ [varVertex 0 r.po] (e'.outvars.map (varVertex 0)) := o
      generalize e'.outvars.map (varVertex (C := C) 0) = l at o
      cases o with
      | cons a b => cases b; rw [a.1 ho]

theorem not_occurrence_applies {r : PRule C P} {p e : Eqn C P} {m : Vertex C → Vertex C} (h : AppliesPrimitive r m e)
    (hne : p.primitive ≠ r.name) : ¬ ∃ m', IsOccurrence p e m' := by
  rintro ⟨m', hm'⟩
  have h1 := hm'.same
  cases h1 with
  | cons h2 _ =>
    have h3 := h2.1
    unfold eqDataEq at h3
    rw [Bool.and_eq_true] at h3
    exact hne ((of_decide_eq_true h3.1).trans h.primitive)

theorem RewrittenEqn.congr {rules : List (PRule C P × Eqn C P)} {e e1 e' : Eqn C P} (h : SameEqn e e1)
    (h' : RewrittenEqn rules e1 e') : RewrittenEqn rules e e' := by
  induction h' with
  | keep h2 => exact .keep (h.trans h2)
  | apply h2 h3 => exact .apply (by unfold IsOccurrence; rw [h]; exact h2) h3
  | skip h2 _ ih => exact .skip (by rintro ⟨m, hm⟩; exact h2 ⟨m, by unfold IsOccurrence; rw [← h]; exact hm⟩) (ih h)

theorem RewrittenEqn.same {rules : List (PRule C P × Eqn C P)} {e e' : Eqn C P} (h' : RewrittenEqn rules e e')
    (hno : ∀ q ∈ rules, ¬ ∃ m, IsOccurrence q.2 e m) : SameEqn e e' := by
  induction h' with
  | keep h => exact h
  | apply h _ => exact absurd ⟨_, h⟩ (hno _ List.mem_cons_self)
  | skip _ _ ih => exact ih fun q hq => hno q (List.mem_cons_of_mem _ hq)

end JE

namespace JB
open JE (PRule OneEqnRule IsOccurrence SameEqn AppliesPrimitive RewrittenEqn rule_eqns not_occurrence_applies)
variable {C P : Type} [DecidableEq C] [DecidableEq P]

theorem rewrite_all (fresh : ℕ) : ∀ {rules : List (PRule C P × JE.Eqn C P)} {subject : JE.Jaxpr C P},
    (∀ q ∈ rules, OneEqnRule q.1 q.2) → (∀ q ∈ rules, ∀ q' ∈ rules, q.2.primitive ≠ q'.1.name) →
    subject.SSA → subject.CountsIdentify → subject.DropsUnused → subject.NoSelfReads →
    ∃ j', rewriteJaxpr fresh (rules.map fun q => q.1.pair) subject = some (.ok j') ∧
      List.Forall₂ (RewrittenEqn rules) subject.eqns j'.eqns ∧
      ∀ e ∈ j'.eqns, ∀ q ∈ rules, ¬ ∃ m, IsOccurrence q.2 e m
  | [], subject, _, _, _, _, _, _ =>
    ⟨subject, rfl, List.forall₂_same.2 fun _ _ => .keep rfl, fun _ _ q hq => absurd hq List.not_mem_nil⟩
  | (r, p) :: rules, subject, hr, hn, hssa, hs, hd, hns => by
    obtain ⟨j1, k1, k2, k3, k4, k5, k6⟩ := rule_eqns (hr (r, p) List.mem_cons_self) hssa hs hd hns fresh
    obtain ⟨j', l1, l2, l3⟩ := rewrite_all fresh (rules := rules)
      (fun q hq => hr q (List.mem_cons_of_mem _ hq))
      (fun q hq q' hq' => hn q (List.mem_cons_of_mem _ hq) q' (List.mem_cons_of_mem _ hq')) k2 k3 k4 k5
    -- what the other rules make of the result of the first
    have key : ∀ {es es1 es' : List (JE.Eqn C P)},
        List.Forall₂ (fun e e' => ((¬ ∃ m, IsOccurrence p e m) ∧ SameEqn e e') ∨
          ∃ m, IsOccurrence p e m ∧ AppliesPrimitive r m e') es es1 →
        List.Forall₂ (RewrittenEqn rules) es1 es' →
        List.Forall₂ (RewrittenEqn ((r, p) :: rules)) es es' ∧
          ∀ e' ∈ es', ∀ m', IsOccurrence p e' m' → ∃ q ∈ rules, ∃ m, AppliesPrimitive q.1 m e' := by
      intro es es1 es' h
      induction h generalizing es' with
      | nil => intro h'; cases h'; exact ⟨.nil, fun _ h => absurd h List.not_mem_nil⟩
      | @cons e e1 es es1 h _ ih =>
        intro h'
        cases h' with
        | @cons _ e' _ es' h1 h2 =>
          obtain ⟨i1, i2⟩ := ih h2
          rcases h with ⟨a1, a2⟩ | ⟨m, a1, a2⟩
          · refine ⟨.cons (.skip a1 (h1.congr a2)) i1, ?_⟩
            intro q hq m' hm'
            rcases List.mem_cons.1 hq with rfl | hq
            · -- kept by all rules, or the result of a rule
              have h1' := h1.congr a2
              clear ih h2 i1 i2 h1 a2 l1 l2 l3 hr hn
              induction h1' with
              | keep h => exact absurd ⟨m', by unfold IsOccurrence; rw [h]; exact hm'⟩ a1
              | @apply r' p' _ _ rules' m0 _ h => exact ⟨(r', p'), List.mem_cons_self, m0, h⟩
              | skip _ _ ih =>
                obtain ⟨q, hq, h⟩ := ih a1 hm' List.mem_cons_self
                exact ⟨q, List.mem_cons_of_mem _ hq, h⟩
            · exact i2 q hq m' hm'
          · have hno : ∀ q ∈ rules, ¬ ∃ m, IsOccurrence q.2 e1 m := fun q hq =>
              not_occurrence_applies a2 (hn q (List.mem_cons_of_mem _ hq) (r, p) List.mem_cons_self)
            have hsame := h1.same hno
            have a2' : AppliesPrimitive r m e' := by
              have e0 := hsame
              unfold SameEqn JE.eqnOp at e0
              injection e0 with f1 f2 f3
              injection f1 with g1 g2
              exact ⟨g1 ▸ a2.primitive, g2 ▸ a2.params, f2 ▸ a2.invars, f3 ▸ a2.outvars⟩
            refine ⟨.cons (.apply a1 a2') i1, ?_⟩
            intro q hq m' hm'
            rcases List.mem_cons.1 hq with rfl | hq
            · exact absurd ⟨m', hm'⟩ (not_occurrence_applies a2' (hn (r, p) List.mem_cons_self (r, p) List.mem_cons_self))
            · exact i2 q hq m' hm'
    obtain ⟨m1, m2⟩ := key k6 l2
    refine ⟨j', ?_, m1, ?_⟩
    · simp only [List.map_cons]
      show rewriteJaxpr fresh ((r.pattern, r.pair.2) :: _) subject = _
      unfold rewriteJaxpr
      rw [k1]
      exact l1
    · intro e he q hq
      rcases List.mem_cons.1 hq with rfl | hq
      · rintro ⟨m, hm⟩
        obtain ⟨q', hq', m', h'⟩ := m2 e he m hm
        exact not_occurrence_applies h' (hn (r, p) List.mem_cons_self q' (List.mem_cons_of_mem _ hq')) ⟨m, hm⟩
      · exact l3 e he q hq

/-- **C80.** Rules that replace one equation (a call of a jitted function) by one application of a primitive, none of
which is the primitive of a pattern: `_rewrite_jaxpr` returns a program whose equations are those of the given one, in
the same order, where each equation that is an occurrence of a pattern is replaced (by the first such rule) and every
other one is kept; no equation of the result is an occurrence of any of the patterns. -/
theorem C80_rewrite_all (fresh : ℕ) {rules : List (PRule C P × JE.Eqn C P)} {subject : JE.Jaxpr C P}
    (hrules : ∀ q ∈ rules, OneEqnRule q.1 q.2) (hnames : ∀ q ∈ rules, ∀ q' ∈ rules, q.2.primitive ≠ q'.1.name)
    (hssa : subject.SSA) (hscoped : subject.WellScoped) (hcounts : subject.CountsIdentify) (hdrops : subject.DropsUnused) :
    ∃ j', rewriteJaxpr fresh (rules.map fun q => q.1.pair) subject = some (.ok j') ∧
      List.Forall₂ (RewrittenEqn rules) subject.eqns j'.eqns ∧
      ∀ e ∈ j'.eqns, ∀ q ∈ rules, ¬ ∃ m, IsOccurrence q.2 e m :=
  rewrite_all fresh hrules hnames hssa hcounts hdrops (JE.noSelfReads_of hcounts hssa hscoped)

end JB
end AB
