/-
C56: the pipeline of `taylor_bounds` (/repo/autobound/jax/jax_bound.py): the Jaxpr of `f` is rewritten with the
registered rules, and the bounds computed from the rewritten Jaxpr hold for `f`.
-/
import Verif.Proofs.Pipeline
import Verif.Props.JaxprReplace
import Verif.Props.Static

set_option linter.unusedSectionVars false

namespace AB
namespace JE
variable {C P α : Type} [DecidableEq C] [DecidableEq P]

/-- the variables written by the rewritten graph -/
theorem loop_outputs {pat ops : List (GE.Op (Vertex C) (EqnData C P))} {d : EqnData C P} {a b : Vertex C}
    (hb : GE.writesOf pat b) :
    ∀ (fuel i : ℕ) (out r : List (GE.Op (Vertex C) (EqnData C P))),
    GE.replaceLoop eqDataEq canBind pat [⟨d, [a], [b]⟩] ops fuel i out = some r →
    List.Sublist (r.flatMap (·.outputs)) (out.flatMap (·.outputs) ++ (ops.drop i).flatMap (·.outputs)) := by
  intro fuel
  induction fuel with
  | zero => intro i out r h; cases h
  | succ fuel ih =>
    intro i out r h
    unfold GE.replaceLoop at h
    split at h
    · rename_i hi
      cases hm : GE.matchOps eqDataEq canBind pat ((ops.drop i).take pat.length) with
      | some m =>
        rw [hm] at h
        refine (ih _ _ _ h).trans ?_
        rw [List.flatMap_append, List.append_assoc]
        refine List.Sublist.append (List.Sublist.refl _) ?_
        obtain ⟨m1, -, -⟩ := GE.C36_match_sound hm
        have hw := (match_mem m1).2 b hb
        have : (ops.drop i).flatMap (·.outputs) = ((ops.drop i).take pat.length).flatMap (·.outputs) ++
            (ops.drop (i + pat.length)).flatMap (·.outputs) := by
          rw [← List.flatMap_append, ← List.drop_drop, List.take_append_drop]
        rw [this]
        refine List.Sublist.append ?_ (List.Sublist.refl _)
        show List.Sublist ([m.app b] ++ []) _
        rw [List.append_nil, List.singleton_sublist]
        exact GE.mem_writes.1 hw
      | none =>
        rw [hm] at h
        refine (ih _ _ _ h).trans ?_
        rw [List.flatMap_append, List.append_assoc]
        refine List.Sublist.append (List.Sublist.refl _) ?_
        have e : (ops.drop i).flatMap (·.outputs) = ops[i].outputs ++ (ops.drop (i + 1)).flatMap (·.outputs) := by
          rw [List.drop_eq_getElem_cons hi, List.flatMap_cons]
        rw [e]
        simp
    · cases h
      exact List.sublist_append_left _ _

/-- What rewriting with one rule leaves unchanged. -/
structure SameInterface (j j' : Jaxpr C P) : Prop where
  counts : j'.CountsIdentify
  ssa : j'.SSA
  drops : j'.DropsUnused
  invars : j'.invars.length = j.invars.length
  outvars : j'.outvars.length = j.outvars.length
  constvars : j'.constvars.length = j.constvars.length

theorem graph_parts {j : Jaxpr C P} {g : JGraph C P} (h : jaxprToGraph j = g) :
    j.invars.map (varVertex 0) = g.inputs ∧ j.outvars.map (atomVertex 0) = g.outputs ∧
    j.eqns.map (eqnOp 0) = g.operations ∧ j.constvars.map (varVertex 0) = g.data := by
  subst h; exact ⟨rfl, rfl, rfl, rfl⟩

theorem binders_graph (j : Jaxpr C P) : j.binders.map (varVertex (C := C) 0) =
    (jaxprToGraph j).data ++ (jaxprToGraph j).inputs ++ (jaxprToGraph j).operations.flatMap (·.outputs) := by
  unfold Jaxpr.binders jaxprToGraph
  rw [List.map_append, List.map_append, List.flatMap_map, List.map_flatMap]
  rfl

/-- `DropsUnused`, on the graph -/
theorem drops_graph (j : Jaxpr C P) : j.DropsUnused ↔
    (∀ c a, Vertex.var c a ∈ (jaxprToGraph j).data ∨ Vertex.var c a ∈ (jaxprToGraph j).inputs ∨
      Vertex.var c a ∈ (jaxprToGraph j).outputs ∨ GE.readsOf (jaxprToGraph j).operations (Vertex.var c a) → c ≠ -1) := by
  have hv : ∀ (l : List Var) c a, Vertex.var (C := C) c a ∈ l.map (varVertex 0) ↔ ∃ v ∈ l, v.count = c ∧ v.aval = a := by
    intro l c a
    simp [varVertex]
  have ha : ∀ (l : List (Atom C)) c a, Vertex.var (C := C) c a ∈ l.map (atomVertex 0) ↔
      ∃ v ∈ atomVars l, v.count = c ∧ v.aval = a := by
    intro l c a
    rw [List.mem_map]
    constructor
    · rintro ⟨x, h1, h2⟩
      cases x with
      | lit l => cases h2
      | var v =>
        simp only [atomVertex, varVertex, add_zero, Vertex.var.injEq] at h2
        exact ⟨v, mem_atomVars.2 h1, h2⟩
    · rintro ⟨v, h1, h2, h3⟩
      exact ⟨_, mem_atomVars.1 h1, by simp [atomVertex, varVertex, h2, h3]⟩
  constructor
  · rintro ⟨h1, h2⟩ c a (h | h | h | ⟨o, ho, h⟩)
    · obtain ⟨v, hv', rfl, -⟩ := (hv _ _ _).1 h
      exact h1 v (by simp [hv'])
    · obtain ⟨v, hv', rfl, -⟩ := (hv _ _ _).1 h
      exact h1 v (by simp [hv'])
    · obtain ⟨v, hv', rfl, -⟩ := (ha _ _ _).1 h
      exact h1 v (by simp [hv'])
    · obtain ⟨e, he, rfl⟩ := List.mem_map.1 ho
      obtain ⟨v, hv', rfl, -⟩ := (ha _ _ _).1 h
      exact h2 e he v hv'
  · intro h
    refine ⟨fun v hv' => ?_, fun e he v hv' => ?_⟩
    · simp only [List.mem_append] at hv'
      rcases hv' with (hv' | hv') | hv'
      · exact h _ v.aval (Or.inl ((hv _ _ _).2 ⟨v, hv', rfl, rfl⟩))
      · exact h _ v.aval (Or.inr (Or.inl ((hv _ _ _).2 ⟨v, hv', rfl, rfl⟩)))
      · exact h _ v.aval (Or.inr (Or.inr (Or.inl ((ha _ _ _).2 ⟨v, hv', rfl, rfl⟩))))
    · exact h _ v.aval (Or.inr (Or.inr (Or.inr ⟨eqnOp 0 e, List.mem_map_of_mem he, (ha _ _ _).2 ⟨v, hv', rfl, rfl⟩⟩)))

theorem params_step {G : List (String × Param C P) → Prop} {r : PRule C P} {subject j' : Jaxpr C P} {n : ℕ}
    (hrG : r.ParamsIn G) (hsG : subject.ParamsIn G) {g' : JGraph C P}
    (h : GE.replace eqDataEq canBind (jaxprToGraph r.pattern).operations
        [⟨⟨r.name, r.params⟩, [varVertex 0 r.px], [varVertex 0 r.po]⟩] (jaxprToGraph subject) n = some g')
    (hj : jaxprToGraph j' = g') : j'.ParamsIn G := by
  unfold GE.replace at h
  obtain ⟨ops, hl, rfl⟩ := Option.map_eq_some_iff.1 h
  obtain ⟨-, -, p3, -⟩ := graph_parts hj
  simp only at p3
  intro e he
  have hmem : eqnOp 0 e ∈ ops := p3 ▸ List.mem_map_of_mem he
  rcases loop_ops _ _ _ _ hl _ hmem with h' | h' | ⟨m, occ, k1, k2, o', k3, k4⟩
  · cases h'
  · obtain ⟨e1, h1, h2⟩ := List.mem_map.1 h'
    have := congrArg (fun o => o.data.params) h2
    exact (show e1.params = e.params from this) ▸ hsG e1 h1
  · rw [List.mem_singleton] at k3
    subst k3
    have := congrArg (fun o => o.data.params) k4
    exact (show e.params = r.params from this) ▸ hrG.2

/-- One rule: the result computes the same function and is again a Jaxpr to which the claims apply. -/
theorem rule_step_on {G : List (String × Param C P) → Prop} {𝓜 : Meaning C P α} (hresp : 𝓜.RespectsOn G)
    {r : PRule C P} (hr : r.Ok 𝓜) {subject : Jaxpr C P} (hrG : r.ParamsIn G) (hsG : subject.ParamsIn G)
    (hssa : subject.SSA) (hs : subject.CountsIdentify) (hd : subject.DropsUnused)
    (hocc : OccurrencesClosed r.pattern subject r.px r.po) (fresh : ℕ) :
    ∃ g' j', GE.replace eqDataEq canBind (jaxprToGraph r.pattern).operations
        [⟨⟨r.name, r.params⟩, [varVertex 0 r.px], [varVertex 0 r.po]⟩] (jaxprToGraph subject) (subject.eqns.length + 1) = some g' ∧
      jaxprToGraph j' = g' ∧
      replace r.pattern r.pair.2 subject fresh (subject.eqns.length + 1) = some (.ok j') ∧
      SameInterface subject j' ∧ j'.ParamsIn G ∧
      ∀ consts xs ys, 𝓜.eval subject consts xs = some ys → 𝓜.eval j' consts xs = some ys := by
  obtain ⟨g', j', h1, h2, h3, h4, h5⟩ := primitive_rule_graph hresp hrG.1 hsG hr.rule hr.vars hssa hs hocc fresh
  refine ⟨g', j', h1, h3, h2, ?_, ?_, h5⟩
  rotate_left
  · exact params_step hrG hsG h1 h3
  obtain ⟨e', he', hpo⟩ := hr.rule.computed
  have hw : GE.writesOf (jaxprToGraph r.pattern).operations (varVertex 0 r.po) := writes_graph.2 ⟨e', he', _, hpo, rfl⟩
  have hloop := h1
  unfold GE.replace at h1
  obtain ⟨ops, hl, rfl⟩ := Option.map_eq_some_iff.1 h1
  have hout := loop_outputs hw _ _ _ _ hl
  obtain ⟨p1, p2, p3, p4⟩ := graph_parts h3
  simp only at p1 p2 p3 p4
  obtain ⟨q1, q2, q3, q4⟩ := graph_parts (rfl : jaxprToGraph subject = _)
  have hssa' : ((jaxprToGraph subject).data ++ (jaxprToGraph subject).inputs ++
      (jaxprToGraph subject).operations.flatMap (·.outputs)).Nodup := by
    rw [← binders_graph]
    refine List.Nodup.map_on ?_ hssa
    intro u hu v hv e
    have hb : ∀ w ∈ subject.binders, w ∈ subject.vars := by
      intro w hw
      unfold Jaxpr.binders at hw
      rcases List.mem_append.1 hw with hw | hw
      · unfold Jaxpr.vars
        simp only [List.mem_append] at hw ⊢
        tauto
      · obtain ⟨q, k1, k2⟩ := List.mem_flatMap.1 hw
        exact mem_vars_out k1 k2
    exact vertexInj_of hs u (hb u hu) v (hb v hv) e
  refine ⟨h4, ?_, ?_, ?_, ?_, ?_⟩
  · refine List.Nodup.of_map (varVertex (C := C) 0) ?_
    rw [binders_graph, h3]
    refine List.Nodup.sublist ?_ hssa'
    refine List.Sublist.append (List.Sublist.refl _) ?_
    simpa using hout
  · rw [drops_graph, h3]
    intro c a h
    refine (drops_graph subject).1 hd c a ?_
    rcases h with h | h | h | ⟨o, ho, h⟩
    · exact Or.inl h
    · exact Or.inr (Or.inl h)
    · exact Or.inr (Or.inr (Or.inl h))
    · refine Or.inr (Or.inr (Or.inr ?_))
      rcases loop_ops _ _ _ _ hl o ho with h' | h' | ⟨m, occ, k1, k2, o', k3, rfl⟩
      · cases h'
      · exact ⟨o, h', h⟩
      · rw [List.mem_singleton] at k3
        subst k3
        obtain ⟨m1, -, -⟩ := GE.C36_match_sound k2
        obtain ⟨e, he, hpxu⟩ := hr.rule.used
        obtain ⟨o, q1, q2⟩ := (match_mem m1).1 (varVertex 0 r.px)
          ⟨eqnOp 0 e, List.mem_map_of_mem he, List.mem_map.2 ⟨_, hpxu, rfl⟩⟩
        have hu : Vertex.var c a = m.app (varVertex 0 r.px) := by simpa [GE.Op.subs] using h
        exact ⟨o, k1 o q1, hu ▸ q2⟩
  · have := congrArg List.length (p1.trans q1.symm); simpa using this
  · have := congrArg List.length (p2.trans q2.symm); simpa using this
  · have := congrArg List.length (p4.trans q4.symm); simpa using this

/-- One rule: the result computes the same function and is again a Jaxpr to which the claims apply. -/
theorem rule_step {𝓜 : Meaning C P α} (hresp : 𝓜.Respects) {r : PRule C P} (hr : r.Ok 𝓜) {subject : Jaxpr C P}
    (hssa : subject.SSA) (hs : subject.CountsIdentify) (hd : subject.DropsUnused)
    (hocc : OccurrencesClosed r.pattern subject r.px r.po) (fresh : ℕ) :
    ∃ g' j', GE.replace eqDataEq canBind (jaxprToGraph r.pattern).operations
        [⟨⟨r.name, r.params⟩, [varVertex 0 r.px], [varVertex 0 r.po]⟩] (jaxprToGraph subject) (subject.eqns.length + 1) = some g' ∧
      jaxprToGraph j' = g' ∧
      replace r.pattern r.pair.2 subject fresh (subject.eqns.length + 1) = some (.ok j') ∧
      SameInterface subject j' ∧
      ∀ consts xs ys, 𝓜.eval subject consts xs = some ys → 𝓜.eval j' consts xs = some ys :=
  let ⟨g', j', h1, h2, h3, h4, _, h5⟩ := rule_step_on (hresp.on fun _ => True) hr ⟨fun _ _ => trivial, trivial⟩
    (fun _ _ => trivial) hssa hs hd hocc fresh
  ⟨g', j', h1, h2, h3, h4, h5⟩

/-- a meaning in which nothing is defined -/
def noMeaning : Meaning C P Unit where
  lit _ := ()
  prim _ _ _ := none

theorem noMeaning_respects : (noMeaning (C := C) (P := P)).Respects := fun _ _ _ _ => rfl

theorem _root_.AB.JE.PRule.Ok.none {𝓜 : Meaning C P α} {r : PRule C P} (h : r.Ok 𝓜) : r.Ok (noMeaning (C := C) (P := P)) where
  vars := h.vars
  rule := { h.rule with
    same := by
      intro x ys hy
      exfalso
      obtain ⟨e, he, -⟩ := h.rule.used
      unfold Meaning.eval at hy
      cases hq : r.pattern.eqns with
      | nil => rw [hq] at he; cases he
      | cons q qs =>
        rw [hq, h.rule.consts, h.rule.input] at hy
        have hstep : ∀ env : VEnv Unit, (noMeaning (C := C) (P := P)).step env q = Option.none := by
          intro env
          unfold Meaning.step
          cases q.invars.mapM ((noMeaning (C := C) (P := P)).read env) <;> rfl
        simp [hstep] at hy
 }

/-- The structural part of `rule_step`, for any meaning. -/
theorem rule_step_any {𝓜 : Meaning C P α} {r : PRule C P} (hr : r.Ok 𝓜) {subject : Jaxpr C P}
    (hssa : subject.SSA) (hs : subject.CountsIdentify) (hd : subject.DropsUnused)
    (hocc : OccurrencesClosed r.pattern subject r.px r.po) (fresh : ℕ) :
    ∃ g' j', GE.replace eqDataEq canBind (jaxprToGraph r.pattern).operations
        [⟨⟨r.name, r.params⟩, [varVertex 0 r.px], [varVertex 0 r.po]⟩] (jaxprToGraph subject) (subject.eqns.length + 1) = some g' ∧
      jaxprToGraph j' = g' ∧
      replace r.pattern r.pair.2 subject fresh (subject.eqns.length + 1) = some (.ok j') ∧ SameInterface subject j' :=
  let ⟨g', j', h1, h2, h3, h4, _⟩ := rule_step noMeaning_respects hr.none hssa hs hd hocc fresh
  ⟨g', j', h1, h2, h3, h4⟩

/-! ### rules whose pattern is one equation -/

/-- No equation reads its own results. -/
def Jaxpr.NoSelfReads (j : Jaxpr C P) : Prop :=
  ∀ o ∈ (jaxprToGraph j).operations, ∀ u ∈ o.outputs, u ∉ o.inputs

theorem noSelfReads_of {j : Jaxpr C P} (hs : j.CountsIdentify) (hssa : j.SSA) (hw : j.WellScoped) : j.NoSelfReads := by
  have key : ∀ {es : List (Eqn C P)} {S : List Var} {o : List (Atom C)}, Scoped S es o →
      (S ++ es.flatMap Eqn.outvars).Nodup → ∀ e ∈ es, ∀ v ∈ e.outvars, v ∉ atomVars e.invars := by
    intro es
    induction es with
    | nil => intro S o _ _ e he; cases he
    | cons q es ih =>
      intro S o h hn e he v hv hv'
      rcases List.mem_cons.1 he with rfl | he
      · exact (List.nodup_append.1 hn).2.2 v (h.1 v hv') v (by simp [hv]) rfl
      · refine ih h.2 ?_ e he v hv hv'
        simpa [List.append_assoc] using hn
  have hk := key hw hssa
  intro o ho u hu hu'
  obtain ⟨e, he, rfl⟩ := List.mem_map.1 ho
  obtain ⟨v, hv, rfl⟩ := List.mem_map.1 hu
  obtain ⟨a, ha, hav⟩ := List.mem_map.1 hu'
  cases a with
  | lit l => cases hav
  | var w =>
    have hwv : w = v := by
      refine vertexInj_of hs w ?_ v (mem_vars_out he hv) hav
      unfold Jaxpr.vars
      exact List.mem_append_right _ (List.mem_flatMap.2 ⟨e, he, List.mem_append_left _ (mem_atomVars.2 ha)⟩)
    subst hwv
    exact hk e he w hv (mem_atomVars.2 ha)

theorem single_closed {𝓜 : Meaning C P α} {r : PRule C P} (hr : r.Ok 𝓜) {e : Eqn C P} (he : r.pattern.eqns = [e])
    (ho : e.outvars = [r.po]) {subject : Jaxpr C P} (hs : subject.NoSelfReads) :
    OccurrencesClosed r.pattern subject r.px r.po := by
  intro A occ B m h1 h2
  refine ⟨?_, ?_⟩
  · intro e' he' v hv hne
    rw [he, List.mem_singleton] at he'
    subst he'
    rw [ho, List.mem_singleton] at hv
    exact absurd hv hne
  · rintro ⟨o, ho', hw⟩
    have hsame := h2.same
    unfold jaxprToGraph at hsame
    simp only [he, List.map_cons, List.map_nil] at hsame
    obtain ⟨e', he', hpx⟩ := hr.rule.used
    rw [he, List.mem_singleton] at he'
    subst he'
    rcases hsame with _ | ⟨k, k0⟩
    cases k0
    rw [List.mem_singleton] at ho'
    subst ho'
    refine hs o (by rw [h1]; simp) _ hw ?_
    rw [← k.2.1]
    exact List.mem_map_of_mem (List.mem_map.2 ⟨_, hpx, rfl⟩)

theorem single_noSelfReads {r : PRule C P} {e : Eqn C P} (he : r.pattern.eqns = [e]) (ho : e.outvars = [r.po])
    (hpx : Atom.var r.px ∈ e.invars) {subject j' : Jaxpr C P} {g' : JGraph C P} {n : ℕ}
    (h : GE.replace eqDataEq canBind (jaxprToGraph r.pattern).operations
        [⟨⟨r.name, r.params⟩, [varVertex 0 r.px], [varVertex 0 r.po]⟩] (jaxprToGraph subject) n = some g')
    (hj : jaxprToGraph j' = g') (hs : subject.NoSelfReads) : j'.NoSelfReads := by
  unfold GE.replace at h
  obtain ⟨ops, hl, rfl⟩ := Option.map_eq_some_iff.1 h
  intro o hoo u hu hu'
  rw [hj] at hoo
  rcases loop_ops _ _ _ _ hl o hoo with h' | h' | ⟨m, occ, k1, k2, o', k3, rfl⟩
  · cases h'
  · exact hs o h' u hu hu'
  · rw [List.mem_singleton] at k3
    subst k3
    obtain ⟨m1, -, -⟩ := GE.C36_match_sound k2
    have hsame := m1.same
    unfold jaxprToGraph at hsame
    simp only [he, List.map_cons, List.map_nil] at hsame
    rcases hsame with _ | ⟨k, k0⟩
    cases k0
    rename_i o
    have e1 : u = m.app (varVertex 0 r.po) := by simpa [GE.Op.subs] using hu
    have e2 : u = m.app (varVertex 0 r.px) := by simpa [GE.Op.subs] using hu'
    refine hs o (k1 o (by simp)) u ?_ ?_
    · rw [← k.2.2, e1]
      exact List.mem_map_of_mem (by simp [eqnOp, ho])
    · rw [← k.2.1, e2]
      exact List.mem_map_of_mem (List.mem_map.2 ⟨_, hpx, rfl⟩)

end JE

namespace JB
open JE (PRule SameInterface Meaning OccurrencesClosed)
variable {C P K : Type} [DecidableEq C] [DecidableEq P]

/-- `C56_rewrite` for meanings that respect the equality of parameters with the property `G`. -/
theorem rewrite_on {α : Type} {G : List (String × JE.Param C P) → Prop} {𝓜 : Meaning C P α} (hresp : 𝓜.RespectsOn G)
    (fresh : ℕ) :
    ∀ {rules : List (PRule C P)} {subject : JE.Jaxpr C P}, (∀ r ∈ rules, r.Ok 𝓜) → (∀ r ∈ rules, r.ParamsIn G) →
    subject.ParamsIn G → subject.SSA →
    subject.CountsIdentify → subject.DropsUnused → RewriteOk fresh rules subject →
    ∃ j', rewriteJaxpr fresh (rules.map PRule.pair) subject = some (.ok j') ∧ SameInterface subject j' ∧
      ∀ consts xs ys, 𝓜.eval subject consts xs = some ys → 𝓜.eval j' consts xs = some ys
  | [], subject, _, _, _, h1, h2, h3, _ => ⟨subject, rfl, ⟨h2, h1, h3, rfl, rfl, rfl⟩, fun _ _ _ h => h⟩
  | r :: rules, subject, hr, hrG, hsG, h1, h2, h3, hok => by
    obtain ⟨-, j1, -, -, k1, k2, kG, k3⟩ := JE.rule_step_on hresp (hr r List.mem_cons_self)
      (hrG r List.mem_cons_self) hsG h1 h2 h3 hok.1 fresh
    obtain ⟨j', k4, k5, k6⟩ := rewrite_on hresp fresh (rules := rules) (subject := j1)
      (fun r' h => hr r' (List.mem_cons_of_mem _ h)) (fun r' h => hrG r' (List.mem_cons_of_mem _ h)) kG
      k2.ssa k2.counts k2.drops (hok.2 j1 k1)
    refine ⟨j', ?_, ⟨k5.counts, k5.ssa, k5.drops, k5.invars.trans k2.invars, k5.outvars.trans k2.outvars,
      k5.constvars.trans k2.constvars⟩, fun consts xs ys h => k6 _ _ _ (k3 _ _ _ h)⟩
    rw [List.map_cons]
    unfold PRule.pair rewriteJaxpr
    replace k1 : JE.replace r.pattern (JE.primitiveJaxpr r.rx r.ry r.name r.params) subject fresh
      (subject.eqns.length + 1) = some (.ok j1) := k1
    rw [k1]
    exact k4

/-- **C56 (rewriting).** Applying all rules returns a Jaxpr that computes the same function. -/
theorem C56_rewrite {α : Type} {𝓜 : Meaning C P α} (hresp : 𝓜.Respects) (fresh : ℕ)
    {rules : List (PRule C P)} {subject : JE.Jaxpr C P} (hr : ∀ r ∈ rules, r.Ok 𝓜) (h1 : subject.SSA)
    (h2 : subject.CountsIdentify) (h3 : subject.DropsUnused) (hok : RewriteOk fresh rules subject) :
    ∃ j', rewriteJaxpr fresh (rules.map PRule.pair) subject = some (.ok j') ∧ SameInterface subject j' ∧
      ∀ consts xs ys, 𝓜.eval subject consts xs = some ys → 𝓜.eval j' consts xs = some ys :=
  rewrite_on (hresp.on fun _ => True) fresh hr (fun _ _ => ⟨fun _ _ => trivial, trivial⟩) (fun _ _ => trivial)
    h1 h2 h3 hok

/-- Rules whose pattern is one equation (such as `jit`) with one result: the condition on occurrences holds for all
well-formed Jaxprs. -/
theorem C56_single {α : Type} {𝓜 : Meaning C P α} (fresh : ℕ) :
    ∀ {rules : List (PRule C P)} {subject : JE.Jaxpr C P}, (∀ r ∈ rules, r.Ok 𝓜) →
    (∀ r ∈ rules, ∃ e, r.pattern.eqns = [e] ∧ e.outvars = [r.po]) → subject.SSA →
    subject.CountsIdentify → subject.DropsUnused → subject.NoSelfReads → RewriteOk fresh rules subject
  | [], _, _, _, _, _, _, _ => trivial
  | r :: rules, subject, hr, h1, hssa, hc, hd, hns => by
    obtain ⟨e, he, ho⟩ := h1 r List.mem_cons_self
    have hok := hr r List.mem_cons_self
    have hcl := JE.single_closed hok he ho hns
    refine ⟨hcl, fun j' hj' => ?_⟩
    obtain ⟨g', j1, k1, k2, k3, k4⟩ := JE.rule_step_any hok hssa hc hd hcl fresh
    rw [k3] at hj'
    cases hj'
    refine C56_single fresh (fun r' h => hr r' (List.mem_cons_of_mem _ h))
      (fun r' h => h1 r' (List.mem_cons_of_mem _ h)) k4.ssa k4.counts k4.drops ?_
    refine JE.single_noSelfReads he ho ?_ k1 k2 hns
    obtain ⟨e', he', hpx⟩ := hok.rule.used
    rw [he, List.mem_singleton] at he'
    exact he' ▸ hpx

variable [Field K] [LinearOrder K] [IsStrictOrderedRing K]

/-- `C56_pipeline` for meanings that respect the equality of parameters with the property `G`. -/
theorem pipeline_on {G : List (String × JE.Param C P) → Prop} {lib : Lib K} {sem : Sem K} (hlib : LibSound lib sem) {D : Decode C P K}
    (hresp : (D.meaning sem).RespectsOn G) {rules : List (PRule C P)} (hrules : ∀ r ∈ rules, r.Ok (D.meaning sem))
    {fresh : ℕ} {subject : JE.Jaxpr C P} {consts : List (ND K)} (hsub : SubjectOk subject consts)
    (hrG : ∀ r ∈ rules, r.ParamsIn G) (hsG : subject.ParamsIn G) (hok : RewriteOk fresh rules subject)
    {maxDegree : ℤ} {propagate : Bool} {x0 lo hi x y0 y : ND K} {bnd : Bounds K}
    (hlh : lo.shape = hi.shape) (h0 : (Coef.ivl lo hi).Contains x0) (hx : (Coef.ivl lo hi).Contains x)
    (hb : taylorBoundsOf lib D fresh (rules.map PRule.pair) subject consts maxDegree propagate x0 lo hi = some (.ok bnd))
    (hfit : ∀ j', rewriteJaxpr fresh (rules.map PRule.pair) subject = some (.ok j') →
      ProgramFits sem (D.jaxpr j') consts x0 ∧
      ∀ x vals, (Coef.ivl lo hi).Contains x → evalEnv sem (D.jaxpr j') consts x = .ok vals → NonEmptyVals vals)
    (hy0 : evalJaxpr sem (D.jaxpr subject) consts x0 = .ok y0)
    (hy : evalJaxpr sem (D.jaxpr subject) consts x = .ok y) :
    ∃ l u, bnd.lower x = .ok l ∧ bnd.upper x = .ok u ∧ l.shape = y.shape ∧ u.shape = y.shape ∧
      ∀ I, ValidIdx y.shape I → l.get I ≤ y.get I ∧ y.get I ≤ u.get I := by
  obtain ⟨j', k1, k2, k3⟩ := rewrite_on hresp fresh hrules hrG hsG hsub.ssa hsub.counts hsub.drops hok
  obtain ⟨f1, f2⟩ := hfit j' k1
  unfold taylorBoundsOf at hb
  rw [k1] at hb
  simp only [Option.some.injEq] at hb
  obtain ⟨vx, hi1⟩ := List.length_eq_one_iff.1 hsub.invars
  obtain ⟨a, ho1⟩ := List.length_eq_one_iff.1 hsub.outvars
  obtain ⟨vx', hi2⟩ := List.length_eq_one_iff.1 (k2.invars.trans hsub.invars)
  obtain ⟨a', ho2⟩ := List.length_eq_one_iff.1 (k2.outvars.trans hsub.outvars)
  have nod : ∀ {j : JE.Jaxpr C P}, j.SSA → j.constvars.Nodup := fun h =>
    (List.nodup_append.1 (List.nodup_append.1 h).1).1
  have transfer : ∀ {x y : ND K}, evalJaxpr sem (D.jaxpr subject) consts x = .ok y →
      ∃ y', evalJaxpr sem (D.jaxpr j') consts x = .ok y' ∧ y'.canon = y.canon := by
    intro x y h
    have h1 := (decode_eval (D := D) (sem := sem) hsub.counts hsub.drops (nod hsub.ssa) hsub.consts hi1 ho1 x).2 y h
    exact (decode_eval (D := D) (sem := sem) k2.counts k2.drops (nod k2.ssa) (hsub.consts.trans k2.constvars.symm)
      hi2 ho2 x).1 _ (k3 _ _ _ h1)
  have env : ∀ {x y : ND K}, evalJaxpr sem (D.jaxpr j') consts x = .ok y →
      ∃ vals, evalEnv sem (D.jaxpr j') consts x = .ok vals := by
    intro x y h
    unfold evalJaxpr at h
    obtain ⟨v, hv, -⟩ := py_bind_ok.1 h
    exact ⟨v, hv⟩
  obtain ⟨y0', z1, -⟩ := transfer hy0
  obtain ⟨y', z2, z3⟩ := transfer hy
  obtain ⟨vals0, hev0⟩ := env z1
  obtain ⟨vals, hev⟩ := env z2
  obtain ⟨l, u, r1, r2, r3, r4, r5⟩ := (C42_static hlib hlh h0 hx hb f1 hev0 (f2 _ _ h0 hev0) hev (f2 _ _ hx hev) z2).2
  have hsh : y'.shape = y.shape := by rw [← ND.canon_shape y', z3, ND.canon_shape]
  refine ⟨l, u, r1, r2, r3.trans hsh, r4.trans hsh, fun I hI => ?_⟩
  have hg : y'.get I = y.get I := by rw [← ND.canon_get y' (hsh ▸ hI), z3, ND.canon_get y hI]
  rw [← hg]
  exact r5 I (hsh ▸ hI)

/-- **C56.** Let the rules replace patterns by primitives that compute the same functions, with the occurrences of
the patterns in the Jaxpr of `f` closed.  If `taylor_bounds` returns bounds, they were computed from a rewritten Jaxpr
`j'`, and if that fits (`ProgramFits`) they hold for `f`: the value `y` of the Jaxpr of `f`, as it was before
rewriting, at every `x` in the trust region. -/
theorem C56_pipeline {lib : Lib K} {sem : Sem K} (hlib : LibSound lib sem) {D : Decode C P K}
    (hresp : (D.meaning sem).Respects) {rules : List (PRule C P)} (hrules : ∀ r ∈ rules, r.Ok (D.meaning sem))
    {fresh : ℕ} {subject : JE.Jaxpr C P} {consts : List (ND K)} (hsub : SubjectOk subject consts)
    (hok : RewriteOk fresh rules subject)
    {maxDegree : ℤ} {propagate : Bool} {x0 lo hi x y0 y : ND K} {bnd : Bounds K}
    (hlh : lo.shape = hi.shape) (h0 : (Coef.ivl lo hi).Contains x0) (hx : (Coef.ivl lo hi).Contains x)
    (hb : taylorBoundsOf lib D fresh (rules.map PRule.pair) subject consts maxDegree propagate x0 lo hi = some (.ok bnd))
    (hfit : ∀ j', rewriteJaxpr fresh (rules.map PRule.pair) subject = some (.ok j') →
      ProgramFits sem (D.jaxpr j') consts x0 ∧
      ∀ x vals, (Coef.ivl lo hi).Contains x → evalEnv sem (D.jaxpr j') consts x = .ok vals → NonEmptyVals vals)
    (hy0 : evalJaxpr sem (D.jaxpr subject) consts x0 = .ok y0)
    (hy : evalJaxpr sem (D.jaxpr subject) consts x = .ok y) :
    ∃ l u, bnd.lower x = .ok l ∧ bnd.upper x = .ok u ∧ l.shape = y.shape ∧ u.shape = y.shape ∧
      ∀ I, ValidIdx y.shape I → l.get I ≤ y.get I ∧ y.get I ≤ u.get I :=
  pipeline_on hlib (hresp.on fun _ => True) hrules hsub (fun _ _ => ⟨fun _ _ => trivial, trivial⟩) (fun _ _ => trivial)
    hok hlh h0 hx hb hfit hy0 hy

/-- **C56 (single-equation patterns).** For rules whose pattern is one equation with one result, such as those
registered for `jit`-ed functions, no condition on occurrences is needed. -/
theorem C56_pipeline_single {lib : Lib K} {sem : Sem K} (hlib : LibSound lib sem) {D : Decode C P K}
    (hresp : (D.meaning sem).Respects) {rules : List (PRule C P)} (hrules : ∀ r ∈ rules, r.Ok (D.meaning sem))
    (hsingle : ∀ r ∈ rules, ∃ e, r.pattern.eqns = [e] ∧ e.outvars = [r.po])
    {fresh : ℕ} {subject : JE.Jaxpr C P} {consts : List (ND K)} (hsub : SubjectOk subject consts)
    {maxDegree : ℤ} {propagate : Bool} {x0 lo hi x y0 y : ND K} {bnd : Bounds K}
    (hlh : lo.shape = hi.shape) (h0 : (Coef.ivl lo hi).Contains x0) (hx : (Coef.ivl lo hi).Contains x)
    (hb : taylorBoundsOf lib D fresh (rules.map PRule.pair) subject consts maxDegree propagate x0 lo hi = some (.ok bnd))
    (hfit : ∀ j', rewriteJaxpr fresh (rules.map PRule.pair) subject = some (.ok j') →
      ProgramFits sem (D.jaxpr j') consts x0 ∧
      ∀ x vals, (Coef.ivl lo hi).Contains x → evalEnv sem (D.jaxpr j') consts x = .ok vals → NonEmptyVals vals)
    (hy0 : evalJaxpr sem (D.jaxpr subject) consts x0 = .ok y0)
    (hy : evalJaxpr sem (D.jaxpr subject) consts x = .ok y) :
    ∃ l u, bnd.lower x = .ok l ∧ bnd.upper x = .ok u ∧ l.shape = y.shape ∧ u.shape = y.shape ∧
      ∀ I, ValidIdx y.shape I → l.get I ≤ y.get I ∧ y.get I ≤ u.get I :=
  C56_pipeline hlib hresp hrules hsub
    (C56_single fresh hrules hsingle hsub.ssa hsub.counts hsub.drops
      (JE.noSelfReads_of hsub.counts hsub.ssa hsub.wellScoped)) hlh h0 hx hb hfit hy0 hy

end JB
end AB
