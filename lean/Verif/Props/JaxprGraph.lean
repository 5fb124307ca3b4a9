/-
C40: converting a Jaxpr to a computation graph and back (/repo/autobound/jax/jaxpr_editor.py:124-199).
-/
import Verif.Props.Jaxpr

set_option linter.unusedSectionVars false

namespace AB
namespace JE
variable {C P α : Type} [DecidableEq C] [DecidableEq P]

/-! ### `count_to_var` -/

theorem ilookup_cons {β : Type} {c c' : ℤ} {a : β} {m : List (ℤ × β)} :
    ((c', a) :: m).lookup c = if c = c' then some a else m.lookup c := by
  rw [List.lookup_cons]
  by_cases h : c = c'
  · subst h; simp
  · have : (c == c') = false := by simpa using h
    rw [this, if_neg h]

/-- the dict only contains variables created for vertices `U` -/
structure MapOk (fresh : ℕ) (U : List (Vertex C)) (m : CountMap) : Prop where
  entry : ∀ c v, m.lookup c = some v → v.count = c ∧ v.uid < fresh + m.length ∧ Vertex.var c v.aval ∈ U
  inj : ∀ c c' v, m.lookup c = some v → m.lookup c' = some v → c = c'

def CSub (m m' : CountMap) : Prop := ∀ c v, m.lookup c = some v → m'.lookup c = some v

theorem CSub.trans {m1 m2 m3 : CountMap} (h : CSub m1 m2) (h' : CSub m2 m3) : CSub m1 m3 :=
  fun c v e => h' c v (h c v e)

/-- the counts of a list of vertices are in the dict -/
def Covers (m : CountMap) (us : List (Vertex C)) : Prop :=
  ∀ c a, Vertex.var c a ∈ us → m.lookup c ≠ none

theorem Covers.mono {m m' : CountMap} {us : List (Vertex C)} (h : Covers m us) (hs : CSub m m') : Covers m' us := by
  intro c a hc
  cases hl : m.lookup c with
  | none => exact absurd hl (h c a hc)
  | some v => rw [hs c v hl]; simp

/-- the atom for a vertex, given the final dict -/
def resolve (m : CountMap) : Vertex C → Atom C
  | .var c a => .var ((m.lookup c).getD ⟨0, c, a⟩)
  | .lit v a => .lit ⟨v, a⟩

theorem resolve_mono {m m' : CountMap} {us : List (Vertex C)} (h : Covers m us) (hs : CSub m m') :
    us.map (resolve m) = us.map (resolve m') := by
  apply List.map_congr_left
  intro u hu
  cases u with
  | lit _ _ => rfl
  | var c a =>
    cases hl : m.lookup c with
    | none => exact absurd hl (h c a hu)
    | some v => simp only [resolve, hl, hs c v hl]

theorem toAtom_spec {fresh : ℕ} {U : List (Vertex C)} {m m' : CountMap} {u : Vertex C} {a : Atom C}
    (h : toAtom fresh m u = (a, m')) (hm : MapOk fresh U m) (hu : u ∈ U) :
    MapOk fresh U m' ∧ CSub m m' ∧ a = resolve m' u ∧ Covers m' [u] := by
  unfold toAtom at h
  cases u with
  | lit v av =>
    cases h
    refine ⟨hm, fun _ _ h => h, rfl, ?_⟩
    intro c a hc
    simp at hc
  | var c av =>
    simp only at h
    cases hl : m.lookup c with
    | some v =>
      rw [hl] at h
      cases h
      refine ⟨hm, fun _ _ h => h, by simp [resolve, hl], ?_⟩
      intro c' a hc
      simp only [List.mem_singleton, Vertex.var.injEq] at hc
      rw [hc.1, hl]; simp
    | none =>
      rw [hl] at h
      cases h
      refine ⟨⟨?_, ?_⟩, ?_, ?_, ?_⟩
      · intro c' v hv
        rw [ilookup_cons] at hv
        by_cases hc : c' = c
        · subst hc
          rw [if_pos rfl] at hv
          cases hv
          exact ⟨rfl, by simp, hu⟩
        · rw [if_neg hc] at hv
          obtain ⟨k1, k2, k3⟩ := hm.entry c' v hv
          exact ⟨k1, by simp only [List.length_cons]; omega, k3⟩
      · intro c1 c2 v h1 h2
        rw [ilookup_cons] at h1 h2
        by_cases e1 : c1 = c <;> by_cases e2 : c2 = c
        · rw [e1, e2]
        · subst e1
          rw [if_pos rfl] at h1
          rw [if_neg e2] at h2
          cases h1
          obtain ⟨-, k2, -⟩ := hm.entry c2 _ h2
          simp at k2
        · subst e2
          rw [if_pos rfl] at h2
          rw [if_neg e1] at h1
          cases h2
          obtain ⟨-, k2, -⟩ := hm.entry c1 _ h1
          simp at k2
        · rw [if_neg e1] at h1
          rw [if_neg e2] at h2
          exact hm.inj _ _ _ h1 h2
      · intro c' v hv
        rw [ilookup_cons]
        by_cases hc : c' = c
        · subst hc; rw [hl] at hv; cases hv
        · rw [if_neg hc]; exact hv
      · simp [resolve]
      · intro c' a hc
        simp only [List.mem_singleton, Vertex.var.injEq] at hc
        rw [hc.1, ilookup_cons, if_pos rfl]; simp

theorem toAtoms_spec {fresh : ℕ} {U : List (Vertex C)} : ∀ {us : List (Vertex C)} {m m' : CountMap}
    {as : List (Atom C)}, toAtoms fresh m us = (as, m') → MapOk fresh U m → (∀ u ∈ us, u ∈ U) →
    MapOk fresh U m' ∧ CSub m m' ∧ as = us.map (resolve m') ∧ Covers m' us := by
  intro us
  induction us with
  | nil =>
    intro m m' as h hm _
    cases h
    exact ⟨hm, fun _ _ h => h, rfl, fun c a h => absurd h List.not_mem_nil⟩
  | cons u us ih =>
    intro m m' as h hm hu
    unfold toAtoms at h
    cases h1 : toAtom fresh m u with
    | mk a m1 =>
      cases h2 : toAtoms fresh m1 us with
      | mk as' m2 =>
        rw [h1] at h
        simp only [h2] at h
        cases h
        obtain ⟨s1, s2, s3, s4⟩ := toAtom_spec h1 hm (hu u (by simp))
        obtain ⟨t1, t2, t3, t4⟩ := ih h2 s1 fun w hw => hu w (by simp [hw])
        refine ⟨t1, s2.trans t2, ?_, ?_⟩
        · rw [List.map_cons, ← t3, s3]
          have := resolve_mono s4 t2
          simp only [List.map_cons, List.map_nil, List.cons.injEq, and_true] at this
          rw [this]
        · intro c a hc
          rcases List.mem_cons.1 hc with e | hc
          · exact s4.mono t2 c a (by rw [e]; simp)
          · exact t4 c a hc

/-- a vertex that stands for a variable -/
def Vertex.IsVar : Vertex C → Prop
  | .var _ _ => True
  | .lit _ _ => False

def resolveVar (m : CountMap) : Vertex C → Var
  | .var c a => (m.lookup c).getD ⟨0, c, a⟩
  | .lit _ a => ⟨0, 0, a⟩

theorem onlyVars_spec {m : CountMap} {us : List (Vertex C)} (h : ∀ u ∈ us, u.IsVar) :
    onlyVars (us.map (resolve m)) = .ok (us.map (resolveVar m)) := by
  induction us with
  | nil => rfl
  | cons u us ih =>
    cases u with
    | lit _ _ => exact (h _ List.mem_cons_self).elim
    | var c a =>
      simp only [List.map_cons, resolve, onlyVars, ih fun u hu => h u (by simp [hu]), py_ok_bind]
      rfl

/-- the equation for an operation -/
def resolveEqn (m : CountMap) (o : GE.Op (Vertex C) (EqnData C P)) : Eqn C P :=
  .mk o.data.primitive (o.inputs.map (resolve m)) (o.outputs.map (resolveVar m)) o.data.params

theorem resolveVar_mono {m m' : CountMap} {us : List (Vertex C)} (h : Covers m us) (hs : CSub m m') :
    us.map (resolveVar m) = us.map (resolveVar m') := by
  apply List.map_congr_left
  intro u hu
  cases u with
  | lit _ _ => rfl
  | var c a =>
    cases hl : m.lookup c with
    | none => exact absurd hl (h c a hu)
    | some v => simp only [resolveVar, hl, hs c v hl]

def opsVertices (os : List (GE.Op (Vertex C) (EqnData C P))) : List (Vertex C) :=
  os.flatMap fun o => o.inputs ++ o.outputs

theorem toEqns_spec {fresh : ℕ} {U : List (Vertex C)} : ∀ {os : List (GE.Op (Vertex C) (EqnData C P))}
    {m : CountMap}, MapOk fresh U m → (∀ u ∈ opsVertices os, u ∈ U) → (∀ o ∈ os, ∀ u ∈ o.outputs, u.IsVar) →
    ∃ m', toEqns fresh m os = .ok (os.map (resolveEqn m'), m') ∧ MapOk fresh U m' ∧ CSub m m' ∧
      Covers m' (opsVertices os) := by
  intro os
  induction os with
  | nil =>
    intro m hm _ _
    exact ⟨m, rfl, hm, fun _ _ h => h, fun c a h => absurd h List.not_mem_nil⟩
  | cons o os ih =>
    intro m hm hu hv
    unfold opsVertices at hu
    rw [List.flatMap_cons] at hu
    cases h1 : toAtoms fresh m o.inputs with
    | mk ins m1 =>
      cases h2 : toAtoms fresh m1 o.outputs with
      | mk outs m2 =>
        obtain ⟨s1, s2, s3, s4⟩ := toAtoms_spec (U := U) h1 hm fun u h => hu u (by simp [h])
        obtain ⟨t1, t2, t3, t4⟩ := toAtoms_spec (U := U) h2 s1 fun u h => hu u (by simp [h])
        obtain ⟨m3, r1, r2, r3, r4⟩ := ih t1 (fun u h => hu u (List.mem_append_right _ h))
          fun o' ho' => hv o' (by simp [ho'])
        refine ⟨m3, ?_, r2, (s2.trans t2).trans r3, ?_⟩
        · unfold toEqns
          rw [h1]
          simp only [h2]
          rw [t3, onlyVars_spec (hv o (by simp))]
          simp only [py_ok_bind, r1]
          rw [s3, resolve_mono s4 (t2.trans r3), resolveVar_mono t4 r3]
          rfl
        · intro c a hc
          unfold opsVertices at hc
          rw [List.flatMap_cons] at hc
          simp only [List.mem_append] at hc
          rcases hc with (hc | hc) | hc
          · exact s4.mono (t2.trans r3) c a hc
          · exact t4.mono r3 c a hc
          · exact r4 c a hc

/-- all vertices of a graph -/
def graphVertices (g : JGraph C P) : List (Vertex C) := opsVertices g.operations ++ g.inputs ++ g.outputs ++ g.data

/-- only variables are written, are inputs or constants -/
structure GraphOk (g : JGraph C P) : Prop where
  written : ∀ o ∈ g.operations, ∀ u ∈ o.outputs, u.IsVar
  inputs : ∀ u ∈ g.inputs, u.IsVar
  consts : ∀ u ∈ g.data, u.IsVar

theorem graphToJaxpr_spec (fresh : ℕ) {g : JGraph C P} (hg : GraphOk g) :
    ∃ m, MapOk fresh (graphVertices g) m ∧ Covers m (graphVertices g) ∧
      graphToJaxpr fresh g = .ok (.mk (g.data.map (resolveVar m)) (g.inputs.map (resolveVar m))
        (g.outputs.map (resolve m)) (g.operations.map (resolveEqn m))) := by
  obtain ⟨m, h1, h2, h3, h4⟩ := toEqns_spec (fresh := fresh) (U := graphVertices g) (os := g.operations) (m := [])
    ⟨(fun c v h => by cases h), (fun c c' v h => by cases h)⟩
    (fun u hu => by unfold graphVertices; simp [hu]) hg.written
  cases e1 : toAtoms fresh m g.inputs with
  | mk ins m1 =>
    cases e2 : toAtoms fresh m1 g.outputs with
    | mk outs m2 =>
      cases e3 : toAtoms fresh m2 g.data with
      | mk cs m3 =>
        obtain ⟨s1, s2, s3, s4⟩ := toAtoms_spec (U := graphVertices g) e1 h2 fun u h => by
          unfold graphVertices; simp [h]
        obtain ⟨t1, t2, t3, t4⟩ := toAtoms_spec (U := graphVertices g) e2 s1 fun u h => by
          unfold graphVertices; simp [h]
        obtain ⟨r1, r2, r3, r4⟩ := toAtoms_spec (U := graphVertices g) e3 t1 fun u h => by
          unfold graphVertices; simp [h]
        refine ⟨m3, r1, ?_, ?_⟩
        · intro c a hc
          unfold graphVertices at hc
          simp only [List.mem_append] at hc
          rcases hc with ((hc | hc) | hc) | hc
          · exact h4.mono ((s2.trans t2).trans r2) c a hc
          · exact s4.mono (t2.trans r2) c a hc
          · exact t4.mono r2 c a hc
          · exact r4 c a hc
        · unfold graphToJaxpr
          simp only [h1, py_ok_bind, e1, e2, e3]
          rw [r3, s3, t3, onlyVars_spec hg.consts, resolve_mono s4 (t2.trans r2), resolve_mono t4 r2,
            onlyVars_spec hg.inputs]
          have he : g.operations.map (resolveEqn m) = g.operations.map (resolveEqn m3) := by
            apply List.map_congr_left
            intro o ho
            unfold resolveEqn
            have hc : ∀ us : List (Vertex C), (∀ u ∈ us, u ∈ opsVertices g.operations) → Covers m us :=
              fun us hus c a hc => h4 c a (hus _ hc)
            rw [resolve_mono (hc _ fun u hu => List.mem_flatMap.2 ⟨o, ho, by simp [hu]⟩) ((s2.trans t2).trans r2),
              resolveVar_mono (hc _ fun u hu => List.mem_flatMap.2 ⟨o, ho, by simp [hu]⟩) ((s2.trans t2).trans r2)]
          rw [he]
          rfl

/-! ### the round trips -/

theorem isVar_vars (k : ℤ) (l : List Var) : ∀ u ∈ l.map (varVertex (C := C) k), u.IsVar := by
  intro u hu
  obtain ⟨v, -, rfl⟩ := List.mem_map.1 hu
  trivial

theorem jaxprGraph_ok (j : Jaxpr C P) (k : ℤ) : GraphOk (jaxprToGraph j k) where
  written := by
    intro o ho
    obtain ⟨e, -, rfl⟩ := List.mem_map.1 ho
    exact isVar_vars k _
  inputs := isVar_vars k _
  consts := isVar_vars k _

theorem mem_graphVertices {j : Jaxpr C P} {k : ℤ} {c : ℤ} {a : Aval} :
    Vertex.var c a ∈ graphVertices (jaxprToGraph j k) ↔ ∃ v ∈ j.vars, v.count + k = c ∧ v.aval = a := by
  have hv : ∀ l : List Var, Vertex.var c a ∈ l.map (varVertex (C := C) k) ↔ ∃ v ∈ l, v.count + k = c ∧ v.aval = a := by
    intro l
    rw [List.mem_map]
    constructor
    · rintro ⟨v, hv, e⟩
      unfold varVertex at e
      cases e
      exact ⟨v, hv, rfl, rfl⟩
    · rintro ⟨v, hv, rfl, rfl⟩
      exact ⟨v, hv, rfl⟩
  have ha : ∀ l : List (Atom C), Vertex.var c a ∈ l.map (atomVertex k) ↔
      ∃ v ∈ atomVars l, v.count + k = c ∧ v.aval = a := by
    intro l
    rw [List.mem_map]
    constructor
    · rintro ⟨b, hb, e⟩
      cases b with
      | lit _ => cases e
      | var v =>
        unfold atomVertex varVertex at e
        cases e
        exact ⟨v, mem_atomVars.2 hb, rfl, rfl⟩
    · rintro ⟨v, hv', rfl, rfl⟩
      exact ⟨.var v, mem_atomVars.1 hv', rfl⟩
  have he : Vertex.var c a ∈ opsVertices (j.eqns.map (eqnOp k)) ↔
      ∃ v ∈ eqnsVars j.eqns, v.count + k = c ∧ v.aval = a := by
    unfold opsVertices eqnsVars
    rw [List.flatMap_map]
    simp only [List.mem_flatMap, eqnOp, List.mem_append, ha, hv]
    constructor
    · rintro ⟨e, h1, ⟨v, h2, h3⟩ | ⟨v, h2, h3⟩⟩
      · exact ⟨v, ⟨e, h1, Or.inl h2⟩, h3⟩
      · exact ⟨v, ⟨e, h1, Or.inr h2⟩, h3⟩
    · rintro ⟨v, ⟨e, h1, h2 | h2⟩, h3⟩
      · exact ⟨e, h1, Or.inl ⟨v, h2, h3⟩⟩
      · exact ⟨e, h1, Or.inr ⟨v, h2, h3⟩⟩
  unfold graphVertices jaxprToGraph Jaxpr.vars
  simp only [List.mem_append, he, hv, ha]
  constructor
  · rintro (((⟨v, h, e⟩ | ⟨v, h, e⟩) | ⟨v, h, e⟩) | ⟨v, h, e⟩)
    · exact ⟨v, Or.inr h, e⟩
    · exact ⟨v, Or.inl (Or.inl (Or.inr h)), e⟩
    · exact ⟨v, Or.inl (Or.inr h), e⟩
    · exact ⟨v, Or.inl (Or.inl (Or.inl h)), e⟩
  · rintro ⟨v, ((h | h) | h) | h, e⟩
    · exact Or.inr ⟨v, h, e⟩
    · exact Or.inl (Or.inl (Or.inr ⟨v, h, e⟩))
    · exact Or.inl (Or.inr ⟨v, h, e⟩)
    · exact Or.inl (Or.inl (Or.inl ⟨v, h, e⟩))

/-- **C40 (Jaxpr → graph → Jaxpr).** Converting a Jaxpr to a graph (with any offset) and back succeeds and gives
the same Jaxpr with its variables renamed: every count is increased by the offset, variables are identified iff
they have the same count, and a variable keeps its abstract value if all variables with its count have the
same one. -/
theorem C40_jaxpr_graph_jaxpr (j : Jaxpr C P) (offset : ℤ) (fresh : ℕ) :
    ∃ σ : Var → Var, graphToJaxpr fresh (jaxprToGraph j offset) = .ok (j.rename σ) ∧
      ∀ v ∈ j.vars, (σ v).count = v.count + offset ∧
        (∀ u ∈ j.vars, σ u = σ v ↔ u.count = v.count) ∧
        ((∀ u ∈ j.vars, u.count = v.count → u.aval = v.aval) → (σ v).aval = v.aval) := by
  obtain ⟨m, h1, h2, h3⟩ := graphToJaxpr_spec fresh (jaxprGraph_ok j offset)
  let σ : Var → Var := fun v => resolveVar (C := C) m (varVertex offset v)
  have hσ : ∀ l : List Var, (l.map (varVertex (C := C) offset)).map (resolveVar m) = l.map σ := by
    intro l; rw [List.map_map]; rfl
  have ha : ∀ l : List (Atom C), (l.map (atomVertex offset)).map (resolve m) = l.map (Atom.rename σ) := by
    intro l
    rw [List.map_map]
    apply List.map_congr_left
    intro a _
    cases a <;> rfl
  have hlook : ∀ v ∈ j.vars, ∃ w, m.lookup (v.count + offset) = some w ∧ σ v = w := by
    intro v hv
    have := h2 (v.count + offset) v.aval (mem_graphVertices.2 ⟨v, hv, rfl, rfl⟩)
    cases hl : m.lookup (v.count + offset) with
    | none => exact absurd hl this
    | some w =>
      refine ⟨w, rfl, ?_⟩
      show (m.lookup (v.count + offset)).getD _ = w
      rw [hl]; rfl
  refine ⟨σ, ?_, fun v hv => ?_⟩
  · rw [h3]
    congr 1
    unfold jaxprToGraph Jaxpr.rename
    simp only [hσ, ha]
    congr 1
    rw [List.map_map]
    apply List.map_congr_left
    intro e _
    show resolveEqn m (eqnOp offset e) = e.rename σ
    unfold resolveEqn eqnOp Eqn.rename
    simp only [hσ, ha]
  · obtain ⟨w, hw, e⟩ := hlook v hv
    obtain ⟨k1, k2, k3⟩ := h1.entry _ _ hw
    refine ⟨by rw [e, k1], fun u hu => ?_, fun hc => ?_⟩
    · obtain ⟨w', hw', e'⟩ := hlook u hu
      rw [e, e']
      constructor
      · rintro rfl
        have := h1.inj _ _ _ hw hw'
        omega
      · intro hc
        rw [hc, hw] at hw'
        cases hw'; rfl
    · obtain ⟨u, hu, q1, q2⟩ := mem_graphVertices.1 k3
      rw [e, ← q2]
      exact hc u hu (by omega)

/-- **C40 (the usual case).** If different variables have different counts, the converted Jaxpr passes the
equality check against the original, its variables have the same counts and types, and different variables stay
different. -/
theorem C40_same_jaxpr (j : Jaxpr C P) (hd : j.DictsOk) (fresh : ℕ)
    (hc : ∀ u ∈ j.vars, ∀ v ∈ j.vars, u.count = v.count → u = v) :
    ∃ j', graphToJaxpr fresh (jaxprToGraph j) = .ok j' ∧ sameJaxpr false j j' = .ok true ∧
      ∃ σ : Var → Var, j' = j.rename σ ∧ ∀ v ∈ j.vars, (σ v).count = v.count ∧ (σ v).aval = v.aval ∧
        ∀ u ∈ j.vars, σ u = σ v → u = v := by
  obtain ⟨σ, h1, h2⟩ := C40_jaxpr_graph_jaxpr j 0 fresh
  have hav : ∀ v ∈ j.vars, (σ v).aval = v.aval := fun v hv =>
    (h2 v hv).2.2 fun u hu e => by rw [hc u hu v hv e]
  refine ⟨_, h1, C41_rename j hd false σ hav, σ, rfl, fun v hv => ⟨?_, hav v hv, fun u hu e => ?_⟩⟩
  · rw [(h2 v hv).1]; omega
  · exact hc u hu v hv (((h2 v hv).2.1 u hu).1 e)

/-- the variables of the converted Jaxpr -/
theorem resolve_vars {m : CountMap} {g : JGraph C P} (hg : GraphOk g) :
    ∀ v ∈ (Jaxpr.mk (g.data.map (resolveVar m)) (g.inputs.map (resolveVar m))
        (g.outputs.map (resolve m)) (g.operations.map (resolveEqn m))).vars,
      ∃ c a, Vertex.var c a ∈ graphVertices g ∧ v = resolveVar m (.var c a : Vertex C) := by
  have hv : ∀ l : List (Vertex C), (∀ u ∈ l, u.IsVar) → ∀ v ∈ l.map (resolveVar m), ∃ c a,
      Vertex.var c a ∈ l ∧ v = resolveVar m (.var c a : Vertex C) := by
    intro l hl v hv
    obtain ⟨u, hu, rfl⟩ := List.mem_map.1 hv
    cases u with
    | lit _ _ => exact (hl _ hu).elim
    | var c a => exact ⟨c, a, hu, rfl⟩
  have ha : ∀ l : List (Vertex C), ∀ v ∈ atomVars (l.map (resolve m)), ∃ c a,
      Vertex.var c a ∈ l ∧ v = resolveVar m (.var c a : Vertex C) := by
    intro l v hv
    rw [mem_atomVars] at hv
    obtain ⟨u, hu, e⟩ := List.mem_map.1 hv
    cases u with
    | lit _ _ => cases e
    | var c a => exact ⟨c, a, hu, by cases e; rfl⟩
  intro v hvv
  unfold Jaxpr.vars eqnsVars at hvv
  simp only [Jaxpr.constvars, Jaxpr.invars, Jaxpr.outvars, Jaxpr.eqns, List.mem_append] at hvv
  unfold graphVertices opsVertices
  rcases hvv with ((h | h) | h) | h
  · obtain ⟨c, a, k1, k2⟩ := hv _ hg.consts v h
    exact ⟨c, a, by simp [k1], k2⟩
  · obtain ⟨c, a, k1, k2⟩ := hv _ hg.inputs v h
    exact ⟨c, a, by simp [k1], k2⟩
  · obtain ⟨c, a, k1, k2⟩ := ha _ v h
    exact ⟨c, a, by simp [k1], k2⟩
  · rw [List.mem_flatMap] at h
    obtain ⟨e, he, h⟩ := h
    obtain ⟨o, ho, rfl⟩ := List.mem_map.1 he
    simp only [resolveEqn, Eqn.invars, Eqn.outvars, List.mem_append] at h
    rcases h with h | h
    · obtain ⟨c, a, k1, k2⟩ := ha _ v h
      refine ⟨c, a, ?_, k2⟩
      simp only [List.mem_append, List.mem_flatMap]
      exact Or.inl (Or.inl (Or.inl ⟨o, ho, Or.inl k1⟩))
    · obtain ⟨c, a, k1, k2⟩ := hv _ (hg.written o ho) v h
      refine ⟨c, a, ?_, k2⟩
      simp only [List.mem_append, List.mem_flatMap]
      exact Or.inl (Or.inl (Or.inl ⟨o, ho, Or.inr k1⟩))

/-- **C40 (graph → Jaxpr → graph).** For a graph in which only variables are inputs, constants or written, and
vertices with the same count have the same type, converting to a Jaxpr and back gives the same graph, and
in the Jaxpr different variables have different counts. -/
theorem C40_graph_jaxpr_graph (fresh : ℕ) {g : JGraph C P} (hg : GraphOk g)
    (hc : ∀ c a a', Vertex.var c a ∈ graphVertices g → Vertex.var c a' ∈ graphVertices g → a = a') :
    ∃ j, graphToJaxpr fresh g = .ok j ∧ jaxprToGraph j 0 = g ∧
      ∀ u ∈ j.vars, ∀ v ∈ j.vars, u.count = v.count → u = v := by
  obtain ⟨m, h1, h2, h3⟩ := graphToJaxpr_spec fresh hg
  have hvars := resolve_vars (m := m) hg
  refine ⟨_, h3, ?_, ?_⟩
  swap
  · intro u hu v hv e
    obtain ⟨c, a, k1, rfl⟩ := hvars u hu
    obtain ⟨c', a', k1', rfl⟩ := hvars v hv
    have look : ∀ c a, Vertex.var c a ∈ graphVertices g → ∃ w, m.lookup c = some w ∧ w.count = c := by
      intro c a h
      cases hl : m.lookup c with
      | none => exact absurd hl (h2 c a h)
      | some w => exact ⟨w, rfl, (h1.entry c w hl).1⟩
    obtain ⟨w, q1, q2⟩ := look c a k1
    obtain ⟨w', q1', q2'⟩ := look c' a' k1'
    simp only [resolveVar, q1, q1', Option.getD_some] at e ⊢
    have : c = c' := by rw [← q2, ← q2', e]
    subst this
    rw [q1] at q1'
    cases q1'; rfl
  have hr : ∀ u ∈ graphVertices g, atomVertex 0 (resolve m u) = u := by
    intro u hu
    cases u with
    | lit _ _ => rfl
    | var c a =>
      cases hl : m.lookup c with
      | none => exact absurd hl (h2 c a hu)
      | some v =>
        obtain ⟨k1, -, k3⟩ := h1.entry c v hl
        simp only [resolve, hl, Option.getD_some, atomVertex, varVertex, add_zero, k1]
        rw [hc c v.aval a k3 hu]
  have hv : ∀ u ∈ graphVertices g, u.IsVar → varVertex 0 (resolveVar m u) = u := by
    intro u hu hi
    cases u with
    | lit _ _ => exact hi.elim
    | var c a =>
      have := hr _ hu
      exact this
  have hr' : ∀ l : List (Vertex C), (∀ u ∈ l, u ∈ graphVertices g) → (l.map (resolve m)).map (atomVertex 0) = l := by
    intro l hl
    rw [List.map_map]
    conv_rhs => rw [← List.map_id l]
    exact List.map_congr_left fun u hu => hr u (hl u hu)
  have hv' : ∀ l : List (Vertex C), (∀ u ∈ l, u ∈ graphVertices g) → (∀ u ∈ l, u.IsVar) →
      (l.map (resolveVar m)).map (varVertex 0) = l := by
    intro l hl hi
    rw [List.map_map]
    conv_rhs => rw [← List.map_id l]
    exact List.map_congr_left fun u hu => hv u (hl u hu) (hi u hu)
  have ho : ∀ o ∈ g.operations, ∀ u ∈ o.inputs ++ o.outputs, u ∈ graphVertices g := by
    intro o ho u hu
    unfold graphVertices opsVertices
    simp only [List.mem_append, List.mem_flatMap]
    exact Or.inl (Or.inl (Or.inl ⟨o, ho, List.mem_append.1 hu⟩))
  rcases g with ⟨gi, go, gops, gd⟩
  unfold jaxprToGraph
  simp only [Jaxpr.invars, Jaxpr.outvars, Jaxpr.eqns, Jaxpr.constvars]
  rw [hv' gi (fun u hu => by unfold graphVertices; simp [hu]) hg.inputs,
    hr' go (fun u hu => by unfold graphVertices; simp [hu]),
    hv' gd (fun u hu => by unfold graphVertices; simp [hu]) hg.consts]
  congr 1
  rw [List.map_map]
  conv_rhs => rw [← List.map_id gops]
  apply List.map_congr_left
  intro o hoo
  rcases o with ⟨d, oi, oo⟩
  show eqnOp 0 (resolveEqn m _) = _
  unfold eqnOp resolveEqn
  simp only [Eqn.primitive, Eqn.params, Eqn.invars, Eqn.outvars]
  rw [hr' oi (fun u hu => ho _ hoo u (by simp [hu])),
    hv' oo (fun u hu => ho _ hoo u (by simp [hu])) (hg.written _ hoo)]
  rfl

end JE
end AB
