/-
C51: `jaxpr_editor.replace` (/repo/autobound/jax/jaxpr_editor.py:26-91) with a rule of the form used by
`_register_elementwise_function` (jax_bound.py:251-268) preserves the function a Jaxpr computes.
-/
import Verif.Props.JaxprGraph
import Verif.Props.Replace

set_option linter.unusedSectionVars false

namespace AB
namespace JE
variable {C P α : Type} [DecidableEq C] [DecidableEq P]

/-- The meaning of the vertices and operations of the graph of a Jaxpr. -/
def Meaning.toInterp (𝓜 : Meaning C P α) : GE.Interp (Vertex C) (EqnData C P) α where
  lit | .lit v _ => some (𝓜.lit v) | .var _ _ => none
  interp d xs := 𝓜.prim d.primitive d.params xs

/-- only variables satisfying `T`, or bound by an earlier equation, are read -/
def ScopedIn : (Var → Prop) → List (Eqn C P) → Prop
  | _, [] => True
  | T, q :: es => (∀ v ∈ atomVars q.invars, T v) ∧ ScopedIn (fun v => T v ∨ v ∈ q.outvars) es

theorem scopedIn_all : ∀ (es : List (Eqn C P)) (T : Var → Prop), (∀ v ∈ eqnsVars es, T v) → ScopedIn T es := by
  intro es
  induction es with
  | nil => intros; trivial
  | cons q es ih =>
    intro T h
    unfold eqnsVars at h
    rw [List.flatMap_cons] at h
    exact ⟨fun v hv => h v (by simp [hv]), ih _ fun v hv => Or.inl (h v (List.mem_append_right _ hv))⟩

theorem scopedIn_of {S : List Var} : ∀ {es : List (Eqn C P)} {o : List (Atom C)} {T : Var → Prop},
    (∀ v ∈ S, T v) → Scoped S es o → ScopedIn T es := by
  intro es
  induction es generalizing S with
  | nil => intros; trivial
  | cons q es ih =>
    intro o T h hs
    refine ⟨fun v hv => h v (hs.1 v hv), ih (S := S ++ q.outvars) ?_ hs.2⟩
    intro v hv
    rcases List.mem_append.1 hv with hv | hv
    · exact Or.inl (h v hv)
    · exact Or.inr hv

section sim
variable {𝓜 : Meaning C P α} {A : List Var}
  (hinj : ∀ u ∈ A, ∀ v ∈ A, varVertex (C := C) 0 u = varVertex 0 v → u = v)
include hinj

theorem assign_graph : ∀ {vs : List Var} {xs : List α} {e : VEnv α} {ε : GE.Env (Vertex C) α} {T : Var → Prop},
    (∀ v ∈ vs, v ∈ A) → (∀ v, T v → v ∈ A) → (∀ v, T v → e v = ε (varVertex 0 v)) →
    (GE.assign e vs xs = none ∧ GE.assign ε (vs.map (varVertex 0)) xs = none) ∨
    ∃ e1 ε1, GE.assign e vs xs = some e1 ∧ GE.assign ε (vs.map (varVertex 0)) xs = some ε1 ∧
      ∀ v, T v ∨ v ∈ vs → e1 v = ε1 (varVertex 0 v) := by
  intro vs
  induction vs with
  | nil =>
    intro xs e ε T _ _ h
    cases xs with
    | nil => exact Or.inr ⟨e, ε, rfl, rfl, fun v hv => h v (by simpa using hv)⟩
    | cons => exact Or.inl ⟨rfl, rfl⟩
  | cons w vs ih =>
    intro xs e ε T hvs hT h
    cases xs with
    | nil => exact Or.inl ⟨rfl, rfl⟩
    | cons x xs =>
      have hwA : w ∈ A := hvs w (by simp)
      rcases ih (xs := xs) (e := fun u => if u = w then some x else e u)
        (ε := fun u => if u = varVertex 0 w then some x else ε u) (T := fun v => T v ∨ v = w)
        (fun v hv => hvs v (by simp [hv])) (by
          rintro v (hv | rfl)
          · exact hT v hv
          · exact hwA) (by
          intro v hv
          have hvA : v ∈ A := by
            rcases hv with hv | rfl
            · exact hT v hv
            · exact hwA
          by_cases hvw : v = w
          · simp [hvw]
          · have hne : varVertex (C := C) 0 v ≠ varVertex 0 w := fun e => hvw (hinj v hvA w hwA e)
            simp only [if_neg hvw, if_neg hne]
            exact h v (hv.resolve_right hvw)) with ⟨h1, h2⟩ | ⟨e1, ε1, h1, h2, h3⟩
      · exact Or.inl ⟨h1, h2⟩
      · refine Or.inr ⟨e1, ε1, h1, h2, fun v hv => h3 v ?_⟩
        rcases hv with hv | hv
        · exact Or.inl (Or.inl hv)
        · rcases List.mem_cons.1 hv with rfl | hv
          · exact Or.inl (Or.inr rfl)
          · exact Or.inr hv

omit hinj in
theorem reads_graph {e : VEnv α} {ε : GE.Env (Vertex C) α} {l : List (Atom C)}
    (h : ∀ v ∈ atomVars l, e v = ε (varVertex 0 v)) :
    l.mapM (𝓜.read e) = (l.map (atomVertex 0)).mapM (𝓜.toInterp.look ε) := by
  induction l with
  | nil => rfl
  | cons a l ih =>
    rw [List.mapM_cons, List.map_cons, List.mapM_cons, ih fun v hv => h v (by
      rw [mem_atomVars] at hv ⊢; simp [hv])]
    have : 𝓜.read e a = 𝓜.toInterp.look ε (atomVertex 0 a) := by
      cases a with
      | var v => exact h v (mem_atomVars.2 (by simp))
      | lit l => rfl
    rw [this]

theorem run_graph : ∀ {es : List (Eqn C P)} {e : VEnv α} {ε : GE.Env (Vertex C) α} {T : Var → Prop},
    (∀ v ∈ eqnsVars es, v ∈ A) → (∀ v, T v → v ∈ A) → ScopedIn T es → (∀ v, T v → e v = ε (varVertex 0 v)) →
    (es.foldlM 𝓜.step e = none ∧ 𝓜.toInterp.run (es.map (eqnOp 0)) ε = none) ∨
    ∃ e1 ε1, es.foldlM 𝓜.step e = some e1 ∧ 𝓜.toInterp.run (es.map (eqnOp 0)) ε = some ε1 ∧
      ∀ v, T v ∨ v ∈ es.flatMap Eqn.outvars → e1 v = ε1 (varVertex 0 v) := by
  intro es
  induction es with
  | nil =>
    intro e ε T _ _ _ h
    exact Or.inr ⟨e, ε, rfl, rfl, fun v hv => h v (by simpa using hv)⟩
  | cons q es ih =>
    intro e ε T hA hT hs h
    have hA1 : ∀ v ∈ q.outvars, v ∈ A := fun v hv => hA v (by
      unfold eqnsVars; rw [List.flatMap_cons]; simp [hv])
    have hA2 : ∀ v ∈ eqnsVars es, v ∈ A := fun v hv => hA v (by
      unfold eqnsVars at hv ⊢; rw [List.flatMap_cons]; exact List.mem_append_right _ hv)
    have hr := reads_graph (𝓜 := 𝓜) (e := e) (ε := ε) (l := q.invars) fun v hv => h v (hs.1 v hv)
    rw [List.foldlM_cons, List.map_cons, GE.run_cons]
    have s1 : 𝓜.step e q = ((q.invars.mapM (𝓜.read e)).bind fun xs =>
      (𝓜.prim q.primitive q.params xs).bind fun ys => GE.assign e q.outvars ys) := rfl
    have s2 : 𝓜.toInterp.step ε (eqnOp 0 q) =
      (((q.invars.map (atomVertex 0)).mapM (𝓜.toInterp.look ε)).bind fun xs =>
      (𝓜.prim q.primitive q.params xs).bind fun ys => GE.assign ε (q.outvars.map (varVertex 0)) ys) := rfl
    rw [s1, s2, hr]
    cases (q.invars.map (atomVertex 0)).mapM (𝓜.toInterp.look ε) with
    | none => exact Or.inl ⟨rfl, rfl⟩
    | some xs =>
      simp only [Option.bind_some]
      cases 𝓜.prim q.primitive q.params xs with
      | none => exact Or.inl ⟨rfl, rfl⟩
      | some ys =>
        simp only [Option.bind_some]
        rcases assign_graph hinj (xs := ys) hA1 hT h with ⟨k1, k2⟩ | ⟨e1, ε1, k1, k2, k3⟩
        · rw [k1, k2]; exact Or.inl ⟨rfl, rfl⟩
        · rw [k1, k2]
          rcases ih (e := e1) (ε := ε1) (T := fun v => T v ∨ v ∈ q.outvars) hA2 (by
            rintro v (hv | hv)
            · exact hT v hv
            · exact hA1 v hv) hs.2 k3 with ⟨m1, m2⟩ | ⟨e2, ε2, m1, m2, m3⟩
          · exact Or.inl ⟨m1, m2⟩
          · refine Or.inr ⟨e2, ε2, m1, m2, fun v hv => m3 v ?_⟩
            rw [List.flatMap_cons, List.mem_append] at hv
            rcases hv with hv | hv | hv
            · exact Or.inl (Or.inl hv)
            · exact Or.inl (Or.inr hv)
            · exact Or.inr hv
end sim

/-- different variables of the Jaxpr have different vertices -/
def Jaxpr.VertexInj (j : Jaxpr C P) : Prop :=
  ∀ u ∈ j.vars, ∀ v ∈ j.vars, varVertex (C := C) 0 u = varVertex 0 v → u = v

/-- **A Jaxpr and its graph compute the same function.** -/
theorem eval_graph {j : Jaxpr C P} (hinj : j.VertexInj) (𝓜 : Meaning C P α) (consts xs : List α) :
    𝓜.eval j consts xs = ((GE.assign (fun _ => none) (jaxprToGraph j).data consts).bind fun ε =>
      𝓜.toInterp.eval (jaxprToGraph j) ε xs) := by
  rcases j with ⟨c, i, o, es⟩
  show ((GE.assign _ c consts).bind fun e => (GE.assign e i xs).bind fun e =>
      (es.foldlM 𝓜.step e).bind fun e => o.mapM (𝓜.read e)) =
    ((GE.assign _ (c.map (varVertex 0)) consts).bind fun ε => (GE.assign ε (i.map (varVertex 0)) xs).bind fun ε =>
      (𝓜.toInterp.run (es.map (eqnOp 0)) ε).bind fun ε => (o.map (atomVertex 0)).mapM (𝓜.toInterp.look ε))
  set A := (Jaxpr.mk c i o es).vars with hAdef
  have hc : ∀ v ∈ c, v ∈ A := fun v hv => by rw [hAdef]; simp [Jaxpr.vars, Jaxpr.constvars, hv]
  have hi : ∀ v ∈ i, v ∈ A := fun v hv => by rw [hAdef]; simp [Jaxpr.vars, Jaxpr.invars, hv]
  have ho : ∀ v ∈ atomVars o, v ∈ A := fun v hv => by rw [hAdef]; simp [Jaxpr.vars, Jaxpr.outvars, hv]
  have he : ∀ v ∈ eqnsVars es, v ∈ A := fun v hv => by rw [hAdef]; simp [Jaxpr.vars, Jaxpr.eqns, hv]
  rcases assign_graph (C := C) hinj (xs := consts) (vs := c) (e := fun _ => none) (ε := fun _ => none)
    (T := fun v => v ∈ A) hc (fun _ h => h) (fun _ _ => rfl) with ⟨k1, k2⟩ | ⟨e1, ε1, k1, k2, k3⟩
  · rw [k1, k2]; rfl
  rw [k1, k2]
  simp only [Option.bind_some]
  rcases assign_graph (C := C) hinj (xs := xs) (vs := i) (e := e1) (ε := ε1)
    (T := fun v => v ∈ A) hi (fun _ h => h) (fun v hv => k3 v (Or.inl hv)) with ⟨k4, k5⟩ | ⟨e2, ε2, k4, k5, k6⟩
  · rw [k4, k5]; rfl
  rw [k4, k5]
  simp only [Option.bind_some]
  rcases run_graph (𝓜 := 𝓜) hinj (e := e2) (ε := ε2) (T := fun v => v ∈ A) he (fun _ h => h)
    (scopedIn_all es _ he) (fun v hv => k6 v (Or.inl hv)) with ⟨m1, m2⟩ | ⟨e3, ε3, m1, m2, m3⟩
  · rw [m1, m2]; rfl
  rw [m1, m2]
  simp only [Option.bind_some]
  exact reads_graph fun v hv => m3 v (Or.inl (ho v hv))

/-! ### replace -/

theorem respects_data {G : List (String × Param C P) → Prop} {𝓜 : Meaning C P α} (hr : 𝓜.RespectsOn G)
    (d d' : EqnData C P) (hd : G d.params) (hd' : G d'.params) (h : eqDataEq d d' = true) :
    𝓜.toInterp.interp d = 𝓜.toInterp.interp d' := by
  unfold eqDataEq at h
  rw [Bool.and_eq_true] at h
  obtain ⟨h1, h2⟩ := h
  have h1 : d.primitive = d'.primitive := of_decide_eq_true h1
  cases hp : paramsEquiv d.params d'.params with
  | error e => rw [hp] at h2; cases h2
  | ok b =>
    rw [hp] at h2
    have h2 : b = true := h2
    subst h2
    unfold paramsEquiv at hp
    by_cases hk : sameKeys d.params d'.params = true
    · rw [if_pos hk] at hp
      have := hr d.primitive d.params d'.params hd hd' ⟨sameKeys_iff.1 hk, paramsLoop_sound _ _ hp⟩
      funext xs
      show 𝓜.prim d.primitive d.params xs = 𝓜.prim d'.primitive d'.params xs
      rw [this, h1]
    · rw [if_neg hk] at hp
      cases hp

theorem data_of {G : List (String × Param C P) → Prop} {𝓜 : Meaning C P α} (hr : 𝓜.RespectsOn G)
    {pattern subject : Jaxpr C P} (hp : pattern.ParamsIn G) (hs : subject.ParamsIn G) :
    ∀ p ∈ (jaxprToGraph pattern).operations, ∀ o ∈ (jaxprToGraph subject).operations,
      eqDataEq p.data o.data = true → 𝓜.toInterp.interp p.data = 𝓜.toInterp.interp o.data := by
  intro p h1 o h2 h
  obtain ⟨e, k1, rfl⟩ := List.mem_map.1 h1
  obtain ⟨e', k1', rfl⟩ := List.mem_map.1 h2
  exact respects_data hr _ _ (hp e k1) (hs e' k1') h

theorem respects_lit (𝓜 : Meaning C P α) (u v : Vertex C) (h : canBind u v = true) :
    𝓜.toInterp.lit u = 𝓜.toInterp.lit v := by
  cases u <;> cases v <;> simp_all [canBind, Meaning.toInterp]

/-- `C51_replace_preserves`, with the graph of the result. If the pattern and the (renamed) replacement compute the same outputs and the
subject may be rewritten, in the sense of C38, and the rewritten graph is that of a Jaxpr, then
`jaxpr_editor.replace` returns a Jaxpr that computes the same function as the subject. -/
theorem replace_preserves_graph {G : List (String × Param C P) → Prop} {pattern replacement subject : Jaxpr C P} {fresh fuel : ℕ} {r : Py (Jaxpr C P)}
    {ops : List (GE.Op (Vertex C) (EqnData C P))} (hops : replacementOps pattern replacement = .ok ops)
    {𝓜 : Meaning C P α} (hresp : 𝓜.RespectsOn G) (hGp : pattern.ParamsIn G) (hGs : subject.ParamsIn G)
    {outs : List (Vertex C)} {internal : Vertex C → Prop}
    (hrule : GE.RuleOk 𝓜.toInterp (jaxprToGraph pattern).operations ops outs internal)
    (hg : GE.Rewritable eqDataEq canBind (jaxprToGraph pattern).operations outs internal (jaxprToGraph subject))
    (hs : subject.CountsIdentify)
    (hres : ∀ g', GE.replace eqDataEq canBind (jaxprToGraph pattern).operations ops (jaxprToGraph subject) fuel = some g' →
      GraphOk g' ∧ ∀ c a a', Vertex.var c a ∈ graphVertices g' → Vertex.var c a' ∈ graphVertices g' → a = a')
    (hlen : pattern.invars.length = replacement.invars.length ∧ pattern.outvars.length = replacement.outvars.length ∧
      pattern.constvars = [] ∧ replacement.constvars = [])
    (h : replace pattern replacement subject fresh fuel = some r) :
    ∃ g' j', GE.replace eqDataEq canBind (jaxprToGraph pattern).operations ops (jaxprToGraph subject) fuel = some g' ∧
      r = .ok j' ∧ jaxprToGraph j' = g' ∧ j'.CountsIdentify ∧
      ∀ consts xs ys, 𝓜.eval subject consts xs = some ys → 𝓜.eval j' consts xs = some ys := by
  unfold replace at h
  rw [if_neg (not_not.2 hlen.1), if_neg (not_not.2 hlen.2.1), if_neg (by simp [hlen.2.2]), hops] at h
  simp only at h
  obtain ⟨g', hg', rfl⟩ := Option.map_eq_some_iff.1 h
  obtain ⟨k1, k2⟩ := hres g' hg'
  obtain ⟨j', q1, q2, q3⟩ := C40_graph_jaxpr_graph fresh k1 k2
  refine ⟨g', j', hg', q1, q2, q3, fun consts xs ys hev => ?_⟩
  have inj : ∀ j : Jaxpr C P, (∀ u ∈ j.vars, ∀ v ∈ j.vars, u.count = v.count → u = v) → j.VertexInj := by
    intro j hj u hu v hv e
    apply hj u hu v hv
    unfold varVertex at e
    simp only [Vertex.var.injEq, add_left_inj] at e
    exact e.1
  rw [eval_graph (inj _ hs)] at hev
  obtain ⟨ε, e1, e2⟩ := Option.bind_eq_some_iff.1 hev
  obtain ⟨-, -, d1, d2⟩ := GE.C38_replace_preserves (data_of hresp hGp hGs) (respects_lit 𝓜) hrule hg hg' ε xs ys e2
  rw [eval_graph (inj _ q3), q2, d1, e1]
  exact d2

/-- **C51 (general rules).** If the pattern and the (renamed) replacement compute the same outputs and the
subject may be rewritten, in the sense of C38, and the rewritten graph is that of a Jaxpr, then
`jaxpr_editor.replace` returns a Jaxpr that computes the same function as the subject. -/
theorem C51_replace_preserves {pattern replacement subject : Jaxpr C P} {fresh fuel : ℕ} {r : Py (Jaxpr C P)}
    {ops : List (GE.Op (Vertex C) (EqnData C P))} (hops : replacementOps pattern replacement = .ok ops)
    {𝓜 : Meaning C P α} (hresp : 𝓜.Respects) {outs : List (Vertex C)} {internal : Vertex C → Prop}
    (hrule : GE.RuleOk 𝓜.toInterp (jaxprToGraph pattern).operations ops outs internal)
    (hg : GE.Rewritable eqDataEq canBind (jaxprToGraph pattern).operations outs internal (jaxprToGraph subject))
    (hs : subject.CountsIdentify)
    (hres : ∀ g', GE.replace eqDataEq canBind (jaxprToGraph pattern).operations ops (jaxprToGraph subject) fuel = some g' →
      GraphOk g' ∧ ∀ c a a', Vertex.var c a ∈ graphVertices g' → Vertex.var c a' ∈ graphVertices g' → a = a')
    (hlen : pattern.invars.length = replacement.invars.length ∧ pattern.outvars.length = replacement.outvars.length ∧
      pattern.constvars = [] ∧ replacement.constvars = [])
    (h : replace pattern replacement subject fresh fuel = some r) :
    ∃ j', r = .ok j' ∧ ∀ consts xs ys, 𝓜.eval subject consts xs = some ys → 𝓜.eval j' consts xs = some ys :=
  let ⟨_, j', _, h1, _, _, h2⟩ := replace_preserves_graph hops (hresp.on fun _ => True) (fun _ _ => trivial) (fun _ _ => trivial) hrule hg hs hres hlen h
  ⟨j', h1, h2⟩

/-! ### rules whose replacement is one primitive -/

theorem replacementOps_primitive {pattern : Jaxpr C P} {px po rx ry : Var} (hi : pattern.invars = [px])
    (ho : pattern.outvars = [.var po]) (hne : rx.count ≠ ry.count) (name : String)
    (params : List (String × Param C P)) :
    replacementOps pattern (primitiveJaxpr rx ry name params) =
      .ok [⟨⟨name, params⟩, [varVertex 0 px], [varVertex 0 po]⟩] := by
  have hmax : ∃ n, maxCount (jaxprToGraph pattern) = .ok n := by
    unfold maxCount GE.Graph.intermediateVariables jaxprToGraph
    simp only [hi, List.map_cons, List.map_nil, List.cons_append]
    exact ⟨_, rfl⟩
  obtain ⟨n, hn⟩ := hmax
  unfold replacementOps
  simp only [hn, py_ok_bind]
  refine congrArg Except.ok ?_
  obtain ⟨pc, pi, po', pe⟩ := pattern
  replace hi : pi = [px] := hi
  replace ho : po' = [.var po] := ho
  subst hi ho
  simp only [primitiveJaxpr, jaxprToGraph, Jaxpr.eqns, List.map_cons, List.map_nil, eqnOp, Eqn.invars, Eqn.outvars,
    Eqn.primitive, Eqn.params, atomVertex, GE.Op.subs, replacementMap, Jaxpr.invars, Jaxpr.outvars]
  have hv : varVertex (C := C) (n + 1) rx ≠ varVertex (n + 1) ry := by
    unfold varVertex
    simp only [ne_eq, Vertex.var.injEq, add_left_inj, not_and]
    exact fun h => absurd h hne
  simp [GE.VMap.app, GE.VMap.set, hv]

theorem run_reads {𝓘 : GE.Interp (Vertex C) (EqnData C P) α} : ∀ {ops : List (GE.Op (Vertex C) (EqnData C P))}
    {ε ε1 : GE.Env (Vertex C) α}, 𝓘.run ops ε = some ε1 → ∀ {u : Vertex C}, GE.readsOf ops u →
    ¬ GE.writesOf ops u → ∃ x, 𝓘.look ε u = some x := by
  intro ops
  induction ops with
  | nil => rintro ε ε1 _ u ⟨o, ho, _⟩; cases ho
  | cons o ops ih =>
    intro ε ε1 h u hr hw
    rw [GE.run_cons] at h
    obtain ⟨ε', h1, h2⟩ := Option.bind_eq_some_iff.1 h
    obtain ⟨xs, ys, a1, a2, a3⟩ := GE.step_inv h1
    obtain ⟨o', ho', hu⟩ := hr
    rcases List.mem_cons.1 ho' with rfl | ho'
    · cases hl : 𝓘.look ε u with
      | some x => exact ⟨x, rfl⟩
      | none =>
        exfalso
        have : ∀ l : List (Vertex C), u ∈ l → l.mapM (𝓘.look ε) = none := by
          intro l
          induction l with
          | nil => intro h; cases h
          | cons w l ih =>
            intro hm
            rw [List.mapM_cons]
            rcases List.mem_cons.1 hm with rfl | hm
            · rw [hl]; rfl
            · rw [ih hm]
              cases 𝓘.look ε w <;> rfl
        rw [this _ hu] at a1
        cases a1
    · obtain ⟨x, hx⟩ := ih h2 ⟨o', ho', hu⟩ fun ⟨o'', h3, h4⟩ => hw ⟨o'', List.mem_cons_of_mem _ h3, h4⟩
      refine ⟨x, ?_⟩
      rw [← hx]
      exact GE.look_congr (GE.assign_frame a3 fun hu' => hw ⟨o, List.mem_cons_self, hu'⟩).symm

/-- the operations of the rewritten graph -/
theorem loop_ops {pat rep ops : List (GE.Op (Vertex C) (EqnData C P))} :
    ∀ (fuel i : ℕ) (out r : List (GE.Op (Vertex C) (EqnData C P))),
    GE.replaceLoop eqDataEq canBind pat rep ops fuel i out = some r →
    ∀ o ∈ r, o ∈ out ∨ o ∈ ops ∨ ∃ (m : GE.VMap (Vertex C)) (occ : List (GE.Op (Vertex C) (EqnData C P))),
      (∀ o' ∈ occ, o' ∈ ops) ∧ GE.matchOps eqDataEq canBind pat occ = some m ∧ ∃ o' ∈ rep, o = o'.subs m := by
  intro fuel
  induction fuel with
  | zero => intro i out r h; cases h
  | succ fuel ih =>
    intro i out r h o ho
    unfold GE.replaceLoop at h
    split at h
    · rename_i hi
      cases hm : GE.matchOps eqDataEq canBind pat ((ops.drop i).take pat.length) with
      | some m =>
        rw [hm] at h
        rcases ih _ _ _ h o ho with h1 | h1 | h1
        · rcases List.mem_append.1 h1 with h1 | h1
          · exact Or.inl h1
          · obtain ⟨o', ho', rfl⟩ := List.mem_map.1 h1
            exact Or.inr (Or.inr ⟨m, _, fun o h => List.mem_of_mem_drop (List.mem_of_mem_take h), hm, o', ho', rfl⟩)
        · exact Or.inr (Or.inl h1)
        · exact Or.inr (Or.inr h1)
      | none =>
        rw [hm] at h
        rcases ih _ _ _ h o ho with h1 | h1 | h1
        · rcases List.mem_append.1 h1 with h1 | h1
          · exact Or.inl h1
          · rw [List.mem_singleton] at h1
            exact Or.inr (Or.inl (h1 ▸ List.getElem_mem hi))
        · exact Or.inr (Or.inl h1)
        · exact Or.inr (Or.inr h1)
    · cases h
      exact Or.inl ho

/-- a match maps vertices of the pattern to vertices of the occurrence -/
theorem match_mem {pat occ : List (GE.Op (Vertex C) (EqnData C P))} {m : Vertex C → Vertex C}
    (h : GE.IsMatch eqDataEq canBind pat occ m) :
    (∀ u, GE.readsOf pat u → GE.readsOf occ (m u)) ∧ ∀ u, GE.writesOf pat u → GE.writesOf occ (m u) := by
  have := h.same
  clear h
  induction this with
  | nil => exact ⟨fun u ⟨o, ho, _⟩ => (by cases ho), fun u ⟨o, ho, _⟩ => (by cases ho)⟩
  | @cons p s P' S' h1 _ ih =>
    refine ⟨?_, ?_⟩
    · rintro u ⟨o, ho, hu⟩
      rcases List.mem_cons.1 ho with rfl | ho
      · exact ⟨s, List.mem_cons_self, by rw [← h1.2.1]; exact List.mem_map_of_mem hu⟩
      · obtain ⟨o', k1, k2⟩ := ih.1 u ⟨o, ho, hu⟩
        exact ⟨o', List.mem_cons_of_mem _ k1, k2⟩
    · rintro u ⟨o, ho, hu⟩
      rcases List.mem_cons.1 ho with rfl | ho
      · exact ⟨s, List.mem_cons_self, by rw [← h1.2.2]; exact List.mem_map_of_mem hu⟩
      · obtain ⟨o', k1, k2⟩ := ih.2 u ⟨o, ho, hu⟩
        exact ⟨o', List.mem_cons_of_mem _ k1, k2⟩

theorem vertexInj_of {j : Jaxpr C P} (h : j.CountsIdentify) : j.VertexInj := by
  intro u hu v hv e
  apply h u hu v hv
  unfold varVertex at e
  simp only [Vertex.var.injEq, add_left_inj] at e
  exact e.1

theorem writes_graph {j : Jaxpr C P} {u : Vertex C} : GE.writesOf (jaxprToGraph j).operations u ↔
    ∃ e ∈ j.eqns, ∃ v ∈ e.outvars, varVertex 0 v = u := by
  unfold GE.writesOf jaxprToGraph
  constructor
  · rintro ⟨o, ho, hu⟩
    obtain ⟨e, he, rfl⟩ := List.mem_map.1 ho
    obtain ⟨v, hv, rfl⟩ := List.mem_map.1 hu
    exact ⟨e, he, v, hv, rfl⟩
  · rintro ⟨e, he, v, hv, rfl⟩
    exact ⟨eqnOp 0 e, List.mem_map_of_mem he, List.mem_map_of_mem hv⟩

theorem mem_vars_out {j : Jaxpr C P} {e : Eqn C P} (he : e ∈ j.eqns) {v : Var} (hv : v ∈ e.outvars) : v ∈ j.vars := by
  unfold Jaxpr.vars eqnsVars
  simp only [List.mem_append, List.mem_flatMap]
  exact Or.inr ⟨e, he, Or.inr hv⟩

/-- the rule in terms of graphs -/
theorem ruleOk {𝓜 : Meaning C P α} {pattern : Jaxpr C P} {px po : Var} {name : String}
    {params : List (String × Param C P)} (h : PrimitiveRule 𝓜 pattern px po name params) :
    GE.RuleOk 𝓜.toInterp (jaxprToGraph pattern).operations
      [⟨⟨name, params⟩, [varVertex 0 px], [varVertex 0 po]⟩] [varVertex 0 po] (fun _ => False) := by
  have hinj := vertexInj_of h.counts
  have hpxv : px ∈ pattern.vars := by simp [Jaxpr.vars, h.input]
  have hpxw : ¬ GE.writesOf (jaxprToGraph pattern).operations (varVertex 0 px) := by
    rw [writes_graph]
    rintro ⟨e, he, v, hv, e1⟩
    have := hinj v (mem_vars_out he hv) px hpxv e1
    subst this
    have hn := h.ssa
    unfold Jaxpr.SSA Jaxpr.binders at hn
    rw [h.consts, h.input] at hn
    exact (List.nodup_append.1 hn).2.2 v (by simp) v (List.mem_flatMap.2 ⟨e, he, hv⟩) rfl
  have hpxr : GE.readsOf (jaxprToGraph pattern).operations (varVertex 0 px) := by
    obtain ⟨e, he, hu⟩ := h.used
    exact ⟨eqnOp 0 e, List.mem_map_of_mem he, List.mem_map.2 ⟨_, hu, rfl⟩⟩
  have hpow : GE.writesOf (jaxprToGraph pattern).operations (varVertex 0 po) := by
    obtain ⟨e, he, hu⟩ := h.computed
    exact writes_graph.2 ⟨e, he, po, hu, rfl⟩
  refine ⟨?_, ?_, ?_, ?_, ?_, ?_⟩
  · intro ε ε1 hrun
    obtain ⟨x, hx⟩ := run_reads hrun hpxr hpxw
    have hx : ε (varVertex 0 px) = some x := hx
    rcases hpe : pattern with ⟨c, i, o, es⟩
    have hc : c = [] := by have := h.consts; rw [hpe] at this; exact this
    have hi : i = [px] := by have := h.input; rw [hpe] at this; exact this
    have ho : o = [.var po] := by have := h.output; rw [hpe] at this; exact this
    have hsc := h.wellScoped
    rw [hpe] at hsc
    subst hc hi ho
    have hrun' : 𝓜.toInterp.run (es.map (eqnOp 0)) ε = some ε1 := by rw [hpe] at hrun; exact hrun
    have hes : ∀ v ∈ eqnsVars es, v ∈ pattern.vars := by
      intro v hv; rw [hpe]; simp [Jaxpr.vars, Jaxpr.eqns, hv]
    rcases run_graph (𝓜 := 𝓜) hinj (es := es) (e := fun v => if v = px then some x else none) (ε := ε)
      (T := fun v => v = px) hes (by rintro v rfl; exact hpxv)
      (scopedIn_of (S := [px]) (fun v hv => by simpa using hv) hsc)
      (by rintro v rfl; simp [hx]) with ⟨-, k2⟩ | ⟨e1, ε1', k1, k2, k3⟩
    · rw [hrun'] at k2; cases k2
    · rw [hrun'] at k2
      cases k2
      have hpo : po ∈ es.flatMap Eqn.outvars := by
        obtain ⟨e, he, hu⟩ := h.computed
        rw [hpe] at he
        exact List.mem_flatMap.2 ⟨e, he, hu⟩
      have hy := k3 po (Or.inr hpo)
      have hwritten : ∃ y, ε1 (varVertex 0 po) = some y := by
        have : ∀ {ops : List (GE.Op (Vertex C) (EqnData C P))} {a b : GE.Env (Vertex C) α},
            𝓜.toInterp.run ops a = some b → ∀ u, (a u ≠ none ∨ GE.writesOf ops u) → b u ≠ none := by
          intro ops
          induction ops with
          | nil =>
            intro a b hab u hu
            cases hab
            rcases hu with hu | ⟨o, ho, _⟩
            · exact hu
            · cases ho
          | cons o ops ih =>
            intro a b hab u hu
            rw [GE.run_cons] at hab
            obtain ⟨a', s1, s2⟩ := Option.bind_eq_some_iff.1 hab
            obtain ⟨xs, ys, -, -, s3⟩ := GE.step_inv s1
            refine ih s2 u ?_
            by_cases huo : u ∈ o.outputs
            · left
              have : ∀ {vs : List (Vertex C)} {zs : List α} {a a' : GE.Env (Vertex C) α},
                  GE.assign a vs zs = some a' → (a u ≠ none ∨ u ∈ vs) → a' u ≠ none := by
                intro vs
                induction vs with
                | nil =>
                  intro zs a a' h1 h2
                  cases zs with
                  | nil => cases h1; simpa using h2
                  | cons => cases h1
                | cons w vs ihv =>
                  intro zs a a' h1 h2
                  cases zs with
                  | nil => cases h1
                  | cons z zs =>
                    refine ihv h1 ?_
                    by_cases hw : u = w
                    · left; simp [hw]
                    · rcases h2 with h2 | h2
                      · left; simpa [hw] using h2
                      · right; exact (List.mem_cons.1 h2).resolve_left hw
              exact this s3 (Or.inr huo)
            · rcases hu with hu | ⟨o', ho', hu⟩
              · left; rw [GE.assign_frame s3 huo]; exact hu
              · right
                rcases List.mem_cons.1 ho' with rfl | ho'
                · exact absurd hu huo
                · exact ⟨o', ho', hu⟩
        exact Option.ne_none_iff_exists'.1 (this hrun _ (Or.inr hpow))
      obtain ⟨y, hy'⟩ := hwritten
      have hev : 𝓜.eval pattern [] [x] = some [y] := by
        rw [hpe]
        show ((es.foldlM 𝓜.step (fun v => if v = px then some x else none)).bind fun e =>
          [Atom.var po].mapM (𝓜.read e)) = some [y]
        rw [k1]
        show [Atom.var po].mapM (𝓜.read e1) = _
        rw [List.mapM_cons]
        have : 𝓜.read e1 (.var po) = some y := by show e1 po = _; rw [hy, hy']
        rw [this]; rfl
      have hp := h.same x [y] hev
      refine ⟨fun w => if w = varVertex 0 po then some y else ε w, ?_, ?_⟩
      · rw [GE.run_cons]
        have : 𝓜.toInterp.step ε ⟨⟨name, params⟩, [varVertex 0 px], [varVertex 0 po]⟩ =
            some (fun w => if w = varVertex 0 po then some y else ε w) := by
          refine GE.step_of (xs := [x]) (ys := [y]) ?_ hp rfl
          show [varVertex 0 px].mapM (𝓜.toInterp.look ε) = _
          rw [List.mapM_cons]
          have : 𝓜.toInterp.look ε (varVertex 0 px) = some x := hx
          rw [this]; rfl
        rw [this]; rfl
      · intro u hu
        rw [List.mem_singleton] at hu
        subst hu
        show ε1 (varVertex 0 po) = _
        rw [hy']
        show some y = if varVertex (C := C) 0 po = varVertex 0 po then some y else _
        rw [if_pos rfl]
  · intro u hu
    rw [List.mem_singleton] at hu
    subst hu
    exact hpow
  · rintro u ⟨o, ho, hu⟩
    rw [List.mem_singleton] at ho
    subst ho
    rw [List.mem_singleton] at hu
    subst hu
    exact Or.inr (Or.inr ⟨hpxr, hpxw⟩)
  · rintro u ⟨o, ho, hu⟩
    rw [List.mem_singleton] at ho
    subst ho
    exact Or.inl hu
  · rintro u (hu | ⟨o, ho, hu⟩)
    · obtain ⟨e, he, v, hv, rfl⟩ := writes_graph.1 hu
      rfl
    · rw [List.mem_singleton] at ho
      subst ho
      rw [List.mem_singleton] at hu
      subst hu
      rfl
  · intro u hu; exact hu.elim

/-- `C51_primitive_rule`, with the graph of the result. A rule that replaces a pattern by one primitive computing the same function, as those of
`_register_elementwise_function`: if the occurrences of the pattern in the subject are closed, then
`jaxpr_editor.replace` returns a Jaxpr, and that Jaxpr computes the same function as the subject. -/
theorem primitive_rule_graph {G : List (String × Param C P) → Prop} {𝓜 : Meaning C P α} (hresp : 𝓜.RespectsOn G)
    {pattern subject : Jaxpr C P} (hGp : pattern.ParamsIn G) (hGs : subject.ParamsIn G)
    {px po rx ry : Var} {name : String} {params : List (String × Param C P)}
    (hrule : PrimitiveRule 𝓜 pattern px po name params) (hr : rx.count ≠ ry.count)
    (hssa : subject.SSA) (hs : subject.CountsIdentify) (hocc : OccurrencesClosed pattern subject px po)
    (fresh : ℕ) :
    ∃ g' j', GE.replace eqDataEq canBind (jaxprToGraph pattern).operations
        [⟨⟨name, params⟩, [varVertex 0 px], [varVertex 0 po]⟩] (jaxprToGraph subject) (subject.eqns.length + 1) = some g' ∧
      replace pattern (primitiveJaxpr rx ry name params) subject fresh (subject.eqns.length + 1) = some (.ok j') ∧
      jaxprToGraph j' = g' ∧ j'.CountsIdentify ∧
      ∀ consts xs ys, 𝓜.eval subject consts xs = some ys → 𝓜.eval j' consts xs = some ys := by
  have hops := replacementOps_primitive hrule.input hrule.output hr name params
  have hR := ruleOk hrule
  have hinjS := vertexInj_of hs
  have hRw : GE.Rewritable eqDataEq canBind (jaxprToGraph pattern).operations [varVertex 0 po] (fun _ => False)
      (jaxprToGraph subject) := by
    refine ⟨?_, fun u hu => hu.elim, ?_, ?_⟩
    · have e : (jaxprToGraph subject).operations.flatMap (·.outputs) =
          (subject.eqns.flatMap Eqn.outvars).map (varVertex 0) := by
        unfold jaxprToGraph
        rw [List.flatMap_map, List.map_flatMap]
        rfl
      rw [e]
      refine List.Nodup.map_on ?_ ((List.nodup_append.1 hssa).2.1)
      intro u hu v hv e
      obtain ⟨q, k1, k2⟩ := List.mem_flatMap.1 hu
      obtain ⟨q', k1', k2'⟩ := List.mem_flatMap.1 hv
      exact hinjS u (mem_vars_out k1 k2) v (mem_vars_out k1' k2') e
    · intro A occ B m h1 h2 u hu hout
      obtain ⟨e, he, v, hv, rfl⟩ := writes_graph.1 hu
      refine (hocc A occ B m h1 h2).1 e he v hv ?_
      rintro rfl
      exact hout (by simp)
    · intro A occ B m h1 h2 u hu hw
      -- the only vertices read and not written by the pattern are its input and literals
      obtain ⟨o, ho, hu⟩ := hu
      obtain ⟨e, he, rfl⟩ := List.mem_map.1 ho
      obtain ⟨a, ha, rfl⟩ := List.mem_map.1 hu
      cases a with
      | var v =>
        have hv : v = px := by
          by_contra hne
          apply hw
          rw [writes_graph]
          have hsc := hrule.wellScoped
          unfold Jaxpr.WellScoped at hsc
          rw [hrule.consts, hrule.input] at hsc
          have key : ∀ {es : List (Eqn C P)} {S : List Var} {o : List (Atom C)}, Scoped S es o → ∀ e ∈ es,
              Atom.var v ∈ e.invars → v ∈ S ∨ ∃ e' ∈ es, v ∈ e'.outvars := by
            intro es
            induction es with
            | nil => intro S o _ e he; cases he
            | cons q es ih =>
              intro S o hs e he hv
              rcases List.mem_cons.1 he with rfl | he
              · exact Or.inl (hs.1 v (mem_atomVars.2 hv))
              · rcases ih hs.2 e he hv with h | ⟨e', h1, h2⟩
                · rcases List.mem_append.1 h with h | h
                  · exact Or.inl h
                  · exact Or.inr ⟨q, List.mem_cons_self, h⟩
                · exact Or.inr ⟨e', List.mem_cons_of_mem _ h1, h2⟩
          rcases key hsc e he ha with h | ⟨e', h1, h2⟩
          · simp at h; exact absurd h hne
          · exact ⟨e', h1, v, h2, rfl⟩
        subst hv
        exact (hocc A occ B m h1 h2).2
      | lit l =>
        -- a literal is bound to a literal, which is not written
        have hb := h2.binds _ (List.mem_map_of_mem he) _ (Or.inl (List.mem_map_of_mem ha))
        rintro ⟨o', ho', hw'⟩
        have ho' : o' ∈ (jaxprToGraph subject).operations := by
          rw [h1]; simp [ho']
        obtain ⟨e', he', rfl⟩ := List.mem_map.1 ho'
        obtain ⟨v, hv, e1⟩ := List.mem_map.1 hw'
        rw [← e1] at hb
        cases hb
  have hPne : (jaxprToGraph pattern).operations ≠ [] := by
    obtain ⟨e, he, -⟩ := hrule.used
    intro h0
    have := List.mem_map_of_mem (f := eqnOp 0) he
    unfold jaxprToGraph at h0
    simp only at h0
    rw [h0] at this
    cases this
  obtain ⟨g', hg'⟩ := GE.C39_terminates (deq := eqDataEq) (cb := canBind)
    (R := [⟨⟨name, params⟩, [varVertex 0 px], [varVertex 0 po]⟩]) hPne (jaxprToGraph subject)
  have hlen : (jaxprToGraph subject).operations.length = subject.eqns.length := by simp [jaxprToGraph]
  rw [hlen] at hg'
  have hrep : replace pattern (primitiveJaxpr rx ry name params) subject fresh (subject.eqns.length + 1) =
      some (graphToJaxpr fresh g') := by
    unfold replace
    rw [if_neg (by rw [hrule.input]; simp [primitiveJaxpr, Jaxpr.invars]),
      if_neg (by rw [hrule.output]; simp [primitiveJaxpr, Jaxpr.outvars]),
      if_neg (by rw [hrule.consts]; simp [primitiveJaxpr, Jaxpr.constvars]), hops]
    simp only
    rw [hg']; rfl
  -- the vertices of the new graph
  have hres : GraphOk g' ∧ ∀ u ∈ graphVertices g', u ∈ graphVertices (jaxprToGraph subject) := by
    unfold GE.replace at hg'
    obtain ⟨r, hr', rfl⟩ := Option.map_eq_some_iff.1 hg'
    have hok := jaxprGraph_ok subject 0
    have hin : ∀ o ∈ (jaxprToGraph subject).operations, ∀ u, u ∈ o.inputs ∨ u ∈ o.outputs →
        u ∈ opsVertices (jaxprToGraph subject).operations := by
      intro o ho u hu
      exact List.mem_flatMap.2 ⟨o, ho, List.mem_append.2 hu⟩
    have hops' : ∀ o ∈ r, (∀ u, u ∈ o.inputs ∨ u ∈ o.outputs → u ∈ opsVertices (jaxprToGraph subject).operations) ∧
        ∀ u ∈ o.outputs, u.IsVar := by
      intro o ho
      rcases loop_ops _ _ _ _ hr' o ho with h | h | ⟨m, occ, k1, k2, o', k3, rfl⟩
      · cases h
      · exact ⟨hin o h, hok.written o h⟩
      · rw [List.mem_singleton] at k3
        subst k3
        obtain ⟨m1, -, -⟩ := GE.C36_match_sound k2
        obtain ⟨m2, m3⟩ := match_mem m1
        obtain ⟨e, he, hpxu⟩ := hrule.used
        obtain ⟨e', he', hpou⟩ := hrule.computed
        have r1 := m2 (varVertex 0 px) ⟨eqnOp 0 e, List.mem_map_of_mem he, List.mem_map.2 ⟨_, hpxu, rfl⟩⟩
        have r2 := m3 (varVertex 0 po) (writes_graph.2 ⟨e', he', po, hpou, rfl⟩)
        refine ⟨?_, ?_⟩
        · rintro u (hu | hu)
          · have hu : u = m.app (varVertex 0 px) := by simpa [GE.Op.subs] using hu
            obtain ⟨o, q1, q2⟩ := r1
            rw [hu]
            exact hin o (k1 o q1) _ (Or.inl q2)
          · have hu : u = m.app (varVertex 0 po) := by simpa [GE.Op.subs] using hu
            obtain ⟨o, q1, q2⟩ := r2
            rw [hu]
            exact hin o (k1 o q1) _ (Or.inr q2)
        · intro u hu
          have hu : u = m.app (varVertex 0 po) := by simpa [GE.Op.subs] using hu
          obtain ⟨o, q1, q2⟩ := r2
          rw [hu]
          exact hok.written o (k1 o q1) _ q2
    refine ⟨⟨fun o ho => (hops' o ho).2, hok.inputs, hok.consts⟩, ?_⟩
    intro u hu
    unfold graphVertices at hu ⊢
    simp only [List.mem_append] at hu ⊢
    rcases hu with ((hu | hu) | hu) | hu
    · obtain ⟨o, ho, hu⟩ := List.mem_flatMap.1 hu
      exact Or.inl (Or.inl (Or.inl ((hops' o ho).1 u (List.mem_append.1 hu))))
    · exact Or.inl (Or.inl (Or.inr hu))
    · exact Or.inl (Or.inr hu)
    · exact Or.inr hu
  obtain ⟨g0, j', hg0, q1, q3, q4, q2⟩ := replace_preserves_graph (fresh := fresh) hops hresp hGp hGs hR hRw hs
    (fun g'' hg'' => by
      rw [hg'] at hg''
      cases hg''
      refine ⟨hres.1, fun c a a' h1 h2 => ?_⟩
      obtain ⟨v, k1, k2, k3⟩ := mem_graphVertices.1 (hres.2 _ h1)
      obtain ⟨v', k1', k2', k3'⟩ := mem_graphVertices.1 (hres.2 _ h2)
      have := hs v k1 v' k1' (by omega)
      rw [← k3, ← k3', this])
    ⟨by rw [hrule.input]; simp [primitiveJaxpr, Jaxpr.invars],
      by rw [hrule.output]; simp [primitiveJaxpr, Jaxpr.outvars],
      hrule.consts, rfl⟩ hrep
  exact ⟨g0, j', hg0, by rw [hrep, q1], q3, q4, q2⟩

/-- **C51.** A rule that replaces a pattern by one primitive computing the same function, as those of
`_register_elementwise_function`: if the occurrences of the pattern in the subject are closed, then
`jaxpr_editor.replace` returns a Jaxpr, and that Jaxpr computes the same function as the subject. -/
theorem C51_primitive_rule {𝓜 : Meaning C P α} (hresp : 𝓜.Respects) {pattern subject : Jaxpr C P}
    {px po rx ry : Var} {name : String} {params : List (String × Param C P)}
    (hrule : PrimitiveRule 𝓜 pattern px po name params) (hr : rx.count ≠ ry.count)
    (hssa : subject.SSA) (hs : subject.CountsIdentify) (hocc : OccurrencesClosed pattern subject px po)
    (fresh : ℕ) :
    ∃ j', replace pattern (primitiveJaxpr rx ry name params) subject fresh (subject.eqns.length + 1) = some (.ok j') ∧
      ∀ consts xs ys, 𝓜.eval subject consts xs = some ys → 𝓜.eval j' consts xs = some ys :=
  let ⟨_, j', _, h1, _, _, h2⟩ := primitive_rule_graph (hresp.on fun _ => True) (fun _ _ => trivial) (fun _ _ => trivial) hrule hr hssa hs hocc fresh
  ⟨j', h1, h2⟩

end JE
end AB
