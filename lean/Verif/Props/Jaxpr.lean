/-
C41: `_same_jaxpr_up_to_variable_renaming` (/repo/autobound/jax/jaxpr_editor.py:214-304) says `True` exactly
for Jaxprs that are equal up to a renaming of variables, and such Jaxprs compute the same function.
-/
import Verif.Proofs.Jaxpr
import Verif.Proofs.Graph

set_option linter.unusedSectionVars false

namespace AB
namespace JE
variable {C P α : Type} [DecidableEq C] [DecidableEq P]

/-- **C41 (exact characterisation).** The check returns `True` iff some renaming of variables turns the first
Jaxpr into the second one: same constants, inputs, outputs and equations, same literals, data types kept
(and shapes, unless they are ignored), same parameters. -/
theorem C41_iff (ignoreShape : Bool) (j0 j1 : Jaxpr C P) :
    sameJaxpr ignoreShape j0 j1 = .ok true ↔ SameJaxpr ignoreShape j0 j1 :=
  ⟨sameJaxpr_sound j0 ignoreShape j1, sameJaxpr_complete j0 ignoreShape j1⟩

/-! ### the same function -/

theorem assign_sim {ρ : Var → Atom C} : ∀ {vs ws : List Var} {xs : List α} {e e' : VEnv α},
    vs.map ρ = ws.map Atom.var → ws.Nodup →
    (GE.assign e vs xs = none ∧ GE.assign e' ws xs = none) ∨
    ∃ e1 e1', GE.assign e vs xs = some e1 ∧ GE.assign e' ws xs = some e1' ∧ (∀ v, v ∉ vs → e1 v = e v) ∧
      (∀ w, w ∉ ws → e1' w = e' w) ∧
      ∀ v ∈ vs, ∃ w ∈ ws, ρ v = .var w ∧ ∃ a, e1 v = some a ∧ e1' w = some a := by
  intro vs
  induction vs with
  | nil =>
    intro ws xs e e' h _
    cases ws with
    | cons => simp at h
    | nil =>
      cases xs with
      | nil =>
        exact Or.inr ⟨e, e', rfl, rfl, fun _ _ => rfl, fun _ _ => rfl, fun v hv => absurd hv List.not_mem_nil⟩
      | cons => exact Or.inl ⟨rfl, rfl⟩
  | cons v vs ih =>
    intro ws xs e e' h hn
    cases ws with
    | nil => simp at h
    | cons w ws =>
      simp only [List.map_cons, List.cons.injEq] at h
      rw [List.nodup_cons] at hn
      cases xs with
      | nil => exact Or.inl ⟨rfl, rfl⟩
      | cons x xs =>
        have hv : v ∉ vs := by
          intro hv
          apply hn.1
          have : ρ v ∈ vs.map ρ := List.mem_map_of_mem hv
          rw [h.2, h.1] at this
          simpa using this
        rcases ih (xs := xs) (e := fun u => if u = v then some x else e u)
          (e' := fun u => if u = w then some x else e' u) h.2 hn.2 with ⟨h1, h2⟩ | ⟨e1, e1', h1, h2, h3, h4, h5⟩
        · exact Or.inl ⟨h1, h2⟩
        · refine Or.inr ⟨e1, e1', h1, h2, ?_, ?_, ?_⟩
          · intro u hu
            rw [List.mem_cons, not_or] at hu
            rw [h3 u hu.2, if_neg hu.1]
          · intro u hu
            rw [List.mem_cons, not_or] at hu
            rw [h4 u hu.2, if_neg hu.1]
          · intro u hu
            rcases List.mem_cons.1 hu with rfl | hu
            · exact ⟨w, List.mem_cons_self, h.1, x, by rw [h3 u hv, if_pos rfl], by rw [h4 w hn.1, if_pos rfl]⟩
            · obtain ⟨w', k1, k2⟩ := h5 u hu
              exact ⟨w', List.mem_cons_of_mem _ k1, k2⟩

/-- the environments agree on the variables bound so far -/
def Agrees (ρ : Var → Atom C) (S B : List Var) (e e' : VEnv α) : Prop :=
  ∀ v ∈ S, ∃ w ∈ B, ρ v = .var w ∧ ∃ a, e v = some a ∧ e' w = some a

theorem reads_eq {𝓜 : Meaning C P α} {ρ : Var → Atom C} {S B : List Var} {e e' : VEnv α}
    (h : Agrees ρ S B e e') {a b : List (Atom C)} (hab : List.Forall₂ (SameAtom ρ) a b)
    (hs : ∀ v ∈ atomVars a, v ∈ S) : a.mapM (𝓜.read e) = b.mapM (𝓜.read e') := by
  induction hab with
  | nil => rfl
  | @cons x y la lb h1 _ ih =>
    have hh : 𝓜.read e x = 𝓜.read e' y := by
      cases x with
      | var v =>
        have h1 : y = ρ v := h1
        obtain ⟨w, -, k2, k, k3, k4⟩ := h v (hs v (mem_atomVars.2 (by simp)))
        rw [h1, k2]
        show e v = e' w
        rw [k3, k4]
      | lit l =>
        cases y with
        | var _ => exact h1.elim
        | lit l' =>
          have h1 : l.val = l'.val := h1
          show some (𝓜.lit l.val) = some (𝓜.lit l'.val)
          rw [h1]
    rw [List.mapM_cons, List.mapM_cons, hh, ih fun v hv => hs v (by
      rw [mem_atomVars] at hv ⊢; simp [hv])]

theorem assign_agrees {ρ : Var → Atom C} {S B : List Var} {e e' : VEnv α}
    (h : Agrees ρ S B e e') {vs ws : List Var} {xs : List α} (hm : vs.map ρ = ws.map Atom.var)
    (hn : (B ++ ws).Nodup) :
    (GE.assign e vs xs = none ∧ GE.assign e' ws xs = none) ∨
    ∃ e1 e1', GE.assign e vs xs = some e1 ∧ GE.assign e' ws xs = some e1' ∧
      Agrees ρ (S ++ vs) (B ++ ws) e1 e1' := by
  rcases assign_sim (xs := xs) (e := e) (e' := e') hm (List.nodup_append.1 hn).2.1 with h1 | ⟨e1, e1', h1, h2, h3, h4, h5⟩
  · exact Or.inl h1
  · refine Or.inr ⟨e1, e1', h1, h2, ?_⟩
    intro v hv
    by_cases hvs : v ∈ vs
    · obtain ⟨w, k1, k2⟩ := h5 v hvs
      exact ⟨w, List.mem_append_right _ k1, k2⟩
    · have hvS : v ∈ S := (List.mem_append.1 hv).resolve_right hvs
      obtain ⟨w, k1, k2, a, k3, k4⟩ := h v hvS
      refine ⟨w, List.mem_append_left _ k1, k2, a, by rw [h3 v hvs, k3], ?_⟩
      rw [h4 w fun hw => (List.nodup_append.1 hn).2.2 w k1 w hw rfl, k4]

theorem Meaning.Respects.on {𝓜 : Meaning C P α} (h : 𝓜.Respects) (G : List (String × Param C P) → Prop) :
    𝓜.RespectsOn G := fun p q q' _ _ hs => h p q q' hs

theorem run_same {G : List (String × Param C P) → Prop} {𝓜 : Meaning C P α} (hr : 𝓜.RespectsOn G) {ρ : Var → Atom C} {o0 o1 : List (Atom C)}
    (ho : List.Forall₂ (SameAtom ρ) o0 o1) : ∀ {e0 e1 : List (Eqn C P)} {S B : List Var} {e e' : VEnv α},
    (∀ q ∈ e0, G q.params) → (∀ q ∈ e1, G q.params) →
    SameEqns ρ e0 e1 → Agrees ρ S B e e' → Scoped S e0 o0 → (B ++ e1.flatMap Eqn.outvars).Nodup →
    (e0.foldlM 𝓜.step e >>= fun e => o0.mapM (𝓜.read e)) =
      (e1.foldlM 𝓜.step e' >>= fun e => o1.mapM (𝓜.read e)) := by
  intro e0
  induction e0 with
  | nil =>
    intro e1 S B e e' _ _ h ha hs _
    have h : e1 = [] := h
    subst h
    exact reads_eq ha ho hs
  | cons q0 es0 ih =>
    intro e1 S B e e' g0 g1 h ha hs hn
    cases e1 with
    | nil => cases q0; exact h.elim
    | cons q1 es1 =>
      rcases q0 with ⟨p0, i0, v0, q0⟩
      rcases q1 with ⟨p1, i1, v1, q1⟩
      obtain ⟨⟨h1, h2, h3, h4⟩, h5⟩ := h
      replace h1 : p0 = p1 := h1
      replace h2 : List.Forall₂ (SameAtom ρ) i0 i1 := h2
      replace h3 : v0.map ρ = v1.map Atom.var := h3
      subst h1
      rw [List.foldlM_cons, List.foldlM_cons]
      have hn' : (B ++ v1 ++ es1.flatMap Eqn.outvars).Nodup := by
        rw [List.flatMap_cons] at hn
        rw [List.append_assoc]
        exact hn
      have hin := reads_eq (𝓜 := 𝓜) ha h2 hs.1
      have hpar : 𝓜.prim p0 q0 = 𝓜.prim p0 q1 := hr p0 q0 q1 (g0 _ List.mem_cons_self) (g1 _ List.mem_cons_self) h4
      have hstep : ∀ e : VEnv α, ∀ i v q, 𝓜.step e (.mk p0 i v q) =
          (i.mapM (𝓜.read e)).bind fun xs => (𝓜.prim p0 q xs).bind fun ys => GE.assign e v ys := fun _ _ _ _ => rfl
      rw [hstep, hstep, hin, hpar]
      cases hx : i1.mapM (𝓜.read e') with
      | none => rfl
      | some xs =>
        simp only [Option.bind_some]
        cases hy : 𝓜.prim p0 q1 xs with
        | none => rfl
        | some ys =>
          simp only [Option.bind_some]
          rcases assign_agrees (xs := ys) ha h3 (List.nodup_append.1 hn').1 with ⟨k1, k2⟩ | ⟨f, f', k1, k2, k3⟩
          · rw [k1, k2]; rfl
          · rw [k1, k2]
            exact ih (fun q h => g0 q (List.mem_cons_of_mem _ h)) (fun q h => g1 q (List.mem_cons_of_mem _ h)) h5 k3 hs.2 hn'

/-- `C41_same_function` for meanings that respect the equality of the parameters with the property `G`, which those of
the two Jaxprs have. -/
theorem same_function_on {G : List (String × Param C P) → Prop} {ignoreShape : Bool} {j0 j1 : Jaxpr C P}
    (h : sameJaxpr ignoreShape j0 j1 = .ok true) (hs : j0.WellScoped) (hssa : j1.SSA)
    (𝓜 : Meaning C P α) (hr : 𝓜.RespectsOn G) (h0 : j0.ParamsIn G) (h1 : j1.ParamsIn G) (consts xs : List α) :
    𝓜.eval j0 consts xs = 𝓜.eval j1 consts xs := by
  have h := (C41_iff _ _ _).1 h
  rcases j0 with ⟨c0, i0, o0, e0⟩
  rcases j1 with ⟨c1, i1, o1, e1⟩
  replace h0 : ∀ q ∈ e0, G q.params := h0
  replace h1 : ∀ q ∈ e1, G q.params := h1
  rename' h1 => g1
  obtain ⟨ρ, h1, h2, h3, h4, -⟩ := h
  have h1 : c0.map ρ = c1.map Atom.var := h1
  have h2 : i0.map ρ = i1.map Atom.var := h2
  have hn : (c1 ++ i1 ++ e1.flatMap Eqn.outvars).Nodup := hssa
  have hn1 := (List.nodup_append.1 hn).1
  show ((GE.assign _ c0 consts).bind fun e => (GE.assign e i0 xs).bind fun e =>
      e0.foldlM 𝓜.step e >>= fun e => o0.mapM (𝓜.read e)) =
    ((GE.assign _ c1 consts).bind fun e => (GE.assign e i1 xs).bind fun e =>
      e1.foldlM 𝓜.step e >>= fun e => o1.mapM (𝓜.read e))
  rcases assign_agrees (S := []) (B := []) (e := fun _ => none) (e' := fun _ => none) (xs := consts)
    (fun v hv => absurd hv List.not_mem_nil) h1 (by simpa using (List.nodup_append.1 hn1).1) with
    ⟨k1, k2⟩ | ⟨f, f', k1, k2, k3⟩
  · rw [k1, k2]; rfl
  rw [k1, k2]
  simp only [Option.bind_some]
  rcases assign_agrees (xs := xs) k3 h2 (by simpa using hn1) with ⟨k4, k5⟩ | ⟨g, g', k4, k5, k6⟩
  · rw [k4, k5]; rfl
  rw [k4, k5]
  simp only [Option.bind_some]
  exact run_same hr h3 h0 g1 h4 k6 hs (by simpa using hn)

/-- **C41 (same function).** If the check says `True`, the first Jaxpr binds its variables before it uses them
and the second one binds no variable twice, then the two Jaxprs compute the same function, for every meaning
of the primitives under which equal parameters (in the sense of the check) have equal meaning. -/
theorem C41_same_function {ignoreShape : Bool} {j0 j1 : Jaxpr C P}
    (h : sameJaxpr ignoreShape j0 j1 = .ok true) (hs : j0.WellScoped) (hssa : j1.SSA)
    (𝓜 : Meaning C P α) (hr : 𝓜.Respects) (consts xs : List α) :
    𝓜.eval j0 consts xs = 𝓜.eval j1 consts xs := 
  same_function_on h hs hssa 𝓜 (hr.on fun _ => True) (fun _ _ => trivial) (fun _ _ => trivial) consts xs

/-! ### renamed copies pass the check -/

theorem lookup_of_mem {β : Type} {q : List (String × β)} (h : keysNodup q) {k : String} {v : β} (hm : (k, v) ∈ q) :
    q.lookup k = some v := by
  induction q with
  | nil => cases hm
  | cons p q ih =>
    rcases p with ⟨k', v'⟩
    unfold keysNodup at h
    rw [List.map_cons, List.nodup_cons] at h
    rw [List.lookup_cons]
    rcases List.mem_cons.1 hm with e | hm2
    · cases e; simp
    · have : (k == k') = false := by
        rw [beq_eq_false_iff_ne]
        intro e
        subst e
        exact h.1 (List.mem_map.2 ⟨_, hm2, rfl⟩)
      rw [this]
      exact ih h.2 hm2

theorem sameAtom_id {σ : Var → Var} (l : List (Atom C)) :
    List.Forall₂ (SameAtom fun v => .var (σ v)) l (l.map (Atom.rename σ)) := by
  induction l with
  | nil => exact .nil
  | cons a l ih =>
    refine .cons ?_ ih
    cases a <;> rfl

mutual
theorem same_refl : ∀ (j : Jaxpr C P), j.DictsOk → ∀ (ign : Bool) (σ : Var → Var),
    (∀ v ∈ j.vars, (σ v).aval = v.aval) → SameJaxpr ign j (j.rename σ)
  | .mk c i o e, h, ign, σ, hσ => by
    refine ⟨fun v => .var (σ v), ?_, ?_, sameAtom_id o, sameEqns_refl e h σ, ?_⟩
    · show _ = (c.map σ).map Atom.var
      rw [List.map_map]; rfl
    · show _ = (i.map σ).map Atom.var
      rw [List.map_map]; rfl
    · intro v hv
      show v.aval.dtype = (σ v).aval.dtype ∧ (_ → v.aval.shape = (σ v).aval.shape)
      rw [hσ v hv]
      exact ⟨rfl, fun _ => rfl⟩

theorem sameEqns_refl : ∀ (e : List (Eqn C P)), eqnsDictsOk e → ∀ (σ : Var → Var),
    SameEqns (fun v => .var (σ v)) e (e.map (Eqn.rename σ))
  | [], _, _ => rfl
  | .mk p i o q :: es, h, σ =>
    ⟨⟨rfl, sameAtom_id i, by
        show _ = (o.map σ).map Atom.var
        rw [List.map_map]; rfl, fun _ => Iff.rfl, sameValues_refl q h.1.2 q h.1.1 fun _ h => h⟩,
      sameEqns_refl es h.2 σ⟩

theorem sameValues_refl : ∀ (q : List (String × Param C P)), paramsDictsOk q → ∀ (q' : List (String × Param C P)),
    keysNodup q' → (∀ p ∈ q, p ∈ q') → SameValues q q'
  | [], _, _, _, _ => trivial
  | (_, v) :: q, h, q', hn, hsub =>
    ⟨fun _ => ⟨v, lookup_of_mem hn (hsub _ List.mem_cons_self), sameParam_refl v h.1⟩,
      sameValues_refl q h.2 q' hn fun p hp => hsub p (List.mem_cons_of_mem _ hp)⟩

theorem sameParam_refl : ∀ (v : Param C P), v.DictsOk → SameParam v v
  | .closedJaxpr j _, h => by
    have := same_refl j h true id fun _ _ => rfl
    rw [rename_id] at this
    exact this
  | .jaxpr j, h => by
    have := same_refl j h true id fun _ _ => rfl
    rw [rename_id] at this
    exact this
  | .function _, _ => trivial
  | .other _, _ => rfl

theorem rename_id : ∀ (j : Jaxpr C P), j.rename id = j
  | .mk c i o e => by
    have ha : (Atom.rename id : Atom C → Atom C) = id := by funext a; cases a <;> rfl
    have he : (Eqn.rename id : Eqn C P → Eqn C P) = id := by
      funext q
      cases q
      simp [Eqn.rename, ha, Eqn.primitive, Eqn.invars, Eqn.outvars, Eqn.params]
    simp [Jaxpr.rename, ha, he, Jaxpr.constvars, Jaxpr.invars, Jaxpr.outvars, Jaxpr.eqns]
end

/-- **C41 (renamed copies).** A Jaxpr and any copy of it with variables renamed to variables of the same types
pass the check; in particular a Jaxpr passes the check against itself. -/
theorem C41_rename (j : Jaxpr C P) (hd : j.DictsOk) (ignoreShape : Bool) (σ : Var → Var)
    (hσ : ∀ v ∈ j.vars, (σ v).aval = v.aval) : sameJaxpr ignoreShape j (j.rename σ) = .ok true :=
  (C41_iff _ _ _).2 (same_refl j hd ignoreShape σ hσ)

theorem C41_refl (j : Jaxpr C P) (hd : j.DictsOk) (ignoreShape : Bool) : sameJaxpr ignoreShape j j = .ok true := by
  have := C41_rename j hd ignoreShape id fun _ _ => rfl
  rwa [rename_id] at this

end JE
end AB
