/-
Lemmas about `_same_jaxpr_up_to_variable_renaming`, /repo/autobound/jax/jaxpr_editor.py:202-304.
-/
import Verif.Spec.Jaxpr
import Verif.Proofs.Interval
import Mathlib.Data.List.Forall2

set_option linter.unusedSectionVars false

namespace AB
namespace JE
variable {C P α : Type} [DecidableEq C] [DecidableEq P]

theorem lookup_cons {α : Type} {v w : Var} {a : α} {m : List (Var × α)} :
    ((w, a) :: m).lookup v = if v = w then some a else m.lookup v := by
  rw [List.lookup_cons]
  by_cases h : v = w
  · subst h; simp
  · have : (v == w) = false := by simpa using h
    rw [this, if_neg h]

/-- `ρ` extends the dict `m` -/
def Ext (m : VarMap C) (ρ : Var → Atom C) : Prop := ∀ v a, m.lookup v = some a → ρ v = a

/-- the entries of the dict keep avals -/
def AvOk (ign : Bool) (m : VarMap C) : Prop := ∀ v a, m.lookup v = some a →
  v.aval.dtype = a.aval.dtype ∧ (ign = false → v.aval.shape = a.aval.shape)

/-- `m'` extends `m` -/
def Sub (m m' : VarMap C) : Prop := ∀ v a, m.lookup v = some a → m'.lookup v = some a

theorem Sub.refl (m : VarMap C) : Sub m m := fun _ _ h => h
theorem Sub.trans {m1 m2 m3 : VarMap C} (h : Sub m1 m2) (h' : Sub m2 m3) : Sub m1 m3 :=
  fun v a e => h' v a (h v a e)

theorem matchAvals_iff {a0 a1 : Aval} {ign : Bool} : matchAvals a0 a1 ign = true ↔
    a0.dtype = a1.dtype ∧ (ign = false → a0.shape = a1.shape) := by
  unfold matchAvals
  cases ign <;> simp

theorem check_sound {ign : Bool} {m m' : VarMap C} {a b : Atom C} (h : check ign m a b = some m')
    (hm : AvOk ign m) : Sub m m' ∧ AvOk ign m' ∧ (∀ ρ, Ext m' ρ → SameAtom ρ a b) ∧
      ∀ v, a = .var v → m'.lookup v ≠ none := by
  unfold check at h
  cases a with
  | lit l0 =>
    cases b with
    | lit l1 =>
      simp only at h
      split_ifs at h with hc
      cases h
      refine ⟨Sub.refl _, hm, fun ρ _ => ?_, fun v hv => by cases hv⟩
      show l0.val = l1.val
      simpa [equivLiterals] using hc
    | var _ => cases h
  | var v =>
    simp only at h
    cases hl : m.lookup v with
    | none =>
      rw [hl] at h
      simp only at h
      split_ifs at h with hc
      cases h
      rw [matchAvals_iff] at hc
      refine ⟨?_, ?_, ?_, ?_⟩
      · intro w a ha
        rw [lookup_cons]
        by_cases hw : w = v
        · subst hw; rw [hl] at ha; cases ha
        · rw [if_neg hw]; exact ha
      · intro w a ha
        rw [lookup_cons] at ha
        by_cases hw : w = v
        · subst hw; rw [if_pos rfl] at ha; cases ha; exact hc
        · rw [if_neg hw] at ha; exact hm w a ha
      · intro ρ hρ
        exact (hρ v b (by rw [lookup_cons, if_pos rfl])).symm
      · intro w hw
        cases hw
        rw [lookup_cons, if_pos rfl]
        simp
    | some w =>
      rw [hl] at h
      simp only at h
      split_ifs at h with hc
      cases h
      subst hc
      refine ⟨Sub.refl _, hm, fun ρ hρ => (hρ v w hl).symm, ?_⟩
      intro w hw
      cases hw
      rw [hl]; simp

theorem check_complete {ign : Bool} {m : VarMap C} {a b : Atom C} {ρ : Var → Atom C} (hm : Ext m ρ)
    (h : SameAtom ρ a b) (hk : ∀ v, a = .var v → v.aval.dtype = (ρ v).aval.dtype ∧
      (ign = false → v.aval.shape = (ρ v).aval.shape)) : ∃ m', check ign m a b = some m' ∧ Ext m' ρ := by
  unfold check
  cases a with
  | lit l0 =>
    cases b with
    | var _ => exact h.elim
    | lit l1 =>
      have h : l0.val = l1.val := h
      exact ⟨m, by simp [equivLiterals, h], hm⟩
  | var v =>
    have h : b = ρ v := h
    subst h
    simp only
    cases hl : m.lookup v with
    | none =>
      refine ⟨(v, ρ v) :: m, ?_, ?_⟩
      · simp only
        rw [if_pos (matchAvals_iff.2 (hk v rfl))]
      · intro w a ha
        rw [lookup_cons] at ha
        by_cases hw : w = v
        · subst hw; rw [if_pos rfl] at ha; cases ha; rfl
        · rw [if_neg hw] at ha; exact hm w a ha
    | some w => exact ⟨m, by simp [hm v w hl], hm⟩

theorem checks_sound {ign : Bool} {l : List (Atom C × Atom C)} {m m' : VarMap C}
    (h : checks ign m l = some m') (hm : AvOk ign m) : Sub m m' ∧ AvOk ign m' ∧
      (∀ ρ, Ext m' ρ → ∀ p ∈ l, SameAtom ρ p.1 p.2) ∧
      ∀ p ∈ l, ∀ v, p.1 = .var v → m'.lookup v ≠ none := by
  induction l generalizing m with
  | nil =>
    cases h
    exact ⟨Sub.refl _, hm, fun _ _ p hp => absurd hp List.not_mem_nil, fun p hp => absurd hp List.not_mem_nil⟩
  | cons p l ih =>
    unfold checks at h
    rw [List.foldlM_cons] at h
    obtain ⟨m1, h1, h2⟩ := Option.bind_eq_some_iff.1 h
    obtain ⟨s1, s2, s3, s4⟩ := check_sound h1 hm
    obtain ⟨t1, t2, t3, t4⟩ := ih h2 s2
    refine ⟨s1.trans t1, t2, ?_, ?_⟩
    · intro ρ hρ q hq
      rcases List.mem_cons.1 hq with rfl | hq
      · exact s3 ρ fun v a hv => hρ v a (t1 v a hv)
      · exact t3 ρ hρ q hq
    · intro q hq v hv
      rcases List.mem_cons.1 hq with rfl | hq
      · cases hl : m1.lookup v with
        | none => exact absurd hl (s4 v hv)
        | some a => rw [t1 v a hl]; simp
      · exact t4 q hq v hv

theorem checks_complete {ign : Bool} {l : List (Atom C × Atom C)} {m : VarMap C} {ρ : Var → Atom C}
    (hm : Ext m ρ) (h : ∀ p ∈ l, SameAtom ρ p.1 p.2)
    (hk : ∀ p ∈ l, ∀ v, p.1 = .var v → v.aval.dtype = (ρ v).aval.dtype ∧
      (ign = false → v.aval.shape = (ρ v).aval.shape)) : ∃ m', checks ign m l = some m' ∧ Ext m' ρ := by
  induction l generalizing m with
  | nil => exact ⟨m, rfl, hm⟩
  | cons p l ih =>
    obtain ⟨m1, h1, h2⟩ := check_complete hm (h p (by simp)) (hk p (by simp))
    obtain ⟨m2, h3, h4⟩ := ih h2 (fun q hq => h q (by simp [hq])) (fun q hq => hk q (by simp [hq]))
    refine ⟨m2, ?_, h4⟩
    unfold checks
    rw [List.foldlM_cons, h1]
    exact h3

theorem sameKeys_iff {β : Type} {p q : List (String × β)} : sameKeys p q = true ↔
    ∀ k, k ∈ p.map Prod.fst ↔ k ∈ q.map Prod.fst := by
  unfold sameKeys
  rw [Bool.and_eq_true, List.all_eq_true, List.all_eq_true]
  constructor
  · rintro ⟨h1, h2⟩ k
    exact ⟨fun h => of_decide_eq_true (h1 k h), fun h => of_decide_eq_true (h2 k h)⟩
  · intro h
    exact ⟨fun k hk => decide_eq_true ((h k).1 hk), fun k hk => decide_eq_true ((h k).2 hk)⟩

/-! ### zips -/

theorem zip_forall₂ {R : Atom C → Atom C → Prop} {a b : List (Atom C)} (hl : a.length = b.length)
    (h : ∀ p ∈ a.zip b, R p.1 p.2) : List.Forall₂ R a b := by
  rw [List.forall₂_iff_zip]
  exact ⟨hl, fun {x y} hxy => h (x, y) hxy⟩

theorem zip_vars {ρ : Var → Atom C} {a b : List Var} (hl : a.length = b.length)
    (h : ∀ p ∈ (a.map Atom.var).zip (b.map Atom.var), SameAtom ρ p.1 p.2) : a.map ρ = b.map Atom.var := by
  induction a generalizing b with
  | nil => cases b with | nil => rfl | cons => simp at hl
  | cons x a ih =>
    cases b with
    | nil => simp at hl
    | cons y b =>
      simp only [List.map_cons, List.zip_cons_cons] at h
      rw [List.map_cons, List.map_cons, ih (by simpa using hl) fun p hp => h p (List.mem_cons_of_mem _ hp)]
      have : Atom.var y = ρ x := h (.var x, .var y) List.mem_cons_self
      rw [this]

theorem mem_zip_fst {β γ : Type} {a : List β} {b : List γ} (hl : a.length = b.length) {x : β} (hx : x ∈ a) :
    ∃ p ∈ a.zip b, p.1 = x := by
  obtain ⟨i, hi, rfl⟩ := List.mem_iff_getElem.1 hx
  have hi' : i < b.length := hl ▸ hi
  refine ⟨(a[i], b[i]), ?_, rfl⟩
  rw [List.mem_iff_getElem]
  exact ⟨i, by simp [hi, hi'], by simp⟩

theorem mem_atomVars {l : List (Atom C)} {v : Var} : v ∈ atomVars l ↔ Atom.var v ∈ l := by
  unfold atomVars
  rw [List.mem_filterMap]
  constructor
  · rintro ⟨a, ha, h⟩
    cases a with
    | var w => cases h; exact ha
    | lit _ => cases h
  · intro h; exact ⟨_, h, rfl⟩

mutual
theorem sameJaxpr_sound : ∀ (j0 : Jaxpr C P) (ign : Bool) (j1 : Jaxpr C P),
    sameJaxpr ign j0 j1 = .ok true → SameJaxpr ign j0 j1
  | .mk c0 i0 o0 e0, ign, j1, h => by
    simp only [sameJaxpr] at h
    by_cases hlen : c0.length ≠ j1.constvars.length ∨ i0.length ≠ j1.invars.length ∨
        o0.length ≠ j1.outvars.length ∨ e0.length ≠ j1.eqns.length
    · rw [if_pos hlen] at h; cases h
    rw [if_neg hlen] at h
    simp only [not_or, not_not] at hlen
    obtain ⟨l1, l2, l3, l4⟩ := hlen
    cases hc : checks ign [] ((i0.map Atom.var).zip (j1.invars.map Atom.var) ++
          (c0.map Atom.var).zip (j1.constvars.map Atom.var) ++ o0.zip j1.outvars) with
    | none => rw [hc] at h; cases h
    | some m =>
      rw [hc] at h
      simp only at h
      obtain ⟨-, s2, s3, s4⟩ := checks_sound hc (fun v a h => by cases h)
      obtain ⟨m', t1, t2, t3, t4⟩ := sameEqns_sound e0 ign m j1.eqns l4 s2 h
      let ρ : Var → Atom C := fun v => (m'.lookup v).getD (.var v)
      have hρ : Ext m' ρ := by
        intro v a ha
        show (m'.lookup v).getD _ = a
        rw [ha]; rfl
      have hρ' : Ext m ρ := fun v a ha => hρ v a (t1 v a ha)
      have hs := s3 ρ hρ'
      refine ⟨ρ, zip_vars l1 fun p hp => hs p (by simp [hp]), zip_vars l2 fun p hp => hs p (by simp [hp]),
        zip_forall₂ l3 fun p hp => hs p (by simp [hp]), t3 ρ hρ, ?_⟩
      have key : ∀ v, m'.lookup v ≠ none → v.aval.dtype = (ρ v).aval.dtype ∧
          (ign = false → v.aval.shape = (ρ v).aval.shape) := by
        intro v hv
        cases hl : m'.lookup v with
        | none => exact absurd hl hv
        | some a => rw [hρ v a hl]; exact t2 v a hl
      have key' : ∀ v, m.lookup v ≠ none → m'.lookup v ≠ none := by
        intro v hv
        cases hl : m.lookup v with
        | none => exact absurd hl hv
        | some a => rw [t1 v a hl]; simp
      intro v hv
      apply key
      simp only [List.mem_append] at hv
      rcases hv with ((hv | hv) | hv) | hv
      · obtain ⟨p, hp, e⟩ := mem_zip_fst (a := c0.map Atom.var) (b := j1.constvars.map (Atom.var (C := C)))
          (by simpa using l1) (List.mem_map_of_mem hv)
        exact key' v (s4 p (by simp [hp]) v e)
      · obtain ⟨p, hp, e⟩ := mem_zip_fst (a := i0.map Atom.var) (b := j1.invars.map (Atom.var (C := C)))
          (by simpa using l2) (List.mem_map_of_mem hv)
        exact key' v (s4 p (by simp [hp]) v e)
      · obtain ⟨p, hp, e⟩ := mem_zip_fst l3 (mem_atomVars.1 hv)
        exact key' v (s4 p (by simp [hp]) v e)
      · exact t4 v hv

theorem sameEqns_sound : ∀ (e0 : List (Eqn C P)) (ign : Bool) (m : VarMap C) (e1 : List (Eqn C P)),
    e0.length = e1.length → AvOk ign m → sameEqns ign m e0 e1 = .ok true →
    ∃ m', Sub m m' ∧ AvOk ign m' ∧ (∀ ρ, Ext m' ρ → SameEqns ρ e0 e1) ∧
      ∀ v ∈ eqnsVars e0, m'.lookup v ≠ none
  | [], ign, m, [], _, hm, _ => ⟨m, Sub.refl _, hm, fun _ _ => rfl, fun v hv => by cases hv⟩
  | .mk p0 i0 o0 q0 :: es0, ign, m, e1 :: es1, hl, hm, h => by
    simp only [sameEqns] at h
    by_cases hp : p0 ≠ e1.primitive
    · rw [if_pos hp] at h; cases h
    rw [if_neg hp, not_not] at *
    by_cases hk : sameKeys q0 e1.params = true
    swap
    · rw [if_neg hk] at h; cases h
    rw [if_pos hk, py_bind_ok] at h
    obtain ⟨b, hb, h⟩ := h
    cases b with
    | false => cases h
    | true =>
      simp only [Bool.not_true, Bool.false_eq_true, if_false] at h
      by_cases h2 : i0.length ≠ e1.invars.length ∨ o0.length ≠ e1.outvars.length
      · rw [if_pos h2] at h; cases h
      · rw [if_neg h2] at h
        simp only [not_or, not_not] at h2
        have hq := paramsLoop_sound q0 e1.params hb
        cases hc : checks ign m (i0.zip e1.invars ++ (o0.map Atom.var).zip (e1.outvars.map Atom.var)) with
        | none => rw [hc] at h; cases h
        | some m1 =>
          rw [hc] at h
          obtain ⟨s1, s2, s3, s4⟩ := checks_sound hc hm
          obtain ⟨m', t1, t2, t3, t4⟩ := sameEqns_sound es0 ign m1 es1 (by simpa using hl) s2 h
          refine ⟨m', s1.trans t1, t2, ?_, ?_⟩
          · intro ρ hρ
            have hs := s3 ρ fun v a ha => hρ v a (t1 v a ha)
            exact ⟨⟨hp, zip_forall₂ h2.1 fun p hp => hs p (by simp [hp]),
              zip_vars h2.2 fun p hp => hs p (by simp [hp]), sameKeys_iff.1 hk, hq⟩, t3 ρ hρ⟩
          · intro v hv
            unfold eqnsVars at hv
            rw [List.flatMap_cons] at hv
            have key' : ∀ v, m1.lookup v ≠ none → m'.lookup v ≠ none := by
              intro v hv
              cases hl : m1.lookup v with
              | none => exact absurd hl hv
              | some a => rw [t1 v a hl]; simp
            simp only [List.mem_append] at hv
            rcases hv with (hv | hv) | hv
            · obtain ⟨p, hp, e⟩ := mem_zip_fst h2.1 (mem_atomVars.1 hv)
              exact key' v (s4 p (by simp [hp]) v e)
            · obtain ⟨p, hp, e⟩ := mem_zip_fst (a := o0.map Atom.var) (b := e1.outvars.map (Atom.var (C := C)))
                (by simpa using h2.2) (List.mem_map_of_mem hv)
              exact key' v (s4 p (by simp [hp]) v e)
            · exact t4 v hv

theorem paramsLoop_sound : ∀ (q0 q1 : List (String × Param C P)), paramsLoop q0 q1 = .ok true →
    SameValues q0 q1
  | [], _, _ => trivial
  | (k, v) :: q0, q1, h => by
    simp only [paramsLoop] at h
    split_ifs at h with hk
    · exact ⟨fun h' => absurd hk h', paramsLoop_sound q0 q1 h⟩
    · cases hl : q1.lookup k with
      | none => rw [hl] at h; cases h
      | some v1 =>
        rw [hl] at h
        simp only [py_bind_ok] at h
        obtain ⟨b, hb, h⟩ := h
        split_ifs at h with hb'
        · cases h
        · have : b = true := by simpa using hb'
          subst this
          exact ⟨fun _ => ⟨v1, hl, paramEquiv_sound v v1 hb⟩, paramsLoop_sound q0 q1 h⟩

theorem paramEquiv_sound : ∀ (v v1 : Param C P), paramEquiv v v1 = .ok true → SameParam v v1
  | .closedJaxpr j0 _, v1, h => by
    cases v1 with
    | closedJaxpr j1 _ => exact sameJaxpr_sound j0 true j1 h
    | jaxpr _ => cases h
    | function _ => cases h
    | other _ => cases h
  | .jaxpr j0, v1, h => by
    cases v1 with
    | jaxpr j1 => exact sameJaxpr_sound j0 true j1 h
    | closedJaxpr _ _ => cases h
    | function _ => cases h
    | other _ => cases h
  | .function _, v1, h => by
    cases v1 with
    | function _ => trivial
    | closedJaxpr _ _ => cases h
    | jaxpr _ => cases h
    | other _ => cases h
  | .other p0, v1, h => by
    cases v1 with
    | other p1 =>
      simp only [paramEquiv, Except.ok.injEq, decide_eq_true_eq] at h
      exact h
    | closedJaxpr _ _ => cases h
    | jaxpr _ => cases h
    | function _ => cases h
end

theorem forall₂_zip {R : Atom C → Atom C → Prop} {a b : List (Atom C)} (h : List.Forall₂ R a b) :
    ∀ p ∈ a.zip b, R p.1 p.2 := by
  rintro ⟨x, y⟩ hp
  exact (List.forall₂_iff_zip.1 h).2 hp

theorem vars_zip {ρ : Var → Atom C} {a b : List Var} (h : a.map ρ = b.map Atom.var) :
    ∀ p ∈ (a.map Atom.var).zip (b.map Atom.var), SameAtom ρ p.1 p.2 := by
  induction a generalizing b with
  | nil => intro p hp; simp at hp
  | cons x a ih =>
    cases b with
    | nil => simp at h
    | cons y b =>
      simp only [List.map_cons, List.cons.injEq] at h
      intro p hp
      simp only [List.map_cons, List.zip_cons_cons, List.mem_cons] at hp
      rcases hp with rfl | hp
      · exact h.1.symm
      · exact ih h.2 p hp

theorem length_of_map {ρ : Var → Atom C} {a b : List Var} (h : a.map ρ = b.map Atom.var) :
    a.length = b.length := by
  have := congrArg List.length h
  simpa using this

mutual
theorem sameJaxpr_complete : ∀ (j0 : Jaxpr C P) (ign : Bool) (j1 : Jaxpr C P),
    SameJaxpr ign j0 j1 → sameJaxpr ign j0 j1 = .ok true
  | .mk c0 i0 o0 e0, ign, j1, h => by
    obtain ⟨ρ, h1, h2, h3, h4, h5⟩ := h
    simp only [sameJaxpr]
    have l4 := sameEqns_length e0 ρ j1.eqns h4
    rw [if_neg (by
      simp only [not_or, not_not]
      exact ⟨length_of_map h1, length_of_map h2, h3.length_eq, l4⟩)]
    obtain ⟨m, hm, hm'⟩ := checks_complete (ign := ign) (m := []) (ρ := ρ)
      (l := (i0.map Atom.var).zip (j1.invars.map Atom.var) ++
          (c0.map Atom.var).zip (j1.constvars.map Atom.var) ++ o0.zip j1.outvars)
      (fun v a h => by cases h)
      (by
        intro p hp
        simp only [List.mem_append] at hp
        rcases hp with (hp | hp) | hp
        · exact vars_zip h2 p hp
        · exact vars_zip h1 p hp
        · exact forall₂_zip h3 p hp)
      (by
        intro p hp v hv
        apply h5
        simp only [List.mem_append] at hp ⊢
        rcases hp with (hp | hp) | hp
        · have := (List.of_mem_zip (a := p.1) (b := p.2) hp).1
          rw [hv] at this
          simp only [List.mem_map, Atom.var.injEq, exists_eq_right] at this
          exact Or.inl (Or.inl (Or.inr this))
        · have := (List.of_mem_zip (a := p.1) (b := p.2) hp).1
          rw [hv] at this
          simp only [List.mem_map, Atom.var.injEq, exists_eq_right] at this
          exact Or.inl (Or.inl (Or.inl this))
        · have := (List.of_mem_zip (a := p.1) (b := p.2) hp).1
          rw [hv] at this
          exact Or.inl (Or.inr (mem_atomVars.2 this)))
    rw [hm]
    exact sameEqns_complete e0 ign m j1.eqns ρ hm' h4 fun v hv => h5 v (by simp [hv])

theorem sameEqns_length : ∀ (e0 : List (Eqn C P)) (ρ : Var → Atom C) (e1 : List (Eqn C P)),
    SameEqns ρ e0 e1 → e0.length = e1.length
  | [], _, l, h => by
    have h : l = [] := h
    rw [h]
  | .mk _ _ _ _ :: es0, ρ, [], h => h.elim
  | .mk _ _ _ _ :: es0, ρ, e1 :: es1, h => by
    have := sameEqns_length es0 ρ es1 h.2
    simp [this]

theorem sameEqns_complete : ∀ (e0 : List (Eqn C P)) (ign : Bool) (m : VarMap C) (e1 : List (Eqn C P))
    (ρ : Var → Atom C), Ext m ρ → SameEqns ρ e0 e1 → KeepsAvals ign ρ (eqnsVars e0) →
    sameEqns ign m e0 e1 = .ok true
  | [], ign, m, l, _, _, _, _ => by simp only [sameEqns]
  | .mk p0 i0 o0 q0 :: es0, ign, m, [], ρ, hm, h, hk => h.elim
  | .mk p0 i0 o0 q0 :: es0, ign, m, e1 :: es1, ρ, hm, h, hk => by
    obtain ⟨⟨h1, h2, h3, h4, h5⟩, h6⟩ := h
    simp only [sameEqns]
    rw [if_neg (not_not.2 h1), if_pos (sameKeys_iff.2 h4), paramsLoop_complete q0 e1.params h5]
    simp only [py_ok_bind, Bool.not_true, Bool.false_eq_true, if_false]
    rw [if_neg (by
      simp only [not_or, not_not]
      exact ⟨h2.length_eq, length_of_map h3⟩)]
    obtain ⟨m', hm1, hm2⟩ := checks_complete (ign := ign) (m := m) (ρ := ρ)
      (l := i0.zip e1.invars ++ (o0.map Atom.var).zip (e1.outvars.map Atom.var)) hm
      (by
        intro p hp
        simp only [List.mem_append] at hp
        rcases hp with hp | hp
        · exact forall₂_zip h2 p hp
        · exact vars_zip h3 p hp)
      (by
        intro p hp v hv
        apply hk
        unfold eqnsVars
        rw [List.flatMap_cons]
        simp only [List.mem_append] at hp ⊢
        rcases hp with hp | hp
        · have := (List.of_mem_zip (a := p.1) (b := p.2) hp).1
          rw [hv] at this
          exact Or.inl (Or.inl (mem_atomVars.2 this))
        · have := (List.of_mem_zip (a := p.1) (b := p.2) hp).1
          rw [hv] at this
          simp only [List.mem_map, Atom.var.injEq, exists_eq_right] at this
          exact Or.inl (Or.inr this))
    rw [hm1]
    exact sameEqns_complete es0 ign m' es1 ρ hm2 h6 fun v hv => hk v (by
      unfold eqnsVars
      rw [List.flatMap_cons]
      exact List.mem_append_right _ hv)

theorem paramsLoop_complete : ∀ (q0 q1 : List (String × Param C P)), SameValues q0 q1 →
    paramsLoop q0 q1 = .ok true
  | [], _, _ => rfl
  | (k, v) :: q0, q1, h => by
    simp only [paramsLoop]
    by_cases hk : k ∈ ignoredParams
    · rw [if_pos hk]
      exact paramsLoop_complete q0 q1 h.2
    · rw [if_neg hk]
      obtain ⟨v1, h1, h2⟩ := h.1 hk
      rw [h1]
      simp only [paramEquiv_complete v v1 h2, py_ok_bind, Bool.not_true, Bool.false_eq_true, if_false]
      exact paramsLoop_complete q0 q1 h.2

theorem paramEquiv_complete : ∀ (v v1 : Param C P), SameParam v v1 → paramEquiv v v1 = .ok true
  | .closedJaxpr j0 _, v1, h => by
    cases v1 with
    | closedJaxpr j1 _ => exact sameJaxpr_complete j0 true j1 h
    | jaxpr _ => exact h.elim
    | function _ => exact h.elim
    | other _ => exact h.elim
  | .jaxpr j0, v1, h => by
    cases v1 with
    | jaxpr j1 => exact sameJaxpr_complete j0 true j1 h
    | closedJaxpr _ _ => exact h.elim
    | function _ => exact h.elim
    | other _ => exact h.elim
  | .function _, v1, h => by
    cases v1 with
    | function _ => rfl
    | closedJaxpr _ _ => exact h.elim
    | jaxpr _ => exact h.elim
    | other _ => exact h.elim
  | .other p0, v1, h => by
    cases v1 with
    | other p1 =>
      have h : p0 = p1 := h
      simp [paramEquiv, h]
    | closedJaxpr _ _ => exact h.elim
    | jaxpr _ => exact h.elim
    | function _ => exact h.elim
end

end JE
end AB
