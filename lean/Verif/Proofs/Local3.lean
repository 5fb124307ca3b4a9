/-
The whole run, on trust regions that shrink to the reference point.
-/
import Verif.Proofs.Local2

set_option linter.unusedSectionVars false

namespace AB
open EF PE Set TEA

namespace JB

/-- constant folding, with tables that are right at one point -/
theorem folded_at {K : Type} [Field K] [LinearOrder K] [IsStrictOrderedRing K] {lib : Lib K} {sem : Sem K} {z : ND K}
    (hlib : LibSoundAt z lib sem) {jaxpr : Jaxpr K}
    {consts : List (ND K)} {maxDegree : ℤ} {propagate : Bool} {x0 lo hi x : ND K} {env : Env K}
    (hb : taylorEnv lib jaxpr consts maxDegree propagate x0 lo hi = .ok env)
    (hdisj : ∀ v ∈ jaxpr.invars, v ∉ jaxpr.constvars)
    {vals : Vals K} (hev : evalEnv sem jaxpr consts x = .ok vals) {v : ℤ} (hv : v ∈ constantVars jaxpr) :
    ∃ a, env.lookup v = some ⟨[.arr a], some (.ivl a a)⟩ ∧ vals.lookup v = some a := by
  obtain ⟨-, tlo, thi, T, T0, env0, ht, hT, hT0, henv, hrun⟩ := taylorEnv_inv hb
  have hinit := known_init (x := x) hdisj henv
  unfold evalEnv at hev
  unfold constantVars at hv
  revert hv hinit hrun hev
  generalize jaxpr.constvars = cs
  generalize evalInit jaxpr consts x = vals0
  generalize jaxpr.eqns = l
  clear henv hb
  intro hev hv hrun hinit
  induction l generalizing env0 cs vals0 with
  | nil =>
    cases hrun; cases hev
    exact hinit v hv
  | cons q l ih =>
    rw [List.foldlM_cons, py_bind_ok] at hrun hev
    obtain ⟨env1, hs1, hs2⟩ := hrun
    obtain ⟨vals1, he1, he2⟩ := hev
    rw [List.foldl_cons] at hv
    exact ih env1 _ _ he2 hv hs2 (known_step hlib hinit he1 hs1)

theorem mapM_constant {K : Type} [Field K] [LinearOrder K] {l : List (Inter K)} (h : ∀ x ∈ l, ∃ a, x = constantInter a) :
    l.mapM Inter.constantValue ≠ none := by
  induction l with
  | nil => simp
  | cons x l ih =>
    obtain ⟨a, rfl⟩ := h x (by simp)
    cases hl : l.mapM Inter.constantValue with
    | none => exact absurd hl (ih fun x hx => h x (List.mem_cons_of_mem _ hx))
    | some vs =>
      rw [List.mapM_cons, hl]
      intro h
      cases h

theorem forall₂_mem_right {α β : Type} {R : α → β → Prop} {l : List α} {l' : List β} (h : List.Forall₂ R l l') {b : β}
    (hb : b ∈ l') : ∃ a ∈ l, R a b := by
  induction h with
  | nil => cases hb
  | cons h1 _ ih =>
    rcases List.mem_cons.1 hb with rfl | hb
    · exact ⟨_, by simp, h1⟩
    · obtain ⟨a, h2, h3⟩ := ih hb
      exact ⟨a, List.mem_cons_of_mem _ h2, h3⟩

section
variable {ι : Type} {w : ι → ℝ} {i0 : ι}

/-- for small trust regions, the restricted tables give the same run -/
theorem local_of_fix (hw : ∀ i, 0 ≤ w i) {jaxpr : Jaxpr ℝ} {consts : List (ND ℝ)} {maxDegree : ℤ} (hmd : 0 < maxDegree)
    {x0 : ND ℝ} {lo hi : ι → ND ℝ} (hs : Shrink w i0 x0 lo hi) (hlh : ∀ i, (lo i).shape = (hi i).shape)
    (h0 : ∀ i, (Coef.ivl (lo i) (hi i)).Contains x0) (hfit : ProgramFits realSem jaxpr consts x0)
    (hsm : SmoothArgs jaxpr consts maxDegree.toNat x0)
    (hp : ∀ eqn ∈ jaxpr.eqns, PrimIsotone eqn.prim) (hq : ∀ eqn ∈ jaxpr.eqns, PrimLipschitz eqn.prim)
    {vals : Vals ℝ} (hev : evalEnv realSem jaxpr consts x0 = .ok vals) (hne : NonEmptyVals vals) :
    ∀ pre post : List (Eqn ℝ), jaxpr.eqns = pre ++ post → ∀ env : ι → Env ℝ,
      (∀ i, taylorEnv fixLib { jaxpr with eqns := pre } consts maxDegree false x0 (lo i) (hi i) = .ok (env i)) →
      ∃ σ : ℝ, 0 < σ ∧ ∀ i, w i ≤ σ →
        taylorEnv localLib { jaxpr with eqns := pre } consts maxDegree false x0 (lo i) (hi i) = .ok (env i) := by
  intro pre
  induction pre using List.reverseRecOn with
  | nil => intro post _ env h; exact ⟨1, one_pos, fun i _ => h i⟩
  | append_singleton pre eqn ih =>
    intro post he env' hb
    rw [List.append_assoc, List.singleton_append] at he
    have hfit' := programFits_prefix he hfit
    obtain ⟨vals0, hev0, hne0⟩ := eval_prefix he hev hne
    have hb' := fun i => taylorEnv_inv (hb i)
    choose _ tlo thi T T0 env0 ht hT hT0 henv hrun using hb'
    simp only [List.foldlM_append, py_bind_ok, List.foldlM_cons] at hrun
    choose env hr1 hrun using hrun
    choose env1 hst hrun using hrun
    have henv' : ∀ i, env1 i = env' i := fun i => Except.ok.inj (hrun i)
    obtain rfl : env1 = env' := funext henv'
    have fold : ∀ lib : Lib ℝ, ∀ i, ∀ l : List (Eqn ℝ), ∀ e, l.foldlM (step lib (T i) (T0 i) false x0.shape) (env0 i) = .ok e →
        taylorEnv lib { jaxpr with eqns := l } consts maxDegree false x0 (lo i) (hi i) = .ok e := by
      intro lib i l e hl
      unfold taylorEnv
      rw [if_neg (by omega)]
      simp only [py_bind_ok]
      refine ⟨_, ht i, ?_⟩
      simp only [py_bind_ok]
      exact ⟨T i, hT i, T0 i, hT0 i, env0 i, henv i, hl⟩
    have unfold' : ∀ lib : Lib ℝ, ∀ i, ∀ l : List (Eqn ℝ), ∀ e,
        taylorEnv lib { jaxpr with eqns := l } consts maxDegree false x0 (lo i) (hi i) = .ok e →
        l.foldlM (step lib (T i) (T0 i) false x0.shape) (env0 i) = .ok e := by
      intro lib i l e hl
      obtain ⟨-, tlo', thi', T', T0', env0', ht', hT', hT0', henv', hr'⟩ := taylorEnv_inv hl
      rw [ht i] at ht'
      cases ht'
      rw [hT i] at hT'
      cases hT'
      rw [hT0 i] at hT0'
      cases hT0'
      have e1 := henv i
      replace henv' : initEnv (false && (maxDegree != 0)) maxDegree.toNat jaxpr consts x0 (lo i) (hi i) = .ok env0' := henv'
      replace e1 : initEnv (false && (maxDegree != 0)) maxDegree.toNat jaxpr consts x0 (lo i) (hi i) = .ok (env0 i) := e1
      rw [e1] at henv'
      cases henv'
      exact hr'
    have hfix : ∀ i, taylorEnv fixLib { jaxpr with eqns := pre } consts maxDegree false x0 (lo i) (hi i) = .ok (env i) :=
      fun i => fold fixLib i pre _ (hr1 i)
    obtain ⟨σ1, hσ1, ih⟩ := ih _ he env hfix
    -- the widths
    obtain ⟨n1, z1⟩ := shrink_thinT hs ht hT
    obtain ⟨n0, z0⟩ := shrink_thinT hs ht hT0
    have hR : ThinRun fixLib w i0 T T0 := ⟨hw, fixLib_isotone, fixLib_lipschitz, n1, n0, z1, z0⟩
    have hthin : ThinEnv w i0 env :=
      thin_run hR (fun q hq' => hp q (by rw [he]; exact List.mem_append_left _ hq'))
        (fun q hq' => hq q (by rw [he]; exact List.mem_append_left _ hq'))
        (thin_initEnv hw (fun h => by simp at h) hs henv) hr1
    -- the values at the reference point
    have sound : ∀ i, ∃ z, ND.map2 (· - ·) x0 x0 = .ok z ∧ (Coef.ivl (tlo i) (thi i)).Contains z ∧
        EnvOk maxDegree.toNat z (env i) vals0 := by
      intro i
      have hok := taylorBoundsOk_of_fits_at (lib := fixLib) hmd.le (propagate := false) (fixLib_at_ref x0) (hlh i) (h0 i)
        hfit' hev0 hne0
      obtain ⟨z, hz, -, -, h⟩ := taylorEnv_sound_at (fixLib_at_ref x0) (hlh i) (h0 i) (h0 i) (hfix i) hok hev0 hne0
      obtain ⟨z', hz', -, hc⟩ := region_shift (hlh i) (h0 i) (ht i) (h0 i)
      rw [hz] at hz'
      cases hz'
      exact ⟨z, hz, hc, h⟩
    choose z hz hzc hE using sound
    have hz0 : ∀ i, (z i).get = fun _ => 0 := by
      intro i
      funext J
      have := hz i
      unfold ND.map2 at this
      split at this
      · cases this
      · rw [← Except.ok.inj this]
        simp
    -- the step
    have hst' := hst
    simp only [step, py_bind_ok] at hst'
    choose ins hins outs houts _ using hst'
    have hfam : FamList (ThinI w i0) ins := by
      refine fam_mapM (P := fun x : ι → Atom ℝ => ∃ a, x = fun _ => a) (E := fun _ => eqn.invars) (f := fun i => getInter (env i)) ?_
        (.const _ fun a _ => ⟨a, rfl⟩) hins
      rintro _ t ⟨a, rfl⟩ h
      exact thin_getInter hw hthin a h
    have hcv : ∀ i, (ins i).mapM Inter.constantValue = (ins i0).mapM Inter.constantValue := by
      intro i
      have := famI_nest hfam i
      revert this
      generalize ins i = x, ins i0 = y
      intro this
      induction this with
      | nil => rfl
      | cons h1 _ ih => rw [List.mapM_cons, List.mapM_cons, h1.constantValue, ih]
    have hcalls : ∃ σ : ℝ, 0 < σ ∧ ∀ i, w i ≤ σ → (ins i).mapM Inter.constantValue = none →
        CallsLe fixLib localLib (T i) eqn.prim (ins i) := by
      cases hc : (ins i0).mapM Inter.constantValue with
      | some vs => exact ⟨1, one_pos, fun i _ h => by rw [hcv i, hc] at h; cases h⟩
      | none =>
        unfold eqnOutputs at houts
        simp only [hcv, hc] at houts
        have hf : ∀ i, ∃ f, pushforward fixLib (T i) eqn.prim = some f := by
          intro i
          have := houts i
          cases hf : pushforward fixLib (T i) eqn.prim with
          | none => rw [hf] at this; cases this
          | some f => exact ⟨f, rfl⟩
        choose f hf using hf
        simp only [hf, py_bind_ok] at houts
        choose e hfe _ using houts
        have hnc : eqn.invars.all (Atom.constIn (constantVars { jaxpr with eqns := pre })) = false := by
          by_contra hall
          have hall : eqn.invars.all (Atom.constIn (constantVars { jaxpr with eqns := pre })) = true := by simpa using hall
          refine mapM_constant (fun x hx => ?_) hc
          obtain ⟨t, ht1, ht2⟩ : ∃ t ∈ eqn.invars, getInter (env i0) t = .ok x := by
            have := Poly.mapM_ok (hins i0)
            exact (forall₂_mem_right this hx)
          have htc := (List.all_eq_true.1 hall) t ht1
          cases t with
          | lit a => cases ht2; exact ⟨a, rfl⟩
          | var v =>
            obtain ⟨a, ha, -⟩ := folded_at (fixLib_at_ref x0 (z i0) (hz i0)) (hfix i0) hfit.1 hev0
              (v := v) (by simpa [Atom.constIn] using htc)
            simp only [getInter, ha] at ht2
            cases ht2
            exact ⟨a, rfl⟩
        have hvals : ∀ x : ι → Inter ℝ, (∀ i, curvedArg eqn.prim (ins i) = some (x i)) →
            ∃ v0, (∀ i, InterOk maxDegree.toNat (z i) (x i) v0) ∧
              ∀ I, ValidIdx v0.shape I → SmoothAt maxDegree.toNat eqn.prim (v0.get I) := by
          intro x hx
          obtain ⟨t, hct, hti⟩ := curvedArg_mapM (hins i0) (hx i0)
          obtain ⟨v0, hv0, -⟩ := getInter_ok (hE i0) hti
          refine ⟨v0, fun i => ?_, hsm pre eqn post t v0 he hnc hct ⟨vals0, hev0, hne0, hv0⟩⟩
          obtain ⟨t', hct', hti'⟩ := curvedArg_mapM (hins i) (hx i)
          rw [hct] at hct'
          cases hct'
          obtain ⟨v1, hv1, hi1⟩ := getInter_ok (hE i) hti'
          rw [hv0] at hv1
          cases hv1
          exact hi1
        obtain ⟨σ, hσ, h⟩ := eqn_near hw n1 z1 (d := maxDegree.toNat) (by omega) hT hzc hz0 hfam hvals hf hfe
        exact ⟨σ, hσ, fun i hi _ => h i hi⟩
    obtain ⟨σ2, hσ2, hcalls⟩ := hcalls
    refine ⟨min σ1 σ2, lt_min hσ1 hσ2, fun i hwi => fold localLib i _ _ ?_⟩
    rw [List.foldlM_append, py_bind_ok]
    refine ⟨env i, unfold' localLib i pre _ (ih i (hwi.trans (min_le_left _ _))), ?_⟩
    rw [List.foldlM_cons, py_bind_ok]
    refine ⟨env1 i, ?_, rfl⟩
    refine callsLe_step (lib := fixLib) (lib' := localLib) rfl rfl (fun ins' hins' hn => ?_) (fun h => by cases h) (hst i)
    rw [hins i] at hins'
    cases hins'
    exact hcalls i (hwi.trans (min_le_right _ _)) hn

end
end JB
end AB
