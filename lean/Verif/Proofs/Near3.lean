/-
C82: the run of `taylor_bounds` with generators that are right up to an error.
-/
import Verif.Proofs.Near2

set_option linter.unusedSectionVars false

namespace AB
variable {K : Type} [Field K] [LinearOrder K] [IsStrictOrderedRing K]
open IA (repS)

namespace JB
open TEA Lax

/-- the same variables, with values of the same shapes -/
abbrev VS (vals vals' : Vals K) : Prop := List.Forall₂ (fun a b => a.1 = b.1 ∧ a.2.shape = b.2.shape) vals vals'

theorem lookup_vs {vals vals' : Vals K} (h : VS vals vals') (v : ℤ) :
    Option.Rel (fun a b : ND K => a.shape = b.shape) (vals.lookup v) (vals'.lookup v) := by
  induction h with
  | nil => exact .none
  | @cons a b l l' h1 _ ih =>
    obtain ⟨a1, a2⟩ := a
    obtain ⟨b1, b2⟩ := b
    obtain ⟨h1, h2⟩ := h1
    have h1 : a1 = b1 := h1
    subst h1
    rw [List.lookup_cons, List.lookup_cons]
    cases v == a1
    · exact ih
    · exact .some h2

theorem getVal_vs {vals vals' : Vals K} (h : VS vals vals') {atoms : List (Atom K)} {args args' : List (ND K)}
    (h1 : atoms.mapM (getVal vals) = .ok args) (h2 : atoms.mapM (getVal vals') = .ok args') : SS args args' := by
  induction atoms generalizing args args' with
  | nil => cases h1; cases h2; exact .nil
  | cons a l ih =>
    rw [List.mapM_cons] at h1 h2
    simp only [py_bind_ok, py_pure] at h1 h2
    obtain ⟨u, hu, us, hus, rfl⟩ := h1
    obtain ⟨u', hu', us', hus', rfl⟩ := h2
    refine .cons ?_ (ih hus hus')
    cases a with
    | lit c => cases hu; cases hu'; rfl
    | var v =>
      have := lookup_vs h v
      unfold getVal at hu hu'
      cases e1 : vals.lookup v with
      | none => simp only [e1] at hu; cases hu
      | some w =>
        cases e2 : vals'.lookup v with
        | none => simp only [e2] at hu'; cases hu'
        | some w' =>
          simp only [e1] at hu
          simp only [e2] at hu'
          cases hu; cases hu'
          rw [e1, e2] at this
          cases this with
          | some h => exact h

theorem stores_vs {outvars : List ℤ} {outs outs' : List (ND K)} (ho : SS outs outs') {vals vals' : Vals K}
    (h : VS vals vals') : VS ((outvars.zip outs).foldl storeVal vals) ((outvars.zip outs').foldl storeVal vals') := by
  induction outvars generalizing outs outs' vals vals' with
  | nil => exact h
  | cons v vs ih =>
    cases ho with
    | nil => exact h
    | cons h1 h2 =>
      rw [List.zip_cons_cons, List.zip_cons_cons, List.foldl_cons, List.foldl_cons]
      refine ih h2 ?_
      unfold storeVal
      by_cases hv : v = -1
      · rw [if_pos hv, if_pos hv]; exact h
      · rw [if_neg hv, if_neg hv]; exact .cons ⟨rfl, h1⟩ h

/-- a variable that is not a constant has no trust region of its own -/
def TrNone (env : Env K) : Prop := ∀ v i, env.lookup v = some i → i.tr = none ∨ i.constantValue ≠ none

theorem trNone_ins {env : Env K} (h : TrNone env) {atoms : List (Atom K)} {ins : List (Inter K)}
    (hi : atoms.mapM (getInter env) = .ok ins) : ∀ i ∈ ins, i.tr = none ∨ i.constantValue ≠ none := by
  intro i hi'
  have hF := Poly.mapM_ok hi
  clear hi
  induction hF with
  | nil => cases hi'
  | @cons a j _ _ h1 _ ih =>
    rcases List.mem_cons.1 hi' with rfl | hi'
    · cases a with
      | lit u => cases h1; exact Or.inr (fun h => by cases h)
      | var v =>
        unfold getInter at h1
        cases hl : env.lookup v with
        | none => simp only [hl] at h1; cases h1
        | some j =>
          simp only [hl] at h1
          cases h1
          exact h v _ hl
    · exact ih hi'

theorem trNone_stores {xs : List ℕ} {env env' : Env K} {l : List (ℤ × Inter K)} (h : TrNone env)
    (hl : ∀ x ∈ l, x.2.tr = none ∨ x.2.constantValue ≠ none) (hs : l.foldlM (storeOne xs) env = .ok env') :
    TrNone env' := by
  induction l generalizing env with
  | nil => cases hs; exact h
  | cons x l ih =>
    rw [List.foldlM_cons, py_bind_ok] at hs
    obtain ⟨env1, h1, hs⟩ := hs
    refine ih ?_ (fun y hy => hl y (by simp [hy])) hs
    unfold storeOne at h1
    by_cases hx1 : x.1 = -1
    · rw [if_pos hx1] at h1; cases h1; exact h
    · rw [if_neg hx1] at h1
      split_ifs at h1
      simp only [py_bind_ok, py_pure] at h1
      obtain ⟨_, _, rfl⟩ := h1
      intro w j hj
      rw [List.lookup_cons] at hj
      by_cases hw : (w == x.1) = true
      · rw [hw] at hj
        cases hj
        exact hl x (by simp)
      · have hw : (w == x.1) = false := by simpa using hw
        rw [hw] at hj
        exact h w j hj

section
variable {md : ℕ} {z : ND K} {ε : K} {lib : Lib K} {sem : Sem K} (hlib : LibNear ε lib sem) {T T0 : TEA K}
  {lo hi : ND K} (hinit : TEA.init md lo hi = .ok T) (hz : (Coef.ivl lo hi).Contains z)
  (h0 : (Coef.ivl lo hi).Contains ⟨lo.shape, fun _ => 0⟩)
include hlib hinit hz h0

theorem step_near {env env' : Env K} {vals0 vals0' vals : Vals K} {eqn : Eqn K} (hsh : ShapeOnly eqn.prim)
    (h : EnvOk md z env vals) (hv : VS vals0 vals) (ht : TrNone env)
    (hok : ∀ ins, eqn.invars.mapM (getInter env) = .ok ins → ins.mapM Inter.constantValue = none →
      StepOk z.shape eqn.prim ins)
    (hne : NonEmptyVals vals0') (hev : evalEqn sem vals0 eqn = .ok vals0')
    (hs : step lib T T0 false z.shape env eqn = .ok env') :
    ∃ args outs, eqn.invars.mapM (getVal vals) = .ok args ∧ NearBind ε sem eqn.prim args outs ∧
      outs.length = eqn.outvars.length ∧ EnvOk md z env' ((eqn.outvars.zip outs).foldl storeVal vals) ∧
      VS vals0' ((eqn.outvars.zip outs).foldl storeVal vals) ∧ TrNone env' := by
  simp only [step, py_bind_ok] at hs
  obtain ⟨ins, hins, outs, houts, hs⟩ := hs
  by_cases hlen : outs.length ≠ eqn.outvars.length
  · rw [if_pos hlen] at hs; cases hs
  rw [if_neg hlen] at hs
  rw [not_not] at hlen
  obtain ⟨args, hargs, hF⟩ := getInters_ok h hins
  simp only [evalEqn, py_bind_ok] at hev
  obtain ⟨args0, hargs0, ys0, hys0, hev⟩ := hev
  by_cases hylen : ys0.length ≠ eqn.outvars.length
  · rw [if_pos hylen] at hev; cases hev
  rw [if_neg hylen] at hev
  rw [not_not] at hylen
  cases hev
  have hss : SS args0 args := getVal_vs hv hargs0 hargs
  obtain ⟨ys, hys, hyss⟩ := bind_shapes sem hsh hss hys0
  have hylen' : ys.length = eqn.outvars.length := by rw [← hyss.length_eq]; exact hylen
  refine ⟨args, ?_⟩
  unfold eqnOutputs at houts
  cases hcv : ins.mapM Inter.constantValue with
  | some cs =>
    rw [hcv] at houts
    simp only [py_bind_ok, py_pure] at houts
    obtain ⟨rs, hrs, rfl⟩ := houts
    have hsame := consts_same hF hcv
    have hrs' := bind_okLe (rigidLib_sound hlib z) _ _ _ hrs
    unfold Prim.bind at hrs'
    rw [hsame] at hrs'
    rw [show eqn.prim.eval sem (args.map ND.canon) = .ok ys from hys] at hrs'
    cases hrs'
    refine ⟨ys, hargs, .exact hys, hylen', stores_ok h ?_ hlen.symm hs, stores_vs hyss hv, trNone_stores ht ?_ hs⟩
    · rw [List.forall₂_iff_get]
      refine ⟨by simp [hylen'], fun k h1 h2 => Or.inr ?_⟩
      have : ((eqn.outvars.zip (ys.map constantInter)).get ⟨k, h1⟩).2 = constantInter (ys.get ⟨k, h2⟩) := by
        simp
      rw [this]
      exact const_ok md z _
    · intro x hx
      obtain ⟨r, -, hr⟩ := List.mem_map.1 (List.of_mem_zip hx).2
      right
      rw [← hr]
      intro h
      cases h
  | none =>
    rw [hcv] at houts
    have hstep := hok ins hins hcv
    cases hf : pushforward lib T eqn.prim with
    | none => simp only [hf] at houts; cases houts
    | some f =>
      simp only [hf, py_bind_ok] at houts
      obtain ⟨e, he, houts⟩ := houts
      by_cases ho1 : eqn.outvars.length ≠ 1
      · rw [if_pos ho1] at houts; cases houts
      rw [if_neg ho1] at houts
      rw [not_not] at ho1
      cases houts
      obtain ⟨v, hv'⟩ := List.length_eq_one_iff.1 ho1
      have htn : TrNone env' := trNone_stores ht (fun x hx => by
        have := (List.of_mem_zip hx).2
        rw [List.mem_singleton] at this
        left
        rw [this]) hs
      by_cases hv1 : v = -1
      · refine ⟨ys, hargs, .exact hys, hylen', stores_ok h ?_ hlen.symm hs, stores_vs hyss hv, htn⟩
        obtain ⟨y, hy⟩ := List.length_eq_one_iff.1 (hylen'.trans ho1)
        rw [hv', hy]
        exact .cons (Or.inl hv1) .nil
      obtain ⟨y0, hy0⟩ := List.length_eq_one_iff.1 (hylen.trans ho1)
      subst hy0
      obtain ⟨y, hy⟩ := List.length_eq_one_iff.1 (hylen'.trans ho1)
      subst hy
      have hyy : y0.shape = y.shape := by cases hyss; assumption
      rw [hv'] at hne
      have hyne : ∃ I, ValidIdx y.shape I := by
        rw [← hyy]
        exact hne (v, y0) (mem_storeVals.2 (by simp) hv1)
      obtain ⟨w, hw, hws, q1, q2⟩ := push_near hlib hinit hz h0 hf hF (trNone_ins ht hins) hcv hstep (by
        intro w hw
        rw [List.mem_singleton] at hw
        subst hw
        exact hyne) hys he
      have hyw : y.shape = w.shape := by cases hws; assumption
      refine ⟨[w], hargs, hw, by simp [ho1], stores_ok h ?_ hlen.symm hs,
        stores_vs (.cons (hyy.trans hyw) .nil) hv, htn⟩
      rw [hv']
      exact .cons (Or.inr ⟨q1, q2, fun r hr => by cases hr⟩) .nil

theorem run_near {eqns : List (Eqn K)} (hsh : ∀ eqn ∈ eqns, ShapeOnly eqn.prim) {env env' : Env K}
    {vals0 vals0' vals : Vals K} (h : EnvOk md z env vals) (hv : VS vals0 vals) (ht : TrNone env)
    (hok : RunOk lib T T0 false z.shape env eqns)
    (hne : NonEmptyVals vals0') (hev : eqns.foldlM (evalEqn sem) vals0 = .ok vals0')
    (hs : eqns.foldlM (step lib T T0 false z.shape) env = .ok env') :
    ∃ vals', NearRun ε sem eqns vals vals' ∧ EnvOk md z env' vals' ∧ VS vals0' vals' := by
  induction eqns generalizing env vals0 vals with
  | nil => cases hev; cases hs; exact ⟨vals, .nil _, h, hv⟩
  | cons eqn eqns ih =>
    rw [List.foldlM_cons, py_bind_ok] at hev hs
    obtain ⟨vals1, he1, he2⟩ := hev
    obtain ⟨env1, hs1, hs2⟩ := hs
    obtain ⟨k1, k2⟩ := hok
    have hsub : ∀ va ∈ vals1, va ∈ vals0' := fun va hva => evalEqns_mem he2 hva
    obtain ⟨args, outs, e1, e2, e3, e4, e5, e6⟩ := step_near hlib hinit hz h0 (hsh eqn (by simp)) h hv ht k1
      (fun va hva => hne va (hsub va hva)) he1 hs1
    obtain ⟨vals', r1, r2, r3⟩ := ih (fun q hq => hsh q (by simp [hq])) e4 e5 e6 (k2 env1 hs1) he2 hs2
    exact ⟨vals', .cons e1 e2 e3 r1, r2, r3⟩
end

theorem trNone_init {md : ℕ} {jaxpr : Jaxpr K} {consts : List (ND K)} {x0 lo hi : ND K} {env : Env K}
    (henv : initEnv false md jaxpr consts x0 lo hi = .ok env) : TrNone env := by
  obtain ⟨identity, v, -, hcl, -, rfl⟩ := initEnv_inv henv
  intro w i hw
  rw [List.lookup_cons] at hw
  by_cases hwv : (w == v) = true
  · rw [hwv] at hw
    cases hw
    exact Or.inl rfl
  · have hwv : (w == v) = false := by simpa using hwv
    rw [hwv] at hw
    obtain ⟨a, -, rfl⟩ := lookup_zip_const hcl hw
    exact Or.inr (fun h => by cases h)

/-- the enclosures computed by `taylor_bounds` contain the result of an execution with small errors -/
theorem taylorBounds_near {ε : K} {lib : Lib K} {sem : Sem K} {jaxpr : Jaxpr K}
    {consts : List (ND K)} {maxDegree : ℤ} {x0 lo hi x : ND K} {bnd : Bounds K}
    (hlib : LibNear ε lib sem) (hsh : ∀ eqn ∈ jaxpr.eqns, ShapeOnly eqn.prim)
    (hlh : lo.shape = hi.shape) (h0 : (Coef.ivl lo hi).Contains x0) (hx : (Coef.ivl lo hi).Contains x)
    (hb : taylorBounds lib jaxpr consts maxDegree false x0 lo hi = .ok bnd)
    (hok : TaylorBoundsOk lib jaxpr consts maxDegree false x0 lo hi)
    {vals : Vals K} (hev : evalEnv sem jaxpr consts x = .ok vals) (hne : NonEmptyVals vals) :
    ∃ z y, ND.map2 (· - ·) x x0 = .ok z ∧ NearValue ε sem jaxpr consts x y ∧ bnd.x0 = x0 ∧
      SoundEncl bnd.coefficients z y ∧ ∃ y0, evalJaxpr sem jaxpr consts x = .ok y0 ∧ y0.shape = y.shape := by
  simp only [taylorBounds, py_bind_ok] at hb
  obtain ⟨env', henv', hb⟩ := hb
  obtain ⟨hmd, tlo, thi, T, T0, env, ht, hT, hT0, henv, hrun⟩ := taylorEnv_inv henv'
  have hrunok := hok tlo thi T T0 env ht hT hT0 henv
  obtain ⟨z, hz, hzs, hzc⟩ := region_shift hlh h0 ht hx
  obtain ⟨z0, hz0, hz0s, hz0c⟩ := region_shift hlh h0 ht h0
  have h00 : (Coef.ivl tlo thi).Contains ⟨tlo.shape, fun _ => 0⟩ := by
    refine ⟨rfl, fun I hI => ?_⟩
    have hs : z0.shape = tlo.shape := hz0c.1
    have := hz0c.2 I hI
    rw [map2_at hz0 (hs ▸ hI), sub_self] at this
    exact this
  have henvok := initEnv_ok hmd hlh h0 hx hz henv
  rw [← hzs] at hrunok hrun
  rw [Bool.false_and] at hrunok hrun henv
  obtain ⟨vals', r1, r2, r3⟩ := run_near hlib hT hzc h00 hsh henvok (List.forall₂_same.2 fun _ _ => ⟨rfl, rfl⟩)
    (trNone_init henv) hrunok hne hev hrun
  split at hb
  case h_2 => cases hb
  rename_i o ho
  simp only [py_bind_ok, py_pure] at hb
  obtain ⟨out, hout, rfl⟩ := hb
  obtain ⟨y, hy1, hy2⟩ := getInter_ok r2 hout
  have hy0 : ∃ y0, getVal vals o = .ok y0 ∧ y0.shape = y.shape := by
    cases o with
    | lit a => cases hy1; exact ⟨_, rfl, rfl⟩
    | var v =>
      have := lookup_vs r3 v
      unfold getVal at hy1
      cases e2 : vals'.lookup v with
      | none => simp only [e2] at hy1; cases hy1
      | some w =>
        simp only [e2] at hy1
        cases hy1
        rw [e2] at this
        cases e1 : vals.lookup v with
        | none => rw [e1] at this; cases this
        | some u =>
          rw [e1] at this
          cases this with
          | some h => exact ⟨u, by simp only [getVal, e1], h⟩
  obtain ⟨y0, hy0, hys⟩ := hy0
  refine ⟨z, y, hz, ⟨vals', o, r1, ho, hy1⟩, rfl, hy2.encl, y0, ?_, hys⟩
  simp only [evalJaxpr, hev, py_ok_bind, ho]
  exact hy0

end JB
end AB
