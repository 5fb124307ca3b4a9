/-
C46, C47, C48: rejected programs, propagated trust regions, constant folding
(/repo/autobound/jax/jax_bound.py:61-212).
-/
import Verif.Props.TaylorMain2

set_option linter.unusedSectionVars false

namespace AB
variable {K : Type} [Field K] [LinearOrder K] [IsStrictOrderedRing K]

namespace JB
open TEA Lax

/-! ### C46 -/

/-- **C46 (negative degree).** -/
theorem C46_negative_degree (lib : Lib K) (jaxpr : Jaxpr K) (consts : List (ND K)) (maxDegree : ℤ)
    (propagate : Bool) (x0 lo hi : ND K) (h : maxDegree < 0) :
    taylorBounds lib jaxpr consts maxDegree propagate x0 lo hi = .error .valueError := by
  unfold taylorBounds taylorEnv
  rw [if_pos h]
  rfl

/-- **C46 (rank).** Reference points of rank 2 or more are rejected. -/
theorem C46_rank (lib : Lib K) (jaxpr : Jaxpr K) (consts : List (ND K)) (maxDegree : ℤ) (propagate : Bool)
    (x0 lo hi : ND K) (h : 0 ≤ maxDegree) (hlo : lo.shape = x0.shape) (hhi : hi.shape = x0.shape)
    (hr : 2 ≤ x0.shape.length) :
    taylorBounds lib jaxpr consts maxDegree propagate x0 lo hi = .error .notImplemented := by
  have hid : identityCoef x0 = .error .notImplemented := by
    unfold identityCoef
    split
    · rename_i h; rw [h] at hr; simp at hr
    · rename_i h; rw [h] at hr; simp at hr
    · rfl
  unfold taylorBounds taylorEnv
  rw [if_neg (by omega)]
  have hsub : IA.subtract (.ivl lo hi) (.arr x0) = .ok (.ivl ⟨lo.shape, fun I => lo.bget I - x0.bget I⟩
      ⟨hi.shape, fun I => hi.bget I - x0.bget I⟩) := by
    simp only [IA.subtract, ND.map2_same (fun a b : K => a - b) hlo, ND.map2_same (fun a b : K => a - b) hhi,
      py_ok_bind]
    rfl
  simp only [hsub, py_ok_bind, TEA.init, hlo, hhi, ne_eq, not_true_eq_false, if_false, initEnv, hid]
  rfl

theorem noRule_iff (lib : Lib K) (T : TEA K) (p : Prim K) : pushforward lib T p = none ↔ NoRule lib p := by
  cases p <;> simp [pushforward, NoRule]

/-- **C46 (unsupported primitive).** When the interpreter reaches an equation whose arguments are not all
constants and whose primitive has no enclosure rule, it raises `NotImplementedError`. -/
theorem C46_no_rule {lib : Lib K} {T T0 : TEA K} {propagate : Bool} {xs : List ℕ} {env : Env K} {eqn : Eqn K}
    {ins : List (Inter K)} (hins : eqn.invars.mapM (getInter env) = .ok ins)
    (hnc : ∃ i ∈ ins, i.isConstant = false) (hp : NoRule lib eqn.prim) :
    step lib T T0 propagate xs env eqn = .error .notImplemented := by
  have hm : ins.mapM Inter.constantValue = none := by
    obtain ⟨i, hi, hc⟩ := hnc
    rw [← Option.not_isSome_iff_eq_none, Bool.not_eq_true, ← Bool.not_eq_true]
    intro h
    obtain ⟨cs, hcs⟩ := Option.isSome_iff_exists.1 h
    clear h hins
    induction ins generalizing cs with
    | nil => cases hi
    | cons j l ih =>
      rw [List.mapM_cons] at hcs
      simp only [Option.bind_eq_bind, Option.bind_eq_some_iff, Option.pure_def, Option.some.injEq] at hcs
      obtain ⟨u, hu, us, hus, rfl⟩ := hcs
      rcases List.mem_cons.1 hi with rfl | hi
      · unfold Inter.isConstant at hc
        rw [hu] at hc
        cases hc
      · exact ih hi us hus
  simp only [step, hins, py_ok_bind, eqnOutputs, hm, (noRule_iff lib T eqn.prim).2 hp]
  rfl

theorem foldlM_error {α β : Type} {f : β → α → Py β} {pre post : List α} {x : α} {b c : β} {e : PyErr}
    (h1 : pre.foldlM f b = .ok c) (h2 : f c x = .error e) : (pre ++ x :: post).foldlM f b = .error e := by
  rw [List.foldlM_append, h1, py_ok_bind, List.foldlM_cons, h2]
  rfl

/-- **C46 (whole program).** A program that contains such an equation is rejected, whatever follows. -/
theorem C46_program {lib : Lib K} {jaxpr : Jaxpr K} {consts : List (ND K)} {maxDegree : ℤ} {propagate : Bool}
    {x0 lo hi : ND K} {pre post : List (Eqn K)} {eqn : Eqn K} (he : jaxpr.eqns = pre ++ eqn :: post)
    {env : Env K} (hpre : taylorEnv lib { jaxpr with eqns := pre } consts maxDegree propagate x0 lo hi = .ok env)
    {ins : List (Inter K)} (hins : eqn.invars.mapM (getInter env) = .ok ins)
    (hnc : ∃ i ∈ ins, i.isConstant = false) (hp : NoRule lib eqn.prim) :
    taylorBounds lib jaxpr consts maxDegree propagate x0 lo hi = .error .notImplemented := by
  obtain ⟨hmd, tlo, thi, T, T0, env0, ht, hT, hT0, henv, hrun⟩ := taylorEnv_inv hpre
  have henv' : initEnv (propagate && (maxDegree != 0)) maxDegree.toNat jaxpr consts x0 lo hi = .ok env0 := henv
  have hrun' : pre.foldlM (step lib T T0 (propagate && (maxDegree != 0)) x0.shape) env0 = .ok env := hrun
  unfold taylorBounds taylorEnv
  rw [if_neg (by omega)]
  simp only [ht, hT, hT0, henv', py_ok_bind, he,
    foldlM_error hrun' (C46_no_rule (T := T) (T0 := T0) (propagate := propagate && (maxDegree != 0))
      (xs := x0.shape) hins hnc hp)]
  rfl

/-- **C46 (nothing is skipped).** If `taylor_bounds` succeeds, every equation was handled: its arguments were
found, and they are all constants or the primitive has an enclosure rule. -/
theorem C46_nothing_skipped {lib : Lib K} {jaxpr : Jaxpr K} {consts : List (ND K)} {maxDegree : ℤ}
    {propagate : Bool} {x0 lo hi : ND K} {env' : Env K}
    (h : taylorEnv lib jaxpr consts maxDegree propagate x0 lo hi = .ok env')
    {pre post : List (Eqn K)} {eqn : Eqn K} (he : jaxpr.eqns = pre ++ eqn :: post) :
    ∃ env ins, taylorEnv lib { jaxpr with eqns := pre } consts maxDegree propagate x0 lo hi = .ok env ∧
      eqn.invars.mapM (getInter env) = .ok ins ∧
      ((∀ i ∈ ins, i.isConstant = true) ∨ ¬ NoRule lib eqn.prim) := by
  obtain ⟨hmd, tlo, thi, T, T0, env0, ht, hT, hT0, henv, hrun⟩ := taylorEnv_inv h
  rw [he, List.foldlM_append, py_bind_ok] at hrun
  obtain ⟨env, hpre, hrun⟩ := hrun
  rw [List.foldlM_cons, py_bind_ok] at hrun
  obtain ⟨env1, hstep, -⟩ := hrun
  have hins : ∃ ins, eqn.invars.mapM (getInter env) = .ok ins := by
    simp only [step, py_bind_ok] at hstep
    obtain ⟨ins, hins, -⟩ := hstep
    exact ⟨ins, hins⟩
  obtain ⟨ins, hins⟩ := hins
  refine ⟨env, ins, ?_, hins, ?_⟩
  · have henv' : initEnv (propagate && (maxDegree != 0)) maxDegree.toNat { jaxpr with eqns := pre } consts x0 lo hi
        = .ok env0 := henv
    unfold taylorEnv
    rw [if_neg (by omega)]
    simp only [ht, hT, hT0, henv', py_ok_bind]
    exact hpre
  · by_cases hc : ∀ i ∈ ins, i.isConstant = true
    · exact Or.inl hc
    · right
      intro hp
      push Not at hc
      obtain ⟨i, hi, hne⟩ := hc
      rw [C46_no_rule hins ⟨i, hi, by simpa using hne⟩ hp] at hstep
      cases hstep

/-! ### C47 -/

theorem regions_step {lib : Lib K} {T T0 : TEA K} {xs : List ℕ} {env env' : Env K} {eqn : Eqn K}
    (h : ∀ v i, env.lookup v = some i → ∃ r, i.tr = some r)
    (hs : step lib T T0 true xs env eqn = .ok env') : ∀ v i, env'.lookup v = some i → ∃ r, i.tr = some r := by
  simp only [step, py_bind_ok] at hs
  obtain ⟨ins, hins, outs, houts, hs⟩ := hs
  split_ifs at hs
  have ho : ∀ o ∈ outs, ∃ r, o.tr = some r := by
    unfold eqnOutputs at houts
    cases hc : ins.mapM Inter.constantValue with
    | some cs =>
      rw [hc] at houts
      simp only [py_bind_ok, py_pure] at houts
      obtain ⟨rs, _, rfl⟩ := houts
      intro o ho
      obtain ⟨r, _, rfl⟩ := List.mem_map.1 ho
      exact ⟨_, rfl⟩
    | none =>
      rw [hc] at houts
      cases hf : pushforward lib T eqn.prim with
      | none => simp only [hf] at houts; cases houts
      | some f =>
        simp only [hf, py_bind_ok, if_true] at houts
        obtain ⟨e, he, houts⟩ := houts
        split_ifs at houts
        simp only [py_bind_ok, py_pure] at houts
        obtain ⟨r, _, rfl⟩ := houts
        intro o ho
        rw [List.mem_singleton] at ho
        subst ho; exact ⟨_, rfl⟩
  have hz : ∀ x ∈ eqn.outvars.zip outs, ∃ r, x.2.tr = some r := fun x hx => ho _ (List.of_mem_zip hx).2
  revert hs hz
  generalize eqn.outvars.zip outs = l
  intro hs hz
  clear houts ho hins
  induction l generalizing env with
  | nil => cases hs; exact h
  | cons x l ih =>
    rw [List.foldlM_cons, py_bind_ok] at hs
    obtain ⟨env1, h1, hs⟩ := hs
    refine ih ?_ hs (fun y hy => hz y (by simp [hy]))
    unfold storeOne at h1
    split_ifs at h1
    · cases h1; exact h
    · simp only [py_bind_ok, py_pure] at h1
      obtain ⟨_, _, rfl⟩ := h1
      intro w j hj
      rw [List.lookup_cons] at hj
      by_cases hw : (w == x.1) = true
      · rw [hw] at hj
        cases hj
        exact hz x (by simp)
      · have hw : (w == x.1) = false := by simpa using hw
        rw [hw] at hj
        exact h w j hj

/-- **C47 (propagated trust regions).** With `propagate_trust_regions=True` and `max_degree ≥ 1`, every variable
`v` of the program has a propagated trust region, and for every `x` in the trust region of the input, this
region contains the value of `v` when `f` is evaluated at `x`.  (That the final bounds remain sound is C42,
which holds for both values of `propagate`.) -/
theorem C47_propagated_regions {lib : Lib K} {sem : Sem K} (hlib : LibSound lib sem) {jaxpr : Jaxpr K}
    {consts : List (ND K)} {maxDegree : ℤ} (hmd : 1 ≤ maxDegree) {x0 lo hi x : ND K} {env : Env K}
    (hlh : lo.shape = hi.shape) (h0 : (Coef.ivl lo hi).Contains x0) (hx : (Coef.ivl lo hi).Contains x)
    (hb : taylorEnv lib jaxpr consts maxDegree true x0 lo hi = .ok env)
    (hok : TaylorBoundsOk lib jaxpr consts maxDegree true x0 lo hi)
    {vals : Vals K} (hev : evalEnv sem jaxpr consts x = .ok vals) (hne : NonEmptyVals vals)
    {v : ℤ} {i : Inter K} (hv : env.lookup v = some i) :
    ∃ r a, i.tr = some r ∧ vals.lookup v = some a ∧ r.Contains a := by
  obtain ⟨z, -, -, -, hE⟩ := taylorEnv_sound hlib hlh h0 hx hb hok hev hne
  obtain ⟨a, ha, hi'⟩ := hE v i hv
  have htr : ∃ r, i.tr = some r := by
    obtain ⟨-, tlo, thi, T, T0, env0, ht, hT, hT0, henv, hrun⟩ := taylorEnv_inv hb
    have hp : (true && (maxDegree != 0)) = true := by
      have : maxDegree ≠ 0 := by omega
      simpa using this
    rw [hp] at hrun henv
    have hinit : ∀ v i, env0.lookup v = some i → ∃ r, i.tr = some r := by
      obtain ⟨identity, w, hid, hcl, -, rfl⟩ := initEnv_inv henv
      intro v i hv
      rw [List.lookup_cons] at hv
      split at hv
      · cases hv; exact ⟨_, rfl⟩
      · obtain ⟨a, -, rfl⟩ := lookup_zip_const hcl hv
        exact ⟨_, rfl⟩
    have : ∀ (l : List (Eqn K)) (env0 : Env K), (∀ v i, env0.lookup v = some i → ∃ r, i.tr = some r) →
        l.foldlM (step lib T T0 true x0.shape) env0 = .ok env →
        ∀ v i, env.lookup v = some i → ∃ r, i.tr = some r := by
      intro l
      induction l with
      | nil => intro env0 h hr; cases hr; exact h
      | cons q l ih =>
        intro env0 h hr
        rw [List.foldlM_cons, py_bind_ok] at hr
        obtain ⟨env1, h1, h2⟩ := hr
        exact ih env1 (regions_step h h1) h2
    exact this _ _ hinit hrun v i hv
  obtain ⟨r, hr⟩ := htr
  obtain ⟨q1, q2, q3, -, -⟩ := hi'.reg r hr
  exact ⟨r, a, hr, ha, q2.symm, fun I hI => q3 I (q2 ▸ hI)⟩

/-! ### C48 -/

/-- `v` is known to the interpreter as the constant it evaluates to -/
def KnownConst (env : Env K) (vals : Vals K) (v : ℤ) : Prop :=
  ∃ a, env.lookup v = some (constantInter a) ∧ vals.lookup v = some a

theorem known_store {xs : List ℕ} {env env' : Env K} {vals : Vals K} {v : ℤ} {i : Inter K} {a : ND K}
    (hs : storeOne xs env (v, i) = .ok env') {w : ℤ} (hw : KnownConst env vals w) :
    KnownConst env' (storeVal vals (v, a)) w := by
  unfold storeOne at hs
  unfold storeVal
  simp only at hs ⊢
  by_cases hv : v = -1
  · rw [if_pos hv] at hs
    rw [if_pos hv]
    cases hs; exact hw
  · rw [if_neg hv] at hs
    rw [if_neg hv]
    split_ifs at hs with h1
    simp only [py_bind_ok, py_pure] at hs
    obtain ⟨_, _, rfl⟩ := hs
    obtain ⟨b, hb1, hb2⟩ := hw
    have hne : (w == v) = false := by
      rw [beq_eq_false_iff_ne]
      rintro rfl
      rw [hb1] at h1
      exact h1 rfl
    exact ⟨b, by rw [List.lookup_cons, hne]; exact hb1, by rw [List.lookup_cons, hne]; exact hb2⟩

theorem known_store_new {xs : List ℕ} {env env' : Env K} {vals : Vals K} {v : ℤ} {a : ND K}
    (hs : storeOne xs env (v, constantInter a) = .ok env') (hv : v ≠ -1) :
    KnownConst env' (storeVal vals (v, a)) v := by
  unfold storeOne at hs
  unfold storeVal
  simp only at hs ⊢
  rw [if_neg hv] at hs
  rw [if_neg hv]
  split_ifs at hs
  simp only [py_bind_ok, py_pure] at hs
  obtain ⟨_, _, rfl⟩ := hs
  exact ⟨a, by simp, by simp⟩

theorem known_stores {xs : List ℕ} {outvars : List ℤ} {outs : List (Inter K)} {ys : List (ND K)}
    {env env' : Env K} {vals : Vals K} (hl : outvars.length = ys.length) (hl' : outs.length = outvars.length)
    (hs : (outvars.zip outs).foldlM (storeOne xs) env = .ok env') :
    (∀ w, KnownConst env vals w → KnownConst env' ((outvars.zip ys).foldl storeVal vals) w) ∧
    (outs = ys.map constantInter → ∀ v ∈ outvars, v ≠ -1 →
      KnownConst env' ((outvars.zip ys).foldl storeVal vals) v) := by
  induction outvars generalizing outs ys env vals with
  | nil =>
    cases hs
    exact ⟨fun w h => h, fun _ v hv => by cases hv⟩
  | cons v vs ih =>
    rcases outs with _ | ⟨i, is⟩
    · simp at hl'
    rcases ys with _ | ⟨y, ys⟩
    · simp at hl
    rw [List.zip_cons_cons, List.foldlM_cons, py_bind_ok] at hs
    obtain ⟨env1, hs1, hs2⟩ := hs
    rw [List.zip_cons_cons, List.foldl_cons]
    obtain ⟨k1, k2⟩ := ih (vals := storeVal vals (v, y)) (ys := ys) (by simpa using hl) (by simpa using hl') hs2
    refine ⟨fun w hw => k1 w (known_store hs1 hw), ?_⟩
    intro he w hw hne
    rw [List.map_cons, List.cons.injEq] at he
    obtain ⟨rfl, he⟩ := he
    rcases List.mem_cons.1 hw with rfl | hw
    · exact k1 w (known_store_new hs1 hne)
    · exact k2 he w hw hne

theorem known_args {env : Env K} {vals : Vals K} {cs : List ℤ} (h : ∀ v ∈ cs, KnownConst env vals v)
    {atoms : List (Atom K)} (ha : atoms.all (Atom.constIn cs) = true) :
    ∃ args, atoms.mapM (getInter env) = .ok (args.map constantInter) ∧ atoms.mapM (getVal vals) = .ok args := by
  induction atoms with
  | nil => exact ⟨[], rfl, rfl⟩
  | cons a l ih =>
    rw [List.all_cons, Bool.and_eq_true] at ha
    obtain ⟨args, h1, h2⟩ := ih ha.2
    have : ∃ u, getInter env a = .ok (constantInter u) ∧ getVal vals a = .ok u := by
      cases a with
      | lit u => exact ⟨u, rfl, rfl⟩
      | var v =>
        have hv : v ∈ cs := by simpa [Atom.constIn] using ha.1
        obtain ⟨u, hu1, hu2⟩ := h v hv
        exact ⟨u, by simp only [getInter, hu1], by simp only [getVal, hu2]⟩
    obtain ⟨u, hu1, hu2⟩ := this
    refine ⟨u :: args, ?_, ?_⟩
    · rw [List.mapM_cons, hu1, h1]; rfl
    · rw [List.mapM_cons, hu2, h2]; rfl

theorem constantValues_map (args : List (ND K)) :
    (args.map constantInter).mapM Inter.constantValue = some args := by
  induction args with
  | nil => rfl
  | cons a l ih =>
    rw [List.map_cons, List.mapM_cons, ih]
    rfl

theorem known_init {propagate : Bool} {md : ℕ} {jaxpr : Jaxpr K} {consts : List (ND K)} {x0 lo hi x : ND K}
    {env0 : Env K} (hdisj : ∀ v ∈ jaxpr.invars, v ∉ jaxpr.constvars)
    (henv : initEnv propagate md jaxpr consts x0 lo hi = .ok env0) :
    ∀ v ∈ jaxpr.constvars, KnownConst env0 (evalInit jaxpr consts x) v := by
  obtain ⟨identity, w, hid, hcl, hw, rfl⟩ := initEnv_inv henv
  intro v hv
  have hne : (v == w) = false := by
    rw [beq_eq_false_iff_ne]
    rintro rfl
    exact hdisj v (by rw [hw]; simp) hv
  have hex : ∃ a, (jaxpr.constvars.zip (consts.map constantInter)).lookup v = some (constantInter a) ∧
      (jaxpr.constvars.zip consts).lookup v = some a := by
    clear hne hw hdisj henv
    revert hcl hv
    generalize jaxpr.constvars = vs
    intro hcl hv
    induction vs generalizing consts with
    | nil => cases hv
    | cons u vs ih =>
      rcases consts with _ | ⟨c, cs⟩
      · simp at hcl
      rw [List.map_cons, List.zip_cons_cons, List.zip_cons_cons, List.lookup_cons, List.lookup_cons]
      by_cases hu : (v == u) = true
      · rw [hu]; exact ⟨c, rfl, rfl⟩
      · have hu' : (v == u) = false := by simpa using hu
        rw [hu']
        refine ih (by simpa using hcl) ?_
        rcases List.mem_cons.1 hv with rfl | h
        · simp at hu
        · exact h
  obtain ⟨a, h1, h2⟩ := hex
  refine ⟨a, ?_, ?_⟩
  · rw [List.lookup_cons, hne]; exact h1
  · unfold evalInit
    rw [hw, List.map_cons, List.map_nil, List.singleton_append, List.lookup_cons, hne]
    exact h2

theorem known_step {z : ND K} {lib : Lib K} {sem : Sem K} (hlib : LibSoundAt z lib sem) {T T0 : TEA K} {propagate : Bool}
    {xs : List ℕ} {q : Eqn K} {cs : List ℤ} {env0 env1 : Env K} {vals0 vals1 : Vals K}
    (hinit : ∀ v ∈ cs, KnownConst env0 vals0 v) (he1 : evalEqn sem vals0 q = .ok vals1)
    (hs1 : step lib T T0 propagate xs env0 q = .ok env1) :
    ∀ w ∈ (if q.invars.all (Atom.constIn cs) then cs ++ q.outvars.filter (· ≠ -1) else cs),
      KnownConst env1 vals1 w := by
  simp only [step, py_bind_ok] at hs1
  obtain ⟨ins, hins, outs, houts, hs1⟩ := hs1
  by_cases hol : outs.length ≠ q.outvars.length
  · rw [if_pos hol] at hs1; cases hs1
  rw [if_neg hol] at hs1
  rw [not_not] at hol
  simp only [evalEqn, py_bind_ok] at he1
  obtain ⟨args, hargs, ys, hys, he1⟩ := he1
  by_cases hyl : ys.length ≠ q.outvars.length
  · rw [if_pos hyl] at he1; cases he1
  rw [if_neg hyl] at he1
  rw [not_not] at hyl
  cases he1
  obtain ⟨k1, k2⟩ := known_stores (vals := vals0) hyl.symm hol hs1
  intro w hw
  by_cases hall : q.invars.all (Atom.constIn cs) = true
  · rw [if_pos hall] at hw
    rcases List.mem_append.1 hw with hw | hw
    · exact k1 w (hinit w hw)
    · rw [List.mem_filter] at hw
      refine k2 ?_ w hw.1 (by simpa using hw.2)
      obtain ⟨args', h1, h2⟩ := known_args hinit hall
      rw [h1] at hins
      cases hins
      rw [h2] at hargs
      cases hargs
      unfold eqnOutputs at houts
      rw [constantValues_map] at houts
      simp only [py_bind_ok, py_pure] at houts
      obtain ⟨rs, hrs, rfl⟩ := houts
      have := bind_okLe hlib _ _ _ hrs
      rw [hys] at this
      cases this
      rfl
  · rw [if_neg hall] at hw
    exact k1 w (hinit w hw)

/-- **C48 (constant folding).** Every variable that does not depend on the input variable is known to the
interpreter as one array, without any interval, and this array is the value of the variable in every
evaluation of `f`. -/
theorem C48_constant_folding {lib : Lib K} {sem : Sem K} (hlib : LibSound lib sem) {jaxpr : Jaxpr K}
    {consts : List (ND K)} {maxDegree : ℤ} {propagate : Bool} {x0 lo hi x : ND K} {env : Env K}
    (hb : taylorEnv lib jaxpr consts maxDegree propagate x0 lo hi = .ok env)
    (hdisj : ∀ v ∈ jaxpr.invars, v ∉ jaxpr.constvars)
    {vals : Vals K} (hev : evalEnv sem jaxpr consts x = .ok vals) {v : ℤ} (hv : v ∈ constantVars jaxpr) :
    ∃ a, env.lookup v = some ⟨[.arr a], some (.ivl a a)⟩ ∧ vals.lookup v = some a := by
  obtain ⟨-, tlo, thi, T, T0, env0, ht, hT, hT0, henv, hrun⟩ := taylorEnv_inv hb
  have hinit := known_init (x := x) hdisj henv
  unfold evalEnv at hev
  unfold constantVars at hv
  revert hv hinit hrun hev
  generalize jaxpr.constvars = cs
  generalize evalInit jaxpr consts x = vals0
  generalize jaxpr.eqns = l
  clear henv hb
  intro hev hv hrun hinit
  induction l generalizing env0 cs vals0 with
  | nil =>
    cases hrun; cases hev
    exact hinit v hv
  | cons q l ih =>
    rw [List.foldlM_cons, py_bind_ok] at hrun hev
    obtain ⟨env1, hs1, hs2⟩ := hrun
    obtain ⟨vals1, he1, he2⟩ := hev
    rw [List.foldl_cons] at hv
    exact ih env1 _ _ he2 hv hs2 (known_step (hlib.at (.scalar 0)) hinit he1 hs1)

end JB
end AB
