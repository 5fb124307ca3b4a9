/-
C90: without propagation of trust regions the bounds do not depend on where the origin is: the bounds of `x ↦ f(x + c)` at
`x0` are those of `f` at `x0 + c`, shifted (/repo/autobound/jax/jax_bound.py:61-212).
-/
import Verif.Spec.Shift
import Verif.Proofs.Affine
import Verif.Props.Dataflow
import Verif.Proofs.Bridge
import Verif.Props.TaylorMain
import Verif.Props.Affine
import Verif.Proofs.Pipeline

set_option linter.unusedSectionVars false
set_option linter.unusedSimpArgs false

namespace AB
variable {K : Type} [Field K] [LinearOrder K] [IsStrictOrderedRing K]

theorem bidx_idem (S I : List ℕ) : bidx S (bidx S I) = bidx S I := by
  unfold bidx
  rw [List.reverse_reverse]
  congr 1
  generalize S.reverse = A
  generalize I.reverse = B
  induction A generalizing B with
  | nil => rfl
  | cons a A ih =>
    cases B with
    | nil => rfl
    | cons b B =>
      simp only [List.zipWith_cons_cons, ih, List.cons.injEq, and_true]
      split_ifs <;> rfl

theorem bget_idem (a : ND K) (I : List ℕ) : a.bget (bidx a.shape I) = a.bget I := by
  rw [ND.bget_def, ND.bget_def, bidx_idem]

namespace JB

/-- `a + c`, for an array `c` that broadcasts to the shape of `a` -/
def shifted (a c : ND K) : ND K := ⟨a.shape, fun I => a.bget I + c.bget I⟩

theorem shift_eq {a c : ND K} (hc : bshape c.shape a.shape = some a.shape) :
    ND.map2 (· + ·) a c = .ok (shifted a c) ∧ ND.map2 (· + ·) c a = .ok (shifted a c) := by
  obtain ⟨h1, h2⟩ := map2_into (f := (· + ·)) (ble_iff_bshape.1 hc)
  refine ⟨h1, h2.trans ?_⟩
  simp only [add_comm]
  rfl

theorem sub_shifted {a b c : ND K} (h : b.shape = a.shape) :
    ND.map2 (· - ·) (shifted b c) (shifted a c) = ND.map2 (· - ·) b a := by
  have e : ∀ a : ND K, (shifted a c).shape = a.shape := fun _ => rfl
  have g : ∀ (a : ND K) I, (shifted a c).bget I = a.bget I + c.bget (bidx a.shape I) := fun a I => by
    show a.bget (bidx a.shape I) + c.bget (bidx a.shape I) = _
    rw [bget_idem]
  unfold ND.map2
  rw [e, e, h, bshape_self]
  simp only [g, h, add_sub_add_right_eq_sub]

/-! ### the environments -/

/-- the two environments differ only at `w` -/
structure Agree (w : ℤ) (env1 env2 : Env K) : Prop where
  same : ∀ u, u ≠ w → env2.lookup u = env1.lookup u
  none : env1.lookup w = none

theorem Agree.getInter {w : ℤ} {env1 env2 : Env K} (h : Agree w env1 env2) {a : Atom K} {i : Inter K}
    (ha : JB.getInter env1 a = .ok i) : JB.getInter env2 a = .ok i := by
  cases a with
  | lit _ => exact ha
  | var u =>
    unfold JB.getInter at ha ⊢
    by_cases hu : u = w
    · subst hu
      simp only [h.none] at ha
      cases ha
    · simp only [h.same u hu]
      exact ha

theorem Agree.getInters {w : ℤ} {env1 env2 : Env K} (h : Agree w env1 env2) {l : List (Atom K)} {is : List (Inter K)}
    (hl : l.mapM (JB.getInter env1) = .ok is) : l.mapM (JB.getInter env2) = .ok is := by
  induction l generalizing is with
  | nil => exact hl
  | cons a l ih =>
    rw [List.mapM_cons] at hl ⊢
    simp only [py_bind_ok, py_pure] at hl
    obtain ⟨i, hi, js, hj, rfl⟩ := hl
    rw [h.getInter hi, ih hj]
    rfl

theorem Agree.cons {w : ℤ} {env1 env2 : Env K} (h : Agree w env1 env2) {u : ℤ} (hu : u ≠ w) (i : Inter K) :
    Agree w ((u, i) :: env1) ((u, i) :: env2) := by
  refine ⟨fun x hx => ?_, ?_⟩
  · rw [List.lookup_cons, List.lookup_cons]
    split
    · rfl
    · exact h.same x hx
  · rw [List.lookup_cons, beq_eq_false_iff_ne.2 (Ne.symm hu)]
    exact h.none

theorem Agree.stores {w : ℤ} {xs : List ℕ} {l : List (ℤ × Inter K)} (hw : ∀ vi ∈ l, vi.1 ≠ w) : ∀ {env1 env2 env1' : Env K},
    Agree w env1 env2 → l.foldlM (storeOne xs) env1 = .ok env1' →
    ∃ env2', l.foldlM (storeOne xs) env2 = .ok env2' ∧ Agree w env1' env2' := by
  induction l with
  | nil => exact fun {_ env2 _} h e => by cases e; exact ⟨env2, rfl, h⟩
  | cons a l ih =>
    intro env1 env2 env1' h e
    rw [List.foldlM_cons, py_bind_ok] at e
    obtain ⟨env, e1, e2⟩ := e
    have ha := hw a (List.mem_cons_self ..)
    have : ∃ env', storeOne xs env2 a = .ok env' ∧ Agree w env env' := by
      unfold storeOne at e1 ⊢
      by_cases c1 : a.1 = -1
      · rw [if_pos c1] at e1 ⊢
        cases e1
        exact ⟨_, rfl, h⟩
      rw [if_neg c1] at e1 ⊢
      rw [h.same _ ha]
      by_cases c2 : (env1.lookup a.1).isSome = true
      · rw [if_pos c2] at e1; cases e1
      rw [if_neg c2] at e1 ⊢
      simp only [py_bind_ok, py_pure] at e1
      obtain ⟨_, e0, rfl⟩ := e1
      rw [e0]
      exact ⟨_, rfl, h.cons ha _⟩
    obtain ⟨env', e3, h'⟩ := this
    rw [List.foldlM_cons, e3, py_ok_bind]
    exact ih (fun vi hvi => hw vi (List.mem_cons_of_mem _ hvi)) h' e2

theorem Agree.run {w : ℤ} {lib : Lib K} {T T0 : TEA K} {pr : Bool} {xs : List ℕ} {l : List (Eqn K)}
    (hw : ∀ e ∈ l, w ∉ e.outvars) : ∀ {env1 env2 env1' : Env K}, Agree w env1 env2 →
    l.foldlM (step lib T T0 pr xs) env1 = .ok env1' →
    ∃ env2', l.foldlM (step lib T T0 pr xs) env2 = .ok env2' ∧ Agree w env1' env2' := by
  induction l with
  | nil => exact fun {_ env2 _} h e => by cases e; exact ⟨env2, rfl, h⟩
  | cons a l ih =>
    intro env1 env2 env1' h e
    rw [List.foldlM_cons, py_bind_ok] at e
    obtain ⟨env, e1, e2⟩ := e
    simp only [step, py_bind_ok] at e1
    obtain ⟨ins, i1, outs, i2, i3⟩ := e1
    by_cases hl : outs.length ≠ a.outvars.length
    · rw [if_pos hl] at i3; cases i3
    rw [if_neg hl] at i3
    obtain ⟨env', e3, h'⟩ := h.stores (fun vi hvi hc => hw a (List.mem_cons_self ..) (by
      rw [← hc]
      exact (List.of_mem_zip (show (vi.1, vi.2) ∈ _ from hvi)).1)) i3
    rw [List.foldlM_cons]
    simp only [step, h.getInters i1, py_ok_bind, i2, if_neg hl, e3]
    exact ih (fun e he => hw e (List.mem_cons_of_mem _ he)) h' e2

/-! ### the first equation -/

theorem first_enclosure {lib : Lib K} {T : TEA K} {E E' : Encl K} {pr : Option (Coef K)} {o : Atom K} {c : ND K} {prim : Prim K}
    {args : List (Atom K)} {env : Env K} (hs : ShiftEqn o c prim args) (ho : getInter env o = .ok ⟨E, pr⟩)
    (hE : ∀ v, E ≠ [.arr v]) (h1 : TEA.addCoeffs E [.arr c] = .ok E') (h2 : TEA.addCoeffs [.arr c] E = .ok E')
    (hl : E'.length ≤ T.maxDegree + 1) :
    ∃ ins f, args.mapM (getInter env) = .ok ins ∧ ins.mapM Inter.constantValue = none ∧
      pushforward lib T prim = some f ∧ f ins = .ok E' := by
  have hc : Inter.constantValue (⟨E, pr⟩ : Inter K) = none := by
    unfold Inter.constantValue
    split
    · rename_i v h
      exact absurd h (hE v)
    · rfl
  have add1 : T.add E [.arr c] = .ok E' := by
    unfold TEA.add TEA.truncateIfNecessary
    rw [h1, py_ok_bind, TEA.encloseEnclosure_short hl]
  have add2 : T.add [.arr c] E = .ok E' := by
    unfold TEA.add TEA.truncateIfNecessary
    rw [h2, py_ok_bind, TEA.encloseEnclosure_short hl]
  have hlit : ∀ c : ND K, getInter env (.lit c) = .ok (constantInter c) := fun _ => rfl
  cases hs with
  | add =>
    refine ⟨[⟨E, pr⟩, constantInter c], _, by simp only [List.mapM_cons, List.mapM_nil, ho, hlit, py_ok_bind]; rfl, ?_, rfl, add1⟩
    simp [List.mapM_cons, hc]
  | radd =>
    refine ⟨[constantInter c, ⟨E, pr⟩], _, by simp only [List.mapM_cons, List.mapM_nil, ho, hlit, py_ok_bind]; rfl, ?_, rfl, add2⟩
    simp [List.mapM_cons, hc]
  | sub c0 =>
    refine ⟨[⟨E, pr⟩, constantInter c0], _, by simp only [List.mapM_cons, List.mapM_nil, ho, hlit, py_ok_bind]; rfl, ?_, rfl, ?_⟩
    · simp [List.mapM_cons, hc]
    · show T.subtract E [.arr c0] = _
      unfold TEA.subtract
      have : T.negative [.arr c0] = .ok [.arr (c0.map (- ·))] := by
        unfold TEA.negative TEA.truncateIfNecessary
        rw [TEA.encloseEnclosure_short (by simp)]
        rfl
      rw [this, py_ok_bind]
      exact add1

/-- **C90.** Let `f` be the function of `p` and `g` that of `p` preceded by one equation `x + c`, `c + x` or `x - c`
(`s` is `c`, `c`, `-c`; it broadcasts to the shape of `x0`), so `g(x) = f(x + s)`. Let trust regions not be propagated
(`propagate_trust_regions=False` or `max_degree = 0`). If `taylor_bounds` returns for `f` at `x0 + s` and the trust region
`[lo + s, hi + s]`, then it returns for `g` at `x0` and `[lo, hi]`, with the same coefficients, and for every `x` of the
shape of `x0` the two calls have the same outcome at `x` and `x + s`: the same lower bound and the same upper bound. -/
theorem C90_shift {lib : Lib K} {p : Jaxpr K} {consts : List (ND K)} {maxDegree : ℤ} {propagate : Bool}
    {x0 lo hi s x0' lo' hi' : ND K} {bnd : Bounds K} {prim : Prim K} {args : List (Atom K)} {v w : ℤ}
    (hpr : propagate = false ∨ maxDegree = 0) (hin : p.invars = [v]) (hv : v ≠ -1) (hw : w ≠ -1)
    (hwf : w ∉ v :: p.constvars ++ assigned p.eqns) (hvf : v ∉ p.constvars)
    (hlo : lo.shape = x0.shape) (hhi : hi.shape = x0.shape) (hs : bshape s.shape x0.shape = some x0.shape)
    (hx' : ND.map2 (· + ·) x0 s = .ok x0') (hlo' : ND.map2 (· + ·) lo s = .ok lo') (hhi' : ND.map2 (· + ·) hi s = .ok hi')
    (he : ShiftEqn (.var w) s prim args)
    (hb : taylorBounds lib p consts maxDegree propagate x0' lo' hi' = .ok bnd) :
    ∃ bnd', taylorBounds lib (p.after prim args v w) consts maxDegree propagate x0 lo hi = .ok bnd' ∧
      bnd'.coefficients = bnd.coefficients ∧
      ∀ x x', x.shape = x0.shape → ND.map2 (· + ·) x s = .ok x' →
        bnd'.lower x = bnd.lower x' ∧ bnd'.upper x = bnd.upper x' := by
  obtain ⟨sx, sx'⟩ := shift_eq hs
  obtain ⟨sl, sl'⟩ := shift_eq (a := lo) (c := s) (by rw [hlo]; exact hs)
  obtain ⟨sh, sh'⟩ := shift_eq (a := hi) (c := s) (by rw [hhi]; exact hs)
  rw [sx] at hx'
  cases hx'
  rw [sl] at hlo'
  cases hlo'
  rw [sh] at hhi'
  cases hhi'
  simp only [List.cons_append, List.mem_cons, List.mem_append, not_or] at hwf
  obtain ⟨hwv, hwc, hwa⟩ := hwf
  simp only [taylorBounds, py_bind_ok] at hb
  obtain ⟨envF, hrun, hb⟩ := hb
  obtain ⟨hmd, tlo, thi, T, T0, env0, ht, hT, hT0, hinit, hrun⟩ := taylorEnv_inv hrun
  have hprop : (propagate && (maxDegree != 0)) = false := by
    rcases hpr with h | h <;> simp [h]
  rw [hprop] at hinit hrun
  -- the trust region
  have ht' : IA.subtract (.ivl lo hi) (.arr x0) = .ok (.ivl tlo thi) := by
    rw [← ht]
    simp only [IA.subtract]
    rw [sub_shifted hlo, sub_shifted hhi]
  -- the initial environments
  simp only [initEnv, py_bind_ok] at hinit
  obtain ⟨idc, hid, hinit⟩ := hinit
  by_cases hcl : consts.length ≠ p.constvars.length
  · rw [if_pos hcl] at hinit; cases hinit
  rw [if_neg hcl, hin] at hinit
  simp only [Bool.false_eq_true, if_false, py_pure] at hinit
  have hTd : T.maxDegree = maxDegree.toNat := by
    unfold TEA.init at hT
    split_ifs at hT
    cases hT
    rfl
  have hid' : identityCoef x0 = .ok idc := hid
  have hnone : ∀ u, u ∉ p.constvars → List.lookup u (p.constvars.zip (consts.map (constantInter (K := K)))) = none := by
    intro u hu
    rw [List.lookup_eq_none_iff]
    intro a ha
    have := (List.of_mem_zip (show (a.1, a.2) ∈ _ from ha)).1
    rw [bne_iff_ne]
    rintro rfl
    exact hu this
  -- the enclosure of the argument and its shift
  obtain ⟨E, hE⟩ : ∃ E : Encl K, E = if maxDegree.toNat > 0 then [.arr x0, .arr idc] else [.ivl lo hi] := ⟨_, rfl⟩
  obtain ⟨E', hE'⟩ : ∃ E' : Encl K, E' = if maxDegree.toNat > 0 then [.arr (shifted x0 s), .arr idc] else
    [.ivl (shifted lo s) (shifted hi s)] := ⟨_, rfl⟩
  have hcoef : TEA.addCoeffs E [.arr s] = .ok E' ∧ TEA.addCoeffs [.arr s] E = .ok E' ∧ (∀ v, E ≠ [.arr v]) ∧
      E'.length ≤ T.maxDegree + 1 ∧ validateEnclosure x0.shape E' = .ok () := by
    by_cases hd : maxDegree.toNat > 0
    · rw [if_pos hd] at hE hE'
      subst hE hE'
      refine ⟨?_, ?_, fun v h => (nomatch h), ?_, ?_⟩
      · simp only [TEA.addCoeffs, IA.add, sx, py_ok_bind]; rfl
      · simp only [TEA.addCoeffs, IA.add, sx', py_ok_bind]; rfl
      · simp only [List.length_cons, List.length_nil]; omega
      · unfold validateEnclosure
        rw [if_pos]
        have : idc.shape.length = x0.shape.length + x0.shape.length := by
          rw [identityCoef_shape hid', List.length_append]
        refine List.all_eq_true.2 fun ⟨i, c⟩ hic => ?_
        have hic := Poly.mem_enum.1 hic
        match i with
        | 0 =>
          cases hic
          simp [TEA.coeffShapeOk, TEA.rep, Coef.shape, Coef.ndim, shifted, ND.ndim]
        | 1 =>
          cases hic
          simp [TEA.coeffShapeOk, TEA.rep, Coef.shape, Coef.ndim, ND.ndim, this, identityCoef_shape hid']
        | i + 2 => cases hic
    · rw [if_neg hd] at hE hE'
      subst hE hE'
      refine ⟨?_, ?_, fun v h => (nomatch h), ?_, ?_⟩
      · simp only [TEA.addCoeffs, IA.add, sl, sh, py_ok_bind]; rfl
      · simp only [TEA.addCoeffs, IA.add, sl', sh', py_ok_bind]; rfl
      · simp only [List.length_cons, List.length_nil]; omega
      · unfold validateEnclosure
        rw [if_pos]
        simp [Poly.enum, TEA.coeffShapeOk, TEA.rep, Coef.shape, Coef.ndim]
  obtain ⟨c1, c2, c3, c4, c5⟩ := hcoef
  rw [← hE'] at hinit
  obtain ⟨cenv, hcenv⟩ : ∃ cenv : Env K, cenv = p.constvars.zip (consts.map constantInter) := ⟨_, rfl⟩
  rw [← hcenv] at hinit hnone
  subst hinit
  have hinit' : initEnv false maxDegree.toNat (p.after prim args v w) consts x0 lo hi = .ok ((w, ⟨E, none⟩) :: cenv) := by
    simp only [initEnv, hid', py_ok_bind, Jaxpr.after, if_neg hcl, ← hE, hcenv]
    rfl
  obtain ⟨ins, f, f1, f2, f3, f4⟩ := first_enclosure (lib := lib) (T := T) (pr := none) (env := (w, ⟨E, none⟩) :: cenv) he
    (by simp [getInter, List.lookup_cons]) c3 c1 c2 c4
  have hfirst : step lib T T0 false x0.shape ((w, ⟨E, none⟩) :: cenv) ⟨prim, args, [v]⟩ =
      .ok ((v, ⟨E', none⟩) :: (w, ⟨E, none⟩) :: cenv) := by
    unfold step eqnOutputs
    simp only [f1, py_ok_bind, f2, f3, f4]
    have hl0 : List.lookup v ((w, (⟨E, none⟩ : Inter K)) :: cenv) = none := by
      rw [List.lookup_cons, beq_eq_false_iff_ne.2 (Ne.symm hwv)]
      exact hnone v hvf
    simp [List.foldlM_cons, storeOne, hv, hl0, c5, pure, Except.pure, bind, Except.bind]
  have hagree : Agree w ((v, (⟨E', none⟩ : Inter K)) :: cenv) ((v, ⟨E', none⟩) :: (w, ⟨E, none⟩) :: cenv) := by
    refine ⟨fun u hu => ?_, ?_⟩
    · simp only [List.lookup_cons]
      rw [beq_eq_false_iff_ne.2 hu]
    · rw [List.lookup_cons, beq_eq_false_iff_ne.2 hwv]
      exact hnone w hwc
  obtain ⟨envF', hrun', hag⟩ := hagree.run (fun e he hwe => hwa (by
    unfold assigned
    rw [List.mem_filter]
    exact ⟨List.mem_flatMap.2 ⟨e, he, hwe⟩, by simpa using hw⟩)) hrun
  have hrun2 : taylorEnv lib (p.after prim args v w) consts maxDegree propagate x0 lo hi = .ok envF' := by
    unfold taylorEnv
    rw [if_neg (by omega)]
    simp only [ht', py_ok_bind, hT, hT0, hprop, hinit']
    show List.foldlM _ _ (_ :: _) = _
    rw [List.foldlM_cons, hfirst, py_ok_bind]
    exact hrun'
  revert hb
  match hov : p.outvars with
  | [] => intro hb; cases hb
  | _ :: _ :: _ => intro hb; cases hb
  | [o] =>
    intro hb
    simp only [py_bind_ok, py_pure] at hb
    obtain ⟨out, ho, rfl⟩ := hb
    refine ⟨⟨x0, lo, hi, out.encl⟩, ?_, rfl, fun x x' hx hxs => ?_⟩
    · unfold taylorBounds
      rw [hrun2, py_ok_bind, show (p.after prim args v w).outvars = [o] from hov]
      simp only [hag.getInter ho, py_ok_bind]
      rfl
    · rw [(shift_eq (a := x) (c := s) (by rw [hx]; exact hs)).1] at hxs
      cases hxs
      simp only [Bounds.lower, Bounds.upper, Bounds.call, sub_shifted hx, and_self]


/-! ### meaning -/

/-- the two environments hold the same arrays, except at `w` -/
structure SameVals (w : ℤ) (env1 env2 : Vals K) : Prop where
  same : ∀ u, u ≠ w → (env2.lookup u).map ND.canon = (env1.lookup u).map ND.canon
  none : env1.lookup w = none

theorem SameVals.get {w : ℤ} {env1 env2 : Vals K} (h : SameVals w env1 env2) {a : Atom K} {y : ND K}
    (ha : getVal env1 a = .ok y) : ∃ y', getVal env2 a = .ok y' ∧ y'.canon = y.canon := by
  cases a with
  | lit _ => exact ⟨y, ha, rfl⟩
  | var u =>
    unfold getVal at ha ⊢
    by_cases hu : u = w
    · subst hu
      simp only [h.none] at ha
      cases ha
    · have := h.same u hu
      cases h1 : env1.lookup u with
      | none => simp only [h1] at ha; cases ha
      | some a =>
        simp only [h1] at ha
        cases ha
        rw [h1] at this
        cases h2 : env2.lookup u with
        | none => rw [h2] at this; cases this
        | some b =>
          rw [h2] at this
          exact ⟨b, by simp only [h2], Option.some.inj this⟩

theorem SameVals.gets {w : ℤ} {env1 env2 : Vals K} (h : SameVals w env1 env2) {l : List (Atom K)} {ys : List (ND K)}
    (hl : l.mapM (getVal env1) = .ok ys) : ∃ ys', l.mapM (getVal env2) = .ok ys' ∧ ys'.map ND.canon = ys.map ND.canon := by
  induction l generalizing ys with
  | nil => cases hl; exact ⟨[], rfl, rfl⟩
  | cons a l ih =>
    rw [List.mapM_cons] at hl
    simp only [py_bind_ok, py_pure] at hl
    obtain ⟨i, hi, js, hj, rfl⟩ := hl
    obtain ⟨i', g1, g2⟩ := h.get hi
    obtain ⟨js', g3, g4⟩ := ih hj
    refine ⟨i' :: js', ?_, by rw [List.map_cons, List.map_cons, g2, g4]⟩
    rw [List.mapM_cons, g1, g3]
    rfl

theorem SameVals.cons {w : ℤ} {env1 env2 : Vals K} (h : SameVals w env1 env2) {u : ℤ} (hu : u ≠ w) {a b : ND K}
    (hab : b.canon = a.canon) : SameVals w ((u, a) :: env1) ((u, b) :: env2) := by
  refine ⟨fun x hx => ?_, ?_⟩
  · rw [List.lookup_cons, List.lookup_cons]
    split
    · simp only [Option.map_some, hab]
    · exact h.same x hx
  · rw [List.lookup_cons, beq_eq_false_iff_ne.2 (Ne.symm hu)]
    exact h.none

theorem SameVals.stores {w : ℤ} {l : List (ℤ × ND K)} (hw : ∀ vi ∈ l, vi.1 ≠ w) : ∀ {env1 env2 : Vals K},
    SameVals w env1 env2 → SameVals w (l.foldl storeVal env1) (l.foldl storeVal env2) := by
  induction l with
  | nil => exact fun h => h
  | cons a l ih =>
    intro env1 env2 h
    rw [List.foldl_cons, List.foldl_cons]
    refine ih (fun vi hvi => hw vi (List.mem_cons_of_mem _ hvi)) ?_
    unfold storeVal
    by_cases c1 : a.1 = -1
    · rw [if_pos c1, if_pos c1]; exact h
    · rw [if_neg c1, if_neg c1]; exact h.cons (hw a (List.mem_cons_self ..)) rfl

theorem SameVals.run {w : ℤ} {sem : Sem K} {l : List (Eqn K)} (hw : ∀ e ∈ l, w ∉ e.outvars) : ∀ {env1 env2 env1' : Vals K},
    SameVals w env1 env2 → l.foldlM (evalEqn sem) env1 = .ok env1' →
    ∃ env2', l.foldlM (evalEqn sem) env2 = .ok env2' ∧ SameVals w env1' env2' := by
  induction l with
  | nil => exact fun {_ env2 _} h e => by cases e; exact ⟨env2, rfl, h⟩
  | cons a l ih =>
    intro env1 env2 env1' h e
    rw [List.foldlM_cons, py_bind_ok] at e
    obtain ⟨env, e1, e2⟩ := e
    simp only [evalEqn, py_bind_ok] at e1
    obtain ⟨ins, i1, outs, i2, i3⟩ := e1
    by_cases hl : outs.length ≠ a.outvars.length
    · rw [if_pos hl] at i3; cases i3
    rw [if_neg hl] at i3
    cases i3
    obtain ⟨ins', g1, g2⟩ := h.gets i1
    have i2' : a.prim.bind sem ins' = .ok outs := by rw [← bind_canon, g2, bind_canon, i2]
    rw [List.foldlM_cons]
    simp only [evalEqn, g1, py_ok_bind, i2', if_neg hl]
    exact ih (fun e he => hw e (List.mem_cons_of_mem _ he)) (h.stores fun vi hvi hc => hw a (List.mem_cons_self ..) (by
      rw [← hc]
      exact (List.of_mem_zip (show (vi.1, vi.2) ∈ _ from hvi)).1)) e2

/-- **C90 (meaning).** The program `p` preceded by one of the equations `ShiftEqn` computes `f(x + s)`: if `f` has the value
`y` at `x + s` and the equation can be evaluated, then the longer program has the value `y` at `x` (the same shape and the
same entries). -/
theorem C90_meaning {sem : Sem K} {p : Jaxpr K} {consts : List (ND K)} {x s x' y g : ND K} {prim : Prim K} {args : List (Atom K)}
    {v w : ℤ} (hin : p.invars = [v]) (hv : v ≠ -1) (hw : w ≠ -1) (hwf : w ∉ v :: p.constvars ++ assigned p.eqns)
    (hs : bshape s.shape x.shape = some x.shape) (he : ShiftEqn (.var w) s prim args)
    (hx' : ND.map2 (· + ·) x s = .ok x') (hy : evalJaxpr sem p consts x' = .ok y)
    (hg : evalJaxpr sem (p.after prim args v w) consts x = .ok g) :
    g.shape = y.shape ∧ ∀ I, ValidIdx y.shape I → g.get I = y.get I := by
  rw [(shift_eq hs).1] at hx'
  cases hx'
  simp only [List.cons_append, List.mem_cons, List.mem_append, not_or] at hwf
  obtain ⟨hwv, hwc, hwa⟩ := hwf
  simp only [evalJaxpr, py_bind_ok] at hy hg
  obtain ⟨env, e1, hy⟩ := hy
  obtain ⟨env', e2, hg⟩ := hg
  replace e1 : p.eqns.foldlM (evalEqn sem) (evalInit p consts (shifted x s)) = .ok env := e1
  replace e2 : ((⟨prim, args, [v]⟩ : Eqn K) :: p.eqns).foldlM (evalEqn sem) ((w, x) :: p.constvars.zip consts) = .ok env' := e2
  rw [show evalInit p consts (shifted x s) = (v, shifted x s) :: p.constvars.zip consts by simp [evalInit, hin]] at e1
  rw [List.foldlM_cons, py_bind_ok] at e2
  obtain ⟨env1, hst, e2⟩ := e2
  simp only [evalEqn, py_bind_ok] at hst
  obtain ⟨vals, hvals, outs, houts, hst⟩ := hst
  have hlen : outs.length = 1 := by
    by_contra hne
    rw [if_pos (show outs.length ≠ [v].length from hne)] at hst
    cases hst
  obtain ⟨out, rfl⟩ := List.length_eq_one_iff.1 hlen
  rw [if_neg (by simp)] at hst
  cases hst
  have hble := ble_iff_bshape.1 hs
  have hx0 : getVal ((w, x) :: p.constvars.zip consts) (.var w) = .ok x := by
    simp only [getVal, List.lookup_cons_self]
  have lit : ∀ c : ND K, getVal ((w, x) :: p.constvars.zip consts) (.lit c) = .ok c := fun c => rfl
  have i2 : ∀ c : ND K, [.var w, .lit c].mapM (getVal ((w, x) :: p.constvars.zip consts)) = .ok [x, c] := fun c => by
    simp only [List.mapM_cons, List.mapM_nil, hx0, lit, py_ok_bind]; rfl
  have i3 : ∀ c : ND K, [.lit c, .var w].mapM (getVal ((w, x) :: p.constvars.zip consts)) = .ok [c, x] := fun c => by
    simp only [List.mapM_cons, List.mapM_nil, hx0, lit, py_ok_bind]; rfl
  have hout : out.shape = x.shape ∧ ∀ L, ValidIdx x.shape L → out.get L = x.get L + s.bget L := by
    cases he with
    | add =>
      rw [i2] at hvals
      cases hvals
      exact (nary_value hble).1 (one_inv houts)
    | radd =>
      rw [i3] at hvals
      cases hvals
      obtain ⟨w1, w2⟩ := (nary_value hble).2 (one_inv houts)
      exact ⟨w1, fun L hL => by rw [w2 L hL]; ring⟩
    | sub c =>
      rw [i2] at hvals
      cases hvals
      have hble : ble c.shape x.shape := hble
      obtain ⟨w1, w2⟩ := (nary_value hble).1 (one_inv houts)
      exact ⟨w1, fun L hL => by rw [w2 L hL, show (c.map (- ·)).bget L = - c.bget L from rfl]; ring⟩
  have hcan : out.canon = (shifted x s).canon := ND.canon_eq_of_same ⟨hout.1, fun L hL => by
    have hL : ValidIdx x.shape L := by rw [← hout.1]; exact hL
    rw [hout.2 L hL]
    show _ = x.bget L + s.bget L
    rw [ND.bget_valid _ hL]⟩
  replace e2 : p.eqns.foldlM (evalEqn sem) (storeVal ((w, x) :: p.constvars.zip consts) (v, out)) = .ok env' := e2
  rw [storeVal, if_neg hv] at e2
  have hnone : List.lookup w (p.constvars.zip consts) = none := by
    rw [List.lookup_eq_none_iff]
    intro a ha
    have := (List.of_mem_zip (show (a.1, a.2) ∈ _ from ha)).1
    rw [bne_iff_ne]
    rintro rfl
    exact hwc this
  have hagree : SameVals w ((v, shifted x s) :: p.constvars.zip consts) ((v, out) :: (w, x) :: p.constvars.zip consts) := by
    refine ⟨fun u hu => ?_, ?_⟩
    · simp only [List.lookup_cons]
      rw [beq_eq_false_iff_ne.2 hu]
      split
      · simp only [Option.map_some, hcan]
      · rfl
    · rw [List.lookup_cons, beq_eq_false_iff_ne.2 hwv]
      exact hnone
  obtain ⟨envF, e3, hag⟩ := hagree.run (fun e he hwe => hwa (by
    unfold assigned
    rw [List.mem_filter]
    exact ⟨List.mem_flatMap.2 ⟨e, he, hwe⟩, by simpa using hw⟩)) e1
  rw [e2] at e3
  cases e3
  have hop : (p.after prim args v w).outvars = p.outvars := rfl
  rw [hop] at hg
  revert hy hg
  match p.outvars with
  | [] => intro hy; cases hy
  | _ :: _ :: _ => intro hy; cases hy
  | [o] =>
    intro hy hg
    obtain ⟨y', h1, h2⟩ := hag.get hy
    have hg : getVal env' o = .ok g := hg
    rw [hg] at h1
    cases h1
    have hsh : g.shape = y.shape := by rw [← ND.canon_shape g, h2, ND.canon_shape]
    refine ⟨hsh, fun I hI => ?_⟩
    rw [← ND.canon_get g (by rw [hsh]; exact hI), h2, ND.canon_get _ hI]

/-- The hypotheses of C90 are met: the quadratic of `PolyEx` at `x0 + 5` and its trust region shifted by 5, degrees 0 (with
propagation switched on) and 2 (without). -/
theorem C90_example : ∃ b0 b2 : Bounds ℚ,
    taylorBounds polyLib exQuad [exA, exC] 0 true (shifted exX0 (ND.scalar 5)) (shifted exLo' (ND.scalar 5))
      (shifted exHi' (ND.scalar 5)) = .ok b0 ∧
    taylorBounds polyLib exQuad [exA, exC] 2 false (shifted exX0 (ND.scalar 5)) (shifted exLo' (ND.scalar 5))
      (shifted exHi' (ND.scalar 5)) = .ok b2 ∧
    ∃ b0' b2' : Bounds ℚ,
      taylorBounds polyLib (exQuad.after .sub [.var 20, .lit (ND.scalar (-5))] 0 20) [exA, exC] 0 true exX0 exLo' exHi' = .ok b0' ∧
      taylorBounds polyLib (exQuad.after .add [.var 20, .lit (ND.scalar 5)] 0 20) [exA, exC] 2 false exX0 exLo' exHi' = .ok b2' ∧
      b0'.coefficients = b0.coefficients ∧ b2'.coefficients = b2.coefficients ∧ b2'.coefficients.length = 3 := by
  obtain ⟨b0, h0⟩ := ok_of_isSome (show (taylorBounds polyLib exQuad [exA, exC] 0 true (shifted exX0 (ND.scalar 5))
    (shifted exLo' (ND.scalar 5)) (shifted exHi' (ND.scalar 5))).toOption.isSome = true by decide +kernel)
  obtain ⟨b2, h2⟩ := ok_of_isSome (show (taylorBounds polyLib exQuad [exA, exC] 2 false (shifted exX0 (ND.scalar 5))
    (shifted exLo' (ND.scalar 5)) (shifted exHi' (ND.scalar 5))).toOption.isSome = true by decide +kernel)
  have hl : (taylorBounds polyLib exQuad [exA, exC] 2 false (shifted exX0 (ND.scalar 5)) (shifted exLo' (ND.scalar 5))
    (shifted exHi' (ND.scalar 5))).toOption.map (fun b => b.coefficients.length) = some 3 := by decide +kernel
  rw [h2] at hl
  have hadd : ∀ a : ND ℚ, ND.map2 (· + ·) a (ND.scalar 5) = .ok (shifted a (ND.scalar 5)) := fun a =>
    (shift_eq (bshape_nil_left _)).1
  have hneg : (ND.scalar (-5) : ND ℚ).map (- ·) = ND.scalar 5 := by
    unfold ND.map ND.scalar
    simp
  have hsub : ShiftEqn (.var 20) (ND.scalar (5 : ℚ)) .sub [.var 20, .lit (ND.scalar (-5))] := by
    have := ShiftEqn.sub (o := .var 20) (ND.scalar (-5 : ℚ))
    rwa [hneg] at this
  obtain ⟨b0', g0, e0, -⟩ := C90_shift (w := 20) (s := ND.scalar 5) (x0 := exX0) (lo := exLo') (hi := exHi') (Or.inr rfl) rfl (by decide) (by decide) (by decide) (by decide)
    rfl rfl rfl (hadd _) (hadd _) (hadd _) hsub h0
  obtain ⟨b2', g2, e2, -⟩ := C90_shift (w := 20) (s := ND.scalar 5) (x0 := exX0) (lo := exLo') (hi := exHi') (Or.inl rfl) rfl (by decide) (by decide) (by decide) (by decide)
    rfl rfl rfl (hadd _) (hadd _) (hadd _) (.add (ND.scalar 5)) h2
  refine ⟨b0, b2, h0, h2, b0', b2', g0, g2, e0, e2, ?_⟩
  rw [e2]
  exact Option.some.inj hl

end JB
end AB
