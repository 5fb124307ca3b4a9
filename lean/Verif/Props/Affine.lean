/-
C88: what happens to the bounds of /repo/autobound/jax/jax_bound.py:61-212 when the function is negated, shifted by a
constant or multiplied by a number.
-/
import Verif.Spec.Affine
import Verif.Proofs.Affine
import Verif.Props.PolyEx
import Verif.Props.Degree0

set_option linter.unusedSectionVars false

namespace AB
variable {K : Type} [Field K] [LinearOrder K] [IsStrictOrderedRing K]

namespace JB

theorem andThen_inv {lib : Lib K} {p : Jaxpr K} {consts : List (ND K)} {maxDegree : ℤ} {propagate : Bool} {x0 lo hi : ND K}
    {bnd bnd' : Bounds K} {o : Atom K} {prim : Prim K} {args : List (Atom K)} {w : ℤ} (ho : p.outvars = [o]) (hw : w ≠ -1)
    (hb : taylorBounds lib p consts maxDegree propagate x0 lo hi = .ok bnd)
    (hb' : taylorBounds lib (p.andThen prim args w) consts maxDegree propagate x0 lo hi = .ok bnd') :
    ∃ (T : TEA K) (env : Env K) (i : Inter K) (ins : List (Inter K)), T.maxDegree = maxDegree.toNat ∧
      taylorEnv lib p consts maxDegree propagate x0 lo hi = .ok env ∧ getInter env o = .ok i ∧ i.encl = bnd.coefficients ∧ args.mapM (getInter env) = .ok ins ∧ bnd.x0 = x0 ∧ bnd'.x0 = x0 ∧
      ((∃ vals r, ins.mapM Inter.constantValue = some vals ∧ prim.bind lib.sem vals = .ok [r] ∧ bnd'.coefficients = [.arr r]) ∨
        ∃ f, pushforward lib T prim = some f ∧ f ins = .ok bnd'.coefficients) := by
  simp only [taylorBounds, py_bind_ok, ho] at hb
  simp only [taylorBounds, py_bind_ok] at hb'
  obtain ⟨env1, he1, hb⟩ := hb
  obtain ⟨env2, he2, hb'⟩ := hb'
  obtain ⟨i, hoi, hb⟩ := hb
  obtain ⟨-, tlo, thi, T, T0, env0, ht, hT, hT0, henv, hrun⟩ := taylorEnv_inv he1
  obtain ⟨-, tlo', thi', T', T0', env0', ht', hT', hT0', henv', hrun'⟩ := taylorEnv_inv he2
  rw [ht] at ht'
  cases ht'
  rw [hT] at hT'
  cases hT'
  rw [hT0] at hT0'
  cases hT0'
  replace henv' : initEnv (propagate && (maxDegree != 0)) maxDegree.toNat p consts x0 lo hi = .ok env0' := henv'
  rw [henv] at henv'
  cases henv'
  replace hrun' : (p.eqns ++ [(⟨prim, args, [w]⟩ : Eqn K)]).foldlM (step lib T T0 (propagate && (maxDegree != 0)) x0.shape) env0 =
    .ok env2 := hrun'
  rw [List.foldlM_append, hrun, py_ok_bind, List.foldlM_cons, py_bind_ok] at hrun'
  obtain ⟨env3, hst, hnil⟩ := hrun'
  cases hnil
  simp only [step, py_bind_ok] at hst
  obtain ⟨ins, hins, outs, houts, hst⟩ := hst
  have hlen : outs.length = 1 := by
    by_contra hne
    rw [if_pos (show outs.length ≠ [w].length from hne)] at hst
    cases hst
  obtain ⟨out, rfl⟩ := List.length_eq_one_iff.1 hlen
  rw [if_neg (by simp)] at hst
  simp only [List.zip_cons_cons, List.zip_nil_right, List.foldlM_cons, List.foldlM_nil, py_bind_ok] at hst
  obtain ⟨env4, hst, h4⟩ := hst
  cases h4
  have hlk : env2.lookup w = some out := by
    unfold storeOne at hst
    rw [if_neg hw] at hst
    split_ifs at hst
    simp only [py_bind_ok] at hst
    obtain ⟨-, -, hst⟩ := hst
    cases hst
    simp
  cases hb
  have hcoef : bnd'.coefficients = out.encl ∧ bnd'.x0 = x0 := by
    have hout : (p.andThen prim args w).outvars = [.var w] := rfl
    rw [hout] at hb'
    simp only [getInter, hlk, py_bind_ok] at hb'
    obtain ⟨out', h1, h2⟩ := hb'
    cases h1
    cases h2
    exact ⟨rfl, rfl⟩
  have hdeg : T.maxDegree = maxDegree.toNat := by
    unfold TEA.init at hT
    split_ifs at hT
    cases hT
    rfl
  refine ⟨T, env1, i, ins, hdeg, he1, hoi, rfl, hins, rfl, hcoef.2, ?_⟩
  rw [hcoef.1]
  unfold eqnOutputs at houts
  cases hc : ins.mapM Inter.constantValue with
  | some vals =>
    rw [hc] at houts
    simp only [py_bind_ok, py_pure] at houts
    obtain ⟨rs, hrs, hrs'⟩ := houts
    left
    obtain ⟨r, l, rfl, e1, e2⟩ := List.map_eq_cons_iff.1 hrs'
    obtain rfl := List.map_eq_nil_iff.1 e2
    exact ⟨vals, r, rfl, hrs, by rw [← e1]; rfl⟩
  | none =>
    rw [hc] at houts
    right
    cases hf : pushforward lib T prim with
    | none => rw [hf] at houts; cases houts
    | some f =>
      rw [hf] at houts
      simp only [py_bind_ok] at houts
      obtain ⟨e, he, houts⟩ := houts
      refine ⟨f, rfl, ?_⟩
      rw [if_neg (by simp)] at houts
      split_ifs at houts
      · simp only [py_bind_ok, py_pure] at houts
        obtain ⟨r, -, hr⟩ := houts
        cases hr
        exact he
      · cases houts
        exact he

theorem AffE_single {k : K} {s v r : ND K} (hsh : r.shape = v.shape) (hs : ble s.shape v.shape)
    (h : ∀ L, ValidIdx v.shape L → r.get L = k * v.get L + s.bget L) : AffE k s [.arr v] [.arr r] := by
  refine ⟨rfl, fun c c' hc hc' => ?_, fun i c c' hi hc _ => ?_⟩
  · cases hc
    cases hc'
    refine ⟨hs, hsh, arr_wellFormed _, fun L hL => ?_, fun L hL => ?_⟩
    all_goals
      simp only [cLo, cHi, TEA.toInterval, min_self, max_self]
      exact h L hL
  · rw [List.getElem?_eq_none (by simp; omega)] at hc
    cases hc

theorem one_inv {α : Type} {r : Py α} {x : α} (h : Py.one r = .ok [x]) : r = .ok x := by
  cases r with
  | error e => cases h
  | ok y => cases h; rfl

theorem nary_inv {f : K → K → K} {a b r : ND K} (h : Lax.nary f a b = .ok r) : ND.map2 f a b = .ok r := by
  unfold Lax.nary at h
  split_ifs at h
  exact h

/-- the same array operation on canonical arguments -/
theorem nary_value {f : K → K → K} {v c r : ND K} (hs : ble c.shape v.shape) :
    (Lax.nary f v.canon c.canon = .ok r → r.shape = v.shape ∧ ∀ L, ValidIdx v.shape L → r.get L = f (v.get L) (c.bget L)) ∧
      (Lax.nary f c.canon v.canon = .ok r → r.shape = v.shape ∧ ∀ L, ValidIdx v.shape L → r.get L = f (c.bget L) (v.get L)) := by
  have hs' : ble c.canon.shape v.canon.shape := hs
  constructor
  all_goals
    intro h
    have h := nary_inv h
    first | rw [(map2_into hs').1] at h | rw [(map2_into hs').2] at h
    cases h
    refine ⟨rfl, fun L hL => ?_⟩
    show f _ _ = _
    rw [ND.canon_bget v (ble_refl _) hL, ND.canon_bget c hs hL, ND.bget_valid _ hL]

theorem constantValue_some {i : Inter K} {v : ND K} (h : i.constantValue = some v) : i.encl = [.arr v] := by
  unfold Inter.constantValue at h
  split at h
  · rename_i v' he
    cases h
    exact he
  · cases h

theorem affineEqn_encl {lib : Lib K} {T : TEA K} {env : Env K} {o : Atom K} {k : K} {s : ND K} {prim : Prim K} {args : List (Atom K)}
    (h : AffineEqn o k s prim args) {i : Inter K} {ins : List (Inter K)} {E' : Encl K} (hi : getInter env o = .ok i)
    (hins : args.mapM (getInter env) = .ok ins) (hE : WellFormedEncl i.encl) (hne : i.encl ≠ [])
    (hl : i.encl.length ≤ T.maxDegree + 1) (hs : ∀ c, i.encl[0]? = some c → ble s.shape c.shape)
    (hr : (∃ vals r, ins.mapM Inter.constantValue = some vals ∧ prim.bind lib.sem vals = .ok [r] ∧ E' = [.arr r]) ∨
      ∃ f, pushforward lib T prim = some f ∧ f ins = .ok E') : AffE k s i.encl E' := by
  have lit : ∀ c : ND K, getInter env (.lit c) = .ok (constantInter c) := fun c => rfl
  have i1 : ∀ j : Inter K, [o].mapM (getInter env) = .ok [i] := fun j => by
    simp only [List.mapM_cons, List.mapM_nil, hi, py_ok_bind]; rfl
  have i2 : ∀ c : ND K, [o, .lit c].mapM (getInter env) = .ok [i, constantInter c] := fun c => by
    simp only [List.mapM_cons, List.mapM_nil, hi, lit, py_ok_bind]; rfl
  have i3 : ∀ c : ND K, [.lit c, o].mapM (getInter env) = .ok [constantInter c, i] := fun c => by
    simp only [List.mapM_cons, List.mapM_nil, hi, lit, py_ok_bind]; rfl
  have c1 : ∀ vals, [i].mapM Inter.constantValue = some vals → ∃ v, vals = [v] ∧ i.encl = [.arr v] := by
    intro vals hv
    simp only [List.mapM_cons, List.mapM_nil, Option.bind_eq_bind, Option.bind_eq_some_iff, Option.pure_def, Option.some.injEq] at hv
    obtain ⟨v, hv, l, rfl, rfl⟩ := hv
    exact ⟨v, rfl, constantValue_some hv⟩
  have c2 : ∀ c vals, [i, constantInter c].mapM Inter.constantValue = some vals → ∃ v, vals = [v, c] ∧ i.encl = [.arr v] := by
    intro c vals hv
    simp only [List.mapM_cons, List.mapM_nil, Option.bind_eq_bind, Option.bind_eq_some_iff, Option.pure_def, Option.some.injEq] at hv
    obtain ⟨v, hv, l, ⟨c', hc, l', rfl, rfl⟩, rfl⟩ := hv
    cases hc
    exact ⟨v, rfl, constantValue_some hv⟩
  have c3 : ∀ c vals, [constantInter c, i].mapM Inter.constantValue = some vals → ∃ v, vals = [c, v] ∧ i.encl = [.arr v] := by
    intro c vals hv
    simp only [List.mapM_cons, List.mapM_nil, Option.bind_eq_bind, Option.bind_eq_some_iff, Option.pure_def, Option.some.injEq] at hv
    obtain ⟨c', hc, l, ⟨v, hv, l', rfl, rfl⟩, rfl⟩ := hv
    cases hc
    exact ⟨v, rfl, constantValue_some hv⟩
  have hs1 : ∀ v, i.encl = [.arr v] → ble s.shape v.shape := fun v hv => hs (.arr v) (by rw [hv]; rfl)
  cases h with
  | neg =>
    rw [i1 i] at hins
    cases hins
    rcases hr with ⟨vals, r, q1, q2, rfl⟩ | ⟨f, q1, q2⟩
    · obtain ⟨v, rfl, hv⟩ := c1 _ q1
      rw [hv]
      cases q2
      refine AffE_single rfl (ble_nil _) fun L hL => ?_
      show -(v.canon.get L) = -1 * v.get L + 0
      rw [ND.canon_get _ hL]; ring
    · cases q1
      exact AffE.negative hE hl q2
  | add =>
    rw [i2] at hins
    cases hins
    rcases hr with ⟨vals, r, q1, q2, rfl⟩ | ⟨f, q1, q2⟩
    · obtain ⟨v, rfl, hv⟩ := c2 _ _ q1
      obtain ⟨w1, w2⟩ := (nary_value (hs1 v hv)).1 (one_inv q2)
      rw [hv]
      exact AffE_single w1 (hs1 v hv) fun L hL => by rw [w2 L hL]; ring
    · cases q1
      exact AffE.add hE hl hne hs (Or.inl q2)
  | radd =>
    rw [i3] at hins
    cases hins
    rcases hr with ⟨vals, r, q1, q2, rfl⟩ | ⟨f, q1, q2⟩
    · obtain ⟨v, rfl, hv⟩ := c3 _ _ q1
      obtain ⟨w1, w2⟩ := (nary_value (hs1 v hv)).2 (one_inv q2)
      rw [hv]
      exact AffE_single w1 (hs1 v hv) fun L hL => by rw [w2 L hL]; ring
    · cases q1
      exact AffE.add hE hl hne hs (Or.inr q2)
  | sub c =>
    rw [i2] at hins
    cases hins
    rcases hr with ⟨vals, r, q1, q2, rfl⟩ | ⟨f, q1, q2⟩
    · obtain ⟨v, rfl, hv⟩ := c2 _ _ q1
      have hcs : ble c.shape v.shape := hs1 v hv
      obtain ⟨w1, w2⟩ := (nary_value hcs).1 (one_inv q2)
      rw [hv]
      exact AffE_single w1 (hs1 v hv) fun L hL => by
        rw [w2 L hL, show (c.map (- ·)).bget L = - c.bget L from rfl]; ring
    · cases q1
      exact AffE.sub hE hl hne hs q2
  | rsub =>
    rw [i3] at hins
    cases hins
    rcases hr with ⟨vals, r, q1, q2, rfl⟩ | ⟨f, q1, q2⟩
    · obtain ⟨v, rfl, hv⟩ := c3 _ _ q1
      obtain ⟨w1, w2⟩ := (nary_value (hs1 v hv)).2 (one_inv q2)
      rw [hv]
      exact AffE_single w1 (hs1 v hv) fun L hL => by rw [w2 L hL]; ring
    · cases q1
      exact AffE.rsub hE hl hne hs q2
  | mul k =>
    rw [i2] at hins
    cases hins
    rcases hr with ⟨vals, r, q1, q2, rfl⟩ | ⟨f, q1, q2⟩
    · obtain ⟨v, rfl, hv⟩ := c2 _ _ q1
      obtain ⟨w1, w2⟩ := (nary_value (c := ND.scalar k) (ble_nil _)).1 (one_inv q2)
      rw [hv]
      exact AffE_single w1 (ble_nil _) fun L hL => by
        rw [w2 L hL, show (ND.scalar k : ND K).bget L = k from rfl, show (ND.scalar 0 : ND K).bget L = 0 from rfl]; ring
    · cases q1
      exact AffE.scale hE hl (Or.inl q2)
  | rmul k =>
    rw [i3] at hins
    cases hins
    rcases hr with ⟨vals, r, q1, q2, rfl⟩ | ⟨f, q1, q2⟩
    · obtain ⟨v, rfl, hv⟩ := c3 _ _ q1
      obtain ⟨w1, w2⟩ := (nary_value (c := ND.scalar k) (ble_nil _)).2 (one_inv q2)
      rw [hv]
      exact AffE_single w1 (ble_nil _) fun L hL => by
        rw [w2 L hL, show (ND.scalar k : ND K).bget L = k from rfl, show (ND.scalar 0 : ND K).bget L = 0 from rfl]; ring
    · cases q1
      exact AffE.scale hE hl (Or.inr q2)

/-- **C88 (meaning).** The program `p` followed by one of the equations above computes `k * p(x) + s`: there is one value
`y` for `p`, and the value `y'` of the longer program has the same shape and the entries `k * y[I] + s[I]` (`s` broadcast
to the shape of `y`). -/
theorem C88_meaning {sem : Sem K} {p : Jaxpr K} {consts : List (ND K)} {x y y' : ND K} {o : Atom K} {k : K} {s : ND K}
    {prim : Prim K} {args : List (Atom K)} {w : ℤ} (ho : p.outvars = [o]) (hw : w ≠ -1) (ha : AffineEqn o k s prim args)
    (hy : evalJaxpr sem p consts x = .ok y) (hy' : evalJaxpr sem (p.andThen prim args w) consts x = .ok y')
    (hs : bshape s.shape y.shape = some y.shape) :
    y'.shape = y.shape ∧ ∀ I, ValidIdx y.shape I → y'.get I = k * y.get I + s.bget I := by
  simp only [evalJaxpr, ho, py_bind_ok] at hy
  simp only [evalJaxpr, py_bind_ok] at hy'
  obtain ⟨env, he, hy⟩ := hy
  obtain ⟨env', he', hy'⟩ := hy'
  have hs := ble_iff_bshape.1 hs
  replace he' : (p.eqns ++ [(⟨prim, args, [w]⟩ : Eqn K)]).foldlM (evalEqn sem) (evalInit p consts x) = .ok env' := he'
  replace he : p.eqns.foldlM (evalEqn sem) (evalInit p consts x) = .ok env := he
  rw [List.foldlM_append, he, py_ok_bind, List.foldlM_cons, py_bind_ok] at he'
  obtain ⟨env1, hst, hnil⟩ := he'
  cases hnil
  simp only [evalEqn, py_bind_ok] at hst
  obtain ⟨vals, hvals, outs, houts, hst⟩ := hst
  have hlen : outs.length = 1 := by
    by_contra hne
    rw [if_pos (show outs.length ≠ [w].length from hne)] at hst
    cases hst
  obtain ⟨out, rfl⟩ := List.length_eq_one_iff.1 hlen
  rw [if_neg (by simp)] at hst
  cases hst
  replace hy' : getVal (storeVal env (w, out)) (.var w) = .ok y' := hy'
  rw [storeVal, if_neg hw, getVal, List.lookup_cons_self] at hy'
  cases hy'
  have lit : ∀ c : ND K, getVal env (.lit c) = .ok c := fun c => rfl
  have i1 : [o].mapM (getVal env) = .ok [y] := by
    simp only [List.mapM_cons, List.mapM_nil, hy, py_ok_bind]; rfl
  have i2 : ∀ c : ND K, [o, .lit c].mapM (getVal env) = .ok [y, c] := fun c => by
    simp only [List.mapM_cons, List.mapM_nil, hy, lit, py_ok_bind]; rfl
  have i3 : ∀ c : ND K, [.lit c, o].mapM (getVal env) = .ok [c, y] := fun c => by
    simp only [List.mapM_cons, List.mapM_nil, hy, lit, py_ok_bind]; rfl
  cases ha with
  | neg =>
    rw [i1] at hvals
    cases hvals
    cases houts
    refine ⟨rfl, fun I hI => ?_⟩
    show -(y.canon.get I) = -1 * y.get I + 0
    rw [ND.canon_get _ hI]; ring
  | add =>
    rw [i2] at hvals
    cases hvals
    obtain ⟨w1, w2⟩ := (nary_value hs).1 (one_inv houts)
    exact ⟨w1, fun L hL => by rw [w2 L hL]; ring⟩
  | radd =>
    rw [i3] at hvals
    cases hvals
    obtain ⟨w1, w2⟩ := (nary_value hs).2 (one_inv houts)
    exact ⟨w1, fun L hL => by rw [w2 L hL]; ring⟩
  | sub c =>
    rw [i2] at hvals
    cases hvals
    have hs : ble c.shape y.shape := hs
    obtain ⟨w1, w2⟩ := (nary_value hs).1 (one_inv houts)
    exact ⟨w1, fun L hL => by rw [w2 L hL, show (c.map (- ·)).bget L = - c.bget L from rfl]; ring⟩
  | rsub =>
    rw [i3] at hvals
    cases hvals
    obtain ⟨w1, w2⟩ := (nary_value hs).2 (one_inv houts)
    exact ⟨w1, fun L hL => by rw [w2 L hL]; ring⟩
  | mul k =>
    rw [i2] at hvals
    cases hvals
    obtain ⟨w1, w2⟩ := (nary_value (c := ND.scalar k) (ble_nil _)).1 (one_inv houts)
    exact ⟨w1, fun L hL => by
      rw [w2 L hL, show (ND.scalar k : ND K).bget L = k from rfl, show (ND.scalar 0 : ND K).bget L = 0 from rfl]; ring⟩
  | rmul k =>
    rw [i3] at hvals
    cases hvals
    obtain ⟨w1, w2⟩ := (nary_value (c := ND.scalar k) (ble_nil _)).2 (one_inv houts)
    exact ⟨w1, fun L hL => by
      rw [w2 L hL, show (ND.scalar k : ND K).bget L = k from rfl, show (ND.scalar 0 : ND K).bget L = 0 from rfl]; ring⟩

theorem affine_core {lib : Lib K} {p : Jaxpr K} {consts : List (ND K)} {maxDegree : ℤ}
    {propagate : Bool} {x0 lo hi x y0 z0 : ND K} {bnd bnd' : Bounds K} {o : Atom K} {k : K} {s : ND K} {prim : Prim K}
    {args : List (Atom K)} {w : ℤ} (hx : x.shape = x0.shape)
    (ho : p.outvars = [o]) (hw : w ≠ -1) (ha : AffineEqn o k s prim args)
    (hb : taylorBounds lib p consts maxDegree propagate x0 lo hi = .ok bnd)
    (hb' : taylorBounds lib (p.andThen prim args w) consts maxDegree propagate x0 lo hi = .ok bnd')
    (hlen : bnd.coefficients.length ≤ maxDegree.toNat + 1) (hzs : z0.shape = x0.shape) (hsd : SoundEncl bnd.coefficients z0 y0)
    (hs : bshape s.shape y0.shape = some y0.shape) :
    ∃ l u l' u' : ND K, bnd.lower x = .ok l ∧ bnd.upper x = .ok u ∧ bnd'.lower x = .ok l' ∧ bnd'.upper x = .ok u' ∧
      l.shape = y0.shape ∧ u.shape = y0.shape ∧ l'.shape = y0.shape ∧ u'.shape = y0.shape ∧
      ∀ I, ValidIdx y0.shape I →
        (0 ≤ k → l'.get I = k * l.get I + s.bget I ∧ u'.get I = k * u.get I + s.bget I) ∧
        (k ≤ 0 → l'.get I = k * u.get I + s.bget I ∧ u'.get I = k * l.get I + s.bget I) := by
  have hs := ble_iff_bshape.1 hs
  obtain ⟨T, env, i, ins, hdeg, -, hoi, hie, hins, hx1, hx2, hr⟩ := andThen_inv ho hw hb hb'
  have hA : AffE k s bnd.coefficients bnd'.coefficients := by
    rw [← hie] at hsd hlen ⊢
    refine affineEqn_encl ha hoi hins hsd.wf hsd.ne (by rw [hdeg]; exact hlen) (fun c hc => ?_) hr
    rw [hsd.head c hc]
    exact hs
  have hz' := ND.map2_same (fun a b : K => a - b) hx
  obtain ⟨hV, -⟩ := (encloses_iff hsd.wf).1 hsd.encl
  have hV' : VE (⟨x.shape, fun I => x.bget I - x0.bget I⟩ : ND K).shape y0.shape bnd.coefficients := by
    show VE x.shape _ _
    rw [hx, ← hzs]
    exact hV
  obtain ⟨r, hr, -⟩ := eval_total (Z := .arr ⟨x.shape, fun I => x.bget I - x0.bget I⟩) (Coef.WF_arr _)
    (zmem_self _) hV'
  obtain ⟨-, hVr, hmin, -, -⟩ := eval_ok (Coef.WF_arr _) (zmem_self _) hsd.wf.wfe hr
  have hrs : r.shape = y0.shape := by
    refine ble_antisymm (hmin _ hV') ?_
    obtain ⟨c, hc⟩ : ∃ c, bnd.coefficients[0]? = some c := by
      cases h : bnd.coefficients with
      | nil => exact absurd h hsd.ne
      | cons c l => exact ⟨c, rfl⟩
    obtain ⟨-, B, hB, hle⟩ := hVr 0 c hc
    rw [← hsd.head c hc]
    have : c.shape = B := by rw [show c.shape = B ++ _ from hB]; simp [IA.repS_zero]
    rw [this]
    exact hle
  obtain ⟨r', hr', hC⟩ := affine_eval hsd.wf hsd.ne hA hr (fun c hc => by rw [hsd.head c hc, hrs])
  have hcall : bnd.call x = .ok r := by
    simp only [Bounds.call, hx1, hz', py_ok_bind]
    exact hr
  have hcall' : bnd'.call x = .ok r' := by
    simp only [Bounds.call, hx2, hz', py_ok_bind]
    exact hr'
  have hwf := eval_ordered hsd.wf hr
  have shapes : ∀ c : Coef K, c.WellFormed → (TEA.toInterval c).1.shape = c.shape ∧ (TEA.toInterval c).2.shape = c.shape := by
    intro c hc
    cases c with
    | arr a => exact ⟨rfl, rfl⟩
    | ivl l u => exact ⟨rfl, hc.1.symm⟩
  refine ⟨(TEA.toInterval r).1, (TEA.toInterval r).2, (TEA.toInterval r').1, (TEA.toInterval r').2, ?_, ?_, ?_, ?_,
    (shapes r hwf).1.trans hrs, (shapes r hwf).2.trans hrs, (shapes r' hC.wf).1.trans (hC.shape.trans hrs),
    (shapes r' hC.wf).2.trans (hC.shape.trans hrs), fun I hI => ?_⟩
  · simp only [Bounds.lower, hcall, py_ok_bind]; rfl
  · simp only [Bounds.upper, hcall, py_ok_bind]; rfl
  · simp only [Bounds.lower, hcall', py_ok_bind]; rfl
  · simp only [Bounds.upper, hcall', py_ok_bind]; rfl
  · have hI' : ValidIdx r.shape I := by rw [hrs]; exact hI
    have h1 := hC.lo I hI'
    have h2 := hC.hi I hI'
    have hle := cLo_le_cHi hwf hI'
    unfold cLo cHi at h1 h2 hle
    refine ⟨fun hk => ?_, fun hk => ?_⟩
    · rw [h1, h2, min_eq_left (mul_le_mul_of_nonneg_left hle hk), max_eq_right (mul_le_mul_of_nonneg_left hle hk)]
      exact ⟨rfl, rfl⟩
    · rw [h1, h2, min_eq_right (mul_le_mul_of_nonpos_left hle hk), max_eq_left (mul_le_mul_of_nonpos_left hle hk)]
      exact ⟨rfl, rfl⟩

/-- **C88.** Let `bnd` be the bounds of `p` (a program as in C42) and `bnd'` the bounds of `k * p + s`, computed by one of the
equations of `AffineEqn` after `p` (`s` broadcasts to the shape of the value of `p`).  At *every* `x` of the shape of `x0`,
inside or outside of the trust region, the new bounds are the image of the old ones: they have the same shape, and if the
old bounds have the entries `l` and `u`, the new ones have the entries `k * l + s` and `k * u + s` (`k >= 0`), or
`k * u + s` and `k * l + s` (`k <= 0`).  So nothing is lost: bounding `-f` from below is bounding `f` from above. -/
theorem C88_affine {lib : Lib K} {sem : Sem K} (hlib : LibSound lib sem) {p : Jaxpr K} {consts : List (ND K)} {maxDegree : ℤ}
    {propagate : Bool} {x0 lo hi x y0 : ND K} {bnd bnd' : Bounds K} {o : Atom K} {k : K} {s : ND K} {prim : Prim K}
    {args : List (Atom K)} {w : ℤ}
    (hlh : lo.shape = hi.shape) (h0 : (Coef.ivl lo hi).Contains x0) (hx : x.shape = x0.shape)
    (ho : p.outvars = [o]) (hw : w ≠ -1) (ha : AffineEqn o k s prim args)
    (hb : taylorBounds lib p consts maxDegree propagate x0 lo hi = .ok bnd)
    (hb' : taylorBounds lib (p.andThen prim args w) consts maxDegree propagate x0 lo hi = .ok bnd')
    (hfit : ProgramFits sem p consts x0)
    {vals0 : Vals K} (hev0 : evalEnv sem p consts x0 = .ok vals0) (hne0 : NonEmptyVals vals0)
    (hy0 : evalJaxpr sem p consts x0 = .ok y0) (hs : bshape s.shape y0.shape = some y0.shape) :
    ∃ l u l' u' : ND K, bnd.lower x = .ok l ∧ bnd.upper x = .ok u ∧ bnd'.lower x = .ok l' ∧ bnd'.upper x = .ok u' ∧
      l.shape = y0.shape ∧ u.shape = y0.shape ∧ l'.shape = y0.shape ∧ u'.shape = y0.shape ∧
      ∀ I, ValidIdx y0.shape I →
        (0 ≤ k → l'.get I = k * l.get I + s.bget I ∧ u'.get I = k * u.get I + s.bget I) ∧
        (k ≤ 0 → l'.get I = k * u.get I + s.bget I ∧ u'.get I = k * l.get I + s.bget I) := by
  have hmd : 0 ≤ maxDegree := by
    have hb := hb
    simp only [taylorBounds, py_bind_ok] at hb
    obtain ⟨env, he, -⟩ := hb
    exact (taylorEnv_inv he).1
  have hok := taylorBoundsOk_of_fits (lib := lib) hlib hmd (propagate := propagate) hlh h0 hfit hev0 hne0
  obtain ⟨z0, y, hz0, hy, hx0, -, -, -, hlen, hzs, hsd⟩ := taylorBounds_sound hlib hlh h0 h0 hb hok hev0 hne0
  rw [hy0] at hy
  cases hy
  exact affine_core hx ho hw ha hb hb' hlen hzs hsd hs

/-- **C88 with the library's own tables.** If the run for `p` with the guarded tables returns `bnd` (the conditions of C42
for the tables of the library), then so does the library's, and whatever the library returns for `k * p + s` is related to
it as in C88. -/
theorem C88_builtin {p : Jaxpr ℝ} {consts : List (ND ℝ)} {maxDegree : ℤ}
    {propagate : Bool} {x0 lo hi x y0 : ND ℝ} {bnd bnd' : Bounds ℝ} {o : Atom ℝ} {k : ℝ} {s : ND ℝ} {prim : Prim ℝ}
    {args : List (Atom ℝ)} {w : ℤ}
    (hlh : lo.shape = hi.shape) (h0 : (Coef.ivl lo hi).Contains x0) (hx : x.shape = x0.shape)
    (ho : p.outvars = [o]) (hw : w ≠ -1) (ha : AffineEqn o k s prim args)
    (hb : taylorBounds safeLib p consts maxDegree propagate x0 lo hi = .ok bnd)
    (hb' : taylorBounds realLib (p.andThen prim args w) consts maxDegree propagate x0 lo hi = .ok bnd')
    (hfit : ProgramFits realSem p consts x0)
    {vals0 : Vals ℝ} (hev0 : evalEnv realSem p consts x0 = .ok vals0) (hne0 : NonEmptyVals vals0)
    (hy0 : evalJaxpr realSem p consts x0 = .ok y0) (hs : bshape s.shape y0.shape = some y0.shape) :
    taylorBounds realLib p consts maxDegree propagate x0 lo hi = .ok bnd ∧
    ∃ l u l' u' : ND ℝ, bnd.lower x = .ok l ∧ bnd.upper x = .ok u ∧ bnd'.lower x = .ok l' ∧ bnd'.upper x = .ok u' ∧
      l.shape = y0.shape ∧ u.shape = y0.shape ∧ l'.shape = y0.shape ∧ u'.shape = y0.shape ∧
      ∀ I, ValidIdx y0.shape I →
        (0 ≤ k → l'.get I = k * l.get I + s.bget I ∧ u'.get I = k * u.get I + s.bget I) ∧
        (k ≤ 0 → l'.get I = k * u.get I + s.bget I ∧ u'.get I = k * l.get I + s.bget I) := by
  have hbr := okLe_taylorBounds safeLib_le _ _ _ _ _ _ _ _ hb
  refine ⟨hbr, ?_⟩
  have hlib := safeLib_sound
  have hmd : 0 ≤ maxDegree := by
    have hb := hb
    simp only [taylorBounds, py_bind_ok] at hb
    obtain ⟨env, he, -⟩ := hb
    exact (taylorEnv_inv he).1
  have hok := taylorBoundsOk_of_fits (lib := safeLib) hlib hmd (propagate := propagate) hlh h0 hfit hev0 hne0
  obtain ⟨z0, y, hz0, hy, hx0, -, -, -, hlen, hzs, hsd⟩ := taylorBounds_sound hlib hlh h0 h0 hb hok hev0 hne0
  rw [hy0] at hy
  cases hy
  exact affine_core hx ho hw ha hbr hb' hlen hzs hsd hs

/-- The hypotheses of C88 are met: for `f(x) = 2 * sum((A x + c)^2)`, `taylor_bounds(lambda x: -3 * f(x), 1,
propagate_trust_regions=True)` and `taylor_bounds(lambda x: 10 - f(x), 1, propagate_trust_regions=True)` return, and at
every `x` with two entries their bounds are `-3 * upper`, `-3 * lower` and `10 - upper`, `10 - lower`. -/
theorem C88_example : ∃ bnd bnd1 bnd2 : Bounds ℚ,
    taylorBounds polyLib exQuad [exA, exC] 1 true exX0 exLo' exHi' = .ok bnd ∧
    taylorBounds polyLib (exQuad.andThen .mul [.lit (ND.scalar (-3)), .var 7] 8) [exA, exC] 1 true exX0 exLo' exHi' = .ok bnd1 ∧
    taylorBounds polyLib (exQuad.andThen .sub [.lit (ND.scalar 10), .var 7] 8) [exA, exC] 1 true exX0 exLo' exHi' = .ok bnd2 ∧
    ∀ x : ND ℚ, x.shape = [2] → ∃ l u l1 u1 l2 u2, bnd.lower x = .ok l ∧ bnd.upper x = .ok u ∧
      bnd1.lower x = .ok l1 ∧ bnd1.upper x = .ok u1 ∧ bnd2.lower x = .ok l2 ∧ bnd2.upper x = .ok u2 ∧
      l1.get [] = -3 * u.get [] ∧ u1.get [] = -3 * l.get [] ∧ l2.get [] = 10 - u.get [] ∧ u2.get [] = 10 - l.get [] := by
  obtain ⟨bnd, hb⟩ := ok_of_isSome
    (show (taylorBounds polyLib exQuad [exA, exC] 1 true exX0 exLo' exHi').toOption.isSome = true by decide +kernel)
  obtain ⟨bnd1, hb1⟩ := ok_of_isSome
    (show (taylorBounds polyLib (exQuad.andThen .mul [.lit (ND.scalar (-3)), .var 7] 8) [exA, exC] 1 true exX0 exLo'
      exHi').toOption.isSome = true by decide +kernel)
  obtain ⟨bnd2, hb2⟩ := ok_of_isSome
    (show (taylorBounds polyLib (exQuad.andThen .sub [.lit (ND.scalar 10), .var 7] 8) [exA, exC] 1 true exX0 exLo'
      exHi').toOption.isSome = true by decide +kernel)
  obtain ⟨v0, y0, he0, hn0, hy0, hys⟩ := exQuad_eval (x := exX0) rfl
  refine ⟨bnd, bnd1, bnd2, hb, hb1, hb2, fun x hx => ?_⟩
  have hbs : ∀ c : ℚ, bshape (ND.scalar c : ND ℚ).shape y0.shape = some y0.shape := fun c => by rw [hys]; rfl
  have hlh : exLo'.shape = exHi'.shape := rfl
  obtain ⟨l, u, l1, u1, a1, a2, a3, a4, -, -, -, -, a5⟩ := C88_affine polyLib_sound hlh exX0_mem (x := x) hx rfl (by decide)
    (.rmul (-3)) hb hb1 exQuad_fits he0 hn0 hy0 (hbs 0)
  obtain ⟨l', u', l2, u2, b1, b2, b3, b4, -, -, -, -, b5⟩ := C88_affine polyLib_sound hlh exX0_mem (x := x) hx rfl (by decide)
    (.rsub (ND.scalar 10)) hb hb2 exQuad_fits he0 hn0 hy0 (hbs 10)
  rw [a1] at b1
  cases b1
  rw [a2] at b2
  cases b2
  have hv : ValidIdx y0.shape [] := by rw [hys]; exact .nil
  obtain ⟨p1, p2⟩ := (a5 [] hv).2 (by norm_num)
  obtain ⟨q1, q2⟩ := (b5 [] hv).2 (by norm_num)
  refine ⟨l, u, l1, u1, l2, u2, a1, a2, a3, a4, b3, b4, ?_, ?_, ?_, ?_⟩
  · rw [p1]; show _ + (0 : ℚ) = _; ring
  · rw [p2]; show _ + (0 : ℚ) = _; ring
  · rw [q1]; show _ + (10 : ℚ) = _; ring
  · rw [q2]; show _ + (10 : ℚ) = _; ring

end JB
end AB
