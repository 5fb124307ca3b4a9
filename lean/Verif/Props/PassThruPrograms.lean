/-
C92: the bounds of a rearranged or summed array (/repo/autobound/jax/jax_bound.py:61-212, 447-453, 480-498,
/repo/autobound/enclosure_arithmetic.py:400-405).
-/
import Verif.Proofs.PassThruPrograms
import Verif.Props.SumPrograms

set_option linter.unusedSectionVars false
set_option linter.unusedSimpArgs false

namespace AB
variable {K : Type} [Field K] [LinearOrder K] [IsStrictOrderedRing K]

namespace JB

theorem bind1_of_bind {sem : Sem K} {p : Prim K} {v s : ND K} (h : p.bind sem [v] = .ok [s]) : p.bind1 sem v = .ok s := by
  unfold Prim.bind1
  rw [h]
  rfl

theorem one_ok' {r : Py (ND K)} {s : ND K} (h : r.one = .ok [s]) : r = .ok s := one_inv h

theorem rearr_contract {sem : Sem K} {prim : Prim K} (hp : Rearranges prim) (hnb : ∀ s d, prim ≠ .broadcastInDim s d) {xs : List ℕ}
    (hxs : ∀ s, prim = .reshape s → xs = [] ∨ xs.prod ≠ 1) {u r : ND K} (h : prim.bind sem [u] = .ok [r])
    (hne : ∃ I, ValidIdx r.shape I) :
    ∃ Rc terms, LinearContract xs u.shape Rc terms (prim.bind1 sem) ∧ (∀ L, ValidIdx Rc L → ∀ t ∈ terms L, 0 ≤ t.1) ∧
      ∀ v : ND K, v.shape = u.shape → ∃ s, prim.bind sem [v] = .ok [s] := by
  cases hp with
  | reshape s =>
    have hy := one_ok' (show (Lax.reshape s u.canon).one = .ok [r] from h)
    have hy' := hy
    unfold Lax.reshape at hy
    split_ifs at hy with hc
    cases hy
    have hc : s.prod = u.shape.prod := hc
    have hpos : u.shape.prod ≠ 0 := by
      obtain ⟨I, hI⟩ := hne
      have := Lax.ravel_lt' hI
      have e : (ND.mk s fun I => u.canon.get (Lax.unravel u.canon.shape (Lax.ravel s I)) : ND K).shape = s := rfl
      rw [e] at this
      omega
    refine ⟨_, _, C50_reshape sem (hxs s rfl) hc hpos, ?_, fun v hv => ?_⟩
    · intro L _ t ht
      rw [List.mem_singleton] at ht
      subst ht
      exact zero_le_one
    · show ∃ q, (Lax.reshape s v.canon).one = .ok [q]
      unfold Lax.reshape
      rw [if_pos (show s.prod = v.canon.shape.prod by show s.prod = v.shape.prod; rw [hv]; exact hc)]
      exact ⟨_, rfl⟩
  | transpose perm =>
    have hy := one_ok' (show (Lax.transpose perm u.canon).one = .ok [r] from h)
    unfold Lax.transpose at hy
    split_ifs at hy with hc
    have hc : perm.length = u.shape.length ∧ perm.Nodup ∧ ∀ p ∈ perm, p < u.shape.length := hc
    refine ⟨_, _, C50_transpose sem xs hc.1 hc.2.1 hc.2.2, ?_, fun v hv => ?_⟩
    · intro L _ t ht
      rw [List.mem_singleton] at ht
      subst ht
      exact zero_le_one
    · show ∃ q, (Lax.transpose perm v.canon).one = .ok [q]
      unfold Lax.transpose
      rw [if_pos (show perm.length = v.canon.ndim ∧ perm.Nodup ∧ ∀ p ∈ perm, p < v.canon.ndim by
        show perm.length = v.shape.length ∧ perm.Nodup ∧ ∀ p ∈ perm, p < v.shape.length
        rw [hv]; exact hc)]
      exact ⟨_, rfl⟩
  | broadcastInDim s d => exact absurd rfl (hnb s d)
  | squeeze dims =>
    have hy := one_ok' (show (Lax.squeeze dims u.canon).one = .ok [r] from h)
    unfold Lax.squeeze at hy
    split_ifs at hy with hc
    have hc : Lax.AxesOk u.shape.length dims ∧ ∀ d ∈ dims, u.shape.getD d 0 = 1 := hc
    refine ⟨_, _, C50_squeeze sem xs hc.1 hc.2, ?_, fun v hv => ?_⟩
    · intro L _ t ht
      rw [List.mem_singleton] at ht
      subst ht
      exact zero_le_one
    · show ∃ q, (Lax.squeeze dims v.canon).one = .ok [q]
      unfold Lax.squeeze
      rw [if_pos (show Lax.AxesOk v.canon.ndim dims ∧ ∀ d ∈ dims, v.canon.shape.getD d 0 = 1 by
        show Lax.AxesOk v.shape.length dims ∧ ∀ d ∈ dims, v.shape.getD d 0 = 1
        rw [hv]; exact hc)]
      exact ⟨_, rfl⟩
  | reduceSum axes =>
    have hy := one_ok' (show (Lax.reduceSum axes u.canon).one = .ok [r] from h)
    unfold Lax.reduceSum at hy
    split_ifs at hy with hc
    have hc : Lax.AxesOk u.shape.length axes := hc
    refine ⟨_, _, C50_reduce_sum sem xs hc, ?_, fun v hv => ?_⟩
    · intro L _ t ht
      obtain ⟨J, _, rfl⟩ := List.mem_map.1 ht
      exact zero_le_one
    · show ∃ q, (Lax.reduceSum axes v.canon).one = .ok [q]
      unfold Lax.reduceSum
      rw [if_pos (show Lax.AxesOk v.canon.ndim axes by show Lax.AxesOk v.shape.length axes; rw [hv]; exact hc)]
      exact ⟨_, rfl⟩
  | reduceWindowSum ws =>
    have hy := one_ok' (show (Lax.reduceWindowSum ws u.canon).one = .ok [r] from h)
    unfold Lax.reduceWindowSum at hy
    split_ifs at hy with hc
    have hc : ws.length = u.shape.length := hc
    refine ⟨_, _, C50_reduce_window_sum sem xs hc, ?_, fun v hv => ?_⟩
    · intro L _ t ht
      obtain ⟨J, _, h⟩ := List.mem_filterMap.1 ht
      obtain ⟨α, _, rfl⟩ := Option.map_eq_some_iff.1 h
      exact zero_le_one
    · show ∃ q, (Lax.reduceWindowSum ws v.canon).one = .ok [q]
      unfold Lax.reduceWindowSum
      rw [if_pos (show ws.length = v.canon.ndim by show ws.length = v.shape.length; rw [hv]; exact hc)]
      exact ⟨_, rfl⟩

/-- the value of the operation as a sum of entries, and its action on coefficients -/
theorem rearr_contract' {lib : Lib K} {sem : Sem K} {prim : Prim K} (hp : Rearranges prim) {xs : List ℕ}
    (hxs : ∀ s, prim = .reshape s → xs = [] ∨ xs.prod ≠ 1) {u r : ND K} (h : prim.bind sem [u] = .ok [r])
    (hne : ∃ I, ValidIdx r.shape I) :
    ∃ (Rc : List ℕ) (terms : List ℕ → List (K × List ℕ)) (g : ND K → Py (ND K)),
      LinearContract xs u.shape Rc terms g ∧ (∀ L, ValidIdx Rc L → ∀ t ∈ terms L, 0 ≤ t.1) ∧
      (∀ v : ND K, v.shape = u.shape → ∃ s, prim.bind sem [v] = .ok [s]) ∧
      (∀ v s : ND K, v.shape = u.shape → prim.bind1 sem v = .ok s → s.shape = Rc ∧
        ∀ L, ValidIdx Rc L → s.get L = ((terms L).map fun t => t.1 * v.get t.2).sum) ∧
      ∀ (T : TEA K) (f : List (Inter K) → Py (Encl K)) (i : Inter K) (E' : Encl K), pushforward lib T prim = some f → f [i] = .ok E' →
        ExactBatch xs u.shape i.encl → WellFormedEncl i.encl → mapOverEnclosure i.encl g = .ok E' := by
  have zero : ∀ {Rc : List ℕ} {terms : List ℕ → List (K × List ℕ)} {g : ND K → Py (ND K)}, LinearContract xs u.shape Rc terms g →
      ∀ v s : ND K, v.shape = u.shape → g v = .ok s → s.shape = Rc ∧
      ∀ L, ValidIdx Rc L → s.get L = ((terms L).map fun t => t.1 * v.get t.2).sum := by
    intro Rc terms g hL v s hv he
    obtain ⟨k1, k2⟩ := hL.2 0 v s (by simpa using hv) he
    refine ⟨by simpa using k1, fun L hLv => ?_⟩
    simpa using k2 L [] hLv .nil
  by_cases hb : ∃ s d, prim = .broadcastInDim s d
  · obtain ⟨s, d, rfl⟩ := hb
    have hy := one_ok' (show (Lax.broadcastInDimP s d u.canon).one = .ok [r] from h)
    obtain ⟨y', q1, q2, q3, q4, q5⟩ := bid_value hy
    have hL := C50_broadcast_in_dim (K := K) xs q3 q4 q5
    refine ⟨_, _, _, hL, ?_, fun v hv => ?_, fun v w hv hw => ?_, fun T f i E' hf he hx hwf => ?_⟩
    · intro L _ t ht
      rw [List.mem_singleton] at ht
      subst ht
      exact zero_le_one
    · show ∃ q, (Lax.broadcastInDimP s d v.canon).one = .ok [q]
      unfold Lax.broadcastInDimP at hy ⊢
      split_ifs at hy with hc
      have e1 : v.canon.ndim = u.canon.ndim := by show v.shape.length = u.shape.length; rw [hv]
      have e2 : v.canon.shape = u.canon.shape := hv
      rw [if_pos (by rw [e1, e2]; exact hc)]
      exact ⟨_, rfl⟩
    · rw [bind1_broadcastInDim] at hw
      obtain ⟨w', k1, k2, -⟩ := bid_value hw
      rw [hv] at k1
      obtain ⟨m1, m2⟩ := zero hL v w' hv (by
        show Lax.broadcastInDim (s ++ v.shape.drop u.shape.length) d v = .ok w'
        rw [hv]; exact k1)
      refine ⟨k2.1.symm.trans m1, fun L hLv => ?_⟩
      rw [← k2.2 L (by rw [m1]; exact hLv)]
      exact m2 L hLv
    · cases hf
      exact bid_ok_le hx hwf _ he
  · obtain ⟨Rc, terms, hL, hwt, htot⟩ := rearr_contract hp (fun s d e => hb ⟨s, d, e⟩) hxs h hne
    refine ⟨Rc, terms, _, hL, hwt, htot, zero hL, fun T f i E' hf he _ _ => ?_⟩
    have hb1 : prim.bind1 lib.sem = prim.bind1 sem := by
      funext v
      unfold Prim.bind1
      have : prim.bind lib.sem [v] = prim.bind sem [v] := by cases hp <;> rfl
      rw [this]
    rw [← hb1]
    cases hp with
    | broadcastInDim s d => exact absurd ⟨s, d, rfl⟩ hb
    | reshape _ => cases hf; exact he
    | transpose _ => cases hf; exact he
    | squeeze _ => cases hf; exact he
    | reduceSum _ => cases hf; exact he
    | reduceWindowSum _ => cases hf; exact he

theorem runOk_append {lib : Lib K} {T T0 : TEA K} {propagate : Bool} {xs : List ℕ} {l1 l2 : List (Eqn K)} {env : Env K}
    (h : RunOk lib T T0 propagate xs env (l1 ++ l2)) :
    RunOk lib T T0 propagate xs env l1 ∧
      ∀ env', l1.foldlM (step lib T T0 propagate xs) env = .ok env' → RunOk lib T T0 propagate xs env' l2 := by
  induction l1 generalizing env with
  | nil => exact ⟨trivial, fun env' he => by cases he; exact h⟩
  | cons e l1 ih =>
    obtain ⟨h1, h2⟩ := h
    refine ⟨⟨h1, fun env' hs => (ih (h2 env' hs)).1⟩, fun env' he => ?_⟩
    rw [List.foldlM_cons, py_bind_ok] at he
    obtain ⟨env1, he1, he⟩ := he
    exact (ih (h2 env1 he1)).2 env' he

/-- **C92.** Let `bnd` be the bounds of a program with output `o`, and `bnd'` the bounds of the same program followed by `prim(o)`,
where `prim` is `reshape`, `transpose`, `squeeze`, `broadcast_in_dim`, `reduce_sum` or `reduce_window_sum` (same `x0`, trust region and `max_degree`).
At *every* `x` of the shape of `x0`, inside or outside of the trust region, the bounds of `prim(f)` are `prim` of the bounds of `f`. -/
theorem C92_rearrange {lib : Lib K} {sem : Sem K} (hlib : LibSound lib sem) {p : Jaxpr K} {consts : List (ND K)} {maxDegree : ℤ}
    {propagate : Bool} {x0 lo hi x : ND K} {bnd bnd' : Bounds K} {o : Atom K} {prim : Prim K} {w : ℤ}
    (hp : Rearranges prim) (hlh : lo.shape = hi.shape) (h0 : (Coef.ivl lo hi).Contains x0) (hx : x.shape = x0.shape) (hw : w ≠ -1)
    (hb : taylorBounds lib (p.out o) consts maxDegree propagate x0 lo hi = .ok bnd)
    (hb' : taylorBounds lib (p.andThen prim [o] w) consts maxDegree propagate x0 lo hi = .ok bnd')
    (hfit : ProgramFits sem (p.andThen prim [o] w) consts x0)
    {vals0 : Vals K} (hev0 : evalEnv sem (p.andThen prim [o] w) consts x0 = .ok vals0) (hne0 : NonEmptyVals vals0) :
    ∃ l u l' u' gl gu y : ND K, evalJaxpr sem (p.out o) consts x0 = .ok y ∧ l.shape = y.shape ∧ u.shape = y.shape ∧
      bnd.lower x = .ok l ∧ bnd.upper x = .ok u ∧ bnd'.lower x = .ok l' ∧ bnd'.upper x = .ok u' ∧
      prim.bind sem [l] = .ok [gl] ∧ prim.bind sem [u] = .ok [gu] ∧ l'.Same gl ∧ u'.Same gu := by
  have hmd : 0 ≤ maxDegree := by
    have hb := hb
    simp only [taylorBounds, py_bind_ok] at hb
    obtain ⟨env, he, -⟩ := hb
    exact (taylorEnv_inv he).1
  have ok' := taylorBoundsOk_of_fits (lib := lib) hlib hmd (propagate := propagate) hlh h0 hfit hev0 hne0
  -- the evaluation of `p`, and of the last equation
  have hev := hev0
  simp only [evalEnv] at hev
  replace hev : (p.eqns ++ [(⟨prim, [o], [w]⟩ : Eqn K)]).foldlM (evalEqn sem) (evalInit (p.out o) consts x0) = .ok vals0 := hev
  rw [List.foldlM_append, py_bind_ok] at hev
  obtain ⟨valsp, hevp, hlast⟩ := hev
  have hnep : NonEmptyVals valsp := fun va hva => hne0 va (evalEqns_mem hlast hva)
  rw [List.foldlM_cons, py_bind_ok] at hlast
  obtain ⟨v1, hst, hnil⟩ := hlast
  cases hnil
  simp only [evalEqn, py_bind_ok] at hst
  obtain ⟨args, hargs, outs, houts, hst⟩ := hst
  simp only [List.mapM_cons, List.mapM_nil, py_bind_ok, py_pure] at hargs
  obtain ⟨y, hy, l0, hl0, hargs⟩ := hargs
  cases hl0
  cases hargs
  have hlen : outs.length = 1 := by
    by_contra hne
    rw [if_pos (show outs.length ≠ [w].length from hne)] at hst
    cases hst
  obtain ⟨r, rfl⟩ := List.length_eq_one_iff.1 hlen
  rw [if_neg (by simp)] at hst
  cases hst
  have hner : ∃ I, ValidIdx r.shape I := hne0 (w, r) (mem_storeVals.2 (by simp) hw)
  -- the run on `p`
  have okp : TaylorBoundsOk lib (p.out o) consts maxDegree propagate x0 lo hi := by
    intro tlo thi T T0 env ht hT hT0 henv
    exact (runOk_append (l2 := [(⟨prim, [o], [w]⟩ : Eqn K)]) (ok' tlo thi T T0 env ht hT hT0 henv)).1
  obtain ⟨z, y', hz0, hy', hx0, -, -, -, -, hzs, sd⟩ := taylorBounds_sound (jaxpr := p.out o) hlib hlh h0 h0 hb okp (vals := valsp)
    hevp hnep
  obtain ⟨z', y3, hz0', -, hx0', -, -, -, -, -, sd'⟩ := taylorBounds_sound hlib hlh h0 h0 hb' ok' hev0 hne0
  have hyy : y' = y := by
    have e : evalEnv sem (p.out o) consts x0 = .ok valsp := hevp
    simp only [evalJaxpr, e, py_ok_bind] at hy'
    replace hy' : getVal valsp o = .ok y' := hy'
    rw [hy] at hy'
    exact (Except.ok.inj hy').symm
  subst hyy
  have hb'' : taylorBounds lib ((p.out o).andThen prim [o] w) consts maxDegree propagate x0 lo hi = .ok bnd' := hb'
  obtain ⟨T', env, i, ins, hdeg, henv, hoi, hie, hins, -, -, hr⟩ := andThen_inv (p := p.out o) rfl hw hb hb''
  have hins1 : ins = [i] := by
    simp only [List.mapM_cons, List.mapM_nil, hoi, py_ok_bind, py_pure] at hins
    exact (Except.ok.inj hins).symm
  subst hins1
  -- the coefficients
  have hbind : ∀ v : ND K, prim.bind lib.sem [v] = prim.bind sem [v] := by
    intro v
    cases hp <;> rfl
  have hex : ∃ (Rc : List ℕ) (terms : List ℕ → List (K × List ℕ)) (g : ND K → Py (ND K)),
      (∀ L, ValidIdx Rc L → ∀ t ∈ terms L, ValidIdx y'.shape t.2) ∧
      (∀ L, ValidIdx Rc L → ∀ t ∈ terms L, (0 : K) ≤ t.1) ∧ ExactBatch x0.shape y'.shape bnd.coefficients ∧
      (∀ i < bnd.coefficients.length, ∀ u s : ND K, u.shape = y'.shape ++ (List.replicate i x0.shape).flatten →
        g u = .ok s → s.shape = Rc ++ (List.replicate i x0.shape).flatten ∧
        ∀ L J, ValidIdx Rc L → ValidIdx (List.replicate i x0.shape).flatten J →
          s.get (L ++ J) = ((terms L).map fun t => t.1 * u.get (t.2 ++ J)).sum) ∧
      mapOverEnclosure bnd.coefficients g = .ok bnd'.coefficients ∧
      (∀ u s : ND K, u.shape = y'.shape → prim.bind1 sem u = .ok s → s.shape = Rc ∧
        ∀ L, ValidIdx Rc L → s.get L = ((terms L).map fun t => t.1 * u.get t.2).sum) ∧
      ∀ v : ND K, v.shape = y'.shape → ∃ s, prim.bind sem [v] = .ok [s] := by
    have single : ∀ a, bnd.coefficients = [.arr a] → ∀ xs, ExactBatch xs y'.shape bnd.coefficients := by
      intro a hE xs j c hj
      have has : a.shape = y'.shape := sd.head (.arr a) (by rw [hE]; rfl)
      rw [hE] at hj
      match j with
      | 0 => cases hj; simpa using has
      | j + 1 => simp at hj
    rcases hr with ⟨vals, q, q1, q2, q3⟩ | ⟨f, hf, hfi⟩
    · simp only [List.mapM_cons, List.mapM_nil, Option.bind_eq_bind, Option.bind_eq_some_iff, Option.pure_def,
        Option.some.injEq] at q1
      obtain ⟨a, ha, l', rfl, rfl⟩ := q1
      have hE : bnd.coefficients = [.arr a] := by rw [← hie]; exact constantValue_some ha
      rw [hbind] at q2
      obtain ⟨Rc, terms, g0, hL, hwt, htot, hval, -⟩ := rearr_contract' (lib := lib) hp (xs := []) (fun _ _ => .inl rfl) houts hner
      refine ⟨Rc, terms, prim.bind1 sem, hL.1, hwt, single a hE _, ?_, ?_, hval, htot⟩
      · intro j hj u s hu he
        rw [hE] at hj
        have hj0 : j = 0 := by simpa using hj
        subst hj0
        obtain ⟨k1, k2⟩ := hval u s (by simpa using hu) he
        refine ⟨by simpa using k1, fun L J hLv hJ => ?_⟩
        have hJ : J = [] := List.length_eq_zero_iff.1 (by simpa using hJ.length.symm)
        subst hJ
        simpa using k2 L hLv
      · rw [hE, q3]
        simp only [mapOverEnclosure, List.mapM_cons, List.mapM_nil, bind1_of_bind q2, py_ok_bind]
        rfl
    · cases hc : [i].mapM Inter.constantValue with
      | some vs =>
        simp only [List.mapM_cons, List.mapM_nil, Option.bind_eq_bind, Option.bind_eq_some_iff, Option.pure_def,
          Option.some.injEq] at hc
        obtain ⟨a, ha, -⟩ := hc
        have hE : bnd.coefficients = [.arr a] := by rw [← hie]; exact constantValue_some ha
        obtain ⟨Rc, terms, g, hL, hwt, htot, hval, hmap⟩ := rearr_contract' (lib := lib) hp (xs := []) (fun _ _ => .inl rfl) houts hner
        refine ⟨Rc, terms, g, hL.1, hwt, single a hE _, ?_,
          by rw [← hie]; exact hmap T' f i _ hf hfi (hie ▸ single a hE _) (by rw [hie]; exact sd.wf), hval, htot⟩
        intro j hj u s hu he
        rw [hE] at hj
        have hj0 : j = 0 := by simpa using hj
        subst hj0
        obtain ⟨k1, k2⟩ := hL.2 0 u s (by simpa using hu) he
        refine ⟨by simpa using k1, fun L J hLv hJ => ?_⟩
        exact k2 L J hLv (by simpa using hJ)
      | none =>
        obtain ⟨-, tlo, thi, T, T0, env0, ht, hT, hT0, henv0, hrun⟩ := taylorEnv_inv henv
        have hso := ((runOk_append (l2 := [(⟨prim, [o], [w]⟩ : Eqn K)]) (ok' tlo thi T T0 env0 ht hT hT0 henv0)).2 env hrun).1 [i]
          hins hc
        have hhead : i.headShape = y'.shape := headShape_eq (by rw [hie]; exact sd)
        have hi : ExactBatch x0.shape y'.shape i.encl ∧ ∀ s, prim = .reshape s → x0.shape = [] ∨ x0.shape.prod ≠ 1 := by
          have conv : i.Exact x0.shape → ExactBatch x0.shape y'.shape i.encl := by
            intro h
            unfold Inter.Exact at h
            rwa [hhead] at h
          cases hp with
          | reshape s => exact ⟨conv hso.1, fun _ _ => hso.2⟩
          | transpose q => exact ⟨conv hso, fun _ h => by cases h⟩
          | broadcastInDim q q' => exact ⟨conv hso, fun _ h => by cases h⟩
          | squeeze q => exact ⟨conv hso, fun _ h => by cases h⟩
          | reduceSum q => exact ⟨conv hso, fun _ h => by cases h⟩
          | reduceWindowSum q => exact ⟨conv hso, fun _ h => by cases h⟩
        obtain ⟨Rc, terms, g, hL, hwt, htot, hval, hmap⟩ := rearr_contract' (lib := lib) hp hi.2 houts hner
        exact ⟨Rc, terms, g, hL.1, hwt, hie ▸ hi.1, fun j _ u s hu he => hL.2 j u s hu he,
          by rw [← hie]; exact hmap T' f i _ hf hfi hi.1 (by rw [hie]; exact sd.wf), hval, htot⟩
  obtain ⟨Rc, terms, g, t1, t2, hexb, t3, hmap, t4, htot⟩ := hex
  have hz' := ND.map2_same (fun a b : K => a - b) hx
  obtain ⟨c, c', hc, hc', wc, wc', sc, sc', ends⟩ := passThru_eval (z := ⟨x.shape, fun I => x.bget I - x0.bget I⟩) sd.wf sd'.wf sd.ne
    (R := y'.shape) (by show ExactBatch x.shape _ _; rw [hx]; exact hexb) t1 t2
    (by show ∀ i < _, ∀ u s : ND K, u.shape = y'.shape ++ (List.replicate i x.shape).flatten → _; rw [hx]; exact t3) hmap
  have hcall : bnd.call x = .ok c := by
    simp only [Bounds.call, hx0, hz', py_ok_bind]
    exact hc
  have hcall' : bnd'.call x = .ok c' := by
    simp only [Bounds.call, hx0', hz', py_ok_bind]
    exact hc'
  have shapes : ∀ c : Coef K, c.WellFormed → (TEA.toInterval c).1.shape = c.shape ∧ (TEA.toInterval c).2.shape = c.shape := by
    intro c hc
    cases c with
    | arr a => exact ⟨rfl, rfl⟩
    | ivl l u => exact ⟨rfl, hc.1.symm⟩
  have s1 : (TEA.toInterval c).1.shape = y'.shape := (shapes c wc).1.trans sc
  have s2 : (TEA.toInterval c).2.shape = y'.shape := (shapes c wc).2.trans sc
  obtain ⟨gl, hgl⟩ := htot _ s1
  obtain ⟨gu, hgu⟩ := htot _ s2
  obtain ⟨m1, m2⟩ := t4 _ _ s1 (bind1_of_bind hgl)
  obtain ⟨m3, m4⟩ := t4 _ _ s2 (bind1_of_bind hgu)
  refine ⟨(TEA.toInterval c).1, (TEA.toInterval c).2, (TEA.toInterval c').1, (TEA.toInterval c').2, gl, gu, y', hy', s1, s2,
    ?_, ?_, ?_, ?_, hgl, hgu,
    ⟨(shapes c' wc').1.trans (sc'.trans m1.symm), fun I hI => ?_⟩, ⟨(shapes c' wc').2.trans (sc'.trans m3.symm), fun I hI => ?_⟩⟩
  · simp only [Bounds.lower, hcall, py_ok_bind]; rfl
  · simp only [Bounds.upper, hcall, py_ok_bind]; rfl
  · simp only [Bounds.lower, hcall', py_ok_bind]; rfl
  · simp only [Bounds.upper, hcall', py_ok_bind]; rfl
  · have hI' : ValidIdx Rc I := by rw [← sc', ← (shapes c' wc').1]; exact hI
    rw [m2 I hI']
    exact (ends I hI').1
  · have hI' : ValidIdx Rc I := by rw [← sc', ← (shapes c' wc').2]; exact hI
    rw [m4 I hI']
    exact (ends I hI').2

/-- **C92 with the library's own tables** (under the conditions of C42 for them). -/
theorem C92_rearrange_builtin {p : Jaxpr ℝ} {consts : List (ND ℝ)} {maxDegree : ℤ}
    {propagate : Bool} {x0 lo hi x : ND ℝ} {bnd bnd' : Bounds ℝ} {o : Atom ℝ} {prim : Prim ℝ} {w : ℤ}
    (hp : Rearranges prim) (hlh : lo.shape = hi.shape) (h0 : (Coef.ivl lo hi).Contains x0) (hx : x.shape = x0.shape) (hw : w ≠ -1)
    (hb : taylorBounds safeLib (p.out o) consts maxDegree propagate x0 lo hi = .ok bnd)
    (hb' : taylorBounds safeLib (p.andThen prim [o] w) consts maxDegree propagate x0 lo hi = .ok bnd')
    (hfit : ProgramFits realSem (p.andThen prim [o] w) consts x0)
    {vals0 : Vals ℝ} (hev0 : evalEnv realSem (p.andThen prim [o] w) consts x0 = .ok vals0) (hne0 : NonEmptyVals vals0) :
    taylorBounds realLib (p.out o) consts maxDegree propagate x0 lo hi = .ok bnd ∧
    taylorBounds realLib (p.andThen prim [o] w) consts maxDegree propagate x0 lo hi = .ok bnd' ∧
    ∃ l u l' u' gl gu y : ND ℝ, evalJaxpr realSem (p.out o) consts x0 = .ok y ∧ l.shape = y.shape ∧ u.shape = y.shape ∧
      bnd.lower x = .ok l ∧ bnd.upper x = .ok u ∧ bnd'.lower x = .ok l' ∧ bnd'.upper x = .ok u' ∧
      prim.bind realSem [l] = .ok [gl] ∧ prim.bind realSem [u] = .ok [gu] ∧ l'.Same gl ∧ u'.Same gu :=
  ⟨okLe_taylorBounds safeLib_le _ _ _ _ _ _ _ _ hb, okLe_taylorBounds safeLib_le _ _ _ _ _ _ _ _ hb',
    C92_rearrange safeLib_sound hp hlh h0 hx hw hb hb' hfit hev0 hne0⟩

/-- What the program of C92 computes: `prim` of the value of `o`. -/
theorem C92_meaning {sem : Sem K} {p : Jaxpr K} {consts : List (ND K)} {x y y3 : ND K} {o : Atom K} {prim : Prim K} {w : ℤ} (hw : w ≠ -1)
    (hy : evalJaxpr sem (p.out o) consts x = .ok y) (h3 : evalJaxpr sem (p.andThen prim [o] w) consts x = .ok y3) :
    prim.bind sem [y] = .ok [y3] := by
  simp only [evalJaxpr, py_bind_ok] at hy h3
  obtain ⟨env, he, hy⟩ := hy
  obtain ⟨env', he', h3⟩ := h3
  replace he : p.eqns.foldlM (evalEqn sem) (evalInit p consts x) = .ok env := he
  replace he' : (p.eqns ++ [(⟨prim, [o], [w]⟩ : Eqn K)]).foldlM (evalEqn sem) (evalInit p consts x) = .ok env' := he'
  replace hy : getVal env o = .ok y := hy
  rw [List.foldlM_append, he, py_ok_bind, List.foldlM_cons, py_bind_ok] at he'
  obtain ⟨env1, hst, hnil⟩ := he'
  cases hnil
  simp only [evalEqn, py_bind_ok] at hst
  obtain ⟨vals, hvals, outs, houts, hst⟩ := hst
  have hlen : outs.length = 1 := by
    by_contra hne
    rw [if_pos (show outs.length ≠ [w].length from hne)] at hst
    cases hst
  obtain ⟨out, rfl⟩ := List.length_eq_one_iff.1 hlen
  rw [if_neg (by simp)] at hst
  cases hst
  replace h3 : getVal (storeVal env (w, out)) (.var w) = .ok y3 := h3
  rw [storeVal, if_neg hw, getVal, List.lookup_cons_self] at h3
  cases h3
  simp only [List.mapM_cons, List.mapM_nil, hy, py_ok_bind, py_pure] at hvals
  cases hvals
  exact houts

/-- The program of `PolyEx` followed by a sum over the two entries of `(A x + c)^2`. -/
theorem exQuad_sum_fits : ProgramFits polySem (exQuad.andThen (.reduceSum [0]) [.var 5] 8) [exA, exC] exX0 := by
  refine ⟨by decide, _, countsFit_trivial _, ?_⟩
  refine ⟨fun _ _ _ _ _ => Or.inl rfl, fun v1 h1 => ?_⟩
  cases h1
  refine ⟨fun _ a o ha ho => ?_, fun v2 h2 => ?_⟩
  · cases ha; cases ho
    exact ⟨Or.inr (Or.inl rfl), Or.inl rfl⟩
  cases h2
  refine ⟨fun _ a o ha ho => ?_, fun v3 h3 => ?_⟩
  · cases ha; cases ho
    trivial
  cases h3
  refine ⟨fun _ a o ha ho => ?_, fun v3 h3 => ?_⟩
  · cases ha; cases ho
    trivial
  cases h3
  refine ⟨fun _ a o ha ho => ?_, fun v3 h3 => ?_⟩
  · cases ha; cases ho
    trivial
  cases h3
  refine ⟨fun _ a o ha ho => ?_, fun v3 h3 => trivial⟩
  cases ha; cases ho
  trivial

theorem exQuad_sum_eval : ∃ vals, evalEnv polySem (exQuad.andThen (.reduceSum [0]) [.var 5] 8) [exA, exC] exX0 = .ok vals ∧
    NonEmptyVals vals := by
  refine ⟨_, rfl, ?_⟩
  have z2 : ValidIdx [2] [0] := .cons (by norm_num) .nil
  have z22 : ValidIdx [2, 2] [0, 0] := .cons (by norm_num) z2
  intro va hva
  rcases hva with _ | ⟨_, hva⟩
  · exact ⟨[], .nil⟩
  rcases hva with _ | ⟨_, hva⟩
  · exact ⟨[], .nil⟩
  rcases hva with _ | ⟨_, hva⟩
  · exact ⟨[], .nil⟩
  rcases hva with _ | ⟨_, hva⟩
  · exact ⟨[0], z2⟩
  rcases hva with _ | ⟨_, hva⟩
  · exact ⟨[0], z2⟩
  rcases hva with _ | ⟨_, hva⟩
  · exact ⟨[0], z2⟩
  rcases hva with _ | ⟨_, hva⟩
  · exact ⟨[0], z2⟩
  rcases hva with _ | ⟨_, hva⟩
  · exact ⟨[0, 0], z22⟩
  rcases hva with _ | ⟨_, hva⟩
  · exact ⟨[0], z2⟩
  · cases hva

/-- The hypotheses of C92 are met: the vector `(A x + c)^2` of the program of `PolyEx`, and the sum of its entries; at every `x` with
two entries the bounds of the sum are the sums of the bounds of the entries. -/
theorem C92_example : ∃ bnd bnd' : Bounds ℚ,
    taylorBounds polyLib (exQuad.out (.var 5)) [exA, exC] 1 true exX0 exLo' exHi' = .ok bnd ∧
    taylorBounds polyLib (exQuad.andThen (.reduceSum [0]) [.var 5] 8) [exA, exC] 1 true exX0 exLo' exHi' = .ok bnd' ∧
    ∀ x : ND ℚ, x.shape = [2] → ∃ l u l' u', bnd.lower x = .ok l ∧ bnd.upper x = .ok u ∧ bnd'.lower x = .ok l' ∧
      bnd'.upper x = .ok u' ∧ l.shape = [2] ∧ l'.shape = [] ∧ l'.get [] = l.get [0] + l.get [1] ∧
      u'.get [] = u.get [0] + u.get [1] := by
  obtain ⟨b, h⟩ := ok_of_isSome
    (show (taylorBounds polyLib (exQuad.out (.var 5)) [exA, exC] 1 true exX0 exLo' exHi').toOption.isSome = true by decide +kernel)
  obtain ⟨b', h'⟩ := ok_of_isSome (show (taylorBounds polyLib (exQuad.andThen (.reduceSum [0]) [.var 5] 8) [exA, exC] 1 true exX0
    exLo' exHi').toOption.isSome = true by decide +kernel)
  obtain ⟨vals, he, hn⟩ := exQuad_sum_eval
  refine ⟨b, b', h, h', fun x hx => ?_⟩
  have hlh : exLo'.shape = exHi'.shape := rfl
  obtain ⟨l, u, l', u', gl, gu, y, hy, r1, r2, q1, q2, q3, q4, q5, q6, q7, q8⟩ := C92_rearrange polyLib_sound (.reduceSum [0]) hlh exX0_mem (x := x) hx
    (by decide) h h' exQuad_sum_fits he hn
  have one : ∀ {a g : ND ℚ}, a.shape = [2] → (Prim.reduceSum [0]).bind polySem [a] = .ok [g] →
      g.shape = [] ∧ g.get [] = a.get [0] + a.get [1] := by
    intro a g ha hb
    have hb := one_inv (show (Lax.reduceSum [0] a.canon).one = .ok [g] from hb)
    obtain ⟨s, f⟩ := a
    have ha : s = [2] := ha
    subst ha
    unfold Lax.reduceSum at hb
    split_ifs at hb
    cases hb
    refine ⟨rfl, ?_⟩
    show f [0] + (f [1] + 0) = f [0] + f [1]
    ring
  have hs : l.shape = [2] ∧ u.shape = [2] := by
    have hs5 : (evalJaxpr polySem (exQuad.out (.var 5)) [exA, exC] exX0).toOption.map (fun y => y.shape) = some [2] := by
      decide +kernel
    rw [hy] at hs5
    have hs5 : y.shape = [2] := Option.some.inj hs5
    exact ⟨r1.trans hs5, r2.trans hs5⟩
  obtain ⟨e1, e2⟩ := one hs.1 q5
  obtain ⟨e3, e4⟩ := one hs.2 q6
  refine ⟨l, u, l', u', q1, q2, q3, q4, hs.1, q7.1.trans e1, ?_, ?_⟩
  · rw [q7.2 [] (by rw [q7.1.trans e1]; exact .nil), e2]
  · rw [q8.2 [] (by rw [q8.1.trans e3]; exact .nil), e4]

/-- `x * x * x` for a number `x`. -/
def exXCubed : Jaxpr ℚ where
  constvars := []
  invars := [0]
  outvars := [.var 2]
  eqns := [⟨.mul, [.var 0, .var 0], [1]⟩, ⟨.mul, [.var 1, .var 0], [2]⟩]

theorem exXCubed_bid_fits : ProgramFits polySem (exXCubed.andThen (.broadcastInDim [3] []) [.var 2] 3) [] (ND.scalar 1) := by
  refine ⟨by decide, _, countsFit_trivial _, ?_⟩
  refine ⟨fun _ a o ha ho => ?_, fun v1 h1 => ?_⟩
  · cases ha; cases ho
    trivial
  cases h1
  refine ⟨fun _ a o ha ho => ?_, fun v2 h2 => ?_⟩
  · cases ha; cases ho
    trivial
  cases h2
  refine ⟨fun _ a o ha ho => ?_, fun v3 h3 => trivial⟩
  cases ha; cases ho
  trivial

theorem exXCubed_bid_eval : ∃ vals, evalEnv polySem (exXCubed.andThen (.broadcastInDim [3] []) [.var 2] 3) [] (ND.scalar 1) = .ok vals ∧
    NonEmptyVals vals := by
  refine ⟨_, rfl, ?_⟩
  have z3 : ValidIdx [3] [0] := .cons (by norm_num) .nil
  intro va hva
  rcases hva with _ | ⟨_, hva⟩
  · exact ⟨[0], z3⟩
  rcases hva with _ | ⟨_, hva⟩
  · exact ⟨[], .nil⟩
  rcases hva with _ | ⟨_, hva⟩
  · exact ⟨[], .nil⟩
  rcases hva with _ | ⟨_, hva⟩
  · exact ⟨[], .nil⟩
  · cases hva

/-- The same for `broadcast_in_dim`: the cube of a number `x`, repeated three times (`max_degree = 2`, reference point `1`, trust region
`[0, 2]`); at every number `x` the bounds are the bounds of the cube, repeated. -/
theorem C92_example_broadcast : ∃ bnd bnd' : Bounds ℚ,
    taylorBounds polyLib (exXCubed.out (.var 2)) [] 2 true (ND.scalar 1) (ND.scalar 0) (ND.scalar 2) = .ok bnd ∧
    taylorBounds polyLib (exXCubed.andThen (.broadcastInDim [3] []) [.var 2] 3) [] 2 true (ND.scalar 1) (ND.scalar 0) (ND.scalar 2) = .ok bnd' ∧
    ∀ x : ND ℚ, x.shape = [] → ∃ l u l' u', bnd.lower x = .ok l ∧ bnd.upper x = .ok u ∧ bnd'.lower x = .ok l' ∧
      bnd'.upper x = .ok u' ∧ l'.shape = [3] ∧ u'.shape = [3] ∧
      ∀ i < 3, l'.get [i] = l.get [] ∧ u'.get [i] = u.get [] := by
  obtain ⟨b, h⟩ := ok_of_isSome (show (taylorBounds polyLib (exXCubed.out (.var 2)) [] 2 true (ND.scalar 1) (ND.scalar 0)
    (ND.scalar 2)).toOption.isSome = true by decide +kernel)
  obtain ⟨b', h'⟩ := ok_of_isSome (show (taylorBounds polyLib (exXCubed.andThen (.broadcastInDim [3] []) [.var 2] 3) [] 2 true
    (ND.scalar 1) (ND.scalar 0) (ND.scalar 2)).toOption.isSome = true by decide +kernel)
  obtain ⟨vals, he, hn⟩ := exXCubed_bid_eval
  refine ⟨b, b', h, h', fun x hx => ?_⟩
  have hlh : (ND.scalar 0 : ND ℚ).shape = (ND.scalar 2 : ND ℚ).shape := rfl
  have h0 : (Coef.ivl (ND.scalar 0) (ND.scalar 2) : Coef ℚ).Contains (ND.scalar 1) :=
    ⟨rfl, fun I _ => ⟨by show (0 : ℚ) ≤ 1; norm_num, by show (1 : ℚ) ≤ 2; norm_num⟩⟩
  obtain ⟨l, u, l', u', gl, gu, y, hy, r1, r2, q1, q2, q3, q4, q5, q6, q7, q8⟩ := C92_rearrange polyLib_sound (.broadcastInDim [3] [])
    hlh h0 (x := x) hx (by decide) h h' exXCubed_bid_fits he hn
  have hs7 : (evalJaxpr polySem (exXCubed.out (.var 2)) [] (ND.scalar 1)).toOption.map (fun y => y.shape) = some [] := by
    decide +kernel
  rw [hy] at hs7
  have hs7 : y.shape = [] := Option.some.inj hs7
  have one : ∀ {a g : ND ℚ}, a.shape = [] → (Prim.broadcastInDim [3] []).bind polySem [a] = .ok [g] →
      g.shape = [3] ∧ ∀ i, g.get [i] = a.get [] := by
    intro a g ha hb
    have hb := one_inv (show (Lax.broadcastInDimP [3] [] a.canon).one = .ok [g] from hb)
    obtain ⟨s, f⟩ := a
    have ha : s = [] := ha
    subst ha
    unfold Lax.broadcastInDimP at hb
    split_ifs at hb
    cases hb
    exact ⟨rfl, fun i => rfl⟩
  obtain ⟨e1, e2⟩ := one (r1.trans hs7) q5
  obtain ⟨e3, e4⟩ := one (r2.trans hs7) q6
  refine ⟨l, u, l', u', q1, q2, q3, q4, q7.1.trans e1, q8.1.trans e3, fun i hi => ⟨?_, ?_⟩⟩
  · rw [q7.2 [i] (by rw [q7.1.trans e1]; exact .cons hi .nil), e2]
  · rw [q8.2 [i] (by rw [q8.1.trans e3]; exact .cons hi .nil), e4]

end JB
end AB
