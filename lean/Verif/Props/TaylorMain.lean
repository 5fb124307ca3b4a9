/-
C42, C43, C47, C48: the bounds returned by `taylor_bounds` (/repo/autobound/jax/jax_bound.py:61-212) hold
over the whole trust region.
-/
import Verif.Props.TaylorBounds

set_option linter.unusedSectionVars false

namespace AB
variable {K : Type} [Field K] [LinearOrder K] [IsStrictOrderedRing K]
open IA (repS)

namespace JB
open TEA Lax

theorem sum_select (n k : ℕ) (hk : k < n) (f : ℕ → K) :
    ((List.range n).map fun j => (if k = j then (1 : K) else 0) * f j).sum = f k := by
  induction n with
  | zero => omega
  | succ n ih =>
    rw [List.range_succ, List.map_append, List.sum_append]
    by_cases h : k = n
    · subst h
      have : ((List.range k).map fun j => (if k = j then (1 : K) else 0) * f j).sum = 0 := by
        apply List.sum_eq_zero
        intro x hx
        obtain ⟨j, hj, rfl⟩ := List.mem_map.1 hx
        have : k ≠ j := by have := List.mem_range.1 hj; omega
        simp [this]
      rw [this]
      simp
    · rw [ih (by omega)]
      simp [h]

theorem identityCoef_shape {x0 identity : ND K} (hid : identityCoef x0 = .ok identity) :
    identity.shape = x0.shape ++ x0.shape := by
  unfold identityCoef at hid
  split at hid
  · rename_i h; cases hid; rw [h]; rfl
  · rename_i n h; cases hid; rw [h]; rfl
  · cases hid

/-- the enclosure of the input variable -/
theorem sound_input {x0 x z identity : ND K} (hz : ND.map2 (· - ·) x x0 = .ok z) (hx : x.shape = x0.shape)
    (hid : identityCoef x0 = .ok identity) : SoundEncl [.arr x0, .arr identity] z x := by
  have hzs : z.shape = x0.shape := by
    have := (ND.map2_ok hz).1
    rw [hx, bshape_self] at this
    exact (Option.some.inj this).symm
  have hzv : ∀ I, ValidIdx x0.shape I → z.get I = x.get I - x0.get I := by
    intro I hI
    rw [map2_at hz (hzs ▸ hI), ND.bget_valid _ (hx ▸ hI), ND.bget_valid _ hI]
  have hwf : WellFormedEncl ([.arr x0, .arr identity] : Encl K) := by
    intro c hc
    simp only [List.mem_cons, List.not_mem_nil, or_false] at hc
    rcases hc with rfl | rfl <;> exact ⟨trivial, trivial⟩
  have hids := identityCoef_shape hid
  refine ⟨by simp, hwf, ?_, ?_⟩
  · rw [encloses_iff hwf]
    constructor
    · intro i c hc
      match i with
      | 0 => cases hc; exact ⟨Coef.WF_arr _, x0.shape, by simp [Coef.shape, IA.repS], hx ▸ ble_refl _⟩
      | 1 =>
        cases hc
        exact ⟨Coef.WF_arr _, x0.shape, by simp [Coef.shape, IA.repS, hids, hzs], hx ▸ ble_refl _⟩
      | i + 2 => simp at hc
    · intro I hI
      have hI0 : ValidIdx x0.shape I := hx ▸ hI
      refine ⟨fun i J => if i = 0 then x0.bget (I ++ J) else if i = 1 then identity.bget (I ++ J) else 0,
        fun i => ⟨?_, ?_⟩, ?_⟩
      · intro c hc J _
        match i with
        | 0 => cases hc; rw [Coef.mem_arr]; simp
        | 1 => cases hc; rw [Coef.mem_arr]; simp
        | i + 2 => simp at hc
      · intro hn J
        match i with
        | 0 => simp at hn
        | 1 => simp at hn
        | i + 2 => simp
      · have key : pair z.shape z.get 1 (fun J => identity.bget (I ++ J)) = z.get I := by
          rw [pair_congr (w' := fun J => identity.get (I ++ J)) (fun J hJ => by
            rw [ND.bget_valid]
            rw [hids]
            exact validIdx_append hI0 (by simpa [IA.repS, hzs] using hJ))]
          unfold identityCoef at hid
          split at hid
          · rename_i h
            cases hid
            rw [h] at hI0
            cases hI0
            rw [hzs, h]
            simp [pair, zp, chunks, IA.repS, idx, ND.scalar]
          · rename_i n h
            cases hid
            rw [h] at hI0
            cases hI0 with
            | cons hk h2 =>
              cases h2
              rename_i k
              rw [hzs, h]
              have e : idx (repS 1 [n]) = (List.range n).map fun j => [j] := by
                simp [IA.repS, idx, List.flatMap_def]
                induction (List.range n) with
                | nil => rfl
                | cons a l ih => simp [ih]
              unfold pair
              rw [e, List.map_map]
              have := sum_select n k hk (fun j => z.get [j])
              rw [← this]
              congr 1
              apply List.map_congr_left
              intro j _
              simp [zp, chunks]
          · cases hid
        simp only [List.length_cons, List.length_nil, selVal, Finset.sum_range_succ, Finset.range_zero,
          Finset.sum_empty, zero_add, if_true, pair_zero_deg, List.append_nil]
        simp only [one_ne_zero, if_false]
        rw [key, ND.bget_valid _ hI0, hzv I hI0]
        ring
  · intro c hc
    cases hc
    exact hx.symm

/-- what the arguments of `taylor_bounds` give -/
theorem region_shift {x0 lo hi tlo thi : ND K} (hlh : lo.shape = hi.shape)
    (h0 : (Coef.ivl lo hi).Contains x0) (ht : IA.subtract (.ivl lo hi) (.arr x0) = .ok (.ivl tlo thi))
    {x : ND K} (hx : (Coef.ivl lo hi).Contains x) :
    ∃ z, ND.map2 (· - ·) x x0 = .ok z ∧ z.shape = x0.shape ∧ (Coef.ivl tlo thi).Contains z := by
  have hs : x.shape = x0.shape := hx.1.trans h0.1.symm
  have hz := ND.map2_same (fun a b : K => a - b) hs
  refine ⟨_, hz, hs, ?_⟩
  obtain ⟨r, hr, hc⟩ := C01_subtract (A := .ivl lo hi) (B := .arr x0) hlh trivial hx
    ⟨rfl, fun I _ => rfl⟩ hz
  rw [hr] at ht
  cases ht
  exact hc

theorem lookup_zip_const {vs : List ℤ} {cs : List (ND K)} (hl : cs.length = vs.length) {w : ℤ} {i : Inter K}
    (h : (vs.zip (cs.map constantInter)).lookup w = some i) :
    ∃ a, (vs.zip cs).lookup w = some a ∧ i = constantInter a := by
  induction vs generalizing cs with
  | nil => simp at h
  | cons v vs ih =>
    rcases cs with _ | ⟨c, cs⟩
    · simp at hl
    rw [List.map_cons, List.zip_cons_cons, List.lookup_cons] at h
    rw [List.zip_cons_cons, List.lookup_cons]
    by_cases hw : (w == v) = true
    · rw [hw] at h ⊢
      simp only at h ⊢
      cases h
      exact ⟨c, rfl, rfl⟩
    · have hw : (w == v) = false := by simpa using hw
      rw [hw] at h ⊢
      simp only at h ⊢
      exact ih (by simpa using hl) h

/-- what a successful run consists of -/
theorem taylorEnv_inv {lib : Lib K} {jaxpr : Jaxpr K} {consts : List (ND K)} {maxDegree : ℤ}
    {propagate : Bool} {x0 lo hi : ND K} {env' : Env K}
    (hb : taylorEnv lib jaxpr consts maxDegree propagate x0 lo hi = .ok env') :
    0 ≤ maxDegree ∧ ∃ tlo thi T T0 env, IA.subtract (.ivl lo hi) (.arr x0) = .ok (.ivl tlo thi) ∧
      TEA.init maxDegree.toNat tlo thi = .ok T ∧ TEA.init 0 tlo thi = .ok T0 ∧
      initEnv (propagate && (maxDegree != 0)) maxDegree.toNat jaxpr consts x0 lo hi = .ok env ∧
      jaxpr.eqns.foldlM (step lib T T0 (propagate && (maxDegree != 0)) x0.shape) env = .ok env' := by
  unfold taylorEnv at hb
  by_cases hmd : maxDegree < 0
  · rw [if_pos hmd] at hb; cases hb
  rw [if_neg hmd] at hb
  simp only [py_bind_ok] at hb
  obtain ⟨t, ht, hb⟩ := hb
  cases t with
  | arr _ => cases hb
  | ivl tlo thi =>
    simp only [py_bind_ok] at hb
    obtain ⟨T, hT, T0, hT0, env, henv, hrun⟩ := hb
    exact ⟨by omega, tlo, thi, T, T0, env, ht, hT, hT0, henv, hrun⟩

theorem initEnv_inv {propagate : Bool} {md : ℕ} {jaxpr : Jaxpr K} {consts : List (ND K)} {x0 lo hi : ND K}
    {env : Env K} (henv : initEnv propagate md jaxpr consts x0 lo hi = .ok env) :
    ∃ identity v, identityCoef x0 = .ok identity ∧ consts.length = jaxpr.constvars.length ∧
      jaxpr.invars = [v] ∧
      env = (v, ⟨if md > 0 then [.arr x0, .arr identity] else [.ivl lo hi],
        if propagate then some (.ivl lo hi) else none⟩) :: (jaxpr.constvars.zip (consts.map constantInter)) := by
  unfold initEnv at henv
  simp only [py_bind_ok] at henv
  obtain ⟨identity, hid, henv⟩ := henv
  by_cases hcl : consts.length ≠ jaxpr.constvars.length
  · rw [if_pos hcl] at henv; cases henv
  rw [if_neg hcl] at henv
  rw [not_not] at hcl
  split at henv
  case h_2 => cases henv
  rename_i v hv
  cases henv
  exact ⟨identity, v, hid, hcl, hv, rfl⟩

/-- the initial environment is sound at every point of the trust region -/
theorem initEnv_ok {jaxpr : Jaxpr K} {consts : List (ND K)} {maxDegree : ℤ} {propagate : Bool}
    {x0 lo hi x z : ND K} {env : Env K} (hmd : 0 ≤ maxDegree) (hlh : lo.shape = hi.shape)
    (h0 : (Coef.ivl lo hi).Contains x0)
    (hx : (Coef.ivl lo hi).Contains x) (hz : ND.map2 (· - ·) x x0 = .ok z)
    (henv : initEnv (propagate && (maxDegree != 0)) maxDegree.toNat jaxpr consts x0 lo hi = .ok env) :
    EnvOk maxDegree.toNat z env (evalInit jaxpr consts x) := by
  have hxs : x.shape = x0.shape := hx.1.trans h0.1.symm
  obtain ⟨identity, v, hid, hcl, hv, rfl⟩ := initEnv_inv henv
  intro w i hw
  unfold evalInit
  rw [hv]
  rw [List.lookup_cons] at hw
  rw [List.map_cons, List.map_nil, List.singleton_append, List.lookup_cons]
  by_cases hwv : (w == v) = true
  · rw [hwv] at hw ⊢
    simp only at hw ⊢
    cases hw
    refine ⟨x, rfl, ?_⟩
    by_cases hmd0 : maxDegree.toNat > 0
    · rw [if_pos hmd0]
      refine ⟨sound_input hz hxs hid, by simp only [List.length_cons, List.length_nil]; omega, ?_⟩
      intro r hr
      split_ifs at hr
      cases hr
      refine ⟨hlh, hx.1.symm, fun I hI => hx.2 I (hx.1 ▸ hI), ?_, ?_⟩
      · intro a ha I hI
        cases ha
        exact h0.2 I (hx.1 ▸ hI)
      · intro _ _ h
        cases h
    · rw [if_neg hmd0]
      refine ⟨sound_set ⟨hlh, ?_⟩ hx.1.symm (fun I hI => hx.2 I (hx.1 ▸ hI)), by simp, ?_⟩
      · intro I hI
        exact (hx.2 I hI).1.trans (hx.2 I hI).2
      · intro r hr
        have : maxDegree = 0 := by omega
        subst this
        simp at hr
  · have hwv : (w == v) = false := by simpa using hwv
    rw [hwv] at hw ⊢
    simp only at hw ⊢
    obtain ⟨a, ha1, rfl⟩ := lookup_zip_const hcl hw
    exact ⟨a, ha1, const_ok _ z a⟩

/-- `taylorEnv_sound`, with the tables right at the point considered only. -/
theorem taylorEnv_sound_at {lib : Lib K} {sem : Sem K} {jaxpr : Jaxpr K}
    {consts : List (ND K)} {maxDegree : ℤ} {propagate : Bool} {x0 lo hi x : ND K} {env' : Env K}
    (hlib : ∀ z, ND.map2 (· - ·) x x0 = .ok z → LibSoundAt z lib sem)
    (hlh : lo.shape = hi.shape) (h0 : (Coef.ivl lo hi).Contains x0) (hx : (Coef.ivl lo hi).Contains x)
    (hb : taylorEnv lib jaxpr consts maxDegree propagate x0 lo hi = .ok env')
    (hok : TaylorBoundsOk lib jaxpr consts maxDegree propagate x0 lo hi)
    {vals : Vals K} (hev : evalEnv sem jaxpr consts x = .ok vals) (hne : NonEmptyVals vals) :
    ∃ z, ND.map2 (· - ·) x x0 = .ok z ∧ 0 ≤ maxDegree ∧ z.shape = x0.shape ∧
      EnvOk maxDegree.toNat z env' vals := by
  obtain ⟨hmd, tlo, thi, T, T0, env, ht, hT, hT0, henv, hrun⟩ := taylorEnv_inv hb
  have hrunok := hok tlo thi T T0 env ht hT hT0 henv
  obtain ⟨z, hz, hzs, hzc⟩ := region_shift hlh h0 ht hx
  obtain ⟨z0, hz0, hz0s, hz0c⟩ := region_shift hlh h0 ht h0
  have h00 : (Coef.ivl tlo thi).Contains ⟨tlo.shape, fun _ => 0⟩ := by
    refine ⟨rfl, fun I hI => ?_⟩
    have hs : z0.shape = tlo.shape := hz0c.1
    have := hz0c.2 I hI
    rw [map2_at hz0 (hs ▸ hI), sub_self] at this
    exact this
  have henvok := initEnv_ok hmd hlh h0 hx hz henv
  rw [← hzs] at hrunok hrun
  have hfin := run_ok (hlib z hz) hT hT0 hzc h00 (by
    intro hp
    have : maxDegree ≠ 0 := by
      intro h
      subst h
      simp at hp
    omega) henvok hrunok hne hev hrun
  exact ⟨z, hz, hmd, hzs, hfin⟩

/-- the enclosures of all variables are sound at every point of the trust region -/
theorem taylorEnv_sound {lib : Lib K} {sem : Sem K} (hlib : LibSound lib sem) {jaxpr : Jaxpr K}
    {consts : List (ND K)} {maxDegree : ℤ} {propagate : Bool} {x0 lo hi x : ND K} {env' : Env K}
    (hlh : lo.shape = hi.shape) (h0 : (Coef.ivl lo hi).Contains x0) (hx : (Coef.ivl lo hi).Contains x)
    (hb : taylorEnv lib jaxpr consts maxDegree propagate x0 lo hi = .ok env')
    (hok : TaylorBoundsOk lib jaxpr consts maxDegree propagate x0 lo hi)
    {vals : Vals K} (hev : evalEnv sem jaxpr consts x = .ok vals) (hne : NonEmptyVals vals) :
    ∃ z, ND.map2 (· - ·) x x0 = .ok z ∧ 0 ≤ maxDegree ∧ z.shape = x0.shape ∧
      EnvOk maxDegree.toNat z env' vals :=
  taylorEnv_sound_at (fun z _ => hlib.at z) hlh h0 hx hb hok hev hne

/-- `taylorBounds_sound`, with the tables right at the point considered only. -/
theorem taylorBounds_sound_at {lib : Lib K} {sem : Sem K} {jaxpr : Jaxpr K}
    {consts : List (ND K)} {maxDegree : ℤ} {propagate : Bool} {x0 lo hi x : ND K} {bnd : Bounds K}
    (hlib : ∀ z, ND.map2 (· - ·) x x0 = .ok z → LibSoundAt z lib sem)
    (hlh : lo.shape = hi.shape) (h0 : (Coef.ivl lo hi).Contains x0) (hx : (Coef.ivl lo hi).Contains x)
    (hb : taylorBounds lib jaxpr consts maxDegree propagate x0 lo hi = .ok bnd)
    (hok : TaylorBoundsOk lib jaxpr consts maxDegree propagate x0 lo hi)
    {vals : Vals K} (hev : evalEnv sem jaxpr consts x = .ok vals) (hne : NonEmptyVals vals) :
    ∃ z y, ND.map2 (· - ·) x x0 = .ok z ∧ evalJaxpr sem jaxpr consts x = .ok y ∧
      bnd.x0 = x0 ∧ bnd.regionLo = lo ∧ bnd.regionHi = hi ∧
      0 ≤ maxDegree ∧ bnd.coefficients.length ≤ maxDegree.toNat + 1 ∧ z.shape = x0.shape ∧
      SoundEncl bnd.coefficients z y := by
  simp only [taylorBounds, py_bind_ok] at hb
  obtain ⟨env', henv, hb⟩ := hb
  obtain ⟨z, hz, hmd, hzs, hfin⟩ := taylorEnv_sound_at hlib hlh h0 hx henv hok hev hne
  split at hb
  case h_2 => cases hb
  rename_i o ho
  simp only [py_bind_ok, py_pure] at hb
  obtain ⟨out, hout, rfl⟩ := hb
  obtain ⟨y, hy1, hy2⟩ := getInter_ok hfin hout
  refine ⟨z, y, hz, ?_, rfl, rfl, rfl, hmd, hy2.len, hzs, hy2.encl⟩
  simp only [evalJaxpr, hev, py_ok_bind, ho]
  exact hy1

/-- the enclosures computed by `taylor_bounds` are sound at every point of the trust region -/
theorem taylorBounds_sound {lib : Lib K} {sem : Sem K} (hlib : LibSound lib sem) {jaxpr : Jaxpr K}
    {consts : List (ND K)} {maxDegree : ℤ} {propagate : Bool} {x0 lo hi x : ND K} {bnd : Bounds K}
    (hlh : lo.shape = hi.shape) (h0 : (Coef.ivl lo hi).Contains x0) (hx : (Coef.ivl lo hi).Contains x)
    (hb : taylorBounds lib jaxpr consts maxDegree propagate x0 lo hi = .ok bnd)
    (hok : TaylorBoundsOk lib jaxpr consts maxDegree propagate x0 lo hi)
    {vals : Vals K} (hev : evalEnv sem jaxpr consts x = .ok vals) (hne : NonEmptyVals vals) :
    ∃ z y, ND.map2 (· - ·) x x0 = .ok z ∧ evalJaxpr sem jaxpr consts x = .ok y ∧
      bnd.x0 = x0 ∧ bnd.regionLo = lo ∧ bnd.regionHi = hi ∧
      0 ≤ maxDegree ∧ bnd.coefficients.length ≤ maxDegree.toNat + 1 ∧ z.shape = x0.shape ∧
      SoundEncl bnd.coefficients z y :=
  taylorBounds_sound_at (fun z _ => hlib.at z) hlh h0 hx hb hok hev hne

/-- `C42_taylor_bounds`, with the tables right at the point considered only. -/
theorem taylorBounds_call_at {lib : Lib K} {sem : Sem K} {jaxpr : Jaxpr K}
    {consts : List (ND K)} {maxDegree : ℤ} {propagate : Bool} {x0 lo hi x y : ND K} {bnd : Bounds K}
    (hlib : ∀ z, ND.map2 (· - ·) x x0 = .ok z → LibSoundAt z lib sem)
    (hlh : lo.shape = hi.shape) (h0 : (Coef.ivl lo hi).Contains x0) (hx : (Coef.ivl lo hi).Contains x)
    (hb : taylorBounds lib jaxpr consts maxDegree propagate x0 lo hi = .ok bnd)
    (hok : TaylorBoundsOk lib jaxpr consts maxDegree propagate x0 lo hi)
    {vals : Vals K} (hev : evalEnv sem jaxpr consts x = .ok vals) (hne : NonEmptyVals vals)
    (hy : evalJaxpr sem jaxpr consts x = .ok y) :
    ∃ r, bnd.call x = .ok r ∧ r.Contains y := by
  obtain ⟨z, y', hz, hy', hx0, -, -, -, -, -, hs⟩ := taylorBounds_sound_at hlib hlh h0 hx hb hok hev hne
  rw [hy] at hy'
  cases hy'
  obtain ⟨r, hr, hc⟩ := hs.encl
  refine ⟨r, ?_, ?_⟩
  · simp only [Bounds.call, hx0, hz, py_ok_bind]
    exact hr
  · obtain ⟨hW, hV, -, -, -⟩ := eval_ok (Coef.WF_arr _) (zmem_self z) hs.wf.wfe hr
    refine Coef.contains_of_covers hW hc ?_
    rcases hE : bnd.coefficients with _ | ⟨c, l⟩
    · exact absurd hE hs.ne
    · obtain ⟨-, B, hB, hle⟩ := hV 0 c (by rw [hE]; rfl)
      have h1 := hs.head c (by rw [hE]; rfl)
      have h2 := ((Coef.covers_iff hW).1 hc).1
      rw [h1] at hB
      simp only [IA.repS, List.replicate_zero, List.flatten_nil, List.append_nil] at hB
      subst hB
      exact ble_antisymm hle h2

/-- **C42 (soundness of `taylor_bounds`).** Let the tables of enclosure generators be right (`LibSound`),
let `x0` and `x` lie in the trust region `[lo, hi]`, suppose `taylor_bounds(f, max_degree, ...)(x0, (lo, hi))`
returns `bnd` in a run whose equations all meet `StepOk`, and let the evaluation of `f` at `x` succeed with
non-empty arrays.  Then `bnd(x)` returns an interval (or array) that contains `f(x)`. -/
theorem C42_taylor_bounds {lib : Lib K} {sem : Sem K} (hlib : LibSound lib sem) {jaxpr : Jaxpr K}
    {consts : List (ND K)} {maxDegree : ℤ} {propagate : Bool} {x0 lo hi x y : ND K} {bnd : Bounds K}
    (hlh : lo.shape = hi.shape) (h0 : (Coef.ivl lo hi).Contains x0) (hx : (Coef.ivl lo hi).Contains x)
    (hb : taylorBounds lib jaxpr consts maxDegree propagate x0 lo hi = .ok bnd)
    (hok : TaylorBoundsOk lib jaxpr consts maxDegree propagate x0 lo hi)
    {vals : Vals K} (hev : evalEnv sem jaxpr consts x = .ok vals) (hne : NonEmptyVals vals)
    (hy : evalJaxpr sem jaxpr consts x = .ok y) :
    ∃ r, bnd.call x = .ok r ∧ r.Contains y :=
  taylorBounds_call_at (fun z _ => hlib.at z) hlh h0 hx hb hok hev hne hy

/-- `C43_lower_upper`, with the tables right at the point considered only. -/
theorem taylorBounds_lower_upper_at {lib : Lib K} {sem : Sem K} {jaxpr : Jaxpr K}
    {consts : List (ND K)} {maxDegree : ℤ} {propagate : Bool} {x0 lo hi x y : ND K} {bnd : Bounds K}
    (hlib : ∀ z, ND.map2 (· - ·) x x0 = .ok z → LibSoundAt z lib sem)
    (hlh : lo.shape = hi.shape) (h0 : (Coef.ivl lo hi).Contains x0) (hx : (Coef.ivl lo hi).Contains x)
    (hb : taylorBounds lib jaxpr consts maxDegree propagate x0 lo hi = .ok bnd)
    (hok : TaylorBoundsOk lib jaxpr consts maxDegree propagate x0 lo hi)
    {vals : Vals K} (hev : evalEnv sem jaxpr consts x = .ok vals) (hne : NonEmptyVals vals)
    (hy : evalJaxpr sem jaxpr consts x = .ok y) :
    ∃ l u, bnd.lower x = .ok l ∧ bnd.upper x = .ok u ∧ l.shape = y.shape ∧ u.shape = y.shape ∧
      ∀ I, ValidIdx y.shape I → l.get I ≤ y.get I ∧ y.get I ≤ u.get I := by
  obtain ⟨z, y', hz, hy', hx0, -, -, -, -, -, hs⟩ := taylorBounds_sound_at hlib hlh h0 hx hb hok hev hne
  obtain ⟨r, hr, hc⟩ := taylorBounds_call_at hlib hlh h0 hx hb hok hev hne hy
  have hr' : Poly.evalTaylorEnclosure bnd.coefficients (.arr z) = .ok r := by
    simp only [Bounds.call, hx0, hz, py_ok_bind] at hr
    exact hr
  have hW := (eval_ok (Coef.WF_arr _) (zmem_self z) hs.wf.wfe hr').1
  refine ⟨(toInterval r).1, (toInterval r).2, ?_, ?_, ?_, ?_, ?_⟩
  · simp only [Bounds.lower, hr, py_ok_bind]; rfl
  · simp only [Bounds.upper, hr, py_ok_bind]; rfl
  · cases r <;> exact hc.1.symm
  · cases r with
    | arr a => exact hc.1.symm
    | ivl l u =>
      have : l.shape = u.shape := Coef.sameShape_iff.2 hW
      exact this.symm.trans hc.1.symm
  · intro I hI
    have := hc.2 I (hc.1 ▸ hI)
    cases r with
    | arr a =>
      have e : y.get I = a.get I := this
      exact ⟨e.ge, e.le⟩
    | ivl l u => exact this

/-- **C43 (lower and upper bound).** Under the hypotheses of C42, `bnd.lower(x)` and `bnd.upper(x)` return
arrays of the shape of `f(x)` with `lower(x) ≤ f(x) ≤ upper(x)` element-wise. -/
theorem C43_lower_upper {lib : Lib K} {sem : Sem K} (hlib : LibSound lib sem) {jaxpr : Jaxpr K}
    {consts : List (ND K)} {maxDegree : ℤ} {propagate : Bool} {x0 lo hi x y : ND K} {bnd : Bounds K}
    (hlh : lo.shape = hi.shape) (h0 : (Coef.ivl lo hi).Contains x0) (hx : (Coef.ivl lo hi).Contains x)
    (hb : taylorBounds lib jaxpr consts maxDegree propagate x0 lo hi = .ok bnd)
    (hok : TaylorBoundsOk lib jaxpr consts maxDegree propagate x0 lo hi)
    {vals : Vals K} (hev : evalEnv sem jaxpr consts x = .ok vals) (hne : NonEmptyVals vals)
    (hy : evalJaxpr sem jaxpr consts x = .ok y) :
    ∃ l u, bnd.lower x = .ok l ∧ bnd.upper x = .ok u ∧ l.shape = y.shape ∧ u.shape = y.shape ∧
      ∀ I, ValidIdx y.shape I → l.get I ≤ y.get I ∧ y.get I ≤ u.get I :=
  taylorBounds_lower_upper_at (fun z _ => hlib.at z) hlh h0 hx hb hok hev hne hy

end JB
end AB
