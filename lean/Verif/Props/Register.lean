/-
C54: `register_elementwise_primitive` (/repo/autobound/jax/jax_bound.py:227-240).
C55: `TaylorBounds.final_interval` (jax_bound.py:48-51) bounds the remainder.
-/
import Verif.Props.Static
import Verif.Props.Encl

set_option linter.unusedSectionVars false

namespace AB
namespace JB
variable {K : Type} [Field K] [LinearOrder K] [IsStrictOrderedRing K]

/-! ### C54 -/

/-- The meaning `sem`, extended (or overridden) by the function `f` for the element-wise primitive `name`. -/
def _root_.AB.Sem.define (sem : Sem K) (name : String) (f : K → K) : Sem K :=
  ⟨fun n => if n = name then some f else sem.fn n, sem.pow⟩

/-- **C54 (soundness is kept).** Registering a sound generator for the function `f` under a name for which there
was no implementation, or one that computes `f`, keeps the tables sound, for the meaning in which the primitive
computes `f`. -/
theorem C54_register_sound {lib : Lib K} {sem : Sem K} (hlib : LibSound lib sem) {name : String} {f : K → K}
    {g : TEA.Generator K} (hg : SoundGenerator f (fun _ => True) g) (hk : KeepsShape g)
    (hf : ∀ h, lib.sem.fn name = some h → h = f) :
    LibSound (lib.register name g) (sem.define name f) where
  fn n h hn := by
    show (if n = name then some f else sem.fn n) = some h
    by_cases e : n = name
    · subst e; rw [if_pos rfl, hf h hn]
    · rw [if_neg e]; exact hlib.fn n h hn
  pow := hlib.pow
  gen n h hn := by
    replace hn : (if n = name then some g else lib.gen n) = some h := hn
    show ∃ f', (if n = name then some f else sem.fn n) = some f' ∧ _
    by_cases e : n = name
    · rw [if_pos e] at hn ⊢; cases hn; exact ⟨f, rfl, hg, hk⟩
    · rw [if_neg e] at hn ⊢; exact hlib.gen n h hn
  powInt := hlib.powInt
  expoInt := hlib.expoInt
  expoFrac := hlib.expoFrac

theorem pushforward_register {lib : Lib K} {T : TEA K} {name : String} {g : TEA.Generator K} {p : Prim K}
    (h : p ≠ .elementwise name) : pushforward (lib.register name g) T p = pushforward lib T p := by
  cases p
  case elementwise n =>
    have hn : n ≠ name := fun e => h (by rw [e])
    show Option.map _ (if n = name then some g else lib.gen n) = _
    rw [if_neg hn]; rfl
  all_goals rfl

theorem step_register {lib : Lib K} {T T0 : TEA K} {prop : Bool} {xs : List ℕ} {env : Env K} {eqn : Eqn K}
    {name : String} {g : TEA.Generator K} (h : eqn.prim ≠ .elementwise name) :
    step (lib.register name g) T T0 prop xs env eqn = step lib T T0 prop xs env eqn := by
  have h1 := pushforward_register (lib := lib) (T := T) (g := g) h
  have h2 := pushforward_register (lib := lib) (T := T0) (g := g) h
  unfold step eqnOutputs outRegion
  simp only [h1, h2]
  rfl

/-- **C54 (nothing else changes).** A program that does not use the registered primitive has the same result (or
raises the same exception) as before. -/
theorem C54_register_other {lib : Lib K} {name : String} {g : TEA.Generator K} {jaxpr : Jaxpr K}
    (h : ∀ eqn ∈ jaxpr.eqns, eqn.prim ≠ .elementwise name) (consts : List (ND K)) (maxDegree : ℤ)
    (propagate : Bool) (x0 lo hi : ND K) :
    taylorBounds (lib.register name g) jaxpr consts maxDegree propagate x0 lo hi =
      taylorBounds lib jaxpr consts maxDegree propagate x0 lo hi := by
  have key : ∀ (T T0 : TEA K) (prop : Bool) (xs : List ℕ) (l : List (Eqn K)) (env : Env K),
      (∀ eqn ∈ l, eqn.prim ≠ .elementwise name) →
      l.foldlM (step (lib.register name g) T T0 prop xs) env = l.foldlM (step lib T T0 prop xs) env := by
    intro T T0 prop xs l
    induction l with
    | nil => intros; rfl
    | cons q l ih =>
      intro env hl
      rw [List.foldlM_cons, List.foldlM_cons, step_register (hl q List.mem_cons_self)]
      congr 1
      funext env'
      exact ih env' fun e he => hl e (List.mem_cons_of_mem _ he)
  unfold taylorBounds taylorEnv
  simp only [key _ _ _ _ _ _ h]

/-- **C54 (it is used).** After registering `g`, an equation of the primitive that depends on the input is handled
by `get_elementwise_fun(g)` on the argument and its trust region — and is no longer rejected. -/
theorem C54_register_used {lib : Lib K} {T : TEA K} {name : String} {g : TEA.Generator K} (a : Inter K) :
    ∃ f, pushforward (lib.register name g) T (.elementwise name) = some f ∧
      f [a] = T.elementwiseFun g a.encl a.tr := by
  have h : (lib.register name g).gen name = some g := by
    show (if name = name then some g else lib.gen name) = _
    rw [if_pos rfl]
  simp only [pushforward, h, Option.map_some]
  exact ⟨_, rfl, rfl⟩

/-- **C54 (the bounds).** The bounds of a program that uses a registered primitive, and otherwise only primitives of
sound tables, are sound. -/
theorem C54_register {lib : Lib K} {sem : Sem K} (hlib : LibSound lib sem) {name : String} {f : K → K}
    {g : TEA.Generator K} (hg : SoundGenerator f (fun _ => True) g) (hk : KeepsShape g)
    (hf : ∀ h, lib.sem.fn name = some h → h = f) {jaxpr : Jaxpr K}
    {consts : List (ND K)} {maxDegree : ℤ} {propagate : Bool} {x0 lo hi x y : ND K} {bnd : Bounds K}
    (hlh : lo.shape = hi.shape) (h0 : (Coef.ivl lo hi).Contains x0) (hx : (Coef.ivl lo hi).Contains x)
    (hb : taylorBounds (lib.register name g) jaxpr consts maxDegree propagate x0 lo hi = .ok bnd)
    (hfit : ProgramFits (sem.define name f) jaxpr consts x0)
    {vals0 : Vals K} (hev0 : evalEnv (sem.define name f) jaxpr consts x0 = .ok vals0) (hne0 : NonEmptyVals vals0)
    {vals : Vals K} (hev : evalEnv (sem.define name f) jaxpr consts x = .ok vals) (hne : NonEmptyVals vals)
    (hy : evalJaxpr (sem.define name f) jaxpr consts x = .ok y) :
    ∃ l u, bnd.lower x = .ok l ∧ bnd.upper x = .ok u ∧ l.shape = y.shape ∧ u.shape = y.shape ∧
      ∀ I, ValidIdx y.shape I → l.get I ≤ y.get I ∧ y.get I ≤ u.get I :=
  (C42_static (C54_register_sound hlib hg hk hf) hlh h0 hx hb hfit hev0 hne0 hev hne hy).2

/-! ### C55 -/

/-- **C55.** Let `bnd` be the result of `taylor_bounds` for `max_degree ≥ 1` (and a program as in C42).  Then `final_interval`
returns `(a, b)`, all coefficients before the last are arrays, and for every `x` in the region, `f(x)` is the value
at `x - x0` of the polynomial with these coefficients, plus a remainder `<r, (x - x0)^n>` where `n` is the number of
these coefficients and `a ≤ r ≤ b`. -/
theorem C55_final_interval {lib : Lib K} {sem : Sem K} (hlib : LibSound lib sem) (harr : LibArr lib)
    {jaxpr : Jaxpr K} {consts : List (ND K)} {maxDegree : ℤ} {propagate : Bool}
    {x0 lo hi x y : ND K} {bnd : Bounds K}
    (hlh : lo.shape = hi.shape) (h0 : (Coef.ivl lo hi).Contains x0) (hx : (Coef.ivl lo hi).Contains x)
    (hb : taylorBounds lib jaxpr consts maxDegree propagate x0 lo hi = .ok bnd)
    (hfit : ProgramFits sem jaxpr consts x0)
    {vals0 : Vals K} (hev0 : evalEnv sem jaxpr consts x0 = .ok vals0) (hne0 : NonEmptyVals vals0)
    {vals : Vals K} (hev : evalEnv sem jaxpr consts x = .ok vals) (hne : NonEmptyVals vals)
    (hy : evalJaxpr sem jaxpr consts x = .ok y) :
    ∃ (z : ND K) (n : ℕ) (c : ℕ → ND K) (a b : ND K), ND.map2 (· - ·) x x0 = .ok z ∧ n ≤ maxDegree.toNat ∧ bnd.coefficients.length = n + 1 ∧
      bnd.finalInterval = .ok (a, b) ∧
      (∀ i < n, bnd.coefficients[i]? = some (.arr (c i))) ∧
      ∀ I, ValidIdx y.shape I → ∃ r : List ℕ → K,
        (∀ J, ValidIdx (List.replicate n z.shape).flatten J → a.bget (I ++ J) ≤ r J ∧ r J ≤ b.bget (I ++ J)) ∧
        y.get I = polyValue z n (fun i J => (c i).bget (I ++ J)) +
          ((idx (List.replicate n z.shape).flatten).map fun J => r J * monomialAt z n J).sum := by
  have hmd : 0 ≤ maxDegree := by
    simp only [taylorBounds, py_bind_ok] at hb
    obtain ⟨env, he, -⟩ := hb
    exact (taylorEnv_inv he).1
  have hok := taylorBoundsOk_of_fits (lib := lib) hlib hmd (propagate := propagate) hlh h0 hfit hev0 hne0
  obtain ⟨r, hr, hrc⟩ := C42_taylor_bounds hlib hlh h0 hx hb hok hev hne hy
  obtain ⟨z, y', hz, hy', hx0, -, -, -, hlen, hzs, hs⟩ := taylorBounds_sound hlib hlh h0 hx hb hok hev hne
  rw [hy] at hy'; cases hy'
  have harr' := coefficients_arr harr hb
  simp only [Bounds.call, hx0, hz, py_ok_bind] at hr
  obtain ⟨n, hn⟩ : ∃ n, bnd.coefficients.length = n + 1 :=
    Nat.exists_eq_succ_of_ne_zero fun h => hs.ne (List.length_eq_zero_iff.1 h)
  have hlast : ∃ d, bnd.coefficients[n]? = some d := ⟨_, List.getElem?_eq_getElem (by omega)⟩
  obtain ⟨d, hd⟩ := hlast
  have hget : ∀ i < n, ∃ a, bnd.coefficients[i]? = some (.arr a) := by
    intro i hi
    have h1 : bnd.coefficients[i]? = some (bnd.coefficients[i]'(by omega)) := List.getElem?_eq_getElem (by omega)
    have h2 := harr' i _ h1 (by omega)
    rw [h1]
    cases h3 : bnd.coefficients[i]'(by omega) with
    | arr a => exact ⟨a, rfl⟩
    | ivl l u => rw [h3] at h2; exact absurd h2 id
  choose c hc using hget
  have hfi : bnd.finalInterval = .ok (TEA.toInterval d) := by
    unfold Bounds.finalInterval
    rw [List.getLast?_eq_getElem?, hn, Nat.add_sub_cancel, hd]
  refine ⟨z, n, fun i => if h : i < n then c i h else ⟨[], fun _ => 0⟩, (TEA.toInterval d).1, (TEA.toInterval d).2, hz, by omega, hn, hfi,
    fun i hi => by simp only [dif_pos hi]; exact hc i hi, ?_⟩
  intro I hI
  have hI' : ValidIdx r.shape I := hrc.1 ▸ hI
  obtain ⟨w, hw, hv⟩ := (C09_eval_iff_choice hs.wf hr hI' (y.get I)).1 (hrc.2 I hI')
  have hdw : d.WellFormed := hs.wf d (List.mem_of_getElem? hd)
  refine ⟨w n, fun J hJ => ?_, ?_⟩
  · have := hw n d hd J hJ
    cases d with
    | arr a => exact ⟨le_of_eq this.symm, le_of_eq this⟩
    | ivl l u =>
      refine ⟨this.1, ?_⟩
      have h2 := this.2
      have hs' : l.shape = u.shape := hdw.1
      show _ ≤ u.get (bidx u.shape (I ++ J))
      rw [← hs']
      exact h2
  · rw [hv, hn]
    unfold polyValue
    rw [List.range_succ, List.map_append, List.sum_append]
    congr 1
    · refine congrArg List.sum (List.map_congr_left fun i hi => ?_)
      have hi := List.mem_range.1 hi
      refine congrArg List.sum (List.map_congr_left fun J hJ => ?_)
      have := hw i _ (hc i hi) J (mem_idx.1 hJ)
      rw [this]
      simp only [dif_pos hi]
      rfl
    · simp

end JB
end AB
