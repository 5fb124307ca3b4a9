/-
Proof of C84, continued: the interpreter and the evaluation of the bounds.
-/
import Verif.Proofs.Float02

set_option linter.unusedSectionVars false

namespace AB
variable {F : Type} [Zero F] [One F] [Add F] [Sub F] [Mul F] [Pow F ℤ] [Neg F] [Div F] [NatCast F] [LinearOrder F]
open ND (scalar)

namespace JB
open TEA

/-- the intermediate results contain the values of the variables -/
abbrev HoldsEnv (env : Env F) (vals : Vals F) : Prop :=
  List.Forall₂ (fun (vi : ℤ × Inter F) (va : ℤ × ND F) => vi.1 = va.1 ∧ IHolds vi.2 va.2) env vals

theorem iholds_constant (a : ND F) : IHolds (constantInter a) a :=
  ⟨⟨.arr a, rfl, Coef.holds_arr (ND.Same.rfl_ _)⟩, Or.inr ⟨a, rfl, rfl⟩⟩

theorem holds_lookup {env : Env F} {vals : Vals F} (h : HoldsEnv env vals) (v : ℤ) :
    (env.lookup v = none ∧ vals.lookup v = none) ∨
      ∃ i a, env.lookup v = some i ∧ vals.lookup v = some a ∧ IHolds i a := by
  induction h with
  | nil => exact Or.inl ⟨rfl, rfl⟩
  | cons h1 _ ih =>
    rename_i x y _ _ _
    obtain ⟨w, i⟩ := x
    obtain ⟨w', a⟩ := y
    obtain ⟨rfl, h1⟩ := h1
    simp only [List.lookup_cons]
    by_cases hw : v == w
    · rw [hw]; exact Or.inr ⟨i, a, rfl, rfl, h1⟩
    · rw [Bool.eq_false_of_not_eq_true hw]; exact ih

theorem holds_get {env : Env F} {vals : Vals F} (h : HoldsEnv env vals) {x : Atom F} {i : Inter F} {a : ND F}
    (hi : getInter env x = .ok i) (ha : getVal vals x = .ok a) : IHolds i a := by
  cases x with
  | lit c => cases hi; cases ha; exact iholds_constant _
  | var v =>
    unfold getInter at hi
    unfold getVal at ha
    rcases holds_lookup h v with ⟨h1, h2⟩ | ⟨i', a', h1, h2, h3⟩
    · simp only [h1] at hi; cases hi
    · simp only [h1] at hi
      simp only [h2] at ha
      cases hi; cases ha
      exact h3

theorem holds_gets {env : Env F} {vals : Vals F} (h : HoldsEnv env vals) {xs : List (Atom F)} {ins : List (Inter F)}
    {args : List (ND F)} (hi : xs.mapM (getInter env) = .ok ins) (ha : xs.mapM (getVal vals) = .ok args) :
    List.Forall₂ IHolds ins args := by
  have h1 := Poly.mapM_ok hi
  have h2 := Poly.mapM_ok ha
  clear hi ha
  induction h1 generalizing args with
  | nil => cases h2; exact .nil
  | cons k1 _ ih =>
    cases h2 with
    | cons k2 h2 => exact .cons (holds_get h k1 k2) (ih h2)

theorem const_holds {i : Inter F} {a v : ND F} (h : IHolds i a) (hc : i.constantValue = some v) : v.Same a := by
  obtain ⟨e, tr⟩ := i
  obtain ⟨⟨c, he, hs⟩, -⟩ := h
  simp only at he
  subst he
  cases c with
  | arr x => cases hc; exact Coef.holds_arr_iff.1 hs
  | ivl x y => cases hc

theorem consts_holds {ins : List (Inter F)} {args vs : List (ND F)} (h : List.Forall₂ IHolds ins args)
    (hc : ins.mapM Inter.constantValue = some vs) : vs.map ND.canon = args.map ND.canon := by
  induction h generalizing vs with
  | nil => cases hc; rfl
  | cons h1 _ ih =>
    rw [List.mapM_cons] at hc
    simp only [Option.bind_eq_bind, Option.bind_eq_some_iff, Option.pure_def, Option.some.injEq] at hc
    obtain ⟨v, hv, vs, hvs, rfl⟩ := hc
    rw [List.map_cons, List.map_cons, ih hvs, ND.canon_eq_of_same (const_holds h1 hv)]

theorem holds_stores {xs : List ℕ} : ∀ {l : List (ℤ × Inter F)} {m : List (ℤ × ND F)} {env env' : Env F} {vals : Vals F},
    List.Forall₂ (fun (vi : ℤ × Inter F) (va : ℤ × ND F) => vi.1 = va.1 ∧ IHolds vi.2 va.2) l m →
    HoldsEnv env vals → l.foldlM (storeOne xs) env = .ok env' → HoldsEnv env' (m.foldl storeVal vals) := by
  intro l m env env' vals h
  induction h generalizing env vals with
  | nil => intro he hs; cases hs; exact he
  | cons h1 _ ih =>
    rename_i x y _ _ _
    intro he hs
    rw [List.foldlM_cons] at hs
    simp only [py_bind_ok] at hs
    obtain ⟨e1, hs1, hs⟩ := hs
    rw [List.foldl_cons]
    refine ih ?_ hs
    obtain ⟨v, i⟩ := x
    obtain ⟨v', a⟩ := y
    obtain ⟨rfl, h1⟩ := h1
    unfold storeOne at hs1
    unfold storeVal
    by_cases hv : v = -1
    · rw [if_pos hv] at hs1
      cases hs1
      rw [if_pos hv]; exact he
    · rw [if_neg hv] at hs1
      rw [if_neg hv]
      split_ifs at hs1
      simp only [py_bind_ok, py_pure] at hs1
      obtain ⟨-, -, rfl⟩ := hs1
      exact .cons ⟨rfl, h1⟩ he

theorem zip_holds {vs : List ℤ} {l : List (Inter F)} {m : List (ND F)} (h : List.Forall₂ IHolds l m) :
    List.Forall₂ (fun (vi : ℤ × Inter F) (va : ℤ × ND F) => vi.1 = va.1 ∧ IHolds vi.2 va.2) (vs.zip l) (vs.zip m) := by
  induction h generalizing vs with
  | nil => simp
  | cons h1 _ ih =>
    cases vs with
    | nil => simp
    | cons v vs => exact .cons ⟨rfl, h1⟩ ih

theorem holds_constants {l : List (ND F)} : List.Forall₂ IHolds (l.map constantInter) l := by
  induction l with
  | nil => exact .nil
  | cons a l ih => exact .cons (iholds_constant a) ih

/-- the pushforward function of a primitive is right at degree 0 -/
def StepHolds (lib : Lib F) (sem : Sem F) (T : TEA F) (p : Prim F) : Prop :=
  ∀ f ins vals outs e, pushforward lib T p = some f → List.Forall₂ IHolds ins vals → p.bind sem vals = .ok outs →
    f ins = .ok e → ∃ y, outs = [y] ∧ Holds0 y e

section
variable (hR : RoundedArith F) (hF : UnitLaws F) {lib : Lib F} {sem : Sem F} (hlib : LibHolds0 lib sem) {T : TEA F}
include hR hF hlib

theorem holds_step (hd : T.maxDegree = 0) {T0 : TEA F} {xs : List ℕ} {env env' : Env F}
    {vals vals' : Vals F} {eqn : Eqn F} (he : HoldsEnv env vals)
    (hop : ∀ args, eqn.invars.mapM (getVal vals) = .ok args → OpExact eqn.prim args)
    (hsafe : Safe0 eqn.prim ∨ StepHolds lib sem T eqn.prim)
    (h : step lib T T0 false xs env eqn = .ok env') (hv : evalEqn sem vals eqn = .ok vals') :
    HoldsEnv env' vals' := by
  unfold step at h
  unfold evalEqn at hv
  simp only [py_bind_ok] at h hv
  obtain ⟨ins, hins, outs, houts, h⟩ := h
  obtain ⟨args, hargs, ys, hys, hv⟩ := hv
  split_ifs at h with hl
  split_ifs at hv with hl'
  cases hv
  have hheads := holds_gets he hins hargs
  refine holds_stores (zip_holds ?_) he h
  unfold eqnOutputs at houts
  cases hc : ins.mapM Inter.constantValue with
  | none =>
    simp only [hc] at houts
    cases hp : pushforward lib T eqn.prim with
    | none => simp only [hp] at houts; cases houts
    | some f =>
      simp only [hp, py_bind_ok] at houts
      obtain ⟨e, hfe, houts⟩ := houts
      obtain ⟨y, rfl, hy⟩ : ∃ y, ys = [y] ∧ Holds0 y e := by
        rcases hsafe with hsafe | hsafe
        · exact holds_push hR hF hlib hd hp hheads (hop _ hargs) hsafe hys hfe
        · exact hsafe f ins args ys e hp hheads hys hfe
      split at houts
      · cases houts
      · simp only [Bool.false_eq_true, if_false] at houts
        cases houts
        exact .cons ⟨hy, Or.inl rfl⟩ .nil
  | some vs =>
    simp only [hc, py_bind_ok, py_pure] at houts
    obtain ⟨os, hos, rfl⟩ := houts
    have h2 := bind_mono hlib.fn hlib.semPow hos
    unfold Prim.bind at h2 hys
    rw [consts_holds hheads hc, hys] at h2
    cases h2
    exact holds_constants

theorem holds_run (hd : T.maxDegree = 0) {T0 : TEA F} {xs : List ℕ} {eqns : List (Eqn F)} :
    ∀ {env env' : Env F} {vals vals' : Vals F}, HoldsEnv env vals → EqnsExact sem vals eqns →
    (∀ eqn ∈ eqns, Safe0 eqn.prim ∨ StepHolds lib sem T eqn.prim) →
    eqns.foldlM (step lib T T0 false xs) env = .ok env' → eqns.foldlM (evalEqn sem) vals = .ok vals' →
    HoldsEnv env' vals' := by
  induction eqns with
  | nil => intro env env' vals vals' he _ _ h hv; cases h; cases hv; exact he
  | cons eqn eqns ih =>
    intro env env' vals vals' he hx hs h hv
    rw [List.foldlM_cons] at h hv
    simp only [py_bind_ok] at h hv
    obtain ⟨e1, h1, h⟩ := h
    obtain ⟨v1, hv1, hv⟩ := hv
    exact ih (holds_step hR hF hlib hd he hx.1 (hs _ List.mem_cons_self) h1 hv1) (hx.2 _ hv1)
      (fun e he => hs e (List.mem_cons_of_mem _ he)) h hv

end

theorem holds_init {jaxpr : Jaxpr F} {consts : List (ND F)} {x0 lo hi x : ND F}
    {env : Env F} (hs : lo.shape = hi.shape) (hx : (Coef.ivl lo hi).Contains x)
    (h : initEnv false 0 jaxpr consts x0 lo hi = .ok env) : HoldsEnv env (evalInit jaxpr consts x) := by
  unfold initEnv at h
  simp only [py_bind_ok] at h
  obtain ⟨ident, -, h⟩ := h
  have hp : ¬ (0 > 0) := by omega
  simp only [if_neg hp] at h
  by_cases hl : consts.length ≠ jaxpr.constvars.length
  · rw [if_pos hl] at h; cases h
  · rw [if_neg hl] at h
    unfold evalInit
    rcases hv : jaxpr.invars with _ | ⟨v, _ | ⟨v', vs⟩⟩ <;> simp only [hv] at h <;> cases h
    exact .cons ⟨rfl, ⟨_, rfl, hs, hx⟩, Or.inl rfl⟩ (zip_holds holds_constants)

theorem holds_bounds (hR : RoundedArith F) (hF : UnitLaws F) {lib : Lib F} {sem : Sem F} (hlib : LibHolds0 lib sem)
    {jaxpr : Jaxpr F} {consts : List (ND F)} {propagate : Bool} {x0 lo hi x y : ND F} {b : Bounds F}
    (hs : lo.shape = hi.shape) (hxr : (Coef.ivl lo hi).Contains x)
    (hx : EqnsExact sem (evalInit jaxpr consts x) jaxpr.eqns) 
    (hsafe : ∀ eqn ∈ jaxpr.eqns, Safe0 eqn.prim ∨ ∀ T : TEA F, T.maxDegree = 0 → StepHolds lib sem T eqn.prim)
    (h : taylorBounds lib jaxpr consts 0 propagate x0 lo hi = .ok b)
    (hy : evalJaxpr sem jaxpr consts x = .ok y) : Holds0 y b.coefficients := by
  unfold taylorBounds at h
  simp only [py_bind_ok] at h
  obtain ⟨env, henv, h⟩ := h
  unfold evalJaxpr evalEnv at hy
  simp only [py_bind_ok] at hy
  obtain ⟨vals, hvals, hy⟩ := hy
  unfold taylorEnv at henv
  rw [if_neg (by omega)] at henv
  simp only [py_bind_ok] at henv
  obtain ⟨tr, htr, henv⟩ := henv
  cases tr with
  | arr a => cases henv
  | ivl tlo thi =>
    simp only [py_bind_ok] at henv
    obtain ⟨T, hT, T0, hT0, env0, h0, henv⟩ := henv
    have hd : T.maxDegree = 0 := by
      unfold TEA.init at hT
      split_ifs at hT
      cases hT
      rfl
    have hpf : (propagate && ((0 : ℤ) != 0)) = false := by simp
    rw [hpf] at h0 henv
    have := holds_run hR hF hlib hd (holds_init hs hxr h0) hx
      (fun eqn he => (hsafe eqn he).imp id fun k => k T hd) henv hvals
    cases ho : jaxpr.outvars with
    | nil => simp only [ho] at h; cases h
    | cons o os =>
      cases os with
      | cons _ _ => simp only [ho] at h; cases h
      | nil =>
        simp only [ho, py_bind_ok, py_pure] at h hy
        obtain ⟨out, hout, rfl⟩ := h
        exact (holds_get this hout hy).1

/-! ### evaluation -/

theorem tensordot_one (hF : UnitLaws F) {c t : ND F} (ht : ND.tensordot c (scalar 1) 0 = .ok t) : t.Same c := by
  unfold ND.tensordot at ht
  have c1 : ¬ (0 > c.ndim ∨ 0 > (scalar (1 : F)).ndim) := by omega
  have c2 : ¬ (c.shape.drop (c.ndim - 0) ≠ (scalar (1 : F)).shape.take 0) := by simp [ND.ndim]
  rw [if_neg c1, if_neg c2] at ht
  cases ht
  refine ⟨by simp [ND.ndim], fun I hI => ?_⟩
  have hI' : ValidIdx c.shape I := by simpa [ND.ndim] using hI
  have hl : I.length = c.ndim := hI'.length.symm
  show ((idx []).map fun J => c.get _ * (1 : F)).sum = _
  simp only [idx, List.map_cons, List.map_nil, List.sum_cons, List.sum_nil, Nat.sub_zero, List.append_nil]
  rw [hF.mul_one, hF.add_zero, ← hl, List.take_length]

theorem contract_holds (hF : UnitLaws F) {c r : Coef F} {y : ND F} (hc : c.Holds y)
    (h : IA.tensordot c (.arr (scalar 1)) 0 = .ok r) : r.Holds y := by
  unfold IA.tensordot at h
  cases c with
  | arr a =>
    obtain ⟨x, rfl, hx⟩ := IA.bilinear_arr_ok h
    exact Coef.holds_arr ((tensordot_one hF hx).trans (Coef.holds_arr_iff.1 hc))
  | ivl a b =>
    replace h : IA.bilinearProduct (.ivl a b) (.arr (scalar 1)) (fun x y => ND.tensordot x y 0) = .ok r := h
    have hs : a.shape = b.shape := hc.1
    unfold IA.bilinearProduct at h
    simp only [IA.endpoints, List.flatMap_cons, List.flatMap_nil, List.map_cons, List.map_nil, List.append_nil,
      List.cons_append, List.nil_append, List.mapM_cons, List.mapM_nil, py_bind_ok, py_pure] at h
    obtain ⟨ps, ⟨p, hp, _, ⟨q, hq, _, rfl, rfl⟩, rfl⟩, lo, hlo, hi, hhi, rfl⟩ := h
    simp only [IA.reduce, List.foldlM_cons, List.foldlM_nil, py_bind_ok, py_pure] at hlo hhi
    obtain ⟨lo', hlo, rfl⟩ := hlo
    obtain ⟨hi', hhi, rfl⟩ := hhi
    have hpa := tensordot_one hF hp
    have hqb := tensordot_one hF hq
    have hpq : p.shape = q.shape := hpa.1.trans (hs.trans hqb.1.symm)
    rw [ND.map2_same _ hpq] at hlo hhi
    cases hlo
    cases hhi
    refine ⟨rfl, hc.2.1.trans hpa.1.symm, fun I hI => ?_⟩
    have hIa : ValidIdx a.shape I := hpa.1 ▸ (show ValidIdx p.shape I from hI)
    have hy := hc.2.2 I hIa
    show min (p.bget I) (q.bget I) ≤ y.get I ∧ y.get I ≤ max (p.bget I) (q.bget I)
    have hIq : ValidIdx q.shape I := hpq ▸ (show ValidIdx p.shape I from hI)
    rw [ND.bget_valid p hI, ND.bget_valid q hIq, hpa.2 I hI, hqb.2 I hIq]
    exact ⟨(min_le_left _ _).trans hy.1, hy.2.trans (le_max_right _ _)⟩

theorem eval_holds (hR : RoundedArith F) (hF : UnitLaws F) {z : Coef F} {y : ND F} {e : Encl F} {r : Coef F}
    (he : Holds0 y e) (h : Poly.evalTaylorEnclosure e z = .ok r) : r.Holds y := by
  obtain ⟨c, rfl, hc⟩ := he
  unfold Poly.evalTaylorEnclosure Poly.evalPolynomial at h
  simp only [List.foldlM_cons, List.foldlM_nil, py_bind_ok, py_pure] at h
  obtain ⟨st, ⟨s1, hst, rfl⟩, rfl⟩ := h
  unfold Poly.evalStep at hst
  rw [if_neg (by simp)] at hst
  simp only [py_ok_bind, py_bind_ok, py_pure] at hst
  obtain ⟨t, ht, s, hs, rfl⟩ := hst
  exact Rnd.zero_add_holds hR hF (contract_holds hF hc ht) hs

end JB
end AB
