/-
Proof of C83, continued: the interpreter, and the evaluation of the bounds at `x0`.
-/
import Verif.Proofs.FloatRef2

set_option linter.unusedSectionVars false

namespace AB
variable {F : Type} [Zero F] [One F] [Add F] [Sub F] [Mul F] [Pow F ℤ] [Neg F] [Div F] [NatCast F] [LinearOrder F]
open ND (scalar)

namespace JB
open TEA

/-- the intermediate results start with the values of the variables -/
abbrev HeadEnv (env : Env F) (vals : Vals F) : Prop :=
  List.Forall₂ (fun (vi : ℤ × Inter F) (va : ℤ × ND F) => vi.1 = va.1 ∧ HeadIs va.2 vi.2.encl) env vals

theorem head_lookup {env : Env F} {vals : Vals F} (h : HeadEnv env vals) (v : ℤ) :
    (env.lookup v = none ∧ vals.lookup v = none) ∨
      ∃ i a, env.lookup v = some i ∧ vals.lookup v = some a ∧ HeadIs a i.encl := by
  induction h with
  | nil => exact Or.inl ⟨rfl, rfl⟩
  | cons h1 _ ih =>
    rename_i x y _ _ _
    obtain ⟨w, i⟩ := x
    obtain ⟨w', a⟩ := y
    obtain ⟨rfl, h1⟩ := h1
    simp only [List.lookup_cons]
    by_cases hw : v == w
    · rw [hw]; exact Or.inr ⟨i, a, rfl, rfl, h1⟩
    · rw [Bool.eq_false_of_not_eq_true hw]; exact ih

theorem head_get {env : Env F} {vals : Vals F} (h : HeadEnv env vals) {x : Atom F} {i : Inter F} {a : ND F}
    (hi : getInter env x = .ok i) (ha : getVal vals x = .ok a) : HeadIs a i.encl := by
  cases x with
  | lit c => cases hi; cases ha; exact ⟨a, [], rfl, ND.Same.rfl_ _⟩
  | var v =>
    unfold getInter at hi
    unfold getVal at ha
    rcases head_lookup h v with ⟨h1, h2⟩ | ⟨i', a', h1, h2, h3⟩
    · simp only [h1] at hi; cases hi
    · simp only [h1] at hi
      simp only [h2] at ha
      cases hi; cases ha
      exact h3

theorem head_gets {env : Env F} {vals : Vals F} (h : HeadEnv env vals) {xs : List (Atom F)} {ins : List (Inter F)}
    {args : List (ND F)} (hi : xs.mapM (getInter env) = .ok ins) (ha : xs.mapM (getVal vals) = .ok args) :
    List.Forall₂ (fun (i : Inter F) v => HeadIs v i.encl) ins args := by
  have h1 := Poly.mapM_ok hi
  have h2 := Poly.mapM_ok ha
  clear hi ha
  induction h1 generalizing args with
  | nil => cases h2; exact .nil
  | cons k1 _ ih =>
    cases h2 with
    | cons k2 h2 => exact .cons (head_get h k1 k2) (ih h2)

theorem const_head {i : Inter F} {a v : ND F} (h : HeadIs a i.encl) (hc : i.constantValue = some v) : v.Same a := by
  obtain ⟨e, tr⟩ := i
  obtain ⟨c, l, he, hs⟩ := h
  simp only at he
  subst he
  cases l with
  | nil => cases hc; exact hs
  | cons x l => cases hc

theorem consts_head {ins : List (Inter F)} {args vs : List (ND F)}
    (h : List.Forall₂ (fun (i : Inter F) v => HeadIs v i.encl) ins args)
    (hc : ins.mapM Inter.constantValue = some vs) : vs.map ND.canon = args.map ND.canon := by
  induction h generalizing vs with
  | nil => cases hc; rfl
  | cons h1 _ ih =>
    rw [List.mapM_cons] at hc
    simp only [Option.bind_eq_bind, Option.bind_eq_some_iff, Option.pure_def, Option.some.injEq] at hc
    obtain ⟨v, hv, vs, hvs, rfl⟩ := hc
    rw [List.map_cons, List.map_cons, ih hvs, ND.canon_eq_of_same (const_head h1 hv)]

theorem head_stores {xs : List ℕ} : ∀ {l : List (ℤ × Inter F)} {m : List (ℤ × ND F)} {env env' : Env F} {vals : Vals F},
    List.Forall₂ (fun (vi : ℤ × Inter F) (va : ℤ × ND F) => vi.1 = va.1 ∧ HeadIs va.2 vi.2.encl) l m →
    HeadEnv env vals → l.foldlM (storeOne xs) env = .ok env' → HeadEnv env' (m.foldl storeVal vals) := by
  intro l m env env' vals h
  induction h generalizing env vals with
  | nil => intro he hs; cases hs; exact he
  | cons h1 _ ih =>
    rename_i x y _ _ _
    intro he hs
    rw [List.foldlM_cons] at hs
    simp only [py_bind_ok] at hs
    obtain ⟨e1, hs1, hs⟩ := hs
    rw [List.foldl_cons]
    refine ih ?_ hs
    obtain ⟨v, i⟩ := x
    obtain ⟨v', a⟩ := y
    obtain ⟨rfl, h1⟩ := h1
    unfold storeOne at hs1
    unfold storeVal
    by_cases hv : v = -1
    · rw [if_pos hv] at hs1
      cases hs1
      rw [if_pos hv]; exact he
    · rw [if_neg hv] at hs1
      rw [if_neg hv]
      split_ifs at hs1
      simp only [py_bind_ok, py_pure] at hs1
      obtain ⟨-, -, rfl⟩ := hs1
      exact .cons ⟨rfl, h1⟩ he

theorem zip_heads {vs : List ℤ} {l : List (Inter F)} {m : List (ND F)}
    (h : List.Forall₂ (fun (i : Inter F) v => HeadIs v i.encl) l m) :
    List.Forall₂ (fun (vi : ℤ × Inter F) (va : ℤ × ND F) => vi.1 = va.1 ∧ HeadIs va.2 vi.2.encl) (vs.zip l) (vs.zip m) := by
  induction h generalizing vs with
  | nil => simp
  | cons h1 _ ih =>
    cases vs with
    | nil => simp
    | cons v vs => exact .cons ⟨rfl, h1⟩ ih

theorem head_constants {l : List (ND F)} :
    List.Forall₂ (fun (i : Inter F) v => HeadIs v i.encl) (l.map constantInter) l := by
  induction l with
  | nil => exact .nil
  | cons a l ih => exact .cons ⟨a, [], rfl, ND.Same.rfl_ _⟩ ih

section
variable (hF : UnitLaws F) {lib : Lib F} {sem : Sem F} (hlib : LibHead lib sem) {T : TEA F}
include hF hlib

theorem head_step (hd : 1 ≤ T.maxDegree) {T0 : TEA F} {propagate : Bool} {xs : List ℕ} {env env' : Env F}
    {vals vals' : Vals F} {eqn : Eqn F} (he : HeadEnv env vals)
    (hop : ∀ args, eqn.invars.mapM (getVal vals) = .ok args → OpExact eqn.prim args)
    (h : step lib T T0 propagate xs env eqn = .ok env') (hv : evalEqn sem vals eqn = .ok vals') :
    HeadEnv env' vals' := by
  unfold step at h
  unfold evalEqn at hv
  simp only [py_bind_ok] at h hv
  obtain ⟨ins, hins, outs, houts, h⟩ := h
  obtain ⟨args, hargs, ys, hys, hv⟩ := hv
  split_ifs at h with hl
  split_ifs at hv with hl'
  cases hv
  have hheads := head_gets he hins hargs
  refine head_stores (zip_heads ?_) he h
  unfold eqnOutputs at houts
  cases hc : ins.mapM Inter.constantValue with
  | none =>
    simp only [hc] at houts
    cases hp : pushforward lib T eqn.prim with
    | none => simp only [hp] at houts; cases houts
    | some f =>
      simp only [hp, py_bind_ok] at houts
      obtain ⟨e, hfe, houts⟩ := houts
      obtain ⟨y, rfl, hy⟩ := head_push hF hlib hd hp hheads (hop _ hargs) hys hfe
      split_ifs at houts
      · simp only [py_bind_ok, py_pure] at houts
        obtain ⟨r, -, rfl⟩ := houts
        exact .cons hy .nil
      · cases houts
        exact .cons hy .nil
  | some vs =>
    simp only [hc, py_bind_ok, py_pure] at houts
    obtain ⟨os, hos, rfl⟩ := houts
    have h2 := bind_mono hlib.fn hlib.semPow hos
    unfold Prim.bind at h2 hys
    rw [consts_head hheads hc, hys] at h2
    cases h2
    exact head_constants

theorem head_run (hd : 1 ≤ T.maxDegree) {T0 : TEA F} {propagate : Bool} {xs : List ℕ} {eqns : List (Eqn F)} :
    ∀ {env env' : Env F} {vals vals' : Vals F}, HeadEnv env vals → EqnsExact sem vals eqns →
    eqns.foldlM (step lib T T0 propagate xs) env = .ok env' → eqns.foldlM (evalEqn sem) vals = .ok vals' →
    HeadEnv env' vals' := by
  induction eqns with
  | nil => intro env env' vals vals' he _ h hv; cases h; cases hv; exact he
  | cons eqn eqns ih =>
    intro env env' vals vals' he hx h hv
    rw [List.foldlM_cons] at h hv
    simp only [py_bind_ok] at h hv
    obtain ⟨e1, h1, h⟩ := h
    obtain ⟨v1, hv1, hv⟩ := hv
    exact ih (head_step hF hlib hd he hx.1 h1 hv1) (hx.2 _ hv1) h hv

end

theorem head_init {propagate : Bool} {md : ℕ} (hmd : 1 ≤ md) {jaxpr : Jaxpr F} {consts : List (ND F)} {x0 lo hi : ND F}
    {env : Env F} (h : initEnv propagate md jaxpr consts x0 lo hi = .ok env) :
    HeadEnv env (evalInit jaxpr consts x0) := by
  unfold initEnv at h
  simp only [py_bind_ok] at h
  obtain ⟨ident, -, h⟩ := h
  have hp : md > 0 := by omega
  simp only [if_pos hp] at h
  by_cases hl : consts.length ≠ jaxpr.constvars.length
  · rw [if_pos hl] at h; cases h
  · rw [if_neg hl] at h
    unfold evalInit
    rcases hv : jaxpr.invars with _ | ⟨v, _ | ⟨v', vs⟩⟩ <;> simp only [hv] at h <;> cases h
    exact .cons ⟨rfl, x0, _, rfl, ND.Same.rfl_ _⟩ (zip_heads head_constants)

theorem head_bounds (hF : UnitLaws F) {lib : Lib F} {sem : Sem F} (hlib : LibHead lib sem) {jaxpr : Jaxpr F}
    {consts : List (ND F)} {md : ℤ} (hmd : 1 ≤ md) {propagate : Bool} {x0 lo hi y : ND F} {b : Bounds F}
    (hx : EqnsExact sem (evalInit jaxpr consts x0) jaxpr.eqns)
    (h : taylorBounds lib jaxpr consts md propagate x0 lo hi = .ok b)
    (hy : evalJaxpr sem jaxpr consts x0 = .ok y) : b.x0 = x0 ∧ HeadIs y b.coefficients := by
  unfold taylorBounds at h
  simp only [py_bind_ok] at h
  obtain ⟨env, henv, h⟩ := h
  unfold evalJaxpr evalEnv at hy
  simp only [py_bind_ok] at hy
  obtain ⟨vals, hvals, hy⟩ := hy
  unfold taylorEnv at henv
  rw [if_neg (by omega)] at henv
  simp only [py_bind_ok] at henv
  obtain ⟨tr, htr, henv⟩ := henv
  cases tr with
  | arr a => cases henv
  | ivl tlo thi =>
    simp only [py_bind_ok] at henv
    obtain ⟨T, hT, T0, hT0, env0, h0, henv⟩ := henv
    have hd : 1 ≤ T.maxDegree := by
      unfold TEA.init at hT
      split_ifs at hT
      cases hT
      show 1 ≤ md.toNat
      omega
    have := head_run hF hlib hd (head_init (by omega) h0) hx henv hvals
    cases ho : jaxpr.outvars with
    | nil => simp only [ho] at h; cases h
    | cons o os =>
      cases os with
      | cons _ _ => simp only [ho] at h; cases h
      | nil =>
        simp only [ho, py_bind_ok, py_pure] at h hy
        obtain ⟨out, hout, rfl⟩ := h
        exact ⟨rfl, head_get this hout hy⟩

/-! ### evaluation at `x0` -/

/-- everything read from the array is 0 -/
def AllZero (a : ND F) : Prop := ∀ I, a.get I = 0
/-- both end points are 0 everywhere -/
def ZeroCoef : Coef F → Prop
  | .arr a => AllZero a
  | .ivl a b => AllZero a ∧ AllZero b

section
variable (hF : UnitLaws F)
include hF

theorem sum_zero {α : Type} {l : List α} {f : α → F} (h : ∀ x ∈ l, f x = 0) : (l.map f).sum = 0 := by
  induction l with
  | nil => rfl
  | cons x l ih =>
    rw [List.map_cons, List.sum_cons, h x List.mem_cons_self, hF.zero_add, ih fun x hx => h x (List.mem_cons_of_mem _ hx)]

theorem map2_zero {f : F → F → F} (hf : f 0 0 = 0) {a b r : ND F} (ha : AllZero a) (hb : AllZero b)
    (h : ND.map2 f a b = .ok r) : AllZero r := by
  unfold ND.map2 at h
  split at h
  · cases h
  · cases h
    intro I
    show f (a.get _) (b.get _) = 0
    rw [ha, hb, hf]

theorem tensordot_zero {a b r : ND F} {n : ℕ} (h0 : AllZero a ∨ AllZero b) (h : ND.tensordot a b n = .ok r) : AllZero r := by
  unfold ND.tensordot at h
  split_ifs at h
  cases h
  intro I
  refine sum_zero hF fun J _ => ?_
  rcases h0 with h0 | h0
  · rw [h0, hF.zero_mul]
  · rw [h0, hF.mul_zero]

theorem running_zero {a : ND F} (ha : AllZero a) (m : ℕ) {r : Coef F}
    (h : IA.runningOuterProduct (.arr a) 0 m = .ok r) : ∃ c, r = .arr c ∧ AllZero c := by
  induction m generalizing r with
  | zero => cases h; exact ⟨a, rfl, ha⟩
  | succ m ih =>
    unfold IA.runningOuterProduct at h
    simp only [py_bind_ok] at h
    obtain ⟨x, hx, h⟩ := h
    obtain ⟨c, rfl, hc⟩ := ih hx
    unfold IA.outerProduct at h
    split_ifs at h
    obtain ⟨w, rfl, hw⟩ := IA.bilinear_arr_ok h
    unfold IA.ndarrayOuterProduct at hw
    rw [if_pos rfl] at hw
    exact ⟨w, rfl, tensordot_zero hF (Or.inl hc) hw⟩

theorem diag_zero {a r : ND F} (ha : AllZero a) {k : ℤ} (h : IA.generalizedDiagNdarray a k = .ok r) : AllZero r := by
  unfold IA.generalizedDiagNdarray at h
  split_ifs at h
  · cases h; exact ha
  · cases h
    intro I
    show (if _ then a.get _ else 0) = 0
    split_ifs
    · exact ha _
    · rfl

theorem outerPower_zero {a : ND F} (ha : AllZero a) {k : ℤ} (hk : 0 < k) {r : Coef F}
    (h : IA.outerPower (.arr a) k = .ok r) : ∃ c, r = .arr c ∧ AllZero c := by
  have hpow : AllZero (a.map (· ^ k)) := fun I => by
    show a.get I ^ k = 0
    rw [ha, hF.zero_pow k hk]
  unfold IA.outerPower at h
  rw [if_neg (by omega), if_neg (by omega)] at h
  by_cases h0 : (Coef.arr a).ndim = 0
  · rw [if_pos h0] at h
    cases h
    exact ⟨_, rfl, hpow⟩
  · rw [if_neg h0] at h
    simp only [py_bind_ok] at h
    obtain ⟨rop, hrop, h⟩ := h
    obtain ⟨c, rfl, hc⟩ := running_zero hF ha _ hrop
    rw [if_neg (not_not.2 rfl)] at h
    split at h
    · cases h; exact ⟨c, rfl, hc⟩
    · cases h
    · simp only [py_bind_ok] at h
      obtain ⟨de, hde, dg, hdg, p, hp, h⟩ := h
      cases hde
      simp only [IA.generalizedDiagInterval, py_bind_ok, py_pure] at hdg
      obtain ⟨d, hd, rfl⟩ := hdg
      unfold IA.multiply at hp
      obtain ⟨p, rfl, hp'⟩ := IA.bilinear_arr_ok hp
      obtain ⟨s, rfl, hs⟩ := IA.add_arr_ok h
      have hpz : AllZero p := by
        unfold ND.map2 at hp'
        split at hp'
        · cases hp'
        · cases hp'
          intro I
          show c.get _ * _ = 0
          rw [hc, hF.zero_mul]
      exact ⟨s, rfl, map2_zero hF (hF.zero_add 0) hpz (diag_zero hF hpow hd) hs⟩

theorem posPart_zero {a : ND F} (ha : AllZero a) : AllZero (IA.posPart a) ∧ AllZero (IA.negPart a) :=
  ⟨fun I => by show max 0 (a.get I) = 0; rw [ha, max_self], fun I => by show min 0 (a.get I) = 0; rw [ha, min_self]⟩

theorem contract_zero {c : Coef F} {w : ND F} (hw : AllZero w) {r : Coef F} {n : ℕ}
    (h : IA.tensordot c (.arr w) n = .ok r) : ZeroCoef r := by
  unfold IA.tensordot at h
  cases c with
  | arr a =>
    obtain ⟨x, rfl, hx⟩ := IA.bilinear_arr_ok h
    exact tensordot_zero hF (Or.inr hw) hx
  | ivl a b =>
    unfold IA.arbitraryBilinear at h
    simp only at h
    split_ifs at h with hn
    · unfold IA.bilinearProduct at h
      simp only [IA.endpoints, List.flatMap_cons, List.flatMap_nil, List.map_cons, List.map_nil, List.append_nil,
        List.cons_append, List.nil_append, List.mapM_cons, List.mapM_nil, py_bind_ok, py_pure] at h
      obtain ⟨ps, ⟨p, hp, _, ⟨q, hq, _, rfl, rfl⟩, rfl⟩, lo, hlo, hi, hhi, rfl⟩ := h
      simp only [IA.reduce, List.foldlM_cons, List.foldlM_nil, py_bind_ok, py_pure] at hlo hhi
      obtain ⟨lo', hlo, rfl⟩ := hlo
      obtain ⟨hi', hhi, rfl⟩ := hhi
      have hpz := tensordot_zero hF (Or.inr hw) hp
      have hqz := tensordot_zero hF (Or.inr hw) hq
      exact ⟨map2_zero hF (min_self _) hpz hqz hlo, map2_zero hF (max_self _) hpz hqz hhi⟩
    · simp only [IA.bilinearGeneral, py_bind_ok, py_pure] at h
      obtain ⟨p, hp, q, hq, lo, hlo, p', hp', q', hq', hi, hhi, rfl⟩ := h
      have z1 := (posPart_zero hF hw).1
      have z2 := (posPart_zero hF hw).2
      exact ⟨map2_zero hF (hF.zero_add 0) (tensordot_zero hF (Or.inr z1) hp) (tensordot_zero hF (Or.inr z2) hq) hlo,
        map2_zero hF (hF.zero_add 0) (tensordot_zero hF (Or.inr z1) hp') (tensordot_zero hF (Or.inr z2) hq') hhi⟩

end

theorem BroadcastOf.le {y r : ND F} (h : ND.BroadcastOf y r) : ble y.shape r.shape := (bshape_le h.1).1

/-- both end points are broadcasts of `y` -/
def BC (y : ND F) (c : Coef F) : Prop := ND.BroadcastOf y (toInterval c).1 ∧ ND.BroadcastOf y (toInterval c).2

theorem add_zero_bc (hF : UnitLaws F) {y a b r : ND F} (ha : ND.BroadcastOf y a) (hb : AllZero b)
    (h : ND.map2 (· + ·) a b = .ok r) : ND.BroadcastOf y r := by
  have hs := ND.map2_shape h
  have hle := ble_trans (BroadcastOf.le ha) hs.1
  refine ⟨bshape_eq_of_ble hle, fun I hI => ?_⟩
  unfold ND.map2 at h
  split at h
  · cases h
  · cases h
    show a.get (bidx a.shape I) + b.get _ = _
    rw [hb, hF.add_zero, ha.2 _ (validIdx_bidx hs.1 hI), ND.bget_bidx _ (BroadcastOf.le ha)]
    exact le_of_le_of_eq (ble_length hs.1) hI.length

theorem add_bc (hF : UnitLaws F) {y : ND F} {c z r : Coef F} (hc : BC y c) (hz : ZeroCoef z)
    (h : IA.add c z = .ok r) : BC y r := by
  cases c <;> cases z <;> simp only [IA.add, py_bind_ok, py_pure] at h
  · obtain ⟨w, hw, rfl⟩ := h
    have := add_zero_bc hF hc.1 hz hw
    exact ⟨this, this⟩
  · obtain ⟨w, hw, v, hv, rfl⟩ := h
    exact ⟨add_zero_bc hF hc.1 hz.1 hw, add_zero_bc hF hc.1 hz.2 hv⟩
  · obtain ⟨w, hw, v, hv, rfl⟩ := h
    exact ⟨add_zero_bc hF hc.1 hz hw, add_zero_bc hF hc.2 hz hv⟩
  · obtain ⟨w, hw, v, hv, rfl⟩ := h
    exact ⟨add_zero_bc hF hc.1 hz.1 hw, add_zero_bc hF hc.2 hz.2 hv⟩

theorem eval_tail (hF : UnitLaws F) {z : ND F} (hz : AllZero z) {y : ND F} {l : Encl F} :
    ∀ {n : ℕ} {c : Coef F} {r : ℕ × Coef F}, 1 ≤ n → BC y c →
    l.foldlM (Poly.evalStep (.arr z) (fun a b => IA.tensordot a b b.ndim) (fun a k => IA.outerPower a k) IA.add
      (.arr (scalar 1))) (n, c) = .ok r → BC y r.2 := by
  induction l with
  | nil => intro n c r _ hc h; cases h; exact hc
  | cons x l ih =>
    intro n c r hn hc h
    rw [List.foldlM_cons] at h
    simp only [py_bind_ok] at h
    obtain ⟨st, hst, h⟩ := h
    unfold Poly.evalStep at hst
    have hn' : n > 0 := by omega
    simp only [if_pos hn', py_bind_ok, py_pure] at hst
    obtain ⟨zi, hzi, term, hterm, s, hs, rfl⟩ := hst
    obtain ⟨w, rfl, hw⟩ := outerPower_zero hF hz (by omega) hzi
    exact ih (by omega) (add_bc hF hc (contract_zero hF hw hterm) hs) h

theorem eval_head (hF : UnitLaws F) {z : ND F} (hz : AllZero z) {y : ND F} {e : Encl F} {r : Coef F} (he : HeadIs y e)
    (h : Poly.evalTaylorEnclosure e (.arr z) = .ok r) : BC y r := by
  obtain ⟨c, l, rfl, hc⟩ := he
  unfold Poly.evalTaylorEnclosure Poly.evalPolynomial at h
  rw [List.foldlM_cons] at h
  simp only [py_bind_ok, py_pure] at h
  obtain ⟨st, ⟨s1, hst, hl⟩, rfl⟩ := h
  unfold Poly.evalStep at hst
  rw [if_neg (by simp)] at hst
  simp only [py_ok_bind, py_bind_ok, py_pure] at hst
  obtain ⟨t, ht, s, hs, rfl⟩ := hst
  unfold IA.tensordot at ht
  obtain ⟨t, rfl, ht'⟩ := IA.bilinear_arr_ok ht
  obtain ⟨o, rfl, ho⟩ := IA.add_arr_ok hs
  have hts : t.Same c := by
    replace ht' : ND.tensordot c (scalar 1) 0 = .ok t := ht'
    unfold ND.tensordot at ht'
    have c1 : ¬ (0 > c.ndim ∨ 0 > (scalar (1 : F)).ndim) := by omega
    have c2 : ¬ (c.shape.drop (c.ndim - 0) ≠ (scalar (1 : F)).shape.take 0) := by simp [ND.ndim]
    rw [if_neg c1, if_neg c2] at ht'
    cases ht'
    refine ⟨by simp [ND.ndim], fun I hI => ?_⟩
    have hI' : ValidIdx c.shape I := by simpa [ND.ndim] using hI
    have hl : I.length = c.ndim := hI'.length.symm
    show ((idx []).map fun J => c.get _ * (1 : F)).sum = _
    simp only [idx, List.map_cons, List.map_nil, List.sum_cons, List.sum_nil, Nat.sub_zero, List.append_nil]
    rw [hF.mul_one, hF.add_zero, ← hl, List.take_length]
  have hos := ((ND.map2_scalar_left hF.zero_add ho).trans hts).trans hc
  have hb : ND.BroadcastOf y o := by
    refine ⟨by rw [hos.1, bshape_self], fun I hI => ?_⟩
    rw [hos.2 I hI, ND.bget_valid _ (hos.1 ▸ hI)]
  exact eval_tail (c := .arr o) hF hz (by simp) ⟨hb, hb⟩ hl

end JB
end AB
