/-
C52: the form of what `taylor_bounds` (/repo/autobound/jax/jax_bound.py:61-212) returns, whatever the program and
whatever the registered enclosure generators.
-/
import Verif.Props.TaylorMain
import Verif.Props.Encl2
import Verif.Props.PassThru

set_option linter.unusedSectionVars false

namespace AB
namespace JB
variable {K : Type} [Field K] [LinearOrder K] [IsStrictOrderedRing K]
open TEA

/-- non-empty, of degree at most `md`, and coefficient `i` has `i` copies of the axes of `x` at the end -/
def Form (md : ℕ) (xs : List ℕ) (e : Encl K) : Prop :=
  e ≠ [] ∧ e.length ≤ md + 1 ∧
    ∀ i c, e[i]? = some c → ∃ R, c.shape = R ++ (List.replicate i xs).flatten

theorem shape_of_validate {xs : List ℕ} {e : Encl K} (h : validateEnclosure xs e = .ok ()) :
    ∀ i c, e[i]? = some c → ∃ R, c.shape = R ++ (List.replicate i xs).flatten := by
  intro i c hc
  unfold validateEnclosure at h
  split_ifs at h with hall
  rw [List.all_eq_true] at hall
  have hm : (i, c) ∈ Poly.enum e := by
    rw [List.mem_iff_getElem?]
    exact ⟨i, by rw [Poly.enum_getElem?, hc]; rfl⟩
  have := hall _ hm
  simp only [coeffShapeOk, beq_iff_eq, TEA.rep] at this
  exact ⟨c.shape.take (c.ndim - i * xs.length), by rw [← this, List.take_append_drop]⟩

theorem encloseEnclosure_ne {E out : Encl K} {Z : Coef K} {d : ℕ} (hE : E ≠ [])
    (h : encloseEnclosure E Z d = .ok out) : out ≠ [] := by
  unfold encloseEnclosure at h
  split_ifs at h with hl
  · cases h; exact hE
  · simp only [py_bind_ok, py_pure] at h
    obtain ⟨c, -, rfl⟩ := h
    simp

theorem addCoeffs_ne {a b c : Encl K} (ha : a ≠ []) (h : addCoeffs a b = .ok c) : c ≠ [] := by
  cases a with
  | nil => exact absurd rfl ha
  | cons x as =>
    cases b with
    | nil => simp only [addCoeffs] at h; cases h; simp
    | cons y bs =>
      simp only [addCoeffs, py_bind_ok, py_pure] at h
      obtain ⟨u, -, v, -, rfl⟩ := h
      simp

theorem add_ne {T : TEA K} {a b c : Encl K} (ha : a ≠ []) (h : T.add a b = .ok c) : c ≠ [] := by
  unfold TEA.add truncateIfNecessary at h
  rw [py_bind_ok] at h
  obtain ⟨s, h1, h2⟩ := h
  exact encloseEnclosure_ne (addCoeffs_ne ha h1) h2

theorem polyBilinear_length {F : Type} {add : F → F → Py F} {tpc : F → F → ℕ → ℕ → Py F}
    {l : List ((ℕ × F) × (ℕ × F))} {o c : List F}
    (h : l.foldlM (Poly.bilinearStep add tpc) o = .ok c) : c.length = o.length := by
  induction l generalizing o with
  | nil => simp only [List.foldlM_nil, py_pure] at h; rw [h]
  | cons x l ih =>
    simp only [List.foldlM_cons, py_bind_ok] at h
    obtain ⟨o', ho', h⟩ := h
    rw [ih h]
    unfold Poly.bilinearStep at ho'
    simp only [py_bind_ok] at ho'
    obtain ⟨y, -, ho'⟩ := ho'
    split at ho'
    · cases ho'
    · simp only [py_bind_ok, py_pure] at ho'
      obtain ⟨r, -, rfl⟩ := ho'
      simp

theorem multiply_ne {T : TEA K} {a b c : Encl K} (ha : a ≠ []) (hb : b ≠ []) (h : T.multiply a b = .ok c) :
    c ≠ [] := by
  simp only [TEA.multiply, py_bind_ok] at h
  obtain ⟨_, -, _, -, p, hp, h⟩ := h
  refine encloseEnclosure_ne ?_ h
  have := polyBilinear_length hp
  have h1 := List.length_pos_iff.2 ha
  have h2 := List.length_pos_iff.2 hb
  intro hp0
  rw [hp0] at this
  simp at this
  omega

theorem powerNat_ne {T : TEA K} {a c : Encl K} {p : ℕ} (h : T.powerNat a p = .ok c) : c ≠ [] := by
  simp only [TEA.powerNat, py_bind_ok] at h
  obtain ⟨_, -, h⟩ := h
  cases a with
  | nil => cases h
  | cons x as =>
    simp only [py_bind_ok] at h
    obtain ⟨r, hr, h⟩ := h
    refine encloseEnclosure_ne ?_ h
    unfold Poly.integerPower at hr
    split_ifs at hr
    · cases hr; simp
    · have := (Poly.mapM_ok hr).length_eq
      intro h0
      rw [h0, List.length_range, Poly.powRange (by simp) (by omega)] at this
      simp at this

theorem compose_ne {T : TEA K} {e arg c : Encl K} (h : T.composeEnclosures e arg = .ok c) : c ≠ [] := by
  unfold composeEnclosures at h
  split_ifs at h
  have key : ∀ (l : List (ℕ × Coef K)) (o c : Encl K), o ≠ [] →
      l.foldlM (T.composeStep (.arr (ND.scalar 0) :: arg.drop 1)) o = .ok c → c ≠ [] := by
    intro l
    induction l with
    | nil => intro o c ho h; cases h; exact ho
    | cons x l ih =>
      intro o c ho h
      rw [List.foldlM_cons, py_bind_ok] at h
      obtain ⟨o', h1, h2⟩ := h
      refine ih o' c ?_ h2
      unfold composeStep at h1
      rw [py_bind_ok] at h1
      obtain ⟨t, -, h1⟩ := h1
      exact add_ne ho h1
  exact key _ _ _ (by simp) h

theorem elementwise_ne {T : TEA K} {g : Generator K} {a c : Encl K} {r : Option (Coef K)}
    (h : T.elementwiseFun g a r = .ok c) : c ≠ [] := by
  simp only [elementwiseFun, py_bind_ok] at h
  obtain ⟨tr, -, h⟩ := h
  cases a with
  | nil => cases h
  | cons x as =>
    simp only [py_bind_ok] at h
    obtain ⟨_, -, _, -, h⟩ := h
    exact compose_ne h

theorem powerOther_ne {T : TEA K} {g : Generator K} {a c : Encl K} (h : T.powerOther g a = .ok c) : c ≠ [] := by
  simp only [powerOther, py_bind_ok] at h
  obtain ⟨_, -, h⟩ := h
  exact elementwise_ne h

theorem push_form {lib : Lib K} {T : TEA K} {p : Prim K} {f : List (Inter K) → Py (Encl K)}
    (hf : pushforward lib T p = some f) {ins : List (Inter K)}
    (hi : ∀ i ∈ ins, i.encl ≠ [] ∧ i.encl.length ≤ T.maxDegree + 1) {e : Encl K} (hc : f ins = .ok e) :
    e ≠ [] ∧ e.length ≤ T.maxDegree + 1 := by
  have bin : ∀ g : Inter K → Inter K → Py (Encl K),
      (match ins with | [a, b] => g a b | _ => (.error .typeError : Py (Encl K))) = .ok e →
      ∃ a b, ins = [a, b] ∧ g a b = .ok e := by
    intro g hg
    rcases ins with _ | ⟨a, _ | ⟨b, _ | ⟨c, l⟩⟩⟩ <;> simp only [reduceCtorEq] at hg
    exact ⟨a, b, rfl, hg⟩
  have una : ∀ g : Inter K → Py (Encl K),
      (match ins with | [a] => g a | _ => (.error .typeError : Py (Encl K))) = .ok e →
      ∃ a, ins = [a] ∧ g a = .ok e := by
    intro g hg
    rcases ins with _ | ⟨a, _ | ⟨b, l⟩⟩ <;> simp only [reduceCtorEq] at hg
    exact ⟨a, rfl, hg⟩
  have deg := fun a b => C24_degree_bound T a b e
  have lin : ∀ (q : Prim K),
      (match ins with | [a] => (mapOverEnclosure a.encl (q.bind1 lib.sem) : Py (Encl K))
                      | _ => .error .typeError) = .ok e → e ≠ [] ∧ e.length ≤ T.maxDegree + 1 := by
    intro q hg
    obtain ⟨a, rfl, hg⟩ := una _ hg
    have hl := (mapOver_get hg).1
    obtain ⟨h1, h2⟩ := hi a (by simp)
    refine ⟨?_, by omega⟩
    intro h0
    rw [h0] at hl
    exact h1 (List.length_eq_zero_iff.1 hl.symm)
  have po : ∀ (g : Generator K) (a : Encl K), T.powerOther g a = .ok e →
      e ≠ [] ∧ e.length ≤ T.maxDegree + 1 :=
    fun g a h => ⟨powerOther_ne h, (deg a []).2.2.2.2.2.2.2.2.1 g h⟩
  have pn : ∀ (a : Encl K) (n : ℕ), T.powerNat a n = .ok e → e ≠ [] ∧ e.length ≤ T.maxDegree + 1 :=
    fun a n h => ⟨powerNat_ne h, (deg a []).2.2.2.2.1 n h⟩
  have bil : ∀ (a b : Inter K) (pbb : ND K → ND K → ℕ → ℕ → Py (ND K)), ins = [a, b] →
      T.arbitraryBilinear a.encl b.encl pbb = .ok e → e ≠ [] ∧ e.length ≤ T.maxDegree + 1 := by
    intro a b pbb hin h
    refine ⟨?_, (deg a.encl b.encl).2.2.2.2.2.1 pbb h⟩
    have hl := setFold_length T h
    have h1 := List.length_pos_iff.2 (hi a (by simp [hin])).1
    have h2 := List.length_pos_iff.2 (hi b (by simp [hin])).1
    intro h0
    rw [h0] at hl
    simp at hl
    omega
  cases p with
  | add =>
    cases hf
    obtain ⟨a, b, rfl, hg⟩ := bin _ hc
    exact ⟨add_ne (hi a (by simp)).1 hg, (deg _ _).1 hg⟩
  | sub =>
    cases hf
    obtain ⟨a, b, rfl, hg⟩ := bin _ hc
    refine ⟨?_, (deg _ _).2.1 hg⟩
    unfold TEA.subtract at hg
    rw [py_bind_ok] at hg
    obtain ⟨_, -, hg⟩ := hg
    exact add_ne (hi a (by simp)).1 hg
  | mul =>
    cases hf
    obtain ⟨a, b, rfl, hg⟩ := bin _ hc
    exact ⟨multiply_ne (hi a (by simp)).1 (hi b (by simp)).1 hg, (deg _ _).2.2.2.1 hg⟩
  | div =>
    cases hf
    obtain ⟨a, b, rfl, hg⟩ := bin _ hc
    refine ⟨?_, (deg _ _).2.2.2.2.2.2.2.2.2 _ hg⟩
    unfold TEA.divide at hg
    rw [py_bind_ok] at hg
    obtain ⟨r, h1, hg⟩ := hg
    exact multiply_ne (hi a (by simp)).1 (powerOther_ne h1) hg
  | neg =>
    cases hf
    obtain ⟨a, rfl, hg⟩ := una _ hc
    refine ⟨encloseEnclosure_ne ?_ hg, (deg _ []).2.2.1 hg⟩
    simpa using (hi a (by simp)).1
  | pow =>
    cases hf
    obtain ⟨a, b, rfl, hg⟩ := bin _ hc
    unfold powPush at hg
    cases hcv : b.constantValue with
    | none => rw [hcv] at hg; cases hg
    | some u =>
      rw [hcv] at hg
      simp only at hg
      by_cases hsh : u.shape ≠ []
      · rw [if_pos hsh] at hg; cases hg
      rw [if_neg hsh] at hg
      cases hx : lib.expo (u.get []) with
      | frac q => rw [hx] at hg; exact po _ _ hg
      | int n =>
        rw [hx] at hg
        simp only at hg
        by_cases hn : n < 0
        · rw [if_pos hn] at hg; exact po _ _ hg
        · rw [if_neg hn] at hg
          by_cases hn0 : n = 0
          · rw [if_pos hn0] at hg; exact pn _ _ hg
          · rw [if_neg hn0] at hg; cases hg
  | integerPow n =>
    cases hf
    obtain ⟨a, rfl, hg⟩ := una _ hc
    by_cases hn : 0 ≤ n
    · rw [if_pos hn] at hg; exact pn _ _ hg
    · rw [if_neg hn] at hg; exact po _ _ hg
  | dotGeneral lc rc lb rb =>
    cases hf
    obtain ⟨a, b, rfl, hg⟩ := bin _ hc
    exact bil a b _ rfl hg
  | conv op =>
    cases hf
    obtain ⟨a, b, rfl, hg⟩ := bin _ hc
    exact bil a b _ rfl hg
  | broadcastInDim shape dims =>
    cases hf
    obtain ⟨a, rfl, hg⟩ := una _ hc
    simp only [broadcastInDimPush, py_bind_ok] at hg
    obtain ⟨_, -, hg⟩ := hg
    have hl := (Poly.mapM_ok hg).length_eq
    rw [Poly.enum_length] at hl
    obtain ⟨h1, h2⟩ := hi a (by simp)
    refine ⟨?_, by omega⟩
    intro h0
    rw [h0] at hl
    exact h1 (List.length_eq_zero_iff.1 (by simpa using hl))
  | elementwise name =>
    simp only [pushforward, Option.map_eq_some_iff] at hf
    obtain ⟨g, hgen, rfl⟩ := hf
    obtain ⟨a, rfl, hg⟩ := una _ hc
    exact ⟨elementwise_ne hg, (deg a.encl []).2.2.2.2.2.2.2.1 _ _ hg⟩
  | other _ _ => cases hf
  | _ => cases hf; exact lin _ hc

/-- every variable -/
def EnvForm (md : ℕ) (xs : List ℕ) (env : Env K) : Prop := ∀ v i, env.lookup v = some i → Form md xs i.encl

theorem const_form (md : ℕ) (xs : List ℕ) (v : ND K) : Form md xs (constantInter v).encl := by
  refine ⟨by simp [constantInter], by simp [constantInter], ?_⟩
  intro i c hc
  match i with
  | 0 => exact ⟨c.shape, by simp⟩
  | i + 1 => simp [constantInter] at hc

theorem getInter_form {md : ℕ} {xs : List ℕ} {env : Env K} (h : EnvForm md xs env) {a : Atom K} {i : Inter K}
    (hg : getInter env a = .ok i) : Form md xs i.encl := by
  cases a with
  | lit a => cases hg; exact const_form md xs a
  | var v =>
    unfold getInter at hg
    simp only at hg
    cases hl : env.lookup v with
    | none => rw [hl] at hg; cases hg
    | some j => rw [hl] at hg; cases hg; exact h v _ hl

theorem storeOne_form {md : ℕ} {xs : List ℕ} {env env' : Env K} (h : EnvForm md xs env) {vi : ℤ × Inter K}
    (hi : vi.2.encl ≠ [] ∧ vi.2.encl.length ≤ md + 1) (hs : storeOne xs env vi = .ok env') :
    EnvForm md xs env' := by
  unfold storeOne at hs
  by_cases hv : vi.1 = -1
  · rw [if_pos hv] at hs
    cases hs; exact h
  rw [if_neg hv] at hs
  by_cases hd : (env.lookup vi.1).isSome = true
  · rw [if_pos hd] at hs; cases hs
  rw [if_neg hd] at hs
  simp only [py_bind_ok, py_pure] at hs
  obtain ⟨_, hval, rfl⟩ := hs
  intro w j hj
  rw [List.lookup_cons] at hj
  by_cases hw : (w == vi.1) = true
  · rw [hw] at hj
    cases hj
    exact ⟨hi.1, hi.2, shape_of_validate hval⟩
  · have hw : (w == vi.1) = false := by simpa using hw
    rw [hw] at hj
    exact h w j hj

theorem step_form {lib : Lib K} {T T0 : TEA K} {propagate : Bool} {xs : List ℕ} {env env' : Env K} {eqn : Eqn K}
    (h : EnvForm T.maxDegree xs env) (hs : step lib T T0 propagate xs env eqn = .ok env') :
    EnvForm T.maxDegree xs env' := by
  simp only [step, py_bind_ok] at hs
  obtain ⟨ins, hins, outs, houts, hs⟩ := hs
  by_cases hlen : outs.length ≠ eqn.outvars.length
  · rw [if_pos hlen] at hs; cases hs
  rw [if_neg hlen] at hs
  have hin : ∀ i ∈ ins, i.encl ≠ [] ∧ i.encl.length ≤ T.maxDegree + 1 := by
    intro i hi
    obtain ⟨k, hk⟩ := List.mem_iff_getElem?.1 hi
    have hF := Poly.mapM_ok hins
    obtain ⟨hk', rfl⟩ := List.getElem?_eq_some_iff.1 hk
    have := (List.forall₂_iff_get.1 hF).2 k (by rw [hF.length_eq]; exact hk') hk'
    have := getInter_form h this
    exact ⟨this.1, this.2.1⟩
  have hout : ∀ o ∈ outs, o.encl ≠ [] ∧ o.encl.length ≤ T.maxDegree + 1 := by
    unfold eqnOutputs at houts
    cases hcv : ins.mapM Inter.constantValue with
    | some cs =>
      rw [hcv] at houts
      simp only [py_bind_ok, py_pure] at houts
      obtain ⟨rs, -, rfl⟩ := houts
      intro o ho
      obtain ⟨v, -, rfl⟩ := List.mem_map.1 ho
      exact ⟨by simp [constantInter], by simp [constantInter]⟩
    | none =>
      rw [hcv] at houts
      simp only at houts
      cases hp : pushforward lib T eqn.prim with
      | none => rw [hp] at houts; cases houts
      | some f =>
        rw [hp] at houts
        simp only [py_bind_ok] at houts
        obtain ⟨e, he, houts⟩ := houts
        have := push_form hp hin he
        by_cases h1 : eqn.outvars.length ≠ 1
        · rw [if_pos h1] at houts; cases houts
        rw [if_neg h1] at houts
        cases propagate with
        | false =>
          simp only [Bool.false_eq_true, if_false, py_pure] at houts
          subst houts
          intro o ho
          rw [List.mem_singleton] at ho
          subst ho
          exact this
        | true =>
          simp only [if_true, py_bind_ok, py_pure] at houts
          obtain ⟨r, -, rfl⟩ := houts
          intro o ho
          rw [List.mem_singleton] at ho
          subst ho
          exact this
  have key : ∀ (l : List (ℤ × Inter K)) (env env' : Env K),
      (∀ vi ∈ l, vi.2.encl ≠ [] ∧ vi.2.encl.length ≤ T.maxDegree + 1) → EnvForm T.maxDegree xs env →
      l.foldlM (storeOne xs) env = .ok env' → EnvForm T.maxDegree xs env' := by
    intro l
    induction l with
    | nil => intro env env' _ h hs; cases hs; exact h
    | cons vi l ih =>
      intro env env' hl h hs
      rw [List.foldlM_cons, py_bind_ok] at hs
      obtain ⟨env1, h1, h2⟩ := hs
      exact ih env1 env' (fun v hv => hl v (by simp [hv])) (storeOne_form h (hl vi (by simp)) h1) h2
  exact key _ _ _ (fun vi hvi => hout vi.2 (List.of_mem_zip hvi).2) h hs

theorem init_form {propagate : Bool} {md : ℕ} {jaxpr : Jaxpr K} {consts : List (ND K)} {x0 lo hi : ND K} {env : Env K}
    (henv : initEnv propagate md jaxpr consts x0 lo hi = .ok env) : EnvForm md x0.shape env := by
  obtain ⟨identity, v, hid, hcl, hv, rfl⟩ := initEnv_inv henv
  intro w i hw
  rw [List.lookup_cons] at hw
  by_cases hwv : (w == v) = true
  · rw [hwv] at hw
    cases hw
    by_cases hm : md > 0
    · rw [if_pos hm]
      refine ⟨by simp, by simp; omega, ?_⟩
      intro i c hc
      match i with
      | 0 => exact ⟨c.shape, by simp⟩
      | 1 =>
        cases hc
        exact ⟨x0.shape, by simp [Coef.shape, identityCoef_shape hid]⟩
      | i + 2 => simp at hc
    · rw [if_neg hm]
      refine ⟨by simp, by simp, ?_⟩
      intro i c hc
      match i with
      | 0 => exact ⟨c.shape, by simp⟩
      | i + 1 => simp at hc
  · have hwv : (w == v) = false := by simpa using hwv
    rw [hwv] at hw
    obtain ⟨a, -, rfl⟩ := lookup_zip_const hcl hw
    exact const_form _ _ _

/-- **C52.** Whatever the program, the registered enclosure generators and the arguments: if `taylor_bounds`
returns, the returned object records the arguments `x0` and `(lo, hi)` unchanged, has at least one and at most
`max_degree + 1` coefficients, and the last axes of coefficient `i` are `i` copies of the axes of `x0`. -/
theorem C52_form {lib : Lib K} {jaxpr : Jaxpr K} {consts : List (ND K)} {maxDegree : ℤ} {propagate : Bool}
    {x0 lo hi : ND K} {bnd : Bounds K}
    (hb : taylorBounds lib jaxpr consts maxDegree propagate x0 lo hi = .ok bnd) :
    bnd.x0 = x0 ∧ bnd.regionLo = lo ∧ bnd.regionHi = hi ∧ bnd.coefficients ≠ [] ∧
    (bnd.coefficients.length : ℤ) ≤ maxDegree + 1 ∧
    ∀ i c, bnd.coefficients[i]? = some c → ∃ R, c.shape = R ++ (List.replicate i x0.shape).flatten := by
  simp only [taylorBounds, py_bind_ok] at hb
  obtain ⟨env', he, hb⟩ := hb
  obtain ⟨hmd, tlo, thi, T, T0, env, ht, hT, hT0, henv, hrun⟩ := taylorEnv_inv he
  have hTd : T.maxDegree = maxDegree.toNat := by
    unfold TEA.init at hT
    split_ifs at hT
    cases hT; rfl
  have h0 : EnvForm T.maxDegree x0.shape env := by rw [hTd]; exact init_form henv
  have key : ∀ (eqns : List (Eqn K)) (env env' : Env K), EnvForm T.maxDegree x0.shape env →
      eqns.foldlM (step lib T T0 (propagate && (maxDegree != 0)) x0.shape) env = .ok env' →
      EnvForm T.maxDegree x0.shape env' := by
    intro eqns
    induction eqns with
    | nil => intro env env' h hs; cases hs; exact h
    | cons q l ih =>
      intro env env' h hs
      rw [List.foldlM_cons, py_bind_ok] at hs
      obtain ⟨env1, h1, h2⟩ := hs
      exact ih env1 env' (step_form h h1) h2
  have hE := key _ _ _ h0 hrun
  split at hb
  case h_2 => cases hb
  simp only [py_bind_ok, py_pure] at hb
  obtain ⟨out, ho, rfl⟩ := hb
  obtain ⟨k1, k2, k3⟩ := getInter_form hE ho
  refine ⟨rfl, rfl, rfl, k1, ?_, k3⟩
  show (out.encl.length : ℤ) ≤ _
  rw [hTd] at k2
  omega

end JB
end AB
