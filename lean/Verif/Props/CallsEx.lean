/-
A concrete case of C85: a program that calls `jax.nn.sigmoid`, which is a `jit`-ed function, with the rules for
`jax.nn.sigmoid` and for `jax.nn.swish`, whose Jaxpr itself calls `jax.nn.sigmoid`.
-/
import Verif.Props.Calls
import Verif.Props.Fat

set_option linter.unusedSectionVars false

namespace AB
namespace JB
namespace CEx
open JE (Var Aval PRule Meaning Param paramsDeepOk)

abbrev f32 : Aval := ⟨"float32", []⟩

/-- How the equations other than calls are read. -/
def prim (name : String) (_ : List (String × Param ℚ String)) : Prim ℝ :=
  if name = "mul" then .mul
  else if name = "logistic" then .elementwise "logistic"
  else if name = "__autobound_sigmoid__" then .elementwise "__autobound_sigmoid__"
  else if name = "__autobound_swish__" then .elementwise "__autobound_swish__"
  else .other name fun _ => .error .notImplemented
noncomputable def D : Decode ℚ String ℝ := ⟨fun q => ND.scalar (q : ℝ), prim⟩
def calls (name : String) : Option String := if name = "jit" then some "jaxpr" else none

theorem calls_ok : DecodeCallsOk D calls where
  respects := fun _ _ _ _ _ => rfl
  keys := by
    intro name key h
    unfold calls at h
    split_ifs at h
    cases h
    decide

abbrev v (n : ℕ) (c : ℤ) : Var := ⟨n, c, f32⟩
/-- `lambda a: lax.logistic(a)` -/
abbrev sigmoidBody : JE.Jaxpr ℚ String := .mk [] [v 0 0] [.var (v 1 1)] [.mk "logistic" [.var (v 0 0)] [v 1 1] []]
abbrev sigmoidParams (j : JE.Jaxpr ℚ String) : List (String × Param ℚ String) :=
  [("name", .other "sigmoid"), ("jaxpr", .closedJaxpr j [])]
/-- `lambda a: a * sigmoid(a)` -/
abbrev swishBody : JE.Jaxpr ℚ String := .mk [] [v 0 0] [.var (v 2 2)]
  [.mk "jit" [.var (v 0 0)] [v 1 1] (sigmoidParams sigmoidBody), .mk "mul" [.var (v 0 0), .var (v 1 1)] [v 2 2] []]

abbrev rule (name : String) (q : List (String × Param ℚ String)) : PRule ℚ String :=
  ⟨.mk [] [v 0 0] [.var (v 1 1)] [.mk "jit" [.var (v 0 0)] [v 1 1] q], v 0 0, v 1 1, v 0 0, v 1 1, name, []⟩
/-- the rule for `jax.nn.sigmoid` -/
abbrev sigmoidRule := rule "__autobound_sigmoid__" (sigmoidParams sigmoidBody)
/-- the rule for `jax.nn.swish` -/
abbrev swishRule := rule "__autobound_swish__" [("name", .other "swish"), ("jaxpr", .closedJaxpr swishBody [])]

/-- `lambda x: sigmoid(x) * x`; the variables of the Jaxpr of this call of `sigmoid` are other ones -/
abbrev subject : JE.Jaxpr ℚ String := .mk [] [v 10 5] [.var (v 12 7)]
  [.mk "jit" [.var (v 10 5)] [v 11 6] (sigmoidParams
      (.mk [] [v 20 8] [.var (v 21 9)] [.mk "logistic" [.var (v 20 8)] [v 21 9] []])),
    .mk "mul" [.var (v 11 6), .var (v 10 5)] [v 12 7] []]

/-- the program after rewriting -/
abbrev rewritten : JE.Jaxpr ℚ String := .mk [] [v 100 5] [.var (v 102 7)]
  [.mk "__autobound_sigmoid__" [.var (v 100 5)] [v 101 6] [], .mk "mul" [.var (v 101 6), .var (v 100 5)] [v 102 7] []]

theorem rewrites : rewriteJaxpr 100 [sigmoidRule.pair, swishRule.pair] subject = some (.ok rewritten) := by
  with_unfolding_all rfl

noncomputable abbrev 𝓜 : Meaning ℚ String (ND ℝ) := (callDecode D realSem calls 2).meaning realSem

theorem sigmoid_eval (x : ND ℝ) (n : ℕ) : ((callDecode D realSem calls n).meaning realSem).eval sigmoidBody [] [x] =
    some [(x.canon.map fun t => 1 / (1 + Real.exp (-t))).canon] := by
  cases n <;> rfl

theorem canon_ext {a b : ND ℝ} (hs : a.shape = b.shape) (h : ∀ I, ValidIdx a.shape I → a.get I = b.get I) :
    a.canon = b.canon := by
  cases a with | mk s g => cases b with | mk t g' =>
  have hs : s = t := hs
  subst hs
  unfold ND.canon
  simp only [ND.mk.injEq, true_and]
  funext I
  by_cases hI : I ∈ idx s
  · rw [if_pos hI, if_pos hI]; exact h I (mem_idx.1 hI)
  · rw [if_neg hI, if_neg hI]

/-- what `jax.nn.sigmoid` and the primitive in the rule compute is the same -/
theorem sigmoid_same (x : ND ℝ) (ys : List (ND ℝ)) (h : 𝓜.eval sigmoidRule.pattern [] [x] = some ys) :
    𝓜.prim "__autobound_sigmoid__" [] [x] = some ys := by
  have h1 : 𝓜.eval sigmoidRule.pattern [] [x] =
      some [(x.canon.canon.map fun t => 1 / (1 + Real.exp (-t))).canon.canon] := rfl
  have h2 : 𝓜.prim "__autobound_sigmoid__" [] [x] = some [(x.canon.map fun t => 1 / (1 + Real.exp (-t))).canon] := rfl
  rw [h1] at h
  rw [h2, ← h, ND.canon_canon, ND.canon_canon]

theorem eval_two {M : Meaning ℚ String (ND ℝ)} {a c : Var} {p : String} {is : List (JE.Atom ℚ)}
    {q : List (String × Param ℚ String)} {eq1 : JE.Eqn ℚ String} {x y : ND ℝ} {xs : List (ND ℝ)} {ε : JE.VEnv (ND ℝ)}
    (h1 : (GE.assign (fun _ => none) [a] [x] >>= fun e => M.step e eq1) = some ε) (h2 : is.mapM (M.read ε) = some xs)
    (h3 : M.prim p q xs = some [y]) : M.eval (.mk [] [a] [.var c] [eq1, .mk p is [c] q]) [] [x] = some [y] := by
  obtain ⟨e0, k1, k2⟩ := Option.bind_eq_some_iff.1 h1
  have hs : M.step ε (.mk p is [c] q) = GE.assign ε [c] [y] := by
    show (is.mapM (M.read ε)).bind (fun xs => (M.prim p q xs).bind fun ys => GE.assign ε [c] ys) = _
    rw [h2]
    show (M.prim p q xs).bind (fun ys => GE.assign ε [c] ys) = _
    rw [h3]
    rfl
  show (GE.assign (fun _ => none) [] []).bind (fun e => (GE.assign e [a] [x]).bind fun e =>
    ([eq1, .mk p is [c] q].foldlM M.step e).bind fun e => [JE.Atom.var c].mapM (M.read e)) = _
  rw [show GE.assign (fun _ => none) [] [] = some (fun _ : Var => (none : Option (ND ℝ))) from rfl]
  simp only [Option.bind_some]
  rw [k1]
  simp only [Option.bind_some, List.foldlM_cons, List.foldlM_nil]
  rw [k2]
  show ((M.step ε (.mk p is [c] q)).bind fun e => some e).bind _ = _
  rw [hs]
  simp [GE.assign, JE.Meaning.read]

theorem eval_one {M : Meaning ℚ String (ND ℝ)} {a c : Var} {p : String} {q : List (String × Param ℚ String)} {x y : ND ℝ}
    (h3 : M.prim p q [x] = some [y]) : M.eval (.mk [] [a] [.var c] [.mk p [.var a] [c] q]) [] [x] = some [y] := by
  simp [JE.Meaning.eval, JE.Meaning.step, GE.assign, JE.Meaning.read, JE.Jaxpr.constvars, JE.Jaxpr.invars, JE.Jaxpr.outvars,
    JE.Jaxpr.eqns, JE.Eqn.invars, JE.Eqn.outvars, JE.Eqn.primitive, JE.Eqn.params, h3]

theorem swish_eval (x : ND ℝ) : ((callDecode D realSem calls 1).meaning realSem).eval swishBody [] [x] =
    some [(x.canon.map fun t => t / (1 + Real.exp (-t))).canon] := by
  refine eval_two rfl rfl ?_
  show (((Lax.nary (fun a b : ℝ => a * b) x.canon
    (x.canon.canon.map fun t => 1 / (1 + Real.exp (-t))).canon.canon.canon).one).toOption).map (List.map ND.canon) = _
  unfold Lax.nary
  rw [if_pos]
  swap
  · exact Or.inl rfl
  have hm := ND.map2_same (fun a b : ℝ => a * b) (a := x.canon)
    (b := (x.canon.canon.map fun t => 1 / (1 + Real.exp (-t))).canon.canon.canon) rfl
  rw [hm]
  show some [_] = some [_]
  congr 2
  refine canon_ext rfl fun I hI => ?_
  have hI : ValidIdx x.shape I := hI
  rw [ND.canon_canon, ND.canon_canon, ND.canon_canon]
  show x.canon.bget I * (ND.canon _).bget I = x.canon.get I / (1 + Real.exp (-x.canon.get I))
  rw [ND.bget_valid _ (show ValidIdx x.canon.shape I from hI),
    ND.bget_valid (ND.canon _) (show ValidIdx (ND.canon (x.canon.map _)).shape I from hI), ND.canon_get (x.canon.map _) hI]
  show _ * (1 / (1 + Real.exp (-x.canon.get I))) = _
  rw [mul_one_div]

theorem swish_same (x : ND ℝ) (ys : List (ND ℝ)) (h : 𝓜.eval swishRule.pattern [] [x] = some ys) :
    𝓜.prim "__autobound_swish__" [] [x] = some ys := by
  have h1 : 𝓜.prim "jit" [("name", .other "swish"), ("jaxpr", .closedJaxpr swishBody [])] [x] =
      some [(x.canon.canon.map fun t => t / (1 + Real.exp (-t))).canon.canon] := by
    show ((unary ((callDecode D realSem calls 1).meaning realSem) swishBody x.canon).one.toOption).map _ = _
    unfold unary
    rw [swish_eval]
    rfl
  have h2 : 𝓜.prim "__autobound_swish__" [] [x] = some [(x.canon.map fun t => t / (1 + Real.exp (-t))).canon] := rfl
  rw [eval_one h1] at h
  rw [h2, ← h, ND.canon_canon, ND.canon_canon]

theorem sigmoid_ok : sigmoidRule.Ok 𝓜 where
  vars := by decide
  rule := {
    consts := rfl
    input := rfl
    output := rfl
    ssa := by unfold JE.Jaxpr.SSA; decide
    wellScoped := ⟨by decide, by unfold JE.Scoped; decide⟩
    counts := by unfold JE.Jaxpr.CountsIdentify; decide
    used := ⟨_, List.mem_cons_self, List.mem_cons_self⟩
    computed := ⟨_, List.mem_cons_self, List.mem_cons_self⟩
    same := sigmoid_same }

theorem swish_ok : swishRule.Ok 𝓜 where
  vars := by decide
  rule := {
    consts := rfl
    input := rfl
    output := rfl
    ssa := by unfold JE.Jaxpr.SSA; decide
    wellScoped := ⟨by decide, by unfold JE.Scoped; decide⟩
    counts := by unfold JE.Jaxpr.CountsIdentify; decide
    used := ⟨_, List.mem_cons_self, List.mem_cons_self⟩
    computed := ⟨_, List.mem_cons_self, List.mem_cons_self⟩
    same := swish_same }

theorem sigmoidBody_deep : sigmoidBody.DeepOk :=
  ⟨⟨by decide, by unfold JE.Scoped; decide⟩, by unfold JE.Jaxpr.SSA; decide, trivial, trivial⟩
theorem swishBody_deep : swishBody.DeepOk :=
  ⟨⟨by decide, by decide, by unfold JE.Scoped; decide⟩, by unfold JE.Jaxpr.SSA; decide,
    ⟨trivial, ⟨rfl, sigmoidBody_deep⟩, trivial⟩, trivial, trivial⟩
theorem subject_deep : subject.DeepOk :=
  ⟨⟨by decide, by decide, by unfold JE.Scoped; decide⟩, by unfold JE.Jaxpr.SSA; decide,
    ⟨trivial, ⟨rfl, ⟨by decide, by unfold JE.Scoped; decide⟩, by unfold JE.Jaxpr.SSA; decide, trivial, trivial⟩, trivial⟩,
    trivial, trivial⟩

theorem subject_ok : SubjectOk subject ([] : List (ND ℝ)) where
  ssa := by unfold JE.Jaxpr.SSA; decide
  wellScoped := ⟨by decide, by decide, by unfold JE.Scoped; decide⟩
  counts := by unfold JE.Jaxpr.CountsIdentify; decide
  drops := ⟨by decide, by decide⟩
  invars := rfl
  outvars := rfl
  consts := rfl

/-- the rewritten program, as the interpreter sees it -/
noncomputable abbrev prog : Jaxpr ℝ := (callDecode D realSem calls 2).jaxpr rewritten

theorem nonempty_of {vals : Vals ℝ} (h : ∀ va ∈ vals, va.2.shape = []) : NonEmptyVals vals := by
  intro va hva
  rw [h va hva]
  exact ⟨[], .nil⟩

theorem prog_eval (x : ND ℝ) (hx : x.shape = []) : ∃ vals, evalEnv realSem prog [] x = .ok vals ∧
    NonEmptyVals vals ∧ ∃ y, evalJaxpr realSem prog [] x = .ok y := by
  obtain ⟨s, g⟩ := x
  have hx : s = [] := hx
  subst hx
  refine ⟨_, rfl, nonempty_of ?_, _, rfl⟩
  intro va hva
  rcases List.mem_cons.1 hva with e | hva
  · exact congrArg (fun v => v.2.shape) e
  rcases List.mem_cons.1 hva with e | hva
  · exact congrArg (fun v => v.2.shape) e
  · exact congrArg (fun v => v.2.shape) (List.mem_singleton.1 hva)

theorem subject_eval (x : ℝ) : ∃ y, evalJaxpr realSem ((callDecode D realSem calls 2).jaxpr subject) [] (ND.scalar x) = .ok y ∧
    y.shape = [] ∧ y.get [] = 1 / (1 + Real.exp (-x)) * x := ⟨_, rfl, rfl, rfl⟩

theorem prog_fits (x0 : ℝ) : ProgramFits realSem prog [] (ND.scalar x0) := by
  refine ⟨fun v _ h => absurd h List.not_mem_nil, _, countsFit_trivial _, ?_⟩
  refine ⟨fun _ a o ha ho => ?_, fun v1 h1 => ?_⟩
  · cases ha; cases ho; trivial
  cases h1
  refine ⟨fun _ a o ha ho => ?_, fun v1 h1 => trivial⟩
  cases ha; cases ho; trivial

theorem prog_wf : WellFormedProgram prog [] where
  input := rfl
  output := rfl
  consts := rfl
  once := by show ([5] ++ [] ++ [6, 7] : List ℤ).Nodup; decide
  lits := by
    intro eqn he v hv
    exfalso
    rcases List.mem_cons.1 he with rfl | he
    · rcases List.mem_cons.1 hv with h | h
      · cases h
      · cases h
    · rcases List.mem_cons.1 he with rfl | he
      · rcases List.mem_cons.1 hv with h | h
        · cases h
        · rcases List.mem_cons.1 h with h | h
          · cases h
          · cases h
      · cases he

theorem prog_returns (x0 : ℝ) (propagate : Bool) : ProgramReturns tableLib realSem prog [] 1 propagate (ND.scalar x0) := by
  refine ⟨fun u ha => ?_, fun v1 h1 => ?_⟩
  · rw [if_neg (by show ¬ (_ = true); decide)]
    cases ha
    exact ⟨Or.inl rfl, alwaysRight_usable (Or.inr (Or.inr (Or.inr (Or.inl ⟨rfl, le_rfl⟩))))⟩
  cases h1
  refine ⟨fun u ha => ?_, fun v1 h1 => trivial⟩
  rw [if_neg (by show ¬ (_ = true); decide)]
  cases ha
  trivial

theorem prog_fat (x0 lo hi η : ℝ) (h1 : lo ≤ x0) (h2 : x0 ≤ hi) (hlo : η ≤ x0 - lo) (hhi : η ≤ hi - x0) :
    FatArgs realSem prog [] 1 (ND.scalar x0) (ND.scalar lo) (ND.scalar hi) η := by
  have main : ∀ x, ∃ w, ValueAfter realSem prog [] [] (ND.scalar x) (.var 5) w ∧ w.shape = [] ∧ w.get [] = x := by
    intro x
    refine ⟨_, ⟨_, rfl, nonempty_of ?_, rfl⟩, rfl, rfl⟩
    intro va hva
    exact congrArg (fun v => v.2.shape) (List.mem_singleton.1 hva)
  intro pre eqn post t a0 he hc hcs hv I hI
  replace he : [(⟨.elementwise "__autobound_sigmoid__", [.var 5], [6]⟩ : Eqn ℝ), ⟨.mul, [.var 6, .var 5], [7]⟩] =
    pre ++ eqn :: post := he
  have : pre = [] ∧ eqn = ⟨.elementwise "__autobound_sigmoid__", [.var 5], [6]⟩ := by
    rcases pre with _ | ⟨e0, _ | ⟨e1, _ | ⟨e2, pre⟩⟩⟩
    · simp only [List.nil_append, List.cons.injEq] at he; exact ⟨rfl, he.1.symm⟩
    · simp only [List.cons_append, List.nil_append, List.cons.injEq] at he; obtain ⟨-, rfl, -⟩ := he; cases hc
    · simp at he
    · simp at he
  obtain ⟨rfl, rfl⟩ := this
  cases hc
  obtain ⟨v0, k0, s0, g0⟩ := main x0
  have e0 : a0 = v0 := by
    obtain ⟨w, u1, -, u2⟩ := hv
    obtain ⟨w', u1', -, u2'⟩ := k0
    rw [u1] at u1'
    cases u1'
    rw [u2] at u2'
    cases u2'; rfl
  subst e0
  rw [s0] at hI
  have hI' : I = [] := List.length_eq_zero_iff.1 hI.length.symm
  subst hI'
  obtain ⟨v1, k1, -, g1⟩ := main lo
  obtain ⟨v2, k2, -, g2⟩ := main hi
  refine ⟨⟨ND.scalar lo, v1, ⟨rfl, fun I _ => ⟨le_rfl, h1.trans h2⟩⟩, k1, ?_⟩,
    ⟨ND.scalar hi, v2, ⟨rfl, fun I _ => ⟨h1.trans h2, le_rfl⟩⟩, k2, ?_⟩, fun h => ?_⟩
  · rw [g0, g1]; linarith
  · rw [g0, g2]; linarith
  · exact absurd h (by simp [IsSoftplus, builtinName])

/-- **C85 (instance).** `taylor_bounds(lambda x: jax.nn.sigmoid(x) * x, 1)`, from the Jaxpr with the call of `jit`: for
every reference point and every trust region that reaches at least `1e-12` to both sides, it returns bounds, and they
hold. -/
theorem C85_instance (x0 lo hi : ℝ) (propagate : Bool) (hlo : 1 / 10 ^ 12 ≤ x0 - lo) (hhi : 1 / 10 ^ 12 ≤ hi - x0) :
    ∃ bnd, taylorBoundsOf realLib (callDecode D realSem calls 2) 100 [sigmoidRule.pair, swishRule.pair] subject [] 1
        propagate (ND.scalar x0) (ND.scalar lo) (ND.scalar hi) = some (.ok bnd) ∧
      ∀ x, lo ≤ x → x ≤ hi → ∃ l u, bnd.lower (ND.scalar x) = .ok l ∧ bnd.upper (ND.scalar x) = .ok u ∧
        l.get [] ≤ 1 / (1 + Real.exp (-x)) * x ∧ 1 / (1 + Real.exp (-x)) * x ≤ u.get [] := by
  have hp : (0 : ℝ) ≤ 1 / 10 ^ 12 := by norm_num
  have h1 : lo ≤ x0 := by linarith
  have h2 : x0 ≤ hi := by linarith
  have hsh : (ND.scalar lo : ND ℝ).shape = (ND.scalar hi).shape := rfl
  have hη : (1 : ℝ) / 10 ^ 12 ≤ (1 / 10 ^ 12) ^ (1 : ℤ).toNat := by norm_num
  have h0 : (Coef.ivl (ND.scalar lo) (ND.scalar hi)).Contains (ND.scalar x0) := ⟨rfl, fun I _ => ⟨h1, h2⟩⟩
  obtain ⟨vals, hev, hne, y, hy⟩ := prog_eval (ND.scalar x0) rfl
  have hfit := prog_fits x0
  have hfat := prog_fat x0 lo hi _ h1 h2 hlo hhi
  have hok := taylorBoundsOk_of_fits_at (maxDegree := 1) (by norm_num) (propagate := propagate) (tableLib_at_ref (ND.scalar x0))
    hsh h0 hfit hev hne
  have hr := taylorBoundsReturns_of_at tableLib_arr tableLib_full (by norm_num) (tableLib_at_ref (ND.scalar x0)) hsh h0 hfit
    (prog_returns x0 propagate) hev hne
  obtain ⟨bnd, hb⟩ := returns_at tableLib_arr (by norm_num) (tableLib_at_ref (ND.scalar x0)) hsh (by simp [ND.scalar]) h0 h0
    prog_wf (by
      intro _ eqn he
      replace he : eqn ∈ [(⟨.elementwise "__autobound_sigmoid__", [.var 5], [6]⟩ : Eqn ℝ), ⟨.mul, [.var 6, .var 5], [7]⟩] := he
      simp only [List.mem_cons, List.not_mem_nil, or_false] at he
      rcases he with rfl | rfl <;> simp) hok hr hev hne hy
  have hs : taylorBounds safeLib prog [] 1 propagate (ND.scalar x0) (ND.scalar lo) (ND.scalar hi) = .ok bnd := by
    unfold taylorBounds at hb ⊢
    rw [py_bind_ok] at hb ⊢
    obtain ⟨env, he, hb⟩ := hb
    exact ⟨env, safe_of_fat hsh h0 hfit hp hη hfat hev hne prog.eqns [] (List.append_nil _).symm env he, hb⟩
  have hreal := (C73_fat hsh h0 hb hfit hp hη hfat hev hne).1
  refine ⟨bnd, ?_, fun x hx1 hx2 => ?_⟩
  · unfold taylorBoundsOf
    rw [rewrites]
    exact congrArg some hreal
  · obtain ⟨y0, hy0, -, -⟩ := subject_eval x0
    obtain ⟨yx, hyx, ys, yv⟩ := subject_eval x
    have hbs : taylorBoundsOf safeLib (callDecode D realSem calls 2) 100 ([sigmoidRule, swishRule].map PRule.pair) subject []
        1 propagate (ND.scalar x0) (ND.scalar lo) (ND.scalar hi) = some (.ok bnd) := by
      unfold taylorBoundsOf
      rw [show rewriteJaxpr 100 ([sigmoidRule, swishRule].map PRule.pair) subject = _ from rewrites]
      exact congrArg some hs
    obtain ⟨l, u, r1, r2, -, -, r⟩ := C85_pipeline safeLib_sound calls_ok 2 (rules := [sigmoidRule, swishRule])
      (by
        intro r hr
        simp only [List.mem_cons, List.not_mem_nil, or_false] at hr
        rcases hr with rfl | rfl
        · exact sigmoid_ok
        · exact swish_ok)
      (by
        intro r hr
        simp only [List.mem_cons, List.not_mem_nil, or_false] at hr
        rcases hr with rfl | rfl <;> exact ⟨_, rfl, rfl⟩)
      (by
        intro r hr
        simp only [List.mem_cons, List.not_mem_nil, or_false] at hr
        rcases hr with rfl | rfl
        · exact ⟨⟨⟨by decide, by unfold JE.Scoped; decide⟩, by unfold JE.Jaxpr.SSA; decide,
            ⟨trivial, ⟨rfl, sigmoidBody_deep⟩, trivial⟩, trivial⟩, trivial⟩
        · exact ⟨⟨⟨by decide, by unfold JE.Scoped; decide⟩, by unfold JE.Jaxpr.SSA; decide,
            ⟨trivial, ⟨rfl, swishBody_deep⟩, trivial⟩, trivial⟩, trivial⟩)
      subject_ok subject_deep hsh h0 (x := ND.scalar x) ⟨rfl, fun I _ => ⟨hx1, hx2⟩⟩ hbs
      (by
        intro j' hj'
        rw [show rewriteJaxpr 100 ([sigmoidRule, swishRule].map PRule.pair) subject = _ from rewrites] at hj'
        cases hj'
        refine ⟨hfit, fun x vals hx he => ?_⟩
        obtain ⟨vals', h1, h2, -⟩ := prog_eval x hx.1
        rw [h1] at he
        cases he
        exact h2) hy0 hyx
    have := r [] (by rw [ys]; exact .nil)
    rw [yv] at this
    exact ⟨l, u, r1, r2, this⟩

/-! ### why the Jaxprs have to be well formed -/

abbrev first : JE.Jaxpr ℚ String := .mk [] [v 0 0, v 1 1] [.var (v 0 0)] []
abbrev second : JE.Jaxpr ℚ String := .mk [] [v 0 0, v 1 1] [.var (v 1 1)] []
/-- not a Jaxpr JAX can make: the variable is bound twice -/
abbrev both : JE.Jaxpr ℚ String := .mk [] [v 0 0, v 0 0] [.var (v 0 0)] []

/-- Both `lambda x, y: x` and `lambda x, y: y` compare equal to a Jaxpr that binds a variable twice, so without the
condition that Jaxprs are well formed no comparison of parameters is respected by a meaning that evaluates calls. -/
theorem C85_wellformed_needed :
    JE.sameJaxpr true first both = .ok true ∧ JE.sameJaxpr true second both = .ok true ∧
    (∀ (𝓜 : Meaning ℚ String (ND ℝ)) a b, 𝓜.eval first [] [a, b] = some [a] ∧ 𝓜.eval second [] [a, b] = some [b]) ∧
    first.DeepOk ∧ second.DeepOk ∧ ¬ both.DeepOk := by
  refine ⟨by with_unfolding_all rfl, by with_unfolding_all rfl, fun 𝓜 a b => ⟨rfl, rfl⟩, ?_, ?_, ?_⟩
  · exact ⟨by show ∀ w ∈ JE.atomVars [JE.Atom.var (v 0 0)], w ∈ ([] : List JE.Var) ++ [v 0 0, v 1 1]; decide, by unfold JE.Jaxpr.SSA; decide, trivial⟩
  · exact ⟨by show ∀ w ∈ JE.atomVars [JE.Atom.var (v 1 1)], w ∈ ([] : List JE.Var) ++ [v 0 0, v 1 1]; decide, by unfold JE.Jaxpr.SSA; decide, trivial⟩
  · rintro ⟨-, h, -⟩
    revert h
    unfold JE.Jaxpr.SSA
    decide

end CEx
end JB
end AB
