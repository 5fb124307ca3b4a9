/-
C85: the comparison of Jaxprs, the rewriting and the whole pipeline of `taylor_bounds`, for programs with (nested)
calls of `jit`-ed functions whose meaning is to evaluate their Jaxprs.
-/
import Verif.Spec.Calls
import Verif.Props.Pipeline

set_option linter.unusedSectionVars false

namespace AB
namespace JE
variable {C P α : Type} [DecidableEq C] [DecidableEq P]

theorem paramsDeepOk_mem : ∀ {q : List (String × Param C P)}, paramsDeepOk q → ∀ {k : String} {v : Param C P},
    (k, v) ∈ q → v.DeepOk
  | [], _, _, _, h => by cases h
  | (_, _) :: q, h, k, v, hm => by
    rcases List.mem_cons.1 hm with e | hm
    · cases e; exact h.1
    · exact paramsDeepOk_mem h.2 hm

theorem deepOk_params : ∀ {es : List (Eqn C P)}, eqnsDeepOk es → ∀ e ∈ es, paramsDeepOk e.params
  | [], _, e, h => by cases h
  | .mk _ _ _ q :: es, h, e, hm => by
    rcases List.mem_cons.1 hm with rfl | hm
    · exact h.1
    · exact deepOk_params h.2 e hm

theorem Jaxpr.DeepOk.parts {j : Jaxpr C P} (h : j.DeepOk) : j.WellScoped ∧ j.SSA ∧ j.ParamsIn paramsDeepOk := by
  cases j
  exact ⟨h.1, h.2.1, deepOk_params h.2.2⟩

theorem mem_of_lookup {β : Type} {k : String} {v : β} : ∀ {q : List (String × β)}, q.lookup k = some v → (k, v) ∈ q
  | [], h => by cases h
  | (k', w) :: q, h => by
    rw [List.lookup_cons] at h
    by_cases e : k = k'
    · subst e; simp at h; subst h; exact List.mem_cons_self
    · have : (k == k') = false := by simpa using e
      rw [this] at h
      exact List.mem_cons_of_mem _ (mem_of_lookup h)

theorem lookup_none_iff {β : Type} {k : String} : ∀ {q : List (String × β)}, q.lookup k = none ↔ k ∉ q.map Prod.fst
  | [] => by simp
  | (k', w) :: q => by
    rw [List.lookup_cons]
    by_cases e : k = k'
    · subst e; simp
    · have : (k == k') = false := by simpa using e
      rw [this]
      simp only [List.map_cons, List.mem_cons, not_or]
      rw [lookup_none_iff]
      tauto

theorem sameValues_of_mem : ∀ {q0 q1 : List (String × Param C P)}, SameValues q0 q1 → ∀ {k : String} {v : Param C P},
    (k, v) ∈ q0 → k ∉ ["weak_type", "jvp_jaxpr_fun"] → ∃ v1, q1.lookup k = some v1 ∧ SameParam v v1
  | [], _, _, _, _, h, _ => by cases h
  | (_, _) :: q, q1, h, k, v, hm, hk => by
    rcases List.mem_cons.1 hm with e | hm
    · cases e; exact h.1 hk
    · exact sameValues_of_mem h.2 hm hk

/-- Parameters that are the same have the same Jaxprs, up to renaming. -/
theorem sameParams_body {q q' : List (String × Param C P)} (h : SameParams q q') (hq : paramsDeepOk q)
    (hq' : paramsDeepOk q') {key : String} (hk : key ∉ ["weak_type", "jvp_jaxpr_fun"]) :
    (bodyOf key q = none ∧ bodyOf key q' = none) ∨
    ∃ j j', bodyOf key q = some j ∧ bodyOf key q' = some j' ∧ SameJaxpr true j j' ∧ j.DeepOk ∧ j'.DeepOk := by
  unfold bodyOf
  cases e : q.lookup key with
  | none =>
    have : q'.lookup key = none := by
      rw [lookup_none_iff] at e ⊢
      exact fun hm => e ((h.1 key).2 hm)
    rw [this]
    exact Or.inl ⟨rfl, rfl⟩
  | some v =>
    have hm := mem_of_lookup e
    obtain ⟨v1, e1, hs⟩ := sameValues_of_mem h.2 hm hk
    rw [e1]
    have d := paramsDeepOk_mem hq hm
    have d1 := paramsDeepOk_mem hq' (mem_of_lookup e1)
    cases v <;> cases v1 <;> first | exact hs.elim | skip
    · exact Or.inr ⟨_, _, rfl, rfl, hs, d.2, d1.2⟩
    · exact Or.inr ⟨_, _, rfl, rfl, hs, d.2, d1.2⟩
    · exact Or.inl ⟨rfl, rfl⟩
    · exact Or.inl ⟨rfl, rfl⟩

/-- **C85 (calls).** The meaning of programs with nested calls respects the comparison of parameters. -/
theorem callMeaning_respects {base : Meaning C P α} {calls : String → Option String} (h : CallsOk base calls) :
    ∀ n, (callMeaning base calls n).RespectsOn paramsDeepOk
  | 0, p, q, q', _, _, hs => by
    funext xs
    show (match calls p with | none => base.prim p q xs | some _ => none) =
      (match calls p with | none => base.prim p q' xs | some _ => none)
    cases hp : calls p with
    | none => simp only [h.respects p hp q q' hs]
    | some key => rfl
  | n + 1, p, q, q', hq, hq', hs => by
    funext xs
    show (match calls p with
        | none => base.prim p q xs
        | some key => (bodyOf key q).bind fun j => (callMeaning base calls n).eval j [] xs) =
      (match calls p with
        | none => base.prim p q' xs
        | some key => (bodyOf key q').bind fun j => (callMeaning base calls n).eval j [] xs)
    cases hp : calls p with
    | none => simp only [h.respects p hp q q' hs]
    | some key =>
      simp only
      rcases sameParams_body hs hq hq' (h.keys p key hp) with ⟨e, e'⟩ | ⟨j, j', e, e', k1, k2, k3⟩
      · rw [e, e']
      · rw [e, e']
        exact same_function_on ((C41_iff _ _ _).2 k1) k2.parts.1 k3.parts.2.1 _ (callMeaning_respects h n)
          k2.parts.2.2 k3.parts.2.2 [] xs

/-- **C85 (same function).** If `_same_jaxpr_up_to_variable_renaming` says `True` for two well-formed Jaxprs, they
compute the same function, where nested calls are evaluated. -/
theorem C85_same_function {base : Meaning C P α} {calls : String → Option String} (h : CallsOk base calls)
    {ignoreShape : Bool} {j0 j1 : Jaxpr C P} (hs : sameJaxpr ignoreShape j0 j1 = .ok true)
    (h0 : j0.DeepOk) (h1 : j1.DeepOk) (n : ℕ) (consts xs : List α) :
    (callMeaning base calls n).eval j0 consts xs = (callMeaning base calls n).eval j1 consts xs :=
  same_function_on hs h0.parts.1 h1.parts.2.1 _ (callMeaning_respects h n) h0.parts.2.2 h1.parts.2.2 consts xs

/-- **C85 (rewriting).** A rule that replaces a well-formed pattern by one primitive that computes the same function:
if the occurrences of the pattern are closed, `jaxpr_editor.replace` returns a Jaxpr that computes the same function as
the subject, where nested calls are evaluated. -/
theorem C85_replace {base : Meaning C P α} {calls : String → Option String} (h : CallsOk base calls) (n : ℕ)
    {pattern subject : Jaxpr C P} {px po rx ry : Var} {name : String} {params : List (String × Param C P)}
    (hrule : PrimitiveRule (callMeaning base calls n) pattern px po name params) (hr : rx.count ≠ ry.count)
    (hp : pattern.DeepOk) (hs : subject.DeepOk) (hc : subject.CountsIdentify)
    (hocc : OccurrencesClosed pattern subject px po) (fresh : ℕ) :
    ∃ j', replace pattern (primitiveJaxpr rx ry name params) subject fresh (subject.eqns.length + 1) = some (.ok j') ∧
      ∀ consts xs ys, (callMeaning base calls n).eval subject consts xs = some ys →
        (callMeaning base calls n).eval j' consts xs = some ys :=
  let ⟨_, j', _, h1, _, _, h2⟩ := primitive_rule_graph (callMeaning_respects h n) hp.parts.2.2 hs.parts.2.2 hrule hr
    hs.parts.2.1 hc hocc fresh
  ⟨j', h1, h2⟩

/-! ### the depth of the nesting -/

theorem mapM_step_mono {𝓜 𝓜' : Meaning C P α} (hl : 𝓜'.lit = 𝓜.lit)
    (hp : ∀ p q xs ys, 𝓜.prim p q xs = some ys → 𝓜'.prim p q xs = some ys) {e : Eqn C P} {env env' : VEnv α}
    (h : 𝓜.step env e = some env') : 𝓜'.step env e = some env' := by
  unfold Meaning.step at h ⊢
  have hr : 𝓜'.read env = 𝓜.read env := by
    funext a
    cases a with
    | var v => rfl
    | lit l => show some (𝓜'.lit l.val) = some (𝓜.lit l.val); rw [hl]
  rw [hr]
  obtain ⟨xs, h1, h⟩ := Option.bind_eq_some_iff.1 h
  obtain ⟨ys, h2, h⟩ := Option.bind_eq_some_iff.1 h
  exact Option.bind_eq_some_iff.2 ⟨xs, h1, Option.bind_eq_some_iff.2 ⟨ys, hp _ _ _ _ h2, h⟩⟩

theorem run_mono {𝓜 𝓜' : Meaning C P α} (hl : 𝓜'.lit = 𝓜.lit)
    (hp : ∀ p q xs ys, 𝓜.prim p q xs = some ys → 𝓜'.prim p q xs = some ys) : ∀ {es : List (Eqn C P)} {e1 e2 : VEnv α},
    es.foldlM 𝓜.step e1 = some e2 → es.foldlM 𝓜'.step e1 = some e2
  | [], _, _, h => h
  | e :: es, e1, e2, h => by
    rw [List.foldlM_cons] at h ⊢
    obtain ⟨e', k1, k2⟩ := Option.bind_eq_some_iff.1 h
    exact Option.bind_eq_some_iff.2 ⟨e', mapM_step_mono hl hp k1, run_mono hl hp k2⟩

theorem eval_mono {𝓜 𝓜' : Meaning C P α} (hl : 𝓜'.lit = 𝓜.lit)
    (hp : ∀ p q xs ys, 𝓜.prim p q xs = some ys → 𝓜'.prim p q xs = some ys) {j : Jaxpr C P} {consts xs ys : List α}
    (h : 𝓜.eval j consts xs = some ys) : 𝓜'.eval j consts xs = some ys := by
  unfold Meaning.eval at h ⊢
  obtain ⟨e0, h0, h⟩ := Option.bind_eq_some_iff.1 h
  obtain ⟨e1, h1, h⟩ := Option.bind_eq_some_iff.1 h
  obtain ⟨e2, h2, h⟩ := Option.bind_eq_some_iff.1 h
  refine Option.bind_eq_some_iff.2 ⟨e0, h0, Option.bind_eq_some_iff.2 ⟨e1, h1, Option.bind_eq_some_iff.2 ⟨e2, ?_, ?_⟩⟩⟩
  · exact run_mono hl hp h2
  · have hr : 𝓜'.read e2 = 𝓜.read e2 := by
      funext a
      cases a with
      | var v => rfl
      | lit l => show some (𝓜'.lit l.val) = some (𝓜.lit l.val); rw [hl]
    rw [hr]
    exact h

theorem callMeaning_lit (base : Meaning C P α) (calls : String → Option String) (n : ℕ) :
    (callMeaning base calls n).lit = base.lit := by cases n <;> rfl

theorem callMeaning_prim_mono {base : Meaning C P α} {calls : String → Option String} :
    ∀ n p q xs ys, (callMeaning base calls n).prim p q xs = some ys →
      (callMeaning base calls (n + 1)).prim p q xs = some ys
  | 0, p, q, xs, ys, h => by
    replace h : (match calls p with | none => base.prim p q xs | some _ => none) = some ys := h
    show (match calls p with
        | none => base.prim p q xs
        | some key => (bodyOf key q).bind fun j => (callMeaning base calls 0).eval j [] xs) = some ys
    cases hp : calls p with
    | none => rw [hp] at h; exact h
    | some key => rw [hp] at h; cases h
  | n + 1, p, q, xs, ys, h => by
    replace h : (match calls p with
        | none => base.prim p q xs
        | some key => (bodyOf key q).bind fun j => (callMeaning base calls n).eval j [] xs) = some ys := h
    show (match calls p with
        | none => base.prim p q xs
        | some key => (bodyOf key q).bind fun j => (callMeaning base calls (n + 1)).eval j [] xs) = some ys
    cases hp : calls p with
    | none => rw [hp] at h; exact h
    | some key =>
      rw [hp] at h
      obtain ⟨j, h1, h2⟩ := Option.bind_eq_some_iff.1 h
      exact Option.bind_eq_some_iff.2 ⟨j, h1, eval_mono
        ((callMeaning_lit base calls _).trans (callMeaning_lit base calls _).symm) (callMeaning_prim_mono n) h2⟩

/-- **C85 (depth).** A program with results has the same results at every greater depth of nesting. -/
theorem C85_depth {base : Meaning C P α} {calls : String → Option String} {n m : ℕ} (hnm : n ≤ m) {j : Jaxpr C P}
    {consts xs ys : List α} (h : (callMeaning base calls n).eval j consts xs = some ys) :
    (callMeaning base calls m).eval j consts xs = some ys := by
  induction hnm with
  | refl => exact h
  | step _ ih =>
    exact eval_mono ((callMeaning_lit base calls _).trans (callMeaning_lit base calls _).symm)
      (callMeaning_prim_mono _) ih

end JE

namespace JB
open JE (Meaning PRule bodyOf paramsDeepOk sameParams_body same_function_on C41_iff)
variable {C P K : Type} [DecidableEq C] [DecidableEq P] [Field K]

/-- Equations with the same parameters are read in the same way. -/
theorem callDecode_prim {D : Decode C P K} {sem : Sem K} {calls : String → Option String} (h : DecodeCallsOk D calls) :
    ∀ n p q q', paramsDeepOk q → paramsDeepOk q' → JE.SameParams q q' →
      (callDecode D sem calls n).prim p q = (callDecode D sem calls n).prim p q'
  | 0, p, q, q', _, _, hs => by
    show (match calls p with | none => D.prim p q | some _ => Prim.other p fun _ => .error .typeError) =
      (match calls p with | none => D.prim p q' | some _ => Prim.other p fun _ => .error .typeError)
    cases hp : calls p with
    | none => exact h.respects p hp q q' hs
    | some key => rfl
  | n + 1, p, q, q', hq, hq', hs => by
    unfold callDecode
    simp only
    cases hp : calls p with
    | none => exact h.respects p hp q q' hs
    | some key =>
      simp only
      rcases sameParams_body hs hq hq' (h.keys p key hp) with ⟨e, e'⟩ | ⟨j, j', e, e', k1, k2, k3⟩
      · rw [e, e']
      · rw [e, e']
        have hev : ∀ xs, ((callDecode D sem calls n).meaning sem).eval j [] xs =
            ((callDecode D sem calls n).meaning sem).eval j' [] xs := fun xs =>
          same_function_on (G := paramsDeepOk) ((C41_iff _ _ _).2 k1) k2.parts.1 k3.parts.2.1 _
            (fun p q q' g g' hs => by
              funext xs
              show (((callDecode D sem calls n).prim p q).bind sem xs).toOption.map _ =
                (((callDecode D sem calls n).prim p q').bind sem xs).toOption.map _
              rw [callDecode_prim h n p q q' g g' hs])
            k2.parts.2.2 k3.parts.2.2 [] xs
        have hu : unary ((callDecode D sem calls n).meaning sem) j = unary ((callDecode D sem calls n).meaning sem) j' := by
          funext a
          unfold unary
          rw [hev]
        have hi : j.invars.length = j'.invars.length ∧ j.outvars.length = j'.outvars.length := by
          rcases j with ⟨c, i, o, e⟩
          obtain ⟨ρ, -, h2, h3, -⟩ := k1
          refine ⟨?_, h3.length_eq⟩
          show i.length = _
          have := congrArg List.length h2
          simpa using this
        simp only [hi.1, hi.2, hu, hev]

/-- **C85 (calls).** The meaning of the equations, as the interpreter of `taylor_bounds` sees them, respects the
comparison of parameters. -/
theorem callDecode_respects {D : Decode C P K} {sem : Sem K} {calls : String → Option String} (h : DecodeCallsOk D calls)
    (n : ℕ) : ((callDecode D sem calls n).meaning sem).RespectsOn paramsDeepOk := by
  intro p q q' g g' hs
  funext xs
  show (((callDecode D sem calls n).prim p q).bind sem xs).toOption.map _ =
    (((callDecode D sem calls n).prim p q').bind sem xs).toOption.map _
  rw [callDecode_prim h n p q q' g g' hs]

variable [LinearOrder K] [IsStrictOrderedRing K]

/-- **C85 (pipeline).** Programs with nested calls of `jit`-ed functions, read by evaluating the Jaxprs of the
functions, and rules that replace patterns of one equation (a call of `jit`) by primitives that compute the same
functions.  If `taylor_bounds` returns bounds and the rewritten Jaxpr fits (`ProgramFits`), the bounds hold for the
function `f`: the value `y` of its Jaxpr, as it was before rewriting, at every `x` in the trust region. -/
theorem C85_pipeline {lib : Lib K} {sem : Sem K} (hlib : LibSound lib sem) {D : Decode C P K}
    {calls : String → Option String} (hcalls : DecodeCallsOk D calls) (n : ℕ)
    {rules : List (PRule C P)} (hrules : ∀ r ∈ rules, r.Ok ((callDecode D sem calls n).meaning sem))
    (hsingle : ∀ r ∈ rules, ∃ e, r.pattern.eqns = [e] ∧ e.outvars = [r.po])
    (hdeep : ∀ r ∈ rules, r.pattern.DeepOk ∧ paramsDeepOk r.params)
    {fresh : ℕ} {subject : JE.Jaxpr C P} {consts : List (ND K)} (hsub : SubjectOk subject consts)
    (hsd : subject.DeepOk)
    {maxDegree : ℤ} {propagate : Bool} {x0 lo hi x y0 y : ND K} {bnd : Bounds K}
    (hlh : lo.shape = hi.shape) (h0 : (Coef.ivl lo hi).Contains x0) (hx : (Coef.ivl lo hi).Contains x)
    (hb : taylorBoundsOf lib (callDecode D sem calls n) fresh (rules.map PRule.pair) subject consts maxDegree propagate
      x0 lo hi = some (.ok bnd))
    (hfit : ∀ j', rewriteJaxpr fresh (rules.map PRule.pair) subject = some (.ok j') →
      ProgramFits sem ((callDecode D sem calls n).jaxpr j') consts x0 ∧
      ∀ x vals, (Coef.ivl lo hi).Contains x → evalEnv sem ((callDecode D sem calls n).jaxpr j') consts x = .ok vals →
        NonEmptyVals vals)
    (hy0 : evalJaxpr sem ((callDecode D sem calls n).jaxpr subject) consts x0 = .ok y0)
    (hy : evalJaxpr sem ((callDecode D sem calls n).jaxpr subject) consts x = .ok y) :
    ∃ l u, bnd.lower x = .ok l ∧ bnd.upper x = .ok u ∧ l.shape = y.shape ∧ u.shape = y.shape ∧
      ∀ I, ValidIdx y.shape I → l.get I ≤ y.get I ∧ y.get I ≤ u.get I :=
  pipeline_on hlib (callDecode_respects hcalls n) hrules hsub
    (fun r hr => ⟨(hdeep r hr).1.parts.2.2, (hdeep r hr).2⟩) hsd.parts.2.2
    (C56_single fresh hrules hsingle hsub.ssa hsub.counts hsub.drops
      (JE.noSelfReads_of hsub.counts hsub.ssa hsub.wellScoped)) hlh h0 hx hb hfit hy0 hy

end JB
end AB
