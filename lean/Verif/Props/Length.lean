/-
C52 (number of coefficients): a lower bound that can be read off the program.
-/
import Verif.Proofs.Length
import Verif.Props.Form
import Verif.Props.TotalStatic

set_option linter.unusedSectionVars false

namespace AB
variable {K : Type} [Field K] [LinearOrder K] [IsStrictOrderedRing K]
namespace JB
open TEA
variable {lib : Lib K} {T T0 : TEA K} {len : ℤ → ℕ}

/-- the certificate holds -/
def EnvTerms (len : ℤ → ℕ) (env : Env K) : Prop := ∀ v i, env.lookup v = some i → len v ≤ max 1 i.encl.length

theorem terms_getInter {md : ℕ} {xs : List ℕ} {env : Env K} (hF : EnvForm md xs env) (h : EnvTerms len env) {a : Atom K}
    {i : Inter K} (hg : getInter env a = .ok i) : a.terms len ≤ i.encl.length ∧ i.encl.length ≤ md + 1 := by
  have hf := getInter_form hF hg
  have := List.length_pos_iff.2 hf.1
  refine ⟨?_, hf.2.1⟩
  cases a with
  | lit b => exact this
  | var v =>
    unfold getInter at hg
    cases hl : env.lookup v with
    | none => simp only [hl] at hg; cases hg
    | some j =>
      simp only [hl] at hg
      cases hg
      have := h v _ hl
      show len v ≤ _
      omega

theorem terms_step (hfull : LibFull lib) (hT : 1 ≤ T.maxDegree) {propagate : Bool} {xs : List ℕ} {env env' : Env K}
    {eqn : Eqn K} (hF : EnvForm T.maxDegree xs env) (h : EnvTerms len env)
    (hop : (∀ o ∈ eqn.outvars, len o ≤ 1) ∨ TermsOp T.maxDegree len eqn.prim eqn.invars eqn.outvars)
    (hs : step lib T T0 propagate xs env eqn = .ok env') : EnvTerms len env' := by
  simp only [step, py_bind_ok] at hs
  obtain ⟨ins, hins, outs, houts, hs⟩ := hs
  by_cases hlen : outs.length ≠ eqn.outvars.length
  · rw [if_pos hlen] at hs; cases hs
  rw [if_neg hlen] at hs
  refine stores_pred (P := fun v i => len v ≤ max 1 i.encl.length) h ?_ hs
  intro x hx _
  by_cases h1 : len x.1 ≤ 1
  · omega
  replace hop := hop.resolve_left fun g => h1 (g _ (List.of_mem_zip hx).1)
  have hins' : List.Forall₂ (fun a i => Atom.terms len a ≤ i.encl.length ∧ i.encl.length ≤ T.maxDegree + 1) eqn.invars ins :=
    (Poly.mapM_ok hins).imp fun a i hi => terms_getInter hF h hi
  obtain ⟨a, ha, hla⟩ := terms_live hop ⟨x.1, (List.of_mem_zip hx).1, by omega⟩
  have hnc : ins.mapM Inter.constantValue = none := by
    obtain ⟨k, hk⟩ := List.mem_iff_getElem?.1 ha
    obtain ⟨i, hi, hi'⟩ := (Poly.forall₂_getElem? hins' k).2 a hk
    have hc : i.constantValue = none := by
      unfold Inter.constantValue
      rcases he : i.encl with _ | ⟨c, _ | ⟨d, l⟩⟩
      · rfl
      · rw [he] at hi'
        simp at hi'
        omega
      · cases c <;> rfl
    have hmem := List.mem_of_getElem? hi
    clear hi hx hs houts hins hins' hlen
    induction ins with
    | nil => exact absurd hmem List.not_mem_nil
    | cons j ins ih =>
      rw [List.mapM_cons]
      rcases List.mem_cons.1 hmem with rfl | hm
      · rw [hc]; rfl
      · cases j.constantValue with
        | none => rfl
        | some u => rw [ih hm]; rfl
  unfold eqnOutputs at houts
  rw [hnc] at houts
  cases hf : pushforward lib T eqn.prim with
  | none => simp only [hf] at houts; cases houts
  | some f =>
    simp only [hf, py_bind_ok] at houts
    obtain ⟨e, he, houts⟩ := houts
    obtain ⟨o, ho, hle⟩ := push_terms hfull hT hop hins' hf he
    have hout : ∀ q ∈ outs, q.encl = e := by
      split_ifs at houts with g1 g2
      · simp only [py_bind_ok, py_pure] at houts
        obtain ⟨r, -, rfl⟩ := houts
        intro q hq
        rw [List.mem_singleton] at hq
        subst hq
        rfl
      · cases houts
        intro q hq
        rw [List.mem_singleton] at hq
        subst hq
        rfl
    rw [hout _ (List.of_mem_zip hx).2]
    have : x.1 = o := by
      have := (List.of_mem_zip hx).1
      rw [ho] at this
      exact List.mem_singleton.1 this
    rw [this]
    exact hle

/-- **C52 (number of coefficients).** With tables of generators that return full enclosures, for `max_degree ≥ 1`: if
`len` is a certificate of lower bounds for the program, then `taylor_bounds` returns at least `len o` coefficients for
the output variable `o`. -/
theorem C52_number_of_coefficients (hfull : LibFull lib) {jaxpr : Jaxpr K} {consts : List (ND K)} {maxDegree : ℤ}
    (hmd : 1 ≤ maxDegree) {propagate : Bool} {x0 lo hi : ND K} {bnd : Bounds K} {o : ℤ}
    (hcert : TermsProgram maxDegree.toNat len jaxpr) (hout : jaxpr.outvars = [.var o])
    (hb : taylorBounds lib jaxpr consts maxDegree propagate x0 lo hi = .ok bnd) : len o ≤ bnd.coefficients.length := by
  simp only [taylorBounds, py_bind_ok] at hb
  obtain ⟨env', he, hb⟩ := hb
  obtain ⟨-, tlo, thi, T, T0, env, ht, hT, hT0, henv, hrun⟩ := taylorEnv_inv he
  have hTd : T.maxDegree = maxDegree.toNat := by
    unfold TEA.init at hT
    split_ifs at hT
    cases hT; rfl
  have h0 : EnvForm T.maxDegree x0.shape env := by rw [hTd]; exact init_form henv
  have h1 : EnvTerms len env := by
    obtain ⟨identity, v, hid, hcl, hv, rfl⟩ := initEnv_inv henv
    intro w i hw
    rw [List.lookup_cons] at hw
    by_cases hwv : (w == v) = true
    · rw [hwv] at hw
      cases hw
      rw [if_pos (by omega : maxDegree.toNat > 0)]
      have := hcert.1 w (by rw [hv, beq_iff_eq.1 hwv]; exact List.mem_singleton_self _)
      simp
      exact this
    · have hwv : (w == v) = false := by simpa using hwv
      rw [hwv] at hw
      have := hcert.2.1 w (List.of_mem_zip (mem_of_lookup hw)).1
      omega
  have key : ∀ (eqns : List (Eqn K)) (env env' : Env K), (∀ eqn ∈ eqns, (∀ o ∈ eqn.outvars, len o ≤ 1) ∨
      TermsOp T.maxDegree len eqn.prim eqn.invars eqn.outvars) → EnvForm T.maxDegree x0.shape env → EnvTerms len env →
      eqns.foldlM (step lib T T0 (propagate && (maxDegree != 0)) x0.shape) env = .ok env' →
      EnvForm T.maxDegree x0.shape env' ∧ EnvTerms len env' := by
    intro eqns
    induction eqns with
    | nil => intro env env' _ h h' hs; cases hs; exact ⟨h, h'⟩
    | cons q l ih =>
      intro env env' hq h h' hs
      rw [List.foldlM_cons, py_bind_ok] at hs
      obtain ⟨env1, e1, e2⟩ := hs
      exact ih env1 env' (fun e he => hq e (List.mem_cons_of_mem _ he)) (step_form h e1)
        (terms_step hfull (by omega) h h' (hq q (List.mem_cons_self ..)) e1) e2
  obtain ⟨hE, hE'⟩ := key _ _ _ (by rw [hTd]; exact hcert.2.2) h0 h1 hrun
  rw [hout] at hb
  simp only [py_bind_ok, py_pure] at hb
  obtain ⟨out, ho, rfl⟩ := hb
  exact (terms_getInter hE hE' ho).1

end JB
end AB
