/-
C40, C41 and C51, concretely: instances of their hypotheses, and what goes wrong without them.
-/
import Verif.Props.JaxprReplace
import Verif.Props.Jaxpr
import Mathlib.Tactic.Common
import Mathlib.Tactic.NormNum

set_option linter.unusedSimpArgs false

namespace AB
namespace JE
namespace Ex

abbrev f32 : Aval := ⟨"float32", []⟩

/-- Integer arithmetic; `sqneg` computes the square of `-x`, `two` returns two values. -/
def M : Meaning ℤ ℕ ℤ where
  lit := id
  prim := fun name _ xs => match xs with
    | [a] => if name = "neg" then some [-a] else if name = "sqneg" then some [a * a]
        else if name = "two" then some [-a, a + 7] else none
    | [a, b] => if name = "add" then some [a + b] else if name = "mul" then some [a * b] else none
    | _ => none

theorem respects : M.Respects := fun _ _ _ _ => rfl

abbrev px : Var := ⟨0, 0, f32⟩
abbrev pt : Var := ⟨1, 1, f32⟩
abbrev po : Var := ⟨2, 2, f32⟩
/-- `lambda x: (-x) * (-x)` -/
abbrev pat : Jaxpr ℤ ℕ := .mk [] [px] [.var po]
  [.mk "neg" [.var px] [pt] [("weak_type", .other 3)], .mk "mul" [.var pt, .var pt] [po] []]

abbrev x : Var := ⟨10, 0, f32⟩
abbrev y : Var := ⟨11, 1, f32⟩
abbrev a : Var := ⟨12, 2, f32⟩
abbrev b : Var := ⟨13, 3, f32⟩
abbrev c : Var := ⟨14, 4, f32⟩
abbrev d : Var := ⟨15, 5, f32⟩
/-- `lambda x, y: (-(x + y)) * (-(x + y)) + 1` -/
abbrev subj : Jaxpr ℤ ℕ := .mk [] [x, y] [.var d]
  [.mk "add" [.var x, .var y] [a] [], .mk "neg" [.var a] [b] [("weak_type", .other 5)],
    .mk "mul" [.var b, .var b] [c] [], .mk "add" [.var c, .lit ⟨1, f32⟩] [d] []]

/-- An instance of the hypotheses of C51: the rule... -/
theorem rule : PrimitiveRule M pat px po "sqneg" [] where
  consts := rfl
  input := rfl
  output := rfl
  ssa := by unfold Jaxpr.SSA; decide
  wellScoped := by
    refine ⟨?_, ?_, ?_⟩ <;> first | decide | (unfold Scoped; decide)
  counts := by unfold Jaxpr.CountsIdentify; decide
  used := ⟨_, List.mem_cons_self, List.mem_cons_self⟩
  computed := ⟨_, List.mem_cons_of_mem _ List.mem_cons_self, List.mem_cons_self⟩
  same := by
    intro v ys h
    simp [M, Meaning.eval, Meaning.step, Meaning.read, pat, Jaxpr.constvars, Jaxpr.invars, Jaxpr.eqns, Jaxpr.outvars,
      Eqn.invars, Eqn.outvars, Eqn.primitive, Eqn.params, GE.assign] at h ⊢
    exact h

theorem cons_of_split {β : Type} {A occ B : List β} {l : List β} {p q : β} (h : l = A ++ occ ++ B)
    (ho : occ = [p, q]) : l.drop A.length = p :: q :: B := by
  subst ho
  rw [h, List.append_assoc, List.drop_left]; rfl

/-- ... and the subject, where it occurs once. -/
theorem occurrences : OccurrencesClosed pat subj px po := by
  intro A occ B m h hm
  -- an occurrence has two operations
  obtain ⟨p, q, rfl⟩ : ∃ p q, occ = [p, q] := by
    have h1 := hm.same.length_eq
    match occ, h1 with
    | [p, q], _ => exact ⟨p, q, rfl⟩
  have hd := cons_of_split h rfl
  have h1 : eqDataEq (⟨"neg", [("weak_type", .other 3)]⟩ : EqnData ℤ ℕ) p.data = true ∧
      [varVertex 0 px].map m = p.inputs ∧ [varVertex 0 pt].map m = p.outputs := by
    have := hm.same
    cases this with | cons k1 _ => exact k1
  have h2 : eqDataEq (⟨"mul", []⟩ : EqnData ℤ ℕ) q.data = true ∧
      [varVertex 0 pt, varVertex 0 pt].map m = q.inputs ∧ [varVertex 0 po].map m = q.outputs := by
    have := hm.same
    cases this with | cons _ k2 => cases k2 with | cons k2 _ => exact k2
  have hlen : A.length ≤ 2 := by
    have := congrArg List.length h
    simp [jaxprToGraph, Jaxpr.eqns] at this
    omega
  have e0 : eqDataEq (⟨"neg", [("weak_type", .other 3)]⟩ : EqnData ℤ ℕ) ⟨"add", []⟩ = false := by decide +kernel
  have e2 : eqDataEq (⟨"neg", [("weak_type", .other 3)]⟩ : EqnData ℤ ℕ) ⟨"mul", []⟩ = false := by decide +kernel
  generalize A.length = n at hlen hd
  match n, hlen with
  | 0, _ =>
    cases hd
    exact absurd (e0.symm.trans h1.1) (by simp)
  | 2, _ =>
    cases hd
    exact absurd (e2.symm.trans h1.1) (by simp)
  | 1, _ =>
    cases hd
    have mt : m (varVertex 0 pt) = varVertex 0 b := by
      have := h1.2.2
      simpa [eqnOp, Eqn.outvars] using this
    have mx : m (varVertex 0 px) = varVertex 0 a := by
      have := h1.2.1
      simpa [eqnOp, Eqn.invars, atomVertex] using this
    refine ⟨?_, ?_⟩
    · intro e he v hv hne
      have hv : v = pt := by
        simp only [pat, Jaxpr.eqns, List.mem_cons, List.not_mem_nil, or_false] at he
        rcases he with rfl | rfl
        · simpa [Eqn.outvars] using hv
        · exact absurd (by simpa [Eqn.outvars] using hv) hne
      subst hv
      rw [mt]
      refine ⟨?_, by decide⟩
      rintro ⟨o, ho, hu⟩
      rw [List.map_singleton, List.mem_singleton] at ho
      subst ho
      exact absurd hu (by decide)
    · rw [mx]
      rintro ⟨o, ho, hu⟩
      simp only [List.mem_cons, List.not_mem_nil, or_false] at ho
      rcases ho with rfl | rfl <;> exact absurd hu (by decide)

/-- C51 on this rule and subject. -/
theorem C51_instance : ∃ j', replace pat (primitiveJaxpr ⟨20, 0, f32⟩ ⟨21, 1, f32⟩ "sqneg" []) subj 100 5 = some (.ok j') ∧
    ∀ consts xs ys, M.eval subj consts xs = some ys → M.eval j' consts xs = some ys :=
  C51_primitive_rule respects rule (by decide) (by unfold Jaxpr.SSA; decide) (by unfold Jaxpr.CountsIdentify; decide)
    occurrences 100

/-- the primitives of a Jaxpr -/
def prims (j : Jaxpr ℤ ℕ) : List String := j.eqns.map Eqn.primitive

/-- the primitives and the value computed by the result of `replace` -/
def outcome (r : Option (Py (Jaxpr ℤ ℕ))) (xs : List ℤ) : Option (List String × Option (List ℤ)) :=
  match r with
  | some (.ok j) => some (prims j, M.eval j [] xs)
  | _ => none

/-- The occurrence is replaced, and the function is the same. -/
theorem C51_instance_replaced :
    outcome (replace pat (primitiveJaxpr ⟨20, 0, f32⟩ ⟨21, 1, f32⟩ "sqneg" []) subj 100 5) [2, 3] =
      some (["add", "sqneg", "add"], some [26]) ∧ M.eval subj [] [2, 3] = some [26] := by
  decide +kernel

/-- A subject that uses the intermediate result `b = -a` again after the occurrence: the result of `replace`
reads a variable that is not computed, so C51's condition on the occurrences is needed. -/
abbrev subj2 : Jaxpr ℤ ℕ := .mk [] [x, y] [.var d]
  [.mk "add" [.var x, .var y] [a] [], .mk "neg" [.var a] [b] [("weak_type", .other 5)],
    .mk "mul" [.var b, .var b] [c] [], .mk "add" [.var c, .var b] [d] []]

theorem C51_intermediate_counterexample :
    outcome (replace pat (primitiveJaxpr ⟨20, 0, f32⟩ ⟨21, 1, f32⟩ "sqneg" []) subj2 100 5) [2, 3] =
      some (["add", "sqneg", "add"], none) ∧ M.eval subj2 [] [2, 3] = some [20] := by
  decide +kernel

/-- A rule whose replacement drops a result: the `DropVar` has count -1, so after adding the offset, which is
the largest count of the pattern plus one, it is the pattern's variable with the largest count — here its
output, which then is overwritten by the dropped result.  `-x` and the first result of `two x` are equal,
but the rewritten program computes `x + 7`. -/
abbrev negPat : Jaxpr ℤ ℕ := .mk [] [px] [.var pt] [.mk "neg" [.var px] [pt] []]
abbrev twoRep : Jaxpr ℤ ℕ := .mk [] [px] [.var pt] [.mk "two" [.var px] [pt, ⟨3, -1, f32⟩] []]
abbrev negSubj : Jaxpr ℤ ℕ := .mk [] [x] [.var y] [.mk "neg" [.var x] [y] []]

theorem C51_dropvar_counterexample :
    (∀ v : ℤ, M.eval negPat [] [v] = some [-v] ∧ M.eval twoRep [] [v] = some [-v]) ∧
    M.eval negSubj [] [5] = some [-5] ∧
    outcome (replace negPat twoRep negSubj 100 5) [5] = some (["two"], some [12]) := by
  refine ⟨fun v => ⟨?_, ?_⟩, by decide +kernel, by decide +kernel⟩ <;>
  simp [M, Meaning.eval, Meaning.step, Meaning.read, Jaxpr.constvars, Jaxpr.invars, Jaxpr.eqns, Jaxpr.outvars,
      Eqn.invars, Eqn.outvars, Eqn.primitive, Eqn.params, GE.assign, px, pt]

/-! ### C40 -/

/-- An instance of the hypotheses of C40: the subject above has parameter dicts with distinct keys, and its
counts identify its variables. -/
theorem C40_instance : subj.DictsOk ∧ subj.CountsIdentify ∧
    ∃ j', graphToJaxpr 100 (jaxprToGraph subj) = .ok j' ∧ sameJaxpr false subj j' = .ok true := by
  have h1 : subj.DictsOk := by
    simp [Jaxpr.DictsOk, eqnsDictsOk, paramsDictsOk, Param.DictsOk, keysNodup]
  have h2 : subj.CountsIdentify := by unfold Jaxpr.CountsIdentify; decide
  obtain ⟨j', q1, q2, -⟩ := C40_same_jaxpr subj h1 100 h2
  exact ⟨h1, h2, j', q1, q2⟩

/-- The avals of the results of the equations of a Jaxpr. -/
def outAvals (j : Py (Jaxpr ℤ ℕ)) : Option (List Aval) :=
  match j with
  | .ok j => some (j.eqns.flatMap fun e => e.outvars.map Var.aval)
  | .error _ => none

/-- Two `DropVar`s of different shapes have the same count, and become one variable: the round trip changes
the shape of the second one, and `_same_jaxpr_up_to_variable_renaming` rejects the result. -/
abbrev drops : Jaxpr ℤ ℕ := .mk [] [x] [.var x] [.mk "two" [.var x] [⟨1, -1, f32⟩, ⟨2, -1, ⟨"float32", [3]⟩⟩] []]

theorem C40_dropvar_counterexample :
    outAvals (.ok drops) = some [⟨"float32", []⟩, ⟨"float32", [3]⟩] ∧
    outAvals (graphToJaxpr 100 (jaxprToGraph drops)) = some [⟨"float32", []⟩, ⟨"float32", []⟩] ∧
    (graphToJaxpr 100 (jaxprToGraph drops)).bind (sameJaxpr false drops) = .ok false := by
  decide +kernel

/-! ### C41 -/

/-- C41 on a Jaxpr and a renamed copy of it; a Jaxpr with another operation is rejected. -/
abbrev subj' : Jaxpr ℤ ℕ := .mk [] [px, po] [.var y]
  [.mk "add" [.var px, .var po] [pt] [], .mk "neg" [.var pt] [a] [("weak_type", .other 9)],
    .mk "mul" [.var a, .var a] [c] [], .mk "add" [.var c, .lit ⟨1, ⟨"int32", []⟩⟩] [y] []]

theorem C41_instance : sameJaxpr false subj subj' = .ok true ∧ subj.WellScoped ∧ subj'.SSA ∧
    sameJaxpr false subj subj2 = .ok false := by
  refine ⟨by decide +kernel, ?_, by unfold Jaxpr.SSA; decide, by decide +kernel⟩
  refine ⟨?_, ?_, ?_, ?_, ?_⟩ <;> first | decide | (unfold Scoped; decide)

/-- Two calls of `jit` with closed Jaxprs that differ only in the value of a constant, and two calls with
different Python functions, are the same for `_same_jaxpr_up_to_variable_renaming`: a meaning of primitives
that depends on these (as in JAX) does not satisfy `Respects`, and the functions differ. -/
abbrev call (p : Param ℤ ℕ) : Jaxpr ℤ ℕ := .mk [] [x] [.var y] [.mk "jit" [.var x] [y] [("jaxpr", p)]]
abbrev body : Jaxpr ℤ ℕ := .mk [px] [pt] [.var po] [.mk "add" [.var px, .var pt] [po] []]

/-- `jit` evaluates its closed Jaxpr; for a Python function number `n`, it adds `n`. -/
def Mj : Meaning ℤ ℕ ℤ where
  lit := id
  prim := fun name q xs => match name, q with
    | "jit", [(_, .closedJaxpr j cs)] => M.eval j (cs.map Int.ofNat) xs
    | "jit", [(_, .function n)] => some (xs.map (· + n))
    | _, _ => none

theorem C41_consts_counterexample :
    sameJaxpr false (call (.closedJaxpr body [1])) (call (.closedJaxpr body [2])) = .ok true ∧
    Mj.eval (call (.closedJaxpr body [1])) [] [5] = some [6] ∧
    Mj.eval (call (.closedJaxpr body [2])) [] [5] = some [7] := by
  decide +kernel

theorem C41_function_counterexample :
    sameJaxpr false (call (.function 1)) (call (.function 2)) = .ok true ∧
    Mj.eval (call (.function 1)) [] [5] = some [6] ∧ Mj.eval (call (.function 2)) [] [5] = some [7] := by
  decide +kernel

end Ex
end JE
end AB
