/-
C65: enclosures of the wrong shape are rejected by the arithmetic
(/repo/autobound/enclosure_arithmetic.py:57-77, 259-262, 297-314, 320-347, 358-363).
-/
import Verif.Props.Form

set_option linter.unusedSectionVars false

namespace AB
variable {K : Type} [Field K] [LinearOrder K] [IsStrictOrderedRing K]

/-- Some coefficient of `a`, say number `i`, does not have `i` copies of the axes `xs` of `x` at the end of its
shape, so that it cannot be contracted with `(x - x0)^i`. -/
def Malformed (xs : List ℕ) (a : Encl K) : Prop :=
  ∃ (i : ℕ) (c : Coef K), a[i]? = some c ∧ ¬ ∃ B, c.shape = B ++ (List.replicate i xs).flatten

namespace TEA

theorem validate_dec (t : TEA K) (a : Encl K) :
    (t.validate a = .ok () ∧ ¬ Malformed t.trLo.shape a) ∨
    (t.validate a = .error .valueError ∧ Malformed t.trLo.shape a) := by
  by_cases h : (Poly.enum a).all (fun p => coeffShapeOk t.xShape p.1 p.2) = true
  · refine Or.inl ⟨by unfold validate; rw [if_pos h], ?_⟩
    rintro ⟨i, c, hc, hn⟩
    exact hn (JB.shape_of_validate (xs := t.trLo.shape) (e := a)
      (by unfold JB.validateEnclosure; exact if_pos h) i c hc)
  · refine Or.inr ⟨by unfold validate; rw [if_neg h], ?_⟩
    rw [List.all_eq_true] at h
    push Not at h
    obtain ⟨⟨i, c⟩, hm, hc⟩ := h
    rw [List.mem_iff_getElem?] at hm
    obtain ⟨j, hj⟩ := hm
    rw [Poly.enum_getElem?] at hj
    cases hcj : a[j]? with
    | none => rw [hcj] at hj; cases hj
    | some d =>
      rw [hcj] at hj
      cases hj
      refine ⟨i, c, hcj, ?_⟩
      rintro ⟨B, hB⟩
      apply hc
      simp only [coeffShapeOk, beq_iff_eq, TEA.rep, Coef.ndim, hB, List.length_append, xShape]
      have e : ((List.replicate i t.trLo.shape).flatten).length = i * t.trLo.shape.length := by simp
      rw [e, Nat.add_sub_cancel, List.drop_left]

/-- **C65 (multiply).** A product with a malformed factor, on either side, raises `ValueError`. -/
theorem C65_multiply (t : TEA K) (a b : Encl K) (h : Malformed t.trLo.shape a ∨ Malformed t.trLo.shape b) :
    t.multiply a b = .error .valueError := by
  unfold multiply
  rcases validate_dec t a with ⟨ha, ha'⟩ | ⟨ha, -⟩
  · rw [ha, py_ok_bind]
    rcases validate_dec t b with ⟨hb, hb'⟩ | ⟨hb, -⟩
    · rcases h with h | h
      · exact absurd h ha'
      · exact absurd h hb'
    · rw [hb]; rfl
  · rw [ha]; rfl

/-- **C65 (power).** A power, with an integer or any other exponent, of a malformed enclosure raises `ValueError`. -/
theorem C65_power (t : TEA K) (a : Encl K) (h : Malformed t.trLo.shape a) :
    (∀ p, t.powerNat a p = .error .valueError) ∧ ∀ g, t.powerOther g a = .error .valueError := by
  rcases validate_dec t a with ⟨-, ha'⟩ | ⟨ha, -⟩
  · exact absurd h ha'
  · exact ⟨fun p => by unfold powerNat; rw [ha]; rfl, fun g => by unfold powerOther; rw [ha]; rfl⟩

/-- **C65 (divide).** A malformed divisor raises `ValueError`; with a malformed dividend nothing is returned. -/
theorem C65_divide (t : TEA K) (g : Generator K) (a b : Encl K) :
    (Malformed t.trLo.shape b → t.divide g a b = .error .valueError) ∧
    (Malformed t.trLo.shape a → ∀ c, t.divide g a b ≠ .ok c) := by
  refine ⟨fun h => ?_, fun h c hc => ?_⟩
  · unfold divide
    rw [(C65_power t b h).2 g]; rfl
  · unfold divide at hc
    rw [py_bind_ok] at hc
    obtain ⟨r, -, hr⟩ := hc
    rw [C65_multiply t a r (Or.inl h)] at hr
    cases hr

/-- **C65 (init).** The arithmetic of a trust region whose end points have different shapes cannot be created. -/
theorem C65_init (md : ℕ) (lo hi : ND K) (h : lo.shape ≠ hi.shape) : TEA.init md lo hi = .error .valueError := by
  unfold init; rw [if_pos h]

/-- a malformed enclosure: `x` has shape `[2]`, the linear coefficient has shape `[3]` -/
example : Malformed [2] ([.arr (ND.mk' [] [1]), .arr (ND.mk' [3] [1, 2, 3])] : Encl ℚ) := by
  refine ⟨1, _, rfl, ?_⟩
  rintro ⟨B, hB⟩
  have hB' : ([3] : List ℕ) = B ++ [2] := hB
  have := congrArg List.getLast? hB'
  simp at this

end TEA
end AB
