/-
Concrete cases of C57.
-/
import Verif.Props.EnclTotal
import Verif.Props.RegisterEx

set_option linter.unusedSectionVars false

namespace AB
open JB (squareGen squareGen_sound GenReturns Labels)
open PE

/-- C57 (outer_product): a batch axis of length 2 (broadcast against 1) -/
example : (Coef.ivl (ND.mk' [2, 2] [(1 : ℚ), 2, 3, 4]) (ND.mk' [2, 2] [2, 2, 3, 5])).SameShape ∧
    ∃ r, IA.outerProduct (Coef.ivl (ND.mk' [2, 2] [(1 : ℚ), 2, 3, 4]) (ND.mk' [2, 2] [2, 2, 3, 5]))
      (.arr (ND.mk' [1, 3] [(1 : ℚ), 0, -1])) 1 = .ok r ∧ r.shape = [2, 2, 3] := by
  refine ⟨by decide +kernel, ?_⟩
  obtain ⟨r, hr⟩ := (C57_outer_product (A := Coef.ivl (ND.mk' [2, 2] [(1 : ℚ), 2, 3, 4]) (ND.mk' [2, 2] [2, 2, 3, 5]))
    (B := .arr (ND.mk' [1, 3] [(1 : ℚ), 0, -1])) (by decide +kernel) (by decide +kernel) 1).2
    ⟨by decide, by decide, Or.inr (by decide), [2], by decide +kernel⟩
  refine ⟨r, hr, ?_⟩
  cases hr
  rfl

/-- C57 (outer_power): the outer square over the last axis -/
example : ∃ r, IA.outerPower (Coef.ivl (ND.mk' [2, 2] [(1 : ℚ), 2, 3, 4]) (ND.mk' [2, 2] [2, 2, 3, 5])) (2 : ℕ) 1 = .ok r :=
  C57_outer_power (by decide +kernel) (by decide) 2 (Or.inr (by decide))

/-- without enough letters `outer_product` raises -/
example : ¬ ∃ r, IA.outerProduct (.arr (⟨List.replicate 14 1, fun _ => 0⟩ : ND ℚ)) (.arr ⟨List.replicate 14 1, fun _ => 0⟩) 1 = .ok r := by
  rw [C57_outer_product (by decide +kernel) (by decide +kernel)]
  rintro ⟨-, -, h | h, -⟩
  · exact absurd h (by decide)
  · exact absurd h (by decide)

namespace TEA

theorem genReturns_of {K : Type} [Field K] [LinearOrder K] {T : TEA K} {g : Generator K} {arg : Encl K}
    {tr : Option (Coef K)} {r c : Coef K}
    {x0 : ND K} (hr : T.argRegion arg tr = .ok r) (hc : arg[0]? = some c)
    (hx : T.expansionPoint c = .ok x0) (hg : (g x0 (toInterval r) T.maxDegree).toOption.isSome = true) :
    GenReturns T g arg tr := by
  intro r' c' x0' h1 h2 h3
  rw [hr] at h1; cases h1
  rw [hc] at h2; cases h2
  rw [hx] at h3; cases h3
  cases he : g x0 (toInterval r) T.maxDegree with
  | ok e => exact ⟨e, rfl⟩
  | error e => rw [he] at hg; cases hg

/-- C57 (multiply, power, compose): the enclosures of C18-C21 -/
example : ∃ T : TEA ℚ, TEA.init 1 exLo exHi = .ok T ∧
    (∃ y c, ND.map2 (· * ·) (ND.scalar (7/2)) (ND.mk' [3] [5/4, 3, (3/2 : ℚ)]) = .ok y ∧
      T.multiply exE exF = .ok c ∧ Encloses c exZ y ∧ c.length = 2) ∧
    ∃ c, T.powerNat exF 3 = .ok c ∧ Encloses c exZ ((ND.mk' [3] [5/4, 3, 3/2]).map (· ^ 3)) ∧ c.length = 2 := by
  refine ⟨⟨1, exLo, exHi⟩, rfl, ?_, ?_⟩
  · obtain ⟨c, hc, h1, -, h3⟩ := C57_multiply (T := ⟨1, exLo, exHi⟩) (md := 1) (lo := exLo) (hi := exHi) rfl (z := exZ)
      (by decide +kernel) (a := exE) (b := exF) (by decide +kernel) (by decide +kernel) (by simp [exE]) (by simp [exF])
      (y1 := ND.scalar (7/2)) (y2 := ND.mk' [3] [5/4, 3, (3/2 : ℚ)]) (by decide +kernel) (by decide +kernel) rfl
      ⟨[0], .cons (by norm_num) .nil⟩
    exact ⟨_, c, rfl, hc, h1, h3⟩
  · obtain ⟨c, hc, h1, -, h3⟩ := C57_power (T := ⟨1, exLo, exHi⟩) (md := 1) (lo := exLo) (hi := exHi) rfl (z := exZ)
      (by decide +kernel) (a := exF) (by decide +kernel) (by simp [exF]) 3
      (y := ND.mk' [3] [5/4, 3, (3/2 : ℚ)]) (by decide +kernel) ⟨[0], .cons (by norm_num) .nil⟩ (Or.inr (by decide))
    exact ⟨c, hc, h1, h3⟩

/-- C57 (arbitrary_bilinear): the batched dot product -/
example : ∃ c, (⟨1, exLo, exHi⟩ : TEA ℚ).arbitraryBilinear exG exG exDot = .ok c ∧ c.length = 2 := by
  obtain ⟨c, hc, -, -, -, h⟩ := C57_arbitrary_bilinear (T := ⟨1, exLo, exHi⟩) (md := 1) (lo := exLo) (hi := exHi) rfl
    (z := exZ) (by decide +kernel) (a := exG) (b := exG) (pbb := exDot) (by decide +kernel) (by decide +kernel)
    (by simp [exG]) (by simp [exG]) (y1 := ND.mk' [2] [5/4, 3]) (y2 := ND.mk' [2] [5/4, 3]) exDot_contract
    (by intro L _ t ht; simp at ht; rcases ht with rfl | rfl <;> simp)
    (fun i j u v _ _ _ _ _ => ⟨_, rfl⟩) (by decide +kernel) (by decide +kernel) (by decide +kernel) (by decide +kernel)
    rfl ⟨[], .nil⟩
  exact ⟨c, hc, h⟩

/-- C57 (get_elementwise_fun): `x²` by a user-written generator -/
example : ∃ c, (⟨1, exLo, exHi⟩ : TEA ℚ).elementwiseFun squareGen exG = .ok c ∧
    Encloses c exZ ((ND.mk' [2] [5/4, 3]).map (· ^ 2)) := by
  obtain ⟨c, hc, h, -⟩ := C57_elementwise (T := ⟨1, exLo, exHi⟩) (md := 1) (lo := exLo) (hi := exHi) rfl
    (z := exZ) (by decide +kernel) squareGen_sound (arg := exG) (by decide +kernel) (by simp [exG])
    (y := ND.mk' [2] [5/4, 3]) (by decide +kernel) (by decide +kernel) ⟨[0], .cons (by norm_num) .nil⟩ (by decide +kernel)
    (by intro a0 h; simp [exG] at h; subst h; exact Or.inl trivial) (fun _ _ _ _ _ _ => trivial)
    (genReturns_of rfl rfl rfl (by decide +kernel)) (Or.inr (by decide))
  exact ⟨c, hc, h⟩

/-- A generator for `1/x` on positive regions, for degree 1: `1/x - 1/x0 = -1/(x x0) (x - x0)`. -/
def recipGen : Generator ℚ :=
  liftGen (fun _ x => .ok [x⁻¹]) (fun x0 a b d =>
    if d = 1 ∧ 0 < a then .ok ([x0⁻¹], (-(a * x0)⁻¹, -(b * x0)⁻¹)) else .error .notImplemented)

theorem recipGen_sound : SoundGenerator (fun x : ℚ => x⁻¹) (fun _ => True) recipGen := by
  have h : ScalarSound (fun x : ℚ => x⁻¹) (fun _ x => .ok [x⁻¹])
      (fun x0 a b d => if d = 1 ∧ 0 < a then .ok ([x0⁻¹], (-(a * x0)⁻¹, -(b * x0)⁻¹)) else .error .notImplemented)
      (fun _ _ _ _ => True) := by
    intro x0 a b d s ha hb _ hs
    simp only at hs
    by_cases hd : d = 1 ∧ 0 < a
    · rw [if_pos hd] at hs
      obtain ⟨rfl, h0⟩ := hd
      cases hs
      have hx0 : 0 < x0 := lt_of_lt_of_le h0 ha
      have anti : ∀ u v : ℚ, 0 < u → u ≤ v → -(u * x0)⁻¹ ≤ -(v * x0)⁻¹ := by
        intro u v hu huv
        rw [neg_le_neg_iff]
        exact inv_anti₀ (mul_pos hu hx0) (mul_le_mul_of_nonneg_right huv hx0.le)
      refine ⟨rfl, anti a b h0 (ha.trans hb), ?_, [x0⁻¹], rfl, ?_⟩
      · intro x hx1 hx2
        have hx : 0 < x := lt_of_lt_of_le h0 hx1
        refine ⟨-(x * x0)⁻¹, anti a x h0 hx1, anti x b hx hx2, ?_⟩
        simp
        field_simp
        ring
      · intro i hi
        obtain rfl : i = 0 := by omega
        rfl
    · rw [if_neg hd] at hs
      cases hs
  have := soundGenerator_lift h
  have e : guardGen (fun _ _ _ _ => True) recipGen = recipGen := by
    funext x0 tr d
    unfold guardGen
    rw [if_pos]
    intros
    trivial
  exact e ▸ this

/-- the enclosure of `6 + x_0 + x_1` -/
def exDen : Encl ℚ := [.arr (ND.scalar 6), .arr (ND.mk' [2] [1, 1])]

/-- C57 (divide) -/
example : ∃ c, (⟨1, exLo, exHi⟩ : TEA ℚ).divide recipGen exE exDen = .ok c ∧
    Encloses c exZ (ND.scalar (7/11)) := by
  have hy : ND.map2 (· / ·) (ND.scalar (7/2)) (ND.scalar (11/2 : ℚ)) = .ok ⟨[], fun L => (ND.scalar (7/2)).bget L / (ND.scalar (11/2 : ℚ)).bget L⟩ := rfl
  obtain ⟨c, hc, h, -⟩ := C57_divide (T := ⟨1, exLo, exHi⟩) (md := 1) (lo := exLo) (hi := exHi) rfl
    (z := exZ) (by decide +kernel) recipGen_sound (a := exE) (b := exDen) (by decide +kernel) (by decide +kernel)
    (by simp [exE]) (by simp [exDen]) (y1 := ND.scalar (7/2)) (y2 := ND.scalar (11/2)) (by decide +kernel)
    (by decide +kernel) (by decide +kernel) hy ⟨[], .nil⟩ (by decide +kernel)
    (by intro a0 h; simp [exDen] at h; subst h; exact Or.inl trivial) (fun _ _ _ _ _ _ => trivial)
    (genReturns_of rfl rfl rfl (by decide +kernel)) (Or.inl rfl)
  have e : (⟨[], fun L => (ND.scalar (7/2)).bget L / (ND.scalar (11/2 : ℚ)).bget L⟩ : ND ℚ) = ND.scalar (7/11) := by
    unfold ND.scalar
    congr 1
    funext L
    norm_num [ND.bget]
  exact ⟨c, hc, e ▸ h⟩

end TEA
end AB
