/-
Concrete cases of C69 and of the number of coefficients (C52).
-/
import Verif.Props.SafeTotal
import Verif.Props.Degree0
import Verif.Props.RegisterEx
import Verif.Props.TotalEx

set_option linter.unusedSectionVars false

namespace AB
namespace MLP
open JB NB PE TEA

/-- A user-written enclosure generator for the activation function `x²`, for degree 2 only. -/
def squareGen2 : TEA.Generator ℚ :=
  liftGen (fun _ x => .ok [x ^ 2, 2 * x])
    (fun x0 _ _ d => if d = 2 then .ok ([x0 ^ 2, 2 * x0], (1, 1)) else .error .notImplemented)

theorem squareGen2_sound : SoundGenerator (fun x : ℚ => x ^ 2) (fun _ => True) squareGen2 := by
  have h : ScalarSound (fun x : ℚ => x ^ 2) (fun _ x => .ok [x ^ 2, 2 * x])
      (fun x0 _ _ d => if d = 2 then .ok ([x0 ^ 2, 2 * x0], (1, 1)) else .error .notImplemented)
      (fun _ _ _ _ => True) := by
    intro x0 a b d s ha hb _ hs
    simp only at hs
    by_cases hd : d = 2
    · subst hd
      rw [if_pos rfl] at hs
      cases hs
      refine ⟨rfl, le_rfl, ?_, [x0 ^ 2, 2 * x0], rfl, ?_⟩
      · intro x hx1 hx2
        refine ⟨1, le_rfl, le_rfl, ?_⟩
        simp [Finset.sum_range_succ]
        ring
      · intro i hi
        rfl
    · rw [if_neg hd] at hs
      cases hs
  have := soundGenerator_lift h
  have e : guardGen (fun _ _ _ _ => True) squareGen2 = squareGen2 := by
    funext x0 tr d
    unfold guardGen
    rw [if_pos]
    intros
    trivial
  exact e ▸ this

def netLib : Lib ℚ := (polyLib : Lib ℚ).register "my_square" squareGen2

theorem netLib_sound : LibSound netLib mySem :=
  C54_register_sound polyLib_sound squareGen2_sound (keepsShape_lift _ _) fun _ h => by cases h

theorem netLib_gen {n : String} {g : TEA.Generator ℚ} (h : netLib.gen n = some g) : g = squareGen2 := by
  replace h : (if n = "my_square" then some squareGen2 else none) = some g := h
  split_ifs at h
  cases h
  rfl

theorem netLib_arr : LibArr netLib where
  gen n g h := by rw [netLib_gen h]; exact arrGen_lift _ _
  pow p := by
    intro _ _ _ _ h
    cases h

/-- Two examples with two entries; two hidden units with activation `my_square`, one output. -/
def exArch : Arch := [(2, some "my_square"), (1, none)]

theorem exArch_ok : NetOk exArch 2 2 := ⟨by decide, by decide, by decide, by decide⟩

theorem netLib_full : LibFull netLib where
  gen n g h := by rw [netLib_gen h]; exact full_lift _ _
  pow p := by
    intro _ _ _ _ h
    cases h

theorem exArch_usable : ActsUsable netLib 2 false exArch := by
  intro q hq name hn
  simp only [exArch, List.mem_cons, List.not_mem_nil, or_false] at hq
  rcases hq with rfl | rfl <;> cases hn
  refine ⟨squareGen2, rfl, ?_, fun h => by cases h⟩
  intro x0 lo hi hsh hR _
  have hR' : bshape x0.shape lo.shape = some x0.shape := bshape_eq_of_ble' (ble_iff_bshape.1 hR)
  unfold squareGen2 liftGen
  simp only [hR', if_true]
  obtain ⟨l, hl⟩ := Poly.mapM_total (f := fun I => (.ok ([x0.bget I ^ 2, 2 * x0.bget I], (1, 1)) : Py (SEncl ℚ)))
    (l := idx x0.shape) (fun I _ => ⟨_, rfl⟩)
  rw [hl]
  exact ⟨_, rfl⟩

/-- Data, initial parameters and an update direction. -/
def exX (i j : ℕ) : ℚ := if i = j then 1 else -1 / 2
def exY (i _ : ℕ) : ℚ := i
def exP : Params ℚ := fun l => (fun i j => (l + i + 2 * j : ℚ) / 4, fun j => (j : ℚ) - 1)
def exDir : Params ℚ → Params ℚ := fun p l => (fun i j => -(p l).1 i j, fun _ => 1 / 2)

/-- `C69_safe_learning_rate` and `C69_training_returns` for this network. -/
theorem C69_instance (k : ℕ) :
    (∃ eta, safeLearningRate netLib (mlpTraced exArch 2 2 exX exY) exP (exDir exP) 1 = .ok eta ∧ 0 ≤ eta ∧ eta ≤ 1 ∧
      mlpLoss mySem exArch 2 2 exX exY (exP + eta • exDir exP) ≤ mlpLoss mySem exArch 2 2 exX exY exP) ∧
    ∃ s, runOptimizer netLib (mlpTraced exArch 2 2 exX exY) exDir k (initState exP 1) = .ok s ∧
      mlpLoss mySem exArch 2 2 exX exY s.x ≤ mlpLoss mySem exArch 2 2 exX exY exP := by
  refine ⟨C69_safe_learning_rate netLib_sound netLib_arr netLib_full exArch_ok exArch_usable zero_le_one, ?_⟩
  obtain ⟨s0, h0, h⟩ := C69_training_returns (X := exX) (Y := exY) netLib_sound netLib_arr netLib_full exArch_ok
    exArch_usable exDir exP one_pos 0
  cases h0
  obtain ⟨s, hs, hle⟩ := h k
  rw [Nat.zero_add] at hs
  exact ⟨s, hs, hle⟩

/-- `C69_mlp_tables` for a network with two layers of softplus, and one with `exp` at degree 5. -/
theorem C69_tables_instance (X Y : ℕ → ℕ → ℝ) (p v : Params ℝ) :
    (∃ bnd l u, taylorBounds realLib
      (mlpJaxpr [(3, some "__autobound_softplus__"), (2, some "__autobound_softplus__"), (1, none)] 4 2 X Y p v)
      (mlpConsts [(3, some "__autobound_softplus__"), (2, some "__autobound_softplus__"), (1, none)] 4 2 X Y p v) 2 false
        (ND.scalar 0) (ND.scalar 0) (ND.scalar 1) = .ok bnd ∧ bnd.lower (ND.scalar 0) = .ok l ∧
      bnd.upper (ND.scalar 0) = .ok u ∧ l.get [] = u.get []) ∧
    ∃ bnd l u, taylorBounds realLib (mlpJaxpr [(3, some "exp"), (1, none)] 4 2 X Y p v)
      (mlpConsts [(3, some "exp"), (1, none)] 4 2 X Y p v) 5 true (ND.scalar 0) (ND.scalar (-1)) (ND.scalar 1) = .ok bnd ∧
      bnd.lower (ND.scalar 0) = .ok l ∧ bnd.upper (ND.scalar 0) = .ok u ∧ l.get [] = u.get [] := by
  constructor
  · obtain ⟨bnd, hb, l, u, hl, hu, -, -, h⟩ := C69_mlp_tables (X := X) (Y := Y) (p := p) (v := v)
      (arch := [(3, some "__autobound_softplus__"), (2, some "__autobound_softplus__"), (1, none)]) (B := 4) (n := 2)
      ⟨by decide, by decide, by decide, by decide⟩ (maxDegree := 2) (propagate := false) (by decide) (by decide)
      (by
        intro q hq name hn
        simp only [List.mem_cons, List.not_mem_nil, or_false] at hq
        rcases hq with rfl | rfl | rfl <;> cases hn
        · exact Or.inr (Or.inr (Or.inr (Or.inr ⟨rfl, le_rfl⟩)))
        · exact Or.inr (Or.inr (Or.inr (Or.inr ⟨rfl, le_rfl⟩)))) (le_refl (0 : ℝ)) (zero_le_one)
    exact ⟨bnd, l, u, hb, hl, hu, h le_rfl⟩
  · obtain ⟨bnd, hb, l, u, hl, hu, -, -, h⟩ := C69_mlp_tables (X := X) (Y := Y) (p := p) (v := v)
      (arch := [(3, some "exp"), (1, none)]) (B := 4) (n := 2)
      ⟨by decide, by decide, by decide, by decide⟩ (maxDegree := 5) (propagate := true) (by decide) (by decide)
      (by
        intro q hq name hn
        simp only [List.mem_cons, List.not_mem_nil, or_false] at hq
        rcases hq with rfl | rfl <;> cases hn
        exact Or.inl rfl) (neg_one_lt_zero.le : (-1 : ℝ) ≤ 0) (zero_le_one)
    exact ⟨bnd, l, u, hb, hl, hu, h (by decide)⟩

/-- `C69_linear_exact`: a linear network with three layers, degree 6. -/
example (X Y : ℕ → ℕ → ℚ) (p v : Params ℚ) : ∃ bnd, taylorBounds polyLib
      (mlpJaxpr [(3, none), (2, none), (1, none)] 4 2 X Y p v) (mlpConsts [(3, none), (2, none), (1, none)] 4 2 X Y p v) 6
        true (ND.scalar 0) (ND.scalar 0) (ND.scalar 1) = .ok bnd ∧
      ∃ l u, bnd.lower (ND.scalar 100) = .ok l ∧ bnd.upper (ND.scalar 100) = .ok u ∧
        l.get [] = mlpLoss polySem [(3, none), (2, none), (1, none)] 4 2 X Y (p + (100 : ℚ) • v) ∧ u.get [] = l.get [] := by
  obtain ⟨bnd, hb, h⟩ := C69_linear_exact (X := X) (Y := Y) (p := p) (v := v) polyLib_sound polyLib_arr polyLib_full
    (arch := [(3, none), (2, none), (1, none)]) (B := 4) (n := 2) ⟨by decide, by decide, by decide, by decide⟩
    (by decide) (maxDegree := 6) (propagate := true) (by decide) (le_refl (0 : ℚ)) zero_le_one
  obtain ⟨l, u, h1, h2, h3, h4⟩ := h 100
  exact ⟨bnd, hb, l, u, h1, h2, h3, h4.trans h3.symm⟩

/-- `C52_number_of_coefficients` for a network: three coefficients at degree 2. -/
example (X Y : ℕ → ℕ → ℚ) (p v : Params ℚ) {bnd : Bounds ℚ} (hb : taylorBounds netLib (mlpJaxpr exArch 2 2 X Y p v)
    (mlpConsts exArch 2 2 X Y p v) 2 false (ND.scalar 0) (ND.scalar 0) (ND.scalar 1) = .ok bnd) :
    bnd.coefficients.length = 3 := by
  have h1 := C52_number_of_coefficients (maxDegree := 2) (o := 16 * (exArch.length : ℤ) + 6)
    netLib_full (by decide) (mlp_terms (arch := exArch) (by decide)) rfl hb
  rw [netLen_top.2] at h1
  have h2 := (C52_form hb).2.2.2.2.1
  omega

/-- `C69_mlp_degree0` (and through it `C42_degree0`'s hypotheses): a network with a sigmoid layer and a softplus layer, on a
long interval of learning rates. -/
theorem C69_degree0_instance (X Y : ℕ → ℕ → ℝ) (p v : Params ℝ) :
    ∃ bnd, taylorBounds realLib
        (mlpJaxpr [(3, some "__autobound_sigmoid__"), (2, some "__autobound_softplus__"), (1, none)] 4 2 X Y p v)
        (mlpConsts [(3, some "__autobound_sigmoid__"), (2, some "__autobound_softplus__"), (1, none)] 4 2 X Y p v) 0 true
        (ND.scalar 0) (ND.scalar (-50)) (ND.scalar 100) = .ok bnd ∧
      ∃ l u, bnd.lower (ND.scalar 75) = .ok l ∧ bnd.upper (ND.scalar 75) = .ok u ∧
        l.get [] ≤ mlpLoss realSem [(3, some "__autobound_sigmoid__"), (2, some "__autobound_softplus__"), (1, none)] 4 2 X Y
          (p + (75 : ℝ) • v) ∧
        mlpLoss realSem [(3, some "__autobound_sigmoid__"), (2, some "__autobound_softplus__"), (1, none)] 4 2 X Y
          (p + (75 : ℝ) • v) ≤ u.get [] := by
  obtain ⟨bnd, hb, h⟩ := C69_mlp_degree0 (X := X) (Y := Y) (p := p) (v := v)
      (arch := [(3, some "__autobound_sigmoid__"), (2, some "__autobound_softplus__"), (1, none)]) (B := 4) (n := 2)
      ⟨by decide, by decide, by decide, by decide⟩ (propagate := true)
      (by
        intro q hq name hn
        simp only [List.mem_cons, List.not_mem_nil, or_false] at hq
        rcases hq with rfl | rfl | rfl <;> cases hn
        · exact Or.inr (Or.inr (Or.inr (Or.inl ⟨rfl, Nat.zero_le _⟩)))
        · exact Or.inr (Or.inr (Or.inr (Or.inr ⟨rfl, Nat.zero_le _⟩))))
      (lo := -50) (eta0 := 0) (hi := 100) (by norm_num) (by norm_num)
  exact ⟨bnd, hb, h 75 (by norm_num) (by norm_num)⟩

end MLP
end AB
