/-
Concrete cases of C74.
-/
import Verif.Props.Net
import Verif.Props.MLPEx

set_option linter.unusedSectionVars false

namespace AB
namespace Net
open JB NB Lax
open MLP (netLib netLib_sound netLib_arr netLib_full squareGen2)

/-- NHWC images, HWIO kernels, padding "SAME" for kernels of size 3. -/
def exConvParams : ConvParams := ⟨[1, 1], [(1, 1), (1, 1)], [1, 1], [1, 1], [0, 3, 1, 2], [3, 2, 0, 1], [0, 3, 1, 2], 1, 1⟩

/-- A convolution with two filters of size 3 x 3, an activation function, sum-pooling over 2 x 2 windows, and a dense layer
with one output. -/
def exNet (act : String) : List Layer :=
  [.conv exConvParams [3, 3, 1, 2] [1, 1, 1, 2], .act act,
   .pool [⟨1, 1, 0, 0, 1, 1⟩, ⟨2, 2, 0, 0, 1, 1⟩, ⟨2, 2, 0, 0, 1, 1⟩, ⟨1, 1, 0, 0, 1, 1⟩],
   .reshape [2, 8], .dot [1] [0] [8, 1] [1, 1]]

/-- It accepts two images with 4 x 4 pixels, with one target each. -/
theorem exNet_ok {K : Type} {act : String} {X Y : ND K} (hX : X.shape = [2, 4, 4, 1]) (hY : Y.shape = [2, 1]) :
    NetOk (exNet act) X Y where
  fits := by
    rw [hX]
    have e1 : convShape exConvParams [2, 4, 4, 1] [3, 3, 1, 2] = [2, 4, 4, 2] := by decide +kernel
    have e2 : List.zipWith WinAxis.outSize
      [⟨1, 1, 0, 0, 1, 1⟩, ⟨2, 2, 0, 0, 1, 1⟩, ⟨2, 2, 0, 0, 1, 1⟩, ⟨1, 1, 0, 0, 1, 1⟩] [2, 4, 4, 2] = [2, 2, 2, 2] := by
      decide +kernel
    have e3 : dropAxes [1] [2, 8] ++ dropAxes [0] [8, 1] = [2, 1] := by decide +kernel
    simp only [exNet, LayersOk, Layer.out, Layer.Ok, e1, e2, e3, BiasOk, Pos, List.forall₂_cons, List.forall₂_nil_left_iff]
    decide +kernel
  targets := by
    rw [hX, hY]
    show dropAxes [1] [2, 8] ++ dropAxes [0] [8, 1] = [2, 1]
    decide +kernel
  first := ⟨_, rfl, trivial⟩

theorem exNet_usable : ActsUsable netLib 2 false (exNet "my_square") := by
  intro name hn
  obtain rfl : name = "my_square" := by simpa [exNet] using hn
  have := MLP.exArch_usable (2, some "my_square") (by decide) _ rfl
  exact this

/-- `C74_bounds`, `C74_documented` and `C74_training` for this network with the activation function `my_square`, on any
batch of two images, with any parameters and direction. -/
theorem C74_instance {X Y : ND ℚ} (hX : X.shape = [2, 4, 4, 1]) (hY : Y.shape = [2, 1]) (p v : Params ℚ) :
    (∃ bnd, taylorBounds netLib (netJaxpr (exNet "my_square") X Y p v) (netConsts (exNet "my_square") X Y p v) 2 false
        (ND.scalar 0) (ND.scalar (-1)) (ND.scalar 1) = .ok bnd ∧
      ∃ l u, bnd.lower (ND.scalar (1 / 2)) = .ok l ∧ bnd.upper (ND.scalar (1 / 2)) = .ok u ∧
        l.get [] ≤ netLoss mySem (exNet "my_square") X Y (p + (1 / 2 : ℚ) • v) ∧
        netLoss mySem (exNet "my_square") X Y (p + (1 / 2 : ℚ) • v) ≤ u.get []) ∧
    ∃ r, forward mySem p (exNet "my_square") 0 X = .ok r ∧ NetIs mySem p (exNet "my_square") 0 X r ∧ r.shape = [2, 1] := by
  refine ⟨?_, ?_⟩
  · obtain ⟨bnd, hb, h⟩ := C74_bounds (p := p) (v := v) netLib_sound netLib_arr netLib_full (exNet_ok hX hY) (maxDegree := 2)
      (propagate := false) (by decide) exNet_usable (lo := -1) (eta0 := 0) (hi := 1) (by norm_num) (by norm_num)
    exact ⟨bnd, hb, h (1 / 2) (by norm_num) (by norm_num)⟩
  · obtain ⟨r, h1, h2, h3, -⟩ := C74_documented (exNet_ok hX hY) (actsDefined_of_usable netLib_sound exNet_usable) p
    exact ⟨r, h1, h2, h3.trans hY⟩

/-- `C74_linear_exact`: the same network without the activation function, degree 4. -/
example {X Y : ND ℚ} (hX : X.shape = [2, 4, 4, 1]) (hY : Y.shape = [2, 1]) (p v : Params ℚ) :
    ∃ bnd, taylorBounds polyLib (netJaxpr ((exNet "").eraseIdx 1) X Y p v) (netConsts ((exNet "").eraseIdx 1) X Y p v) 4 true
        (ND.scalar 0) (ND.scalar (-1)) (ND.scalar 1) = .ok bnd ∧
      ∃ l u, bnd.lower (ND.scalar 7) = .ok l ∧ bnd.upper (ND.scalar 7) = .ok u ∧
        l.get [] = netLoss polySem ((exNet "").eraseIdx 1) X Y (p + (7 : ℚ) • v) ∧ u.get [] = l.get [] := by
  have hn : NetOk ((exNet "").eraseIdx 1) X Y := by
    obtain ⟨⟨h1, h2, h3, h4⟩, h5, h6⟩ := exNet_ok (K := ℚ) (act := "") hX hY
    obtain ⟨-, -, -, h7⟩ := h4
    exact ⟨⟨h1, h2, h3, h7⟩, h5, ⟨_, rfl, trivial⟩⟩
  obtain ⟨bnd, hb, h⟩ := C74_linear_exact (p := p) (v := v) polyLib_sound polyLib_arr polyLib_full hn
    (by intro name; simp [exNet]) (maxDegree := 4) (propagate := true) (by decide) (lo := -1) (eta0 := 0) (hi := 1)
    (by norm_num) (by norm_num)
  obtain ⟨l, u, g1, g2, g3, g4⟩ := h 7
  exact ⟨bnd, hb, l, u, g1, g2, g3, g4.trans g3.symm⟩

/-- `C74_tables`: the network with softplus at degree 2 and with the sigmoid at degree 1. -/
theorem C74_tables_instance {X Y : ND ℝ} (hX : X.shape = [2, 4, 4, 1]) (hY : Y.shape = [2, 1]) (p v : Params ℝ) :
    (∃ bnd l u, taylorBounds realLib (netJaxpr (exNet "__autobound_softplus__") X Y p v)
      (netConsts (exNet "__autobound_softplus__") X Y p v) 2 false (ND.scalar 0) (ND.scalar 0) (ND.scalar 1) = .ok bnd ∧
      bnd.lower (ND.scalar 0) = .ok l ∧ bnd.upper (ND.scalar 0) = .ok u ∧ l.get [] = u.get []) ∧
    ∃ bnd l u, taylorBounds realLib (netJaxpr (exNet "__autobound_sigmoid__") X Y p v)
      (netConsts (exNet "__autobound_sigmoid__") X Y p v) 1 true (ND.scalar 0) (ND.scalar (-1)) (ND.scalar 1) = .ok bnd ∧
      bnd.lower (ND.scalar 0) = .ok l ∧ bnd.upper (ND.scalar 0) = .ok u ∧ l.get [] = u.get [] := by
  constructor
  · obtain ⟨bnd, hb, l, u, hl, hu, -, -, h⟩ := C74_tables (p := p) (v := v) (exNet_ok hX hY) (maxDegree := 2)
      (propagate := false) (by decide) (by
        intro name hn
        obtain rfl : name = "__autobound_softplus__" := by simpa [exNet] using hn
        exact Or.inr (Or.inr (Or.inr (Or.inr ⟨rfl, le_rfl⟩)))) (le_refl (0 : ℝ)) zero_le_one
    exact ⟨bnd, l, u, hb, hl, hu, h (by decide)⟩
  · obtain ⟨bnd, hb, l, u, hl, hu, -, -, h⟩ := C74_tables (p := p) (v := v) (exNet_ok hX hY) (maxDegree := 1)
      (propagate := true) (by decide) (by
        intro name hn
        obtain rfl : name = "__autobound_sigmoid__" := by simpa [exNet] using hn
        exact Or.inr (Or.inr (Or.inr (Or.inl ⟨rfl, le_rfl⟩)))) (neg_one_lt_zero.le : (-1 : ℝ) ≤ 0) zero_le_one
    exact ⟨bnd, l, u, hb, hl, hu, h (by decide)⟩

/-- `C74_wide`: a dense layer with `exp`; the input of `exp` is `w + eta`, its trust region `[w - 1, w + 1]`. -/
def exThin : List Layer := [.dot [1] [0] [1, 1] [1, 1], .act "exp"]

def exOne : ND ℝ := ⟨[1, 1], fun _ => 1⟩

theorem exThin_ok : NetOk exThin exOne exOne where
  fits := by
    have e3 : dropAxes [1] [1, 1] ++ dropAxes [0] [1, 1] = [1, 1] := by decide +kernel
    show LayersOk exThin [1, 1]
    simp only [exThin, LayersOk, Layer.out, Layer.Ok, e3, BiasOk, Pos, List.forall₂_cons, List.forall₂_nil_left_iff]
    decide +kernel
  targets := by
    show dropAxes [1] [1, 1] ++ dropAxes [0] [1, 1] = [1, 1]
    decide +kernel
  first := ⟨_, rfl, trivial⟩

theorem exThin_forward (w eta : ℝ) : ∃ r, forward realSem ((fun _ => (fun _ => w, fun _ => 0) : Params ℝ) +
      eta • (fun _ => (fun _ => 1, fun _ => 0) : Params ℝ)) [.dot [1] [0] [1, 1] [1, 1]] 0 exOne = .ok r ∧
      r.shape = [1, 1] ∧ r.get [0, 0] = w + eta := by
  refine ⟨_, rfl, rfl, ?_⟩
  have h : (1 * (w + eta * 1) + 0) + (0 + eta * 0) = w + eta := by ring
  exact h

theorem C74_wide_instance (w : ℝ) :
    ∃ bnd, taylorBounds realLib
        (netJaxpr exThin exOne exOne (fun _ => (fun _ => w, fun _ => 0)) (fun _ => (fun _ => 1, fun _ => 0)))
        (netConsts exThin exOne exOne (fun _ => (fun _ => w, fun _ => 0)) (fun _ => (fun _ => 1, fun _ => 0))) 3 true
        (ND.scalar 0) (ND.scalar (-1)) (ND.scalar 1) = .ok bnd ∧
      ∀ eta, -1 ≤ eta → eta ≤ 1 → ∃ l u, bnd.lower (ND.scalar eta) = .ok l ∧ bnd.upper (ND.scalar eta) = .ok u ∧
        l.get [] ≤ netLoss realSem exThin exOne exOne ((fun _ => (fun _ => w, fun _ => 0) : Params ℝ) +
          eta • (fun _ => (fun _ => 1, fun _ => 0) : Params ℝ)) ∧
        netLoss realSem exThin exOne exOne ((fun _ => (fun _ => w, fun _ => 0) : Params ℝ) +
          eta • (fun _ => (fun _ => 1, fun _ => 0) : Params ℝ)) ≤ u.get [] := by
  refine C74_wide exThin_ok (maxDegree := 3) (propagate := true) (η := 1) (by decide) ?_ (by norm_num) (by norm_num)
    zero_le_one (by norm_num) ?_
  · intro name hn
    obtain rfl : name = "exp" := by simpa [exThin] using hn
    exact Or.inl rfl
  · intro L1 name L2 r0 hs h0 I hI
    cases L1 with
    | nil => cases hs
    | cons L L1 =>
      obtain ⟨rfl, hs⟩ := List.cons.inj hs
      cases L1 with
      | cons L' L1 =>
        have := congrArg List.length hs
        simp [exThin] at this
      | nil =>
        obtain ⟨q0, f0, s0, g0⟩ := exThin_forward w 0
        rw [h0] at f0
        cases f0
        rw [s0] at hI
        obtain rfl : I = [0, 0] := by
          cases hI with
          | cons h1 h2 => cases h2 with
            | cons h3 h4 => cases h4; simp only [Nat.lt_one_iff] at h1 h3; rw [h1, h3]
        obtain ⟨ra, fa, -, ga⟩ := exThin_forward w (-1)
        obtain ⟨rb, fb, -, gb⟩ := exThin_forward w 1
        refine ⟨⟨-1, ra, le_rfl, by norm_num, fa, ?_⟩, ⟨1, rb, by norm_num, le_rfl, fb, ?_⟩, fun h => ?_⟩
        · rw [ga, g0]; linarith
        · rw [gb, g0]; linarith
        · intro h2
          exact absurd h2 (by decide)

end Net
end AB
