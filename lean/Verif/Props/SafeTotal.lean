/-
C68 (returning) and C69 (safe learning rates of networks).
-/
import Verif.Props.Length
import Verif.Props.MLP

set_option linter.unusedSectionVars false

namespace AB
namespace NB
variable {K : Type} [Field K] [LinearOrder K] [IsStrictOrderedRing K]
open JB
variable {X : Type} [AddCommGroup X] [Module K X] {lib : Lib K} {sem : Sem K} {loss : TracedLoss K X} {F : X → K}

/-- **C68 (returns).** If `bound_loss` returns, and the program of the loss is certified to have three coefficients of
degree at most 2, then `safe_learning_rate` returns. -/
theorem C68_returns (hlib : LibSound lib sem) (harr : LibArr lib) (hfull : LibFull lib) {x v : X} {m : K} (hm : 0 ≤ m)
    (hF : Traces sem loss F x v m) {len : ℤ → ℕ} (hcert : TermsProgram 2 len (loss.jaxpr x v)) {o : ℤ}
    (hout : (loss.jaxpr x v).outvars = [.var o]) (ho : 3 ≤ len o) {bnd : Bounds K}
    (hb : boundLoss lib loss x v m = .ok bnd) : ∃ eta, safeLearningRate lib loss x v m = .ok eta := by
  have hlen : len o ≤ bnd.coefficients.length :=
    C52_number_of_coefficients hfull (maxDegree := 2) (by decide) hcert hout hb
  obtain ⟨z, y, hz, -, hy, -, -, -, -, hs⟩ := computes_sound (x0 := 0) (x := 0) hlib hF ⟨le_rfl, hm⟩ ⟨le_rfl, hm⟩ hb
  have h1 : bnd.coefficients[1]? = some bnd.coefficients[1] := List.getElem?_eq_getElem (by omega)
  have ha := coefficients_arr harr hb 1 _ h1 (by decide)
  have s1 := (scalar_shapes hs hz hy (List.mem_of_getElem? h1)).1
  generalize bnd.coefficients[1] = c1 at h1 ha s1
  obtain ⟨c2, h2⟩ : ∃ c2, bnd.coefficients.getLast? = some c2 := by
    cases h : bnd.coefficients.getLast? with
    | some c => exact ⟨c, rfl⟩
    | none =>
      rw [List.getLast?_eq_none_iff] at h
      rw [h] at hlen
      simp at hlen
      omega
  have s2 := (scalar_shapes hs hz hy (List.mem_of_getLast? h2)).2.2
  cases c1 with
  | ivl a b => exact absurd ha id
  | arr c1 =>
    refine ⟨minimize1dQuadratic (c1.get []) ((TEA.toInterval c2).2.get []) 0 m, ?_⟩
    unfold safeLearningRate
    rw [hb, py_ok_bind]
    rw [if_neg (by omega)]
    unfold Bounds.finalInterval
    simp only [h1, h2, py_ok_bind]
    exact if_pos ⟨s1, s2⟩

end NB

namespace MLP
open JB NB
variable {K : Type} [Field K] [LinearOrder K] [IsStrictOrderedRing K]
variable {lib : Lib K} {sem : Sem K} {arch : Arch} {B n : ℕ} {X Y : ℕ → ℕ → K} {p v : Params K}

/-- the number of coefficients of the variables of a network with `L` layers -/
def netLen (L : ℕ) (w : ℤ) : ℕ := if w % 2 = 1 then 1 else if w = 16 * L + 4 ∨ w = 16 * L + 6 then 3 else 2

theorem netLen_odd {L : ℕ} {w : ℤ} (h : w % 2 = 1) : netLen L w = 1 := if_pos h

theorem netLen_even {L : ℕ} {w : ℤ} (h : w % 2 = 0) (h1 : w ≤ 16 * L + 2) : netLen L w = 2 := by
  unfold netLen
  rw [if_neg (by omega), if_neg (by omega)]

theorem netLen_top {L : ℕ} : netLen L (16 * L + 4) = 3 ∧ netLen L (16 * L + 6) = 3 := by
  unfold netLen
  constructor
  · rw [if_neg (by omega), if_pos (Or.inl rfl)]
  · rw [if_neg (by omega), if_pos (Or.inr rfl)]

theorem net_terms (L : ℕ) : ∀ (arch : Arch) (l : ℕ) (h : ℤ), l + arch.length = L → (arch = [] → netLen L h = 2) →
    1 ≤ netLen L h → ∀ eqn ∈ (netEqns arch l h : List (Eqn K)), TermsOp 2 (netLen L) eqn.prim eqn.invars eqn.outvars
  | [], l, h, hl, hh, _, eqn, he => by
    obtain rfl : l = L := by simpa using hl
    obtain ⟨t2, t3⟩ := netLen_top (L := l)
    have t1 : netLen l (16 * l + 2) = 2 := netLen_even (by omega) le_rfl
    simp only [netEqns, List.mem_cons, List.not_mem_nil, or_false] at he
    rcases he with rfl | rfl | rfl
    · show netLen l (16 * l + 2) ≤ max (netLen l h) (netLen l 3)
      rw [t1, hh rfl]
      exact le_max_left _ _
    · refine ⟨by decide, ?_⟩
      show netLen l (16 * l + 4) ≤ min (2 + 1) ((netLen l (16 * l + 2) - 1) * 2 + 1)
      rw [t1, t2]
      decide
    · show netLen l (16 * l + 6) ≤ netLen l (16 * l + 4)
      rw [t2, t3]
  | (m, act) :: arch, l, h, hl, _, hh, eqn, he => by
    have hlt : l < L := by rw [← hl, List.length_cons]; omega
    have t : ∀ w : ℤ, w % 2 = 0 → w ≤ 16 * l + 16 → netLen L w = 2 := fun w h1 h2 => netLen_even h1 (by omega)
    rw [netEqns, List.mem_append] at he
    rcases he with he | he
    · unfold layerEqns at he
      rw [List.mem_append] at he
      rcases he with he | he
      · simp only [List.mem_cons, List.not_mem_nil, or_false] at he
        rcases he with rfl | rfl | rfl | rfl | rfl | rfl | rfl
        · show netLen L (16 * l + 2) ≤ min (2 + 1) (netLen L 0 + netLen L (8 * l + 7) - 1)
          rw [t _ (by omega) (by omega), t 0 (by omega) (by omega), netLen_odd (by omega)]
          decide
        · show netLen L (16 * l + 4) ≤ max (netLen L (8 * l + 5)) (netLen L (16 * l + 2))
          rw [t _ (by omega) (by omega), t (16 * l + 2) (by omega) (by omega)]
          exact le_max_right _ _
        · show netLen L (16 * l + 6) ≤ min (2 + 1) (netLen L h + netLen L (16 * l + 4) - 1)
          rw [t _ (by omega) (by omega), t (16 * l + 4) (by omega) (by omega)]
          omega
        · show netLen L (16 * l + 8) ≤ min (2 + 1) (netLen L 0 + netLen L (8 * l + 11) - 1)
          rw [t _ (by omega) (by omega), t 0 (by omega) (by omega), netLen_odd (by omega)]
          decide
        · show netLen L (16 * l + 10) ≤ max (netLen L (8 * l + 9)) (netLen L (16 * l + 8))
          rw [t _ (by omega) (by omega), t (16 * l + 8) (by omega) (by omega)]
          exact le_max_right _ _
        · show netLen L (16 * l + 12) ≤ netLen L (16 * l + 10)
          rw [t _ (by omega) (by omega), t (16 * l + 10) (by omega) (by omega)]
        · show netLen L (16 * l + 14) ≤ max (netLen L (16 * l + 6)) (netLen L (16 * l + 12))
          rw [t _ (by omega) (by omega), t (16 * l + 6) (by omega) (by omega)]
          exact le_max_left _ _
      · cases act with
        | none => exact absurd he List.not_mem_nil
        | some name =>
          rw [List.mem_singleton] at he
          subst he
          show netLen L (16 * l + 16) ≤ min 2 (netLen L (16 * l + 14))
          rw [t _ (by omega) (by omega), t (16 * l + 14) (by omega) (by omega)]
          decide
    · have ho : netLen L (outVar l act) = 2 := by
        cases act with
        | none => exact t _ (by show (16 * (l : ℤ) + 14) % 2 = 0; omega) (by show (16 * (l : ℤ) + 14) ≤ _; omega)
        | some name => exact t _ (by show (16 * (l : ℤ) + 16) % 2 = 0; omega) le_rfl
      exact net_terms L arch (l + 1) (outVar l act) (by rw [← hl, List.length_cons]; omega) (fun _ => ho)
        (by omega) eqn he

theorem mlp_terms (hne : arch ≠ []) : TermsProgram 2 (netLen arch.length) (mlpJaxpr arch B n X Y p v) := by
  refine ⟨fun w hw => ?_, fun w hw => ?_, fun eqn he => Or.inr ?_⟩
  · rw [show w = 0 by simpa [mlpJaxpr] using hw, netLen_even (by decide) (by omega)]
  · obtain ⟨q, hq, rfl⟩ := List.mem_map.1 hw
    rw [netLen_odd (pairs_odd q hq)]
  · exact net_terms _ arch 0 1 (by simp) (fun h => absurd h hne) (by rw [netLen_odd (by decide)]) eqn he

/-- **C69 (safe learning rate).** For every network (tables that are right about the activation functions), all weights
and every update direction, and every maximum learning rate: `safe_learning_rate` returns a learning rate `eta` between
0 and the maximum, and the step does not increase the loss. -/
theorem C69_safe_learning_rate (hlib : LibSound lib sem) (harr : LibArr lib) (hfull : LibFull lib) (hnet : NetOk arch B n)
    (hact : ActsUsable lib 2 false arch) {m : K} (hm : 0 ≤ m) :
    ∃ eta, safeLearningRate lib (mlpTraced arch B n X Y) p v m = .ok eta ∧ 0 ≤ eta ∧ eta ≤ m ∧
      mlpLoss sem arch B n X Y (p + eta • v) ≤ mlpLoss sem arch B n X Y p := by
  have hF := mlp_traces (X := X) (Y := Y) (p := p) (v := v) hnet (actsDefined_of_usable hlib hact) m
  obtain ⟨bnd, hb, -⟩ := C69_mlp_bounds (X := X) (Y := Y) (p := p) (v := v) (maxDegree := 2) (propagate := false) hlib harr
    hfull hnet (by decide) (by decide) hact le_rfl hm
  obtain ⟨eta, he⟩ := C68_returns hlib harr hfull hm hF (mlp_terms hnet.layers) rfl netLen_top.2.ge hb
  obtain ⟨h1, h2, h3, -⟩ := C68_safe_learning_rate hlib harr hm hF he
  exact ⟨eta, he, h1, h2, h3⟩

/-- **C69 (training never fails).** The optimizer takes as many steps as one likes, from all initial parameters, for all
update directions; the loss after `k + j` steps is at most the loss after `k` steps. -/
theorem C69_training_returns (hlib : LibSound lib sem) (harr : LibArr lib) (hfull : LibFull lib) (hnet : NetOk arch B n)
    (hact : ActsUsable lib 2 false arch) (dir : Params K → Params K) (p0 : Params K) {m0 : K} (hm : 0 < m0) (k : ℕ) :
    ∃ s, runOptimizer lib (mlpTraced arch B n X Y) dir k (initState p0 m0) = .ok s ∧
      ∀ j, ∃ s', runOptimizer lib (mlpTraced arch B n X Y) dir (k + j) (initState p0 m0) = .ok s' ∧
        mlpLoss sem arch B n X Y s'.x ≤ mlpLoss sem arch B n X Y s.x := by
  have hdef := actsDefined_of_usable hlib hact
  have hF : TracesAll sem (mlpTraced arch B n X Y) (mlpLoss sem arch B n X Y) dir := fun _ m _ => mlp_traces hnet hdef m
  have key : ∀ k, ∃ s, runOptimizer lib (mlpTraced arch B n X Y) dir k (initState p0 m0) = .ok s := by
    intro k
    induction k with
    | zero => exact ⟨_, rfl⟩
    | succ k ih =>
      obtain ⟨s, hs⟩ := ih
      have hp := (C68_optimizer hlib harr hF hm k 0 hs hs).2.1
      obtain ⟨eta, he, -⟩ := C69_safe_learning_rate (X := X) (Y := Y) (p := s.x) (v := dir s.x) hlib harr hfull hnet hact hp.le
      refine ⟨⟨s.x + eta • dir s.x, eta, nextMaxEta (some eta) s.maxEta⟩, ?_⟩
      · rw [runOptimizer, hs, py_ok_bind, updateState, he, py_ok_bind]
        rfl
  obtain ⟨s, hs⟩ := key k
  refine ⟨s, hs, fun j => ?_⟩
  obtain ⟨s', hs'⟩ := key (k + j)
  exact ⟨s', hs', C69_training hlib harr hnet hdef dir hm k j hs hs'⟩

end MLP
end AB
