/-
C69: `taylor_bounds` on the squared-error loss of a multi-layer perceptron along a line of parameters, for any number of
layers, widths, batch size, weights, and direction (README.md:98, safe_learning_rates.ipynb).
-/
import Verif.Proofs.MLP
import Verif.Props.TotalStatic
import Verif.Props.AtRef
import Verif.Props.PolyExact
import Verif.Props.SafeRate

set_option linter.unusedSectionVars false

namespace AB
namespace MLP
open JB NB

section
variable {K : Type} [Field K] [LinearOrder K] [IsStrictOrderedRing K]
variable {lib : Lib K} {sem : Sem K} {arch : Arch} {B n : ℕ} {X Y : ℕ → ℕ → K} {p v : Params K}

/-- There is at least one layer, and the batch, the inputs and all layers have at least one entry. -/
structure NetOk (arch : Arch) (B n : ℕ) : Prop where
  layers : arch ≠ []
  batch : 0 < B
  inputs : 0 < n
  widths : ∀ q ∈ arch, 0 < q.1

/-- All activation functions have an implementation. -/
def ActsDefined (sem : Sem K) (arch : Arch) : Prop := ∀ q ∈ arch, ∀ name, q.2 = some name → ∃ f, sem.fn name = some f

/-- All activation functions are in the tables, with enclosure generators that return at the degree `md` (and at degree
0, if trust regions are propagated). -/
def ActsUsable (lib : Lib K) (md : ℕ) (propagate : Bool) (arch : Arch) : Prop :=
  ∀ q ∈ arch, ∀ name, q.2 = some name → ∃ g, lib.gen name = some g ∧ GenUsable md propagate g

theorem actsDefined_of_usable (hlib : LibSound lib sem) {md : ℕ} {propagate : Bool} (h : ActsUsable lib md propagate arch) :
    ActsDefined sem arch := by
  intro q hq name hn
  obtain ⟨g, hg, -⟩ := h q hq name hn
  obtain ⟨f, hf, -⟩ := hlib.gen name g hg
  exact ⟨f, hf⟩

theorem actOk_of_usable {md : ℕ} {propagate : Bool} (h : ActsUsable lib md propagate arch) :
    ∀ q ∈ arch, ActOk lib md propagate q.2 := by
  rintro ⟨m, _ | name⟩ hq
  · exact trivial
  · exact h _ hq name rfl

/-- bounds on the number of coefficients of the variables of a network with `L` layers: the parameters are affine in
`eta`, so that they have two coefficients -/
def netCounts (L : ℕ) : Counts where
  least w := if w = 0 then 2 else if w % 2 = 1 ∨ w ≤ 0 ∨ (L : ℤ) ≤ (w - 2) / 16 ∨ (w - 2) % 16 = 14 then 1 else 2
  most w := if w = 0 then 2 else if w % 2 = 1 then 1
    else if w ≤ 0 ∨ (L : ℤ) ≤ (w - 2) / 16 ∨ (w - 2) % 16 = 4 ∨ (w - 2) % 16 = 12 ∨ (w - 2) % 16 = 14 then ⊤ else 2

theorem netCounts_odd {L : ℕ} {w : ℤ} (h : w % 2 = 1) : (netCounts L).least w = 1 ∧ (netCounts L).most w = 1 := by
  unfold netCounts
  constructor
  · show (if _ then _ else _) = _
    rw [if_neg (by omega), if_pos (Or.inl h)]
  · show (if _ then _ else _) = _
    rw [if_neg (by omega), if_pos h]

theorem netCounts_pos {L : ℕ} (w : ℤ) : 1 ≤ (netCounts L).least w := by
  show 1 ≤ (if _ then _ else _)
  split_ifs <;> omega

theorem netCounts_two {L l : ℕ} (h : l < L) {k : ℤ} (hk : k = 2 ∨ k = 4 ∨ k = 8 ∨ k = 10 ∨ k = 12) :
    (netCounts L).least (16 * l + k) = 2 ∧ (netCounts L).most (16 * l + k) = 2 := by
  constructor
  · show (if _ then _ else _) = _
    rw [if_neg (by omega), if_neg (by omega)]
  · show (if _ then _ else _) = _
    rw [if_neg (by omega), if_neg (by omega), if_neg (by omega)]

theorem netCounts_mid {L l : ℕ} (h : l < L) {k : ℤ} (hk : k = 6 ∨ k = 14) :
    (netCounts L).least (16 * l + k) = 2 ∧ (netCounts L).most (16 * l + k) = ⊤ := by
  constructor
  · show (if _ then _ else _) = _
    rw [if_neg (by omega), if_neg (by omega)]
  · show (if _ then _ else _) = _
    rw [if_neg (by omega), if_neg (by omega), if_pos (by omega)]

theorem netCounts_any {L : ℕ} {w : ℤ} (h0 : 0 < w) (h2 : w % 2 = 0) (h : (L : ℤ) ≤ (w - 2) / 16 ∨ (w - 2) % 16 = 14) :
    (netCounts L).least w ≤ 1 ∧ (netCounts L).most w = ⊤ := by
  constructor
  · show (if _ then _ else _) ≤ _
    rw [if_neg (by omega), if_pos (by omega)]
  · show (if _ then _ else _) = _
    rw [if_neg (by omega), if_neg (by omega), if_pos (by omega)]

theorem net_counts (L : ℕ) : ∀ (arch : Arch) (l : ℕ) (h : ℤ), l + arch.length = L →
    ∀ eqn ∈ (netEqns arch l h : List (Eqn K)), CountEqn (netCounts L) eqn
  | [], l, h, hl, eqn, he => by
    obtain rfl : l = L := by simpa using hl
    simp only [netEqns, List.mem_cons, List.not_mem_nil, or_false] at he
    rcases he with rfl | rfl | rfl <;> refine Or.inl fun o ho => ?_ <;> rw [List.mem_singleton] at ho <;> subst ho <;>
      exact netCounts_any (by omega) (by omega) (Or.inl (by omega))
  | (m, act) :: arch, l, h, hl, eqn, he => by
    have hlt : l < L := by rw [← hl, List.length_cons]; omega
    obtain ⟨t1, s1⟩ := netCounts_two hlt (k := 2) (by simp)
    obtain ⟨t2, s2⟩ := netCounts_two hlt (k := 4) (by simp)
    obtain ⟨t4, s4⟩ := netCounts_two hlt (k := 8) (by simp)
    obtain ⟨t5, s5⟩ := netCounts_two hlt (k := 10) (by simp)
    obtain ⟨t6, s6⟩ := netCounts_two hlt (k := 12) (by simp)
    obtain ⟨t3, s3⟩ := netCounts_mid hlt (k := 6) (by simp)
    obtain ⟨t7, s7⟩ := netCounts_mid hlt (k := 14) (by simp)
    have z : (netCounts L).least 0 = 2 ∧ (netCounts L).most 0 = 2 := ⟨rfl, rfl⟩
    rw [netEqns, List.mem_append] at he
    rcases he with he | he
    · simp only [layerEqns, List.mem_append, List.mem_cons, List.not_mem_nil, or_false] at he
      rcases he with (rfl | rfl | rfl | rfl | rfl | rfl | rfl) | he
      · refine Or.inr ?_
        show (netCounts L).least (16 * l + 2) + 1 ≤ (netCounts L).least 0 + (netCounts L).least (8 * l + 7) ∧
          (netCounts L).most 0 + (netCounts L).most (8 * l + 7) ≤ (netCounts L).most (16 * l + 2) + 1
        rw [t1, s1, z.1, z.2, (netCounts_odd (by omega)).1, (netCounts_odd (by omega)).2]
        exact ⟨le_rfl, le_rfl⟩
      · refine Or.inr ?_
        show (netCounts L).least (16 * l + 4) ≤ max ((netCounts L).least (8 * l + 5)) ((netCounts L).least (16 * l + 2)) ∧
          max ((netCounts L).most (8 * l + 5)) ((netCounts L).most (16 * l + 2)) ≤ (netCounts L).most (16 * l + 4)
        rw [t1, s1, t2, s2, (netCounts_odd (by omega)).1, (netCounts_odd (by omega)).2]
        exact ⟨le_max_right _ _, max_le one_le_two le_rfl⟩
      · refine Or.inr ?_
        show (netCounts L).least (16 * l + 6) + 1 ≤ (netCounts L).least h + (netCounts L).least (16 * l + 4) ∧
          (netCounts L).most h + (netCounts L).most (16 * l + 4) ≤ (netCounts L).most (16 * l + 6) + 1
        rw [t3, s3, t2]
        have := netCounts_pos (L := L) h
        exact ⟨by omega, le_top⟩
      · refine Or.inr ?_
        show (netCounts L).least (16 * l + 8) + 1 ≤ (netCounts L).least 0 + (netCounts L).least (8 * l + 11) ∧
          (netCounts L).most 0 + (netCounts L).most (8 * l + 11) ≤ (netCounts L).most (16 * l + 8) + 1
        rw [t4, s4, z.1, z.2, (netCounts_odd (by omega)).1, (netCounts_odd (by omega)).2]
        exact ⟨le_rfl, le_rfl⟩
      · refine Or.inr ?_
        show (netCounts L).least (16 * l + 10) ≤ max ((netCounts L).least (8 * l + 9)) ((netCounts L).least (16 * l + 8)) ∧
          max ((netCounts L).most (8 * l + 9)) ((netCounts L).most (16 * l + 8)) ≤ (netCounts L).most (16 * l + 10)
        rw [t4, s4, t5, s5, (netCounts_odd (by omega)).1, (netCounts_odd (by omega)).2]
        exact ⟨le_max_right _ _, max_le one_le_two le_rfl⟩
      · refine Or.inr ?_
        show (netCounts L).least (16 * l + 12) ≤ (netCounts L).least (16 * l + 10) ∧
          (netCounts L).most (16 * l + 10) ≤ (netCounts L).most (16 * l + 12)
        rw [t5, t6, s5, s6]
        exact ⟨le_rfl, le_rfl⟩
      · refine Or.inr ?_
        show (netCounts L).least (16 * l + 14) ≤ max ((netCounts L).least (16 * l + 6)) ((netCounts L).least (16 * l + 12)) ∧
          max ((netCounts L).most (16 * l + 6)) ((netCounts L).most (16 * l + 12)) ≤ (netCounts L).most (16 * l + 14)
        rw [t3, t6, t7, s7]
        exact ⟨le_max_right _ _, le_top⟩
      · cases act with
        | none => exact absurd he List.not_mem_nil
        | some name =>
          rw [List.mem_singleton] at he
          subst he
          refine Or.inl fun o ho => ?_
          rw [List.mem_singleton] at ho
          subst ho
          exact netCounts_any (by omega) (by omega) (Or.inr (by omega))
    · exact net_counts L arch (l + 1) _ (by rw [← hl, List.length_cons]; omega) eqn he

theorem mlp_counts : CountsFit (netCounts arch.length) (mlpJaxpr arch B n X Y p v) := by
  refine ⟨fun w hw => ?_, fun w hw => ?_, net_counts _ arch 0 1 (by simp)⟩
  · have : w = 0 := by simpa [mlpJaxpr] using hw
    subst this
    exact ⟨le_rfl, le_rfl⟩
  · obtain ⟨q, hq, rfl⟩ := List.mem_map.1 hw
    obtain ⟨h1, h2⟩ := netCounts_odd (L := arch.length) (pairs_odd q hq)
    exact ⟨h1.le, h2.ge⟩

/-- what is used about the program -/
theorem mlp_facts (lib : Lib K) (md : ℕ) (propagate : Bool) (hnet : NetOk arch B n) (hact : ActsDefined sem arch) (eta : K) :
    ∃ vals y, evalEnv sem (mlpJaxpr arch B n X Y p v) (mlpConsts arch B n X Y p v) (ND.scalar eta) = .ok vals ∧
      NonEmptyVals vals ∧
      evalJaxpr sem (mlpJaxpr arch B n X Y p v) (mlpConsts arch B n X Y p v) (ND.scalar eta) = .ok y ∧
      y.shape = [] ∧ y.get [] = mlpLoss sem arch B n X Y (p + eta • v) ∧
      ProgramFits sem (mlpJaxpr arch B n X Y p v) (mlpConsts arch B n X Y p v) (ND.scalar eta) ∧
      (md ≠ 1 → ActsUsable lib md propagate arch → EqnsReturn lib sem [] md propagate (mlpJaxpr arch B n X Y p v).constvars
        (evalInit (mlpJaxpr arch B n X Y p v) (mlpConsts arch B n X Y p v) (ND.scalar eta))
        (mlpJaxpr arch B n X Y p v).eqns) := by
  obtain ⟨vals, hr, hne, y, hl, hs, hv⟩ := mlp_run (lib := lib) (md := md) (prop := propagate)
    (G := md ≠ 1 ∧ ActsUsable lib md propagate arch) (X := X) (Y := Y) (p := p) (v := v) hnet.layers hnet.batch hnet.inputs
    hnet.widths hact (fun g => ⟨g.1, actOk_of_usable g.2⟩) (ct := netCounts arch.length) (fun k hk => by
      rw [(netCounts_two hk (k := 12) (by simp)).2, (netCounts_mid hk (k := 6) (by simp)).1]
      exact le_rfl) eta
  refine ⟨vals, y, hr.eval, hne, ?_, hs, hv, ⟨?_, _, mlp_counts, hr.fit⟩, fun h1 h2 => hr.ret ⟨h1, h2⟩⟩
  · have he : evalEnv sem (mlpJaxpr arch B n X Y p v) (mlpConsts arch B n X Y p v) (ND.scalar eta) = .ok vals := hr.eval
    unfold evalJaxpr
    rw [he, py_ok_bind]
    show getVal vals (.var (16 * arch.length + 6)) = _
    unfold getVal
    simp only [hl]
  · intro w hw hw'
    obtain ⟨q, hq, rfl⟩ := List.mem_map.1 hw'
    have := pairs_odd q hq
    have : q.1 = 0 := by simpa [mlpJaxpr] using hw
    omega

/-- **C69 (the program).** The Jaxpr evaluates to the mathematical definition of the loss at `p + eta * v`. -/
theorem C69_evaluates (hnet : NetOk arch B n) (hact : ActsDefined sem arch) (eta : K) :
    ∃ y, evalJaxpr sem (mlpJaxpr arch B n X Y p v) (mlpConsts arch B n X Y p v) (ND.scalar eta) = .ok y ∧
      y.shape = [] ∧ y.get [] = mlpLoss sem arch B n X Y (p + eta • v) := by
  obtain ⟨_, y, -, -, h1, h2, h3, -⟩ := mlp_facts (X := X) (Y := Y) (p := p) (v := v) polyLib 0 false hnet hact eta
  exact ⟨y, h1, h2, h3⟩

theorem no_drop : ∀ eqn ∈ (mlpJaxpr arch B n X Y p v).eqns, -1 ∉ eqn.outvars := by
  intro eqn he h
  have := (netEqns_out (K := K) B arch 0 1).2 (-1) (List.mem_flatMap.2 ⟨eqn, he, h⟩)
  omega

theorem mem_scalar {a b x : K} (h1 : a ≤ x) (h2 : x ≤ b) :
    (Coef.ivl (ND.scalar a) (ND.scalar b)).Contains (ND.scalar x) := ⟨rfl, fun _ _ => ⟨h1, h2⟩⟩

/-- **C69 (soundness and totality).** For every network, every `lo ≤ eta0 ≤ hi`, every degree except 1 (finding: biases
need `broadcast_in_dim`, which raises for degree 1), with or without propagated trust regions: if the tables are right
about the activation functions and their generators return, then `taylor_bounds` returns, and for every `eta` in
`[lo, hi]` the loss at `p + eta * v` lies between `lower(eta)` and `upper(eta)`. -/
theorem C69_mlp_bounds (hlib : LibSound lib sem) (harr : LibArr lib) (hfull : LibFull lib) (hnet : NetOk arch B n)
    {maxDegree : ℤ} {propagate : Bool} (hmd : 0 ≤ maxDegree) (hmd1 : maxDegree ≠ 1)
    (hact : ActsUsable lib maxDegree.toNat (propagate && (maxDegree != 0)) arch) {lo eta0 hi : K} (h1 : lo ≤ eta0)
    (h2 : eta0 ≤ hi) :
    ∃ bnd, taylorBounds lib (mlpJaxpr arch B n X Y p v) (mlpConsts arch B n X Y p v) maxDegree propagate
        (ND.scalar eta0) (ND.scalar lo) (ND.scalar hi) = .ok bnd ∧
      ∀ eta, lo ≤ eta → eta ≤ hi → ∃ l u, bnd.lower (ND.scalar eta) = .ok l ∧ bnd.upper (ND.scalar eta) = .ok u ∧
        l.get [] ≤ mlpLoss sem arch B n X Y (p + eta • v) ∧ mlpLoss sem arch B n X Y (p + eta • v) ≤ u.get [] := by
  have hdef := actsDefined_of_usable hlib hact
  obtain ⟨v0, y0, e0, n0, j0, -, -, f0, r0⟩ := mlp_facts (X := X) (Y := Y) (p := p) (v := v) lib maxDegree.toNat
    (propagate && (maxDegree != 0)) hnet hdef eta0
  obtain ⟨bnd, hb, h⟩ := C53_static hlib harr hfull (lo := ND.scalar lo) (hi := ND.scalar hi) hmd rfl (by simp)
    (mem_scalar h1 h2) mlp_wf (fun _ => no_drop) f0 (r0 (by omega) hact) e0 n0 j0
  refine ⟨bnd, hb, fun eta g1 g2 => ?_⟩
  obtain ⟨vals, y, e, ne, j, s, val, -⟩ := mlp_facts (X := X) (Y := Y) (p := p) (v := v) lib maxDegree.toNat
    (propagate && (maxDegree != 0)) hnet hdef eta
  obtain ⟨l, u, hl, hu, -, -, hle⟩ := h _ y vals (mem_scalar g1 g2) e ne j
  have := hle [] (by rw [s]; exact .nil)
  rw [val] at this
  exact ⟨l, u, hl, hu, this⟩

/-- The loss of the network as a traced loss: what `bound_loss` of safe_learning_rates.ipynb is given. -/
def mlpTraced (arch : Arch) (B n : ℕ) (X Y : ℕ → ℕ → K) : TracedLoss K (Params K) :=
  ⟨mlpJaxpr arch B n X Y, mlpConsts arch B n X Y⟩

theorem mlp_traces (hnet : NetOk arch B n) (hact : ActsDefined sem arch) (m : K) :
    Traces sem (mlpTraced arch B n X Y) (mlpLoss sem arch B n X Y) p v m where
  eval eta _ _ := by
    obtain ⟨vals, y, e, ne, j, s, val, -⟩ := mlp_facts (X := X) (Y := Y) (p := p) (v := v) polyLib 0 false hnet hact eta
    exact ⟨vals, y, e, ne, j, s, val⟩
  fits eta _ _ := by
    obtain ⟨vals, y, e, ne, j, s, val, f, -⟩ := mlp_facts (X := X) (Y := Y) (p := p) (v := v) polyLib 0 false hnet hact eta
    exact f

/-- **C69 (training).** Training a network with the optimizer of safe_learning_rates.ipynb: however many steps it takes,
from whatever parameters and with whatever update directions, the loss never increases. -/
theorem C69_training (hlib : LibSound lib sem) (harr : LibArr lib) (hnet : NetOk arch B n) (hact : ActsDefined sem arch)
    (dir : Params K → Params K) {p0 : Params K} {m0 : K} (hm : 0 < m0) (k j : ℕ) {s s' : State K (Params K)}
    (h : runOptimizer lib (mlpTraced arch B n X Y) dir k (initState p0 m0) = .ok s)
    (h' : runOptimizer lib (mlpTraced arch B n X Y) dir (k + j) (initState p0 m0) = .ok s') :
    mlpLoss sem arch B n X Y s'.x ≤ mlpLoss sem arch B n X Y s.x :=
  (C68_optimizer hlib harr (fun _ m _ => mlp_traces hnet hact m) hm k j h h').1

/-! ### Linear networks -/

/-- the degree in `eta` of the variables of a linear network with `L` layers -/
def linDeg (L : ℕ) (w : ℤ) : ℕ :=
  if w = 0 then 1
  else if w % 2 = 1 ∨ w ≤ 0 then 0
  else if (w - 2) / 16 < L then
    if (w - 2) % 16 = 4 ∨ (w - 2) % 16 = 12 then ((w - 2) / 16).toNat + 1 else 1
  else if (w - 2) % 16 = 0 then L
  else 2 * L

theorem linDeg_le {L : ℕ} (hL : 0 < L) (w : ℤ) : linDeg L w ≤ 2 * L := by
  unfold linDeg
  split_ifs <;> omega

theorem linDeg_low {L l : ℕ} (h : l < L) : linDeg L (16 * l + 2) = 1 ∧ linDeg L (16 * l + 4) = 1 ∧
    linDeg L (16 * l + 6) = l + 1 ∧ linDeg L (16 * l + 8) = 1 ∧ linDeg L (16 * l + 10) = 1 ∧
    linDeg L (16 * l + 12) = 1 ∧ linDeg L (16 * l + 14) = l + 1 := by
  unfold linDeg
  refine ⟨?_, ?_, ?_, ?_, ?_, ?_, ?_⟩ <;> split_ifs <;> omega

theorem linDeg_top {L : ℕ} : linDeg L (16 * L + 2) = L ∧ linDeg L (16 * L + 4) = 2 * L ∧ linDeg L (16 * L + 6) = 2 * L := by
  unfold linDeg
  refine ⟨?_, ?_, ?_⟩ <;> split_ifs <;> omega

theorem linDeg_odd {L : ℕ} {w : ℤ} (h : w % 2 = 1) : linDeg L w = 0 := by
  unfold linDeg
  split_ifs <;> omega

theorem linear_poly (L : ℕ) : ∀ (arch : Arch) (l : ℕ) (h : ℤ), (∀ q ∈ arch, q.2 = none) → l + arch.length = L →
    linDeg L h = l → ∀ eqn ∈ (netEqns arch l h : List (Eqn K)), PolyOp (linDeg L) eqn.prim eqn.invars eqn.outvars
  | [], l, h, _, hl, hh, eqn, he => by
    obtain rfl : l = L := by simpa using hl
    obtain ⟨t1, t2, t3⟩ := linDeg_top (L := l)
    simp only [netEqns, List.mem_cons, List.not_mem_nil, or_false] at he
    rcases he with rfl | rfl | rfl
    · show max (linDeg l h) (linDeg l 3) ≤ linDeg l (16 * l + 2)
      rw [t1, hh, linDeg_odd rfl]
      omega
    · refine ⟨by decide, ?_⟩
      show (2 : ℤ) * (linDeg l (16 * l + 2) : ℤ) ≤ (linDeg l (16 * l + 4) : ℤ)
      rw [t1, t2]
      push_cast
      exact le_rfl
    · show linDeg l (16 * l + 4) ≤ linDeg l (16 * l + 6)
      rw [t2, t3]
  | (m, act) :: arch, l, h, hlin, hl, hh, eqn, he => by
    obtain rfl : act = none := hlin (m, act) (List.mem_cons_self ..)
    have hlt : l < L := by rw [← hl, List.length_cons]; omega
    obtain ⟨t1, t2, t3, t4, t5, t6, t7⟩ := linDeg_low hlt
    rw [netEqns, List.mem_append] at he
    rcases he with he | he
    · simp only [layerEqns, List.mem_cons, List.not_mem_nil, or_false, List.append_nil] at he
      have z : linDeg L 0 = 1 := rfl
      rcases he with rfl | rfl | rfl | rfl | rfl | rfl | rfl
      · show linDeg L 0 + linDeg L (8 * l + 7) ≤ linDeg L (16 * l + 2)
        rw [t1, z, linDeg_odd (by omega)]
      · show max (linDeg L (8 * l + 5)) (linDeg L (16 * l + 2)) ≤ linDeg L (16 * l + 4)
        rw [t1, t2, linDeg_odd (by omega)]
        decide
      · show linDeg L h + linDeg L (16 * l + 4) ≤ linDeg L (16 * l + 6)
        rw [t2, t3, hh]
      · show linDeg L 0 + linDeg L (8 * l + 11) ≤ linDeg L (16 * l + 8)
        rw [t4, z, linDeg_odd (by omega)]
      · show max (linDeg L (8 * l + 9)) (linDeg L (16 * l + 8)) ≤ linDeg L (16 * l + 10)
        rw [t4, t5, linDeg_odd (by omega)]
        decide
      · show linDeg L (16 * l + 10) ≤ linDeg L (16 * l + 12)
        rw [t5, t6]
      · show max (linDeg L (16 * l + 6)) (linDeg L (16 * l + 12)) ≤ linDeg L (16 * l + 14)
        rw [t3, t6, t7]
        omega
    · exact linear_poly L arch (l + 1) (16 * l + 14) (fun q hq => hlin q (List.mem_cons_of_mem _ hq))
        (by rw [← hl, List.length_cons]; omega) t7 eqn he

/-- **C69 (deep linear networks).** Without activation functions the loss of a network with `L` layers is a polynomial of
degree `2 L` in `eta`: with `max_degree ≥ 2 L`, `taylor_bounds` returns, and both bounds *equal* the loss at
`p + eta * v` for every `eta`, inside the trust region or not.  (The tables are not used: `lib` is arbitrary.) -/
theorem C69_linear_exact (hlib : LibSound lib sem) (harr : LibArr lib) (hfull : LibFull lib) (hnet : NetOk arch B n)
    (hlin : ∀ q ∈ arch, q.2 = none) {maxDegree : ℤ} {propagate : Bool} (hmd : 2 * (arch.length : ℤ) ≤ maxDegree)
    {lo eta0 hi : K} (h1 : lo ≤ eta0) (h2 : eta0 ≤ hi) :
    ∃ bnd, taylorBounds lib (mlpJaxpr arch B n X Y p v) (mlpConsts arch B n X Y p v) maxDegree propagate
        (ND.scalar eta0) (ND.scalar lo) (ND.scalar hi) = .ok bnd ∧
      ∀ eta, ∃ l u, bnd.lower (ND.scalar eta) = .ok l ∧ bnd.upper (ND.scalar eta) = .ok u ∧
        l.get [] = mlpLoss sem arch B n X Y (p + eta • v) ∧ u.get [] = mlpLoss sem arch B n X Y (p + eta • v) := by
  have hL : 0 < arch.length := List.length_pos_iff.2 hnet.layers
  have hus : ActsUsable lib maxDegree.toNat (propagate && (maxDegree != 0)) arch := by
    intro q hq name hn
    rw [hlin q hq] at hn
    cases hn
  have hdef := actsDefined_of_usable hlib hus
  obtain ⟨bnd, hb, -⟩ := C69_mlp_bounds (X := X) (Y := Y) (p := p) (v := v) hlib harr hfull hnet (maxDegree := maxDegree) (by omega) (by omega) hus h1 h2
  refine ⟨bnd, hb, fun eta => ?_⟩
  obtain ⟨v0, y0, e0, n0, -, -, -, f0, -⟩ := mlp_facts (X := X) (Y := Y) (p := p) (v := v) lib 0 false hnet hdef eta0
  obtain ⟨vals, y, e, ne, j, s, val, -⟩ := mlp_facts (X := X) (Y := Y) (p := p) (v := v) lib 0 false hnet hdef eta
  have hpoly : PolyProgram (linDeg arch.length) maxDegree.toNat (mlpJaxpr arch B n X Y p v) := by
    refine ⟨fun w => (linDeg_le hL w).trans (by omega), fun w hw => ?_, fun eqn he => Or.inr ?_⟩
    · rw [show w = 0 by simpa [mlpJaxpr] using hw]
      exact le_rfl
    · exact linear_poly _ arch 0 1 hlin (by simp) (linDeg_odd rfl) eqn he
  obtain ⟨l, u, hl, hu, sl, su⟩ := C63_polynomial_exact hlib hpoly (lo := ND.scalar lo) (hi := ND.scalar hi)
    (x := ND.scalar eta) rfl (mem_scalar h1 h2) rfl hb f0 e0 n0 e ne j
  refine ⟨l, u, hl, hu, ?_, ?_⟩
  · rw [sl.2 [] (by rw [sl.1, s]; exact .nil), val]
  · rw [su.2 [] (by rw [su.1, s]; exact .nil), val]

end

/-- **C69 (the code's own tables).** For every network whose activation functions are `exp`, or for degree 0 also `abs`
and `logistic`, or for degree at most 2 `jax.nn.softplus` (after rewriting): for every trust region around `eta0`, however small, `taylor_bounds`
returns, and for `max_degree ≥ 2` both bounds equal the loss at `p + eta0 * v`. -/
theorem C69_mlp_tables {arch : Arch} {B n : ℕ} {X Y : ℕ → ℕ → ℝ} {p v : Params ℝ} (hnet : NetOk arch B n)
    {maxDegree : ℤ} {propagate : Bool} (hmd : 0 ≤ maxDegree) (hmd1 : maxDegree ≠ 1)
    (hact : ∀ q ∈ arch, ∀ name, q.2 = some name → AlwaysRight name maxDegree.toNat) {lo eta0 hi : ℝ} (h1 : lo ≤ eta0)
    (h2 : eta0 ≤ hi) :
    ∃ bnd, taylorBounds realLib (mlpJaxpr arch B n X Y p v) (mlpConsts arch B n X Y p v) maxDegree propagate
        (ND.scalar eta0) (ND.scalar lo) (ND.scalar hi) = .ok bnd ∧
      ∃ l u, bnd.lower (ND.scalar eta0) = .ok l ∧ bnd.upper (ND.scalar eta0) = .ok u ∧
        l.get [] ≤ mlpLoss realSem arch B n X Y (p + eta0 • v) ∧ mlpLoss realSem arch B n X Y (p + eta0 • v) ≤ u.get [] ∧
        (2 ≤ maxDegree → l.get [] = u.get []) := by
  have hus : ActsUsable tableLib maxDegree.toNat (propagate && (maxDegree != 0)) arch :=
    fun q hq name hn => alwaysRight_usable (hact q hq name hn)
  have hdef : ActsDefined realSem arch := by
    intro q hq name hn
    obtain ⟨g, hg, -⟩ := hus q hq name hn
    obtain ⟨f, hf, -⟩ := (tableLib_soundAt []).gen name g hg
    exact ⟨f, hf⟩
  obtain ⟨v0, y0, e0, n0, j0, s0, val0, f0, r0⟩ := mlp_facts (X := X) (Y := Y) (p := p) (v := v) tableLib maxDegree.toNat
    (propagate && (maxDegree != 0)) hnet hdef eta0
  obtain ⟨bnd, hb, k1, ⟨l, u, hl, hu, -, -, hle⟩, -⟩ := C53_tables (lo := ND.scalar lo) (hi := ND.scalar hi) hmd rfl (by simp)
    (mem_scalar h1 h2) mlp_wf (fun _ => no_drop) f0 (r0 (by omega) hus) e0 n0 j0
  have hle' := hle [] (by rw [s0]; exact .nil)
  rw [val0] at hle'
  refine ⟨bnd, hb, l, u, hl, hu, hle'.1, hle'.2, fun hm2 => ?_⟩
  obtain ⟨l', u', hl', hu', sl, su⟩ := k1 (by omega)
  rw [hl] at hl'
  rw [hu] at hu'
  cases hl'
  cases hu'
  rw [sl.2 [] (by rw [sl.1, s0]; exact .nil), su.2 [] (by rw [su.1, s0]; exact .nil)]

end MLP
end AB
