/-
C74: `taylor_bounds` on the squared-error loss of a feed-forward network with convolutions, dense layers, pooling, reshapes
and activation functions, along a line of parameters (README.md:98, safe_learning_rates.ipynb).
-/
import Verif.Proofs.Net
import Verif.Props.MLP
import Verif.Props.Fat

set_option linter.unusedSectionVars false

namespace AB
namespace Net
open JB NB Lax
open MLP (mem_scalar Run)

section
variable {K : Type} [Field K] [LinearOrder K] [IsStrictOrderedRing K]
variable {lib : Lib K} {sem : Sem K} {layers : List Layer} {X Y : ND K} {p v : Params K}

/-- All activation functions have an implementation. -/
def ActsDefined (sem : Sem K) (layers : List Layer) : Prop := ∀ name, Layer.act name ∈ layers → ∃ f, sem.fn name = some f

/-- All activation functions are in the tables, with enclosure generators that return at the degree `md` (and at degree
0, if trust regions are propagated). -/
def ActsUsable (lib : Lib K) (md : ℕ) (propagate : Bool) (layers : List Layer) : Prop :=
  ∀ name, Layer.act name ∈ layers → ∃ g, lib.gen name = some g ∧ GenUsable md propagate g

theorem actsDefined_of_usable (hlib : LibSound lib sem) {md : ℕ} {propagate : Bool}
    (h : ActsUsable lib md propagate layers) : ActsDefined sem layers := by
  intro name hn
  obtain ⟨g, hg, -⟩ := h name hn
  obtain ⟨f, hf, -⟩ := hlib.gen name g hg
  exact ⟨f, hf⟩

theorem actDefined_of (h : ActsDefined sem layers) : ∀ L ∈ layers, ActDefined sem L := by
  intro L hL
  cases L with
  | act name => exact h name hL
  | _ => trivial

theorem actOk_of {md : ℕ} {propagate : Bool} (h : ActsUsable lib md propagate layers) :
    ∀ L ∈ layers, ActOk lib md propagate L := by
  intro L hL
  cases L with
  | act name => exact h name hL
  | _ => trivial

theorem loss_of_forward {w : Params K} {r : ND K} (h : forward sem w layers 0 X = .ok r) :
    netLoss sem layers X Y w = sqErr Y r := by
  unfold netLoss
  rw [h]
  rfl

/-- what is used about the program -/
theorem net_facts (lib : Lib K) (md : ℕ) (propagate : Bool) (hnet : NetOk layers X Y) (hact : ActsDefined sem layers) (eta : K) :
    ∃ vals y, evalEnv sem (netJaxpr layers X Y p v) (netConsts layers X Y p v) (ND.scalar eta) = .ok vals ∧
      NonEmptyVals vals ∧
      evalJaxpr sem (netJaxpr layers X Y p v) (netConsts layers X Y p v) (ND.scalar eta) = .ok y ∧
      y.shape = [] ∧ y.get [] = netLoss sem layers X Y (p + eta • v) ∧
      ProgramFits sem (netJaxpr layers X Y p v) (netConsts layers X Y p v) (ND.scalar eta) ∧
      (ActsUsable lib md propagate layers → EqnsReturn lib sem [] md propagate (netJaxpr layers X Y p v).constvars
        (evalInit (netJaxpr layers X Y p v) (netConsts layers X Y p v) (ND.scalar eta))
        (netJaxpr layers X Y p v).eqns) := by
  obtain ⟨vals, hr, hne, y, r, hl, hs, hf, -, -, hv⟩ := whole_run (lib := lib) (md := md) (prop := propagate)
    (G := ActsUsable lib md propagate layers) (p := p) (v := v) hnet (actDefined_of hact) (fun g => actOk_of g) eta
  refine ⟨vals, y, hr.eval, hne, ?_, hs, hv.trans (loss_of_forward hf).symm, ⟨?_, _, counts_fit, hr.fit⟩, hr.ret⟩
  · have he : evalEnv sem (netJaxpr layers X Y p v) (netConsts layers X Y p v) (ND.scalar eta) = .ok vals := hr.eval
    unfold evalJaxpr
    rw [he, py_ok_bind]
    show getVal vals (.var (16 * layers.length + 16)) = _
    unfold getVal
    simp only [hl]
  · intro w hw hw'
    have := consts_odd w hw'
    have : w = 0 := by simpa [netJaxpr] using hw
    omega

/-- **C74 (the network).** For every network whose layers accept each other's outputs, the forward pass returns an array of
the shape of the targets, which is the array that the documentation of `jax.lax` describes (`NetIs`), and the loss is the
sum of the squared differences. -/
theorem C74_documented (hnet : NetOk layers X Y) (hact : ActsDefined sem layers) (w : Params K) :
    ∃ r, forward sem w layers 0 X = .ok r ∧ NetIs sem w layers 0 X r ∧ r.shape = Y.shape ∧
      netLoss sem layers X Y w = ((idx Y.shape).map fun I => (r.get I - Y.get I) ^ 2).sum := by
  obtain ⟨-, -, -, -, r, -, -, hf, hn, hs, -⟩ := whole_run (lib := polyLib) (md := 0) (prop := false) (G := False) (p := w)
    (v := w) hnet (actDefined_of hact) (fun g => g.elim) 0
  rw [zero_smul, add_zero] at hf hn
  exact ⟨r, hf, hn, hs, loss_of_forward hf⟩

/-- **C74 (the program).** The Jaxpr evaluates to the loss at `p + eta * v`. -/
theorem C74_evaluates (hnet : NetOk layers X Y) (hact : ActsDefined sem layers) (eta : K) :
    ∃ y, evalJaxpr sem (netJaxpr layers X Y p v) (netConsts layers X Y p v) (ND.scalar eta) = .ok y ∧
      y.shape = [] ∧ y.get [] = netLoss sem layers X Y (p + eta • v) := by
  obtain ⟨_, y, -, -, h1, h2, h3, -⟩ := net_facts (p := p) (v := v) polyLib 0 false hnet hact eta
  exact ⟨y, h1, h2, h3⟩

/-- **C74 (soundness and totality).** For every network, every `lo ≤ eta0 ≤ hi` and every degree, with or without
propagated trust regions: if the tables are right about the activation functions and their generators return, then
`taylor_bounds` returns, and for every `eta` in `[lo, hi]` the loss at `p + eta * v` lies between `lower(eta)` and
`upper(eta)`. -/
theorem C74_bounds (hlib : LibSound lib sem) (harr : LibArr lib) (hfull : LibFull lib) (hnet : NetOk layers X Y)
    {maxDegree : ℤ} {propagate : Bool} (hmd : 0 ≤ maxDegree)
    (hact : ActsUsable lib maxDegree.toNat (propagate && (maxDegree != 0)) layers) {lo eta0 hi : K} (h1 : lo ≤ eta0)
    (h2 : eta0 ≤ hi) :
    ∃ bnd, taylorBounds lib (netJaxpr layers X Y p v) (netConsts layers X Y p v) maxDegree propagate
        (ND.scalar eta0) (ND.scalar lo) (ND.scalar hi) = .ok bnd ∧
      ∀ eta, lo ≤ eta → eta ≤ hi → ∃ l u, bnd.lower (ND.scalar eta) = .ok l ∧ bnd.upper (ND.scalar eta) = .ok u ∧
        l.get [] ≤ netLoss sem layers X Y (p + eta • v) ∧ netLoss sem layers X Y (p + eta • v) ≤ u.get [] := by
  have hdef := actsDefined_of_usable hlib hact
  obtain ⟨v0, y0, e0, n0, j0, -, -, f0, r0⟩ := net_facts (p := p) (v := v) lib maxDegree.toNat
    (propagate && (maxDegree != 0)) hnet hdef eta0
  obtain ⟨bnd, hb, h⟩ := C53_static hlib harr hfull (lo := ND.scalar lo) (hi := ND.scalar hi) hmd rfl (by simp)
    (mem_scalar h1 h2) net_wf (fun _ => no_drop) f0 (r0 hact) e0 n0 j0
  refine ⟨bnd, hb, fun eta g1 g2 => ?_⟩
  obtain ⟨vals, y, e, ne, j, s, val, -⟩ := net_facts (p := p) (v := v) lib maxDegree.toNat
    (propagate && (maxDegree != 0)) hnet hdef eta
  obtain ⟨l, u, hl, hu, -, -, hle⟩ := h _ y vals (mem_scalar g1 g2) e ne j
  have := hle [] (by rw [s]; exact .nil)
  rw [val] at this
  exact ⟨l, u, hl, hu, this⟩

/-- The loss of the network as a traced loss: what `bound_loss` of safe_learning_rates.ipynb is given. -/
def netTraced (layers : List Layer) (X Y : ND K) : TracedLoss K (Params K) :=
  ⟨netJaxpr layers X Y, netConsts layers X Y⟩

theorem net_traces (hnet : NetOk layers X Y) (hact : ActsDefined sem layers) (m : K) :
    Traces sem (netTraced layers X Y) (netLoss sem layers X Y) p v m where
  eval eta _ _ := by
    obtain ⟨vals, y, e, ne, j, s, val, -⟩ := net_facts (p := p) (v := v) polyLib 0 false hnet hact eta
    exact ⟨vals, y, e, ne, j, s, val⟩
  fits eta _ _ := by
    obtain ⟨vals, y, e, ne, j, s, val, f, -⟩ := net_facts (p := p) (v := v) polyLib 0 false hnet hact eta
    exact f

/-- **C74 (training).** Training a network with the optimizer of safe_learning_rates.ipynb: however many steps it takes,
from whatever parameters and with whatever update directions, the loss never increases. -/
theorem C74_training (hlib : LibSound lib sem) (harr : LibArr lib) (hnet : NetOk layers X Y) (hact : ActsDefined sem layers)
    (dir : Params K → Params K) {p0 : Params K} {m0 : K} (hm : 0 < m0) (k j : ℕ) {s s' : State K (Params K)}
    (h : runOptimizer lib (netTraced layers X Y) dir k (initState p0 m0) = .ok s)
    (h' : runOptimizer lib (netTraced layers X Y) dir (k + j) (initState p0 m0) = .ok s') :
    netLoss sem layers X Y s'.x ≤ netLoss sem layers X Y s.x :=
  (C68_optimizer hlib harr (fun _ m _ => net_traces hnet hact m) hm k j h h').1

/-! ### Networks without activation functions -/

/-- The number of layers with parameters. -/
def paramLayers : List Layer → ℕ
  | [] => 0
  | .conv _ _ _ :: Ls => paramLayers Ls + 1
  | .dot _ _ _ _ :: Ls => paramLayers Ls + 1
  | _ :: Ls => paramLayers Ls

theorem paramLayers_append : ∀ L1 L2 : List Layer, paramLayers (L1 ++ L2) = paramLayers L1 + paramLayers L2
  | [], L2 => (Nat.zero_add _).symm
  | .conv _ _ _ :: L1, L2 => by simp only [List.cons_append, paramLayers, paramLayers_append L1 L2]; omega
  | .dot _ _ _ _ :: L1, L2 => by simp only [List.cons_append, paramLayers, paramLayers_append L1 L2]; omega
  | .act _ :: L1, L2 => paramLayers_append L1 L2
  | .pool _ :: L1, L2 => paramLayers_append L1 L2
  | .reshape _ :: L1, L2 => paramLayers_append L1 L2

/-- the degree in `eta` of the variables of a network without activation functions -/
def linDeg (layers : List Layer) (w : ℤ) : ℕ :=
  if w = 0 then 1
  else if w % 2 = 1 ∨ w ≤ 0 then 0
  else if w % 16 = 6 ∨ w % 16 = 12 then paramLayers (layers.take ((w / 16).toNat + 1))
  else if w % 16 = 14 ∨ w % 16 = 0 then 2 * paramLayers layers
  else 1

theorem paramLayers_take (layers : List Layer) (n : ℕ) : paramLayers (layers.take n) ≤ paramLayers layers := by
  conv_rhs => rw [← List.take_append_drop n layers, paramLayers_append]
  omega

theorem linDeg_le {layers : List Layer} (hL : 0 < paramLayers layers) (w : ℤ) : linDeg layers w ≤ 2 * paramLayers layers := by
  unfold linDeg
  have := paramLayers_take layers ((w / 16).toNat + 1)
  split_ifs <;> omega

theorem linDeg_odd {layers : List Layer} {w : ℤ} (h : w % 2 = 1) : linDeg layers w = 0 := by
  unfold linDeg
  split_ifs <;> omega

theorem linDeg_one {layers : List Layer} (l : ℕ) {k : ℤ} (hk : k = 2 ∨ k = 4 ∨ k = 8 ∨ k = 10) :
    linDeg layers (16 * l + k) = 1 := by
  unfold linDeg
  split_ifs <;> omega

theorem linDeg_out {layers : List Layer} (l : ℕ) {k : ℤ} (hk : k = 6 ∨ k = 12) :
    linDeg layers (16 * l + k) = paramLayers (layers.take (l + 1)) := by
  unfold linDeg
  rw [if_neg (by omega), if_neg (by omega), if_pos (by omega)]
  congr 2
  omega

theorem linDeg_loss {layers : List Layer} (l : ℕ) {k : ℤ} (hk : k = 14 ∨ k = 16) :
    linDeg layers (16 * l + k) = 2 * paramLayers layers := by
  unfold linDeg
  rw [if_neg (by omega), if_neg (by omega), if_neg (by omega), if_pos (by omega)]

theorem param_poly {layers : List Layer} {op : Prim K} (hop : ∀ (a b : Atom K) (o : ℤ),
      PolyOp (linDeg layers) op [a, b] [o] ↔ a.degree (linDeg layers) + b.degree (linDeg layers) ≤ linDeg layers o)
    {l : ℕ} {h : ℤ} (hl : linDeg layers h + 1 ≤ paramLayers (layers.take (l + 1))) :
    ∀ eqn ∈ paramEqns op l h, PolyOp (linDeg layers) eqn.prim eqn.invars eqn.outvars := by
  intro eqn he
  have t1 := linDeg_one (layers := layers) l (k := 2) (by simp)
  have t2 := linDeg_one (layers := layers) l (k := 4) (by simp)
  have t4 := linDeg_one (layers := layers) l (k := 8) (by simp)
  have t5 := linDeg_one (layers := layers) l (k := 10) (by simp)
  have t3 := linDeg_out (layers := layers) l (k := 6) (by simp)
  have t6 := linDeg_out (layers := layers) l (k := 12) (by simp)
  have z : linDeg layers 0 = 1 := rfl
  simp only [paramEqns, List.mem_cons, List.not_mem_nil, or_false] at he
  rcases he with rfl | rfl | rfl | rfl | rfl | rfl
  · show linDeg layers 0 + linDeg layers (8 * l + 7) ≤ linDeg layers (16 * l + 2)
    rw [t1, z, linDeg_odd (by omega)]
  · show max (linDeg layers (8 * l + 5)) (linDeg layers (16 * l + 2)) ≤ linDeg layers (16 * l + 4)
    rw [t1, t2, linDeg_odd (by omega)]
    decide
  · refine (hop _ _ _).2 ?_
    show linDeg layers h + linDeg layers (16 * l + 4) ≤ linDeg layers (16 * l + 6)
    rw [t2, t3]
    exact hl
  · show linDeg layers 0 + linDeg layers (8 * l + 11) ≤ linDeg layers (16 * l + 8)
    rw [t4, z, linDeg_odd (by omega)]
  · show max (linDeg layers (8 * l + 9)) (linDeg layers (16 * l + 8)) ≤ linDeg layers (16 * l + 10)
    rw [t4, t5, linDeg_odd (by omega)]
    decide
  · show max (linDeg layers (16 * l + 6)) (linDeg layers (16 * l + 10)) ≤ linDeg layers (16 * l + 12)
    rw [t3, t5, t6]
    omega

theorem body_poly {layers : List Layer} : ∀ (L1 Ls : List Layer) (h : ℤ), layers = L1 ++ Ls →
    (∀ name, Layer.act name ∉ layers) → linDeg layers h ≤ paramLayers L1 →
    ∀ eqn ∈ (bodyEqns Ls L1.length h : List (Eqn K)), PolyOp (linDeg layers) eqn.prim eqn.invars eqn.outvars
  | _, [], _, _, _, _, eqn, he => absurd he List.not_mem_nil
  | L1, L :: Ls, h, hl, hlin, hh, eqn, he => by
    have e1 : layers.take (L1.length + 1) = L1 ++ [L] := by rw [hl, List.take_append]; simp
    have t6 := linDeg_out (layers := layers) L1.length (k := 12) (by simp)
    rw [e1, paramLayers_append] at t6
    have one : linDeg layers h ≤ linDeg layers (16 * (L1.length : ℤ) + 12) := by rw [t6]; omega
    rw [bodyEqns, List.mem_append] at he
    rcases he with he | he
    · cases L with
      | conv c ks bs =>
        refine param_poly (fun _ _ _ => Iff.rfl) ?_ eqn he
        rw [e1, paramLayers_append]
        show _ ≤ paramLayers L1 + 1
        omega
      | dot lc rc ks bs =>
        refine param_poly (fun _ _ _ => Iff.rfl) ?_ eqn he
        rw [e1, paramLayers_append]
        show _ ≤ paramLayers L1 + 1
        omega
      | act name => exact absurd (by rw [hl]; simp) (hlin name)
      | pool ws =>
        rw [List.mem_singleton.1 he]
        exact one
      | reshape s =>
        rw [List.mem_singleton.1 he]
        exact one
    · have := body_poly (L1 ++ [L]) Ls (16 * L1.length + 12) (by simp [hl]) hlin
        (by rw [t6, paramLayers_append]) eqn
      rw [List.length_append] at this
      exact this he

/-- **C74 (linear networks).** Without activation functions the loss is a polynomial in `eta` of degree twice the number of
layers with parameters: if `max_degree` is at least that, `taylor_bounds` returns, and both bounds *equal* the loss at
`p + eta * v` for every `eta`, inside the trust region or not. -/
theorem C74_linear_exact (hlib : LibSound lib sem) (harr : LibArr lib) (hfull : LibFull lib) (hnet : NetOk layers X Y)
    (hlin : ∀ name, Layer.act name ∉ layers) {maxDegree : ℤ} {propagate : Bool}
    (hmd : 2 * (paramLayers layers : ℤ) ≤ maxDegree) {lo eta0 hi : K} (h1 : lo ≤ eta0) (h2 : eta0 ≤ hi) :
    ∃ bnd, taylorBounds lib (netJaxpr layers X Y p v) (netConsts layers X Y p v) maxDegree propagate
        (ND.scalar eta0) (ND.scalar lo) (ND.scalar hi) = .ok bnd ∧
      ∀ eta, ∃ l u, bnd.lower (ND.scalar eta) = .ok l ∧ bnd.upper (ND.scalar eta) = .ok u ∧
        l.get [] = netLoss sem layers X Y (p + eta • v) ∧ u.get [] = netLoss sem layers X Y (p + eta • v) := by
  have hL : 0 < paramLayers layers := by
    obtain ⟨L, h, hp⟩ := hnet.first
    cases hlay : layers with
    | nil => rw [hlay] at h; cases h
    | cons L' Ls =>
      rw [hlay] at h
      cases h
      cases L <;> first | exact Nat.succ_pos _ | exact hp.elim
  have hus : ActsUsable lib maxDegree.toNat (propagate && (maxDegree != 0)) layers := fun name hn => absurd hn (hlin name)
  have hdef := actsDefined_of_usable hlib hus
  obtain ⟨bnd, hb, -⟩ := C74_bounds (p := p) (v := v) hlib harr hfull hnet (maxDegree := maxDegree) (by omega) hus h1 h2
  refine ⟨bnd, hb, fun eta => ?_⟩
  obtain ⟨v0, y0, e0, n0, -, -, -, f0, -⟩ := net_facts (p := p) (v := v) lib 0 false hnet hdef eta0
  obtain ⟨vals, y, e, ne, j, s, val, -⟩ := net_facts (p := p) (v := v) lib 0 false hnet hdef eta
  have hpoly : PolyProgram (linDeg layers) maxDegree.toNat (netJaxpr layers X Y p v) := by
    refine ⟨fun w => (linDeg_le hL w).trans (by omega), fun w hw => ?_, fun eqn he => Or.inr ?_⟩
    · rw [show w = 0 by simpa [netJaxpr] using hw]
      exact le_rfl
    · rcases List.mem_append.1 he with he | he
      · exact body_poly [] layers 1 rfl hlin (le_of_eq (linDeg_odd rfl)) eqn he
      · have hout : ∀ (L1 Ls : List Layer) (h : ℤ), layers = L1 ++ Ls → linDeg layers h ≤ paramLayers layers →
            linDeg layers (outVar Ls L1.length h) ≤ paramLayers layers := by
          intro L1 Ls
          induction Ls generalizing L1 with
          | nil => intro h _ hh; exact hh
          | cons L Ls ih =>
            intro h hl _
            have := ih (L1 ++ [L]) (16 * L1.length + 12) (by simp [hl])
              (by rw [linDeg_out _ (by simp)]; exact paramLayers_take _ _)
            rw [List.length_append] at this
            exact this
        have t := hout [] layers 1 rfl ((linDeg_odd rfl).le.trans (Nat.zero_le _))
        have t1 := linDeg_out (layers := layers) layers.length (k := 12) (by simp)
        rw [List.take_of_length_le (by omega)] at t1
        have t2 := linDeg_loss (layers := layers) layers.length (k := 14) (by simp)
        have t3 := linDeg_loss (layers := layers) layers.length (k := 16) (by simp)
        simp only [lossEqns, List.mem_cons, List.not_mem_nil, or_false] at he
        rcases he with rfl | rfl | rfl
        · show max (linDeg layers (outVar layers 0 1)) (linDeg layers 3) ≤ linDeg layers (16 * layers.length + 12)
          rw [t1, linDeg_odd (show (3 : ℤ) % 2 = 1 from rfl)]
          exact max_le t (Nat.zero_le _)
        · refine ⟨by decide, ?_⟩
          show (2 : ℤ) * (linDeg layers (16 * layers.length + 12) : ℤ) ≤ (linDeg layers (16 * layers.length + 14) : ℤ)
          rw [t1, t2]
          push_cast
          exact le_rfl
        · show linDeg layers (16 * layers.length + 14) ≤ linDeg layers (16 * layers.length + 16)
          rw [t2, t3]
  obtain ⟨l, u, hl, hu, sl, su⟩ := C63_polynomial_exact hlib hpoly (lo := ND.scalar lo) (hi := ND.scalar hi)
    (x := ND.scalar eta) rfl (mem_scalar h1 h2) rfl hb f0 e0 n0 e ne j
  refine ⟨l, u, hl, hu, ?_, ?_⟩
  · rw [sl.2 [] (by rw [sl.1, s]; exact .nil), val]
  · rw [su.2 [] (by rw [su.1, s]; exact .nil), val]

end

/-! ### The code's own tables -/

section
variable {layers : List Layer} {X Y : ND ℝ} {p v : Params ℝ}

theorem usable_of_right {md : ℕ} {propagate : Bool} (hact : ∀ name, Layer.act name ∈ layers → AlwaysRight name md) :
    ActsUsable tableLib md propagate layers := fun name hn => alwaysRight_usable (hact name hn)

theorem defined_of_right {md : ℕ} (hact : ∀ name, Layer.act name ∈ layers → AlwaysRight name md) :
    ActsDefined realSem layers := by
  intro name hn
  obtain ⟨g, hg, -⟩ := usable_of_right (propagate := false) hact name hn
  obtain ⟨f, hf, -⟩ := (tableLib_soundAt []).gen name g hg
  exact ⟨f, hf⟩

/-- **C74 (the code's own tables).** For every network whose activation functions are `exp`, or for degree at most 1 `abs`
and the sigmoid, or for degree at most 2 softplus: for every trust region around `eta0`, however small, `taylor_bounds`
returns, and for `max_degree ≥ 1` both bounds equal the loss at `p + eta0 * v`. -/
theorem C74_tables (hnet : NetOk layers X Y) {maxDegree : ℤ} {propagate : Bool} (hmd : 0 ≤ maxDegree)
    (hact : ∀ name, Layer.act name ∈ layers → AlwaysRight name maxDegree.toNat) {lo eta0 hi : ℝ} (h1 : lo ≤ eta0)
    (h2 : eta0 ≤ hi) :
    ∃ bnd, taylorBounds realLib (netJaxpr layers X Y p v) (netConsts layers X Y p v) maxDegree propagate
        (ND.scalar eta0) (ND.scalar lo) (ND.scalar hi) = .ok bnd ∧
      ∃ l u, bnd.lower (ND.scalar eta0) = .ok l ∧ bnd.upper (ND.scalar eta0) = .ok u ∧
        l.get [] ≤ netLoss realSem layers X Y (p + eta0 • v) ∧ netLoss realSem layers X Y (p + eta0 • v) ≤ u.get [] ∧
        (1 ≤ maxDegree → l.get [] = u.get []) := by
  obtain ⟨v0, y0, e0, n0, j0, s0, val0, f0, r0⟩ := net_facts (p := p) (v := v) tableLib maxDegree.toNat
    (propagate && (maxDegree != 0)) hnet (defined_of_right hact) eta0
  obtain ⟨bnd, hb, k1, ⟨l, u, hl, hu, -, -, hle⟩, -⟩ := C53_tables (lo := ND.scalar lo) (hi := ND.scalar hi) hmd rfl (by simp)
    (mem_scalar h1 h2) net_wf (fun _ => no_drop) f0 (r0 (usable_of_right hact)) e0 n0 j0
  have hle' := hle [] (by rw [s0]; exact .nil)
  rw [val0] at hle'
  refine ⟨bnd, hb, l, u, hl, hu, hle'.1, hle'.2, fun hm1 => ?_⟩
  obtain ⟨l', u', hl', hu', sl, su⟩ := k1 (by omega)
  rw [hl] at hl'
  rw [hu] at hu'
  cases hl'
  cases hu'
  rw [sl.2 [] (by rw [sl.1, s0]; exact .nil), su.2 [] (by rw [su.1, s0]; exact .nil)]

/-- Every entry of every input of an activation function takes, for some `eta` in `[lo, hi]`, a value smaller by `η` than
its value at `eta0`, and a value larger by `η`.  For softplus in degree 2 its value at `eta0` is 0, or not too close to
0. -/
def WideActs (layers : List Layer) (X : ND ℝ) (p v : Params ℝ) (maxDegree : ℤ) (lo eta0 hi η : ℝ) : Prop :=
  ∀ L1 name L2 r0, layers = L1 ++ .act name :: L2 → forward realSem (p + eta0 • v) L1 0 X = .ok r0 →
    ∀ I, ValidIdx r0.shape I →
      (∃ eta r, lo ≤ eta ∧ eta ≤ hi ∧ forward realSem (p + eta • v) L1 0 X = .ok r ∧ r.get I ≤ r0.get I - η) ∧
      (∃ eta r, lo ≤ eta ∧ eta ≤ hi ∧ forward realSem (p + eta • v) L1 0 X = .ok r ∧ r0.get I + η ≤ r.get I) ∧
      (builtinName name = some .softplus → maxDegree = 2 → r0.get I = 0 ∨ η ≤ 2 * |r0.get I|)

/-- enclosures are taken from the tables for the activation functions only -/
theorem curved_split {tail : List (Eqn ℝ)} (ht : ∀ e ∈ tail, curvedArg e.prim e.invars = none) :
    ∀ (Ls : List Layer) (l : ℕ) (h : ℤ) {pre post : List (Eqn ℝ)} {eqn : Eqn ℝ} {t : Atom ℝ},
    bodyEqns Ls l h ++ tail = pre ++ eqn :: post → curvedArg eqn.prim eqn.invars = some t →
    ∃ L1 name L2, Ls = L1 ++ .act name :: L2 ∧ pre = bodyEqns L1 l h ∧ eqn.prim = .elementwise name ∧
      t = .var (outVar L1 l h)
  | [], l, h, pre, post, eqn, t, he, hc => by
    have : eqn ∈ tail := by
      rw [show tail = pre ++ eqn :: post from he]
      simp
    rw [ht eqn this] at hc
    cases hc
  | L :: Ls, l, h, pre, post, eqn, t, he, hc => by
    rw [bodyEqns, List.append_assoc, List.append_eq_append_iff] at he
    have step : ∀ {pre'}, bodyEqns Ls (l + 1) (16 * l + 12) ++ tail = pre' ++ eqn :: post → pre = layerEqns L l h ++ pre' →
        ∃ L1 name L2, L :: Ls = L1 ++ .act name :: L2 ∧ pre = bodyEqns L1 l h ∧ eqn.prim = .elementwise name ∧
          t = .var (outVar L1 l h) := by
      intro pre' h1 h2
      obtain ⟨L1, name, L2, e1, e2, e3, e4⟩ := curved_split ht Ls (l + 1) (16 * l + 12) h1 hc
      refine ⟨L :: L1, name, L2, by rw [e1]; rfl, ?_, e3, e4⟩
      rw [h2, e2]
      rfl
    rcases he with ⟨pre', h1, h2⟩ | ⟨c, h1, h2⟩
    · exact step h2 h1
    · cases c with
      | nil =>
        rw [List.append_nil] at h1
        exact step (pre' := []) h2.symm (by rw [List.append_nil, h1])
      | cons e c =>
        rw [List.cons_append] at h2
        obtain ⟨rfl, -⟩ := List.cons.inj h2
        have hmem : eqn ∈ layerEqns L l h := by rw [h1]; simp
        cases L with
        | conv c' ks bs =>
          exfalso
          simp only [layerEqns, paramEqns, List.mem_cons, List.not_mem_nil, or_false] at hmem
          rcases hmem with rfl | rfl | rfl | rfl | rfl | rfl <;> cases hc
        | dot lc rc ks bs =>
          exfalso
          simp only [layerEqns, paramEqns, List.mem_cons, List.not_mem_nil, or_false] at hmem
          rcases hmem with rfl | rfl | rfl | rfl | rfl | rfl <;> cases hc
        | act name =>
          rw [layerEqns] at h1
          cases pre with
          | nil =>
            obtain ⟨rfl, -⟩ := List.cons.inj h1
            cases hc
            exact ⟨[], name, Ls, rfl, rfl, rfl, rfl⟩
          | cons e' pre =>
            have := congrArg List.length h1
            simp at this
        | pool ws =>
          exfalso
          rw [List.mem_singleton.1 hmem] at hc
          cases hc
        | reshape s =>
          exfalso
          rw [List.mem_singleton.1 hmem] at hc
          cases hc

theorem fat_of_wide (hnet : NetOk layers X Y) (hact : ActsDefined realSem layers) {maxDegree : ℤ} {lo eta0 hi η : ℝ}
    (hw : WideActs layers X p v maxDegree lo eta0 hi η) :
    FatArgs realSem (netJaxpr layers X Y p v) (netConsts layers X Y p v) maxDegree (ND.scalar eta0) (ND.scalar lo)
      (ND.scalar hi) η := by
  intro pre eqn post t a0 he hc _ ha I hI
  obtain ⟨L1, name, L2, e1, rfl, e3, rfl⟩ := curved_split (by
    intro e he
    simp only [lossEqns, List.mem_cons, List.not_mem_nil, or_false] at he
    rcases he with rfl | rfl | rfl
    · rfl
    · rfl
    · rfl) layers 0 1 he hc
  have key : ∀ eta : ℝ, ∃ r, forward realSem (p + eta • v) L1 0 X = .ok r ∧
      ∀ a, ValueAfter realSem (netJaxpr layers X Y p v) (netConsts layers X Y p v) (bodyEqns L1 0 1) (ND.scalar eta)
        (.var (outVar L1 0 1)) a ↔ a = r := by
    intro eta
    obtain ⟨vals, hr, hne, r, hl, hf, -⟩ := prefix_run (lib := tableLib) (md := 0) (prop := false) (G := False) (p := p) (v := v)
      e1 hnet (actDefined_of hact) (fun g => g.elim) eta
    have hev : evalEnv realSem { netJaxpr layers X Y p v with eqns := bodyEqns L1 0 1 } (netConsts layers X Y p v)
      (ND.scalar eta) = .ok vals := hr.eval
    have hg : getVal vals (.var (outVar L1 0 1)) = .ok r := by unfold getVal; simp only [hl]
    refine ⟨r, hf, fun a => ⟨?_, ?_⟩⟩
    · rintro ⟨vals', h1, -, h2⟩
      rw [hev] at h1
      cases h1
      rw [hg] at h2
      cases h2
      rfl
    · rintro rfl
      exact ⟨vals, hev, hne, hg⟩
  obtain ⟨r0, hf0, k0⟩ := key eta0
  obtain rfl := (k0 a0).1 ha
  obtain ⟨⟨ea, ra, a1, a2, a3, a4⟩, ⟨eb, rb, b1, b2, b3, b4⟩, hs⟩ := hw L1 name L2 a0 e1 hf0 I hI
  obtain ⟨ra', fa, ka⟩ := key ea
  obtain ⟨rb', fb, kb⟩ := key eb
  rw [a3] at fa
  cases fa
  rw [b3] at fb
  cases fb
  refine ⟨⟨_, _, mem_scalar a1 a2, (ka _).2 rfl, a4⟩, ⟨_, _, mem_scalar b1 b2, (kb _).2 rfl, b4⟩, fun h => ?_⟩
  rw [e3] at h
  exact hs h

/-- **C74 (the code's own tables, wide trust regions).** Activation functions as in `C74_tables`; `1e-12 ≤ η ^ max_degree`.
If the inputs of all activation functions vary by at least `η` in both directions over `[lo, hi]`, then `taylor_bounds`
returns, and for every `eta` in `[lo, hi]` the loss at `p + eta * v` lies between the bounds. -/
theorem C74_wide (hnet : NetOk layers X Y) {maxDegree : ℤ} {propagate : Bool} (hmd : 0 ≤ maxDegree)
    (hact : ∀ name, Layer.act name ∈ layers → AlwaysRight name maxDegree.toNat) {lo eta0 hi η : ℝ} (h1 : lo ≤ eta0)
    (h2 : eta0 ≤ hi) (hη : 0 ≤ η) (hηd : 1 / 10 ^ 12 ≤ η ^ maxDegree.toNat)
    (hw : WideActs layers X p v maxDegree lo eta0 hi η) :
    ∃ bnd, taylorBounds realLib (netJaxpr layers X Y p v) (netConsts layers X Y p v) maxDegree propagate
        (ND.scalar eta0) (ND.scalar lo) (ND.scalar hi) = .ok bnd ∧
      ∀ eta, lo ≤ eta → eta ≤ hi → ∃ l u, bnd.lower (ND.scalar eta) = .ok l ∧ bnd.upper (ND.scalar eta) = .ok u ∧
        l.get [] ≤ netLoss realSem layers X Y (p + eta • v) ∧ netLoss realSem layers X Y (p + eta • v) ≤ u.get [] := by
  have hdef := defined_of_right hact
  obtain ⟨v0, y0, e0, n0, j0, -, -, f0, r0⟩ := net_facts (p := p) (v := v) tableLib maxDegree.toNat
    (propagate && (maxDegree != 0)) hnet hdef eta0
  obtain ⟨bnd, hb, h⟩ := C73_total (lo := ND.scalar lo) (hi := ND.scalar hi) (propagate := propagate) hmd rfl (by simp)
    (mem_scalar h1 h2) net_wf (fun _ => no_drop) f0 (r0 (usable_of_right hact)) hη hηd (fat_of_wide hnet hdef hw) e0 n0 j0
  refine ⟨bnd, hb, fun eta g1 g2 => ?_⟩
  obtain ⟨vals, y, e, ne, j, s, val, -⟩ := net_facts (p := p) (v := v) tableLib maxDegree.toNat
    (propagate && (maxDegree != 0)) hnet hdef eta
  obtain ⟨l, u, hl, hu, -, -, hle⟩ := h _ y vals (mem_scalar g1 g2) e ne j
  have := hle [] (by rw [s]; exact .nil)
  rw [val] at this
  exact ⟨l, u, hl, hu, this⟩

end
end Net
end AB
