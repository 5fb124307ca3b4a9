/-
Helper lemmas for the programs of Spec/MLP.lean: they evaluate to the mathematical definition, and meet the conditions of
the claims about `taylor_bounds`.
-/
import Verif.Spec.MLP
import Verif.Spec.TotalStatic
import Verif.Proofs.Lax
import Verif.Proofs.PolyAlg

set_option linter.unusedSectionVars false

namespace AB
namespace MLP
variable {K : Type} [Field K] [LinearOrder K] [IsStrictOrderedRing K]
open JB ND

/-! ### Arrays -/

/-- `a` is the `B × n` matrix `h` -/
def IsMat (a : ND K) (B n : ℕ) (h : ℕ → ℕ → K) : Prop :=
  a.shape = [B, n] ∧ ∀ i, i < B → ∀ k, k < n → a.get [i, k] = h i k

/-- `a` is the vector `h` of size `n` -/
def IsVec (a : ND K) (n : ℕ) (h : ℕ → K) : Prop := a.shape = [n] ∧ ∀ k, k < n → a.get [k] = h k

theorem isMat_mat (a b : ℕ) (f : ℕ → ℕ → K) : IsMat (mat a b f) a b f := ⟨rfl, fun _ _ _ _ => rfl⟩
theorem isVec_vec (a : ℕ) (f : ℕ → K) : IsVec (vec a f) a f := ⟨rfl, fun _ _ => rfl⟩

theorem valid2 {B n i k : ℕ} (hi : i < B) (hk : k < n) : ValidIdx [B, n] [i, k] := .cons hi (.cons hk .nil)
theorem valid1 {n k : ℕ} (hk : k < n) : ValidIdx [n] [k] := .cons hk .nil

theorem canon_get2 {a : ND K} {B n i k : ℕ} (hs : a.shape = [B, n]) (hi : i < B) (hk : k < n) :
    a.canon.get [i, k] = a.get [i, k] := canon_get a (by rw [hs]; exact valid2 hi hk)

theorem canon_get1 {a : ND K} {n k : ℕ} (hs : a.shape = [n]) (hk : k < n) : a.canon.get [k] = a.get [k] :=
  canon_get a (by rw [hs]; exact valid1 hk)

theorem scalar_mul (sem : Sem K) (eta : K) (a : ND K) :
    ∃ r, Prim.bind sem .mul [ND.scalar eta, a] = .ok [r] ∧ r.shape = a.shape ∧
      ∀ I, ValidIdx a.shape I → r.get I = eta * a.get I := by
  refine ⟨⟨a.shape, fun I => (ND.scalar eta).canon.bget I * a.canon.bget I⟩, ?_, rfl, fun I hI => ?_⟩
  · show (Lax.nary (· * ·) (ND.scalar eta).canon a.canon).one = _
    unfold Lax.nary
    rw [if_pos (Or.inr (Or.inl (show (ND.scalar eta).canon.ndim = 0 from rfl)))]
    unfold ND.map2
    have : bshape (ND.scalar eta).canon.shape a.canon.shape = some a.shape := bshape_nil_left _
    rw [this]
    rfl
  · show (ND.scalar eta).canon.bget I * a.canon.bget I = _
    rw [ND.bget_valid a.canon (show ValidIdx a.canon.shape I from hI), canon_get a hI]
    congr 1

theorem same_op (f : K → K → K) {a b : ND K} (hs : a.shape = b.shape) :
    ∃ r, (Lax.nary f a.canon b.canon).one = .ok [r] ∧ r.shape = a.shape ∧
      ∀ I, ValidIdx a.shape I → r.get I = f (a.get I) (b.get I) := by
  refine ⟨⟨a.shape, fun I => f (a.canon.bget I) (b.canon.bget I)⟩, ?_, rfl, fun I hI => ?_⟩
  · unfold Lax.nary
    rw [if_pos (Or.inl (by show a.shape.length = b.shape.length; rw [hs])),
      ND.map2_same f (show a.canon.shape = b.canon.shape from hs)]
    rfl
  · show f (a.canon.bget I) (b.canon.bget I) = _
    rw [ND.bget_valid a.canon (show ValidIdx a.canon.shape I from hI),
      ND.bget_valid b.canon (show ValidIdx b.canon.shape I from (hs ▸ hI : ValidIdx b.shape I)), canon_get a hI,
      canon_get b (hs ▸ hI)]

theorem idx_one (n : ℕ) : idx [n] = (List.range n).map fun k => [k] := by
  simp only [idx, List.map_cons, List.map_nil]
  rw [List.flatMap_def]
  induction List.range n with
  | nil => rfl
  | cons a l ih => simpa using ih

theorem sum_idx_two (f : List ℕ → K) (B m : ℕ) :
    ((idx [B, m]).map f).sum = ∑ i ∈ Finset.range B, ∑ j ∈ Finset.range m, f [i, j] := by
  rw [← Poly.list_range_sum]
  show (((List.range B).flatMap fun i => (idx [m]).map (i :: ·)).map f).sum = _
  induction List.range B with
  | nil => rfl
  | cons a l ih =>
    rw [List.flatMap_cons, List.map_append, List.sum_append, List.map_cons, List.sum_cons, ih]
    congr 1
    rw [idx_one, List.map_map, List.map_map, Poly.list_range_sum]
    rfl

theorem mat_dot (sem : Sem K) {a b : ND K} {B n m : ℕ} {f g : ℕ → ℕ → K} (ha : IsMat a B n f) (hb : IsMat b n m g) :
    ∃ r, Prim.bind sem (.dotGeneral [1] [0] [] []) [a, b] = .ok [r] ∧
      IsMat r B m (fun i j => ∑ k ∈ Finset.range n, f i k * g k j) := by
  obtain ⟨sa, va⟩ := ha
  obtain ⟨sb, vb⟩ := hb
  have hsa : a.canon.shape = [B, n] := sa
  have hsb : b.canon.shape = [n, m] := sb
  show ∃ r, (Lax.dotGeneral [1] [0] [] [] a.canon b.canon).one = .ok [r] ∧ _
  unfold Lax.dotGeneral
  rw [if_pos (by
    unfold Lax.AxesOk ND.ndim
    rw [hsa, hsb]
    simp)]
  refine ⟨_, rfl, ?_, ?_⟩
  · rw [hsa, hsb]
    simp [Lax.dropAxes, List.range_succ]
  · intro i hi j hj
    unfold ND.ndim
    simp only [hsa, hsb]
    have e1 : (Lax.dropAxes ([] ++ [1]) [B, n]).length = 1 := rfl
    simp only [List.length_nil, Nat.zero_add, e1]
    have e2 : idx ([1].map fun d => [B, n].getD d 0) = (List.range n).map fun k => [k] := idx_one n
    rw [e2, List.map_map, Poly.list_range_sum]
    refine Finset.sum_congr rfl fun k hk => ?_
    have hk := Finset.mem_range.1 hk
    show a.canon.get [i, k] * b.canon.get [k, j] = _
    rw [canon_get2 sa hi hk, canon_get2 sb hk hj, va i hi k hk, vb k hk j hj]

theorem vec_broadcast (sem : Sem K) {a : ND K} {m : ℕ} {f : ℕ → K} (B : ℕ) (ha : IsVec a m f) :
    ∃ r, Prim.bind sem (.broadcastInDim [B, m] [1]) [a] = .ok [r] ∧ IsMat r B m (fun _ j => f j) := by
  obtain ⟨sa, va⟩ := ha
  have hsa : a.canon.shape = [m] := sa
  show ∃ r, (Lax.broadcastInDimP [B, m] [1] a.canon).one = .ok [r] ∧ _
  unfold Lax.broadcastInDimP
  rw [if_pos (by unfold ND.ndim; rw [hsa]; simp)]
  refine ⟨_, rfl, rfl, ?_⟩
  intro i hi j hj
  have : (List.range a.canon.ndim).map (fun k => if a.canon.shape.getD k 0 = 1 then 0
      else [i, j].getD ([1].getD k 0) 0) = [j] := by
    unfold ND.ndim
    rw [hsa]
    by_cases h1 : m = 1
    · have : j = 0 := by omega
      simp [h1, this]
    · simp [h1]
  show a.canon.get _ = _
  rw [this, canon_get1 sa hj, va j hj]

theorem mat_sum (sem : Sem K) {a : ND K} {B m : ℕ} {f : ℕ → ℕ → K} (ha : IsMat a B m f) :
    ∃ r, Prim.bind sem (.reduceSum [0, 1]) [a] = .ok [r] ∧ r.shape = [] ∧
      r.get [] = ∑ i ∈ Finset.range B, ∑ j ∈ Finset.range m, f i j := by
  obtain ⟨sa, va⟩ := ha
  have hsa : a.canon.shape = [B, m] := sa
  show ∃ r, (Lax.reduceSum [0, 1] a.canon).one = .ok [r] ∧ _
  unfold Lax.reduceSum
  rw [if_pos (by unfold Lax.AxesOk ND.ndim; rw [hsa]; simp)]
  refine ⟨_, rfl, ?_, ?_⟩
  · rw [hsa]; simp [Lax.dropAxes, List.range_succ]
  · show ((idx ([0, 1].map fun d => a.canon.shape.getD d 0)).map fun J => a.canon.get (Lax.assemble a.canon.ndim [0, 1] [] J)).sum = _
    unfold ND.ndim
    rw [hsa]
    refine (sum_idx_two _ B m).trans ?_
    refine Finset.sum_congr rfl fun i hi => Finset.sum_congr rfl fun j hj => ?_
    have hi := Finset.mem_range.1 hi
    have hj := Finset.mem_range.1 hj
    show a.canon.get [i, j] = _
    rw [canon_get2 sa hi hj, va i hi j hj]

theorem mat_sq (sem : Sem K) {a : ND K} {B m : ℕ} {f : ℕ → ℕ → K} (ha : IsMat a B m f) :
    ∃ r, Prim.bind sem (.integerPow 2) [a] = .ok [r] ∧ IsMat r B m (fun i j => f i j ^ 2) := by
  obtain ⟨sa, va⟩ := ha
  refine ⟨_, rfl, sa, fun i hi j hj => ?_⟩
  show a.canon.get [i, j] ^ (2 : ℤ) = f i j ^ 2
  rw [canon_get2 sa hi hj, va i hi j hj]
  exact zpow_natCast _ 2

theorem mat_act {sem : Sem K} {name : String} {f : K → K} (hf : sem.fn name = some f) {a : ND K} {B m : ℕ}
    {h : ℕ → ℕ → K} (ha : IsMat a B m h) :
    ∃ r, Prim.bind sem (.elementwise name) [a] = .ok [r] ∧ IsMat r B m (fun i j => f (h i j)) := by
  obtain ⟨sa, va⟩ := ha
  refine ⟨a.canon.map f, ?_, sa, fun i hi j hj => ?_⟩
  · show (match sem.fn name with | some f => (Except.ok [a.canon.map f] : Py _) | none => .error .notImplemented) = _
    rw [hf]
  · show f (a.canon.get [i, j]) = _
    rw [canon_get2 sa hi hj, va i hi j hj]

theorem mat_add (sem : Sem K) {a b : ND K} {B m : ℕ} {f g : ℕ → ℕ → K} (ha : IsMat a B m f) (hb : IsMat b B m g) :
    ∃ r, Prim.bind sem .add [a, b] = .ok [r] ∧ IsMat r B m (fun i j => f i j + g i j) := by
  obtain ⟨r, h1, h2, h3⟩ := same_op (· + ·) (ha.1.trans hb.1.symm)
  refine ⟨r, h1, h2.trans ha.1, fun i hi j hj => ?_⟩
  rw [h3 _ (by rw [ha.1]; exact valid2 hi hj), ha.2 i hi j hj, hb.2 i hi j hj]

theorem mat_add_row (sem : Sem K) {a b : ND K} {B m : ℕ} {f g : ℕ → ℕ → K} (hB : 0 < B) (ha : IsMat a B m f)
    (hb : IsMat b 1 m g) : ∃ r, Prim.bind sem .add [a, b] = .ok [r] ∧ IsMat r B m (fun i j => f i j + g 0 j) := by
  have hsa : a.canon.shape = [B, m] := ha.1
  have hsb : b.canon.shape = [1, m] := hb.1
  have hbs : bshape a.canon.shape b.canon.shape = some [B, m] := by
    rw [hsa, hsb]
    by_cases h : B = 1
    · subst h; simp [bshape, bshapeR, bdim]
    · simp [bshape, bshapeR, bdim, h]
  refine ⟨⟨[B, m], fun I => a.canon.bget I + b.canon.bget I⟩, ?_, rfl, fun i hi j hj => ?_⟩
  · show (Lax.nary (· + ·) a.canon b.canon).one = _
    unfold Lax.nary
    rw [if_pos (Or.inl (by unfold ND.ndim; rw [hsa, hsb]; rfl))]
    unfold ND.map2
    simp only [hbs]
    rfl
  · show a.canon.bget [i, j] + b.canon.bget [i, j] = _
    rw [ND.bget_valid a.canon (by rw [hsa]; exact valid2 hi hj), canon_get2 ha.1 hi hj, ha.2 i hi j hj]
    congr 1
    unfold ND.bget
    rw [hsb]
    have : bidx [1, m] [i, j] = [0, j] := by
      by_cases h : m = 1
      · have : j = 0 := by omega
        simp [bidx, h, this]
      · simp [bidx, h]
    rw [this, canon_get2 hb.1 Nat.one_pos hj, hb.2 0 Nat.one_pos j hj]

theorem mat_sub (sem : Sem K) {a b : ND K} {B m : ℕ} {f g : ℕ → ℕ → K} (ha : IsMat a B m f) (hb : IsMat b B m g) :
    ∃ r, Prim.bind sem .sub [a, b] = .ok [r] ∧ IsMat r B m (fun i j => f i j - g i j) := by
  obtain ⟨r, h1, h2, h3⟩ := same_op (· - ·) (ha.1.trans hb.1.symm)
  refine ⟨r, h1, h2.trans ha.1, fun i hi j hj => ?_⟩
  rw [h3 _ (by rw [ha.1]; exact valid2 hi hj), ha.2 i hi j hj, hb.2 i hi j hj]

theorem vec_add (sem : Sem K) {a b : ND K} {m : ℕ} {f g : ℕ → K} (ha : IsVec a m f) (hb : IsVec b m g) :
    ∃ r, Prim.bind sem .add [a, b] = .ok [r] ∧ IsVec r m (fun i => f i + g i) := by
  obtain ⟨r, h1, h2, h3⟩ := same_op (· + ·) (ha.1.trans hb.1.symm)
  refine ⟨r, h1, h2.trans ha.1, fun i hi => ?_⟩
  rw [h3 _ (by rw [ha.1]; exact valid1 hi), ha.2 i hi, hb.2 i hi]

theorem mat_scale (sem : Sem K) (eta : K) {a : ND K} {B m : ℕ} {f : ℕ → ℕ → K} (ha : IsMat a B m f) :
    ∃ r, Prim.bind sem .mul [ND.scalar eta, a] = .ok [r] ∧ IsMat r B m (fun i j => eta * f i j) := by
  obtain ⟨r, h1, h2, h3⟩ := scalar_mul sem eta a
  refine ⟨r, h1, h2.trans ha.1, fun i hi j hj => ?_⟩
  rw [h3 _ (by rw [ha.1]; exact valid2 hi hj), ha.2 i hi j hj]

theorem vec_scale (sem : Sem K) (eta : K) {a : ND K} {m : ℕ} {f : ℕ → K} (ha : IsVec a m f) :
    ∃ r, Prim.bind sem .mul [ND.scalar eta, a] = .ok [r] ∧ IsVec r m (fun i => eta * f i) := by
  obtain ⟨r, h1, h2, h3⟩ := scalar_mul sem eta a
  refine ⟨r, h1, h2.trans ha.1, fun i hi => ?_⟩
  rw [h3 _ (by rw [ha.1]; exact valid1 hi), ha.2 i hi]

theorem mat_ne {a : ND K} {B m : ℕ} {f : ℕ → ℕ → K} (ha : IsMat a B m f) (hB : 0 < B) (hm : 0 < m) :
    ∃ I, ValidIdx a.shape I := ⟨[0, 0], by rw [ha.1]; exact valid2 hB hm⟩

theorem vec_ne {a : ND K} {m : ℕ} {f : ℕ → K} (ha : IsVec a m f) (hm : 0 < m) :
    ∃ I, ValidIdx a.shape I := ⟨[0], by rw [ha.1]; exact valid1 hm⟩

/-! ### Runs -/

section
variable (ct : Counts) (sem : Sem K) (lib : Lib K) (md : ℕ) (prop : Bool) (G : Prop) (cs : List ℤ)

/-- The equations evaluate from `vals` to `vals'`, all of them depend on the input, and they meet the conditions of the
claims about `taylor_bounds`; `G` is what is assumed about the activation functions. -/
structure Run (vals : Vals K) (eqns : List (Eqn K)) (vals' : Vals K) : Prop where
  eval : eqns.foldlM (evalEqn sem) vals = .ok vals'
  dep : ∀ eqn ∈ eqns, eqn.invars.all (Atom.constIn cs) = false
  fit : EqnsFit sem ct [] cs vals eqns
  ret : G → EqnsReturn lib sem [] md prop cs vals eqns
  ne : NonEmptyVals vals → NonEmptyVals vals'
  same : ∀ v : ℤ, (v = 0 ∨ v % 2 = 1) → vals'.lookup v = vals.lookup v

variable {ct sem lib md prop G cs}

theorem constAfter_dep {eqn : Eqn K} (h : eqn.invars.all (Atom.constIn cs) = false) : constAfter cs eqn = cs := by
  unfold constAfter
  rw [h]
  rfl

theorem fit_append {e1 e2 : List (Eqn K)} : ∀ {vals v1 : Vals K}, e1.foldlM (evalEqn sem) vals = .ok v1 →
    (∀ eqn ∈ e1, eqn.invars.all (Atom.constIn cs) = false) → EqnsFit sem ct [] cs vals e1 → EqnsFit sem ct [] cs v1 e2 →
    EqnsFit sem ct [] cs vals (e1 ++ e2) := by
  induction e1 with
  | nil => intro vals v1 h _ _ h2; cases h; exact h2
  | cons eqn e1 ih =>
    intro vals v1 h hd hf h2
    rw [List.foldlM_cons, py_bind_ok] at h
    obtain ⟨v, hv, h⟩ := h
    refine ⟨hf.1, fun vals' hv' => ?_⟩
    have h3 := hf.2 vals' hv'
    rw [hv] at hv'
    cases hv'
    rw [constAfter_dep (hd _ (List.mem_cons_self ..))] at h3 ⊢
    exact ih h (fun e he => hd e (List.mem_cons_of_mem _ he)) h3 h2

theorem ret_append {e1 e2 : List (Eqn K)} : ∀ {vals v1 : Vals K}, e1.foldlM (evalEqn sem) vals = .ok v1 →
    (∀ eqn ∈ e1, eqn.invars.all (Atom.constIn cs) = false) → EqnsReturn lib sem [] md prop cs vals e1 →
    EqnsReturn lib sem [] md prop cs v1 e2 → EqnsReturn lib sem [] md prop cs vals (e1 ++ e2) := by
  induction e1 with
  | nil => intro vals v1 h _ _ h2; cases h; exact h2
  | cons eqn e1 ih =>
    intro vals v1 h hd hf h2
    rw [List.foldlM_cons, py_bind_ok] at h
    obtain ⟨v, hv, h⟩ := h
    refine ⟨hf.1, fun vals' hv' => ?_⟩
    have h3 := hf.2 vals' hv'
    rw [hv] at hv'
    cases hv'
    rw [constAfter_dep (hd _ (List.mem_cons_self ..))] at h3 ⊢
    exact ih h (fun e he => hd e (List.mem_cons_of_mem _ he)) h3 h2

theorem Run.append {vals v1 v2 : Vals K} {e1 e2 : List (Eqn K)} (h1 : Run ct sem lib md prop G cs vals e1 v1)
    (h2 : Run ct sem lib md prop G cs v1 e2 v2) : Run ct sem lib md prop G cs vals (e1 ++ e2) v2 where
  eval := by rw [List.foldlM_append, h1.eval]; exact h2.eval
  dep eqn he := by
    rcases List.mem_append.1 he with h | h
    · exact h1.dep _ h
    · exact h2.dep _ h
  fit := fit_append h1.eval h1.dep h1.fit h2.fit
  ret g := ret_append h1.eval h1.dep (h1.ret g) (h2.ret g)
  ne h := h2.ne (h1.ne h)
  same v hv := (h2.same v hv).trans (h1.same v hv)

theorem Run.nil (vals : Vals K) : Run ct sem lib md prop G cs vals [] vals :=
  ⟨rfl, fun _ h => absurd h List.not_mem_nil, trivial, fun _ => trivial, id, fun _ _ => rfl⟩

theorem Run.one {vals : Vals K} {p : Prim K} {ins : List (Atom K)} {o : ℤ} {args : List (ND K)} {y : ND K}
    (hc : ins.all (Atom.constIn cs) = false) (hget : ins.mapM (getVal vals) = .ok args)
    (hb : p.bind sem args = .ok [y]) (ho : 0 < o) (ho2 : o % 2 = 0) (hfit : EqnFits ct [] cs p ins args [y])
    (hret : G → EqnReturns lib [] md prop cs p ins args) (hne : ∃ I, ValidIdx y.shape I) :
    Run ct sem lib md prop G cs vals [⟨p, ins, [o]⟩] ((o, y) :: vals) where
  eval := by
    rw [List.foldlM_cons]
    have : evalEqn sem vals ⟨p, ins, [o]⟩ = .ok ((o, y) :: vals) := by
      unfold evalEqn
      simp only [hget, py_ok_bind, hb]
      rw [if_neg (by simp)]
      show (Except.ok (storeVal vals (o, y)) : Py _) = _
      unfold storeVal
      rw [if_neg (by show ¬ o = -1; omega)]
    rw [this]
    rfl
  dep eqn he := by
    rw [List.mem_singleton] at he
    subst he
    exact hc
  fit := by
    refine ⟨fun _ args' outs h1 h2 => ?_, fun _ _ => trivial⟩
    rw [show (⟨p, ins, [o]⟩ : Eqn K).invars = ins from rfl, hget] at h1
    cases h1
    rw [show (⟨p, ins, [o]⟩ : Eqn K).prim = p from rfl, hb] at h2
    cases h2
    exact hfit
  ret g := by
    refine ⟨fun args' h1 => ?_, fun _ _ => trivial⟩
    rw [show (⟨p, ins, [o]⟩ : Eqn K).invars = ins from rfl, hget] at h1
    cases h1
    rw [show (⟨p, ins, [o]⟩ : Eqn K).invars = ins from rfl, if_neg (by rw [hc]; exact Bool.false_ne_true)]
    exact hret g
  ne h va hva := by
    rcases List.mem_cons.1 hva with rfl | hva
    · exact hne
    · exact h va hva
  same v hv := by
    rw [List.lookup_cons]
    have : (v == o) = false := beq_eq_false_iff_ne.2 (by omega)
    rw [this]

theorem lookup_self {vals : Vals K} {o : ℤ} {y : ND K} : List.lookup o ((o, y) :: vals) = some y := by
  rw [List.lookup_cons, beq_self_eq_true]

theorem lookup_ne {vals : Vals K} {v o : ℤ} {y : ND K} (h : v ≠ o) :
    List.lookup v ((o, y) :: vals) = vals.lookup v := by
  rw [List.lookup_cons, beq_eq_false_iff_ne.2 h]

theorem get_one {vals : Vals K} {v : ℤ} {a : ND K} (h : vals.lookup v = some a) :
    ([.var v] : List (Atom K)).mapM (getVal vals) = .ok [a] := by
  have : getVal vals (.var v) = .ok a := by show (match vals.lookup v with | some a => Except.ok a | none => _) = _; rw [h]
  rw [List.mapM_cons, this]
  rfl

theorem get_two {vals : Vals K} {v w : ℤ} {a b : ND K} (h : vals.lookup v = some a) (h' : vals.lookup w = some b) :
    ([.var v, .var w] : List (Atom K)).mapM (getVal vals) = .ok [a, b] := by
  have : getVal vals (.var v) = .ok a := by show (match vals.lookup v with | some a => Except.ok a | none => _) = _; rw [h]
  rw [List.mapM_cons, this, py_ok_bind, get_one h']
  rfl

theorem var_dep (hcs : ∀ c ∈ cs, c % 2 = 1) {v : ℤ} (hv : v % 2 = 0) : (Atom.var v : Atom K).constIn cs = false := by
  show cs.contains v = false
  rw [← Bool.not_eq_true, List.contains_iff_mem]
  intro h
  have := hcs v h
  omega

theorem dep_left {v : ℤ} {as : List (Atom K)} (h : (Atom.var v : Atom K).constIn cs = false) :
    (Atom.var v :: as).all (Atom.constIn cs) = false := by
  rw [List.all_cons, h, Bool.false_and]

theorem dep_right {a : Atom K} {v : ℤ} (h : (Atom.var v : Atom K).constIn cs = false) :
    [a, Atom.var v].all (Atom.constIn cs) = false := by
  rw [List.all_cons, List.all_cons, h, Bool.false_and, Bool.and_false]

theorem isMat_congr {a : ND K} {B m : ℕ} {f g : ℕ → ℕ → K} (ha : IsMat a B m f) (h : ∀ i j, f i j = g i j) :
    IsMat a B m g := ⟨ha.1, fun i hi j hj => (ha.2 i hi j hj).trans (h i j)⟩

/-- what is assumed about an activation function -/
def ActOk (lib : Lib K) (md : ℕ) (prop : Bool) : Option String → Prop
  | none => True
  | some name => ∃ g, lib.gen name = some g ∧ GenUsable md prop g

theorem layer_run (hcs : ∀ c ∈ cs, c % 2 = 1) {act : Option String} (hact : ∀ name, act = some name → ∃ f, sem.fn name = some f)
    (hG : G → md ≠ 1 ∧ ActOk lib md prop act) {vals : Vals K} {l B n m : ℕ}
    (hct : ct.most (16 * (l : ℤ) + 12) ≤ ct.least (16 * (l : ℤ) + 6)) (hB : 0 < B) (hn : 0 < n) (hm : 0 < m)
    {eta : K} {hv : ℤ} (hvl : hv ≤ 16 * l + 1) {p v : (ℕ → ℕ → K) × (ℕ → K)} {a : ND K} {f : ℕ → ℕ → K}
    (h0 : vals.lookup 0 = some (ND.scalar eta)) (hW : vals.lookup (8 * (l : ℤ) + 5) = some (mat n m p.1))
    (hV : vals.lookup (8 * (l : ℤ) + 7) = some (mat n m v.1)) (hb : vals.lookup (8 * (l : ℤ) + 9) = some (vec m p.2))
    (hc : vals.lookup (8 * (l : ℤ) + 11) = some (vec m v.2)) (hh : vals.lookup hv = some a) (ha : IsMat a B n f) :
    ∃ vals', Run ct sem lib md prop G cs vals (layerEqns m act l hv) vals' ∧
      ∃ r, vals'.lookup (outVar l act) = some r ∧ IsMat r B m fun i j =>
        actFn sem act (∑ k ∈ Finset.range n, f i k * (p.1 k j + eta * v.1 k j) + (p.2 j + eta * v.2 j)) := by
  have ev : ∀ k : ℤ, (Atom.var (16 * l + 2 * k) : Atom K).constIn cs = false := fun k => var_dep hcs (by omega)
  have z0 : (Atom.var 0 : Atom K).constIn cs = false := var_dep hcs (by omega)
  obtain ⟨y1, b1, m1⟩ := mat_scale sem eta (isMat_mat n m v.1)
  obtain ⟨y2, b2, m2⟩ := mat_add sem (isMat_mat n m p.1) m1
  obtain ⟨y3, b3, m3⟩ := mat_dot sem ha m2
  obtain ⟨y4, b4, m4⟩ := vec_scale sem eta (isVec_vec m v.2)
  obtain ⟨y5, b5, m5⟩ := vec_add sem (isVec_vec m p.2) m4
  obtain ⟨y6, b6, m6⟩ := vec_broadcast sem 1 m5
  obtain ⟨y7, b7, m7⟩ := mat_add_row sem hB m3 m6
  have r1 := Run.one (ct := ct) (lib := lib) (md := md) (prop := prop) (G := G) (o := 16 * l + 2) (dep_left z0) (get_two h0 hV) b1
    (by omega) (by omega) trivial (fun _ => trivial) (mat_ne m1 hn hm)
  have r2 := Run.one (ct := ct) (lib := lib) (md := md) (prop := prop) (G := G) (o := 16 * l + 4) (cs := cs)
    (vals := (16 * l + 2, y1) :: vals) (dep_right (ev 1))
    (get_two ((lookup_ne (by omega)).trans hW) lookup_self) b2
    (by omega) (by omega) ⟨Or.inr (Or.inl m2.1.symm), Or.inr (Or.inl (m1.1.trans m2.1.symm))⟩ (fun _ => trivial) (mat_ne m2 hn hm)
  have r3 := Run.one (ct := ct) (lib := lib) (md := md) (prop := prop) (G := G) (o := 16 * l + 6) (cs := cs)
    (vals := (16 * l + 4, y2) :: (16 * l + 2, y1) :: vals) (dep_right (ev 2))
    (get_two ((lookup_ne (by omega)).trans ((lookup_ne (by omega)).trans hh)) lookup_self) b3
    (by omega) (by omega) (Or.inl rfl) (fun _ => trivial) (mat_ne m3 hB hm)
  have r4 := Run.one (ct := ct) (lib := lib) (md := md) (prop := prop) (G := G) (o := 16 * l + 8) (cs := cs)
    (vals := (16 * l + 6, y3) :: (16 * l + 4, y2) :: (16 * l + 2, y1) :: vals) (dep_left z0)
    (get_two ((lookup_ne (by omega)).trans ((lookup_ne (by omega)).trans ((lookup_ne (by omega)).trans h0)))
      ((lookup_ne (by omega)).trans ((lookup_ne (by omega)).trans ((lookup_ne (by omega)).trans hc)))) b4
    (by omega) (by omega) trivial (fun _ => trivial) (vec_ne m4 hm)
  have r5 := Run.one (ct := ct) (lib := lib) (md := md) (prop := prop) (G := G) (o := 16 * l + 10) (cs := cs)
    (vals := (16 * l + 8, y4) :: (16 * l + 6, y3) :: (16 * l + 4, y2) :: (16 * l + 2, y1) :: vals) (dep_right (ev 4))
    (get_two ((lookup_ne (by omega)).trans ((lookup_ne (by omega)).trans ((lookup_ne (by omega)).trans
      ((lookup_ne (by omega)).trans hb)))) lookup_self) b5
    (by omega) (by omega) ⟨Or.inr (Or.inl m5.1.symm), Or.inr (Or.inl (m4.1.trans m5.1.symm))⟩ (fun _ => trivial) (vec_ne m5 hm)
  have r6 := Run.one (ct := ct) (lib := lib) (md := md) (prop := prop) (G := G) (o := 16 * l + 12) (cs := cs)
    (vals := (16 * l + 10, y5) :: (16 * l + 8, y4) :: (16 * l + 6, y3) :: (16 * l + 4, y2) :: (16 * l + 2, y1) :: vals)
    (dep_left (ev 5)) (get_one lookup_self) b6
    (by omega) (by omega) trivial (fun g => ⟨rfl, (hG g).1⟩) (mat_ne m6 Nat.one_pos hm)
  have r7 := Run.one (ct := ct) (lib := lib) (md := md) (prop := prop) (G := G) (o := 16 * l + 14) (cs := cs)
    (vals := (16 * l + 12, y6) :: (16 * l + 10, y5) :: (16 * l + 8, y4) :: (16 * l + 6, y3) :: (16 * l + 4, y2) ::
      (16 * l + 2, y1) :: vals) (dep_right (ev 6))
    (get_two ((lookup_ne (by omega)).trans ((lookup_ne (by omega)).trans ((lookup_ne (by omega)).trans lookup_self)))
      lookup_self) b7
    (by omega) (by omega) ⟨Or.inr (Or.inl (m3.1.trans m7.1.symm)), Or.inr (Or.inr hct)⟩ (fun _ => trivial) (mat_ne m7 hB hm)
  have r := r1.append (r2.append (r3.append (r4.append (r5.append (r6.append r7)))))
  cases act with
  | none => exact ⟨_, r, y7, lookup_self, m7⟩
  | some name =>
    obtain ⟨fn, hfn⟩ := hact name rfl
    obtain ⟨y8, b8, m8⟩ := mat_act hfn m7
    have r8 := Run.one (ct := ct) (lib := lib) (md := md) (prop := prop) (G := G) (o := 16 * l + 16) (cs := cs)
      (vals := (16 * l + 14, y7) :: (16 * l + 12, y6) :: (16 * l + 10, y5) :: (16 * l + 8, y4) :: (16 * l + 6, y3) ::
        (16 * l + 4, y2) :: (16 * l + 2, y1) :: vals) (dep_left (ev 7)) (get_one lookup_self) b8
      (by omega) (by omega) trivial (fun g => ⟨Or.inr (by rw [m7.1]; simp), (hG g).2⟩) (mat_ne m8 hB hm)
    refine ⟨_, r.append r8, y8, lookup_self, isMat_congr m8 fun i j => ?_⟩
    show _ = (sem.fn name).getD id _
    rw [hfn]
    rfl

theorem layerConsts_odd {p v : Params K} : ∀ (arch : Arch) (l n : ℕ), ∀ q ∈ layerConsts p v arch l n, q.1 % 2 = 1
  | [], _, _, q, hq => absurd hq List.not_mem_nil
  | (m, _) :: arch, l, n, q, hq => by
    simp only [layerConsts, List.mem_cons] at hq
    rcases hq with rfl | rfl | rfl | rfl | hq
    · show (8 * (l : ℤ) + 5) % 2 = 1; omega
    · show (8 * (l : ℤ) + 7) % 2 = 1; omega
    · show (8 * (l : ℤ) + 9) % 2 = 1; omega
    · show (8 * (l : ℤ) + 11) % 2 = 1; omega
    · exact layerConsts_odd arch (l + 1) m q hq

theorem net_run (hcs : ∀ c ∈ cs, c % 2 = 1) {p v : Params K} {eta : K} {B : ℕ} (hB : 0 < B) (Y : ℕ → ℕ → K) :
    ∀ (arch : Arch), (∀ q ∈ arch, ∀ name, q.2 = some name → ∃ f, sem.fn name = some f) →
    (G → md ≠ 1 ∧ ∀ q ∈ arch, ActOk lib md prop q.2) → (∀ q ∈ arch, 0 < q.1) →
    ∀ {vals : Vals K} {l n : ℕ} {hv : ℤ}, (∀ k : ℕ, l ≤ k → k < l + arch.length →
      ct.most (16 * (k : ℤ) + 12) ≤ ct.least (16 * (k : ℤ) + 6)) → 0 < n → hv ≤ 16 * l + 1 → (arch = [] → hv % 2 = 0) →
    vals.lookup 0 = some (ND.scalar eta) → vals.lookup 3 = some (mat B (outWidth arch n) Y) →
    (∀ q ∈ layerConsts p v arch l n, vals.lookup q.1 = some q.2) →
    ∀ {a : ND K} {f : ℕ → ℕ → K}, vals.lookup hv = some a → IsMat a B n f →
    ∃ vals', Run ct sem lib md prop G cs vals (netEqns arch l hv) vals' ∧
      ∃ r, vals'.lookup (16 * ((l + arch.length : ℕ) : ℤ) + 6) = some r ∧ r.shape = [] ∧
        r.get [] = ∑ i ∈ Finset.range B, ∑ j ∈ Finset.range (outWidth arch n),
          (forward sem (p + eta • v) arch l n f i j - Y i j) ^ 2 := by
  intro arch
  induction arch with
  | nil =>
    intro _ hG _ vals l n hv _ hn hvl hev h0 hY _ a f hh ha
    have ev : ∀ k : ℤ, (Atom.var (16 * l + 2 * k) : Atom K).constIn cs = false := fun k => var_dep hcs (by omega)
    obtain ⟨y1, b1, m1⟩ := mat_sub sem ha (isMat_mat B n Y)
    obtain ⟨y2, b2, m2⟩ := mat_sq sem m1
    obtain ⟨y3, b3, s3, m3⟩ := mat_sum sem m2
    have r1 := Run.one (ct := ct) (lib := lib) (md := md) (prop := prop) (G := G) (o := 16 * l + 2) (cs := cs)
      (dep_left (var_dep hcs (hev rfl))) (get_two hh hY) b1 (by omega) (by omega)
      ⟨Or.inr (Or.inl (ha.1.trans m1.1.symm)), Or.inr (Or.inl m1.1.symm)⟩ (fun _ => trivial) (mat_ne m1 hB hn)
    have r2 := Run.one (ct := ct) (lib := lib) (md := md) (prop := prop) (G := G) (o := 16 * l + 4) (cs := cs)
      (vals := (16 * l + 2, y1) :: vals) (dep_left (ev 1)) (get_one lookup_self) b2 (by omega) (by omega)
      trivial (fun _ => ⟨by decide, fun _ => Or.inr (by rw [m1.1]; simp), fun h => absurd h (by decide)⟩) (mat_ne m2 hB hn)
    have r3 := Run.one (ct := ct) (lib := lib) (md := md) (prop := prop) (G := G) (o := 16 * l + 6) (cs := cs)
      (vals := (16 * l + 4, y2) :: (16 * l + 2, y1) :: vals) (dep_left (ev 2)) (get_one lookup_self) b3 (by omega) (by omega)
      trivial (fun _ => trivial) ⟨[], by rw [s3]; exact .nil⟩
    exact ⟨_, r1.append (r2.append r3), y3, lookup_self, s3, m3⟩
  | cons q arch ih =>
    obtain ⟨m, act⟩ := q
    intro hact hG hpos vals l n hv hct hn hvl _ h0 hY hconst a f hh ha
    have hm : 0 < m := hpos (m, act) (List.mem_cons_self ..)
    have c1 := hconst (8 * l + 5, mat n m (p l).1) (by simp [layerConsts])
    have c2 := hconst (8 * l + 7, mat n m (v l).1) (by simp [layerConsts])
    have c3 := hconst (8 * l + 9, vec m (p l).2) (by simp [layerConsts])
    have c4 := hconst (8 * l + 11, vec m (v l).2) (by simp [layerConsts])
    obtain ⟨v1, hr, r, hl, hmat⟩ := layer_run (md := md) (prop := prop) (G := G) (lib := lib) hcs
      (hact (m, act) (List.mem_cons_self ..))
      (fun g => ⟨(hG g).1, (hG g).2 (m, act) (List.mem_cons_self ..)⟩) (hct l le_rfl (by simp)) hB hn hm hvl h0 c1 c2 c3 c4 hh ha
    have hout : outVar l act ≤ 16 * ((l + 1 : ℕ) : ℤ) + 1 ∧ outVar l act % 2 = 0 := by
      cases act <;> simp only [outVar] <;> omega
    obtain ⟨v2, hr2, r2, h1, h2, h3⟩ := ih (fun q hq => hact q (List.mem_cons_of_mem _ hq))
      (fun g => ⟨(hG g).1, fun q hq => (hG g).2 q (List.mem_cons_of_mem _ hq)⟩)
      (fun q hq => hpos q (List.mem_cons_of_mem _ hq)) (vals := v1) (l := l + 1) (n := m) (hv := outVar l act)
      (fun k h1 h2 => hct k (by omega) (by rw [List.length_cons]; omega)) hm hout.1
      (fun _ => hout.2) ((hr.same 0 (Or.inl rfl)).trans h0) ((hr.same 3 (Or.inr rfl)).trans hY)
      (fun q hq => by
        refine (hr.same q.1 (Or.inr (layerConsts_odd _ _ _ q hq))).trans (hconst q ?_)
        simp [layerConsts, hq]) hl hmat
    refine ⟨v2, hr.append hr2, r2, ?_, h2, h3⟩
    rw [← h1]
    congr 2
    simp
    ring

/-! ### The whole program -/

theorem layerConsts_keys {p v : Params K} : ∀ (arch : Arch) (l n : ℕ),
    ((layerConsts p v arch l n).map Prod.fst).Pairwise (· < ·) ∧
    ∀ k ∈ (layerConsts p v arch l n).map Prod.fst, 8 * (l : ℤ) + 5 ≤ k
  | [], _, _ => ⟨.nil, fun _ h => absurd h List.not_mem_nil⟩
  | (m, _) :: arch, l, n => by
    obtain ⟨h1, h2⟩ := layerConsts_keys (p := p) (v := v) arch (l + 1) m
    push_cast at h2
    simp only [layerConsts, List.map_cons, List.pairwise_cons, List.mem_cons]
    refine ⟨⟨?_, ?_, ?_, ?_, h1⟩, ?_⟩
    · rintro k (rfl | rfl | rfl | h)
      · omega
      · omega
      · omega
      · have := h2 k h; omega
    · rintro k (rfl | rfl | h)
      · omega
      · omega
      · have := h2 k h; omega
    · rintro k (rfl | h)
      · omega
      · have := h2 k h; omega
    · intro k h
      have := h2 k h; omega
    · rintro k (rfl | rfl | rfl | rfl | h)
      · omega
      · omega
      · omega
      · omega
      · have := h2 k h; omega

theorem layerConsts_ne {p v : Params K} : ∀ (arch : Arch) (l n : ℕ), 0 < n → (∀ q ∈ arch, 0 < q.1) →
    ∀ q ∈ layerConsts p v arch l n, ∃ I, ValidIdx q.2.shape I
  | [], _, _, _, _, q, hq => absurd hq List.not_mem_nil
  | (m, act) :: arch, l, n, hn, hpos, q, hq => by
    have hm : 0 < m := hpos (m, act) (List.mem_cons_self ..)
    simp only [layerConsts, List.mem_cons] at hq
    rcases hq with rfl | rfl | rfl | rfl | hq
    · exact mat_ne (isMat_mat n m (p l).1) hn hm
    · exact mat_ne (isMat_mat n m (v l).1) hn hm
    · exact vec_ne (isVec_vec m (p l).2) hm
    · exact vec_ne (isVec_vec m (v l).2) hm
    · exact layerConsts_ne arch (l + 1) m hm (fun q hq => hpos q (List.mem_cons_of_mem _ hq)) q hq

theorem outWidth_pos : ∀ (arch : Arch) (n : ℕ), 0 < n → (∀ q ∈ arch, 0 < q.1) → 0 < outWidth arch n
  | [], _, hn, _ => hn
  | (m, act) :: arch, _, _, hpos => outWidth_pos arch m (hpos (m, act) (List.mem_cons_self ..))
      fun q hq => hpos q (List.mem_cons_of_mem _ hq)

theorem lookup_of_mem {l : Vals K} (h : (l.map Prod.fst).Pairwise (· < ·)) {q : ℤ × ND K} (hq : q ∈ l) :
    l.lookup q.1 = some q.2 := by
  induction l with
  | nil => exact absurd hq List.not_mem_nil
  | cons a l ih =>
    obtain ⟨k, y⟩ := a
    rw [List.map_cons, List.pairwise_cons] at h
    rcases List.mem_cons.1 hq with rfl | hq
    · exact lookup_self
    · have := h.1 q.1 (List.mem_map_of_mem hq)
      rw [lookup_ne (by show q.1 ≠ k; have : k < q.1 := this; omega)]
      exact ih h.2 hq

variable {arch : Arch} {B n : ℕ} {X Y : ℕ → ℕ → K} {p v : Params K}

theorem pairs_keys : ((mlpPairs arch B n X Y p v).map Prod.fst).Pairwise (· < ·) := by
  obtain ⟨h1, h2⟩ := layerConsts_keys (p := p) (v := v) arch 0 n
  simp only [mlpPairs, List.map_cons, List.pairwise_cons, List.mem_cons]
  refine ⟨?_, ?_, h1⟩
  · rintro k (rfl | h)
    · omega
    · have := h2 k h; omega
  · intro k h
    have := h2 k h; omega

theorem pairs_odd : ∀ q ∈ mlpPairs arch B n X Y p v, q.1 % 2 = 1 := by
  intro q hq
  simp only [mlpPairs, List.mem_cons] at hq
  rcases hq with rfl | rfl | hq
  · rfl
  · rfl
  · exact layerConsts_odd _ _ _ q hq

theorem init_eq (x : ND K) : evalInit (mlpJaxpr arch B n X Y p v) (mlpConsts arch B n X Y p v) x =
    (0, x) :: mlpPairs arch B n X Y p v := by
  show (0, x) :: ((mlpPairs arch B n X Y p v).map Prod.fst).zip ((mlpPairs arch B n X Y p v).map Prod.snd) = _
  rw [List.zip_map']
  simp

theorem init_lookup (x : ND K) {q : ℤ × ND K} (hq : q ∈ mlpPairs arch B n X Y p v) :
    List.lookup q.1 ((0, x) :: mlpPairs arch B n X Y p v) = some q.2 := by
  rw [lookup_ne (by have := pairs_odd q hq; omega)]
  exact lookup_of_mem pairs_keys hq

/-- the evaluation of the whole program -/
theorem mlp_run (harch : arch ≠ []) (hB : 0 < B) (hn : 0 < n) (hpos : ∀ q ∈ arch, 0 < q.1)
    (hact : ∀ q ∈ arch, ∀ name, q.2 = some name → ∃ f, sem.fn name = some f)
    (hG : G → md ≠ 1 ∧ ∀ q ∈ arch, ActOk lib md prop q.2)
    (hct : ∀ k : ℕ, k < arch.length → ct.most (16 * (k : ℤ) + 12) ≤ ct.least (16 * (k : ℤ) + 6)) (eta : K) :
    ∃ vals', Run ct sem lib md prop G (mlpJaxpr arch B n X Y p v).constvars
      (evalInit (mlpJaxpr arch B n X Y p v) (mlpConsts arch B n X Y p v) (ND.scalar eta))
      (mlpJaxpr arch B n X Y p v).eqns vals' ∧ NonEmptyVals vals' ∧
      ∃ r, vals'.lookup (16 * (arch.length : ℤ) + 6) = some r ∧ r.shape = [] ∧
        r.get [] = mlpLoss sem arch B n X Y (p + eta • v) := by
  rw [init_eq]
  have hcs : ∀ c ∈ (mlpJaxpr arch B n X Y p v).constvars, c % 2 = 1 := by
    intro c hc
    obtain ⟨q, hq, rfl⟩ := List.mem_map.1 hc
    exact pairs_odd q hq
  obtain ⟨vals', hr, r, h1, h2, h3⟩ := net_run (md := md) (prop := prop) (G := G) (lib := lib) (p := p) (v := v) (eta := eta) hcs hB Y arch hact hG
    hpos (vals := (0, ND.scalar eta) :: mlpPairs arch B n X Y p v) (l := 0) (n := n) (hv := 1)
    (fun k _ h => hct k (by omega)) hn (by simp)
    (fun h => absurd h harch) lookup_self (init_lookup _ (q := (3, mat B (outWidth arch n) Y)) (by simp [mlpPairs]))
    (fun q hq => init_lookup _ (by simp [mlpPairs, hq])) (init_lookup _ (q := (1, mat B n X)) (by simp [mlpPairs])) (isMat_mat B n X)
  refine ⟨vals', hr, hr.ne ?_, r, ?_, h2, h3⟩
  · intro va hva
    simp only [mlpPairs, List.mem_cons] at hva
    rcases hva with rfl | rfl | rfl | hva
    · exact ⟨[], .nil⟩
    · exact mat_ne (isMat_mat B n X) hB hn
    · exact mat_ne (isMat_mat B _ Y) hB (outWidth_pos arch n hn hpos)
    · exact layerConsts_ne arch 0 n hn hpos va hva
  · rw [← h1, Nat.zero_add]

theorem netEqns_out (B : ℕ) : ∀ (arch : Arch) (l : ℕ) (h : ℤ),
    ((netEqns arch l h : List (Eqn K)).flatMap Eqn.outvars).Pairwise (· < ·) ∧
    ∀ k ∈ (netEqns arch l h : List (Eqn K)).flatMap Eqn.outvars, 16 * (l : ℤ) < k ∧ k % 2 = 0
  | [], l, h => by
    simp only [netEqns, List.flatMap_cons, List.flatMap_nil, List.cons_append, List.nil_append, List.pairwise_cons,
      List.mem_cons, List.not_mem_nil, or_false]
    refine ⟨⟨?_, ?_, ?_, .nil⟩, ?_⟩
    · rintro k (rfl | rfl) <;> omega
    · rintro k rfl; omega
    · rintro k h; cases h
    · rintro k (rfl | rfl | rfl) <;> omega
  | (m, act) :: arch, l, h => by
    obtain ⟨h1, h2⟩ := netEqns_out B arch (l + 1) (outVar l act)
    push_cast at h2
    have h3 : ((layerEqns m act l h : List (Eqn K)).flatMap Eqn.outvars).Pairwise (· < ·) ∧
        ∀ k ∈ (layerEqns m act l h : List (Eqn K)).flatMap Eqn.outvars, 16 * (l : ℤ) < k ∧ k ≤ 16 * l + 16 ∧ k % 2 = 0 := by
      cases act
      all_goals
        simp only [layerEqns, List.flatMap_cons, List.flatMap_nil, List.cons_append, List.nil_append, List.pairwise_cons,
          List.mem_cons, List.not_mem_nil, or_false, List.append_nil]
        simp
        omega
    rw [netEqns, List.flatMap_append, List.pairwise_append]
    refine ⟨⟨h3.1, h1, fun a ha b hb => ?_⟩, fun k hk => ?_⟩
    · have := h3.2 a ha
      have := h2 b hb
      omega
    · rcases List.mem_append.1 hk with hk | hk
      · have := h3.2 k hk; omega
      · have := h2 k hk; omega

theorem netEqns_lits (B : ℕ) : ∀ (arch : Arch) (l : ℕ) (h : ℤ), ∀ eqn ∈ (netEqns arch l h : List (Eqn K)),
    ∀ a, Atom.lit a ∉ eqn.invars
  | [], l, h, eqn, he, a => by
    simp only [netEqns, List.mem_cons, List.not_mem_nil, or_false] at he
    rcases he with rfl | rfl | rfl <;> simp
  | (m, act) :: arch, l, h, eqn, he, a => by
    rw [netEqns, List.mem_append] at he
    rcases he with he | he
    · cases act
      all_goals
        simp only [layerEqns, List.mem_cons, List.not_mem_nil, or_false, List.append_nil, List.cons_append,
          List.nil_append] at he
        rcases he with rfl | rfl | rfl | rfl | rfl | rfl | rfl | rfl <;> simp
    · exact netEqns_lits B arch (l + 1) (outVar l act) eqn he a

theorem mlp_wf : WellFormedProgram (mlpJaxpr arch B n X Y p v) (mlpConsts arch B n X Y p v) where
  input := rfl
  output := rfl
  consts := by simp [mlpJaxpr, mlpConsts]
  once := by
    obtain ⟨h1, h2⟩ := netEqns_out (K := K) B arch 0 1
    have hk : ((mlpJaxpr arch B n X Y p v).constvars).Nodup := pairs_keys.imp fun h => ne_of_lt h
    rw [List.nodup_append, List.nodup_append]
    refine ⟨⟨List.nodup_singleton _, hk, ?_⟩, (h1.imp fun h => ne_of_lt h).filter _, ?_⟩
    · intro a ha b hb hab
      obtain ⟨q, hq, rfl⟩ := List.mem_map.1 hb
      have := pairs_odd q hq
      rw [List.mem_singleton.1 ha] at hab
      omega
    · intro a ha b hb hab
      have h3 := h2 b (List.mem_of_mem_filter hb)
      rcases List.mem_append.1 ha with ha | ha
      · rw [List.mem_singleton.1 ha] at hab
        omega
      · obtain ⟨q, hq, rfl⟩ := List.mem_map.1 ha
        have := pairs_odd q hq
        omega
  lits eqn he a ha := absurd ha (netEqns_lits B arch 0 1 eqn he a)

end
end MLP
end AB
