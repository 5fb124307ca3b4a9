/-
Helper lemmas for the programs of Spec/Net.lean.
-/
import Verif.Spec.Net
import Verif.Proofs.MLP
import Verif.Props.Conv
import Verif.Props.LaxSpec

set_option linter.unusedSectionVars false

namespace AB
namespace Net
variable {K : Type} [Field K] [LinearOrder K] [IsStrictOrderedRing K]
open JB ND Lax
open MLP (Run lookup_self lookup_ne get_one get_two var_dep dep_left dep_right scalar_mul same_op)

theorem canon_eq {a b : ND K} (hs : a.shape = b.shape) (h : ∀ I, ValidIdx a.shape I → a.get I = b.get I) :
    a.canon = b.canon := by
  obtain ⟨S, f⟩ := a
  obtain ⟨S', g⟩ := b
  obtain rfl : S = S' := hs
  unfold ND.canon
  congr 1
  funext I
  by_cases hI : I ∈ idx S
  · rw [if_pos hI, if_pos hI]; exact h I (mem_idx.1 hI)
  · rw [if_neg hI, if_neg hI]

theorem bind_congr2 {sem : Sem K} {p : Prim K} {a b b' : ND K} (h : b.canon = b'.canon) :
    p.bind sem [a, b] = p.bind sem [a, b'] := by
  unfold Prim.bind
  simp only [List.map_cons, List.map_nil, h]

theorem bind2_of {sem : Sem K} {p : Prim K} {a b r : ND K} (h : p.bind sem [a, b] = .ok [r]) :
    Prim.bind2 sem p a b = .ok r := by
  unfold Prim.bind2
  rw [h]
  rfl

theorem bind1_of {sem : Sem K} {p : Prim K} {a r : ND K} (h : p.bind sem [a] = .ok [r]) :
    Prim.bind1 sem p a = .ok r := by
  unfold Prim.bind1
  rw [h]
  rfl

theorem valid_of_pos : ∀ {S : List ℕ}, Pos S → ∃ I, ValidIdx S I
  | [], _ => ⟨[], .nil⟩
  | s :: S, h => by
    obtain ⟨I, hI⟩ := valid_of_pos (S := S) fun s hs => h s (List.mem_cons_of_mem _ hs)
    exact ⟨0 :: I, .cons (h s (List.mem_cons_self ..)) hI⟩

theorem bleR_of_forall₂ {bs S : List ℕ} (h : List.Forall₂ (fun b s => b = 1 ∨ b = s) bs S) : bleR bs S := by
  induction h with
  | nil => trivial
  | cons h _ ih => exact ⟨h, ih⟩

theorem ble_of_bias {bs S : List ℕ} (h : BiasOk bs S) : ble bs S :=
  bleR_of_forall₂ (List.forall₂_reverse_iff.2 h)

theorem bias_add (sem : Sem K) {a b : ND K} (h : BiasOk b.shape a.shape) :
    ∃ r, Prim.bind sem .add [a, b] = .ok [r] ∧ r.shape = a.shape := by
  have hbs : bshape a.canon.shape b.canon.shape = some a.shape := bshape_eq_of_ble' (ble_of_bias h)
  refine ⟨⟨a.shape, fun I => a.canon.bget I + b.canon.bget I⟩, ?_, rfl⟩
  show (Lax.nary (· + ·) a.canon b.canon).one = _
  unfold Lax.nary
  rw [if_pos (Or.inl (show a.canon.ndim = b.canon.ndim from h.length_eq.symm))]
  unfold ND.map2
  simp only [hbs]
  rfl

theorem conv_bind (sem : Sem K) {c : ConvParams} {a b : ND K} (h : ConvOk c a.shape b.shape) :
    ∃ r, Prim.bind sem (.conv (convGeneral c)) [a, b] = .ok [r] ∧ r.shape = convShape c a.shape b.shape := by
  show ∃ r, (convGeneral c a.canon b.canon).one = .ok [r] ∧ _
  unfold convGeneral
  rw [if_pos (show ConvOk c a.canon.shape b.canon.shape from h)]
  exact ⟨_, rfl, rfl⟩

theorem dot_bind (sem : Sem K) {lc rc : List ℕ} {a b : ND K} (h1 : AxesOk a.shape.length lc) (h2 : AxesOk b.shape.length rc)
    (h3 : lc.map (fun d => a.shape.getD d 0) = rc.map (fun d => b.shape.getD d 0)) :
    ∃ r, Prim.bind sem (.dotGeneral lc rc [] []) [a, b] = .ok [r] ∧ r.shape = dropAxes lc a.shape ++ dropAxes rc b.shape := by
  show ∃ r, (Lax.dotGeneral lc rc [] [] a.canon b.canon).one = .ok [r] ∧ _
  unfold Lax.dotGeneral
  rw [if_pos ⟨h1, h2, rfl, h3⟩]
  exact ⟨_, rfl, rfl⟩

theorem pool_bind (sem : Sem K) {ws : List WinAxis} {a : ND K} (h : ws.length = a.shape.length) :
    ∃ r, Prim.bind sem (.reduceWindowSum ws) [a] = .ok [r] ∧ r.shape = List.zipWith WinAxis.outSize ws a.shape := by
  show ∃ r, (Lax.reduceWindowSum ws a.canon).one = .ok [r] ∧ _
  unfold Lax.reduceWindowSum
  rw [if_pos (show ws.length = a.canon.ndim from h)]
  exact ⟨_, rfl, rfl⟩

theorem reshape_bind (sem : Sem K) {s : List ℕ} {a : ND K} (h : s.prod = a.shape.prod) :
    ∃ r, Prim.bind sem (.reshape s) [a] = .ok [r] ∧ r.shape = s := by
  show ∃ r, (Lax.reshape s a.canon).one = .ok [r] ∧ _
  unfold Lax.reshape
  rw [if_pos (show s.prod = a.canon.shape.prod from h)]
  exact ⟨_, rfl, rfl⟩

theorem act_bind {sem : Sem K} {name : String} {f : K → K} (hf : sem.fn name = some f) (a : ND K) :
    ∃ r, Prim.bind sem (.elementwise name) [a] = .ok [r] ∧ r.shape = a.shape := by
  refine ⟨a.canon.map f, ?_, rfl⟩
  show (match sem.fn name with | some f => (Except.ok [a.canon.map f] : Py _) | none => .error .notImplemented) = _
  rw [hf]

/-- summing all axes -/
theorem sum_bind (sem : Sem K) (a : ND K) :
    ∃ r, Prim.bind sem (.reduceSum (List.range a.ndim)) [a] = .ok [r] ∧ r.shape = [] ∧
      r.get [] = ((idx a.shape).map a.get).sum := by
  have hax : AxesOk a.canon.ndim (List.range a.ndim) := ⟨List.nodup_range, fun d hd => List.mem_range.1 hd⟩
  show ∃ r, (Lax.reduceSum (List.range a.ndim) a.canon).one = .ok [r] ∧ _
  unfold Lax.reduceSum
  rw [if_pos hax]
  refine ⟨_, rfl, ?_, ?_⟩
  · show dropAxes (List.range a.ndim) a.shape = []
    unfold dropAxes
    rw [List.map_eq_nil_iff, List.filter_eq_nil_iff]
    intro j hj
    have := List.mem_range.1 hj
    simp only [decide_not, Bool.not_eq_true', decide_eq_false_iff_not, not_not, List.mem_range]
    exact this
  · have hS : (List.range a.ndim).map (fun d => a.canon.shape.getD d 0) = a.shape := by
      apply List.ext_getElem
      · simp [ND.ndim]
      · intro k h1 h2
        simp only [List.getElem_map, List.getElem_range]
        exact List.getD_eq_getElem _ _ h2
    show ((idx ((List.range a.ndim).map fun d => a.canon.shape.getD d 0)).map fun J =>
      a.canon.get (assemble a.canon.ndim (List.range a.ndim) [] J)).sum = _
    rw [hS]
    refine congrArg List.sum (List.map_congr_left fun J hJ => ?_)
    have hv := mem_idx.1 hJ
    have : assemble a.canon.ndim (List.range a.ndim) [] J = J := by
      unfold assemble
      apply List.ext_getElem
      · simp; exact hv.length
      · intro k h1 h2
        have hk : k < a.ndim := by have := hv.length; unfold ND.ndim; omega
        simp only [List.getElem_map, List.getElem_range]
        rw [if_pos (List.mem_range.2 hk)]
        have : (List.range a.ndim).idxOf k = k := by
          have := List.Nodup.idxOf_getElem (List.nodup_range (n := a.ndim)) k (by simpa using hk)
          simpa using this
        rw [this, List.getD_eq_getElem _ _ h2]
    rw [this, canon_get a hv]

/-! ### Runs -/

section
variable {ct : Counts} {sem : Sem K} {lib : Lib K} {md : ℕ} {prop : Bool} {G : Prop} {cs : List ℤ}

/-- the equations of a layer with parameters -/
theorem param_run (hcs : ∀ c ∈ cs, c % 2 = 1) {op : Prim K} {vals : Vals K} {l : ℕ}
    (hct : ct.most (16 * (l : ℤ) + 10) ≤ ct.least (16 * (l : ℤ) + 6)) {eta : K} {hv : ℤ} (hvl : hv ≤ 16 * l + 1)
    {ks bs S : List ℕ} {p v : (List ℕ → K) × (List ℕ → K)} {a : ND K} (hk : Pos ks) (hbp : Pos bs) (hS : Pos S)
    (hbias : BiasOk bs S) (h0 : vals.lookup 0 = some (ND.scalar eta))
    (hW : vals.lookup (8 * (l : ℤ) + 5) = some ⟨ks, p.1⟩) (hV : vals.lookup (8 * (l : ℤ) + 7) = some ⟨ks, v.1⟩)
    (hb : vals.lookup (8 * (l : ℤ) + 9) = some ⟨bs, p.2⟩) (hc : vals.lookup (8 * (l : ℤ) + 11) = some ⟨bs, v.2⟩)
    (hh : vals.lookup hv = some a)
    (hop : ∀ u : ND K, u.shape = ks → ∃ r, op.bind sem [a, u] = .ok [r] ∧ r.shape = S)
    (hfit : ∀ u r, op.bind sem [a, u] = .ok [r] → EqnFits ct [] cs op [.var hv, .var (16 * l + 4)] [a, u] [r])
    (hret : ∀ u : ND K, u.shape = ks → EqnReturns lib [] md prop cs op [.var hv, .var (16 * l + 4)] [a, u]) :
    ∃ vals', Run ct sem lib md prop G cs vals (paramEqns op l hv) vals' ∧
      ∃ r, vals'.lookup (16 * (l : ℤ) + 12) = some r ∧ r.shape = S ∧
        ∃ x, op.bind sem [a, ⟨ks, (p + eta • v).1⟩] = .ok [x] ∧ Prim.bind sem .add [x, ⟨bs, (p + eta • v).2⟩] = .ok [r] := by
  have ev : ∀ k : ℤ, (Atom.var (16 * l + 2 * k) : Atom K).constIn cs = false := fun k => var_dep hcs (by omega)
  have z0 : (Atom.var 0 : Atom K).constIn cs = false := var_dep hcs (by omega)
  obtain ⟨y1, b1, s1, m1⟩ := scalar_mul sem eta (⟨ks, v.1⟩ : ND K)
  obtain ⟨y2, b2, s2, m2⟩ := same_op (a := (⟨ks, p.1⟩ : ND K)) (b := y1) (· + ·) s1.symm
  replace s2 : y2.shape = ks := s2
  replace s1 : y1.shape = ks := s1
  obtain ⟨y3, b3, s3⟩ := hop y2 s2
  obtain ⟨y4, b4, s4, m4⟩ := scalar_mul sem eta (⟨bs, v.2⟩ : ND K)
  obtain ⟨y5, b5, s5, m5⟩ := same_op (a := (⟨bs, p.2⟩ : ND K)) (b := y4) (· + ·) s4.symm
  replace s5 : y5.shape = bs := s5
  replace s4 : y4.shape = bs := s4
  obtain ⟨y6, b6, s6⟩ := bias_add sem (a := y3) (b := y5) (by rw [s3, s5]; exact hbias)
  have e2 : y2.canon = (⟨ks, (p + eta • v).1⟩ : ND K).canon := by
    refine canon_eq s2 fun I hI => ?_
    rw [s2] at hI
    rw [m2 I hI, m1 I hI]
    rfl
  have e5 : y5.canon = (⟨bs, (p + eta • v).2⟩ : ND K).canon := by
    refine canon_eq s5 fun I hI => ?_
    rw [s5] at hI
    rw [m5 I hI, m4 I hI]
    rfl
  have r1 := Run.one (ct := ct) (lib := lib) (md := md) (prop := prop) (G := G) (o := 16 * l + 2) (dep_left z0) (get_two h0 hV) b1
    (by omega) (by omega) trivial (fun _ => trivial) (by rw [s1]; exact valid_of_pos hk)
  have r2 := Run.one (ct := ct) (lib := lib) (md := md) (prop := prop) (G := G) (o := 16 * l + 4) (cs := cs) (sem := sem) (p := .add)
    (vals := (16 * l + 2, y1) :: vals) (dep_right (ev 1))
    (get_two ((lookup_ne (by omega)).trans hW) lookup_self) b2
    (by omega) (by omega) ⟨Or.inr (Or.inl s2.symm), Or.inr (Or.inl (s1.trans s2.symm))⟩ (fun _ => trivial)
    (by rw [s2]; exact valid_of_pos hk)
  have r3 := Run.one (ct := ct) (lib := lib) (md := md) (prop := prop) (G := G) (o := 16 * l + 6) (cs := cs) (p := op)
    (vals := (16 * l + 4, y2) :: (16 * l + 2, y1) :: vals) (dep_right (ev 2))
    (get_two ((lookup_ne (by omega)).trans ((lookup_ne (by omega)).trans hh)) lookup_self) b3
    (by omega) (by omega) (hfit _ _ b3) (fun _ => hret _ s2) (by rw [s3]; exact valid_of_pos hS)
  have r4 := Run.one (ct := ct) (lib := lib) (md := md) (prop := prop) (G := G) (o := 16 * l + 8) (cs := cs)
    (vals := (16 * l + 6, y3) :: (16 * l + 4, y2) :: (16 * l + 2, y1) :: vals) (dep_left z0)
    (get_two ((lookup_ne (by omega)).trans ((lookup_ne (by omega)).trans ((lookup_ne (by omega)).trans h0)))
      ((lookup_ne (by omega)).trans ((lookup_ne (by omega)).trans ((lookup_ne (by omega)).trans hc)))) b4
    (by omega) (by omega) trivial (fun _ => trivial) (by rw [s4]; exact valid_of_pos hbp)
  have r5 := Run.one (ct := ct) (lib := lib) (md := md) (prop := prop) (G := G) (o := 16 * l + 10) (cs := cs) (sem := sem) (p := .add)
    (vals := (16 * l + 8, y4) :: (16 * l + 6, y3) :: (16 * l + 4, y2) :: (16 * l + 2, y1) :: vals) (dep_right (ev 4))
    (get_two ((lookup_ne (by omega)).trans ((lookup_ne (by omega)).trans ((lookup_ne (by omega)).trans
      ((lookup_ne (by omega)).trans hb)))) lookup_self) b5
    (by omega) (by omega) ⟨Or.inr (Or.inl s5.symm), Or.inr (Or.inl (s4.trans s5.symm))⟩ (fun _ => trivial)
    (by rw [s5]; exact valid_of_pos hbp)
  have r6 := Run.one (ct := ct) (lib := lib) (md := md) (prop := prop) (G := G) (o := 16 * l + 12) (cs := cs)
    (vals := (16 * l + 10, y5) :: (16 * l + 8, y4) :: (16 * l + 6, y3) :: (16 * l + 4, y2) ::
      (16 * l + 2, y1) :: vals) (dep_right (ev 5))
    (get_two ((lookup_ne (by omega)).trans ((lookup_ne (by omega)).trans lookup_self)) lookup_self) b6
    (by omega) (by omega) ⟨Or.inr (Or.inl s6.symm), Or.inr (Or.inr hct)⟩ (fun _ => trivial)
    (by rw [s6, s3]; exact valid_of_pos hS)
  refine ⟨_, r1.append (r2.append (r3.append (r4.append (r5.append r6)))), y6, lookup_self, s6.trans s3, y3, ?_, ?_⟩
  · rw [← bind_congr2 e2]; exact b3
  · rw [← bind_congr2 e5]; exact b6

/-- what is assumed about an activation function -/
def ActOk (lib : Lib K) (md : ℕ) (prop : Bool) : Layer → Prop
  | .act name => ∃ g, lib.gen name = some g ∧ GenUsable md prop g
  | _ => True

/-- every activation function has an implementation -/
def ActDefined (sem : Sem K) : Layer → Prop
  | .act name => ∃ f, sem.fn name = some f
  | _ => True

/-- the parameters of one layer are in the environment -/
def HasConsts (vals : Vals K) (p v : Params K) (L : Layer) (l : ℕ) : Prop :=
  ∀ ks bs, L.shapes = some (ks, bs) → vals.lookup (8 * (l : ℤ) + 5) = some ⟨ks, (p l).1⟩ ∧
    vals.lookup (8 * (l : ℤ) + 7) = some ⟨ks, (v l).1⟩ ∧ vals.lookup (8 * (l : ℤ) + 9) = some ⟨bs, (p l).2⟩ ∧
    vals.lookup (8 * (l : ℤ) + 11) = some ⟨bs, (v l).2⟩

theorem layer_run (hcs : ∀ c ∈ cs, c % 2 = 1) {L : Layer} (hact : ActDefined sem L) (hG : G → ActOk lib md prop L)
    {vals : Vals K} {l : ℕ} (hct : ct.most (16 * (l : ℤ) + 10) ≤ ct.least (16 * (l : ℤ) + 6)) {eta : K} {hv : ℤ}
    (hvl : hv ≤ 16 * l + 1) (hev : L.HasParams ∨ hv % 2 = 0) {p v : Params K} {a : ND K} (hr : a.shape.length ≤ 26)
    (hok : L.Ok a.shape) (hpos : Pos (L.out a.shape)) (h0 : vals.lookup 0 = some (ND.scalar eta))
    (hcon : HasConsts vals p v L l) (hh : vals.lookup hv = some a) :
    ∃ vals', Run ct sem lib md prop G cs vals (layerEqns L l hv) vals' ∧
      ∃ r, vals'.lookup (16 * (l : ℤ) + 12) = some r ∧ r.shape = L.out a.shape ∧
        applyLayer sem (p + eta • v) l L a = .ok r ∧ LayerIs sem (p + eta • v) l L a r := by
  have one : ∀ {o : Prim K} {r : ND K}, (¬ L.HasParams) → o.bind sem [a] = .ok [r] → r.shape = L.out a.shape →
      EqnFits ct [] cs o [.var hv] [a] [r] → (G → EqnReturns lib [] md prop cs o [.var hv] [a]) →
      Run ct sem lib md prop G cs vals [⟨o, [.var hv], [16 * l + 12]⟩] ((16 * (l : ℤ) + 12, r) :: vals) := by
    intro o r hn hb hs hf hret
    have hev := hev.resolve_left hn
    exact Run.one (dep_left (var_dep hcs hev)) (get_one hh) hb (by omega) (by omega) hf hret
      (by rw [hs]; exact valid_of_pos hpos)
  cases L with
  | conv c ks bs =>
    obtain ⟨ok1, ok2, ok3, ok4⟩ := hok
    obtain ⟨c1, c2, c3, c4⟩ := hcon ks bs rfl
    obtain ⟨vals', hrun, r, hl, hs, x, hx, hy⟩ := param_run (G := G) (lib := lib) (md := md) (prop := prop)
      (op := .conv (convGeneral c)) (S := convShape c a.shape ks) hcs hct hvl ok2 ok3 hpos ok4 h0 c1 c2 c3 c4 hh
      (fun u hu => by
        obtain ⟨r, h1, h2⟩ := conv_bind sem (c := c) (a := a) (b := u) (by rw [hu]; exact ok1)
        exact ⟨r, h1, by rw [h2, hu]⟩)
      (fun u r hu => C49_conv_fits hu) (fun u hu => C53_conv_returns (by rw [hu]; exact ok1))
    refine ⟨vals', hrun, r, hl, hs, ?_, x, LaxSpec.C70_conv hx, LaxSpec.C70_binary.1 hy⟩
    exact py_bind_ok.2 ⟨x, bind2_of hx, bind2_of hy⟩
  | dot lc rc ks bs =>
    obtain ⟨ok1, ok2, ok3, ok4, ok5, ok6⟩ := hok
    obtain ⟨c1, c2, c3, c4⟩ := hcon ks bs rfl
    obtain ⟨vals', hrun, r, hl, hs, x, hx, hy⟩ := param_run (G := G) (lib := lib) (md := md) (prop := prop)
      (op := .dotGeneral lc rc [] []) (S := dropAxes lc a.shape ++ dropAxes rc ks) hcs hct hvl ok4 ok5 hpos ok6 h0 c1 c2 c3
      c4 hh
      (fun u hu => by
        obtain ⟨r, h1, h2⟩ := dot_bind sem (lc := lc) (rc := rc) (a := a) (b := u) ok1 (by rw [hu]; exact ok2)
          (by rw [hu]; exact ok3)
        exact ⟨r, h1, by rw [h2, hu]⟩)
      (fun u r hu => Or.inl rfl) (fun u hu => trivial)
    refine ⟨vals', hrun, r, hl, hs, ?_, x, LaxSpec.C70_dot_general hx, LaxSpec.C70_binary.1 hy⟩
    exact py_bind_ok.2 ⟨x, bind2_of hx, bind2_of hy⟩
  | act name =>
    obtain ⟨f, hf⟩ := hact
    obtain ⟨r, hb, hs⟩ := act_bind hf a
    refine ⟨_, one id hb hs trivial (fun g => ⟨Or.inr (by simpa using hr), hG g⟩), r, lookup_self, hs, bind1_of hb, f, hf, ?_⟩
    exact LaxSpec.C70_unary.2.2.2 name f hf hb
  | pool ws =>
    obtain ⟨ok1, ok2⟩ := hok
    obtain ⟨r, hb, hs⟩ := pool_bind sem (ws := ws) (a := a) ok1
    exact ⟨_, one id hb hs trivial (fun g => rfl), r, lookup_self, hs, bind1_of hb, LaxSpec.C70_reduce_window_sum ok2 hb⟩
  | reshape s =>
    obtain ⟨r, hb, hs⟩ := reshape_bind sem (s := s) (a := a) hok
    exact ⟨_, one id hb hs (Or.inl rfl) (fun g => rfl), r, lookup_self, hs, bind1_of hb, LaxSpec.C70_reshape hb⟩

theorem layerConsts_odd {p v : Params K} : ∀ (Ls : List Layer) (l : ℕ), ∀ q ∈ layerConsts p v Ls l, q.1 % 2 = 1
  | [], _, q, hq => absurd hq List.not_mem_nil
  | L :: Ls, l, q, hq => by
    rw [layerConsts, List.mem_append] at hq
    rcases hq with hq | hq
    · cases h : L.shapes with
      | none => rw [h] at hq; exact absurd hq List.not_mem_nil
      | some kb =>
        rw [h] at hq
        simp only [List.mem_cons, List.not_mem_nil, or_false] at hq
        rcases hq with rfl | rfl | rfl | rfl
        · show (8 * (l : ℤ) + 5) % 2 = 1; omega
        · show (8 * (l : ℤ) + 7) % 2 = 1; omega
        · show (8 * (l : ℤ) + 9) % 2 = 1; omega
        · show (8 * (l : ℤ) + 11) % 2 = 1; omega
    · exact layerConsts_odd Ls (l + 1) q hq

theorem hasConsts_of {vals : Vals K} {p v : Params K} {L : Layer} {Ls : List Layer} {l : ℕ}
    (h : ∀ q ∈ layerConsts p v (L :: Ls) l, vals.lookup q.1 = some q.2) : HasConsts vals p v L l := by
  intro ks bs hs
  rw [layerConsts, hs] at h
  exact ⟨h (8 * l + 5, ⟨ks, (p l).1⟩) (by simp), h (8 * l + 7, ⟨ks, (v l).1⟩) (by simp),
    h (8 * l + 9, ⟨bs, (p l).2⟩) (by simp), h (8 * l + 11, ⟨bs, (v l).2⟩) (by simp)⟩

theorem layersOk_pos {Ls : List Layer} {S : List ℕ} (h : LayersOk Ls S) : Pos S ∧ S.length ≤ 26 := by
  cases Ls with
  | nil => exact h
  | cons L Ls => exact ⟨h.1, h.2.1⟩

theorem layers_run (hcs : ∀ c ∈ cs, c % 2 = 1) {p v : Params K} {eta : K}
    (hct : ∀ k : ℕ, ct.most (16 * (k : ℤ) + 10) ≤ ct.least (16 * (k : ℤ) + 6)) :
    ∀ (Ls : List Layer), (∀ L ∈ Ls, ActDefined sem L) → (G → ∀ L ∈ Ls, ActOk lib md prop L) →
    ∀ {vals : Vals K} {l : ℕ} {hv : ℤ}, hv ≤ 16 * l + 1 → (hv % 2 = 0 ∨ ∀ L, Ls.head? = some L → L.HasParams) →
    vals.lookup 0 = some (ND.scalar eta) → (∀ q ∈ layerConsts p v Ls l, vals.lookup q.1 = some q.2) →
    ∀ {a : ND K}, vals.lookup hv = some a → LayersOk Ls a.shape →
    ∃ vals', Run ct sem lib md prop G cs vals (bodyEqns Ls l hv) vals' ∧
      ∃ r, vals'.lookup (outVar Ls l hv) = some r ∧ forward sem (p + eta • v) Ls l a = .ok r ∧
        NetIs sem (p + eta • v) Ls l a r ∧ r.shape = outShape Ls a.shape := by
  intro Ls
  induction Ls with
  | nil =>
    intro _ _ vals l hv _ _ _ _ a hh _
    exact ⟨vals, Run.nil vals, a, hh, rfl, rfl, rfl⟩
  | cons L Ls ih =>
    intro hact hG vals l hv hvl hev h0 hconst a hh hok
    obtain ⟨ok1, ok2, ok3, ok4⟩ := hok
    obtain ⟨hp2, -⟩ := layersOk_pos ok4
    obtain ⟨v1, hr, r, hl, hs, hap, his⟩ := layer_run (md := md) (prop := prop) (G := G) (lib := lib) hcs
      (hact L (List.mem_cons_self ..)) (fun g => hG g L (List.mem_cons_self ..)) (hct l) hvl
      (by
        rcases hev with h | h
        · exact Or.inr h
        · exact Or.inl (h L rfl)) ok2 ok3 hp2 h0 (hasConsts_of hconst) hh
    obtain ⟨v2, hr2, r2, h1, h2, h3, h4⟩ := ih (fun q hq => hact q (List.mem_cons_of_mem _ hq))
      (fun g q hq => hG g q (List.mem_cons_of_mem _ hq)) (vals := v1) (l := l + 1) (hv := 16 * l + 12)
      (by push_cast; omega) (Or.inl (by omega)) ((hr.same 0 (Or.inl rfl)).trans h0)
      (fun q hq => by
        refine (hr.same q.1 (Or.inr (layerConsts_odd _ _ q hq))).trans (hconst q ?_)
        rw [layerConsts]
        exact List.mem_append_right _ hq) hl (by rw [hs]; exact ok4)
    refine ⟨v2, hr.append hr2, r2, h1, py_bind_ok.2 ⟨r, hap, h2⟩, ⟨r, his, h3⟩, ?_⟩
    rw [h4, hs]
    rfl

theorem loss_run (hcs : ∀ c ∈ cs, c % 2 = 1) {Y : ND K} {vals : Vals K} {l : ℕ} {hv : ℤ}
    (hev : hv % 2 = 0) (hY : vals.lookup 3 = some Y) {a : ND K} (hh : vals.lookup hv = some a) (hsh : a.shape = Y.shape)
    (hpos : Pos a.shape) (hlen : a.shape.length ≤ 26) :
    ∃ vals', Run ct sem lib md prop G cs vals (lossEqns Y.ndim l hv) vals' ∧
      ∃ y, vals'.lookup (16 * (l : ℤ) + 16) = some y ∧ y.shape = [] ∧ y.get [] = sqErr Y a := by
  have ev : ∀ k : ℤ, (Atom.var (16 * l + 2 * k) : Atom K).constIn cs = false := fun k => var_dep hcs (by omega)
  obtain ⟨y1, b1, s1, m1⟩ := same_op (a := a) (b := Y) (· - ·) hsh
  have b2 : Prim.bind sem (.integerPow 2) [y1] = .ok [y1.canon.map (· ^ (2 : ℤ))] := rfl
  have s2 : (y1.canon.map (· ^ (2 : ℤ))).shape = y1.shape := rfl
  generalize hy2 : y1.canon.map (· ^ (2 : ℤ)) = y2 at b2 s2
  obtain ⟨y3, b3, s3, m3⟩ := sum_bind sem y2
  have hnd : y2.ndim = Y.ndim := by unfold ND.ndim; rw [s2, s1, hsh]
  rw [hnd] at b3
  have r1 := Run.one (ct := ct) (lib := lib) (md := md) (prop := prop) (G := G) (o := 16 * l + 12) (cs := cs) (sem := sem) (p := .sub)
    (dep_left (var_dep hcs hev)) (get_two hh hY) b1 (by omega) (by omega)
    ⟨Or.inr (Or.inl s1.symm), Or.inr (Or.inl (hsh.symm.trans s1.symm))⟩ (fun _ => trivial)
    (by rw [s1]; exact valid_of_pos hpos)
  have r2 := Run.one (ct := ct) (lib := lib) (md := md) (prop := prop) (G := G) (o := 16 * l + 14) (cs := cs)
    (vals := (16 * l + 12, y1) :: vals) (dep_left (ev 6)) (get_one lookup_self) b2 (by omega) (by omega)
    trivial (fun _ => ⟨by decide, fun _ => Or.inr (by rw [s1]; simpa using hlen), fun h => absurd h (by decide)⟩)
    (by rw [s2, s1]; exact valid_of_pos hpos)
  have r3 := Run.one (ct := ct) (lib := lib) (md := md) (prop := prop) (G := G) (o := 16 * l + 16) (cs := cs)
    (vals := (16 * l + 14, y2) :: (16 * l + 12, y1) :: vals) (dep_left (ev 7)) (get_one lookup_self) b3 (by omega)
    (by omega) trivial (fun _ => trivial) ⟨[], by rw [s3]; exact .nil⟩
  refine ⟨_, r1.append (r2.append r3), y3, lookup_self, s3, ?_⟩
  rw [m3, s2, s1, hsh]
  refine congrArg List.sum (List.map_congr_left fun I hI => ?_)
  have hI' : ValidIdx a.shape I := by rw [hsh]; exact mem_idx.1 hI
  rw [← hy2]
  show y1.canon.get I ^ (2 : ℤ) = _
  rw [canon_get y1 (by rw [s1]; exact hI'), m1 I hI']
  exact zpow_natCast _ 2

theorem outVar_even : ∀ (Ls : List Layer) (l : ℕ) (h : ℤ), Ls ≠ [] → outVar Ls l h % 2 = 0
  | [], _, _, h => absurd rfl h
  | [_], l, _, _ => by show (16 * (l : ℤ) + 12) % 2 = 0; omega
  | _ :: L :: Ls, l, _, _ => outVar_even (L :: Ls) (l + 1) (16 * l + 12) (by simp)

theorem layersOk_out : ∀ (Ls : List Layer) (S : List ℕ), LayersOk Ls S → Pos (outShape Ls S) ∧ (outShape Ls S).length ≤ 26
  | [], _, h => h
  | _ :: Ls, _, h => layersOk_out Ls _ h.2.2.2

/-! ### The whole program -/

theorem layerConsts_keys {p v : Params K} : ∀ (Ls : List Layer) (l : ℕ),
    ((layerConsts p v Ls l).map Prod.fst).Pairwise (· < ·) ∧
    ∀ k ∈ (layerConsts p v Ls l).map Prod.fst, 8 * (l : ℤ) + 5 ≤ k
  | [], _ => ⟨.nil, fun _ h => absurd h List.not_mem_nil⟩
  | L :: Ls, l => by
    obtain ⟨h1, h2⟩ := layerConsts_keys (p := p) (v := v) Ls (l + 1)
    push_cast at h2
    unfold layerConsts
    cases L.shapes with
    | none =>
      refine ⟨h1, fun k h => ?_⟩
      have := h2 k h
      omega
    | some kb =>
      simp only [List.cons_append, List.nil_append, List.map_cons, List.pairwise_cons, List.mem_cons]
      refine ⟨⟨?_, ?_, ?_, ?_, h1⟩, ?_⟩
      · rintro k (rfl | rfl | rfl | h)
        · omega
        · omega
        · omega
        · have := h2 k h; omega
      · rintro k (rfl | rfl | h)
        · omega
        · omega
        · have := h2 k h; omega
      · rintro k (rfl | h)
        · omega
        · have := h2 k h; omega
      · intro k h
        have := h2 k h; omega
      · rintro k (rfl | rfl | rfl | rfl | h)
        · omega
        · omega
        · omega
        · omega
        · have := h2 k h; omega

theorem layerConsts_ne {p v : Params K} : ∀ (Ls : List Layer) (l : ℕ) {S : List ℕ}, LayersOk Ls S →
    ∀ q ∈ layerConsts p v Ls l, ∃ I, ValidIdx q.2.shape I
  | [], _, _, _, q, hq => absurd hq List.not_mem_nil
  | L :: Ls, l, S, hok, q, hq => by
    obtain ⟨-, -, ok3, ok4⟩ := hok
    rw [layerConsts, List.mem_append] at hq
    rcases hq with hq | hq
    · have key : ∀ ks bs, L.shapes = some (ks, bs) → Pos ks ∧ Pos bs := by
        intro ks bs hs
        cases L with
        | conv c ks' bs' => cases hs; exact ⟨ok3.2.1, ok3.2.2.1⟩
        | dot lc rc ks' bs' => cases hs; exact ⟨ok3.2.2.2.1, ok3.2.2.2.2.1⟩
        | act _ => cases hs
        | pool _ => cases hs
        | reshape _ => cases hs
      cases h : L.shapes with
      | none => rw [h] at hq; exact absurd hq List.not_mem_nil
      | some kb =>
        obtain ⟨ks, bs⟩ := kb
        obtain ⟨hk, hb⟩ := key ks bs h
        rw [h] at hq
        simp only [List.mem_cons, List.not_mem_nil, or_false] at hq
        rcases hq with rfl | rfl | rfl | rfl
        · exact valid_of_pos hk
        · exact valid_of_pos hk
        · exact valid_of_pos hb
        · exact valid_of_pos hb
    · exact layerConsts_ne Ls (l + 1) ok4 q hq

variable {layers : List Layer} {X Y : ND K} {p v : Params K}

theorem pairs_keys : ((netPairs layers X Y p v).map Prod.fst).Pairwise (· < ·) := by
  obtain ⟨h1, h2⟩ := layerConsts_keys (p := p) (v := v) layers 0
  simp only [netPairs, List.map_cons, List.pairwise_cons, List.mem_cons]
  refine ⟨?_, ?_, h1⟩
  · rintro k (rfl | h)
    · omega
    · have := h2 k h; omega
  · intro k h
    have := h2 k h; omega

theorem pairs_odd : ∀ q ∈ netPairs layers X Y p v, q.1 % 2 = 1 := by
  intro q hq
  simp only [netPairs, List.mem_cons] at hq
  rcases hq with rfl | rfl | hq
  · rfl
  · rfl
  · exact layerConsts_odd _ _ q hq

theorem init_eq (x : ND K) : evalInit (netJaxpr layers X Y p v) (netConsts layers X Y p v) x =
    (0, x) :: netPairs layers X Y p v := by
  show (0, x) :: ((netPairs layers X Y p v).map Prod.fst).zip ((netPairs layers X Y p v).map Prod.snd) = _
  rw [List.zip_map']
  simp

theorem init_lookup (x : ND K) {q : ℤ × ND K} (hq : q ∈ netPairs layers X Y p v) :
    List.lookup q.1 ((0, x) :: netPairs layers X Y p v) = some q.2 := by
  rw [lookup_ne (by have := pairs_odd q hq; omega)]
  exact MLP.lookup_of_mem pairs_keys hq

/-- bounds on the number of coefficients: the parameters are affine in `eta` -/
def netCounts : Counts where
  least w := if w = 0 then 2 else if w % 2 = 1 ∨ w ≤ 0 ∨ w % 16 = 12 ∨ w % 16 = 14 ∨ w % 16 = 0 then 1 else 2
  most w := if w = 0 then 2 else if w % 2 = 1 then 1
    else if w ≤ 0 ∨ w % 16 = 6 ∨ w % 16 = 12 ∨ w % 16 = 14 ∨ w % 16 = 0 then ⊤ else 2

theorem netCounts_odd {w : ℤ} (h : w % 2 = 1) : netCounts.least w = 1 ∧ netCounts.most w = 1 := by
  unfold netCounts
  constructor
  · show (if _ then _ else _) = _
    rw [if_neg (by omega), if_pos (Or.inl h)]
  · show (if _ then _ else _) = _
    rw [if_neg (by omega), if_pos h]

theorem netCounts_pos (w : ℤ) : 1 ≤ netCounts.least w := by
  show 1 ≤ (if _ then _ else _)
  split_ifs <;> omega

theorem netCounts_two (l : ℕ) {k : ℤ} (hk : k = 2 ∨ k = 4 ∨ k = 8 ∨ k = 10) :
    netCounts.least (16 * l + k) = 2 ∧ netCounts.most (16 * l + k) = 2 := by
  constructor
  · show (if _ then _ else _) = _
    rw [if_neg (by omega), if_neg (by omega)]
  · show (if _ then _ else _) = _
    rw [if_neg (by omega), if_neg (by omega), if_neg (by omega)]

theorem netCounts_op (l : ℕ) : netCounts.least (16 * l + 6) = 2 ∧ netCounts.most (16 * l + 6) = ⊤ := by
  obtain ⟨k, hk⟩ : ∃ k : ℤ, k = 6 := ⟨6, rfl⟩
  rw [← hk]
  constructor
  · show (if _ then _ else _) = _
    rw [if_neg (by omega), if_neg (by omega)]
  · show (if _ then _ else _) = _
    rw [if_neg (by omega), if_neg (by omega), if_pos (by omega)]

theorem netCounts_any (l : ℕ) {k : ℤ} (hk : k = 12 ∨ k = 14 ∨ k = 16) :
    netCounts.least (16 * l + k) ≤ 1 ∧ netCounts.most (16 * l + k) = ⊤ := by
  constructor
  · show (if _ then _ else _) ≤ _
    rw [if_neg (by omega), if_pos (by omega)]
  · show (if _ then _ else _) = _
    rw [if_neg (by omega), if_neg (by omega), if_pos (by omega)]

theorem param_counts {op : Prim K} (hop : ∀ (a b : Atom K) (o : ℤ), CountOp netCounts op [a, b] [o] ↔
      netCounts.least o + 1 ≤ a.least netCounts + b.least netCounts ∧
      a.most netCounts + b.most netCounts ≤ netCounts.most o + 1) (l : ℕ) (h : ℤ) :
    ∀ eqn ∈ paramEqns op l h, CountEqn netCounts eqn := by
  intro eqn he
  obtain ⟨t1, s1⟩ := netCounts_two l (k := 2) (by simp)
  obtain ⟨t2, s2⟩ := netCounts_two l (k := 4) (by simp)
  obtain ⟨t4, s4⟩ := netCounts_two l (k := 8) (by simp)
  obtain ⟨t5, s5⟩ := netCounts_two l (k := 10) (by simp)
  obtain ⟨t3, s3⟩ := netCounts_op l
  have z : netCounts.least 0 = 2 ∧ netCounts.most 0 = 2 := ⟨rfl, rfl⟩
  simp only [paramEqns, List.mem_cons, List.not_mem_nil, or_false] at he
  rcases he with rfl | rfl | rfl | rfl | rfl | rfl
  · refine Or.inr ?_
    show netCounts.least (16 * l + 2) + 1 ≤ netCounts.least 0 + netCounts.least (8 * l + 7) ∧
      netCounts.most 0 + netCounts.most (8 * l + 7) ≤ netCounts.most (16 * l + 2) + 1
    rw [t1, s1, z.1, z.2, (netCounts_odd (by omega)).1, (netCounts_odd (by omega)).2]
    exact ⟨le_rfl, le_rfl⟩
  · refine Or.inr ?_
    show netCounts.least (16 * l + 4) ≤ max (netCounts.least (8 * l + 5)) (netCounts.least (16 * l + 2)) ∧
      max (netCounts.most (8 * l + 5)) (netCounts.most (16 * l + 2)) ≤ netCounts.most (16 * l + 4)
    rw [t1, s1, t2, s2, (netCounts_odd (by omega)).1, (netCounts_odd (by omega)).2]
    exact ⟨le_max_right _ _, max_le one_le_two le_rfl⟩
  · refine Or.inr ((hop _ _ _).2 ?_)
    show netCounts.least (16 * l + 6) + 1 ≤ netCounts.least h + netCounts.least (16 * l + 4) ∧
      netCounts.most h + netCounts.most (16 * l + 4) ≤ netCounts.most (16 * l + 6) + 1
    rw [t3, s3, t2]
    have := netCounts_pos h
    exact ⟨by omega, le_top⟩
  · refine Or.inr ?_
    show netCounts.least (16 * l + 8) + 1 ≤ netCounts.least 0 + netCounts.least (8 * l + 11) ∧
      netCounts.most 0 + netCounts.most (8 * l + 11) ≤ netCounts.most (16 * l + 8) + 1
    rw [t4, s4, z.1, z.2, (netCounts_odd (by omega)).1, (netCounts_odd (by omega)).2]
    exact ⟨le_rfl, le_rfl⟩
  · refine Or.inr ?_
    show netCounts.least (16 * l + 10) ≤ max (netCounts.least (8 * l + 9)) (netCounts.least (16 * l + 8)) ∧
      max (netCounts.most (8 * l + 9)) (netCounts.most (16 * l + 8)) ≤ netCounts.most (16 * l + 10)
    rw [t4, s4, t5, s5, (netCounts_odd (by omega)).1, (netCounts_odd (by omega)).2]
    exact ⟨le_max_right _ _, max_le one_le_two le_rfl⟩
  · refine Or.inl fun o ho => ?_
    rw [List.mem_singleton] at ho
    subst ho
    exact netCounts_any l (by simp)

theorem single_counts {op : Prim K} {ins : List (Atom K)} (l : ℕ) {k : ℤ} (hk : k = 12 ∨ k = 14 ∨ k = 16) :
    CountEqn netCounts (⟨op, ins, [16 * (l : ℤ) + k]⟩ : Eqn K) := by
  refine Or.inl fun o ho => ?_
  rw [List.mem_singleton] at ho
  subst ho
  exact netCounts_any l hk

theorem body_counts : ∀ (Ls : List Layer) (l : ℕ) (h : ℤ), ∀ eqn ∈ (bodyEqns Ls l h : List (Eqn K)),
    CountEqn netCounts eqn
  | [], l, h, eqn, he => absurd he List.not_mem_nil
  | L :: Ls, l, h, eqn, he => by
    rw [bodyEqns, List.mem_append] at he
    rcases he with he | he
    · cases L with
      | conv c ks bs => exact param_counts (fun _ _ _ => Iff.rfl) l h eqn he
      | dot lc rc ks bs => exact param_counts (fun _ _ _ => Iff.rfl) l h eqn he
      | act name => rw [List.mem_singleton.1 he]; exact single_counts l (by simp)
      | pool ws => rw [List.mem_singleton.1 he]; exact single_counts l (by simp)
      | reshape s => rw [List.mem_singleton.1 he]; exact single_counts l (by simp)
    · exact body_counts Ls (l + 1) _ eqn he

theorem loss_counts {rk l : ℕ} {h : ℤ} : ∀ eqn ∈ (lossEqns rk l h : List (Eqn K)), CountEqn netCounts eqn := by
  intro eqn he
  simp only [lossEqns, List.mem_cons, List.not_mem_nil, or_false] at he
  rcases he with rfl | rfl | rfl <;> exact single_counts l (by simp)

theorem counts_fit : CountsFit netCounts (netJaxpr layers X Y p v) := by
  refine ⟨fun w hw => ?_, fun w hw => ?_, fun eqn he => ?_⟩
  · have : w = 0 := by simpa [netJaxpr] using hw
    subst this
    exact ⟨le_rfl, le_rfl⟩
  · obtain ⟨q, hq, rfl⟩ := List.mem_map.1 hw
    obtain ⟨h1, h2⟩ := netCounts_odd (pairs_odd q hq)
    exact ⟨h1.le, h2.ge⟩
  · rcases List.mem_append.1 he with he | he
    · exact body_counts _ _ _ eqn he
    · exact loss_counts eqn he

theorem consts_odd : ∀ c ∈ (netJaxpr layers X Y p v).constvars, c % 2 = 1 := by
  intro c hc
  obtain ⟨q, hq, rfl⟩ := List.mem_map.1 hc
  exact pairs_odd q hq

theorem init_nonEmpty (hnet : NetOk layers X Y) (eta : K) : NonEmptyVals ((0, ND.scalar eta) :: netPairs layers X Y p v) := by
  intro va hva
  simp only [netPairs, List.mem_cons] at hva
  rcases hva with rfl | rfl | rfl | hva
  · exact ⟨[], .nil⟩
  · exact valid_of_pos (layersOk_pos hnet.fits).1
  · have := (layersOk_out layers X.shape hnet.fits).1
    rw [hnet.targets] at this
    exact valid_of_pos this
  · exact layerConsts_ne layers 0 hnet.fits va hva

theorem counts_ok (k : ℕ) : netCounts.most (16 * (k : ℤ) + 10) ≤ netCounts.least (16 * (k : ℤ) + 6) := by
  rw [(netCounts_two k (k := 10) (by simp)).2, (netCounts_op k).1]; exact le_rfl

theorem layersOk_prefix : ∀ {L1 L2 : List Layer} {S : List ℕ}, LayersOk (L1 ++ L2) S → LayersOk L1 S
  | [], _, _, h => layersOk_pos h
  | _ :: _, _, _, h => ⟨h.1, h.2.1, h.2.2.1, layersOk_prefix h.2.2.2⟩

theorem layerConsts_prefix {p v : Params K} : ∀ (L1 L2 : List Layer) (l : ℕ), ∀ q ∈ layerConsts p v L1 l,
    q ∈ layerConsts p v (L1 ++ L2) l
  | [], _, _, q, hq => absurd hq List.not_mem_nil
  | L :: L1, L2, l, q, hq => by
    rw [layerConsts, List.mem_append] at hq
    rw [List.cons_append, layerConsts, List.mem_append]
    rcases hq with hq | hq
    · exact Or.inl hq
    · exact Or.inr (layerConsts_prefix L1 L2 (l + 1) q hq)

/-- the evaluation of the first layers -/
theorem prefix_run {L1 L2 : List Layer} (hl : layers = L1 ++ L2) (hnet : NetOk layers X Y)
    (hact : ∀ L ∈ layers, ActDefined sem L) (hG : G → ∀ L ∈ layers, ActOk lib md prop L) (eta : K) :
    ∃ vals', Run netCounts sem lib md prop G (netJaxpr layers X Y p v).constvars
      (evalInit (netJaxpr layers X Y p v) (netConsts layers X Y p v) (ND.scalar eta)) (bodyEqns L1 0 1) vals' ∧
      NonEmptyVals vals' ∧
      ∃ r, vals'.lookup (outVar L1 0 1) = some r ∧ forward sem (p + eta • v) L1 0 X = .ok r ∧
        NetIs sem (p + eta • v) L1 0 X r ∧ r.shape = outShape L1 X.shape := by
  rw [init_eq]
  obtain ⟨vals', hr, h⟩ := layers_run (ct := netCounts) (md := md) (prop := prop) (G := G) (lib := lib) (p := p)
    (v := v) (eta := eta) (cs := (netJaxpr layers X Y p v).constvars) consts_odd counts_ok L1
    (fun L hL => hact L (by rw [hl]; exact List.mem_append_left _ hL))
    (fun g L hL => hG g L (by rw [hl]; exact List.mem_append_left _ hL))
    (vals := (0, ND.scalar eta) :: netPairs layers X Y p v) (l := 0) (hv := 1) (by simp)
    (Or.inr fun L hL => by
      obtain ⟨L', h1, h2⟩ := hnet.first
      rw [hl] at h1
      cases L1 with
      | nil => cases hL
      | cons a L1 => cases hL; cases h1; exact h2)
    lookup_self
    (fun q hq => init_lookup _ (by
      have := layerConsts_prefix L1 L2 0 q hq
      rw [← hl] at this
      simp [netPairs, this])) (init_lookup _ (q := (1, X)) (by simp [netPairs]))
    (layersOk_prefix (L2 := L2) (by rw [← hl]; exact hnet.fits))
  exact ⟨vals', hr, hr.ne (init_nonEmpty hnet eta), h⟩

/-- the evaluation of the whole program -/
theorem whole_run (hnet : NetOk layers X Y) (hact : ∀ L ∈ layers, ActDefined sem L)
    (hG : G → ∀ L ∈ layers, ActOk lib md prop L) (eta : K) :
    ∃ vals', Run netCounts sem lib md prop G (netJaxpr layers X Y p v).constvars
      (evalInit (netJaxpr layers X Y p v) (netConsts layers X Y p v) (ND.scalar eta))
      (netJaxpr layers X Y p v).eqns vals' ∧ NonEmptyVals vals' ∧
      ∃ y r, vals'.lookup (16 * (layers.length : ℤ) + 16) = some y ∧ y.shape = [] ∧
        forward sem (p + eta • v) layers 0 X = .ok r ∧ NetIs sem (p + eta • v) layers 0 X r ∧ r.shape = Y.shape ∧
        y.get [] = sqErr Y r := by
  obtain ⟨vals', hr, hne, r, h1, h2, h3, h4⟩ := prefix_run (md := md) (prop := prop) (G := G) (lib := lib) (p := p) (v := v)
    (L1 := layers) (L2 := []) (List.append_nil _).symm hnet hact hG eta
  obtain ⟨hp, hq⟩ := layersOk_out layers X.shape hnet.fits
  have hY : vals'.lookup 3 = some Y := by
    rw [hr.same 3 (Or.inr rfl), init_eq]
    exact init_lookup _ (q := (3, Y)) (by simp [netPairs])
  obtain ⟨v2, hr2, y, k1, k2, k3⟩ := loss_run (ct := netCounts) (md := md) (prop := prop) (G := G) (lib := lib) (sem := sem)
    (l := layers.length) (cs := (netJaxpr layers X Y p v).constvars) consts_odd
    (outVar_even layers 0 1 (by
      obtain ⟨L, h, -⟩ := hnet.first
      rintro rfl
      cases h)) hY h1 (h4.trans hnet.targets) (by rw [h4]; exact hp) (by rw [h4]; exact hq)
  exact ⟨v2, hr.append hr2, hr2.ne hne, y, r, k1, k2, h2, h3, h4.trans hnet.targets, k3⟩

theorem layerEqns_out (L : Layer) (l : ℕ) (h : ℤ) :
    ((layerEqns L l h : List (Eqn K)).flatMap Eqn.outvars).Pairwise (· < ·) ∧
    ∀ k ∈ (layerEqns L l h : List (Eqn K)).flatMap Eqn.outvars, 16 * (l : ℤ) < k ∧ k ≤ 16 * l + 12 ∧ k % 2 = 0 := by
  cases L <;>
    simp only [layerEqns, paramEqns, List.flatMap_cons, List.flatMap_nil, List.cons_append, List.nil_append,
      List.pairwise_cons, List.mem_cons, List.not_mem_nil, or_false, List.append_nil] <;>
    simp <;> omega

theorem bodyEqns_out : ∀ (Ls : List Layer) (l : ℕ) (h : ℤ),
    ((bodyEqns Ls l h : List (Eqn K)).flatMap Eqn.outvars).Pairwise (· < ·) ∧
    ∀ k ∈ (bodyEqns Ls l h : List (Eqn K)).flatMap Eqn.outvars,
      16 * (l : ℤ) < k ∧ k ≤ 16 * ((l + Ls.length : ℕ) : ℤ) ∧ k % 2 = 0
  | [], l, h => ⟨.nil, fun _ h => absurd h List.not_mem_nil⟩
  | L :: Ls, l, h => by
    obtain ⟨h1, h2⟩ := bodyEqns_out Ls (l + 1) (16 * l + 12)
    push_cast at h2
    have h3 := layerEqns_out (K := K) L l h
    rw [bodyEqns, List.flatMap_append, List.pairwise_append]
    refine ⟨⟨h3.1, h1, fun a ha b hb => ?_⟩, fun k hk => ?_⟩
    · have := h3.2 a ha
      have := h2 b hb
      omega
    · push_cast [List.length_cons]
      rcases List.mem_append.1 hk with hk | hk
      · have := h3.2 k hk; omega
      · have := h2 k hk; omega

theorem netEqns_out :
    ((netJaxpr layers X Y p v).eqns.flatMap Eqn.outvars).Pairwise (· < ·) ∧
    ∀ k ∈ (netJaxpr layers X Y p v).eqns.flatMap Eqn.outvars, 0 < k ∧ k % 2 = 0 := by
  obtain ⟨h1, h2⟩ := bodyEqns_out (K := K) layers 0 1
  have e : (netJaxpr layers X Y p v).eqns = bodyEqns layers 0 1 ++ lossEqns Y.ndim layers.length (outVar layers 0 1) := rfl
  rw [e]
  have h3 : ∀ k ∈ (lossEqns Y.ndim layers.length (outVar layers 0 1) : List (Eqn K)).flatMap Eqn.outvars,
      16 * (layers.length : ℤ) < k ∧ k % 2 = 0 := by
    simp only [lossEqns, List.flatMap_cons, List.flatMap_nil, List.cons_append, List.nil_append, List.mem_cons,
      List.not_mem_nil, or_false]
    rintro k (rfl | rfl | rfl) <;> omega
  rw [List.flatMap_append, List.pairwise_append]
  refine ⟨⟨h1, ?_, fun a ha b hb => ?_⟩, fun k hk => ?_⟩
  · simp only [lossEqns, List.flatMap_cons, List.flatMap_nil, List.cons_append, List.nil_append, List.pairwise_cons,
      List.mem_cons, List.not_mem_nil, or_false]
    refine ⟨?_, ?_, ?_, .nil⟩
    · rintro k (rfl | rfl) <;> omega
    · rintro k rfl; omega
    · rintro k h; cases h
  · have := h2 a ha
    have := h3 b hb
    push_cast at *
    omega
  · rcases List.mem_append.1 hk with hk | hk
    · have := h2 k hk; push_cast at this; omega
    · have := h3 k hk; omega

theorem bodyEqns_lits : ∀ (Ls : List Layer) (l : ℕ) (h : ℤ), ∀ eqn ∈ (bodyEqns Ls l h : List (Eqn K)),
    ∀ a, Atom.lit a ∉ eqn.invars
  | [], l, h, eqn, he, a => absurd he List.not_mem_nil
  | L :: Ls, l, h, eqn, he, a => by
    rw [bodyEqns, List.mem_append] at he
    rcases he with he | he
    · cases L <;>
        simp only [layerEqns, paramEqns, List.mem_cons, List.not_mem_nil, or_false] at he
      · rcases he with rfl | rfl | rfl | rfl | rfl | rfl <;> simp
      · rcases he with rfl | rfl | rfl | rfl | rfl | rfl <;> simp
      · subst he; simp
      · subst he; simp
      · subst he; simp
    · exact bodyEqns_lits Ls (l + 1) (16 * l + 12) eqn he a

theorem netEqns_lits : ∀ eqn ∈ (netJaxpr layers X Y p v).eqns, ∀ a, Atom.lit a ∉ eqn.invars := by
  intro eqn he a
  rcases List.mem_append.1 he with he | he
  · exact bodyEqns_lits _ _ _ eqn he a
  · simp only [lossEqns, List.mem_cons, List.not_mem_nil, or_false] at he
    rcases he with rfl | rfl | rfl <;> simp

theorem net_wf : WellFormedProgram (netJaxpr layers X Y p v) (netConsts layers X Y p v) where
  input := rfl
  output := rfl
  consts := by simp [netJaxpr, netConsts]
  once := by
    obtain ⟨h1, h2⟩ := netEqns_out (layers := layers) (X := X) (Y := Y) (p := p) (v := v)
    have hk : ((netJaxpr layers X Y p v).constvars).Nodup := pairs_keys.imp fun h => ne_of_lt h
    rw [List.nodup_append, List.nodup_append]
    refine ⟨⟨List.nodup_singleton _, hk, ?_⟩, (h1.imp fun h => ne_of_lt h).filter _, ?_⟩
    · intro a ha b hb hab
      obtain ⟨q, hq, rfl⟩ := List.mem_map.1 hb
      have := pairs_odd q hq
      rw [List.mem_singleton.1 ha] at hab
      omega
    · intro a ha b hb hab
      have h3 := h2 b (List.mem_of_mem_filter hb)
      rcases List.mem_append.1 ha with ha | ha
      · rw [List.mem_singleton.1 ha] at hab
        omega
      · obtain ⟨q, hq, rfl⟩ := List.mem_map.1 ha
        have := pairs_odd q hq
        omega
  lits eqn he a ha := absurd ha (netEqns_lits eqn he a)

theorem no_drop : ∀ eqn ∈ (netJaxpr layers X Y p v).eqns, -1 ∉ eqn.outvars := by
  intro eqn he h
  have := netEqns_out.2 (-1) (List.mem_flatMap.2 ⟨eqn, he, h⟩)
  omega

end
end Net
end AB
