/-
Two runs of the interpreter on arguments of the same shapes: the shapes of all intermediate results agree, and so do
the exceptions.
-/
import Verif.Proofs.Sim
import Verif.Proofs.Live
import Verif.Spec.Trace

set_option linter.unusedSectionVars false

namespace AB
variable {K : Type} [Field K] [LinearOrder K]

/-- arrays of the same shape -/
def SN (a b : ND K) : Prop := a.shape = b.shape

abbrev SE (a b : Encl K) : Prop := List.Forall₂ SameForm a b

namespace PyRel
theorem pmap {A B C D : Type} {R : A → B → Prop} {S : C → D → Prop} {x : Py A} {y : Py B} (h : PyRel R x y)
    {f : A → C} {g : B → D} (hf : ∀ a b, R a b → S (f a) (g b)) :
    PyRel S (x >>= fun a => pure (f a)) (y >>= fun b => pure (g b)) :=
  bind h fun a b hab => ok (hf a b hab)

end PyRel

theorem SameForm.shape {a b : Coef K} (h : SameForm a b) : a.shape = b.shape := by cases h <;> assumption
theorem SameForm.ndim {a b : Coef K} (h : SameForm a b) : a.ndim = b.ndim := congrArg List.length h.shape
theorem SameForm.refl (a : Coef K) : SameForm a a := by cases a <;> constructor <;> rfl

theorem map2_sn {f g : K → K → K} {a a' b b' : ND K} (ha : SN a a') (hb : SN b b') :
    PyRel SN (ND.map2 f a b) (ND.map2 g a' b') := by
  unfold ND.map2
  rw [show a.shape = a'.shape from ha, show b.shape = b'.shape from hb]
  cases bshape a'.shape b'.shape with
  | none => exact PyRel.err _
  | some R => exact PyRel.ok rfl

theorem tensordot_sn {a a' b b' : ND K} (ha : SN a a') (hb : SN b b') (n : ℕ) :
    PyRel SN (ND.tensordot a b n) (ND.tensordot a' b' n) := by
  unfold ND.tensordot ND.ndim
  rw [show a.shape = a'.shape from ha, show b.shape = b'.shape from hb]
  split_ifs
  · exact PyRel.err _
  · exact PyRel.err _
  · exact PyRel.ok rfl

theorem einsum_sn {a a' b b' : ND K} (ha : SN a a') (hb : SN b b') (n : ℕ) :
    PyRel SN (ND.einsumOuter a b n) (ND.einsumOuter a' b' n) := by
  unfold ND.einsumOuter ND.ndim
  rw [show a.shape = a'.shape from ha, show b.shape = b'.shape from hb]
  split_ifs
  · exact PyRel.err _
  · cases bshape (a'.shape.take n) (b'.shape.take n) with
    | none => exact PyRel.err _
    | some R => exact PyRel.ok rfl

theorem expand_sn {a a' : ND K} (ha : SN a a') (n x : ℕ) : SN (a.expandDims n x) (a'.expandDims n x) := by
  unfold SN ND.expandDims
  rw [show a.shape = a'.shape from ha]

namespace IA

theorem add_sf {a a' b b' : Coef K} (ha : SameForm a a') (hb : SameForm b b') :
    PyRel SameForm (add a b) (add a' b') := by
  cases ha with
  | arr ha =>
    cases hb with
    | arr hb => exact PyRel.pmap (map2_sn ha hb) fun _ _ h => .arr h
    | ivl h0 h1 => exact PyRel.bind (map2_sn ha h0) fun _ _ k0 => PyRel.pmap (map2_sn ha h1) fun _ _ k1 => .ivl k0 k1
  | ivl ha0 ha1 =>
    cases hb with
    | arr hb => exact PyRel.bind (map2_sn ha0 hb) fun _ _ k0 => PyRel.pmap (map2_sn ha1 hb) fun _ _ k1 => .ivl k0 k1
    | ivl h0 h1 => exact PyRel.bind (map2_sn ha0 h0) fun _ _ k0 => PyRel.pmap (map2_sn ha1 h1) fun _ _ k1 => .ivl k0 k1

theorem subtract_sf {a a' b b' : Coef K} (ha : SameForm a a') (hb : SameForm b b') :
    PyRel SameForm (subtract a b) (subtract a' b') := by
  cases ha with
  | arr ha =>
    cases hb with
    | arr hb => exact PyRel.pmap (map2_sn ha hb) fun _ _ h => .arr h
    | ivl h0 h1 => exact PyRel.bind (map2_sn ha h1) fun _ _ k0 => PyRel.pmap (map2_sn ha h0) fun _ _ k1 => .ivl k0 k1
  | ivl ha0 ha1 =>
    cases hb with
    | arr hb => exact PyRel.bind (map2_sn ha0 hb) fun _ _ k0 => PyRel.pmap (map2_sn ha1 hb) fun _ _ k1 => .ivl k0 k1
    | ivl h0 h1 => exact PyRel.bind (map2_sn ha0 h1) fun _ _ k0 => PyRel.pmap (map2_sn ha1 h0) fun _ _ k1 => .ivl k0 k1

theorem negative_sf {a a' : Coef K} (ha : SameForm a a') : SameForm (negative a) (negative a') := by
  cases ha with
  | arr ha => exact .arr ha
  | ivl h0 h1 => exact .ivl h1 h0

theorem reduce_sn {f g : ND K → ND K → Py (ND K)} (hf : ∀ a a' b b', SN a a' → SN b b' → PyRel SN (f a b) (g a' b'))
    {l l' : List (ND K)} (h : List.Forall₂ SN l l') : PyRel SN (reduce f l) (reduce g l') := by
  cases h with
  | nil => exact PyRel.err _
  | cons h1 h2 => exact PyRel.foldlM h2 (fun c d a b hc ha => hf c d a b hc ha) h1

section
variable {op op' : ND K → ND K → Py (ND K)} (hop : ∀ a a' b b', SN a a' → SN b b' → PyRel SN (op a b) (op' a' b'))
include hop

theorem ops_sn {l l' : List (ND K × ND K)} (h : List.Forall₂ (fun p q => SN p.1 q.1 ∧ SN p.2 q.2) l l') :
    PyRel (List.Forall₂ SN) (l.mapM fun p => op p.1 p.2) (l'.mapM fun p => op' p.1 p.2) :=
  PyRel.mapM h fun _ _ h => hop _ _ _ _ h.1 h.2

theorem product_sf {a a' b b' : Coef K} (ha : SameForm a a') (hb : SameForm b b') :
    PyRel SameForm (bilinearProduct a b op) (bilinearProduct a' b' op') := by
  unfold bilinearProduct
  have he : ∀ {a a' : Coef K}, SameForm a a' → List.Forall₂ SN (endpoints a) (endpoints a') := by
    intro a a' h
    cases h with
    | arr h => exact .cons h .nil
    | ivl h0 h1 => exact .cons h0 (.cons h1 .nil)
  have hl : List.Forall₂ (fun p q => SN p.1 q.1 ∧ SN p.2 q.2)
      ((endpoints a).flatMap fun x => (endpoints b).map fun y => (x, y))
      ((endpoints a').flatMap fun x => (endpoints b').map fun y => (x, y)) := by
    have h1 := he ha
    have h2 := he hb
    generalize endpoints a = u, endpoints a' = v at h1
    induction h1 with
    | nil => exact .nil
    | cons h _ ih =>
      rw [List.flatMap_cons, List.flatMap_cons]
      refine List.rel_append ?_ ih
      rw [List.forall₂_map_left_iff, List.forall₂_map_right_iff]
      exact h2.imp fun _ _ h3 => ⟨h, h3⟩
  exact PyRel.bind (ops_sn hop hl) fun _ _ h => PyRel.bind (reduce_sn (fun _ _ _ _ => map2_sn) h) fun _ _ k0 =>
    PyRel.pmap (reduce_sn (fun _ _ _ _ => map2_sn) h) fun _ _ k1 => .ivl k0 k1

theorem general_sf {a a' b b' : Coef K} (ha : SameForm a a') (hb : SameForm b b') :
    PyRel SameForm (bilinearGeneral a b op) (bilinearGeneral a' b' op') := by
  cases ha with
  | arr ha =>
    cases hb with
    | arr hb => exact PyRel.pmap (hop _ _ _ _ ha hb) fun _ _ h => .arr h
    | ivl h0 h1 =>
      exact PyRel.bind (hop _ _ _ _ ha h0) fun _ _ k0 => PyRel.bind (hop _ _ _ _ ha h1) fun _ _ k1 =>
        PyRel.bind (map2_sn k0 k1) fun _ _ k2 => PyRel.bind (hop _ _ _ _ ha h1) fun _ _ k3 =>
        PyRel.bind (hop _ _ _ _ ha h0) fun _ _ k4 => PyRel.pmap (map2_sn k3 k4) fun _ _ k5 => .ivl k2 k5
  | ivl ha0 ha1 =>
    cases hb with
    | arr hb =>
      exact PyRel.bind (hop _ _ _ _ ha0 hb) fun _ _ k0 => PyRel.bind (hop _ _ _ _ ha1 hb) fun _ _ k1 =>
        PyRel.bind (map2_sn k0 k1) fun _ _ k2 => PyRel.bind (hop _ _ _ _ ha1 hb) fun _ _ k3 =>
        PyRel.bind (hop _ _ _ _ ha0 hb) fun _ _ k4 => PyRel.pmap (map2_sn k3 k4) fun _ _ k5 => .ivl k2 k5
    | ivl h0 h1 =>
      refine PyRel.bind (ops_sn hop ?_) fun _ _ k0 => PyRel.bind (reduce_sn (fun _ _ _ _ => map2_sn) k0) fun _ _ k1 =>
        PyRel.bind (ops_sn hop ?_) fun _ _ k2 => PyRel.pmap (reduce_sn (fun _ _ _ _ => map2_sn) k2) fun _ _ k3 => .ivl k1 k3
      · exact .cons ⟨ha0, h0⟩ (.cons ⟨ha1, h0⟩ (.cons ⟨ha0, h1⟩ (.cons ⟨ha1, h1⟩ .nil)))
      · exact .cons ⟨ha1, h1⟩ (.cons ⟨ha1, h0⟩ (.cons ⟨ha0, h1⟩ (.cons ⟨ha0, h0⟩ .nil)))

theorem bilinear_sf {a a' b b' : Coef K} (ha : SameForm a a') (hb : SameForm b b') (p : Bool) :
    PyRel SameForm (arbitraryBilinear a b op p) (arbitraryBilinear a' b' op' p) := by
  have h1 := product_sf hop ha hb
  have h2 := general_sf hop ha hb
  cases ha with
  | arr ha =>
    cases hb with
    | arr hb => exact PyRel.pmap (hop _ _ _ _ ha hb) fun _ _ h => .arr h
    | ivl _ _ => unfold arbitraryBilinear; simp only; split_ifs <;> assumption
  | ivl _ _ =>
    cases hb with
    | arr hb => unfold arbitraryBilinear; simp only; split_ifs <;> assumption
    | ivl _ _ => unfold arbitraryBilinear; simp only; split_ifs <;> assumption
end

theorem multiply_sf {a a' b b' : Coef K} (ha : SameForm a a') (hb : SameForm b b') :
    PyRel SameForm (multiply a b) (multiply a' b') := bilinear_sf (fun _ _ _ _ => map2_sn) ha hb true

theorem tensordot_sf {a a' b b' : Coef K} (ha : SameForm a a') (hb : SameForm b b') (n : ℕ) :
    PyRel SameForm (tensordot a b n) (tensordot a' b' n) := bilinear_sf (fun _ _ _ _ h1 h2 => tensordot_sn h1 h2 n) ha hb _

theorem power_sf {a a' : Coef K} (ha : SameForm a a') (k : ℤ) : PyRel SameForm (power a k) (power a' k) := by
  cases ha with
  | arr ha => exact PyRel.ok (.arr ha)
  | ivl h0 h1 =>
    unfold power
    dsimp only
    split_ifs
    · exact PyRel.err _
    · exact PyRel.ok (.arr h0)
    · exact PyRel.bind (map2_sn h0 h1) fun _ _ k0 => PyRel.bind
        (reduce_sn (fun _ _ _ _ => map2_sn) (.cons h0 (.cons h1 (.cons k0 .nil)))) fun _ _ k1 =>
        PyRel.pmap (map2_sn (f := max) (g := max) (a := _) (a' := _) (show SN (ND.map _ _) (ND.map _ _) from h0) (show SN (ND.map _ _) (ND.map _ _) from h1)) fun _ _ k2 => .ivl k1 k2

theorem outer_sf {a a' b b' : Coef K} (ha : SameForm a a') (hb : SameForm b b') (n : ℕ) :
    PyRel SameForm (outerProduct a b n) (outerProduct a' b' n) := by
  unfold outerProduct
  rw [ha.ndim, hb.ndim]
  split_ifs
  · exact PyRel.err _
  · refine bilinear_sf (fun _ _ _ _ h1 h2 => ?_) ha hb true
    unfold ndarrayOuterProduct
    split_ifs
    · exact tensordot_sn h1 h2 0
    · exact einsum_sn h1 h2 n

theorem diag_sn {a a' : ND K} (ha : SN a a') (n : ℤ) : PyRel SN (generalizedDiagNdarray a n) (generalizedDiagNdarray a' n) := by
  unfold generalizedDiagNdarray ND.ndim
  rw [show a.shape = a'.shape from ha]
  split_ifs
  · exact PyRel.ok ha
  · refine PyRel.ok ?_
    unfold SN ND.diag
    rw [show a.shape = a'.shape from ha]
  · exact PyRel.err _
  · exact PyRel.err _

theorem diagI_sf {a a' : Coef K} (ha : SameForm a a') (n : ℤ) :
    PyRel SameForm (generalizedDiagInterval a n) (generalizedDiagInterval a' n) := by
  cases ha with
  | arr ha => exact PyRel.pmap (diag_sn ha n) fun _ _ h => .arr h
  | ivl h0 h1 => exact PyRel.bind (diag_sn h0 n) fun _ _ k0 => PyRel.pmap (diag_sn h1 n) fun _ _ k1 => .ivl k0 k1

theorem running_sf {a a' : Coef K} (ha : SameForm a a') (n m : ℕ) :
    PyRel SameForm (runningOuterProduct a n m) (runningOuterProduct a' n m) := by
  induction m with
  | zero => exact PyRel.ok ha
  | succ m ih => exact PyRel.bind ih fun _ _ h => outer_sf h ha n

theorem first_sn {a a' : Coef K} (ha : SameForm a a') : SN (firstEndpoint a) (firstEndpoint a') := by
  cases ha with
  | arr h => exact h
  | ivl h _ => exact h

theorem ones_eq {a a' : ND K} (h : SN a a') : a.onesLike = a'.onesLike := by
  unfold ND.onesLike
  rw [show a.shape = a'.shape from h]

theorem outerPower_sf {a a' : Coef K} (ha : SameForm a a') (k : ℤ) (n : ℕ) :
    PyRel SameForm (outerPower a k n) (outerPower a' k n) := by
  unfold outerPower
  rw [ha.ndim, ones_eq (first_sn ha)]
  split_ifs
  · exact PyRel.err _
  · exact PyRel.ok (SameForm.refl _)
  · exact power_sf ha k
  · refine PyRel.bind (running_sf ha n _) fun r r' hr => ?_
    exact PyRel.ok hr
  · refine PyRel.bind (running_sf ha n _) fun r r' hr => ?_
    cases h : generalizedDiagNdarray (firstEndpoint a').onesLike k with
    | error e => cases e <;> first | exact PyRel.ok hr | exact PyRel.err _
    | ok eye =>
      exact PyRel.bind (power_sf ha k) fun _ _ h1 => PyRel.bind (diagI_sf h1 k) fun _ _ h2 =>
        PyRel.bind (multiply_sf hr (SameForm.refl _)) fun _ _ h3 => add_sf h3 h2

end IA

open IA

theorem eval_sf {e e' : Encl K} (he : SE e e') {z z' : Coef K} (hz : SameForm z z') :
    PyRel SameForm (Poly.evalTaylorEnclosure e z) (Poly.evalTaylorEnclosure e' z') := by
  unfold Poly.evalTaylorEnclosure Poly.evalPolynomial
  refine PyRel.pmap (R := fun s t => s.1 = t.1 ∧ SameForm s.2 t.2) (PyRel.foldlM he ?_ ⟨rfl, SameForm.refl _⟩) fun _ _ h => h.2
  rintro ⟨i, s⟩ ⟨j, t⟩ c c' ⟨rfl, hs⟩ hc
  unfold Poly.evalStep
  dsimp only
  have key : ∀ u u' : Coef K, SameForm u u' → PyRel (fun (s t : ℕ × Coef K) => s.1 = t.1 ∧ SameForm s.2 t.2)
      (do let term ← tensordot c u u.ndim
          let r ← add s term
          pure (i + 1, r))
      (do let term ← tensordot c' u' u'.ndim
          let r ← add t term
          pure (i + 1, r)) := by
    intro u u' hu
    rw [hu.ndim]
    exact PyRel.bind (tensordot_sf hc hu _) fun _ _ h => PyRel.pmap (add_sf hs h) fun _ _ h => ⟨rfl, h⟩
  by_cases hi : i > 0
  · rw [if_pos hi, if_pos hi]
    exact PyRel.bind (outerPower_sf hz _ _) fun u u' hu => key u u' hu
  · rw [if_neg hi, if_neg hi]
    exact key _ _ (SameForm.refl _)

theorem enclose_sf {e e' : Encl K} (he : SE e e') {z z' : Coef K} (hz : SameForm z z') (d : ℕ) :
    PyRel SE (encloseEnclosure e z d) (encloseEnclosure e' z' d) := by
  unfold encloseEnclosure
  rw [he.length_eq]
  split_ifs
  · exact PyRel.ok he
  · exact PyRel.pmap (eval_sf (List.forall₂_drop _ he) hz) fun _ _ h =>
      List.rel_append (List.forall₂_take _ he) (.cons h .nil)

theorem mapOver_sf {e e' : Encl K} (he : SE e e') {f f' : ND K → Py (ND K)}
    (hf : ∀ a a', SN a a' → PyRel SN (f a) (f' a')) : PyRel SE (mapOverEnclosure e f) (mapOverEnclosure e' f') := by
  refine PyRel.mapM he fun c c' hc => ?_
  cases hc with
  | arr h => exact PyRel.pmap (hf _ _ h) fun _ _ h => .arr h
  | ivl h0 h1 => exact PyRel.bind (hf _ _ h0) fun _ _ k0 => PyRel.pmap (hf _ _ h1) fun _ _ k1 => .ivl k0 k1

theorem tpow_sf (n : ℕ) {c c' : Coef K} (hc : SameForm c c') (i k : ℕ) :
    PyRel SameForm (elementwiseTermPowerCoefficient n c i k) (elementwiseTermPowerCoefficient n c' i k) := by
  unfold elementwiseTermPowerCoefficient
  rw [hc.ndim]
  split_ifs
  · exact PyRel.err _
  · exact outerPower_sf hc _ _

theorem pbm_sn {a a' b b' : ND K} (ha : SN a a') (hb : SN b b') (p q : ℕ) :
    PyRel SN (pairwiseBatchedMultiply a b p q) (pairwiseBatchedMultiply a' b' p q) := by
  unfold pairwiseBatchedMultiply
  rw [show a.ndim = a'.ndim from congrArg List.length ha, show b.ndim = b'.ndim from congrArg List.length hb]
  exact map2_sn (expand_sn ha _ _) (expand_sn hb _ _)

theorem tpc_sf (n : ℕ) {c c' b b' : Coef K} (hc : SameForm c c') (hb : SameForm b b') (i k : ℕ) :
    PyRel SameForm (elementwiseTermProductCoefficient n c b i k) (elementwiseTermProductCoefficient n c' b' i k) :=
  bilinear_sf (fun _ _ _ _ h1 h2 => pbm_sn h1 h2 _ _) hc hb true

theorem lbm_sn {a a' b b' : ND K} (ha : SN a a') (hb : SN b b') :
    PyRel SN (leftBroadcastingMultiply a b) (leftBroadcastingMultiply a' b') := by
  unfold leftBroadcastingMultiply
  rw [show a.ndim = a'.ndim from congrArg List.length ha, show b.ndim = b'.ndim from congrArg List.length hb]
  split_ifs
  · exact PyRel.err _
  · exact map2_sn (expand_sn ha _ _) hb

/-- arithmetic of the same degree over trust regions of the same shape -/
structure ST (T T' : TEA K) : Prop where
  deg : T.maxDegree = T'.maxDegree
  lo : T.trLo.shape = T'.trLo.shape
  hi : T.trHi.shape = T'.trHi.shape

namespace ST
variable {T T' : TEA K} (hT : ST T T')
include hT

theorem reg : SameForm T.trustRegion T'.trustRegion := .ivl hT.lo hT.hi
theorem nd : T.xNdim = T'.xNdim := congrArg List.length hT.lo
theorem xs : T.xShape = T'.xShape := hT.lo

theorem truncate {e e' : Encl K} (he : SE e e') : PyRel SE (T.truncateIfNecessary e) (T'.truncateIfNecessary e') := by
  unfold TEA.truncateIfNecessary
  rw [hT.deg]
  exact enclose_sf he hT.reg _

omit hT in
theorem all_ok {S : List ℕ} {l l' : List (ℕ × Coef K)} (h : List.Forall₂ (Poly.IRel SameForm) l l') :
    (l.all fun p => TEA.coeffShapeOk S p.1 p.2) = l'.all fun p => TEA.coeffShapeOk S p.1 p.2 := by
  induction h with
  | nil => rfl
  | cons h _ ih =>
    rw [List.all_cons, List.all_cons, ih]
    congr 1
    unfold TEA.coeffShapeOk
    rw [h.2.ndim, h.2.shape, h.1]

theorem validate {e e' : Encl K} (he : SE e e') : T.validate e = T'.validate e' := by
  unfold TEA.validate
  rw [hT.xs, all_ok (Poly.enum_rel he)]

theorem validateR {e e' : Encl K} (he : SE e e') : PyRel (fun _ _ => True) (T.validate e) (T'.validate e') := by
  rw [hT.validate he]
  cases T'.validate e' with
  | ok _ => exact PyRel.ok trivial
  | error _ => exact PyRel.err _

omit hT in
theorem addCoeffs {a a' b b' : Encl K} (ha : SE a a') (hb : SE b b') : PyRel SE (TEA.addCoeffs a b) (TEA.addCoeffs a' b') := by
  induction ha generalizing b b' with
  | nil =>
    cases hb with
    | nil => exact PyRel.ok .nil
    | cons h1 h2 => exact PyRel.ok (.cons h1 h2)
  | cons h hs ih =>
    cases hb with
    | nil => exact PyRel.ok (.cons h hs)
    | cons h1 h2 => exact PyRel.bind (add_sf h h1) fun _ _ k0 => PyRel.pmap (ih h2) fun _ _ k1 => .cons k0 k1

theorem add {a a' b b' : Encl K} (ha : SE a a') (hb : SE b b') : PyRel SE (T.add a b) (T'.add a' b') :=
  PyRel.bind (addCoeffs ha hb) fun _ _ h => hT.truncate h

theorem negative {a a' : Encl K} (ha : SE a a') : PyRel SE (T.negative a) (T'.negative a') := by
  refine hT.truncate ?_
  rw [SE, List.forall₂_map_left_iff, List.forall₂_map_right_iff]
  exact ha.imp fun _ _ h => negative_sf h

theorem subtract {a a' b b' : Encl K} (ha : SE a a') (hb : SE b b') : PyRel SE (T.subtract a b) (T'.subtract a' b') :=
  PyRel.bind (hT.negative hb) fun _ _ h => hT.add ha h

theorem multiply {a a' b b' : Encl K} (ha : SE a a') (hb : SE b b') : PyRel SE (T.multiply a b) (T'.multiply a' b') := by
  unfold TEA.multiply
  rw [hT.nd]
  exact PyRel.bind (hT.validateR ha) fun _ _ _ => PyRel.bind (hT.validateR hb) fun _ _ _ =>
    PyRel.bind (Poly.arbitraryBilinear_sim (SameForm.refl _) (fun _ _ _ _ => add_sf) (fun _ _ _ _ i j h1 h2 => tpc_sf _ h1 h2 i j)
      ha hb) fun _ _ h => hT.truncate h

theorem powerNat {a a' : Encl K} (ha : SE a a') (p : ℕ) : PyRel SE (T.powerNat a p) (T'.powerNat a' p) := by
  unfold TEA.powerNat
  rw [hT.nd]
  refine PyRel.bind (hT.validateR ha) fun _ _ _ => ?_
  cases ha with
  | nil => exact PyRel.err _
  | @cons x y l l' h hs =>
    dsimp only
    rw [ones_eq (first_sn h)]
    have key := Poly.integerPower_sim (R := SameForm (K := K)) (SameForm.refl (.arr (ND.scalar 0)))
      (SameForm.refl (.arr (IA.firstEndpoint y).onesLike)) (fun _ _ _ _ => add_sf)
      (fun _ _ _ _ i j h1 h2 => tpc_sf T'.xNdim h1 h2 i j) (fun _ _ i j h1 => tpow_sf T'.xNdim h1 i j)
      (fun (n : ℕ) _ _ h => multiply_sf (SameForm.refl (.arr (ND.scalar (n : K)))) h) (.cons h hs) p
    exact PyRel.bind key fun _ _ h => hT.truncate h

section
variable {pbb pbb' : ND K → ND K → ℕ → ℕ → Py (ND K)}
  (hp : ∀ a a' b b' p q, SN a a' → SN b b' → PyRel SN (pbb a b p q) (pbb' a' b' p q))
include hp

theorem term {a a' b b' : Coef K} (ha : SameForm a a') (hb : SameForm b b') (i j : ℕ) :
    PyRel SameForm (T.termEnclosureCoefficient pbb a b i j) (T'.termEnclosureCoefficient pbb' a' b' i j) := by
  unfold TEA.termEnclosureCoefficient
  rw [hT.nd, hT.deg]
  by_cases h1 : i + j ≤ T'.maxDegree
  · rw [if_pos h1, if_pos h1]
    exact bilinear_sf (fun _ _ _ _ k1 k2 => hp _ _ _ _ _ _ k1 k2) ha hb false
  rw [if_neg h1, if_neg h1]
  dsimp only
  by_cases h2 : i - min i (i + j - T'.maxDegree) + (j - (i + j - T'.maxDegree - min i (i + j - T'.maxDegree))) ≠ T'.maxDegree
  · rw [if_pos h2, if_pos h2]; exact PyRel.err _
  rw [if_neg h2, if_neg h2]
  refine PyRel.bind (outerPower_sf hT.reg _ _) fun _ _ k0 => PyRel.bind (tensordot_sf ha k0 _) fun _ _ k1 => ?_
  generalize i + j - T'.maxDegree - min i (i + j - T'.maxDegree) = n
  by_cases hn : n > 0
  · rw [if_pos hn, if_pos hn]
    exact PyRel.bind (outerPower_sf hT.reg _ _) fun _ _ k0 => PyRel.bind (tensordot_sf hb k0 _) fun _ _ k2 =>
      bilinear_sf (fun _ _ _ _ k1 k2 => hp _ _ _ _ _ _ k1 k2) k1 k2 false
  · rw [if_neg hn, if_neg hn]
    exact bilinear_sf (fun _ _ _ _ k1 k2 => hp _ _ _ _ _ _ k1 k2) k1 hb false

theorem bilinear {a a' b b' : Encl K} (ha : SE a a') (hb : SE b b') :
    PyRel SE (T.arbitraryBilinear a b pbb) (T'.arbitraryBilinear a' b' pbb') := by
  unfold TEA.arbitraryBilinear
  have hl : List.Forall₂ (fun (s : (ℕ × Coef K) × (ℕ × Coef K)) (t : (ℕ × Coef K) × (ℕ × Coef K)) =>
      Poly.IRel SameForm s.1 t.1 ∧ Poly.IRel SameForm s.2 t.2)
      ((Poly.enum a).flatMap fun x => (Poly.enum b).map fun y => (x, y))
      ((Poly.enum a').flatMap fun x => (Poly.enum b').map fun y => (x, y)) := by
    have h1 := Poly.enum_rel ha
    have h2 := Poly.enum_rel hb
    generalize Poly.enum a = u, Poly.enum a' = v at h1
    induction h1 with
    | nil => exact .nil
    | cons h _ ih =>
      rw [List.flatMap_cons, List.flatMap_cons]
      refine List.rel_append ?_ ih
      rw [List.forall₂_map_left_iff, List.forall₂_map_right_iff]
      exact h2.imp fun _ _ h3 => ⟨h, h3⟩
  refine PyRel.foldlM (S := SE) hl ?_ (by
    rw [ha.length_eq, hb.length_eq, hT.deg]; exact Poly.replicate_rel (SameForm.refl _) _)
  rintro o o' ⟨⟨i, x⟩, j, y⟩ ⟨⟨i', x'⟩, j', y'⟩ ho ⟨⟨h1, h2⟩, h3, h4⟩
  simp only at h1 h2 h3 h4
  subst h1 h3
  unfold TEA.bilinearStep
  refine PyRel.bind (hT.term hp h2 h4 i j) fun c c' hc => ?_
  dsimp only
  rw [hT.deg]
  rcases Poly.getElem?_rel ho (min (i + j) T'.maxDegree) with ⟨u, v, e1, e2, huv⟩ | ⟨e1, e2⟩
  · rw [e1, e2]
    exact PyRel.bind (add_sf huv hc) fun _ _ h => PyRel.ok (Poly.set_rel ho _ h)
  · rw [e1, e2]; exact PyRel.err _
end

theorem composeTerm {a a' : Encl K} (ha : SE a a') {c c' : Coef K} (hc : SameForm c c') (p : ℕ) :
    PyRel SE (T.composeTerm a p c) (T'.composeTerm a' p c') := by
  unfold TEA.composeTerm
  by_cases h : p = 0
  · rw [if_pos h, if_pos h]; exact PyRel.ok (.cons hc .nil)
  rw [if_neg h, if_neg h]
  refine PyRel.bind (hT.powerNat ha p) fun q q' hq => ?_
  refine PyRel.mapM (Poly.enum_rel hq) ?_
  rintro ⟨i, u⟩ ⟨j, v⟩ ⟨rfl, h2⟩
  dsimp only
  split_ifs
  · exact PyRel.ok (SameForm.refl _)
  · exact bilinear_sf (fun _ _ _ _ h1 h2 => lbm_sn h1 h2) hc h2 true

theorem compose {a a' e e' : Encl K} (he : SE e e') (ha : SE a a') :
    PyRel SE (T.composeEnclosures e a) (T'.composeEnclosures e' a') := by
  unfold TEA.composeEnclosures
  have : e.isEmpty = e'.isEmpty := by cases he <;> rfl
  rw [this]
  split_ifs
  · exact PyRel.err _
  · refine PyRel.foldlM (S := SE) (Poly.enum_rel he) ?_ (.cons (SameForm.refl _) .nil)
    rintro o o' ⟨i, u⟩ ⟨j, v⟩ ho ⟨rfl, h2⟩
    exact PyRel.bind (hT.composeTerm (.cons (SameForm.refl _) (List.forall₂_drop 1 ha)) h2 i) fun _ _ h => hT.add ho h

theorem argRegion {a a' : Encl K} (ha : SE a a') {r r' : Option (Coef K)} (hr : Option.Rel SameForm r r') :
    PyRel SameForm (T.argRegion a r) (T'.argRegion a' r') := by
  cases hr with
  | some h => exact PyRel.ok h
  | none =>
    refine PyRel.bind (enclose_sf ha hT.reg 0) fun _ _ h => ?_
    cases h with
    | nil => exact PyRel.err _
    | cons h _ => exact PyRel.ok h

theorem point {a a' : Coef K} (ha : SameForm a a') : PyRel SN (T.expansionPoint a) (T'.expansionPoint a') := by
  cases ha with
  | arr h => exact PyRel.ok h
  | ivl h0 _ =>
    unfold TEA.expansionPoint
    dsimp only
    rw [hT.deg]
    split_ifs
    · exact PyRel.ok h0
    · exact PyRel.err _

end ST
end AB
