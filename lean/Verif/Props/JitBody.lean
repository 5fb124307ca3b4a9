/-
C50 (jit): jitted functions made of pass-through primitives.
-/
import Verif.Spec.JitBody
import Verif.Props.Contracts
import Verif.Props.PolyEx

set_option linter.unusedSectionVars false

namespace AB
variable {K : Type} [Field K]
open Lax JB

theorem linear_compose {xs Ra Rb Rc : List ℕ} {t1 t2 : List ℕ → List (K × List ℕ)}
    {g1 g2 : ND K → Py (ND K)} (h1 : LinearContract xs Ra Rb t1 g1)
    (h2 : LinearContract xs Rb Rc t2 g2) :
    LinearContract xs Ra Rc
      (fun L => (t2 L).flatMap fun t => (t1 t.2).map fun s => (t.1 * s.1, s.2))
      (fun u => g1 u >>= g2) := by
  refine ⟨fun L hL s hs => ?_, fun i u s hu hs => ?_⟩
  · obtain ⟨t, ht, hs⟩ := List.mem_flatMap.1 hs
    obtain ⟨r, hr, rfl⟩ := List.mem_map.1 hs
    exact h1.1 _ (h2.1 L hL t ht) r hr
  · obtain ⟨v, hv, hs⟩ := py_bind_ok.1 hs
    obtain ⟨e1, e2⟩ := h1.2 i u v hu hv
    obtain ⟨e3, e4⟩ := h2.2 i v s e1 hs
    refine ⟨e3, fun L J hL hJ => ?_⟩
    rw [e4 L J hL hJ]
    have key : ∀ l : List (K × List ℕ), (∀ t ∈ l, ValidIdx Rb t.2) →
        (l.map fun t => t.1 * v.get (t.2 ++ J)).sum =
        ((l.flatMap fun t => (t1 t.2).map fun s => (t.1 * s.1, s.2)).map
          fun t => t.1 * u.get (t.2 ++ J)).sum := by
      intro l
      induction l with
      | nil => intro _; rfl
      | cons t l ih =>
        intro hl
        rw [List.map_cons, List.sum_cons, List.flatMap_cons, List.map_append, List.sum_append,
          ih fun t ht => hl t (List.mem_cons_of_mem _ ht), e2 _ _ (hl t List.mem_cons_self) hJ]
        congr 1
        rw [← List.sum_map_mul_left, List.map_map]
        congr 1
        apply List.map_congr_left
        intro r _
        simp [mul_assoc]
    exact key _ fun t ht => h2.1 L hL t ht

theorem linear_id (xs Ra : List ℕ) :
    LinearContract xs Ra Ra (fun L => [((1 : K), L)]) (fun u => .ok u) := by
  refine ⟨fun L hL t ht => by rw [List.mem_singleton.1 ht]; exact hL, fun i u s hu hs => ?_⟩
  cases hs
  exact ⟨hu, fun L J _ _ => by simp⟩

theorem linear_convert (sem : Sem K) {round : K → K} (hround : ∀ t, round t = t) (xs Ra : List ℕ) :
    LinearContract xs Ra Ra (fun L => [((1 : K), L)]) ((Prim.convertElementType round : Prim K).bind1 sem) := by
  refine ⟨fun L hL t ht => by rw [List.mem_singleton.1 ht]; exact hL, fun i u s hu hs => ?_⟩
  rw [bind1_convert _ hround] at hs
  cases hs
  refine ⟨hu, fun L J hL hJ => ?_⟩
  rw [ND.canon_get _ (by rw [hu]; exact validIdx_append hL hJ)]
  simp

variable [LinearOrder K] [IsStrictOrderedRing K]

/-- linear with nonnegative weights -/
def LinearNonneg (xs Ra Rc : List ℕ) (g : ND K → Py (ND K)) : Prop :=
  ∃ terms, LinearContract xs Ra Rc terms g ∧ ∀ L, ValidIdx Rc L → ∀ t ∈ terms L, 0 ≤ t.1

mutual
/-- **C50 (pass-through primitives).** Every pass-through primitive is linear with nonnegative weights in
the sense that applying it to the coefficients is sound. -/
theorem C50_pass_thru_prim (sem : Sem K) {xs : List ℕ} {p : Prim K} {Ra Rc : List ℕ} :
    PassThruPrim sem xs p Ra Rc → LinearNonneg xs Ra Rc (p.bind1 sem)
  | .reduceSum h => ⟨_, C50_reduce_sum sem xs h, fun L _ t ht => by
      obtain ⟨J, -, rfl⟩ := List.mem_map.1 ht; exact zero_le_one⟩
  | .squeeze h h' => ⟨_, C50_squeeze sem xs h h', fun L _ t ht => by
      rw [List.mem_singleton.1 ht]; exact zero_le_one⟩
  | .transpose h h' h'' => ⟨_, C50_transpose sem xs h h' h'', fun L _ t ht => by
      rw [List.mem_singleton.1 ht]; exact zero_le_one⟩
  | .reduceWindowSum h => ⟨_, C50_reduce_window_sum sem xs h, fun L _ t ht => by
      obtain ⟨J, -, h⟩ := List.mem_filterMap.1 ht
      obtain ⟨α, -, rfl⟩ := Option.map_eq_some_iff.1 h
      exact zero_le_one⟩
  | .reshape h h' h'' => ⟨_, C50_reshape sem h h' h'', fun L _ t ht => by
      rw [List.mem_singleton.1 ht]; exact zero_le_one⟩
  | .convert h => ⟨_, linear_convert sem h xs _, fun L _ t ht => by
      rw [List.mem_singleton.1 ht]; exact zero_le_one⟩
  | .jit h => by
      obtain ⟨terms, h1, h2⟩ := C50_jit_body sem h
      exact ⟨terms, C50_jit sem h1, h2⟩
/-- **C50 (jit of pass-through primitives).** A jitted function whose body applies pass-through primitives
(possibly jitted ones again) one after the other meets the condition of C42 on `jit`. -/
theorem C50_jit_body (sem : Sem K) {xs : List ℕ} {ps : List (Prim K)} {Ra Rc : List ℕ} :
    PassThruChain sem xs ps Ra Rc → LinearNonneg xs Ra Rc (jitBody sem ps)
  | .nil => ⟨_, linear_id xs _, fun L _ t ht => by rw [List.mem_singleton.1 ht]; exact zero_le_one⟩
  | .cons h h' => by
      obtain ⟨t1, a1, b1⟩ := C50_pass_thru_prim sem h
      obtain ⟨t2, a2, b2⟩ := C50_jit_body sem h'
      refine ⟨_, linear_compose a1 a2, fun L hL s hs => ?_⟩
      obtain ⟨t, ht, hs⟩ := List.mem_flatMap.1 hs
      obtain ⟨r, hr, rfl⟩ := List.mem_map.1 hs
      exact mul_nonneg (b2 L hL t ht) (b1 _ (a2.1 L hL t ht) r hr)
end

/-- C50: `jit(lambda y: y.T.sum(0))` on arrays of shape (2, 3): shape (2,). -/
example (sem : Sem ℚ) : PassThruChain sem [4] [.transpose [1, 0], .jit (jitBody sem [.reduceSum [0]])]
    [2, 3] [2] :=
  .cons (.transpose rfl (by decide) (by decide))
    (.cons (.jit (.cons (.reduceSum ⟨by decide, by decide⟩) .nil)) .nil)

end AB
