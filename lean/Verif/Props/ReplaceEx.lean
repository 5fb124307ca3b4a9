/-
C38, concretely: an instance of its hypotheses, and what goes wrong without each condition of `Rewritable`.
-/
import Verif.Props.Replace
import Mathlib.Algebra.Order.Ring.Int
import Mathlib.Tactic.Common

namespace AB
namespace GE
namespace Ex

/-- `true` is addition, `false` is negation; no vertex is a constant. -/
def J : Interp ℕ Bool ℤ where
  lit := fun _ => none
  interp := fun d xs => match d, xs with
    | true, [a, b] => some [a + b]
    | false, [a] => some [-a]
    | _, _ => none

abbrev deq : Bool → Bool → Bool := fun a b => a == b
abbrev cb : ℕ → ℕ → Bool := fun _ _ => true

/-- `-(x + y)` is to be replaced by `(-x) + (-y)` -/
abbrev P : List (Op ℕ Bool) := [⟨true, [0, 1], [2]⟩, ⟨false, [2], [3]⟩]
abbrev R : List (Op ℕ Bool) := [⟨false, [0], [10]⟩, ⟨false, [1], [11]⟩, ⟨true, [10, 11], [3]⟩]

theorem run_step {ops : List (Op ℕ Bool)} {o : Op ℕ Bool} {e e1 e2 : Env ℕ ℤ}
    (h : J.run (o :: ops) e = some e2) (h1 : J.step e o = some e1) : J.run ops e1 = some e2 := by
  rw [run_cons, h1] at h; exact h

/-- the rule is correct -/
theorem rule : RuleOk J P R [3] (fun u => u = 10 ∨ u = 11) where
  equiv := by
    intro ε ε1 h
    cases h0 : ε 0 with
    | none => simp [Interp.run, Interp.step, Interp.look, J, P, h0] at h
    | some a =>
      cases h1 : ε 1 with
      | none => simp [Interp.run, Interp.step, Interp.look, J, P, h0, h1] at h
      | some b =>
        simp [Interp.run, Interp.step, Interp.look, J, P, h0, h1, assign] at h
        refine ⟨_, by simp [Interp.run, Interp.step, Interp.look, J, R, h0, h1, assign]; rfl, ?_⟩
        intro u hu
        rw [List.mem_singleton.1 hu, ← h]
        simp [Interp.look, J]
        omega
  outs_written := by intro u hu; rw [List.mem_singleton.1 hu]; exact ⟨⟨false, [2], [3]⟩, by simp, by simp⟩
  reads := by
    rintro u ⟨o, ho, hu⟩
    simp only [R, List.mem_cons, List.not_mem_nil, or_false] at ho
    rcases ho with rfl | rfl | rfl
    · simp only [List.mem_singleton] at hu; subst hu
      exact Or.inr (Or.inr ⟨by simp [readsOf], by simp [writesOf]⟩)
    · simp only [List.mem_singleton] at hu; subst hu
      exact Or.inr (Or.inr ⟨by simp [readsOf], by simp [writesOf]⟩)
    · left
      simp only [List.mem_cons, List.not_mem_nil, or_false] at hu
      rcases hu with rfl | rfl <;> simp [writesOf]
  writes := by
    intro u hu
    simp only [writesOf, R, List.mem_cons, List.not_mem_nil, or_false, exists_eq_or_imp, exists_eq_left] at hu
    rcases hu with h | h | h <;> simp [h]
  not_const := fun _ _ => rfl
  internal_fresh := by
    rintro u (rfl | rfl) <;> simp [readsOf, writesOf]

/-- a graph: `y = x + x; z = -y; w = z + x` -/
abbrev g : Graph ℕ Bool Unit :=
  ⟨[20], [23], [⟨true, [20, 20], [21]⟩, ⟨false, [21], [22]⟩, ⟨true, [22, 20], [23]⟩], ()⟩

theorem occ_of_match {ops A occ B : List (Op ℕ Bool)} {m : ℕ → ℕ} (h : ops = A ++ occ ++ B)
    (hm : IsMatch deq cb P occ m) : ∃ s t : Op ℕ Bool, occ = [s, t] ∧
    s.data = true ∧ s.inputs = [m 0, m 1] ∧ s.outputs = [m 2] ∧
    t.data = false ∧ t.inputs = [m 2] ∧ t.outputs = [m 3] := by
  have := hm.same
  cases this with
  | cons h1 h2 =>
    cases h2 with
    | cons h3 h4 =>
      cases h4
      rename_i s t
      refine ⟨s, t, rfl, ?_, ?_, ?_, ?_, ?_, ?_⟩
      · simpa using h1.1.symm
      · simpa using h1.2.1.symm
      · simpa using h1.2.2.symm
      · have := h3.1
        cases hd : t.data <;> simp_all
      · simpa using h3.2.1.symm
      · simpa using h3.2.2.symm

theorem g_occ {A occ B : List (Op ℕ Bool)} {m : ℕ → ℕ} (h : g.operations = A ++ occ ++ B)
    (hm : IsMatch deq cb P occ m) : A = [] ∧ B = [⟨true, [22, 20], [23]⟩] ∧
    occ = [⟨true, [20, 20], [21]⟩, ⟨false, [21], [22]⟩] ∧ m 0 = 20 ∧ m 1 = 20 ∧ m 2 = 21 ∧ m 3 = 22 := by
  obtain ⟨s, t, rfl, h1, h2, h3, h4, h5, h6⟩ := occ_of_match h hm
  rcases A with _ | ⟨a, A⟩
  · simp only [List.nil_append, List.cons_append, List.cons.injEq] at h
    obtain ⟨rfl, rfl, rfl⟩ := h
    simp only [List.cons.injEq, and_true] at h2 h3 h5 h6
    exact ⟨rfl, rfl, rfl, h2.1.symm, h2.2.symm, h3.symm, h6.symm⟩
  · rcases A with _ | ⟨a', A⟩
    · simp only [List.nil_append, List.cons_append, List.cons.injEq] at h
      obtain ⟨-, rfl, -⟩ := h
      simp at h1
    · have := congrArg List.length h
      simp at this
      omega

/-- the graph may be rewritten -/
theorem g_ok : Rewritable deq cb P [3] (fun u => u = 10 ∨ u = 11) g where
  once := by decide
  internal_fresh := by
    rintro u (rfl | rfl) <;> simp [readsOf, writesOf]
  unused := by
    intro A occ B m h hm u hu hne
    obtain ⟨rfl, rfl, rfl, m0, m1, m2, m3⟩ := g_occ h hm
    simp only [writesOf, P, List.mem_cons, List.not_mem_nil, or_false, exists_eq_or_imp, exists_eq_left] at hu
    rcases hu with rfl | rfl
    · simp [readsOf, m2]
    · simp at hne
  inputs_outside := by
    intro A occ B m h hm u hu hne
    obtain ⟨rfl, rfl, rfl, m0, m1, m2, m3⟩ := g_occ h hm
    simp only [readsOf, P, List.mem_cons, List.not_mem_nil, or_false, exists_eq_or_imp, exists_eq_left] at hu
    rcases hu with (rfl | rfl) | rfl
    · simp [writesOf, m0]
    · simp [writesOf, m1]
    · exact absurd (by simp [writesOf]) hne

/-- C38 applies to it: the rewritten graph, which has different operations, still computes `-x`. -/
example : ∃ g', replace deq cb P R g 4 = some g' ∧ g'.operations ≠ g.operations ∧
    J.eval g (fun _ => none) [5] = some [-5] ∧ J.eval g' (fun _ => none) [5] = some [-5] := by
  have hev : J.eval g (fun _ => none) [5] = some [-5] := rfl
  refine ⟨_, rfl, ?_, hev, (C38_replace_preserves (𝓘 := J) (deq := deq) (cb := cb)
    ?_ ?_ rule g_ok (n := 4) rfl _ _ _ hev).2.2.2⟩
  · intro h; exact absurd (congrArg List.length h) (by decide)
  · intro p _ o _ h; rw [eq_of_beq h]
  · intros; rfl

/-! ### without the conditions -/

/-- **C38 needs fresh internal variables**: `replace` does not rename the replacement's own variables, so a
graph that already uses the name `10` is changed: `-(x + y) + v10` becomes `-(x + y) - x`. -/
theorem C38_capture_counterexample : ∃ (h : Graph ℕ Bool Unit) (h' : Graph ℕ Bool Unit),
    (h.operations.flatMap (·.outputs)).Nodup ∧ replace deq cb P R h 5 = some h' ∧
    J.eval h (fun _ => none) [1, 2] = some [-2] ∧ J.eval h' (fun _ => none) [1, 2] = some [-4] :=
  ⟨⟨[20, 21], [30], [⟨false, [20], [9]⟩, ⟨false, [9], [10]⟩, ⟨true, [20, 21], [22]⟩, ⟨false, [22], [23]⟩,
    ⟨true, [23, 10], [30]⟩], ()⟩, _, by decide, rfl, rfl, rfl⟩

/-- **C38 needs the intermediate results to be unused**: the occurrence is removed although `x + y` is also an
output, and the rewritten graph no longer computes it. -/
theorem C38_unused_counterexample : ∃ (h : Graph ℕ Bool Unit) (h' : Graph ℕ Bool Unit),
    (h.operations.flatMap (·.outputs)).Nodup ∧ replace deq cb P R h 5 = some h' ∧
    J.eval h (fun _ => none) [1, 2] = some [-3, 3] ∧ J.eval h' (fun _ => none) [1, 2] = none :=
  ⟨⟨[20, 21], [23, 22], [⟨true, [20, 21], [22]⟩, ⟨false, [22], [23]⟩], ()⟩, _, by decide, rfl, rfl, rfl⟩

/-- The rule `y = -a; z = b + y` ↦ `y' = -b; w = y' + a; z = -w`, with pattern inputs `a`, `b`. -/
abbrev P2 : List (Op ℕ Bool) := [⟨false, [0], [2]⟩, ⟨true, [1, 2], [3]⟩]
abbrev R2 : List (Op ℕ Bool) := [⟨false, [1], [10]⟩, ⟨true, [10, 0], [11]⟩, ⟨false, [11], [3]⟩]

/-- **C38 needs pattern inputs outside the occurrence**: in `y = -x; z = y + y` the pattern's free input `b`
is matched with `y`, which the occurrence itself computes; after replacement `y` is read but never
computed. -/
theorem C38_input_counterexample : ∃ (h : Graph ℕ Bool Unit) (h' : Graph ℕ Bool Unit),
    (h.operations.flatMap (·.outputs)).Nodup ∧ replace deq cb P2 R2 h 5 = some h' ∧
    J.eval h (fun _ => none) [1] = some [-2] ∧ J.eval h' (fun _ => none) [1] = none :=
  ⟨⟨[20], [22], [⟨false, [20], [21]⟩, ⟨true, [21, 21], [22]⟩], ()⟩, _, by decide, rfl, rfl, rfl⟩

end Ex
end GE
end AB
