/-
Instances of C80.
-/
import Verif.Props.Rewrite
import Verif.Props.PipelineEx

namespace AB

namespace GE

/-- Three operations in a row, a pattern of two: the first two are replaced, the third is kept (the occurrence that
starts at the second overlaps the replaced one). -/
example : ∃ fuel g', replace (fun a b : String => a == b) (fun _ _ => true)
      [⟨"f", [0], [1]⟩, ⟨"f", [1], [2]⟩] [⟨"g", [0], [2]⟩]
      (⟨[10], [13], [⟨"f", [10], [11]⟩, ⟨"f", [11], [12]⟩, ⟨"f", [12], [13]⟩], ()⟩ : Graph ℕ String Unit) fuel = some g' ∧
    g'.operations = [⟨"g", [10], [12]⟩, ⟨"f", [12], [13]⟩] := ⟨4, _, rfl, rfl⟩

/-- No occurrence: nothing changes. -/
example : ∃ fuel, replace (fun a b : String => a == b) (fun _ _ => true)
      [⟨"f", [0], [1]⟩] [⟨"g", [0], [1]⟩]
      (⟨[10], [11], [⟨"h", [10], [11]⟩], ()⟩ : Graph ℕ String Unit) fuel =
    some ⟨[10], [11], [⟨"h", [10], [11]⟩], ()⟩ := by
  refine C80_unchanged (by simp) _ ?_
  intro A B h hB
  rw [occursAtStart_iff]
  rcases A with _ | ⟨a, A⟩
  · replace h : [⟨"h", [10], [11]⟩] = B := h
    subst h
    rintro ⟨m, hm⟩
    cases hm
  · replace h : [(⟨"h", [10], [11]⟩ : Op ℕ String)] = a :: (A ++ B) := h
    injection h with _ h
    exact absurd (List.append_eq_nil_iff.1 h.symm).2 hB

end GE

namespace JB
namespace PEx
open JE

theorem rule_one : ∃ e, OneEqnRule rule e ∧ e.primitive ≠ rule.name := by
  obtain ⟨h, hv⟩ := rule_ok
  exact ⟨_, ⟨rfl, h.consts, h.input, h.output, by decide, rfl, h.ssa, h.wellScoped, h.counts, hv⟩, by decide⟩

/-- The rule for the `jit`-ed square in `f(x) = square(square(x) + x)`. -/
example : ∃ e j', rewriteJaxpr 100 [rule.pair] subject = some (.ok j') ∧
    List.Forall₂ (RewrittenEqn [(rule, e)]) subject.eqns j'.eqns ∧
    ∀ e' ∈ j'.eqns, ¬ ∃ m, IsOccurrence e e' m := by
  obtain ⟨e, h1, h2⟩ := rule_one
  obtain ⟨j', k1, k2, k3⟩ := C80_rewrite_all 100 (rules := [(rule, e)]) (subject := subject)
    (by simpa using h1) (by simpa using h2) subject_ok.ssa subject_ok.wellScoped subject_ok.counts subject_ok.drops
  exact ⟨e, j', k1, k2, fun e' he' => k3 e' he' _ List.mem_cons_self⟩

end PEx
end JB
end AB
