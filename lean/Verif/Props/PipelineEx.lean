/-
A concrete case of C56: a `jit`-ed function with a rewrite rule.
-/
import Verif.Props.Pipeline
import Verif.Props.RegisterEx

set_option linter.unusedSectionVars false

namespace AB
namespace JB
namespace PEx
open JE (Var Aval PRule Meaning Param)

abbrev f32 : Aval := ⟨"float32", []⟩
abbrev sc (q : ℚ) : ND ℚ := ⟨[], fun _ => q⟩

/-- Literals are numbers; a `jit` of the function named `square` squares every entry. -/
def prim (name : String) (params : List (String × Param ℚ String)) : Prim ℚ :=
  if name = "add" then .add
  else if name = "my_square" then .elementwise "my_square"
  else if name = "jit" then
    match params.lookup "name" with
    | some (.other "square") => .jit fun a => .ok (a.map fun x => x ^ 2)
    | _ => .other "jit" fun _ => .error .notImplemented
  else .other name fun _ => .error .notImplemented
def D : Decode ℚ String ℚ := ⟨sc, prim⟩

theorem lookup_mem {β : Type} {k : String} {v : β} : ∀ {q : List (String × β)}, q.lookup k = some v → (k, v) ∈ q
  | [], h => by cases h
  | (k', w) :: q, h => by
    rw [List.lookup_cons] at h
    by_cases e : k = k'
    · subst e; simp at h; subst h; exact List.mem_cons_self
    · have : (k == k') = false := by simpa using e
      rw [this] at h
      exact List.mem_cons_of_mem _ (lookup_mem h)

theorem lookup_isSome {β : Type} {k : String} : ∀ {q : List (String × β)}, k ∈ q.map Prod.fst → ∃ v, q.lookup k = some v
  | [], h => by cases h
  | (k', w) :: q, h => by
    rw [List.lookup_cons]
    by_cases e : k = k'
    · subst e; exact ⟨w, by simp⟩
    · have : (k == k') = false := by simpa using e
      rw [this]
      rw [List.map_cons, List.mem_cons] at h
      exact lookup_isSome (h.resolve_left e)

theorem sameValues_mem {q0 q1 : List (String × Param ℚ String)} : JE.SameValues q0 q1 → ∀ {k : String} {v},
    (k, v) ∈ q0 → k ∉ ["weak_type", "jvp_jaxpr_fun"] → ∃ v1, q1.lookup k = some v1 ∧ JE.SameParam v v1 := by
  induction q0 with
  | nil => intro _ k v h; cases h
  | cons p q0 ih =>
    intro h k v hm hk
    rcases List.mem_cons.1 hm with rfl | hm
    · exact h.1 hk
    · exact ih h.2 hm hk

theorem same_name {q q' : List (String × Param ℚ String)} (h : JE.SameParams q q') (s : String) :
    q.lookup "name" = some (.other s) ↔ q'.lookup "name" = some (.other s) := by
  constructor
  · intro h1
    obtain ⟨v1, k1, k2⟩ := sameValues_mem h.2 (lookup_mem h1) (by decide)
    cases v1 <;> first | exact k2.elim | skip
    replace k2 : s = _ := k2
    rw [k1, k2]
  · intro h1
    obtain ⟨v, hv⟩ := lookup_isSome ((h.1 "name").2 (List.mem_map_of_mem (f := Prod.fst) (lookup_mem h1)))
    obtain ⟨v1, k1, k2⟩ := sameValues_mem h.2 (lookup_mem hv) (by decide)
    rw [h1] at k1
    cases k1
    cases v <;> first | exact k2.elim | skip
    replace k2 : _ = s := k2
    rw [hv, k2]

theorem respects : (D.meaning mySem).Respects := by
  intro p q q' h
  funext xs
  have : D.prim p q = D.prim p q' := by
    show prim p q = prim p q'
    unfold prim
    split_ifs
    · rfl
    · rfl
    · by_cases e : q.lookup "name" = some (.other "square")
      · rw [e, (same_name h _).1 e]
      · have e' : q'.lookup "name" ≠ some (.other "square") := fun e' => e ((same_name h _).2 e')
        split
        · rename_i h1; exact absurd h1 e
        · rfl
    · rfl
  unfold Decode.meaning
  simp only [this]

abbrev px : Var := ⟨0, 0, f32⟩
abbrev po : Var := ⟨1, 1, f32⟩
abbrev jitParams : List (String × Param ℚ String) := [("name", .other "square"), ("inline", .other "False")]
/-- the rule: `jit(square)` becomes `my_square` -/
abbrev rule : PRule ℚ String :=
  ⟨.mk [] [px] [.var po] [.mk "jit" [.var px] [po] jitParams], px, po, ⟨0, 0, f32⟩, ⟨1, 1, f32⟩, "my_square", []⟩

theorem rule_ok : rule.Ok (D.meaning mySem) where
  vars := by decide
  rule := {
    consts := rfl
    input := rfl
    output := rfl
    ssa := by unfold JE.Jaxpr.SSA; decide
    wellScoped := ⟨by decide, by unfold JE.Scoped; decide⟩
    counts := by unfold JE.Jaxpr.CountsIdentify; decide
    used := ⟨_, List.mem_cons_self, List.mem_cons_self⟩
    computed := ⟨_, List.mem_cons_self, List.mem_cons_self⟩
    same := fun x ys h => h }

abbrev x : Var := ⟨10, 5, f32⟩
abbrev a : Var := ⟨11, 6, f32⟩
abbrev b : Var := ⟨12, 7, f32⟩
abbrev c : Var := ⟨13, 8, f32⟩
/-- `lambda x: square(square(x) + x)`, where `square` is `jit`-ed -/
abbrev subject : JE.Jaxpr ℚ String := .mk [] [x] [.var c]
  [.mk "jit" [.var x] [a] jitParams, .mk "add" [.var a, .var x] [b] [], .mk "jit" [.var b] [c] jitParams]

theorem subject_ok : SubjectOk subject ([] : List (ND ℚ)) where
  ssa := by unfold JE.Jaxpr.SSA; decide
  wellScoped := ⟨by decide, by decide, by decide, by unfold JE.Scoped; decide⟩
  counts := by unfold JE.Jaxpr.CountsIdentify; decide
  drops := ⟨by decide, by decide⟩
  invars := rfl
  outvars := rfl
  consts := rfl

/-- the program after rewriting -/
abbrev rewritten : JE.Jaxpr ℚ String := .mk [] [⟨100, 5, f32⟩] [.var ⟨103, 8, f32⟩]
  [.mk "my_square" [.var ⟨100, 5, f32⟩] [⟨101, 6, f32⟩] [],
    .mk "add" [.var ⟨101, 6, f32⟩, .var ⟨100, 5, f32⟩] [⟨102, 7, f32⟩] [],
    .mk "my_square" [.var ⟨102, 7, f32⟩] [⟨103, 8, f32⟩] []]

theorem rewrites : rewriteJaxpr 100 [rule.pair] subject = some (.ok rewritten) := by with_unfolding_all rfl

theorem eval_rewritten (v : ND ℚ) (hv : v.shape = []) : ∃ vals, evalEnv mySem (D.jaxpr rewritten) [] v = .ok vals ∧
    NonEmptyVals vals := by
  obtain ⟨s, g⟩ := v
  have hv : s = [] := hv
  subst hv
  refine ⟨_, rfl, ?_⟩
  intro va hva
  rcases hva with _ | ⟨_, hva⟩
  · exact ⟨[], .nil⟩
  rcases hva with _ | ⟨_, hva⟩
  · exact ⟨[], .nil⟩
  rcases hva with _ | ⟨_, hva⟩
  · exact ⟨[], .nil⟩
  rcases hva with _ | ⟨_, hva⟩
  · exact ⟨[], .nil⟩
  cases hva

theorem eval_subject (v : ND ℚ) (hv : v.shape = []) : ∃ y, evalJaxpr mySem (D.jaxpr subject) [] v = .ok y ∧
    y.shape = [] ∧ y.get [] = ((v.get [] ^ 2 + v.get []) ^ 2 : ℚ) := by
  obtain ⟨s, g⟩ := v
  have hv : s = [] := hv
  subst hv
  exact ⟨_, rfl, rfl, rfl⟩

theorem fits : ProgramFits mySem (D.jaxpr rewritten) [] (sc 1) := by
  refine ⟨by decide, _, countsFit_trivial _, ?_⟩
  refine ⟨fun _ a o ha ho => trivial, fun v1 h1 => ?_⟩
  cases h1
  refine ⟨fun _ a o ha ho => ?_, fun v2 h2 => ?_⟩
  · cases ha; cases ho
    exact ⟨Or.inr (Or.inl rfl), Or.inr (Or.inl rfl)⟩
  cases h2
  exact ⟨fun _ a o ha ho => trivial, fun v3 h3 => trivial⟩

theorem mem_scalar {l u : ℚ} {v : ND ℚ} (h : (Coef.ivl (sc l) (sc u)).Contains v) : v.shape = [] := h.1

/-- **C56, concretely.** For `f(x) = square(square(x) + x)` with a `jit`-ed `square`, at `x0 = 1` on `[0, 2]`: the
rewritten program is bounded, and the bounds hold for the original function at every point. -/
theorem C56_instance : ∃ bnd, taylorBoundsOf myLib D 100 [rule.pair] subject [] 1 false (sc 1) (sc 0) (sc 2) = some (.ok bnd) ∧
    ∀ v, (Coef.ivl (sc 0) (sc 2)).Contains v → ∃ l u, bnd.lower v = .ok l ∧ bnd.upper v = .ok u ∧
      l.get [] ≤ (v.get [] ^ 2 + v.get []) ^ 2 ∧ (v.get [] ^ 2 + v.get []) ^ 2 ≤ u.get [] := by
  have hl : ((taylorBounds myLib (D.jaxpr rewritten) [] 1 false (sc 1) (sc 0) (sc 2)).toOption.isSome) = true := by
    decide +kernel
  cases hb : taylorBounds myLib (D.jaxpr rewritten) [] 1 false (sc 1) (sc 0) (sc 2) with
  | error e => rw [hb] at hl; cases hl
  | ok bnd =>
  have hbo : taylorBoundsOf myLib D 100 [rule.pair] subject [] 1 false (sc 1) (sc 0) (sc 2) = some (.ok bnd) := by
    unfold taylorBoundsOf
    rw [rewrites]
    simp only [hb]
  refine ⟨bnd, hbo, fun v hv => ?_⟩
  obtain ⟨y, hy, hys, hyv⟩ := eval_subject v hv.1
  obtain ⟨y0, hy0, -, -⟩ := eval_subject (sc 1) rfl
  have h0 : (Coef.ivl (sc 0) (sc 2)).Contains (sc 1) := by
    refine ⟨rfl, fun I _ => ⟨?_, ?_⟩⟩
    · show (0 : ℚ) ≤ 1; norm_num
    · show (1 : ℚ) ≤ 2; norm_num
  obtain ⟨l, u, h1, h2, -, -, h3⟩ := C56_pipeline_single myLib_sound respects (rules := [rule]) (lo := sc 0) (hi := sc 2)
    (fun r hr => by rw [List.mem_singleton] at hr; subst hr; exact rule_ok)
    (fun r hr => by rw [List.mem_singleton] at hr; subst hr; exact ⟨_, rfl, rfl⟩) subject_ok rfl h0 hv hbo
    (fun j' hj' => by
      have e : rewriteJaxpr 100 [rule.pair] subject = some (.ok j') := hj'
      rw [rewrites] at e
      cases e
      refine ⟨fits, fun w vals hw he => ?_⟩
      obtain ⟨vals', k1, k2⟩ := eval_rewritten w hw.1
      rw [k1] at he
      cases he
      exact k2) hy0 hy
  obtain ⟨k1, k2⟩ := h3 [] (by rw [hys]; exact .nil)
  rw [hyv] at k1 k2
  exact ⟨l, u, h1, h2, k1, k2⟩

/-- Without the rule the `jit`-ed function is passed through, and the bounds are wrong: at 2 the upper bound is less
than the value. -/
theorem C56_rule_needed : ∃ bnd u, taylorBoundsOf myLib D 100 [] subject [] 1 false (sc 1) (sc 0) (sc 2) = some (.ok bnd) ∧
    bnd.upper (sc 2) = .ok u ∧ u.get [] < ((2 : ℚ) ^ 2 + 2) ^ 2 := by
  have hl : ((taylorBounds myLib (D.jaxpr subject) [] 1 false (sc 1) (sc 0) (sc 2)).toOption.bind
      fun b => (b.upper (sc 2)).toOption.map fun u => decide (u.get [] < ((2 : ℚ) ^ 2 + 2) ^ 2)) = some true := by
    decide +kernel
  cases hb : taylorBounds myLib (D.jaxpr subject) [] 1 false (sc 1) (sc 0) (sc 2) with
  | error e => rw [hb] at hl; cases hl
  | ok bnd =>
  rw [hb] at hl
  cases hu : bnd.upper (sc 2) with
  | error e => simp [hu, Except.toOption] at hl
  | ok u =>
    refine ⟨bnd, u, ?_, hu, ?_⟩
    · unfold taylorBoundsOf rewriteJaxpr
      simp only [hb]
    · simpa [hu, Except.toOption] using hl

end PEx
end JB
end AB
