/-
A concrete case of C81: a primitive registered twice, and a Jax function registered twice.
-/
import Verif.Props.Registry
import Verif.Props.RegisterEx

set_option linter.unusedSectionVars false

namespace AB
namespace JB
open TEA PE

/-- an enclosure function that is wrong for `x²` -/
def wrongGen : Generator ℚ := liftGen (fun _ x => .ok [x]) (fun x0 _ _ _ => .ok ([x0], (0, 0)))

def emptyState : Registry ℚ String := ⟨[], [], []⟩

/-- A wrong registration, a Jax function (with the right enclosure function), the same Jax function with a wrong one
(rejected), and the registration that replaces the wrong one. -/
def exHistory : List (Call ℚ String) :=
  [.primitive "my_square" wrongGen,
   .function "fsq" (fun n => "rewrite fsq to " ++ n) squareGen,
   .function "fsq" (fun n => "rewrite fsq to " ++ n) wrongGen,
   .primitive "my_square" squareGen]

def exSem2 : Sem ℚ := mySem.define "__autobound_fsq__" fun x => x ^ 2

theorem exHistory_state : emptyState.after exHistory =
    ⟨["__autobound_fsq__"], ["rewrite fsq to __autobound_fsq__"],
      [("my_square", squareGen), ("__autobound_fsq__", squareGen)]⟩ := rfl

theorem exHistory_last {n : String} {g : Generator ℚ} (h : LastRegistered emptyState exHistory n g) :
    (n = "my_square" ∨ n = "__autobound_fsq__") ∧ g = squareGen := by
  have := (C81_table emptyState exHistory n).1 g h
  rw [exHistory_state] at this
  simp only [lookup_cons'] at this
  split_ifs at this with h1 h2
  · cases this; exact ⟨Or.inl h1, rfl⟩
  · cases this; exact ⟨Or.inr h2, rfl⟩
  · cases this

/-- After this history the last registrations are right, so the bounds of every program hold (`C81_sound` applies); the
second registration of the Jax function raised `ValueError`; a program with `my_square` has bounds, and they are those
that the one right registration gives. -/
theorem C81_instance :
    LastRegistered emptyState exHistory "my_square" squareGen ∧
    (∀ n g, LastRegistered emptyState exHistory n g → RightGenerator exSem2 n g) ∧
    LibSound ((polyLib : Lib ℚ).inState (emptyState.after exHistory)) exSem2 ∧
    (emptyState.after (exHistory.take 2)).call (.function "fsq" (fun n => "rewrite fsq to " ++ n) wrongGen) =
      .error .valueError ∧
    ∃ bnd, taylorBounds ((polyLib : Lib ℚ).inState (emptyState.after exHistory)) exMySq [exA, exC] 1 false exX0 exLo'
      exHi' = .ok bnd ∧ taylorBounds myLib exMySq [exA, exC] 1 false exX0 exLo' exHi' = .ok bnd := by
  have hright : ∀ n g, LastRegistered emptyState exHistory n g → RightGenerator exSem2 n g := by
    intro n g h
    obtain ⟨h1, rfl⟩ := exHistory_last h
    refine ⟨fun x => x ^ 2, ?_, squareGen_sound, keepsShape_lift _ _⟩
    rcases h1 with rfl | rfl <;> rfl
  have hlib0 : LibSound ((polyLib : Lib ℚ).inState emptyState) exSem2 := by
    constructor
    · intro n f h; cases h
    · rfl
    · intro n g h; cases h
    · exact polyLib_sound.powInt
    · exact polyLib_sound.expoInt
    · exact polyLib_sound.expoFrac
  refine ⟨⟨exHistory.take 3, .primitive "my_square" squareGen, [], rfl, ?_, ⟨rfl, rfl⟩, ?_⟩, hright,
    C81_libSound hlib0 hright, rfl, ?_⟩
  · rintro name ⟨⟩
  · intro mid c' rest g' e
    simp at e
  · obtain ⟨-, bnd, a, b, h, -⟩ := C54_instance
    refine ⟨bnd, ?_, h⟩
    rw [← h]
    unfold taylorBounds taylorEnv
    have key : ∀ (T T0 : TEA ℚ) (prop : Bool) (xs : List ℕ) (env : Env ℚ),
        exMySq.eqns.foldlM (step ((polyLib : Lib ℚ).inState (emptyState.after exHistory)) T T0 prop xs) env =
          exMySq.eqns.foldlM (step myLib T T0 prop xs) env := by
      intro T T0 prop xs env
      have hst : ∀ eqn ∈ exMySq.eqns, ∀ env, step ((polyLib : Lib ℚ).inState (emptyState.after exHistory)) T T0 prop xs env eqn =
          step myLib T T0 prop xs env eqn := by
        intro eqn he env
        refine step_gen (lib := myLib) (lib' := (polyLib : Lib ℚ).inState (emptyState.after exHistory)) rfl rfl rfl
          fun n hn => ?_
        have : n = "my_square" := by
          simp only [exMySq, List.mem_cons, List.not_mem_nil, or_false] at he
          rcases he with rfl | rfl | rfl | rfl <;> cases hn
          rfl
        subst this
        rfl
      generalize exMySq.eqns = l at hst
      induction l generalizing env with
      | nil => rfl
      | cons q l ih =>
        rw [List.foldlM_cons, List.foldlM_cons, hst q List.mem_cons_self]
        congr 1
        funext env'
        exact ih env' fun e he => hst e (List.mem_cons_of_mem _ he)
    simp only [key]

/-- `C81_dispatch` for the library's own tables: its hypotheses hold after the import of the module, for instance for `exp`,
for `dot_general` and for a primitive without a rule. -/
theorem C81_dispatch_instance (T : TEA ℝ) (ins : List (Inter ℝ)) :
    let s : Registry ℝ Unit := importedState fun _ _ => ()
    (∀ p ∈ [(.elementwise "exp" : Prim ℝ), .dotGeneral [1] [0] [] [], .reshape [2], .elementwise "__autobound_swish__"],
      (List.lookup p.key (pushforwardFuns realLib s T)).map (fun f => f p ins) =
        (pushforward realLib T p).map fun f => f ins) ∧
    List.lookup "sin" (pushforwardFuns realLib s T) = none := by
  intro s
  obtain ⟨h1, h2, h3⟩ := C81_imported (R := Unit) fun _ _ => ()
  refine ⟨fun p hp => ?_, ?_⟩
  · have := C81_dispatch realLib h2 h3 T p (by
      simp only [List.mem_cons, List.not_mem_nil, or_false] at hp
      rcases hp with rfl | rfl | rfl | rfl
      · exact ⟨by decide, by decide⟩
      · trivial
      · trivial
      · exact ⟨by decide, by decide⟩) ins
    rw [h1] at this
    exact this
  · rw [lookup_pushforwardFuns realLib h2 T, if_neg (by decide)]
    have : List.lookup "sin" s.enclosures = none := rfl
    rw [this]
    exact lookup_fixed realLib T "sin" (by decide)

end JB
end AB
