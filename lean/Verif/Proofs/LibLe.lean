/-
Successful runs of the interpreter do not change when the enclosure-generating functions are extended.
-/
import Verif.Proofs.BilinMono
import Verif.Spec.JaxSem

set_option linter.unusedSectionVars false

namespace AB
variable {K : Type} [Field K] [LinearOrder K] [IsStrictOrderedRing K]

/-- every success of the generator `g` is a success of `g'` with the same result -/
def GenLe (g g' : TEA.Generator K) : Prop := ∀ x0 tr d, OkLe (g x0 tr d) (g' x0 tr d)

namespace TEA
variable (T : TEA K)

theorem okLe_elementwise {g g' : Generator K} (h : GenLe g g') (arg : Encl K) (r : Option (Coef K)) :
    OkLe (T.elementwiseFun g arg r) (T.elementwiseFun g' arg r) := by
  unfold elementwiseFun
  refine (OkLe.refl _).bind fun tr => ?_
  cases arg with
  | nil => exact OkLe.refl _
  | cons a l => exact (OkLe.refl _).bind fun x0 => (h _ _ _).bind fun e => OkLe.refl _

theorem okLe_powerOther {g g' : Generator K} (h : GenLe g g') (arg : Encl K) :
    OkLe (T.powerOther g arg) (T.powerOther g' arg) :=
  (OkLe.refl _).bind fun _ => okLe_elementwise T h _ _

theorem okLe_divide {g g' : Generator K} (h : GenLe g g') (a b : Encl K) :
    OkLe (T.divide g a b) (T.divide g' a b) :=
  (okLe_powerOther T h _).bind fun _ => OkLe.refl _
end TEA

namespace JB
open TEA PE

/-- the tables of `lib'` extend those of `lib` -/
structure LibLe (lib lib' : Lib K) : Prop where
  sem : lib.sem = lib'.sem
  expo : lib.expo = lib'.expo
  gen : ∀ n, (lib.gen n = none ∧ lib'.gen n = none) ∨
    ∃ g g', lib.gen n = some g ∧ lib'.gen n = some g' ∧ GenLe g g'
  pow : ∀ p, GenLe (lib.powGen p) (lib'.powGen p)

variable {lib lib' : Lib K} (hl : LibLe lib lib')
include hl

theorem okLe_powPush (T : TEA K) (a b : Inter K) : OkLe (powPush lib T a b) (powPush lib' T a b) := by
  unfold powPush
  rw [hl.expo]
  cases b.constantValue with
  | none => exact OkLe.refl _
  | some v =>
    simp only
    split_ifs
    · exact OkLe.refl _
    · cases lib'.expo (v.get []) with
      | frac q => exact okLe_powerOther T (hl.pow _) _
      | int n =>
        simp only
        split_ifs
        · exact okLe_powerOther T (hl.pow _) _
        · exact OkLe.refl _
        · exact OkLe.refl _

theorem okLe_push (T : TEA K) (p : Prim K) :
    (pushforward lib T p = none ∧ pushforward lib' T p = none) ∨
    ∃ f f', pushforward lib T p = some f ∧ pushforward lib' T p = some f' ∧ ∀ ins, OkLe (f ins) (f' ins) := by
  have bin : ∀ g g' : Inter K → Inter K → Py (Encl K), (∀ a b, OkLe (g a b) (g' a b)) → ∀ ins : List (Inter K),
      OkLe (match ins with | [a, b] => g a b | _ => (.error .typeError : Py (Encl K)))
        (match ins with | [a, b] => g' a b | _ => (.error .typeError : Py (Encl K))) := by
    intro g g' h ins
    rcases ins with _ | ⟨a, _ | ⟨b, _ | ⟨c, l⟩⟩⟩
    · exact OkLe.refl _
    · exact OkLe.refl _
    · exact h a b
    · exact OkLe.refl _
  have una : ∀ g g' : Inter K → Py (Encl K), (∀ a, OkLe (g a) (g' a)) → ∀ ins : List (Inter K),
      OkLe (match ins with | [a] => g a | _ => (.error .typeError : Py (Encl K)))
        (match ins with | [a] => g' a | _ => (.error .typeError : Py (Encl K))) := by
    intro g g' h ins
    rcases ins with _ | ⟨a, _ | ⟨b, l⟩⟩
    · exact OkLe.refl _
    · exact h a
    · exact OkLe.refl _
  have hs := hl.sem
  cases p with
  | other n i => exact Or.inl ⟨rfl, rfl⟩
  | elementwise n =>
    rcases hl.gen n with ⟨h1, h2⟩ | ⟨g, g', h1, h2, h3⟩
    · exact Or.inl ⟨by simp only [pushforward, h1, Option.map_none], by simp only [pushforward, h2, Option.map_none]⟩
    · refine Or.inr ⟨_, _, by simp only [pushforward, h1, Option.map_some]; rfl, by
        simp only [pushforward, h2, Option.map_some]; rfl, ?_⟩
      exact una _ _ fun a => okLe_elementwise T h3 _ _
  | div => exact Or.inr ⟨_, _, rfl, rfl, bin _ _ fun a b => okLe_divide T (hl.pow _) _ _⟩
  | pow => exact Or.inr ⟨_, _, rfl, rfl, bin _ _ fun a b => okLe_powPush hl T a b⟩
  | integerPow y =>
    refine Or.inr ⟨_, _, rfl, rfl, una _ _ fun a => ?_⟩
    split_ifs
    · exact OkLe.refl _
    · exact okLe_powerOther T (hl.pow _) _
  | add => exact Or.inr ⟨_, _, rfl, rfl, fun _ => OkLe.refl _⟩
  | sub => exact Or.inr ⟨_, _, rfl, rfl, fun _ => OkLe.refl _⟩
  | mul => exact Or.inr ⟨_, _, rfl, rfl, fun _ => OkLe.refl _⟩
  | neg => exact Or.inr ⟨_, _, rfl, rfl, fun _ => OkLe.refl _⟩
  | broadcastInDim s d => exact Or.inr ⟨_, _, rfl, rfl, fun _ => OkLe.refl _⟩
  | dotGeneral a b c d =>
    refine Or.inr ⟨_, _, rfl, rfl, fun ins => ?_⟩
    rw [hs]; exact OkLe.refl _
  | conv op =>
    refine Or.inr ⟨_, _, rfl, rfl, fun ins => ?_⟩
    rw [hs]; exact OkLe.refl _
  | _ =>
    refine Or.inr ⟨_, _, rfl, rfl, fun ins => ?_⟩
    rw [hs]; exact OkLe.refl _

theorem okLe_outRegion (T T0 : TEA K) (p : Prim K) (ins : List (Inter K)) (e : Encl K) :
    OkLe (outRegion lib T T0 p ins e) (outRegion lib' T T0 p ins e) := by
  unfold outRegion
  rcases okLe_push hl T0 p with ⟨h1, h2⟩ | ⟨f, f', h1, h2, h3⟩
  · simp only [h1, h2]; exact OkLe.refl _
  · simp only [h1, h2]
    exact (OkLe.refl _).bind fun ins0 => (h3 ins0).bind fun _ => OkLe.refl _

theorem okLe_eqnOutputs (T T0 : TEA K) (propagate : Bool) (eqn : Eqn K) (ins : List (Inter K)) :
    OkLe (eqnOutputs lib T T0 propagate eqn ins) (eqnOutputs lib' T T0 propagate eqn ins) := by
  unfold eqnOutputs
  cases ins.mapM Inter.constantValue with
  | some vals => simp only; rw [hl.sem]; exact OkLe.refl _
  | none =>
    rcases okLe_push hl T eqn.prim with ⟨h1, h2⟩ | ⟨f, f', h1, h2, h3⟩
    · simp only [h1, h2]; exact OkLe.refl _
    · simp only [h1, h2]
      refine (h3 ins).bind fun e => ?_
      split_ifs
      · exact OkLe.refl _
      · exact (okLe_outRegion hl T T0 _ _ _).bind fun _ => OkLe.refl _
      · exact OkLe.refl _

theorem okLe_step (T T0 : TEA K) (propagate : Bool) (xs : List ℕ) (env : Env K) (eqn : Eqn K) :
    OkLe (step lib T T0 propagate xs env eqn) (step lib' T T0 propagate xs env eqn) :=
  (OkLe.refl _).bind fun ins => (okLe_eqnOutputs hl T T0 propagate eqn ins).bind fun _ => OkLe.refl _

theorem okLe_taylorEnv (jaxpr : Jaxpr K) (consts : List (ND K)) (maxDegree : ℤ) (propagate : Bool)
    (x0 lo hi : ND K) : OkLe (taylorEnv lib jaxpr consts maxDegree propagate x0 lo hi)
      (taylorEnv lib' jaxpr consts maxDegree propagate x0 lo hi) := by
  unfold taylorEnv
  split_ifs
  · exact OkLe.refl _
  · refine (OkLe.refl _).bind fun r => ?_
    cases r with
    | arr a => exact OkLe.refl _
    | ivl l u =>
      exact (OkLe.refl _).bind fun T => (OkLe.refl _).bind fun T0 => (OkLe.refl _).bind fun env =>
        OkLe.foldlM (fun b c _ => okLe_step hl T T0 _ _ b c) env

theorem okLe_taylorBounds (jaxpr : Jaxpr K) (consts : List (ND K)) (maxDegree : ℤ) (propagate : Bool)
    (x0 lo hi : ND K) : OkLe (taylorBounds lib jaxpr consts maxDegree propagate x0 lo hi)
      (taylorBounds lib' jaxpr consts maxDegree propagate x0 lo hi) :=
  (okLe_taylorEnv hl jaxpr consts maxDegree propagate x0 lo hi).bind fun _ => OkLe.refl _

theorem runOk_of_le {T T0 : TEA K} {propagate : Bool} {xs : List ℕ} {env : Env K} {eqns : List (Eqn K)}
    (h : RunOk lib' T T0 propagate xs env eqns) : RunOk lib T T0 propagate xs env eqns := by
  induction eqns generalizing env with
  | nil => trivial
  | cons eqn eqns ih => exact ⟨h.1, fun env' he => ih (h.2 env' (okLe_step hl _ _ _ _ _ _ _ he))⟩

theorem taylorBoundsOk_of_le {jaxpr : Jaxpr K} {consts : List (ND K)} {maxDegree : ℤ} {propagate : Bool}
    {x0 lo hi : ND K} (h : TaylorBoundsOk lib' jaxpr consts maxDegree propagate x0 lo hi) :
    TaylorBoundsOk lib jaxpr consts maxDegree propagate x0 lo hi :=
  fun tlo thi T T0 env h1 h2 h3 h4 => runOk_of_le hl (h tlo thi T T0 env h1 h2 h3 h4)

end JB
end AB
