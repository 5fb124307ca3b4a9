/-
When the guards of two tables agree on the calls that one equation makes, so do the runs.
-/
import Verif.Proofs.LibLe
import Verif.Props.RealLib
import Verif.Props.Static
import Verif.Props.TaylorMain3
import Verif.Spec.Fat

set_option linter.unusedSectionVars false

namespace AB
variable {K : Type} [Field K] [LinearOrder K] [IsStrictOrderedRing K]

/-- the call of the generator that `get_elementwise_fun` makes for the argument `arg` -/
def CallLe (T : TEA K) (g g' : TEA.Generator K) (arg : Encl K) (tr : Option (Coef K)) : Prop :=
  ∀ r c x0, T.argRegion arg tr = .ok r → arg[0]? = some c → T.expansionPoint c = .ok x0 →
    OkLe (g x0 (TEA.toInterval r) T.maxDegree) (g' x0 (TEA.toInterval r) T.maxDegree)

namespace TEA
variable (T : TEA K)

theorem callLe_elementwise {g g' : Generator K} {arg : Encl K} {tr : Option (Coef K)} (h : CallLe T g g' arg tr) :
    OkLe (T.elementwiseFun g arg tr) (T.elementwiseFun g' arg tr) := by
  intro out ho
  unfold elementwiseFun at ho ⊢
  rw [py_bind_ok] at ho
  obtain ⟨r, hr, ho⟩ := ho
  rw [hr, py_ok_bind]
  cases arg with
  | nil => cases ho
  | cons a l =>
    simp only [py_bind_ok] at ho ⊢
    obtain ⟨x0, hx, e, he, ho⟩ := ho
    exact ⟨x0, hx, e, h r a x0 hr rfl hx e he, ho⟩

theorem callLe_powerOther {g g' : Generator K} {arg : Encl K} (h : CallLe T g g' arg none) :
    OkLe (T.powerOther g arg) (T.powerOther g' arg) :=
  (OkLe.refl _).bind fun _ => callLe_elementwise T h

theorem callLe_divide {g g' : Generator K} {a b : Encl K} (h : CallLe T g g' b none) :
    OkLe (T.divide g a b) (T.divide g' a b) :=
  (callLe_powerOther T h).bind fun _ => OkLe.refl _
end TEA

namespace JB
open TEA PE

/-- the exponents for which `pow` calls the generator -/
def PowUses : Expo K → Prop
  | .frac _ => True
  | .int n => n < 0

/-- the calls that one equation makes -/
def CallsLe (lib lib' : Lib K) (T : TEA K) : Prim K → List (Inter K) → Prop
  | .elementwise n, [a] => (lib.gen n = none ∧ lib'.gen n = none) ∨
      ∃ g g', lib.gen n = some g ∧ lib'.gen n = some g' ∧ CallLe T g g' a.encl a.tr
  | .div, [_, b] => CallLe T (lib.powGen (.int (-1))) (lib'.powGen (.int (-1))) b.encl none
  | .integerPow y, [a] => y < 0 → CallLe T (lib.powGen (.int y)) (lib'.powGen (.int y)) a.encl none
  | .pow, [a, b] => ∀ v, b.constantValue = some v → v.shape = [] → PowUses (lib.expo (v.get [])) →
      CallLe T (lib.powGen (lib.expo (v.get []))) (lib'.powGen (lib.expo (v.get []))) a.encl none
  | _, _ => True

theorem callsLe_push {lib lib' : Lib K} (hs : lib.sem = lib'.sem) (hx : lib.expo = lib'.expo) {T : TEA K} {p : Prim K}
    {ins : List (Inter K)} (h : CallsLe lib lib' T p ins) {f : List (Inter K) → Py (Encl K)} {e : Encl K}
    (hf : pushforward lib T p = some f) (he : f ins = .ok e) :
    ∃ f', pushforward lib' T p = some f' ∧ f' ins = .ok e := by
  cases p with
  | other n i => cases hf
  | elementwise n =>
    simp only [pushforward, Option.map_eq_some_iff] at hf
    obtain ⟨g, hg, rfl⟩ := hf
    rcases ins with _ | ⟨a, _ | ⟨b, l⟩⟩
    · cases he
    · rcases h with ⟨h, -⟩ | ⟨g1, g', h1, h2, h3⟩
      · rw [hg] at h; cases h
      · rw [hg] at h1; cases h1
        refine ⟨_, by simp only [pushforward, h2, Option.map_some]; rfl, ?_⟩
        exact callLe_elementwise T h3 _ he
    · cases he
  | div =>
    cases hf
    refine ⟨_, rfl, ?_⟩
    rcases ins with _ | ⟨a, _ | ⟨b, _ | ⟨c, l⟩⟩⟩ <;> try (cases he; done)
    exact callLe_divide T h _ he
  | pow =>
    cases hf
    refine ⟨_, rfl, ?_⟩
    rcases ins with _ | ⟨a, _ | ⟨b, _ | ⟨c, l⟩⟩⟩ <;> try (cases he; done)
    have h : ∀ v, b.constantValue = some v → v.shape = [] → PowUses (lib.expo (v.get [])) →
      CallLe T (lib.powGen (lib.expo (v.get []))) (lib'.powGen (lib.expo (v.get []))) a.encl none := h
    have : OkLe (powPush lib T a b) (powPush lib' T a b) := by
      unfold powPush
      rw [← hx]
      cases hb : b.constantValue with
      | none => exact OkLe.refl _
      | some v =>
        have h := h v hb
        simp only
        split_ifs with hv
        · exact OkLe.refl _
        · have h := h (not_not.1 hv)
          cases he : lib.expo (v.get []) with
          | frac q =>
            rw [he] at h
            exact callLe_powerOther T (h trivial)
          | int n =>
            rw [he] at h
            simp only
            split_ifs with hn
            · exact callLe_powerOther T (h hn)
            · exact OkLe.refl _
            · exact OkLe.refl _
    exact this _ he
  | integerPow y =>
    cases hf
    refine ⟨_, rfl, ?_⟩
    rcases ins with _ | ⟨a, _ | ⟨b, l⟩⟩ <;> try (cases he; done)
    simp only at he ⊢
    split_ifs at he ⊢ with hy
    · exact he
    · exact callLe_powerOther T (h (by omega)) _ he
  | add => cases hf; exact ⟨_, rfl, he⟩
  | sub => cases hf; exact ⟨_, rfl, he⟩
  | mul => cases hf; exact ⟨_, rfl, he⟩
  | neg => cases hf; exact ⟨_, rfl, he⟩
  | broadcastInDim s d => cases hf; exact ⟨_, rfl, he⟩
  | dotGeneral a b c d => cases hf; rw [hs] at he; exact ⟨_, rfl, he⟩
  | conv op => cases hf; rw [hs] at he; exact ⟨_, rfl, he⟩
  | _ => cases hf; rw [hs] at he; exact ⟨_, rfl, he⟩

/-- one equation, if the calls agree at the degree of the enclosure, and all calls in degree 0 agree -/
theorem callsLe_step {lib lib' : Lib K} (hs : lib.sem = lib'.sem) (hx : lib.expo = lib'.expo) {T T0 : TEA K}
    {propagate : Bool} {xs : List ℕ} {env env' : Env K} {eqn : Eqn K}
    (h : ∀ ins, eqn.invars.mapM (getInter env) = .ok ins → ins.mapM Inter.constantValue = none →
      CallsLe lib lib' T eqn.prim ins)
    (h0 : propagate = true → ∀ ins, CallsLe lib lib' T0 eqn.prim ins)
    (hr : step lib T T0 propagate xs env eqn = .ok env') : step lib' T T0 propagate xs env eqn = .ok env' := by
  unfold step at hr ⊢
  rw [py_bind_ok] at hr
  obtain ⟨ins, hi, hr⟩ := hr
  rw [hi, py_ok_bind]
  rw [py_bind_ok] at hr
  obtain ⟨outs, ho, hr⟩ := hr
  refine py_bind_ok.2 ⟨outs, ?_, hr⟩
  clear hr
  unfold eqnOutputs at ho ⊢
  cases hc : ins.mapM Inter.constantValue with
  | some vals => rw [hc] at ho; simp only at ho ⊢; rw [← hs]; exact ho
  | none =>
    rw [hc] at ho
    simp only at ho ⊢
    cases hf : pushforward lib T eqn.prim with
    | none => rw [hf] at ho; cases ho
    | some f =>
      rw [hf] at ho
      simp only [py_bind_ok] at ho
      obtain ⟨e, he, ho⟩ := ho
      obtain ⟨f', hf', he'⟩ := callsLe_push hs hx (h ins hi hc) hf he
      rw [hf']
      simp only [py_bind_ok]
      refine ⟨e, he', ?_⟩
      split_ifs at ho ⊢ with _ hpr
      · rw [py_bind_ok] at ho ⊢
        obtain ⟨r, hr, ho⟩ := ho
        refine ⟨r, ?_, ho⟩
        unfold outRegion at hr ⊢
        cases hg : pushforward lib T0 eqn.prim with
        | none => rw [hg] at hr; cases hr
        | some g =>
          rw [hg] at hr
          simp only [py_bind_ok] at hr
          obtain ⟨ins0, hi0, u, hu, hr⟩ := hr
          obtain ⟨g', hg', hu'⟩ := callsLe_push hs hx (h0 hpr ins0) hg hu
          rw [hg']
          simp only [py_bind_ok]
          exact ⟨ins0, hi0, u, hu', hr⟩
      · exact ho

end JB
end AB
