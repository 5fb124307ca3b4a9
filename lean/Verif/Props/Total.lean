/-
C53: `taylor_bounds` returns (/repo/autobound/jax/jax_bound.py:61-212).
-/
import Verif.Proofs.Total3

set_option linter.unusedSectionVars false

namespace AB
variable {K : Type} [Field K] [LinearOrder K] [IsStrictOrderedRing K]
open IA (repS)

namespace JB
open TEA Lax
variable {md : ℕ} {z : ND K}

theorem validateEnclosure_total {xs R : List ℕ} {e : Encl K} (h : VE xs R e) : validateEnclosure xs e = .ok () := by
  unfold validateEnclosure
  rw [if_pos]
  rw [List.all_eq_true]
  rintro ⟨i, c⟩ hic
  have hc := Poly.mem_enum.1 hic
  obtain ⟨-, B, hB, -⟩ := h i c hc
  unfold coeffShapeOk
  rw [beq_iff_eq]
  show c.shape.drop (c.ndim - i * xs.length) = TEA.rep i xs
  rw [Coef.ndim_def, hB]
  have : (B ++ repS i xs).length - i * xs.length = B.length := by simp
  rw [this, List.drop_left]
  rfl

/-- storing the outputs of an equation succeeds -/
theorem stores_total {xs : List ℕ} {vs : List ℤ} {outs : List (Inter K)} (hl : outs.length = vs.length) {env : Env K}
    (hval : ∀ vi ∈ vs.zip outs, vi.1 = -1 ∨ validateEnclosure xs vi.2.encl = .ok ())
    (hfresh : ∀ v ∈ vs, v ≠ -1 → env.lookup v = none) (hnd : (vs.filter (· ≠ -1)).Nodup) :
    ∃ env', (vs.zip outs).foldlM (storeOne xs) env = .ok env' ∧
      ∀ w, (env'.lookup w).isSome ↔ (env.lookup w).isSome ∨ (w ≠ -1 ∧ w ∈ vs) := by
  induction vs generalizing outs env with
  | nil => exact ⟨env, rfl, by simp⟩
  | cons v vs ih =>
    rcases outs with _ | ⟨o, outs⟩
    · simp at hl
    rw [List.zip_cons_cons] at hval ⊢
    have hv := hval (v, o) (by simp)
    have hval' : ∀ vi ∈ vs.zip outs, vi.1 = -1 ∨ validateEnclosure xs vi.2.encl = .ok () :=
      fun vi h => hval vi (List.mem_cons_of_mem _ h)
    have hl' : outs.length = vs.length := by simpa using hl
    by_cases h1 : v = -1
    · obtain ⟨env', e1, e2⟩ := ih hl' hval' (fun w hw => hfresh w (List.mem_cons_of_mem _ hw)) (by
        rw [List.filter_cons_of_neg (by simp [h1])] at hnd; exact hnd)
      refine ⟨env', ?_, fun w => ?_⟩
      · rw [List.foldlM_cons, storeOne, if_pos h1]
        exact e1
      · rw [e2, List.mem_cons]
        constructor
        · rintro (h | ⟨h, h'⟩)
          · exact Or.inl h
          · exact Or.inr ⟨h, Or.inr h'⟩
        · rintro (h | ⟨h, h' | h'⟩)
          · exact Or.inl h
          · exact absurd (h'.trans h1) h
          · exact Or.inr ⟨h, h'⟩
    · have hn := hfresh v (by simp) h1
      rw [List.filter_cons_of_pos (by simp [h1]), List.nodup_cons] at hnd
      have hok := hv.resolve_left h1
      obtain ⟨env', e1, e2⟩ := ih (env := (v, o) :: env) hl' hval' (by
        intro w hw hw1
        rw [List.lookup_cons]
        have : (w == v) = false := by
          rw [beq_eq_false_iff_ne]
          rintro rfl
          exact hnd.1 (List.mem_filter.2 ⟨hw, by simpa using hw1⟩)
        rw [this]
        exact hfresh w (List.mem_cons_of_mem _ hw) hw1) hnd.2
      refine ⟨env', ?_, fun w => ?_⟩
      · rw [List.foldlM_cons, storeOne, if_neg h1]
        simp only [hn, Option.isSome_none, Bool.false_eq_true, if_false, hok, py_ok_bind]
        exact e1
      · rw [e2, List.lookup_cons, List.mem_cons]
        by_cases hwv : (w == v) = true
        · rw [hwv]
          have : w = v := by simpa using hwv
          subst this
          simp [h1]
        · have hwv' : (w == v) = false := by simpa using hwv
          have : w ≠ v := by simpa using hwv
          rw [hwv']
          simp [this]

theorem lookup_mem {β : Type} {l : List (ℤ × β)} {v : ℤ} {b : β} (h : l.lookup v = some b) : (v, b) ∈ l := by
  induction l with
  | nil => simp at h
  | cons x l ih =>
    obtain ⟨w, c⟩ := x
    rw [List.lookup_cons] at h
    by_cases hw : (v == w) = true
    · rw [hw] at h
      cases h
      have : v = w := by simpa using hw
      rw [this]
      exact List.mem_cons_self
    · have hw' : (v == w) = false := by simpa using hw
      rw [hw'] at h
      exact List.mem_cons_of_mem _ (ih h)

/-- every variable that has a value has an enclosure -/
def Dom (env : Env K) (vals : Vals K) : Prop := ∀ v, (vals.lookup v).isSome → (env.lookup v).isSome

theorem getInters_total {env : Env K} {vals : Vals K} (h : Dom env vals) {atoms : List (Atom K)} {args : List (ND K)}
    (ha : atoms.mapM (getVal vals) = .ok args) : ∃ ins, atoms.mapM (getInter env) = .ok ins := by
  apply Poly.mapM_total
  intro a hm
  cases a with
  | lit b => exact ⟨_, rfl⟩
  | var v =>
    obtain ⟨k, hk⟩ := List.mem_iff_getElem?.1 hm
    obtain ⟨b, -, hb⟩ := (Poly.forall₂_getElem? (Poly.mapM_ok ha) k).2 _ hk
    unfold getVal at hb
    cases hl : vals.lookup v with
    | none => simp only [hl] at hb; cases hb
    | some b' =>
      obtain ⟨i, hi⟩ := Option.isSome_iff_exists.1 (h v (by rw [hl]; rfl))
      exact ⟨i, by simp only [getInter, hi]⟩

theorem storeVals_dom {l : List (ℤ × ND K)} {vals : Vals K} {w : ℤ} :
    ((l.foldl storeVal vals).lookup w).isSome → (vals.lookup w).isSome ∨ (w ≠ -1 ∧ w ∈ l.map Prod.fst) := by
  induction l generalizing vals with
  | nil => exact Or.inl
  | cons x l ih =>
    rw [List.foldl_cons]
    intro h
    rcases ih h with h | ⟨h, h'⟩
    · unfold storeVal at h
      by_cases hx : x.1 = -1
      · rw [if_pos hx] at h; exact Or.inl h
      · rw [if_neg hx, List.lookup_cons] at h
        by_cases hw : (w == x.1) = true
        · have : w = x.1 := by simpa using hw
          exact Or.inr ⟨by rw [this]; exact hx, by rw [this]; simp⟩
        · have hw' : (w == x.1) = false := by simpa using hw
          rw [hw'] at h
          exact Or.inl h
    · exact Or.inr ⟨h, by simp only [List.map_cons, List.mem_cons]; exact Or.inr h'⟩

theorem single_out {sem : Sem K} {p : Prim K} {args outs : List (ND K)} (h : p.bind sem args = .ok outs)
    (hp : arity p ≠ none) : ∃ y, outs = [y] := by
  unfold Prim.bind at h
  have hone : ∀ {r : Py (ND K)}, r.one = .ok outs → ∃ y, outs = [y] := fun h => by
    obtain ⟨y, -, rfl⟩ := one_ok h; exact ⟨y, rfl⟩
  rcases args with _ | ⟨a, _ | ⟨b, _ | ⟨c, l⟩⟩⟩ <;> cases p <;>
    first | exact absurd rfl hp | exact hone h | (cases h; done) | (cases h; exact ⟨_, rfl⟩) | skip
  rename_i name
  simp only [List.map_cons, List.map_nil, Prim.eval] at h
  split at h
  · cases h; exact ⟨_, rfl⟩
  · cases h

section
variable {lib : Lib K} {sem : Sem K} (hlib : LibSoundAt z lib sem) (harr : LibArr lib) {T T0 : TEA K} {lo hi : ND K}
  (hinit : TEA.init md lo hi = .ok T) (hinit0 : TEA.init 0 lo hi = .ok T0)
  (hz : (Coef.ivl lo hi).Contains z) (h0 : (Coef.ivl lo hi).Contains ⟨lo.shape, fun _ => 0⟩)
include hlib harr hinit hinit0 hz h0

/-- **One iteration of the loop over the equations returns.** -/
theorem step_total {propagate : Bool} (hprop : propagate = true → 1 ≤ md) {env : Env K} {vals vals' : Vals K}
    {eqn : Eqn K} (h : EnvOk md z env vals) (hA : EnvArr md env) (hD : Dom env vals)
    (htr : propagate = true → ∀ v i, env.lookup v = some i → ∃ r, i.tr = some r)
    (hok : ∀ ins, eqn.invars.mapM (getInter env) = .ok ins → ins.mapM Inter.constantValue = none →
      StepOk z.shape eqn.prim ins)
    (hret : ∀ ins, eqn.invars.mapM (getInter env) = .ok ins →
      match ins.mapM Inter.constantValue with
      | none => StepReturns lib T z.shape eqn.prim ins ∧
          (propagate = true → RegionReturns lib T T0 z.shape eqn.prim ins)
      | some vals => ∃ outs, eqn.prim.bind lib.sem vals = .ok outs)
    (hlits : ∀ a, Atom.lit a ∈ eqn.invars → ∃ I, ValidIdx a.shape I)
    (hused : propagate = true → -1 ∉ eqn.outvars)
    (hfresh : ∀ v ∈ eqn.outvars, v ≠ -1 → env.lookup v = none) (hnd : (eqn.outvars.filter (· ≠ -1)).Nodup)
    (hne : NonEmptyVals vals') (hev : evalEqn sem vals eqn = .ok vals') :
    ∃ env', step lib T T0 propagate z.shape env eqn = .ok env' ∧ Dom env' vals' ∧
      ∀ w, (env'.lookup w).isSome ↔ (env.lookup w).isSome ∨ (w ≠ -1 ∧ w ∈ eqn.outvars) := by
  obtain ⟨hmd, -, -, hzs⟩ := unpack hinit hz
  simp only [evalEqn, py_bind_ok] at hev
  obtain ⟨args, hargs, ys, hys, hev⟩ := hev
  obtain ⟨ins, hins⟩ := getInters_total hD hargs
  obtain ⟨args', hargs', hF⟩ := getInters_ok h hins
  rw [hargs] at hargs'
  cases hargs'
  by_cases hylen : ys.length ≠ eqn.outvars.length
  · rw [if_pos hylen] at hev; cases hev
  rw [if_neg hylen] at hev
  rw [not_not] at hylen
  cases hev
  -- the arguments are not empty
  have hvals : ∀ v ∈ args, ∃ I, ValidIdx v.shape I := by
    intro v hv
    obtain ⟨k, hk⟩ := List.mem_iff_getElem?.1 hv
    obtain ⟨a, hka, ha⟩ := (Poly.forall₂_getElem? (Poly.mapM_ok hargs) k).1 v hk
    cases a with
    | lit b => cases ha; exact hlits _ (List.mem_of_getElem? hka)
    | var w =>
      unfold getVal at ha
      cases hl : vals.lookup w with
      | none => simp only [hl] at ha; cases ha
      | some b =>
        simp only [hl] at ha
        cases ha
        exact hne _ (mem_storeVals.1 (lookup_mem hl))
  -- what the outputs look like
  suffices H : ∃ outs, eqnOutputs lib T T0 propagate eqn ins = .ok outs ∧ outs.length = eqn.outvars.length ∧
      ∀ vi ∈ eqn.outvars.zip outs, vi.1 = -1 ∨ validateEnclosure z.shape vi.2.encl = .ok () by
    obtain ⟨outs, e1, e2, e3⟩ := H
    obtain ⟨env', e4, e5⟩ := stores_total e2 e3 hfresh hnd
    refine ⟨env', ?_, ?_, e5⟩
    · simp only [step, hins, e1, py_ok_bind]
      rw [if_neg (by simp [e2])]
      exact e4
    · intro v hv
      rw [e5]
      rcases storeVals_dom hv with h | ⟨h, h'⟩
      · exact Or.inl (hD v h)
      · refine Or.inr ⟨h, ?_⟩
        rw [List.map_fst_zip (by omega)] at h'
        exact h'
  have hr := hret ins hins
  cases hcv : ins.mapM Inter.constantValue with
  | some cs =>
    rw [hcv] at hr
    obtain ⟨rs, hrs⟩ := hr
    have hsame := consts_same hF hcv
    have hrs' := bind_okLe hlib _ _ _ hrs
    have hrs2 : eqn.prim.bind sem args = .ok rs := by
      unfold Prim.bind at hrs' ⊢
      rwa [hsame] at hrs'
    rw [hys] at hrs2
    cases hrs2
    refine ⟨ys.map constantInter, ?_, by simpa using hylen, ?_⟩
    · unfold eqnOutputs
      rw [hcv]
      simp only [hrs, py_ok_bind]
      rfl
    · rintro ⟨v, i⟩ hvi
      right
      have := (List.of_mem_zip hvi).2
      obtain ⟨y, -, rfl⟩ := List.mem_map.1 this
      have := (const_ok md z y).encl
      exact validateEnclosure_total (this.encl.at this.wf (ble_refl _)).1
  | none =>
    rw [hcv] at hr
    obtain ⟨hr1, hr2⟩ := hr
    have hstep := hok ins hins hcv
    have hAi : ∀ i ∈ ins, ArrBelow md i.encl := by
      intro i hi
      obtain ⟨k, hk⟩ := List.mem_iff_getElem?.1 hi
      obtain ⟨a, -, ha⟩ := (Poly.forall₂_getElem? (Poly.mapM_ok hins) k).1 i hk
      exact arr_getInter hA ha
    obtain ⟨f, e, hf, he⟩ := push_total hlib hinit hz h0 hF hstep hr1 hvals hAi hys
    have hAe := arr_push harr hf (by rw [hmd]; exact hAi) he
    rw [hmd] at hAe
    obtain ⟨y, rfl⟩ := single_out hys (by
      intro hn
      cases hp : eqn.prim <;> rw [hp] at hn <;> first | (cases hn; done) | skip
      rw [hp] at hr1
      simp [StepReturns] at hr1)
    obtain ⟨v, hv⟩ := List.length_eq_one_iff.1 hylen.symm
    have sound : v ≠ -1 → (∃ I, ValidIdx y.shape I) ∧ SoundEncl e z y := by
      intro hv1
      have hyne : ∃ I, ValidIdx y.shape I := hne (v, y) (mem_storeVals.2 (by rw [hv]; simp) hv1)
      obtain ⟨y', hy', q1, q2⟩ := push_sound hlib hinit hz h0 hf hF hstep (by
        intro w hw
        rw [List.mem_singleton] at hw
        subst hw
        exact hyne) hys he
      cases hy'
      exact ⟨hyne, q1⟩
    have hval : ∀ tr : Option (Coef K), ∀ vi ∈ eqn.outvars.zip [(⟨e, tr⟩ : Inter K)],
        vi.1 = -1 ∨ validateEnclosure z.shape vi.2.encl = .ok () := by
      intro tr vi hvi
      rw [hv] at hvi
      simp only [List.zip_cons_cons, List.zip_nil_right, List.mem_singleton] at hvi
      subst hvi
      by_cases hv1 : v = -1
      · exact Or.inl hv1
      · right
        obtain ⟨-, hs⟩ := sound hv1
        exact validateEnclosure_total (hs.encl.at hs.wf (ble_refl _)).1
    have hlen1 : ¬eqn.outvars.length ≠ 1 := by rw [hv]; simp
    cases hpr : propagate with
    | false =>
      refine ⟨[⟨e, none⟩], ?_, by rw [hv]; rfl, hval none⟩
      unfold eqnOutputs
      rw [hcv]
      simp only [hf, he, py_ok_bind, if_neg hlen1]
      rfl
    | true =>
      have hv1 : v ≠ -1 := by
        rintro rfl
        exact hused hpr (by rw [hv]; simp)
      obtain ⟨hyne, hs⟩ := sound hv1
      obtain ⟨r, hrg⟩ := outRegion_total hlib hinit hz h0 hinit0 (hprop hpr) hF hstep (by
        intro i hi
        obtain ⟨k, hk⟩ := List.mem_iff_getElem?.1 hi
        obtain ⟨a, -, ha⟩ := (Poly.forall₂_getElem? (Poly.mapM_ok hins) k).1 i hk
        cases a with
        | lit b => cases ha; rfl
        | var w =>
          unfold getInter at ha
          cases hl : env.lookup w with
          | none => simp only [hl] at ha; cases ha
          | some i' =>
            simp only [hl] at ha
            cases ha
            obtain ⟨r, hr⟩ := htr hpr w _ hl
            rw [hr]; rfl) hvals hyne hys hf he hs hAe (hr2 hpr)
      refine ⟨[⟨e, some r⟩], ?_, by rw [hv]; rfl, hval _⟩
      unfold eqnOutputs
      rw [hcv]
      simp only [hf, he, py_ok_bind, if_neg hlen1, if_true, hrg]
      rfl

/-- **The loop over the equations returns.** -/
theorem run_total {propagate : Bool} (hprop : propagate = true → 1 ≤ md) {eqns : List (Eqn K)} {env : Env K}
    {vals vals' : Vals K} (h : EnvOk md z env vals) (hA : EnvArr md env) (hD : Dom env vals)
    (htr : propagate = true → ∀ v i, env.lookup v = some i → ∃ r, i.tr = some r)
    (hok : RunOk lib T T0 propagate z.shape env eqns) (hret : RunReturns lib T T0 propagate z.shape env eqns)
    (hlits : ∀ eqn ∈ eqns, ∀ a, Atom.lit a ∈ eqn.invars → ∃ I, ValidIdx a.shape I)
    (hused : propagate = true → ∀ eqn ∈ eqns, -1 ∉ eqn.outvars)
    (hfresh : ∀ v ∈ eqns.flatMap Eqn.outvars, v ≠ -1 → env.lookup v = none)
    (hnd : ((eqns.flatMap Eqn.outvars).filter (· ≠ -1)).Nodup)
    (hne : NonEmptyVals vals') (hev : eqns.foldlM (evalEqn sem) vals = .ok vals') :
    ∃ env', eqns.foldlM (step lib T T0 propagate z.shape) env = .ok env' ∧ Dom env' vals' := by
  obtain ⟨hmd, -, -, hzs⟩ := unpack hinit hz
  induction eqns generalizing env vals with
  | nil => cases hev; exact ⟨env, rfl, hD⟩
  | cons eqn eqns ih =>
    rw [List.foldlM_cons, py_bind_ok] at hev
    obtain ⟨vals1, he1, he2⟩ := hev
    obtain ⟨k1, k2⟩ := hok
    obtain ⟨r1, r2⟩ := hret
    have hsub : ∀ va ∈ vals1, va ∈ vals' := fun va hva => evalEqns_mem he2 hva
    have hne1 : NonEmptyVals vals1 := fun va hva => hne va (hsub va hva)
    rw [List.flatMap_cons] at hfresh hnd
    rw [List.filter_append, List.nodup_append] at hnd
    obtain ⟨n1, n2, n3⟩ := hnd
    obtain ⟨env1, hs1, hD1, hdom⟩ := step_total hlib harr hinit hinit0 hz h0 hprop h hA hD htr k1 r1
      (hlits eqn (by simp)) (fun hp => hused hp eqn (by simp))
      (fun v hv => hfresh v (List.mem_append_left _ hv)) n1 hne1 he1
    have h1 := step_ok hlib hinit hinit0 hz h0 hprop h k1 hne1 he1 hs1
    have hA1 : EnvArr md env1 := by
      have := arr_step harr (T := T) (by rw [hmd]; exact hA) hs1
      rwa [hmd] at this
    obtain ⟨env', e1, e2⟩ := ih h1 hA1 hD1 (by
        intro hp
        subst hp
        exact regions_step (htr rfl) hs1) (k2 env1 hs1) (r2 env1 hs1)
      (fun q hq => hlits q (List.mem_cons_of_mem _ hq)) (fun hp q hq => hused hp q (List.mem_cons_of_mem _ hq)) (by
        intro v hv hv1
        by_contra hc
        have : (env1.lookup v).isSome := by
          cases hl : env1.lookup v with
          | none => exact absurd hl hc
          | some _ => rfl
        rcases (hdom v).1 this with h | ⟨-, h⟩
        · rw [hfresh v (List.mem_append_right _ hv) hv1] at h
          simp at h
        · exact n3 v (List.mem_filter.2 ⟨h, by simpa using hv1⟩) v (List.mem_filter.2 ⟨hv, by simpa using hv1⟩) rfl) n2 he2
    refine ⟨env', ?_, e2⟩
    rw [List.foldlM_cons, hs1, py_ok_bind]
    exact e1

end

theorem lookup_zip_isSome {β : Type} {vs : List ℤ} {cs : List β} (hl : cs.length = vs.length) {w : ℤ} :
    ((vs.zip cs).lookup w).isSome ↔ w ∈ vs := by
  induction vs generalizing cs with
  | nil => simp
  | cons v vs ih =>
    rcases cs with _ | ⟨c, cs⟩
    · simp at hl
    rw [List.zip_cons_cons, List.lookup_cons, List.mem_cons]
    by_cases hw : (w == v) = true
    · rw [hw]
      have : w = v := by simpa using hw
      simp [this]
    · have hw' : (w == v) = false := by simpa using hw
      have : w ≠ v := by simpa using hw
      rw [hw']
      simp only [this, false_or]
      exact ih (by simpa using hl)

/-- `C53_returns`, with the tables right at the point considered only. -/
theorem returns_at {lib : Lib K} {sem : Sem K} (harr : LibArr lib) {jaxpr : Jaxpr K}
    {consts : List (ND K)} {maxDegree : ℤ} {propagate : Bool} {x0 lo hi x y : ND K}
    (hmd : 0 ≤ maxDegree) (hlib : ∀ z, ND.map2 (· - ·) x x0 = .ok z → LibSoundAt z lib sem)
    (hlh : lo.shape = hi.shape) (hrank : x0.shape.length ≤ 1)
    (h0 : (Coef.ivl lo hi).Contains x0) (hx : (Coef.ivl lo hi).Contains x)
    (hwf : WellFormedProgram jaxpr consts)
    (hused : propagate = true → ∀ eqn ∈ jaxpr.eqns, -1 ∉ eqn.outvars)
    (hok : TaylorBoundsOk lib jaxpr consts maxDegree propagate x0 lo hi)
    (hret : TaylorBoundsReturns lib jaxpr consts maxDegree propagate x0 lo hi)
    {vals : Vals K} (hev : evalEnv sem jaxpr consts x = .ok vals) (hne : NonEmptyVals vals)
    (hy : evalJaxpr sem jaxpr consts x = .ok y) :
    ∃ bnd, taylorBounds lib jaxpr consts maxDegree propagate x0 lo hi = .ok bnd := by
  have hsh : lo.shape = x0.shape := h0.1.symm
  -- the shifted trust region
  obtain ⟨tlo, htlo⟩ : ∃ t, ND.map2 (· - ·) lo x0 = .ok t ∧ t.shape = x0.shape :=
    ⟨_, ND.map2_same (fun a b : K => a - b) hsh, hsh⟩
  obtain ⟨thi, hthi⟩ : ∃ t, ND.map2 (· - ·) hi x0 = .ok t ∧ t.shape = x0.shape :=
    ⟨_, ND.map2_same (fun a b : K => a - b) (hlh.symm.trans hsh), hlh.symm.trans hsh⟩
  have ht : IA.subtract (.ivl lo hi) (.arr x0) = .ok (.ivl tlo thi) := by
    simp only [IA.subtract, htlo.1, hthi.1, py_ok_bind]
    rfl
  have hti : ∀ d, ∃ T, TEA.init d tlo thi = .ok T := by
    intro d
    unfold TEA.init
    rw [if_neg (by rw [htlo.2, hthi.2]; simp)]
    exact ⟨_, rfl⟩
  obtain ⟨T, hT⟩ := hti maxDegree.toNat
  obtain ⟨T0, hT0⟩ := hti 0
  -- the initial environment
  have hid : ∃ identity, identityCoef x0 = .ok identity := by
    unfold identityCoef
    rcases hs : x0.shape with _ | ⟨n, _ | ⟨m, l⟩⟩
    · exact ⟨_, rfl⟩
    · exact ⟨_, rfl⟩
    · rw [hs] at hrank; simp at hrank
  obtain ⟨identity, hid⟩ := hid
  obtain ⟨v, hv⟩ := List.length_eq_one_iff.1 hwf.input
  have henv : ∃ env, initEnv (propagate && (maxDegree != 0)) maxDegree.toNat jaxpr consts x0 lo hi = .ok env := by
    unfold initEnv
    rw [hid, py_ok_bind]
    simp only
    rw [if_neg (by simp [hwf.consts]), hv]
    exact ⟨_, rfl⟩
  obtain ⟨env, henv⟩ := henv
  obtain ⟨z, hz, hzs, hzc⟩ := region_shift hlh h0 ht hx
  obtain ⟨z', hz', hzs', hzc'⟩ := region_shift hlh h0 ht h0
  have hEnv := initEnv_ok hmd hlh h0 hx hz henv
  have hzero : (Coef.ivl tlo thi).Contains ⟨tlo.shape, fun _ => 0⟩ := by
    refine ⟨rfl, fun I hI => ?_⟩
    have hs : z'.shape = tlo.shape := hzc'.1
    have := hzc'.2 I hI
    rw [map2_at hz' (hs ▸ hI), sub_self] at this
    exact this
  have hok' := hok tlo thi T T0 env ht hT hT0 henv
  have hret' := hret tlo thi T T0 env ht hT hT0 henv
  have hTm : T.maxDegree = maxDegree.toNat := by
    unfold TEA.init at hT
    split_ifs at hT
    cases hT; rfl
  obtain ⟨identity', v', hid', hcl, hv', henv'⟩ := initEnv_inv henv
  have hA : EnvArr maxDegree.toNat env := by
    subst henv'
    intro w i hw
    rw [List.lookup_cons] at hw
    split at hw
    · cases hw
      simp only
      split_ifs with hm
      · intro i c hc _
        match i with
        | 0 => cases hc; trivial
        | 1 => cases hc; trivial
        | i + 2 => simp at hc
      · intro i c hc hi
        omega
    · obtain ⟨a, -, rfl⟩ := lookup_zip_const hcl hw
      exact arr_const _ a
  have hdom : ∀ w, (env.lookup w).isSome ↔ w ∈ jaxpr.invars ++ jaxpr.constvars := by
    intro w
    rw [henv', hv', List.lookup_cons, List.singleton_append, List.mem_cons]
    by_cases hw : (w == v') = true
    · rw [hw]
      have : w = v' := by simpa using hw
      simp [this]
    · have hw' : (w == v') = false := by simpa using hw
      have : w ≠ v' := by simpa using hw
      rw [hw']
      simp only [this, false_or]
      exact lookup_zip_isSome (by simpa using hcl)
  have hD : Dom env (evalInit jaxpr consts x) := by
    intro w hw
    rw [hdom]
    unfold evalInit at hw
    rw [hv', List.map_cons, List.map_nil, List.singleton_append, List.lookup_cons] at hw
    rw [hv', List.singleton_append, List.mem_cons]
    by_cases hwv : (w == v') = true
    · exact Or.inl (by simpa using hwv)
    · have hw' : (w == v') = false := by simpa using hwv
      rw [hw'] at hw
      exact Or.inr ((lookup_zip_isSome hcl).1 hw)
  have htr : (propagate && (maxDegree != 0)) = true → ∀ w i, env.lookup w = some i → ∃ r, i.tr = some r := by
    intro hp w i hw
    rw [henv', List.lookup_cons] at hw
    split at hw
    · cases hw
      exact ⟨_, if_pos hp⟩
    · obtain ⟨a, -, rfl⟩ := lookup_zip_const hcl hw
      exact ⟨_, rfl⟩
  have honce := List.nodup_append.1 hwf.once
  rw [← hzs] at hok' hret'
  obtain ⟨env1, hrun, hD1⟩ := run_total (hlib z hz) harr hT hT0 hzc hzero (by
      intro hp
      have : maxDegree ≠ 0 := by
        intro h
        subst h
        simp at hp
      omega) hEnv hA hD htr hok' hret' hwf.lits (fun hp => hused (by
        rw [Bool.and_eq_true] at hp; exact hp.1)) (by
      intro w hw hw1
      by_contra hc
      have : (env.lookup w).isSome := by
        cases hl : env.lookup w with
        | none => exact absurd hl hc
        | some _ => rfl
      exact honce.2.2 w ((hdom w).1 this) w (List.mem_filter.2 ⟨hw, by simpa using hw1⟩) rfl) honce.2.1 hne hev
  rw [hzs] at hrun
  have htaylor : taylorEnv lib jaxpr consts maxDegree propagate x0 lo hi = .ok env1 := by
    unfold taylorEnv
    rw [if_neg (by omega)]
    simp only [ht, hT, hT0, henv, py_ok_bind]
    exact hrun
  obtain ⟨o, ho⟩ := List.length_eq_one_iff.1 hwf.output
  simp only [evalJaxpr, hev, py_ok_bind, ho] at hy
  have hout : ∃ out, getInter env1 o = .ok out := by
    cases o with
    | lit b => exact ⟨_, rfl⟩
    | var w =>
      unfold getVal at hy
      cases hl : vals.lookup w with
      | none => simp only [hl] at hy; cases hy
      | some b =>
        obtain ⟨i, hi⟩ := Option.isSome_iff_exists.1 (hD1 w (by rw [hl]; rfl))
        exact ⟨i, by simp only [getInter, hi]⟩
  obtain ⟨out, hout⟩ := hout
  refine ⟨⟨x0, lo, hi, out.encl⟩, ?_⟩
  unfold taylorBounds
  rw [htaylor, py_ok_bind]
  simp only [ho, hout, py_ok_bind]
  rfl

/-- **C53 (`taylor_bounds` returns).** Let the tables be right (`LibSound`, `LibArr`: enclosure generators are
sound, and return arrays below the requested degree), let the Jaxpr be well formed with one input of rank at most
1 and one output, and let the evaluation of `f` at some point `x` of the trust region succeed.  If every equation
meets the conditions of C42 (`TaylorBoundsOk`) and those under which its pushforward function cannot raise
(`TaylorBoundsReturns`), then `taylor_bounds(f, max_degree, propagate)(x0, (lo, hi))` returns. -/
theorem C53_returns {lib : Lib K} {sem : Sem K} (hlib : LibSound lib sem) (harr : LibArr lib) {jaxpr : Jaxpr K}
    {consts : List (ND K)} {maxDegree : ℤ} {propagate : Bool} {x0 lo hi x y : ND K}
    (hmd : 0 ≤ maxDegree) (hlh : lo.shape = hi.shape) (hrank : x0.shape.length ≤ 1)
    (h0 : (Coef.ivl lo hi).Contains x0) (hx : (Coef.ivl lo hi).Contains x)
    (hwf : WellFormedProgram jaxpr consts)
    (hused : propagate = true → ∀ eqn ∈ jaxpr.eqns, -1 ∉ eqn.outvars)
    (hok : TaylorBoundsOk lib jaxpr consts maxDegree propagate x0 lo hi)
    (hret : TaylorBoundsReturns lib jaxpr consts maxDegree propagate x0 lo hi)
    {vals : Vals K} (hev : evalEnv sem jaxpr consts x = .ok vals) (hne : NonEmptyVals vals)
    (hy : evalJaxpr sem jaxpr consts x = .ok y) :
    ∃ bnd, taylorBounds lib jaxpr consts maxDegree propagate x0 lo hi = .ok bnd :=
  returns_at harr hmd (fun z _ => hlib.at z) hlh hrank h0 hx hwf hused hok hret hev hne hy

/-- **C53 (total correctness).** Under the same hypotheses, the bounds that are returned can be evaluated at every
point `x'` of the trust region at which `f` can be evaluated, and contain `f(x')`. -/
theorem C53_total_correctness {lib : Lib K} {sem : Sem K} (hlib : LibSound lib sem) (harr : LibArr lib)
    {jaxpr : Jaxpr K} {consts : List (ND K)} {maxDegree : ℤ} {propagate : Bool} {x0 lo hi x y : ND K}
    (hmd : 0 ≤ maxDegree) (hlh : lo.shape = hi.shape) (hrank : x0.shape.length ≤ 1)
    (h0 : (Coef.ivl lo hi).Contains x0) (hx : (Coef.ivl lo hi).Contains x)
    (hwf : WellFormedProgram jaxpr consts)
    (hused : propagate = true → ∀ eqn ∈ jaxpr.eqns, -1 ∉ eqn.outvars)
    (hok : TaylorBoundsOk lib jaxpr consts maxDegree propagate x0 lo hi)
    (hret : TaylorBoundsReturns lib jaxpr consts maxDegree propagate x0 lo hi)
    {vals : Vals K} (hev : evalEnv sem jaxpr consts x = .ok vals) (hne : NonEmptyVals vals)
    (hy : evalJaxpr sem jaxpr consts x = .ok y) :
    ∃ bnd, taylorBounds lib jaxpr consts maxDegree propagate x0 lo hi = .ok bnd ∧
      ∀ x' y' vals', (Coef.ivl lo hi).Contains x' → evalEnv sem jaxpr consts x' = .ok vals' → NonEmptyVals vals' →
        evalJaxpr sem jaxpr consts x' = .ok y' → ∃ r, bnd.call x' = .ok r ∧ r.Contains y' := by
  obtain ⟨bnd, hb⟩ := C53_returns hlib harr hmd hlh hrank h0 hx hwf hused hok hret hev hne hy
  exact ⟨bnd, hb, fun x' y' vals' hx' hev' hne' hy' => C42_taylor_bounds hlib hlh h0 hx' hb hok hev' hne' hy'⟩

end JB
end AB
