/-
C73: soundness of `taylor_bounds` with the code's own tables, from a condition on the values of `f` over the trust region.
-/
import Verif.Proofs.Fat
import Verif.Props.AtRef
import Verif.Props.Degree0

set_option linter.unusedSectionVars false

namespace AB
open PE EF Set
namespace JB
open TEA

/-- the ends of the region are not capped -/
def NC (sp : Prop) (x0 : ND ℝ) (tr : ND ℝ × ND ℝ) (d : ℕ) : Prop :=
  ∀ R, bshape x0.shape tr.1.shape = some R → ∀ I, ValidIdx R I →
    NotCapped (x0.bget I) d (tr.1.bget I) ∧ NotCapped (x0.bget I) d (tr.2.bget I) ∧
    (sp → d = 2 → NotCapped (x0.bget I) 2 (clip (-x0.bget I) (tr.1.bget I) (tr.2.bget I)))

theorem nc_zero (sp : Prop) (x0 : ND ℝ) (tr : ND ℝ × ND ℝ) : NC sp x0 tr 0 := by
  intro R _ I _
  refine ⟨Or.inr ?_, Or.inr ?_, fun _ h => by omega⟩ <;> rw [pow_zero] <;> norm_num

theorem guard_strengthen {ok ok' : ℝ → ℝ → ℝ → ℕ → Prop} {g : Generator ℝ} {sp : Prop} {x0 : ND ℝ} {tr : ND ℝ × ND ℝ}
    {d : ℕ} (hnc : NC sp x0 tr d)
    (h : ∀ x a b, NotCapped x d a → NotCapped x d b → (sp → d = 2 → NotCapped x 2 (clip (-x) a b)) → ok x a b d →
      ok' x a b d) : OkLe (guardGen ok g x0 tr d) (guardGen ok' g x0 tr d) := by
  intro e he
  obtain ⟨h1, h2⟩ := guardGen_ok he
  unfold guardGen
  rw [if_pos (fun R hR I hI => h _ _ _ (hnc R hR I hI).1 (hnc R hR I hI).2.1 (hnc R hR I hI).2.2 (h1 R hR I hI))]
  exact h2

theorem builtin_strengthen {n : FName} {d : ℕ} {x a b : ℝ} (h1 : NotCapped x d a) (h2 : NotCapped x d b)
    (h3 : n = .softplus → d = 2 → NotCapped x 2 (clip (-x) a b)) (h : BuiltinTable n x a b d) :
    BuiltinRegion n x a b d := by
  refine ⟨h1, h2, ?_⟩
  cases n with
  | softplus =>
    rcases h with h | h | h
    · exact Or.inl h
    · exact Or.inr (Or.inl ⟨h, h3 rfl h⟩)
    · exact Or.inr (Or.inr h)
  | _ => exact h

theorem table_gen (name : String) : (tableLib.gen name = none ∧ safeLib.gen name = none) ∨
    ∃ g g', tableLib.gen name = some g ∧ safeLib.gen name = some g' ∧
      ∀ x0 tr d, NC (builtinName name = some .softplus) x0 tr d → OkLe (g x0 tr d) (g' x0 tr d) := by
  cases hn : builtinName name with
  | some b =>
    refine Or.inr ⟨_, _, by simp only [tableLib, hn]; rfl, by simp only [safeLib, hn]; rfl, fun x0 tr d hnc => ?_⟩
    exact guard_strengthen hnc fun x a b' h1 h2 h3 h => builtin_strengthen h1 h2 (fun h => h3 (by rw [h])) h
  | none =>
    cases hq : rootExponent name with
    | none => exact Or.inl ⟨by simp only [tableLib, hn, hq]; rfl, by simp only [safeLib, hn, hq]; rfl⟩
    | some q =>
      refine Or.inr ⟨_, _, by simp only [tableLib, hn, hq]; rfl, by simp only [safeLib, hn, hq]; rfl, fun x0 tr d hnc => ?_⟩
      exact guard_strengthen hnc fun x a b' h1 h2 _ h => ⟨h.1, h.2, h1, h2⟩

theorem table_pow (p : Expo ℝ) {sp : Prop} {x0 : ND ℝ} {tr : ND ℝ × ND ℝ} {d : ℕ} (hnc : NC sp x0 tr d) :
    OkLe (tableLib.powGen p x0 tr d) (safeLib.powGen p x0 tr d) :=
  guard_strengthen hnc fun _ _ _ h1 h2 _ h => ⟨h.1, h.2, h1, h2⟩

/-- the call for the argument `arg` meets `NC` -/
def CallNC (sp : Prop) (T : TEA ℝ) (arg : Encl ℝ) (tr : Option (Coef ℝ)) : Prop :=
  ∀ r c x0, T.argRegion arg tr = .ok r → arg[0]? = some c → T.expansionPoint c = .ok x0 →
    NC sp x0 (toInterval r) T.maxDegree

theorem callsLe_of {T : TEA ℝ} {p : Prim ℝ} {ins : List (Inter ℝ)}
    (h : ∀ i : Inter ℝ, curvedArg p ins = some i →
      CallNC (IsSoftplus p) T i.encl none ∧ CallNC (IsSoftplus p) T i.encl i.tr) :
    CallsLe tableLib safeLib T p ins := by
  cases p with
  | elementwise n =>
    rcases ins with _ | ⟨a, _ | ⟨b, l⟩⟩ <;> try trivial
    rcases table_gen n with h1 | ⟨g, g', h1, h2, h3⟩
    · exact Or.inl h1
    · exact Or.inr ⟨g, g', h1, h2, fun r c x0 hr hc hx => h3 _ _ _ ((h a rfl).2 r c x0 hr hc hx)⟩
  | div =>
    rcases ins with _ | ⟨a, _ | ⟨b, _ | ⟨c, l⟩⟩⟩ <;> try trivial
    exact fun r c x0 hr hc hx => table_pow _ ((h b rfl).1 r c x0 hr hc hx)
  | integerPow y =>
    rcases ins with _ | ⟨a, _ | ⟨b, l⟩⟩ <;> try trivial
    exact fun hy r c x0 hr hc hx => table_pow _ ((h a (by simp only [curvedArg, if_pos hy])).1 r c x0 hr hc hx)
  | pow =>
    rcases ins with _ | ⟨a, _ | ⟨b, _ | ⟨c, l⟩⟩⟩ <;> try trivial
    exact fun v _ _ _ r c x0 hr hc hx => table_pow _ ((h a rfl).1 r c x0 hr hc hx)
  | _ => trivial

theorem callsLe_zero {T0 : TEA ℝ} (h : T0.maxDegree = 0) (p : Prim ℝ) (ins : List (Inter ℝ)) :
    CallsLe tableLib safeLib T0 p ins :=
  callsLe_of fun i _ => ⟨fun r c x0 _ _ _ => by rw [h]; exact nc_zero _ _ _, fun r c x0 _ _ _ => by rw [h]; exact nc_zero _ _ _⟩

theorem curvedArg_mapM {K α β : Type} {p : Prim K} {f : α → Py β} {l : List α} {l' : List β} {b : β}
    (h : l.mapM f = .ok l') (hc : curvedArg p l' = some b) : ∃ a, curvedArg p l = some a ∧ f a = .ok b := by
  have hF := Poly.mapM_ok h
  clear h
  rcases hF with _ | ⟨h1, _ | ⟨h2, _ | ⟨h3, h4⟩⟩⟩
  · cases p <;> cases hc
  · cases p <;> first | (cases hc; done) | skip
    · rename_i y
      simp only [curvedArg] at hc ⊢
      split_ifs at hc ⊢
      cases hc
      exact ⟨_, rfl, h1⟩
    · cases hc
      exact ⟨_, rfl, h1⟩
  · cases p <;> first | (cases hc; done) | skip
    · cases hc; exact ⟨_, rfl, h2⟩
    · cases hc; exact ⟨_, rfl, h1⟩
  · cases p <;> cases hc

/-! ### the region of an argument -/

/-- the region that `get_elementwise_fun` uses contains all values of the argument -/
theorem region_mem {md : ℕ} {T : TEA ℝ} {tlo thi z : ND ℝ} (hinit : TEA.init md tlo thi = .ok T)
    (hz : (Coef.ivl tlo thi).Contains z) {i : Inter ℝ} {v : ND ℝ} (hi : InterOk md z i v) {tr : Option (Coef ℝ)}
    (ht : tr = none ∨ tr = i.tr) {r : Coef ℝ} (hr : T.argRegion i.encl tr = .ok r) :
    ble r.shape v.shape ∧ r.WF ∧ ∀ I, ValidIdx v.shape I → r.Mem I (v.get I) := by
  have hTR : T.trustRegion = .ivl tlo thi := by rw [(shape_of_init hinit).1]; rfl
  have hlh : tlo.shape = thi.shape := by obtain ⟨rfl, h⟩ := shape_of_init hinit; exact h
  cases tr with
  | none =>
    simp only [argRegion, py_bind_ok] at hr
    obtain ⟨out, ho, hr⟩ := hr
    have : out = [r] := by
      unfold encloseEnclosure at ho
      split_ifs at ho with hl
      · cases ho
        have hne := hi.encl.ne
        revert hr hl hne
        generalize i.encl = e
        intro hl hne hr
        rcases e with _ | ⟨c, _ | ⟨d, l⟩⟩
        · exact absurd rfl hr
        · cases hne; rfl
        · simp at hl
      · simp only [List.drop_zero, List.take_zero, List.nil_append, py_bind_ok, py_pure] at ho
        obtain ⟨c, -, rfl⟩ := ho
        cases hr; rfl
    subst this
    rw [hTR] at ho
    obtain ⟨h1, h2, h3⟩ := region_covers hi.encl hlh hz ho
    exact ⟨h2, h1, h3⟩
  | some r' =>
    cases hr
    rcases ht with ht | ht
    · cases ht
    obtain ⟨h1, h2, h3, -, -⟩ := hi.reg _ ht.symm
    have hw := Coef.sameShape_iff.1 h1
    refine ⟨by rw [h2]; exact ble_refl _, hw, fun I hI => ?_⟩
    refine (Coef.atIdx_bidx hw).1 ?_
    rw [h2, bidx_valid hI]
    exact h3 I hI

/-- the constant term is the value at the reference point -/
theorem head_value {md : ℕ} {z : ND ℝ} (hz : z.get = fun _ => 0) {i : Inter ℝ} {v a : ND ℝ} (hi : InterOk md z i v)
    (ha : i.encl[0]? = some (.arr a)) : a.shape = v.shape ∧ ∀ I, ValidIdx v.shape I → a.get I = v.get I := by
  refine ⟨hi.encl.head _ ha, fun I hI => ?_⟩
  obtain ⟨hV, hi'⟩ := (encloses_iff hi.encl.wf).1 hi.encl.encl
  obtain ⟨w, hw, e⟩ := hi' I hI
  rw [hz, selVal_zero_point _ _ (fun h => hi.encl.ne (List.length_eq_zero_iff.1 h))] at e
  have hm := (hw 0).1 _ ha [] ValidIdx.nil
  rw [List.append_nil, Coef.mem_arr, ← e] at hm
  rw [hm]
  have hs : a.shape = v.shape := hi.encl.head _ ha
  rw [ND.bget_valid _ (hs ▸ hI)]

/-- two points at distance `η` on both sides of the expansion point -/
theorem nc_of_fat {md : ℕ} {T : TEA ℝ} {tlo thi z0 : ND ℝ} (hinit : TEA.init md tlo thi = .ok T)
    (hz0 : z0.get = fun _ => 0) {i : Inter ℝ} {v0 : ND ℝ} (hi0 : InterOk md z0 i v0) {η : ℝ} (hη : 0 ≤ η)
    (hηd : 1 / 10 ^ 12 ≤ η ^ md) {sp : Prop}
    (hfat : ∀ I, ValidIdx v0.shape I →
      (∃ z v, (Coef.ivl tlo thi).Contains z ∧ InterOk md z i v ∧ v.get I ≤ v0.get I - η) ∧
      (∃ z v, (Coef.ivl tlo thi).Contains z ∧ InterOk md z i v ∧ v0.get I + η ≤ v.get I) ∧
      (sp → md = 2 → v0.get I = 0 ∨ η ≤ 2 * |v0.get I|))
    {tr : Option (Coef ℝ)} (ht : tr = none ∨ tr = i.tr) : CallNC sp T i.encl tr := by
  have hTd : T.maxDegree = md := by rw [(shape_of_init hinit).1]
  intro r c x0 hr hc hx0
  rw [hTd]
  rcases Nat.eq_zero_or_pos md with rfl | hpos
  · exact nc_zero _ _ _
  have hca : c = .arr x0 := by
    cases c with
    | arr a => cases hx0; rfl
    | ivl l u =>
      simp only [expansionPoint, hTd] at hx0
      rw [if_neg (by omega)] at hx0
      cases hx0
  subst hca
  obtain ⟨hs, hv⟩ := head_value hz0 hi0 hc
  intro R hR I hI
  rw [toInterval_eq] at hR ⊢
  simp only at hR ⊢
  -- the shape of the region
  have key : ∀ z v, (Coef.ivl tlo thi).Contains z → InterOk md z i v → v.shape = v0.shape ∧ ble r.shape v0.shape ∧
      ∀ I, ValidIdx v0.shape I → r.Mem I (v.get I) := by
    intro z v hz hi
    have e : v.shape = v0.shape := by rw [← headShape_eq hi.encl, headShape_eq hi0.encl]
    obtain ⟨h1, -, h3⟩ := region_mem hinit hz hi ht hr
    rw [e] at h1 h3
    exact ⟨e, h1, h3⟩
  by_cases hemp : ∃ J, ValidIdx v0.shape J
  swap
  · -- no entries
    exfalso
    apply hemp
    exact ⟨_, validIdx_bidx (show ble v0.shape R by rw [← hs]; exact (bshape_le hR).1) hI⟩
  obtain ⟨J, hJ⟩ := hemp
  obtain ⟨⟨z1, v1, hz1, hi1, -⟩, -, -⟩ := hfat J hJ
  obtain ⟨-, hle, -⟩ := key z1 v1 hz1 hi1
  have hRs : R = x0.shape := by
    have : bshape x0.shape r.lo.shape = some x0.shape := by
      rw [Coef.lo_shape, hs]
      exact bshape_eq_of_ble' hle
    rw [this] at hR
    exact (Option.some.inj hR).symm
  subst hRs
  have hI0 : ValidIdx v0.shape I := hs ▸ hI
  obtain ⟨⟨z1, v1, hz1, hi1, e1⟩, ⟨z2, v2, hz2, hi2, e2⟩, h3⟩ := hfat I hI0
  obtain ⟨-, -, m1⟩ := key z1 v1 hz1 hi1
  obtain ⟨-, -, m2⟩ := key z2 v2 hz2 hi2
  have a1 := (m1 I hI0).1
  have a2 := (m2 I hI0).2
  rw [ND.bget_valid _ hI, hv I hI0]
  generalize r.lo.bget I = a at a1
  generalize r.hi.bget I = b at a2
  generalize v0.get I = x at *
  have ha : a ≤ x - η := a1.trans e1
  have hb : x + η ≤ b := e2.trans a2
  have far : ∀ y : ℝ, η ≤ |y - x| → 1 / 10 ^ 12 ≤ |y - x| ^ md := fun y hy =>
    hηd.trans (pow_le_pow_left₀ hη hy md)
  have fa : η ≤ |a - x| := by rw [abs_sub_comm]; exact le_trans (by linarith) (le_abs_self _)
  have fb : η ≤ |b - x| := le_trans (by linarith) (le_abs_self _)
  refine ⟨Or.inr (far a fa), Or.inr (far b fb), fun hsp hd => ?_⟩
  subst hd
  unfold clip
  rcases le_total (-x) a with h | h
  · rw [max_eq_right h, min_eq_left (by linarith)]; exact Or.inr (far a fa)
  · rw [max_eq_left h]
    rcases le_total (-x) b with h' | h'
    · rw [min_eq_left h']
      rcases h3 hsp rfl with h | h
      · left; rw [h]; simp
      · right
        refine far _ (h.trans (le_of_eq ?_))
        rw [show -x - x = -(2 * x) by ring, abs_neg, abs_mul]; norm_num
    · rw [min_eq_right h']; exact Or.inr (far b fb)

/-- a constant argument -/
theorem nc_of_const {T : TEA ℝ} {a : ND ℝ} {sp : Prop} {tr : Option (Coef ℝ)} (ht : tr = none ∨ tr = some (.ivl a a)) :
    CallNC sp T [.arr a] tr := by
  intro r c x0 hr hc hx0
  cases hc
  cases hx0
  have : toInterval r = (a, a) := by
    rcases ht with rfl | rfl
    · simp only [argRegion, encloseEnclosure, List.length_singleton, zero_add, le_refl, if_true, py_ok_bind] at hr
      cases hr; rfl
    · cases hr; rfl
  rw [this]
  intro R _ I _
  refine ⟨Or.inl rfl, Or.inl rfl, fun _ _ => Or.inl ?_⟩
  unfold clip
  simp only
  exact min_eq_right (le_max_right _ _)

/-! ### prefixes of a program -/

theorem eqnsFit_prefix {sem : Sem ℝ} {ct : Counts} {xs : List ℕ} : ∀ {pre post : List (Eqn ℝ)} {cs : List ℤ} {vals : Vals ℝ},
    EqnsFit sem ct xs cs vals (pre ++ post) → EqnsFit sem ct xs cs vals pre
  | [], _, _, _, _ => trivial
  | _ :: _, _, _, _, h => ⟨h.1, fun vals' hv => eqnsFit_prefix (h.2 vals' hv)⟩

theorem programFits_prefix {sem : Sem ℝ} {jaxpr : Jaxpr ℝ} {consts : List (ND ℝ)} {x0 : ND ℝ} {pre post : List (Eqn ℝ)}
    (he : jaxpr.eqns = pre ++ post) (h : ProgramFits sem jaxpr consts x0) :
    ProgramFits sem { jaxpr with eqns := pre } consts x0 := by
  obtain ⟨h1, ct, ⟨h2, h3, h4⟩, h5⟩ := h
  rw [he] at h5
  refine ⟨h1, ct, ⟨h2, h3, fun eqn hq => h4 eqn ?_⟩, eqnsFit_prefix h5⟩
  rw [he]; exact List.mem_append_left _ hq

theorem eval_prefix {sem : Sem ℝ} {jaxpr : Jaxpr ℝ} {consts : List (ND ℝ)} {x : ND ℝ} {pre post : List (Eqn ℝ)}
    (he : jaxpr.eqns = pre ++ post) {vals : Vals ℝ} (h : evalEnv sem jaxpr consts x = .ok vals) (hne : NonEmptyVals vals) :
    ∃ vals', evalEnv sem { jaxpr with eqns := pre } consts x = .ok vals' ∧ NonEmptyVals vals' := by
  unfold evalEnv at h
  rw [he, List.foldlM_append, py_bind_ok] at h
  obtain ⟨vals', h1, h2⟩ := h
  exact ⟨vals', h1, fun va hva => hne va (evalEqns_mem h2 hva)⟩

/-- the guards are never violated -/
theorem safe_of_fat {jaxpr : Jaxpr ℝ} {consts : List (ND ℝ)} {maxDegree : ℤ} {propagate : Bool} {x0 lo hi : ND ℝ}
    (hlh : lo.shape = hi.shape) (h0 : (Coef.ivl lo hi).Contains x0)
    (hfit : ProgramFits realSem jaxpr consts x0) {η : ℝ} (hη : 0 ≤ η) (hηd : 1 / 10 ^ 12 ≤ η ^ maxDegree.toNat)
    (hfat : FatArgs realSem jaxpr consts maxDegree x0 lo hi η)
    {vals : Vals ℝ} (hev : evalEnv realSem jaxpr consts x0 = .ok vals) (hne : NonEmptyVals vals) :
    ∀ pre post : List (Eqn ℝ), jaxpr.eqns = pre ++ post →
      OkLe (taylorEnv tableLib { jaxpr with eqns := pre } consts maxDegree propagate x0 lo hi)
        (taylorEnv safeLib { jaxpr with eqns := pre } consts maxDegree propagate x0 lo hi) := by
  intro pre
  induction pre using List.reverseRecOn with
  | nil => intro post _; exact OkLe.refl _
  | append_singleton pre eqn ih =>
    intro post he env' hb
    rw [List.append_assoc, List.singleton_append] at he
    have ih := ih _ he
    have hfit' := programFits_prefix he hfit
    obtain ⟨vals0, hev0, hne0⟩ := eval_prefix he hev hne
    have hb' := hb
    unfold taylorEnv at hb ⊢
    by_cases hmd : maxDegree < 0
    · rw [if_pos hmd] at hb; cases hb
    rw [if_neg hmd] at hb ⊢
    have hmd : 0 ≤ maxDegree := not_lt.1 hmd
    simp only [py_bind_ok] at hb ⊢
    obtain ⟨t, ht, hb⟩ := hb
    refine ⟨t, ht, ?_⟩
    cases t with
    | arr a => cases hb
    | ivl tlo thi =>
      simp only [py_bind_ok] at hb ⊢
      obtain ⟨T, hT, T0, hT0, env0, henv, hrun⟩ := hb
      refine ⟨T, hT, T0, hT0, env0, henv, ?_⟩
      rw [List.foldlM_append, py_bind_ok] at hrun ⊢
      obtain ⟨env, hr1, hr2⟩ := hrun
      have htab : taylorEnv tableLib { jaxpr with eqns := pre } consts maxDegree propagate x0 lo hi = .ok env := by
        unfold taylorEnv
        rw [if_neg (not_lt.2 hmd)]
        simp only [py_bind_ok]
        refine ⟨_, ht, ?_⟩
        simp only [py_bind_ok]
        exact ⟨T, hT, T0, hT0, env0, henv, hr1⟩
      have hsafe := ih env htab
      obtain ⟨-, tlo', thi', T', T0', env0', ht', hT', hT0', henv', hr1'⟩ := taylorEnv_inv hsafe
      rw [ht] at ht'
      cases ht'
      rw [hT] at hT'
      cases hT'
      rw [hT0] at hT0'
      cases hT0'
      replace henv' : initEnv (propagate && (maxDegree != 0)) maxDegree.toNat jaxpr consts x0 lo hi = .ok env0' := henv'
      replace henv : initEnv (propagate && (maxDegree != 0)) maxDegree.toNat jaxpr consts x0 lo hi = .ok env0 := henv
      rw [henv] at henv'
      cases henv'
      refine ⟨env, hr1', ?_⟩
      rw [List.foldlM_cons] at hr2 ⊢
      rw [py_bind_ok] at hr2 ⊢
      obtain ⟨env1, hst, hr2⟩ := hr2
      refine ⟨env1, ?_, hr2⟩
      -- what the interpreter knows after `pre`
      have hok := taylorBoundsOk_of_fits (lib := safeLib) safeLib_sound hmd (propagate := propagate) hlh h0 hfit' hev0 hne0
      have sound : ∀ x vals, (Coef.ivl lo hi).Contains x → evalEnv realSem { jaxpr with eqns := pre } consts x = .ok vals →
          NonEmptyVals vals → ∃ z, ND.map2 (· - ·) x x0 = .ok z ∧ (Coef.ivl tlo thi).Contains z ∧
            EnvOk maxDegree.toNat z env vals := by
        intro x vals hx he hn
        obtain ⟨z, hz, -, -, h⟩ := taylorEnv_sound safeLib_sound hlh h0 hx hsafe hok he hn
        obtain ⟨z', hz', -, hc⟩ := region_shift hlh h0 ht hx
        rw [hz] at hz'
        cases hz'
        exact ⟨z, hz, hc, h⟩
      have hd0 : T0.maxDegree = 0 := by rw [(shape_of_init hT0).1]
      refine callsLe_step (lib := tableLib) (lib' := safeLib) rfl rfl (fun ins hins _ => callsLe_of fun i hci => ?_)
        (fun _ => callsLe_zero hd0 _) hst
      obtain ⟨t, hct, hti⟩ := curvedArg_mapM hins hci
      by_cases hc : t.constIn (constantVars { jaxpr with eqns := pre }) = true
      · have hi : ∃ a, i = constantInter a := by
          cases t with
          | lit a => cases hti; exact ⟨a, rfl⟩
          | var v =>
            obtain ⟨a, ha, -⟩ := C48_constant_folding safeLib_sound hsafe hfit.1 hev0
              (v := v) (by simpa [Atom.constIn] using hc)
            simp only [getInter, ha] at hti
            cases hti
            exact ⟨a, rfl⟩
        obtain ⟨a, rfl⟩ := hi
        exact ⟨nc_of_const (Or.inl rfl), nc_of_const (Or.inr rfl)⟩
      · obtain ⟨z0, hz0, -, hE0⟩ := sound x0 vals0 h0 hev0 hne0
        obtain ⟨v0, hv0, hi0⟩ := getInter_ok hE0 hti
        have hz0' : z0.get = fun _ => 0 := by
          funext J
          have := hz0
          unfold ND.map2 at this
          split at this
          · cases this
          · cases this
            simp
        have fat : ∀ I, ValidIdx v0.shape I →
            (∃ z v, (Coef.ivl tlo thi).Contains z ∧ InterOk maxDegree.toNat z i v ∧ v.get I ≤ v0.get I - η) ∧
            (∃ z v, (Coef.ivl tlo thi).Contains z ∧ InterOk maxDegree.toNat z i v ∧ v0.get I + η ≤ v.get I) ∧
            (IsSoftplus eqn.prim → maxDegree.toNat = 2 → v0.get I = 0 ∨ η ≤ 2 * |v0.get I|) := by
          intro I hI
          obtain ⟨⟨x1, a1, hx1, ⟨vals1, e1, n1, g1⟩, l1⟩, ⟨x2, a2, hx2, ⟨vals2, e2, n2, g2⟩, l2⟩, h3⟩ :=
            hfat pre eqn post t v0 he hct (by simpa using hc) ⟨vals0, hev0, hne0, hv0⟩ I hI
          obtain ⟨z1, -, hz1, hE1⟩ := sound x1 vals1 hx1 e1 n1
          obtain ⟨z2, -, hz2, hE2⟩ := sound x2 vals2 hx2 e2 n2
          obtain ⟨b1, hb1, hi1⟩ := getInter_ok hE1 hti
          obtain ⟨b2, hb2, hi2⟩ := getInter_ok hE2 hti
          rw [g1] at hb1
          cases hb1
          rw [g2] at hb2
          cases hb2
          exact ⟨⟨z1, a1, hz1, hi1, l1⟩, ⟨z2, a2, hz2, hi2, l2⟩, fun h h' => h3 h (by omega)⟩
        exact ⟨nc_of_fat hT hz0' hi0 hη hηd fat (Or.inl rfl), nc_of_fat hT hz0' hi0 hη hηd fat (Or.inr rfl)⟩

/-- **C73 (the code's own tables).** Let `x0` lie in the trust region, let the program fit (`ProgramFits`), let the
tables be right about the regions on which they are used (`taylorBounds tableLib ... = .ok bnd`; `C73_total` gives programs
for which this is never a question), and let `1e-12 ≤ η ^ max_degree`.  If every argument of an element-wise function,
every denominator and every base of a power takes values at distance at least `η` from its value at `x0`, on both sides, then
`taylor_bounds` returns `bnd`, and `bnd.lower(x) ≤ f(x) ≤ bnd.upper(x)` for every `x` in the trust region. -/
theorem C73_fat {jaxpr : Jaxpr ℝ} {consts : List (ND ℝ)} {maxDegree : ℤ} {propagate : Bool} {x0 lo hi : ND ℝ}
    {bnd : Bounds ℝ} (hlh : lo.shape = hi.shape) (h0 : (Coef.ivl lo hi).Contains x0)
    (hb : taylorBounds tableLib jaxpr consts maxDegree propagate x0 lo hi = .ok bnd)
    (hfit : ProgramFits realSem jaxpr consts x0) {η : ℝ} (hη : 0 ≤ η) (hηd : 1 / 10 ^ 12 ≤ η ^ maxDegree.toNat)
    (hfat : FatArgs realSem jaxpr consts maxDegree x0 lo hi η)
    {vals : Vals ℝ} (hev : evalEnv realSem jaxpr consts x0 = .ok vals) (hne : NonEmptyVals vals) :
    taylorBounds realLib jaxpr consts maxDegree propagate x0 lo hi = .ok bnd ∧
    ∀ x y vals', (Coef.ivl lo hi).Contains x → evalEnv realSem jaxpr consts x = .ok vals' → NonEmptyVals vals' →
      evalJaxpr realSem jaxpr consts x = .ok y → ∃ l u, bnd.lower x = .ok l ∧ bnd.upper x = .ok u ∧
        l.shape = y.shape ∧ u.shape = y.shape ∧
        ∀ I, ValidIdx y.shape I → l.get I ≤ y.get I ∧ y.get I ≤ u.get I := by
  have hs : taylorBounds safeLib jaxpr consts maxDegree propagate x0 lo hi = .ok bnd := by
    unfold taylorBounds at hb ⊢
    rw [py_bind_ok] at hb ⊢
    obtain ⟨env, he, hb⟩ := hb
    exact ⟨env, safe_of_fat hlh h0 hfit hη hηd hfat hev hne jaxpr.eqns [] (List.append_nil _).symm env he, hb⟩
  obtain ⟨h1, h2⟩ := C42_builtin_static hlh h0 hs hfit hev hne
  exact ⟨h1, fun x y vals' hx he hn hy => h2 x y vals' hx he hn hy⟩

/-- **C73 (existence).** If moreover the Jaxpr is well formed, with one input of rank at most 1, and the program meets
`ProgramReturns` (for an element-wise primitive, `AlwaysRight` is sufficient), then `taylor_bounds` does return, with bounds
that hold on the whole trust region: all conditions are on the program and on the values of `f`. -/
theorem C73_total {jaxpr : Jaxpr ℝ} {consts : List (ND ℝ)} {maxDegree : ℤ} {propagate : Bool} {x0 lo hi y0 : ND ℝ}
    (hmd : 0 ≤ maxDegree) (hlh : lo.shape = hi.shape) (hrank : x0.shape.length ≤ 1)
    (h0 : (Coef.ivl lo hi).Contains x0) (hwf : WellFormedProgram jaxpr consts)
    (hused : propagate = true → ∀ eqn ∈ jaxpr.eqns, -1 ∉ eqn.outvars)
    (hfit : ProgramFits realSem jaxpr consts x0)
    (hret : ProgramReturns tableLib realSem jaxpr consts maxDegree propagate x0)
    {η : ℝ} (hη : 0 ≤ η) (hηd : 1 / 10 ^ 12 ≤ η ^ maxDegree.toNat)
    (hfat : FatArgs realSem jaxpr consts maxDegree x0 lo hi η)
    {vals : Vals ℝ} (hev : evalEnv realSem jaxpr consts x0 = .ok vals) (hne : NonEmptyVals vals)
    (hy : evalJaxpr realSem jaxpr consts x0 = .ok y0) :
    ∃ bnd, taylorBounds realLib jaxpr consts maxDegree propagate x0 lo hi = .ok bnd ∧
      ∀ x y vals', (Coef.ivl lo hi).Contains x → evalEnv realSem jaxpr consts x = .ok vals' → NonEmptyVals vals' →
        evalJaxpr realSem jaxpr consts x = .ok y → ∃ l u, bnd.lower x = .ok l ∧ bnd.upper x = .ok u ∧
          l.shape = y.shape ∧ u.shape = y.shape ∧
          ∀ I, ValidIdx y.shape I → l.get I ≤ y.get I ∧ y.get I ≤ u.get I := by
  have hok := taylorBoundsOk_of_fits_at hmd (propagate := propagate) (tableLib_at_ref x0) hlh h0 hfit hev hne
  have hr := taylorBoundsReturns_of_at tableLib_arr tableLib_full hmd (tableLib_at_ref x0) hlh h0 hfit hret hev hne
  obtain ⟨bnd, hb⟩ := returns_at tableLib_arr hmd (tableLib_at_ref x0) hlh hrank h0 h0 hwf hused hok hr hev hne hy
  exact ⟨bnd, C73_fat hlh h0 hb hfit hη hηd hfat hev hne⟩

/-! ### The quickstart program -/

/-- The program of autobound/notebooks/quickstart.ipynb, `f(x) = a * exp(b * x) - c * x ** 2` (there `a = 1.5`, `b = 3`,
`c = 25`). -/
def exQuick (a b c : ℝ) : Jaxpr ℝ where
  constvars := []
  invars := [0]
  outvars := [.var 6]
  eqns := [⟨.mul, [.lit (ND.scalar b), .var 0], [1]⟩, ⟨.elementwise "exp", [.var 1], [2]⟩,
    ⟨.mul, [.lit (ND.scalar a), .var 2], [3]⟩, ⟨.integerPow 2, [.var 0], [4]⟩,
    ⟨.mul, [.lit (ND.scalar c), .var 4], [5]⟩, ⟨.sub, [.var 3, .var 5], [6]⟩]

theorem exQuick_eval (a b c x : ℝ) : ∃ vals, evalEnv realSem (exQuick a b c) [] (ND.scalar x) = .ok vals ∧
    NonEmptyVals vals ∧ ∃ y, evalJaxpr realSem (exQuick a b c) [] (ND.scalar x) = .ok y ∧ y.shape = [] ∧
      y.get [] = a * Real.exp (b * x) - c * x ^ 2 := by
  refine ⟨_, rfl, ?_, _, rfl, rfl, ?_⟩
  · intro va hva
    have : va.2.shape = [] := by
      rcases List.mem_cons.1 hva with e | hva
      · exact congrArg (fun v => v.2.shape) e
      rcases List.mem_cons.1 hva with e | hva
      · exact congrArg (fun v => v.2.shape) e
      rcases List.mem_cons.1 hva with e | hva
      · exact congrArg (fun v => v.2.shape) e
      rcases List.mem_cons.1 hva with e | hva
      · exact congrArg (fun v => v.2.shape) e
      rcases List.mem_cons.1 hva with e | hva
      · exact congrArg (fun v => v.2.shape) e
      rcases List.mem_cons.1 hva with e | hva
      · exact congrArg (fun v => v.2.shape) e
      · exact congrArg (fun v => v.2.shape) (List.mem_singleton.1 hva)
    rw [this]
    exact ⟨[], .nil⟩
  · show a * Real.exp (b * x) - c * x ^ (2 : ℤ) = _
    norm_cast

theorem exQuick_wf (a b c : ℝ) : WellFormedProgram (exQuick a b c) [] where
  input := rfl
  output := rfl
  consts := rfl
  once := by show ([0] ++ [] ++ [1, 2, 3, 4, 5, 6] : List ℤ).Nodup; decide
  lits := by
    intro eqn he v hv
    simp only [exQuick, List.mem_cons, List.not_mem_nil, or_false] at he
    rcases he with rfl | rfl | rfl | rfl | rfl | rfl <;> simp at hv <;> exact ⟨[], by rw [hv]; exact .nil⟩

theorem exQuick_fits (a b c x0 : ℝ) : ProgramFits realSem (exQuick a b c) [] (ND.scalar x0) := by
  refine ⟨fun v _ h => absurd h List.not_mem_nil, _, countsFit_trivial _, ?_⟩
  refine ⟨fun _ a o ha ho => ?_, fun v1 h1 => ?_⟩
  · cases ha; cases ho; trivial
  cases h1
  refine ⟨fun _ a o ha ho => ?_, fun v1 h1 => ?_⟩
  · cases ha; cases ho; trivial
  cases h1
  refine ⟨fun _ a o ha ho => ?_, fun v1 h1 => ?_⟩
  · cases ha; cases ho; trivial
  cases h1
  refine ⟨fun _ a o ha ho => ?_, fun v1 h1 => ?_⟩
  · cases ha; cases ho; trivial
  cases h1
  refine ⟨fun _ a o ha ho => ?_, fun v1 h1 => ?_⟩
  · cases ha; cases ho; trivial
  cases h1
  refine ⟨fun _ a o ha ho => ?_, fun v1 h1 => trivial⟩
  cases ha; cases ho; exact ⟨Or.inr (Or.inl rfl), Or.inr (Or.inl rfl)⟩

theorem exQuick_returns (a b c x0 : ℝ) (md : ℤ) (propagate : Bool) :
    ProgramReturns tableLib realSem (exQuick a b c) [] md propagate (ND.scalar x0) := by
  refine ⟨fun u ha => ?_, fun v1 h1 => ?_⟩
  · rw [if_neg (by simp [exQuick, Atom.constIn])]
    cases ha
    trivial
  cases h1
  refine ⟨fun u ha => ?_, fun v1 h1 => ?_⟩
  · rw [if_neg (by simp [exQuick, Atom.constIn, constAfter])]
    cases ha
    exact ⟨Or.inl rfl, alwaysRight_usable (Or.inl rfl)⟩
  cases h1
  refine ⟨fun u ha => ?_, fun v1 h1 => ?_⟩
  · rw [if_neg (by simp [exQuick, Atom.constIn, constAfter])]
    cases ha
    trivial
  cases h1
  refine ⟨fun u ha => ?_, fun v1 h1 => ?_⟩
  · rw [if_neg (by simp [exQuick, Atom.constIn, constAfter])]
    cases ha
    exact ⟨by norm_num, fun _ => Or.inl rfl, fun h => absurd h (by norm_num)⟩
  cases h1
  refine ⟨fun u ha => ?_, fun v1 h1 => ?_⟩
  · rw [if_neg (by simp [exQuick, Atom.constIn, constAfter])]
    cases ha
    trivial
  cases h1
  refine ⟨fun u ha => ?_, fun v1 h1 => trivial⟩
  rw [if_neg (by simp [exQuick, Atom.constIn, constAfter])]
  cases ha
  trivial

theorem exQuick_fat (a b c x0 lo hi η : ℝ) (h1 : lo ≤ x0) (h2 : x0 ≤ hi) (hlo : η ≤ b * (x0 - lo)) (hhi : η ≤ b * (hi - x0))
    (md : ℤ) : FatArgs realSem (exQuick a b c) [] md (ND.scalar x0) (ND.scalar lo) (ND.scalar hi) η := by
  have main : ∀ x, ∃ v, ValueAfter realSem (exQuick a b c) [] [⟨.mul, [.lit (ND.scalar b), .var 0], [1]⟩] (ND.scalar x)
      (.var 1) v ∧ v.shape = [] ∧ v.get [] = b * x := by
    intro x
    refine ⟨_, ⟨_, rfl, ?_, rfl⟩, rfl, rfl⟩
    intro va hva
    have : va.2.shape = [] := by
      rcases List.mem_cons.1 hva with e | hva
      · exact congrArg (fun v => v.2.shape) e
      · exact congrArg (fun v => v.2.shape) (List.mem_singleton.1 hva)
    rw [this]
    exact ⟨[], .nil⟩
  intro pre eqn post t a0 he hc hcs hv I hI
  have : pre = [⟨.mul, [.lit (ND.scalar b), .var 0], [1]⟩] ∧ eqn = ⟨.elementwise "exp", [.var 1], [2]⟩ := by
    simp only [exQuick] at he
    rcases pre with _ | ⟨e0, _ | ⟨e1, _ | ⟨e2, _ | ⟨e3, _ | ⟨e4, _ | ⟨e5, _ | ⟨e6, pre⟩⟩⟩⟩⟩⟩⟩
    · simp only [List.nil_append, List.cons.injEq] at he; obtain ⟨rfl, -⟩ := he; cases hc
    · simp only [List.cons_append, List.nil_append, List.cons.injEq] at he; obtain ⟨rfl, rfl, -⟩ := he; exact ⟨rfl, rfl⟩
    · simp only [List.cons_append, List.nil_append, List.cons.injEq] at he; obtain ⟨-, -, rfl, -⟩ := he; cases hc
    · simp only [List.cons_append, List.nil_append, List.cons.injEq] at he; obtain ⟨-, -, -, rfl, -⟩ := he; cases hc
    · simp only [List.cons_append, List.nil_append, List.cons.injEq] at he; obtain ⟨-, -, -, -, rfl, -⟩ := he; cases hc
    · simp only [List.cons_append, List.nil_append, List.cons.injEq] at he; obtain ⟨-, -, -, -, -, rfl, -⟩ := he; cases hc
    · simp at he
    · simp at he
  obtain ⟨rfl, rfl⟩ := this
  cases hc
  obtain ⟨v0, k0, s0, g0⟩ := main x0
  have e0 : a0 = v0 := by
    obtain ⟨w, u1, -, u2⟩ := hv
    obtain ⟨w', u1', -, u2'⟩ := k0
    rw [u1] at u1'
    cases u1'
    rw [u2] at u2'
    cases u2'; rfl
  subst e0
  rw [s0] at hI
  have hI' : I = [] := List.length_eq_zero_iff.1 hI.length.symm
  subst hI'
  obtain ⟨v1, k1, -, g1⟩ := main lo
  obtain ⟨v2, k2, -, g2⟩ := main hi
  refine ⟨⟨ND.scalar lo, v1, ⟨rfl, fun I _ => ⟨le_rfl, h1.trans h2⟩⟩, k1, ?_⟩,
    ⟨ND.scalar hi, v2, ⟨rfl, fun I _ => ⟨h1.trans h2, le_rfl⟩⟩, k2, ?_⟩, fun h => ?_⟩
  · rw [g0, g1]; linarith
  · rw [g0, g2]; linarith
  · exact absurd h (by simp [IsSoftplus, builtinName])

/-- `C73_total` for the quickstart program: every degree, every reference point, and every trust region that is not too
narrow, with or without propagated trust regions. -/
theorem C73_quickstart (a b c x0 lo hi η : ℝ) (md : ℤ) (propagate : Bool) (hmd : 0 ≤ md) (hη : 0 ≤ η)
    (hηd : 1 / 10 ^ 12 ≤ η ^ md.toNat) (h1 : lo ≤ x0) (h2 : x0 ≤ hi) (hlo : η ≤ b * (x0 - lo)) (hhi : η ≤ b * (hi - x0)) :
    ∃ bnd, taylorBounds realLib (exQuick a b c) [] md propagate (ND.scalar x0) (ND.scalar lo) (ND.scalar hi) = .ok bnd ∧
      ∀ x, lo ≤ x → x ≤ hi → ∃ l u, bnd.lower (ND.scalar x) = .ok l ∧ bnd.upper (ND.scalar x) = .ok u ∧
        l.get [] ≤ a * Real.exp (b * x) - c * x ^ 2 ∧ a * Real.exp (b * x) - c * x ^ 2 ≤ u.get [] := by
  obtain ⟨vals, hev, hne, y, hy, -, -⟩ := exQuick_eval a b c x0
  obtain ⟨bnd, hb, h⟩ := C73_total (jaxpr := exQuick a b c) (consts := []) (x0 := ND.scalar x0) (lo := ND.scalar lo)
    (hi := ND.scalar hi) (propagate := propagate) hmd rfl (by simp [ND.scalar]) ⟨rfl, fun I _ => ⟨h1, h2⟩⟩ (exQuick_wf a b c)
    (by
      intro _ eqn he
      simp only [exQuick, List.mem_cons, List.not_mem_nil, or_false] at he
      rcases he with rfl | rfl | rfl | rfl | rfl | rfl <;> simp) (exQuick_fits a b c x0) (exQuick_returns a b c x0 md propagate)
    hη hηd (exQuick_fat a b c x0 lo hi η h1 h2 hlo hhi md) hev hne hy
  refine ⟨bnd, hb, fun x hx1 hx2 => ?_⟩
  obtain ⟨vals', hev', hne', y', hy', ys, yv⟩ := exQuick_eval a b c x
  obtain ⟨l, u, hl, hu, -, -, hlu⟩ := h (ND.scalar x) y' vals' ⟨rfl, fun I _ => ⟨hx1, hx2⟩⟩ hev' hne' hy'
  have := hlu [] (by rw [ys]; exact .nil)
  rw [yv] at this
  exact ⟨l, u, hl, hu, this⟩

/-- The numbers of the notebook: `f(x) = 1.5 * exp(3 * x) - 25 * x ** 2`, `x0 = 0.5`, trust region `(0, 1)`, degree 2. -/
example (propagate : Bool) :
    ∃ bnd, taylorBounds realLib (exQuick 1.5 3 25) [] 2 propagate (ND.scalar 0.5) (ND.scalar 0) (ND.scalar 1) = .ok bnd ∧
      ∀ x : ℝ, 0 ≤ x → x ≤ 1 → ∃ l u, bnd.lower (ND.scalar x) = .ok l ∧ bnd.upper (ND.scalar x) = .ok u ∧
        l.get [] ≤ 1.5 * Real.exp (3 * x) - 25 * x ^ 2 ∧ 1.5 * Real.exp (3 * x) - 25 * x ^ 2 ≤ u.get [] :=
  C73_quickstart 1.5 3 25 0.5 0 1 1 2 propagate (by norm_num) (by norm_num) (by norm_num) (by norm_num) (by norm_num)
    (by norm_num) (by norm_num)

end JB
end AB
