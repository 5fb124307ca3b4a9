/-
The coefficients below `max_degree` do not depend on the trust region: the interpreter of
/repo/autobound/jax/jax_bound.py.
-/
import Verif.Proofs.Lead

set_option linter.unusedSectionVars false

namespace AB
namespace JB
open TEA
variable {K : Type} [Field K] [LinearOrder K] {T' T : TEA K} {lib' lib : Lib K}

theorem lead_constantValue {d : ℕ} (hd : 0 < d) {i' i : Inter K} (h : Lead d i'.encl i.encl) :
    i'.constantValue = i.constantValue := by
  obtain ⟨e', t'⟩ := i'
  obtain ⟨e, t⟩ := i
  simp only at h
  unfold Inter.constantValue
  simp only
  rcases e with _ | ⟨x, _ | ⟨y, zs⟩⟩
  · obtain rfl : e' = [] := List.length_eq_zero_iff.1 h.1
    rfl
  · obtain ⟨x', rfl⟩ := List.length_eq_one_iff.1 h.1
    obtain rfl := lead_head hd h
    rfl
  · rcases e' with _ | ⟨x', _ | ⟨y', zs'⟩⟩
    · simp [Lead] at h
    · simp [Lead] at h
    · cases x <;> cases x' <;> rfl

theorem lead_broadcastInDim {d : ℕ} {shape dims : List ℕ} {a' a : Encl K} (ha : Lead d a' a) {r' r : Encl K}
    (h' : broadcastInDimPush shape dims a' = .ok r') (h : broadcastInDimPush shape dims a = .ok r) : Lead d r' r := by
  simp only [broadcastInDimPush, py_bind_ok] at h h'
  obtain ⟨s, hs, h⟩ := h
  obtain ⟨s', hs', h'⟩ := h'
  refine ha.mapM_enum ?_ h' h
  intro i c x' x hi k' k
  have hrep : rep i s' = rep i s := by
    cases i with
    | zero => rfl
    | succ i =>
      have e0 := ha.2 0 (by omega)
      suffices s' = s by rw [this]
      rcases a with _ | ⟨c0, _ | ⟨c1, cs⟩⟩
      · cases hs
      · obtain ⟨c0', rfl⟩ := List.length_eq_one_iff.1 ha.1
        cases hs; cases hs'; rfl
      · rcases a' with _ | ⟨c0', _ | ⟨c1', cs'⟩⟩
        · cases hs'
        · simp [Lead] at ha
        · have e1 := ha.2 1 (by omega)
          simp at e0 e1
          subst e0 e1
          cases c1' with
          | ivl _ _ => cases hs
          | arr z => cases hs; cases hs'; rfl
  unfold bidCoef at k k'
  simp only at k k'
  rw [hrep, k] at k'
  exact (Except.ok.inj k').symm

/-- two intermediate enclosures with the same coefficients of degree `< d` -/
abbrev LeadI (d : ℕ) (i' i : Inter K) : Prop := Lead d i'.encl i.encl

theorem lead_pushforward (hlib : LeadLib T.maxDegree lib' lib) (hT : LeadT T' T) (hd : 0 < T.maxDegree) {p : Prim K}
    {f' f : List (Inter K) → Py (Encl K)} (hf' : pushforward lib' T' p = some f') (hf : pushforward lib T p = some f)
    {ins' ins : List (Inter K)} (hi : List.Forall₂ (LeadI T.maxDegree) ins' ins) {e' e : Encl K}
    (h' : f' ins' = .ok e') (h : f ins = .ok e) : Lead T.maxDegree e' e := by
  have bin : ∀ g' g : Inter K → Inter K → Py (Encl K),
      (match ins' with | [a, b] => g' a b | _ => (.error .typeError : Py (Encl K))) = .ok e' →
      (match ins with | [a, b] => g a b | _ => (.error .typeError : Py (Encl K))) = .ok e →
      ∃ a' b' a b, LeadI T.maxDegree a' a ∧ LeadI T.maxDegree b' b ∧ g' a' b' = .ok e' ∧ g a b = .ok e := by
    intro g' g h' h
    rcases hi with _ | ⟨h1, _ | ⟨h2, _ | ⟨h3, h4⟩⟩⟩
    · cases h
    · cases h
    · exact ⟨_, _, _, _, h1, h2, h', h⟩
    · cases h
  have una : ∀ g' g : Inter K → Py (Encl K),
      (match ins' with | [a] => g' a | _ => (.error .typeError : Py (Encl K))) = .ok e' →
      (match ins with | [a] => g a | _ => (.error .typeError : Py (Encl K))) = .ok e →
      ∃ a' a, LeadI T.maxDegree a' a ∧ g' a' = .ok e' ∧ g a = .ok e := by
    intro g' g h' h
    rcases hi with _ | ⟨h1, _ | ⟨h2, h3⟩⟩
    · cases h
    · exact ⟨_, _, h1, h', h⟩
    · cases h
  have thru : ∀ q : Prim K, (∃ a' a, LeadI T.maxDegree a' a ∧ mapOverEnclosure a'.encl (q.bind1 lib'.sem) = .ok e' ∧
      mapOverEnclosure a.encl (q.bind1 lib.sem) = .ok e) → Lead T.maxDegree e' e := by
    rintro q ⟨a', a, na, k', k⟩
    rw [hlib.sem] at k'
    exact Lead.mapM na k' k
  cases p with
  | add =>
    cases hf; cases hf'
    obtain ⟨a', b', a, b, na, nb, k', k⟩ := bin _ _ h' h
    exact lead_add hT na nb k' k
  | sub =>
    cases hf; cases hf'
    obtain ⟨a', b', a, b, na, nb, k', k⟩ := bin _ _ h' h
    exact lead_subtract hT na nb k' k
  | mul =>
    cases hf; cases hf'
    obtain ⟨a', b', a, b, na, nb, k', k⟩ := bin _ _ h' h
    exact lead_multiply hT na nb k' k
  | div =>
    cases hf; cases hf'
    obtain ⟨a', b', a, b, na, nb, k', k⟩ := bin _ _ h' h
    exact lead_divide hT hd (hlib.pow _) na nb k' k
  | neg =>
    cases hf; cases hf'
    obtain ⟨a', a, na, k', k⟩ := una _ _ h' h
    exact lead_negative hT na k' k
  | pow =>
    cases hf; cases hf'
    obtain ⟨a', b', a, b, na, nb, k', k⟩ := bin _ _ h' h
    unfold powPush at k k'
    rw [lead_constantValue hd nb] at k'
    cases hv : b.constantValue with
    | none => rw [hv] at k; cases k
    | some v =>
      rw [hv] at k k'
      simp only at k k'
      by_cases hs : v.shape ≠ []
      · rw [if_pos hs] at k; cases k
      rw [if_neg hs] at k k'
      rw [hlib.expo] at k'
      cases he : lib.expo (v.get []) with
      | frac q =>
        rw [he] at k k'
        exact lead_powerOther hT hd (hlib.pow _) na k' k
      | int n =>
        rw [he] at k k'
        simp only at k k'
        by_cases hn : n < 0
        · rw [if_pos hn] at k k'
          exact lead_powerOther hT hd (hlib.pow _) na k' k
        · rw [if_neg hn] at k k'
          by_cases hn0 : n = 0
          · rw [if_pos hn0] at k k'
            exact lead_powerNat hT hd na k' k
          · rw [if_neg hn0] at k; cases k
  | integerPow y =>
    cases hf; cases hf'
    obtain ⟨a', a, na, k', k⟩ := una _ _ h' h
    by_cases hy : 0 ≤ y
    · rw [if_pos hy] at k k'
      exact lead_powerNat hT hd na k' k
    · rw [if_neg hy] at k k'
      exact lead_powerOther hT hd (hlib.pow _) na k' k
  | dotGeneral lc rc lb rb =>
    cases hf; cases hf'
    obtain ⟨a', b', a, b, na, nb, k', k⟩ := bin _ _ h' h
    rw [hlib.sem] at k'
    exact lead_bilinear hT na nb k' k
  | conv op =>
    cases hf; cases hf'
    obtain ⟨a', b', a, b, na, nb, k', k⟩ := bin _ _ h' h
    rw [hlib.sem] at k'
    exact lead_bilinear hT na nb k' k
  | broadcastInDim shape dims =>
    cases hf; cases hf'
    obtain ⟨a', a, na, k', k⟩ := una _ _ h' h
    exact lead_broadcastInDim na k' k
  | elementwise name =>
    simp only [pushforward, Option.map_eq_some_iff] at hf hf'
    obtain ⟨g, hg, rfl⟩ := hf
    obtain ⟨g', hg', rfl⟩ := hf'
    obtain ⟨a', a, na, k', k⟩ := una _ _ h' h
    exact lead_elementwise hT hd (hlib.gen _ _ _ hg' hg) na k' k
  | other _ _ => cases hf
  | jit body => cases hf; cases hf'; exact thru _ (una _ _ h' h)
  | convertElementType => cases hf; cases hf'; exact thru _ (una _ _ h' h)
  | reshape s => cases hf; cases hf'; exact thru (.reshape s) (una _ _ h' h)
  | reduceSum s => cases hf; cases hf'; exact thru (.reduceSum s) (una _ _ h' h)
  | reduceWindowSum s => cases hf; cases hf'; exact thru (.reduceWindowSum s) (una _ _ h' h)
  | squeeze s => cases hf; cases hf'; exact thru (.squeeze s) (una _ _ h' h)
  | transpose s => cases hf; cases hf'; exact thru (.transpose s) (una _ _ h' h)

theorem lead_eqnOutputs (hlib : LeadLib T.maxDegree lib' lib) (hT : LeadT T' T) (hd : 0 < T.maxDegree) {T0' T0 : TEA K}
    {propagate' propagate : Bool} {eqn : Eqn K} {ins' ins : List (Inter K)}
    (hi : List.Forall₂ (LeadI T.maxDegree) ins' ins) {o' o : List (Inter K)}
    (h' : eqnOutputs lib' T' T0' propagate' eqn ins' = .ok o') (h : eqnOutputs lib T T0 propagate eqn ins = .ok o) :
    List.Forall₂ (LeadI T.maxDegree) o' o := by
  have hcv : ins'.mapM Inter.constantValue = ins.mapM Inter.constantValue := by
    clear h h'
    induction hi with
    | nil => rfl
    | cons h1 _ ih => rw [List.mapM_cons, List.mapM_cons, lead_constantValue hd h1, ih]
  unfold eqnOutputs at h h'
  rw [hcv] at h'
  cases hc : ins.mapM Inter.constantValue with
  | some vals =>
    rw [hc] at h h'
    simp only [py_bind_ok, py_pure] at h h'
    obtain ⟨v, hv, rfl⟩ := h
    obtain ⟨v', hv', rfl⟩ := h'
    rw [hlib.sem, hv] at hv'; cases hv'
    exact List.forall₂_same.2 fun v _ => Lead.refl _ _
  | none =>
    rw [hc] at h h'
    simp only at h h'
    cases hf : pushforward lib T eqn.prim with
    | none => rw [hf] at h; cases h
    | some f =>
      cases hf' : pushforward lib' T' eqn.prim with
      | none => rw [hf'] at h'; cases h'
      | some f' =>
        rw [hf] at h
        rw [hf'] at h'
        simp only [py_bind_ok] at h h'
        obtain ⟨e, he, h⟩ := h
        obtain ⟨e', he', h'⟩ := h'
        have hn := lead_pushforward hlib hT hd hf' hf hi he' he
        have one : ∀ {lib : Lib K} {T T0 : TEA K} {propagate : Bool} {ins o : List (Inter K)} {e : Encl K},
            (if eqn.outvars.length ≠ 1 then .error .unmodelled
            else if propagate then do
              let r ← outRegion lib T T0 eqn.prim ins e
              return [⟨e, some r⟩]
            else return [⟨e, none⟩]) = (.ok o : Py (List (Inter K))) → ∃ t, o = [⟨e, t⟩] := by
          intro lib T T0 propagate ins o e h
          by_cases hl : eqn.outvars.length ≠ 1
          · rw [if_pos hl] at h; cases h
          rw [if_neg hl] at h
          cases propagate with
          | false =>
            simp only [Bool.false_eq_true, if_false, py_pure] at h
            exact ⟨none, h.symm⟩
          | true =>
            simp only [if_true, py_bind_ok, py_pure] at h
            obtain ⟨r, hr, rfl⟩ := h
            exact ⟨some r, rfl⟩
        obtain ⟨t, rfl⟩ := one h
        obtain ⟨t', rfl⟩ := one h'
        exact .cons hn .nil

/-- environments that bind the same variables to enclosures with the same coefficients of degree `< d` -/
abbrev LeadEnv (d : ℕ) (env' env : Env K) : Prop :=
  List.Forall₂ (fun x y : ℤ × Inter K => x.1 = y.1 ∧ LeadI d x.2 y.2) env' env

theorem leadEnv_lookup {d : ℕ} {env' env : Env K} (h : LeadEnv d env' env) (v : ℤ) :
    (env'.lookup v = none ∧ env.lookup v = none) ∨
    ∃ i' i, env'.lookup v = some i' ∧ env.lookup v = some i ∧ LeadI d i' i := by
  induction h with
  | nil => exact .inl ⟨rfl, rfl⟩
  | @cons x y l' l h1 _ ih =>
    obtain ⟨n', i'⟩ := x
    obtain ⟨n, i⟩ := y
    obtain ⟨rfl, h2⟩ : n' = n ∧ LeadI d i' i := h1
    by_cases hv : v == n'
    · exact .inr ⟨i', i, by simp [List.lookup, hv], by simp [List.lookup, hv], h2⟩
    · have hv : (v == n') = false := by simpa using hv
      simp only [List.lookup, hv]
      exact ih

theorem lead_getInter {d : ℕ} {env' env : Env K} (h : LeadEnv d env' env) (a : Atom K) {i' i : Inter K}
    (h1 : getInter env' a = .ok i') (h2 : getInter env a = .ok i) : LeadI d i' i := by
  cases a with
  | lit a => cases h1; cases h2; exact Lead.refl _ _
  | var v =>
    unfold getInter at h1 h2
    rcases leadEnv_lookup h v with ⟨e1, e2⟩ | ⟨j', j, e1, e2, hj⟩
    · simp only [e1] at h1; cases h1
    · simp only [e1] at h1
      simp only [e2] at h2
      cases h1; cases h2; exact hj

theorem lead_getInters {d : ℕ} {env' env : Env K} (h : LeadEnv d env' env) {as : List (Atom K)} {ins' ins : List (Inter K)}
    (h1 : as.mapM (getInter env') = .ok ins') (h2 : as.mapM (getInter env) = .ok ins) :
    List.Forall₂ (LeadI d) ins' ins := by
  refine mapM_rel (Rx := Eq) ?_ (List.forall₂_same.2 fun _ _ => rfl) h1 h2
  rintro a _ i' i rfl h' h0
  exact lead_getInter h a h' h0

theorem lead_step (hlib : LeadLib T.maxDegree lib' lib) (hT : LeadT T' T) (hd : 0 < T.maxDegree) {T0' T0 : TEA K}
    {propagate' propagate : Bool} {xs : List ℕ} {eqn : Eqn K} {env' env r' r : Env K} (he : LeadEnv T.maxDegree env' env)
    (h' : step lib' T' T0' propagate' xs env' eqn = .ok r') (h : step lib T T0 propagate xs env eqn = .ok r) :
    LeadEnv T.maxDegree r' r := by
  simp only [step, py_bind_ok] at h h'
  obtain ⟨ins, hi, o, ho, h⟩ := h
  obtain ⟨ins', hi', o', ho', h'⟩ := h'
  have hno := lead_eqnOutputs hlib hT hd (lead_getInters he hi' hi) ho' ho
  by_cases hl : o.length ≠ eqn.outvars.length
  · rw [if_pos hl] at h; cases h
  rw [if_neg hl] at h
  rw [if_neg (by rw [hno.length_eq]; exact hl)] at h'
  have hz : List.Forall₂ (fun x y : ℤ × Inter K => x.1 = y.1 ∧ LeadI T.maxDegree x.2 y.2) (eqn.outvars.zip o')
      (eqn.outvars.zip o) := by
    clear h h' hl ho ho'
    generalize eqn.outvars = vs
    induction hno generalizing vs with
    | nil => simp
    | cons h1 _ ih =>
      cases vs with
      | nil => simp
      | cons v vs => exact .cons ⟨rfl, h1⟩ (ih vs)
  refine foldlM_rel (Rs := LeadEnv T.maxDegree) ?_ hz he h' h
  rintro s' s ⟨v', i'⟩ ⟨v, i⟩ t' t hs ⟨hv, hi⟩ h' h
  obtain rfl : v' = v := hv
  unfold storeOne at h h'
  simp only at h h'
  by_cases hm : v' = -1
  · rw [if_pos hm] at h h'
    cases h; cases h'; exact hs
  rw [if_neg hm] at h h'
  rcases leadEnv_lookup hs v' with ⟨e1, e2⟩ | ⟨j', j, e1, e2, -⟩
  · rw [e2] at h
    rw [e1] at h'
    simp only [Option.isSome_none, Bool.false_eq_true, if_false, py_bind_ok, py_pure] at h h'
    obtain ⟨_, _, rfl⟩ := h
    obtain ⟨_, _, rfl⟩ := h'
    exact .cons ⟨rfl, hi⟩ hs
  · rw [e2] at h
    simp at h

theorem lead_run (hlib : LeadLib T.maxDegree lib' lib) (hT : LeadT T' T) (hd : 0 < T.maxDegree) {T0' T0 : TEA K}
    {propagate' propagate : Bool} {xs : List ℕ} {eqns : List (Eqn K)} {env' env r' r : Env K}
    (he : LeadEnv T.maxDegree env' env)
    (h' : eqns.foldlM (step lib' T' T0' propagate' xs) env' = .ok r')
    (h : eqns.foldlM (step lib T T0 propagate xs) env = .ok r) : LeadEnv T.maxDegree r' r := by
  induction eqns generalizing env' env with
  | nil => cases h; cases h'; exact he
  | cons q qs ih =>
    rw [List.foldlM_cons, py_bind_ok] at h h'
    obtain ⟨m, hm, h⟩ := h
    obtain ⟨m', hm', h'⟩ := h'
    exact ih (lead_step hlib hT hd he hm' hm) h' h

theorem lead_initEnv {propagate' propagate : Bool} {md : ℕ} (hmd : 0 < md) {jaxpr : Jaxpr K} {consts : List (ND K)}
    {x0 lo' hi' lo hi : ND K} {env' env : Env K} (h' : initEnv propagate' md jaxpr consts x0 lo' hi' = .ok env')
    (h : initEnv propagate md jaxpr consts x0 lo hi = .ok env) : LeadEnv md env' env := by
  simp only [initEnv, py_bind_ok] at h h'
  obtain ⟨idm, hid, h⟩ := h
  obtain ⟨idm', hid', h'⟩ := h'
  rw [hid] at hid'; cases hid'
  by_cases hl : consts.length ≠ jaxpr.constvars.length
  · rw [if_pos hl] at h; cases h
  rw [if_neg hl] at h h'
  split at h
  · rename_i v hv
    rw [hv] at h'
    simp only [py_pure] at h h'
    cases h; cases h'
    refine .cons ⟨rfl, ?_⟩ (List.forall₂_same.2 fun x _ => ⟨rfl, Lead.refl _ _⟩)
    show Lead md (if md > 0 then _ else _) (if md > 0 then _ else _)
    rw [if_pos hmd, if_pos hmd]
    exact Lead.refl _ _
  · cases h

theorem sub_shape {lo' hi' lo hi x0 a' b' a b : ND K} (hs : lo'.shape = lo.shape)
    (h' : IA.subtract (.ivl lo' hi') (.arr x0) = .ok (.ivl a' b')) (h : IA.subtract (.ivl lo hi) (.arr x0) = .ok (.ivl a b)) :
    a'.shape = a.shape := by
  simp only [IA.subtract, py_bind_ok, py_pure] at h h'
  obtain ⟨u, hu, v, hv, e⟩ := h
  obtain ⟨u', hu', v', hv', e'⟩ := h'
  cases e; cases e'
  have := (ND.map2_ok hu).1
  have k := (ND.map2_ok hu').1
  rw [hs, this] at k
  exact (Option.some.inj k).symm

theorem lead_taylorEnv {md : ℤ} (hmd : 0 < md) (hlib : LeadLib md.toNat lib' lib) {jaxpr : Jaxpr K} {consts : List (ND K)}
    {propagate' propagate : Bool} {x0 lo' hi' lo hi : ND K} (hs : lo'.shape = lo.shape) {env' env : Env K}
    (h' : taylorEnv lib' jaxpr consts md propagate' x0 lo' hi' = .ok env')
    (h : taylorEnv lib jaxpr consts md propagate x0 lo hi = .ok env) : LeadEnv md.toNat env' env := by
  have key : ∀ {lib : Lib K} {propagate : Bool} {lo hi : ND K} {env : Env K},
      taylorEnv lib jaxpr consts md propagate x0 lo hi = .ok env → ∃ a b T T0 env0,
        IA.subtract (.ivl lo hi) (.arr x0) = .ok (.ivl a b) ∧ T.maxDegree = md.toNat ∧ T.trLo = a ∧
        initEnv (propagate && (md != 0)) md.toNat jaxpr consts x0 lo hi = .ok env0 ∧
        jaxpr.eqns.foldlM (step lib T T0 (propagate && (md != 0)) x0.shape) env0 = .ok env := by
    intro lib propagate lo hi env h
    unfold taylorEnv at h
    rw [if_neg (by omega)] at h
    simp only [py_bind_ok] at h
    obtain ⟨c, hc, h⟩ := h
    cases c with
    | arr _ => cases h
    | ivl a b =>
      simp only [py_bind_ok] at h
      obtain ⟨T, hT, T0, hT0, env0, he, h⟩ := h
      unfold TEA.init at hT
      split_ifs at hT
      cases hT
      exact ⟨a, b, _, T0, env0, hc, rfl, rfl, he, h⟩
  obtain ⟨a, b, T, T0, env0, h1, h2, h3, h4, h5⟩ := key h
  obtain ⟨a', b', T', T0', env0', h1', h2', h3', h4', h5'⟩ := key h'
  rw [← h2] at hlib ⊢
  refine lead_run hlib ⟨by rw [h2, h2'], by rw [h3, h3']; exact sub_shape hs h1' h1⟩ (by omega) ?_ h5' h5
  rw [h2]
  exact lead_initEnv (by omega) h4' h4

end JB
end AB
