/-
C64: the bounds depend only on the data flow of the program: not on the names of the variables, not on the order of
the equations and not on equations whose results are not needed
(/repo/autobound/jax/jax_bound.py:114-212).
-/
import Verif.Spec.Dataflow
import Verif.Proofs.JaxBound
import Verif.Props.PolyEx

set_option linter.unusedSectionVars false

namespace AB
namespace JB
variable {K : Type} [Field K] [LinearOrder K]

/-! ### The environment after a run -/

/-- every binding of `env` is in `env'` -/
def EnvSub (env env' : Env K) : Prop := ∀ v i, env.lookup v = some i → env'.lookup v = some i

theorem storeOne_sub {xs : List ℕ} {env env' : Env K} {vi : ℤ × Inter K} (h : storeOne xs env vi = .ok env') :
    EnvSub env env' ∧ (vi.1 ≠ -1 → env'.lookup vi.1 = some vi.2 ∧ validateEnclosure xs vi.2.encl = .ok ()) := by
  unfold storeOne at h
  by_cases h1 : vi.1 = -1
  · rw [if_pos h1] at h
    cases h
    exact ⟨fun _ _ h => h, fun h => absurd h1 h⟩
  rw [if_neg h1] at h
  by_cases h2 : (env.lookup vi.1).isSome = true
  · rw [if_pos h2] at h; cases h
  rw [if_neg h2] at h
  simp only [py_bind_ok, py_pure] at h
  obtain ⟨_, hv0, rfl⟩ := h
  refine ⟨fun v i hv => ?_, fun _ => ⟨by simp [List.lookup], hv0⟩⟩
  rw [List.lookup_cons]
  by_cases e : (v == vi.1) = true
  · rw [beq_iff_eq.1 e] at hv
    rw [hv] at h2
    exact absurd rfl h2
  · rw [Bool.not_eq_true] at e
    rw [e]; exact hv

theorem stores_sub {xs : List ℕ} {l : List (ℤ × Inter K)} : ∀ {env env' : Env K}, l.foldlM (storeOne xs) env = .ok env' →
    EnvSub env env' ∧ ∀ vi ∈ l, vi.1 ≠ -1 → env'.lookup vi.1 = some vi.2 ∧ validateEnclosure xs vi.2.encl = .ok () := by
  induction l with
  | nil =>
    intro env env' h
    cases h
    exact ⟨fun _ _ h => h, fun _ h => absurd h List.not_mem_nil⟩
  | cons a l ih =>
    intro env env' h
    rw [List.foldlM_cons] at h
    simp only [py_bind_ok] at h
    obtain ⟨env1, h1, h⟩ := h
    obtain ⟨s1, a1⟩ := storeOne_sub h1
    obtain ⟨s2, a2⟩ := ih h
    refine ⟨fun v i hv => s2 v i (s1 v i hv), fun vi hvi hn => ?_⟩
    rcases List.mem_cons.1 hvi with rfl | hvi
    · exact ⟨s2 _ _ (a1 hn).1, (a1 hn).2⟩
    · exact a2 vi hvi hn

theorem getInter_sub {env env' : Env K} (hs : EnvSub env env') {a : Atom K} {i : Inter K} (h : getInter env a = .ok i) :
    getInter env' a = .ok i := by
  cases a with
  | lit _ => exact h
  | var v =>
    unfold getInter at h ⊢
    cases hl : env.lookup v with
    | none => simp only [hl] at h; cases h
    | some j =>
      simp only [hl] at h
      simp only [hs v j hl]
      exact h

theorem getInters_sub {env env' : Env K} (hs : EnvSub env env') {l : List (Atom K)} {is : List (Inter K)}
    (h : l.mapM (getInter env) = .ok is) : l.mapM (getInter env') = .ok is := by
  induction l generalizing is with
  | nil => exact h
  | cons a l ih =>
    rw [List.mapM_cons] at h ⊢
    simp only [py_bind_ok, py_pure] at h
    obtain ⟨i, hi, js, hj, rfl⟩ := h
    rw [getInter_sub hs hi, ih hj]
    rfl

/-- what an executed equation leaves behind -/
def Satisfied (lib : Lib K) (T T0 : TEA K) (pr : Bool) (xs : List ℕ) (env : Env K) (eqn : Eqn K) : Prop :=
  ∃ ins outs, eqn.invars.mapM (getInter env) = .ok ins ∧ eqnOutputs lib T T0 pr eqn ins = .ok outs ∧
    outs.length = eqn.outvars.length ∧ ∀ vi ∈ eqn.outvars.zip outs, vi.1 ≠ -1 →
      env.lookup vi.1 = some vi.2 ∧ validateEnclosure xs vi.2.encl = .ok ()

theorem step_sub {lib : Lib K} {T T0 : TEA K} {pr : Bool} {xs : List ℕ} {env env' : Env K} {eqn : Eqn K}
    (h : step lib T T0 pr xs env eqn = .ok env') : EnvSub env env' ∧ Satisfied lib T T0 pr xs env' eqn := by
  simp only [step, py_bind_ok] at h
  obtain ⟨ins, h1, outs, h2, h⟩ := h
  by_cases hl : outs.length ≠ eqn.outvars.length
  · rw [if_pos hl] at h; cases h
  rw [if_neg hl] at h
  obtain ⟨s, a⟩ := stores_sub h
  exact ⟨s, ins, outs, getInters_sub s h1, h2, not_ne_iff.1 hl, a⟩

theorem run_sub {lib : Lib K} {T T0 : TEA K} {pr : Bool} {xs : List ℕ} {l : List (Eqn K)} : ∀ {env env' : Env K},
    l.foldlM (step lib T T0 pr xs) env = .ok env' → EnvSub env env' ∧ ∀ eqn ∈ l, Satisfied lib T T0 pr xs env' eqn := by
  induction l with
  | nil =>
    intro env env' h
    cases h
    exact ⟨fun _ _ h => h, fun _ h => absurd h List.not_mem_nil⟩
  | cons e l ih =>
    intro env env' h
    rw [List.foldlM_cons] at h
    simp only [py_bind_ok] at h
    obtain ⟨env1, h1, h⟩ := h
    obtain ⟨s1, ins, outs, a1, a2, a3, a4⟩ := step_sub h1
    obtain ⟨s2, b2⟩ := ih h
    refine ⟨fun v i hv => s2 v i (s1 v i hv), fun eqn he => ?_⟩
    rcases List.mem_cons.1 he with rfl | he
    · exact ⟨ins, outs, getInters_sub s2 a1, a2, a3, fun vi hv hn => ⟨s2 _ _ (a4 vi hv hn).1, (a4 vi hv hn).2⟩⟩
    · exact b2 eqn he

/-- storing values that are already those of the larger environment -/
theorem stores_within {xs : List ℕ} {F : Env K} {l : List (ℤ × Inter K)} :
    ∀ {env env' : Env K}, EnvSub env F → (∀ vi ∈ l, vi.1 ≠ -1 → F.lookup vi.1 = some vi.2) →
      l.foldlM (storeOne xs) env = .ok env' → EnvSub env' F := by
  induction l with
  | nil => intro env env' hs _ h; cases h; exact hs
  | cons a l ih =>
    intro env env' hs hF h
    rw [List.foldlM_cons] at h
    simp only [py_bind_ok] at h
    obtain ⟨env1, h1, h⟩ := h
    refine ih ?_ (fun vi hv => hF vi (List.mem_cons_of_mem _ hv)) h
    unfold storeOne at h1
    by_cases c1 : a.1 = -1
    · rw [if_pos c1] at h1
      cases h1
      exact hs
    rw [if_neg c1] at h1
    by_cases c2 : (env.lookup a.1).isSome = true
    · rw [if_pos c2] at h1; cases h1
    rw [if_neg c2] at h1
    simp only [py_bind_ok, py_pure] at h1
    obtain ⟨_, -, rfl⟩ := h1
    intro v i hv
    rw [List.lookup_cons] at hv
    by_cases e : (v == a.1) = true
    · rw [e] at hv
      cases hv
      rw [beq_iff_eq.1 e]
      exact hF a (by simp) c1
    · rw [Bool.not_eq_true] at e
      rw [e] at hv
      exact hs v i hv

theorem run_within {lib : Lib K} {T T0 : TEA K} {pr : Bool} {xs : List ℕ} {F : Env K} {l : List (Eqn K)} :
    ∀ {env env' : Env K}, EnvSub env F → (∀ eqn ∈ l, Satisfied lib T T0 pr xs F eqn) →
      l.foldlM (step lib T T0 pr xs) env = .ok env' → EnvSub env' F := by
  induction l with
  | nil => intro env env' hs _ h; cases h; exact hs
  | cons e l ih =>
    intro env env' hs hF h
    rw [List.foldlM_cons] at h
    simp only [py_bind_ok] at h
    obtain ⟨env1, h1, h⟩ := h
    refine ih ?_ (fun eqn he => hF eqn (List.mem_cons_of_mem _ he)) h
    simp only [step, py_bind_ok] at h1
    obtain ⟨ins, g1, outs, g2, h1⟩ := h1
    by_cases hl : outs.length ≠ e.outvars.length
    · rw [if_pos hl] at h1; cases h1
    rw [if_neg hl] at h1
    obtain ⟨ins', outs', f1, f2, -, f4⟩ := hF e (by simp)
    rw [getInters_sub hs g1] at f1
    cases f1
    rw [g2] at f2
    cases f2
    exact stores_within hs (fun vi hv hn => (f4 vi hv hn).1) h1

/-! ### Which variables are stored -/

/-- the variables that are stored -/
def keys (l : List (ℤ × Inter K)) : List ℤ := (l.map Prod.fst).filter (· ≠ -1)

theorem keys_cons (a : ℤ × Inter K) (l : List (ℤ × Inter K)) : keys (a :: l) = if a.1 = -1 then keys l else a.1 :: keys l := by
  unfold keys
  by_cases h : a.1 = -1
  · simp [h]
  · simp [h]

theorem stores_keys {xs : List ℕ} {l : List (ℤ × Inter K)} : ∀ {env env' : Env K}, l.foldlM (storeOne xs) env = .ok env' →
    (keys l).Nodup ∧ (∀ v ∈ keys l, env.lookup v = none) ∧
      ∀ v, (env'.lookup v).isSome = true ↔ (env.lookup v).isSome = true ∨ v ∈ keys l := by
  induction l with
  | nil =>
    intro env env' h
    cases h
    simp [keys]
  | cons a l ih =>
    intro env env' h
    rw [List.foldlM_cons] at h
    simp only [py_bind_ok] at h
    obtain ⟨env1, h1, h⟩ := h
    obtain ⟨n2, d2, k2⟩ := ih h
    rw [keys_cons]
    unfold storeOne at h1
    by_cases c1 : a.1 = -1
    · rw [if_pos c1] at h1 ⊢
      cases h1
      exact ⟨n2, d2, k2⟩
    rw [if_neg c1] at h1 ⊢
    by_cases c2 : (env.lookup a.1).isSome = true
    · rw [if_pos c2] at h1; cases h1
    rw [if_neg c2] at h1
    simp only [py_bind_ok, py_pure] at h1
    obtain ⟨_, -, rfl⟩ := h1
    have hl : ∀ v, v ≠ a.1 → List.lookup v ((a.1, a.2) :: env) = env.lookup v := by
      intro v hv
      rw [List.lookup_cons, beq_eq_false_iff_ne.2 hv]
    have hl0 : List.lookup a.1 ((a.1, a.2) :: env) = some a.2 := by rw [List.lookup_cons, beq_self_eq_true]
    have hna : a.1 ∉ keys l := fun h => by
      have := d2 _ h
      rw [hl0] at this
      cases this
    refine ⟨List.nodup_cons.2 ⟨hna, n2⟩, fun v hv => ?_, fun v => ?_⟩
    · rcases List.mem_cons.1 hv with rfl | hv
      · exact Option.not_isSome_iff_eq_none.1 c2
      · rw [← hl v (fun h => hna (h ▸ hv))]
        exact d2 v hv
    · rw [k2 v, List.mem_cons]
      by_cases hv : v = a.1
      · subst hv
        rw [hl0]
        simp
      · rw [hl v hv]
        simp [hv]

theorem stores_returns {xs : List ℕ} {l : List (ℤ × Inter K)} : ∀ {env : Env K}, (keys l).Nodup →
    (∀ v ∈ keys l, env.lookup v = none) → (∀ vi ∈ l, vi.1 ≠ -1 → validateEnclosure xs vi.2.encl = .ok ()) →
    ∃ env', l.foldlM (storeOne xs) env = .ok env' := by
  induction l with
  | nil => exact fun {env} _ _ _ => ⟨env, rfl⟩
  | cons a l ih =>
    intro env hn hd hv
    rw [keys_cons] at hn hd
    rw [List.foldlM_cons]
    by_cases c1 : a.1 = -1
    · rw [if_pos c1] at hn hd
      have : storeOne xs env a = .ok env := by
        unfold storeOne
        rw [if_pos c1]
        rfl
      rw [this, py_ok_bind]
      exact ih hn hd fun vi h => hv vi (List.mem_cons_of_mem _ h)
    · rw [if_neg c1] at hn hd
      have : storeOne xs env a = .ok ((a.1, a.2) :: env) := by
        unfold storeOne
        rw [if_neg c1, if_neg (by rw [hd _ (List.mem_cons_self ..)]; simp), hv a (List.mem_cons_self ..) c1]
        rfl
      rw [this, py_ok_bind]
      refine ih (List.nodup_cons.1 hn).2 (fun v h => ?_) fun vi h => hv vi (List.mem_cons_of_mem _ h)
      have hne : v ≠ a.1 := fun e => (List.nodup_cons.1 hn).1 (e ▸ h)
      rw [List.lookup_cons, beq_eq_false_iff_ne.2 hne]
      exact hd v (List.mem_cons_of_mem _ h)

theorem keys_zip {ov : List ℤ} {outs : List (Inter K)} (h : outs.length = ov.length) :
    keys (ov.zip outs) = ov.filter (· ≠ -1) := by
  unfold keys
  rw [List.map_fst_zip (by rw [h])]

theorem step_keys {lib : Lib K} {T T0 : TEA K} {pr : Bool} {xs : List ℕ} {env env' : Env K} {eqn : Eqn K}
    (h : step lib T T0 pr xs env eqn = .ok env') : (assigned [eqn]).Nodup ∧ (∀ v ∈ assigned [eqn], env.lookup v = none) ∧
      ∀ v, (env'.lookup v).isSome = true ↔ (env.lookup v).isSome = true ∨ v ∈ assigned [eqn] := by
  simp only [step, py_bind_ok] at h
  obtain ⟨ins, h1, outs, h2, h⟩ := h
  by_cases hl : outs.length ≠ eqn.outvars.length
  · rw [if_pos hl] at h; cases h
  rw [if_neg hl] at h
  have := stores_keys h
  rw [keys_zip (not_ne_iff.1 hl)] at this
  have e : assigned [eqn] = eqn.outvars.filter (· ≠ -1) := by simp [assigned]
  rw [e]
  exact this

theorem assigned_cons (e : Eqn K) (l : List (Eqn K)) : assigned (e :: l) = assigned [e] ++ assigned l := by
  simp [assigned]

theorem run_keys {lib : Lib K} {T T0 : TEA K} {pr : Bool} {xs : List ℕ} {l : List (Eqn K)} : ∀ {env env' : Env K},
    l.foldlM (step lib T T0 pr xs) env = .ok env' → (assigned l).Nodup ∧ ∀ v ∈ assigned l, env.lookup v = none := by
  induction l with
  | nil => intro env env' _; simp [assigned]
  | cons e l ih =>
    intro env env' h
    rw [List.foldlM_cons] at h
    simp only [py_bind_ok] at h
    obtain ⟨env1, h1, h⟩ := h
    obtain ⟨n1, d1, k1⟩ := step_keys h1
    obtain ⟨n2, d2⟩ := ih h
    rw [assigned_cons]
    have hnone : ∀ v ∈ assigned l, env.lookup v = none ∧ v ∉ assigned [e] := by
      intro v hv
      have h0 : ¬ (env1.lookup v).isSome = true := by rw [d2 v hv]; simp
      rw [k1 v, not_or] at h0
      exact ⟨Option.not_isSome_iff_eq_none.1 h0.1, h0.2⟩
    refine ⟨List.nodup_append.2 ⟨n1, n2, fun a ha b hb hab => (hnone b hb).2 (hab ▸ ha)⟩, fun v hv => ?_⟩
    rcases List.mem_append.1 hv with hv | hv
    · exact d1 v hv
    · exact (hnone v hv).1

theorem getInters_within {env F : Env K} (hs : EnvSub env F) {l : List (Atom K)}
    (hd : ∀ v, Atom.var v ∈ l → (env.lookup v).isSome = true) {ins : List (Inter K)} (h : l.mapM (getInter F) = .ok ins) :
    l.mapM (getInter env) = .ok ins := by
  induction l generalizing ins with
  | nil => exact h
  | cons a l ih =>
    rw [List.mapM_cons] at h ⊢
    simp only [py_bind_ok, py_pure] at h
    obtain ⟨i, hi, js, hj, rfl⟩ := h
    rw [ih (fun v hv => hd v (List.mem_cons_of_mem _ hv)) hj]
    have : getInter env a = .ok i := by
      cases a with
      | lit _ => exact hi
      | var v =>
        obtain ⟨j, hjv⟩ := Option.isSome_iff_exists.1 (hd v (by simp))
        have h1 : getInter env (.var v) = .ok j := by unfold getInter; simp only [hjv]
        have h2 := getInter_sub hs h1
        rw [hi] at h2
        cases h2
        exact h1
    rw [this]
    rfl

theorem run_returns {lib : Lib K} {T T0 : TEA K} {pr : Bool} {xs : List ℕ} {F : Env K} {l : List (Eqn K)} :
    ∀ {env : Env K} {known : List ℤ}, EnvSub env F → (∀ eqn ∈ l, Satisfied lib T T0 pr xs F eqn) → (assigned l).Nodup →
      (∀ v ∈ assigned l, env.lookup v = none) → (∀ v ∈ known, (env.lookup v).isSome = true) → InOrder known l →
      ∃ env', l.foldlM (step lib T T0 pr xs) env = .ok env' ∧
        ∀ v, v ∈ known ∨ v ∈ assigned l → (env'.lookup v).isSome = true := by
  induction l with
  | nil => exact fun {env _} _ _ _ _ hk _ => ⟨env, rfl, fun v hv => hk v (hv.resolve_right (by simp [assigned]))⟩
  | cons e l ih =>
    intro env known hs hF hn hd hk ho
    rw [assigned_cons] at hn hd
    obtain ⟨ins, outs, f1, f2, f3, f4⟩ := hF e (by simp)
    have e0 : assigned [e] = keys (e.outvars.zip outs) := by rw [keys_zip f3]; simp [assigned]
    have hn' := List.nodup_append.1 hn
    obtain ⟨env1, h1⟩ := stores_returns (xs := xs) (l := e.outvars.zip outs) (env := env) (e0 ▸ hn'.1)
      (fun v hv => hd v (List.mem_append.2 (Or.inl (by rw [e0]; exact hv)))) fun vi hv hne => (f4 vi hv hne).2
    have hstep : step lib T T0 pr xs env e = .ok env1 := by
      unfold step
      rw [getInters_within hs (fun v hv => hk v (ho.1 v hv)) f1, py_ok_bind, f2, py_ok_bind, if_neg (not_ne_iff.2 f3)]
      exact h1
    obtain ⟨-, -, k1⟩ := step_keys hstep
    obtain ⟨env', h2, h3⟩ := ih (env := env1) (known := known ++ assigned [e])
      (stores_within hs (fun vi hv hne => (f4 vi hv hne).1) h1)
      (fun eqn he => hF eqn (List.mem_cons_of_mem _ he)) hn'.2.1
      (fun v hv => by
        have h0 : ¬ (env1.lookup v).isSome = true := by
          rw [k1 v, hd v (List.mem_append.2 (Or.inr hv))]
          rintro (h | h)
          · cases h
          · exact hn'.2.2 v h v hv rfl
        exact Option.not_isSome_iff_eq_none.1 h0)
      (fun v hv => by
        rw [k1 v]
        rcases List.mem_append.1 hv with hv | hv
        · exact Or.inl (hk v hv)
        · exact Or.inr hv) ho.2
    refine ⟨env', ?_, fun v hv => h3 v ?_⟩
    · rw [List.foldlM_cons, hstep, py_ok_bind]
      exact h2
    · rw [assigned_cons] at hv
      rcases hv with hv | hv
      · exact Or.inl (List.mem_append.2 (Or.inl hv))
      · rcases List.mem_append.1 hv with hv | hv
        · exact Or.inl (List.mem_append.2 (Or.inr hv))
        · exact Or.inr hv

theorem lookup_zip_some_df {cv : List ℤ} {l : List (Inter K)} (h : l.length = cv.length) {v : ℤ} (hv : v ∈ cv) :
    (List.lookup v (cv.zip l)).isSome = true := by
  induction cv generalizing l with
  | nil => cases hv
  | cons c cv ih =>
    cases l with
    | nil => cases h
    | cons a l =>
      rw [List.zip_cons_cons, List.lookup_cons]
      by_cases e : (v == c) = true
      · rw [e]; rfl
      · have hv' : v ∈ cv := (List.mem_cons.1 hv).resolve_left (fun h => e (beq_iff_eq.2 h))
        rw [Bool.not_eq_true] at e
        rw [e]
        exact ih (by simpa using h) hv'

theorem initEnv_known {pr : Bool} {md : ℕ} {j : Jaxpr K} {consts : List (ND K)} {x0 lo hi : ND K} {env : Env K}
    (h : initEnv pr md j consts x0 lo hi = .ok env) : ∀ v ∈ j.invars ++ j.constvars, (env.lookup v).isSome = true := by
  simp only [initEnv, py_bind_ok] at h
  obtain ⟨idc, -, h⟩ := h
  by_cases hl : consts.length ≠ j.constvars.length
  · rw [if_pos hl] at h; cases h
  rw [if_neg hl] at h
  revert h
  match j.invars with
  | [] => intro h; cases h
  | _ :: _ :: _ => intro h; cases h
  | [w] =>
    intro h
    cases h
    intro v hv
    rw [List.lookup_cons]
    by_cases e : (v == w) = true
    · rw [e]; rfl
    · rw [List.singleton_append] at hv
      have hv' := (List.mem_cons.1 hv).resolve_left (fun h => e (beq_iff_eq.2 h))
      rw [Bool.not_eq_true] at e
      rw [e]
      exact lookup_zip_some_df (by simpa using not_ne_iff.1 hl) hv'

/-- **C64 (order of the equations, unneeded equations).** Let two programs have the same inputs and outputs, and let every
equation of the second be one of the first (the order may differ, and equations may be missing). If `taylor_bounds`
returns for both, it returns the same bounds. -/
theorem C64_dataflow {lib : Lib K} {j1 j2 : Jaxpr K} (hc : j2.constvars = j1.constvars) (hin : j2.invars = j1.invars)
    (ho : j2.outvars = j1.outvars) (he : ∀ eqn ∈ j2.eqns, eqn ∈ j1.eqns) {consts : List (ND K)} {maxDegree : ℤ}
    {propagate : Bool} {x0 lo hi : ND K} {b1 b2 : Bounds K}
    (h1 : taylorBounds lib j1 consts maxDegree propagate x0 lo hi = .ok b1)
    (h2 : taylorBounds lib j2 consts maxDegree propagate x0 lo hi = .ok b2) : b2 = b1 := by
  simp only [taylorBounds, py_bind_ok] at h1 h2
  obtain ⟨F1, f1, h1⟩ := h1
  obtain ⟨F2, f2, h2⟩ := h2
  unfold taylorEnv at f1 f2
  by_cases hmd : maxDegree < 0
  · rw [if_pos hmd] at f1; cases f1
  rw [if_neg hmd] at f1 f2
  simp only [py_bind_ok] at f1 f2
  obtain ⟨t, ht, f1⟩ := f1
  obtain ⟨t', ht', f2⟩ := f2
  rw [ht] at ht'
  cases ht'
  cases t with
  | arr _ => cases f1
  | ivl tlo thi =>
    simp only [py_bind_ok] at f1 f2
    obtain ⟨T, hT, T0, hT0, env, hinit, f1⟩ := f1
    obtain ⟨T', hT', T0', hT0', env', hinit', f2⟩ := f2
    rw [hT] at hT'; cases hT'
    rw [hT0] at hT0'; cases hT0'
    have e0 : initEnv (propagate && maxDegree != 0) maxDegree.toNat j2 consts x0 lo hi =
        initEnv (propagate && maxDegree != 0) maxDegree.toNat j1 consts x0 lo hi := by
      unfold initEnv
      rw [hc, hin]
    rw [e0, hinit] at hinit'
    cases hinit'
    obtain ⟨s1, sat⟩ := run_sub f1
    have hsub := run_within s1 (fun eqn h => sat eqn (he eqn h)) f2
    rw [ho] at h2
    revert h1 h2
    match j1.outvars with
    | [] => intro h1 _; cases h1
    | _ :: _ :: _ => intro h1 _; cases h1
    | [o] =>
      intro h1 h2
      simp only [py_bind_ok, py_pure] at h1 h2
      obtain ⟨i1, g1, rfl⟩ := h1
      obtain ⟨i2, g2, rfl⟩ := h2
      rw [getInter_sub hsub g2] at g1
      cases g1
      rfl

theorem sublist_flatMap {α β : Type} {l l' : List α} (h : l.Sublist l') (f : α → List β) :
    (l.flatMap f).Sublist (l'.flatMap f) := by
  induction h with
  | slnil => exact .slnil
  | cons a _ ih => rw [List.flatMap_cons]; exact ih.trans (List.sublist_append_right _ _)
  | cons_cons a _ ih => rw [List.flatMap_cons, List.flatMap_cons]; exact (List.Sublist.refl _).append ih

/-- **C64 (such a program returns).** Let `taylor_bounds` return `b` for a program. Take some of its equations, in any
order in which every variable is assigned before it is read, and the output is assigned. For the new program
`taylor_bounds` returns the same `b`. -/
theorem C64_reordered {lib : Lib K} {j1 j2 : Jaxpr K} (hc : j2.constvars = j1.constvars) (hin : j2.invars = j1.invars)
    (ho : j2.outvars = j1.outvars) (he : j2.eqns.Subperm j1.eqns) (hord : InOrder (j2.invars ++ j2.constvars) j2.eqns)
    (hout : ∀ v, Atom.var v ∈ j2.outvars → v ∈ j2.invars ++ j2.constvars ∨ v ∈ assigned j2.eqns)
    {consts : List (ND K)} {maxDegree : ℤ} {propagate : Bool} {x0 lo hi : ND K} {b : Bounds K}
    (h1 : taylorBounds lib j1 consts maxDegree propagate x0 lo hi = .ok b) :
    taylorBounds lib j2 consts maxDegree propagate x0 lo hi = .ok b := by
  suffices h2 : ∃ b2, taylorBounds lib j2 consts maxDegree propagate x0 lo hi = .ok b2 by
    obtain ⟨b2, h2⟩ := h2
    rw [h2, C64_dataflow hc hin ho (fun eqn h => he.subset h) h1 h2]
  simp only [taylorBounds, py_bind_ok] at h1
  obtain ⟨F, f1, h1⟩ := h1
  unfold taylorEnv at f1
  by_cases hmd : maxDegree < 0
  · rw [if_pos hmd] at f1; cases f1
  rw [if_neg hmd] at f1
  simp only [py_bind_ok] at f1
  obtain ⟨t, ht, f1⟩ := f1
  cases t with
  | arr _ => cases f1
  | ivl tlo thi =>
    simp only [py_bind_ok] at f1
    obtain ⟨T, hT, T0, hT0, env, hinit, f1⟩ := f1
    have e0 : initEnv (propagate && maxDegree != 0) maxDegree.toNat j2 consts x0 lo hi = .ok env := by
      rw [← hinit]
      unfold initEnv
      rw [hc, hin]
    obtain ⟨s1, sat⟩ := run_sub f1
    obtain ⟨n1, d1⟩ := run_keys f1
    have hsub : (assigned j2.eqns).Subperm (assigned j1.eqns) := by
      unfold assigned
      obtain ⟨l, hl, hs⟩ := he
      exact ⟨(l.flatMap Eqn.outvars).filter (· ≠ -1), (hl.flatMap_right _).filter _, (sublist_flatMap hs _).filter _⟩
    obtain ⟨env', hrun, hk⟩ := run_returns s1 (fun eqn h => sat eqn (he.subset h)) (by
        obtain ⟨l, hl, hs⟩ := hsub
        exact (hl.nodup_iff).1 (n1.sublist hs))
      (fun v hv => d1 v (hsub.subset hv)) (initEnv_known e0) hord
    have henv : taylorEnv lib j2 consts maxDegree propagate x0 lo hi = .ok env' := by
      unfold taylorEnv
      rw [if_neg hmd]
      simp only [ht, hT, hT0, e0, py_ok_bind]
      exact hrun
    unfold taylorBounds
    rw [henv, py_ok_bind]
    have hex : ∀ o, j2.outvars = [o] → ∃ i, getInter env' o = .ok i := by
      intro o ho'
      cases o with
      | lit a => exact ⟨_, rfl⟩
      | var v =>
        obtain ⟨i, hi⟩ := Option.isSome_iff_exists.1 (hk v (hout v (by rw [ho']; simp)))
        exact ⟨i, by unfold getInter; simp only [hi]⟩
    rw [← ho] at h1
    revert h1 hex
    match j2.outvars with
    | [] => intro h1; cases h1
    | _ :: _ :: _ => intro h1; cases h1
    | [o] =>
      intro _ hex
      obtain ⟨i, hi⟩ := hex o rfl
      simp only [hi, py_ok_bind]
      exact ⟨_, rfl⟩

/-! ### Renaming -/

/-- renaming the variables of an environment -/
def renEnv (ρ : ℤ → ℤ) (env : Env K) : Env K := env.map fun vi => (ρ vi.1, vi.2)

theorem renEnv_lookup {ρ : ℤ → ℤ} (hρ : Function.Injective ρ) (env : Env K) (v : ℤ) :
    (renEnv ρ env).lookup (ρ v) = env.lookup v := by
  induction env with
  | nil => rfl
  | cons a env ih =>
    unfold renEnv at ih ⊢
    rw [List.map_cons, List.lookup_cons, List.lookup_cons, ih]
    by_cases e : v = a.1
    · rw [e]; simp
    · rw [beq_eq_false_iff_ne.2 e, beq_eq_false_iff_ne.2 fun h => e (hρ h)]

theorem getInter_rename {ρ : ℤ → ℤ} (hρ : Function.Injective ρ) (env : Env K) (a : Atom K) :
    getInter (renEnv ρ env) (a.rename ρ) = getInter env a := by
  cases a with
  | lit _ => rfl
  | var v =>
    show getInter (renEnv ρ env) (.var (ρ v)) = getInter env (.var v)
    unfold getInter
    simp only [renEnv_lookup hρ]

theorem getInters_rename {ρ : ℤ → ℤ} (hρ : Function.Injective ρ) (env : Env K) (l : List (Atom K)) :
    (l.map (Atom.rename ρ)).mapM (getInter (renEnv ρ env)) = l.mapM (getInter env) := by
  induction l with
  | nil => rfl
  | cons a l ih => rw [List.map_cons, List.mapM_cons, List.mapM_cons, ih, getInter_rename hρ]

theorem storeOne_rename {ρ : ℤ → ℤ} (hρ : Function.Injective ρ) (hd : ρ (-1) = -1) (xs : List ℕ) (env : Env K) (v : ℤ)
    (i : Inter K) : storeOne xs (renEnv ρ env) (ρ v, i) = (storeOne xs env (v, i)).map (renEnv ρ) := by
  unfold storeOne
  simp only [renEnv_lookup hρ]
  by_cases c1 : v = -1
  · subst c1
    rw [if_pos hd, if_pos rfl]
    rfl
  rw [if_neg c1, if_neg fun h => c1 (hρ (h.trans hd.symm))]
  by_cases c2 : (env.lookup v).isSome = true
  · rw [if_pos c2, if_pos c2]; rfl
  rw [if_neg c2, if_neg c2]
  cases validateEnclosure xs i.encl <;> rfl

theorem stores_rename {ρ : ℤ → ℤ} (hρ : Function.Injective ρ) (hd : ρ (-1) = -1) (xs : List ℕ) :
    ∀ (ov : List ℤ) (outs : List (Inter K)) (env : Env K), ((ov.map ρ).zip outs).foldlM (storeOne xs) (renEnv ρ env) =
      ((ov.zip outs).foldlM (storeOne xs) env).map (renEnv ρ) := by
  intro ov
  induction ov with
  | nil => intro outs env; cases outs <;> rfl
  | cons v ov ih =>
    intro outs env
    cases outs with
    | nil => rfl
    | cons o outs =>
      rw [List.map_cons, List.zip_cons_cons, List.zip_cons_cons, List.foldlM_cons, List.foldlM_cons,
        storeOne_rename hρ hd]
      cases storeOne xs env (v, o) with
      | error e => rfl
      | ok env1 => exact ih outs env1

theorem step_rename {ρ : ℤ → ℤ} (hρ : Function.Injective ρ) (hd : ρ (-1) = -1) (lib : Lib K) (T T0 : TEA K) (pr : Bool)
    (xs : List ℕ) (env : Env K) (eqn : Eqn K) :
    step lib T T0 pr xs (renEnv ρ env) (eqn.rename ρ) = (step lib T T0 pr xs env eqn).map (renEnv ρ) := by
  unfold step
  show ((eqn.invars.map (Atom.rename ρ)).mapM (getInter (renEnv ρ env)) >>= _) = _
  rw [getInters_rename hρ]
  cases eqn.invars.mapM (getInter env) with
  | error e => rfl
  | ok ins =>
    rw [py_ok_bind, py_ok_bind]
    have e1 : eqnOutputs lib T T0 pr (eqn.rename ρ) ins = eqnOutputs lib T T0 pr eqn ins := by
      unfold eqnOutputs Eqn.rename
      simp only [List.length_map]
    rw [e1]
    cases eqnOutputs lib T T0 pr eqn ins with
    | error e => rfl
    | ok outs =>
      rw [py_ok_bind, py_ok_bind]
      have e2 : (eqn.rename ρ).outvars.length = eqn.outvars.length := by simp [Eqn.rename]
      rw [e2]
      by_cases hl : outs.length ≠ eqn.outvars.length
      · rw [if_pos hl, if_pos hl]; rfl
      · rw [if_neg hl, if_neg hl]
        exact stores_rename hρ hd xs eqn.outvars outs env

theorem run_rename {ρ : ℤ → ℤ} (hρ : Function.Injective ρ) (hd : ρ (-1) = -1) (lib : Lib K) (T T0 : TEA K) (pr : Bool)
    (xs : List ℕ) (l : List (Eqn K)) : ∀ env : Env K,
    (l.map (Eqn.rename ρ)).foldlM (step lib T T0 pr xs) (renEnv ρ env) =
      (l.foldlM (step lib T T0 pr xs) env).map (renEnv ρ) := by
  induction l with
  | nil => intro env; rfl
  | cons e l ih =>
    intro env
    rw [List.map_cons, List.foldlM_cons, List.foldlM_cons, step_rename hρ hd]
    cases step lib T T0 pr xs env e with
    | error e => rfl
    | ok env1 => exact ih env1

theorem initEnv_rename {ρ : ℤ → ℤ} (pr : Bool) (md : ℕ) (j : Jaxpr K) (consts : List (ND K)) (x0 lo hi : ND K) :
    initEnv pr md (j.rename ρ) consts x0 lo hi = (initEnv pr md j consts x0 lo hi).map (renEnv ρ) := by
  unfold initEnv
  cases identityCoef x0 with
  | error e => rfl
  | ok idc =>
    rw [py_ok_bind, py_ok_bind]
    have e2 : (j.rename ρ).constvars.length = j.constvars.length := by simp [Jaxpr.rename]
    simp only
    rw [e2]
    by_cases hl : consts.length ≠ j.constvars.length
    · rw [if_pos hl, if_pos hl]; rfl
    rw [if_neg hl, if_neg hl]
    show (match j.invars.map ρ with
      | [v] => _
      | _ => _) = _
    cases j.invars with
    | nil => rfl
    | cons v l =>
      cases l with
      | cons _ _ => rfl
      | nil =>
        have : ∀ (cv : List ℤ) (l : List (Inter K)), (cv.map ρ).zip l = renEnv ρ (cv.zip l) := by
          intro cv
          induction cv with
          | nil => intro l; rfl
          | cons c cv ih =>
            intro l
            cases l with
            | nil => rfl
            | cons a l =>
              rw [List.map_cons, List.zip_cons_cons, ih, List.zip_cons_cons]
              rfl
        show Except.ok _ = Except.ok _
        congr 1
        show _ :: List.zip (j.constvars.map ρ) _ = _ :: renEnv ρ _
        rw [this]

/-- **C64 (names).** The names of the variables do not matter: for every injective renaming (that keeps `DropVar`s, whose
count is -1) the call does the same, including raising the same exception. -/
theorem C64_renaming {ρ : ℤ → ℤ} (hρ : Function.Injective ρ) (hd : ρ (-1) = -1) (lib : Lib K) (j : Jaxpr K)
    (consts : List (ND K)) (maxDegree : ℤ) (propagate : Bool) (x0 lo hi : ND K) :
    taylorBounds lib (j.rename ρ) consts maxDegree propagate x0 lo hi =
      taylorBounds lib j consts maxDegree propagate x0 lo hi := by
  have henv : taylorEnv lib (j.rename ρ) consts maxDegree propagate x0 lo hi =
      (taylorEnv lib j consts maxDegree propagate x0 lo hi).map (renEnv ρ) := by
    unfold taylorEnv
    by_cases hmd : maxDegree < 0
    · rw [if_pos hmd, if_pos hmd]; rfl
    rw [if_neg hmd, if_neg hmd]
    cases IA.subtract (.ivl lo hi) (.arr x0) with
    | error e => rfl
    | ok t =>
      cases t with
      | arr _ => rfl
      | ivl tlo thi =>
        simp only [py_ok_bind]
        cases TEA.init maxDegree.toNat tlo thi with
        | error e => rfl
        | ok T =>
          simp only [py_ok_bind]
          cases TEA.init 0 tlo thi with
          | error e => rfl
          | ok T0 =>
            simp only [py_ok_bind]
            rw [initEnv_rename]
            cases initEnv (propagate && maxDegree != 0) maxDegree.toNat j consts x0 lo hi with
            | error e => rfl
            | ok env => exact run_rename hρ hd lib T T0 _ x0.shape j.eqns env
  unfold taylorBounds
  rw [henv]
  cases taylorEnv lib j consts maxDegree propagate x0 lo hi with
  | error e => rfl
  | ok env =>
    show (match j.outvars.map (Atom.rename ρ) with
      | [o] => _
      | _ => _) = _
    cases ho : j.outvars with
    | nil => simp only [py_ok_bind]; rfl
    | cons o l =>
      cases l with
      | cons _ _ => simp only [py_ok_bind]; rfl
      | nil =>
        simp only [py_ok_bind]
        show (getInter (renEnv ρ env) (o.rename ρ) >>= _) = _
        rw [getInter_rename hρ]

/-! ### A concrete case -/

/-- `f(x) = x^2 * (x + x)`, with an unneeded equation -/
def exFlow1 : Jaxpr ℚ := ⟨[], [0], [.var 4], [⟨.mul, [.var 0, .var 0], [1]⟩, ⟨.neg, [.var 1], [2]⟩,
  ⟨.add, [.var 0, .var 0], [3]⟩, ⟨.mul, [.var 1, .var 3], [4]⟩]⟩

/-- the same, in another order and without the unneeded equation -/
def exFlow2 : Jaxpr ℚ := ⟨[], [0], [.var 4], [⟨.add, [.var 0, .var 0], [3]⟩, ⟨.mul, [.var 0, .var 0], [1]⟩,
  ⟨.mul, [.var 1, .var 3], [4]⟩]⟩

/-- The two programs (and any renaming of the second) get the same bounds; both calls return. -/
theorem C64_instance {ρ : ℤ → ℤ} (hρ : Function.Injective ρ) (hd : ρ (-1) = -1) :
    ∃ b, taylorBounds polyLib exFlow1 [] 2 true (ND.scalar 1) (ND.scalar 0) (ND.scalar 2) = .ok b ∧
      taylorBounds polyLib (exFlow2.rename ρ) [] 2 true (ND.scalar 1) (ND.scalar 0) (ND.scalar 2) = .ok b ∧
      b.coefficients.length = 3 := by
  obtain ⟨b, hb⟩ := ok_of_isSome
    (show (taylorBounds polyLib exFlow1 [] 2 true (ND.scalar 1) (ND.scalar 0) (ND.scalar 2)).toOption.isSome = true by
      decide +kernel)
  have hlen : (taylorBounds polyLib exFlow1 [] 2 true (ND.scalar 1) (ND.scalar 0) (ND.scalar 2)).map
      (fun b => b.coefficients.length) = .ok 3 := by decide +kernel
  rw [hb] at hlen
  refine ⟨b, hb, ?_, Except.ok.inj hlen⟩
  have h1 : exFlow2.eqns.Subperm exFlow1.eqns :=
    ⟨[⟨.mul, [.var 0, .var 0], [1]⟩, ⟨.add, [.var 0, .var 0], [3]⟩, ⟨.mul, [.var 1, .var 3], [4]⟩],
      List.Perm.swap _ _ _, .cons_cons _ (.cons _ (List.Sublist.refl _))⟩
  have h2 : InOrder (exFlow2.invars ++ exFlow2.constvars) exFlow2.eqns := by simp [InOrder, exFlow2, assigned]
  have h3 : ∀ v, Atom.var v ∈ exFlow2.outvars → v ∈ exFlow2.invars ++ exFlow2.constvars ∨ v ∈ assigned exFlow2.eqns := by
    intro v hv
    simp only [exFlow2, List.mem_singleton, Atom.var.injEq] at hv
    subst hv
    exact Or.inr (by decide)
  rw [C64_renaming hρ hd]
  exact C64_reordered (j1 := exFlow1) (j2 := exFlow2) rfl rfl rfl h1 h2 h3 hb

end JB
end AB
