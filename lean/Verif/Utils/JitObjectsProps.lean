import Verif.Utils.JitProps
import Mathlib.Tactic.Linarith

/-!
# C107: compiled functions of regularizers and updaters

Which assignments to the attributes of regularizers and of updaters have an effect.
-/

namespace Coax.Jit

section Call

variable {W Arr Av Ob Out : Type _} [DecidableEq Av] [DecidableEq Ob]

/-- A call with acceptable arguments, if what is compiled for such arguments is what compiling now would give. -/
theorem call_direct (aval : Arr → Av) {body : Body W Arr Av Ob Out} {static : List Nat} {j : JittedFunc W Arr Av Ob Out} {w : W}
    {args : List (Arg Arr Ob)} (hf : j.func = body) (hs : j.staticArgnums = static) (hacc : Accepted static args)
    (hc : ∀ c, j.compiled.lookup (seen aval args) = some c → body w (seen aval args) = .ok c) :
    (j.call aval w args).1 = direct aval body w args ∧
    ((j.call aval w args).2 = j ∨
      ∃ c, body w (seen aval args) = .ok c ∧ (j.call aval w args).2 = { j with compiled := (seen aval args, c) :: j.compiled }) := by
  have hkey : keyFrom aval j.staticArgnums 0 args = .ok (seen aval args) := by rw [hs]; exact keyFrom_of_accepted aval hacc
  cases hl : j.compiled.lookup (seen aval args) with
  | some c =>
    have hcall : j.call aval w args = (.ok (c args), j) := by
      unfold JittedFunc.call
      simp only [hkey, hl]
    rw [hcall]
    exact ⟨by simp only [direct, hc c hl], Or.inl rfl⟩
  | none =>
    cases hb : body w (seen aval args) with
    | error e =>
      have hcall : j.call aval w args = (.error e, j) := by
        unfold JittedFunc.call
        simp only [hkey, hl, hf, hb]
      rw [hcall]
      exact ⟨by simp only [direct, hb], Or.inl rfl⟩
    | ok c =>
      have hcall : j.call aval w args = (.ok (c args), { j with compiled := (seen aval args, c) :: j.compiled }) := by
        unfold JittedFunc.call
        simp only [hkey, hl, hf, hb]
      rw [hcall]
      exact ⟨by simp only [direct, hb], Or.inr ⟨c, rfl, rfl⟩⟩

end Call

theorem accepted_single {Arr Ob : Type _} (x : Arr) : Accepted (Ob := Ob) [] [.arr x] := by
  intro i hi
  have : i = 0 := by simpa using hi
  subst this
  simp

/-! ### The n-step regularizer -/

/-- An evaluation of the n-step regularizer at the steps `n` of a trajectory with entropies `H` and flags `dones`. -/
noncomputable def atSteps (n : List Nat) (H : List ℝ) (dones : List Bool) : NStepEvent := .eval (n.map (Pol.takeReal H)) (n.map (Pol.takeBool dones))

/-- What is done with the regularizer, in terms of trajectories. -/
inductive NStepUse where
  | setBeta (b : ℝ)
  | setGamma (g : ℝ)
  | eval (H : List ℝ) (dones : List Bool)

/-- The corresponding events. -/
noncomputable def NStepUse.event (n : List Nat) : NStepUse → NStepEvent
  | .setBeta b => .setBeta b
  | .setGamma g => .setGamma g
  | .eval H dones => atSteps n H dones

/-- The results of a program: the coefficient is the one assigned last, the discount factor is the one of the constructor. -/
noncomputable def nstepExpected (gamma : ℝ) (n : List Nat) : ℝ → List NStepUse → List (Option ℝ)
  | _, [] => []
  | _, .setBeta b :: es => nstepExpected gamma n b es
  | b, .setGamma _ :: es => nstepExpected gamma n b es
  | b, .eval H dones :: es => (Pol.nstepEntropy gamma n H dones).map (fun h => -b * h) :: nstepExpected gamma n b es

theorem nstep_aux (gamma : ℝ) (n : List Nat) (es : List NStepUse) :
    ∀ (w : NStepAttrs) (j : JittedFunc NStepAttrs NStepVal (Nat × Nat) Unit (Option ℝ)), w.gammas = Pol.gammas gamma n →
      j.func = nstepBody → j.staticArgnums = [] →
      (∀ k c, j.compiled.lookup k = some c → ∀ w' : NStepAttrs, w'.gammas = Pol.gammas gamma n → nstepBody w' k = .ok c) →
      nstepRun w j (es.map (NStepUse.event n)) = (nstepExpected gamma n w.beta es).map .ok := by
  induction es with
  | nil => intro w j _ _ _ _; rfl
  | cons e es ih =>
    intro w j hw hf hs hc
    cases e with
    | setBeta b => exact ih { w with beta := b } j hw hf hs hc
    | setGamma g => exact ih { w with gamma := g } j hw hf hs hc
    | eval H dones =>
      obtain ⟨hres, hnext⟩ := call_direct NStepVal.aval (w := w) hf hs
        (accepted_single (Ob := Unit) (⟨n.map (Pol.takeReal H), n.map (Pol.takeBool dones), w.beta⟩ : NStepVal))
        (fun c hl => hc _ c hl w hw)
      simp only [List.map_cons, NStepUse.event, atSteps, nstepRun, nstepExpected]
      refine congrArg₂ List.cons ?_ ?_
      · rw [hres]
        simp only [direct, seen, List.map, nstepBody, hw, Pol.nstepEntropy]
      · rcases hnext with h | ⟨c, hb, h⟩
        · rw [h]; exact ih w j hw hf hs hc
        · rw [h]
          refine ih w _ hw hf hs ?_
          intro k c' hl w' hw'
          rw [List.lookup_cons] at hl
          split at hl
          · next heq =>
            have heq := eq_of_beq heq
            simp only [Option.some.injEq] at hl
            subst hl heq
            rw [← hb]
            simp only [seen, List.map, nstepBody, hw', hw]
          · exact hc k c' hl w' hw'

/-- C107: an n-step entropy regularizer uses the coefficient assigned last, but always the discount factor that its constructor was given: assigning `gamma`
has no effect. -/
theorem C107_nstep (beta gamma : ℝ) (n : List Nat) (es : List NStepUse) :
    nstepRun (.init beta gamma n) (jit nstepBody [] []) (es.map (NStepUse.event n)) = (nstepExpected gamma n beta es).map .ok :=
  nstep_aux gamma n es _ _ rfl rfl rfl (fun _ _ h => absurd h (by simp [jit]))

/-- C107 fails for the discount factor of the n-step regularizer: after assigning `gamma = 0`, the term for the step after next is still discounted by the
old factor. -/
theorem C107_gamma_counterexample :
    nstepRun (.init 1 (1 / 2) [1]) (jit nstepBody [] []) ([.setGamma 0, .eval [1, 1] [false, false]].map (NStepUse.event [1]))
        = [.ok (some (-(1 / 2)))] ∧
    (Pol.nstepEntropy 0 [1] [1, 1] [false, false]).map (fun h => -1 * h) = some 0 := by
  constructor
  · rw [C107_nstep]
    simp [nstepExpected, Pol.nstepEntropy, Pol.gammas, Pol.takeReal, Pol.takeBool, Pol.validFromDone, Pol.cumsum, Pol.summand, Pol.sumNaN,
      List.range_succ]
  · simp [Pol.nstepEntropy, Pol.gammas, Pol.takeReal, Pol.takeBool, Pol.validFromDone, Pol.cumsum, Pol.summand, Pol.sumNaN, List.range_succ]

/-! ### Updaters -/

section Td

variable {X K : Type _} [Field K]

/-- The TD errors of a batch under a loss function and a regularizer. -/
def tdNow (g : K → K → K) (r : Option (RegObj X K)) (samples : List (Sample X K)) : List K :=
  samples.map (fun s => -g (s.targ - (match r with | none => 0 | some r => r.term r.values s.x)) s.pred)

/-- What a user expects: every call uses the attributes assigned last. -/
def tdExpected : (K → K → K) → Option (RegObj X K) → List (TdEvent X K) → List (List K)
  | _, _, [] => []
  | _, r, .setLoss g :: es => tdExpected g r es
  | g, _, .setReg r :: es => tdExpected g r es
  | g, r, .tdError b :: es => tdNow g r b :: tdExpected g r es
  | g, r, .update b :: es => tdNow g r b :: tdExpected g r es

/-- What is compiled belongs to the loss function `g`, and to a regularizer of the collection that takes the hyperparameters in the key. -/
def Belongs (g : K → K → K) (regs : RegObj X K → Prop) (j : JittedFunc (TdAttrs X K) (TdArgs X K) (Nat × Option (List String)) Unit (List K)) : Prop :=
  j.func = tdBody ∧ j.staticArgnums = [] ∧
  ∀ m names c, j.compiled.lookup [.aval (m, names)] = some c →
    ∃ r : Option (RegObj X K), (∀ r' ∈ r, regs r') ∧ r.map (·.names) = names ∧ tdBody ⟨g, r⟩ [.aval (m, names)] = .ok c

theorem td_call {g : K → K → K} {regs : RegObj X K → Prop} (hregs : ∀ r r', regs r → regs r' → r.names = r'.names → r.term = r'.term)
    {r : Option (RegObj X K)} (hr : ∀ r' ∈ r, regs r') (b : List (Sample X K))
    {j : JittedFunc (TdAttrs X K) (TdArgs X K) (Nat × Option (List String)) Unit (List K)} (hj : Belongs g regs j) :
    (j.call TdArgs.aval ⟨g, r⟩ [.arr ⟨b, r.map (fun r => (r.names, r.values))⟩]).1 = .ok (tdNow g r b) ∧
    Belongs g regs (j.call TdArgs.aval ⟨g, r⟩ [.arr ⟨b, r.map (fun r => (r.names, r.values))⟩]).2 := by
  obtain ⟨hf, hs, hc⟩ := hj
  have hseen : seen TdArgs.aval [(.arr ⟨b, r.map (fun r => (r.names, r.values))⟩ : Arg (TdArgs X K) Unit)]
      = [.aval (b.length, r.map (·.names))] := by
    cases r <;> rfl
  obtain ⟨hres, hnext⟩ := call_direct TdArgs.aval (w := (⟨g, r⟩ : TdAttrs X K)) hf hs
    (accepted_single (Ob := Unit) (⟨b, r.map (fun r => (r.names, r.values))⟩ : TdArgs X K)) (by
      intro c hl
      rw [hseen] at hl ⊢
      obtain ⟨r', hr', hnames, hb⟩ := hc _ _ c hl
      rw [← hb]
      cases r with
      | none =>
        cases r' with
        | none => rfl
        | some r' => exact absurd hnames (by simp)
      | some r =>
        cases r' with
        | none => exact absurd hnames (by simp)
        | some r' =>
          have := hregs r' r (hr' r' rfl) (hr r rfl) (by simpa using hnames)
          simp only [tdBody, this])
  constructor
  · rw [hres]
    simp only [direct, seen, List.map, tdBody, tdNow]
    cases r <;> rfl
  · rcases hnext with h | ⟨c, hb, h⟩
    · rw [h]; exact ⟨hf, hs, hc⟩
    · rw [h]
      rw [hseen] at hb ⊢
      refine ⟨hf, hs, ?_⟩
      intro m names c' hl
      rw [List.lookup_cons] at hl
      split at hl
      · next heq =>
        have heq := eq_of_beq heq
        simp only [List.cons.injEq, KeyPart.aval.injEq, and_true, Prod.mk.injEq] at heq
        simp only [Option.some.injEq] at hl
        subst hl
        refine ⟨r, hr, heq.2.symm, ?_⟩
        rw [heq.1, heq.2]
        exact hb
      · exact hc m names c' hl

theorem td_run_aux {g : K → K → K} {regs : RegObj X K → Prop} (hregs : ∀ r r', regs r → regs r' → r.names = r'.names → r.term = r'.term)
    (es : List (TdEvent X K)) (hloss : ∀ g', TdEvent.setLoss g' ∉ es) (hes : ∀ r, TdEvent.setReg (some r) ∈ es → regs r) :
    ∀ u : Updater X K, u.attrs.lossGrad = g → (∀ r ∈ u.attrs.reg, regs r) → Belongs g regs u.tdErrorFunc → Belongs g regs u.gradsFunc →
      tdRun u es = (tdExpected g u.attrs.reg es).map .ok := by
  induction es with
  | nil => intro u _ _ _ _; rfl
  | cons e es ih =>
    have ih := ih (fun g' h => hloss g' (List.mem_cons_of_mem _ h)) (fun r h => hes r (List.mem_cons_of_mem _ h))
    intro u hg hr ht hgr
    cases e with
    | setLoss g' => exact absurd (List.mem_cons_self ..) (hloss g')
    | setReg r =>
      refine ih { u with attrs := { u.attrs with reg := r } } hg ?_ ht hgr
      intro r' hr'
      have : r = some r' := by simpa using hr'
      exact hes r' (by rw [this]; simp)
    | tdError b =>
      obtain ⟨h₁, h₂⟩ := td_call hregs hr b ht
      have : u.attrs = ⟨g, u.attrs.reg⟩ := by cases hu : u.attrs; rw [hu] at hg; simp_all
      rw [← this] at h₁ h₂
      simp only [tdRun, tdExpected, List.map_cons, Updater.args]
      rw [h₁]
      exact congrArg (List.cons _) (ih { u with tdErrorFunc := _ } hg hr h₂ hgr)
    | update b =>
      obtain ⟨h₁, h₂⟩ := td_call hregs hr b hgr
      have : u.attrs = ⟨g, u.attrs.reg⟩ := by cases hu : u.attrs; rw [hu] at hg; simp_all
      rw [← this] at h₁ h₂
      simp only [tdRun, tdExpected, List.map_cons, Updater.args]
      rw [h₁]
      exact congrArg (List.cons _) (ih { u with gradsFunc := _ } hg hr ht h₂)

/-- C107, as far as it holds for updaters: if the loss function is left alone and the regularizers in use can be told apart by the names of their
hyperparameters (as `EntropyRegularizer` and `KLDivRegularizer` can), then every call uses the regularizer and the hyperparameters assigned last.
Missing: assigning `loss_function`, and exchanging an `EntropyRegularizer` and an `NStepEntropyRegularizer`, for which it is false. -/
theorem C107_updater_partial (g : K → K → K) (r : Option (RegObj X K)) (es : List (TdEvent X K)) (hloss : ∀ g', TdEvent.setLoss g' ∉ es)
    (regs : RegObj X K → Prop) (hr : ∀ r' ∈ r, regs r') (hes : ∀ r', TdEvent.setReg (some r') ∈ es → regs r')
    (hregs : ∀ r r', regs r → regs r' → r.names = r'.names → r.term = r'.term) :
    tdRun (.init ⟨g, r⟩) es = (tdExpected g r es).map .ok :=
  td_run_aux hregs es hloss hes (.init ⟨g, r⟩) rfl hr ⟨rfl, rfl, fun _ _ _ h => absurd h (by simp [Updater.init, jit])⟩
    ⟨rfl, rfl, fun _ _ _ h => absurd h (by simp [Updater.init, jit])⟩

end Td

/-- A regularizer whose term is `-beta * x`. -/
def exampleEntropy (beta : ℚ) : RegObj ℚ ℚ := ⟨["beta"], [beta], fun v x => -(v.headD 0 * x)⟩

/-- A regularizer with other hyperparameters. -/
def exampleKL (beta prior : ℚ) : RegObj ℚ ℚ := ⟨["beta", "priors"], [beta, prior], fun v x => v.headD 0 * (x - v.getLastD 0)⟩

/-- The hypotheses can be met: no regularizer at first, then two coefficients, then another kind, with batches of the same size throughout. -/
example : tdRun (.init ⟨fun t p => p - t, none⟩)
    [.tdError [⟨1, 3, 5⟩], .setReg (some (exampleEntropy 1)), .tdError [⟨1, 3, 5⟩], .setReg (some (exampleEntropy 2)), .update [⟨1, 3, 5⟩],
      .setReg (some (exampleKL 1 2)), .tdError [⟨1, 3, 5⟩]]
    = [.ok [2], .ok [7], .ok [12], .ok [(-1 : ℚ)]] := by
  rw [C107_updater_partial _ _ _ (by simp) (fun r => (∃ b, r = exampleEntropy b) ∨ ∃ b p, r = exampleKL b p) (by simp)]
  · norm_num [tdExpected, tdNow, exampleEntropy, exampleKL]
  · intro r' h
    simp only [List.mem_cons, TdEvent.setReg.injEq, Option.some.injEq, reduceCtorEq, false_or, List.not_mem_nil, or_false] at h
    rcases h with rfl | rfl | rfl
    · exact Or.inl ⟨_, rfl⟩
    · exact Or.inl ⟨_, rfl⟩
    · exact Or.inr ⟨_, _, rfl⟩
  · rintro r r' (⟨b, rfl⟩ | ⟨b, p, rfl⟩) (⟨b', rfl⟩ | ⟨b', p', rfl⟩) h
    · rfl
    · simp [exampleEntropy, exampleKL] at h
    · simp [exampleEntropy, exampleKL] at h
    · rfl

/-- C107 fails for the loss function of an updater: after the first call, assigning `loss_function` changes nothing for batches of the same size, but does for
batches of another size, and for `update`, which is compiled separately. -/
theorem C107_loss_counterexample :
    tdRun (X := Unit) (K := ℚ) (.init ⟨fun t p => p - t, none⟩)
        [.tdError [⟨1, 3, ()⟩], .setLoss (fun t p => 2 * (p - t)), .tdError [⟨1, 3, ()⟩], .tdError [⟨1, 3, ()⟩, ⟨1, 3, ()⟩], .update [⟨1, 3, ()⟩]]
      = [.ok [2], .ok [2], .ok [4, 4], .ok [4]] ∧
    tdExpected (X := Unit) (K := ℚ) (fun t p => p - t) none
        [.tdError [⟨1, 3, ()⟩], .setLoss (fun t p => 2 * (p - t)), .tdError [⟨1, 3, ()⟩], .tdError [⟨1, 3, ()⟩, ⟨1, 3, ()⟩], .update [⟨1, 3, ()⟩]]
      = [[2], [4], [4, 4], [4]] := by
  constructor
  · have hne : (([.aval (2, none)] : List (KeyPart (Nat × Option (List String)) Unit)) == [.aval (1, none)]) = false := by decide
    simp [tdRun, Updater.init, Updater.args, JittedFunc.call, jit, keyFrom, TdArgs.aval, tdBody, List.lookup_cons, hne]
    norm_num
  · norm_num [tdExpected, tdNow]

/-- C107 fails for regularizers with the same names of hyperparameters: the second regularizer is evaluated as if it were of the class of the first. -/
theorem C107_regularizer_counterexample :
    tdRun (X := ℚ) (K := ℚ) (.init ⟨fun t p => p - t, some (exampleEntropy 1)⟩)
        [.tdError [⟨1, 3, 5⟩], .setReg (some ⟨["beta"], [1], fun v x => -(v.headD 0 * (x + 1))⟩), .tdError [⟨1, 3, 5⟩]]
      = [.ok [7], .ok [7]] ∧
    tdExpected (X := ℚ) (K := ℚ) (fun t p => p - t) (some (exampleEntropy 1))
        [.tdError [⟨1, 3, 5⟩], .setReg (some ⟨["beta"], [1], fun v x => -(v.headD 0 * (x + 1))⟩), .tdError [⟨1, 3, 5⟩]]
      = [[7], [8]] := by
  constructor
  · simp [tdRun, Updater.init, Updater.args, JittedFunc.call, jit, keyFrom, TdArgs.aval, tdBody, List.lookup, exampleEntropy]
    norm_num
  · norm_num [tdExpected, tdNow, exampleEntropy]

/-- C107: storing and loading is not invisible once an attribute that the body reads has been assigned: the loaded function sees the new value, the
original one does not. -/
theorem C107_reload_counterexample :
    run (W := ℚ) (Arr := ℚ) (Av := Unit) (Ob := Unit) (Out := ℚ) (fun _ => ()) 1
        (jit (fun w _ => .ok (fun args => match args with | [.arr x] => w * x | _ => 0)) [] [])
        [.call [.arr 3], .assign (fun _ => 2), .call [.arr 3], .reload, .call [.arr 3]]
      = [.ok 3, .ok 3, .ok 6] := by
  simp [run, jit, JittedFunc.call, keyFrom, setstate, JittedFunc.getstate]
  norm_num

end Coax.Jit
