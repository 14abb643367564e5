import Verif.Core.KeyFlow
import Verif.Core.KeysProps

/-! Property C111: the random draws of an update are independent. -/

namespace Coax.Core

/-- Neither key is derived from the other, and nothing is derived from both. -/
def Unrelated (k k' : Key) : Prop := ∀ d, k.From d → ¬ k'.From d

/-- No two uses have related keys. -/
def Independent (us : List Use) : Prop := us.Pairwise fun u v => Unrelated u.key v.key

/-! ### Keys -/

theorem From.trans {a b c : Key} (h : a.From b) (h' : b.From c) : a.From c := by
  induction h' with
  | refl => exact h
  | fst _ ih => exact .fst ih
  | snd _ ih => exact .snd ih

theorem fst_from {a b : Key} (h : a.fst.From b) : a.From b := From.trans (.fst .refl) h

theorem snd_from {a b : Key} (h : a.snd.From b) : a.From b := From.trans (.snd .refl) h

theorem children_apart (k : Key) : Unrelated k.snd k.fst := by
  intro d h h'
  have h1 := (From.path h).2
  have h2 := (From.path h').2
  simp only [Key.path] at h1 h2
  have e1 := prefix_getElem? h1 (i := k.path.2.length) (b := true) (by simp)
  have e2 := prefix_getElem? h2 (i := k.path.2.length) (b := false) (by simp)
  rw [e1] at e2
  cases e2

theorem Unrelated.mono {a b a' b' : Key} (h : Unrelated a b) (ha : a.From a') (hb : b.From b') : Unrelated a' b' :=
  fun d h1 h2 => h d (From.trans ha h1) (From.trans hb h2)

theorem Unrelated.symm {a b : Key} (h : Unrelated a b) : Unrelated b a := fun d h1 h2 => h d h2 h1

theorem not_apart_from {a b : Key} (h : a.From b) : ¬ Unrelated a b := fun hh => hh b h .refl

/-! ### Sequences of keys -/

/-- All uses have keys that are derived from the key given. -/
def Within (c : Consumer) : Prop := ∀ k, ∀ u ∈ c k, k.From u.key

/-- Within the key given, and independent. -/
def Good (c : Consumer) : Prop := Within c ∧ ∀ k, Independent (c k)

theorem good_use (w : What) : Good (use w) :=
  ⟨fun k u hu => by rw [List.mem_singleton.1 hu]; exact .refl, fun k => List.pairwise_singleton _ _⟩

/-- All calls use `next(rngs)` and are good. -/
def NextGood (steps : List Step) : Prop := ∀ s ∈ steps, ∃ c, s = .next c ∧ Good c

theorem runSteps_within {k : Key} {steps : List Step} (h : NextGood steps) : ∀ cur, k.From cur → ∀ u ∈ runSteps k cur steps, cur.From u.key := by
  induction steps with
  | nil => intro cur _ u hu; cases hu
  | cons s r ih =>
    intro cur hcur u hu
    obtain ⟨c, rfl, hc⟩ := h s List.mem_cons_self
    simp only [runSteps, Key.split, List.mem_append] at hu
    rcases hu with hu | hu
    · exact snd_from (hc.1 _ u hu)
    · exact fst_from (ih (fun s hs => h s (List.mem_cons_of_mem _ hs)) _ (.fst hcur) u hu)

theorem runSteps_independent {k : Key} {steps : List Step} (h : NextGood steps) : ∀ cur, k.From cur → Independent (runSteps k cur steps) := by
  induction steps with
  | nil => intro cur _; exact List.Pairwise.nil
  | cons s r ih =>
    intro cur hcur
    obtain ⟨c, rfl, hc⟩ := h s List.mem_cons_self
    have h' : NextGood r := fun s hs => h s (List.mem_cons_of_mem _ hs)
    refine List.pairwise_append.2 ⟨hc.2 _, ih h' _ (.fst hcur), ?_⟩
    intro u hu v hv
    exact (children_apart cur).mono (hc.1 _ u hu) (runSteps_within h' _ (.fst hcur) v hv)

theorem good_prng {steps : List Step} (h : NextGood steps) : Good (prng steps) :=
  ⟨fun k => runSteps_within h k .refl, fun k => runSteps_independent h k .refl⟩

theorem nextGood_nil : NextGood [] := by intro s hs; cases hs

theorem nextGood_cons {c : Consumer} {r : List Step} (hc : Good c) (hr : NextGood r) : NextGood (.next c :: r) := by
  intro s hs
  rcases List.mem_cons.1 hs with rfl | hs
  · exact ⟨c, rfl, hc⟩
  · exact hr s hs

theorem nextGood_append {a b : List Step} (ha : NextGood a) (hb : NextGood b) : NextGood (a ++ b) := by
  intro s hs
  rcases List.mem_append.1 hs with hs | hs
  · exact ha s hs
  · exact hb s hs

theorem nextGood_flatMap {α : Type} {l : List α} {f : α → List Step} (h : ∀ a ∈ l, NextGood (f a)) : NextGood (l.flatMap f) := by
  intro s hs
  obtain ⟨a, ha, hs⟩ := List.mem_flatMap.1 hs
  exact h a ha s hs

theorem good_type1 (q : QFn) : Good q.functionType1 := good_use _

theorem good_type2 (q : QFn) : Good q.functionType2 := by
  unfold QFn.functionType2
  split
  · exact good_prng (nextGood_cons (good_use _) (nextGood_cons (good_use _) nextGood_nil))
  · exact good_use _

theorem nextGood_values2 (q : QFn) (b : Bool) : NextGood (q.valuesType2 b) := by
  unfold QFn.valuesType2
  split
  · exact nextGood_cons (good_type2 q) (nextGood_cons (good_use _) nextGood_nil)
  · exact nextGood_cons (good_type2 q) nextGood_nil

theorem nextGood_values1 (q : QFn) : NextGood q.valuesType1 := by
  unfold QFn.valuesType1
  split
  · exact nextGood_cons (good_type1 q) (nextGood_cons (good_use _) nextGood_nil)
  · exact nextGood_cons (good_type1 q) nextGood_nil

theorem good_policy (p : PFn) : Good p.function := by
  cases p with
  | param => exact good_use _
  | valueBased q => exact good_prng (nextGood_values2 q _)

theorem good_targetDistV : Good targetDistV := good_prng (nextGood_cons (good_use _) (nextGood_cons (good_use _) nextGood_nil))

theorem good_targetDistQ (q : QFn) : Good (targetDistQ q) := good_prng (nextGood_cons (good_use _) (nextGood_cons (good_type1 q) nextGood_nil))

theorem nextGood_bootstrap (q qTarg e : QFn) : NextGood (bootstrapSteps q qTarg e) := by
  unfold bootstrapSteps
  refine nextGood_cons (good_use _) (nextGood_cons ?_ nextGood_nil)
  split
  · exact good_targetDistQ _
  · exact good_type1 _

theorem nextGood_eval (qs : List QFn) : NextGood (evalSteps qs) :=
  nextGood_flatMap fun q _ => nextGood_cons (good_use _) (nextGood_values1 q)

theorem good_shared_le {n : Nat} (hn : n ≤ 1) {c : Consumer} (hc : Good c) : Good (shared n c) := by
  rcases (by omega : n = 0 ∨ n = 1) with rfl | rfl
  · exact ⟨fun k u hu => absurd hu (by simp [shared]), fun k => List.Pairwise.nil⟩
  · have : shared 1 c = c := by funext k; simp [shared]
    rw [this]; exact hc

theorem shared_twice {n : Nat} (hn : 2 ≤ n) (c : Consumer) (k : Key) : ∃ r, shared n c k = c k ++ (c k ++ r) := by
  obtain ⟨m, rfl⟩ : ∃ m, n = m + 2 := ⟨n - 2, by omega⟩
  refine ⟨(List.range m).flatMap fun _ => c k, ?_⟩
  have : ∀ n, shared (n + 1) c k = c k ++ shared n c k := by
    intro n
    simp only [shared, List.range_succ_eq_map, List.flatMap_cons, List.flatMap_map]
  rw [this, this]; rfl

theorem not_independent_twice {us r : List Use} {u : Use} (hu : u ∈ us) : ¬ Independent (us ++ (us ++ r)) := by
  intro h
  exact not_apart_from .refl ((List.pairwise_append.1 h).2.2 u hu u (List.mem_append_left _ hu))

/-! ### Updates -/

/-- The regularizer treats at most one state. -/
def RegK.single : RegK → Prop
  | .nstep n _ => n ≤ 1
  | _ => True

theorem good_reg {r : RegK} (h : r.single) {c : Consumer} (hc : r.batchEval = some c) : Good c := by
  cases r with
  | none => cases hc
  | plain f => cases hc; exact good_prng (nextGood_cons (good_use _) (nextGood_cons (good_policy f) nextGood_nil))
  | nstep n f =>
    cases hc
    have h1 := good_shared_le h (good_use .obs)
    have h2 := good_shared_le h (good_policy f)
    refine ⟨?_, ?_⟩
    · intro k u hu
      rcases List.mem_append.1 hu with hu | hu
      · exact fst_from (snd_from (h1.1 _ u hu))
      · exact snd_from (h2.1 _ u hu)
    · intro k
      refine List.pairwise_append.2 ⟨h1.2 _, h2.2 _, ?_⟩
      intro u hu v hv
      exact (children_apart k).symm.mono (snd_from (h1.1 _ u hu)) (h2.1 _ v hv)

theorem nextGood_reg {r : RegK} (h : r.single) : NextGood r.steps := by
  intro s hs
  obtain ⟨c, hc, rfl⟩ := List.mem_map.1 hs
  exact ⟨c, rfl, good_reg h (Option.mem_toList.1 hc)⟩

theorem nextGood_clipped {q : QFn} {rows : Nat} (h : q.stochastic = true → rows ≤ 1) : NextGood (clippedSteps q rows) := by
  unfold clippedSteps
  split
  · next hq => exact nextGood_cons (good_shared_le (h hq) (good_targetDistQ q)) nextGood_nil
  · exact nextGood_nil

theorem good_target (u : UpdK) (h : u.stochastic = false) : Good u.target := by
  have obs := good_use .obs
  cases u with
  | simpleTD s => cases h; exact good_prng (nextGood_cons obs (nextGood_cons (good_use _) nextGood_nil))
  | sarsa q qt =>
    refine good_prng (nextGood_cons obs (nextGood_cons (good_use _) (nextGood_cons ?_ nextGood_nil)))
    split
    · exact good_targetDistQ _
    · exact good_type1 _
  | expectedSarsa q qt pi => exact good_prng (nextGood_append (nextGood_cons obs (nextGood_cons (good_policy _) nextGood_nil)) (nextGood_bootstrap _ _ _))
  | qLearning q qt => exact good_prng (nextGood_cons obs (nextGood_append (nextGood_values2 _ _) (nextGood_bootstrap _ _ _)))
  | qLearningCont q qt pi => exact good_prng (nextGood_append (nextGood_cons obs (nextGood_cons (good_policy _) nextGood_nil)) (nextGood_bootstrap _ _ _))
  | softQLearning qt => exact good_prng (nextGood_cons obs (nextGood_cons (good_type2 _) nextGood_nil))
  | clipped q qts rows =>
    refine good_prng (nextGood_append (nextGood_flatMap fun qi _ => nextGood_cons obs (nextGood_append (nextGood_values2 _ _) (nextGood_eval _))) (nextGood_clipped fun hq => ?_))
    simp only [UpdK.stochastic] at h; rw [h] at hq; cases hq
  | clippedCont q qts pis sampled rows =>
    refine good_prng (nextGood_append (nextGood_flatMap fun pi _ => nextGood_append (nextGood_append (nextGood_cons obs (nextGood_cons (good_policy _) nextGood_nil)) ?_) (nextGood_eval _))
      (nextGood_clipped fun hq => ?_))
    · split
      · exact nextGood_cons (good_use _) nextGood_nil
      · exact nextGood_nil
    · simp only [UpdK.stochastic] at h; rw [h] at hq; cases hq

theorem nextGood_inputs (u : UpdK) : NextGood u.inputs := by
  cases u <;> first
    | exact nextGood_cons (good_use _) nextGood_nil
    | exact nextGood_cons (good_use _) (nextGood_cons (good_use _) nextGood_nil)

theorem nextGood_metrics (u : UpdK) : NextGood u.metrics := by
  have h : NextGood (if u.stochastic then [Step.next (use .net), .next (use .post)] else [.next (use .net)]) := by
    split
    · exact nextGood_cons (good_use _) (nextGood_cons (good_use _) nextGood_nil)
    · exact nextGood_cons (good_use _) nextGood_nil
  cases u <;> first
    | exact h
    | exact nextGood_flatMap fun q _ => nextGood_values1 q

theorem good_loss (u : UpdK) (r : RegK) (h : u.stochastic = false) (hr : r.single) : Good (u.loss r) := by
  refine good_prng (nextGood_append (nextGood_append (nextGood_append (nextGood_inputs u) (nextGood_reg hr)) (nextGood_cons (good_use _) ?_)) (nextGood_metrics u))
  rw [h]
  exact nextGood_cons (good_target u h) nextGood_nil

theorem good_call (u : UpdK) (r : RegK) (h : u.stochastic = false) (hr : r.single) (grads : Bool) : Good (u.call r grads) := by
  cases grads with
  | false => exact good_loss u r h hr
  | true => exact good_prng (nextGood_cons (good_loss u r h hr) nextGood_nil)

/-- Every target function starts with a preprocessor of observations, with the first key of its sequence, unless it has no functions to evaluate. -/
theorem target_first (u : UpdK) (k : Key) : ∃ r, u.target k = ⟨.obs, k.snd⟩ :: r ∨ u.target k = r ∧ (∃ q rows, u = .clipped q [] rows) ∨
    u.target k = r ∧ ∃ q qts s rows, u = .clippedCont q qts [] s rows := by
  cases u with
  | clipped q qts rows =>
    cases qts with
    | nil => exact ⟨_, .inr (.inl ⟨rfl, q, rows, rfl⟩)⟩
    | cons a l => exact ⟨_, .inl rfl⟩
  | clippedCont q qts pis s rows =>
    cases pis with
    | nil => exact ⟨_, .inr (.inr ⟨rfl, q, qts, s, rows, rfl⟩)⟩
    | cons a l => exact ⟨_, .inl rfl⟩
  | _ => exact ⟨_, .inl rfl⟩

/-- What the constructors of the clipped updaters check: there is something to evaluate (`coax/td_learning/_clippeddoubleqlearning.py:114-118`). -/
def UpdK.accepted : UpdK → Prop
  | .clipped _ qts _ => 2 ≤ qts.length
  | .clippedCont _ qts pis _ _ => 2 ≤ qts.length * pis.length
  | _ => True

theorem target_obs (u : UpdK) (ha : u.accepted) (k : Key) : ∃ r, u.target k = ⟨.obs, k.snd⟩ :: r := by
  obtain ⟨r, h | ⟨-, q, rows, rfl⟩ | ⟨-, q, qts, s, rows, rfl⟩⟩ := target_first u k
  · exact ⟨r, h⟩
  · simp [UpdK.accepted] at ha
  · simp [UpdK.accepted] at ha

theorem inputs_obs (u : UpdK) : ∃ r, u.inputs = .next (use .obs) :: r := by
  cases u <;> exact ⟨_, rfl⟩

theorem runSteps_raw {k : Key} {steps : List Step} {c : Consumer} (h : Step.raw c ∈ steps) : ∀ cur, ∀ u ∈ c k, u ∈ runSteps k cur steps := by
  induction steps with
  | nil => cases h
  | cons s r ih =>
    intro cur u hu
    rcases List.mem_cons.1 h with rfl | h'
    · exact List.mem_append_left _ hu
    · cases s with
      | next c => exact List.mem_append_right _ (ih h' _ u hu)
      | raw c => exact List.mem_append_right _ (ih h' _ u hu)

/-- The loss of a stochastic updater starts with a preprocessor, and later uses the same key for the preprocessor in its target. -/
theorem loss_same (u : UpdK) (r : RegK) (h : u.stochastic = true) (ha : u.accepted) (k : Key) :
    ∃ l, u.loss r k = ⟨.obs, k.snd⟩ :: l ∧ ⟨.obs, k.snd⟩ ∈ l := by
  obtain ⟨a, ha'⟩ := inputs_obs u
  obtain ⟨t, ht⟩ := target_obs u ha k
  unfold UpdK.loss
  rw [ha', h]
  refine ⟨_, rfl, ?_⟩
  refine runSteps_raw (c := u.target) ?_ _ _ (by rw [ht]; exact List.mem_cons_self)
  simp

theorem not_independent_same {us : List Use} {u : Use} {l : List Use} (h : us = u :: l) (hl : u ∈ l) : ¬ Independent us := by
  subst h
  intro h
  exact not_apart_from .refl ((List.pairwise_cons.1 h).1 u hl)

theorem runSteps_next {k : Key} {steps : List Step} {c : Consumer} (h : Step.next c ∈ steps) : ∀ cur, ∃ k', ∃ a b, runSteps k cur steps = a ++ c k' ++ b := by
  induction steps with
  | nil => cases h
  | cons s r ih =>
    intro cur
    rcases List.mem_cons.1 h with rfl | h'
    · exact ⟨cur.snd, [], _, rfl⟩
    · cases s with
      | next c' =>
        obtain ⟨k', a, b, e⟩ := ih h' cur.fst
        exact ⟨k', c' cur.snd ++ a, b, by simp only [runSteps, Key.split]; rw [e]; simp⟩
      | raw c' =>
        obtain ⟨k', a, b, e⟩ := ih h' cur
        exact ⟨k', c' k ++ a, b, by simp only [runSteps]; rw [e]; simp⟩

theorem nstep_not_independent {n : Nat} (hn : 2 ≤ n) (f : PFn) {c : Consumer} (hc : (RegK.nstep n f).batchEval = some c) (k : Key) : ¬ Independent (c k) := by
  cases hc
  obtain ⟨r, hr⟩ := shared_twice hn (use .obs) k.fst.snd
  intro h
  have := (List.pairwise_append.1 h).1
  rw [show k.split.1.split.2 = k.fst.snd from rfl, hr] at this
  exact not_independent_twice (us := use .obs k.fst.snd) (u := ⟨.obs, k.fst.snd⟩) List.mem_cons_self this

theorem reg_of_independent (u : UpdK) (r : RegK) (k : Key) (h : Independent (u.loss r k)) : r.single := by
  cases r with
  | none => trivial
  | plain f => trivial
  | nstep n f =>
    by_contra hn
    have hn' : 2 ≤ n := by simp only [RegK.single] at hn; omega
    obtain ⟨c, hc⟩ : ∃ c, (RegK.nstep n f).batchEval = some c := ⟨_, rfl⟩
    obtain ⟨k', a, b, e⟩ := runSteps_next (k := k) (c := c)
      (steps := u.inputs ++ (RegK.nstep n f).steps ++ .next (use .net) :: (if u.stochastic then [.raw u.target, .next (use .post), .next (use .post)] else [.next u.target]) ++ u.metrics)
      (by simp [RegK.steps, hc]) k
    unfold UpdK.loss prng at h
    rw [e] at h
    exact nstep_not_independent hn' f hc k' (List.pairwise_append.1 (List.pairwise_append.1 h).1).2.1

/-- **C111** for TD updaters, completely: the random draws of `td_error` and of an update are independent exactly if the value function is deterministic and the regularizer (if any) treats
one state at a time. -/
theorem C111_td_iff (u : UpdK) (ha : u.accepted) (r : RegK) (grads : Bool) (k : Key) : Independent (u.call r grads k) ↔ u.stochastic = false ∧ r.single := by
  have key : ∀ k, Independent (u.loss r k) → u.stochastic = false ∧ r.single := by
    intro k h
    refine ⟨?_, reg_of_independent u r k h⟩
    cases hs : u.stochastic with
    | false => rfl
    | true =>
      obtain ⟨l, hl, hm⟩ := loss_same u r hs ha k
      exact absurd h (not_independent_same hl hm)
  refine ⟨?_, fun h => (good_call u r h.1 h.2 grads).2 k⟩
  cases grads with
  | false => exact key k
  | true =>
    intro h
    refine key k.snd ?_
    simpa [UpdK.call, prng, runSteps, Key.split] using h

/-- C111 fails for every stochastic value function: states and next states are preprocessed with the same key (`target_func` gets `rng` itself). -/
theorem C111_stochastic_counterexample (u : UpdK) (r : RegK) (h : u.stochastic = true) (ha : u.accepted) (k : Key) :
    ∃ l, u.call r false k = ⟨.obs, k.snd⟩ :: l ∧ ⟨.obs, k.snd⟩ ∈ l := loss_same u r h ha k

/-- C111 fails for SimpleTD with a stochastic v-function: the key of the target network is derived from the key of the network that is trained. -/
theorem C111_network_counterexample (k : Key) :
    ∃ a b, (⟨.net, a⟩ : Use) ∈ (UpdK.simpleTD true).loss .none k ∧ ⟨.net, b⟩ ∈ (UpdK.simpleTD true).target k ∧ a.From b ∧ a ≠ b := by
  refine ⟨k.fst.snd, k.fst.snd.fst.snd, ?_, ?_, .snd (.fst .refl), ?_⟩
  · simp [UpdK.loss, UpdK.inputs, RegK.steps, RegK.batchEval, prng, runSteps, Key.split, use]
  · simp [UpdK.target, targetDistV, prng, runSteps, Key.split, use]
  · intro h
    have := congrArg (fun k => k.path.2.length) h
    simp [Key.path] at this

/-- C111 fails for n-step entropy: all states are preprocessed with the same key, and so are the evaluations of the policy. -/
theorem C111_nstep_counterexample (n : Nat) (k : Key) : ∃ c, (RegK.nstep n .param).batchEval = some c ∧
    c k = List.replicate n ⟨.obs, k.fst.snd⟩ ++ List.replicate n ⟨.net, k.snd⟩ := by
  refine ⟨_, rfl, ?_⟩
  have : ∀ (w : What) k, shared n (use w) k = List.replicate n ⟨w, k⟩ := by
    intro w k
    unfold shared use
    induction n with
    | zero => rfl
    | succ n ih => rw [List.range_succ, List.flatMap_append, ih, List.replicate_succ']; simp
  simp only [this, PFn.function, Key.split]

/-! ### Policy objectives -/

/-- Some q-function of the objective is stochastic. -/
def ObjK.stochastic : ObjK → Bool
  | .vanilla => false
  | .deterministic q => q.stochastic
  | .soft qs => qs.any QFn.stochastic

theorem nextGood_objective {q : QFn} (h : q.stochastic = false) : NextGood q.objectiveSteps := by
  unfold QFn.objectiveSteps
  rw [h]
  exact nextGood_cons (good_use _) (nextGood_cons (good_type1 q) nextGood_nil)

theorem good_objective (o : ObjK) (h : o.stochastic = false) : Good o.objective := by
  have obs := good_use .obs
  have net := good_use .net
  cases o with
  | vanilla => exact good_prng (nextGood_cons obs (nextGood_cons net (nextGood_cons (good_use _) nextGood_nil)))
  | deterministic q => exact good_prng (nextGood_append (nextGood_cons obs (nextGood_cons net nextGood_nil)) (nextGood_objective h))
  | soft qs =>
    refine good_prng (nextGood_append (nextGood_cons obs (nextGood_cons net (nextGood_cons (good_use _) nextGood_nil))) (nextGood_flatMap fun q hq => nextGood_objective ?_))
    simp only [ObjK.stochastic, List.any_eq_false] at h
    simpa using h q hq

theorem objective_first (o : ObjK) (k : Key) : ∃ r, o.objective k = ⟨.obs, k.snd⟩ :: ⟨.net, k.fst.snd⟩ :: r := by
  cases o <;> exact ⟨_, rfl⟩

theorem objective_raw (o : ObjK) (h : o.stochastic = true) (k : Key) : (⟨.net, k⟩ : Use) ∈ o.objective k := by
  have hs : ∀ q : QFn, q.stochastic = true → Step.raw q.functionType1 ∈ q.objectiveSteps := by
    intro q hq
    unfold QFn.objectiveSteps
    rw [hq]; simp
  cases o with
  | vanilla => cases h
  | deterministic q => exact runSteps_raw (c := q.functionType1) (List.mem_append_right _ (hs q h)) k _ List.mem_cons_self
  | soft qs =>
    obtain ⟨q, hq, hst⟩ := List.any_eq_true.1 h
    exact runSteps_raw (c := q.functionType1) (List.mem_append_right _ (List.mem_flatMap.2 ⟨q, hq, hs q hst⟩)) k _ List.mem_cons_self

/-- **C111** for policy objectives, completely: the random draws are independent exactly if all q-functions are deterministic and there is no regularizer (other than n-step entropy over no states). -/
theorem C111_policy_iff (o : ObjK) (r : RegK) (k : Key) : Independent (o.loss r k) ↔ o.stochastic = false ∧ (r = .none ∨ ∃ f, r = .nstep 0 f) := by
  obtain ⟨a, ha⟩ := objective_first o k
  constructor
  · intro h
    have h' := List.pairwise_append.1 h
    refine ⟨?_, ?_⟩
    · cases hs : o.stochastic with
      | false => rfl
      | true =>
        exfalso
        have hm := objective_raw o hs k
        have h1 := h'.1
        rw [ha] at hm h1
        rcases List.mem_cons.1 hm with e | hm
        · cases e
        · exact not_apart_from (.snd .refl) ((List.pairwise_cons.1 h1).1 _ hm).symm
    · cases r with
      | none => exact .inl rfl
      | plain f =>
        exfalso
        exact not_apart_from .refl (h'.2.2 ⟨.obs, k.snd⟩ (by rw [ha]; exact List.mem_cons_self) ⟨.obs, k.snd⟩ List.mem_cons_self)
      | nstep n f =>
        cases n with
        | zero => exact .inr ⟨f, rfl⟩
        | succ n =>
          exfalso
          refine not_apart_from .refl (h'.2.2 ⟨.net, k.fst.snd⟩ (by rw [ha]; exact List.mem_cons_of_mem _ List.mem_cons_self) ⟨.obs, k.fst.snd⟩ (List.mem_append_left _ ?_))
          refine List.mem_flatMap.2 ⟨0, by simp, List.mem_cons_self⟩
  · rintro ⟨hs, hr⟩
    refine List.pairwise_append.2 ⟨(good_objective o hs).2 k, ?_, ?_⟩
    · rcases hr with rfl | ⟨f, rfl⟩ <;> exact List.Pairwise.nil
    · intro u _ v hv
      rcases hr with rfl | ⟨f, rfl⟩ <;> cases hv

/-- C111 fails for SoftPG with stochastic q-functions: all of them get the key from which the action is sampled. -/
theorem C111_softpg_counterexample (qs : List QFn) (q : QFn) (hq : q ∈ qs) (hs : q.stochastic = true) (k : Key) :
    ∃ s, (⟨.sample, s⟩ : Use) ∈ (ObjK.soft qs).objective k ∧ ⟨.net, k⟩ ∈ (ObjK.soft qs).objective k ∧ k.From s := by
  refine ⟨k.fst.fst.snd, ?_, objective_raw (.soft qs) (List.any_eq_true.2 ⟨q, hq, hs⟩) k, .snd (.fst (.fst .refl))⟩
  simp [ObjK.objective, prng, runSteps, Key.split, use]

/-- The regularizer of a policy objective uses the same keys as the objective, for the same purposes. -/
theorem C111_regularizer_counterexample (o : ObjK) (k : Key) : ∃ r, o.loss (.plain .param) k = ⟨.obs, k.snd⟩ :: ⟨.net, k.fst.snd⟩ :: r ++ [⟨.obs, k.snd⟩, ⟨.net, k.fst.snd⟩] := by
  obtain ⟨a, ha⟩ := objective_first o k
  refine ⟨a, ?_⟩
  show o.objective k ++ _ = _
  rw [ha]
  rfl

/-- **C111** for `ModelUpdater`: always independent. -/
theorem C111_model (stochastic transitionModel : Bool) (k : Key) : Independent (modelLoss stochastic transitionModel k) := by
  refine (good_prng (nextGood_append (nextGood_append (nextGood_cons (good_use _) (nextGood_cons (good_use _) (nextGood_cons (good_use _) nextGood_nil))) ?_) ?_)).2 k
  · split
    · exact nextGood_cons (good_use _) nextGood_nil
    · exact nextGood_nil
  · split
    · exact nextGood_cons (good_use _) nextGood_nil
    · exact nextGood_nil

/-! ### Training -/

/-- An update of any kind. -/
inductive UpdateK where
  | td (u : UpdK) (r : RegK) (grads : Bool)
  | policy (o : ObjK) (r : RegK)
  | model (stochastic transitionModel : Bool)

/-- The random draws of an update. -/
def UpdateK.uses : UpdateK → Consumer
  | .td u r g => u.call r g
  | .policy o r => o.loss r
  | .model s t => modelLoss s t

/-- The updates for which the draws are independent by the theorems above. -/
def UpdateK.fine : UpdateK → Prop
  | .td u r _ => u.stochastic = false ∧ r.single
  | .policy o r => o.stochastic = false ∧ r = .none
  | .model _ _ => True

theorem good_update (u : UpdateK) (h : u.fine) : Good u.uses := by
  cases u with
  | td u r g => exact good_call u r h.1 h.2 g
  | policy o r =>
    obtain ⟨h, rfl⟩ := h
    have : (ObjK.loss o .none) = o.objective := by funext k; exact List.append_nil _
    show Good (ObjK.loss o .none)
    rw [this]; exact good_objective o h
  | model s t =>
    refine ⟨(good_prng (nextGood_append (nextGood_append (nextGood_cons (good_use _) (nextGood_cons (good_use _) (nextGood_cons (good_use _) nextGood_nil))) ?_) ?_)).1, C111_model s t⟩
    · split
      · exact nextGood_cons (good_use _) nextGood_nil
      · exact nextGood_nil
    · split
      · exact nextGood_cons (good_use _) nextGood_nil
      · exact nextGood_nil

/-- **C111** for whole programs: objects are made with different seeds and not copied, each key they hand out is given to one update of the kinds that are fine; then all random draws of
all updates are independent.  Missing: the updates above whose draws are not independent, and copies (C101). -/
theorem C111_training_partial (es : List KeyEvent) (hw : WellFormed es) (hc : NoCopy es) (hs : (seedsOf es).Nodup) (updates : Nat → UpdateK) (hu : ∀ i, (updates i).fine) :
    ∃ objs ks, keyRun es.reverse = some (objs, ks) ∧ Independent (ks.zipIdx.flatMap fun p => (updates p.2).uses p.1) := by
  obtain ⟨objs, ks, h1, h2⟩ := C101_fresh_partial es hw hc hs
  refine ⟨objs, ks, h1, ?_⟩
  have hpair : ks.zipIdx.Pairwise fun p q => Unrelated p.1 q.1 := by
    rw [List.pairwise_iff_getElem]
    intro i j hi hj hij
    rw [List.length_zipIdx] at hi hj
    simp only [List.getElem_zipIdx]
    exact h2 i j _ _ (by omega) (List.getElem?_eq_getElem hi) (List.getElem?_eq_getElem hj)
  show List.Pairwise _ _
  rw [List.pairwise_flatMap]
  refine ⟨fun p _ => (good_update _ (hu p.2)).2 p.1, hpair.imp ?_⟩
  intro p q hpq x hx y hy
  exact hpq.mono ((good_update _ (hu p.2)).1 _ x hx) ((good_update _ (hu q.2)).1 _ y hy)

/-- The hypotheses can be met: a q-function and a policy, trained in turn. -/
example : ∃ objs ks, keyRun [.new 1, .new 2, .use 0, .use 1, .use 0] = some (objs, ks) ∧
    Independent (ks.zipIdx.flatMap fun p => (UpdateK.uses (if p.2 % 2 = 0 then .td (.clippedCont ⟨false, true⟩ [⟨false, true⟩, ⟨false, true⟩] [.param] true 4) (.plain .param) true
      else .policy (.soft [⟨false, true⟩, ⟨false, true⟩]) .none)) p.1) := by
  refine C111_training_partial [.use 0, .use 1, .use 0, .new 2, .new 1] ?_ ?_ ?_
    (fun i => if i % 2 = 0 then .td (.clippedCont ⟨false, true⟩ [⟨false, true⟩, ⟨false, true⟩] [.param] true 4) (.plain .param) true else .policy (.soft [⟨false, true⟩, ⟨false, true⟩]) .none) ?_
  · simp [WellFormed, objects]
  · intro i h; simp at h
  · decide
  · intro i
    show UpdateK.fine (if i % 2 = 0 then _ else _)
    split
    · exact ⟨rfl, trivial⟩
    · exact ⟨rfl, rfl⟩

end Coax.Core
