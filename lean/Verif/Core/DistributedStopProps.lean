import Verif.Core.DistributedProps
import Mathlib.Data.Set.Finite.Range
import Mathlib.Data.Set.Finite.Lattice

/-! Property C105, continued: when the processes of a distributed agent stop. -/

namespace Coax.Core

variable {ι θ ω X β : Type _} [DecidableEq ι]

/-- The state after the first `k` turns of an infinite schedule. -/
def after (cfg : DCfg ι θ ω X β) (s : DSys ι θ ω X β) (e : ℕ → ι × Choice X) (k : ℕ) : DSys ι θ ω X β := (s.run cfg ((List.range k).map e)).1

/-- What is done in turn `k`. -/
def done (cfg : DCfg ι θ ω X β) (s : DSys ι θ ω X β) (e : ℕ → ι × Choice X) (k : ℕ) : Did θ X := ((after cfg s e k).turn cfg (e k).1 (e k).2).2

theorem after_succ (cfg : DCfg ι θ ω X β) (s : DSys ι θ ω X β) (e : ℕ → ι × Choice X) (k : ℕ) : after cfg s e (k + 1) = ((after cfg s e k).turn cfg (e k).1 (e k).2).1 := by
  unfold after
  rw [List.range_succ, List.map_append, run_append]
  rfl

variable {cfg : DCfg ι θ ω X β} {s : DSys ι θ ω X β} {e : ℕ → ι × Choice X}

theorem stays {P : DSys ι θ ω X β → Prop} (h : ∀ s k, P s → P (s.turn cfg (e k).1 (e k).2).1) {k : ℕ} (hk : P (after cfg s e k)) : ∀ k', k ≤ k' → P (after cfg s e k') := by
  intro k' hk'
  induction hk' with
  | refl => exact hk
  | step _ ih => rw [Nat.succ_eq_add_one, after_succ]; exact h _ _ ih

/-- Every episode takes a step. -/
theorem rolled_pos {theta : θ} {beta : β} {opt : ω} {learns : ι → Bool} (he : ∀ k, 1 ≤ (e k).2.steps) (k : ℕ) :
    ∀ j t, (after cfg (DSys.init theta beta opt learns) e k).procs j = .rollout (.rolled t) → 1 ≤ t := by
  induction k with
  | zero =>
    intro j t h
    simp only [after, List.range_zero, List.map_nil, DSys.run, DSys.init] at h
    split at h <;> cases h
  | succ k ih =>
    intro j t h
    rw [after_succ] at h
    rcases turn_rolled _ _ h with h | rfl
    · exact ih j t h
    · exact he k

/-! ### Rollout workers -/

/-- A worker that pushes again and again. -/
def Often (cfg : DCfg ι θ ω X β) (s : DSys ι θ ω X β) (e : ℕ → ι × Choice X) (i : ι) : Prop := ∀ K, ∃ k, K ≤ k ∧ (e k).1 = i ∧ ∃ p, done cfg s e k = .counted p

theorem often_pushes {i : ι} (h : Often cfg s e i) {k : ℕ} (hk : (e k).1 = i) {p : ℕ} (hp : done cfg s e k = .counted p) : p < cfg.maxTotalSteps := by
  rcases turn_T (cfg := cfg) (s := after cfg s e k) (e k).1 (e k).2 with ⟨q, h1, -, -, -, h2⟩ | ⟨h1, -⟩
  · obtain rfl : q = p := by unfold done at hp; rw [h1] at hp; cases hp; rfl
    by_contra hlt
    rw [← after_succ, hk] at h2
    rw [if_neg (by simp [hlt])] at h2
    obtain ⟨k', h3, h4, q', h5⟩ := h (k + 1)
    have h6 := stays (cfg := cfg) (s := s) (e := e) (P := fun s => s.procs i = .rollout .stopped) (fun s k h => turn_stopped _ _ h) h2 k' h3
    rcases turn_T (cfg := cfg) (s := after cfg s e k') (e k').1 (e k').2 with ⟨q, -, h7, -⟩ | ⟨h7, -⟩
    · rw [h4, h6] at h7; cases h7
    · exact h7 _ h5
  · exact absurd hp (h1 p)

/-- The counter, and all numbers to be pushed, are bounded below. -/
def Above (I : ι → Prop) (c : ℕ) (s : DSys ι θ ω X β) : Prop := c ≤ s.store.T + 1 ∧ ∀ i, I i → ∀ p, s.procs i = .rollout (.push p) → c ≤ p

theorem above_turn {I : ι → Prop} {c : ℕ} {s : DSys ι θ ω X β} {i : ι} {x : Choice X} (h : Above I c s) (hi : (∃ p, (s.turn cfg i x).2 = .counted p) → I i) (hr : ∀ t, s.procs i = .rollout (.rolled t) → 1 ≤ t) :
    Above I c (s.turn cfg i x).1 := by
  obtain ⟨h1, h2⟩ := h
  constructor
  · rcases turn_T (cfg := cfg) (s := s) i x with ⟨p, hp, h3, -, h4, -⟩ | ⟨-, h4⟩
    · have := h2 i (hi ⟨p, hp⟩) p h3
      omega
    · omega
  · intro j hj p hp
    rcases turn_push i x hp with ⟨h3, -⟩ | ⟨rfl, t, h3, rfl⟩
    · exact h2 j hj p h3
    · have := hr t h3
      omega

/-- **C105**, progress: in every execution, fair or not, with any number of workers and whatever numbers are lost, the rollout workers report only finitely many episodes before they stop. -/
theorem C105_finitely_many [Finite ι] (cfg : DCfg ι θ ω X β) (theta : θ) (beta : β) (opt : ω) (learns : ι → Bool) {e : ℕ → ι × Choice X} (he : ∀ k, 1 ≤ (e k).2.steps) :
    ∃ K, ∀ k, K ≤ k → ∀ p, done cfg (DSys.init theta beta opt learns) e k ≠ .counted p := by
  generalize hs : DSys.init theta beta opt learns = s
  have hr : ∀ k j t, (after cfg s e k).procs j = .rollout (.rolled t) → 1 ≤ t := by subst hs; exact rolled_pos he
  clear hs
  by_contra hcon
  push Not at hcon
  -- from some time on only workers of `Often` push
  have hK : ∃ K, ∀ k, K ≤ k → (∃ p, done cfg s e k = .counted p) → Often cfg s e (e k).1 := by
    have : ∀ i, ∃ K, ¬ Often cfg s e i → ∀ k, K ≤ k → (e k).1 = i → ¬ ∃ p, done cfg s e k = .counted p := by
      intro i
      by_cases h : Often cfg s e i
      · exact ⟨0, fun h' => absurd h h'⟩
      · unfold Often at h
        push Not at h
        obtain ⟨K, hK⟩ := h
        exact ⟨K, fun _ k hk hi ⟨p, hp⟩ => hK k hk hi p hp⟩
    choose K hK using this
    obtain ⟨M, hM⟩ := (Set.finite_range K).bddAbove
    refine ⟨M, fun k hk hp => ?_⟩
    by_contra hno
    exact hK _ hno k ((hM ⟨_, rfl⟩).trans hk) rfl hp
  obtain ⟨K, hK⟩ := hK
  -- the lower bound grows
  have grow : ∀ c, ∃ K', K ≤ K' ∧ ∀ k, K' ≤ k → Above (Often cfg s e) c (after cfg s e k) := by
    have keep : ∀ c k, K ≤ k → Above (Often cfg s e) c (after cfg s e k) → ∀ k', k ≤ k' → Above (Often cfg s e) c (after cfg s e k') := by
      intro c k hk h k' hk'
      induction hk' with
      | refl => exact h
      | @step m hm ih =>
        rw [Nat.succ_eq_add_one, after_succ]
        exact above_turn ih (hK m (hk.trans hm)) (hr m _)
    intro c
    induction c with
    | zero => exact ⟨K, le_rfl, fun k hk => ⟨Nat.zero_le _, fun _ _ _ _ => Nat.zero_le _⟩⟩
    | succ c ih =>
      obtain ⟨K1, hK1, h1⟩ := ih
      -- after one more push the counter is at least `c`
      obtain ⟨k0, hk0, p0, hp0⟩ := hcon K1
      have hT : ∀ k, k0 + 1 ≤ k → c ≤ (after cfg s e k).store.T := by
        intro k hk
        induction hk with
        | refl =>
          rw [after_succ]
          rcases turn_T (cfg := cfg) (s := after cfg s e k0) (e k0).1 (e k0).2 with ⟨q, h2, h3, -, h4, -⟩ | ⟨h2, -⟩
          · rw [h4]
            exact (h1 k0 hk0).2 _ (hK k0 (hK1.trans hk0) ⟨p0, hp0⟩) q h3
          · exact absurd hp0 (h2 p0)
        | @step m hm ih =>
          rw [Nat.succ_eq_add_one, after_succ]
          have hm' : K1 ≤ m := by have : k0 + 1 ≤ m := hm; omega
          rcases turn_T (cfg := cfg) (s := after cfg s e m) (e m).1 (e m).2 with ⟨q, h2, h3, -, h4, -⟩ | ⟨-, h4⟩
          · rw [h4]
            exact (h1 m hm').2 _ (hK m (hK1.trans hm') ⟨q, h2⟩) q h3
          · rw [h4]; exact ih
      -- after each worker has pushed once more, what it pushes later is larger
      have hQ : ∀ i, ∃ k1, k0 + 1 ≤ k1 ∧ (Often cfg s e i → ∀ k, k1 ≤ k → ∀ p, (after cfg s e k).procs i = .rollout (.push p) → c + 1 ≤ p) := by
        intro i
        by_cases hi : Often cfg s e i
        · obtain ⟨k1, hk1, hi1, p1, hp1⟩ := hi (k0 + 1)
          refine ⟨k1 + 1, by omega, fun _ k hk => ?_⟩
          induction hk with
          | refl =>
            intro p hp
            rw [after_succ] at hp
            rcases turn_T (cfg := cfg) (s := after cfg s e k1) (e k1).1 (e k1).2 with ⟨q, -, -, -, -, h2⟩ | ⟨h2, -⟩
            · rw [hi1] at h2 hp
              rw [h2] at hp
              split at hp <;> cases hp
            · exact absurd hp1 (h2 p1)
          | @step m hm ih =>
            intro p hp
            rw [Nat.succ_eq_add_one, after_succ] at hp
            rcases turn_push _ _ hp with ⟨h2, -⟩ | ⟨rfl, t, h2, rfl⟩
            · exact ih p h2
            · have h3 := hr m _ t h2
              have h4 := hT m (by have : k1 + 1 ≤ m := hm; omega)
              omega
        · exact ⟨k0 + 1, le_rfl, fun h => absurd h hi⟩
      choose k1 hk1 hk1' using hQ
      obtain ⟨M, hM⟩ := (Set.finite_range k1).bddAbove
      refine ⟨max M (k0 + 1), by have := le_max_right M (k0 + 1); omega, fun k hk => ⟨?_, fun i hi p hp => ?_⟩⟩
      · exact Nat.succ_le_succ (hT k ((le_max_right _ _).trans hk))
      · exact hk1' i hi k (((hM ⟨i, rfl⟩).trans (le_max_left _ _)).trans hk) p hp
  obtain ⟨K', hK', h⟩ := grow cfg.maxTotalSteps
  obtain ⟨k, hk, p, hp⟩ := hcon K'
  have hi := hK k (hK'.trans hk) ⟨p, hp⟩
  have h1 := often_pushes hi rfl hp
  rcases turn_T (cfg := cfg) (s := after cfg s e k) (e k).1 (e k).2 with ⟨q, h2, h3, -⟩ | ⟨h2, -⟩
  · obtain rfl : q = p := by unfold done at hp; rw [h2] at hp; cases hp; rfl
    have := (h k hk).2 _ hi q h3
    omega
  · exact h2 p hp

/-! ### Fair executions -/

/-- Every worker has its turn again and again, and every episode ends. -/
def Fair (e : ℕ → ι × Choice X) : Prop := ∀ i K, ∃ k, K ≤ k ∧ (e k).1 = i ∧ (e k).2.item = none

/-- How many turns a rollout worker needs to push. -/
def rank : Proc θ ω X → ℕ
  | .rollout .start => 4
  | .rollout .pull => 3
  | .rollout (.rolling _) => 2
  | .rollout (.rolled _) => 1
  | _ => 0

omit [DecidableEq ι] in
theorem stored_length (s : Store θ X β) (capacity : ℕ) : (s.stored capacity).length = min s.added.length capacity := by
  unfold Store.stored
  rw [List.length_drop]
  omega

/-- The buffer does not shrink. -/
theorem turn_added (s : DSys ι θ ω X β) (i : ι) (c : Choice X) : s.store.added.length ≤ (s.turn cfg i c).1.store.added.length := by
  cases hp : s.procs i with
  | rollout pc =>
    rw [turn_rollout hp]
    cases pc with
    | rolling theta =>
      simp only [rolloutStep]
      split
      · split <;> simp
      · exact le_rfl
    | stopped => exact le_rfl
    | _ => simp only [rolloutStep]; split <;> exact le_rfl
  | learner pc opt envT =>
    rw [turn_learner hp]
    simp only [learnStep]
    split
    · exact le_rfl
    · cases pc <;> simp only <;> try exact le_rfl
      split <;> exact le_rfl

theorem turn_stored (s : DSys ι θ ω X β) (i : ι) (c : Choice X) : (s.store.stored cfg.capacity).length ≤ ((s.turn cfg i c).1.store.stored cfg.capacity).length := by
  have := turn_added (cfg := cfg) s i c
  rw [stored_length, stored_length]
  omega

/-- A learner that asks the store for a batch has seen enough transitions. -/
def Patient (cfg : DCfg ι θ ω X β) (s : DSys ι θ ω X β) : Prop :=
  s.store.blocked = false ∧ ∀ i th opt envT, s.procs i = .learner (.sample th) opt envT → minLen cfg.batchSize (cfg.warmup i) ≤ (s.store.stored cfg.capacity).length

theorem patient_turn (hw : ∀ i, minLen cfg.batchSize cfg.storeWarmup ≤ minLen cfg.batchSize (cfg.warmup i)) {s : DSys ι θ ω X β} (h : Patient cfg s) (i : ι) (c : Choice X) : Patient cfg (s.turn cfg i c).1 := by
  obtain ⟨hb, h⟩ := h
  have hst := turn_stored (cfg := cfg) s i c
  constructor
  · cases hp : s.procs i with
    | rollout pc =>
      rw [turn_rollout hp]
      cases pc with
      | rolling theta =>
        simp only [rolloutStep]
        split
        · split <;> exact hb
        · exact hb
      | stopped => exact hb
      | _ => simp only [rolloutStep]; split <;> exact hb
    | learner pc opt envT =>
      rw [turn_learner hp]
      simp only [learnStep, hb, Bool.false_eq_true, if_false]
      cases pc <;> simp only <;> try exact hb
      rw [if_neg (by have := h i _ _ _ hp; have := hw i; omega)]
      exact hb
  · intro j th opt envT hj
    refine le_trans ?_ hst
    by_cases hji : j = i
    · subst hji
      cases hp : s.procs j with
      | rollout pc => rw [turn_rollout_self hp] at hj; cases hj
      | learner pc opt' envT' =>
        rw [turn_learner_self hp, Proc.learner.injEq] at hj
        obtain ⟨hj, -⟩ := hj
        simp only [learnStep, hb, Bool.false_eq_true, if_false] at hj
        cases pc with
        | wait theta =>
          simp only at hj
          split at hj
          · cases hj
          · omega
        | sample theta => exact h _ _ _ _ hp
        | test => simp only at hj; split at hj <;> cases hj
        | _ => cases hj
    · rw [turn_other hji] at hj
      exact h _ _ _ _ hj

omit [DecidableEq ι] in
theorem patient_init (cfg : DCfg ι θ ω X β) (theta : θ) (beta : β) (opt : ω) (learns : ι → Bool) : Patient cfg (DSys.init theta beta opt learns) := by
  refine ⟨rfl, fun i th o t h => ?_⟩
  simp only [DSys.init] at h
  split at h <;> cases h

/-- A rollout worker comes closer to the next push. -/
theorem turn_rank (s : DSys ι θ ω X β) (hb : s.store.blocked = false) {i : ι} {pc : RolloutPc θ} (hp : s.procs i = .rollout pc) (hs : pc ≠ .stopped) (j : ι) (c : Choice X) :
    (j = i ∧ ∃ p, (s.turn cfg j c).2 = .counted p) ∨
    (∃ pc', (s.turn cfg j c).1.procs i = .rollout pc' ∧ (pc' = .stopped ∨ rank (ω := ω) (X := X) (.rollout pc') ≤ rank (ω := ω) (X := X) (.rollout pc) ∧
      (j = i → c.item = none → rank (ω := ω) (X := X) (.rollout pc') < rank (ω := ω) (X := X) (.rollout pc)))) := by
  by_cases hj : j = i
  · subst hj
    rw [turn_rollout hp]
    simp only [if_true]
    cases pc with
    | push p => left; exact ⟨trivial, p, by simp [rolloutStep, hb]⟩
    | start =>
      right
      by_cases hc : (s.store.T < cfg.maxTotalSteps && c.below) = true <;> simp only [rolloutStep, hb, hc, Bool.false_eq_true, if_true, if_false]
      · exact ⟨_, rfl, .inr (by simp [rank])⟩
      · exact ⟨_, rfl, .inl rfl⟩
    | pull => right; simp only [rolloutStep, hb, Bool.false_eq_true, if_false]; exact ⟨_, rfl, .inr (by simp [rank])⟩
    | rolling th =>
      right
      cases hx : c.item with
      | none => simp only [rolloutStep, hx]; exact ⟨_, rfl, .inr (by simp [rank])⟩
      | some x => simp only [rolloutStep, hx, hb, Bool.false_eq_true, if_false]; exact ⟨_, rfl, .inr (by simp)⟩
    | rolled t => right; simp only [rolloutStep, hb, Bool.false_eq_true, if_false]; exact ⟨_, rfl, .inr (by simp [rank])⟩
    | stopped => exact absurd rfl hs
  · right
    rw [turn_other (Ne.symm hj), hp]
    exact ⟨pc, rfl, .inr ⟨le_rfl, fun h => absurd h hj⟩⟩

/-- **C105**: in every fair execution all rollout workers stop, whatever the interleaving, provided that the warm-up of the parameter store is not longer than that of the learners. -/
theorem C105_rollouts_stop_partial [Finite ι] {cfg : DCfg ι θ ω X β} (hw : ∀ i, minLen cfg.batchSize cfg.storeWarmup ≤ minLen cfg.batchSize (cfg.warmup i)) (theta : θ) (beta : β) (opt : ω) (learns : ι → Bool) {e : ℕ → ι × Choice X}
    (he : ∀ k, 1 ≤ (e k).2.steps) (hf : Fair e) :
    ∃ K, ∀ k, K ≤ k → ∀ i, learns i = false → (after cfg (DSys.init theta beta opt learns) e k).procs i = .rollout .stopped := by
  obtain ⟨K, hK⟩ := C105_finitely_many cfg theta beta opt learns he
  generalize hs : DSys.init theta beta opt learns = s at hK ⊢
  have hpat : ∀ k, Patient cfg (after cfg s e k) := fun k =>
    stays (cfg := cfg) (s := s) (e := e) (P := Patient cfg) (fun s k h => patient_turn hw h _ _) (k := 0) (by subst hs; exact patient_init cfg theta beta opt learns) k (Nat.zero_le _)
  have hrole : ∀ i, learns i = false → ∀ k, ∃ pc, (after cfg s e k).procs i = .rollout pc := by
    intro i hi k
    refine stays (cfg := cfg) (s := s) (e := e) (P := fun s => ∃ pc, s.procs i = .rollout pc) (fun s k h => (turn_role _ _ _).2 h) (k := 0) ?_ k (Nat.zero_le _)
    subst hs
    exact ⟨.start, by simp [after, DSys.run, DSys.init, hi]⟩
  have one : ∀ i, ∃ Ki, learns i = false → ∀ k, Ki ≤ k → (after cfg s e k).procs i = .rollout .stopped := by
    intro i
    by_cases hi : learns i = false
    · -- within finitely many turns the worker stops
      have key : ∀ r k, K ≤ k → ∀ pc, (after cfg s e k).procs i = .rollout pc → rank (ω := ω) (X := X) (.rollout pc) < r → ∃ k', k ≤ k' ∧ (after cfg s e k').procs i = .rollout .stopped := by
        intro r
        induction r with
        | zero => intro k hk pc hp hrk; omega
        | succ r ih =>
          intro k hk pc hp hrk
          obtain ⟨m, hm, hmi, hmn⟩ := hf i k
          have : ∀ k', k ≤ k' → ∃ pc', (after cfg s e k').procs i = .rollout pc' ∧ rank (ω := ω) (X := X) (.rollout pc') < r + 1 := by
            intro k' hk'
            induction hk' with
            | refl => exact ⟨pc, hp, hrk⟩
            | @step n hn ih =>
              obtain ⟨pc', h1, h2⟩ := ih
              by_cases hst : pc' = .stopped
              · subst hst
                exact ⟨.stopped, by rw [Nat.succ_eq_add_one, after_succ]; exact turn_stopped _ _ h1, by simp [rank]⟩
              · rcases turn_rank (cfg := cfg) (after cfg s e n) (hpat n).1 h1 hst (e n).1 (e n).2 with ⟨-, p, h3⟩ | ⟨pc'', h3, h4⟩
                · exact absurd h3 (hK n (hk.trans hn) p)
                · refine ⟨pc'', by rw [Nat.succ_eq_add_one, after_succ]; exact h3, ?_⟩
                  rcases h4 with rfl | ⟨h4, -⟩
                  · simp [rank]
                  · exact h4.trans_lt h2
          obtain ⟨pc', h1, h2⟩ := this m hm
          by_cases hst : pc' = .stopped
          · exact ⟨m, hm, by rw [h1, hst]⟩
          · rcases turn_rank (cfg := cfg) (after cfg s e m) (hpat m).1 h1 hst (e m).1 (e m).2 with ⟨-, p, h3⟩ | ⟨pc'', h3, h4⟩
            · exact absurd h3 (hK m (hk.trans hm) p)
            · rw [← after_succ] at h3
              rcases h4 with rfl | ⟨-, h4⟩
              · exact ⟨m + 1, by omega, h3⟩
              · obtain ⟨k', h5, h6⟩ := ih (m + 1) (by omega) pc'' h3 (by have := h4 hmi hmn; omega)
                exact ⟨k', by omega, h6⟩
      obtain ⟨pc, hp⟩ := hrole i hi K
      obtain ⟨k', -, hk'⟩ := key _ K le_rfl pc hp (Nat.lt_succ_self _)
      exact ⟨k', fun _ => stays (cfg := cfg) (s := s) (e := e) (P := fun s => s.procs i = .rollout .stopped) (fun s k h => turn_stopped _ _ h) hk'⟩
    · exact ⟨0, fun h => absurd h hi⟩
  choose Ki hKi using one
  obtain ⟨M, hM⟩ := (Set.finite_range Ki).bddAbove
  exact ⟨M, fun k hk i hi => hKi i hi k ((hM ⟨i, rfl⟩).trans hk)⟩

end Coax.Core
