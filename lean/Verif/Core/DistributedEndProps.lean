import Verif.Core.DistributedStopProps
import Mathlib.Data.Fintype.Basic

/-! Property C105, continued (all processes stop), and property C106: what a distributed agent learns. -/

namespace Coax.Core

variable {ι θ ω X β : Type _} [DecidableEq ι] {cfg : DCfg ι θ ω X β} {s : DSys ι θ ω X β} {e : ℕ → ι × Choice X}

/-! ### Learners stop -/

/-- A worker that has not stopped, or a counter that has reached its end. -/
def Going (cfg : DCfg ι θ ω X β) (s : DSys ι θ ω X β) : Prop := cfg.maxTotalSteps ≤ s.store.T ∨ ∃ i pc, s.procs i = .rollout pc ∧ pc ≠ .stopped

theorem going_turn {s : DSys ι θ ω X β} (h : Going cfg s) (i : ι) {c : Choice X} (hc : c.below = true) : Going cfg (s.turn cfg i c).1 := by
  by_cases hself : ∃ pc, s.procs i = .rollout pc ∧ pc ≠ .stopped
  · obtain ⟨pc, hp, hst⟩ := hself
    by_cases hend : (rolloutStep cfg s.store c pc).2.1 = .stopped
    · left
      rw [turn_rollout hp]
      cases pc with
      | start =>
        simp only [rolloutStep, hc, Bool.and_true, decide_eq_true_eq] at hend ⊢
        split at hend
        · cases hend
        · rename_i hb
          simp only at hend
          split at hend
          · cases hend
          · simp only [hb]; simp only [Bool.false_eq_true, if_false]; omega
      | push p =>
        simp only [rolloutStep, hc, Bool.and_true, decide_eq_true_eq] at hend ⊢
        split at hend
        · cases hend
        · rename_i hb
          simp only at hend
          split at hend
          · cases hend
          · simp only [hb]; simp only [Bool.false_eq_true, if_false]; omega
      | pull => simp only [rolloutStep] at hend; split at hend <;> cases hend
      | rolling th =>
        simp only [rolloutStep] at hend
        split at hend
        · split at hend <;> cases hend
        · cases hend
      | rolled t => simp only [rolloutStep] at hend; split at hend <;> cases hend
      | stopped => exact absurd rfl hst
    · right
      exact ⟨i, _, turn_rollout_self hp c, hend⟩
  · rcases h with h | ⟨j, pc, hp, hst⟩
    · left
      rcases turn_T (cfg := cfg) (s := s) i c with ⟨p, -, h1, -⟩ | ⟨-, h1⟩
      · exact absurd ⟨_, h1, by simp⟩ hself
      · rw [h1]; exact h
    · right
      have hj : j ≠ i := by rintro rfl; exact hself ⟨pc, hp, hst⟩
      exact ⟨j, pc, by rw [turn_other hj, hp], hst⟩

/-- How many turns a learner needs to stop. -/
def lrank : LearnPc θ X → ℕ
  | .pull => 6
  | .wait _ => 5
  | .sample _ => 4
  | .learn _ _ => 3
  | .push _ => 2
  | .test => 1
  | .stopped => 0

theorem turn_lrank (hw : ∀ i, minLen cfg.batchSize cfg.storeWarmup ≤ minLen cfg.batchSize (cfg.warmup i)) (hb : s.store.blocked = false) (hT : cfg.maxTotalSteps ≤ s.store.T) {i : ι}
    (hl : minLen cfg.batchSize (cfg.warmup i) ≤ (s.store.stored cfg.capacity).length) {pc : LearnPc θ X} {opt : ω} {envT : ℕ} (hp : s.procs i = .learner pc opt envT) (j : ι) (c : Choice X) :
    ∃ pc' opt', (s.turn cfg j c).1.procs i = .learner pc' opt' envT ∧ lrank pc' ≤ lrank pc ∧ (j = i → pc = .stopped ∨ lrank pc' < lrank pc) := by
  by_cases hj : j = i
  · subst hj
    rw [turn_learner_self hp]
    refine ⟨_, _, rfl, ?_⟩
    simp only [learnStep, hb, Bool.false_eq_true, if_false]
    cases pc with
    | test => rw [if_neg (by omega)]; simp [lrank]
    | wait th => simp only; rw [if_neg (by omega)]; simp [lrank]
    | sample th => simp only; rw [if_neg (by have := hw j; omega)]; simp [lrank]
    | _ => simp [lrank]
  · exact ⟨pc, opt, by rw [turn_other (Ne.symm hj), hp], le_rfl, fun h => absurd h hj⟩

/-- **C105**: without reward threshold every process of a fair execution stops, if the buffer gets enough transitions for the learners. -/
theorem C105_all_stop_partial [Finite ι] {cfg : DCfg ι θ ω X β} (hw : ∀ i, minLen cfg.batchSize cfg.storeWarmup ≤ minLen cfg.batchSize (cfg.warmup i)) (theta : θ) (beta : β) (opt : ω) {learns : ι → Bool} (h1 : ∃ i, learns i = false)
    {e : ℕ → ι × Choice X} (he : ∀ k, 1 ≤ (e k).2.steps) (hf : Fair e) (hbelow : ∀ k, (e k).2.below = true)
    (hl : ∀ i, learns i = true → ∃ k, minLen cfg.batchSize (cfg.warmup i) ≤ ((after cfg (DSys.init theta beta opt learns) e k).store.stored cfg.capacity).length) :
    ∃ K, ∀ k, K ≤ k → ∀ i, (after cfg (DSys.init theta beta opt learns) e k).procs i = .rollout .stopped ∨ ∃ o t, (after cfg (DSys.init theta beta opt learns) e k).procs i = .learner .stopped o t := by
  obtain ⟨K, hK⟩ := C105_rollouts_stop_partial hw theta beta opt learns he hf
  generalize hs : DSys.init theta beta opt learns = s at hK hl ⊢
  have hpat : ∀ k, Patient cfg (after cfg s e k) := fun k =>
    stays (cfg := cfg) (s := s) (e := e) (P := Patient cfg) (fun s k h => patient_turn hw h _ _) (k := 0) (by subst hs; exact patient_init cfg theta beta opt learns) k (Nat.zero_le _)
  have hgo : ∀ k, Going cfg (after cfg s e k) := by
    intro k
    refine stays (cfg := cfg) (s := s) (e := e) (P := Going cfg) (fun s k h => going_turn h _ (hbelow k)) (k := 0) ?_ k (Nat.zero_le _)
    obtain ⟨i, hi⟩ := h1
    subst hs
    exact .inr ⟨i, .start, by simp [after, DSys.run, DSys.init, hi], by simp⟩
  have hrole : ∀ i, learns i = true → ∀ k, ¬ ∃ pc, (after cfg s e k).procs i = .rollout pc := by
    intro i hi k
    refine stays (cfg := cfg) (s := s) (e := e) (P := fun s => ¬ ∃ pc, s.procs i = .rollout pc) (fun s k h => fun h' => h ((turn_role _ _ _).1 h')) (k := 0) ?_ k (Nat.zero_le _)
    subst hs
    simp [after, DSys.run, DSys.init, hi]
  have hT : ∀ k, K ≤ k → cfg.maxTotalSteps ≤ (after cfg s e k).store.T := by
    intro k hk
    rcases hgo k with h | ⟨i, pc, h2, h3⟩
    · exact h
    · cases hi : learns i with
      | true => exact absurd ⟨pc, h2⟩ (hrole i hi k)
      | false => rw [hK k hk i hi] at h2; cases h2; exact absurd rfl h3
  have one : ∀ i, ∃ Ki, learns i = true → ∀ k, Ki ≤ k → ∃ o t, (after cfg s e k).procs i = .learner .stopped o t := by
    intro i
    cases hi : learns i with
    | false => exact ⟨0, by simp⟩
    | true =>
      obtain ⟨k0, hk0⟩ := hl i hi
      have hlen : ∀ k, k0 ≤ k → minLen cfg.batchSize (cfg.warmup i) ≤ ((after cfg s e k).store.stored cfg.capacity).length :=
        stays (cfg := cfg) (s := s) (e := e) (P := fun s => minLen cfg.batchSize (cfg.warmup i) ≤ (s.store.stored cfg.capacity).length) (fun s k h => h.trans (turn_stored _ _ _)) hk0
      have key : ∀ r k, max K k0 ≤ k → ∀ pc o t, (after cfg s e k).procs i = .learner pc o t → lrank pc < r → ∃ k', k ≤ k' ∧ ∃ o t, (after cfg s e k').procs i = .learner .stopped o t := by
        intro r
        induction r with
        | zero => intro k _ pc o t _ h; omega
        | succ r ih =>
          intro k hk pc o t hp hr
          obtain ⟨m, hm, hmi, -⟩ := hf i k
          have : ∀ k', k ≤ k' → ∃ pc' o', (after cfg s e k').procs i = .learner pc' o' t ∧ lrank pc' < r + 1 := by
            intro k' hk'
            induction hk' with
            | refl => exact ⟨pc, o, hp, hr⟩
            | @step n hn ih =>
              obtain ⟨pc', o', h2, h3⟩ := ih
              have hn' : k ≤ n := hn
              obtain ⟨pc'', o'', h4, h5, -⟩ := turn_lrank hw (hpat n).1 (hT n ((le_max_left _ _).trans (hk.trans hn'))) (hlen n ((le_max_right _ _).trans (hk.trans hn'))) h2 (e n).1 (e n).2
              exact ⟨pc'', o'', by rw [Nat.succ_eq_add_one, after_succ]; exact h4, by omega⟩
          obtain ⟨pc', o', h2, h3⟩ := this m hm
          obtain ⟨pc'', o'', h4, h5, h6⟩ := turn_lrank hw (hpat m).1 (hT m ((le_max_left _ _).trans (hk.trans hm))) (hlen m ((le_max_right _ _).trans (hk.trans hm))) h2 (e m).1 (e m).2
          rw [← after_succ] at h4
          rcases h6 hmi with rfl | h6
          · exact ⟨m, hm, o', t, h2⟩
          · obtain ⟨k', h7, h8⟩ := ih (m + 1) (by omega) pc'' o'' t h4 (by omega)
            exact ⟨k', by omega, h8⟩
      obtain ⟨pc, o, t, hp⟩ : ∃ pc o t, (after cfg s e (max K k0)).procs i = .learner pc o t := by
        cases hp : (after cfg s e (max K k0)).procs i with
        | rollout pc => exact absurd ⟨pc, hp⟩ (hrole i hi _)
        | learner pc o t => exact ⟨pc, o, t, rfl⟩
      obtain ⟨k', -, o', t', hk'⟩ := key _ _ le_rfl pc o t hp (Nat.lt_succ_self _)
      refine ⟨k', fun _ => stays (cfg := cfg) (s := s) (e := e) (P := fun s => ∃ o t, s.procs i = .learner .stopped o t) (fun s k h => ?_) ⟨o', t', hk'⟩⟩
      obtain ⟨o, t, h⟩ := h
      by_cases hj : i = (e k).1
      · subst hj
        rw [turn_learner_self h]
        refine ⟨o, t, ?_⟩
        simp only [learnStep]
        split <;> rfl
      · exact ⟨o, t, by rw [turn_other hj, h]⟩
  choose Ki hKi using one
  obtain ⟨M, hM⟩ := (Set.finite_range Ki).bddAbove
  refine ⟨max K M, fun k hk i => ?_⟩
  cases hi : learns i with
  | false => exact .inl (hK k ((le_max_left _ _).trans hk) i hi)
  | true => exact .inr (hKi i hi k (((hM ⟨i, rfl⟩).trans (le_max_right _ _)).trans hk))

/-! ### Cases -/

/-- The end of an episode with this many steps, or any other turn. -/
def ends (steps : ℕ) (below : Bool := true) : Choice Unit := ⟨none, steps, below, [0]⟩

/-- **C105** is false for several rollout workers: an episode of 100 steps is counted, and then the counter falls back to 5 although 105 steps were made. -/
theorem C105_counter_counterexample : ∃ (cfg : DCfg Bool Unit Unit Unit Unit) (es : List (Bool × Choice Unit)) (e : Bool × Choice Unit),
    ((DSys.init () () () fun _ => false).run cfg es).1.store.T = 100 ∧ ((DSys.init () () () fun _ => false).run cfg (es ++ [e])).1.store.T = 5 ∧
    total ((DSys.init () () () fun _ => false).run cfg (es ++ [e])).2 = 105 :=
  ⟨⟨1000, 1, fun _ => none, none, 10, fun _ _ _ => ((), ()), fun _ => ()⟩,
    [(false, ends 5), (false, ends 5), (false, ends 5), (false, ends 5), (true, ends 100), (true, ends 100), (true, ends 100), (true, ends 100), (true, ends 100)], (false, ends 5), by decide⟩

/-- **C105** is false with a reward threshold: the only rollout worker has stopped, and the learner goes on forever. -/
theorem C105_threshold_counterexample : ∃ (cfg : DCfg Bool Unit Unit Unit Unit) (es : List (Bool × Choice Unit)), ∀ es',
    ((DSys.init () () () id).run cfg (es ++ es')).1.procs false = .rollout .stopped ∧ ∀ o t, ((DSys.init () () () id).run cfg (es ++ es')).1.procs true ≠ .learner .stopped o t := by
  refine ⟨⟨1000, 1, fun _ => none, none, 10, fun _ _ _ => ((), ()), fun _ => ()⟩, [(false, ends 1), (false, ends 1), (false, ⟨some (), 1, true, []⟩), (false, ends 1), (false, ends 1), (false, ends 1 false)], fun es' => ?_⟩
  rw [run_append]
  have := run_induction (cfg := ⟨1000, 1, fun _ => none, none, 10, fun _ _ _ => ((), ()), fun _ => ()⟩) (C := fun _ => True)
    (s := ((DSys.init () () () id).run ⟨1000, 1, fun _ => none, none, 10, fun _ _ _ => ((), ()), fun _ => ()⟩ [(false, ends 1), (false, ends 1), (false, ⟨some (), 1, true, []⟩), (false, ends 1), (false, ends 1), (false, ends 1 false)]).1)
    (P := fun s _ => s.store.T = 1 ∧ s.procs false = .rollout .stopped ∧ ∃ pc o t, s.procs true = .learner pc o t ∧ pc ≠ .stopped)
    ⟨by decide, by rfl, .test, (), 0, by rfl, by simp⟩ ?_ es' (fun _ _ => trivial)
  · obtain ⟨-, h1, pc, o, t, h2, h3⟩ := this
    refine ⟨h1, fun o' t' h => ?_⟩
    rw [h2] at h
    cases h
    exact h3 rfl
  · rintro s ds i c ⟨hT, h1, pc, o, t, h2, h3⟩ -
    cases i with
    | false =>
      refine ⟨?_, turn_stopped _ _ h1, pc, o, t, by rw [turn_other (by simp), h2], h3⟩
      rw [turn_rollout h1]
      exact hT
    | true =>
      refine ⟨?_, by rw [turn_other (by simp), h1], ?_⟩
      · rcases turn_T (cfg := ⟨1000, 1, fun _ => none, none, 10, fun _ _ _ => ((), ()), fun _ => ()⟩) (s := s) true c with ⟨p, -, h, -⟩ | ⟨-, h⟩
        · rw [h2] at h; cases h
        · rw [h, hT]
      · rw [turn_learner_self h2]
        refine ⟨_, _, _, rfl, ?_⟩
        simp only [learnStep]
        split
        · exact h3
        · cases pc with
          | test => simp [hT]
          | wait th => simp only; split <;> simp
          | sample th => simp only; split <;> simp
          | stopped => exact absurd rfl h3
          | _ => simp

/-- **C105** is false if the parameter store has a longer warm-up than the learner: the store waits for transitions that nobody can add, nothing happens any more. -/
theorem C105_blocked_counterexample : ∃ (cfg : DCfg Bool Unit Unit Unit Unit) (es : List (Bool × Choice Unit)), ∀ es',
    ((DSys.init () () () id).run cfg (es ++ es')).1.store = ((DSys.init () () () id).run cfg es).1.store ∧ (∀ i, ((DSys.init () () () id).run cfg (es ++ es')).1.procs i ≠ .rollout .stopped) ∧
    ∀ i o t, ((DSys.init () () () id).run cfg (es ++ es')).1.procs i ≠ .learner .stopped o t := by
  refine ⟨⟨1000, 1, fun _ => none, some 2, 10, fun _ _ _ => ((), ()), fun _ => ()⟩, [(false, ends 1), (false, ends 1), (false, ⟨some (), 1, true, []⟩), (true, ends 1), (true, ends 1), (true, ends 1), (true, ends 1)], fun es' => ?_⟩
  rw [run_append]
  have := run_induction (cfg := ⟨1000, 1, fun _ => none, some 2, 10, fun _ _ _ => ((), ()), fun _ => ()⟩) (C := fun _ => True)
    (s := ((DSys.init () () () id).run ⟨1000, 1, fun _ => none, some 2, 10, fun _ _ _ => ((), ()), fun _ => ()⟩
      [(false, ends 1), (false, ends 1), (false, ⟨some (), 1, true, []⟩), (true, ends 1), (true, ends 1), (true, ends 1), (true, ends 1)]).1)
    (P := fun s _ => s.store = ⟨0, (), [()], (), true⟩ ∧ (∃ pc, s.procs false = .rollout pc ∧ pc ≠ .stopped) ∧ s.procs true = .learner (.sample ()) () 0)
    ⟨by rfl, ⟨.rolling (), by rfl, by simp⟩, by rfl⟩ ?_ es' (fun _ _ => trivial)
  · obtain ⟨h1, ⟨pc, h2, h3⟩, h4⟩ := this
    refine ⟨h1, fun i h => ?_, fun i o t h => ?_⟩
    · cases i
      · rw [h2] at h; cases h; exact h3 rfl
      · rw [h4] at h; cases h
    · cases i
      · rw [h2] at h; cases h
      · rw [h4] at h; cases h
  · rintro s ds i c ⟨h1, ⟨pc, h2, h3⟩, h4⟩ -
    have hb : s.store.blocked = true := by rw [h1]
    cases i with
    | false =>
      refine ⟨?_, ⟨_, turn_rollout_self h2 c, ?_⟩, by rw [turn_other (by simp), h4]⟩
      · rw [turn_rollout h2]
        cases pc with
        | rolling th => cases hx : c.item <;> simpa [rolloutStep, hb, hx] using h1
        | _ => simpa [rolloutStep, hb] using h1
      · cases pc with
        | rolling th => cases hx : c.item <;> simp [rolloutStep, hb, hx]
        | stopped => exact absurd rfl h3
        | _ => simp [rolloutStep, hb]
    | true =>
      refine ⟨?_, ⟨pc, by rw [turn_other (by simp), h2], h3⟩, ?_⟩
      · rw [turn_learner h4]
        simpa [learnStep, hb] using h1
      · rw [turn_learner_self h4]
        simp [learnStep, hb]

/-- Two rollout workers and a learner; the workers take turns, and each rollout worker adds a transition and then ends its episode, or adds another one. -/
def roundRobin (k : ℕ) : Fin 3 × Choice Unit := (⟨k % 3, by omega⟩, ⟨if k % 2 = 0 then some () else none, 1, true, [0]⟩)

/-- The hypotheses of `C105_rollouts_stop_partial` and `C105_all_stop_partial` are met. -/
theorem roundRobin_fair : Fair roundRobin ∧ ∀ k, 1 ≤ (roundRobin k).2.steps := by
  refine ⟨fun i K => ?_, fun k => le_rfl⟩
  obtain ⟨i, hi⟩ := i
  have : ∃ r, r < 6 ∧ r % 3 = i ∧ r % 2 = 1 := by
    rcases i with _ | _ | _ | i
    · exact ⟨3, by decide⟩
    · exact ⟨1, by decide⟩
    · exact ⟨5, by decide⟩
    · omega
  obtain ⟨r, h1, h2, h3⟩ := this
  refine ⟨6 * K + r, by omega, ?_, ?_⟩
  · simp only [roundRobin, Fin.mk.injEq]; omega
  · simp only [roundRobin]; rw [if_neg (by omega)]

example : ∃ K, ∀ k, K ≤ k → ∀ i,
    (after ⟨50, 1, fun _ => none, none, 10, fun n _ _ => (n + 1, ()), fun _ => ()⟩ (DSys.init 0 () () fun i => i == 2) roundRobin k).procs i = .rollout .stopped ∨
    ∃ o t, (after ⟨50, 1, fun _ => none, none, 10, fun n _ _ => (n + 1, ()), fun _ => ()⟩ (DSys.init 0 () () fun i => i == 2) roundRobin k).procs i = .learner .stopped o t :=
  C105_all_stop_partial (fun _ => le_rfl) 0 () () ⟨0, rfl⟩ roundRobin_fair.2 roundRobin_fair.1 (fun _ => rfl) fun i _ => ⟨40, by fin_cases i <;> decide⟩

end Coax.Core
