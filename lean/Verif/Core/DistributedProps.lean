import Verif.Core.Distributed
import Mathlib.Data.Fintype.BigOperators
import Mathlib.Data.Fintype.Pigeonhole
import Mathlib.Order.Filter.AtTopBot.Basic
import Mathlib.Tactic.FinCases
import Mathlib.Tactic.ByContra

/-! Property C105: the step counter of a distributed agent, and when its processes stop. -/

namespace Coax.Core

variable {ι θ ω X β : Type _} [DecidableEq ι]

/-! ### One turn -/

theorem turn_rollout {cfg : DCfg ι θ ω X β} {s : DSys ι θ ω X β} {i : ι} {pc : RolloutPc θ} (h : s.procs i = .rollout pc) (c : Choice X) :
    s.turn cfg i c = (⟨(rolloutStep cfg s.store c pc).1, fun j => if j = i then .rollout (rolloutStep cfg s.store c pc).2.1 else s.procs j⟩, (rolloutStep cfg s.store c pc).2.2) := by
  rw [DSys.turn, h]

theorem turn_learner {cfg : DCfg ι θ ω X β} {s : DSys ι θ ω X β} {i : ι} {pc : LearnPc θ X} {opt : ω} {envT : Nat} (h : s.procs i = .learner pc opt envT) (c : Choice X) :
    s.turn cfg i c = (⟨(learnStep cfg i s.store c pc opt envT).1, fun j => if j = i then .learner (learnStep cfg i s.store c pc opt envT).2.1 (learnStep cfg i s.store c pc opt envT).2.2.1 envT else s.procs j⟩,
      (learnStep cfg i s.store c pc opt envT).2.2.2) := by
  rw [DSys.turn, h]

theorem turn_other {cfg : DCfg ι θ ω X β} {s : DSys ι θ ω X β} {i j : ι} (h : j ≠ i) (c : Choice X) : (s.turn cfg i c).1.procs j = s.procs j := by
  cases hp : s.procs i with
  | rollout pc => rw [turn_rollout hp]; simp [h]
  | learner pc opt envT => rw [turn_learner hp]; simp [h]

/-- A turn of a rollout worker. -/
theorem turn_rollout_self {cfg : DCfg ι θ ω X β} {s : DSys ι θ ω X β} {i : ι} {pc : RolloutPc θ} (h : s.procs i = .rollout pc) (c : Choice X) :
    (s.turn cfg i c).1.procs i = .rollout (rolloutStep cfg s.store c pc).2.1 := by
  rw [turn_rollout h]; simp

theorem turn_learner_self {cfg : DCfg ι θ ω X β} {s : DSys ι θ ω X β} {i : ι} {pc : LearnPc θ X} {opt : ω} {envT : Nat} (h : s.procs i = .learner pc opt envT) (c : Choice X) :
    (s.turn cfg i c).1.procs i = .learner (learnStep cfg i s.store c pc opt envT).2.1 (learnStep cfg i s.store c pc opt envT).2.2.1 envT := by
  rw [turn_learner h]; simp

/-- The counter changes only by `push_setattr`. -/
theorem turn_T {cfg : DCfg ι θ ω X β} {s : DSys ι θ ω X β} (i : ι) (c : Choice X) :
    (∃ p, (s.turn cfg i c).2 = .counted p ∧ s.procs i = .rollout (.push p) ∧ s.store.blocked = false ∧ (s.turn cfg i c).1.store.T = p ∧
      (s.turn cfg i c).1.procs i = .rollout (if p < cfg.maxTotalSteps && c.below then .pull else .stopped)) ∨
    ((∀ p, (s.turn cfg i c).2 ≠ .counted p) ∧ (s.turn cfg i c).1.store.T = s.store.T) := by
  cases hp : s.procs i with
  | rollout pc =>
    rw [turn_rollout hp]
    cases pc with
    | push p =>
      cases hb : s.store.blocked with
      | false => left; exact ⟨p, by simp [rolloutStep, hb]⟩
      | true => right; simp [rolloutStep, hb]
    | rolling theta =>
      right
      simp only [rolloutStep]
      split
      · split <;> simp
      · simp
    | start => right; simp only [rolloutStep]; split <;> simp
    | pull => right; simp only [rolloutStep]; split <;> simp
    | rolled t => right; simp only [rolloutStep]; split <;> simp
    | stopped => right; simp [rolloutStep]
  | learner pc opt envT =>
    right
    rw [turn_learner hp]
    simp only [learnStep]
    split
    · simp
    · cases pc <;> simp only
      case sample => split <;> simp
      all_goals simp

/-- The number that a worker is about to push was computed from the counter. -/
theorem turn_push {cfg : DCfg ι θ ω X β} {s : DSys ι θ ω X β} (i : ι) (c : Choice X) {j : ι} {p : Nat} (h : (s.turn cfg i c).1.procs j = .rollout (.push p)) :
    (s.procs j = .rollout (.push p) ∧ ∀ p, i = j → (s.turn cfg i c).2 ≠ .counted p) ∨ (j = i ∧ ∃ t, s.procs i = .rollout (.rolled t) ∧ p = s.store.T + t) := by
  by_cases hj : j = i
  · subst hj
    cases hp : s.procs j with
    | rollout pc =>
      rw [turn_rollout_self hp, Proc.rollout.injEq] at h
      cases pc with
      | push q =>
        cases hb : s.store.blocked with
        | false =>
          simp only [rolloutStep, hb] at h
          simp only [Bool.false_eq_true, if_false] at h
          split at h <;> cases h
        | true =>
          simp only [rolloutStep, hb, if_true] at h
          left
          rw [turn_rollout hp]
          simp [rolloutStep, hb, h]
      | rolling theta =>
        simp only [rolloutStep] at h
        split at h
        · split at h <;> cases h
        · cases h
      | start =>
        simp only [rolloutStep] at h
        split at h
        · cases h
        · simp only at h
          split at h <;> cases h
      | pull => simp only [rolloutStep] at h; split at h <;> cases h
      | rolled t =>
        simp only [rolloutStep] at h
        split at h
        · cases h
        · cases h; right; exact ⟨rfl, t, rfl, rfl⟩
      | stopped => simp [rolloutStep] at h
    | learner pc opt envT =>
      rw [turn_learner_self hp] at h
      cases h
  · rw [turn_other hj] at h
    exact .inl ⟨h, fun p hij => absurd hij.symm hj⟩

theorem turn_stopped {cfg : DCfg ι θ ω X β} {s : DSys ι θ ω X β} (i : ι) (c : Choice X) {j : ι} (h : s.procs j = .rollout .stopped) : (s.turn cfg i c).1.procs j = .rollout .stopped := by
  by_cases hj : j = i
  · subst hj; rw [turn_rollout_self h]; rfl
  · rw [turn_other hj, h]

theorem turn_rolled {cfg : DCfg ι θ ω X β} {s : DSys ι θ ω X β} (i : ι) (c : Choice X) {j : ι} {t : Nat} (h : (s.turn cfg i c).1.procs j = .rollout (.rolled t)) :
    s.procs j = .rollout (.rolled t) ∨ t = c.steps := by
  by_cases hj : j = i
  · subst hj
    cases hp : s.procs j with
    | rollout pc =>
      rw [turn_rollout_self hp, Proc.rollout.injEq] at h
      cases pc with
      | push q =>
        simp only [rolloutStep] at h
        split at h
        · cases h
        · simp only at h; split at h <;> cases h
      | rolling theta =>
        simp only [rolloutStep] at h
        split at h
        · split at h <;> cases h
        · cases h; right; rfl
      | start =>
        simp only [rolloutStep] at h
        split at h
        · cases h
        · simp only at h; split at h <;> cases h
      | pull => simp only [rolloutStep] at h; split at h <;> cases h
      | rolled t =>
        simp only [rolloutStep] at h
        split at h <;> cases h
        left; rfl
      | stopped => simp [rolloutStep] at h
    | learner pc opt envT =>
      rw [turn_learner_self hp] at h
      cases h
  · rw [turn_other hj] at h
    exact .inl h

/-- Rollout workers stay rollout workers. -/
theorem turn_role {cfg : DCfg ι θ ω X β} {s : DSys ι θ ω X β} (i : ι) (c : Choice X) (j : ι) : (∃ pc, (s.turn cfg i c).1.procs j = .rollout pc) ↔ ∃ pc, s.procs j = .rollout pc := by
  by_cases hj : j = i
  · subst hj
    cases hp : s.procs j with
    | rollout pc => rw [turn_rollout_self hp]; simp
    | learner pc opt envT => rw [turn_learner_self hp]; simp
  · rw [turn_other hj]

theorem run_append (cfg : DCfg ι θ ω X β) (s : DSys ι θ ω X β) (xs ys : List (ι × Choice X)) :
    s.run cfg (xs ++ ys) = (((s.run cfg xs).1.run cfg ys).1, (s.run cfg xs).2 ++ ((s.run cfg xs).1.run cfg ys).2) := by
  induction xs generalizing s with
  | nil => rfl
  | cons x xs ih =>
    obtain ⟨i, c⟩ := x
    simp only [List.cons_append, DSys.run, ih]

/-- An invariant of all turns holds after every schedule. -/
theorem run_induction {cfg : DCfg ι θ ω X β} {s : DSys ι θ ω X β} {P : DSys ι θ ω X β → List (ι × Did θ X) → Prop} {C : ι × Choice X → Prop} (h0 : P s [])
    (h : ∀ s ds i c, P s ds → C (i, c) → P (s.turn cfg i c).1 (ds ++ [(i, (s.turn cfg i c).2)])) (es : List (ι × Choice X)) (hC : ∀ e ∈ es, C e) : P (s.run cfg es).1 (s.run cfg es).2 := by
  induction es using List.reverseRecOn with
  | nil => exact h0
  | append_singleton es e ih =>
    rw [run_append]
    exact h _ _ e.1 e.2 (ih fun e he => hC e (by simp [he])) (hC e (by simp))

/-! ### The counter -/

/-- The number of steps of all episodes. -/
def total (ds : List (ι × Did θ X)) : Nat := (ds.map fun d => match d.2 with | .episode t => t | _ => 0).sum

/-- The steps that a worker has made but not yet added to the counter. -/
def owed : Proc θ ω X → Nat
  | .rollout (.rolled t) => t
  | _ => 0

omit [DecidableEq ι] in
theorem total_append (ds : List (ι × Did θ X)) (i : ι) (d : Did θ X) : total (ds ++ [(i, d)]) = total ds + (match d with | .episode t => t | _ => 0) := by
  simp [total]

theorem sum_turn [Fintype ι] (cfg : DCfg ι θ ω X β) (s : DSys ι θ ω X β) (i : ι) (c : Choice X) :
    (∑ j, owed ((s.turn cfg i c).1.procs j)) + owed (s.procs i) = (∑ j, owed (s.procs j)) + owed ((s.turn cfg i c).1.procs i) := by
  rw [← Finset.add_sum_erase Finset.univ (fun j => owed ((s.turn cfg i c).1.procs j)) (Finset.mem_univ i), ← Finset.add_sum_erase Finset.univ (fun j => owed (s.procs j)) (Finset.mem_univ i)]
  have : ∑ j ∈ Finset.univ.erase i, owed ((s.turn cfg i c).1.procs j) = ∑ j ∈ Finset.univ.erase i, owed (s.procs j) :=
    Finset.sum_congr rfl fun j hj => by rw [turn_other (Finset.ne_of_mem_erase hj)]
  rw [this]
  omega

/-- What happens to the number of steps a worker owes. -/
theorem turn_owed {cfg : DCfg ι θ ω X β} {s : DSys ι θ ω X β} (i : ι) (c : Choice X) :
    (∃ t, (s.turn cfg i c).2 = .episode t ∧ owed (s.procs i) = 0 ∧ owed ((s.turn cfg i c).1.procs i) = t ∧ (s.turn cfg i c).1.store.T = s.store.T ∧ (∃ th, s.procs i = .rollout (.rolling th)) ∧ (s.turn cfg i c).1.procs i = .rollout (.rolled t)) ∨
    ((∀ t, (s.turn cfg i c).2 ≠ .episode t) ∧ ((owed ((s.turn cfg i c).1.procs i) = owed (s.procs i)) ∨ ∃ t, s.procs i = .rollout (.rolled t) ∧ (s.turn cfg i c).1.procs i = .rollout (.push (s.store.T + t)) ∧ (s.turn cfg i c).1.store.T = s.store.T)) := by
  cases hp : s.procs i with
  | rollout pc =>
    rw [turn_rollout hp]
    cases pc with
    | push p =>
      right
      simp only [rolloutStep]
      split
      · simp
      · refine ⟨by simp, .inl ?_⟩
        simp only [if_true]
        split <;> rfl
    | rolling theta =>
      simp only [rolloutStep]
      split
      · right; split <;> simp [owed]
      · left; simp [owed]
    | start =>
      right
      simp only [rolloutStep]
      split
      · simp
      · refine ⟨by simp, .inl ?_⟩
        simp only [if_true]
        split <;> rfl
    | pull => right; simp only [rolloutStep]; split <;> simp [owed]
    | rolled t =>
      right
      simp only [rolloutStep]
      split
      · simp
      · simp
    | stopped => right; simp [rolloutStep]
  | learner pc opt envT =>
    right
    rw [turn_learner hp]
    refine ⟨?_, .inl (by simp [owed])⟩
    simp only [learnStep]
    split
    · simp
    · cases pc <;> simp only
      case sample => split <;> simp
      all_goals simp

/-- **C105**, upper bound: whatever the workers do and however their calls interleave, the counter is at most the number of steps made. -/
theorem C105_at_most [Finite ι] (cfg : DCfg ι θ ω X β) (theta : θ) (beta : β) (opt : ω) (learns : ι → Bool) (es : List (ι × Choice X)) :
    ((DSys.init theta beta opt learns).run cfg es).1.store.T ≤ total ((DSys.init theta beta opt learns).run cfg es).2 := by
  have := Fintype.ofFinite ι
  refine (run_induction (cfg := cfg) (P := fun s ds => s.store.T + ∑ j, owed (s.procs j) ≤ total ds ∧ ∀ i p, s.procs i = .rollout (.push p) → p + ∑ j, owed (s.procs j) ≤ total ds) (C := fun _ => True) ?_ ?_ es
    (fun _ _ => trivial)).1.trans' (Nat.le_add_right _ _)
  · refine ⟨?_, ?_⟩
    · have : ∀ j, owed ((DSys.init (X := X) theta beta opt learns).procs j) = 0 := by
        intro j
        simp only [DSys.init]
        split <;> rfl
      simp only [this]
      simp [total, DSys.init]
    · intro i p h
      simp only [DSys.init] at h
      split at h <;> cases h
  · rintro s ds i c ⟨h1, h2⟩ -
    have hs := sum_turn cfg s i c
    rw [total_append]
    have hp : ∀ j p, (s.turn cfg i c).1.procs j = .rollout (.push p) → p + ∑ j, owed (s.procs j) ≤ total ds ∨ (j = i ∧ ∃ t, s.procs i = .rollout (.rolled t) ∧ p = s.store.T + t) := by
      intro j p h
      rcases turn_push i c h with ⟨h, -⟩ | h
      · exact .inl (h2 j p h)
      · exact .inr h
    rcases turn_owed (cfg := cfg) (s := s) i c with ⟨t, hd, ho, ho', hT, ⟨th, hr⟩, hr'⟩ | ⟨hd, h⟩
    · rw [hd]
      simp only
      refine ⟨by omega, fun j p h => ?_⟩
      rcases hp j p h with h | ⟨rfl, t, h, -⟩
      · omega
      · rw [hr] at h; cases h
    · have hd : (match (s.turn cfg i c).2 with | .episode t => t | _ => 0) = 0 := by
        split
        · rename_i t h'; exact absurd h' (hd t)
        · rfl
      rw [hd, Nat.add_zero]
      rcases h with h | ⟨t, hr, hr', hT⟩
      · refine ⟨?_, fun j p hj => ?_⟩
        · rcases turn_T (cfg := cfg) (s := s) i c with ⟨p, -, h3, -, h4, -⟩ | ⟨-, h4⟩
          · have := h2 i p h3
            omega
          · omega
        · rcases hp j p hj with h' | ⟨rfl, t, hr, rfl⟩
          · omega
          · have e1 : owed ((s.turn cfg j c).1.procs j) = 0 := by rw [hj]; rfl
            have e2 : owed (s.procs j) = t := by rw [hr]; rfl
            omega
      · have e1 : owed ((s.turn cfg i c).1.procs i) = 0 := by rw [hr']; rfl
        have e2 : owed (s.procs i) = t := by rw [hr]; rfl
        refine ⟨by omega, fun j p hj => ?_⟩
        rcases hp j p hj with h' | ⟨rfl, t', hr'', rfl⟩
        · omega
        · rw [hr] at hr''; cases hr''; omega

/-- **C105** for a single rollout worker, with any number of learners: the counter is the number of steps made, except for those of an episode that is being reported. -/
theorem C105_counter_partial (cfg : DCfg ι θ ω X β) (theta : θ) (beta : β) (opt : ω) {learns : ι → Bool} {i : ι} (hi : ∀ j, learns j = false ↔ j = i) (es : List (ι × Choice X)) :
    (match ((DSys.init theta beta opt learns).run cfg es).1.procs i with
      | .rollout (.rolled t) => ((DSys.init theta beta opt learns).run cfg es).1.store.T + t
      | .rollout (.push p) => p
      | _ => ((DSys.init theta beta opt learns).run cfg es).1.store.T) = total ((DSys.init theta beta opt learns).run cfg es).2 := by
  refine (run_induction (cfg := cfg) (P := fun s ds => (∀ j, (∃ pc, s.procs j = .rollout pc) ↔ j = i) ∧ (match s.procs i with | .rollout (.rolled t) => s.store.T + t | .rollout (.push p) => p | _ => s.store.T) = total ds)
    (C := fun _ => True) ?_ ?_ es (fun _ _ => trivial)).2
  · refine ⟨fun j => ?_, ?_⟩
    · rw [← hi]
      simp only [DSys.init]
      cases learns j <;> simp
    · simp only [DSys.init, (hi i).2 rfl]
      rfl
  · rintro s ds j c ⟨hr, h⟩ -
    refine ⟨fun k => by rw [turn_role]; exact hr k, ?_⟩
    rw [total_append]
    by_cases hj : j = i
    · subst hj
      obtain ⟨pc, hp⟩ := (hr j).2 rfl
      rw [hp] at h
      rw [turn_rollout hp]
      simp only [if_true]
      cases hb : s.store.blocked with
      | true =>
        cases pc with
        | rolling theta => cases hx : c.item <;> simp_all [rolloutStep]
        | _ => simp_all [rolloutStep]
      | false =>
        cases pc with
        | push p =>
          simp only at h
          by_cases hc : (p < cfg.maxTotalSteps && c.below) = true <;> simp only [rolloutStep, hb, hc, Bool.false_eq_true, if_true, if_false] <;> simpa using h
        | start =>
          simp only at h
          by_cases hc : (s.store.T < cfg.maxTotalSteps && c.below) = true <;> simp only [rolloutStep, hb, hc, Bool.false_eq_true, if_true, if_false] <;> simpa using h
        | rolling theta => cases hx : c.item <;> simp_all [rolloutStep]
        | _ => simp_all [rolloutStep]
    · rw [turn_other (Ne.symm hj)]
      have hl : ¬ ∃ pc, s.procs j = .rollout pc := fun h => hj ((hr j).1 h)
      rcases turn_T (cfg := cfg) (s := s) j c with ⟨p, -, h3, -⟩ | ⟨-, h4⟩
      · exact absurd ⟨_, h3⟩ hl
      · rw [h4, h]
        rcases turn_owed (cfg := cfg) (s := s) j c with ⟨t, -, -, -, -, ⟨th, h5⟩, -⟩ | ⟨h5, -⟩
        · exact absurd ⟨_, h5⟩ hl
        · split
          · rename_i t h'; exact absurd h' (h5 t)
          · rfl

end Coax.Core
