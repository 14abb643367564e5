import Verif.Loop.ReplayProps

/-! Property C130: with episodes that end, what is learned from a replay buffer is biased. -/

namespace Coax.Loop

open Coax.RewardTracing Coax.Replay Coax.TD Coax.Core Coax.Values Coax.Pol Filter Topology MeasureTheory

variable {G : Type _}

/-! ### The environment -/

/-- One state, one action.  Each step ends the episode with probability 1/2; the reward is 1 if it does and 0 if it does not. -/
noncomputable def lottery : Mdp Unit 1 2 := ⟨fun _ _ _ => 1 / 2, fun _ _ j => if j = 1 then 1 else 0, fun _ _ _ => (), fun _ _ j => j == 1⟩

/-- The outcome of step `t`. -/
def ticket (t : ℕ) (ω : ℕ → Bool) : Fin 2 := if ω (2 * t + 2) then 1 else 0

/-- The steps. -/
noncomputable def tickets (t : ℕ) (ω : ℕ → Bool) : Step Unit (Fin 1) ℝ := ⟨(), 0, lottery.reward () 0 (ticket t ω), 0, 1⟩

theorem lottery_proper : lottery.Proper := ⟨fun _ _ j => by norm_num [lottery], fun _ _ => by norm_num [lottery]⟩

theorem lottery_explorer : Explorer lottery coins flips tickets ticket (fun t => 1 / ((t : ℝ) + 1)) where
  steps :=
    { s_known := fun t s => MeasurableSet.const (() = s)
      a_known := fun t a => MeasurableSet.const (0 = a)
      w_known := fun t => measurable_const
      out_known := fun t j => fin2_known le_rfl j
      law := fun t j => fin2_fair (by omega) j
      reward := fun t ω => rfl
      next := fun t ω _ => rfl
      logp := fun t ω => le_rfl
      w := fun t ω => one_pos }
  explores := ⟨1, by norm_num, fun t a => by
    have : {ω : ℕ → Bool | (tickets t ω).a = a} = Set.univ := by
      ext ω
      simp [Subsingleton.elim a 0, tickets]
    rw [this, Set.indicator_univ, condExp_const (flips.le _)]
    exact Eventually.of_forall fun ω => le_rfl⟩
  connected s s' := .single ⟨0, 0, by norm_num [lottery], rfl⟩
  reset t ω := rfl
  schedule :=
    { nonneg := fun t => by positivity
      le := fun t ω => by
        have h2 : (1 : ℝ) / ((t : ℝ) + 1) ≤ 1 := by
          rw [div_le_one (by positivity)]
          linarith [(Nat.cast_nonneg t : (0 : ℝ) ≤ t)]
        have h3 : min (max (tickets t ω).w 0.1) 10 = (1 : ℝ) := by
          show min (max (1 : ℝ) 0.1) 10 = 1
          norm_num
        rw [h3, mul_one]
        exact h2
      squares := coin_explorer.schedule.squares }
  infinite h := coin_explorer.infinite h
  slow := coin_explorer.slow

/-! ### The path -/

theorem distinct_all {draw : G → Nat → Nat → List Nat × G} (hd : DrawsDistinct draw) (g : G) (cap : ℕ) : (draw g cap cap).1.Perm (List.range cap) := by
  obtain ⟨h1, h2, h3⟩ := hd g cap cap le_rfl
  refine List.Subperm.perm_of_length_le (List.subperm_of_subset h2 fun p hp => List.mem_range.2 (h3 p hp)) ?_
  simp [h1]

/-- All of the buffer is drawn, which contains the newest transition. -/
theorem whole_draws {draw : G → Nat → Nat → List Nat × G} (hd : DrawsDistinct draw) {cap : ℕ} (hc : 1 ≤ cap) (g : G) : Draws draw cap cap cap (fun _ => g) coins flips tickets where
  distinct := hd
  sizes := ⟨hc, le_rfl, le_rfl⟩
  known k l := MeasurableSet.const _
  newest := by
    refine ⟨⟨fun _ => inferInstance, fun _ _ _ => le_rfl, fun _ => le_rfl⟩, 1, one_pos, fun k l => MeasurableSet.const _, fun k s a => MeasurableSet.const (() = s ∧ 0 = a), fun k => Eventually.of_forall fun ω => ?_⟩
    have : {ω : ℕ → Bool | min cap (cap + k) - 1 ∈ drawn draw cap cap cap ((fun _ => g) ω) k} = Set.univ := by
      ext ω
      simp only [Set.mem_univ, iff_true, drawn, show min cap (cap + k) = cap by omega]
      show cap - 1 ∈ (draw _ cap cap).1
      rw [(distinct_all hd _ cap).mem_iff, List.mem_range]
      omega
    rw [this, Set.indicator_univ, condExp_const (by exact le_rfl)]

/-- The reward of step `i`. -/
noncomputable def prize (d : ℕ → Bool) (i : ℕ) : ℝ := if d i then 1 else 0

/-- The mean of the rewards in the buffer after `t` steps. -/
noncomputable def meanPrize (cap : ℕ) (d : ℕ → Bool) (t : ℕ) : ℝ := (∑ i ∈ Finset.range cap, prize d (returned d t - cap + i)) / cap

/-- The learned value and the number of updates after `t` steps. -/
noncomputable def valueAt (lr : ℕ → ℝ) (cap : ℕ) (d : ℕ → Bool) (q0 : ℝ) : ℕ → ℝ × ℕ
  | 0 => (q0, 0)
  | t + 1 => let x := valueAt lr cap d q0 t
    if cap ≤ returned d (t + 1) then (x.1 + lr x.2 * (meanPrize cap d (t + 1) - x.1), x.2 + 1) else x

theorem lottery_update {draw : G → Nat → Nat → List Nat × G} (hd : DrawsDistinct draw) {cap : ℕ} (hc : 1 ≤ cap) (d : ℕ → Bool) (type1 : Bool) (lr q : ℝ) (θT : Unit → Fin 1 → ℝ) (g : G) (t : ℕ) :
    sgdUpdate lr mse1 (qLearning 1) type1 θT (fun _ _ => q) ((draw g cap cap).1.map fun p => rowOf 0 (⟨(), 0, prize d (returned d t - cap + p), 0, 1⟩ : Step Unit (Fin 1) ℝ) ⟨(), 0, prize d (returned d t - cap + p + 1), 0, 1⟩ (d (returned d t - cap + p))) =
      .ok fun _ _ => q + lr * (meanPrize cap d t - q) := by
  have hr := rule_qLearning (σ := Unit) (n := 1) (by norm_num) type1
  choose val hval using hr.value
  have hlen : (draw g cap cap).1.length = cap := (hd g cap cap le_rfl).1
  set rows := (draw g cap cap).1.map fun p => rowOf 0 (⟨(), 0, prize d (returned d t - cap + p), 0, 1⟩ : Step Unit (Fin 1) ℝ) ⟨(), 0, prize d (returned d t - cap + p + 1), 0, 1⟩ (d (returned d t - cap + p)) with hrows
  have hrl : rows.length = cap := by rw [hrows, List.length_map, hlen]
  obtain ⟨b, hb, ht⟩ := rule_rows hr hval (rows := rows) (fun o ho => by
    obtain ⟨p, -, rfl⟩ := List.mem_map.1 ho
    exact ⟨rfl, rfl⟩) (fun _ _ => q) θT
  rw [sgdUpdate_rows mse1_meanOf (by norm_num) (by intro h; rw [h] at hrl; simp at hrl; omega) hb ht lr]
  congr 1
  funext s a
  have h2 : ((rows.map fun o => if s = o.S ∧ a = o.A then weight o * ((fun _ _ => q : Unit → Fin 1 → ℝ) s a - (o.Rn + o.In * (o.S_next.elim 0 fun s => val s (θT s)))) else 0)) = (draw g cap cap).1.map fun p => q - prize d (returned d t - cap + p) := by
    rw [hrows, List.map_map]
    refine List.map_congr_left fun p _ => ?_
    simp only [Function.comp]
    rw [if_pos ⟨trivial, Subsingleton.elim _ _⟩]
    simp only [rowOf, weight]
    norm_num
  have hc' : (cap : ℝ) ≠ 0 := Nat.cast_ne_zero.2 (by omega)
  have h3 : ((List.range cap).map fun p => q - prize d (returned d t - cap + p)).sum = ∑ i ∈ Finset.range cap, (q - prize d (returned d t - cap + i)) := rfl
  rw [h2, hrl, ((distinct_all hd g cap).map _).sum_eq, h3, Finset.sum_sub_distrib, Finset.sum_const, Finset.card_range, nsmul_eq_mul, meanPrize]
  field_simp
  ring

/-- The loop on this path. -/
theorem lottery_run {draw : G → Nat → Nat → List Nat × G} (hd : DrawsDistinct draw) {cap : ℕ} (hc : 1 ≤ cap) (lr : ℕ → ℝ) (tau : ℝ) (type1 : Bool) (d : ℕ → Bool) (q0 : ℝ) (θT0 : Unit → Fin 1 → ℝ) (g : G) (t : ℕ) :
    ∃ a θT, Trainee.run draw lr tau mse1 (qLearning 1) type1 cap cap ⟨Agent.init 1 0 cap g, fun _ _ => q0, θT0, 0⟩ ((List.range t).map fun i => ((⟨(), 0, prize d i, 0, 1⟩ : Step Unit (Fin 1) ℝ), d i)) =
        .ok ⟨a, fun _ _ => (valueAt lr cap d q0 t).1, θT, (valueAt lr cap d q0 t).2⟩ ∧
      After draw cap 0 (fun i => (⟨(), 0, prize d i, 0, 1⟩ : Step Unit (Fin 1) ℝ)) d t a := by
  induction t with
  | zero => exact ⟨_, θT0, rfl, After.init g⟩
  | succ t ih =>
    obtain ⟨a, θT, e1, e2⟩ := ih
    obtain ⟨a', f1, f2, f3⟩ := e2.observe le_rfl zero_le_one (fun _ => le_rfl) (fun _ => one_pos)
    rw [List.range_succ, List.map_append, Trainee.run_append e1, List.map_singleton, Trainee.run, Trainee.step]
    simp only
    rw [f1]
    simp only [Trainee.learn]
    have hlen : a'.sys.len = min cap (returned d (t + 1)) := by simpa using (C08_keeps_most_recent f2.stored).2.1
    rw [hlen]
    by_cases ht : cap ≤ returned d (t + 1)
    · rw [if_pos (by omega)]
      obtain ⟨s, o, g1, g2, g3, g4⟩ := f2.sample hd hc (batch := cap) (by omega)
      rw [g1]
      simp only
      rw [show min cap (returned d (t + 1)) = cap by omega] at g4
      rw [g4, lottery_update hd hc d type1 _ _ θT _ (t + 1)]
      simp only [Trainee.run]
      rw [valueAt]
      simp only [if_pos ht]
      exact ⟨_, _, rfl, g2⟩
    · rw [if_neg (by omega)]
      simp only [Trainee.run]
      rw [valueAt]
      simp only [if_neg ht]
      exact ⟨_, _, rfl, f2⟩

theorem meanPrize_move (cap : ℕ) (d : ℕ → Bool) (s : ℕ) : meanPrize cap d (cap + s + 1) = (∑ i ∈ Finset.range cap, prize d (s + i) + prize d (s + cap) * (1 - prize d s)) / cap := by
  rw [meanPrize]
  congr 1
  simp only [returned, Nat.add_comm s cap]
  by_cases h : d (cap + s) = true
  · have h2 : prize d (cap + s) = 1 := by simp [prize, h]
    rw [if_pos h, h2, show cap + s + 1 - cap = s + 1 by omega, one_mul]
    have h3 := Finset.sum_range_succ (fun i => prize d (s + i)) cap
    rw [Finset.sum_range_succ'] at h3
    simp only [Nat.add_zero, Nat.add_comm s cap, h2] at h3
    have h4 : ∑ i ∈ Finset.range cap, prize d (s + 1 + i) = ∑ i ∈ Finset.range cap, prize d (s + (i + 1)) := Finset.sum_congr rfl fun i _ => by rw [show s + 1 + i = s + (i + 1) by omega]
    rw [h4]
    linarith
  · have h2 : prize d (cap + s) = 0 := by simp [prize, h]
    rw [if_neg h, h2, show cap + s - cap = s by omega]
    ring

/-- From step `cap` on, there is an update in every step. -/
theorem valueAt_move (lr : ℕ → ℝ) {cap : ℕ} (hc : 1 ≤ cap) (d : ℕ → Bool) (q0 : ℝ) (s : ℕ) :
    (valueAt lr cap d q0 (cap + s)).2 = s + (if d (cap - 1) then 1 else 0) ∧
      (valueAt lr cap d q0 (cap + s + 1)).1 = (valueAt lr cap d q0 (cap + s)).1 + lr (s + (if d (cap - 1) then 1 else 0)) *
        ((∑ i ∈ Finset.range cap, prize d (s + i) + prize d (s + cap) * (1 - prize d s)) / cap - (valueAt lr cap d q0 (cap + s)).1) := by
  have early : ∀ t, t < cap → (valueAt lr cap d q0 t).2 = 0 := by
    intro t ht
    induction t with
    | zero => rfl
    | succ t ih =>
      simp only [valueAt]
      rw [if_neg (by simp only [returned]; split <;> omega)]
      exact ih (by omega)
  have count : ∀ s, (valueAt lr cap d q0 (cap + s)).2 = s + (if d (cap - 1) then 1 else 0) := by
    intro s
    induction s with
    | zero =>
      obtain ⟨c, rfl⟩ : ∃ c, cap = c + 1 := ⟨cap - 1, by omega⟩
      simp only [valueAt, returned, Nat.add_sub_cancel]
      by_cases hdc : d c = true
      · simp [hdc, early c (by omega)]
      · simp [hdc, early c (by omega)]
    | succ s ih =>
      rw [← Nat.add_assoc]
      simp only [valueAt]
      rw [if_pos (by simp only [returned]; split <;> omega), ih]
      omega
  refine ⟨count s, ?_⟩
  rw [valueAt, if_pos (by simp only [returned]; split <;> omega), count s, meanPrize_move]

/-! ### The limit -/

/-- The average of noisy values. -/
theorem average_converges {lr y f : ℕ → ℝ} {z S : ℝ} (h0 : ∀ t, 0 ≤ lr t) (h1 : ∀ t, lr t ≤ 1) (hinf : ¬ Summable lr) (hf : ∀ t, f (t + 1) = f t + lr t * (y t - f t)) (hy : ∀ t, |y t - z| ≤ 2)
    (hS : Tendsto (fun t => ∑ k ∈ Finset.range t, lr k * (y k - z)) atTop (𝓝 S)) : Tendsto f atTop (𝓝 z) := by
  have hM : ∀ t, |f t - z| ≤ max |f 0 - z| 2 := by
    intro t
    induction t with
    | zero => exact le_max_left _ _
    | succ t ih =>
      rw [hf, show f t + lr t * (y t - f t) = (1 - lr t) * f t + lr t * y t by ring]
      refine (abs_mix (h0 t) (h1 t) ih ((hy t).trans (le_max_right |f 0 - z| 2))).trans (le_of_eq (by ring))
  have h : Noisy (X := Unit) (fun _ _ => z) (fun t _ => f t) (fun t _ => f t) (fun t _ => lr t) (fun t _ => lr t * (y t - z)) (fun _ => 1) :=
    ⟨fun t _ => h0 t, fun t _ => h1 t, fun t _ => by rw [hf]; ring, fun _ => zero_le_one, fun _ => le_rfl, fun t _ => by ring⟩
  exact (h.converges (fs := fun _ => z) (gamma := 0) (fun g M _ _ => by simp) le_rfl one_pos (fun _ => hinf) (fun hs => by
    have := hs.tendsto_atTop_zero
    have := tendsto_nhds_unique this tendsto_const_nhds
    norm_num at this) (fun _ => ⟨S, hS⟩) (fun t _ => ⟨hM t, hM t⟩) ()).1

theorem prize_noise {lr : ℕ → ℝ} (h0 : ∀ t, 0 ≤ lr t) (h1 : ∀ t, lr t ≤ 1) (hsq : Summable fun t => lr t ^ 2) (u c : ℕ) {h : ℕ → (ℕ → Bool) → ℝ} (hm : ∀ t, Measurable[flips (2 * (t + c) + 1)] (h t)) (hb : ∀ t ω, |h t ω| ≤ 1) :
    ∀ᵐ ω ∂coins, ∃ S, Tendsto (fun t => ∑ k ∈ Finset.range t, lr (k + u) * ((prize (fun i => ω (2 * i + 2)) (k + c) - 1 / 2) * h k ω)) atTop (𝓝 S) := by
  let ℱ : Filtration ℕ (inferInstance : MeasurableSpace (ℕ → Bool)) := ⟨fun t => flips (2 * (t + c) + 1), fun _ _ hij => flips.mono (by omega), fun _ => flips.le _⟩
  have := outcome_noise (μ := coins) (ℱ := ℱ) (q := fun _ : Fin 2 => (1 / 2 : ℝ)) (a := fun t _ => lr (t + u)) (c := fun t => lr (t + u)) (Z := fun t ω j => (if j = 1 then 1 else 0) * h t ω) (x := fun t => ticket (t + c)) (B := 1) (fun _ => by norm_num)
    (by norm_num) (fun t _ => h0 _) (fun t _ => h1 _) (fun _ _ => le_rfl) ((summable_nat_add_iff u).2 hsq) (fun _ => measurable_const) (fun t j => (hm t).const_mul _) (fun t ω j => by
      rw [abs_mul]
      split
      · simpa using hb t ω
      · simp) (fun t j => fin2_known (by omega) j) (fun t j => by
      filter_upwards [fin2_fair (show 2 * (t + c) + 1 < 2 * (t + c) + 2 by omega) j] with ω h2 _
      exact h2) zero_le_one
  filter_upwards [this] with ω h2
  obtain ⟨S, hS⟩ := h2
  refine ⟨S, hS.congr fun t => Finset.sum_congr rfl fun k _ => ?_⟩
  congr 1
  rw [Fin.sum_univ_two]
  simp only [ticket, prize]
  by_cases hω : ω (2 * (k + c) + 2) = true
  · simp [hω]
    ring
  · simp [hω]

/-- **C130** is false if episodes end: the expected reward in `lottery` is 1/2, which is the only solution of the Bellman equation (with `gamma = 0`), and all other hypotheses of `C130_loop_q_learning_partial` hold, but the learned value converges
almost surely to `1/2 + 1/(4 * capacity)`.  The tracer returns the last transition of an episode without delay and all others one step later, so the last transition of an episode stays in the buffer for one more update than the others. -/
theorem C130_counterexample {draw : G → Nat → Nat → List Nat × G} (hd : DrawsDistinct draw) {cap : ℕ} (hc : 1 ≤ cap) (g : G) (tau : ℝ) (type1 : Bool) (θ0 θT0 : Unit → Fin 1 → ℝ) :
    (∀ q, lottery.Solves 0 Greedy q ↔ q () 0 = 1 / 2) ∧ lottery.Proper ∧ Explorer lottery coins flips tickets ticket (fun t => 1 / ((t : ℝ) + 1)) ∧ Draws draw cap cap cap (fun _ => g) coins flips tickets ∧
    ∃ L : ℕ → (ℕ → Bool) → Trainee Unit 1 G, (∀ k ω, Trainee.run draw (fun t => 1 / ((t : ℝ) + 1)) tau mse1 (qLearning 1) type1 cap cap ⟨Agent.init 1 0 cap g, θ0, θT0, 0⟩
        ((List.range k).map fun t => (tickets t ω, lottery.ends (tickets t ω).s (tickets t ω).a (ticket t ω))) = .ok (L k ω)) ∧
      ∀ᵐ ω ∂coins, Tendsto (fun k => (L k ω).q () 0) atTop (𝓝 (1 / 2 + 1 / (4 * cap))) := by
  refine ⟨fun q => ?_, lottery_proper, lottery_explorer, whole_draws hd hc g, ?_⟩
  · constructor
    · rintro ⟨v, -, h⟩
      have := h () 0
      norm_num [lottery, Fin.sum_univ_two] at this
      linarith
    · intro h
      refine ⟨fun _ => 1 / 2, fun s => ⟨⟨0, h⟩, ?_⟩, fun s a => ?_⟩
      · rintro _ ⟨a, rfl⟩
        rw [Subsingleton.elim a 0]
        exact h.le
      · rw [Subsingleton.elim a 0]
        norm_num [lottery, Fin.sum_univ_two, h]
  · let lr : ℕ → ℝ := fun t => 1 / ((t : ℝ) + 1)
    let d : (ℕ → Bool) → ℕ → Bool := fun ω i => ω (2 * i + 2)
    have hθ : θ0 = fun _ _ => θ0 () 0 := by
      funext s a
      rw [Subsingleton.elim a 0]
    have hpath : ∀ ω k, ((List.range k).map fun t => (tickets t ω, lottery.ends (tickets t ω).s (tickets t ω).a (ticket t ω))) = (List.range k).map fun i => ((⟨(), 0, prize (d ω) i, 0, 1⟩ : Step Unit (Fin 1) ℝ), d ω i) := by
      intro ω k
      refine List.map_congr_left fun i _ => ?_
      simp only [tickets, lottery, ticket, prize, d]
      by_cases hω : ω (2 * i + 2) = true
      · simp [hω]
      · simp [hω]
    choose A θT hA _ using fun ω k => lottery_run hd hc lr tau type1 (d ω) (θ0 () 0) θT0 g k
    refine ⟨fun k ω => ⟨A ω k, fun _ _ => (valueAt lr cap (d ω) (θ0 () 0) k).1, θT ω k, (valueAt lr cap (d ω) (θ0 () 0) k).2⟩, fun k ω => ?_, ?_⟩
    · rw [hpath, ← hA ω k, ← hθ]
    · have l0 : ∀ t, 0 ≤ lr t := coin_explorer.schedule.nonneg
      have l1 : ∀ t, lr t ≤ 1 := fun t => by
        show (1 : ℝ) / ((t : ℝ) + 1) ≤ 1
        rw [div_le_one (by positivity)]
        linarith [(Nat.cast_nonneg t : (0 : ℝ) ≤ t)]
      have hsq : Summable fun t => lr t ^ 2 := coin_explorer.schedule.squares
      have p01 : ∀ ω i, prize (d ω) i = 0 ∨ prize (d ω) i = 1 := fun ω i => by
        unfold prize
        split
        · exact Or.inr rfl
        · exact Or.inl rfl
      have hmp : ∀ t, Measurable[flips (2 * (t + cap) + 1)] fun ω => 1 - prize (d ω) t := by
        intro t
        refine Measurable.sub measurable_const (Measurable.ite ?_ measurable_const measurable_const)
        exact flips_known (by omega) true
      have n1 := ae_all_iff.2 fun u : ℕ => ae_all_iff.2 fun i : ℕ => prize_noise l0 l1 hsq u i (h := fun _ _ => 1) (fun _ => measurable_const) (fun _ _ => by simp)
      have n2 := ae_all_iff.2 fun u : ℕ => prize_noise l0 l1 hsq u cap (h := fun t ω => 1 - prize (d ω) t) hmp (fun t ω => by
        rcases p01 ω t with h | h <;> simp [h])
      filter_upwards [n1, n2] with ω n1 n2
      set u : ℕ := if d ω (cap - 1) then 1 else 0 with hu
      have hc' : (0 : ℝ) < cap := Nat.cast_pos.2 (by omega)
      choose S hS using n1 u
      obtain ⟨S2, hS2⟩ := n2 u
      let y : ℕ → ℝ := fun s => (∑ i ∈ Finset.range cap, prize (d ω) (s + i) + prize (d ω) (s + cap) * (1 - prize (d ω) s)) / cap
      have hf := fun s => (valueAt_move lr hc (d ω) (θ0 () 0) s).2
      have key : Tendsto (fun s => (valueAt lr cap (d ω) (θ0 () 0) (cap + s)).1) atTop (𝓝 (1 / 2 + 1 / (4 * cap))) := by
        refine average_converges (lr := fun s => lr (s + u)) (y := y) (S := (∑ i ∈ Finset.range cap, S i + S2 - 1 / 2 * S 0) / cap) (fun t => l0 _) (fun t => l1 _) ?_ hf ?_ ?_
        · exact fun h => coin_explorer.infinite ((summable_nat_add_iff u).1 h)
        · intro s
          have b1 : 0 ≤ ∑ i ∈ Finset.range cap, prize (d ω) (s + i) := Finset.sum_nonneg fun i _ => by rcases p01 ω (s + i) with h | h <;> simp [h]
          have b2 : ∑ i ∈ Finset.range cap, prize (d ω) (s + i) ≤ cap := (Finset.sum_le_sum fun i _ => show prize (d ω) (s + i) ≤ 1 by rcases p01 ω (s + i) with h | h <;> simp [h]).trans (by simp)
          have b3 : 0 ≤ prize (d ω) (s + cap) * (1 - prize (d ω) s) ∧ prize (d ω) (s + cap) * (1 - prize (d ω) s) ≤ 1 := by rcases p01 ω s with h | h <;> rcases p01 ω (s + cap) with h' | h' <;> simp [h, h']
          have c1 : (1 : ℝ) ≤ cap := Nat.one_le_cast.2 hc
          have b4 : 0 ≤ y s := div_nonneg (by linarith) hc'.le
          have b5 : y s ≤ 2 := by
            show _ / _ ≤ _
            rw [div_le_iff₀ hc']
            linarith
          have b6 : (1 : ℝ) / (4 * cap) ≤ 1 / 4 := by
            rw [div_le_div_iff₀ (by positivity) (by norm_num)]
            linarith
          have b7 : (0 : ℝ) ≤ 1 / (4 * cap) := by positivity
          rw [abs_le]
          constructor <;> linarith
        · have h3 := (((tendsto_finsetSum (Finset.range cap) fun i _ => hS i).add hS2).sub ((hS 0).const_mul (1 / 2))).div_const (cap : ℝ)
          refine h3.congr fun t => ?_
          rw [Finset.sum_comm, Finset.mul_sum, ← Finset.sum_add_distrib, ← Finset.sum_sub_distrib, Finset.sum_div]
          refine Finset.sum_congr rfl fun k _ => ?_
          simp only [mul_one, ← Finset.mul_sum, Finset.sum_sub_distrib, Finset.sum_const, Finset.card_range, nsmul_eq_mul, Nat.add_zero]
          show _ = lr (k + u) * ((∑ i ∈ Finset.range cap, prize (d ω) (k + i) + prize (d ω) (k + cap) * (1 - prize (d ω) k)) / cap - (1 / 2 + 1 / (4 * cap)))
          field_simp
          ring
      refine (tendsto_add_atTop_iff_nat cap).1 (key.congr fun s => ?_)
      rw [Nat.add_comm]

end Coax.Loop
