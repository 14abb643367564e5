import Verif.Loop.ExploreProps
import Verif.TD.SoftProps

/-!
Property C121: what value learning converges to is the best return that any policy can reach, and the policies of `coax/_core/value_based_policy.py` reach it; policies that are derived from the
values of another policy improve it.
-/

namespace Coax.Loop

open Coax.RewardTracing Coax.TD Coax.Core Coax.Values Coax.Pol Coax.Dists Filter Topology MeasureTheory

variable {σ : Type _} {n m : Nat}

/-! ### Policies and their returns -/

/-- The states, actions and outcomes before. -/
abbrev History (σ : Type _) (n m : Nat) := List (σ × Fin n × Fin m)

/-- A policy: the probabilities of the actions may depend on everything that happened before. -/
abbrev Policy (σ : Type _) (n m : Nat) := History σ n m → σ → Fin n → ℝ

/-- All of these are probabilities. -/
def Policy.Proper (pi : Policy σ n m) : Prop := ∀ h s, (∀ a, 0 ≤ pi h s a) ∧ ∑ a, pi h s a = 1

/-- The expectation of the discounted sum of the next `k` rewards until the end of the episode, plus `temp` times the entropy of the policy in each of these steps. -/
noncomputable def Mdp.ret (e : Mdp σ n m) (gamma temp : ℝ) (pi : Policy σ n m) : ℕ → History σ n m → σ → ℝ
  | 0, _, _ => 0
  | k + 1, h, s => (∑ a, pi h s a * ∑ j, e.prob s a j * (e.reward s a j + if e.ends s a j then 0 else gamma * Mdp.ret e gamma temp pi k (h ++ [(s, a, j)]) (e.next s a j))) +
      temp * ∑ a, -(pi h s a * Real.log (pi h s a))

/-- The expected return of a policy from a state. -/
def Mdp.Worth (e : Mdp σ n m) (gamma temp : ℝ) (pi : Policy σ n m) (s : σ) (x : ℝ) : Prop := Tendsto (fun k => e.ret gamma temp pi k [] s) atTop (𝓝 x)

/-- A policy that does not remember. -/
def stationary (p : σ → Fin n → ℝ) : Policy σ n m := fun _ => p

open Classical in
/-- A policy that always chooses this action. -/
noncomputable def always (f : σ → Option (Fin n)) : Policy σ n m := fun _ s a => if f s = some a then 1 else 0

/-- How often the actions are chosen if a policy with these logits is called with uniform random numbers. -/
noncomputable def calls (draw : List (Fin n) → Option (Fin n)) (tau : ℝ) (logits : σ → Fin n → ℝ) : Policy σ n m :=
  fun _ s a => (uniforms n {u | (policyCall draw tau u (logits s)).1 = some a}).toReal

/-! ### Lemmas -/

theorem calls_eq {draw : List (Fin n) → Option (Fin n)} (hd : Draws draw) {tau : ℝ} (htau : 0 < tau) (logits : σ → Fin n → ℝ) : calls (m := m) draw tau logits = stationary fun s => meanRow (logits s) := by
  funext h s a
  have := C62_sample_distribution hd htau (logits s) a
  unfold calls stationary policyCall
  dsimp only
  rw [this, ENNReal.toReal_ofReal ((C49_probabilities (logits s)).1 a).le]

theorem calls_proper {draw : List (Fin n) → Option (Fin n)} (hd : Draws draw) (hn : 0 < n) {tau : ℝ} (htau : 0 < tau) (logits : σ → Fin n → ℝ) : (calls (m := m) draw tau logits).Proper := by
  rw [calls_eq hd htau]
  exact fun _ s => ⟨fun a => ((C49_probabilities (logits s)).1 a).le, (C49_probabilities (logits s)).2 hn⟩

/-- The values of the actions if the next state has these values. -/
def Mdp.back (e : Mdp σ n m) (gamma : ℝ) (v : σ → ℝ) (s : σ) (a : Fin n) : ℝ := ∑ j, e.prob s a j * (e.reward s a j + if e.ends s a j then 0 else gamma * v (e.next s a j))

theorem softValue_le {temp c : ℝ} {q1 q2 p : Fin n → ℝ} (hp : (∀ a, 0 ≤ p a) ∧ ∑ a, p a = 1) (h : ∀ a, q1 a ≤ q2 a + c) : softValue temp q1 p ≤ softValue temp q2 p + c := by
  unfold softValue
  have : ∑ a, p a * q1 a ≤ ∑ a, p a * q2 a + c := by
    calc ∑ a, p a * q1 a ≤ ∑ a, (p a * q2 a + p a * c) := Finset.sum_le_sum fun a _ => by rw [← mul_add]; exact mul_le_mul_of_nonneg_left (h a) (hp.1 a)
      _ = ∑ a, p a * q2 a + c := by rw [Finset.sum_add_distrib, ← Finset.sum_mul, hp.2, one_mul]
  linarith

theorem mean_le {e : Mdp σ n m} (he : e.Proper) (s : σ) (a : Fin n) {x y : Fin m → ℝ} {c : ℝ} (h : ∀ j, x j ≤ y j + c) : ∑ j, e.prob s a j * x j ≤ ∑ j, e.prob s a j * y j + c := by
  calc ∑ j, e.prob s a j * x j ≤ ∑ j, (e.prob s a j * y j + e.prob s a j * c) := Finset.sum_le_sum fun j _ => by rw [← mul_add]; exact mul_le_mul_of_nonneg_left (h j) (he.nonneg s a j)
    _ = ∑ j, e.prob s a j * y j + c := by rw [Finset.sum_add_distrib, ← Finset.sum_mul, he.total, one_mul]

/-- The values of the actions `k` steps before. -/
noncomputable def Mdp.look (e : Mdp σ n m) (gamma temp : ℝ) (pi : Policy σ n m) (k : ℕ) (h : History σ n m) (s : σ) (a : Fin n) : ℝ :=
  ∑ j, e.prob s a j * (e.reward s a j + if e.ends s a j then 0 else gamma * e.ret gamma temp pi k (h ++ [(s, a, j)]) (e.next s a j))

theorem mret_succ (e : Mdp σ n m) (gamma temp : ℝ) (pi : Policy σ n m) (k : ℕ) (h : History σ n m) (s : σ) : e.ret gamma temp pi (k + 1) h s = softValue temp (e.look gamma temp pi k h s) (pi h s) := rfl

theorem step_le {gamma c x y r : ℝ} (h0 : 0 ≤ gamma) (hc : 0 ≤ c) (h : x ≤ y + c) (b : Bool) : (r + if b then 0 else gamma * x) ≤ (r + if b then 0 else gamma * y) + gamma * c := by
  cases b
  · have := mul_le_mul_of_nonneg_left h h0
    simp only [Bool.false_eq_true, if_false]; linarith
  · have := mul_nonneg h0 hc
    simp only [if_true]; linarith

theorem ret_ge {e : Mdp σ n m} (he : e.Proper) {gamma temp δ B : ℝ} (h0 : 0 ≤ gamma) (h1 : gamma < 1) (hδ : 0 ≤ δ) {pi : Policy σ n m} (hpi : pi.Proper) {v : σ → ℝ} (hB : ∀ s, |v s| ≤ B)
    (hv : ∀ h s, v s ≤ softValue temp (e.back gamma v s) (pi h s) + δ) (k : ℕ) : ∀ h s, v s ≤ e.ret gamma temp pi k h s + (δ / (1 - gamma) + gamma ^ k * B) := by
  have hg : 0 < 1 - gamma := by linarith
  have hd : 0 ≤ δ / (1 - gamma) := div_nonneg hδ hg.le
  induction k with
  | zero =>
    intro h s
    have := (abs_le.1 (hB s)).2
    simp only [Mdp.ret, pow_zero, one_mul]; linarith
  | succ k ih =>
    intro h s
    have hB0 : 0 ≤ B := (abs_nonneg _).trans (hB s)
    have hc : 0 ≤ δ / (1 - gamma) + gamma ^ k * B := add_nonneg hd (mul_nonneg (pow_nonneg h0 k) hB0)
    have e1 : ∀ a, e.back gamma v s a ≤ e.look gamma temp pi k h s a + gamma * (δ / (1 - gamma) + gamma ^ k * B) := fun a =>
      mean_le he s a fun j => step_le h0 hc (ih _ _) _
    have e2 := softValue_le (temp := temp) (hpi h s) e1
    have e3 := hv h s
    have e4 : δ / (1 - gamma) = δ + gamma * (δ / (1 - gamma)) := by field_simp; ring
    rw [mret_succ, pow_succ, e4]
    nlinarith [e2, e3]

theorem ret_le {e : Mdp σ n m} (he : e.Proper) {gamma temp δ B : ℝ} (h0 : 0 ≤ gamma) (h1 : gamma < 1) (hδ : 0 ≤ δ) {pi : Policy σ n m} (hpi : pi.Proper) {v : σ → ℝ} (hB : ∀ s, |v s| ≤ B)
    (hv : ∀ h s, softValue temp (e.back gamma v s) (pi h s) ≤ v s + δ) (k : ℕ) : ∀ h s, e.ret gamma temp pi k h s ≤ v s + (δ / (1 - gamma) + gamma ^ k * B) := by
  have hg : 0 < 1 - gamma := by linarith
  have hd : 0 ≤ δ / (1 - gamma) := div_nonneg hδ hg.le
  induction k with
  | zero =>
    intro h s
    have := (abs_le.1 (hB s)).1
    simp only [Mdp.ret, pow_zero, one_mul]; linarith
  | succ k ih =>
    intro h s
    have hB0 : 0 ≤ B := (abs_nonneg _).trans (hB s)
    have hc : 0 ≤ δ / (1 - gamma) + gamma ^ k * B := add_nonneg hd (mul_nonneg (pow_nonneg h0 k) hB0)
    have e1 : ∀ a, e.look gamma temp pi k h s a ≤ e.back gamma v s a + gamma * (δ / (1 - gamma) + gamma ^ k * B) := fun a =>
      mean_le he s a fun j => step_le h0 hc (ih _ _) _
    have e2 := softValue_le (temp := temp) (hpi h s) e1
    have e3 := hv h s
    have e4 : δ / (1 - gamma) = δ + gamma * (δ / (1 - gamma)) := by field_simp; ring
    rw [mret_succ, pow_succ, e4]
    nlinarith [e2, e3]

theorem tends_rest {gamma : ℝ} (h0 : 0 ≤ gamma) (h1 : gamma < 1) (x c B : ℝ) : Tendsto (fun k : ℕ => x + (c + gamma ^ k * B)) atTop (𝓝 (x + c)) := by
  have := (tendsto_pow_atTop_nhds_zero_of_lt_one h0 h1).mul_const B
  simpa using (this.const_add c).const_add x

theorem bounded [Finite σ] (v : σ → ℝ) : ∃ B, ∀ s, |v s| ≤ B := by
  obtain ⟨B, hB⟩ := (Set.finite_range fun s => |v s|).bddAbove
  exact ⟨B, fun s => hB ⟨s, rfl⟩⟩

theorem worth_ge [Finite σ] {e : Mdp σ n m} (he : e.Proper) {gamma temp δ : ℝ} (h0 : 0 ≤ gamma) (h1 : gamma < 1) (hδ : 0 ≤ δ) {pi : Policy σ n m} (hpi : pi.Proper) {v : σ → ℝ}
    (hv : ∀ h s, v s ≤ softValue temp (e.back gamma v s) (pi h s) + δ) {s : σ} {x : ℝ} (hx : e.Worth gamma temp pi s x) : v s ≤ x + δ / (1 - gamma) := by
  obtain ⟨B, hB⟩ := bounded v
  have hz := (tendsto_pow_atTop_nhds_zero_of_lt_one h0 h1).mul_const B
  have : Tendsto (fun k : ℕ => e.ret gamma temp pi k [] s + (δ / (1 - gamma) + gamma ^ k * B)) atTop (𝓝 (x + (δ / (1 - gamma) + 0 * B))) := Tendsto.add hx (hz.const_add _)
  have := ge_of_tendsto' this fun k => ret_ge he h0 h1 hδ hpi hB hv k [] s
  simpa using this

theorem worth_le [Finite σ] {e : Mdp σ n m} (he : e.Proper) {gamma temp δ : ℝ} (h0 : 0 ≤ gamma) (h1 : gamma < 1) (hδ : 0 ≤ δ) {pi : Policy σ n m} (hpi : pi.Proper) {v : σ → ℝ}
    (hv : ∀ h s, softValue temp (e.back gamma v s) (pi h s) ≤ v s + δ) {s : σ} {x : ℝ} (hx : e.Worth gamma temp pi s x) : x ≤ v s + δ / (1 - gamma) := by
  obtain ⟨B, hB⟩ := bounded v
  exact le_of_tendsto_of_tendsto' hx (tends_rest h0 h1 (v s) (δ / (1 - gamma)) B) fun k => ret_le he h0 h1 hδ hpi hB hv k [] s

theorem worth_eq [Finite σ] {e : Mdp σ n m} (he : e.Proper) {gamma temp : ℝ} (h0 : 0 ≤ gamma) (h1 : gamma < 1) {pi : Policy σ n m} (hpi : pi.Proper) {v : σ → ℝ}
    (hv : ∀ h s, v s = softValue temp (e.back gamma v s) (pi h s)) (s : σ) : e.Worth gamma temp pi s (v s) := by
  obtain ⟨B, hB⟩ := bounded v
  have hl := fun k => ret_ge (δ := 0) he h0 h1 le_rfl hpi hB (fun h s => by rw [add_zero]; exact (hv h s).le) k [] s
  have hu := fun k => ret_le (δ := 0) he h0 h1 le_rfl hpi hB (fun h s => by rw [add_zero]; exact (hv h s).ge) k [] s
  have t := tends_rest h0 h1 (v s) 0 B
  have t' := tends_rest h0 h1 (v s) 0 (-B)
  rw [add_zero] at t t'
  refine tendsto_of_tendsto_of_tendsto_of_le_of_le t' t (fun k => ?_) fun k => ?_
  · have := hl k
    simp only [zero_div, zero_add, mul_neg] at this ⊢; linarith
  · have := hu k
    simpa using this

/-! ### Every policy has a value -/

/-- **C121**: in a finite environment the expected return of every policy exists, with and without entropies. -/
theorem C121_value [Finite σ] {e : Mdp σ n m} (he : e.Proper) {gamma : ℝ} (h0 : 0 ≤ gamma) (h1 : gamma < 1) (temp : ℝ) {pi : Policy σ n m} (hpi : pi.Proper) (s : σ) : ∃ x, e.Worth gamma temp pi s x := by
  obtain ⟨R, hR⟩ := bounded fun p : σ × Fin n × Fin m => e.reward p.1 p.2.1 p.2.2
  have hent : ∀ h s, |∑ a, -(pi h s a * Real.log (pi h s a))| ≤ n := by
    intro h s
    refine (Finset.abs_sum_le_sum_abs _ _).trans ?_
    calc ∑ a, |-(pi h s a * Real.log (pi h s a))| ≤ ∑ _a : Fin n, (1 : ℝ) := Finset.sum_le_sum fun a _ => by
          rw [abs_neg]
          rcases (hpi h s).1 a |>.eq_or_lt with hz | hp
          · rw [← hz]; simp
          · have hle : pi h s a ≤ 1 := (hpi h s).2 ▸ Finset.single_le_sum (fun b _ => (hpi h s).1 b) (Finset.mem_univ a)
            rw [mul_comm]
            exact (Real.abs_log_mul_self_lt _ hp hle).le
      _ = n := by simp
  have hone : ∀ h s, |e.ret gamma temp pi 1 h s| ≤ R + |temp| * n := by
    intro h s
    have hr : ∀ s a, |∑ j, e.prob s a j * (e.reward s a j + if e.ends s a j then 0 else gamma * 0)| ≤ R := by
      intro s a
      have := mean_near he s a (x := fun j => e.reward s a j + if e.ends s a j then 0 else gamma * 0) (z := 0) (M := R) fun j => by
        have := hR (s, a, j)
        simpa using this
      simpa using this
    have hs : |∑ a, pi h s a * ∑ j, e.prob s a j * (e.reward s a j + if e.ends s a j then 0 else gamma * 0)| ≤ R := by
      refine (Finset.abs_sum_le_sum_abs _ _).trans ?_
      calc _ ≤ ∑ a, pi h s a * R := Finset.sum_le_sum fun a _ => by
            rw [abs_mul, abs_of_nonneg ((hpi h s).1 a)]
            exact mul_le_mul_of_nonneg_left (hr s a) ((hpi h s).1 a)
        _ = R := by rw [← Finset.sum_mul, (hpi h s).2, one_mul]
    calc |e.ret gamma temp pi 1 h s| ≤ _ := abs_add_le _ _
      _ ≤ R + |temp| * n := add_le_add hs (by rw [abs_mul]; exact mul_le_mul_of_nonneg_left (hent h s) (abs_nonneg _))
  have hstep : ∀ k h s, |e.ret gamma temp pi (k + 1) h s - e.ret gamma temp pi k h s| ≤ gamma ^ k * (R + |temp| * n) := by
    intro k
    induction k with
    | zero => intro h s; simpa [Mdp.ret] using hone h s
    | succ k ih =>
      intro h s
      have hc : 0 ≤ gamma ^ k * (R + |temp| * n) := (abs_nonneg _).trans (ih h s)
      rw [mret_succ e gamma temp pi (k + 1), mret_succ e gamma temp pi k, abs_le]
      have hu := softValue_le (temp := temp) (hpi h s) (q1 := e.look gamma temp pi (k + 1) h s) (q2 := e.look gamma temp pi k h s) (c := gamma * (gamma ^ k * (R + |temp| * n))) fun a =>
        mean_le he s a fun j => step_le h0 hc (by have := (abs_le.1 (ih (h ++ [(s, a, j)]) (e.next s a j))).2; linarith) _
      have hl := softValue_le (temp := temp) (hpi h s) (q1 := e.look gamma temp pi k h s) (q2 := e.look gamma temp pi (k + 1) h s) (c := gamma * (gamma ^ k * (R + |temp| * n))) fun a =>
        mean_le he s a fun j => step_le h0 hc (by have := (abs_le.1 (ih (h ++ [(s, a, j)]) (e.next s a j))).1; linarith) _
      have e4 : gamma ^ (k + 1) * (R + |temp| * n) = gamma * (gamma ^ k * (R + |temp| * n)) := by ring
      rw [e4]
      constructor <;> linarith
  refine cauchySeq_tendsto_of_complete (cauchySeq_of_le_geometric gamma (R + |temp| * n) h1 fun k => ?_)
  rw [dist_comm, Real.dist_eq, mul_comm]
  exact hstep k [] s

/-! ### Optimality -/

theorem softValue_zero (q p : Fin n → ℝ) : softValue 0 q p = ∑ a, p a * q a := by unfold softValue; ring

theorem mean_max {q p : Fin n → ℝ} {x : ℝ} (hp : (∀ a, 0 ≤ p a) ∧ ∑ a, p a = 1) (hx : ∀ a, q a ≤ x) : ∑ a, p a * q a ≤ x := by
  calc ∑ a, p a * q a ≤ ∑ a, p a * x := Finset.sum_le_sum fun a _ => mul_le_mul_of_nonneg_left (hx a) (hp.1 a)
    _ = x := by rw [← Finset.sum_mul, hp.2, one_mul]

theorem mean_on {q p : Fin n → ℝ} {x : ℝ} (hp : (∀ a, 0 ≤ p a) ∧ ∑ a, p a = 1) (hx : ∀ a, 0 < p a → q a = x) : ∑ a, p a * q a = x := by
  calc ∑ a, p a * q a = ∑ a, p a * x := Finset.sum_congr rfl fun a _ => by
        rcases (hp.1 a).eq_or_lt with h | h
        · rw [← h]; ring
        · rw [hx a h]
    _ = x := by rw [← Finset.sum_mul, hp.2, one_mul]

theorem always_proper {f : σ → Option (Fin n)} (hf : ∀ s, ∃ a, f s = some a) : (always (m := m) f).Proper := by
  intro h s
  obtain ⟨a, ha⟩ := hf s
  constructor
  · intro b; unfold always; split <;> norm_num
  · have : ∀ b, always (m := m) f h s b = if b = a then 1 else 0 := by
      intro b; unfold always; rw [ha]; simp [eq_comm]
    simp [this]

/-- **C121** for what `QLearning` converges to (C104, C119): the largest value of a state is the best return that any policy has, even one that remembers everything, and every policy that chooses only actions with the largest values has that return. -/
theorem C121_optimal [Finite σ] {e : Mdp σ n m} (he : e.Proper) {gamma : ℝ} (h0 : 0 ≤ gamma) (h1 : gamma < 1) {q : σ → Fin n → ℝ} (hq : e.Solves gamma Greedy q) :
    ∃ v : σ → ℝ, (∀ s, IsGreatest (Set.range (q s)) (v s)) ∧
      (∀ (pi : Policy σ n m) s x, pi.Proper → e.Worth gamma 0 pi s x → x ≤ v s) ∧
      (∀ pi : Policy σ n m, pi.Proper → (∀ h s a, 0 < pi h s a → ∀ b, q s b ≤ q s a) → ∀ s, e.Worth gamma 0 pi s (v s)) := by
  obtain ⟨v, hv, hb⟩ := hq
  have hback : ∀ s, e.back gamma v s = q s := fun s => funext fun a => (hb s a).symm
  refine ⟨v, hv, fun pi s x hpi hx => ?_, fun pi hpi hg s => ?_⟩
  · have := worth_le (δ := 0) he h0 h1 le_rfl hpi (v := v) (fun h s => by
      rw [softValue_zero, hback, add_zero]
      exact mean_max (hpi h s) fun a => (hv s).2 ⟨a, rfl⟩) hx
    simpa using this
  · refine worth_eq he h0 h1 hpi (fun h s => ?_) s
    rw [softValue_zero, hback]
    refine (mean_on (hpi h s) fun a ha => ?_).symm
    obtain ⟨b, hb'⟩ := (hv s).1
    exact le_antisymm ((hv s).2 ⟨a, rfl⟩) (hb' ▸ hg h s a ha b)

/-- **C121**: the `mode` of `EpsilonGreedy` and of `BoltzmannPolicy` with these values is an optimal policy. -/
theorem C121_mode [Finite σ] {e : Mdp σ n m} (he : e.Proper) (hn : 0 < n) {gamma : ℝ} (h0 : 0 ≤ gamma) (h1 : gamma < 1) {q : σ → Fin n → ℝ} (hq : e.Solves gamma Greedy q)
    {draw : List (Fin n) → Option (Fin n)} (hd : Draws draw) {tau : ℝ} (htau : 0 < tau) {ε τ : ℝ} (hε0 : 0 ≤ ε) (hε1 : ε < 1) (hτ : 0 < τ) (s : σ) :
    ∃ x, e.Worth gamma 0 (always fun s => policyMode draw tau (epsilonGreedyLogits ε (q s))) s x ∧ e.Worth gamma 0 (always fun s => policyMode draw tau (boltzmannLogits τ (q s))) s x ∧
      ∀ (pi : Policy σ n m) y, pi.Proper → e.Worth gamma 0 pi s y → y ≤ x := by
  obtain ⟨v, _, hu, ho⟩ := C121_optimal he h0 h1 hq
  have key : ∀ f : σ → Option (Fin n), (∀ s, ∃ a, f s = some a ∧ ∀ j, q s j ≤ q s a) → e.Worth gamma 0 (always f) s (v s) := by
    intro f hf
    refine ho _ (always_proper fun s => (hf s).imp fun a h => h.1) (fun h s a ha => ?_) s
    obtain ⟨b, hb, hmax⟩ := hf s
    have : f s = some a := by
      by_contra hne
      simp [always, hne] at ha
    rw [hb] at this
    cases this
    exact hmax
  exact ⟨v s, key _ fun s => C52_mode hd hn htau hε0 hε1 (q s), key _ fun s => C53_mode hd hn htau hτ (q s), fun pi y hpi hy => hu pi s y hpi hy⟩

/-- **C121** for what `SoftQLearning` converges to: the soft maximum of a state is the best sum of return and entropies that any policy has, and calls of `BoltzmannPolicy` with the same temperature have it. -/
theorem C121_soft_optimal [Finite σ] {e : Mdp σ n m} (he : e.Proper) (hn : 0 < n) {gamma : ℝ} (h0 : 0 ≤ gamma) (h1 : gamma < 1) {temp : ℝ} (ht : 0 < temp) {q : σ → Fin n → ℝ} (hq : e.Solves gamma (Soft temp) q)
    {draw : List (Fin n) → Option (Fin n)} (hd : Draws draw) {tau : ℝ} (htau : 0 < tau) (s : σ) :
    ∃ x, x = temp * Real.log (∑ a, Real.exp (q s a / temp)) ∧ e.Worth gamma temp (calls draw tau fun s => boltzmannLogits temp (q s)) s x ∧
      ∀ (pi : Policy σ n m) y, pi.Proper → e.Worth gamma temp pi s y → y ≤ x := by
  obtain ⟨v, hv, hb⟩ := hq
  have hback : ∀ s, e.back gamma v s = q s := fun s => funext fun a => (hb s a).symm
  have hv' : ∀ s, v s = temp * Real.log (∑ a, Real.exp (q s a / temp)) := by
    intro s
    rw [← hv s, Real.log_exp]
    field_simp
  refine ⟨v s, hv' s, ?_, fun pi y hpi hy => ?_⟩
  · rw [calls_eq hd htau]
    refine worth_eq he h0 h1 (by rw [← calls_eq hd htau]; exact calls_proper hd hn htau _) (fun h s => ?_) s
    rw [hback, hv']
    exact ((softValue_max hn ht (q s)).1).symm
  · have := worth_le (δ := 0) he h0 h1 le_rfl hpi (v := v) (fun h s => by
      rw [hback, add_zero, hv']
      exact ((softValue_max hn ht (q s)).2 (pi h s) ⟨(hpi h s).1, (hpi h s).2⟩).1) hy
    simpa using this

/-! ### Evaluation and improvement -/

/-- **C121** for what `ExpectedSarsa` converges to: the mean of the values is the return of the target policy. -/
theorem C121_evaluation [Finite σ] {e : Mdp σ n m} (he : e.Proper) (hn : 0 < n) {gamma : ℝ} (h0 : 0 ≤ gamma) (h1 : gamma < 1) {logits : σ → Fin n → ℝ} {q : σ → Fin n → ℝ}
    (hq : e.Solves gamma (Mean fun s a => Real.exp (logits s a) / ∑ b, Real.exp (logits s b)) q) {draw : List (Fin n) → Option (Fin n)} (hd : Draws draw) {tau : ℝ} (htau : 0 < tau) (s : σ) :
    e.Worth gamma 0 (calls draw tau logits) s (∑ a, Real.exp (logits s a) / (∑ b, Real.exp (logits s b)) * q s a) := by
  obtain ⟨v, hv, hb⟩ := hq
  have hback : ∀ s, e.back gamma v s = q s := fun s => funext fun a => (hb s a).symm
  rw [← show v s = _ from hv s, calls_eq hd htau]
  refine worth_eq he h0 h1 (by rw [← calls_eq hd htau]; exact calls_proper hd hn htau _) (fun h s => ?_) s
  rw [softValue_zero, hback]
  exact hv s

theorem epsilon_best {ε : ℝ} (h0 : 0 ≤ ε) (h1 : ε ≤ 1) (hn : 0 < n) (q : Fin n → ℝ) {p : Fin n → ℝ} (hp : ∑ a, p a = 1) (hf : ∀ a, (ε * (1 / n) + 1e-15) / (1 + n * 1e-15) ≤ p a) :
    ∑ a, p a * q a ≤ ∑ a, meanRow (epsilonGreedyLogits ε q) a * q a := by
  obtain ⟨b, hb⟩ : ∃ b, ∀ a, q a ≤ q b := by
    have : Nonempty (Fin n) := ⟨⟨0, hn⟩⟩
    exact Finite.exists_max q
  set f : ℝ := (ε * (1 / n) + 1e-15) / (1 + n * 1e-15) with hfd
  have hsum : ∑ a, meanRow (epsilonGreedyLogits ε q) a = 1 := (C49_probabilities _).2 hn
  have hL : ∑ a, p a * q a ≤ ∑ a, f * q a + ∑ a, (p a - f) * q b := by
    rw [← Finset.sum_add_distrib]
    refine Finset.sum_le_sum fun a _ => ?_
    nlinarith [mul_le_mul_of_nonneg_left (hb a) (sub_nonneg.2 (hf a))]
  have hR : ∑ a, meanRow (epsilonGreedyLogits ε q) a * q a = ∑ a, f * q a + ∑ a, (meanRow (epsilonGreedyLogits ε q) a - f) * q b := by
    rw [← Finset.sum_add_distrib]
    refine Finset.sum_congr rfl fun a _ => ?_
    by_cases hg : a ∈ greedy q
    · have : q a = q b := le_antisymm (hb a) ((by simpa [Core.greedy] using hg : ∀ j, q j ≤ q a) b)
      rw [this]; ring
    · have : meanRow (epsilonGreedyLogits ε q) a = f := by
        rw [C52_probabilities h0 h1, hfd]
        unfold epsilonGreedy
        rw [if_neg hg]; ring
      rw [this]; ring
  rw [hR]
  refine hL.trans (le_of_eq ?_)
  rw [← Finset.sum_mul, ← Finset.sum_mul, Finset.sum_sub_distrib, Finset.sum_sub_distrib, hp, hsum]

/-- **C121**, improvement by `EpsilonGreedy`: take the values of any policy whose probabilities are at least those with which `EpsilonGreedy` explores (for example of `EpsilonGreedy` itself with the same or a larger epsilon).
The epsilon-greedy policy with these values has at least the return of that policy in every state.  If it has nowhere more, then no policy that explores as much has more. -/
theorem C121_epsilon_improvement [Finite σ] {e : Mdp σ n m} (he : e.Proper) (hn : 0 < n) {gamma : ℝ} (h0 : 0 ≤ gamma) (h1 : gamma < 1) {ε : ℝ} (hε0 : 0 ≤ ε) (hε1 : ε ≤ 1) {p : σ → Fin n → ℝ} (hp : ∀ s, ∑ a, p s a = 1)
    (hf : ∀ s a, (ε * (1 / n) + 1e-15) / (1 + n * 1e-15) ≤ p s a) {q : σ → Fin n → ℝ} (hq : e.Solves gamma (Mean p) q) {draw : List (Fin n) → Option (Fin n)} (hd : Draws draw) {tau : ℝ} (htau : 0 < tau) :
    ∃ old new : σ → ℝ, (∀ s, e.Worth gamma 0 (stationary p) s (old s)) ∧ (∀ s, e.Worth gamma 0 (calls draw tau fun s => epsilonGreedyLogits ε (q s)) s (new s)) ∧ (∀ s, old s ≤ new s) ∧
      ((∀ s, new s = old s) → ∀ (pi : Policy σ n m) s x, pi.Proper → (∀ h s a, (ε * (1 / n) + 1e-15) / (1 + n * 1e-15) ≤ pi h s a) → e.Worth gamma 0 pi s x → x ≤ old s) := by
  obtain ⟨v, hv, hb⟩ := hq
  have hback : ∀ s, e.back gamma v s = q s := fun s => funext fun a => (hb s a).symm
  have hpp : (stationary (m := m) p).Proper := fun _ s => ⟨fun a => le_trans (by positivity) (hf s a), hp s⟩
  have hc := calls_proper (m := m) hd hn htau fun s => epsilonGreedyLogits ε (q s)
  choose new hnew using fun s => C121_value he h0 h1 0 hc s
  have hbest : ∀ s, v s ≤ ∑ a, meanRow (epsilonGreedyLogits ε (q s)) a * q s a := fun s => by
    rw [show v s = _ from hv s]
    exact epsilon_best hε0 hε1 hn (q s) (hp s) (hf s)
  refine ⟨v, new, fun s => worth_eq he h0 h1 hpp (fun h s => by rw [softValue_zero, hback]; exact hv s) s, hnew, fun s => ?_, fun heq pi s x hpi hpf hx => ?_⟩
  · have := worth_ge (δ := 0) he h0 h1 le_rfl hc (v := v) (fun h s => by
      rw [softValue_zero, hback, add_zero, calls_eq hd htau]
      exact hbest s) (hnew s)
    simpa using this
  · have hmax : ∀ s, v s = ∑ a, meanRow (epsilonGreedyLogits ε (q s)) a * q s a := by
      intro s
      refine le_antisymm (hbest s) ?_
      have h2 : ∀ k h s, e.ret gamma 0 (calls draw tau fun s => epsilonGreedyLogits ε (q s)) k h s = e.ret gamma 0 (calls draw tau fun s => epsilonGreedyLogits ε (q s)) k [] s := by
        intro k
        induction k with
        | zero => intro h s; rfl
        | succ k ih =>
          intro h s
          rw [mret_succ, mret_succ]
          have : e.look gamma 0 (calls draw tau fun s => epsilonGreedyLogits ε (q s)) k h s = e.look gamma 0 (calls draw tau fun s => epsilonGreedyLogits ε (q s)) k [] s := by
            funext a
            unfold Mdp.look
            refine Finset.sum_congr rfl fun j _ => ?_
            rw [ih, ih ([] ++ _)]
          rw [this]; rfl
      have t1 : Tendsto (fun k => e.ret gamma 0 (calls draw tau fun s => epsilonGreedyLogits ε (q s)) (k + 1) [] s) atTop (𝓝 (v s)) := by
        rw [← heq s]; exact (tendsto_add_atTop_iff_nat 1).2 (hnew s)
      have t2 : Tendsto (fun k => e.ret gamma 0 (calls draw tau fun s => epsilonGreedyLogits ε (q s)) (k + 1) [] s) atTop (𝓝 (∑ a, meanRow (epsilonGreedyLogits ε (q s)) a * q s a)) := by
        have hq' : ∀ a, Tendsto (fun k => e.look gamma 0 (calls draw tau fun s => epsilonGreedyLogits ε (q s)) k [] s a) atTop (𝓝 (q s a)) := by
          intro a
          rw [← hback]
          unfold Mdp.look Mdp.back
          refine tendsto_finsetSum _ fun j _ => Tendsto.const_mul _ (Tendsto.const_add _ ?_)
          split
          · exact tendsto_const_nhds
          · refine Tendsto.const_mul _ ?_
            rw [← heq]
            refine (hnew (e.next s a j)).congr fun k => (h2 k _ _).symm
        have : ∀ k, e.ret gamma 0 (calls draw tau fun s => epsilonGreedyLogits ε (q s)) (k + 1) [] s =
            ∑ a, meanRow (epsilonGreedyLogits ε (q s)) a * e.look gamma 0 (calls draw tau fun s => epsilonGreedyLogits ε (q s)) k [] s a := by
          intro k
          rw [mret_succ, softValue_zero, calls_eq hd htau]; rfl
        simp only [this]
        exact tendsto_finsetSum _ fun a _ => (hq' a).const_mul _
      exact (tendsto_nhds_unique t2 t1).le
    have := worth_le (δ := 0) he h0 h1 le_rfl hpi (v := v) (fun h s => by
      rw [softValue_zero, hback, add_zero, hmax s]
      exact epsilon_best hε0 hε1 hn (q s) (hpi h s).2 (hpf h s)) hx
    simpa using this

/-- **C121**, improvement by `BoltzmannPolicy`: take the soft values of any policy (return plus entropies).  The Boltzmann policy with these values and the same temperature has at least the sum of return and entropies of that policy in every state. -/
theorem C121_soft_improvement [Finite σ] {e : Mdp σ n m} (he : e.Proper) (hn : 0 < n) {gamma : ℝ} (h0 : 0 ≤ gamma) (h1 : gamma < 1) {temp : ℝ} (ht : 0 < temp) {p : σ → Fin n → ℝ} (hp : ∀ s, IsPolicy (p s))
    {q : σ → Fin n → ℝ} (hq : e.Solves gamma (fun s row x => x = softValue temp row (p s)) q) {draw : List (Fin n) → Option (Fin n)} (hd : Draws draw) {tau : ℝ} (htau : 0 < tau) (s : σ) :
    ∃ old new, e.Worth gamma temp (stationary p) s old ∧ e.Worth gamma temp (calls draw tau fun s => boltzmannLogits temp (q s)) s new ∧ old ≤ new := by
  obtain ⟨v, hv, hb⟩ := hq
  have hback : ∀ s, e.back gamma v s = q s := fun s => funext fun a => (hb s a).symm
  have hpp : (stationary (m := m) p).Proper := fun _ s => ⟨(hp s).nonneg, (hp s).total⟩
  have hc := calls_proper (m := m) hd hn htau fun s => boltzmannLogits temp (q s)
  obtain ⟨new, hnew⟩ := C121_value he h0 h1 temp hc s
  refine ⟨v s, new, worth_eq he h0 h1 hpp (fun h s => by rw [hback]; exact hv s) s, hnew, ?_⟩
  have := worth_ge (δ := 0) he h0 h1 le_rfl hc (v := v) (fun h s => by
    rw [hback, add_zero, calls_eq hd htau, show v s = _ from hv s]
    show _ ≤ softValue temp (q s) (meanRow (boltzmannLogits temp (q s)))
    rw [(softValue_max hn ht (q s)).1]
    exact ((softValue_max hn ht (q s)).2 (p s) (hp s)).1) hnew
  simpa using this

/-! ### Learned values -/

/-- **C121**, what errors and exploration cost: if the values of `EpsilonGreedy` differ by at most `δ` from those of the optimal Bellman equation, and these differ by at most `w` from each other, then the return of calls of the policy is at most
`(2 δ + (epsilon + n 1e-15) w) / (1 - gamma)` below that of any policy. -/
theorem C121_epsilon_loss [Finite σ] {e : Mdp σ n m} (he : e.Proper) (hn : 0 < n) {gamma : ℝ} (h0 : 0 ≤ gamma) (h1 : gamma < 1) {q : σ → Fin n → ℝ} (hq : e.Solves gamma Greedy q) {ε δ w : ℝ} (hε0 : 0 ≤ ε) (hε1 : ε ≤ 1)
    {θ : σ → Fin n → ℝ} (hδ : ∀ s a, |θ s a - q s a| ≤ δ) (hw : ∀ s a b, q s a - q s b ≤ w) {draw : List (Fin n) → Option (Fin n)} (hd : Draws draw) {tau : ℝ} (htau : 0 < tau) (s : σ) :
    ∃ x, e.Worth gamma 0 (calls draw tau fun s => epsilonGreedyLogits ε (θ s)) s x ∧
      ∀ (pi : Policy σ n m) y, pi.Proper → e.Worth gamma 0 pi s y → y ≤ x + (2 * δ + (ε + n * 1e-15) * w) / (1 - gamma) := by
  have hc := calls_proper (m := m) hd hn htau fun s => epsilonGreedyLogits ε (θ s)
  obtain ⟨x, hx⟩ := C121_value he h0 h1 0 hc s
  obtain ⟨v, hv, hu, -⟩ := C121_optimal he h0 h1 hq
  obtain ⟨v', hv', hb⟩ := hq
  obtain rfl : v' = v := funext fun s => (hv' s).unique (hv s)
  have hback : ∀ s, e.back gamma v' s = q s := fun s => funext fun a => (hb s a).symm
  have hδ0 : 0 ≤ δ := (abs_nonneg _).trans (hδ s ⟨0, hn⟩)
  have hw0 : 0 ≤ w := by have := hw s ⟨0, hn⟩ ⟨0, hn⟩; linarith
  have hn1 : (0 : ℝ) < n := by exact_mod_cast hn
  refine ⟨x, hx, fun pi y hpi hy => (hu pi s y hpi hy).trans ?_⟩
  refine worth_ge he h0 h1 (by positivity) hc (v := v') (fun h s => ?_) hx
  rw [softValue_zero, hback, calls_eq hd htau]
  show v' s ≤ ∑ a, meanRow (epsilonGreedyLogits ε (θ s)) a * q s a + _
  obtain ⟨b, hb'⟩ := (hv s).1
  set p := meanRow (epsilonGreedyLogits ε (θ s)) with hpd
  have hsum : ∑ a, p a = 1 := (C49_probabilities _).2 hn
  have hpos : ∀ a, 0 ≤ p a := fun a => ((C49_probabilities _).1 a).le
  have hne : ∀ a, a ∉ greedy (θ s) → p a ≤ ε * (1 / n) + 1e-15 := by
    intro a ha
    rw [hpd, C52_probabilities hε0 hε1]
    unfold epsilonGreedy
    rw [if_neg ha, mul_zero, add_zero]
    exact div_le_self (by positivity) (by have : (0 : ℝ) ≤ n * 1e-15 := by positivity
                                          linarith)
  have hterm : ∀ a, p a * v' s ≤ p a * q s a + p a * (2 * δ) + (ε * (1 / n) + 1e-15) * w := by
    intro a
    by_cases ha : a ∈ greedy (θ s)
    · have h1 : θ s b ≤ θ s a := (by simpa [Core.greedy] using ha : ∀ j, θ s j ≤ θ s a) b
      have h2 := (abs_le.1 (hδ s a)).2
      have h3 := (abs_le.1 (hδ s b)).1
      have h4 : v' s ≤ q s a + 2 * δ := by rw [← hb']; linarith
      have h5 := mul_le_mul_of_nonneg_left h4 (hpos a)
      have h6 : 0 ≤ (ε * (1 / n) + 1e-15) * w := by positivity
      linarith
    · have h1 : v' s ≤ q s a + w := by rw [← hb']; linarith [hw s b a]
      have h2 := mul_le_mul_of_nonneg_left h1 (hpos a)
      have h3 := mul_le_mul_of_nonneg_right (hne a ha) hw0
      have h4 : 0 ≤ p a * (2 * δ) := mul_nonneg (hpos a) (by linarith)
      linarith
  have := Finset.sum_le_sum fun a (_ : a ∈ Finset.univ) => hterm a
  rw [Finset.sum_add_distrib, Finset.sum_add_distrib, ← Finset.sum_mul, ← Finset.sum_mul, hsum, Finset.sum_const, Finset.card_univ, Fintype.card_fin, nsmul_eq_mul] at this
  have e1 : (n : ℝ) * ((ε * (1 / n) + 1e-15) * w) = (ε + n * 1e-15) * w := by field_simp
  rw [e1] at this
  linarith

/-- **C121**, learning to act optimally: train a table with `QLearning` from transitions of a stochastic environment as in C119.  Almost surely there is an update after which the `mode` of `EpsilonGreedy` (and of `BoltzmannPolicy`) with the
learned table is an optimal policy, for good. -/
theorem C121_learned [Fintype σ] [DecidableEq σ] {e : Mdp σ n m} (he : e.Proper) (hn : 0 < n) {gamma : ℝ} (h0 : 0 ≤ gamma) (h1 : gamma < 1) {Ω : Type} {m0 : MeasurableSpace Ω} {μ : Measure Ω} [IsProbabilityMeasure μ]
    {ℱ : Filtration ℕ m0} {lr sync : ℕ → ℝ} {rows : ℕ → Ω → Out σ (Fin n) ℝ} {out : ℕ → Ω → Fin m} (hs : Samples e gamma μ ℱ rows out) (hl : Rates μ rows lr sync) (type1 : Bool) (θ0 θT0 : σ → Fin n → ℝ)
    {draw : List (Fin n) → Option (Fin n)} (hd : Draws draw) {tau ε τ : ℝ} (htau : 0 < tau) (hε0 : 0 ≤ ε) (hε1 : ε < 1) (hτ : 0 < τ) :
    ∀ᵐ ω ∂μ, ∃ K, ∀ k, K ≤ k → ∃ θ θT, learnS lr mse1 (qLearning n) type1 0 (θ0, θT0) ((List.range k).map fun t => ([rows t ω], sync t)) = .ok (θ, θT) ∧
      ∀ s, ∃ x, e.Worth gamma 0 (always fun s => policyMode draw tau (epsilonGreedyLogits ε (θ s))) s x ∧ e.Worth gamma 0 (always fun s => policyMode draw tau (boltzmannLogits τ (θ s))) s x ∧
        ∀ (pi : Policy σ n m) y, pi.Proper → e.Worth gamma 0 pi s y → y ≤ x := by
  obtain ⟨best, hbest, -, hlearn⟩ := C119_q_learning (σ := σ) hn he h0 h1
  obtain ⟨θ, θT, hrun, hconv⟩ := hlearn hs hl type1 θ0 θT0
  obtain ⟨v, hv, hu, ho⟩ := C121_optimal he h0 h1 hbest
  filter_upwards [hconv] with ω hω
  obtain ⟨K, hK⟩ := C104_greedy_policy fun s a => (hω s a).1
  refine ⟨K, fun k hk => ⟨θ k ω, θT k ω, hrun k ω, fun s => ?_⟩⟩
  have key : ∀ f : σ → Option (Fin n), (∀ s, ∃ a, f s = some a ∧ ∀ j, θ k ω s j ≤ θ k ω s a) → e.Worth gamma 0 (always f) s (v s) := by
    intro f hf
    refine ho _ (always_proper fun s => (hf s).imp fun a h => h.1) (fun h s a ha => ?_) s
    obtain ⟨b, hb, hmax⟩ := hf s
    have : f s = some a := by
      by_contra hne
      simp [always, hne] at ha
    rw [hb] at this
    cases this
    exact hK k hk s _ hmax
  exact ⟨v s, key _ fun s => C52_mode hd hn htau hε0 hε1 _, key _ fun s => C53_mode hd hn htau hτ _, fun pi y hpi hy => hu pi s y hpi hy⟩

/-- **C121** for the online loop with exploration (`doc/examples/stubs/qlearning.py:45-61`): almost surely there is a step after which the `mode` of the learned policies is optimal, for good. -/
theorem C121_learned_online [Fintype σ] [DecidableEq σ] {e : Mdp σ n m} (he : e.Proper) (hn : 0 < n) {gamma : ℝ} (h0 : 0 ≤ gamma) (h1 : gamma < 1) {Ω : Type} {m0 : MeasurableSpace Ω} {μ : Measure Ω} [IsProbabilityMeasure μ]
    {ℋ : Filtration ℕ m0} {lr : ℕ → ℝ} {xs : ℕ → Ω → Step σ (Fin n) ℝ} {out : ℕ → Ω → Fin m} (hx : Explorer e μ ℋ xs out lr) (type1 : Bool) (θ0 : σ → Fin n → ℝ)
    {draw : List (Fin n) → Option (Fin n)} (hd : Draws draw) {tau ε τ : ℝ} (htau : 0 < tau) (hε0 : 0 ≤ ε) (hε1 : ε < 1) (hτ : 0 < τ) :
    ∀ᵐ ω ∂μ, ∃ K, ∀ k, K ≤ k → ∃ t θ c,
      onlineS lr mse1 (qLearning n) type1 (NStep.init 1 gamma false, θ0, 0) ((List.range k).map fun t => (xs t ω, e.ends (xs t ω).s (xs t ω).a (out t ω))) = .ok (t, θ, c) ∧
      ∀ s, ∃ x, e.Worth gamma 0 (always fun s => policyMode draw tau (epsilonGreedyLogits ε (θ s))) s x ∧ e.Worth gamma 0 (always fun s => policyMode draw tau (boltzmannLogits τ (θ s))) s x ∧
        ∀ (pi : Policy σ n m) y, pi.Proper → e.Worth gamma 0 pi s y → y ≤ x := by
  obtain ⟨best, hbest, -, -⟩ := C119_q_learning (σ := σ) hn he h0 h1
  obtain ⟨θ, hrun, hconv⟩ := C119_online_q_learning hn he h0 h1 hx hbest type1 θ0
  obtain ⟨v, hv, hu, ho⟩ := C121_optimal he h0 h1 hbest
  filter_upwards [hconv] with ω hω
  obtain ⟨K, hK⟩ := C104_greedy_policy fun s a => hω s a
  refine ⟨K, fun k hk => ?_⟩
  obtain ⟨t, c, hr⟩ := hrun k ω
  refine ⟨t, θ k ω, c, hr, fun s => ?_⟩
  have key : ∀ f : σ → Option (Fin n), (∀ s, ∃ a, f s = some a ∧ ∀ j, θ k ω s j ≤ θ k ω s a) → e.Worth gamma 0 (always f) s (v s) := by
    intro f hf
    refine ho _ (always_proper fun s => (hf s).imp fun a h => h.1) (fun h s a ha => ?_) s
    obtain ⟨b, hb, hmax⟩ := hf s
    have : f s = some a := by
      by_contra hne
      simp [always, hne] at ha
    rw [hb] at this
    cases this
    exact hK k hk s _ hmax
  exact ⟨v s, key _ fun s => C52_mode hd hn htau hε0 hε1 _, key _ fun s => C53_mode hd hn htau hτ _, fun pi y hpi hy => hu pi s y hpi hy⟩

/-! ### A case -/

/-- One state.  The first action ends the episode with reward 1 or goes on without reward, with equal probabilities; the second action goes on with reward 1/4. -/
noncomputable def gamble : Mdp Unit 2 2 where
  prob := fun _ _ _ => 1 / 2
  reward := fun _ a j => if a = 0 then (if j = 0 then 1 else 0) else 1 / 4
  next := fun _ _ _ => ()
  ends := fun _ a j => a == 0 && j == 0

theorem gamble_proper : gamble.Proper := ⟨fun _ _ _ => by norm_num [gamble], fun _ _ => by norm_num [gamble]⟩

theorem gamble_solves : gamble.Solves (1 / 2) Greedy fun _ a => if a = 0 then 2 / 3 else 7 / 12 := by
  refine ⟨fun _ => 2 / 3, fun _ => ⟨⟨0, by simp⟩, ?_⟩, fun _ a => ?_⟩
  · rintro _ ⟨a, rfl⟩
    dsimp only
    split <;> norm_num
  · fin_cases a <;> norm_num [gamble, Fin.sum_univ_two]

theorem gamble_uniform : gamble.Solves (1 / 2) (Mean fun _ _ => 1 / 2) fun _ a => if a = 0 then 13 / 20 else 11 / 20 := by
  refine ⟨fun _ => 3 / 5, fun _ => ?_, fun _ a => ?_⟩
  · norm_num [Mean, Fin.sum_univ_two]
  · fin_cases a <;> norm_num [gamble, Fin.sum_univ_two]

/-- Nobody gets more than 2/3, and a policy that always takes the first action gets it. -/
example : gamble.Worth (1 / 2) 0 (always fun _ => some 0) () (2 / 3) ∧ ∀ pi x, Policy.Proper pi → gamble.Worth (1 / 2) 0 pi () x → x ≤ 2 / 3 := by
  obtain ⟨v, hv, hu, ho⟩ := C121_optimal gamble_proper (by norm_num) (by norm_num) gamble_solves
  have e : v () = 2 / 3 := (hv ()).unique ⟨⟨0, by simp⟩, by rintro _ ⟨a, rfl⟩; dsimp only; split <;> norm_num⟩
  rw [← e]
  refine ⟨ho _ (always_proper fun _ => ⟨0, rfl⟩) (fun h s a ha b => ?_) (), fun pi x hpi hx => hu pi () x hpi hx⟩
  have : a = 0 := by
    by_contra hne
    simp [always, Ne.symm hne] at ha
  subst this
  simp only [if_true]
  split <;> norm_num

/-- `EpsilonGreedy` improves the uniform policy, whose return is 3/5. -/
example {ε : ℝ} (h0 : 0 ≤ ε) (h1 : ε ≤ 1) : ∃ x, 3 / 5 ≤ x ∧ gamble.Worth (1 / 2) 0 (calls List.head? 1 fun _ => epsilonGreedyLogits ε fun a => if a = 0 then 13 / 20 else 11 / 20) () x := by
  have hd : Draws (n := 2) List.head? := by
    intro l hl
    cases l with
    | nil => exact absurd rfl hl
    | cons a l => exact ⟨a, by simp, rfl⟩
  obtain ⟨old, new, ho, hn, hle, -⟩ := C121_epsilon_improvement gamble_proper (by norm_num) (by norm_num) (by norm_num) h0 h1 (fun _ => by norm_num) (fun _ _ => by
    rw [div_le_div_iff₀ (by norm_num) (by norm_num)]; norm_num; linarith) gamble_uniform hd one_pos
  have e : old () = 3 / 5 := by
    refine tendsto_nhds_unique (ho ()) (worth_eq (v := fun _ => 3 / 5) gamble_proper (by norm_num) (by norm_num) (fun _ _ => ⟨fun _ => by norm_num [stationary], by norm_num [stationary]⟩) (fun _ _ => ?_) ())
    norm_num [softValue, Mdp.back, stationary, gamble, Fin.sum_univ_two]
  exact ⟨new (), e ▸ hle (), hn ()⟩

end Coax.Loop
