import Verif.Loop.ChainLemmas
import Verif.Loop.TabularVProps
import Verif.RewardTracing.NStepLemmas

/-! Learning with the transitions of several steps that an `NStep` tracer makes. -/

namespace Coax.Loop

open Coax.RewardTracing Coax.TD Coax.Core Coax.Values Coax.Pol Filter Topology MeasureTheory

variable {σ J Ω : Type _} {n m : Nat} {m0 : MeasurableSpace Ω}

/-- The discounted rewards of at most `N` steps from time `t` on, up to the end of the episode. -/
noncomputable def returnN (gamma : ℝ) (xs : ℕ → Step σ (Fin n) ℝ) (dn : ℕ → Bool) : ℕ → ℕ → ℝ
  | 0, _ => 0
  | N + 1, t => (xs t).r + if dn t then 0 else gamma * returnN gamma xs dn N (t + 1)

/-- Whether the episode ends within `N` steps. -/
def endsN (dn : ℕ → Bool) : ℕ → ℕ → Bool
  | 0, _ => false
  | N + 1, t => dn t || endsN dn N (t + 1)

/-- The transition of `N` steps from time `t` on. -/
noncomputable def rowN (gamma : ℝ) (N : ℕ) (xs : ℕ → Step σ (Fin n) ℝ) (dn : ℕ → Bool) (t : ℕ) : Out σ (Fin n) ℝ :=
  { S := (xs t).s, A := (xs t).a, logP := (xs t).logp, Rn := returnN gamma xs dn N t, In := gamma ^ N * (1 - if endsN dn N t then 1 else 0), S_next := some (if endsN dn N t then (xs t).s else (xs (t + N)).s),
    A_next := some (if endsN dn N t then (xs t).a else (xs (t + N)).a), logP_next := some (if endsN dn N t then (xs t).logp else (xs (t + N)).logp), W := (xs t).w, idx := 0, extraInfo := none }

/-- The target with the transition of `N` steps is the return along the path. -/
theorem pathRet_rowN {X : Type _} {rew : X → J → ℝ} {stop : X → J → Bool} {gamma : ℝ} {z : ℕ → X} {x : ℕ → J} {xs : ℕ → Step σ (Fin n) ℝ} {dn : ℕ → Bool} (hr : ∀ t, (xs t).r = rew (z t) (x t)) (hd : ∀ t, dn t = stop (z t) (x t)) (v : X → ℝ) (N t : ℕ) :
    pathRet rew stop gamma z x v N t = returnN gamma xs dn N t + gamma ^ N * (1 - if endsN dn N t then 1 else 0) * v (z (t + N)) := by
  induction N generalizing t with
  | zero => simp [pathRet, returnN, endsN]
  | succ N ih =>
    rw [pathRet, returnN, endsN, ← hr, ← hd, ih (t + 1), show t + 1 + N = t + (N + 1) by omega]
    cases dn t with
    | true => simp
    | false => simp only [Bool.false_or, Bool.false_eq_true, if_false]; ring

/-! ### The tracer -/

/-- The tracer with the given steps in it. -/
noncomputable def tracerN (gamma : ℝ) (N : ℕ) (l : List (Step σ (Fin n) ℝ)) (done : Bool) : NStep σ (Fin n) ℝ :=
  { n := N, gamma := gamma, recordExtraInfo := false, dequeS := l.map fun x => (x.s, x.a, x.logp, x.w), dequeR := l.map (·.r), done := done, gammas := (List.range N).map fun k => gamma ^ k, gamman := gamma ^ N }

/-- The steps from time `p` on. -/
def stretch (xs : ℕ → Step σ (Fin n) ℝ) (p len : ℕ) : List (Step σ (Fin n) ℝ) := (List.range len).map fun i => xs (p + i)

theorem stretch_succ (xs : ℕ → Step σ (Fin n) ℝ) (p len : ℕ) : stretch xs p (len + 1) = xs p :: stretch xs (p + 1) len := by
  unfold stretch
  rw [List.range_succ_eq_map, List.map_cons, List.map_map, Nat.add_zero]
  congr 1
  refine List.map_congr_left fun i _ => ?_
  show xs (p + (i + 1)) = _
  congr 1
  omega

theorem stretch_snoc (xs : ℕ → Step σ (Fin n) ℝ) (p len : ℕ) : stretch xs p len ++ [xs (p + len)] = stretch xs p (len + 1) := by
  unfold stretch
  rw [List.range_succ, List.map_append, List.map_singleton]

theorem returnN_sum (gamma : ℝ) (xs : ℕ → Step σ (Fin n) ℝ) (dn : ℕ → Bool) {len : ℕ} (N t : ℕ) (hlen : 0 < len) (hgo : ∀ i, i + 1 < len → dn (t + i) = false) (hend : len < N → dn (t + len - 1) = true) :
    ∑ k ∈ Finset.range N, gamma ^ k * (((stretch xs t len).map (·.r))[k]?.getD 0) = returnN gamma xs dn N t := by
  induction N generalizing t len with
  | zero => rfl
  | succ N ih =>
    obtain ⟨len, rfl⟩ : ∃ l, len = l + 1 := ⟨len - 1, by omega⟩
    rw [Finset.sum_range_succ', stretch_succ, returnN]
    simp only [List.map_cons, List.getElem?_cons_succ, List.getElem?_cons_zero, Option.getD_some, pow_zero, one_mul, pow_succ]
    rw [add_comm]
    congr 1
    rcases Nat.eq_zero_or_pos len with rfl | hl
    · have : stretch xs (t + 1) 0 = [] := rfl
      rw [this]
      simp only [List.map_nil, List.getElem?_nil, Option.getD_none, mul_zero, Finset.sum_const_zero]
      rcases Nat.eq_zero_or_pos N with rfl | hN
      · simp [returnN]
      · have := hend (by omega)
        rw [show t + (0 + 1) - 1 = t by omega] at this
        rw [this]
        rfl
    · have h2 := hgo 0 (by omega)
      rw [Nat.add_zero] at h2
      rw [h2, if_neg (by simp), ← ih (len := len) (t + 1) hl (fun i hi => by rw [show t + 1 + i = t + (i + 1) by omega]; exact hgo _ (by omega))
        (fun hi => by rw [show t + 1 + len - 1 = t + (len + 1) - 1 by omega]; exact hend (by omega)), Finset.mul_sum]
      exact Finset.sum_congr rfl fun k _ => by ring

theorem endsN_iff (dn : ℕ → Bool) (N t : ℕ) : endsN dn N t = true ↔ ∃ i < N, dn (t + i) = true := by
  induction N generalizing t with
  | zero => simp [endsN]
  | succ N ih =>
    rw [endsN, Bool.or_eq_true, ih]
    constructor
    · rintro (h | ⟨i, hi, h⟩)
      · exact ⟨0, by omega, h⟩
      · exact ⟨i + 1, by omega, by rw [← h]; congr 1; omega⟩
    · rintro ⟨i, hi, h⟩
      cases i with
      | zero => exact Or.inl h
      | succ i => exact Or.inr ⟨i, by omega, by rw [← h]; congr 1; omega⟩

/-- What the tracer returns. -/
theorem tracerN_pop {gamma : ℝ} (h0 : 0 ≤ gamma) (h1 : gamma ≤ 1) {N : ℕ} (hN : 0 < N) {xs : ℕ → Step σ (Fin n) ℝ} {dn : ℕ → Bool} (hlogp : ∀ t, (xs t).logp ≤ 0) (hw : ∀ t, 0 < (xs t).w) {p len : ℕ} (hlen : 0 < len)
    (hgo : ∀ i, i + 1 < len → dn (p + i) = false) (hpop : N < len ∨ dn (p + len - 1) = true) :
    (tracerN gamma N (stretch xs p len) (dn (p + len - 1))).pop = (tracerN gamma N (stretch xs (p + 1) (len - 1)) (dn (p + len - 1)), .ok (rowN gamma N xs dn p)) := by
  obtain ⟨len, rfl⟩ : ∃ l, len = l + 1 := ⟨len - 1, by omega⟩
  have hl : ∀ q l, (stretch xs q l).length = l := fun q l => by simp [stretch]
  have hb : (tracerN gamma N (stretch xs p (len + 1)) (dn (p + (len + 1) - 1))).bool = true := by
    unfold NStep.bool NStep.len tracerN
    simp only [List.length_map, hl, Bool.and_eq_true, Bool.or_eq_true, decide_eq_true_eq]
    exact ⟨by omega, hpop.symm⟩
  have hsum := returnN_sum gamma xs dn N p (Nat.succ_pos len) hgo fun h => hpop.resolve_left (by omega)
  have hrn : ((((List.range N).map fun k => gamma ^ k).zip ((stretch xs p (len + 1)).map (·.r))).take N).map (fun p => p.1 * p.2) = (((List.range N).map fun k => gamma ^ k).zip ((stretch xs p (len + 1)).map (·.r))).map (fun p => p.1 * p.2) := by
    rw [List.take_of_length_le (by simp)]
  unfold NStep.pop
  rw [if_neg (by rw [hb]; simp)]
  have hS : (tracerN gamma N (stretch xs p (len + 1)) (dn (p + (len + 1) - 1))).dequeS = ((xs p).s, (xs p).a, (xs p).logp, (xs p).w) :: (stretch xs (p + 1) len).map fun x => (x.s, x.a, x.logp, x.w) := by
    rw [stretch_succ]; rfl
  have hR : (tracerN gamma N (stretch xs p (len + 1)) (dn (p + (len + 1) - 1))).dequeR = (xs p).r :: (stretch xs (p + 1) len).map (·.r) := by
    rw [stretch_succ]; rfl
  rw [hS, hR]
  simp only
  rw [← hR]
  have hrow : ((((tracerN gamma N (stretch xs p (len + 1)) (dn (p + (len + 1) - 1))).gammas.zip (tracerN gamma N (stretch xs p (len + 1)) (dn (p + (len + 1) - 1))).dequeR).take (tracerN gamma N (stretch xs p (len + 1)) (dn (p + (len + 1) - 1))).n).map
      (fun p => p.1 * p.2)).sum = returnN gamma xs dn N p := by
    show ((((((List.range N).map fun k => gamma ^ k).zip ((stretch xs p (len + 1)).map (·.r))).take N).map (fun p => p.1 * p.2))).sum = _
    rw [hrn, zip_sum, hsum]
  rw [hrow]
  simp only [NStep.len, tracerN, List.length_map, hl, ge_iff_le, Bool.false_eq_true, if_false]
  by_cases hc : N ≤ len
  · have he : endsN dn N p = false := by
      rw [← Bool.not_eq_true, endsN_iff]
      rintro ⟨i, hi, h⟩
      rw [hgo i (by omega)] at h
      cases h
    have hget : ((stretch xs (p + 1) len).map fun x => (x.s, x.a, x.logp, x.w))[N - 1]? = some ((xs (p + N)).s, (xs (p + N)).a, (xs (p + N)).logp, (xs (p + N)).w) := by
      rw [List.getElem?_map, stretch, List.getElem?_map, List.getElem?_range (by omega)]
      simp only [Option.map_some]
      rw [show p + 1 + (N - 1) = p + N by omega]
    rw [if_pos hc]
    simp only [hN.ne', if_false, hget]
    rw [fromSingle_ok (hlogp p) ⟨pow_nonneg h0 _, pow_le_one₀ h0 h1⟩ (hlogp _) (hw p)]
    simp [rowN, he]
  · have hd : dn (p + (len + 1) - 1) = true := hpop.resolve_left (by omega)
    have he : endsN dn N p = true := by
      rw [endsN_iff]
      exact ⟨len, by omega, by rw [← hd]; congr 1⟩
    rw [if_neg hc]
    simp only
    rw [fromSingle_ok (hlogp p) ⟨pow_nonneg h0 _, pow_le_one₀ h0 h1⟩ (hlogp _) (hw p)]
    simp [rowN, he]

/-! ### The online loop -/

/-- How many transitions the tracer has returned after `k` steps. -/
def poppedN (dn : ℕ → Bool) (N : ℕ) : ℕ → ℕ
  | 0 => 0
  | k + 1 => if dn k then k + 1 else max (poppedN dn N k) (k + 1 - N)

theorem poppedN_bounds (dn : ℕ → Bool) {N : ℕ} (hN : 0 < N) (k : ℕ) : k - N ≤ poppedN dn N k ∧ poppedN dn N k ≤ k ∧ ∀ i, poppedN dn N k ≤ i → i < k → dn i = false := by
  induction k with
  | zero => exact ⟨by omega, le_rfl, fun i _ h => by omega⟩
  | succ k ih =>
    rw [poppedN]
    by_cases hd : dn k = true
    · rw [if_pos hd]
      exact ⟨by omega, le_rfl, fun i h2 h3 => by omega⟩
    · rw [if_neg hd]
      refine ⟨le_max_right _ _, by omega, fun i h2 h3 => ?_⟩
      by_cases hi : i = k
      · subst hi; simpa using hd
      · exact ih.2.2 i (by omega) (by omega)

section

variable {Θ : Type _} {update : ℕ → Θ → Out σ (Fin n) ℝ → Except Err Θ} {gamma : ℝ} {N : ℕ} {xs : ℕ → Step σ (Fin n) ℝ} {dn : ℕ → Bool} {θ : ℕ → Θ}

theorem learnPopsU_idle (fuel : ℕ) {l : List (Step σ (Fin n) ℝ)} {d : Bool} (h : l = [] ∨ d = false ∧ l.length ≤ N) (s : Θ × ℕ) : learnPopsU update (fuel + 1) (tracerN gamma N l d) s = .ok (tracerN gamma N l d, s) := by
  obtain ⟨θ', c⟩ := s
  rw [learnPopsU, if_pos]
  rcases h with rfl | ⟨rfl, h⟩
  · simp [tracerN, NStep.bool, NStep.len]
  · simp only [tracerN, NStep.bool, NStep.len, List.length_map, Bool.false_or, Bool.and_eq_false_iff, decide_eq_false_iff_not]
    exact Or.inr (by omega)

theorem learnPopsU_drain (h0 : 0 ≤ gamma) (h1 : gamma ≤ 1) (hN : 0 < N) (hlogp : ∀ t, (xs t).logp ≤ 0) (hw : ∀ t, 0 < (xs t).w) (hθ : ∀ j, update j (θ j) (rowN gamma N xs dn j) = .ok (θ (j + 1))) (len p : ℕ)
    (hgo : ∀ i, i + 1 < len → dn (p + i) = false) (hd : 0 < len → dn (p + len - 1) = true) :
    learnPopsU update (len + 1) (tracerN gamma N (stretch xs p len) true) (θ p, p) = .ok (tracerN gamma N [] true, θ (p + len), p + len) := by
  induction len generalizing p with
  | zero => exact learnPopsU_idle 0 (Or.inl rfl) _
  | succ len ih =>
    have hd' := hd (by omega)
    have hpop := tracerN_pop h0 h1 hN hlogp hw (p := p) (len := len + 1) (by omega) hgo (Or.inr hd')
    rw [hd'] at hpop
    rw [learnPopsU, if_neg, hpop]
    · simp only [hθ p]
      rw [show len + 1 - 1 = len by omega, ih (p + 1) (fun i hi => by rw [show p + 1 + i = p + (i + 1) by omega]; exact hgo _ (by omega)) (fun hl => by rw [← hd']; congr 1; omega)]
      rw [show p + 1 + len = p + (len + 1) by omega]
    · simp [tracerN, NStep.bool, NStep.len, stretch]

/-- The online loop with an `NStep` tracer makes one update for each step, with the transition of the `N` steps from there on; the last steps wait for their successors. -/
theorem onlineU_lookahead (h0 : 0 ≤ gamma) (h1 : gamma ≤ 1) (hN : 0 < N) (hlogp : ∀ t, (xs t).logp ≤ 0) (hw : ∀ t, 0 < (xs t).w) (hθ : ∀ j, update j (θ j) (rowN gamma N xs dn j) = .ok (θ (j + 1))) (k : ℕ) :
    ∃ d, (k - poppedN dn N k ≠ 0 → d = false) ∧ onlineU update (NStep.init N gamma false, θ 0, 0) ((List.range k).map fun t => (xs t, dn t)) =
      .ok (tracerN gamma N (stretch xs (poppedN dn N k) (k - poppedN dn N k)) d, θ (poppedN dn N k), poppedN dn N k) := by
  induction k with
  | zero => exact ⟨false, fun _ => rfl, rfl⟩
  | succ k ih =>
    obtain ⟨d, hd, ih⟩ := ih
    obtain ⟨b1, b2, b3⟩ := poppedN_bounds dn hN k
    rw [List.range_succ, List.map_append, onlineU_append ih, List.map_singleton, onlineU]
    generalize hp : poppedN dn N k = p at *
    have hadd : (tracerN gamma N (stretch xs p (k - p)) d).add (xs k) (dn k) = (tracerN gamma N (stretch xs p (k + 1 - p)) (dn k), none) := by
      unfold NStep.add
      rw [if_neg]
      · have : stretch xs p (k + 1 - p) = stretch xs p (k - p) ++ [xs k] := by
          have := stretch_snoc xs p (k - p)
          rw [show p + (k - p) = k by omega, show k - p + 1 = k + 1 - p by omega] at this
          exact this.symm
        rw [this]
        simp [tracerN]
      · simp only [Bool.and_eq_true, decide_eq_true_eq, not_and, not_not]
        intro h2
        by_contra h3
        have h4 : k - p ≠ 0 := by simpa [tracerN, NStep.len, stretch] using h3
        rw [show d = true from h2] at hd
        cases hd h4
    rw [hadd]
    simp only
    have hlen : NStep.len (tracerN gamma N (stretch xs p (k + 1 - p)) (dn k)) = k + 1 - p := by simp [tracerN, NStep.len, stretch]
    rw [hlen]
    have hgo : ∀ i, i + 1 < k + 1 - p → dn (p + i) = false := fun i hi => b3 _ (by omega) (by omega)
    have hlast : p + (k + 1 - p) - 1 = k := by omega
    cases hdk : dn k with
    | true =>
      have hpk : poppedN dn N (k + 1) = k + 1 := by rw [poppedN, if_pos hdk]
      rw [learnPopsU_drain h0 h1 hN hlogp hw hθ (k + 1 - p) p hgo (fun _ => by rw [hlast]; exact hdk), hpk, show p + (k + 1 - p) = k + 1 by omega]
      refine ⟨true, fun h => absurd (Nat.sub_self _) h, ?_⟩
      simp only [onlineU]
      rw [Nat.sub_self]
      rfl
    | false =>
      have hpk : poppedN dn N (k + 1) = max p (k + 1 - N) := by rw [poppedN, if_neg (by simp [hdk]), hp]
      refine ⟨false, fun _ => rfl, ?_⟩
      by_cases hc : N < k + 1 - p
      · have hpop := tracerN_pop h0 h1 hN hlogp hw (p := p) (len := k + 1 - p) (by omega) hgo (Or.inl hc)
        rw [hlast, hdk] at hpop
        rw [learnPopsU, if_neg, hpop]
        · simp only [hθ p]
          obtain ⟨f, hf⟩ : ∃ f, k + 1 - p = f + 1 := ⟨k - p, by omega⟩
          have hl : (stretch xs (p + 1) (k + 1 - p - 1)).length ≤ N := by simp [stretch]; omega
          have hidle := learnPopsU_idle (update := update) (gamma := gamma) f (l := stretch xs (p + 1) (k + 1 - p - 1)) (d := false) (Or.inr ⟨rfl, hl⟩) (θ (p + 1), p + 1)
          rw [← hf] at hidle
          rw [hidle, hpk, show max p (k + 1 - N) = p + 1 by omega, show k + 1 - (p + 1) = k + 1 - p - 1 by omega]
          rfl
        · simp only [tracerN, NStep.bool, NStep.len, stretch, List.length_map, List.length_range]
          simp
          omega
      · have hl : (stretch xs p (k + 1 - p)).length ≤ N := by simp [stretch]; omega
        rw [learnPopsU_idle _ (Or.inr ⟨rfl, hl⟩), hpk, show max p (k + 1 - N) = p by omega]
        rfl

theorem poppedN_tendsto (dn : ℕ → Bool) (hN : 0 < N) : Tendsto (poppedN dn N) atTop atTop :=
  tendsto_atTop_mono (fun k => (poppedN_bounds dn hN k).1) (tendsto_sub_atTop_nat N)

end

section

variable [DecidableEq σ]

/-- What is learned from the transitions of `N` steps one by one is learned online. -/
theorem onlineT_of_rowN {μ : Measure Ω} {lr : ℕ → ℝ} {tau gamma : ℝ} (h0 : 0 ≤ gamma) (h1 : gamma ≤ 1) {N : ℕ} (hN : 0 < N) {L : LossFn} {updateRule} {type1 : Bool} {xs : ℕ → Ω → Step σ (Fin n) ℝ} {dn : ℕ → Ω → Bool} (hlogp : ∀ t ω, (xs t ω).logp ≤ 0)
    (hw : ∀ t ω, 0 < (xs t ω).w) {θ0 θT0 : σ → Fin n → ℝ} {best : σ → Fin n → ℝ}
    (h : ∃ θ θT : ℕ → Ω → σ → Fin n → ℝ, (∀ k ω, learnS lr L updateRule type1 0 (θ0, θT0) ((List.range k).map fun t => ([rowN gamma N (fun t => xs t ω) (fun t => dn t ω) t], tau)) = .ok (θ k ω, θT k ω)) ∧
      ∀ᵐ ω ∂μ, ∀ s a, Tendsto (fun k => θ k ω s a) atTop (𝓝 (best s a)) ∧ Tendsto (fun k => θT k ω s a) atTop (𝓝 (best s a))) :
    ∃ θ θT : ℕ → Ω → σ → Fin n → ℝ,
      (∀ k ω, ∃ t c, onlineT lr tau L updateRule type1 (NStep.init N gamma false, (θ0, θT0), 0) ((List.range k).map fun t => (xs t ω, dn t ω)) = .ok (t, (θ k ω, θT k ω), c)) ∧
      ∀ᵐ ω ∂μ, ∀ s a, Tendsto (fun k => θ k ω s a) atTop (𝓝 (best s a)) ∧ Tendsto (fun k => θT k ω s a) atTop (𝓝 (best s a)) := by
  obtain ⟨θ, θT, h2, h3⟩ := h
  have start : ∀ ω, (θ 0 ω, θT 0 ω) = (θ0, θT0) := fun ω => (Except.ok.inj (h2 0 ω)).symm
  have step : ∀ ω j, updateT lr tau L updateRule type1 j (θ j ω, θT j ω) (rowN gamma N (fun t => xs t ω) (fun t => dn t ω) j) = .ok (θ (j + 1) ω, θT (j + 1) ω) := by
    intro ω j
    have h4 := h2 (j + 1) ω
    rw [List.range_succ, List.map_append, learnS_append (h2 j ω)] at h4
    simp only [List.map_cons, List.map_nil, List.length_map, List.length_range, Nat.zero_add] at h4
    rw [learnS] at h4
    split at h4
    · cases h4
    · rename_i θ' he
      rw [learnS] at h4
      rw [updateT, he]
      exact h4
  have main := fun ω => onlineU_lookahead (dn := fun t => dn t ω) (θ := fun t => (θ t ω, θT t ω)) h0 h1 hN (fun t => hlogp t ω) (fun t => hw t ω) (step ω)
  refine ⟨fun k ω => θ (poppedN (fun t => dn t ω) N k) ω, fun k ω => θT (poppedN (fun t => dn t ω) N k) ω, fun k ω => ?_, ?_⟩
  · obtain ⟨d, -, h4⟩ := main ω k
    rw [← start ω, onlineT]
    exact ⟨_, _, h4⟩
  · filter_upwards [h3] with ω h3 s a
    exact ⟨(h3 s a).1.comp (poppedN_tendsto _ hN), (h3 s a).2.comp (poppedN_tendsto _ hN)⟩

/-- The same for state values. -/
theorem learnV_append {lr : ℕ → ℝ} {L : LossFn} {s s' : (σ → ℝ) × (σ → ℝ)} {k : ℕ} {bs cs : List (List (Out σ (Fin n) ℝ) × ℝ)} (h : learnV lr L k s bs = .ok s') : learnV lr L k s (bs ++ cs) = learnV lr L (k + bs.length) s' cs := by
  induction bs generalizing k s with
  | nil => cases h; rfl
  | cons b bs ih =>
    obtain ⟨θ, θT⟩ := s
    obtain ⟨rows, tau⟩ := b
    rw [learnV] at h
    rw [List.cons_append, learnV]
    split at h
    · cases h
    · rw [ih h, List.length_cons, Nat.add_assoc, Nat.add_comm 1]

theorem onlineV_of_rowN {μ : Measure Ω} {lr : ℕ → ℝ} {tau gamma : ℝ} (h0 : 0 ≤ gamma) (h1 : gamma ≤ 1) {N : ℕ} (hN : 0 < N) {L : LossFn} {xs : ℕ → Ω → Step σ (Fin n) ℝ} {dn : ℕ → Ω → Bool} (hlogp : ∀ t ω, (xs t ω).logp ≤ 0)
    (hw : ∀ t ω, 0 < (xs t ω).w) {θ0 θT0 : σ → ℝ} {best : σ → ℝ}
    (h : ∃ θ θT : ℕ → Ω → σ → ℝ, (∀ k ω, learnV lr L 0 (θ0, θT0) ((List.range k).map fun t => ([rowN gamma N (fun t => xs t ω) (fun t => dn t ω) t], tau)) = .ok (θ k ω, θT k ω)) ∧
      ∀ᵐ ω ∂μ, ∀ s, Tendsto (fun k => θ k ω s) atTop (𝓝 (best s)) ∧ Tendsto (fun k => θT k ω s) atTop (𝓝 (best s))) :
    ∃ θ θT : ℕ → Ω → σ → ℝ,
      (∀ k ω, ∃ t c, onlineV lr tau L (NStep.init N gamma false, (θ0, θT0), 0) ((List.range k).map fun t => (xs t ω, dn t ω)) = .ok (t, (θ k ω, θT k ω), c)) ∧
      ∀ᵐ ω ∂μ, ∀ s, Tendsto (fun k => θ k ω s) atTop (𝓝 (best s)) ∧ Tendsto (fun k => θT k ω s) atTop (𝓝 (best s)) := by
  obtain ⟨θ, θT, h2, h3⟩ := h
  have start : ∀ ω, (θ 0 ω, θT 0 ω) = (θ0, θT0) := fun ω => (Except.ok.inj (h2 0 ω)).symm
  have step : ∀ ω j, updateV lr tau L j (θ j ω, θT j ω) (rowN gamma N (fun t => xs t ω) (fun t => dn t ω) j) = .ok (θ (j + 1) ω, θT (j + 1) ω) := by
    intro ω j
    have h4 := h2 (j + 1) ω
    rw [List.range_succ, List.map_append, learnV_append (h2 j ω)] at h4
    simp only [List.map_cons, List.map_nil, List.length_map, List.length_range, Nat.zero_add] at h4
    rw [learnV] at h4
    split at h4
    · cases h4
    · rename_i θ' he
      rw [learnV] at h4
      rw [updateV, he]
      exact h4
  have main := fun ω => onlineU_lookahead (dn := fun t => dn t ω) (θ := fun t => (θ t ω, θT t ω)) h0 h1 hN (fun t => hlogp t ω) (fun t => hw t ω) (step ω)
  refine ⟨fun k ω => θ (poppedN (fun t => dn t ω) N k) ω, fun k ω => θT (poppedN (fun t => dn t ω) N k) ω, fun k ω => ?_, ?_⟩
  · obtain ⟨d, -, h4⟩ := main ω k
    rw [← start ω, onlineV]
    exact ⟨_, _, h4⟩
  · filter_upwards [h3] with ω h3 s
    exact ⟨(h3 s).1.comp (poppedN_tendsto _ hN), (h3 s).2.comp (poppedN_tendsto _ hN)⟩

/-! ### Convergence -/

/-- Learning with targets that look `N` steps ahead along the path of the transitions. -/
theorem learnS_lookahead [Fintype σ] [Fintype J] {μ : Measure Ω} [IsProbabilityMeasure μ] {ℱ : Filtration ℕ m0} {updateRule} {type1 : Bool} (hn : 0 < n) {gamma : ℝ} (h0 : 0 ≤ gamma) (h1 : gamma < 1) {N : ℕ} (hN : 0 < N)
    {q rew : σ × Fin n → J → ℝ} {stop : σ × Fin n → J → Bool} {next : σ × Fin n → J → σ × Fin n} {boot : (σ × Fin n → ℝ) → σ × Fin n → ℝ} {lr tau : ℕ → ℝ} {rows : ℕ → Ω → Out σ (Fin n) ℝ} {x : ℕ → Ω → J}
    (hq0 : ∀ p j, 0 ≤ q p j) (hq1 : ∀ p, ∑ j, q p j = 1) (hc : Chain μ ℱ q stop next (fun t ω => ((rows t ω).S, (rows t ω).A)) x) (hw : ∀ t, Measurable[ℱ t] fun ω => (rows t ω).W)
    (hclose : ∀ (q1 q2 : σ × Fin n → ℝ) M, (∀ p, |q1 p - q2 p| ≤ M) → ∀ p, |boot q1 p - boot q2 p| ≤ M)
    (hup : ∀ θ θT t ω, ∃ B, toTBatch id (fun a : Fin n => oneHot n a) [rows t ω] = .ok B ∧
      updateRule (tabular type1 θ) (tabular type1 θT) B = .ok [pathRet rew stop gamma (fun t => ((rows t ω).S, (rows t ω).A)) (fun t => x t ω) (boot fun p => θT p.1 p.2) N t])
    (hl : Rates μ rows lr tau) (hanti : Antitone lr) {best : σ → Fin n → ℝ} (hbest : ∀ p, (chainOp q rew stop next gamma)^[N] (boot fun p => best p.1 p.2) p = best p.1 p.2) (θ0 θT0 : σ → Fin n → ℝ) :
    ∃ θ θT : ℕ → Ω → σ → Fin n → ℝ, (∀ k ω, learnS lr mse1 updateRule type1 0 (θ0, θT0) ((List.range k).map fun t => ([rows t ω], tau t)) = .ok (θ k ω, θT k ω)) ∧
      ∀ᵐ ω ∂μ, ∀ s a, Tendsto (fun k => θ k ω s a) atTop (𝓝 (best s a)) ∧ Tendsto (fun k => θT k ω s a) atTop (𝓝 (best s a)) := by
  let b : ℕ → σ × Fin n → Ω → ℝ := fun t p ω => lr t * if (rows t ω).S = p.1 ∧ (rows t ω).A = p.2 then min (max (rows t ω).W 0.1) 10 else 0
  let Y : (σ → Fin n → ℝ) → ℕ → Ω → ℝ := fun θT t ω => pathRet rew stop gamma (fun t => ((rows t ω).S, (rows t ω).A)) (fun t => x t ω) (boot fun p => θT p.1 p.2) N t
  have step : ∀ θT θ t ω, sgdUpdate (lr t) mse1 updateRule type1 θT θ [rows t ω] = .ok fun s a => θ s a + b t (s, a) ω * (Y θT t ω - θ s a) := by
    intro θT θ t ω
    obtain ⟨B, hB, ht⟩ := hup θ θT t ω
    rw [sgdUpdate_eq mse1_meanOf gentle_mse hn (List.cons_ne_nil _ _) hB (T := fun s a => Y θT t ω) ht (lr t)]
    congr 1
    funext s a
    rw [share_one]
    simp only [b, mul_one]
  let nxt : ℕ → Ω → (σ → Fin n → ℝ) × (σ → Fin n → ℝ) → (σ → Fin n → ℝ) × (σ → Fin n → ℝ) := fun t ω y =>
    let θ' : σ → Fin n → ℝ := fun s a => y.1 s a + b t (s, a) ω * (Y y.2 t ω - y.1 s a)
    (θ', softTable (tau t) y.2 θ')
  let run : ℕ → Ω → (σ → Fin n → ℝ) × (σ → Fin n → ℝ) := fun k ω => Nat.rec (θ0, θT0) (fun t y => nxt t ω y) k
  have hrun : ∀ k ω, learnS lr mse1 updateRule type1 0 (θ0, θT0) ((List.range k).map fun t => ([rows t ω], tau t)) = .ok (run k ω) := by
    intro k ω
    induction k with
    | zero => rfl
    | succ k ih =>
      rw [List.range_succ, List.map_append, learnS_append ih]
      show learnS lr mse1 updateRule type1 _ ((run k ω).1, (run k ω).2) [([rows k ω], tau k)] = _
      rw [learnS]
      simp only [List.length_map, List.length_range, Nat.zero_add]
      rw [step]
      rfl
  refine ⟨fun k ω => (run k ω).1, fun k ω => (run k ω).2, hrun, ?_⟩
  have hS : Stepped μ ℱ q rew stop next (fun t ω => ((rows t ω).S, (rows t ω).A)) x N boot b (fun t ω p => (run t ω).1 p.1 p.2) (fun t ω p => (run t ω).2 p.1 p.2) lr tau gamma := {
    chain := hc
    q_nonneg := hq0
    q_total := hq1
    close := hclose
    init := ⟨fun p => θ0 p.1 p.2, fun p => θT0 p.1 p.2, fun ω => ⟨rfl, rfl⟩⟩
    move := fun t ω p => rfl
    sync := fun t ω p => rfl
    b_nonneg := by
      intro t p ω
      refine mul_nonneg (hl.nonneg t) ?_
      split
      · exact le_min ((by norm_num : (0 : ℝ) ≤ 0.1).trans (le_max_right _ _)) (by norm_num)
      · exact le_rfl
    b_le := by
      intro t p ω
      simp only [b]
      split
      · exact hl.le t ω
      · simp
    b_lr := by
      intro t p ω
      simp only [b]
      rw [mul_comm 10]
      refine mul_le_mul_of_nonneg_left ?_ (hl.nonneg t)
      split
      · exact min_le_right _ _
      · norm_num
    b_known := by
      intro t p
      have hat : MeasurableSet[ℱ t] {ω | (rows t ω).S = p.1 ∧ (rows t ω).A = p.2} := by
        have := hc.z_known t p
        simp only [Prod.ext_iff] at this
        exact this
      exact Measurable.const_mul (Measurable.ite hat (((hw t).max measurable_const).min measurable_const) measurable_const) _
    b_at := by
      intro t p ω hne
      have : (rows t ω).S = p.1 ∧ (rows t ω).A = p.2 := by
        by_contra hc
        exact hne (by simp [b, hc])
      exact Prod.ext this.1 this.2
    lr_nonneg := hl.nonneg
    antitone := hanti
    squares := hl.squares
    tau_nonneg := hl.tau_nonneg
    tau_le := hl.tau_le }
  have hv : ∀ p, ∀ᵐ ω ∂μ, ¬ Summable fun t => b t p ω := by
    intro p
    filter_upwards [hl.visits p.1 p.2] with ω hv hsm
    refine hv (Summable.of_nonneg_of_le (fun t => ?_) (fun t => ?_) (hsm.mul_left 10))
    · split
      · exact hl.nonneg t
      · exact le_rfl
    · simp only [b]
      split
      · have h2 : (0.1 : ℝ) ≤ min (max (rows t ω).W 0.1) 10 := le_min (le_max_right _ _) (by norm_num)
        have := mul_le_mul_of_nonneg_left h2 (hl.nonneg t)
        linarith
      · simp
  filter_upwards [hS.converges h0 h1 hN (star := fun p => best p.1 p.2) hbest hv hl.syncs] with ω h2 s a
  exact h2 (s, a)

end

end Coax.Loop
