import Verif.Loop.ReplayLemmas
import Verif.Loop.Replay
import Verif.Loop.DqnProps
import Verif.Loop.OnlineTargetProps

/-! Property C130: learning from a replay buffer converges almost surely, if episodes do not end. -/

namespace Coax.Loop

open Coax.RewardTracing Coax.Replay Coax.TD Coax.Core Coax.Values Coax.Pol Filter Topology MeasureTheory

variable {σ G : Type _} {n m : Nat}

/-! ### The loop, step by step -/

section Path

variable {draw : G → Nat → Nat → List Nat × G} {cap : Nat} {gamma : ℝ} {xs : ℕ → Step σ (Fin n) ℝ} {dn : ℕ → Bool}

/-- The number of transitions that the tracer has returned after `t` steps: the last step waits for its successor unless it ended the episode. -/
def returned (dn : ℕ → Bool) : ℕ → ℕ
  | 0 => 0
  | t + 1 => if dn t then t + 1 else t

/-- What holds for tracer and buffer after `t` steps. -/
structure After (draw : G → Nat → Nat → List Nat × G) (cap : Nat) (gamma : ℝ) (xs : ℕ → Step σ (Fin n) ℝ) (dn : ℕ → Bool) (t : ℕ) (a : Agent σ (Fin n) G) : Prop where
  tracer : a.tracer = match t with
    | 0 => tracerWith gamma [] false
    | j + 1 => if dn j then tracerWith gamma [] true else tracerWith gamma [xs j] false
  stored : Replay.History draw cap a.sys ((List.range (returned dn t)).map fun i => rowOf gamma (xs i) (xs (i + 1)) (dn i))

theorem After.init (g : G) : After draw cap gamma xs dn 0 (Agent.init 1 gamma cap g) :=
  ⟨by simp [Agent.init, NStep.init, NStep.reset, tracerWith], .init [] g⟩

/-- A pop and the `add` that follows. -/
theorem popAll_next {a : Agent σ (Fin n) G} {log : List (Out σ (Fin n) ℝ)} (h : Replay.History draw cap a.sys log) (hb : a.tracer.bool = true) {t : NStep σ (Fin n) ℝ} {o : Out σ (Fin n) ℝ} (hp : a.tracer.pop = (t, .ok o)) (fuel : ℕ) :
    ∃ s, popAll (fuel + 1) a = popAll fuel ⟨t, s⟩ ∧ Replay.History draw cap s (log ++ [o]) ∧ s.buf.randomState = a.sys.buf.randomState := by
  have hnew := Replay.History.new [o] h
  have hget : (a.sys.heap ++ [Obj.new [o]])[a.sys.heap.length]? = some (Obj.new [o]) := by simp
  have hfr : (Obj.new [o]).rows.length = 1 → a.sys.heap.length ∉ a.sys.buf.storage := fun _ => fresh h
  have hadd := Replay.History.add hnew hget hfr
  have hok := C08_add_succeeds hnew hget hfr
  have hrs : ((({ a.sys with heap := a.sys.heap ++ [Obj.new [o]] } : Sys (Out σ (Fin n) ℝ) G).add a.sys.heap.length).1).buf.randomState = a.sys.buf.randomState := by
    simp only [Sys.add, hget]
  rw [popAll, if_neg (by simp [hb]), hp]
  simp only
  generalize ({ a.sys with heap := a.sys.heap ++ [Obj.new [o]] } : Sys (Out σ (Fin n) ℝ) G).add a.sys.heap.length = r at hadd hok hrs
  obtain ⟨s, e⟩ := r
  simp only at hok hadd hrs
  subst hok
  exact ⟨s, rfl, hadd, hrs⟩

theorem After.observe (h0 : 0 ≤ gamma) (h1 : gamma ≤ 1) (hlogp : ∀ t, (xs t).logp ≤ 0) (hw : ∀ t, 0 < (xs t).w) {t : ℕ} {a : Agent σ (Fin n) G} (h : After draw cap gamma xs dn t a) :
    ∃ a', a.observe (xs t) (dn t) = (a', none) ∧ After draw cap gamma xs dn (t + 1) a' ∧ a'.sys.buf.randomState = a.sys.buf.randomState := by
  obtain ⟨tr, sys⟩ := a
  have h2 := h.tracer
  have h3 := h.stored
  simp only at h2 h3
  have rest : ∀ fuel (s : Sys (Out σ (Fin n) ℝ) G), Replay.History draw cap s ((List.range t).map fun i => rowOf gamma (xs i) (xs (i + 1)) (dn i)) →
      ∃ a', popAll (fuel + 2) ⟨tracerWith gamma [xs t] (dn t), s⟩ = (a', none) ∧ After draw cap gamma xs dn (t + 1) a' ∧ a'.sys.buf.randomState = s.buf.randomState := by
    intro fuel s hs
    cases hd : dn t with
    | false =>
      refine ⟨⟨tracerWith gamma [xs t] false, s⟩, ?_, ⟨?_, ?_⟩, rfl⟩
      · rw [popAll, if_pos (by simp [tracerWith, NStep.bool, NStep.len])]
      · simp [hd]
      · simpa [returned, hd] using hs
    | true =>
      obtain ⟨s', e1, e2, e3⟩ := popAll_next (a := ⟨tracerWith gamma [xs t] true, s⟩) hs (by simp [tracerWith, NStep.bool, NStep.len]) (pop_last h0 h1 (hlogp t) (hw t) (xs (t + 1))) (fuel + 1)
      refine ⟨⟨tracerWith gamma [] true, s'⟩, ?_, ⟨?_, ?_⟩, e3⟩
      · rw [e1, popAll, if_pos (by simp [tracerWith, NStep.bool, NStep.len])]
      · simp [hd]
      · simp only [returned, hd, if_true]
        rw [List.range_succ, List.map_append, List.map_singleton, hd]
        exact e2
  have start : ∀ d0, tr = tracerWith gamma [] d0 → returned dn t = t → ∃ a', Agent.observe ⟨tr, sys⟩ (xs t) (dn t) = (a', none) ∧ After draw cap gamma xs dn (t + 1) a' ∧ a'.sys.buf.randomState = sys.buf.randomState := by
    intro d0 htr hret
    rw [hret] at h3
    have ha : tr.add (xs t) (dn t) = (tracerWith gamma [xs t] (dn t), none) := by
      rw [htr]
      simp [NStep.add, tracerWith, NStep.len]
    obtain ⟨a', e1, e2, e3⟩ := rest 0 sys h3
    refine ⟨a', ?_, e2, e3⟩
    unfold Agent.observe
    rw [ha]
    exact e1
  cases t with
  | zero => exact start false h2 rfl
  | succ j =>
    simp only at h2
    cases hd : dn j with
    | true =>
      rw [hd, if_pos rfl] at h2
      exact start true h2 (by simp [returned, hd])
    | false =>
      rw [hd, if_neg (by simp)] at h2
      have ha : tr.add (xs (j + 1)) (dn (j + 1)) = (tracerWith gamma [xs j, xs (j + 1)] (dn (j + 1)), none) := by
        rw [h2]
        simp [NStep.add, tracerWith, NStep.len]
      simp only [returned, hd] at h3
      obtain ⟨s', e1, e2, e3⟩ := popAll_next (a := ⟨tracerWith gamma [xs j, xs (j + 1)] (dn (j + 1)), sys⟩) h3 (by simp [tracerWith, NStep.bool, NStep.len]) (pop_two h0 h1 (hlogp j) (hlogp (j + 1)) (hw j) (dn (j + 1))) 2
      obtain ⟨a', f1, f2, f3⟩ := rest 0 s' (by
        rw [List.range_succ, List.map_append, List.map_singleton, hd]
        exact e2)
      refine ⟨a', ?_, f2, f3.trans e3⟩
      unfold Agent.observe
      rw [ha]
      show popAll 3 _ = _
      rw [e1, f1]

/-- The transitions in a batch that is drawn after `t` steps. -/
theorem After.sample (hd : DrawsDistinct draw) {t : ℕ} {a : Agent σ (Fin n) G} (h : After draw cap gamma xs dn t a) {batch : ℕ} (hb : 1 ≤ batch) (hb2 : batch ≤ min cap (returned dn t)) :
    ∃ s o, a.sys.sample draw batch = (s, .ok o) ∧ After draw cap gamma xs dn t { a with sys := s } ∧ s.buf.randomState = (draw a.sys.buf.randomState (min cap (returned dn t)) batch).2 ∧
      o.rows = (draw a.sys.buf.randomState (min cap (returned dn t)) batch).1.map fun p => rowOf gamma (xs (returned dn t - min cap (returned dn t) + p)) (xs (returned dn t - min cap (returned dn t) + p + 1)) (dn (returned dn t - min cap (returned dn t) + p)) := by
  have hlen : a.sys.len = min cap (returned dn t) := by simpa using (C08_keeps_most_recent h.stored).2.1
  obtain ⟨pos, entries, e1, e2, e3, e4, e5⟩ := sample_draw hd h.stored hb (hlen ▸ hb2)
  have hpos := (hd a.sys.buf.randomState a.sys.len batch (hlen ▸ hb2)).2.2
  rw [← e1] at hpos
  rw [hlen] at e1 hpos
  refine ⟨(a.sys.sample draw batch).1, _, Prod.ext rfl e5, ⟨h.tracer, .sample batch h.stored⟩, ?_, ?_⟩
  · unfold Sys.sample
    dsimp only
    have hl2 : a.sys.buf.storage.length = min cap (returned dn t) := hlen
    rw [if_neg (by omega), hl2]
    simp only [Int.toNat_natCast]
    split
    · rfl
    · split <;> rfl
  · rw [← e1]
    simp only
    have key : ∀ {ps : List ℕ} {es : List (Out σ (Fin n) ℝ × ℕ)}, List.Forall₂ (fun p e => (lastN cap ((List.range (returned dn t)).map fun i => rowOf gamma (xs i) (xs (i + 1)) (dn i)).zipIdx)[p]? = some e) ps es → (∀ p ∈ ps, p < min cap (returned dn t)) →
        es.map (·.1) = ps.map fun p => rowOf gamma (xs (returned dn t - min cap (returned dn t) + p)) (xs (returned dn t - min cap (returned dn t) + p + 1)) (dn (returned dn t - min cap (returned dn t) + p)) := by
      intro ps es hf
      induction hf with
      | nil => intro _; rfl
      | @cons p e ps es h2 _ ih =>
      intro hpos
      rw [List.map_cons, List.map_cons, ih fun q hq => hpos q (by simp [hq])]
      congr 1
      have hp := hpos p (by simp)
      simp only [lastN, List.getElem?_drop, List.getElem?_zipIdx, List.length_zipIdx, List.length_map, List.length_range, List.getElem?_map] at h2
      rw [List.getElem?_range (by omega)] at h2
      simp only [Option.map_some, Option.some.injEq] at h2
      rw [← h2]
      have e6 : returned dn t - cap = returned dn t - min cap (returned dn t) := by omega
      simp only [e6]
    exact key e4 hpos

end Path

/-! ### Draws -/

/-- The state of the generator before draw `k` of `batch` out of the positions of the buffer, which contains `warm` transitions at the first draw, one more each time, and never more than `cap`. -/
def generator (draw : G → Nat → Nat → List Nat × G) (cap warm batch : ℕ) (g : G) : ℕ → G
  | 0 => g
  | k + 1 => (draw (generator draw cap warm batch g k) (min cap (warm + k)) batch).2

/-- The positions of draw `k`. -/
def drawn (draw : G → Nat → Nat → List Nat × G) (cap warm batch : ℕ) (g : G) (k : ℕ) : List ℕ := (draw (generator draw cap warm batch g k) (min cap (warm + k)) batch).1

variable [DecidableEq σ]

theorem Trainee.run_append {draw : G → Nat → Nat → List Nat × G} {lr : ℕ → ℝ} {tau : ℝ} {L : LossFn} {updateRule} {type1 : Bool} {warm batch : ℕ} {x y : Trainee σ n G} {ss : List (Step σ (Fin n) ℝ × Bool)}
    (h : Trainee.run draw lr tau L updateRule type1 warm batch x ss = .ok y) (ss' : List (Step σ (Fin n) ℝ × Bool)) :
    Trainee.run draw lr tau L updateRule type1 warm batch x (ss ++ ss') = Trainee.run draw lr tau L updateRule type1 warm batch y ss' := by
  induction ss generalizing x with
  | nil => cases h; rfl
  | cons s ss ih =>
    rw [Trainee.run] at h
    rw [List.cons_append, Trainee.run]
    split at h
    · cases h
    · exact ih h

/-- If no episode ends, then update `k` uses the transitions at the drawn positions of the buffer. -/
theorem Trainee.run_endless {draw : G → Nat → Nat → List Nat × G} (hd : DrawsDistinct draw) {cap warm batch : ℕ} (hb1 : 1 ≤ batch) (hb2 : batch ≤ warm) (hb3 : warm ≤ cap) {lr : ℕ → ℝ} {tau : ℝ} {L : LossFn} {updateRule} {type1 : Bool}
    {gamma : ℝ} (h0 : 0 ≤ gamma) (h1 : gamma ≤ 1) {xs : ℕ → Step σ (Fin n) ℝ} (hlogp : ∀ t, (xs t).logp ≤ 0) (hw : ∀ t, 0 < (xs t).w) (g : G) {θ θT : ℕ → σ → Fin n → ℝ} {θT0 : σ → Fin n → ℝ}
    (hθ : ∀ k, sgdUpdate (lr k) L updateRule type1 (θT k) (θ k) ((drawn draw cap warm batch g k).map fun p => rowOf gamma (xs (warm + k - min cap (warm + k) + p)) (xs (warm + k - min cap (warm + k) + p + 1)) false) = .ok (θ (k + 1)))
    (hθT : ∀ k, θT (k + 1) = softTable tau (θT k) (θ (k + 1))) (hstart : θT 0 = (fun x => softTable tau x (θ 0))^[warm] θT0) (t : ℕ) :
    ∃ a, Trainee.run draw lr tau L updateRule type1 warm batch ⟨Agent.init 1 gamma cap g, θ 0, θT0, 0⟩ ((List.range t).map fun i => (xs i, false)) =
        .ok ⟨a, θ (t - warm), if t ≤ warm then (fun x => softTable tau x (θ 0))^[t] θT0 else θT (t - warm), t - warm⟩ ∧
      After draw cap gamma xs (fun _ => false) t a ∧ a.sys.buf.randomState = generator draw cap warm batch g (t - warm) := by
  induction t with
  | zero => exact ⟨_, by simp [Trainee.run], After.init g, by simp [generator, Agent.init, Sys.init]⟩
  | succ t ih =>
    obtain ⟨a, e1, e2, e3⟩ := ih
    obtain ⟨a', f1, f2, f3⟩ := e2.observe h0 h1 hlogp hw
    rw [List.range_succ, List.map_append, Trainee.run_append e1, List.map_singleton, Trainee.run, Trainee.step]
    simp only
    rw [f1]
    simp only [Trainee.learn]
    have hlen : a'.sys.len = min cap t := by simpa [returned] using (C08_keeps_most_recent f2.stored).2.1
    rw [hlen]
    by_cases ht : warm ≤ t
    · rw [if_pos (by omega)]
      have hr : returned (fun _ => false) (t + 1) = t := rfl
      obtain ⟨s, o, g1, g2, g3, g4⟩ := f2.sample hd hb1 (by rw [hr]; omega)
      rw [hr] at g3 g4
      rw [g1]
      simp only
      have hk : warm + (t - warm) = t := by omega
      have hq : (if t ≤ warm then (fun x => softTable tau x (θ 0))^[t] θT0 else θT (t - warm)) = θT (t - warm) := by
        split
        · have : t = warm := by omega
          rw [this, Nat.sub_self, hstart]
        · rfl
      have hstep := hθ (t - warm)
      rw [hk, drawn, ← e3, ← f3, hk, ← g4] at hstep
      rw [hq, hstep]
      simp only [Trainee.run]
      refine ⟨{ a' with sys := s }, ?_, g2, ?_⟩
      · rw [if_neg (by omega), show t + 1 - warm = t - warm + 1 by omega, ← hθT]
      · rw [show t + 1 - warm = t - warm + 1 by omega, generator, hk, ← e3, ← f3, ← g3]
    · rw [if_neg (by omega)]
      simp only [Trainee.run]
      refine ⟨a', ?_, f2, ?_⟩
      · rw [if_pos (by omega : t ≤ warm), if_pos (by omega : t + 1 ≤ warm), show t + 1 - warm = 0 by omega, show t - warm = 0 by omega, Function.iterate_succ_apply']
      · rw [f3, e3, show t + 1 - warm = 0 by omega, show t - warm = 0 by omega]

/-! ### Specification -/

section

variable {Ω : Type _} {m0 : MeasurableSpace Ω}

/-- What is drawn from a replay buffer: distinct positions, drawn by a generator that knows nothing of the environment (the draws are known from the beginning in the filtration of the outcomes) and that is not known by the agent (in some
filtration that contains the steps so far and the draws so far, the newest transition is drawn with at least some probability). -/
structure Draws (draw : G → Nat → Nat → List Nat × G) (cap warm batch : ℕ) (g : Ω → G) (μ : Measure Ω) (ℋ : Filtration ℕ m0) (xs : ℕ → Ω → Step σ (Fin n) ℝ) : Prop where
  distinct : DrawsDistinct draw
  sizes : 1 ≤ batch ∧ batch ≤ warm ∧ warm ≤ cap
  known : ∀ k l, MeasurableSet[ℋ 0] {ω | drawn draw cap warm batch (g ω) k = l}
  newest : ∃ (𝒢 : Filtration ℕ m0) (δ : ℝ), 0 < δ ∧ (∀ k l, MeasurableSet[𝒢 (k + 1)] {ω | drawn draw cap warm batch (g ω) k = l}) ∧
    (∀ k s a, MeasurableSet[𝒢 k] {ω | (xs (k + (warm - 1)) ω).s = s ∧ (xs (k + (warm - 1)) ω).a = a}) ∧
    ∀ k, ∀ᵐ ω ∂μ, δ ≤ (μ[Set.indicator {ω | min cap (warm + k) - 1 ∈ drawn draw cap warm batch (g ω) k} (fun _ => (1 : ℝ)) | 𝒢 k]) ω

/-- Episodes do not end. -/
def Mdp.Endless (e : Mdp σ n m) : Prop := ∀ s a j, e.ends s a j = false

/-! ### Convergence -/

theorem set_known {F : MeasurableSpace Ω} {l : Ω → List ℕ} (h : ∀ x, MeasurableSet[F] {ω | l ω = x}) (P : List ℕ → Prop) : MeasurableSet[F] {ω | P (l ω)} := by
  let _ : MeasurableSpace (List ℕ) := ⊤
  have h1 : Measurable[F] l := @measurable_to_countable' _ _ _ _ F _ h
  exact h1 (show MeasurableSet {x | P x} from trivial)

/-- The lags of the transitions of a batch. -/
def lagsOf (draw : G → Nat → Nat → List Nat × G) (cap warm batch : ℕ) (g : G) (k : ℕ) : List ℕ := (drawn draw cap warm batch g k).map fun p => min cap (warm + k) - 1 - p

theorem Draws.replays {draw : G → Nat → Nat → List Nat × G} {cap warm batch : ℕ} {g : Ω → G} {μ : Measure Ω} {ℋ : Filtration ℕ m0} {xs : ℕ → Ω → Step σ (Fin n) ℝ} (h : Draws draw cap warm batch g μ ℋ xs) :
    Replays (sub2 ℋ 1) (fun k ω => lagsOf draw cap warm batch (g ω) k) cap batch := by
  obtain ⟨h1, h2, h3⟩ := h.sizes
  have hd := fun k ω => h.distinct (generator draw cap warm batch (g ω) k) (min cap (warm + k)) batch (by omega)
  refine ⟨fun k l => ℋ.mono (by omega) _ (set_known (F := ℋ 0) (h.known k) fun x => x.map (fun p => min cap (warm + k) - 1 - p) = l), fun k ω hne => ?_, fun k ω => ?_, fun k ω r hr => ?_⟩
  · have h4 := congrArg List.length hne
    simp only [lagsOf, drawn, List.length_map, (hd k ω).1, List.length_nil] at h4
    omega
  · simp only [lagsOf, drawn, List.length_map, (hd k ω).1, le_refl]
  · obtain ⟨p, -, rfl⟩ := List.mem_map.1 hr
    omega

theorem Draws.rates [Fintype σ] {draw : G → Nat → Nat → List Nat × G} {cap warm batch : ℕ} {g : Ω → G} {μ : Measure Ω} [IsProbabilityMeasure μ] {ℋ : Filtration ℕ m0} {e : Mdp σ n m} {xs : ℕ → Ω → Step σ (Fin n) ℝ} {out : ℕ → Ω → Fin m} {lr : ℕ → ℝ}
    (h : Draws draw cap warm batch g μ ℋ xs) (hx : Explorer e μ ℋ xs out lr) (hle : ∀ k t ω, lr k * min (max (xs t ω).w 0.1) 10 ≤ 1) (hanti : Antitone lr) (gamma : ℝ) {tau : ℝ} (ht0 : 0 < tau) (ht1 : tau ≤ 1) :
    ReplayRates μ (fun t ω => rowOf gamma (xs t ω) (xs (t + 1) ω) (e.ends (xs t ω).s (xs t ω).a (out t ω))) (fun k ω => lagsOf draw cap warm batch (g ω) k) (warm - 1) lr (fun _ => tau) := by
  have hrates := hx.rates gamma ht0 ht1
  obtain ⟨h1, h2, h3⟩ := h.sizes
  refine ⟨hrates.nonneg, hanti, hle, hrates.squares, fun s a => ?_, fun _ => ht0.le, fun _ => ht1, hrates.syncs⟩
  obtain ⟨𝒢, δ, d1, d2, d3, d4⟩ := h.newest
  have hoft := happens_often (μ := μ) (ℱ := 𝒢) (D := fun k => {ω | (xs (k + (warm - 1)) ω).s = s ∧ (xs (k + (warm - 1)) ω).a = a}) (E := fun k => {ω | min cap (warm + k) - 1 ∈ drawn draw cap warm batch (g ω) k}) (lr := lr) d1
    (fun k => d3 k s a) (fun k => set_known (d2 k) fun l => min cap (warm + k) - 1 ∈ l) hrates.nonneg hrates.squares fun k => (d4 k).mono fun ω h4 _ => h4
  filter_upwards [hoft, hrates.visits s a] with ω h4 h5 hsum
  classical
  have h6 : ¬ Summable fun k => Set.indicator {ω | (xs (k + (warm - 1)) ω).s = s ∧ (xs (k + (warm - 1)) ω).a = a} (fun _ => lr k) ω := by
    intro hs
    refine h5 ((summable_nat_add_iff (warm - 1)).1 (Summable.of_nonneg_of_le (fun k => ?_) (fun k => ?_) hs))
    · split
      · exact hrates.nonneg _
      · exact le_rfl
    · rw [Set.indicator_apply]
      show (if (xs (k + (warm - 1)) ω).s = s ∧ (xs (k + (warm - 1)) ω).a = a then lr (k + (warm - 1)) else 0) ≤ _
      by_cases hp : (xs (k + (warm - 1)) ω).s = s ∧ (xs (k + (warm - 1)) ω).a = a
      · rw [if_pos hp, if_pos (show ω ∈ {ω | (xs (k + (warm - 1)) ω).s = s ∧ (xs (k + (warm - 1)) ω).a = a} from hp)]
        exact hanti (by omega)
      · rw [if_neg hp, if_neg (show ω ∉ {ω | (xs (k + (warm - 1)) ω).s = s ∧ (xs (k + (warm - 1)) ω).a = a} from hp)]
  refine h4 h6 (Summable.of_nonneg_of_le (fun k => Set.indicator_nonneg (fun _ _ => hrates.nonneg k) ω) (fun k => ?_) hsum)
  rw [Set.indicator_apply]
  split
  · rename_i hin
    rw [if_pos]
    refine ⟨0, List.mem_map.2 ⟨_, hin.2, by omega⟩, ?_⟩
    exact hin.1
  · split
    · exact hrates.nonneg k
    · exact le_rfl

theorem Trainee.converges [Fintype σ] {draw : G → Nat → Nat → List Nat × G} {cap warm batch : ℕ} {g : Ω → G} {μ : Measure Ω} [IsProbabilityMeasure μ] {ℋ : Filtration ℕ m0} {updateRule} {type1 : Bool} {boot : σ → (Fin n → ℝ) → ℝ → Prop} (hr : Rule updateRule type1 boot) (hn : 0 < n)
    {e : Mdp σ n m} (he : e.Proper) (hend : e.Endless) {gamma : ℝ} (h0 : 0 ≤ gamma) (h1 : gamma < 1) {lr : ℕ → ℝ} {xs : ℕ → Ω → Step σ (Fin n) ℝ} {out : ℕ → Ω → Fin m} (hx : Explorer e μ ℋ xs out lr) (hd : Draws draw cap warm batch g μ ℋ xs)
    (hle : ∀ k t ω, lr k * min (max (xs t ω).w 0.1) 10 ≤ 1) (hanti : Antitone lr) {tau : ℝ} (ht0 : 0 < tau) (ht1 : tau ≤ 1) {best : σ → Fin n → ℝ} (hbest : e.Solves gamma boot best) (θ0 θT0 : σ → Fin n → ℝ) :
    ∃ L : ℕ → Ω → Trainee σ n G, (∀ k ω, Trainee.run draw lr tau mse1 updateRule type1 warm batch ⟨Agent.init 1 gamma cap (g ω), θ0, θT0, 0⟩ ((List.range k).map fun t => (xs t ω, e.ends (xs t ω).s (xs t ω).a (out t ω))) = .ok (L k ω)) ∧
      ∀ᵐ ω ∂μ, ∀ s a, Tendsto (fun k => (L k ω).q s a) atTop (𝓝 (best s a)) ∧ Tendsto (fun k => (L k ω).qTarg s a) atTop (𝓝 (best s a)) := by
  obtain ⟨s1, s2, s3⟩ := hd.sizes
  obtain ⟨θ, θT, h2, h3⟩ := learnS_replay hr hn he h0 h1 (hx.steps.samples gamma) hd.replays (hd.rates hx hle hanti gamma ht0 ht1) hbest θ0 ((fun x => softTable tau x θ0)^[warm] θT0)
  have start : ∀ ω, θ 0 ω = θ0 ∧ θT 0 ω = (fun x => softTable tau x θ0)^[warm] θT0 := fun ω => Prod.ext_iff.1 (Except.ok.inj (h2 0 ω)).symm
  have hrows : ∀ k ω, ((lagsOf draw cap warm batch (g ω) k).map fun r => rowOf gamma (xs (k + (warm - 1) - r) ω) (xs (k + (warm - 1) - r + 1) ω) (e.ends (xs (k + (warm - 1) - r) ω).s (xs (k + (warm - 1) - r) ω).a (out (k + (warm - 1) - r) ω))) =
      (drawn draw cap warm batch (g ω) k).map fun p => rowOf gamma (xs (warm + k - min cap (warm + k) + p) ω) (xs (warm + k - min cap (warm + k) + p + 1) ω) false := by
    intro k ω
    rw [lagsOf, List.map_map]
    refine List.map_congr_left fun p hp => ?_
    have hlt := (hd.distinct (generator draw cap warm batch (g ω) k) (min cap (warm + k)) batch (by omega)).2.2 p hp
    simp only [Function.comp]
    rw [hend, show k + (warm - 1) - (min cap (warm + k) - 1 - p) = warm + k - min cap (warm + k) + p by omega]
  have step : ∀ ω k, sgdUpdate (lr k) mse1 updateRule type1 (θT k ω) (θ k ω) ((drawn draw cap warm batch (g ω) k).map fun p => rowOf gamma (xs (warm + k - min cap (warm + k) + p) ω) (xs (warm + k - min cap (warm + k) + p + 1) ω) false) = .ok (θ (k + 1) ω) ∧
      θT (k + 1) ω = softTable tau (θT k ω) (θ (k + 1) ω) := by
    intro ω k
    have h4 := h2 (k + 1) ω
    rw [List.range_succ, List.map_append, learnS_append (h2 k ω)] at h4
    simp only [List.map_cons, List.map_nil, List.length_map, List.length_range, Nat.zero_add] at h4
    rw [learnS, hrows] at h4
    split at h4
    · cases h4
    · rename_i θ' he
      rw [learnS] at h4
      have h5 := Prod.ext_iff.1 (Except.ok.inj h4)
      simp only at h5
      rw [he, h5.1]
      exact ⟨rfl, by rw [← h5.2, h5.1]⟩
  have main := fun ω => Trainee.run_endless (g := g ω) (xs := fun t => xs t ω) (θ := fun k => θ k ω) (θT := fun k => θT k ω) (θT0 := θT0) hd.distinct s1 s2 s3 h0 h1.le (fun t => hx.steps.logp t ω) (fun t => hx.steps.w t ω) (fun k => (step ω k).1) (fun k => (step ω k).2)
    (by rw [(start ω).1]; exact (start ω).2)
  choose A hA _ _ using main
  refine ⟨fun k ω => ⟨A ω k, θ (k - warm) ω, if k ≤ warm then (fun x => softTable tau x (θ 0 ω))^[k] θT0 else θT (k - warm) ω, k - warm⟩, fun k ω => ?_, ?_⟩
  · have h4 := hA ω k
    have hend' : ∀ s a j, e.ends s a j = false := hend
    rw [(start ω).1] at h4
    simp only [hend', (start ω).1]
    exact h4
  · filter_upwards [h3] with ω h4 s a
    have hsub : Tendsto (fun k : ℕ => k - warm) atTop atTop := tendsto_sub_atTop_nat warm
    refine ⟨(h4 s a).1.comp hsub, ((h4 s a).2.comp hsub).congr' ?_⟩
    filter_upwards [eventually_gt_atTop warm] with k hk
    simp only [Function.comp]
    rw [if_neg (by omega)]

end

/-! ### The property -/

/-- **C130** for `QLearning` with mini-batches of delayed transitions: in a finite stochastic environment there is one solution of the Bellman equation, and the params of a table, and those of the target network, converge to it almost surely if each
batch consists of transitions that are at most `D` steps old, chosen without regard to what happened in the environment, and the learning rates satisfy the conditions of Robbins and Monro.  Nothing raises. -/
theorem C130_q_learning [Fintype σ] (hn : 0 < n) {e : Mdp σ n m} (he : e.Proper) {gamma : ℝ} (h0 : 0 ≤ gamma) (h1 : gamma < 1) :
    ∃ best, e.Solves gamma Greedy best ∧ (∀ q, e.Solves gamma Greedy q → q = best) ∧
      ∀ {Ω : Type} {m0 : MeasurableSpace Ω} {μ : Measure Ω} [IsProbabilityMeasure μ] {ℱ : Filtration ℕ m0} {lr tau : ℕ → ℝ} {rows : ℕ → Ω → Out σ (Fin n) ℝ} {out : ℕ → Ω → Fin m} {lags : ℕ → Ω → List ℕ} {L D B : ℕ},
        Samples e gamma μ ℱ rows out → Replays ℱ lags D B → ReplayRates μ rows lags L lr tau → ∀ type1 θ0 θT0, ∃ θ θT : ℕ → Ω → σ → Fin n → ℝ,
          (∀ k ω, learnS lr mse1 (qLearning n) type1 0 (θ0, θT0) ((List.range k).map fun t => ((lags t ω).map fun r => rows (t + L - r) ω, tau t)) = .ok (θ k ω, θT k ω)) ∧
          ∀ᵐ ω ∂μ, ∀ s a, Tendsto (fun k => θ k ω s a) atTop (𝓝 (best s a)) ∧ Tendsto (fun k => θT k ω s a) atTop (𝓝 (best s a)) := by
  obtain ⟨best, hb, hu⟩ := mdp_solution (rule_qLearning (σ := σ) hn false) he h0 h1
  exact ⟨best, hb, hu, fun hs hp hl type1 θ0 θT0 => learnS_replay (rule_qLearning (σ := σ) hn type1) hn he h0 h1 hs hp hl hb θ0 θT0⟩

/-- **C130** for `ExpectedSarsa` with mini-batches of delayed transitions: in a finite stochastic environment there is one solution of the Bellman equation, and the params of a table, and those of the target network, converge to it almost surely if each
batch consists of transitions that are at most `D` steps old, chosen without regard to what happened in the environment, and the learning rates satisfy the conditions of Robbins and Monro.  Nothing raises. -/
theorem C130_expected_sarsa [Fintype σ] (hn : 0 < n) {e : Mdp σ n m} (he : e.Proper) {gamma : ℝ} (h0 : 0 ≤ gamma) (h1 : gamma < 1) (logits : σ → Fin n → ℝ) :
    ∃ best, e.Solves gamma (Mean (fun s a => Real.exp (logits s a) / ∑ b, Real.exp (logits s b))) best ∧ (∀ q, e.Solves gamma (Mean (fun s a => Real.exp (logits s a) / ∑ b, Real.exp (logits s b))) q → q = best) ∧
      ∀ {Ω : Type} {m0 : MeasurableSpace Ω} {μ : Measure Ω} [IsProbabilityMeasure μ] {ℱ : Filtration ℕ m0} {lr tau : ℕ → ℝ} {rows : ℕ → Ω → Out σ (Fin n) ℝ} {out : ℕ → Ω → Fin m} {lags : ℕ → Ω → List ℕ} {L D B : ℕ},
        Samples e gamma μ ℱ rows out → Replays ℱ lags D B → ReplayRates μ rows lags L lr tau → ∀ type1 θ0 θT0, ∃ θ θT : ℕ → Ω → σ → Fin n → ℝ,
          (∀ k ω, learnS lr mse1 (fun q qTarg => expectedSarsa n (fun S => S.map fun s => (List.finRange n).map (logits s)) q qTarg) type1 0 (θ0, θT0) ((List.range k).map fun t => ((lags t ω).map fun r => rows (t + L - r) ω, tau t)) = .ok (θ k ω, θT k ω)) ∧
          ∀ᵐ ω ∂μ, ∀ s a, Tendsto (fun k => θ k ω s a) atTop (𝓝 (best s a)) ∧ Tendsto (fun k => θT k ω s a) atTop (𝓝 (best s a)) := by
  obtain ⟨best, hb, hu⟩ := mdp_solution (rule_expectedSarsa (σ := σ) hn false logits) he h0 h1
  exact ⟨best, hb, hu, fun hs hp hl type1 θ0 θT0 => learnS_replay (rule_expectedSarsa (σ := σ) hn type1 logits) hn he h0 h1 hs hp hl hb θ0 θT0⟩

/-- **C130** for `SoftQLearning` with mini-batches of delayed transitions: in a finite stochastic environment there is one solution of the Bellman equation, and the params of a table, and those of the target network, converge to it almost surely if each
batch consists of transitions that are at most `D` steps old, chosen without regard to what happened in the environment, and the learning rates satisfy the conditions of Robbins and Monro.  Nothing raises. -/
theorem C130_soft_q_learning [Fintype σ] (hn : 0 < n) {e : Mdp σ n m} (he : e.Proper) {gamma : ℝ} (h0 : 0 ≤ gamma) (h1 : gamma < 1) {temp : ℝ} (ht : 0 < temp) :
    ∃ best, e.Solves gamma (Soft temp) best ∧ (∀ q, e.Solves gamma (Soft temp) q → q = best) ∧
      ∀ {Ω : Type} {m0 : MeasurableSpace Ω} {μ : Measure Ω} [IsProbabilityMeasure μ] {ℱ : Filtration ℕ m0} {lr tau : ℕ → ℝ} {rows : ℕ → Ω → Out σ (Fin n) ℝ} {out : ℕ → Ω → Fin m} {lags : ℕ → Ω → List ℕ} {L D B : ℕ},
        Samples e gamma μ ℱ rows out → Replays ℱ lags D B → ReplayRates μ rows lags L lr tau → ∀ type1 θ0 θT0, ∃ θ θT : ℕ → Ω → σ → Fin n → ℝ,
          (∀ k ω, learnS lr mse1 (fun q qTarg => softQLearning n temp q qTarg) type1 0 (θ0, θT0) ((List.range k).map fun t => ((lags t ω).map fun r => rows (t + L - r) ω, tau t)) = .ok (θ k ω, θT k ω)) ∧
          ∀ᵐ ω ∂μ, ∀ s a, Tendsto (fun k => θ k ω s a) atTop (𝓝 (best s a)) ∧ Tendsto (fun k => θT k ω s a) atTop (𝓝 (best s a)) := by
  obtain ⟨best, hb, hu⟩ := mdp_solution (rule_softQLearning (σ := σ) hn false ht) he h0 h1
  exact ⟨best, hb, hu, fun hs hp hl type1 θ0 θT0 => learnS_replay (rule_softQLearning (σ := σ) hn type1 ht) hn he h0 h1 hs hp hl hb θ0 θT0⟩

/-- **C130** for the training loop with `QLearning`, a replay buffer, an `NStep` tracer with `n = 1` and a target network, in an environment whose episodes do not end: if the environment is connected, the agent tries every action with at least some
probability, the buffer draws the newest transition with at least some probability and the learning rates decrease slowly, then the params of `q` and of `q_targ` converge almost surely to the solution of the Bellman equation.  Nothing raises. -/
theorem C130_loop_q_learning_partial {Ω : Type} {m0 : MeasurableSpace Ω} [Fintype σ] (hn : 0 < n) {e : Mdp σ n m} (he : e.Proper) (hend : e.Endless) {gamma : ℝ} (h0 : 0 ≤ gamma) (h1 : gamma < 1) {μ : Measure Ω} [IsProbabilityMeasure μ] {ℋ : Filtration ℕ m0} {lr : ℕ → ℝ}
    {xs : ℕ → Ω → Step σ (Fin n) ℝ} {out : ℕ → Ω → Fin m} (hx : Explorer e μ ℋ xs out lr) {draw : G → Nat → Nat → List Nat × G} {cap warm batch : ℕ} {g : Ω → G} (hd : Draws draw cap warm batch g μ ℋ xs) (hle : ∀ k t ω, lr k * min (max (xs t ω).w 0.1) 10 ≤ 1)
    (hanti : Antitone lr) {tau : ℝ} (ht0 : 0 < tau) (ht1 : tau ≤ 1) {best : σ → Fin n → ℝ} (hbest : e.Solves gamma Greedy best) (type1 : Bool) (θ0 θT0 : σ → Fin n → ℝ) :
    ∃ L : ℕ → Ω → Trainee σ n G, (∀ k ω, Trainee.run draw lr tau mse1 (qLearning n) type1 warm batch ⟨Agent.init 1 gamma cap (g ω), θ0, θT0, 0⟩
        ((List.range k).map fun t => (xs t ω, e.ends (xs t ω).s (xs t ω).a (out t ω))) = .ok (L k ω)) ∧
      ∀ᵐ ω ∂μ, ∀ s a, Tendsto (fun k => (L k ω).q s a) atTop (𝓝 (best s a)) ∧ Tendsto (fun k => (L k ω).qTarg s a) atTop (𝓝 (best s a)) :=
  Trainee.converges (rule_qLearning (σ := σ) hn type1) hn he hend h0 h1 hx hd hle hanti ht0 ht1 hbest θ0 θT0

/-- **C130** for the training loop with `ExpectedSarsa`, a replay buffer, an `NStep` tracer with `n = 1` and a target network, in an environment whose episodes do not end: if the environment is connected, the agent tries every action with at least some
probability, the buffer draws the newest transition with at least some probability and the learning rates decrease slowly, then the params of `q` and of `q_targ` converge almost surely to the solution of the Bellman equation.  Nothing raises. -/
theorem C130_loop_expected_sarsa_partial {Ω : Type} {m0 : MeasurableSpace Ω} [Fintype σ] (hn : 0 < n) {e : Mdp σ n m} (he : e.Proper) (hend : e.Endless) {gamma : ℝ} (h0 : 0 ≤ gamma) (h1 : gamma < 1) (logits : σ → Fin n → ℝ) {μ : Measure Ω} [IsProbabilityMeasure μ] {ℋ : Filtration ℕ m0} {lr : ℕ → ℝ}
    {xs : ℕ → Ω → Step σ (Fin n) ℝ} {out : ℕ → Ω → Fin m} (hx : Explorer e μ ℋ xs out lr) {draw : G → Nat → Nat → List Nat × G} {cap warm batch : ℕ} {g : Ω → G} (hd : Draws draw cap warm batch g μ ℋ xs) (hle : ∀ k t ω, lr k * min (max (xs t ω).w 0.1) 10 ≤ 1)
    (hanti : Antitone lr) {tau : ℝ} (ht0 : 0 < tau) (ht1 : tau ≤ 1) {best : σ → Fin n → ℝ} (hbest : e.Solves gamma (Mean (fun s a => Real.exp (logits s a) / ∑ b, Real.exp (logits s b))) best) (type1 : Bool) (θ0 θT0 : σ → Fin n → ℝ) :
    ∃ L : ℕ → Ω → Trainee σ n G, (∀ k ω, Trainee.run draw lr tau mse1 (fun q qTarg => expectedSarsa n (fun S => S.map fun s => (List.finRange n).map (logits s)) q qTarg) type1 warm batch ⟨Agent.init 1 gamma cap (g ω), θ0, θT0, 0⟩
        ((List.range k).map fun t => (xs t ω, e.ends (xs t ω).s (xs t ω).a (out t ω))) = .ok (L k ω)) ∧
      ∀ᵐ ω ∂μ, ∀ s a, Tendsto (fun k => (L k ω).q s a) atTop (𝓝 (best s a)) ∧ Tendsto (fun k => (L k ω).qTarg s a) atTop (𝓝 (best s a)) :=
  Trainee.converges (rule_expectedSarsa (σ := σ) hn type1 logits) hn he hend h0 h1 hx hd hle hanti ht0 ht1 hbest θ0 θT0

/-- **C130** for the training loop with `SoftQLearning`, a replay buffer, an `NStep` tracer with `n = 1` and a target network, in an environment whose episodes do not end: if the environment is connected, the agent tries every action with at least some
probability, the buffer draws the newest transition with at least some probability and the learning rates decrease slowly, then the params of `q` and of `q_targ` converge almost surely to the solution of the Bellman equation.  Nothing raises. -/
theorem C130_loop_soft_q_learning_partial {Ω : Type} {m0 : MeasurableSpace Ω} [Fintype σ] (hn : 0 < n) {e : Mdp σ n m} (he : e.Proper) (hend : e.Endless) {gamma : ℝ} (h0 : 0 ≤ gamma) (h1 : gamma < 1) {temp : ℝ} (ht : 0 < temp) {μ : Measure Ω} [IsProbabilityMeasure μ] {ℋ : Filtration ℕ m0} {lr : ℕ → ℝ}
    {xs : ℕ → Ω → Step σ (Fin n) ℝ} {out : ℕ → Ω → Fin m} (hx : Explorer e μ ℋ xs out lr) {draw : G → Nat → Nat → List Nat × G} {cap warm batch : ℕ} {g : Ω → G} (hd : Draws draw cap warm batch g μ ℋ xs) (hle : ∀ k t ω, lr k * min (max (xs t ω).w 0.1) 10 ≤ 1)
    (hanti : Antitone lr) {tau : ℝ} (ht0 : 0 < tau) (ht1 : tau ≤ 1) {best : σ → Fin n → ℝ} (hbest : e.Solves gamma (Soft temp) best) (type1 : Bool) (θ0 θT0 : σ → Fin n → ℝ) :
    ∃ L : ℕ → Ω → Trainee σ n G, (∀ k ω, Trainee.run draw lr tau mse1 (fun q qTarg => softQLearning n temp q qTarg) type1 warm batch ⟨Agent.init 1 gamma cap (g ω), θ0, θT0, 0⟩
        ((List.range k).map fun t => (xs t ω, e.ends (xs t ω).s (xs t ω).a (out t ω))) = .ok (L k ω)) ∧
      ∀ᵐ ω ∂μ, ∀ s a, Tendsto (fun k => (L k ω).q s a) atTop (𝓝 (best s a)) ∧ Tendsto (fun k => (L k ω).qTarg s a) atTop (𝓝 (best s a)) :=
  Trainee.converges (rule_softQLearning (σ := σ) hn type1 ht) hn he hend h0 h1 hx hd hle hanti ht0 ht1 hbest θ0 θT0

/-! ### A case -/

/-- The environment `e` where episodes go on. -/
def Mdp.goOn (e : Mdp σ n m) : Mdp σ n m := { e with ends := fun _ _ _ => false }

omit [DecidableEq σ] in
theorem Explorer.goOn {Ω : Type _} {m0 : MeasurableSpace Ω} {e : Mdp σ n m} {μ : Measure Ω} {ℋ : Filtration ℕ m0} {xs : ℕ → Ω → Step σ (Fin n) ℝ} {out : ℕ → Ω → Fin m} {lr : ℕ → ℝ} (h : Explorer e μ ℋ xs out lr) : Explorer e.goOn μ ℋ xs out lr :=
  ⟨⟨h.steps.s_known, h.steps.a_known, h.steps.w_known, h.steps.out_known, h.steps.law, h.steps.reward, fun t ω _ => h.reset t ω, h.steps.logp, h.steps.w⟩, h.explores, h.connected, h.reset, h.schedule, h.infinite, h.slow⟩

/-- The newest transitions. -/
def newestOf : Unit → Nat → Nat → List Nat × Unit := fun g n k => (List.range' (n - k) k, g)

theorem newest_draws {cap warm batch : ℕ} (h1 : 1 ≤ batch) (h2 : batch ≤ warm) (h3 : warm ≤ cap) : Draws newestOf cap warm batch (fun _ => ()) coins flips coinSteps where
  distinct _ n k hk := ⟨by simp [newestOf], by simp [newestOf, List.nodup_range'], fun p hp => by simp only [newestOf, List.mem_range'_1] at hp; omega⟩
  sizes := ⟨h1, h2, h3⟩
  known k l := MeasurableSet.const _
  newest := by
    refine ⟨⟨fun _ => inferInstance, fun _ _ _ => le_rfl, fun _ => le_rfl⟩, 1, one_pos, fun k l => MeasurableSet.const _, fun k s a => ?_, fun k => Eventually.of_forall fun ω => ?_⟩
    · exact flips.le _ _ (MeasurableSet.inter (flips.mono (by omega) _ (coin_explorer.steps.s_known (k + (warm - 1)) s)) (coin_explorer.steps.a_known (k + (warm - 1)) a))
    · have : {ω : ℕ → Bool | min cap (warm + k) - 1 ∈ drawn newestOf cap warm batch ((fun _ => ()) ω) k} = Set.univ := by
        ext ω
        simp only [Set.mem_univ, iff_true, drawn, newestOf]
        show _ ∈ List.range' _ _
        rw [List.mem_range'_1]
        omega
      rw [this, Set.indicator_univ, condExp_const (by exact le_rfl)]

example (θ0 : Bool → Fin 2 → ℝ) {best : Bool → Fin 2 → ℝ} (hbest : twoCoins.goOn.Solves (9 / 10) Greedy best) : ∃ L : ℕ → (ℕ → Bool) → Trainee Bool 2 Unit,
    (∀ k ω, Trainee.run newestOf (fun t => 1 / ((t : ℝ) + 1)) (1 / 100) mse1 (qLearning 2) false 100 32 ⟨Agent.init 1 (9 / 10) 100000 (), θ0, θ0, 0⟩ ((List.range k).map fun t => (coinSteps t ω, twoCoins.goOn.ends (coinSteps t ω).s (coinSteps t ω).a (if ω (2 * t + 2) then 1 else 0))) = .ok (L k ω)) ∧
      ∀ᵐ ω ∂coins, ∀ s a, Tendsto (fun k => (L k ω).q s a) atTop (𝓝 (best s a)) ∧ Tendsto (fun k => (L k ω).qTarg s a) atTop (𝓝 (best s a)) := by
  have hlr : ∀ k : ℕ, (1 : ℝ) / ((k : ℝ) + 1) ≤ 1 := fun k => by
    rw [div_le_one (by positivity)]
    linarith [(Nat.cast_nonneg k : (0 : ℝ) ≤ k)]
  refine C130_loop_q_learning_partial (by norm_num) ⟨fun s a j => by norm_num [Mdp.goOn, twoCoins], fun s a => by norm_num [Mdp.goOn, twoCoins]⟩ (fun _ _ _ => rfl) (by norm_num) (by norm_num) coin_explorer.goOn (newest_draws (by norm_num) (by norm_num) (by norm_num)) (fun k t ω => ?_) ?_ (by norm_num) (by norm_num) hbest false θ0 θ0
  · have h3 : min (max (coinSteps t ω).w 0.1) 10 = (1 : ℝ) := by
      show min (max (1 : ℝ) 0.1) 10 = 1
      norm_num
    rw [h3, mul_one]
    exact hlr k
  · intro i j hij
    have : (i : ℝ) ≤ j := Nat.cast_le.2 hij
    exact one_div_le_one_div_of_le (by positivity) (by linarith)

end Coax.Loop
