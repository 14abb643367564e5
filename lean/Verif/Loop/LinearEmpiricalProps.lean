import Verif.Loop.LinearQProps

/-! Properties C149 and C150: the values that a batch speaks for exist, and are determined for its states. -/

namespace Coax.Loop

open Coax.RewardTracing Coax.TD Coax.Core Coax.Values Coax.Pol

variable {σ : Type _} {n : Nat}

open Classical in
/-- One feature for each state of a list. -/
noncomputable def isAt (l : List σ) (s : σ) (k : Fin l.length) : ℝ := if s = l[k] then 1 else 0

theorem lin_isAt {l : List σ} (hl : l.Nodup) (θ : Fin l.length → ℝ) (j : Fin l.length) : lin (fun _ => 0) (isAt l) θ l[j] = θ j := by
  unfold lin isAt
  have : ∀ k : Fin l.length, (l[j] = l[k]) ↔ k = j := fun k => ⟨fun h => Fin.ext ((List.Nodup.getElem_inj_iff hl).1 h).symm, fun h => by rw [h]⟩
  simp only [this, zero_add, ite_mul, one_mul, zero_mul]
  simp

/-- Claim C149, what the error is relative to: if the transitions of a batch lead to its states at most as often as these occur, then there are values that they confirm on average. -/
theorem C149_empirical {gamma : ℝ} (h0 : 0 ≤ gamma) (h1 : gamma < 1) {rows : List (Out σ (Fin n) ℝ)} (hp : OnPolicy gamma rows) : ∃ u, Empirical rows u := by
  classical
  set l := (rows.map (·.S)).dedup with hl
  have hnd : l.Nodup := List.nodup_dedup _
  obtain ⟨best, hb⟩ := C149_exists h0 h1 hp (fun _ => 0) (isAt l)
  refine ⟨lin (fun _ => 0) (isAt l) best, fun g => ?_⟩
  have hg : ∀ o ∈ rows, g o.S = ∑ k : Fin l.length, g l[k] * isAt l o.S k := fun o ho => by
    have hm : o.S ∈ l := List.mem_dedup.2 (List.mem_map_of_mem ho)
    obtain ⟨j, hj, e⟩ := List.getElem_of_mem hm
    have := lin_isAt hnd (fun k => g l[k]) ⟨j, hj⟩
    simp only [lin, zero_add, Fin.getElem_fin, e] at this
    rw [← this]
    exact Finset.sum_congr rfl fun k _ => mul_comm _ _
  have h2 : (rows.map fun o => tdErr (lin (fun _ => 0) (isAt l) best) o * g o.S) = rows.map fun o => ∑ k : Fin l.length, g l[k] * (tdErr (lin (fun _ => 0) (isAt l) best) o * isAt l o.S k) :=
    List.map_congr_left fun o ho => by
      rw [hg o ho, Finset.mul_sum]
      exact Finset.sum_congr rfl fun k _ => by ring
  have h3 : ∀ (rs : List (Out σ (Fin n) ℝ)) (f : Fin l.length → Out σ (Fin n) ℝ → ℝ), (rs.map fun o => ∑ k, g l[k] * f k o).sum = ∑ k, g l[k] * (rs.map (f k)).sum := fun rs f => by
    induction rs with
    | nil => simp
    | cons o rs ih => simp only [List.map_cons, List.sum_cons, ih, mul_add, Finset.sum_add_distrib]
  rw [h2, h3 rows fun k o => tdErr (lin (fun _ => 0) (isAt l) best) o * isAt l o.S k]
  exact Finset.sum_eq_zero fun k _ => by rw [hb k, mul_zero]

/-- Claim C149, these values are determined for the states of the batch. -/
theorem C149_empirical_unique {gamma : ℝ} (h0 : 0 ≤ gamma) (h1 : gamma < 1) {rows : List (Out σ (Fin n) ℝ)} (hp : OnPolicy gamma rows) {u u' : σ → ℝ} (hu : Empirical rows u) (hu' : Empirical rows u') : ∀ o ∈ rows, u o.S = u' o.S := by
  classical
  set l := (rows.map (·.S)).dedup with hl
  have hnd : l.Nodup := List.nodup_dedup _
  obtain ⟨best, hb⟩ := C149_exists h0 h1 hp (fun _ => 0) (isAt l)
  have hall : ∀ v, Empirical rows v → ∀ o ∈ rows, lin (fun _ => 0) (isAt l) best o.S = v o.S := by
    intro v hv
    have h2 := C149_error h0 h1 hp hb hv fun k => v l[k]
    have h3 : (rows.map fun o => (lin (fun _ => 0) (isAt l) (fun k => v l[k]) o.S - v o.S) ^ 2) = rows.map fun _ => (0 : ℝ) := List.map_congr_left fun o ho => by
      have hm : o.S ∈ l := List.mem_dedup.2 (List.mem_map_of_mem ho)
      obtain ⟨j, hj, e⟩ := List.getElem_of_mem hm
      have := lin_isAt hnd (fun k => v l[k]) ⟨j, hj⟩
      simp only [Fin.getElem_fin, e] at this ⊢
      rw [this]
      simp
    rw [h3] at h2
    simp only [List.map_const', List.sum_replicate, smul_zero] at h2
    have h4 : 0 < 1 - gamma ^ 2 := by nlinarith
    have h5 : (rows.map fun o => (lin (fun _ => 0) (isAt l) best o.S - v o.S) ^ 2).sum ≤ 0 := by
      by_contra hc
      have := mul_pos h4 (not_le.1 hc)
      linarith
    intro o ho
    have h6 := List.single_le_sum (l := rows.map fun o => (lin (fun _ => 0) (isAt l) best o.S - v o.S) ^ 2) (fun y hy => by obtain ⟨o, -, rfl⟩ := List.mem_map.1 hy; positivity) _ (List.mem_map_of_mem ho)
    have h7 := pow_eq_zero_iff (two_ne_zero) |>.1 (le_antisymm (h6.trans h5) (sq_nonneg _))
    linarith
  intro o ho
  rw [← hall u hu o ho, hall u' hu' o ho]

/-- Claim C150, what the error is relative to: for the transitions that an `NStep` tracer makes of complete episodes, there are values that they confirm on average, and these are determined for the states and actions of the episodes. -/
theorem C150_empirical {gamma : ℝ} (h0 : 0 ≤ gamma) (h1 : gamma < 1) {N : ℕ} (hN : 0 < N) {steps : List (Step σ (Fin n) ℝ × Bool)} {x : Step σ (Fin n) ℝ} (hlast : steps.getLast? = some (x, true)) (hlogp : ∀ p ∈ steps, p.1.logp ≤ 0)
    (hw : ∀ p ∈ steps, p.1.w = 1) :
    ∃ tracer rows k, onlineU (fun _ (acc : List (Out σ (Fin n) ℝ)) o => .ok (acc ++ [o])) (NStep.init N gamma false, [], 0) steps = .ok (tracer, rows, k) ∧ ∃ u, EmpiricalQ rows u ∧ ∀ u', EmpiricalQ rows u' → ∀ p ∈ steps, u' p.1.s p.1.a = u p.1.s p.1.a := by
  obtain ⟨tracer, rows, k, hrun, hS, hne, hsa, hp⟩ := episodes_pair h0 h1.le hN hlast hlogp hw
  refine ⟨tracer, rows, k, hrun, ?_⟩
  obtain ⟨u, hu⟩ := C149_empirical h0 h1 hp
  have hq : EmpiricalQ rows fun s a => u (s, a) := by
    intro g
    have := hu fun p => g p.1 p.2
    rw [List.map_map] at this
    rw [← this]
    congr 1
    refine List.map_congr_left fun o ho => ?_
    obtain ⟨s, hs⟩ := Option.isSome_iff_exists.1 (hsa o ho).1
    obtain ⟨a, ha⟩ := Option.isSome_iff_exists.1 (hsa o ho).2
    simp [pair, tdErr, tdErrQ, hs, ha]
  refine ⟨_, hq, fun u' hu' p hp' => ?_⟩
  have h2 : (p.1.s, p.1.a) ∈ steps.map fun p => (p.1.s, p.1.a) := List.mem_map_of_mem (f := fun p : Step σ (Fin n) ℝ × Bool => (p.1.s, p.1.a)) hp'
  rw [← hS] at h2
  obtain ⟨o, ho, e⟩ := List.mem_map.1 h2
  rw [Prod.mk.injEq] at e
  have := C149_empirical_unique h0 h1 hp (empirical_pair hsa hu') hu (pair o) (List.mem_map_of_mem ho)
  rw [← e.1, ← e.2]
  exact this

/-- One step of an episode: its value is the reward. -/
example : ∃ (rows : List (Out Bool (Fin 1) ℝ)) (u : Bool → Fin 1 → ℝ), EmpiricalQ rows u ∧ ∀ u', EmpiricalQ rows u' → u' true 0 = u true 0 := by
  obtain ⟨-, rows, -, -, u, hu, h⟩ := C150_empirical (gamma := 9 / 10) (by norm_num) (by norm_num) (N := 1) one_pos (steps := [(⟨true, 0, 5, 0, 1⟩, true)]) (x := (⟨true, 0, 5, 0, 1⟩ : Step Bool (Fin 1) ℝ)) rfl (by simp) (by simp)
  exact ⟨rows, u, hu, fun u' hu' => h u' hu' (⟨true, 0, 5, 0, 1⟩, true) (by simp)⟩

end Coax.Loop
