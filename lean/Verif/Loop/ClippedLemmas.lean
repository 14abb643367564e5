import Verif.Loop.Clipped
import Verif.Loop.EvaluateProps
import Verif.Loop.DuelLemmas

/-! Two learners, one of which is chosen by a fair coin in each step. -/

namespace Coax.Loop

open Coax.RewardTracing Coax.TD Coax.Core Coax.Values Coax.Pol Filter Topology MeasureTheory

variable {σ Ω : Type _} {n m : Nat} {m0 : MeasurableSpace Ω}

/-! ### The target -/

/-- The least of the four values of the actions that are best according to either table. -/
noncomputable def clipped (n : Nat) (x y : Nat → ℝ) : ℝ := min (min (tieMean n x x) (tieMean n x y)) (min (tieMean n y x) (tieMean n y y))

theorem clipped_unique {x y : Nat → ℝ} {z : ℝ} (h1 : z = tieMean n x x ∨ z = tieMean n x y ∨ z = tieMean n y x ∨ z = tieMean n y y) (h2 : z ≤ tieMean n x x ∧ z ≤ tieMean n x y ∧ z ≤ tieMean n y x ∧ z ≤ tieMean n y y) :
    z = clipped n x y := by
  unfold clipped
  refine le_antisymm (le_min (le_min h2.1 h2.2.1) (le_min h2.2.2.1 h2.2.2.2)) ?_
  rcases h1 with h | h | h | h
  · exact h ▸ (min_le_left _ _).trans (min_le_left _ _)
  · exact h ▸ (min_le_left _ _).trans (min_le_right _ _)
  · exact h ▸ (min_le_right _ _).trans (min_le_left _ _)
  · exact h ▸ (min_le_right _ _).trans (min_le_right _ _)

theorem clipped_cases (x y : Nat → ℝ) : clipped n x y = tieMean n x x ∨ clipped n x y = tieMean n x y ∨ clipped n x y = tieMean n y x ∨ clipped n x y = tieMean n y y := by
  unfold clipped
  rcases min_choice (min (tieMean n x x) (tieMean n x y)) (min (tieMean n y x) (tieMean n y y)) with h | h
  · rw [h]
    rcases min_choice (tieMean n x x) (tieMean n x y) with h | h <;> rw [h] <;> simp
  · rw [h]
    rcases min_choice (tieMean n y x) (tieMean n y y) with h | h <;> rw [h] <;> simp

theorem tieMean_max_near (hn : 0 < n) {x y : Nat → ℝ} {D : ℝ} (h : ∀ a < n, |x a - y a| ≤ D) : |tieMean n x x - tieMean n y y| ≤ D := by
  obtain ⟨⟨a, ha, ha1⟩, ha2⟩ := tieMean_isMax hn x
  obtain ⟨⟨b, hb, hb1⟩, hb2⟩ := tieMean_isMax hn y
  rw [abs_le]
  have h1 := abs_le.1 (h a ha)
  have h2 := abs_le.1 (h b hb)
  have h3 := ha2 b hb
  have h4 := hb2 a ha
  constructor <;> linarith

/-- The clipped value is close to the greatest value of either table, if they are close to each other. -/
theorem clipped_near (hn : 0 < n) {x y : Nat → ℝ} {D : ℝ} (h : ∀ a < n, |x a - y a| ≤ D) : |clipped n x y - tieMean n x x| ≤ 2 * D ∧ |clipped n x y - tieMean n y y| ≤ 2 * D := by
  have hD : 0 ≤ D := (abs_nonneg _).trans (h 0 hn)
  have h1 := abs_le.1 (tieMean_max_near hn h)
  have h2 := abs_le.1 (tieMean_near hn x x y h)
  have h3 := abs_le.1 (tieMean_near hn y x y h)
  rw [abs_le, abs_le]
  rcases clipped_cases (n := n) x y with e | e | e | e <;> rw [e] <;> refine ⟨⟨?_, ?_⟩, ?_, ?_⟩ <;> linarith

theorem clipped_bound (hn : 0 < n) {x y : Nat → ℝ} {M : ℝ} (hx : ∀ a < n, |x a| ≤ M) (hy : ∀ a < n, |y a| ≤ M) : |clipped n x y| ≤ M := by
  have key : ∀ p q : Nat → ℝ, (∀ a < n, |q a| ≤ M) → |tieMean n p q| ≤ M := by
    intro p q hq
    have := tieMean_near hn p q (fun _ => 0) (D := M) fun a ha => by rw [sub_zero]; exact hq a ha
    simpa [tieMean] using this
  rcases clipped_cases (n := n) x y with e | e | e | e <;> rw [e] <;> exact key _ _ (by assumption)

theorem clipped_measurable (s : σ) : Measurable fun x : (σ → Fin n → ℝ) × (σ → Fin n → ℝ) => clipped n (ext x.1 s) (ext x.2 s) := by
  unfold clipped
  have h := tieMean_measurable (σ := σ) (n := n) s
  have h11 := h.comp (measurable_fst.prodMk measurable_fst : Measurable fun x : (σ → Fin n → ℝ) × (σ → Fin n → ℝ) => (x.1, x.1))
  have h12 := h.comp (measurable_snd.prodMk measurable_fst : Measurable fun x : (σ → Fin n → ℝ) × (σ → Fin n → ℝ) => (x.2, x.1))
  have h21 := h.comp (measurable_fst.prodMk measurable_snd : Measurable fun x : (σ → Fin n → ℝ) × (σ → Fin n → ℝ) => (x.1, x.2))
  have h22 := h.comp (measurable_snd.prodMk measurable_snd : Measurable fun x : (σ → Fin n → ℝ) × (σ → Fin n → ℝ) => (x.2, x.2))
  exact (h11.min h12).min (h21.min h22)

theorem clipped_types (hn : 0 < n) (θQ : σ → Fin n → ℝ) (θT : Bool → σ → Fin n → ℝ) (b : TBatch σ (List ℝ)) : clippedRule true θT (tabular true θQ) b = clippedRule false θT (tabular false θQ) b := by
  unfold clippedRule clippedDoubleQ
  have e : clippedValues n [tabular true (θT true), tabular true (θT false)] b.S_next = clippedValues n [tabular false (θT true), tabular false (θT false)] b.S_next := by
    unfold clippedValues evaluateAll tabular
    simp only [List.mapM_cons, List.mapM_nil]
    rw [(C55_agree hn (table_computes true (θT true)) b.S_next).1, (C55_agree hn (table_computes false (θT true)) b.S_next).1,
      (C55_agree hn (table_computes true (θT false)) b.S_next).1, (C55_agree hn (table_computes false (θT false)) b.S_next).1]
    simp only
    rw [greedy_table hn, greedy_table hn]
    simp only
    rw [table_types _ _ _ (by simp) (by simp), table_types _ _ _ (by simp) (by simp), table_types _ _ _ (by simp) (by simp), table_types _ _ _ (by simp) (by simp)]
  rw [e]
  rfl

theorem clipped_targets (hn : 0 < n) (type1 : Bool) (θQ : σ → Fin n → ℝ) (θT : Bool → σ → Fin n → ℝ) {b : TBatch σ (List ℝ)} (hb : WellFormed b) :
    Bootstraps id id b (fun s x => x = clipped n (ext (θT true) s) (ext (θT false) s)) (clippedRule type1 θT (tabular type1 θQ) b) := by
  have h2 : Bootstraps id id b (fun s x => x = clipped n (ext (θT true) s) (ext (θT false) s)) (clippedRule false θT (tabular false θQ) b) := by
    have := C46_clipped_partial hn (q := tabular false θQ) (qs := [tabular false (θT true), tabular false (θT false)]) (by simp) hb (fun q => ext q.params)
      (fun q' hq' => by
        rcases List.mem_cons.1 hq' with rfl | hq'
        · exact table_computes false _
        · rw [List.mem_singleton.1 hq']; exact table_computes false _)
      (fun qi _ qj hqj => by
        rcases List.mem_cons.1 hqj with rfl | hqj
        · exact Or.inl ⟨_, rfl⟩
        · rw [List.mem_singleton.1 hqj]; exact Or.inl ⟨_, rfl⟩)
    refine Bootstraps.imp this fun s x h => ?_
    obtain ⟨⟨qi, hqi, qj, hqj, hx⟩, hle⟩ := h
    have m1 : tabular false (θT true) ∈ [tabular false (θT true), tabular false (θT false)] := List.mem_cons_self
    have m2 : tabular false (θT false) ∈ [tabular false (θT true), tabular false (θT false)] := List.mem_cons_of_mem _ (List.mem_singleton.2 rfl)
    have l11 : x ≤ tieMean n (ext (θT true) s) (ext (θT true) s) := hle _ m1 _ m1
    have l12 : x ≤ tieMean n (ext (θT true) s) (ext (θT false) s) := hle _ m1 _ m2
    have l21 : x ≤ tieMean n (ext (θT false) s) (ext (θT true) s) := hle _ m2 _ m1
    have l22 : x ≤ tieMean n (ext (θT false) s) (ext (θT false) s) := hle _ m2 _ m2
    have hc : x = tieMean n (ext (θT true) s) (ext (θT true) s) ∨ x = tieMean n (ext (θT true) s) (ext (θT false) s) ∨ x = tieMean n (ext (θT false) s) (ext (θT true) s) ∨ x = tieMean n (ext (θT false) s) (ext (θT false) s) := by
      rcases List.mem_cons.1 hqi with e1 | hqi <;> rcases List.mem_cons.1 hqj with e2 | hqj
      · rw [e1, e2] at hx; exact Or.inl hx
      · rw [e1, List.mem_singleton.1 hqj] at hx; exact Or.inr (Or.inl hx)
      · rw [e2, List.mem_singleton.1 hqi] at hx; exact Or.inr (Or.inr (Or.inl hx))
      · rw [List.mem_singleton.1 hqi, List.mem_singleton.1 hqj] at hx; exact Or.inr (Or.inr (Or.inr hx))
    exact clipped_unique hc ⟨l11, l12, l21, l22⟩
  cases type1 with
  | false => exact h2
  | true => rw [clipped_types hn]; exact h2

/-- The target of `ClippedDoubleQLearning` for a transition with outcome `j`. -/
noncomputable def Mdp.clippedGoal (e : Mdp σ n m) (gamma : ℝ) (θT : Bool → σ → Fin n → ℝ) (p : σ × Fin n) (j : Fin m) : ℝ :=
  e.reward p.1 p.2 j + if e.ends p.1 p.2 j then 0 else gamma * clipped n (ext (θT true) (e.next p.1 p.2 j)) (ext (θT false) (e.next p.1 p.2 j))

theorem clipped_row (hn : 0 < n) (type1 : Bool) {e : Mdp σ n m} {gamma : ℝ} {o : Out σ (Fin n) ℝ} {j : Fin m} (rn : o.Rn = e.reward o.S o.A j) (ended : e.ends o.S o.A j = true → o.In = 0)
    (goes : e.ends o.S o.A j = false → o.In = gamma ∧ o.S_next = some (e.next o.S o.A j)) (hs : o.S_next.isSome) (ha : o.A_next.isSome) (θ : σ → Fin n → ℝ) (θT : Bool → σ → Fin n → ℝ) :
    ∃ B, toTBatch id (fun a : Fin n => oneHot n a) [o] = .ok B ∧ clippedRule type1 θT (tabular type1 θ) B = .ok [e.clippedGoal gamma θT (o.S, o.A) j] := by
  obtain ⟨s, hs⟩ := Option.isSome_iff_exists.1 hs
  obtain ⟨a, ha⟩ := Option.isSome_iff_exists.1 ha
  refine ⟨_, batch_one hs ha, ?_⟩
  obtain ⟨G, h1, h2, h3⟩ := clipped_targets hn type1 θ θT (b := ⟨[o.Rn], [o.In], [s], [oneHot n a]⟩) ⟨rfl, rfl⟩
  obtain ⟨x, hx, hG⟩ := h3 0 _ _ s rfl rfl rfl
  rw [h1]
  match G, h2, hG with
  | [y], _, hG =>
    have hy : y = o.Rn + o.In * x := by simpa using hG
    rw [hy, hx, rn]
    unfold Mdp.clippedGoal
    cases hE : e.ends o.S o.A j with
    | true => rw [ended hE]; simp
    | false =>
      obtain ⟨g1, g2⟩ := goes hE
      rw [hs] at g2
      cases g2
      rw [g1]; simp

end Coax.Loop
