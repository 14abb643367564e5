import Verif.TD.TargetsLemmas
import Mathlib.Analysis.SpecialFunctions.Exp

/-! Properties C45 and C46: targets of terminal transitions, and the relations between the targets. -/

namespace Coax.TD

open Coax.Core

variable {P σ α : Type _}

/-- What C45 claims of a computed target: in each row with `In = 0` it is `f Rn`. -/
def NoBootstrap (f : ℝ → ℝ) (b : TBatch σ α) (target : Except Err (List ℝ)) : Prop :=
  ∀ G, target = .ok G → ∀ (i : Nat) (r : ℝ), b.Rn[i]? = some r → b.In[i]? = some 0 → G[i]? = some (f r)

theorem noBootstrap_backup (f fInv : ℝ → ℝ) (b : TBatch σ α) (Q : List ℝ) : NoBootstrap f b (backup f fInv b Q) :=
  fun _ h _ _ hr hi => backup_terminal h hr hi

theorem noBootstrap_error (f : ℝ → ℝ) (b : TBatch σ α) (e : Err) : NoBootstrap f b (.error e) := fun _ h => by cases h

/-- C45 for SimpleTD. -/
theorem C45_simpleTD (v vTarg : VFn P σ) (b : TBatch σ α) : NoBootstrap v.transform b (simpleTD v vTarg b) := noBootstrap_backup _ _ _ _

/-- C45 for Sarsa. -/
theorem C45_sarsa (n : Nat) (q qTarg : QFn P σ (List ℝ)) (b : TBatch σ (List ℝ)) : NoBootstrap q.transform b (sarsa n q qTarg b) := by
  unfold sarsa; split
  · exact noBootstrap_error _ _ _
  · exact noBootstrap_backup _ _ _ _

theorem C45_sarsaCont (q qTarg : QFn P σ α) (b : TBatch σ α) : NoBootstrap q.transform b (sarsaCont q qTarg b) := by
  unfold sarsaCont; split
  · exact noBootstrap_error _ _ _
  · exact noBootstrap_backup _ _ _ _

/-- C45 for QLearning. -/
theorem C45_qLearning (n : Nat) (q qTarg : QFn P σ (List ℝ)) (b : TBatch σ (List ℝ)) : NoBootstrap q.transform b (qLearning n q qTarg b) := by
  unfold qLearning; repeat' split
  all_goals first | exact noBootstrap_error _ _ _ | exact noBootstrap_backup _ _ _ _

theorem C45_qLearningCont (mode : List σ → List α) (q qTarg : QFn P σ α) (b : TBatch σ α) : NoBootstrap q.transform b (qLearningCont mode q qTarg b) := by
  unfold qLearningCont; split
  · exact noBootstrap_error _ _ _
  · exact noBootstrap_backup _ _ _ _

/-- C45 for DoubleQLearning. -/
theorem C45_doubleQLearning (n : Nat) (q qTarg : QFn P σ (List ℝ)) (b : TBatch σ (List ℝ)) : NoBootstrap q.transform b (doubleQLearning n q qTarg b) := by
  unfold doubleQLearning; repeat' split
  all_goals first | exact noBootstrap_error _ _ _ | exact noBootstrap_backup _ _ _ _

theorem C45_doubleQLearningCont (mode : List σ → List α) (q qTarg : QFn P σ α) (b : TBatch σ α) : NoBootstrap q.transform b (doubleQLearningCont mode q qTarg b) := by
  unfold doubleQLearningCont; split
  · exact noBootstrap_error _ _ _
  · exact noBootstrap_backup _ _ _ _

/-- C45 for ExpectedSarsa. -/
theorem C45_expectedSarsa (n : Nat) (logits : List σ → List (List ℝ)) (q qTarg : QFn P σ (List ℝ)) (b : TBatch σ (List ℝ)) :
    NoBootstrap q.transform b (expectedSarsa n logits q qTarg b) := by
  unfold expectedSarsa; split
  · exact noBootstrap_error _ _ _
  · exact noBootstrap_backup _ _ _ _

/-- C45 for SoftQLearning. -/
theorem C45_softQLearning (n : Nat) (tau : ℝ) (q qTarg : QFn P σ (List ℝ)) (b : TBatch σ (List ℝ)) :
    NoBootstrap q.transform b (softQLearning n tau q qTarg b) := by
  unfold softQLearning; repeat' split
  all_goals first | exact noBootstrap_error _ _ _ | exact noBootstrap_backup _ _ _ _

/-- C45 for ClippedDoubleQLearning and SoftClippedDoubleQLearning. -/
theorem C45_clippedDoubleQ (n : Nat) (q : QFn P σ (List ℝ)) (qs : List (QFn P σ (List ℝ))) (b : TBatch σ (List ℝ)) :
    NoBootstrap q.transform b (clippedDoubleQ n q qs b) := by
  unfold clippedDoubleQ; repeat' split
  all_goals first | exact noBootstrap_error _ _ _ | exact noBootstrap_backup _ _ _ _

theorem C45_clippedDoubleQCont (modes : List (List σ → List α)) (q : QFn P σ α) (qs : List (QFn P σ α)) (b : TBatch σ α) :
    NoBootstrap q.transform b (clippedDoubleQCont modes q qs b) := by
  unfold clippedDoubleQCont; repeat' split
  all_goals first | exact noBootstrap_error _ _ _ | exact noBootstrap_backup _ _ _ _

/-- The rows of a batch all have the same number. -/
structure WellFormed (b : TBatch σ α) : Prop where
  rn : b.Rn.length = b.S_next.length
  inn : b.In.length = b.S_next.length

/-- The targets are `f (Rn + In * f_inv (value s'))`, row by row, where `value` is a function of the next state with the given property. -/
def Bootstraps (f fInv : ℝ → ℝ) (b : TBatch σ α) (spec : σ → ℝ → Prop) (target : Except Err (List ℝ)) : Prop :=
  ∃ G, target = .ok G ∧ G.length = b.S_next.length ∧
    ∀ (i : Nat) (r d : ℝ) (s : σ), b.Rn[i]? = some r → b.In[i]? = some d → b.S_next[i]? = some s → ∃ x, spec s x ∧ G[i]? = some (f (r + d * fInv x))

theorem bootstraps_backup {f fInv : ℝ → ℝ} {b : TBatch σ α} (hb : WellFormed b) {spec : σ → ℝ → Prop} (g : σ → ℝ) (hg : ∀ s ∈ b.S_next, spec s (g s)) :
    Bootstraps f fInv b spec (backup f fInv b (b.S_next.map g)) := by
  obtain ⟨G, hG⟩ := backup_total (f := f) (fInv := fInv) (b := b) (Q := b.S_next.map g) (by simp [hb.rn]) (by simp [hb.inn])
  refine ⟨G, hG, by simpa using (backup_ok hG).1, ?_⟩
  intro i r d s h1 h2 h3
  refine ⟨g s, hg s (List.mem_of_getElem? h3), ?_⟩
  exact (backup_ok hG).2 i r d (g s) h1 h2 (by rw [List.getElem?_map, h3]; rfl)

/-- The greatest of the first `n` values of `p`. -/
def IsMaxOf (n : Nat) (p : Nat → ℝ) (x : ℝ) : Prop := (∃ a < n, p a = x) ∧ ∀ a < n, p a ≤ x

theorem tieMean_isMax {n : Nat} (hn : 0 < n) (p : Nat → ℝ) : IsMaxOf n p (tieMean n p p) := by
  obtain ⟨a, ha⟩ := maximisers_nonempty hn p
  rw [tieMean_self hn ha]
  exact ⟨⟨a, (mem_maximisers.1 ha).1, rfl⟩, (mem_maximisers.1 ha).2⟩

theorem greedy_ok {n : Nat} (hn : 0 < n) (p : σ → Nat → ℝ) (S : List σ) :
    greedy n (S.map (fun s => (List.range n).map (p s)))
      = .ok (S.map (fun s => (List.range n).map (fun a => if a ∈ maximisers n (p s) then 1 / ((maximisers n (p s)).card : ℝ) else 0))) := by
  unfold greedy
  rw [if_neg (by simp), greedy_table hn]

/-- C46.  QLearning bootstraps with `max_a q_targ(s', a)`: for a type-2 q-function always, for a type-1 q-function if in each row there is
one maximising action. -/
theorem C46_qLearning_partial {n : Nat} (hn : 0 < n) {q qTarg : QFn P σ (List ℝ)} {b : TBatch σ (List ℝ)} (hb : WellFormed b) {t : σ → Nat → ℝ}
    (ht : Computes n t (qTarg.forward qTarg.params)) (hf : q.forward = qTarg.forward) (hs : TieSafe n t (qTarg.forward qTarg.params) b.S_next) :
    Bootstraps q.transform qTarg.inverse b (fun s x => IsMaxOf n (t s) x) (qLearning n q qTarg b) := by
  unfold qLearning
  rw [(C55_agree hn ht b.S_next).1]
  simp only
  rw [greedy_ok hn]
  simp only
  rw [hf, functionType1_greedy hn ht hs]
  exact bootstraps_backup hb _ (fun s _ => tieMean_isMax hn (t s))

/-- C46.  DoubleQLearning evaluates `q` at the actions that maximise `q_targ`; with ties the average.  It never exceeds `max_a q(s', a)`. -/
theorem C46_doubleQLearning_partial {n : Nat} (hn : 0 < n) {q qTarg : QFn P σ (List ℝ)} {b : TBatch σ (List ℝ)} (hb : WellFormed b) {t u : σ → Nat → ℝ}
    (ht : Computes n t (qTarg.forward qTarg.params)) (hu : Computes n u (q.forward q.params)) (hs : TieSafe n t (q.forward q.params) b.S_next) :
    Bootstraps q.transform qTarg.inverse b
      (fun s x => (∀ a, a < n → (∀ c < n, c ≠ a → t s c < t s a) → x = u s a) ∧ ∀ m, IsMaxOf n (u s) m → x ≤ m) (doubleQLearning n q qTarg b) := by
  unfold doubleQLearning
  rw [(C55_agree hn ht b.S_next).1]
  simp only
  rw [greedy_ok hn]
  simp only
  rw [functionType1_greedy hn hu hs]
  refine bootstraps_backup hb _ (fun s _ => ⟨?_, fun m hm => tieMean_le hn _ hm.2⟩)
  intro a ha hmax
  refine tieMean_single _ ?_
  ext c
  rw [mem_maximisers, Finset.mem_singleton]
  constructor
  · rintro ⟨hc, h⟩
    by_contra hne
    exact absurd (h a ha) (not_le.2 (hmax c hc hne))
  · rintro rfl
    refine ⟨ha, fun d hd => ?_⟩
    by_cases hd' : d = c
    · rw [hd']
    · exact (hmax d hd hd').le

/-- C46.  DoubleQLearning and QLearning give the same targets (or the same error) when `q` and `q_targ` have the same params. -/
theorem C46_double_eq_single (n : Nat) (q qTarg : QFn P σ (List ℝ)) (h : q.params = qTarg.params) (b : TBatch σ (List ℝ)) :
    doubleQLearning n q qTarg b = qLearning n q qTarg b := by
  unfold doubleQLearning qLearning; rw [h]

/-- For a type-1 q-function with ties QLearning does not bootstrap with the maximum: it evaluates the network at an action between the
maximising ones.  Here `q(s, A) = A₀² + A₁²`, so that both actions have the value 1, and the target is ½. -/
theorem C46_qLearning_ties : ∃ (q : QFn Unit Unit (List ℝ)) (b : TBatch Unit (List ℝ)) (t : Unit → Nat → ℝ), WellFormed b ∧ Computes 2 t (q.forward q.params) ∧
    q.transform = id ∧ q.inverse = id ∧ (∀ a < 2, t () a = 1) ∧ b.Rn = [0] ∧ b.In = [1] ∧ qLearning 2 q q b = .ok [1/2] := by
  let g : Unit → List ℝ → ℝ := fun _ A => (A.map (fun x => x * x)).sum
  let F : Func Unit (List ℝ) ℝ := .type1 (List.zipWith g)
  have hF : Computes 2 (fun (_ : Unit) _ => (1 : ℝ)) F := .type1 _ g (fun _ _ _ => rfl) (by
    intro s a ha
    rcases a with _ | _ | a
    · simp [g, oneHot, List.range_succ]
    · simp [g, oneHot, List.range_succ]
    · omega)
  have hmax : maximisers 2 (fun _ => (1 : ℝ)) = {0, 1} := by ext a; simp only [mem_maximisers, le_refl, implies_true, and_true, Finset.mem_insert, Finset.mem_singleton]; omega
  refine ⟨⟨fun _ => F, (), id, id⟩, ⟨[0], [1], [()], [[0, 0]]⟩, fun _ _ => 1, ⟨rfl, rfl⟩, hF, rfl, rfl, fun _ _ => rfl, rfl, rfl, ?_⟩
  unfold qLearning
  rw [(C55_agree (by norm_num) hF _).1]
  simp only
  rw [greedy_ok (by norm_num)]
  simp only [hmax]
  norm_num [functionType1, F, g, backup, List.range_succ]

/-- C46.  ExpectedSarsa with a type-2 q-function bootstraps with the expectation of `q_targ(s', ·)` under the target policy, which lies between the
least and the greatest value. -/
theorem C46_expectedSarsa_partial {n : Nat} {q qTarg : QFn P σ (List ℝ)} {b : TBatch σ (List ℝ)} (hb : WellFormed b) {t l : σ → Nat → ℝ}
    {f : List σ → List (List ℝ)} (hf : qTarg.forward qTarg.params = .type2 f) (ht : Computes n t (.type2 f)) (hn : 0 < n) :
    Bootstraps q.transform qTarg.inverse b
      (fun s x => x = ∑ a ∈ Finset.range n, Real.exp (l s a) / (∑ c ∈ Finset.range n, Real.exp (l s c)) * t s a ∧
        (∀ lo, (∀ a < n, lo ≤ t s a) → lo ≤ x) ∧ ∀ hi, (∀ a < n, t s a ≤ hi) → x ≤ hi)
      (expectedSarsa n (fun S => S.map (fun s => (List.range n).map (l s))) q qTarg b) := by
  obtain hf' := (by cases ht with | type2 _ hf => exact hf : ∀ S, f S = S.map (fun s => (List.range n).map (t s)))
  unfold expectedSarsa functionType1
  rw [hf]
  simp only
  rw [if_neg (by simp [softmax]), if_neg (by rw [hf']; simp), hf']
  have hw : ∀ s : σ, softmax ((List.range n).map (l s)) = (List.range n).map (fun a => Real.exp (l s a) / (∑ c ∈ Finset.range n, Real.exp (l s c))) := by
    intro s
    unfold softmax
    rw [List.map_map, List.map_map, sum_map_range]
    rfl
  have e : List.zipWith dot ((b.S_next.map (fun s => (List.range n).map (l s))).map softmax) (b.S_next.map (fun s => (List.range n).map (t s)))
      = b.S_next.map (fun s => ∑ a ∈ Finset.range n, Real.exp (l s a) / (∑ c ∈ Finset.range n, Real.exp (l s c)) * t s a) := by
    apply List.ext_getElem
    · simp
    · intro i h1 h2
      simp only [List.getElem_zipWith, List.getElem_map]
      rw [hw, dot_map_range]
  rw [e]
  have hpos : ∀ s : σ, 0 < ∑ c ∈ Finset.range n, Real.exp (l s c) := fun s =>
    Finset.sum_pos (fun _ _ => Real.exp_pos _) ⟨0, by simpa using hn⟩
  have hone : ∀ s : σ, ∑ a ∈ Finset.range n, Real.exp (l s a) / (∑ c ∈ Finset.range n, Real.exp (l s c)) = 1 := by
    intro s; rw [← Finset.sum_div, div_self (hpos s).ne']
  refine bootstraps_backup hb _ (fun s _ => ⟨rfl, ?_, ?_⟩)
  · intro lo hlo
    calc lo = ∑ a ∈ Finset.range n, Real.exp (l s a) / (∑ c ∈ Finset.range n, Real.exp (l s c)) * lo := by rw [← Finset.sum_mul, hone, one_mul]
      _ ≤ _ := Finset.sum_le_sum (fun a ha => mul_le_mul_of_nonneg_left (hlo a (by simpa using ha)) (div_nonneg (Real.exp_pos _).le (hpos s).le))
  · intro hi hhi
    calc _ ≤ ∑ a ∈ Finset.range n, Real.exp (l s a) / (∑ c ∈ Finset.range n, Real.exp (l s c)) * hi :=
          Finset.sum_le_sum (fun a ha => mul_le_mul_of_nonneg_left (hhi a (by simpa using ha)) (div_nonneg (Real.exp_pos _).le (hpos s).le))
      _ = hi := by rw [← Finset.sum_mul, hone, one_mul]

/-- C46.  The SoftQLearning value is the soft maximum `τ log Σ_a exp (q(s', a) / τ)`; it lies between `max_a q` and `max_a q + τ log n`. -/
theorem C46_softQLearning {n : Nat} (hn : 0 < n) {tau : ℝ} (htau : 0 < tau) {q qTarg : QFn P σ (List ℝ)} {b : TBatch σ (List ℝ)} (hb : WellFormed b) {t : σ → Nat → ℝ}
    (ht : Computes n t (qTarg.forward qTarg.params)) :
    Bootstraps q.transform qTarg.inverse b (fun s x => Real.exp (x / tau) = ∑ a ∈ Finset.range n, Real.exp (t s a / tau) ∧ ∀ m, IsMaxOf n (t s) m → m ≤ x ∧ x ≤ m + tau * Real.log n)
      (softQLearning n tau q qTarg b) := by
  unfold softQLearning
  rw [(C55_agree hn ht b.S_next).1]
  simp only
  rw [if_neg (by simp), List.map_map]
  refine bootstraps_backup hb _ (fun s _ => ?_)
  have e : (softMax tau ∘ fun s => (List.range n).map (t s)) s = tau * Real.log (∑ a ∈ Finset.range n, Real.exp (t s a / tau)) := by
    simp only [Function.comp_apply, softMax]
    rw [List.map_map, sum_map_range]; rfl
  rw [e]
  refine ⟨?_, ?_⟩
  · rw [mul_div_cancel_left₀ _ htau.ne', Real.exp_log (Finset.sum_pos (fun _ _ => Real.exp_pos _) ⟨0, by simpa using hn⟩)]
  rintro m ⟨⟨a, ha, hm⟩, hle⟩
  have hge : Real.exp (m / tau) ≤ ∑ a ∈ Finset.range n, Real.exp (t s a / tau) := by
    rw [← hm]
    exact Finset.single_le_sum (f := fun a => Real.exp (t s a / tau)) (fun _ _ => (Real.exp_pos _).le) (by simpa using ha)
  have hpos := lt_of_lt_of_le (Real.exp_pos _) hge
  have hup : ∑ a ∈ Finset.range n, Real.exp (t s a / tau) ≤ n * Real.exp (m / tau) := by
    calc _ ≤ ∑ _a ∈ Finset.range n, Real.exp (m / tau) := Finset.sum_le_sum (fun a ha => Real.exp_le_exp.2 (by
            have := hle a (by simpa using ha); gcongr))
      _ = _ := by simp
  have hn' : (0 : ℝ) < n := by exact_mod_cast hn
  constructor
  · have := Real.log_le_log (Real.exp_pos _) hge
    rw [Real.log_exp, div_le_iff₀ htau] at this
    linarith
  · have := Real.log_le_log hpos hup
    rw [Real.log_mul hn'.ne' (Real.exp_pos _).ne', Real.log_exp] at this
    calc _ ≤ tau * (Real.log n + m / tau) := mul_le_mul_of_nonneg_left this htau.le
      _ = m + tau * Real.log n := by field_simp; ring

theorem foldl_min_get {k : Nat} (vs : List (List ℝ)) (v : List ℝ) (hv : v.length = k) (h : ∀ u ∈ vs, u.length = k) :
    (vs.foldl (List.zipWith min) v).length = k ∧
    ∀ i < k, ∃ x, (vs.foldl (List.zipWith min) v)[i]? = some x ∧ (∃ u ∈ v :: vs, u[i]? = some x) ∧ ∀ u ∈ v :: vs, ∀ y, u[i]? = some y → x ≤ y := by
  induction vs generalizing v with
  | nil =>
    refine ⟨hv, fun i hi => ⟨v[i], List.getElem?_eq_getElem _, ⟨v, by simp, List.getElem?_eq_getElem _⟩, ?_⟩⟩
    intro u hu y hy
    rw [List.mem_singleton.1 hu, List.getElem?_eq_getElem (by omega)] at hy
    cases hy; exact le_rfl
  | cons w vs ih =>
    have hw := h w (by simp)
    obtain ⟨h1, h2⟩ := ih (List.zipWith min v w) (by simp [hv, hw]) (fun u hu => h u (by simp [hu]))
    refine ⟨h1, fun i hi => ?_⟩
    obtain ⟨x, hx, ⟨u, hu, hux⟩, hmin⟩ := h2 i hi
    have hz : (List.zipWith min v w)[i]? = some (min v[i] w[i]) := by
      rw [List.getElem?_zipWith, List.getElem?_eq_getElem (by omega), List.getElem?_eq_getElem (by omega)]
    refine ⟨x, hx, ?_, ?_⟩
    · rcases List.mem_cons.1 hu with rfl | hu
      · rw [hz] at hux
        cases hux
        rcases min_choice v[i] w[i] with hc | hc
        · rw [hc]; exact ⟨v, by simp, List.getElem?_eq_getElem _⟩
        · rw [hc]; exact ⟨w, by simp, List.getElem?_eq_getElem _⟩
      · exact ⟨u, by simp [hu], hux⟩
    · have hxm := hmin _ (by simp) _ hz
      intro u hu y hy
      rcases List.mem_cons.1 hu with rfl | hu
      · rw [List.getElem?_eq_getElem (by omega)] at hy; cases hy
        exact hxm.trans (min_le_left _ _)
      · rcases List.mem_cons.1 hu with rfl | hu
        · rw [List.getElem?_eq_getElem (by omega)] at hy; cases hy
          exact hxm.trans (min_le_right _ _)
        · exact hmin u (by simp [hu]) y hy

/-- The minimum of values that are functions of the state. -/
theorem stackMin_map {S : List σ} {ι : Type _} (idx : List ι) (hne : idx ≠ []) (g : ι → σ → ℝ) :
    ∃ m : List ℝ, stackMin (idx.map (fun k => S.map (g k))) = .ok m ∧ m.length = S.length ∧
      ∀ (i : Nat) (s : σ), S[i]? = some s → ∃ x, m[i]? = some x ∧ (∃ k ∈ idx, x = g k s) ∧ ∀ k ∈ idx, x ≤ g k s := by
  cases idx with
  | nil => exact absurd rfl hne
  | cons k0 idx =>
    unfold stackMin
    simp only [List.map_cons]
    rw [if_neg (by simp)]
    obtain ⟨h1, h2⟩ := foldl_min_get (k := S.length) (idx.map (fun k => S.map (g k))) (S.map (g k0)) (by simp) (by simp)
    refine ⟨_, rfl, h1, ?_⟩
    intro i s hs
    have hi := (List.getElem?_eq_some_iff.1 hs).1
    obtain ⟨x, hx, ⟨u, hu, hux⟩, hmin⟩ := h2 i hi
    rw [← List.map_cons (f := fun k => S.map (g k))] at hu hmin
    refine ⟨x, hx, ?_, ?_⟩
    · obtain ⟨k, hk, rfl⟩ := List.mem_map.1 hu
      rw [List.getElem?_map, hs] at hux
      cases hux
      exact ⟨k, hk, rfl⟩
    · intro k hk
      refine hmin _ (List.mem_map.2 ⟨k, hk, rfl⟩) _ ?_
      rw [List.getElem?_map, hs]; rfl

/-- C46.  The clipped double-q target bootstraps with the least of the values `f_inv_j(q_j(s', a_i))` over all pairs of target q-functions, `a_i` being the
action that maximises `q_i` (the average over ties for type-2 q-functions).  So it is a lower bound of each of them, and one of them. -/
theorem C46_clipped_partial {n : Nat} (hn : 0 < n) {q : QFn P σ (List ℝ)} {qs : List (QFn P σ (List ℝ))} (hne : qs ≠ []) {b : TBatch σ (List ℝ)} (hb : WellFormed b)
    (t : QFn P σ (List ℝ) → σ → Nat → ℝ) (ht : ∀ q' ∈ qs, Computes n (t q') (q'.forward q'.params))
    (hs : ∀ qi ∈ qs, ∀ qj ∈ qs, TieSafe n (t qi) (qj.forward qj.params) b.S_next) :
    Bootstraps q.transform id b
      (fun s x => (∃ qi ∈ qs, ∃ qj ∈ qs, x = qj.inverse (tieMean n (t qi s) (t qj s))) ∧ ∀ qi ∈ qs, ∀ qj ∈ qs, x ≤ qj.inverse (tieMean n (t qi s) (t qj s)))
      (clippedDoubleQ n q qs b) := by
  let pairs := qs.flatMap (fun qi => qs.map (fun qj => (qi, qj)))
  let g : QFn P σ (List ℝ) × QFn P σ (List ℝ) → σ → ℝ := fun k s => k.2.inverse (tieMean n (t k.1 s) (t k.2 s))
  have hpairs : ∀ k, k ∈ pairs ↔ k.1 ∈ qs ∧ k.2 ∈ qs := by
    rintro ⟨k1, k2⟩
    simp only [pairs, List.mem_flatMap, List.mem_map, Prod.mk.injEq]
    constructor
    · rintro ⟨a, ha, c, hc, rfl, rfl⟩; exact ⟨ha, hc⟩
    · rintro ⟨ha, hc⟩; exact ⟨k1, ha, k2, hc, rfl, rfl⟩
  have hvals : clippedValues n qs b.S_next = .ok (pairs.map (fun k => b.S_next.map (g k))) := by
    unfold clippedValues
    rw [mapM_ok (g := fun qi => qs.map (fun qj => b.S_next.map (g (qi, qj))))]
    · simp only [pairs, List.flatMap_def, List.map_flatten, List.map_map, Function.comp_def]
    · intro qi hqi
      rw [(C55_agree hn (ht qi hqi) b.S_next).1]
      simp only
      rw [greedy_table hn]
      simp only
      unfold evaluateAll
      refine mapM_ok (fun qj hqj => ?_)
      rw [functionType1_greedy hn (ht qj hqj) (hs qi hqi qj hqj)]
      simp only [Except.map, List.map_map]
      rfl
  obtain ⟨q0, hq0⟩ := List.exists_mem_of_ne_nil qs hne
  obtain ⟨m, hm, hml, hmx⟩ := stackMin_map (S := b.S_next) pairs (List.ne_nil_of_mem ((hpairs (q0, q0)).2 ⟨hq0, hq0⟩)) g
  unfold clippedDoubleQ
  rw [hvals]
  simp only
  rw [hm]
  simp only
  obtain ⟨G, hG⟩ := backup_total (f := q.transform) (fInv := id) (b := b) (Q := m) (by rw [hml, hb.rn]) (by rw [hml, hb.inn])
  refine ⟨G, hG, by rw [(backup_ok hG).1, hml], ?_⟩
  intro i r d s h1 h2 h3
  obtain ⟨x, hx, ⟨k, hk, hkx⟩, hmin⟩ := hmx i s h3
  refine ⟨x, ⟨⟨k.1, ((hpairs k).1 hk).1, k.2, ((hpairs k).1 hk).2, hkx⟩, ?_⟩, (backup_ok hG).2 i r d x h1 h2 hx⟩
  intro qi hqi qj hqj
  exact hmin (qi, qj) ((hpairs _).2 ⟨hqi, hqj⟩)

/-- The same for other action spaces: the least value over all pairs of a target policy and a target q-function. -/
theorem C46_clippedCont {q : QFn P σ α} {qs : List (QFn P σ α)} (hne : qs ≠ []) {b : TBatch σ α} (hb : WellFormed b) {modes : List (List σ → List α)} (hmodes : modes ≠ [])
    (act : (List σ → List α) → σ → α) (hact : ∀ mode ∈ modes, ∀ S, mode S = S.map (act mode))
    (t : QFn P σ α → σ → α → ℝ) (ht : ∀ q' ∈ qs, ∃ f, q'.forward q'.params = .type1 f ∧ ∀ S A, f S A = List.zipWith (t q') S A) :
    Bootstraps q.transform id b
      (fun s x => (∃ mode ∈ modes, ∃ qj ∈ qs, x = qj.inverse (t qj s (act mode s))) ∧ ∀ mode ∈ modes, ∀ qj ∈ qs, x ≤ qj.inverse (t qj s (act mode s)))
      (clippedDoubleQCont modes q qs b) := by
  let pairs := modes.flatMap (fun mode => qs.map (fun qj => (mode, qj)))
  let g : (List σ → List α) × QFn P σ α → σ → ℝ := fun k s => k.2.inverse (t k.2 s (act k.1 s))
  have hpairs : ∀ k, k ∈ pairs ↔ k.1 ∈ modes ∧ k.2 ∈ qs := by
    rintro ⟨k1, k2⟩
    simp only [pairs, List.mem_flatMap, List.mem_map, Prod.mk.injEq]
    constructor
    · rintro ⟨a, ha, c, hc, rfl, rfl⟩; exact ⟨ha, hc⟩
    · rintro ⟨ha, hc⟩; exact ⟨k1, ha, k2, hc, rfl, rfl⟩
  have hvals : modes.mapM (fun mode => qs.mapM (fun q => (evalAt (q.forward q.params) b.S_next (mode b.S_next)).map (fun Q => Q.map q.inverse)))
      = .ok (modes.map (fun mode => qs.map (fun qj => b.S_next.map (g (mode, qj))))) := by
    refine mapM_ok (fun mode hmode => mapM_ok (fun qj hqj => ?_))
    obtain ⟨f, hf, hz⟩ := ht qj hqj
    rw [hf, hact mode hmode]
    simp only [evalAt, Except.map, hz]
    congr 1
    apply List.ext_getElem
    · simp
    · intro i h1 h2; simp [g]
  obtain ⟨q0, hq0⟩ := List.exists_mem_of_ne_nil qs hne
  obtain ⟨m0, hm0⟩ := List.exists_mem_of_ne_nil modes hmodes
  obtain ⟨m, hm, hml, hmx⟩ := stackMin_map (S := b.S_next) pairs (List.ne_nil_of_mem ((hpairs (m0, q0)).2 ⟨hm0, hq0⟩)) g
  have hflat : (modes.map (fun mode => qs.map (fun qj => b.S_next.map (g (mode, qj))))).flatten = pairs.map (fun k => b.S_next.map (g k)) := by
    simp only [pairs, List.flatMap_def, List.map_flatten, List.map_map, Function.comp_def]
  unfold clippedDoubleQCont
  rw [hvals]
  simp only
  rw [hflat, hm]
  simp only
  obtain ⟨G, hG⟩ := backup_total (f := q.transform) (fInv := id) (b := b) (Q := m) (by rw [hml, hb.rn]) (by rw [hml, hb.inn])
  refine ⟨G, hG, by rw [(backup_ok hG).1, hml], ?_⟩
  intro i r d s h1 h2 h3
  obtain ⟨x, hx, ⟨k, hk, hkx⟩, hmin⟩ := hmx i s h3
  refine ⟨x, ⟨⟨k.1, ((hpairs k).1 hk).1, k.2, ((hpairs k).1 hk).2, hkx⟩, ?_⟩, (backup_ok hG).2 i r d x h1 h2 hx⟩
  intro mode hmode qj hqj
  exact hmin (mode, qj) ((hpairs _).2 ⟨hmode, hqj⟩)

/-- Sarsa bootstraps with `q_targ(s', a')` for the recorded next action. -/
theorem C46_sarsa {n : Nat} (hn : 0 < n) {q qTarg : QFn P σ (List ℝ)} {b : TBatch σ (List ℝ)} (hb : WellFormed b) {t : σ → Nat → ℝ}
    (ht : Computes n t (qTarg.forward qTarg.params)) (acts : List Nat) (hA : b.A_next = acts.map (oneHot n)) (hl : acts.length = b.S_next.length) (ha : ∀ a ∈ acts, a < n) :
    ∃ G, sarsa n q qTarg b = .ok G ∧ G.length = b.S_next.length ∧
      ∀ (i : Nat) (r d : ℝ) (s : σ) (a : Nat), b.Rn[i]? = some r → b.In[i]? = some d → b.S_next[i]? = some s → acts[i]? = some a →
        G[i]? = some (q.transform (r + d * qTarg.inverse (t s a))) := by
  unfold sarsa
  rw [hA, (C55_agree hn ht b.S_next).2 acts hl ha]
  simp only
  obtain ⟨G, hG⟩ := backup_total (f := q.transform) (fInv := qTarg.inverse) (b := b) (Q := List.zipWith t b.S_next acts) (by simp [hb.rn, hl]) (by simp [hb.inn, hl])
  refine ⟨G, hG, by rw [(backup_ok hG).1]; simp [hl], ?_⟩
  intro i r d s a h1 h2 h3 h4
  exact (backup_ok hG).2 i r d _ h1 h2 (by rw [List.getElem?_zipWith, h3, h4])

/-- SimpleTD bootstraps with `v_targ(s')`. -/
theorem C46_simpleTD {v vTarg : VFn P σ} {b : TBatch σ α} (hb : WellFormed b) {t : σ → ℝ} (ht : ∀ S, vTarg.forward vTarg.params S = S.map t) :
    Bootstraps v.transform vTarg.inverse b (fun s x => x = t s) (simpleTD v vTarg b) := by
  unfold simpleTD
  rw [ht]
  exact bootstraps_backup hb t (fun _ _ => rfl)

/-- A q-function for any action space whose rows do not influence each other. -/
def ComputesAt (t : σ → α → ℝ) (F : Func σ α ℝ) : Prop := ∃ f, F = .type1 f ∧ ∀ S A, f S A = List.zipWith t S A

theorem evalAt_computes {t : σ → α → ℝ} {F : Func σ α ℝ} (h : ComputesAt t F) (S : List σ) (A : List α) : evalAt F S A = .ok (List.zipWith t S A) := by
  obtain ⟨f, rfl, hf⟩ := h
  simp [evalAt, hf]

theorem zipWith_map_self (t : σ → α → ℝ) (act : σ → α) (S : List σ) : List.zipWith t S (S.map act) = S.map (fun s => t s (act s)) := by
  induction S with
  | nil => rfl
  | cons s S ih => simp [ih]

/-- Sarsa for other action spaces. -/
theorem C46_sarsaCont {q qTarg : QFn P σ α} {b : TBatch σ α} (hb : WellFormed b) {t : σ → α → ℝ} (ht : ComputesAt t (qTarg.forward qTarg.params))
    (hl : b.A_next.length = b.S_next.length) :
    ∃ G, sarsaCont q qTarg b = .ok G ∧ G.length = b.S_next.length ∧
      ∀ (i : Nat) (r d : ℝ) (s : σ) (a : α), b.Rn[i]? = some r → b.In[i]? = some d → b.S_next[i]? = some s → b.A_next[i]? = some a →
        G[i]? = some (q.transform (r + d * qTarg.inverse (t s a))) := by
  unfold sarsaCont
  rw [evalAt_computes ht]
  simp only
  obtain ⟨G, hG⟩ := backup_total (f := q.transform) (fInv := qTarg.inverse) (b := b) (Q := List.zipWith t b.S_next b.A_next) (by simp [hb.rn, hl]) (by simp [hb.inn, hl])
  refine ⟨G, hG, by rw [(backup_ok hG).1]; simp [hl], ?_⟩
  intro i r d s a h1 h2 h3 h4
  exact (backup_ok hG).2 i r d _ h1 h2 (by rw [List.getElem?_zipWith, h3, h4])

/-- QLearning for other action spaces bootstraps with `q_targ` at the mode of the target policy. -/
theorem C46_qLearningCont {q qTarg : QFn P σ α} {b : TBatch σ α} (hb : WellFormed b) {mode : List σ → List α} {act : σ → α} (hact : ∀ S, mode S = S.map act)
    {t : σ → α → ℝ} (ht : ComputesAt t (qTarg.forward qTarg.params)) (hf : q.forward = qTarg.forward) :
    Bootstraps q.transform qTarg.inverse b (fun s x => x = t s (act s)) (qLearningCont mode q qTarg b) := by
  unfold qLearningCont
  rw [hf, hact, evalAt_computes ht, zipWith_map_self]
  exact bootstraps_backup hb _ (fun _ _ => rfl)

/-- DoubleQLearning for other action spaces bootstraps with `q` at the mode of the target policy. -/
theorem C46_doubleQLearningCont {q qTarg : QFn P σ α} {b : TBatch σ α} (hb : WellFormed b) {mode : List σ → List α} {act : σ → α} (hact : ∀ S, mode S = S.map act)
    {t : σ → α → ℝ} (ht : ComputesAt t (q.forward q.params)) :
    Bootstraps q.transform qTarg.inverse b (fun s x => x = t s (act s)) (doubleQLearningCont mode q qTarg b) := by
  unfold doubleQLearningCont
  rw [hact, evalAt_computes ht, zipWith_map_self]
  exact bootstraps_backup hb _ (fun _ _ => rfl)

/-- Which lists of target policies and q-functions the constructor of ClippedDoubleQLearning accepts: at least two q-functions for discrete actions, at
least two pairs otherwise. -/
theorem C46_clipped_accepts (discrete : Bool) (pi q : Option Nat) :
    checkLists discrete pi q = none ↔ ∃ k, q = some k ∧ if discrete then 2 ≤ k else ∃ j, pi = some j ∧ 2 ≤ k * j := by
  cases discrete <;> cases pi <;> cases q <;> simp [checkLists]
  · rename_i j
    split <;> simp
  · rename_i j k
    by_cases hj : j = 0
    · subst hj; simp
    · by_cases hk : k = 0
      · subst hk; simp [hj]
      · simp [hj, hk, Nat.succ_le_iff]
  · rename_i k; by_cases hk : k = 0
    · subst hk; simp
    · simp [hk, Nat.succ_le_iff]
  · rename_i j k; by_cases hk : k = 0
    · subst hk; simp
    · simp [hk, Nat.succ_le_iff]

/-- The hypotheses can be met: an action-value of a continuous action. -/
example : ComputesAt (fun (s a : ℝ) => s * a) (.type1 (List.zipWith (fun s a => s * a))) := ⟨_, rfl, fun _ _ => rfl⟩

/-- The hypotheses can be met: a type-2 q-function with a tie in its first row, and a terminal transition. -/
example : ∃ (q : QFn Unit Bool (List ℝ)) (b : TBatch Bool (List ℝ)) (t : Bool → Nat → ℝ), WellFormed b ∧ Computes 2 t (q.forward q.params) ∧
    TieSafe 2 t (q.forward q.params) b.S_next ∧ (maximisers 2 (t true)).card = 2 ∧ b.In = [1, 0] := by
  refine ⟨⟨fun _ => .type2 (fun S => S.map (fun s => (List.range 2).map (fun a => if s then 1 else (a : ℝ)))), (), id, id⟩,
    ⟨[5, 7], [1, 0], [true, false], []⟩, fun s a => if s then 1 else (a : ℝ), ⟨rfl, rfl⟩, .type2 _ (fun _ => rfl), .inl ⟨_, rfl⟩, ?_, rfl⟩
  have : maximisers 2 (fun a => if true = true then (1 : ℝ) else (a : ℝ)) = {0, 1} := by
    ext a; simp only [mem_maximisers, if_true, le_refl, implies_true, and_true, Finset.mem_insert, Finset.mem_singleton]; omega
  rw [this]; rfl

end Coax.TD
