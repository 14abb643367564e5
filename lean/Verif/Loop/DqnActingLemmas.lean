import Verif.Loop.DqnActing
import Verif.Loop.ReplayProps
import Verif.Loop.ActingProps

/-! The loop that acts on the values that it learns from a replay buffer: its paths, and what is known when. -/

namespace Coax.Loop

open Coax.RewardTracing Coax.Replay Coax.TD Coax.Core Coax.Values Coax.Pol Coax.Dists Filter Topology MeasureTheory

variable {σ G U V : Type _} {n m : Nat}

/-! ### One update -/

theorem sum_of_moves {α : Type _} (l : List α) (g : α → ℝ) (y c : ℝ) : (l.map fun o => y - c * g o).sum = l.length * y - c * (l.map g).sum := by
  induction l with
  | nil => simp
  | cons o l ih =>
    simp only [List.map_cons, List.sum_cons, ih, List.length_cons, Nat.cast_add, Nat.cast_one]
    ring

theorem sum_abs_le {α : Type _} (l : List α) (g : α → ℝ) {B : ℝ} (h : ∀ o ∈ l, |g o| ≤ B) : |(l.map g).sum| ≤ l.length * B := by
  induction l with
  | nil => simp
  | cons o l ih =>
    simp only [List.map_cons, List.sum_cons, List.length_cons, Nat.cast_add, Nat.cast_one]
    have h1 := h o (by simp)
    have h2 := ih fun o ho => h o (by simp [ho])
    have h3 := abs_add_le (g o) (l.map g).sum
    linarith

variable [DecidableEq σ]

/-- The update with a batch of transitions of weight 1 does not raise, and keeps the values within a bound. -/
theorem batch_update {updateRule} {type1 : Bool} {boot : σ → (Fin n → ℝ) → ℝ → Prop} (hr : Rule updateRule type1 boot) (hn : 0 < n) {gamma : ℝ} (h0 : 0 ≤ gamma) (lr : ℝ) {l : List ℕ} (hl : l ≠ []) (x y : ℕ → Step σ (Fin n) ℝ) (hw : ∀ i, (x i).w = 1)
    (θT θ : σ → Fin n → ℝ) : ∃ θ', sgdUpdate lr mse1 updateRule type1 θT θ (l.map fun p => rowOf gamma (x p) (y p) false) = .ok θ' ∧
      ∀ R c B, 0 ≤ lr → lr ≤ 1 → (∀ i, |(x i).r| ≤ R) → 0 ≤ c → (∀ s z, boot s (fun _ => 0) z → |z| ≤ c) → R + gamma * (c + B) ≤ B → (∀ s a, |θ s a| ≤ B) → (∀ s a, |θT s a| ≤ B) → ∀ s a, |θ' s a| ≤ B := by
  choose val hval using hr.value
  obtain ⟨b, hb, ht⟩ := rule_rows hr hval (rows := l.map fun p => rowOf gamma (x p) (y p) false) (by simp [rowOf]) θ θT
  refine ⟨_, sgdUpdate_rows mse1_meanOf hn (by simpa using hl) hb ht lr, ?_⟩
  intro R c B l0 l1 hR c0 hc hB hθ hT s a
  rw [List.map_map, List.length_map]
  set f : ℕ → ℝ := (fun o => if s = o.S ∧ a = o.A then weight o * (θ s a - (o.Rn + o.In * (o.S_next.elim 0 fun s => val s (θT s)))) else 0) ∘ (fun p => rowOf gamma (x p) (y p) false) with hf
  have hlen : (0 : ℝ) < l.length := by exact_mod_cast List.length_pos_iff.2 hl
  have e : θ s a - lr * ((l.map f).sum / l.length) = (l.map fun p => θ s a - lr * f p).sum / l.length := by
    rw [sum_of_moves]
    field_simp
  rw [e, abs_div, abs_of_pos hlen, div_le_iff₀ hlen, mul_comm B]
  refine sum_abs_le l _ fun p _ => ?_
  simp only [hf, Function.comp]
  split
  · have hwt : weight (rowOf gamma (x p) (y p) false) = 1 := by
      simp only [weight, rowOf, hw]
      norm_num
    rw [hwt, one_mul]
    set T : ℝ := (rowOf gamma (x p) (y p) false).Rn + (rowOf gamma (x p) (y p) false).In * ((rowOf gamma (x p) (y p) false).S_next.elim 0 fun s => val s (θT s)) with hTd
    have hTB : |T| ≤ B := by
      have hv : ∀ s, |val s (θT s)| ≤ c + B := by
        intro s
        have h1 := hr.close s (θT s) (fun _ => 0) _ _ B (hval s _) (hval s _) fun a => by simpa using hT s a
        have h2 := hc s _ (hval s fun _ => 0)
        have h3 := abs_sub_abs_le_abs_sub (val s (θT s)) (val s fun _ => 0)
        linarith
      have hT' : T = (x p).r + gamma * val (y p).s (θT (y p).s) := by
        simp [hTd, rowOf]
      rw [hT']
      refine (abs_add_le _ _).trans (le_trans (add_le_add (hR p) ?_) hB)
      rw [abs_mul, abs_of_nonneg h0]
      exact mul_le_mul_of_nonneg_left (hv _) h0
    have e : θ s a - lr * (θ s a - T) = (1 - lr) * θ s a + lr * T := by ring
    rw [e]
    refine (abs_add_le _ _).trans ?_
    rw [abs_mul, abs_mul, abs_of_nonneg l0, abs_of_nonneg (sub_nonneg.2 l1)]
    have g1 := mul_le_mul_of_nonneg_left (hθ s a) (sub_nonneg.2 l1)
    have g2 := mul_le_mul_of_nonneg_left hTB l0
    linarith
  · simpa using hθ s a

/-! ### One path -/

/-- What there is to know of the loop after some steps, if the draws from the buffer are given: the state of the environment, the values, and the steps. -/
structure Seen (σ : Type _) (n : Nat) where
  s : σ
  q : σ → Fin n → ℝ
  qTarg : σ → Fin n → ℝ
  hist : ℕ → Step σ (Fin n) ℝ

section path

variable (lr : ℕ → ℝ) (tau gamma : ℝ) (updateRule : QFn (σ → Fin n → ℝ) σ (List ℝ) → QFn (σ → Fin n → ℝ) σ (List ℝ) → TBatch σ (List ℝ) → Except Err (List ℝ)) (type1 : Bool) (cap warm : ℕ) (e : Mdp σ n m)

/-- The transitions at positions `d` of the buffer in step `t`. -/
noncomputable def Seen.rows (t : ℕ) (hist : ℕ → Step σ (Fin n) ℝ) (d : List ℕ) : List (Out σ (Fin n) ℝ) := d.map fun p => rowOf gamma (hist (t - min cap t + p)) (hist (t - min cap t + p + 1)) false

/-- The values after the update of step `t`. -/
noncomputable def Seen.learned (t : ℕ) (z : Seen σ n) (hist : ℕ → Step σ (Fin n) ℝ) (d : List ℕ) : σ → Fin n → ℝ :=
  if warm ≤ t then
    match sgdUpdate (lr (t - warm)) mse1 updateRule type1 z.qTarg z.q (Seen.rows gamma cap t hist d) with
    | .ok θ => θ
    | .error _ => z.q
  else z.q

/-- Step `t` with action `a`, outcome `j` and the draw `d`. -/
noncomputable def Seen.next (t : ℕ) (z : Seen σ n) (a : Fin n) (j : Fin m) (d : List ℕ) : Seen σ n :=
  ⟨e.next z.s a j, Seen.learned lr gamma updateRule type1 cap warm t z (Function.update z.hist t ⟨z.s, a, e.reward z.s a j, 0, 1⟩) d,
    softTable tau z.qTarg (Seen.learned lr gamma updateRule type1 cap warm t z (Function.update z.hist t ⟨z.s, a, e.reward z.s a j, 0, 1⟩) d), Function.update z.hist t ⟨z.s, a, e.reward z.s a j, 0, 1⟩⟩

variable (A : ℕ → (Fin n → ℝ) → U → Fin n) (chance : σ → Fin n → V → Fin m) (z0 : Seen σ n) (w : ℕ → U × V) (D : ℕ → List ℕ)

/-- The path for given random numbers and given draws. -/
noncomputable def Seen.path : ℕ → Seen σ n
  | 0 => z0
  | t + 1 => Seen.next lr tau gamma updateRule type1 cap warm e t (Seen.path t) (A t ((Seen.path t).q (Seen.path t).s) (w t).1) (chance (Seen.path t).s (A t ((Seen.path t).q (Seen.path t).s) (w t).1) (w t).2)
      (if warm ≤ t then D (t - warm) else [])

/-- The action of step `t`. -/
noncomputable def Seen.act (t : ℕ) : Fin n :=
  A t ((Seen.path lr tau gamma updateRule type1 cap warm e A chance z0 w D t).q (Seen.path lr tau gamma updateRule type1 cap warm e A chance z0 w D t).s) (w t).1

/-- The outcome of step `t`. -/
noncomputable def Seen.out (t : ℕ) : Fin m :=
  chance (Seen.path lr tau gamma updateRule type1 cap warm e A chance z0 w D t).s (Seen.act lr tau gamma updateRule type1 cap warm e A chance z0 w D t) (w t).2

/-- The step that is given to the tracer. -/
noncomputable def Seen.traced (t : ℕ) : Step σ (Fin n) ℝ :=
  ⟨(Seen.path lr tau gamma updateRule type1 cap warm e A chance z0 w D t).s, Seen.act lr tau gamma updateRule type1 cap warm e A chance z0 w D t,
    e.reward (Seen.path lr tau gamma updateRule type1 cap warm e A chance z0 w D t).s (Seen.act lr tau gamma updateRule type1 cap warm e A chance z0 w D t) (Seen.out lr tau gamma updateRule type1 cap warm e A chance z0 w D t), 0, 1⟩

theorem Seen.path_succ (t : ℕ) : Seen.path lr tau gamma updateRule type1 cap warm e A chance z0 w D (t + 1) =
    Seen.next lr tau gamma updateRule type1 cap warm e t (Seen.path lr tau gamma updateRule type1 cap warm e A chance z0 w D t) (Seen.act lr tau gamma updateRule type1 cap warm e A chance z0 w D t) (Seen.out lr tau gamma updateRule type1 cap warm e A chance z0 w D t)
      (if warm ≤ t then D (t - warm) else []) := rfl

theorem Seen.hist_eq (t i : ℕ) (hi : i < t) : (Seen.path lr tau gamma updateRule type1 cap warm e A chance z0 w D t).hist i = Seen.traced lr tau gamma updateRule type1 cap warm e A chance z0 w D i := by
  induction t with
  | zero => omega
  | succ t ih =>
    rw [Seen.path_succ]
    simp only [Seen.next]
    by_cases h : i = t
    · rw [h, Function.update_self]
      rfl
    · rw [Function.update_of_ne h]
      exact ih (by omega)

/-- Before the first update. -/
theorem Seen.early (t : ℕ) (ht : t ≤ warm) : (Seen.path lr tau gamma updateRule type1 cap warm e A chance z0 w D t).q = z0.q ∧
    (Seen.path lr tau gamma updateRule type1 cap warm e A chance z0 w D t).qTarg = (fun x => softTable tau x z0.q)^[t] z0.qTarg := by
  induction t with
  | zero => exact ⟨rfl, rfl⟩
  | succ t ih =>
    obtain ⟨h1, h2⟩ := ih (by omega)
    have h3 : (Seen.path lr tau gamma updateRule type1 cap warm e A chance z0 w D (t + 1)).q = z0.q := by
      rw [Seen.path_succ]
      simp only [Seen.next, Seen.learned]
      rw [if_neg (by omega), h1]
    refine ⟨h3, ?_⟩
    rw [Function.iterate_succ_apply', ← h2]
    have h4 : (Seen.path lr tau gamma updateRule type1 cap warm e A chance z0 w D (t + 1)).qTarg = softTable tau (Seen.path lr tau gamma updateRule type1 cap warm e A chance z0 w D t).qTarg
      (Seen.path lr tau gamma updateRule type1 cap warm e A chance z0 w D (t + 1)).q := rfl
    rw [h4, h3]

/-- An update. -/
theorem Seen.later {boot : σ → (Fin n → ℝ) → ℝ → Prop} (hr : Rule updateRule type1 boot) (hn : 0 < n) (h0 : 0 ≤ gamma) (k : ℕ) (hD : D k ≠ []) (hpos : ∀ p ∈ D k, p < min cap (warm + k)) :
    sgdUpdate (lr k) mse1 updateRule type1 (Seen.path lr tau gamma updateRule type1 cap warm e A chance z0 w D (warm + k)).qTarg (Seen.path lr tau gamma updateRule type1 cap warm e A chance z0 w D (warm + k)).q
      ((D k).map fun p => rowOf gamma (Seen.traced lr tau gamma updateRule type1 cap warm e A chance z0 w D (warm + k - min cap (warm + k) + p)) (Seen.traced lr tau gamma updateRule type1 cap warm e A chance z0 w D (warm + k - min cap (warm + k) + p + 1)) false) =
        .ok (Seen.path lr tau gamma updateRule type1 cap warm e A chance z0 w D (warm + (k + 1))).q ∧
      (Seen.path lr tau gamma updateRule type1 cap warm e A chance z0 w D (warm + (k + 1))).qTarg = softTable tau (Seen.path lr tau gamma updateRule type1 cap warm e A chance z0 w D (warm + k)).qTarg (Seen.path lr tau gamma updateRule type1 cap warm e A chance z0 w D (warm + (k + 1))).q := by
  refine ⟨?_, rfl⟩
  obtain ⟨θ', h1, -⟩ := batch_update hr hn h0 (lr k) hD (fun p => Seen.traced lr tau gamma updateRule type1 cap warm e A chance z0 w D (warm + k - min cap (warm + k) + p))
    (fun p => Seen.traced lr tau gamma updateRule type1 cap warm e A chance z0 w D (warm + k - min cap (warm + k) + p + 1)) (fun _ => rfl) (Seen.path lr tau gamma updateRule type1 cap warm e A chance z0 w D (warm + k)).qTarg
    (Seen.path lr tau gamma updateRule type1 cap warm e A chance z0 w D (warm + k)).q
  have h2 : Seen.rows gamma cap (warm + k) (Seen.path lr tau gamma updateRule type1 cap warm e A chance z0 w D (warm + k + 1)).hist (D k) =
      (D k).map fun p => rowOf gamma (Seen.traced lr tau gamma updateRule type1 cap warm e A chance z0 w D (warm + k - min cap (warm + k) + p)) (Seen.traced lr tau gamma updateRule type1 cap warm e A chance z0 w D (warm + k - min cap (warm + k) + p + 1)) false := by
    refine List.map_congr_left fun p hp => ?_
    have := hpos p hp
    rw [Seen.hist_eq _ _ _ _ _ _ _ _ _ _ _ _ _ _ _ (by omega), Seen.hist_eq _ _ _ _ _ _ _ _ _ _ _ _ _ _ _ (by omega)]
  rw [h1]
  have h3 : (Seen.path lr tau gamma updateRule type1 cap warm e A chance z0 w D (warm + (k + 1))).q = Seen.learned lr gamma updateRule type1 cap warm (warm + k) (Seen.path lr tau gamma updateRule type1 cap warm e A chance z0 w D (warm + k))
      (Seen.path lr tau gamma updateRule type1 cap warm e A chance z0 w D (warm + k + 1)).hist (if warm ≤ warm + k then D (warm + k - warm) else []) := rfl
  rw [h3, if_pos (by omega), Nat.add_sub_cancel_left]
  unfold Seen.learned
  rw [if_pos (by omega), Nat.add_sub_cancel_left, h2, h1]

/-- The values stay within a bound. -/
theorem Seen.bounded {boot : σ → (Fin n → ℝ) → ℝ → Prop} (hr : Rule updateRule type1 boot) (hn : 0 < n) (h0 : 0 ≤ gamma) (l0 : ∀ k, 0 ≤ lr k) (l1 : ∀ k, lr k ≤ 1) (t0 : 0 ≤ tau) (t1 : tau ≤ 1) (hD : ∀ k, D k ≠ []) (hpos : ∀ k, ∀ p ∈ D k, p < min cap (warm + k))
    {R c B : ℝ} (hR : ∀ s a j, |e.reward s a j| ≤ R) (c0 : 0 ≤ c) (hc : ∀ s z, boot s (fun _ => 0) z → |z| ≤ c) (hB : R + gamma * (c + B) ≤ B) (hq : ∀ s a, |z0.q s a| ≤ B) (hT : ∀ s a, |z0.qTarg s a| ≤ B) (t : ℕ) :
    (∀ s a, |(Seen.path lr tau gamma updateRule type1 cap warm e A chance z0 w D t).q s a| ≤ B) ∧ ∀ s a, |(Seen.path lr tau gamma updateRule type1 cap warm e A chance z0 w D t).qTarg s a| ≤ B := by
  induction t with
  | zero => exact ⟨hq, hT⟩
  | succ t ih =>
    have h1 : ∀ s a, |(Seen.path lr tau gamma updateRule type1 cap warm e A chance z0 w D (t + 1)).q s a| ≤ B := by
      by_cases ht : warm ≤ t
      · obtain ⟨k, rfl⟩ := Nat.exists_eq_add_of_le ht
        have h2 := (Seen.later lr tau gamma updateRule type1 cap warm e A chance z0 w D hr hn h0 k (hD k) (hpos k)).1
        obtain ⟨θ', h3, h4⟩ := batch_update hr hn h0 (lr k) (hD k) (fun p => Seen.traced lr tau gamma updateRule type1 cap warm e A chance z0 w D (warm + k - min cap (warm + k) + p))
          (fun p => Seen.traced lr tau gamma updateRule type1 cap warm e A chance z0 w D (warm + k - min cap (warm + k) + p + 1)) (fun _ => rfl) (Seen.path lr tau gamma updateRule type1 cap warm e A chance z0 w D (warm + k)).qTarg
          (Seen.path lr tau gamma updateRule type1 cap warm e A chance z0 w D (warm + k)).q
        rw [h2] at h3
        have h5 := Except.ok.inj h3
        rw [show warm + k + 1 = warm + (k + 1) by omega, h5]
        exact h4 R c B (l0 k) (l1 k) (fun _ => hR _ _ _) c0 hc hB ih.1 ih.2
      · rw [(Seen.early lr tau gamma updateRule type1 cap warm e A chance z0 w D (t + 1) (by omega)).1]
        exact hq
    refine ⟨h1, fun s a => ?_⟩
    show |(1 - tau) * (Seen.path lr tau gamma updateRule type1 cap warm e A chance z0 w D t).qTarg s a + tau * (Seen.path lr tau gamma updateRule type1 cap warm e A chance z0 w D (t + 1)).q s a| ≤ B
    refine (abs_add_le _ _).trans ?_
    rw [abs_mul, abs_mul, abs_of_nonneg t0, abs_of_nonneg (sub_nonneg.2 t1)]
    have g1 := mul_le_mul_of_nonneg_left (ih.2 s a) (sub_nonneg.2 t1)
    have g2 := mul_le_mul_of_nonneg_left (h1 s a) t0
    linarith

end path

end Coax.Loop
