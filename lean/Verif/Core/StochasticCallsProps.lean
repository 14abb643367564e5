import Verif.Core.StochasticCalls
import Verif.TD.StochasticProps
import Verif.Values.TransformProps

/-! Properties C72 and C73: calling distributional value functions. -/

namespace Coax.TD

open Coax.Core Coax.Values

variable {P σ D : Type _} [AddCommGroup D] [Module ℝ D]

/-! ### C72 -/

theorem callMeanAction_eq {n : Nat} {q : SQFn P σ (List ℝ) D} {t : σ → Nat → D} (ht : Computes n t (q.forward q.params)) {pick : Pick} (hp : ∀ x : ℝ, pick [x] 0 = some x) (s : σ) {a : Nat} (ha : a < n) :
    callMeanAction n pick q s a = .ok (q.dist.mean (t s a)) := by
  have h := (C55_agree (by omega) ht [s]).2 [a] rfl (by simpa using ha)
  unfold callMeanAction
  rw [show [oneHot n a] = [a].map (oneHot n) from rfl, h]
  simp only [List.zipWith_cons_cons, List.zipWith_nil_left, List.map_cons, List.map_nil, hp]

theorem callMeanState_eq {n : Nat} (hn : 0 < n) {q : SQFn P σ (List ℝ) D} {t : σ → Nat → D} (ht : Computes n t (q.forward q.params)) {pick : Pick} {g : Nat → ℝ} (s : σ)
    (hp : ∀ i < n, pick ((List.range n).map (fun a => q.dist.mean (t s a))) i = some (g i)) :
    callMeanState n pick q s = .ok ((List.range n).map g) := by
  unfold callMeanState
  rw [meanType2_ok hn ht]
  simp only [List.map_cons, List.map_nil, List.getElem?_cons_zero]
  refine mapM_ok (fun i hi => ?_)
  rw [hp i (List.mem_range.1 hi)]

/-- C72 for discretized intervals: `mean(s)[a] = mean(s, a)`, for either model type. -/
theorem C72_interval_partial {n : Nat} {q : SQFn P σ (List ℝ) D} {t : σ → Nat → D} (ht : Computes n t (q.forward q.params)) (s : σ) {a : Nat} (ha : a < n) :
    ∃ row x, callMeanState n intervalPick q s = .ok row ∧ row.length = n ∧ callMeanAction n intervalPick q s a = .ok x ∧ row[a]? = some x ∧ x = q.dist.mean (t s a) := by
  refine ⟨(List.range n).map (fun a => q.dist.mean (t s a)), q.dist.mean (t s a), ?_, by simp, callMeanAction_eq ht (fun _ => rfl) s ha, by simp [ha], rfl⟩
  refine callMeanState_eq (by omega) ht s ?_
  intro i hi
  simp [intervalPick, hi]

/-- For quantile distributions `mean(s)` repeats the mean of action 0. -/
theorem C72_quantile {n : Nat} (hn : 0 < n) {q : SQFn P σ (List ℝ) D} {t : σ → Nat → D} (ht : Computes n t (q.forward q.params)) (s : σ) :
    callMeanState n quantilePick q s = .ok (List.replicate n (q.dist.mean (t s 0))) ∧ ∀ a < n, callMeanAction n quantilePick q s a = .ok (q.dist.mean (t s a)) := by
  refine ⟨?_, fun a ha => callMeanAction_eq ht (fun _ => rfl) s ha⟩
  have := callMeanState_eq (g := fun _ => q.dist.mean (t s 0)) (pick := quantilePick) hn ht s (by intro i _; simp [quantilePick, hn])
  rw [this]
  simp

/-- So C72 is false for every quantile q-function that distinguishes an action from action 0. -/
theorem C72_counterexample {n : Nat} {q : SQFn P σ (List ℝ) D} {t : σ → Nat → D} (ht : Computes n t (q.forward q.params)) (s : σ) {a : Nat} (ha : a < n)
    (hne : q.dist.mean (t s a) ≠ q.dist.mean (t s 0)) :
    ∃ row x, callMeanState n quantilePick q s = .ok row ∧ callMeanAction n quantilePick q s a = .ok x ∧ row[a]? ≠ some x := by
  obtain ⟨h1, h2⟩ := C72_quantile (by omega) ht s
  refine ⟨_, _, h1, h2 a ha, ?_⟩
  simp only [List.getElem?_replicate, if_pos ha, ne_eq, Option.some.injEq]
  exact fun h => hne h.symm

/-- C72 for the distribution parameters: `dist_params(s)[a] = dist_params(s, a)`, for every distribution. -/
theorem C72_dist_params {n : Nat} {q : SQFn P σ (List ℝ) D} {t : σ → Nat → D} (ht : Computes n t (q.forward q.params)) (s : σ) {a : Nat} (ha : a < n) :
    ∃ row, callDistState n q s = .ok row ∧ row.length = n ∧ callDistAction n q s a = .ok (t s a) ∧ row[a]? = some (t s a) := by
  obtain ⟨h1, h2⟩ := C55_agree (by omega) ht [s]
  have h3 := h2 [a] rfl (by simpa using ha)
  refine ⟨(List.range n).map (t s), ?_, by simp, ?_, by simp [ha]⟩
  · unfold callDistState
    rw [h1]
    simp only [List.map_cons, List.map_nil, List.getElem?_cons_zero]
    refine mapM_ok (fun i hi => ?_)
    rw [List.getElem?_map, List.getElem?_range (List.mem_range.1 hi)]; rfl
  · unfold callDistAction
    rw [show [oneHot n a] = [a].map (oneHot n) from rfl, h3]
    rfl

/-- The hypotheses can be met: two actions with different means. -/
example : ∃ (q : SQFn Unit Unit (List ℝ) ((Fin 2 → ℝ) × (Fin 2 → ℝ))) (t : Unit → Nat → (Fin 2 → ℝ) × (Fin 2 → ℝ)), Computes 2 t (q.forward q.params) ∧ q.dist = quantileDist 2 ∧
    q.dist.mean (t () 1) ≠ q.dist.mean (t () 0) := by
  refine ⟨⟨fun _ => .type2 (fun S => S.map (fun _ => (List.range 2).map (fun a => ((fun i => a * (i.1 + 1)), fun _ => 1)))), (), quantileDist 2, id, id⟩,
    fun _ a => ((fun i => a * (i.1 + 1)), fun _ => 1), .type2 _ (fun _ => rfl), rfl, ?_⟩
  simp [quantileDist, Fin.sum_univ_two]; norm_num

/-! ### C73 -/

/-- A quantile q-function that has learned the return `g` exactly: all its values are `f g`, as in the target of a terminal transition (`C70_terminal_quantile`). -/
def Learned {k : Nat} (f : ℝ → ℝ) (g : ℝ) (d : (Fin k → ℝ) × (Fin k → ℝ)) : Prop := ∀ i, d.1 i = f g

theorem mean_learned {k : Nat} (hk : 0 < k) {f : ℝ → ℝ} {g : ℝ} {d : (Fin k → ℝ) × (Fin k → ℝ)} (h : Learned f g d) : (quantileDist k).mean d = f g := by
  have hk' : (k : ℝ) ≠ 0 := by exact_mod_cast hk.ne'
  simp only [quantileDist, h _, Finset.sum_const, Finset.card_univ, Fintype.card_fin, nsmul_eq_mul]
  field_simp

/-- What `mean(s, a)` returns for a learned return `g`: not `g` but `f g`. -/
theorem C73_returns {k : Nat} (hk : 0 < k) {n : Nat} {q : SQFn P σ (List ℝ) ((Fin k → ℝ) × (Fin k → ℝ))} (hd : q.dist = quantileDist k) {t : σ → Nat → (Fin k → ℝ) × (Fin k → ℝ)}
    (ht : Computes n t (q.forward q.params)) (s : σ) {a : Nat} (ha : a < n) {g : ℝ} (hg : Learned q.transform g (t s a)) : callMeanAction n quantilePick q s a = .ok (q.transform g) := by
  rw [callMeanAction_eq ht (fun _ => rfl) s ha, hd, mean_learned hk hg]

/-- C73 without a value transform: the learned return.  (Missing: with a value transform it is false.) -/
theorem C73_identity_partial {k : Nat} (hk : 0 < k) {n : Nat} {q : SQFn P σ (List ℝ) ((Fin k → ℝ) × (Fin k → ℝ))} (hd : q.dist = quantileDist k) (hid : q.transform = id)
    {t : σ → Nat → (Fin k → ℝ) × (Fin k → ℝ)} (ht : Computes n t (q.forward q.params)) (s : σ) {a : Nat} (ha : a < n) {g : ℝ} (hg : Learned q.transform g (t s a)) :
    callMeanAction n quantilePick q s a = .ok g := by
  rw [C73_returns hk hd ht s ha hg, hid]; rfl

theorem logTransform_one_ne {scale : ℝ} {f g : ℝ → ℝ} (hf : newLogTransform scale = .ok (f, g)) : f 1 ≠ 1 := by
  have hs : 0 < scale := by
    rcases C42_accepts scale with h | h
    · exact h.1
    · rw [h.2] at hf; simp at hf
  have hf' : f = logTransform scale := by
    rcases C42_accepts scale with h | h
    · rw [h.2] at hf; simp only [Except.ok.injEq, Prod.mk.injEq] at hf; exact hf.1.symm
    · rw [h.2] at hf; simp at hf
  rw [hf', logTransform_of_nonneg (by norm_num)]
  have hpos : (0 : ℝ) < 1 / scale := by positivity
  have := Real.log_lt_sub_one_of_pos (show (0 : ℝ) < 1 + 1 / scale by positivity) (by linarith)
  have h3 : scale * Real.log (1 + 1 / scale) < scale * (1 / scale) := mul_lt_mul_of_pos_left (by linarith) hs
  rw [mul_one_div_cancel hs.ne'] at h3
  exact h3.ne

/-- With a `LogTransform` of any scale a learned return of 1 is reported as something else, while the deterministic q-function that learned it reports 1. -/
theorem C73_counterexample {scale : ℝ} {f g : ℝ → ℝ} (hf : newLogTransform scale = .ok (f, g)) :
    ∃ (q : SQFn Unit Unit (List ℝ) ((Fin 1 → ℝ) × (Fin 1 → ℝ))) (t : Unit → Nat → (Fin 1 → ℝ) × (Fin 1 → ℝ)) (x : ℝ), q.dist = quantileDist 1 ∧ q.transform = f ∧ q.inverse = g ∧
      Computes 1 t (q.forward q.params) ∧ Learned f 1 (t () 0) ∧ callMeanAction 1 quantilePick q () 0 = .ok x ∧ x ≠ 1 ∧
      callAction 1 (.type2 (fun S : List Unit => S.map (fun _ => [f 1]))) g () 0 = .ok 1 := by
  let F : Func Unit (List ℝ) ((Fin 1 → ℝ) × (Fin 1 → ℝ)) := .type2 (fun S => S.map (fun s => (List.range 1).map (fun _ => ((fun _ => f 1), fun _ => 1))))
  have hC : Computes 1 (fun _ _ => ((fun _ => f 1), fun _ => 1)) F := .type2 _ (fun _ => rfl)
  refine ⟨⟨fun _ => F, (), quantileDist 1, f, g⟩, fun _ _ => ((fun _ => f 1), fun _ => 1), f 1, rfl, rfl, rfl, hC, fun _ => rfl, ?_, logTransform_one_ne hf, ?_⟩
  · exact C73_returns (by norm_num) rfl hC () (by norm_num) (fun _ => rfl)
  · obtain ⟨row, -, -, h, -⟩ := C55_call (n := 1) (q := fun (_ : Unit) _ => f 1) (.type2 (fun S : List Unit => S.map (fun _ => [f 1])) (fun S => by simp)) g () 0 (by norm_num)
    rw [h, (C42_inverse hf).1]

omit [AddCommGroup D] [Module ℝ D] in
/-- The same for a `StochasticV`: what `mean(s)` returns for a learned return `g` is `f g`, for both distributions.  For a discretized interval, learned means here that the mean of the
distribution is `f g`. -/
theorem C73_returns_v {v : SVFn P σ D} {t : σ → D} (ht : ∀ S, v.forward v.params S = S.map t) (s : σ) {g : ℝ} (hg : v.dist.mean (t s) = v.transform g) :
    callMeanV quantilePick v s = .ok (v.transform g) ∧ callMeanV intervalPick v s = .ok (v.transform g) := by
  unfold callMeanV quantilePick intervalPick
  rw [ht]
  simp [hg]

/-- With a `LogTransform` of any scale a `StochasticV` that learned the return 1 reports something else. -/
theorem C73_counterexample_v {scale : ℝ} {f g : ℝ → ℝ} (hf : newLogTransform scale = .ok (f, g)) :
    ∃ (v : SVFn Unit Unit ((Fin 1 → ℝ) × (Fin 1 → ℝ))) (t : Unit → (Fin 1 → ℝ) × (Fin 1 → ℝ)) (x : ℝ), v.dist = quantileDist 1 ∧ v.transform = f ∧ v.inverse = g ∧
      (∀ S, v.forward v.params S = S.map t) ∧ Learned f 1 (t ()) ∧ callMeanV quantilePick v () = .ok x ∧ x ≠ 1 := by
  let v : SVFn Unit Unit ((Fin 1 → ℝ) × (Fin 1 → ℝ)) := ⟨fun _ S => S.map (fun _ => ((fun _ => f 1), fun _ => 1)), (), quantileDist 1, f, g⟩
  have ht : ∀ S, v.forward v.params S = S.map (fun _ => ((fun _ => f 1), fun _ => 1)) := fun S => rfl
  exact ⟨v, _, f 1, rfl, rfl, rfl, ht, fun _ => rfl, (C73_returns_v ht () (mean_learned (by norm_num) (fun _ => rfl))).1, logTransform_one_ne hf⟩

end Coax.TD
