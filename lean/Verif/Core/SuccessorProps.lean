import Verif.Core.Successor
import Verif.Core.QTypesProps
import Verif.Values.TransformProps
import Mathlib.Algebra.BigOperators.Fin

/-! Property C77: the q-function made of a value function, a transition model and a reward function. -/

namespace Coax.Core

open Coax.Pol Coax.Values

variable {σ X Y Z : Type _}

/-- The value of a state as `v` gives it when it is called: the value transform is undone. -/
def stateValue (q : SuccessorQ σ X Y Z) (tv : σ → Z) (s : σ) : ℝ := q.fInv (q.vMean (tv s))

/-- The expected reward as `r` gives it when it is called: the value transform of `r` is undone. -/
def reward (q : SuccessorQ σ X Y Z) (tr : σ → Nat → Y) (s : σ) (a : Nat) : ℝ := q.rInv (q.rMean (tr s a))

/-- The entry of the output for a state and an action. -/
noncomputable def succEntry (q : SuccessorQ σ X Y Z) (tp : σ → Nat → X) (tr : σ → Nat → Y) (tv : σ → Z) (s : σ) (a : Nat) : ℝ :=
  q.f (q.rMean (tr s a) + q.gamma * stateValue q tv (q.pMean (tp s a)))

theorem combine_ok (q : SuccessorQ σ X Y Z) {R V : List ℝ} (h : R.length = V.length) : q.combine R V = .ok (List.zipWith (fun r v => q.f (r + q.gamma * q.fInv v)) R V) := by
  unfold SuccessorQ.combine broadcast
  rw [if_pos h]

theorem toReplicas_ok {α : Type _} {n : Nat} {rows : List (List α)} (h : ∀ r ∈ rows, r.length = n) : toReplicas n rows = .ok rows.flatten := by
  unfold toReplicas
  rw [if_neg]
  simpa using h

theorem map_table {α β : Type _} (n : Nat) (S : List σ) (t : σ → Nat → α) (g : α → β) :
    ((S.map (fun s => (List.range n).map (t s))).flatten).map g = (S.map (fun s => (List.range n).map (fun a => g (t s a)))).flatten := by
  induction S with
  | nil => rfl
  | cons s S ih => simp only [List.map_cons, List.flatten_cons, List.map_append, ih, List.map_map]; rfl

theorem zip_table (n : Nat) (S : List σ) (g h : σ → Nat → ℝ) (c : ℝ → ℝ → ℝ) :
    List.zipWith c (S.map (fun s => (List.range n).map (g s))).flatten (S.map (fun s => (List.range n).map (h s))).flatten = (S.map (fun s => (List.range n).map (fun a => c (g s a) (h s a)))).flatten := by
  induction S with
  | nil => rfl
  | cons s S ih =>
    simp only [List.map_cons, List.flatten_cons]
    rw [List.zipWith_append (by simp), ih]
    congr 1
    exact List.ext_getElem (by simp) (fun i h1 h2 => by simp)

theorem length_table (n : Nat) (S : List σ) (g : σ → Nat → ℝ) : (S.map (fun s => (List.range n).map (g s))).flatten.length = S.length * n := by
  induction S with
  | nil => simp
  | cons s S ih => simp only [List.map_cons, List.flatten_cons, List.length_append, ih, List.length_map, List.length_range, List.length_cons]; ring

variable [AddCommGroup X] [Module ℝ X] [AddCommGroup Y] [Module ℝ Y]

/-- What the three function approximators compute: the tables `tp s a` and `tr s a` and the function `tv s`. -/
structure SuccParts (n : Nat) (q : SuccessorQ σ X Y Z) (tp : σ → Nat → X) (tr : σ → Nat → Y) (tv : σ → Z) : Prop where
  p : Computes n tp q.p
  r : Computes n tr q.r
  v : ∀ S, q.v S = S.map tv

theorem type1_eq {n : Nat} (hn : 0 < n) {q : SuccessorQ σ X Y Z} {tp : σ → Nat → X} {tr : σ → Nat → Y} {tv : σ → Z} (h : SuccParts n q tp tr tv) (S : List σ) {acts : List Nat} (hl : acts.length = S.length) (ha : ∀ a ∈ acts, a < n) :
    q.type1 n S (acts.map (oneHot n)) = .ok (List.zipWith (succEntry q tp tr tv) S acts) := by
  unfold SuccessorQ.type1
  rw [(C55_agree hn h.p S).2 acts hl ha, (C55_agree hn h.r S).2 acts hl ha]
  simp only
  rw [h.v, combine_ok _ (by simp)]
  congr 1
  refine List.ext_getElem (by simp) (fun i h1 h2 => ?_)
  simp [succEntry, stateValue]

theorem type2_eq {n : Nat} (hn : 0 < n) {q : SuccessorQ σ X Y Z} {tp : σ → Nat → X} {tr : σ → Nat → Y} {tv : σ → Z} (h : SuccParts n q tp tr tv) (S : List σ) :
    q.type2 n S = .ok (S.map (fun s => (List.range n).map (succEntry q tp tr tv s))) := by
  unfold SuccessorQ.type2
  rw [(C55_agree hn h.p S).1]
  simp only
  rw [toReplicas_ok (by simp)]
  simp only
  rw [(C55_agree hn h.r S).1]
  simp only
  rw [toReplicas_ok (by simp)]
  simp only
  rw [map_table, map_table, h.v, map_table, map_table, combine_ok _ (by rw [length_table, length_table]), zip_table]
  simp only
  unfold reshapeRows
  rw [if_neg (by rw [length_table]; simp), length_table, Nat.mul_div_cancel _ hn]
  have := chunks_flatten n (S.map (fun s => (List.range n).map (fun a => q.f (q.rMean (tr s a) + q.gamma * q.fInv (q.vMean (tv (q.pMean (tp s a)))))))) (by
    intro l hl
    obtain ⟨s, _, rfl⟩ := List.mem_map.1 hl
    simp)
  rw [List.length_map] at this
  rw [this]
  rfl

/-- C77: both ways of calling agree: entry `a` of `q(s)` is `q(s, a)`, for all combinations of types. -/
theorem C77_agree {n : Nat} {q : SuccessorQ σ X Y Z} {tp : σ → Nat → X} {tr : σ → Nat → Y} {tv : σ → Z} (h : SuccParts n q tp tr tv) (s : σ) {a : Nat} (ha : a < n) :
    ∃ row x, q.callState n s = .ok row ∧ row.length = n ∧ q.callAction n s a = .ok x ∧ row[a]? = some x := by
  have hn : 0 < n := by omega
  refine ⟨_, q.fInv (succEntry q tp tr tv s a), by unfold SuccessorQ.callState; rw [type2_eq hn h]; rfl, by simp, ?_, ?_⟩
  · unfold SuccessorQ.callAction
    rw [show [oneHot n a] = [a].map (oneHot n) from rfl, type1_eq hn h [s] rfl (by simpa using ha)]
    rfl
  · simp [ha]

/-- C77 for a deterministic transition model and a reward function without value transform: `q(s, a)` is the reward plus `gamma` times the value of the successor state.  (Missing: reward functions
with a value transform and stochastic transition models, for which it is false.) -/
theorem C77_value_partial {n : Nat} {q : SuccessorQ σ X Y Z} {tp : σ → Nat → X} {tr : σ → Nat → Y} {tv : σ → Z} (h : SuccParts n q tp tr tv) (hf : ∀ x, q.fInv (q.f x) = x) (hr : q.rInv = id) (s : σ) {a : Nat} (ha : a < n) :
    q.callAction n s a = .ok (reward q tr s a + q.gamma * stateValue q tv (q.pMean (tp s a))) := by
  have hn : 0 < n := by omega
  unfold SuccessorQ.callAction
  rw [show [oneHot n a] = [a].map (oneHot n) from rfl, type1_eq hn h [s] rfl (by simpa using ha)]
  simp [succEntry, hf, reward, hr]

/-- C77 for a transition model with a distribution over finitely many successor states `succ k` with probabilities `w k`, whose mean is their weighted average, if the value is an affine
function of the (preprocessed) state: `q(s, a)` is the reward plus `gamma` times the expected value of the successor state. -/
theorem C77_expected_partial {m n : Nat} {E : Type _} [AddCommGroup E] [Module ℝ E] {q : SuccessorQ E X Y Z} {tp : E → Nat → X} {tr : E → Nat → Y} {tv : E → Z} (h : SuccParts n q tp tr tv) (hf : ∀ x, q.fInv (q.f x) = x) (hr : q.rInv = id)
    {L : E →ₗ[ℝ] ℝ} {c : ℝ} (haff : ∀ s, stateValue q tv s = L s + c) (s : E) {a : Nat} (ha : a < n) {w : Fin m → ℝ} {succ : Fin m → E} (hw : ∑ k, w k = 1) (hm : q.pMean (tp s a) = ∑ k, w k • succ k) :
    q.callAction n s a = .ok (reward q tr s a + q.gamma * ∑ k, w k * stateValue q tv (succ k)) := by
  rw [C77_value_partial h hf hr s ha, hm, haff, map_sum]
  congr 3
  simp only [haff, map_smul, smul_eq_mul, mul_add, Finset.sum_add_distrib, ← Finset.sum_mul, hw, one_mul]

/-- The hypotheses are met with a type-1 transition model `s + a` over three actions, a type-2 reward function `2 a`, the value `3 s + 1` and no transforms; `q(5, 2) = 4 + γ 22`. -/
example (gamma : ℝ) : ∃ (q : SuccessorQ ℝ ℝ ℝ ℝ) (tp tr : ℝ → Nat → ℝ) (tv : ℝ → ℝ), SuccParts 3 q tp tr tv ∧ q.rInv = id ∧ (∀ x, q.fInv (q.f x) = x) ∧ (∀ s, stateValue q tv s = (3 : ℝ) * s + 1) ∧ q.callAction 3 5 2 = .ok (4 + gamma * 22) := by
  let q : SuccessorQ ℝ ℝ ℝ ℝ := { p := .type1 (List.zipWith (fun s A => s + dot A [0, 1, 2])), pMean := id, r := .type2 (fun S => S.map (fun _ => (List.range 3).map (fun a => 2 * (a : ℝ)))), rMean := id, rInv := id, v := fun S => S.map (fun s => 3 * s + 1), vMean := id, f := id, fInv := id, gamma := gamma }
  have hp : SuccParts 3 q (fun s a => s + a) (fun _ a => 2 * (a : ℝ)) (fun s => 3 * s + 1) := ⟨.type1 _ (fun s A => s + dot A [0, 1, 2]) (fun _ _ _ => rfl) (by
    intro s a ha
    rw [dot_oneHot 3 a _ rfl ha]
    rcases a with _ | _ | _ | a
    · simp
    · simp
    · simp
    · omega), .type2 _ (fun _ => rfl), fun _ => rfl⟩
  refine ⟨q, _, _, _, hp, rfl, fun _ => rfl, fun _ => rfl, ?_⟩
  rw [C77_value_partial hp (fun _ => rfl) rfl 5 (by norm_num)]
  simp only [reward, stateValue, q, id]
  congr 1
  push_cast
  ring

/-- A q-function over one state, one action, with given reward output and value; used for the counterexamples. -/
noncomputable def exQ (r : ℝ) (rInv f fInv : ℝ → ℝ) (gamma : ℝ) : SuccessorQ ℝ ℝ ℝ ℝ :=
  { p := .type2 (fun S => S.map (fun s => (List.range 1).map (fun _ => s))), pMean := id, r := .type2 (fun S => S.map (fun _ => (List.range 1).map (fun _ => r))), rMean := id, rInv := rInv,
    v := fun S => S.map (fun s => f (s ^ 2)), vMean := id, f := f, fInv := fInv, gamma := gamma }

theorem exQ_parts (r : ℝ) (rInv f fInv : ℝ → ℝ) (gamma : ℝ) : SuccParts 1 (exQ r rInv f fInv gamma) (fun s _ => s) (fun _ _ => r) (fun s => f (s ^ 2)) :=
  ⟨.type2 _ (fun _ => rfl), .type2 _ (fun _ => rfl), fun _ => rfl⟩

/-- With a `LogTransform` of any scale on the reward function, and no other transform, the reward 1 enters `q(s, a)` as another number: the claim is false. -/
theorem C77_counterexample_reward {scale : ℝ} {f g : ℝ → ℝ} (hf : newLogTransform scale = .ok (f, g)) (gamma s : ℝ) :
    ∃ (q : SuccessorQ ℝ ℝ ℝ ℝ) (tp tr : ℝ → Nat → ℝ) (tv : ℝ → ℝ) (x : ℝ), SuccParts 1 q tp tr tv ∧ q.gamma = gamma ∧ q.rInv = g ∧ (∀ x, q.fInv (q.f x) = x) ∧ reward q tr s 0 = 1 ∧
      q.callAction 1 s 0 = .ok x ∧ x ≠ reward q tr s 0 + q.gamma * stateValue q tv (q.pMean (tp s 0)) := by
  have h1 : f 1 ≠ 1 := by
    have hs : 0 < scale := by
      rcases C42_accepts scale with h | h
      · exact h.1
      · rw [h.2] at hf; simp at hf
    have hf' : f = logTransform scale := by
      rcases C42_accepts scale with h | h
      · rw [h.2] at hf; simp only [Except.ok.injEq, Prod.mk.injEq] at hf; exact hf.1.symm
      · rw [h.2] at hf; simp at hf
    rw [hf', logTransform_of_nonneg (by norm_num)]
    have hpos : (0 : ℝ) < 1 / scale := by positivity
    have := Real.log_lt_sub_one_of_pos (show (0 : ℝ) < 1 + 1 / scale by positivity) (by linarith)
    have h3 : scale * Real.log (1 + 1 / scale) < scale * (1 / scale) := mul_lt_mul_of_pos_left (by linarith) hs
    rw [mul_one_div_cancel hs.ne'] at h3
    exact h3.ne
  have hp := exQ_parts (f 1) g id id gamma
  refine ⟨exQ (f 1) g id id gamma, fun s _ => s, fun _ _ => f 1, fun s => id (s ^ 2), f 1 + gamma * s ^ 2, hp, rfl, rfl, fun _ => rfl, ?_, ?_, ?_⟩
  · simp [reward, exQ, (C42_inverse hf).1]
  · unfold SuccessorQ.callAction
    rw [show [oneHot 1 0] = [0].map (oneHot 1) from rfl, type1_eq (by norm_num) hp [s] rfl (by simp)]
    simp [succEntry, stateValue, exQ]
  · simp only [reward, stateValue, exQ, id, (C42_inverse hf).1]
    intro h
    exact h1 (by linarith)

/-- With a stochastic transition model the value of the mean successor enters, not the mean of the values: here the successor states -1 and 1 are equally likely and the value of a state is
its square. -/
theorem C77_counterexample_mean {gamma : ℝ} (hg : gamma ≠ 0) :
    ∃ (q : SuccessorQ ℝ ℝ ℝ ℝ) (tp tr : ℝ → Nat → ℝ) (tv : ℝ → ℝ) (w succ : Fin 2 → ℝ) (x : ℝ), SuccParts 1 q tp tr tv ∧ q.gamma = gamma ∧ q.rInv = id ∧ (∀ x, q.fInv (q.f x) = x) ∧ ∑ k, w k = 1 ∧
      q.pMean (tp 0 0) = ∑ k, w k * succ k ∧ q.callAction 1 0 0 = .ok x ∧ x ≠ reward q tr 0 0 + q.gamma * ∑ k, w k * stateValue q tv (succ k) := by
  have hp := exQ_parts 0 id id id gamma
  refine ⟨exQ 0 id id id gamma, _, _, _, fun _ => 1 / 2, fun k => if k = 0 then -1 else 1, _, hp, rfl, rfl, fun _ => rfl, by norm_num, by norm_num [exQ, Fin.sum_univ_two], C77_value_partial hp (fun _ => rfl) rfl 0 (by norm_num), ?_⟩
  simp only [reward, stateValue, exQ, id, Fin.sum_univ_two]
  norm_num
  exact fun h => hg h.symm

end Coax.Core
