import Verif.TD.Targets
import Verif.Core.QTypesProps
import Mathlib.Algebra.BigOperators.Group.Finset.Basic
import Mathlib.Algebra.BigOperators.Ring.Finset
import Mathlib.Algebra.BigOperators.Field
import Mathlib.Algebra.Order.BigOperators.Group.Finset
import Mathlib.Tactic.FieldSimp
import Mathlib.Tactic.Linarith

/-! Lemmas on greedy actions and targets. -/

namespace Coax.TD

open Coax.Core

variable {P σ α : Type _}

/-- The maximising actions. -/
noncomputable def maximisers (n : Nat) (p : Nat → ℝ) : Finset Nat := (Finset.range n).filter (fun a => ∀ b ∈ Finset.range n, p b ≤ p a)

theorem mem_maximisers {n : Nat} {p : Nat → ℝ} {a : Nat} : a ∈ maximisers n p ↔ a < n ∧ ∀ b < n, p b ≤ p a := by
  simp [maximisers]

theorem maximisers_nonempty {n : Nat} (hn : 0 < n) (p : Nat → ℝ) : (maximisers n p).Nonempty := by
  obtain ⟨a, ha, h⟩ := Finset.exists_max_image (Finset.range n) p ⟨0, by simpa using hn⟩
  exact ⟨a, mem_maximisers.2 ⟨by simpa using ha, fun b hb => h b (by simpa using hb)⟩⟩

/-- The mean of `q` over the maximisers of `p`. -/
noncomputable def tieMean (n : Nat) (p q : Nat → ℝ) : ℝ := (∑ a ∈ maximisers n p, q a) / (maximisers n p).card

theorem tieMean_self {n : Nat} (hn : 0 < n) {p : Nat → ℝ} {a : Nat} (ha : a ∈ maximisers n p) : tieMean n p p = p a := by
  have hc : ((maximisers n p).card : ℝ) ≠ 0 := by
    have := Finset.card_pos.2 (maximisers_nonempty hn p); positivity
  unfold tieMean
  rw [Finset.sum_congr rfl (g := fun _ => p a), Finset.sum_const, nsmul_eq_mul, mul_div_cancel_left₀ _ hc]
  intro b hb
  have h1 := (mem_maximisers.1 ha).2 b (mem_maximisers.1 hb).1
  have h2 := (mem_maximisers.1 hb).2 a (mem_maximisers.1 ha).1
  linarith

theorem tieMean_single {n : Nat} {p : Nat → ℝ} (q : Nat → ℝ) {a : Nat} (h : maximisers n p = {a}) : tieMean n p q = q a := by
  simp [tieMean, h]

theorem tieMean_le {n : Nat} (hn : 0 < n) (p : Nat → ℝ) {q : Nat → ℝ} {m : ℝ} (h : ∀ a < n, q a ≤ m) : tieMean n p q ≤ m := by
  have hc : (0 : ℝ) < (maximisers n p).card := by
    have := Finset.card_pos.2 (maximisers_nonempty hn p); positivity
  unfold tieMean
  rw [div_le_iff₀ hc]
  calc ∑ a ∈ maximisers n p, q a ≤ ∑ _a ∈ maximisers n p, m :=
        Finset.sum_le_sum (fun a ha => h a (mem_maximisers.1 ha).1)
    _ = m * (maximisers n p).card := by rw [Finset.sum_const, nsmul_eq_mul, mul_comm]

theorem dot_map_range (n : Nat) (w q : Nat → ℝ) : dot ((List.range n).map w) ((List.range n).map q) = ∑ a ∈ Finset.range n, w a * q a := by
  induction n with
  | zero => simp [dot]
  | succ n ih =>
    unfold dot at ih ⊢
    rw [List.range_succ, List.map_append, List.map_append, List.zipWith_append (by simp), List.sum_append, ih, Finset.sum_range_succ]
    simp

theorem sum_map_range (n : Nat) (w : Nat → ℝ) : ((List.range n).map w).sum = ∑ a ∈ Finset.range n, w a := by
  induction n with
  | zero => simp
  | succ n ih => rw [List.range_succ, List.map_append, List.sum_append, ih, Finset.sum_range_succ]; simp

theorem max?_map_range {n : Nat} {p : Nat → ℝ} {a : Nat} (ha : a ∈ maximisers n p) : ((List.range n).map p).max? = some (p a) := by
  rw [List.max?_eq_some_iff]
  obtain ⟨h1, h2⟩ := mem_maximisers.1 ha
  refine ⟨List.mem_map.2 ⟨a, by simpa using h1, rfl⟩, ?_⟩
  intro x hx
  obtain ⟨b, hb, rfl⟩ := List.mem_map.1 hx
  exact h2 b (by simpa using hb)

/-- The greedy row of a table: equal weights on the maximisers. -/
theorem greedyRow_map {n : Nat} (hn : 0 < n) (p : Nat → ℝ) :
    greedyRow ((List.range n).map p)
      = .ok ((List.range n).map (fun a => if a ∈ maximisers n p then 1 / ((maximisers n p).card : ℝ) else 0)) := by
  obtain ⟨m, hm⟩ := maximisers_nonempty hn p
  unfold greedyRow
  rw [max?_map_range hm]
  simp only [List.map_map]
  have hiff : ∀ a < n, (p a = p m ↔ a ∈ maximisers n p) := by
    intro a ha
    constructor
    · intro h
      refine mem_maximisers.2 ⟨ha, fun b hb => ?_⟩
      rw [h]; exact (mem_maximisers.1 hm).2 b hb
    · intro h
      exact le_antisymm ((mem_maximisers.1 hm).2 a ha) ((mem_maximisers.1 h).2 m (mem_maximisers.1 hm).1)
  have hsum : ((List.range n).map ((fun x => if x = p m then (1 : ℝ) else 0) ∘ p)).sum = (maximisers n p).card := by
    rw [List.map_congr_left (g := fun a => if a ∈ maximisers n p then (1 : ℝ) else 0), sum_map_range, Finset.sum_ite_mem, Finset.sum_const, nsmul_eq_mul, mul_one]
    · congr 2
      ext a
      simp only [Finset.mem_inter, Finset.mem_range, and_iff_right_iff_imp]
      exact fun h => (mem_maximisers.1 h).1
    · intro a ha
      simp only [Function.comp_apply, hiff a (by simpa using ha)]
  rw [hsum]
  congr 1
  refine List.map_congr_left (fun a ha => ?_)
  simp only [Function.comp_apply, hiff a (by simpa using ha)]
  split <;> simp

theorem mapM_ok {α β : Type _} {f : α → Except Err β} {g : α → β} {l : List α} (h : ∀ x ∈ l, f x = .ok (g x)) : l.mapM f = .ok (l.map g) := by
  induction l with
  | nil => rfl
  | cons x l ih =>
    rw [List.mapM_cons, h x (by simp), ih (fun y hy => h y (by simp [hy]))]; rfl

/-- The rows on which the type-1 view at the greedy actions is the average over ties: all rows for a type-2 function, the rows
with one maximiser for a type-1 function. -/
def TieSafe (n : Nat) (p : σ → Nat → ℝ) (F : Func σ (List ℝ) ℝ) (S : List σ) : Prop :=
  (∃ f, F = .type2 f) ∨ ∀ s ∈ S, ∃ a, maximisers n (p s) = {a}

theorem greedy_table {n : Nat} (hn : 0 < n) (p : σ → Nat → ℝ) (S : List σ) :
    (S.map (fun s => (List.range n).map (p s))).mapM greedyRow
      = .ok (S.map (fun s => (List.range n).map (fun a => if a ∈ maximisers n (p s) then 1 / ((maximisers n (p s)).card : ℝ) else 0))) := by
  induction S with
  | nil => rfl
  | cons s S ih => rw [List.map_cons, List.mapM_cons, greedyRow_map hn, ih]; rfl

/-- A single maximiser gives the one-hot action. -/
theorem greedy_oneHot {n : Nat} {p : Nat → ℝ} {a : Nat} (h : maximisers n p = {a}) :
    (List.range n).map (fun b => if b ∈ maximisers n p then 1 / ((maximisers n p).card : ℝ) else 0) = oneHot n a := by
  rw [h]; simp [oneHot]

theorem exists_acts {n : Nat} {p : σ → Nat → ℝ} {S : List σ} (h : ∀ s ∈ S, ∃ a, maximisers n (p s) = {a}) :
    ∃ acts : List Nat, acts.length = S.length ∧ (∀ a ∈ acts, a < n) ∧
      S.map (fun s => (List.range n).map (fun b => if b ∈ maximisers n (p s) then 1 / ((maximisers n (p s)).card : ℝ) else 0)) = acts.map (oneHot n) ∧
      ∀ q : σ → Nat → ℝ, List.zipWith q S acts = S.map (fun s => tieMean n (p s) (q s)) := by
  induction S with
  | nil => exact ⟨[], by simp⟩
  | cons s S ih =>
    obtain ⟨acts, h1, h2, h3, h4⟩ := ih (fun x hx => h x (by simp [hx]))
    obtain ⟨a, ha⟩ := h s (by simp)
    have hlt : a < n := (mem_maximisers.1 (ha ▸ Finset.mem_singleton_self a : a ∈ maximisers n (p s))).1
    refine ⟨a :: acts, by simp [h1], ?_, ?_, ?_⟩
    · intro b hb
      rcases List.mem_cons.1 hb with rfl | hb
      · exact hlt
      · exact h2 b hb
    · rw [List.map_cons, List.map_cons, h3, greedy_oneHot ha]
    · intro q
      rw [List.zipWith_cons_cons, List.map_cons, h4, tieMean_single _ ha]

/-- Evaluating the function with table `q` at the greedy actions of the table `p`. -/
theorem functionType1_greedy {n : Nat} (hn : 0 < n) {p q : σ → Nat → ℝ} {F : Func σ (List ℝ) ℝ} (hF : Computes n q F) {S : List σ} (hs : TieSafe n p F S) :
    functionType1 n F S (S.map (fun s => (List.range n).map (fun a => if a ∈ maximisers n (p s) then 1 / ((maximisers n (p s)).card : ℝ) else 0)))
      = .ok (S.map (fun s => tieMean n (p s) (q s))) := by
  rcases hs with ⟨f, rfl⟩ | hs
  · obtain hf := (by cases hF with | type2 _ hf => exact hf : ∀ S, f S = S.map (fun s => (List.range n).map (q s)))
    unfold functionType1
    simp only
    rw [if_neg (by simp), if_neg (by rw [hf]; simp), hf]
    congr 1
    apply List.ext_getElem
    · simp
    · intro i h1 h2
      have hi : i < S.length := by simpa using h2
      simp only [List.getElem_zipWith, List.getElem_map]
      rw [dot_map_range]
      unfold tieMean
      rw [Finset.sum_div, ← Finset.sum_subset (s₁ := maximisers n (p S[i]))]
      · refine Finset.sum_congr rfl (fun a ha => ?_)
        rw [if_pos ha]; ring
      · intro a ha; simpa using (mem_maximisers.1 ha).1
      · intro a _ ha; rw [if_neg ha, zero_mul]
  · obtain ⟨acts, h1, h2, h3, h4⟩ := exists_acts hs
    rw [h3, (C55_agree hn hF S).2 acts h1 h2, h4]

/-- The value of the backup in each row. -/
theorem backup_ok {f fInv : ℝ → ℝ} {b : TBatch σ α} {Q G : List ℝ} (h : backup f fInv b Q = .ok G) :
    G.length = Q.length ∧ ∀ (i : Nat) (r d q : ℝ), b.Rn[i]? = some r → b.In[i]? = some d → Q[i]? = some q → G[i]? = some (f (r + d * fInv q)) := by
  unfold backup at h
  split at h
  case isFalse => cases h
  case isTrue hl =>
    cases h
    refine ⟨by simp [hl.1, hl.2], ?_⟩
    intro i r d q h1 h2 h3
    rw [List.getElem?_zipWith, (show (b.Rn.zip b.In)[i]? = some (r, d) from List.getElem?_zip_eq_some.2 ⟨h1, h2⟩), h3]

theorem backup_total {f fInv : ℝ → ℝ} {b : TBatch σ α} {Q : List ℝ} (h1 : b.Rn.length = Q.length) (h2 : b.In.length = Q.length) : ∃ G, backup f fInv b Q = .ok G := by
  unfold backup; rw [if_pos ⟨h1, h2⟩]; exact ⟨_, rfl⟩

theorem backup_terminal {f fInv : ℝ → ℝ} {b : TBatch σ α} {Q G : List ℝ} (h : backup f fInv b Q = .ok G) {i : Nat} {r : ℝ} (hr : b.Rn[i]? = some r) (hi : b.In[i]? = some 0) :
    G[i]? = some (f r) := by
  have hl : i < Q.length := by
    unfold backup at h
    split at h
    case isFalse => cases h
    case isTrue hl => rw [← hl.1]; exact (List.getElem?_eq_some_iff.1 hr).1
  have := (backup_ok h).2 i r 0 Q[i] hr hi (List.getElem?_eq_getElem hl)
  simpa using this

end Coax.TD
