import Verif.Core.QTypes
import Mathlib.Data.List.Basic
import Mathlib.Tactic.Ring

/-! Property C55: the two views of a q-function agree. -/

namespace Coax.Core

set_option linter.unusedSectionVars false

variable {σ V : Type _} [AddCommGroup V] [Module ℝ V]

/-- The rows of a batch are handled one by one: what a network without batch normalisation does. -/
def RowWise1 (f : List σ → List (List ℝ) → List V) (g : σ → List ℝ → V) : Prop :=
  ∀ S A, S.length = A.length → f S A = List.zipWith g S A

theorem length_oneHot (n a : Nat) : (oneHot n a).length = n := by simp [oneHot]

theorem dot_replicate_zero (q : List V) (n : Nat) : dot (List.replicate n 0) q = 0 := by
  induction q generalizing n with
  | nil => cases n <;> simp [dot, List.replicate_succ]
  | cons x q ih =>
    cases n with
    | zero => simp [dot]
    | succ n =>
      have := ih n
      unfold dot at this ⊢
      rw [List.replicate_succ, List.zipWith_cons_cons, List.sum_cons, this]; simp

theorem oneHot_zero_succ (n : Nat) : oneHot (n + 1) 0 = 1 :: List.replicate n 0 := by
  unfold oneHot
  rw [List.range_succ_eq_map]
  simp [List.eq_replicate_iff]

theorem oneHot_succ_succ (n a : Nat) : oneHot (n + 1) (a + 1) = 0 :: oneHot n a := by
  unfold oneHot
  rw [List.range_succ_eq_map]
  simp [Function.comp_def]

theorem dot_oneHot (n a : Nat) (q : List V) (hq : q.length = n) (ha : a < n) : dot (oneHot n a) q = q[a] := by
  induction n generalizing a q with
  | zero => omega
  | succ n ih =>
    cases q with
    | nil => simp at hq
    | cons x q =>
      cases a with
      | zero =>
        have := dot_replicate_zero q n
        unfold dot at this ⊢
        rw [oneHot_zero_succ, List.zipWith_cons_cons, List.sum_cons, this]; simp
      | succ a =>
        have := ih a q (by simpa using hq) (by omega)
        unfold dot at this ⊢
        rw [oneHot_succ_succ, List.zipWith_cons_cons, List.sum_cons, this]; simp

theorem repeatRows_length (n : Nat) (S : List σ) : (repeatRows n S).length = S.length * n := by
  induction S with
  | nil => simp [repeatRows]
  | cons s S ih =>
    unfold repeatRows at ih ⊢
    rw [List.flatMap_cons, List.length_append, ih, List.length_replicate, List.length_cons]; ring

theorem tileActions_length (n b : Nat) : (tileActions n b).length = b * n := by simp [tileActions]

/-- What a row-wise function gives on the replicas, block by block. -/
theorem zipWith_replicas (n : Nat) (S : List σ) (g : σ → List ℝ → V) :
    List.zipWith g (repeatRows n S) ((tileActions n S.length).map (oneHot n))
      = (S.map (fun s => (List.range n).map (fun a => g s (oneHot n a)))).flatten := by
  induction S with
  | nil => simp [repeatRows, tileActions]
  | cons s S ih =>
    have e : tileActions n (s :: S).length = List.range n ++ tileActions n S.length := by
      simp [tileActions, List.replicate_succ]
    have e2 : repeatRows n (s :: S) = List.replicate n s ++ repeatRows n S := by simp [repeatRows]
    rw [e, e2, List.map_append, List.zipWith_append (by simp), ih, List.map_cons, List.flatten_cons]
    congr 1
    apply List.ext_getElem
    · simp
    · intro i h1 h2; simp

theorem chunks_flatten (n : Nat) (L : List (List V)) (hL : ∀ l ∈ L, l.length = n) :
    (List.range L.length).map (fun b => (L.flatten.drop (b * n)).take n) = L := by
  induction L with
  | nil => rfl
  | cons l L ih =>
    have hl := hL l (by simp)
    rw [List.length_cons, List.range_succ_eq_map, List.map_cons, List.map_map, List.flatten_cons]
    congr 1
    · rw [Nat.zero_mul, List.drop_zero, ← hl, List.take_left]
    · have := ih (fun x hx => hL x (by simp [hx]))
      refine Eq.trans (List.map_congr_left ?_) this
      intro b _
      simp only [Function.comp_apply]
      rw [Nat.succ_mul, Nat.add_comm, ← hl, List.drop_append, List.drop_eq_nil_of_le (by omega)]
      simp
/-- C55.  The type-2 view of a row-wise type-1 function has at `[b, a]` the value for state `b` and the one-hot action `a`. -/
theorem C55_type2_view {n : Nat} (hn : 0 < n) {f : List σ → List (List ℝ) → List V} {g : σ → List ℝ → V} (hf : RowWise1 f g) (S : List σ) :
    functionType2 n (.type1 f) S = .ok (S.map (fun s => (List.range n).map (fun a => g s (oneHot n a)))) := by
  unfold functionType2 reshapeRows
  simp only
  rw [hf _ _ (by rw [repeatRows_length, List.length_map, tileActions_length]), zipWith_replicas]
  have hlen : (S.map (fun s => (List.range n).map (fun a => g s (oneHot n a)))).flatten.length = S.length * n := by
    rw [← zipWith_replicas, List.length_zipWith, repeatRows_length, List.length_map, tileActions_length, Nat.min_self]
  rw [if_neg (by rw [hlen]; simp), hlen, Nat.mul_div_cancel _ hn]
  congr 1
  have := chunks_flatten n (S.map (fun s => (List.range n).map (fun a => g s (oneHot n a)))) (by
    intro l hl
    obtain ⟨s, _, rfl⟩ := List.mem_map.1 hl
    simp)
  rw [List.length_map] at this
  exact this

/-- C55.  The type-1 view of a type-2 function, at one-hot actions, selects the entries of these actions. -/
theorem C55_type1_view {n : Nat} {f : List σ → List (List V)} (S : List σ) (acts : List Nat) (hlen : (f S).length = acts.length)
    (hrow : ∀ q ∈ f S, q.length = n) (hact : ∀ a ∈ acts, a < n) :
    ∃ out, functionType1 n (.type2 f) S (acts.map (oneHot n)) = .ok out ∧ out.length = acts.length ∧
      ∀ (b a : Nat) (q : List V), acts[b]? = some a → (f S)[b]? = some q → out[b]? = q[a]? := by
  unfold functionType1
  simp only
  rw [if_neg (by simp [length_oneHot]), if_neg]
  · refine ⟨_, rfl, by simp [hlen], ?_⟩
    intro b a q ha hq
    have h1 := hrow q (List.mem_of_getElem? hq)
    have h2 := hact a (List.mem_of_getElem? ha)
    rw [List.getElem?_zipWith, List.getElem?_map, ha, hq]
    show some (dot (oneHot n a) q) = _
    rw [dot_oneHot n a q h1 h2, List.getElem?_eq_getElem]
  · rintro (h | h)
    · simp [hlen] at h
    · simp only [List.any_eq_true, decide_eq_true_eq] at h
      obtain ⟨q, hq, hne⟩ := h
      exact hne (hrow q hq)

/-- C55.  Action arrays with another number of columns are rejected. -/
theorem C55_rejects {n : Nat} {f : List σ → List (List V)} (S : List σ) (A : List (List ℝ)) (h : ∃ a ∈ A, a.length ≠ n) :
    functionType1 n (.type2 f) S A = .error .assertionError := by
  unfold functionType1
  simp only
  rw [if_pos (by simpa using h)]

/-- A function in either form, given by the table `q s a`: for type 1 the rows are handled one by one; for type 2 each row of the
output is the row of the table. -/
inductive Computes (n : Nat) (q : σ → Nat → V) : Func σ (List ℝ) V → Prop
  | type1 (f : List σ → List (List ℝ) → List V) (g : σ → List ℝ → V) : RowWise1 f g → (∀ s a, a < n → g s (oneHot n a) = q s a) → Computes n q (.type1 f)
  | type2 (f : List σ → List (List V)) : (∀ S, f S = S.map (fun s => (List.range n).map (q s))) → Computes n q (.type2 f)

/-- C55.  Whatever the type, both views compute the same table. -/
theorem C55_agree {n : Nat} (hn : 0 < n) {q : σ → Nat → V} {F : Func σ (List ℝ) V} (h : Computes n q F) (S : List σ) :
    functionType2 n F S = .ok (S.map (fun s => (List.range n).map (q s))) ∧
    ∀ acts : List Nat, acts.length = S.length → (∀ a ∈ acts, a < n) →
      functionType1 n F S (acts.map (oneHot n)) = .ok (List.zipWith q S acts) := by
  cases h with
  | type1 f g hf hg =>
    constructor
    · rw [C55_type2_view hn hf]
      congr 1
      refine List.map_congr_left (fun s _ => List.map_congr_left (fun a ha => hg s a (List.mem_range.1 ha)))
    · intro acts hl ha
      unfold functionType1
      simp only
      rw [hf _ _ (by simp [hl])]
      congr 1
      apply List.ext_getElem
      · simp
      · intro i h1 h2
        simp only [List.getElem_zipWith, List.getElem_map]
        exact hg _ _ (ha _ (List.getElem_mem _))
  | type2 f hf =>
    refine ⟨by simp [functionType2, hf], ?_⟩
    intro acts hl ha
    obtain ⟨out, h1, h2, h3⟩ := C55_type1_view (n := n) (f := f) S acts (by rw [hf]; simp [hl])
      (by rw [hf]; intro q hq; obtain ⟨s, _, rfl⟩ := List.mem_map.1 hq; simp) ha
    rw [h1]
    congr 1
    apply List.ext_getElem
    · simp [h2, hl]
    · intro i hi1 hi2
      have hia : i < acts.length := by omega
      have hiS : i < S.length := by omega
      have := h3 i acts[i] ((List.range n).map (q S[i])) (List.getElem?_eq_getElem hia) (by rw [hf, List.getElem?_map, List.getElem?_eq_getElem hiS]; rfl)
      rw [List.getElem?_eq_getElem hi1, List.getElem?_eq_getElem (by simpa using ha _ (List.getElem_mem hia)), Option.some.injEq] at this
      rw [this]; simp

/-- C55.  `q(s)[a] = q(s, a)`, for a q-function of either type and any value transform. -/
theorem C55_call {n : Nat} {q : σ → Nat → ℝ} {F : Func σ (List ℝ) ℝ} (h : Computes n q F) (inverse : ℝ → ℝ) (s : σ) (a : Nat) (ha : a < n) :
    ∃ row, callState n F inverse s = .ok row ∧ row.length = n ∧ callAction n F inverse s a = .ok (inverse (q s a)) ∧ row[a]? = some (inverse (q s a)) := by
  have hn : 0 < n := by omega
  obtain ⟨h1, h2⟩ := C55_agree hn h [s]
  have h3 := h2 [a] rfl (by simpa using ha)
  refine ⟨((List.range n).map (q s)).map inverse, ?_, by simp, ?_, ?_⟩
  · unfold callState; rw [h1]; rfl
  · unfold callAction
    rw [show [oneHot n a] = [a].map (oneHot n) from rfl, h3]; rfl
  · simp [ha]

/-- The hypotheses are met by a linear type-1 and a type-2 function with the same table `q s a = s·a`. -/
example : ∃ f : List ℝ → List (List ℝ) → List ℝ, Computes 3 (fun (s : ℝ) a => s * a) (.type1 f) :=
  ⟨List.zipWith (fun s A => s * dot A [0, 1, 2]), .type1 _ (fun s A => s * dot A [0, 1, 2]) (fun _ _ _ => rfl) (by
    intro s a ha
    rw [dot_oneHot 3 a _ rfl ha]
    rcases a with _ | _ | _ | a
    · simp
    · simp
    · simp
    · omega)⟩

example : Computes 3 (fun (s : ℝ) a => s * a) (.type2 (fun S => S.map (fun s => (List.range 3).map (fun a => s * (a : ℝ))))) :=
  .type2 _ (fun _ => rfl)

end Coax.Core
