import Verif.Core.TransitionModel
import Verif.Core.QTypesProps
import Verif.TD.TargetsLemmas

/-! Property C90: the two ways of asking a transition model for successor states. -/

namespace Coax.Core

variable {σ σ' O V : Type _} [AddCommGroup V] [Module ℝ V]

/-- C90.  Whichever kind of network it has, a transition model whose network computes the table `next s' a` returns `post (next (pre s) a)` when it is asked for one action, and
the list of these, in the order of the actions, when it is asked for all. -/
theorem C90_call {n : Nat} {next : σ' → Nat → V} {F : Func σ' (List ℝ) V} (h : Computes n next F) (pre : σ → σ') (post : V → O) (s : σ) {a : Nat} (ha : a < n) :
    tmCallAction n F pre post s a = .ok (post (next (pre s) a)) ∧
    ∃ l, tmCallState n F pre post s = .ok l ∧ l.length = n ∧ l[a]? = some (post (next (pre s) a)) := by
  have hn : 0 < n := by omega
  obtain ⟨h1, h2⟩ := C55_agree hn h [pre s]
  have h3 := h2 [a] rfl (by simpa using ha)
  constructor
  · unfold tmCallAction
    rw [show [oneHot n a] = [a].map (oneHot n) from rfl, h3]; rfl
  · refine ⟨(List.range n).map fun i => post (next (pre s) i), ?_, by simp, by simp [ha]⟩
    unfold tmCallState
    rw [h1]
    simp only [List.map_cons, List.map_nil, List.getElem?_cons_zero]
    refine TD.mapM_ok fun i hi => ?_
    rw [List.mem_range] at hi
    simp [hi]

/-- C90, consequence: asking for all actions and taking entry `a` is the same as asking for action `a`. -/
theorem C90_agree {n : Nat} (hn : 0 < n) {next : σ' → Nat → V} {F : Func σ' (List ℝ) V} (h : Computes n next F) (pre : σ → σ') (post : V → O) (s : σ) :
    ∃ l, tmCallState n F pre post s = .ok l ∧ l.length = n ∧ ∀ a < n, ∃ o, l[a]? = some o ∧ tmCallAction n F pre post s a = .ok o := by
  obtain ⟨_, l, h1, hl, _⟩ := C90_call h pre post s hn
  refine ⟨l, h1, hl, fun a ha => ?_⟩
  obtain ⟨h2, l', h3, _, h4⟩ := C90_call h pre post s ha
  rw [h1] at h3
  cases h3
  exact ⟨_, h4, h2⟩

/-- A type-1 and a type-2 network over pairs of reals that compute the same table, with two actions. -/
example : Computes 2 (fun (s : ℝ) a => (s, s * a)) (.type1 (V := ℝ × ℝ) fun S A => List.zipWith (fun s (A : List ℝ) => (s, s * (A[1]?.getD 0))) S A) ∧
    Computes 2 (fun (s : ℝ) a => (s, s * a)) (.type2 (V := ℝ × ℝ) fun S => S.map fun s => [(s, 0), (s, s)]) := by
  constructor
  · refine .type1 _ (fun s A => (s, s * (A[1]?.getD 0))) (fun _ _ _ => rfl) ?_
    intro s a ha
    rcases a with _ | _ | a
    · simp [oneHot, List.range_succ]
    · simp [oneHot, List.range_succ]
    · omega
  · exact .type2 _ fun S => by simp [List.range_succ]

end Coax.Core
