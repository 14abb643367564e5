import Verif.TD.Update

/-! Property C47: a NaN gradient changes nothing. -/

namespace Coax.TD

open Coax.Core

variable {K M B : Type _}

/-- Some entry of some leaf is NaN. -/
def ContainsNaN (g : Grads K) : Prop := ∃ leaf ∈ g, none ∈ leaf.2

theorem hasNaN_iff (g : Grads K) : hasNaN g = true ↔ ContainsNaN g := by
  unfold hasNaN ContainsNaN
  simp only [List.any_eq_true, Option.isNone_iff_eq_none, exists_eq_right]

/-- Params, function state and state of the optimizer are the same. -/
def Unchanged (s s' : UState K) : Prop := s'.params = s.params ∧ s'.functionState = s.functionState ∧ s'.optState = s.optState

/-- C47.  If the gradients contain NaN, `update` raises `RuntimeError` and changes nothing (but the random key). -/
theorem C47_nan {u : Updater K M B} {s : UState K} {batch : B} {g : Grads K} {fs : PyTree K} {metrics : M} (h : u.compute s batch = .ok (g, fs, metrics))
    (hn : ContainsNaN g) : ∃ s', update u s batch = (s', .error .runtimeError) ∧ Unchanged s s' := by
  unfold update
  simp only [h]
  rw [if_pos ((hasNaN_iff g).2 hn)]
  exact ⟨_, rfl, rfl, rfl, rfl⟩

/-- The computed trees have the structure of those they replace: true of every optimizer whose state has a fixed structure. -/
def Fits (s : UState K) (fs opt params : PyTree K) : Prop :=
  structure_ fs = structure_ s.functionState ∧ structure_ opt = structure_ s.optState ∧ structure_ params = structure_ s.params

/-- C47.  Otherwise all three are updated together. -/
theorem C47_update {u : Updater K M B} {s : UState K} {batch : B} {g : Grads K} {fs opt params : PyTree K} {metrics : M} (h : u.compute s batch = .ok (g, fs, metrics))
    (hn : ¬ ContainsNaN g) (ha : u.applyGrads s.optState s.params g = .ok (opt, params)) (hfit : Fits s fs opt params) :
    update u s batch = (⟨params, fs, opt, s.rng + 1⟩, .ok metrics) := by
  obtain ⟨h1, h2, h3⟩ := hfit
  unfold update
  simp only [h]
  rw [if_neg (fun h' => hn ((hasNaN_iff g).1 h'))]
  unfold applyGrads
  simp only
  rw [if_neg (not_not.2 h1), ha]
  simp only
  rw [if_neg (fun h' => h'.2 h2), if_neg (not_not.2 h3)]

/-- C47.  Read backwards: an update that succeeds had gradients without NaN and has set all three; an update that raises before the optimizer is
asked has changed nothing. -/
theorem C47_inversion {u : Updater K M B} {s s' : UState K} {batch : B} {r : Except Err M} (h : update u s batch = (s', r)) :
    (∀ metrics, r = .ok metrics → ∃ g fs opt params, u.compute s batch = .ok (g, fs, metrics) ∧ ¬ ContainsNaN g ∧
        u.applyGrads s.optState s.params g = .ok (opt, params) ∧ s' = ⟨params, fs, opt, s.rng + 1⟩) ∧
    (r = .error .runtimeError → (∀ o p g, u.applyGrads o p g ≠ .error .runtimeError) → Unchanged s s') := by
  unfold update at h
  simp only at h
  cases hc : u.compute s batch with
  | error e =>
    rw [hc] at h
    cases h
    refine ⟨fun m hm => (by cases hm), fun _ _ => ⟨rfl, rfl, rfl⟩⟩
  | ok x =>
    obtain ⟨g, fs, metrics⟩ := x
    rw [hc] at h
    simp only at h
    split at h
    · cases h
      refine ⟨fun m hm => (by cases hm), fun _ _ => ⟨rfl, rfl, rfl⟩⟩
    · next hn =>
      have hn' : ¬ ContainsNaN g := fun h' => hn ((hasNaN_iff g).2 h')
      unfold applyGrads at h
      simp only at h
      split at h
      · next s1 e heq =>
        cases h
        refine ⟨(by intro m hm; cases hm), ?_⟩
        intro hr hopt
        cases hr
        split at heq
        · cases heq
        · split at heq
          · next e' he' => cases heq; exact absurd he' (hopt _ _ _)
          · split at heq
            · cases heq
            · split at heq <;> cases heq
      · next s1 heq =>
        cases h
        refine ⟨?_, (by intro hr; cases hr)⟩
        intro m hm
        cases hm
        split at heq
        · cases heq
        · split at heq
          · cases heq
          · next opt params ha =>
            split at heq
            · cases heq
            · split at heq
              · cases heq
              · cases heq
                exact ⟨g, fs, opt, params, rfl, hn', ha, rfl⟩

/-- If the optimizer raises (as for gradients of another structure), the function state has been replaced already. -/
theorem C47_optimizer_error {u : Updater K M B} {s : UState K} {batch : B} {g : Grads K} {fs : PyTree K} {metrics : M} {e : Err}
    (h : u.compute s batch = .ok (g, fs, metrics)) (hn : ¬ ContainsNaN g) (ha : u.applyGrads s.optState s.params g = .error e)
    (hfs : structure_ fs = structure_ s.functionState) :
    update u s batch = ({ s with functionState := fs, rng := s.rng + 1 }, .error e) := by
  unfold update
  simp only [h]
  rw [if_neg (fun h' => hn ((hasNaN_iff g).1 h'))]
  unfold applyGrads
  simp only
  rw [if_neg (not_not.2 hfs), ha]

/-- Both cases occur: plain gradient descent on one weight, with the batch as gradient. -/
def sgd : Updater Int Unit (Option Int) where
  compute := fun s b => .ok ([("w", [b])], s.functionState, ())
  applyGrads := fun opt params g => .ok (opt, List.zipWith (fun p g => (p.1, List.zipWith (fun x y => x - y.getD 0) p.2 g.2)) params g)
  checksOpt := true

example : update sgd ⟨[("w", [5])], [], [], 0⟩ (some 2) = (⟨[("w", [3])], [], [], 1⟩, .ok ()) ∧
    update sgd ⟨[("w", [5])], [], [], 0⟩ none = (⟨[("w", [5])], [], [], 1⟩, .error .runtimeError) ∧
    ContainsNaN [("w", [none (α := Int)])] ∧ ¬ ContainsNaN [("w", [some (2 : Int)])] :=
  ⟨rfl, rfl, ⟨("w", [none]), by simp, by simp⟩, by simp [ContainsNaN]⟩

end Coax.TD
