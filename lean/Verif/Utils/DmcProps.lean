import Verif.Utils.Dmc
import Mathlib.Data.List.Forall2
import Mathlib.Tactic.Linarith
import Mathlib.Tactic.NormNum

/-! Property C92: environments made by `make_dmc`. -/

namespace Coax.Utils

/-! ### `make_dmc` -/

theorem find_cons (p : String × DmcArgs) (reg : Registry) (id : String) : regFind (p :: reg) id = if p.1 = id then some p.2 else regFind reg id := by
  simp only [regFind, List.find?_cons]
  by_cases h : p.1 = id
  · simp [h]
  · simp [h]

/-- Calls of `make_dmc` one after the other: the environments that they return. -/
def makeAll : Registry → List DmcArgs → List (Except Err DmcArgs)
  | _, [] => []
  | reg, a :: as => (makeDmc reg a).2 :: makeAll (makeDmc reg a).1 as

theorem makeAll_registered {reg : Registry} {a : DmcArgs} (h : regFind reg a.envId = some a) {as : List DmcArgs} (has : ∀ b ∈ as, b.envId = a.envId) :
    makeAll reg as = as.map fun _ => .ok a := by
  induction as with
  | nil => rfl
  | cons b as ih =>
    have hb := has b (by simp)
    have e : makeDmc reg b = (reg, .ok a) := by
      simp only [makeDmc, hb, h]
      simp [h]
    simp only [makeAll, e, List.map_cons]
    rw [ih fun c hc => has c (by simp [hc])]

/-- C92, `make_dmc`, what happens otherwise: the first call for a domain and task decides; all later calls for it, whatever their seed, image size or number of steps, return an
environment with the settings of the first. -/
theorem C92_make_first_wins {reg : Registry} {a : DmcArgs} (h : regFind reg a.envId = none) {as : List DmcArgs} (has : ∀ b ∈ as, b.domain = a.domain ∧ b.task = a.task) :
    makeAll reg (a :: as) = (a :: as).map fun _ => .ok a := by
  have e : makeDmc reg a = ((a.envId, a) :: reg, .ok a) := by simp [makeDmc, h, find_cons]
  simp only [makeAll, e, List.map_cons]
  rw [makeAll_registered (a := a) (by simp [find_cons])]
  intro b hb
  simp [DmcArgs.envId, has b hb]

/-- The registry after some calls of `make_dmc`. -/
def afterAll : Registry → List DmcArgs → Registry
  | reg, [] => reg
  | reg, a :: as => afterAll (makeDmc reg a).1 as

theorem afterAll_find {a : DmcArgs} {as : List DmcArgs} (has : ∀ b ∈ as, b.domain ++ "_" ++ b.task ≠ a.domain ++ "_" ++ a.task) :
    ∀ {reg : Registry}, regFind reg a.envId = none → regFind (afterAll reg as) a.envId = none := by
  induction as with
  | nil => exact id
  | cons b as ih =>
    intro reg h
    refine ih (fun c hc => has c (by simp [hc])) ?_
    have hb : b.envId ≠ a.envId := fun he => has b (by simp) (by simpa [DmcArgs.envId] using he)
    simp only [makeDmc]
    split
    · rw [find_cons, if_neg hb, h]
    · exact h

/-- C92, `make_dmc`, as far as it holds: in a new process, and after any other calls of `make_dmc` as long as none of them was for the same domain and task (more exactly, for
the same words joined by an underscore), the environment has all the settings that were asked for. -/
theorem C92_make_partial {a : DmcArgs} {as : List DmcArgs} (has : ∀ b ∈ as, b.domain ++ "_" ++ b.task ≠ a.domain ++ "_" ++ a.task) :
    (makeDmc (afterAll [] as) a).2 = .ok a := by
  have h := afterAll_find has (reg := []) rfl
  simp [makeDmc, h, find_cons]

/-- C92, `make_dmc`: an environment of another domain is returned if the underscores are at other places. -/
theorem C92_make_ambiguous : ∃ a b : DmcArgs, a.domain = "point" ∧ a.task = "mass_easy" ∧ b.domain = "point_mass" ∧ b.task = "easy" ∧ makeAll [] [a, b] = [.ok a, .ok a] := by
  refine ⟨⟨"point", "mass_easy", 0, 1000, 84, 84, 0⟩, ⟨"point_mass", "easy", 0, 1000, 84, 84, 0⟩, rfl, rfl, rfl, rfl, ?_⟩
  have h : DmcArgs.envId ⟨"point_mass", "easy", 0, 1000, 84, 84, 0⟩ = DmcArgs.envId ⟨"point", "mass_easy", 0, 1000, 84, 84, 0⟩ := by decide
  simp [makeAll, makeDmc, find_cons, h, regFind]

/-- C92, `make_dmc`, counterexample: asking for seed 1 after having asked for seed 0 gives seed 0. -/
theorem C92_make_counterexample : ∃ a b : DmcArgs, b.seed = 1 ∧ makeAll [] [a, b] = [.ok a, .ok a] ∧ a.seed = 0 := by
  refine ⟨⟨"cheetah", "run", 0, 1000, 84, 84, 0⟩, ⟨"cheetah", "run", 1, 1000, 84, 84, 0⟩, rfl, ?_, rfl⟩
  exact C92_make_first_wins (reg := []) rfl (by simp)

/-! ### Observations -/

/-- An observation satisfies its specification: it has the right number of entries, and they are within the bounds.  (This is what dm_env promises.) -/
inductive Conforms : DmSpec → DmVal → Prop
  | arrayScalar (x : ℝ) : Conforms (.array 1 true) (.scalar x)
  | array (l : List ℝ) : Conforms (.array l.length true) (.array l)
  | scalarBounds (l : List ℝ) (lo hi : ℝ) : (∀ x ∈ l, lo ≤ x ∧ x ≤ hi) → Conforms (.bounded l.length true (.scalar lo) (.scalar hi)) (.array l)
  | flatBounds (l lo hi : List ℝ) : List.Forall₂ (· ≤ ·) lo l → List.Forall₂ (· ≤ ·) l hi → Conforms (.bounded l.length true (.flat lo) (.flat hi)) (.array l)
  | boundedScalar (x lo hi : ℝ) : lo ≤ x → x ≤ hi → Conforms (.bounded 1 true (.scalar lo) (.scalar hi)) (.scalar x)

/-- `Box.contains`: as many entries as bounds, all of them within. -/
def InBox (low high : List (Option ℝ)) (x : List ℝ) : Prop :=
  List.Forall₂ (fun (l : Option ℝ) y => ∀ b, l = some b → b ≤ y) low x ∧ List.Forall₂ (fun (h : Option ℝ) y => ∀ b, h = some b → y ≤ b) high x

theorem forall₂_replicate {β γ : Type _} {P : β → γ → Prop} (b : β) : ∀ (l : List γ), (∀ x ∈ l, P b x) → List.Forall₂ P (List.replicate l.length b) l
  | [], _ => .nil
  | x :: l, h => .cons (h x (by simp)) (forall₂_replicate b l fun y hy => h y (by simp [hy]))

theorem plusZeros_flat {dim : Nat} {l : List ℝ} (h : l.length = dim) : (Bound.flat l).plusZeros dim = .ok l := by
  subst h
  match l with
  | [] => rfl
  | [x] => rfl
  | x :: y :: l => simp [Bound.plusZeros]

/-- The entries of one observation. -/
def DmVal.entries : DmVal → List ℝ
  | .scalar x => [x]
  | .array l => l

theorem conforms_bounds {s : DmSpec} {v : DmVal} (h : Conforms s v) : ∃ lo hi, extractMinMax s = .ok (lo, hi) ∧ InBox lo hi v.entries := by
  cases h with
  | arrayScalar x => exact ⟨_, _, rfl, .cons (by simp) .nil, .cons (by simp) .nil⟩
  | array l =>
    exact ⟨_, _, rfl, forall₂_replicate _ _ (by simp), forall₂_replicate _ _ (by simp)⟩
  | scalarBounds l lo hi h =>
    refine ⟨(List.replicate l.length lo).map some, (List.replicate l.length hi).map some, rfl, ?_, ?_⟩
    · rw [List.map_replicate]
      exact forall₂_replicate _ _ fun x hx b hb => by cases hb; exact (h x hx).1
    · rw [List.map_replicate]
      exact forall₂_replicate _ _ fun x hx b hb => by cases hb; exact (h x hx).2
  | flatBounds l lo hi h1 h2 =>
    refine ⟨lo.map some, hi.map some, ?_, ?_, ?_⟩
    · simp [extractMinMax, plusZeros_flat h1.length_eq, plusZeros_flat h2.length_eq.symm, bind, Except.bind, pure, Except.pure]
    · exact List.forall₂_map_left_iff.2 (h1.imp fun a b hab c hc => by cases hc; exact hab)
    · exact List.forall₂_map_left_iff.2 (h2.flip.imp fun a b hab c hc => by cases hc; exact hab)
  | boundedScalar x lo hi h1 h2 =>
    exact ⟨[some lo], [some hi], rfl, .cons (fun b hb => by cases hb; exact h1) .nil, .cons (fun b hb => by cases hb; exact h2) .nil⟩

/-- C92, observations: if the observations satisfy their specifications, in the order of the dict, then the flat observation that `step` and `reset` return is a member of the
observation space that was built from the specifications; in particular it has the right number of entries, in the right order. -/
theorem C92_observation {specs : List DmSpec} {obs : List DmVal} (hne : specs ≠ []) (h : List.Forall₂ Conforms specs obs) :
    ∃ low high x, specToBox specs = .ok (low, high) ∧ flattenObs obs = .ok x ∧ InBox low high x ∧ x = (obs.map DmVal.entries).flatten := by
  obtain ⟨bs, hbs, hin⟩ : ∃ bs : List (List (Option ℝ) × List (Option ℝ)), specs.mapM extractMinMax = .ok bs ∧ List.Forall₂ (fun (b : List (Option ℝ) × List (Option ℝ)) v => InBox b.1 b.2 (DmVal.entries v)) bs obs := by
    clear hne
    induction h with
    | nil => exact ⟨[], rfl, .nil⟩
    | @cons s v ss vs hsv _ ih =>
      obtain ⟨bs, h1, h2⟩ := ih
      obtain ⟨lo, hi, h3, h4⟩ := conforms_bounds hsv
      refine ⟨(lo, hi) :: bs, ?_, .cons h4 h2⟩
      rw [List.mapM_cons, h3, h1]; rfl
  have hlow : InBox (bs.flatMap (·.1)) (bs.flatMap (·.2)) (obs.map DmVal.entries).flatten := by
    clear hbs h
    induction hin with
    | nil => exact ⟨.nil, .nil⟩
    | @cons b v bs vs hb _ ih =>
      simp only [List.flatMap_cons, List.map_cons, List.flatten_cons]
      exact ⟨List.rel_append hb.1 ih.1, List.rel_append hb.2 ih.2⟩
  have hb0 : bs ≠ [] := by
    rintro rfl
    cases hin
    cases h
    exact hne rfl
  have ho0 : obs ≠ [] := by
    rintro rfl
    cases hin
    exact hb0 rfl
  refine ⟨_, _, _, ?_, ?_, hlow, rfl⟩
  · simp only [specToBox, hbs, bind, Except.bind]
    rw [if_neg (by simpa using hb0), if_pos (hlow.1.length_eq.trans hlow.2.length_eq.symm)]
    rfl
  · simp only [flattenObs]
    rw [if_neg (by simpa using ho0)]
    congr 1

/-- C92, rejected specifications: integer dtypes, other types of specifications, and bounds whose shape does not broadcast (for example (2, 3) with six entries) raise. -/
theorem C92_rejects (dim : Nat) (lo hi : Bound) : extractMinMax (.array dim false) = .error .assertionError ∧ extractMinMax (.bounded dim false lo hi) = .error .assertionError ∧
    extractMinMax (.other true) = .error .valueError ∧ extractMinMax (.bounded dim true .many hi) = .error .valueError ∧ specToBox [] = .error .valueError :=
  ⟨rfl, rfl, rfl, rfl, rfl⟩

/-! ### Termination -/

/-- C92, termination, as far as it holds: an episode of a task without time limit, whose last step always has discount 0, is reported as terminated exactly at its end, and never as truncated. -/
theorem C92_terminated_partial {t : DmStep} {s : List ℝ} {r : ℝ} {done truncated : Bool} (h : dmcStep t = .ok (s, r, done, truncated)) (hd : t.last = true ↔ t.discount = 0) :
    r = t.reward ∧ (done = true ↔ t.discount = 0) ∧ truncated = false := by
  unfold dmcStep at h
  cases hf : flattenObs t.obs with
  | error e => rw [hf] at h; cases h
  | ok x =>
    rw [hf] at h
    cases h
    exact ⟨rfl, hd, rfl⟩

/-- C92, termination, counterexample: a dm_control episode that ends because of its time limit has discount 1 in its last step; it is reported as terminated, not as truncated. -/
theorem C92_time_limit_counterexample : ∃ t : DmStep, t.discount = 1 ∧ dmcStep t = .ok ([0], 0, true, false) := ⟨⟨[.scalar 0], 0, true, 1⟩, rfl, rfl⟩

/-- Earlier calls that meet the hypothesis of `C92_make_partial`. -/
example : ∀ b ∈ [(⟨"cheetah", "run", 0, 1000, 84, 84, 0⟩ : DmcArgs), ⟨"walker", "walk", 3, 500, 84, 84, 1⟩], b.domain ++ "_" ++ b.task ≠ "walker" ++ "_" ++ "run" := by
  intro b hb
  simp only [List.mem_cons, List.not_mem_nil, or_false] at hb
  rcases hb with rfl | rfl <;> decide

/-- Observations with three parts that satisfy their specifications. -/
example : List.Forall₂ Conforms [.array 2 true, .bounded 3 true (.scalar 0) (.scalar 1), .array 1 true] [.array [5, -7], .array [0, 1, 1/2], .scalar 3] := by
  refine .cons (.array [5, -7]) (.cons (.scalarBounds [0, 1, 1/2] 0 1 ?_) (.cons (.arrayScalar 3) .nil))
  intro x hx
  simp only [List.mem_cons, List.not_mem_nil, or_false] at hx
  rcases hx with rfl | rfl | rfl <;> norm_num

end Coax.Utils
