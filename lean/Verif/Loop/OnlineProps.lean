import Verif.Loop.Online
import Verif.RewardTracing.NStepProps
import Verif.RewardTracing.MonteCarloProps
import Verif.TD.TargetsProps
import Mathlib.Algebra.BigOperators.Fin
import Mathlib.Tactic.Ring
import Mathlib.Tactic.Linarith

/-! Property C103: n-step targets are unbiased estimates of the n-fold Bellman operator. -/

namespace Coax.Loop

open Coax.RewardTracing Coax.TD Coax.Core

/-- A finite Markov decision process with a policy: probabilities of actions, and for each state and action the probabilities of `m` outcomes with their reward, next state and whether the episode ends. -/
structure World (σ α : Type _) (m : Nat) where
  policy : σ → α → ℝ
  logp : σ → α → ℝ
  prob : σ → α → Fin m → ℝ
  reward : σ → α → Fin m → ℝ
  next : σ → α → Fin m → σ
  ends : σ → α → Fin m → Bool

variable {σ α P : Type _} [Fintype α] {m : Nat}

/-- Probabilities add up to one; log-propensities are not positive (see C100). -/
structure World.Proper (w : World σ α m) : Prop where
  policy_nonneg : ∀ s a, 0 ≤ w.policy s a
  policy_total : ∀ s, ∑ a, w.policy s a = 1
  prob_nonneg : ∀ s a j, 0 ≤ w.prob s a j
  prob_total : ∀ s a, ∑ j, w.prob s a j = 1
  logp_nonpos : ∀ s a, w.logp s a ≤ 0

/-- What is added to the tracer. -/
def World.step (w : World σ α m) (s : σ) (a : α) (j : Fin m) : Step σ α ℝ := ⟨s, a, w.reward s a j, w.logp s a, 1⟩

/-- The first `k` steps from state `s`, or fewer if the episode ends before. -/
inductive World.Path (w : World σ α m) : Nat → σ → List (Step σ α ℝ × Bool) → Prop
  | zero (s) : Path w 0 s []
  | stop {k s a j} : w.ends s a j = true → Path w (k + 1) s [(w.step s a j, true)]
  | go {k s a j l} : w.ends s a j = false → Path w k (w.next s a j) l → Path w (k + 1) s ((w.step s a j, false) :: l)

/-- The expectation of `f` over these paths. -/
def World.mean (w : World σ α m) : Nat → σ → (List (Step σ α ℝ × Bool) → ℝ) → ℝ
  | 0, _, f => f []
  | k + 1, s, f => ∑ a, w.policy s a * ∑ j, w.prob s a j *
      if w.ends s a j then f [(w.step s a j, true)] else World.mean w k (w.next s a j) (fun l => f ((w.step s a j, false) :: l))

/-- The same if the first action is `a`. -/
def World.meanAt (w : World σ α m) (k : Nat) (s : σ) (a : α) (f : List (Step σ α ℝ × Bool) → ℝ) : ℝ :=
  ∑ j, w.prob s a j * if w.ends s a j then f [(w.step s a j, true)] else w.mean k (w.next s a j) (fun l => f ((w.step s a j, false) :: l))

/-- The Bellman operator of the policy for values of states. -/
def World.bellman (w : World σ α m) (gamma : ℝ) (v : σ → ℝ) (s : σ) : ℝ :=
  ∑ a, w.policy s a * ∑ j, w.prob s a j * (w.reward s a j + if w.ends s a j then 0 else gamma * v (w.next s a j))

/-- The Bellman operator of the policy for values of states and actions. -/
def World.bellmanQ (w : World σ α m) (gamma : ℝ) (q : σ → α → ℝ) (s : σ) (a : α) : ℝ :=
  ∑ j, w.prob s a j * (w.reward s a j + if w.ends s a j then 0 else gamma * ∑ b, w.policy (w.next s a j) b * q (w.next s a j) b)

/-- Discounted rewards of `n` steps and the value of the step after them, if there is one. -/
def value (gamma : ℝ) (leaf : σ → α → ℝ) : Nat → List (Step σ α ℝ) → ℝ
  | _, [] => 0
  | 0, y :: _ => leaf y.s y.a
  | n + 1, y :: ys => y.r + gamma * value gamma leaf n ys

omit [Fintype α] in
theorem value_eq (gamma : ℝ) (leaf : σ → α → ℝ) (n : Nat) (ys : List (Step σ α ℝ)) :
    value gamma leaf n ys = ∑ k ∈ Finset.range n, gamma ^ k * rewardAt ys k + gamma ^ n * (match ys[n]? with | some y => leaf y.s y.a | none => 0) := by
  induction n generalizing ys with
  | zero => cases ys <;> simp [value]
  | succ n ih =>
    cases ys with
    | nil => simp [value, rewardAt]
    | cons y ys =>
      rw [value, ih, Finset.sum_range_succ']
      have e : ∀ k, rewardAt (y :: ys) (k + 1) = rewardAt ys k := fun k => by simp [rewardAt]
      have e0 : rewardAt (y :: ys) 0 = y.r := by simp [rewardAt]
      simp only [e, e0, List.getElem?_cons_succ, pow_zero, one_mul, mul_add, Finset.mul_sum, pow_succ']
      have e2 : ∀ k, gamma * (gamma ^ k * rewardAt ys k) = gamma * gamma ^ k * rewardAt ys k := fun k => by ring
      simp only [e2]
      ring

theorem mean_affine {w : World σ α m} (hw : w.Proper) (c g : ℝ) (k : Nat) (s : σ) (f : List (Step σ α ℝ × Bool) → ℝ) :
    w.mean k s (fun l => c + g * f l) = c + g * w.mean k s f := by
  induction k generalizing s f with
  | zero => rfl
  | succ k ih =>
    have e : ∀ a, ∑ j, w.prob s a j * (if w.ends s a j then c + g * f [(w.step s a j, true)] else w.mean k (w.next s a j) (fun l => c + g * f ((w.step s a j, false) :: l))) =
        c + g * ∑ j, w.prob s a j * (if w.ends s a j then f [(w.step s a j, true)] else w.mean k (w.next s a j) (fun l => f ((w.step s a j, false) :: l))) := by
      intro a
      have e1 : ∀ j, w.prob s a j * (if w.ends s a j then c + g * f [(w.step s a j, true)] else w.mean k (w.next s a j) (fun l => c + g * f ((w.step s a j, false) :: l))) =
          c * w.prob s a j + g * (w.prob s a j * (if w.ends s a j then f [(w.step s a j, true)] else w.mean k (w.next s a j) (fun l => f ((w.step s a j, false) :: l)))) := by
        intro j
        rw [ih (w.next s a j) (fun l => f ((w.step s a j, false) :: l))]
        split <;> ring
      simp only [e1, Finset.sum_add_distrib, ← Finset.mul_sum, hw.prob_total, mul_one]
    simp only [World.mean, e]
    have e3 : ∀ a, w.policy s a * (c + g * ∑ j, w.prob s a j * (if w.ends s a j then f [(w.step s a j, true)] else w.mean k (w.next s a j) (fun l => f ((w.step s a j, false) :: l)))) =
        c * w.policy s a + g * (w.policy s a * ∑ j, w.prob s a j * (if w.ends s a j then f [(w.step s a j, true)] else w.mean k (w.next s a j) (fun l => f ((w.step s a j, false) :: l)))) := fun a => by ring
    simp only [e3, Finset.sum_add_distrib, ← Finset.mul_sum, hw.policy_total, mul_one]

/-- The expectation given the first action, one step unrolled. -/
theorem meanAt_value {w : World σ α m} (hw : w.Proper) (gamma : ℝ) (leaf : σ → α → ℝ) (n : Nat) (s : σ) (a : α) :
    w.meanAt (n + 1) s a (fun l => value gamma leaf (n + 1) (l.map Prod.fst)) =
      ∑ j, w.prob s a j * (w.reward s a j + if w.ends s a j then 0 else gamma * w.mean (n + 1) (w.next s a j) (fun l => value gamma leaf n (l.map Prod.fst))) := by
  unfold World.meanAt
  refine Finset.sum_congr rfl fun j _ => ?_
  congr 1
  split
  · simp [value, World.step]
  · simp only [List.map_cons, value]
    rw [mean_affine hw]
    rfl

theorem mean_eq (w : World σ α m) (k : Nat) (s : σ) (f : List (Step σ α ℝ × Bool) → ℝ) : w.mean (k + 1) s f = ∑ a, w.policy s a * w.meanAt k s a f := rfl

theorem mean_value {w : World σ α m} (hw : w.Proper) (gamma : ℝ) (leaf : σ → α → ℝ) (n : Nat) (s : σ) :
    w.mean (n + 1) s (fun l => value gamma leaf n (l.map Prod.fst)) = (w.bellman gamma)^[n] (fun s => ∑ a, w.policy s a * leaf s a) s := by
  induction n generalizing s with
  | zero =>
    rw [mean_eq]
    refine Finset.sum_congr rfl fun a _ => ?_
    unfold World.meanAt
    have e : ∀ j, w.prob s a j * (if w.ends s a j then value gamma leaf 0 ([(w.step s a j, true)].map Prod.fst) else
        w.mean 0 (w.next s a j) (fun l => value gamma leaf 0 (((w.step s a j, false) :: l).map Prod.fst))) = w.prob s a j * leaf s a := by
      intro j; split <;> rfl
    simp only [e, ← Finset.sum_mul, hw.prob_total, one_mul]
  | succ n ih =>
    rw [mean_eq, Function.iterate_succ_apply']
    refine Finset.sum_congr rfl fun a _ => ?_
    rw [meanAt_value hw]
    simp only [ih]

theorem average_bellmanQ (w : World σ α m) (gamma : ℝ) (n : Nat) (q : σ → α → ℝ) :
    (fun s => ∑ a, w.policy s a * (w.bellmanQ gamma)^[n] q s a) = (w.bellman gamma)^[n] (fun s => ∑ a, w.policy s a * q s a) := by
  induction n with
  | zero => rfl
  | succ n ih =>
    rw [Function.iterate_succ_apply' (w.bellman gamma), ← ih]
    funext s
    simp only [Function.iterate_succ_apply']
    rfl

theorem meanAt_value_q {w : World σ α m} (hw : w.Proper) (gamma : ℝ) (q : σ → α → ℝ) (n : Nat) (s : σ) (a : α) :
    w.meanAt (n + 1) s a (fun l => value gamma q (n + 1) (l.map Prod.fst)) = (w.bellmanQ gamma)^[n + 1] q s a := by
  rw [meanAt_value hw, Function.iterate_succ_apply']
  refine Finset.sum_congr rfl fun j _ => ?_
  rw [mean_value hw, ← average_bellmanQ]

/-- The episodes after a further step: it belongs to the last episode if that one is not finished, otherwise it starts a new one. -/
def push (eps : List (Episode σ α ℝ)) (x : Step σ α ℝ) (d : Bool) : List (Episode σ α ℝ) :=
  match eps.getLast? with
  | some ⟨steps, false⟩ => eps.dropLast ++ [⟨steps ++ [x], d⟩]
  | _ => eps ++ [⟨[x], d⟩]

omit [Fintype α] in
theorem push_cases (eps : List (Episode σ α ℝ)) :
    (∃ init pre, eps = init ++ [⟨pre, false⟩] ∧ ∀ x d, push eps x d = init ++ [⟨pre ++ [x], d⟩]) ∨
    ((∀ e ∈ eps.getLast?, e.done = true) ∧ ∀ x d, push eps x d = eps ++ [⟨[x], d⟩]) := by
  rcases List.eq_nil_or_concat eps with rfl | ⟨init, ⟨pre, d⟩, rfl⟩
  · right; simp [push]
  · cases d with
    | false => left; exact ⟨init, pre, by simp, fun x d => by simp [push]⟩
    | true => right; simp [push]

omit [Fintype α] in
theorem allSteps_push (eps : List (Episode σ α ℝ)) (x : Step σ α ℝ) (d : Bool) : allSteps (push eps x d) = allSteps eps ++ [x] := by
  rcases push_cases eps with ⟨init, pre, rfl, h⟩ | ⟨-, h⟩ <;> rw [h] <;> simp [allSteps]

variable {n : Nat} {gamma : ℝ} {record : Bool} {t : NStep σ α ℝ} {eps : List (Episode σ α ℝ)} {outs : List (Out σ α ℝ)}

omit [Fintype α] in
/-- A step can be added whenever the tracer has nothing to return. -/
theorem history_add (hn : 0 < n) (hg : 0 ≤ gamma ∧ gamma ≤ 1) (h : NHistory n gamma record t eps outs) (hb : t.bool = false) {x : Step σ α ℝ} (hx : x.Valid) (d : Bool) :
    ∃ t', t.add x d = (t', none) ∧ NHistory n gamma record t' (push eps x d) outs := by
  have hnot : ¬ ((∃ ep, eps.getLast? = some ep ∧ ep.done = true) ∧ outs.length < (allSteps eps).length) := by
    rintro ⟨h1, h2⟩
    have := (C17_bool hn hg h).2 ⟨h2, Or.inl h1⟩
    rw [hb] at this; cases this
  have ha : t.add x d = ((t.add x d).1, none) := Prod.ext rfl ((C17_add hn hg h x d).2 hnot).1
  refine ⟨_, ha, ?_⟩
  rcases push_cases eps with ⟨init, pre, rfl, hp⟩ | ⟨hd, hp⟩ <;> rw [hp]
  · exact .addNext x d h hx ha
  · exact .addFirst x d h hd hx ha

omit [Fintype α] in
/-- The loop runs without errors, and it only does what the histories describe. -/
theorem feed_history (hn : 0 < n) (hg : 0 ≤ gamma ∧ gamma ≤ 1) : ∀ {xs : List (Step σ α ℝ × Bool)} {t : NStep σ α ℝ} {eps : List (Episode σ α ℝ)} {outs : List (Out σ α ℝ)},
    NHistory n gamma record t eps outs → t.bool = false → (∀ x ∈ xs, x.1.Valid) →
    ∃ t' os, feed t xs = .ok (t', os) ∧ NHistory n gamma record t' (xs.foldl (fun e x => push e x.1 x.2) eps) (outs ++ os) ∧ t'.bool = false := by
  intro xs
  induction xs with
  | nil => intro t eps outs h hb _; exact ⟨t, [], rfl, by simpa using h, hb⟩
  | cons x xs ih =>
    intro t eps outs h hb hv
    obtain ⟨x, d⟩ := x
    obtain ⟨t', ha, h'⟩ := history_add hn hg h hb (hv (x, d) (by simp)) d
    have hv' : ∀ x ∈ xs, x.1.Valid := fun y hy => hv y (List.mem_cons_of_mem _ hy)
    rw [feed, ha]
    simp only [List.foldl_cons]
    cases hb' : t'.bool with
    | false =>
      obtain ⟨u, os, e, hh, hu⟩ := ih h' hb' hv'
      exact ⟨u, os, by simp [e], hh, hu⟩
    | true =>
      obtain ⟨t'', os, e, -, -, hb''⟩ := (C17_flush hn hg h').2 hb'
      obtain ⟨u, os', e', hh, hu⟩ := ih (h'.flush e) hb'' hv'
      exact ⟨u, os ++ os', by simp [e, e'], by rw [← List.append_assoc]; exact hh, hu⟩

omit [Fintype α] in
theorem fold_push (xs : List (Step σ α ℝ × Bool)) (hx : xs ≠ []) (hd : ∀ i x, i + 1 < xs.length → xs[i]? = some x → x.2 = false) (eps : List (Episode σ α ℝ)) :
    ∃ init pre d, xs.foldl (fun e x => push e x.1 x.2) eps = init ++ [⟨pre ++ xs.map Prod.fst, d⟩] ∧ allSteps init ++ pre = allSteps eps := by
  induction xs generalizing eps with
  | nil => exact (hx rfl).elim
  | cons x xs ih =>
    obtain ⟨x, d⟩ := x
    rcases eq_or_ne xs [] with rfl | hne
    · rcases push_cases eps with ⟨init, pre, rfl, hp⟩ | ⟨-, hp⟩
      · exact ⟨init, pre, d, by simp [hp], by simp [allSteps]⟩
      · exact ⟨eps, [], d, by simp [hp], by simp⟩
    · have hd0 : d = false := hd 0 (x, d) (by cases xs <;> simp at hne ⊢) rfl
      subst hd0
      -- the step leaves an unfinished episode, and the rest is added to it
      have hopen : ∃ init pre, push eps x false = init ++ [⟨pre ++ [x], false⟩] ∧ allSteps init ++ pre = allSteps eps := by
        rcases push_cases eps with ⟨init, pre, rfl, hp⟩ | ⟨-, hp⟩
        · exact ⟨init, pre, hp _ _, by simp [allSteps]⟩
        · exact ⟨eps, [], by simp [hp], by simp⟩
      obtain ⟨init, pre, hp, hs⟩ := hopen
      have key : ∀ (ys : List (Step σ α ℝ × Bool)) (pre' : List (Step σ α ℝ)), ys ≠ [] → (∀ i y, i + 1 < ys.length → ys[i]? = some y → y.2 = false) →
          ∃ d, ys.foldl (fun e x => push e x.1 x.2) (init ++ [⟨pre', false⟩]) = init ++ [⟨pre' ++ ys.map Prod.fst, d⟩] := by
        intro ys
        induction ys with
        | nil => intro _ h _; exact (h rfl).elim
        | cons y ys ihy =>
          intro pre' _ hy
          obtain ⟨y, d⟩ := y
          have e : push (init ++ [⟨pre', false⟩]) y d = init ++ [⟨pre' ++ [y], d⟩] := by simp [push]
          rcases eq_or_ne ys [] with rfl | hys
          · exact ⟨d, by simp [e]⟩
          · have hd1 : d = false := hy 0 (y, d) (by cases ys <;> simp at hys ⊢) rfl
            subst hd1
            obtain ⟨d, hd'⟩ := ihy (pre' ++ [y]) hys (fun i z hi hz => hy (i + 1) z (by simpa using hi) (by simpa using hz))
            exact ⟨d, by simp only [List.foldl_cons, e, hd']; simp⟩
      obtain ⟨d, hd'⟩ := key xs (pre ++ [x]) hne (fun i y hi hy => hd (i + 1) y (by simpa using hi) (by simpa using hy))
      exact ⟨init, pre, d, by simp only [List.foldl_cons, hp, hd']; simp, hs⟩

omit [Fintype α] in
theorem Path.flags {w : World σ α m} {k : Nat} {s : σ} {l : List (Step σ α ℝ × Bool)} (h : w.Path k s l) :
    (∀ i x, i + 1 < l.length → l[i]? = some x → x.2 = false) ∧ l.length ≤ k ∧ (l.length < k → ∃ x, l.getLast? = some x ∧ x.2 = true) := by
  induction h with
  | zero => simp
  | stop _ => simp
  | @go k s a j l _ _ ih =>
    obtain ⟨h1, h2, h3⟩ := ih
    refine ⟨?_, by simpa using h2, ?_⟩
    · intro i x hi hx
      cases i with
      | zero => simp at hx; subst hx; rfl
      | succ i => exact h1 i x (by simpa using hi) (by simpa using hx)
    · intro hl
      obtain ⟨x, hx, hx'⟩ := h3 (by simpa using hl)
      exact ⟨x, by rw [List.getLast?_cons, hx]; rfl, hx'⟩

omit [Fintype α] in
theorem Path.valid {w : World σ α m} (hl : ∀ s a, w.logp s a ≤ 0) {k : Nat} {s : σ} {l : List (Step σ α ℝ × Bool)} (h : w.Path k s l) : ∀ x ∈ l, x.1.Valid := by
  induction h with
  | zero => simp
  | stop _ => simp [Step.Valid, World.step, hl]
  | go _ _ ih => intro x hx; rcases List.mem_cons.1 hx with rfl | hx; exacts [⟨hl _ _, one_pos⟩, ih x hx]

omit [Fintype α] in
theorem fold_flag (xs : List (Step σ α ℝ × Bool)) (x : Step σ α ℝ × Bool) (hx : xs.getLast? = some x) (eps : List (Episode σ α ℝ)) :
    ∃ ep, (xs.foldl (fun e x => push e x.1 x.2) eps).getLast? = some ep ∧ ep.done = x.2 := by
  obtain ⟨ys, rfl⟩ := List.getLast?_eq_some_iff.1 hx
  rw [List.foldl_append]
  simp only [List.foldl_cons, List.foldl_nil]
  rcases push_cases (ys.foldl (fun e x => push e x.1 x.2) eps) with ⟨init, pre, -, hp⟩ | ⟨-, hp⟩ <;> rw [hp] <;> simp

omit [Fintype α] in
theorem flatten_length {eps : List (Episode σ α ℝ)} {segs : List (List (Out σ α ℝ))} (h : List.Forall₂ (fun ep seg => seg.length = ep.steps.length) eps segs) :
    segs.flatten.length = (allSteps eps).length := by
  induction h with
  | nil => rfl
  | cons h _ ih => simp only [allSteps, List.map_cons, List.flatten_cons, List.length_append] at ih ⊢; omega

omit [Fintype α] in
/-- After the steps of a path the transition of its first step has been returned, and it is the n-step transition. -/
theorem feed_transition {w : World σ α m} (hl : ∀ s a, w.logp s a ≤ 0) (hn : 0 < n) (hg : 0 ≤ gamma ∧ gamma ≤ 1) (h : NHistory n gamma record t eps outs) (hb : t.bool = false)
    {s : σ} {l : List (Step σ α ℝ × Bool)} (hp : w.Path (n + 1) s l) :
    ∃ t' os o pre, feed t l = .ok (t', os) ∧ (outs ++ os)[(allSteps eps).length]? = some o ∧ IsNStep n gamma (pre ++ l.map Prod.fst) pre.length o := by
  obtain ⟨t', os, e, h', hb'⟩ := feed_history hn hg h hb (Path.valid hl hp)
  obtain ⟨f1, f2, f3⟩ := Path.flags hp
  have hne : l ≠ [] := by cases hp <;> simp
  obtain ⟨init, pre, d, hfold, hsteps⟩ := fold_push l hne f1 eps
  have hlen : (allSteps (l.foldl (fun e x => push e x.1 x.2) eps)).length = (allSteps eps).length + l.length := by
    rw [hfold, ← hsteps]
    simp [allSteps, Nat.add_assoc]
  -- enough has been popped
  have hlt : (allSteps eps).length < (outs ++ os).length := by
    by_contra hlt
    have hl0 : 0 < l.length := List.length_pos_iff.2 hne
    have : t'.bool = true := (C17_bool hn hg h').2 ⟨by omega, by
      rcases Nat.lt_or_ge l.length (n + 1) with hs | hs
      · obtain ⟨x, hx, hx'⟩ := f3 hs
        obtain ⟨ep, hep, hd⟩ := fold_flag l x hx eps
        exact Or.inl ⟨ep, hep, hd.trans hx'⟩
      · right; omega⟩
    rw [hb'] at this; cases this
  obtain ⟨segs, g1, g2, g3⟩ := C15_nstep_transitions hn hg h'
  rw [hfold] at g2 g3
  obtain ⟨segsI, seg', g4, g5, rfl⟩ : ∃ a b, List.Forall₂ _ init a ∧ List.Forall₂ _ [_] b ∧ segs = a ++ b := by
    refine ⟨segs.take init.length, segs.drop init.length, ?_, ?_, (List.take_append_drop _ _).symm⟩
    · have := List.forall₂_take init.length g2; simpa using this
    · have := List.forall₂_drop init.length g2; simpa using this
  cases g5 with
  | @cons _ seg _ _ hseg hnil =>
  cases hnil
  have hI : List.Forall₂ (fun ep seg => seg.length = ep.steps.length) init segsI := by
    rw [List.forall₂_iff_get]
    have hlI := g4.length_eq
    refine ⟨hlI, fun i h1 h2 => ?_⟩
    exact g3 i _ _ (by simpa using h1) (by rw [List.getElem?_append_left h1]; exact List.getElem?_eq_getElem h1) (by rw [List.getElem?_append_left h2]; exact List.getElem?_eq_getElem h2)
  have hfl := flatten_length hI
  have hN : (allSteps eps).length = segsI.flatten.length + pre.length := by rw [← hsteps, hfl]; simp
  have hout : outs ++ os = segsI.flatten ++ seg := by rw [g1]; simp
  have hpre : pre.length < seg.length := by
    have := congrArg List.length hout
    simp only [List.length_append] at this hlt
    omega
  refine ⟨t', os, seg[pre.length], pre, e, ?_, hseg.2 _ _ (List.getElem?_eq_getElem hpre)⟩
  rw [hout, hN, List.getElem?_append_right (by omega)]
  simp [hpre]

omit [Fintype α] in
/-- What such a transition says: discounted rewards and, through `In` and the next step, the value after `n` steps. -/
theorem nstep_value {o : Out σ α ℝ} {pre ys : List (Step σ α ℝ)} (h : IsNStep n gamma (pre ++ ys) pre.length o) (leaf : σ → α → ℝ) :
    ∃ s' a', o.S_next = some s' ∧ o.A_next = some a' ∧ value gamma leaf n ys = o.Rn + o.In * leaf s' a' := by
  have hr : ∀ k, rewardAt (pre ++ ys) (pre.length + k) = rewardAt ys k := fun k => by
    simp only [rewardAt, List.getElem?_append_right (Nat.le_add_right _ _), Nat.add_sub_cancel_left]
  have hy : (pre ++ ys)[pre.length + n]? = ys[n]? := by
    rw [List.getElem?_append_right (Nat.le_add_right _ _), Nat.add_sub_cancel_left]
  rw [value_eq]
  have hret := h.ret
  simp only [hr] at hret
  cases hc : ys[n]? with
  | some y =>
    obtain ⟨h1, h2, -, h4⟩ := h.boot y (hy.trans hc)
    exact ⟨_, _, h1, h2, by rw [hret, h4]⟩
  | none =>
    obtain ⟨h1, h2, h3, -⟩ := h.stop (hy.trans hc)
    exact ⟨_, _, h2, h3, by rw [hret, h1]; simp⟩

omit [Fintype α] in
theorem path_first {w : World σ α m} {k : Nat} {s : σ} {l : List (Step σ α ℝ × Bool)} (h : w.Path (k + 1) s l) : ∃ x d rest, l = (x, d) :: rest ∧ x.s = s := by
  cases h with
  | stop _ => exact ⟨_, _, _, rfl, rfl⟩
  | go _ _ => exact ⟨_, _, _, rfl, rfl⟩

/-- Any updater whose target of a single transition is `f (Rn + In * leaf)`. -/
theorem target_mean {α' : Type _} {w : World σ α m} (hw : w.Proper) (hn : 0 < n) (hg : 0 ≤ gamma ∧ gamma ≤ 1) (h : NHistory n gamma record t eps outs) (hb : t.bool = false) (preA : α → α')
    (target : TBatch σ α' → Except Err (List ℝ)) (f : ℝ → ℝ) (leaf : σ → α → ℝ) (ht : ∀ r d s a, target ⟨[r], [d], [s], [preA a]⟩ = .ok [f (r + d * leaf s a)]) {s : σ}
    {l : List (Step σ α ℝ × Bool)} (hp : w.Path (n + 1) s l) :
    ∃ t' os o, feed t l = .ok (t', os) ∧ (outs ++ os)[(allSteps eps).length]? = some o ∧ o.S = s ∧ (∀ x ∈ l.head?, o.A = x.1.a) ∧
      targetOf preA target o = .ok [f (value gamma leaf n (l.map Prod.fst))] := by
  obtain ⟨t', os, o, pre, e1, e2, e3⟩ := feed_transition hw.logp_nonpos hn hg h hb hp
  obtain ⟨s', a', h1, h2, h3⟩ := nstep_value e3 leaf
  obtain ⟨x, d, rest, rfl, hx⟩ := path_first hp
  obtain ⟨y, hy, hs, ha, -⟩ := e3.start
  have hxy : x = y := by simpa using hy
  refine ⟨t', os, o, e1, e2, by rw [hs, ← hxy, hx], by simp [ha, hxy], ?_⟩
  simp only [targetOf, toTBatch, List.mapM_cons, List.mapM_nil, h1, h2, h3]
  simp [ht]

/-- What is claimed of an updater: whatever happens in the next `n + 1` steps of the environment from state `s` (fewer if the episode ends), the loop does not raise, the transition of this step is returned
next in order, it starts at `s` with the action that was taken, and its target is `f` of the number `g`. -/
def Targets {α' : Type _} (w : World σ α m) (n : Nat) (t : NStep σ α ℝ) (eps : List (Episode σ α ℝ)) (outs : List (Out σ α ℝ)) (preA : α → α') (target : TBatch σ α' → Except Err (List ℝ)) (f : ℝ → ℝ)
    (s : σ) (g : List (Step σ α ℝ × Bool) → ℝ) : Prop :=
  ∀ l, w.Path (n + 1) s l → ∃ t' os o, feed t l = .ok (t', os) ∧ (outs ++ os)[(allSteps eps).length]? = some o ∧ o.S = s ∧ (∀ x ∈ l.head?, o.A = x.1.a) ∧ targetOf preA target o = .ok [f (g l)]

/-- **C103** for `SimpleTD`.  The tracer is in any state that a program can reach, has returned `outs`, and has nothing more to return; the next state is `s`.  Then the target for this step is the value transform
of a number whose expectation is the `n`-fold Bellman operator of the policy, applied to the (transformed) value function. -/
theorem C103_simple_td {w : World σ α m} (hw : w.Proper) (hn : 0 < n) (hg : 0 ≤ gamma ∧ gamma ≤ 1) (h : NHistory n gamma record t eps outs) (hb : t.bool = false) (v vTarg : VFn P σ) (tab : σ → ℝ)
    (hv : ∀ S, vTarg.forward vTarg.params S = S.map tab) (s : σ) :
    ∃ g, Targets w n t eps outs id (simpleTD v vTarg) v.transform s g ∧ w.mean (n + 1) s g = (w.bellman gamma)^[n] (fun s => vTarg.inverse (tab s)) s := by
  refine ⟨_, fun l hp => target_mean hw hn hg h hb id (simpleTD v vTarg) v.transform (fun s _ => vTarg.inverse (tab s)) (fun r d s a => by simp [simpleTD, backup, hv]) hp, ?_⟩
  rw [mean_value hw]
  simp only [← Finset.sum_mul, hw.policy_total, one_mul]

/-- **C103** for `Sarsa` with a type-1 function: the same for values of states and actions, given the first action. -/
theorem C103_sarsa {w : World σ α m} (hw : w.Proper) (hn : 0 < n) (hg : 0 ≤ gamma ∧ gamma ≤ 1) (h : NHistory n gamma record t eps outs) (hb : t.bool = false) (q qTarg : QFn P σ α) (tab : σ → α → ℝ)
    (hq : ComputesAt tab (qTarg.forward qTarg.params)) (s : σ) (a : α) :
    ∃ g, Targets w n t eps outs id (sarsaCont q qTarg) q.transform s g ∧ w.meanAt n s a g = (w.bellmanQ gamma)^[n] (fun s a => qTarg.inverse (tab s a)) s a := by
  obtain ⟨f, hf, hf'⟩ := hq
  refine ⟨_, fun l hp => target_mean hw hn hg h hb id (sarsaCont q qTarg) q.transform (fun s a => qTarg.inverse (tab s a)) (fun r d s a => by simp [sarsaCont, evalAt, hf, hf', backup]) hp, ?_⟩
  obtain ⟨n, rfl⟩ : ∃ k, n = k + 1 := ⟨n - 1, by omega⟩
  exact meanAt_value_q hw gamma _ n s a

/-- **C103** for `Sarsa` with discrete actions. -/
theorem C103_sarsa_discrete {nA : Nat} {w : World σ (Fin nA) m} {t : NStep σ (Fin nA) ℝ} {eps : List (Episode σ (Fin nA) ℝ)} {outs : List (Out σ (Fin nA) ℝ)} (hA : 0 < nA) (hw : w.Proper) (hn : 0 < n)
    (hg : 0 ≤ gamma ∧ gamma ≤ 1) (h : NHistory n gamma record t eps outs) (hb : t.bool = false) (q qTarg : QFn P σ (List ℝ)) (tab : σ → Nat → ℝ) (hq : Computes nA tab (qTarg.forward qTarg.params))
    (s : σ) (a : Fin nA) :
    ∃ g, Targets w n t eps outs (fun a => oneHot nA a) (sarsa nA q qTarg) q.transform s g ∧ w.meanAt n s a g = (w.bellmanQ gamma)^[n] (fun s a => qTarg.inverse (tab s a)) s a := by
  refine ⟨_, fun l hp => target_mean hw hn hg h hb (fun a => oneHot nA a) (sarsa nA q qTarg) q.transform (fun s a => qTarg.inverse (tab s a)) (fun r d s a => ?_) hp, ?_⟩
  · obtain ⟨G, e, l, hG⟩ := C46_sarsa hA (q := q) (qTarg := qTarg) (b := ⟨[r], [d], [s], [oneHot nA a]⟩) ⟨rfl, rfl⟩ hq [a.1] rfl rfl (by simp)
    obtain ⟨y, rfl⟩ : ∃ y, G = [y] := List.length_eq_one_iff.1 l
    rw [e]
    have := hG 0 r d s a.1 rfl rfl rfl rfl
    simpa using this
  · obtain ⟨n, rfl⟩ : ∃ k, n = k + 1 := ⟨n - 1, by omega⟩
    exact meanAt_value_q hw gamma _ n s a

/-- **C103** for `QLearning`: given the first action, the expectation is that of one step with the greedy value after `n - 1` further steps of the acting policy.  For `n = 1` this is the Bellman optimality operator,
whatever the acting policy is; for `n > 1` it depends on the acting policy (`C103_q_learning_counterexample`). -/
theorem C103_q_learning {nA : Nat} {w : World σ (Fin nA) m} {t : NStep σ (Fin nA) ℝ} {eps : List (Episode σ (Fin nA) ℝ)} {outs : List (Out σ (Fin nA) ℝ)} (hA : 0 < nA) (hw : w.Proper) (hn : 0 < n)
    (hg : 0 ≤ gamma ∧ gamma ≤ 1) (h : NHistory n gamma record t eps outs) (hb : t.bool = false) (q qTarg : QFn P σ (List ℝ)) (tab : σ → Nat → ℝ) (hq : Computes nA tab (qTarg.forward qTarg.params))
    (hf : q.forward = qTarg.forward) (hs : ∀ S, TieSafe nA tab (qTarg.forward qTarg.params) S) (best : σ → ℝ) (hbest : ∀ s, IsMaxOf nA (tab s) (best s)) (s : σ) (a : Fin nA) :
    ∃ g, Targets w n t eps outs (fun a => oneHot nA a) (qLearning nA q qTarg) q.transform s g ∧
      w.meanAt n s a g = ∑ j, w.prob s a j * (w.reward s a j + if w.ends s a j then 0 else gamma * (w.bellman gamma)^[n - 1] (fun s => qTarg.inverse (best s)) (w.next s a j)) := by
  refine ⟨_, fun l hp => target_mean hw hn hg h hb (fun a => oneHot nA a) (qLearning nA q qTarg) q.transform (fun s _ => qTarg.inverse (best s)) (fun r d s a => ?_) hp, ?_⟩
  · obtain ⟨G, e, l, hG⟩ := C46_qLearning_partial hA (q := q) (qTarg := qTarg) (b := ⟨[r], [d], [s], [oneHot nA a]⟩) ⟨rfl, rfl⟩ hq hf (hs _)
    obtain ⟨y, rfl⟩ : ∃ y, G = [y] := List.length_eq_one_iff.1 l
    rw [e]
    obtain ⟨x, ⟨⟨k, hk, hkx⟩, hx⟩, hy⟩ := hG 0 r d s rfl rfl rfl
    obtain ⟨⟨k', hk', hkx'⟩, hx'⟩ := hbest s
    have : x = best s := le_antisymm (by rw [← hkx]; exact hx' k hk) (by rw [← hkx']; exact hx k' hk')
    rw [this] at hy
    simpa using hy
  · obtain ⟨n, rfl⟩ : ∃ k, n = k + 1 := ⟨n - 1, by omega⟩
    rw [meanAt_value hw]
    refine Finset.sum_congr rfl fun j _ => ?_
    rw [mean_value hw]
    simp only [← Finset.sum_mul, hw.policy_total, one_mul, Nat.add_sub_cancel]

/-- **C103**, the values of the policy: if the value function solves the Bellman equation of the policy, then targets are unbiased estimates of it. -/
theorem C103_fixed_point {w : World σ α m} (hw : w.Proper) (hn : 0 < n) (hg : 0 ≤ gamma ∧ gamma ≤ 1) (h : NHistory n gamma record t eps outs) (hb : t.bool = false) (v : VFn P σ) (tab : σ → ℝ)
    (hv : ∀ S, v.forward v.params S = S.map tab) (h1 : v.transform = id) (h2 : v.inverse = id)
    (hfix : ∀ s, tab s = ∑ a, w.policy s a * ∑ j, w.prob s a j * (w.reward s a j + if w.ends s a j then 0 else gamma * tab (w.next s a j))) (s : σ) :
    ∃ g, Targets w n t eps outs id (simpleTD v v) id s g ∧ w.mean (n + 1) s g = tab s := by
  obtain ⟨g, g1, g2⟩ := C103_simple_td hw hn hg h hb v v tab hv s
  refine ⟨g, h1 ▸ g1, ?_⟩
  rw [g2, h2]
  have hf : Function.IsFixedPt (w.bellman gamma) tab := funext fun s => (hfix s).symm
  exact congrFun (hf.iterate n) s

/-- Two states; in each the first action stays with reward 0 and the second one moves to the other state with reward 1 or ends with reward 2. The policy takes the first action with probability `p`. -/
noncomputable def exWorld (p : ℝ) : World Bool (Fin 2) 2 where
  policy _ a := if a = 0 then p else 1 - p
  logp _ _ := -1
  prob _ _ _ := 1 / 2
  reward _ a j := if a = 0 then 0 else if j = 0 then 1 else 2
  next s a _ := if a = 0 then s else !s
  ends _ a j := decide (a = 1) && decide (j = 1)

theorem exWorld_proper {p : ℝ} (h0 : 0 ≤ p) (h1 : p ≤ 1) : (exWorld p).Proper where
  policy_nonneg s a := by simp only [exWorld]; split <;> linarith
  policy_total s := by simp [exWorld, Fin.sum_univ_two]
  prob_nonneg s a j := by simp [exWorld]
  prob_total s a := by simp [exWorld]
  logp_nonpos s a := by simp [exWorld]

/-- **C103**, what fails: with `n = 2` the targets of `QLearning` depend on the acting policy.  In `exWorld` with values 0, the expectation after the first action is 0 for a policy that stays and 3/2 for one that moves. -/
theorem C103_q_learning_counterexample : ∃ best : Bool → ℝ, (∀ s, IsMaxOf 2 ((fun _ _ => 0 : Bool → Nat → ℝ) s) (best s)) ∧
    (∀ j, (exWorld 1).prob true 0 j = (exWorld 0).prob true 0 j ∧ (exWorld 1).reward true 0 j = (exWorld 0).reward true 0 j ∧ (exWorld 1).next true 0 j = (exWorld 0).next true 0 j) ∧
    (∑ j, (exWorld 1).prob true 0 j * ((exWorld 1).reward true 0 j + if (exWorld 1).ends true 0 j then 0 else 1 * ((exWorld 1).bellman 1)^[1] best ((exWorld 1).next true 0 j)) = 0) ∧
    ∑ j, (exWorld 0).prob true 0 j * ((exWorld 0).reward true 0 j + if (exWorld 0).ends true 0 j then 0 else 1 * ((exWorld 0).bellman 1)^[1] best ((exWorld 0).next true 0 j)) = 3 / 2 := by
  refine ⟨fun _ => 0, fun s => ⟨⟨0, by norm_num, rfl⟩, fun _ _ => le_refl _⟩, fun j => ⟨rfl, rfl, rfl⟩, ?_, ?_⟩
  · simp [exWorld, World.bellman, Fin.sum_univ_two]
  · simp [exWorld, World.bellman, Fin.sum_univ_two]
    norm_num

/-! Monte-Carlo returns. -/

/-- The discounted sum of rewards. -/
def total (gamma : ℝ) : List (Step σ α ℝ) → ℝ
  | [] => 0
  | y :: ys => y.r + gamma * total gamma ys

omit [Fintype α] in
theorem total_eq (gamma : ℝ) (ys : List (Step σ α ℝ)) : total gamma ys = ∑ k ∈ Finset.range ys.length, gamma ^ k * rewardAt ys k := by
  induction ys with
  | nil => rfl
  | cons y ys ih =>
    rw [total, ih, List.length_cons, Finset.sum_range_succ']
    have e : ∀ k, gamma ^ (k + 1) * rewardAt (y :: ys) (k + 1) = gamma * (gamma ^ k * rewardAt ys k) := fun k => by simp [rewardAt]; ring
    have e0 : rewardAt (y :: ys) 0 = y.r := by simp [rewardAt]
    simp only [e, e0, ← Finset.mul_sum]
    ring

/-- All episodes from `s` end within `k` steps. -/
def World.EndsWithin (w : World σ α m) (k : Nat) (s : σ) : Prop := ∀ l, w.Path k s l → ∃ x, l.getLast? = some x ∧ x.2 = true

omit [Fintype α] in
theorem endsWithin_next {w : World σ α m} {k : Nat} {s : σ} (h : w.EndsWithin (k + 1) s) {a : α} {j : Fin m} (hj : w.ends s a j = false) : w.EndsWithin k (w.next s a j) := by
  intro l hl
  obtain ⟨x, hx, hx'⟩ := h _ (.go hj hl)
  rw [List.getLast?_cons] at hx
  cases hc : l.getLast? with
  | none => rw [hc] at hx; simp at hx; subst hx; cases hx'
  | some y => rw [hc] at hx; simp at hx; subst hx; exact ⟨y, rfl, hx'⟩

theorem mean_total {w : World σ α m} (hw : w.Proper) {gamma : ℝ} {tab : σ → ℝ}
    (hfix : ∀ s, tab s = ∑ a, w.policy s a * ∑ j, w.prob s a j * (w.reward s a j + if w.ends s a j then 0 else gamma * tab (w.next s a j))) (k : Nat) (s : σ) (h : w.EndsWithin k s) :
    w.mean k s (fun l => total gamma (l.map Prod.fst)) = tab s := by
  induction k generalizing s with
  | zero => obtain ⟨x, hx, -⟩ := h [] (.zero s); cases hx
  | succ k ih =>
    rw [hfix]
    simp only [World.mean]
    refine Finset.sum_congr rfl fun a _ => ?_
    congr 1
    refine Finset.sum_congr rfl fun j _ => ?_
    congr 1
    cases hj : w.ends s a j with
    | true => simp [total, World.step]
    | false =>
      simp only [Bool.false_eq_true, if_false, List.map_cons, total]
      rw [mean_affine hw, ih _ (endsWithin_next h hj)]
      rfl

omit [Fintype α] in
/-- A step can be added whenever the tracer has nothing to return. -/
theorem mhistory_add (hg : 0 ≤ gamma ∧ gamma ≤ 1) {t : MonteCarlo σ α ℝ} (h : MHistory gamma t eps outs) (hb : t.bool = false) {x : Step σ α ℝ} (hx : x.Valid) (d : Bool) :
    ∃ t', t.add x d = (t', none) ∧ MHistory gamma t' (push eps x d) outs := by
  have hnot : ¬ ((∃ ep, eps.getLast? = some ep ∧ ep.done = true) ∧ outs.length < (allSteps eps).length) := by
    rintro ⟨h1, h2⟩
    have := (C19_bool hg h).2 ⟨h2, h1⟩
    rw [hb] at this; cases this
  have ha : t.add x d = ((t.add x d).1, none) := Prod.ext rfl ((C19_add hg h x d).2 hnot).1
  refine ⟨_, ha, ?_⟩
  rcases push_cases eps with ⟨init, pre, rfl, hp⟩ | ⟨hd, hp⟩ <;> rw [hp]
  · exact .addNext x d h hx ha
  · exact .addFirst x d h hd hx ha

omit [Fintype α] in
theorem feedMC_history (hg : 0 ≤ gamma ∧ gamma ≤ 1) : ∀ {xs : List (Step σ α ℝ × Bool)} {t : MonteCarlo σ α ℝ} {eps : List (Episode σ α ℝ)} {outs : List (Out σ α ℝ)},
    MHistory gamma t eps outs → t.bool = false → (∀ x ∈ xs, x.1.Valid) →
    ∃ t' os, feedMC t xs = .ok (t', os) ∧ MHistory gamma t' (xs.foldl (fun e x => push e x.1 x.2) eps) (outs ++ os) ∧ t'.bool = false := by
  intro xs
  induction xs with
  | nil => intro t eps outs h hb _; exact ⟨t, [], rfl, by simpa using h, hb⟩
  | cons x xs ih =>
    intro t eps outs h hb hv
    obtain ⟨x, d⟩ := x
    obtain ⟨t', ha, h'⟩ := mhistory_add hg h hb (hv (x, d) (by simp)) d
    have hv' : ∀ x ∈ xs, x.1.Valid := fun y hy => hv y (List.mem_cons_of_mem _ hy)
    rw [feedMC, ha]
    simp only [List.foldl_cons]
    cases hb' : t'.bool with
    | false =>
      obtain ⟨u, os, e, hh, hu⟩ := ih h' hb' hv'
      exact ⟨u, os, by simp [e], hh, hu⟩
    | true =>
      obtain ⟨t'', os, e, -, -, hl⟩ := (C19_flush hg h').2 hb'
      have hb'' : t''.bool = false := by simp [MonteCarlo.bool, hl]
      obtain ⟨u, os', e', hh, hu⟩ := ih (h'.flush e) hb'' hv'
      exact ⟨u, os ++ os', by simp [e, e'], by rw [← List.append_assoc]; exact hh, hu⟩

/-- **C103** for `MonteCarlo`.  The tracer is in any state that a program can reach, with nothing to return, and all episodes from `s` end within `k` steps.  Then the loop does not raise until the episode ends, the
transitions of the episode have been returned last step first, among them that of this step, and the expectation of its return is the value of the state for the policy: the solution of the Bellman equation. -/
theorem C103_monte_carlo {w : World σ α m} (hw : w.Proper) (hg : 0 ≤ gamma ∧ gamma ≤ 1) {t : MonteCarlo σ α ℝ} (h : MHistory gamma t eps outs) (hb : t.bool = false) {k : Nat} {s : σ} (hk : w.EndsWithin k s)
    (tab : σ → ℝ) (hfix : ∀ s, tab s = ∑ a, w.policy s a * ∑ j, w.prob s a j * (w.reward s a j + if w.ends s a j then 0 else gamma * tab (w.next s a j))) :
    ∃ g : List (Step σ α ℝ × Bool) → ℝ,
      (∀ l, w.Path k s l → ∃ t' os o, feedMC t l = .ok (t', os) ∧ os[l.length - 1]? = some o ∧ o.S = s ∧ (∀ x ∈ l.head?, o.A = x.1.a) ∧ o.In = 0 ∧ o.Rn = g l) ∧ w.mean k s g = tab s := by
  refine ⟨fun l => total gamma (l.map Prod.fst), ?_, mean_total hw hfix k s hk⟩
  intro l hp
  obtain ⟨x, hx, hx'⟩ := hk l hp
  obtain ⟨t', os, e, h', hb'⟩ := feedMC_history hg h hb (Path.valid hw.logp_nonpos hp)
  have hne : l ≠ [] := by rintro rfl; cases hx
  have hl0 : 0 < l.length := List.length_pos_iff.2 hne
  obtain ⟨init, pre, d, hfold, hsteps⟩ := fold_push l hne (Path.flags hp).1 eps
  obtain ⟨ep, hep, hd⟩ := fold_flag l x hx eps
  -- everything has been popped
  have hall : (outs ++ os).length = (allSteps (l.foldl (fun e x => push e x.1 x.2) eps)).length := by
    have h1 := C19_no_loss hg h'
    by_contra hne'
    have : t'.bool = true := (C19_bool hg h').2 ⟨by omega, ep, hep, hd.trans hx'⟩
    rw [hb'] at this; cases this
  -- nothing of this episode had been popped
  have hbefore : outs.length = (allSteps init).length := by
    obtain ⟨segs, g1, g2, g3⟩ := C19_returns hg h
    rcases push_cases eps with ⟨init', pre', rfl, hpp⟩ | ⟨hdone, hpp⟩
    · obtain ⟨segsI, seg', g4, g5, rfl⟩ : ∃ a b, List.Forall₂ _ init' a ∧ List.Forall₂ _ [_] b ∧ segs = a ++ b := by
        refine ⟨segs.take init'.length, segs.drop init'.length, ?_, ?_, (List.take_append_drop _ _).symm⟩
        · have := List.forall₂_take init'.length g2; simpa using this
        · have := List.forall₂_drop init'.length g2; simpa using this
      cases g5 with
      | @cons _ seg _ _ hseg hnil =>
      cases hnil
      have hs0 : seg = [] := hseg.2.1 rfl
      subst hs0
      have hI : List.Forall₂ (fun ep seg => seg.length = ep.steps.length) init' segsI := by
        rw [List.forall₂_iff_get]
        refine ⟨g4.length_eq, fun i h1 h2 => ?_⟩
        exact (g3 i _ _ (by simpa using h1) (by rw [List.getElem?_append_left h1]; exact List.getElem?_eq_getElem h1) (by rw [List.getElem?_append_left h2]; exact List.getElem?_eq_getElem h2)).2
      have hfl := flatten_length hI
      have hii : init = init' := by
        obtain ⟨y, ys, rfl⟩ := List.exists_cons_of_ne_nil hne
        have key : ∀ (zs : List (Step σ α ℝ × Bool)) (b : List (Step σ α ℝ)), (∀ i z, i + 1 < zs.length → zs[i]? = some z → z.2 = false) →
            ∃ b' d', zs.foldl (fun e x => push e x.1 x.2) (init' ++ [⟨b, false⟩]) = init' ++ [⟨b', d'⟩] := by
          intro zs
          induction zs with
          | nil => intro b _; exact ⟨b, false, rfl⟩
          | cons z zs ihz =>
            intro b hz
            have e1 : push (init' ++ [⟨b, false⟩]) z.1 z.2 = init' ++ [⟨b ++ [z.1], z.2⟩] := by simp [push]
            rcases eq_or_ne zs [] with rfl | hzs
            · exact ⟨b ++ [z.1], z.2, by rw [List.foldl_cons, List.foldl_nil, e1]⟩
            · have hz0 : z.2 = false := hz 0 z (by cases zs <;> simp at hzs ⊢) rfl
              rw [List.foldl_cons, e1, hz0]
              exact ihz _ fun i y hi hy => hz (i + 1) y (by simpa using hi) (by simpa using hy)
        obtain ⟨b', d', hk'⟩ := key (y :: ys) pre' (Path.flags hp).1
        rw [hk'] at hfold
        exact (List.append_inj' hfold rfl).1.symm
      rw [g1, hii, ← hfl]; simp
    · -- the last episode was finished: everything had been popped, and a new episode starts
      have hcount : outs.length = (allSteps eps).length := by
        have h1 := C19_no_loss hg h
        rcases List.eq_nil_or_concat eps with rfl | ⟨q, ep', rfl⟩
        · simp [allSteps] at h1 ⊢; exact h1.1
        · by_contra hc
          have : t.bool = true := (C19_bool hg h).2 ⟨by omega, ep', by simp, hdone ep' (by simp)⟩
          rw [hb] at this; cases this
      have hp0 : pre = [] := by
        obtain ⟨y, ys, rfl⟩ := List.exists_cons_of_ne_nil hne
        have key : ∀ (zs : List (Step σ α ℝ × Bool)) (b : List (Step σ α ℝ)), (∀ i z, i + 1 < zs.length → zs[i]? = some z → z.2 = false) →
            ∃ d', zs.foldl (fun e x => push e x.1 x.2) (eps ++ [⟨b, false⟩]) = eps ++ [⟨b ++ zs.map Prod.fst, d'⟩] := by
          intro zs
          induction zs with
          | nil => intro b _; exact ⟨false, by simp⟩
          | cons z zs ihz =>
            intro b hz
            have e1 : push (eps ++ [⟨b, false⟩]) z.1 z.2 = eps ++ [⟨b ++ [z.1], z.2⟩] := by simp [push]
            rcases eq_or_ne zs [] with rfl | hzs
            · exact ⟨z.2, by simp only [List.foldl_cons, List.foldl_nil, e1]; simp⟩
            · have hz0 : z.2 = false := hz 0 z (by cases zs <;> simp at hzs ⊢) rfl
              obtain ⟨d', hd'⟩ := ihz (b ++ [z.1]) fun i y hi hy => hz (i + 1) y (by simpa using hi) (by simpa using hy)
              exact ⟨d', by rw [List.foldl_cons, e1, hz0, hd']; simp⟩
        have hone : ∃ d', (y :: ys).foldl (fun e x => push e x.1 x.2) eps = eps ++ [⟨(y :: ys).map Prod.fst, d'⟩] := by
          rw [List.foldl_cons, hpp]
          rcases eq_or_ne ys [] with rfl | hys
          · exact ⟨y.2, by simp⟩
          · have hz0 : y.2 = false := (Path.flags hp).1 0 y (by cases ys <;> simp at hys ⊢) rfl
            obtain ⟨d', hd'⟩ := key ys [y.1] fun i z hi hz => (Path.flags hp).1 (i + 1) z (by simpa using hi) (by simpa using hz)
            exact ⟨d', by rw [hz0, hd']; simp⟩
        obtain ⟨d', hd'⟩ := hone
        rw [hd'] at hfold
        have := (List.append_inj' hfold rfl).2
        injection this with this _
        injection this with this _
        have := congrArg List.length this
        simp only [List.length_append, List.length_map] at this
        exact List.length_eq_zero_iff.1 (by omega)
      rw [hp0, List.append_nil] at hsteps
      rw [hcount, hsteps]
  obtain ⟨segs, g1, g2, g3⟩ := C19_returns hg h'
  rw [hfold] at g2 g3 hall
  obtain ⟨segsI, seg', g4, g5, rfl⟩ : ∃ a b, List.Forall₂ _ init a ∧ List.Forall₂ _ [_] b ∧ segs = a ++ b := by
    refine ⟨segs.take init.length, segs.drop init.length, ?_, ?_, (List.take_append_drop _ _).symm⟩
    · have := List.forall₂_take init.length g2; simpa using this
    · have := List.forall₂_drop init.length g2; simpa using this
  cases g5 with
  | @cons _ seg _ _ hseg hnil =>
  cases hnil
  have hI : List.Forall₂ (fun ep seg => seg.length = ep.steps.length) init segsI := by
    rw [List.forall₂_iff_get]
    refine ⟨g4.length_eq, fun i h1 h2 => ?_⟩
    exact (g3 i _ _ (by simpa using h1) (by rw [List.getElem?_append_left h1]; exact List.getElem?_eq_getElem h1) (by rw [List.getElem?_append_left h2]; exact List.getElem?_eq_getElem h2)).2
  have hfl := flatten_length hI
  have hout : outs ++ os = segsI.flatten ++ seg := by rw [g1]; simp
  have hos : os = seg := (List.append_inj hout (by rw [hbefore, hfl])).2
  subst hos
  have hlen : os.length = pre.length + l.length := by
    simp only [allSteps, List.map_append, List.map_cons, List.map_nil, List.flatten_append, List.flatten_cons, List.flatten_nil, List.append_nil, List.length_append, List.length_map] at hall
    have : outs.length = ((init.map (·.steps)).flatten).length := hbefore
    omega
  have hidx : l.length - 1 < os.length := by omega
  have hmc := hseg.2.2 (l.length - 1) _ (List.getElem?_eq_getElem hidx)
  have hpos : (pre ++ l.map Prod.fst).length - 1 - (l.length - 1) = pre.length := by simp; omega
  rw [hpos] at hmc
  obtain ⟨y, hy, hs, ha, -⟩ := hmc.start
  obtain ⟨k, rfl⟩ : ∃ k', k = k' + 1 := by cases k with
    | zero => cases hp; exact (hne rfl).elim
    | succ k => exact ⟨k, rfl⟩
  obtain ⟨z, dz, rest, rfl, hz⟩ := path_first hp
  have hzy : z = y := by simpa using hy
  refine ⟨t', os, _, e, List.getElem?_eq_getElem hidx, by rw [hs, ← hzy, hz], fun x hx => ?_, hmc.noBoot, ?_⟩
  · rw [ha, ← hzy]
    have : (z, dz) = x := by simpa using hx
    rw [← this]
  show _ = total gamma (((z, dz) :: rest).map Prod.fst)
  rw [hmc.ret, total_eq, returnFrom]
  have hl : (pre ++ ((z, dz) :: rest).map Prod.fst).length - pre.length = (((z, dz) :: rest).map Prod.fst).length := by simp
  rw [hl]
  refine Finset.sum_congr rfl fun k _ => ?_
  simp only [rewardAt, List.getElem?_append_right (Nat.le_add_right _ _), Nat.add_sub_cancel_left]

/-- A world in which episodes end after at most two steps. -/
example : ∃ w : World Nat (Fin 2) 1, w.Proper ∧ w.EndsWithin 2 0 ∧ ∃ tab : Nat → ℝ, tab 0 = 2 ∧
    ∀ s, tab s = ∑ a, w.policy s a * ∑ j, w.prob s a j * (w.reward s a j + if w.ends s a j then 0 else (1 / 2) * tab (w.next s a j)) := by
  refine ⟨⟨fun _ _ => 1 / 2, fun _ _ => -1, fun _ _ _ => 1, fun s a _ => if s = 0 then a.1 + 1 else 2, fun s _ _ => s + 1, fun s a _ => decide (s ≠ 0) || decide (a = 0)⟩, ?_, ?_,
    fun s => if s = 0 then 2 else 2, by simp, ?_⟩
  · constructor <;> simp [Fin.sum_univ_two]
  · intro l hl
    cases hl with
    | stop h => exact ⟨_, rfl, rfl⟩
    | go h h' =>
      cases h' with
      | stop h => exact ⟨_, rfl, rfl⟩
      | go h _ => simp at h
  · intro s
    rcases eq_or_ne s 0 with rfl | hs
    · simp [Fin.sum_univ_two]; norm_num
    · simp [hs, Fin.sum_univ_two]

/-- A new tracer meets the hypotheses, and there are paths that end early and paths that do not. -/
example : NHistory 2 (1 : ℝ) false (NStep.init 2 1 false : NStep Bool (Fin 2) ℝ) [] [] ∧ (NStep.init 2 1 false : NStep Bool (Fin 2) ℝ).bool = false ∧
    (exWorld (1 / 2)).Path 3 true [((exWorld (1 / 2)).step true 0 0, false), ((exWorld (1 / 2)).step true 1 1, true)] ∧
    (exWorld (1 / 2)).Path 3 true [((exWorld (1 / 2)).step true 1 0, false), ((exWorld (1 / 2)).step false 0 1, false), ((exWorld (1 / 2)).step false 0 0, false)] := by
  refine ⟨.init, rfl, .go (by simp [exWorld]) (.stop (by simp [exWorld])), .go (by simp [exWorld]) (.go (by simp [exWorld]) (.go (by simp [exWorld]) (.zero _)))⟩

end Coax.Loop
