import Verif.Core.DistributedEndProps

/-! Property C106: what a distributed agent learns. -/

namespace Coax.Core

variable {ι θ ω X β : Type _} [DecidableEq ι] {cfg : DCfg ι θ ω X β}

/-! ### Transitions -/

/-- The transitions that were added, in order. -/
def addedOf (ds : List (ι × Did θ X)) : List X := ds.filterMap fun d => match d.2 with | .added x => some x | _ => none

/-- What one turn does to the buffer, and which batches are kept. -/
theorem turn_buffer (s : DSys ι θ ω X β) (i : ι) (c : Choice X) :
    (s.turn cfg i c).1.store.added = s.store.added ++ (match (s.turn cfg i c).2 with | .added x => [x] | _ => []) ∧
    (∀ batch, (s.turn cfg i c).2 = .learned batch → ∃ th o t, s.procs i = .learner (.learn th batch) o t) ∧
    ∀ j th batch o t, (s.turn cfg i c).1.procs j = .learner (.learn th batch) o t →
      (∃ o', s.procs j = .learner (.learn th batch) o' t) ∨ (minLen cfg.batchSize cfg.storeWarmup ≤ (s.store.stored cfg.capacity).length ∧ ∀ x ∈ batch, x ∈ s.store.stored cfg.capacity) := by
  refine ⟨?_, ?_, ?_⟩
  · cases hp : s.procs i with
    | rollout pc =>
      rw [turn_rollout hp]
      cases pc with
      | rolling theta =>
        simp only [rolloutStep]
        cases c.item with
        | none => simp
        | some x => simp only; split <;> simp
      | stopped => simp [rolloutStep]
      | _ => simp only [rolloutStep]; split <;> simp
    | learner pc opt envT =>
      rw [turn_learner hp]
      simp only [learnStep]
      split
      · simp
      · cases pc with
        | sample th => simp only; split <;> simp
        | _ => simp
  · intro batch h
    cases hp : s.procs i with
    | rollout pc =>
      rw [turn_rollout hp] at h
      cases pc with
      | rolling theta =>
        simp only [rolloutStep] at h
        split at h
        · split at h <;> cases h
        · cases h
      | stopped => simp [rolloutStep] at h
      | _ => simp only [rolloutStep] at h; split at h <;> cases h
    | learner pc opt envT =>
      rw [turn_learner hp] at h
      simp only [learnStep] at h
      split at h
      · cases h
      · cases pc with
        | learn th b => cases h; exact ⟨th, opt, envT, rfl⟩
        | sample th => simp only at h; split at h <;> cases h
        | _ => cases h
  · intro j th batch o t h
    by_cases hj : j = i
    · subst hj
      cases hp : s.procs j with
      | rollout pc => rw [turn_rollout_self hp] at h; cases h
      | learner pc opt envT =>
        rw [turn_learner_self hp, Proc.learner.injEq] at h
        obtain ⟨h, -, rfl⟩ := h
        simp only [learnStep] at h
        split at h
        · replace h : pc = .learn th batch := h
          exact .inl ⟨opt, by rw [h]⟩
        · cases pc with
          | sample th' =>
            simp only at h
            split at h
            · cases h
            · cases h
              refine .inr ⟨by omega, fun x hx => ?_⟩
              obtain ⟨k, -, hk⟩ := List.mem_filterMap.1 hx
              exact List.mem_of_getElem? hk
          | test => simp only at h; split at h <;> cases h
          | wait th' => simp only at h; split at h <;> cases h
          | _ => cases h
    · rw [turn_other hj] at h
      exact .inl ⟨o, h⟩

omit [DecidableEq ι] in
theorem addedOf_append (ds : List (ι × Did θ X)) (i : ι) (d : Did θ X) : addedOf (ds ++ [(i, d)]) = addedOf ds ++ (match d with | .added x => [x] | _ => []) := by
  unfold addedOf
  rw [List.filterMap_append]
  cases d <;> rfl

omit [DecidableEq ι] in
/-- What is stored are the latest transitions. -/
theorem mem_stored {s : Store θ X β} {capacity : ℕ} {x : X} (h : x ∈ s.stored capacity) : ∃ k, k < capacity ∧ s.added.reverse[k]? = some x := by
  unfold Store.stored at h
  obtain ⟨m, hm, hx⟩ := List.mem_iff_getElem.1 h
  have hl : m < min s.added.length capacity := by rw [List.length_drop] at hm; omega
  rw [List.getElem_drop] at hx
  refine ⟨s.added.length - 1 - (s.added.length - capacity + m), by omega, ?_⟩
  rw [List.getElem?_reverse (by omega), List.getElem?_eq_some_iff]
  refine ⟨by omega, ?_⟩
  rw [← hx]
  congr 1
  omega

/-- A batch that was sampled after `pre`. -/
structure Sampled (cfg : DCfg ι θ ω X β) (pre : List (ι × Did θ X)) (batch : List X) : Prop where
  enough : max (cfg.storeWarmup.getD 0) cfg.batchSize ≤ min (addedOf pre).length cfg.capacity
  latest : ∀ x ∈ batch, ∃ k, k < cfg.capacity ∧ (addedOf pre).reverse[k]? = some x

/-- **C106**: every batch that is learned from was sampled before, at a time at which `max(buffer_warmup, batch_size)` transitions were in the buffer, from the latest transitions (as many as fit into the buffer) that rollout workers
had added. -/
theorem C106_batches (cfg : DCfg ι θ ω X β) (theta : θ) (beta : β) (opt : ω) (learns : ι → Bool) (es : List (ι × Choice X)) {pre post : List (ι × Did θ X)} {i : ι} {batch : List X}
    (h : ((DSys.init theta beta opt learns).run cfg es).2 = pre ++ (i, .learned batch) :: post) : ∃ pre', pre' <+: pre ∧ Sampled cfg pre' batch := by
  have := run_induction (cfg := cfg) (s := DSys.init theta beta opt learns) (C := fun _ => True)
    (P := fun s ds => s.store.added = addedOf ds ∧
      (∀ j th batch o t, s.procs j = .learner (.learn th batch) o t → ∃ pre', pre' <+: ds ∧ Sampled cfg pre' batch) ∧
      ∀ pre post i batch, ds = pre ++ (i, .learned batch) :: post → ∃ pre', pre' <+: pre ∧ Sampled cfg pre' batch) ?_ ?_ es (fun _ _ => trivial)
  · exact this.2.2 pre post i batch h
  · refine ⟨rfl, fun j th b o t h => ?_, fun pre post i b h => ?_⟩
    · simp only [DSys.init] at h
      split at h <;> cases h
    · simp at h
  · rintro s ds i c ⟨h1, h2, h3⟩ -
    obtain ⟨t1, t2, t3⟩ := turn_buffer (cfg := cfg) s i c
    refine ⟨?_, ?_, ?_⟩
    · rw [t1, addedOf_append, h1]
    · intro j th b o t h
      rcases t3 j th b o t h with ⟨o', h'⟩ | ⟨h4, h5⟩
      · obtain ⟨pre', h6, h7⟩ := h2 j th b o' t h'
        exact ⟨pre', h6.trans (List.prefix_append _ _), h7⟩
      · rw [stored_length, h1] at h4
        refine ⟨ds, List.prefix_append _ _, h4, fun x hx => ?_⟩
        rw [← h1]
        exact mem_stored (h5 x hx)
    · intro pre post j b h
      rcases List.eq_nil_or_concat post with rfl | ⟨post', last, rfl⟩
      · obtain ⟨rfl, h'⟩ := List.append_inj' h rfl
        simp only [List.cons.injEq, Prod.mk.injEq, and_true] at h'
        obtain ⟨th, o, t, hp⟩ := t2 b h'.2
        exact h2 i th b o t hp
      · rw [List.concat_eq_append, ← List.cons_append, ← List.append_assoc] at h
        obtain ⟨rfl, -⟩ := List.append_inj' h rfl
        exact h3 pre post' j b rfl

/-! ### The shared state -/

/-- The state that was pushed last. -/
def lastPushed (theta : θ) (ds : List (ι × Did θ X)) : θ := (ds.filterMap fun d => match d.2 with | .pushed th => some th | _ => none).getLast?.getD theta

omit [DecidableEq ι] in
theorem lastPushed_append (theta : θ) (ds : List (ι × Did θ X)) (i : ι) (d : Did θ X) : lastPushed theta (ds ++ [(i, d)]) = match d with | .pushed th => th | _ => lastPushed theta ds := by
  unfold lastPushed
  rw [List.filterMap_append]
  cases d <;> simp

theorem turn_theta (s : DSys ι θ ω X β) (i : ι) (c : Choice X) :
    (s.turn cfg i c).1.store.theta = (match (s.turn cfg i c).2 with | .pushed th => th | _ => s.store.theta) ∧ ∀ th, (s.turn cfg i c).2 = .pulled th → th = s.store.theta := by
  cases hp : s.procs i with
  | rollout pc =>
    rw [turn_rollout hp]
    cases pc with
    | rolling theta =>
      simp only [rolloutStep]
      cases c.item with
      | none => simp
      | some x => simp only; split <;> simp
    | stopped => simp [rolloutStep]
    | pull => simp only [rolloutStep]; split <;> simp_all
    | _ => simp only [rolloutStep]; split <;> simp
  | learner pc opt envT =>
    rw [turn_learner hp]
    simp only [learnStep]
    split
    · simp
    · cases pc with
      | sample th => simp only; split <;> simp
      | pull => simp_all
      | _ => simp

/-- **C106**: every state that a worker pulls is the one pushed last (or the initial one). -/
theorem C106_pulls_latest (cfg : DCfg ι θ ω X β) (theta : θ) (beta : β) (opt : ω) (learns : ι → Bool) (es : List (ι × Choice X)) {pre post : List (ι × Did θ X)} {i : ι} {th : θ}
    (h : ((DSys.init theta beta opt learns).run cfg es).2 = pre ++ (i, .pulled th) :: post) : th = lastPushed theta pre := by
  have := run_induction (cfg := cfg) (s := DSys.init theta beta opt learns) (C := fun _ => True)
    (P := fun s ds => s.store.theta = lastPushed theta ds ∧ ∀ pre post i th, ds = pre ++ (i, .pulled th) :: post → th = lastPushed theta pre) ?_ ?_ es (fun _ _ => trivial)
  · exact this.2 pre post i th h
  · exact ⟨rfl, fun pre post i th h => by simp at h⟩
  · rintro s ds i c ⟨h1, h2⟩ -
    obtain ⟨t1, t2⟩ := turn_theta (cfg := cfg) s i c
    refine ⟨by rw [t1, lastPushed_append, h1], fun pre post j th h => ?_⟩
    rcases List.eq_nil_or_concat post with rfl | ⟨post', last, rfl⟩
    · obtain ⟨rfl, h'⟩ := List.append_inj' h rfl
      simp only [List.cons.injEq, Prod.mk.injEq, and_true] at h'
      rw [t2 th h'.2, h1]
    · rw [List.concat_eq_append, ← List.cons_append, ← List.append_assoc] at h
      obtain ⟨rfl, -⟩ := List.append_inj' h rfl
      exact h2 pre post' j th rfl

/-! ### One learner -/

/-- The batches that were learned from, in order. -/
def batchesOf (ds : List (ι × Did θ X)) : List (List X) := ds.filterMap fun d => match d.2 with | .learned b => some b | _ => none

omit [DecidableEq ι] in
theorem batchesOf_append (ds : List (ι × Did θ X)) (i : ι) (d : Did θ X) : batchesOf (ds ++ [(i, d)]) = batchesOf ds ++ (match d with | .learned b => [b] | _ => []) := by
  unfold batchesOf
  rw [List.filterMap_append]
  cases d <;> rfl

/-- Where the single learner is, in terms of what it has learned. -/
def InStep (s : DSys ι θ ω X β) (i : ι) (now : θ × ω) : Prop :=
  ∃ pc o t, s.procs i = .learner pc o t ∧ o = now.2 ∧
    match pc with
    | .wait th | .sample th | .learn th _ => s.store.theta = now.1 ∧ th = now.1
    | .push th => th = now.1
    | _ => s.store.theta = now.1

/-- **C106** for a single learner and any number of rollout workers, whatever the interleaving: no update is lost.  The shared state is the result of all updates, one after the other, each made with the state of the optimizer that the
previous one left; only the latest may not have been pushed yet. -/
theorem C106_single_learner_partial (cfg : DCfg ι θ ω X β) (theta : θ) (beta : β) (opt : ω) {learns : ι → Bool} {i : ι} (hi : ∀ j, learns j = true ↔ j = i) (es : List (ι × Choice X)) :
    ∃ last : List (List X), last.length ≤ 1 ∧ ∃ bs, batchesOf ((DSys.init theta beta opt learns).run cfg es).2 = bs ++ last ∧
      ((DSys.init theta beta opt learns).run cfg es).1.store.theta = (bs.foldl (fun now b => cfg.learn now.1 now.2 b) (theta, opt)).1 ∧
      ((∀ th o t, ((DSys.init theta beta opt learns).run cfg es).1.procs i ≠ .learner (.push th) o t) → last = []) := by
  have := run_induction (cfg := cfg) (s := DSys.init theta beta opt learns) (C := fun _ => True)
    (P := fun s ds => (∀ j, j ≠ i → ∃ pc, s.procs j = .rollout pc) ∧ InStep s i ((batchesOf ds).foldl (fun now b => cfg.learn now.1 now.2 b) (theta, opt)) ∧
      ((∃ th o t, s.procs i = .learner (.push th) o t) → ∃ bs b, batchesOf ds = bs ++ [b] ∧ s.store.theta = (bs.foldl (fun now b => cfg.learn now.1 now.2 b) (theta, opt)).1)) ?_ ?_ es (fun _ _ => trivial)
  · obtain ⟨-, ⟨pc, o, t, hp, -, h⟩, h2⟩ := this
    by_cases hpush : ∃ th, pc = .push th
    · obtain ⟨th, rfl⟩ := hpush
      obtain ⟨bs, b, h3, h4⟩ := h2 ⟨th, o, t, hp⟩
      exact ⟨[b], le_rfl, bs, h3, h4, fun h => absurd hp (h th o t)⟩
    · refine ⟨[], by simp, _, (List.append_nil _).symm, ?_, fun _ => rfl⟩
      cases pc with
      | push th => exact absurd ⟨th, rfl⟩ hpush
      | wait th => exact h.1
      | sample th => exact h.1
      | learn th b => exact h.1
      | _ => exact h
  · refine ⟨fun j hj => ?_, ?_, ?_⟩
    · have : learns j ≠ true := fun h => hj ((hi j).1 h)
      simp [DSys.init, this]
    · exact ⟨.test, opt, 0, by simp [DSys.init, (hi i).2 rfl], rfl, rfl⟩
    · rintro ⟨th, o, t, h⟩
      simp [DSys.init, (hi i).2 rfl] at h
  · rintro s ds j c ⟨h1, ⟨pc, o, t, hp, ho, h⟩, h2⟩ -
    refine ⟨fun k hk => (turn_role j c k).2 (h1 k hk), ?_⟩
    rw [batchesOf_append]
    by_cases hj : j = i
    · subst hj
      generalize hnow : (batchesOf ds).foldl (fun now b => cfg.learn now.1 now.2 b) (theta, opt) = now at ho h
      rw [turn_learner hp]
      subst ho
      cases hb : s.store.blocked with
      | true =>
        simp only [learnStep, hb, if_true, List.append_nil, hnow]
        exact ⟨⟨pc, now.2, t, by simp, rfl, h⟩, by simpa [hp] using h2⟩
      | false =>
        simp only [learnStep, hb, Bool.false_eq_true, if_false]
        cases pc with
        | test =>
          simp only [List.append_nil, hnow]
          refine ⟨⟨if s.store.T < cfg.maxTotalSteps then .pull else .stopped, now.2, t, by simp, rfl, ?_⟩, ?_⟩
          · by_cases hc : s.store.T < cfg.maxTotalSteps
            · simp only [hc, if_true]; exact h
            · simp only [hc, if_false]; exact h
          · rintro ⟨th, o, t', h3⟩
            simp only [if_true, Proc.learner.injEq] at h3
            split at h3 <;> simp at h3
        | pull =>
          simp only [List.append_nil, hnow]
          exact ⟨⟨.wait s.store.theta, now.2, t, by simp, rfl, h, h⟩, by simp⟩
        | wait th =>
          simp only [List.append_nil, hnow]
          refine ⟨⟨_, now.2, t, by simp; rfl, rfl, ?_⟩, ?_⟩
          · by_cases hc : (s.store.stored cfg.capacity).length < minLen cfg.batchSize (cfg.warmup j)
            · simp only [hc, if_true]; exact h
            · simp only [hc, if_false]; exact h
          · rintro ⟨th, o, t', h3⟩
            simp only [if_true, Proc.learner.injEq] at h3
            split at h3 <;> simp at h3
        | sample th =>
          simp only
          by_cases hc : (s.store.stored cfg.capacity).length < minLen cfg.batchSize cfg.storeWarmup
          · simp only [hc, if_true, List.append_nil, hnow]
            exact ⟨⟨_, now.2, t, by simp; rfl, rfl, h⟩, by simp⟩
          · simp only [hc, if_false, List.append_nil, hnow]
            exact ⟨⟨_, now.2, t, by simp; rfl, rfl, h⟩, by simp⟩
        | learn th b =>
          simp only [List.foldl_append, hnow, List.foldl_cons, List.foldl_nil]
          obtain ⟨ha, rfl⟩ := h
          refine ⟨⟨_, _, t, by simp; rfl, rfl, rfl⟩, fun _ => ⟨batchesOf ds, b, rfl, ?_⟩⟩
          rw [hnow]; exact ha
        | push th =>
          simp only [List.append_nil, hnow]
          exact ⟨⟨_, now.2, t, by simp; rfl, rfl, h⟩, by simp⟩
        | stopped =>
          simp only [List.append_nil, hnow]
          exact ⟨⟨_, now.2, t, by simp; rfl, rfl, h⟩, by simp⟩
    · obtain ⟨pc', hp'⟩ := h1 j hj
      have hd : (∀ b, (s.turn cfg j c).2 ≠ .learned b) ∧ ∀ th, (s.turn cfg j c).2 ≠ .pushed th := by
        rw [turn_rollout hp']
        cases pc' with
        | rolling theta =>
          simp only [rolloutStep]
          cases c.item with
          | none => simp
          | some x => simp only; split <;> simp
        | stopped => simp [rolloutStep]
        | _ => simp only [rolloutStep]; split <;> simp
      have e1 : (match (s.turn cfg j c).2 with | .learned b => [b] | _ => ([] : List (List X))) = [] := by
        split
        · rename_i b hb; exact absurd hb (hd.1 b)
        · rfl
      have e2 : (s.turn cfg j c).1.store.theta = s.store.theta := by
        rw [(turn_theta s j c).1]
        split
        · rename_i b hb; exact absurd hb (hd.2 b)
        · rfl
      have e3 : (s.turn cfg j c).1.procs i = s.procs i := turn_other (Ne.symm hj) c
      rw [e1, List.append_nil]
      refine ⟨⟨pc, o, t, by rw [e3, hp], ho, ?_⟩, ?_⟩
      · rw [e2]; exact h
      · rw [e2, e3]; exact h2

/-- **C106** is false for two learners: both pull the same state, and the update of the one that pushes first is lost. -/
theorem C106_two_learners_counterexample : ∃ (cfg : DCfg (Fin 3) ℕ Unit Unit Unit) (es : List (Fin 3 × Choice Unit)),
    (batchesOf ((DSys.init 0 () () fun i => i ≠ 0).run cfg es).2).length = 2 ∧ ((DSys.init 0 () () fun i => i ≠ 0).run cfg es).1.store.theta = 1 ∧ ∀ n o b, (cfg.learn n o b).1 = n + 1 :=
  ⟨⟨1000, 1, fun _ => none, none, 10, fun n _ _ => (n + 1, ()), fun _ => ()⟩,
    [(0, ends 1), (0, ends 1), (0, ⟨some (), 1, true, []⟩)] ++ (List.replicate 5 [(1, ends 1), (2, ends 1)]).flatten ++ [(1, ends 1), (2, ends 1)], by decide, by decide, fun _ _ _ => rfl⟩

/-! ### The exponent of the importance weights -/

theorem turn_beta (s : DSys ι θ ω X β) (i : ι) (c : Choice X) (h : ∀ j pc o t, s.procs j = .learner pc o t → t = 0) :
    ((s.turn cfg i c).1.store.beta = s.store.beta ∨ (s.turn cfg i c).1.store.beta = cfg.beta 0) ∧ ∀ j pc o t, (s.turn cfg i c).1.procs j = .learner pc o t → t = 0 := by
  constructor
  · cases hp : s.procs i with
    | rollout pc =>
      rw [turn_rollout hp]
      cases pc with
      | rolling theta =>
        simp only [rolloutStep]
        cases c.item with
        | none => simp
        | some x => simp only; split <;> simp
      | stopped => simp [rolloutStep]
      | _ => simp only [rolloutStep]; split <;> simp
    | learner pc opt envT =>
      obtain rfl := h i _ _ _ hp
      rw [turn_learner hp]
      simp only [learnStep]
      split
      · simp
      · cases pc with
        | sample th => simp only; split <;> simp
        | _ => simp
  · intro j pc o t hj
    by_cases hji : j = i
    · subst hji
      cases hp : s.procs j with
      | rollout pc => rw [turn_rollout_self hp] at hj; cases hj
      | learner pc' o' t' => rw [turn_learner_self hp] at hj; cases hj; exact h _ _ _ _ hp
    · rw [turn_other hji] at hj
      exact h _ _ _ _ hj

/-- **C106** is false of the schedule for `beta` in the example: the learner evaluates it at the counter of its own environment, in which it makes no step, so that it never gets beyond its first value. -/
theorem C106_beta_counterexample (cfg : DCfg ι θ ω X β) (theta : θ) (beta : β) (opt : ω) (learns : ι → Bool) (es : List (ι × Choice X)) :
    ((DSys.init theta beta opt learns).run cfg es).1.store.beta = beta ∨ ((DSys.init theta beta opt learns).run cfg es).1.store.beta = cfg.beta 0 := by
  refine (run_induction (cfg := cfg) (s := DSys.init theta beta opt learns) (C := fun _ => True)
    (P := fun s _ => (s.store.beta = beta ∨ s.store.beta = cfg.beta 0) ∧ ∀ j pc o t, s.procs j = .learner pc o t → t = 0) ?_ ?_ es (fun _ _ => trivial)).1
  · refine ⟨.inl rfl, fun j pc o t h => ?_⟩
    simp only [DSys.init] at h
    split at h <;> cases h
    rfl
  · rintro s ds i c ⟨h1, h2⟩ -
    obtain ⟨h3, h4⟩ := turn_beta (cfg := cfg) s i c h2
    refine ⟨?_, h4⟩
    rcases h3 with h3 | h3
    · rw [h3]; exact h1
    · exact .inr h3

/-- A run in which the learner has learned from a batch and pushed, with the counter at 100 and the exponent that belongs to 0. -/
example : let cfg : DCfg Bool ℕ Unit Unit ℕ := ⟨1000, 1, fun _ => none, none, 10, fun n _ _ => (n + 1, ()), id⟩
    let r := (DSys.init 0 7 () id).run cfg ([(false, ends 1), (false, ends 1), (false, ⟨some (), 1, true, []⟩), (false, ends 100), (false, ends 1), (false, ends 1)] ++ List.replicate 6 (true, ends 1))
    r.1.store.T = 100 ∧ r.1.store.theta = 1 ∧ r.1.store.beta = 0 ∧ batchesOf r.2 = [[()]] := by decide

end Coax.Core
