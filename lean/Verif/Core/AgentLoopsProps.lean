import Verif.Core.AgentProps
import Mathlib.Data.Rat.Defs
import Mathlib.Tactic.NormNum

/-!
Property C120 (continued): the training loops of `doc/examples/stubs/ddpg.py` and `doc/examples/stubs/dqn.py`, with all their references, compute what is written in the papers; the
constructor of `ClippedDoubleQLearning`, and `doc/examples/stubs/td3.py`.
-/

namespace Coax.Agent

open Coax.Core Coax.TD

set_option linter.unusedSectionVars false

variable {K C M B : Type _} [Field K]

/-! ### Specification -/

/-- What is computed with: the weights of `n`, of `targ` and of `pi`, and a key of `n`; `own` if the weights of `n` are passed among the targets too. -/
def givenBy (own : Bool) (n : Net K C) (targ pi : List (Net K C)) : Given K where
  params := n.func.params
  functionState := n.func.functionState
  key := .snd n.rng.randomKey
  targets := ⟨if own then some n.func.params else none, targ.map (fun x => x.func.params), pi.map (fun x => x.func.params), none⟩
  targetState := ⟨if own then some n.func.functionState else none, targ.map (fun x => x.func.functionState), pi.map (fun x => x.func.functionState), none⟩

/-- `u` trains `n` to `n'`. -/
def Trained (u : UpdaterObj K M B) (n : Net K C) (g : Given K) (b : B) (n' : Net K C) (u' : UpdaterObj K M B) : Prop :=
  ∃ m, Outcome u n g b (.metrics m) n' u'

/-- A synchronisation: each entry becomes `(1-τ)·old + τ·new`; the key stays. -/
def Synced (tau : K) (t n t' : Net K C) : Prop := Smoothed t.func n.func t'.func tau ∧ t'.rng = t.rng

/-- The networks, target networks and updaters of DDPG, as plain values. -/
structure Ddpg (K C M B : Type _) where
  q : Net K C
  pi : Net K C
  qTarg : Net K C
  piTarg : Net K C
  uq : UpdaterObj K M B
  upi : UpdaterObj K M B

/-- One step of DDPG: the q-function is trained towards the target networks, then the policy towards the *new* q-function, and if `sync` both target networks move towards the new
networks. -/
inductive DdpgStep (tau : K) (b : B) (sync : Bool) (s s' : Ddpg K C M B) : Prop
  | mk : Trained s.uq s.q (givenBy true s.q [s.qTarg] [s.piTarg]) b s'.q s'.uq → Trained s.upi s.pi (givenBy false s.pi [s'.q] []) b s'.pi s'.upi →
      (sync = true → Synced tau s.piTarg s'.pi s'.piTarg ∧ Synced tau s.qTarg s'.q s'.qTarg) → (sync = false → s'.piTarg = s.piTarg ∧ s'.qTarg = s.qTarg) →
      DdpgStep tau b sync s s'

/-- Any number of steps. -/
inductive DdpgRun (tau : K) : List (B × Bool) → Ddpg K C M B → Ddpg K C M B → Prop
  | nil (s) : DdpgRun tau [] s s
  | cons (b sync l s s1 s') : DdpgStep tau b sync s s1 → DdpgRun tau l s1 s' → DdpgRun tau ((b, sync) :: l) s s'

/-- No operation raised an exception. -/
def AllFine (outs : List (Out K M)) : Prop := ∀ e, Out.error e ∉ outs

/-! ### Steps -/

theorem run_append {isInstance : C → C → Bool} {w w' : World K C M B} {ops ops' : List (Op K C M B)} {outs : List (Out K M)}
    (h : run isInstance w (ops ++ ops') = some (w', outs)) :
    ∃ w1 o o', run isInstance w ops = some (w1, o) ∧ run isInstance w1 ops' = some (w', o') ∧ outs = o ++ o' := by
  induction ops generalizing w outs with
  | nil => exact ⟨w, [], outs, rfl, h, rfl⟩
  | cons op ops ih =>
    rw [List.cons_append] at h
    obtain ⟨w1, o, os, h1, h2, rfl⟩ := run_cons h
    obtain ⟨w2, o1, o2, h3, h4, rfl⟩ := ih h2
    refine ⟨w2, o :: o1, o2, ?_, h4, rfl⟩
    simp [run, h1, h3]

theorem softUpdateFunc_shape {tau : K} {t u v : PyTree K} (h : softUpdateFunc tau t u = .ok v) : SameShape t u := by
  induction t generalizing u v with
  | nil =>
    cases u with
    | nil => exact .nil
    | cons b u => simp [softUpdateFunc] at h
  | cons a t ih =>
    obtain ⟨k, a⟩ := a
    cases u with
    | nil => simp [softUpdateFunc] at h
    | cons b u =>
      obtain ⟨k', b⟩ := b
      unfold softUpdateFunc at h
      by_cases hk : k = k'
      · rw [if_neg (by simpa using hk)] at h
        unfold mixLeaf at h
        by_cases hl : a.length = b.length
        · rw [if_pos hl] at h
          simp only at h
          cases hr : softUpdateFunc tau t u with
          | error e => rw [hr] at h; cases h
          | ok r => exact .cons ⟨hk, hl⟩ (ih hr)
        · rw [if_neg hl] at h; cases h
      · rw [if_pos hk] at h; cases h

theorem softUpdate_ok {isInstance : C → C → Bool} {s o : FuncState K C} {tau : K} (h : (Core.softUpdate isInstance s o tau).2 = .ok ()) :
    Smoothed s o (Core.softUpdate isInstance s o tau).1 tau := by
  have hc : isInstance o.cls s.cls = true := by
    by_contra hc
    rw [Bool.not_eq_true] at hc
    unfold Core.softUpdate at h
    rw [if_pos hc] at h; cases h
  have hp : SameShape s.params o.params := by
    unfold Core.softUpdate at h
    rw [if_neg (by simp [hc])] at h
    cases hr : softUpdateFunc tau s.params o.params with
    | error e => rw [hr] at h; cases h
    | ok r => exact softUpdateFunc_shape hr
  have hf : SameShape s.functionState o.functionState := by
    obtain ⟨p, hp1, hp2, -⟩ := softUpdateFunc_ok tau hp
    unfold Core.softUpdate at h
    rw [if_neg (by simp [hc]), hp1] at h
    simp only [Core.setParams] at h
    rw [if_neg (by simp [hp2.structure_eq])] at h
    simp only at h
    cases hr : softUpdateFunc tau s.functionState o.functionState with
    | error e => rw [hr] at h; cases h
    | ok r => exact softUpdateFunc_shape hr
  obtain ⟨s', hs', hS⟩ := C54_soft_update hc hp hf tau
  rw [hs']
  exact hS

theorem step_softUpdate {isInstance : C → C → Bool} {w w' : World K C M B} {i o : Nat} {tau : K} {out : Out K M} {n m : Net K C}
    (h : step isInstance w (.softUpdate i o tau) = some (w', out)) (hn : w.nets[i]? = some n) (hm : w.nets[o]? = some m) (ho : ∀ e, out ≠ .error e) :
    ∃ n', Synced tau n m n' ∧ w' = { w with nets := w.nets.set i n' } := by
  simp only [step, hn, hm, Option.bind_some, Option.map_some, Option.some.injEq, Prod.mk.injEq] at h
  obtain ⟨rfl, rfl⟩ := h
  refine ⟨{ n with func := (Core.softUpdate isInstance n.func m.func tau).1 }, ⟨softUpdate_ok ?_, rfl⟩, rfl⟩
  cases hr : (Core.softUpdate isInstance n.func m.func tau).2 with
  | ok x => rfl
  | error e => rw [hr] at ho; exact absurd rfl (ho e)

theorem outcome_trained {u u' : UpdaterObj K M B} {n n' : Net K C} {g : Given K} {b : B} {out : Out K M} (h : Outcome u n g b out n' u') (ho : ∀ e, out ≠ .error e) :
    Trained u n g b n' u' := by
  cases h with
  | trained gr fs m opt p h1 h2 h3 h4 h5 h6 => exact ⟨m, .trained gr fs m opt p h1 h2 h3 h4 h5 h6⟩
  | noGradients e _ => exact absurd rfl (ho e)
  | nan => exact absurd rfl (ho _)
  | otherState => exact absurd rfl (ho _)
  | optimizer gr fs m e => exact absurd rfl (ho e)
  | otherOptimizer => exact absurd rfl (ho _)
  | otherParams => exact absurd rfl (ho _)

theorem step_train {isInstance : C → C → Bool} {w w' : World K C M B} {k : Nat} {b : B} {out : Out K M} {u : UpdaterObj K M B} {i : Nat} {n : Net K C} {t : Targets K × Targets K}
    (h : step isInstance w (.update k b) = some (w', out)) (hu : w.updaters[k]? = some u) (hi : u.wiring.trains = i) (hn : w.nets[i]? = some n)
    (ht : targets w u.wiring = some t) (ho : ∀ e, out ≠ .error e) :
    ∃ n' u', Trained u n ⟨n.func.params, t.1, n.func.functionState, t.2, .snd n.rng.randomKey⟩ b n' u' ∧ u'.wiring = u.wiring ∧
      w' = { w with updaters := w.updaters.set k u', nets := w.nets.set i n' } := by
  subst hi
  obtain ⟨u1, n1, t1, hu1, hn1, ht1, rfl, rfl⟩ := step_update h
  rw [hu] at hu1; cases hu1
  rw [hn] at hn1; cases hn1
  rw [ht] at ht1; cases ht1
  exact ⟨_, _, outcome_trained (updateWith_outcome u n t b) ho, (updateWith_keeps u n t b).1.1, rfl⟩

/-! ### DDPG -/

/-- The objects of `doc/examples/stubs/ddpg.py:33-42` are in `w`, with the values `s`. -/
structure DdpgIn (w : World K C M B) (kq kpi q pi qTarg piTarg : Nat) (s : Ddpg K C M B) : Prop where
  hq : w.nets[q]? = some s.q
  hpi : w.nets[pi]? = some s.pi
  hqTarg : w.nets[qTarg]? = some s.qTarg
  hpiTarg : w.nets[piTarg]? = some s.piTarg
  uq : w.updaters[kq]? = some s.uq
  upi : w.updaters[kpi]? = some s.upi
  wq : s.uq.wiring = .tdQPi q (some (.net piTarg)) (some qTarg) none
  wpi : s.upi.wiring = .deterministicPG pi q

theorem set_other {α : Type _} {l : List α} {i k : Nat} {x : α} (h : l[k]? = some x) (hne : i ≠ k) (y : α) : (l.set i y)[k]? = some x := by
  rw [List.getElem?_set_ne hne]; exact h

theorem ddpg_step {isInstance : C → C → Bool} {w w' : World K C M B} {kq kpi q pi qTarg piTarg : Nat} {s : Ddpg K C M B} {tau : K} {b : B} {sync : Bool} {outs : List (Out K M)}
    (hk : kq ≠ kpi) (hd : [q, pi, qTarg, piTarg].Nodup) (hs : DdpgIn w kq kpi q pi qTarg piTarg s)
    (h : run isInstance w (ddpgOps kq kpi q pi qTarg piTarg tau b sync) = some (w', outs)) (hf : AllFine outs) :
    ∃ s', DdpgStep tau b sync s s' ∧ DdpgIn w' kq kpi q pi qTarg piTarg s' := by
  simp only [List.nodup_cons, List.mem_cons, List.not_mem_nil, or_false, not_or, List.nodup_nil, not_false_eq_true, and_true] at hd
  obtain ⟨⟨h12, h13, h14⟩, ⟨h23, h24⟩, h34⟩ := hd
  obtain ⟨wa, oa, ob, ha, hb, rfl⟩ := run_append h
  obtain ⟨w1, o1, os1, e1, ha1, rfl⟩ := run_cons ha
  obtain ⟨w2, o2, os2, e2, ha2, rfl⟩ := run_cons ha1
  simp only [run, Option.some.injEq, Prod.mk.injEq] at ha2
  obtain ⟨rfl, rfl⟩ := ha2
  have t1 : targets w s.uq.wiring = some ((givenBy true s.q [s.qTarg] [s.piTarg]).targets, (givenBy true s.q [s.qTarg] [s.piTarg]).targetState) := by
    rw [hs.wq]
    simp [targets, view, viewOpt, hs.hq, hs.hqTarg, hs.hpiTarg, mkTargets, givenBy]
  obtain ⟨q', uq', ht1, hw1, rfl⟩ := step_train e1 hs.uq (by rw [hs.wq]; rfl) hs.hq t1 (fun e he => hf e (by simp [he]))
  have hq1 : (w.nets.set q q')[q]? = some q' := get_set hs.hq _
  have hpi1 : (w.nets.set q q')[pi]? = some s.pi := set_other hs.hpi h12 _
  have hup1 : (w.updaters.set kq uq')[kpi]? = some s.upi := set_other hs.upi hk _
  have t2 : targets ({ w with updaters := w.updaters.set kq uq', nets := w.nets.set q q' } : World K C M B) s.upi.wiring =
      some ((givenBy false s.pi [q'] []).targets, (givenBy false s.pi [q'] []).targetState) := by
    rw [hs.wpi]
    simp [targets, view, hq1, mkTargets, givenBy]
  obtain ⟨pi', upi', ht2, hw2, rfl⟩ := step_train e2 hup1 (by rw [hs.wpi]; rfl) hpi1 t2 (fun e he => hf e (by simp [he]))
  have a1 : ((w.nets.set q q').set pi pi')[q]? = some q' := set_other hq1 (Ne.symm h12) _
  have a2 : ((w.nets.set q q').set pi pi')[pi]? = some pi' := get_set hpi1 _
  have a3 : ((w.nets.set q q').set pi pi')[qTarg]? = some s.qTarg := set_other (set_other hs.hqTarg h13 _) h23 _
  have a4 : ((w.nets.set q q').set pi pi')[piTarg]? = some s.piTarg := set_other (set_other hs.hpiTarg h14 _) h24 _
  have a5 : ((w.updaters.set kq uq').set kpi upi')[kq]? = some uq' := set_other (get_set hs.uq _) (Ne.symm hk) _
  have a6 : ((w.updaters.set kq uq').set kpi upi')[kpi]? = some upi' := get_set hup1 _
  cases sync with
  | false =>
    simp only [Bool.false_eq_true, if_false, run, Option.some.injEq, Prod.mk.injEq] at hb
    obtain ⟨rfl, rfl⟩ := hb
    exact ⟨⟨q', pi', s.qTarg, s.piTarg, uq', upi'⟩, ⟨ht1, ht2, fun h => (by cases h), fun _ => ⟨rfl, rfl⟩⟩, ⟨a1, a2, a3, a4, a5, a6, hw1.trans hs.wq, hw2.trans hs.wpi⟩⟩
  | true =>
    simp only [if_true] at hb
    obtain ⟨w3, o3, os3, e3, hb1, rfl⟩ := run_cons hb
    obtain ⟨w4, o4, os4, e4, hb2, rfl⟩ := run_cons hb1
    simp only [run, Option.some.injEq, Prod.mk.injEq] at hb2
    obtain ⟨rfl, rfl⟩ := hb2
    obtain ⟨piT', hS1, rfl⟩ := step_softUpdate e3 a4 a2 (fun e he => hf e (by simp [he]))
    have b1 := set_other a1 (Ne.symm h14) piT'
    have b2 := set_other a2 (Ne.symm h24) piT'
    have b3 := set_other a3 (Ne.symm h34) piT'
    have b4 := get_set a4 piT'
    obtain ⟨qT', hS2, rfl⟩ := step_softUpdate e4 b3 b1 (fun e he => hf e (by simp [he]))
    refine ⟨⟨q', pi', qT', piT', uq', upi'⟩, ⟨ht1, ht2, fun _ => ⟨hS1, hS2⟩, fun h => (by cases h)⟩, ?_⟩
    exact ⟨set_other b1 (Ne.symm h13) _, set_other b2 (Ne.symm h23) _, get_set b3 _, set_other b4 h34 _, a5, a6, hw1.trans hs.wq, hw2.trans hs.wpi⟩

/-- C120.  For all batches and any number of steps: a training loop like `doc/examples/stubs/ddpg.py`, with its four networks, two updaters and the references between them, computes DDPG. -/
theorem C120_ddpg {isInstance : C → C → Bool} {kq kpi q pi qTarg piTarg : Nat} {tau : K} {l : List (B × Bool)} {w w' : World K C M B} {s : Ddpg K C M B} {outs : List (Out K M)}
    (hk : kq ≠ kpi) (hd : [q, pi, qTarg, piTarg].Nodup) (hs : DdpgIn w kq kpi q pi qTarg piTarg s)
    (h : run isInstance w (l.flatMap fun x => ddpgOps kq kpi q pi qTarg piTarg tau x.1 x.2) = some (w', outs)) (hf : AllFine outs) :
    ∃ s', DdpgRun tau l s s' ∧ DdpgIn w' kq kpi q pi qTarg piTarg s' := by
  induction l generalizing w s outs with
  | nil =>
    simp only [List.flatMap_nil, run, Option.some.injEq, Prod.mk.injEq] at h
    obtain ⟨rfl, -⟩ := h
    exact ⟨s, .nil s, hs⟩
  | cons x l ih =>
    rw [List.flatMap_cons] at h
    obtain ⟨w1, o, o', h1, h2, rfl⟩ := run_append h
    obtain ⟨s1, hs1, hi1⟩ := ddpg_step hk hd hs h1 (fun e he => hf e (List.mem_append_left _ he))
    obtain ⟨s', hs', hi'⟩ := ih hi1 h2 (fun e he => hf e (List.mem_append_right _ he))
    exact ⟨s', .cons x.1 x.2 l s s1 s' hs1 hs', hi'⟩

/-! ### DQN -/

/-- The networks and the updater of DQN. -/
structure Dqn (K C M B : Type _) where
  q : Net K C
  qTarg : Net K C
  u : UpdaterObj K M B

/-- The same network after one use of its key. -/
def afterUse (n : Net K C) : Net K C := ⟨n.func, ⟨n.rng.randomSeed, .fst n.rng.randomKey⟩⟩

/-- How the agent acts: by the weights of `n`, with the given `epsilon` and a new key. -/
def actsBy (epsilon : K) (n : Net K C) : Out K M :=
  .used (("epsilon", [epsilon]) :: n.func.params.map (fun x => ("q/" ++ x.1, x.2))) n.func.functionState (.snd n.rng.randomKey)

/-- One step of DQN: act epsilon-greedily by the present q-function, train it towards the target network, and if `sync` move the target network towards the new q-function. -/
inductive DqnStep (tau : K) (x : K × B × Bool) (s : Dqn K C M B) : Out K M → Dqn K C M B → Prop
  | mk (s') : Trained s.u (afterUse s.q) (givenBy true (afterUse s.q) [s.qTarg] []) x.2.1 s'.q s'.u →
      (x.2.2 = true → Synced tau s.qTarg s'.q s'.qTarg) → (x.2.2 = false → s'.qTarg = s.qTarg) → DqnStep tau x s (actsBy x.1 s.q) s'

/-- Any number of steps, with the list of how the agent acted. -/
inductive DqnRun (tau : K) : List (K × B × Bool) → Dqn K C M B → List (Out K M) → Dqn K C M B → Prop
  | nil (s) : DqnRun tau [] s [] s
  | cons (x l s a s1 as s') : DqnStep tau x s a s1 → DqnRun tau l s1 as s' → DqnRun tau (x :: l) s (a :: as) s'

/-- Whether something was used. -/
def Out.isUsed : Out K M → Bool
  | .used _ _ _ => true
  | _ => false

/-- The objects of `doc/examples/stubs/dqn.py:28-38` are in `w`, with the values `s`: the policy `j` is derived from `q`. -/
structure DqnIn (w : World K C M B) (k j q qTarg : Nat) (s : Dqn K C M B) : Prop where
  hq : w.nets[q]? = some s.q
  hqTarg : w.nets[qTarg]? = some s.qTarg
  hu : w.updaters[k]? = some s.u
  hw : s.u.wiring = .tdQPi q none (some qTarg) none
  hj : ∃ x, w.derived[j]? = some ⟨.epsilonGreedy, q, x⟩

theorem isUsed_done : Out.isUsed (.done : Out K M) = false := rfl

theorem isUsed_used (p f : PyTree K) (k : Key) : Out.isUsed (.used p f k : Out K M) = true := rfl

theorem dqn_step {isInstance : C → C → Bool} {w w' : World K C M B} {k j q qTarg : Nat} {s : Dqn K C M B} {tau : K} {x : K × B × Bool} {outs : List (Out K M)}
    (hd : q ≠ qTarg) (hs : DqnIn w k j q qTarg s) (h : run isInstance w (dqnOps k j q qTarg tau x) = some (w', outs)) (hf : AllFine outs) :
    ∃ a s', DqnStep tau x s a s' ∧ DqnIn w' k j q qTarg s' ∧ outs.filter Out.isUsed = [a] := by
  obtain ⟨epsilon, b, sync⟩ := x
  obtain ⟨x0, hj⟩ := hs.hj
  obtain ⟨wa, oa, ob, ha, hb, rfl⟩ := run_append h
  obtain ⟨w1, o1, os1, e1, ha1, rfl⟩ := run_cons ha
  obtain ⟨w2, o2, os2, e2, ha2, rfl⟩ := run_cons ha1
  obtain ⟨w3, o3, os3, e3, ha3, rfl⟩ := run_cons ha2
  simp only [run, Option.some.injEq, Prod.mk.injEq] at ha3
  obtain ⟨rfl, rfl⟩ := ha3
  simp only [step, hj, Option.map_some, Option.some.injEq, Prod.mk.injEq] at e1
  obtain ⟨rfl, rfl⟩ := e1
  have hj1 : (w.derived.set j ⟨.epsilonGreedy, q, epsilon⟩)[j]? = some ⟨.epsilonGreedy, q, epsilon⟩ := get_set hj _
  simp only [step, keyOf, hj1, Option.map_some, Option.bind_some, hs.hq, view, Option.some.injEq, Prod.mk.injEq] at e2
  obtain ⟨rfl, rfl⟩ := e2
  have hq1 : (w.nets.set q (afterUse s.q))[q]? = some (afterUse s.q) := get_set hs.hq _
  have ht1 : (w.nets.set q (afterUse s.q))[qTarg]? = some s.qTarg := set_other hs.hqTarg hd _
  have t1 : targets ({ w with derived := w.derived.set j ⟨.epsilonGreedy, q, epsilon⟩, nets := w.nets.set q (afterUse s.q) } : World K C M B) s.u.wiring =
      some ((givenBy true (afterUse s.q) [s.qTarg] []).targets, (givenBy true (afterUse s.q) [s.qTarg] []).targetState) := by
    rw [hs.hw]
    simp [targets, view, viewOpt, hq1, ht1, mkTargets, givenBy]
  obtain ⟨q', u', hT, hw', rfl⟩ := step_train e3 hs.hu (by rw [hs.hw]; rfl) hq1 t1 (fun e he => hf e (by simp [he]))
  have hm : Out.isUsed (K := K) o3 = false := by
    obtain ⟨u1, n1, t1, -, -, -, -, rfl⟩ := step_update e3
    have := updateWith_outcome u1 n1 t1 b
    revert this
    generalize (updateWith u1 n1 t1 b).2 = o
    generalize (updateWith u1 n1 t1 b).1.2 = n'
    generalize (updateWith u1 n1 t1 b).1.1 = u'
    intro this
    cases this <;> rfl
  have a1 : ((w.nets.set q (afterUse s.q)).set q q')[q]? = some q' := get_set hq1 _
  have a2 : ((w.nets.set q (afterUse s.q)).set q q')[qTarg]? = some s.qTarg := set_other ht1 hd _
  have a3 : (w.updaters.set k u')[k]? = some u' := get_set hs.hu _
  cases sync with
  | false =>
    simp only [Bool.false_eq_true, if_false, run, Option.some.injEq, Prod.mk.injEq] at hb
    obtain ⟨rfl, rfl⟩ := hb
    refine ⟨_, ⟨q', s.qTarg, u'⟩, .mk _ hT (fun h => by cases h) (fun _ => rfl), ⟨a1, a2, a3, hw'.trans hs.hw, epsilon, hj1⟩, ?_⟩
    simp [List.filter_cons, isUsed_done, isUsed_used, hm, actsBy, derivedParams, Kind.label, Rng.rng, Key.split]
  | true =>
    simp only [if_true] at hb
    obtain ⟨w4, o4, os4, e4, hb1, rfl⟩ := run_cons hb
    simp only [run, Option.some.injEq, Prod.mk.injEq] at hb1
    obtain ⟨rfl, rfl⟩ := hb1
    have ho4 : Out.isUsed o4 = false := by
      simp only [step, Option.bind_eq_some_iff, Option.map_eq_some_iff, Prod.mk.injEq] at e4
      obtain ⟨_, _, _, _, _, rfl⟩ := e4
      cases (Core.softUpdate isInstance _ _ tau).2 <;> rfl
    obtain ⟨qT', hS, rfl⟩ := step_softUpdate e4 a2 a1 (fun e he => hf e (by simp [he]))
    refine ⟨_, ⟨q', qT', u'⟩, .mk _ hT (fun _ => hS) (fun h => by cases h), ⟨set_other a1 (Ne.symm hd) _, get_set a2 _, a3, hw'.trans hs.hw, epsilon, hj1⟩, ?_⟩
    simp [List.filter_cons, isUsed_done, isUsed_used, hm, ho4, actsBy, derivedParams, Kind.label, Rng.rng, Key.split]

/-- C120.  For all batches and any number of steps: a training loop like `doc/examples/stubs/dqn.py` computes DQN.  In every step the agent acts by the weights that the last update left
and by the `epsilon` set last. -/
theorem C120_dqn {isInstance : C → C → Bool} {k j q qTarg : Nat} {tau : K} {l : List (K × B × Bool)} {w w' : World K C M B} {s : Dqn K C M B} {outs : List (Out K M)}
    (hd : q ≠ qTarg) (hs : DqnIn w k j q qTarg s) (h : run isInstance w (l.flatMap (dqnOps k j q qTarg tau)) = some (w', outs)) (hf : AllFine outs) :
    ∃ s', DqnRun tau l s (outs.filter Out.isUsed) s' ∧ DqnIn w' k j q qTarg s' := by
  induction l generalizing w s outs with
  | nil =>
    simp only [List.flatMap_nil, run, Option.some.injEq, Prod.mk.injEq] at h
    obtain ⟨rfl, rfl⟩ := h
    exact ⟨s, .nil s, hs⟩
  | cons x l ih =>
    rw [List.flatMap_cons] at h
    obtain ⟨w1, o, o', h1, h2, rfl⟩ := run_append h
    obtain ⟨a, s1, hs1, hi1, ho⟩ := dqn_step hd hs h1 (fun e he => hf e (List.mem_append_left _ he))
    obtain ⟨s', hs', hi'⟩ := ih hi1 h2 (fun e he => hf e (List.mem_append_right _ he))
    refine ⟨s', ?_, hi'⟩
    rw [List.filter_append, ho]
    exact .cons x l s a s1 _ s' hs1 hs'

/-! ### Derived policies: setting params -/

theorem set_self {α : Type _} {l : List α} {i : Nat} {x : α} (h : l[i]? = some x) : l.set i x = l := by
  apply List.ext_getElem?
  intro k
  by_cases hk : i = k
  · subst hk; rw [get_set h, h]
  · rw [List.getElem?_set_ne hk]

theorem zip_prefix (q p : PyTree K) (h : structure_ p = structure_ (q.map fun x => ("q/" ++ x.1, x.2))) :
    (List.zipWith (fun (a b : String × List K) => (a.1, b.2)) q p).map (fun x => ("q/" ++ x.1, x.2)) = p ∧
      structure_ (List.zipWith (fun (a b : String × List K) => (a.1, b.2)) q p) = structure_ q := by
  induction q generalizing p with
  | nil =>
    cases p with
    | nil => exact ⟨rfl, rfl⟩
    | cons a p => simp [structure_] at h
  | cons x q ih =>
    cases p with
    | nil => simp [structure_] at h
    | cons a p =>
      simp only [structure_, List.map_cons, List.cons.injEq] at h
      obtain ⟨h1, h2⟩ := ih p h.2
      obtain ⟨a1, a2⟩ := a
      simp only at h
      refine ⟨?_, ?_⟩
      · simp only [List.zipWith_cons_cons, List.map_cons, h1, ← h.1]
      · simp only [structure_, List.zipWith_cons_cons, List.map_cons] at h2 ⊢
        rw [h2]

/-- C120.  Setting the params of a derived policy works: if the structure fits, the policy then shows them, and the weights of its q-function, and so those of every other policy derived
from it, have been set; otherwise there is an error and nothing changes. -/
theorem C120_derived_set {isInstance : C → C → Bool} {w : World K C M B} {j : Nat} {d : Derived K} {n : Net K C} (hd : w.derived[j]? = some d) (hn : w.nets[d.q]? = some n)
    {s : PyTree K × PyTree K} (hs : Shows w (.derived j) s) (x : K) (name : String) (p : PyTree K) :
    (((name, [x]) :: p).map Prod.fst = s.1.map Prod.fst → ∃ w' p', step isInstance w (.setParams (.derived j) ((name, [x]) :: p)) = some (w', .done) ∧
      Shows w' (.derived j) ((name, [x]) :: p, s.2) ∧ Shows w' (.net d.q) (p', s.2) ∧ p = p'.map (fun y => ("q/" ++ y.1, y.2))) ∧
    (((name, [x]) :: p).map Prod.fst ≠ s.1.map Prod.fst →
      ∃ w', step isInstance w (.setParams (.derived j) ((name, [x]) :: p)) = some (w', .error .typeError) ∧ ∀ f v, Shows w' f v ↔ Shows w f v) := by
  have hs' := viewShows.2 hs
  simp only [view, hd, hn, Option.bind_some, Option.map_some, Option.some.injEq] at hs'
  subst hs'
  constructor
  · intro h
    have hst : structure_ ((name, [x]) :: p) = structure_ (derivedParams d n.func.params) := h
    simp only [derivedParams, structure_, List.map_cons, List.cons.injEq] at h
    obtain ⟨hz1, hz2⟩ := zip_prefix n.func.params p h.2
    refine ⟨{ w with derived := w.derived.set j { d with value := x },
                     nets := w.nets.set d.q ⟨⟨n.func.cls, List.zipWith (fun (a b : String × List K) => (a.1, b.2)) n.func.params p, n.func.functionState⟩, n.rng⟩ },
      List.zipWith (fun (a b : String × List K) => (a.1, b.2)) n.func.params p, ?_, ?_, ?_, hz1.symm⟩
    · simp only [step, hd, hn, Option.bind_some, Option.map_some, setDerivedParams]
      rw [if_neg (not_not.2 hst)]
      simp only [Core.setParams]
      rw [if_neg (not_not.2 hz2)]
      rfl
    · rw [← viewShows]
      simp only [view]
      rw [get_set hd, Option.bind_some]
      simp only
      rw [get_set hn, Option.map_some]
      simp only [derivedParams, hz1, h.1]
    · rw [← viewShows]
      simp only [view]
      rw [get_set hn, Option.map_some]
  · intro h
    refine ⟨{ w with derived := w.derived.set j d, nets := w.nets.set d.q n }, ?_, ?_⟩
    · simp only [step, hd, hn, Option.bind_some, Option.map_some, setDerivedParams]
      rw [if_pos (show structure_ ((name, [x]) :: p) ≠ structure_ (derivedParams d n.func.params) from h)]
      rfl
    · intro f v
      have e1 : w.derived.set j d = w.derived := set_self hd
      have e2 : w.nets.set d.q n = w.nets := set_self hn
      rw [e1, e2]

/-! ### ClippedDoubleQLearning -/

theorem ite_ok {α : Type _} {c : Prop} [Decidable c] {e : Err} {x u : α} : (if c then (.error e : Except Err α) else .ok x) = .ok u ↔ ¬ c ∧ u = x := by
  by_cases h : c <;> simp [h, eq_comm]

/-- C120.  What the constructor of `ClippedDoubleQLearning` accepts: at least two target q-functions for discrete actions; otherwise target policies, and at least two pairs of a target
policy and a target q-function. -/
theorem C120_clipped (discrete : Bool) (q : Nat) (piTargs : Option (List Fn)) (qTargs : Option (List Nat)) (reg : Option Fn) (u : Wiring) :
    clippedInit discrete q piTargs qTargs reg = .ok u ↔
      ∃ qs ps, qTargs = some qs ∧ ps = piTargs.getD [] ∧ u = .clipped q ps qs reg ∧ (discrete = true → 2 ≤ qs.length) ∧ (discrete = false → 2 ≤ qs.length * ps.length) := by
  cases qTargs with
  | none => unfold clippedInit; split_ifs <;> simp
  | some qs =>
    cases qs with
    | nil =>
      unfold clippedInit
      split_ifs <;> simp
    | cons a qs =>
      cases discrete with
      | true =>
        simp only [clippedInit, Bool.true_eq_false, false_and, if_false, if_true, ite_ok]
        constructor
        · rintro ⟨h, rfl⟩; exact ⟨_, _, rfl, rfl, rfl, fun _ => (by omega), fun h => absurd h not_false⟩
        · rintro ⟨_, _, h, rfl, rfl, h2, -⟩
          cases h
          exact ⟨by have := h2 trivial; omega, rfl⟩
      | false =>
        cases piTargs with
        | none => simp [clippedInit]
        | some ps =>
          cases ps with
          | nil => simp [clippedInit]
          | cons b ps =>
            simp only [clippedInit, Option.some.injEq, reduceCtorEq, and_false, if_false, Bool.false_eq_true, Option.getD_some, ite_ok]
            constructor
            · rintro ⟨h, rfl⟩; exact ⟨_, _, rfl, rfl, rfl, fun h => absurd h not_false, fun _ => by omega⟩
            · rintro ⟨_, _, rfl, rfl, rfl, -, h2⟩
              exact ⟨by have := h2 trivial; omega, rfl⟩

/-- C120 is false of `doc/examples/stubs/td3.py:40-43`, which is made for continuous actions: both updaters are constructed without target policies, and that raises TypeError. -/
theorem C120_td3_counterexample (q q1Targ q2Targ : Nat) : clippedInit false q none (some [q1Targ, q2Targ]) none = .error .typeError := rfl

/-! ### Examples -/

/-- An updater that moves the params half way to those of the (first) target. -/
def halfWay (u : Wiring) : UpdaterObj ℚ Nat Nat where
  wiring := u
  optState := []
  compute := fun g b => .ok ([("w", [some (((g.targets.targ.headD []).headD ("w", [])).2.headD 0)])], g.functionState, b)
  applyGrads := fun o p gr => match p, gr with
    | [(k, [x])], [(_, [some y])] => .ok (o, [(k, [(x + y) / 2])])
    | _, _ => .error .valueError
  checksOpt := true

def netOf (x : ℚ) : Net ℚ Nat := ⟨⟨0, [("w", [x])], []⟩, Rng.ofSeed 7⟩

/-- A q-function (0), its target (1), an epsilon-greedy policy and an updater. -/
def dqnWorld : World ℚ Nat Nat Nat := ⟨[netOf 1, netOf 5], [⟨.epsilonGreedy, 0, 1⟩], [halfWay (.tdQPi 0 none (some 1) none)]⟩

example : DqnIn dqnWorld 0 0 0 1 ⟨netOf 1, netOf 5, halfWay (.tdQPi 0 none (some 1) none)⟩ := ⟨rfl, rfl, rfl, rfl, 1, rfl⟩

/-- Two steps, with a synchronisation in the first: the q-function goes from 1 to 3, the target from 5 to 4, the q-function to 7/2; the second action is chosen by the weights 3. -/
example : ∃ w' outs, run (fun a b => decide (a = b)) dqnWorld ([((1 : ℚ) / 2, 3, true), (1 / 4, 4, false)].flatMap (dqnOps 0 0 0 1 (1 / 2))) = some (w', outs) ∧ AllFine outs ∧
    w'.nets.map (fun n => n.func.params) = [[("w", [7 / 2])], [("w", [4])]] ∧ Out.used [("epsilon", [1 / 4]), ("q/w", [3])] [] (.snd (.fst (.fst (.root 7)))) ∈ outs := by
  refine ⟨_, _, rfl, ?_, ?_, ?_⟩
  · intro e he
    simp [halfWay, hasNaN, updateWith, TD.applyGrads, netOf, dqnWorld, derivedParams, Out.ofUnit, Core.softUpdate, softUpdateFunc, mixLeaf, Core.setParams, Core.setFunctionState, structure_,
      afterUse] at he
  · norm_num [mkTargets, Wiring.trains, Out.ofUnit, halfWay, hasNaN, updateWith, TD.applyGrads, netOf, dqnWorld, Core.softUpdate, softUpdateFunc, mixLeaf, Core.setParams, Core.setFunctionState, structure_]
  · norm_num [show ("q/" ++ "w") = "q/w" from rfl, mkTargets, Wiring.trains, Out.ofUnit, halfWay, hasNaN, updateWith, TD.applyGrads, netOf, dqnWorld, derivedParams, Kind.label, Rng.rng, Key.split, Rng.ofSeed, Core.softUpdate, softUpdateFunc, mixLeaf, Core.setParams,
      Core.setFunctionState, structure_]

/-- The program never writes to the target network (1), so that `C120_target_fixed` applies, although it trains the q-function. -/
example : ∃ w' outs, run (fun a b => decide (a = b)) dqnWorld [.update 0 3, .copy 0, .update 0 2, .use (.derived 0)] = some (w', outs) ∧
    (∀ op ∈ [.update 0 3, .copy 0, .update 0 2, .use (.derived 0)], ¬ Writes w' op 1) ∧ w'.nets.map (fun n => n.func.params) = [[("w", [4])], [("w", [5])], [("w", [3])]] := by
  refine ⟨_, _, rfl, ?_, ?_⟩
  · intro op hop hw
    simp only [List.mem_cons, List.not_mem_nil, or_false] at hop
    rcases hop with rfl | rfl | rfl | rfl
    · cases hw with
      | update k u b i hu ht =>
        simp [updateWith, dqnWorld, halfWay, hasNaN, netOf, TD.applyGrads, structure_] at hu
        subst hu
        cases ht
    · cases hw
    · cases hw with
      | update k u b i hu ht =>
        simp [updateWith, dqnWorld, halfWay, hasNaN, netOf, TD.applyGrads, structure_] at hu
        subst hu
        cases ht
    · cases hw
  · norm_num [mkTargets, Wiring.trains, Out.ofUnit, halfWay, hasNaN, updateWith, TD.applyGrads, netOf, dqnWorld, structure_]

/-- The networks of DDPG. -/
def ddpgWorld : World ℚ Nat Nat Nat :=
  ⟨[netOf 1, netOf 2, netOf 5, netOf 6], [], [halfWay (.tdQPi 0 (some (.net 3)) (some 2) none), halfWay (.deterministicPG 1 0)]⟩

example : DdpgIn ddpgWorld 0 1 0 1 2 3 ⟨netOf 1, netOf 2, netOf 5, netOf 6, halfWay (.tdQPi 0 (some (.net 3)) (some 2) none), halfWay (.deterministicPG 1 0)⟩ :=
  ⟨rfl, rfl, rfl, rfl, rfl, rfl, rfl, rfl⟩

/-- The q-function goes from 1 to 3 (half way to its target 5), the policy from 2 to 5/2 (half way to the new q-function), and the targets half way to the new networks. -/
example : ∃ w' outs, run (fun a b => decide (a = b)) ddpgWorld (ddpgOps 0 1 0 1 2 3 (1 / 2) 4 true) = some (w', outs) ∧ AllFine outs ∧
    w'.nets.map (fun n => n.func.params) = [[("w", [3])], [("w", [5 / 2])], [("w", [4])], [("w", [17 / 4])]] := by
  refine ⟨_, _, rfl, ?_, ?_⟩
  · intro e he
    simp [halfWay, hasNaN, updateWith, TD.applyGrads, netOf, ddpgWorld, Out.ofUnit, Core.softUpdate, softUpdateFunc, mixLeaf, Core.setParams, Core.setFunctionState, structure_] at he
  · norm_num [mkTargets, Wiring.trains, Out.ofUnit, halfWay, hasNaN, updateWith, TD.applyGrads, netOf, ddpgWorld, Core.softUpdate, softUpdateFunc, mixLeaf, Core.setParams, Core.setFunctionState, structure_]

example : clippedInit false 0 (some [.net 4]) (some [2, 3]) none = .ok (.clipped 0 [.net 4] [2, 3] none) := rfl

end Coax.Agent
