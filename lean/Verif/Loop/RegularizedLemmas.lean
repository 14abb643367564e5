import Verif.Loop.Regularized
import Verif.Loop.LookaheadProps
import Verif.Policy.RegularizersProps

/-! Lemmas for C147: an update with a regularizer is an update without it from other rewards. -/

namespace Coax.Loop

open Coax.RewardTracing Coax.TD Coax.Core Coax.Values Coax.Pol Filter Topology MeasureTheory

variable {σ : Type _} {n m : Nat}

/-- The same transition with another reward. -/
def payRow (f : σ → ℝ) (o : Out σ (Fin n) ℝ) : Out σ (Fin n) ℝ := { o with Rn := o.Rn + f o.S }

/-- The same step with another reward. -/
def payStep (f : σ → ℝ) (x : Step σ (Fin n) ℝ) : Step σ (Fin n) ℝ := { x with r := x.r + f x.s }

/-- The regularizer has the value `-f s` in each state. -/
def Pays (reg : List (Out σ (Fin n) ℝ) → Except Err (List ℝ)) (f : σ → ℝ) : Prop := ∀ rows, reg rows = .ok (rows.map fun o => -f o.S)

/-- The target is the target for other rewards plus the difference of the rewards. -/
def Additive (updateRule : QFn (σ → Fin n → ℝ) σ (List ℝ) → QFn (σ → Fin n → ℝ) σ (List ℝ) → TBatch σ (List ℝ) → Except Err (List ℝ)) : Prop :=
  ∀ type1 θQ θT b c, b.Rn.length = c.length →
    (∀ G, updateRule (tabular type1 θQ) (tabular type1 θT) b = .ok G → G.length = c.length) ∧
    updateRule (tabular type1 θQ) (tabular type1 θT) { b with Rn := List.zipWith (· + ·) b.Rn c } = (updateRule (tabular type1 θQ) (tabular type1 θT) b).map fun G => List.zipWith (· + ·) G c

theorem zip_pay (R I Q c : List ℝ) (h : R.length = c.length) (hq : R.length = Q.length) (hi : I.length = Q.length) :
    List.zipWith (fun ri q => id (ri.1 + ri.2 * id q)) ((List.zipWith (· + ·) R c).zip I) Q = List.zipWith (· + ·) (List.zipWith (fun ri q => id (ri.1 + ri.2 * id q)) (R.zip I) Q) c := by
  apply List.ext_getElem
  · simp; omega
  · intro i h1 h2
    simp
    ring

theorem backup_pay {α : Type _} (b : TBatch σ α) (Q c : List ℝ) (h : b.Rn.length = c.length) :
    (∀ G, backup id id b Q = .ok G → G.length = c.length) ∧ backup id id { b with Rn := List.zipWith (· + ·) b.Rn c } Q = (backup id id b Q).map fun G => List.zipWith (· + ·) G c := by
  unfold backup
  have hl : (List.zipWith (· + ·) b.Rn c).length = b.Rn.length := by simp; omega
  rw [show ({ b with Rn := List.zipWith (· + ·) b.Rn c } : TBatch σ α).Rn = List.zipWith (· + ·) b.Rn c from rfl, hl]
  by_cases hc : b.Rn.length = Q.length ∧ b.In.length = Q.length
  · rw [if_pos hc, if_pos hc]
    refine ⟨?_, ?_⟩
    · rintro G ⟨⟩
      simp; omega
    · exact congrArg Except.ok (zip_pay _ _ _ _ h hc.1 hc.2)
  · rw [if_neg hc, if_neg hc]
    exact ⟨fun G hG => (nomatch hG), rfl⟩

theorem additive_sarsa : Additive (σ := σ) (n := n) (sarsa n) := by
  intro type1 θQ θT b c h
  unfold sarsa
  dsimp only
  cases functionType1 n ((tabular type1 θT).forward (tabular type1 θT).params) b.S_next b.A_next with
  | error e => exact ⟨fun G hG => (nomatch hG), rfl⟩
  | ok Q => exact backup_pay b Q c h

theorem additive_expectedSarsa (logits : List σ → List (List ℝ)) : Additive (σ := σ) (n := n) (fun q qTarg => expectedSarsa n logits q qTarg) := by
  intro type1 θQ θT b c h
  dsimp only
  unfold expectedSarsa
  dsimp only
  cases functionType1 n ((tabular type1 θT).forward (tabular type1 θT).params) b.S_next ((logits b.S_next).map softmax) with
  | error e => exact ⟨fun G hG => (nomatch hG), rfl⟩
  | ok Q => exact backup_pay b Q c h

theorem additive_qLearning : Additive (σ := σ) (n := n) (qLearning n) := by
  intro type1 θQ θT b c h
  unfold qLearning
  dsimp only
  cases functionType2 n ((tabular type1 θT).forward (tabular type1 θT).params) b.S_next with
  | error e => exact ⟨fun G hG => (nomatch hG), rfl⟩
  | ok Q_s =>
    dsimp only
    cases TD.greedy n Q_s with
    | error e => exact ⟨fun G hG => (nomatch hG), rfl⟩
    | ok A =>
      dsimp only
      cases functionType1 n ((tabular type1 θQ).forward (tabular type1 θT).params) b.S_next A with
      | error e => exact ⟨fun G hG => (nomatch hG), rfl⟩
      | ok Q => exact backup_pay b Q c h

theorem additive_doubleQLearning : Additive (σ := σ) (n := n) (doubleQLearning n) := by
  intro type1 θQ θT b c h
  unfold doubleQLearning
  dsimp only
  cases functionType2 n ((tabular type1 θT).forward (tabular type1 θT).params) b.S_next with
  | error e => exact ⟨fun G hG => (nomatch hG), rfl⟩
  | ok Q_s =>
    dsimp only
    cases TD.greedy n Q_s with
    | error e => exact ⟨fun G hG => (nomatch hG), rfl⟩
    | ok A =>
      dsimp only
      cases functionType1 n ((tabular type1 θQ).forward (tabular type1 θQ).params) b.S_next A with
      | error e => exact ⟨fun G hG => (nomatch hG), rfl⟩
      | ok Q => exact backup_pay b Q c h

theorem detLoss_pay (L : LossFn) (T : Except Err (List ℝ)) (c V VT W : List ℝ) (h : ∀ G, T = .ok G → G.length = c.length) :
    detLoss L (some (.ok (c.map fun x => -x))) T V VT W = detLoss L none (T.map fun G => List.zipWith (· + ·) G c) V VT W := by
  cases T with
  | error e => rfl
  | ok G =>
    have hl := h G rfl
    have : List.zipWith (fun g x => g - x) G (c.map fun x => -x) = List.zipWith (· + ·) G c := by
      apply List.ext_getElem
      · simp
      · intro i h1 h2
        simp
    have hb : broadcast (fun g x => g - x) G (c.map fun x => -x) = .ok (List.zipWith (· + ·) G c) := by
      unfold broadcast
      rw [if_pos (by simpa using hl), this]
    unfold detLoss
    dsimp only [subtractReg, Except.map]
    rw [hb]

theorem toVBatch_pay (f : σ → ℝ) (rows : List (Out σ (Fin n) ℝ)) :
    toVBatch (rows.map (payRow f)) = (toVBatch rows).map fun b => { b with Rn := List.zipWith (· + ·) b.Rn (rows.map fun o => f o.S) } := by
  unfold toVBatch
  have h1 : (rows.map (payRow f)).mapM (fun o => o.S_next) = rows.mapM fun o => o.S_next := by
    rw [List.mapM_map]; rfl
  rw [h1]
  cases rows.mapM fun o => o.S_next with
  | none => rfl
  | some S => simp [Except.map, payRow, List.zipWith_map, List.zipWith_self, Function.comp_def]

theorem toTBatch_pay (f : σ → ℝ) (rows : List (Out σ (Fin n) ℝ)) :
    toTBatch id (fun a : Fin n => oneHot n a) (rows.map (payRow f)) = (toTBatch id (fun a : Fin n => oneHot n a) rows).map fun b => { b with Rn := List.zipWith (· + ·) b.Rn (rows.map fun o => f o.S) } := by
  unfold toTBatch
  have h1 : (rows.map (payRow f)).mapM (fun o => o.S_next) = rows.mapM fun o => o.S_next := by
    rw [List.mapM_map]; rfl
  have h2 : (rows.map (payRow f)).mapM (fun o => o.A_next) = rows.mapM fun o => o.A_next := by
    rw [List.mapM_map]; rfl
  rw [h1, h2]
  cases rows.mapM fun o => o.S_next with
  | none => rfl
  | some S =>
    cases rows.mapM fun o => o.A_next with
    | none => rfl
    | some A => simp [Except.map, payRow, List.zipWith_map, List.zipWith_self, Function.comp_def]

theorem toVBatch_length {rows : List (Out σ (Fin n) ℝ)} {b : TBatch σ Unit} (h : toVBatch rows = .ok b) : b.Rn.length = rows.length := by
  unfold toVBatch at h
  split at h
  · cases h; simp
  · cases h

theorem toTBatch_length {rows : List (Out σ (Fin n) ℝ)} {b : TBatch σ (List ℝ)} (h : toTBatch id (fun a : Fin n => oneHot n a) rows = .ok b) : b.Rn.length = rows.length := by
  unfold toTBatch at h
  split at h
  · cases h; simp
  · cases h

theorem tableLossV_pay {reg : List (Out σ (Fin n) ℝ) → Except Err (List ℝ)} {f : σ → ℝ} (hreg : Pays reg f) (L : LossFn) (rows : List (Out σ (Fin n) ℝ)) (θT θV θ : σ → ℝ) :
    tableLossVReg L reg rows θT θV θ = tableLossV L (rows.map (payRow f)) θT θV θ := by
  unfold tableLossVReg tableLossV
  rw [toVBatch_pay, hreg rows]
  cases hb : toVBatch rows with
  | error e => rfl
  | ok b =>
    have hl := toVBatch_length hb
    have h := backup_pay b ((tabularV θT).forward (tabularV θT).params b.S_next) (rows.map fun o => f o.S) (by simpa using hl)
    have h1 := detLoss_pay L (simpleTD (tabularV θV) (tabularV θT) b) (rows.map fun o : Out σ (Fin n) ℝ => f o.S) ((rows.map fun o : Out σ (Fin n) ℝ => o.S).map θ) ((rows.map fun o : Out σ (Fin n) ℝ => o.S).map θT) (rows.map fun o : Out σ (Fin n) ℝ => o.W) h.1
    have h2 : simpleTD (tabularV θV) (tabularV θT) { b with Rn := List.zipWith (· + ·) b.Rn (rows.map fun o => f o.S) } =
        (simpleTD (tabularV θV) (tabularV θT) b).map fun G => List.zipWith (· + ·) G (rows.map fun o => f o.S) := h.2
    simp only [Except.map, List.map_map, Function.comp_def, payRow] at h1 h2 ⊢
    rw [h1, h2]

theorem tableLoss_pay {reg : List (Out σ (Fin n) ℝ) → Except Err (List ℝ)} {f : σ → ℝ} (hreg : Pays reg f) {updateRule} (ha : Additive updateRule) (L : LossFn) (type1 : Bool) (rows : List (Out σ (Fin n) ℝ)) (θT θQ θ : σ → Fin n → ℝ) :
    tableLossReg L reg updateRule type1 rows θT θQ θ = tableLoss L updateRule type1 (rows.map (payRow f)) θT θQ θ := by
  unfold tableLossReg tableLoss
  rw [toTBatch_pay, hreg rows]
  cases hb : toTBatch id (fun a : Fin n => oneHot n a) rows with
  | error e => rfl
  | ok b =>
    have hl := toTBatch_length hb
    have h := ha type1 θQ θT b (rows.map fun o => f o.S) (by simpa using hl)
    have e1 : (rows.map (payRow f)).map (·.S) = rows.map (·.S) := by simp [payRow, Function.comp_def]
    have e2 : ((rows.map (payRow f)).map fun o => oneHot n o.A) = rows.map fun o => oneHot n o.A := by simp [payRow, Function.comp_def]
    have e3 : (rows.map (payRow f)).map (·.W) = rows.map (·.W) := by simp [payRow, Function.comp_def]
    have e4 : (rows.map fun o => -f o.S) = (rows.map fun o => f o.S).map fun x => -x := by simp [Function.comp_def]
    rw [e1, e2, e3, e4]
    simp only [Except.map]
    cases functionType1 n (table type1 θ) (rows.map (·.S)) (rows.map fun o => oneHot n o.A) with
    | error e => rfl
    | ok Q =>
      cases functionType1 n (table type1 θT) (rows.map (·.S)) (rows.map fun o => oneHot n o.A) with
      | error e => rfl
      | ok QT =>
        dsimp only
        rw [detLoss_pay _ _ _ _ _ _ h.1, h.2]

section
variable [DecidableEq σ]

theorem sgdUpdateV_pay {reg : List (Out σ (Fin n) ℝ) → Except Err (List ℝ)} {f : σ → ℝ} (hreg : Pays reg f) (lr : ℝ) (L : LossFn) (θT θ : σ → ℝ) (rows : List (Out σ (Fin n) ℝ)) :
    sgdUpdateVReg lr L reg θT θ rows = sgdUpdateV lr L θT θ (rows.map (payRow f)) := by
  unfold sgdUpdateVReg sgdUpdateV
  simp only [tableLossV_pay hreg]
  cases tableLossV L (rows.map (payRow f)) θT θ θ <;> rfl

theorem sgdUpdate_pay {reg : List (Out σ (Fin n) ℝ) → Except Err (List ℝ)} {f : σ → ℝ} (hreg : Pays reg f) {updateRule} (ha : Additive updateRule) (lr : ℝ) (L : LossFn) (type1 : Bool) (θT θ : σ → Fin n → ℝ) (rows : List (Out σ (Fin n) ℝ)) :
    sgdUpdateReg lr L reg updateRule type1 θT θ rows = sgdUpdate lr L updateRule type1 θT θ (rows.map (payRow f)) := by
  unfold sgdUpdateReg sgdUpdate
  simp only [tableLoss_pay hreg ha]
  cases tableLoss L updateRule type1 (rows.map (payRow f)) θT θ θ <;> rfl

end

/-! ### The loop -/

/-- The tracer with other rewards in it. -/
def payTracer (f : σ → ℝ) (t : NStep σ (Fin n) ℝ) : NStep σ (Fin n) ℝ := { t with dequeR := List.zipWith (fun q r => r + f q.1) t.dequeS t.dequeR }

/-- A tracer for one step. -/
structure OneStep (t : NStep σ (Fin n) ℝ) : Prop where
  n_eq : t.n = 1
  gammas : t.gammas = [1]
  plain : t.recordExtraInfo = false
  same : t.dequeS.length = t.dequeR.length

theorem OneStep.add {t : NStep σ (Fin n) ℝ} (h : OneStep t) (f : σ → ℝ) (x : Step σ (Fin n) ℝ) (d : Bool) : OneStep (t.add x d).1 ∧ (payTracer f t).add (payStep f x) d = (payTracer f (t.add x d).1, (t.add x d).2) := by
  unfold NStep.add NStep.len
  have e : ((payTracer f t).done && decide ((payTracer f t).dequeS.length ≠ 0)) = (t.done && decide (t.dequeS.length ≠ 0)) := rfl
  rw [e]
  split
  · exact ⟨h, rfl⟩
  · refine ⟨⟨h.n_eq, h.gammas, h.plain, by simp [h.same]⟩, ?_⟩
    simp only [payTracer, payStep, Prod.mk.injEq, and_true]
    rw [List.zipWith_append h.same]
    rfl

theorem OneStep.pop {t : NStep σ (Fin n) ℝ} (h : OneStep t) (f : σ → ℝ) : OneStep t.pop.1 ∧ (payTracer f t).pop = (payTracer f t.pop.1, t.pop.2.map (payRow f)) := by
  obtain ⟨N, gamma, rec_, dS, dR, dn, gs, gn⟩ := t
  obtain ⟨rfl, rfl, rfl, same⟩ := h
  simp only at same
  cases dS with
  | nil =>
    have : (⟨1, gamma, false, [], dR, dn, [1], gn⟩ : NStep σ (Fin n) ℝ).pop = (⟨1, gamma, false, [], dR, dn, [1], gn⟩, .error .insufficientCache) := by simp [NStep.pop, NStep.bool, NStep.len]
    rw [this]
    refine ⟨⟨rfl, rfl, rfl, same⟩, ?_⟩
    simp [NStep.pop, NStep.bool, NStep.len, payTracer, Except.map]
  | cons q dS =>
    obtain ⟨s, a, logp, w⟩ := q
    cases dR with
    | nil => simp at same
    | cons r dR =>
      have same' : dS.length = dR.length := by simpa using same
      cases hb : (⟨1, gamma, false, (s, a, logp, w) :: dS, r :: dR, dn, [1], gn⟩ : NStep σ (Fin n) ℝ).bool with
      | false =>
        have hb' : (payTracer f ⟨1, gamma, false, (s, a, logp, w) :: dS, r :: dR, dn, [1], gn⟩ : NStep σ (Fin n) ℝ).bool = false := hb
        unfold NStep.pop
        rw [if_pos hb, if_pos hb']
        exact ⟨⟨rfl, rfl, rfl, same⟩, rfl⟩
      | true =>
        have hb' : (payTracer f ⟨1, gamma, false, (s, a, logp, w) :: dS, r :: dR, dn, [1], gn⟩ : NStep σ (Fin n) ℝ).bool = true := hb
        unfold NStep.pop
        rw [if_neg (by rw [hb]; simp), if_neg (by rw [hb']; simp)]
        cases dS with
        | nil =>
          cases dR with
          | cons => simp at same'
          | nil =>
            simp [payTracer, NStep.len, fromSingle]
            refine ⟨⟨rfl, rfl, rfl, rfl⟩, ?_⟩
            split_ifs <;> simp [Except.map, payRow]
        | cons q' dS =>
          obtain ⟨s', a', logp', w'⟩ := q'
          cases dR with
          | nil => simp at same'
          | cons r' dR =>
            simp [payTracer, NStep.len, fromSingle]
            refine ⟨⟨rfl, rfl, rfl, same'⟩, ?_⟩
            split_ifs <;> simp [Except.map, payRow]

variable {Θ : Type _} {update update' : ℕ → Θ → Out σ (Fin n) ℝ → Except Err Θ} {f : σ → ℝ}

theorem learnPopsU_pay (h : ∀ k θ o, update k θ o = update' k θ (payRow f o)) (fuel : ℕ) {t : NStep σ (Fin n) ℝ} (ht : OneStep t) (θk : Θ × ℕ) :
    learnPopsU update' fuel (payTracer f t) θk = (learnPopsU update fuel t θk).map (fun r => (payTracer f r.1, r.2)) ∧ ∀ r, learnPopsU update fuel t θk = .ok r → OneStep r.1 := by
  induction fuel generalizing t θk with
  | zero => exact ⟨rfl, fun r hr => (nomatch hr)⟩
  | succ fuel ih =>
    obtain ⟨θ, k⟩ := θk
    obtain ⟨hp, hpop⟩ := ht.pop f
    unfold learnPopsU
    have hb : (payTracer f t).bool = t.bool := rfl
    rw [hb, hpop]
    split
    · exact ⟨rfl, fun r hr => by cases hr; exact ht⟩
    · revert hp
      generalize t.pop = p
      obtain ⟨t', r⟩ := p
      intro hp
      cases r with
      | error e => exact ⟨rfl, fun r hr => (nomatch hr)⟩
      | ok o =>
        simp only [Except.map]
        rw [h k θ o]
        cases update' k θ (payRow f o) with
        | error e => exact ⟨rfl, fun r hr => (nomatch hr)⟩
        | ok θ' => exact ih hp (θ', k + 1)

theorem onlineU_pay (h : ∀ k θ o, update k θ o = update' k θ (payRow f o)) (xs : List (Step σ (Fin n) ℝ × Bool)) {t : NStep σ (Fin n) ℝ} (ht : OneStep t) (θk : Θ × ℕ) :
    onlineU update' (payTracer f t, θk) (xs.map fun x => (payStep f x.1, x.2)) = (onlineU update (t, θk) xs).map fun r => (payTracer f r.1, r.2) := by
  induction xs generalizing t θk with
  | nil => rfl
  | cons x xs ih =>
    obtain ⟨x, d⟩ := x
    obtain ⟨ha, hadd⟩ := ht.add f x d
    rw [List.map_cons]
    unfold onlineU
    dsimp only
    rw [hadd]
    revert ha
    generalize t.add x d = p
    obtain ⟨t', r⟩ := p
    intro ha
    cases r with
    | some e => rfl
    | none =>
      dsimp only
      have hl := learnPopsU_pay h (t'.len + 1) ha θk
      rw [show (payTracer f t').len = t'.len from rfl, hl.1]
      cases hr : learnPopsU update (t'.len + 1) t' θk with
      | error e => rfl
      | ok r =>
        obtain ⟨t'', θk'⟩ := r
        exact ih (hl.2 _ hr) θk'

theorem oneStep_init (gamma : ℝ) : OneStep (NStep.init 1 gamma false : NStep σ (Fin n) ℝ) := ⟨rfl, by simp [NStep.init, NStep.reset], rfl, rfl⟩

end Coax.Loop
