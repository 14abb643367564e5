import Verif.Wrappers.TrainMonitorProps

/-! Property C37 (`TrainMonitor.period`) and the metrics part of C38. -/

namespace Coax.TrainMonitor

open Coax.Dicts

set_option linter.unusedSectionVars false

variable {K A S X : Type _} [Field K] [LinearOrder K] [IsStrictOrderedRing K]

/-! ### Specification of `period` -/

/-- How often `period` has fired, per name, because of `T_period` and because of `ep_period`. -/
structure Fired where
  T : String → Nat
  ep : String → Nat

/-- The next firing is due: with `f` firings so far, a counter of `c` and period `k`. -/
def Due (f : Nat) (k : Option Int) (c : Nat) : Prop := ∃ j : Int, k = some j ∧ (f + 1 : Int) * j ≤ c

instance (f : Nat) (k : Option Int) (c : Nat) : Decidable (Due f k c) :=
  match k with
  | none => .isFalse (by rintro ⟨j, hj, _⟩; cases hj)
  | some j => if h : (f + 1 : Int) * j ≤ c then .isTrue ⟨j, rfl, h⟩ else .isFalse (by rintro ⟨j', hj, h'⟩; cases hj; exact h h')

/-- The specification of one call of `period`: the `T` schedule goes first. -/
def specPeriod (f : Fired) (T ep : Nat) (name : String) (kT kep : Option Int) : Fired × Bool :=
  if Due (f.T name) kT T then (⟨Function.update f.T name (f.T name + 1), f.ep⟩, true)
  else if Due (f.ep name) kep ep then (⟨f.T, Function.update f.ep name (f.ep name + 1)⟩, true)
  else (f, false)

/-- The periods passed are positive. -/
def Pos (k : Option Int) : Prop := ∀ j, k = some j → 0 < j

/-- Any history of calls, with the numbers of firings according to the specification. -/
inductive PTrace (S X : Type _) : Fired → Mon K A → Prop
  | new {s : K} : PTrace S X ⟨fun _ => 0, fun _ => 0⟩ (new s)
  | resetGlobal {f m} : PTrace S X f m → PTrace S X ⟨fun _ => 0, fun _ => 0⟩ m.resetGlobal
  | other {f m} {op : Op K A S X} : PTrace S X f m → (∀ name kT kep, op ≠ .period name kT kep) → op ≠ .resetGlobal → PTrace S X f (m.apply op)
  | period {f m name kT kep} : PTrace S X f m → Pos kT → Pos kep →
      PTrace S X (specPeriod f m.T m.ep name kT kep).1 (m.period name kT kep).1
  | rejected {f m name kT kep e} : PTrace S X f m → (m.period name kT kep).2 = .error e → PTrace S X f (m.period name kT kep).1

/-- The phase counts stored by the monitor: one more than the number of firings, or absent before the first use. -/
def PInv (f : Fired) (m : Mon K A) : Prop :=
  (∀ name, (m.periodT.lookup name).getD 1 = f.T name + 1) ∧ (∀ name, (m.periodEp.lookup name).getD 1 = f.ep name + 1)

/-! ### Lemmas -/

theorem apply_period_same {m : Mon K A} {op : Op K A S X} (h1 : ∀ name kT kep, op ≠ .period name kT kep) (h2 : op ≠ .resetGlobal) :
    (m.apply op).periodT = m.periodT ∧ (m.apply op).periodEp = m.periodEp := by
  cases op with
  | resetGlobal => exact absurd rfl h2
  | reset inner => exact ⟨rfl, rfl⟩
  | step a u i inner =>
    cases inner with
    | error e => exact ⟨rfl, rfl⟩
    | ok res =>
      simp only [Mon.apply, Mon.step]
      split
      · split <;> split <;> exact ⟨rfl, rfl⟩
      · exact ⟨rfl, rfl⟩
  | recordMetrics ms => cases ms <;> exact ⟨rfl, rfl⟩
  | period name kT kep => exact absurd rfl (h1 name kT kep)

theorem ensure_lookup {d : List (String × Nat)} {name : String} {c : Nat} (h : (d.lookup name).getD 1 = c) :
    (if (d.lookup name).isNone then setItem d name 1 else d).lookup name = some c ∧
      ∀ n', ((if (d.lookup name).isNone then setItem d name 1 else d).lookup n').getD 1 = (d.lookup n').getD 1 := by
  cases hd : d.lookup name with
  | none =>
    rw [hd] at h
    simp only [Option.isNone_none, if_true]
    refine ⟨by rw [lookup_setItem, if_pos rfl]; simpa using h, ?_⟩
    intro n'
    rw [lookup_setItem]
    split
    · rename_i hn; rw [hn, hd]
      rfl
    · rfl
  | some v =>
    rw [hd] at h
    simp only [Option.isNone_some, Bool.false_eq_true, if_false]
    exact ⟨by rw [hd]; simpa using h, fun _ => by trivial⟩

theorem ite_periodT (m : Mon K A) (name : String) :
    (if (m.periodT.lookup name).isNone then { m with periodT := setItem m.periodT name 1 } else m) =
      { m with periodT := if (m.periodT.lookup name).isNone then setItem m.periodT name 1 else m.periodT } := by
  split <;> rfl

theorem ite_periodEp (m : Mon K A) (name : String) :
    (if (m.periodEp.lookup name).isNone then { m with periodEp := setItem m.periodEp name 1 } else m) =
      { m with periodEp := if (m.periodEp.lookup name).isNone then setItem m.periodEp name 1 else m.periodEp } := by
  split <;> rfl

theorem lookup_bump {d : List (String × Nat)} {f : String → Nat} (h : ∀ n, (d.lookup n).getD 1 = f n + 1) (name : String) (n : String) :
    ((setItem d name (f name + 1 + 1)).lookup n).getD 1 = Function.update f name (f name + 1) n + 1 := by
  rw [lookup_setItem]
  by_cases hn : n = name
  · subst hn; simp
  · rw [if_neg hn, Function.update_of_ne hn, h n]

theorem due_some {f : Nat} {k : Int} {c : Nat} : Due f (some k) c ↔ (c : Int) ≥ ((f + 1 : Nat) : Int) * k := by
  unfold Due
  constructor
  · rintro ⟨j, hj, h⟩; cases hj; push_cast; omega
  · intro h; push_cast at h; exact ⟨k, rfl, by omega⟩

theorem periodEpOnly_spec {f : Fired} {m : Mon K A} (h : PInv f m) (name : String) (kep : Option Int) (hk : Pos kep) :
    (m.periodEpOnly name kep).2 = .ok (decide (Due (f.ep name) kep m.ep)) ∧
    (m.periodEpOnly name kep).1.periodT = m.periodT ∧
    ∀ n, ((m.periodEpOnly name kep).1.periodEp.lookup n).getD 1 =
      (if Due (f.ep name) kep m.ep then Function.update f.ep name (f.ep name + 1) else f.ep) n + 1 := by
  cases kep with
  | none =>
    have : ¬ Due (f.ep name) none m.ep := by rintro ⟨j, hj, _⟩; cases hj
    rw [if_neg this]
    refine ⟨by simp [Mon.periodEpOnly, this], rfl, h.2⟩
  | some k =>
    have hk' := hk k rfl
    unfold Mon.periodEpOnly
    simp only [hk', not_true, if_false]
    rw [ite_periodEp]
    obtain ⟨e1, e2⟩ := ensure_lookup (h.2 name)
    generalize (if (m.periodEp.lookup name).isNone then setItem m.periodEp name 1 else m.periodEp) = d at e1 e2
    simp only [e1]
    have e3 : ∀ n, (d.lookup n).getD 1 = f.ep n + 1 := fun n => by rw [e2, h.2]
    by_cases hd : (m.ep : Int) ≥ ((f.ep name + 1 : Nat) : Int) * k
    · simp only [if_pos hd, if_pos (due_some.2 hd)]
      exact ⟨by rw [decide_eq_true (due_some.2 hd)], by trivial, lookup_bump e3 name⟩
    · have hd' : ¬ Due (f.ep name) (some k) m.ep := fun hc => hd (due_some.1 hc)
      simp only [if_neg hd, if_neg hd']
      exact ⟨by rw [decide_eq_false hd'], by trivial, e3⟩

theorem period_spec {f : Fired} {m : Mon K A} (h : PInv f m) (name : String) (kT kep : Option Int) (hT : Pos kT) (hE : Pos kep) :
    (m.period name kT kep).2 = .ok (specPeriod f m.T m.ep name kT kep).2 ∧
      PInv (specPeriod f m.T m.ep name kT kep).1 (m.period name kT kep).1 := by
  have fin : ∀ m' : Mon K A, PInv f m' → m'.ep = m.ep → ¬ Due (f.T name) kT m.T →
      (m'.periodEpOnly name kep).2 = .ok (specPeriod f m.T m.ep name kT kep).2 ∧
      PInv (specPeriod f m.T m.ep name kT kep).1 (m'.periodEpOnly name kep).1 := by
    intro m' hi hep hnd
    obtain ⟨h1, h2, h3⟩ := periodEpOnly_spec hi name kep hE
    unfold specPeriod
    rw [if_neg hnd]
    rw [hep] at h1 h3
    by_cases hd : Due (f.ep name) kep m.ep
    · rw [if_pos hd] at h3 ⊢
      refine ⟨by rw [h1]; simp [hd], ?_, h3⟩
      rw [h2]; exact hi.1
    · rw [if_neg hd] at h3 ⊢
      refine ⟨by rw [h1]; simp [hd], ?_, h3⟩
      rw [h2]; exact hi.1
  cases kT with
  | none =>
    have : ¬ Due (f.T name) none m.T := by rintro ⟨j, hj, _⟩; cases hj
    exact fin m h rfl this
  | some k =>
    have hk' := hT k rfl
    unfold Mon.period
    simp only [hk', not_true, if_false]
    rw [ite_periodT]
    obtain ⟨e1, e2⟩ := ensure_lookup (h.1 name)
    generalize (if (m.periodT.lookup name).isNone then setItem m.periodT name 1 else m.periodT) = d at e1 e2
    simp only [e1]
    have e3 : ∀ n, (d.lookup n).getD 1 = f.T n + 1 := fun n => by rw [e2, h.1]
    by_cases hd : (m.T : Int) ≥ ((f.T name + 1 : Nat) : Int) * k
    · simp only [if_pos hd]
      have hd' := due_some.2 hd
      unfold specPeriod
      rw [if_pos hd']
      exact ⟨rfl, lookup_bump e3 name, h.2⟩
    · simp only [if_neg hd]
      exact fin _ ⟨e3, h.2⟩ rfl (fun hc => hd (due_some.1 hc))

theorem rejected_inv {f : Fired} {m : Mon K A} (h : PInv f m) {name : String} {kT kep : Option Int} {e : Err}
    (he : (m.period name kT kep).2 = .error e) : PInv f (m.period name kT kep).1 ∧ e = .assertionError ∧ (¬ Pos kT ∨ ¬ Pos kep) := by
  have key : ∀ m' : Mon K A, PInv f m' → (m'.periodEpOnly name kep).2 = .error e →
      PInv f (m'.periodEpOnly name kep).1 ∧ e = .assertionError ∧ ¬ Pos kep := by
    intro m' hi he'
    by_cases hp : Pos kep
    · rw [(periodEpOnly_spec hi name kep hp).1] at he'; simp at he'
    · cases kep with
      | none => exact absurd (fun j hj => by cases hj) hp
      | some k =>
        have hk : ¬ 0 < k := fun hc => hp (fun j hj => by cases hj; exact hc)
        unfold Mon.periodEpOnly at he' ⊢
        simp only [hk, not_false_iff, if_true] at he' ⊢
        simp only [Except.error.injEq] at he'
        exact ⟨hi, he'.symm, hp⟩
  cases kT with
  | none =>
    obtain ⟨h1, h2, h3⟩ := key m h he
    exact ⟨h1, h2, .inr h3⟩
  | some k =>
    by_cases hk : 0 < k
    · unfold Mon.period at he ⊢
      simp only [hk, not_true, if_false] at he ⊢
      rw [ite_periodT] at he ⊢
      obtain ⟨e1, e2⟩ := ensure_lookup (h.1 name)
      generalize (if (m.periodT.lookup name).isNone then setItem m.periodT name 1 else m.periodT) = d at e1 e2 he
      simp only [e1] at he ⊢
      by_cases hd : (m.T : Int) ≥ ((f.T name + 1 : Nat) : Int) * k
      · simp only [if_pos hd] at he; simp at he
      · simp only [if_neg hd] at he ⊢
        obtain ⟨h1, h2, h3⟩ := key { m with periodT := d } ⟨fun n => by simp only; rw [e2, h.1], h.2⟩ he
        exact ⟨h1, h2, .inr h3⟩
    · unfold Mon.period at he ⊢
      simp only [hk, not_false_iff, if_true] at he ⊢
      simp only [Except.error.injEq] at he
      exact ⟨h, he.symm, .inl (fun hp => hk (hp k rfl))⟩

theorem PTrace.inv {f : Fired} {m : Mon K A} (h : PTrace S X f m) : PInv f m := by
  induction h with
  | new => exact ⟨fun _ => rfl, fun _ => rfl⟩
  | resetGlobal _ _ => exact ⟨fun _ => rfl, fun _ => rfl⟩
  | other _ h1 h2 ih =>
    obtain ⟨e1, e2⟩ := apply_period_same h1 h2
    exact ⟨by rw [e1]; exact ih.1, by rw [e2]; exact ih.2⟩
  | period _ hT hE ih => exact (period_spec ih _ _ _ hT hE).2
  | rejected _ he ih => exact (rejected_inv ih he).1

/-! ### C37 -/

/-- C37.  After any history, any call of `period` with positive periods returns what the specification says: `True` iff the
counter has reached `(number of earlier firings of this name for this counter + 1) · period`. -/
theorem C37_call {f : Fired} {m : Mon K A} (h : PTrace S X f m) (name : String) (kT kep : Option Int) (hT : Pos kT) (hE : Pos kep) :
    (m.period name kT kep).2 = .ok (specPeriod f m.T m.ep name kT kep).2 := (period_spec h.inv name kT kep hT hE).1

/-- C37.  A call raises only for a non-positive period, and then an `AssertionError`. -/
theorem C37_rejects {f : Fired} {m : Mon K A} (h : PTrace S X f m) {name : String} {kT kep : Option Int} {e : Err}
    (he : (m.period name kT kep).2 = .error e) : e = .assertionError ∧ (¬ Pos kT ∨ ¬ Pos kep) := (rejected_inv h.inv he).2

/-- C37.  A non-positive `T_period` is rejected. -/
theorem C37_rejects_T (m : Mon K A) (name : String) (k : Int) (kep : Option Int) (hk : k ≤ 0) :
    m.period name (some k) kep = (m, .error .assertionError) := by
  unfold Mon.period; simp only [show ¬ 0 < k by omega, not_false_iff, if_true]

/-- C37.  Calls never touch the counters of the monitor, and firings of one name leave those of other names alone. -/
theorem C37_no_interference (f : Fired) (m : Mon K A) (name : String) (kT kep : Option Int) :
    SameCounters m (m.period name kT kep).1 ∧
    ∀ n', n' ≠ name → (specPeriod f m.T m.ep name kT kep).1.T n' = f.T n' ∧ (specPeriod f m.T m.ep name kT kep).1.ep n' = f.ep n' := by
  refine ⟨period_same m name kT kep, ?_⟩
  intro n' hn
  unfold specPeriod
  split
  · exact ⟨Function.update_of_ne hn _ _, rfl⟩
  · split
    · exact ⟨rfl, Function.update_of_ne hn _ _⟩
    · exact ⟨rfl, rfl⟩

/-- The calls that do not concern the `T` schedule of `name`. -/
def Quiet (name : String) : Op K A S X → Prop
  | .resetGlobal => False
  | .period n kT _ => n ≠ name ∨ kT = none
  | _ => True

/-- `name` is used with `T_period = k` only, and each time at most `k` counts of `T` after the previous time (the first time at
most `k` counts after the start).  `fired` counts the calls that returned `True`, `last` is `T` at the last call. -/
inductive Regular (S X : Type _) (name : String) (k : Nat) : Nat → Nat → Mon K A → Prop
  | new {s : K} : Regular S X name k 0 0 (new s)
  | resetGlobal {m} : Regular S X name k 0 0 (Mon.resetGlobal m)
  | other {fired last m} {op : Op K A S X} : Regular S X name k fired last m → Quiet name op → Regular S X name k fired last (m.apply op)
  | call {fired last m m' b} : Regular S X name k fired last m → m.T ≤ last + k → m.period name (some (k : Int)) none = (m', .ok b) →
      Regular S X name k (fired + b.toNat) m.T m'

theorem T_mono (m : Mon K A) (op : Op K A S X) (h : op ≠ .resetGlobal) : m.T ≤ (m.apply op).T := by
  cases op with
  | resetGlobal => exact absurd rfl h
  | reset inner => exact Nat.le_succ _
  | step a u i inner =>
    cases inner with
    | error e => exact Nat.le_refl _
    | ok res =>
      simp only [Mon.apply, Mon.step]
      split
      · split <;> split <;> exact Nat.le_succ _
      · exact Nat.le_succ _
  | recordMetrics ms => cases ms <;> exact Nat.le_refl _
  | period name kT kep => exact (period_same m name kT kep).T.ge

theorem periodT_lookup_other (m : Mon K A) {name n : String} {kT kep : Option Int} (h : n ≠ name ∨ kT = none) :
    (m.period n kT kep).1.periodT.lookup name = m.periodT.lookup name := by
  have key : ∀ m' : Mon K A, (m'.periodEpOnly n kep).1.periodT = m'.periodT := by
    intro m'
    unfold Mon.periodEpOnly
    cases kep with
    | none => rfl
    | some k =>
      simp only
      split
      · rfl
      · rw [ite_periodEp]
        generalize (if (m'.periodEp.lookup n).isNone then setItem m'.periodEp n 1 else m'.periodEp) = d
        split
        · rfl
        · split <;> rfl
  cases kT with
  | none => exact congrArg _ (key m)
  | some k =>
    have hn : ¬ name = n := by
      rcases h with h | h
      · exact fun hc => h hc.symm
      · cases h
    unfold Mon.period
    simp only
    split
    · rfl
    · rw [ite_periodT]
      have hl : (if (m.periodT.lookup n).isNone then setItem m.periodT n 1 else m.periodT).lookup name = m.periodT.lookup name := by
        split
        · rw [lookup_setItem, if_neg hn]
        · rfl
      generalize (if (m.periodT.lookup n).isNone then setItem m.periodT n 1 else m.periodT) = d at hl
      split
      · exact hl
      · split
        · simp only; rw [lookup_setItem, if_neg hn]; exact hl
        · rw [key]; exact hl

theorem quiet_lookup (m : Mon K A) {name : String} {op : Op K A S X} (h : Quiet name op) :
    (m.apply op).periodT.lookup name = m.periodT.lookup name := by
  cases op with
  | period n kT kep => exact periodT_lookup_other m h
  | resetGlobal => exact h.elim
  | reset inner => rw [(apply_period_same (by simp) (by simp)).1]
  | step a u i inner => rw [(apply_period_same (by simp) (by simp)).1]
  | recordMetrics ms => rw [(apply_period_same (by simp) (by simp)).1]

theorem call_spec {m : Mon K A} {name : String} {k f : Nat} (hk : 0 < k) (h : (m.periodT.lookup name).getD 1 = f + 1) :
    (m.period name (some (k : Int)) none).2 = .ok (decide ((f + 1) * k ≤ m.T)) ∧
      ((m.period name (some (k : Int)) none).1.periodT.lookup name).getD 1 = f + (decide ((f + 1) * k ≤ m.T)).toNat + 1 ∧
      (m.period name (some (k : Int)) none).1.T = m.T := by
  refine ⟨?_, ?_, (period_same m name _ _).T⟩
  all_goals
    unfold Mon.period
    have hk' : (0 : Int) < k := by omega
    simp only [hk', not_true, if_false]
    rw [ite_periodT]
    obtain ⟨e1, e2⟩ := ensure_lookup h
    generalize (if (m.periodT.lookup name).isNone then setItem m.periodT name 1 else m.periodT) = d at e1 e2
    simp only [e1]
    have he : ((m.T : Int) ≥ ((f + 1 : Nat) : Int) * (k : Int)) ↔ (f + 1) * k ≤ m.T := by
      constructor
      · intro h; exact_mod_cast h
      · intro h; exact_mod_cast h
    by_cases hd : (f + 1) * k ≤ m.T
    · simp only [if_pos (he.2 hd), hd, lookup_setItem, decide_true, if_true]
      try simp
    · simp only [if_neg (fun hc => hd (he.1 hc)), hd, Mon.periodEpOnly, decide_false]
      try simp [e1]

theorem Regular.inv {name : String} {k fired last : Nat} (hk : 0 < k) {m : Mon K A} (h : Regular S X name k fired last m) :
    (m.periodT.lookup name).getD 1 = fired + 1 ∧ fired = last / k ∧ last ≤ m.T := by
  induction h with
  | new => exact ⟨rfl, by simp, Nat.le_refl _⟩
  | resetGlobal => exact ⟨rfl, by simp, Nat.le_refl _⟩
  | other _ hq ih =>
    refine ⟨by rw [quiet_lookup _ hq]; exact ih.1, ih.2.1, ih.2.2.trans (T_mono _ _ ?_)⟩
    rintro rfl; exact hq
  | call _ hgap hc ih =>
    rename_i fired last m m' b _
    obtain ⟨h1, h2, h3⟩ := ih
    obtain ⟨c1, c2, c3⟩ := call_spec hk h1
    rw [hc] at c1 c2 c3
    simp only [Except.ok.injEq] at c1
    refine ⟨by rw [c1]; exact c2, ?_, le_of_eq c3.symm⟩
    have hlo : last / k ≤ m.T / k := Nat.div_le_div_right h3
    have hhi : m.T / k ≤ last / k + 1 := by
      calc m.T / k ≤ (last + k) / k := Nat.div_le_div_right hgap
        _ = last / k + 1 := Nat.add_div_right _ hk
    have hiff : (fired + 1) * k ≤ m.T ↔ fired + 1 ≤ m.T / k := (Nat.le_div_iff_mul_le hk).symm
    rw [c1]
    by_cases hd : (fired + 1) * k ≤ m.T
    · simp only [hd, decide_true, Bool.toNat_true]; have := hiff.1 hd; omega
    · simp only [hd, decide_false, Bool.toNat_false]
      have : ¬ fired + 1 ≤ m.T / k := fun hc => hd (hiff.2 hc)
      omega

/-- C37.  When `period(name, T_period=k)` is called often enough (at least once every `k` counts), the number of calls that
returned `True` is exactly `⌊T / k⌋` for the `T` of the last call: it fires exactly once per `k` counts of `T` and never loses
phase, whatever else the monitor is used for in between. -/
theorem C37_once_per_period {name : String} {k fired last : Nat} (hk : 0 < k) {m : Mon K A} (h : Regular S X name k fired last m) :
    fired = last / k := (h.inv hk).2.1

/-- C37.  In that situation the next call returns `True` iff a multiple of `k` was reached since the last call. -/
theorem C37_fires_iff {name : String} {k fired last : Nat} (hk : 0 < k) {m : Mon K A} (h : Regular S X name k fired last m) :
    ∃ b, (m.period name (some (k : Int)) none).2 = .ok b ∧ (b = true ↔ ∃ j, last < j * k ∧ j * k ≤ m.T) := by
  obtain ⟨h1, h2, h3⟩ := h.inv hk
  refine ⟨_, (call_spec hk h1).1, ?_⟩
  simp only [decide_eq_true_eq]
  constructor
  · intro hd
    refine ⟨fired + 1, ?_, hd⟩
    rw [h2]
    have := Nat.lt_div_mul_add hk (a := last)
    rw [Nat.add_mul, Nat.one_mul]; exact this
  · rintro ⟨j, hj1, hj2⟩
    refine le_trans (Nat.mul_le_mul_right k ?_) hj2
    rw [h2]
    exact (Nat.div_lt_iff_lt_mul hk).2 hj1

/-- C37.  Whatever the calling pattern, one more call at the current `T` brings the number of firings one closer to
`⌊T / k⌋`, and never beyond: missed firings are made up one per call. -/
theorem C37_catch_up {f : Fired} {m : Mon K A} (name : String) (k : Nat) (hk : 0 < k)
    (hle : f.T name ≤ m.T / k) : (specPeriod f m.T m.ep name (some (k : Int)) none).1.T name = min (f.T name + 1) (m.T / k) := by
  unfold specPeriod
  have he : Due (f.T name) (some (k : Int)) m.T ↔ f.T name + 1 ≤ m.T / k := by
    rw [due_some, Nat.le_div_iff_mul_le hk]
    constructor
    · intro h; exact_mod_cast h
    · intro h; exact_mod_cast h
  by_cases hd : f.T name + 1 ≤ m.T / k
  · rw [if_pos (he.2 hd)]
    simp only [Function.update_self]; omega
  · rw [if_neg (fun hc => hd (he.1 hc)), if_neg (by rintro ⟨j, hj, _⟩; cases hj)]
    simp only; omega

/-- Used with `T_period = 2` after every step of an episode of three steps. -/
theorem exRegular : ∃ fired last, ∃ m : Mon ℚ Unit, Regular Unit Unit "save" 2 fired last m ∧ fired = 2 ∧ last = 4 := by
  refine ⟨_, _, _, Regular.call (b := true) (Regular.other (op := .step () 0 0 (.ok ⟨(), 5, false, false, none⟩)) (Regular.call (b := false) (Regular.other (op := .step () 0 0 (.ok ⟨(), 5, false, false, none⟩))
    (Regular.call (b := true) (Regular.other (op := .step () 0 0 (.ok ⟨(), 5, false, false, none⟩)) (Regular.other (op := .reset (.ok ())) (Regular.new (s := 10)) trivial) trivial)
      (by decide) rfl) trivial) (by decide) rfl) trivial) (by decide) rfl, ?_, ?_⟩
  · rfl
  · rfl

/-! ### C38: metrics -/

/-- The values recorded since the last `reset` or `reset_global`, in order. -/
def recorded : List (Op K A S X) → List (String × K)
  | [] => []
  | .resetGlobal :: _ => []
  | .reset _ :: _ => []
  | .recordMetrics (some ms) :: ops => recorded ops ++ ms
  | _ :: ops => recorded ops

/-- The state after the calls `ops`, the last call first. -/
def after (s : K) : List (Op K A S X) → Mon K A
  | [] => new s
  | op :: ops => (after s ops).apply op

/-- The values recorded under one name. -/
def valuesOf (l : List (String × K)) (name : String) : List K := (l.filter (fun kv => kv.1 = name)).map Prod.snd

theorem valuesOf_append (l l' : List (String × K)) (name : String) : valuesOf (l ++ l') name = valuesOf l name ++ valuesOf l' name := by
  simp [valuesOf]

/-- The stored sum and count of a name. -/
def summary (vs : List K) : Option (K × K) := if vs = [] then none else some (vs.sum, (vs.length : K))

def recordOne (d : List (String × (K × K))) (kv : String × K) : List (String × (K × K)) :=
  match d.lookup kv.1 with
  | none => setItem d kv.1 (kv.2, 1)
  | some (x, n) => setItem d kv.1 (x + kv.2, n + 1)

theorem recordOne_lookup {d : List (String × (K × K))} {l : List (String × K)} (h : ∀ n, d.lookup n = summary (valuesOf l n)) (kv : String × K) :
    ∀ n, (recordOne d kv).lookup n = summary (valuesOf (l ++ [kv]) n) := by
  intro n
  rw [valuesOf_append]
  unfold recordOne
  have hk := h kv.1
  by_cases hn : n = kv.1
  · subst hn
    have e : valuesOf [kv] kv.1 = [kv.2] := by simp [valuesOf]
    rw [e]
    cases hd : d.lookup kv.1 with
    | none =>
      rw [hd] at hk
      have : valuesOf l kv.1 = [] := by
        by_contra hc; simp [summary, hc] at hk
      simp [this, summary, lookup_setItem]
    | some p =>
      obtain ⟨x, c⟩ := p
      rw [hd] at hk
      unfold summary at hk
      split at hk
      · simp at hk
      · simp only [Option.some.injEq, Prod.mk.injEq] at hk
        rw [show (match some (x, c) with
          | none => setItem d kv.1 (kv.2, 1)
          | some (x, n) => setItem d kv.1 (x + kv.2, n + 1)) = setItem d kv.1 (x + kv.2, c + 1) from rfl]
        rw [lookup_setItem, if_pos rfl]
        unfold summary
        rw [if_neg (by simp), hk.1, hk.2]
        simp
  · have e : valuesOf [kv] n = [] := by simp [valuesOf, Ne.symm hn]
    rw [e, List.append_nil, ← h n]
    cases d.lookup kv.1 with
    | none => simp only; rw [lookup_setItem, if_neg hn]
    | some p => simp only; rw [lookup_setItem, if_neg hn]

theorem recordMany_lookup {d : List (String × (K × K))} {l : List (String × K)} (h : ∀ n, d.lookup n = summary (valuesOf l n)) (ms : List (String × K)) :
    ∀ n, (ms.foldl recordOne d).lookup n = summary (valuesOf (l ++ ms) n) := by
  induction ms generalizing d l with
  | nil => simpa using h
  | cons kv ms ih =>
    intro n
    rw [List.foldl_cons, ih (recordOne_lookup h kv)]
    simp

theorem metrics_lookup (s : K) (ops : List (Op K A S X)) : ∀ n, (after s ops).epMetrics.lookup n = summary (valuesOf (recorded ops) n) := by
  induction ops with
  | nil => intro n; rfl
  | cons op ops ih =>
    cases op with
    | resetGlobal => intro n; rfl
    | reset inner => intro n; rfl
    | step a u i inner =>
      have : ((after s ops).apply (.step a u i inner)).epMetrics = (after s ops).epMetrics := by
        cases inner with
        | error e => rfl
        | ok res =>
          simp only [Mon.apply, Mon.step]
          split
          · split <;> split <;> rfl
          · rfl
      simp only [after, recorded]
      rw [this]; exact ih
    | recordMetrics ms =>
      cases ms with
      | none => exact ih
      | some ms => exact recordMany_lookup ih ms
    | period name kT kep =>
      have key : ∀ m' : Mon K A, (m'.periodEpOnly name kep).1.epMetrics = m'.epMetrics := by
        intro m'
        unfold Mon.periodEpOnly
        cases kep with
        | none => rfl
        | some k =>
          simp only
          split
          · rfl
          · rw [ite_periodEp]
            generalize (if (m'.periodEp.lookup name).isNone then setItem m'.periodEp name 1 else m'.periodEp) = d
            split
            · rfl
            · split <;> rfl
      have : ((after s ops).apply (.period name kT kep : Op K A S X)).epMetrics = (after s ops).epMetrics := by
        simp only [Mon.apply]
        unfold Mon.period
        cases kT with
        | none => exact key _
        | some k =>
          simp only
          split
          · rfl
          · rw [ite_periodT]
            generalize (if ((after s ops).periodT.lookup name).isNone then setItem (after s ops).periodT name 1 else (after s ops).periodT) = d
            split
            · rfl
            · split
              · rfl
              · rw [key]
      simp only [after, recorded]
      rw [this]; exact ih

theorem lookup_map_snd {V W : Type _} (d : List (String × V)) (g : V → W) (n : String) :
    (d.map (fun kv => (kv.1, g kv.2))).lookup n = (d.lookup n).map g := by
  induction d with
  | nil => rfl
  | cons kv d ih =>
    rw [List.map_cons, lookup_cons', lookup_cons', ih]
    split <;> rfl

/-- C38.  After any history of calls, `get_metrics()` has an entry for exactly the names recorded since the last reset, and
the entry is the average of the values recorded under that name. -/
theorem C38_metrics (s : K) (ops : List (Op K A S X)) (name : String) :
    (after s ops).getMetrics.lookup name =
      if valuesOf (recorded ops) name = [] then none
      else some ((valuesOf (recorded ops) name).sum / ((valuesOf (recorded ops) name).length : K)) := by
  unfold Mon.getMetrics
  rw [lookup_map_snd _ (fun p : K × K => p.1 / p.2), metrics_lookup]
  unfold summary
  split <;> rfl

/-- C38.  An argument of `record_metrics` that is not a mapping raises `TypeError` and changes nothing. -/
theorem C38_metrics_rejects (m : Mon K A) : m.recordMetrics none = (m, .error .typeError) := rfl

/-- Two recordings of a metric in one episode, after one in the episode before. -/
example : (after (10 : ℚ) ([.recordMetrics (some [("loss", 4), ("kl", 1)]), .recordMetrics (some [("loss", 2)]), .reset (.ok ()),
    .recordMetrics (some [("loss", 100)])] : List (Op ℚ Unit Unit Unit))).getMetrics.lookup "loss" = some 3 := by
  rw [C38_metrics]; decide +kernel

end Coax.TrainMonitor
