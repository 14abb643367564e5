import Verif.Core.WorkerCalls
import Verif.Wrappers.PeriodProps

/-! Property C125: workers that share a parameter store share its buffer and its metrics, and exchange their states with it. -/

namespace Coax.Core

open Coax.TrainMonitor

variable {K A θ β X I V E R : Type _} 

/-! ### Specification -/

/-- Worker `r` has no store and is the store of the store … of worker `i`. -/
inductive Root (f : Fleet K A θ β) : Nat → Nat → Prop
  | self {i m} : f[i]? = some m → m.store = none → Root f i i
  | up {i j r m} : f[i]? = some m → m.store = some j → Root f j r → Root f i r

/-- The calls that the workers make. -/
inductive Call (K A θ β X I V : Type _) where
  | create (m : Member K A θ β)
  | add (i : Nat) (x : X) (adv : Option V)
  | update (i : Nat) (idx : I) (adv : Option V)
  | pull (i : Nat)
  | push (i : Nat)
  | metrics (i : Nat) (ms : List (String × K))

section
variable [Field K] [LinearOrder K]

/-- One call. -/
def Call.run (ops : BufferOps β X I (Option V)) (f : Fleet K A θ β) : Call K A θ β X I V → Except Err (Fleet K A θ β)
  | .create m => f.create m
  | .add i x adv => (f.bufferAdd ops i x adv).map Prod.fst
  | .update i idx adv => (f.bufferUpdate ops i idx adv).map Prod.fst
  | .pull i => f.pullState i
  | .push i => f.pushState i
  | .metrics i ms => (f.pushMetrics i (some ms)).map Prod.fst

/-- The states of all workers while the calls are made, one after the other. -/
inductive Runs (ops : BufferOps β X I (Option V)) : Fleet K A θ β → List (Call K A θ β X I V) → Fleet K A θ β → Prop
  | nil {f} : Runs ops f [] f
  | cons {f g h c cs} : c.run ops f = .ok g → Runs ops g cs h → Runs ops f (c :: cs) h

end

/-- Each store is older. -/
def Older (f : Fleet K A θ β) : Prop := ∀ (i : Nat) (m : Member K A θ β) (j : Nat), f[i]? = some m → m.store = some j → j < i

theorem root_unique {f : Fleet K A θ β} {i r r' : Nat} (h : Root f i r) (h' : Root f i r') : r = r' := by
  induction h generalizing r' with
  | self h1 h2 => cases h' with
    | self _ _ => rfl
    | up h3 h4 _ => rw [h1] at h3; cases h3; rw [h2] at h4; cases h4
  | up h1 h2 _ ih => cases h' with
    | self h3 h4 => rw [h1] at h3; cases h3; rw [h2] at h4; cases h4
    | up h3 h4 h5 => rw [h1] at h3; cases h3; rw [h2] at h4; cases h4; exact ih h5

theorem root_exists {f : Fleet K A θ β} (hf : Older f) (i : Nat) (hi : i < f.length) : ∃ r, Root f i r := by
  induction i using Nat.strong_induction_on with
  | _ i ih =>
    have hm : f[i]? = some f[i] := List.getElem?_eq_getElem hi
    cases hs : f[i].store with
    | none => exact ⟨i, .self hm hs⟩
    | some j =>
      have hj := hf i _ j hm hs
      obtain ⟨r, hr⟩ := ih j hj (by omega)
      exact ⟨r, .up hm hs hr⟩

theorem root_self {f : Fleet K A θ β} {i r : Nat} (h : Root f i r) : ∃ m, f[r]? = some m ∧ m.store = none := by
  induction h with
  | self h1 h2 => exact ⟨_, h1, h2⟩
  | up _ _ _ ih => exact ih

/-! ### One call -/

theorem passOn_root {ρ : Type _} {act : Member K A θ β → Except Err (Member K A θ β × ρ)} {f : Fleet K A θ β} (hf : Older f) {i r : Nat} (h : Root f i r) {m : Member K A θ β} (hm : f[r]? = some m) :
    f.passOn act i = match act m with
      | .error e => .error e
      | .ok (m', x) => .ok (f.set r m', x) := by
  induction h with
  | self h1 h2 =>
    rw [hm] at h1; cases h1
    rw [Fleet.passOn, hm]
    simp only [h2]
    cases act m with
    | error e => rfl
    | ok p => rfl
  | up h1 h2 _ ih =>
    rw [Fleet.passOn, h1]
    simp only [h2]
    rw [if_pos (hf _ _ _ h1 h2), ih hm]

theorem passOn_ok {ρ : Type _} {act : Member K A θ β → Except Err (Member K A θ β × ρ)} {f g : Fleet K A θ β} {i : Nat} {x : ρ} (hf : Older f) (h : f.passOn act i = .ok (g, x)) :
    ∃ r m m', Root f i r ∧ f[r]? = some m ∧ act m = .ok (m', x) ∧ g = f.set r m' := by
  have hi : i < f.length := by
    by_contra hc
    rw [Fleet.passOn, List.getElem?_eq_none (by omega)] at h
    cases h
  obtain ⟨r, hr⟩ := root_exists hf i hi
  obtain ⟨m, hm, -⟩ := root_self hr
  rw [passOn_root hf hr hm] at h
  cases hact : act m with
  | error e => rw [hact] at h; cases h
  | ok p =>
    obtain ⟨m', y⟩ := p
    rw [hact] at h
    simp only [Except.ok.injEq, Prod.mk.injEq] at h
    obtain ⟨rfl, rfl⟩ := h
    exact ⟨r, m, m', hr, hm, hact, rfl⟩

theorem set_self {f : Fleet K A θ β} {r : Nat} {m : Member K A θ β} (hm : f[r]? = some m) : f.set r m = f := by
  obtain ⟨hr, rfl⟩ := List.getElem?_eq_some_iff.1 hm
  exact List.set_getElem_self hr

/-- C125: calls of a worker that concern the buffer are calls of the buffer of its root, and change nothing else.  A buffer whose `add` has no parameter `Adv` does not get it. -/
theorem C125_buffer (ops : BufferOps β X I (Option V)) {f : Fleet K A θ β} (hf : Older f) {i r : Nat} (h : Root f i r) {m : Member K A θ β} (hm : f[r]? = some m) {b : β} (hb : m.buffer = some b) (x : X) (idx : I) (adv : Option V) :
    f.bufferLen ops i = .ok (f, ops.len b) ∧
    f.bufferAdd ops i x adv = (ops.add b x (if ops.takesAdv b then some adv else none)).map (fun b' => (f.set r { m with buffer := some b' }, ())) ∧
    f.bufferUpdate ops i idx adv = (ops.update b idx adv).map (fun b' => (f.set r { m with buffer := some b' }, ())) := by
  refine ⟨?_, ?_, ?_⟩
  · unfold Fleet.bufferLen
    rw [passOn_root hf h hm, hb]
    simp only [Except.ok.injEq, Prod.mk.injEq, and_true]
    exact set_self hm
  · unfold Fleet.bufferAdd
    rw [passOn_root hf h hm, hb]
    dsimp only
    generalize ops.add b x (if ops.takesAdv b then some adv else none) = res
    cases res <;> rfl
  · unfold Fleet.bufferUpdate
    rw [passOn_root hf h hm, hb]
    dsimp only
    generalize ops.update b idx adv = res
    cases res <;> rfl

/-- C125: without a buffer these calls raise. -/
theorem C125_no_buffer (ops : BufferOps β X I (Option V)) {f : Fleet K A θ β} (hf : Older f) {i r : Nat} (h : Root f i r) {m : Member K A θ β} (hm : f[r]? = some m) (hb : m.buffer = none) (x : X) (idx : I) (adv : Option V) :
    f.bufferLen ops i = .error .assertionError ∧ f.bufferAdd ops i x adv = .error .assertionError ∧ f.bufferUpdate ops i idx adv = .error .assertionError := by
  refine ⟨?_, ?_, ?_⟩
  · unfold Fleet.bufferLen; rw [passOn_root hf h hm, hb]
  · unfold Fleet.bufferAdd; rw [passOn_root hf h hm, hb]
  · unfold Fleet.bufferUpdate; rw [passOn_root hf h hm, hb]

/-- C125: `pull_state` copies the state of the store of a worker to the worker, `push_state` the other way; nothing else changes.  A worker without store cannot do this. -/
theorem C125_state {f : Fleet K A θ β} (hf : Older f) {i : Nat} {m : Member K A θ β} (hm : f[i]? = some m) :
    (m.store = none → f.pullState i = .error .assertionError ∧ f.pushState i = .error .assertionError) ∧
    ∀ j, m.store = some j → ∃ s g h, f[j]? = some s ∧ f.pullState i = .ok g ∧ f.pushState i = .ok h ∧ j ≠ i ∧
      g[i]? = some { m with state := s.state } ∧ h[j]? = some { s with state := m.state } ∧ (∀ k, k ≠ i → g[k]? = f[k]?) ∧ ∀ k, k ≠ j → h[k]? = f[k]? := by
  refine ⟨fun h => ?_, fun j hj => ?_⟩
  · simp [Fleet.pullState, Fleet.pushState, hm, h]
  · have hji := hf i m j hm hj
    have hi : i < f.length := (List.getElem?_eq_some_iff.1 hm).1
    have hs : f[j]? = some f[j] := List.getElem?_eq_getElem (by omega)
    refine ⟨_, f.set i { m with state := f[j].state }, f.set j { f[j] with state := m.state }, hs, by simp [Fleet.pullState, hm, hj, hs], by simp [Fleet.pushState, hm, hj, hs], by omega, ?_, ?_, fun k hk => ?_, fun k hk => ?_⟩
    · rw [List.getElem?_set_self hi]
    · rw [List.getElem?_set_self (by omega)]
    · rw [List.getElem?_set_ne (Ne.symm hk)]
    · rw [List.getElem?_set_ne (Ne.symm hk)]

/-! ### Many calls -/

/-- Workers stay, with their stores. -/
def Grows (f g : Fleet K A θ β) : Prop := ∀ (i : Nat) (m : Member K A θ β), f[i]? = some m → ∃ m', g[i]? = some m' ∧ m'.store = m.store

theorem grows_set {f : Fleet K A θ β} {r : Nat} {m m' : Member K A θ β} (hm : f[r]? = some m) (hs : m'.store = m.store) : Grows f (f.set r m') ∧ (Older f → Older (f.set r m')) := by
  have hr : r < f.length := (List.getElem?_eq_some_iff.1 hm).1
  constructor
  · intro i x hx
    by_cases h : i = r
    · subst h
      rw [hm] at hx; cases hx
      exact ⟨m', by rw [List.getElem?_set_self hr], hs⟩
    · exact ⟨x, by rw [List.getElem?_set_ne (Ne.symm h), hx], rfl⟩
  · intro hf i x j hx hj
    by_cases h : i = r
    · subst h
      rw [List.getElem?_set_self hr] at hx; cases hx
      exact hf i m j hm (hs ▸ hj)
    · rw [List.getElem?_set_ne (Ne.symm h)] at hx
      exact hf i x j hx hj

theorem root_grows {f g : Fleet K A θ β} (h : Grows f g) {i r : Nat} (hr : Root f i r) : Root g i r := by
  induction hr with
  | self h1 h2 => obtain ⟨m', h3, h4⟩ := h _ _ h1; exact .self h3 (h4.trans h2)
  | up h1 h2 _ ih => obtain ⟨m', h3, h4⟩ := h _ _ h1; exact .up h3 (h4.trans h2) ih

/-- What a call changes: it creates a worker, or changes one worker, but not its store. -/
inductive Change (f : Fleet K A θ β) : Fleet K A θ β → Prop
  | create (m) : (∀ j, m.store = some j → j < f.length) → Change f (f ++ [m])
  | set (r m m') : f[r]? = some m → m'.store = m.store → Change f (f.set r m')

theorem Change.facts {f g : Fleet K A θ β} (h : Change f g) : Grows f g ∧ (Older f → Older g) := by
  cases h with
  | create m hm =>
    constructor
    · intro i x hx
      have hi : i < f.length := (List.getElem?_eq_some_iff.1 hx).1
      exact ⟨x, by rw [List.getElem?_append_left hi, hx], rfl⟩
    · intro hf i x j hx hj
      by_cases hi : i < f.length
      · rw [List.getElem?_append_left hi] at hx
        exact hf i x j hx hj
      · rw [List.getElem?_append_right (by omega)] at hx
        have : i - f.length = 0 := by
          by_contra hne
          rw [List.getElem?_eq_none (by simp; omega)] at hx
          cases hx
        rw [this] at hx
        simp only [List.getElem?_cons_zero, Option.some.injEq] at hx
        subst hx
        have := hm j hj
        omega
  | set r m m' hm hs => exact grows_set hm hs

section
variable [Field K] [LinearOrder K] [IsStrictOrderedRing K]

/-- A call of worker `i` that concerns a buffer. -/
def Call.bufferOf : Call K A θ β X I V → Option Nat
  | .add i _ _ => some i
  | .update i _ _ => some i
  | _ => none

/-- What a buffer goes through: the calls of the workers whose root is `r`, in their order, and nothing else. -/
inductive Served (ops : BufferOps β X I (Option V)) (f : Fleet K A θ β) (r : Nat) : β → List (Call K A θ β X I V) → β → Prop
  | nil {b} : Served ops f r b [] b
  | add {b b' b'' i x adv cs} : Root f i r → ops.add b x (if ops.takesAdv b then some adv else none) = .ok b' → Served ops f r b' cs b'' → Served ops f r b (.add i x adv :: cs) b''
  | update {b b' b'' i idx adv cs} : Root f i r → ops.update b idx adv = .ok b' → Served ops f r b' cs b'' → Served ops f r b (.update i idx adv :: cs) b''
  | other {b b' c cs} : (∀ i, c.bufferOf = some i → ¬ Root f i r) → Served ops f r b cs b' → Served ops f r b (c :: cs) b'

/-- The values that workers with root `r` have pushed. -/
inductive Pushed (f : Fleet K A θ β) (r : Nat) : List (Call K A θ β X I V) → List (String × K) → Prop
  | nil : Pushed f r [] []
  | own {i ms cs l} : Root f i r → Pushed f r cs l → Pushed f r (.metrics i ms :: cs) (ms ++ l)
  | other {c cs l} : (∀ i ms, c = .metrics i ms → ¬ Root f i r) → Pushed f r cs l → Pushed f r (c :: cs) l

omit [IsStrictOrderedRing K] in
theorem run_change {ops : BufferOps β X I (Option V)} {f g : Fleet K A θ β} (hf : Older f) {c : Call K A θ β X I V} (h : c.run ops f = .ok g) : Change f g := by
  cases c with
  | create m =>
    simp only [Call.run, Fleet.create] at h
    cases hs : m.store with
    | none =>
      rw [hs] at h; cases h
      exact .create m (fun j hj => by rw [hs] at hj; cases hj)
    | some j =>
      rw [hs] at h
      dsimp only at h
      split at h
      · cases h
        exact .create m (fun k hk => by rw [hs] at hk; cases hk; assumption)
      · cases h
  | add i x adv =>
    simp only [Call.run] at h
    cases hc : f.bufferAdd ops i x adv with
    | error e => rw [hc] at h; cases h
    | ok p =>
      rw [hc] at h; cases h
      obtain ⟨r, m, m', -, hm, ha, hg⟩ := passOn_ok (g := p.1) (x := p.2) hf hc
      rw [hg]
      refine .set r m m' hm ?_
      split at ha
      · cases ha
      · split at ha <;> cases ha
        rfl
  | update i idx adv =>
    simp only [Call.run] at h
    cases hc : f.bufferUpdate ops i idx adv with
    | error e => rw [hc] at h; cases h
    | ok p =>
      rw [hc] at h; cases h
      obtain ⟨r, m, m', -, hm, ha, hg⟩ := passOn_ok (g := p.1) (x := p.2) hf hc
      rw [hg]
      refine .set r m m' hm ?_
      split at ha
      · cases ha
      · split at ha <;> cases ha
        rfl
  | pull i =>
    simp only [Call.run, Fleet.pullState] at h
    split at h
    · cases h
    · rename_i m hm
      split at h
      · cases h
      · split at h
        · cases h
        · cases h; exact .set i m _ hm rfl
  | push i =>
    simp only [Call.run, Fleet.pushState] at h
    split at h
    · cases h
    · rename_i m hm
      split at h
      · cases h
      · split at h
        · cases h
        · rename_i s hs
          cases h; exact .set _ s _ hs rfl
  | metrics i ms =>
    simp only [Call.run] at h
    cases hc : f.pushMetrics i (some ms) with
    | error e => rw [hc] at h; cases h
    | ok p =>
      rw [hc] at h; cases h
      obtain ⟨r, m, m', -, hm, ha, hg⟩ := passOn_ok (g := p.1) (x := p.2) hf hc
      rw [hg]
      refine .set r m m' hm ?_
      split at ha <;> cases ha
      rfl

omit [IsStrictOrderedRing K] in
theorem runs_facts {ops : BufferOps β X I (Option V)} {f g : Fleet K A θ β} {cs : List (Call K A θ β X I V)} (h : Runs ops f cs g) (hf : Older f) : Grows f g ∧ Older g := by
  induction h with
  | nil => exact ⟨fun i m hm => ⟨m, hm, rfl⟩, hf⟩
  | cons h1 _ ih =>
    obtain ⟨h2, h3⟩ := (run_change hf h1).facts
    obtain ⟨h4, h5⟩ := ih (h3 hf)
    refine ⟨fun i m hm => ?_, h5⟩
    obtain ⟨m', hm', e⟩ := h2 i m hm
    obtain ⟨m'', hm'', e'⟩ := h4 i m' hm'
    exact ⟨m'', hm'', e'.trans e⟩

omit [IsStrictOrderedRing K] in
/-- C125: in any program that creates workers and makes calls, each worker has exactly one worker without store at the end of its stores; this stays so forever. -/
theorem C125_root {ops : BufferOps β X I (Option V)} {f g : Fleet K A θ β} {cs cs' : List (Call K A θ β X I V)} (hf : Runs ops [] cs f) (hg : Runs ops f cs' g) (i : Nat) (hi : i < f.length) :
    ∃ r, Root f i r ∧ Root g i r ∧ (∀ r', Root f i r' → r' = r) ∧ (∀ r', Root g i r' → r' = r) ∧ ∃ m, f[r]? = some m ∧ m.store = none := by
  have ho := (runs_facts hf (fun i m j hm => by simp at hm)).2
  obtain ⟨r, hr⟩ := root_exists ho i hi
  have hr' := root_grows (runs_facts hg ho).1 hr
  exact ⟨r, hr, hr', fun _ h => root_unique h hr, fun _ h => root_unique h hr', root_self hr⟩

omit [IsStrictOrderedRing K] in
/-- What a call does to the buffer and to the metrics of a worker without store. -/
theorem run_at {ops : BufferOps β X I (Option V)} {f g : Fleet K A θ β} (hf : Older f) {c : Call K A θ β X I V} (h : c.run ops f = .ok g) {r : Nat} {m : Member K A θ β} (hm : f[r]? = some m) :
    ∃ m', g[r]? = some m' ∧
      ((∃ i x adv b b', c = .add i x adv ∧ Root f i r ∧ m.buffer = some b ∧ ops.add b x (if ops.takesAdv b then some adv else none) = .ok b' ∧ m'.buffer = some b') ∨
        (∃ i idx adv b b', c = .update i idx adv ∧ Root f i r ∧ m.buffer = some b ∧ ops.update b idx adv = .ok b' ∧ m'.buffer = some b') ∨
        ((∀ i, c.bufferOf = some i → ∃ r', Root f i r' ∧ r' ≠ r) ∧ m'.buffer = m.buffer)) ∧
      ((∃ i ms, c = .metrics i ms ∧ Root f i r ∧ m'.env = (m.env.recordMetrics (some ms)).1) ∨
        ((∀ i ms, c = .metrics i ms → ∃ r', Root f i r' ∧ r' ≠ r) ∧ m'.env = m.env)) := by
  have hlt : r < f.length := (List.getElem?_eq_some_iff.1 hm).1
  cases c with
  | create w =>
    have hg : g = f ++ [w] := by
      simp only [Call.run, Fleet.create] at h
      split at h
      · cases h; rfl
      · split at h <;> cases h
        rfl
    subst hg
    exact ⟨m, by rw [List.getElem?_append_left hlt, hm], .inr (.inr ⟨fun i hi => by simp [Call.bufferOf] at hi, rfl⟩), .inr ⟨fun i ms hc => by simp at hc, rfl⟩⟩
  | add i x adv =>
    simp only [Call.run] at h
    cases hc : f.bufferAdd ops i x adv with
    | error e => rw [hc] at h; cases h
    | ok p =>
      rw [hc] at h; cases h
      obtain ⟨r', w, w', hr, hw, ha, hg⟩ := passOn_ok (g := p.1) (x := p.2) hf hc
      change ∃ m', p.1[r]? = some m' ∧ _
      rw [hg]
      split at ha
      · cases ha
      · rename_i b hb
        split at ha
        · cases ha
        · rename_i b' hb'
          cases ha
          by_cases hrr : r' = r
          · subst hrr
            rw [hm] at hw; cases hw
            exact ⟨_, List.getElem?_set_self hlt, .inl ⟨i, x, adv, b, b', rfl, hr, hb, hb', rfl⟩, .inr ⟨fun i ms hc => by simp at hc, rfl⟩⟩
          · exact ⟨m, by rw [List.getElem?_set_ne hrr, hm], .inr (.inr ⟨fun k hk => by simp only [Call.bufferOf, Option.some.injEq] at hk; subst hk; exact ⟨r', hr, hrr⟩, rfl⟩), .inr ⟨fun i ms hc => by simp at hc, rfl⟩⟩
  | update i idx adv =>
    simp only [Call.run] at h
    cases hc : f.bufferUpdate ops i idx adv with
    | error e => rw [hc] at h; cases h
    | ok p =>
      rw [hc] at h; cases h
      obtain ⟨r', w, w', hr, hw, ha, hg⟩ := passOn_ok (g := p.1) (x := p.2) hf hc
      change ∃ m', p.1[r]? = some m' ∧ _
      rw [hg]
      split at ha
      · cases ha
      · rename_i b hb
        split at ha
        · cases ha
        · rename_i b' hb'
          cases ha
          by_cases hrr : r' = r
          · subst hrr
            rw [hm] at hw; cases hw
            exact ⟨_, List.getElem?_set_self hlt, .inr (.inl ⟨i, idx, adv, b, b', rfl, hr, hb, hb', rfl⟩), .inr ⟨fun i ms hc => by simp at hc, rfl⟩⟩
          · exact ⟨m, by rw [List.getElem?_set_ne hrr, hm], .inr (.inr ⟨fun k hk => by simp only [Call.bufferOf, Option.some.injEq] at hk; subst hk; exact ⟨r', hr, hrr⟩, rfl⟩), .inr ⟨fun i ms hc => by simp at hc, rfl⟩⟩
  | pull i =>
    simp only [Call.run, Fleet.pullState] at h
    split at h
    · cases h
    · rename_i w hw
      split at h
      · cases h
      · split at h
        · cases h
        · cases h
          by_cases hir : i = r
          · subst hir
            rw [hm] at hw; cases hw
            exact ⟨_, List.getElem?_set_self hlt, .inr (.inr ⟨fun i hi => by simp [Call.bufferOf] at hi, rfl⟩), .inr ⟨fun i ms hc => by simp at hc, rfl⟩⟩
          · exact ⟨m, by rw [List.getElem?_set_ne hir, hm], .inr (.inr ⟨fun i hi => by simp [Call.bufferOf] at hi, rfl⟩), .inr ⟨fun i ms hc => by simp at hc, rfl⟩⟩
  | push i =>
    simp only [Call.run, Fleet.pushState] at h
    split at h
    · cases h
    · split at h
      · cases h
      · rename_i j _
        split at h
        · cases h
        · rename_i s hs
          cases h
          by_cases hir : j = r
          · subst hir
            rw [hm] at hs; cases hs
            exact ⟨_, List.getElem?_set_self hlt, .inr (.inr ⟨fun i hi => by simp [Call.bufferOf] at hi, rfl⟩), .inr ⟨fun i ms hc => by simp at hc, rfl⟩⟩
          · exact ⟨m, by rw [List.getElem?_set_ne hir, hm], .inr (.inr ⟨fun i hi => by simp [Call.bufferOf] at hi, rfl⟩), .inr ⟨fun i ms hc => by simp at hc, rfl⟩⟩
  | metrics i ms =>
    simp only [Call.run] at h
    cases hc : f.pushMetrics i (some ms) with
    | error e => rw [hc] at h; cases h
    | ok p =>
      rw [hc] at h; cases h
      obtain ⟨r', w, w', hr, hw, ha, hg⟩ := passOn_ok (g := p.1) (x := p.2) hf hc
      change ∃ m', p.1[r]? = some m' ∧ _
      rw [hg]
      split at ha
      · rename_i env henv
        cases ha
        by_cases hrr : r' = r
        · subst hrr
          rw [hm] at hw; cases hw
          exact ⟨_, List.getElem?_set_self hlt, .inr (.inr ⟨fun i hi => by simp [Call.bufferOf] at hi, rfl⟩), .inl ⟨i, ms, rfl, hr, by rw [henv]⟩⟩
        · exact ⟨m, by rw [List.getElem?_set_ne hrr, hm], .inr (.inr ⟨fun i hi => by simp [Call.bufferOf] at hi, rfl⟩), .inr ⟨fun k ks hk => by cases hk; exact ⟨r', hr, hrr⟩, rfl⟩⟩
      · cases ha

omit [IsStrictOrderedRing K] in
/-- C125: the buffer of a worker without store, after any program: exactly the calls of the workers that end at it have been made, in their order.  So all these workers share one buffer. -/
theorem C125_shared_buffer {ops : BufferOps β X I (Option V)} {f g : Fleet K A θ β} {cs : List (Call K A θ β X I V)} (hf : Older f) (h : Runs ops f cs g) {r : Nat} {m : Member K A θ β} (hm : f[r]? = some m)
    {b : β} (hb : m.buffer = some b) :
    ∃ b', Served ops g r b cs b' ∧ ∀ i, Root g i r → g.bufferLen ops i = .ok (g, ops.len b') := by
  induction h generalizing m b with
  | nil => exact ⟨b, .nil, fun i hi => by
      unfold Fleet.bufferLen
      rw [passOn_root hf hi hm, hb]
      simp only [Except.ok.injEq, Prod.mk.injEq, and_true]
      exact set_self hm⟩
  | cons h1 h2 ih =>
    obtain ⟨m', hm', hbuf, -⟩ := run_at hf h1 hm
    obtain ⟨g1, g2⟩ := (run_change hf h1).facts
    have g3 := (runs_facts h2 (g2 hf)).1
    rcases hbuf with ⟨i, x, adv, b0, b1, rfl, hr, e0, e1, e2⟩ | ⟨i, idx, adv, b0, b1, rfl, hr, e0, e1, e2⟩ | ⟨hno, e⟩
    · rw [hb] at e0; cases e0
      obtain ⟨b', s, l⟩ := ih (g2 hf) hm' e2
      exact ⟨b', .add (root_grows g3 (root_grows g1 hr)) e1 s, l⟩
    · rw [hb] at e0; cases e0
      obtain ⟨b', s, l⟩ := ih (g2 hf) hm' e2
      exact ⟨b', .update (root_grows g3 (root_grows g1 hr)) e1 s, l⟩
    · obtain ⟨b', s, l⟩ := ih (g2 hf) hm' (e.trans hb)
      refine ⟨b', .other (fun i hi hr => ?_) s, l⟩
      obtain ⟨r', hr', hne⟩ := hno i hi
      exact hne (root_unique (root_grows g3 (root_grows g1 hr')) hr)

theorem pushed_lookup {ops : BufferOps β X I (Option V)} {f g : Fleet K A θ β} {cs : List (Call K A θ β X I V)} (hf : Older f) (h : Runs ops f cs g) {r : Nat} {m : Member K A θ β} (hm : f[r]? = some m)
    {l : List (String × K)} (hl : ∀ n, m.env.epMetrics.lookup n = summary (valuesOf l n)) :
    ∃ l' m', Pushed g r cs l' ∧ g[r]? = some m' ∧ ∀ n, m'.env.epMetrics.lookup n = summary (valuesOf (l ++ l') n) := by
  induction h generalizing m l with
  | nil => exact ⟨[], m, .nil, hm, by simpa using hl⟩
  | cons h1 h2 ih =>
    obtain ⟨m', hm', -, hmet⟩ := run_at hf h1 hm
    obtain ⟨g1, g2⟩ := (run_change hf h1).facts
    have g3 := (runs_facts h2 (g2 hf)).1
    rcases hmet with ⟨i, ms, rfl, hr, e⟩ | ⟨hno, e⟩
    · obtain ⟨l', m'', hp, hm'', hl'⟩ := ih (g2 hf) hm' (l := l ++ ms) (by rw [e]; exact recordMany_lookup hl ms)
      exact ⟨ms ++ l', m'', .own (root_grows g3 (root_grows g1 hr)) hp, hm'', by simpa using hl'⟩
    · obtain ⟨l', m'', hp, hm'', hl'⟩ := ih (g2 hf) hm' (l := l) (by rw [e]; exact hl)
      refine ⟨l', m'', .other (fun i ms hi hr => ?_) hp, hm'', hl'⟩
      obtain ⟨r', hr', hne⟩ := hno i ms hi
      exact hne (root_unique (root_grows g3 (root_grows g1 hr')) hr)

/-- C125: `pull_metrics` of any worker gives, for each name, the average of all values that the workers with the same root have pushed since the root was created: never only the recent ones, as nothing resets the environment of a
store. -/
theorem C125_metrics {ops : BufferOps β X I (Option V)} {f g : Fleet K A θ β} {cs : List (Call K A θ β X I V)} (hf : Older f) (h : Runs ops f cs g) {r : Nat} {m : Member K A θ β} (hm : f[r]? = some m)
    (hnew : m.env.epMetrics = []) :
    ∃ l, Pushed g r cs l ∧ ∀ i, Root g i r → ∃ ms, g.pullMetrics i = .ok (g, ms) ∧
      ∀ name, ms.lookup name = if valuesOf l name = [] then none else some ((valuesOf l name).sum / ((valuesOf l name).length : K)) := by
  obtain ⟨l, m', hp, hm', hl⟩ := pushed_lookup hf h hm (l := []) (fun n => by rw [hnew]; rfl)
  refine ⟨l, hp, fun i hi => ⟨m'.env.getMetrics, ?_, fun name => ?_⟩⟩
  · unfold Fleet.pullMetrics
    rw [passOn_root (runs_facts h hf).2 hi hm']
    simp only [Except.ok.injEq, Prod.mk.injEq, and_true]
    exact set_self hm'
  · unfold Mon.getMetrics
    rw [lookup_map_snd _ (fun p : K × K => p.1 / p.2), hl]
    simp only [List.nil_append]
    unfold summary
    split <;> rfl

end

/-- A new monitor. -/
def fresh : Mon ℚ Unit := ⟨0, 0, 0, 0, 0, 0, [], Streaming.new 1000, [], [], 10⟩

/-- A buffer that is a list of numbers. -/
def listOps : BufferOps (List Nat) Nat Nat (Option Nat) where
  takesAdv _ := false
  len b := b.length
  add b x adv := match adv with
    | none => .ok (b ++ [x])
    | some _ => .error .typeError
  update b i adv := .ok (b.set i (adv.getD 0))

/-- A store, a worker that uses it, and a worker whose store is that worker. -/
def chain : Fleet ℚ Unit Nat (List Nat) := [⟨none, 10, some [], fresh⟩, ⟨some 0, 11, none, fresh⟩, ⟨some 1, 12, none, fresh⟩]

/-- C125, failing: unlike buffers and metrics, states are exchanged with the next store only.  `push_state` of the last worker of a chain does not reach the store that keeps the buffer, and `pull_state` does not read it. -/
theorem C125_chain_counterexample : ∃ f : Fleet ℚ Unit Nat (List Nat), Runs (listOps) [] [.create ⟨none, 10, some [], fresh⟩, .create ⟨some 0, 11, none, fresh⟩, .create ⟨some 1, 12, none, fresh⟩] f ∧
    Root f 2 0 ∧ (∃ g, f.pushState 2 = .ok g ∧ (g.map (·.state)) = [10, 12, 12]) ∧ (∃ g, f.pullState 2 = .ok g ∧ (g.map (·.state)) = [10, 11, 11]) ∧
    ∃ g, f.bufferAdd listOps 2 7 none = .ok (g, ()) ∧ g.map (·.buffer) = [some [7], none, none] := by
  have ho : Older chain := by
    intro i m j hm hj
    match i, hm with
    | 0, hm => cases hm; cases hj
    | 1, hm => cases hm; cases hj; decide
    | 2, hm => cases hm; cases hj; decide
  have hr : Root chain 2 0 := .up (j := 1) rfl rfl (.up (j := 0) rfl rfl (.self rfl rfl))
  refine ⟨chain, .cons rfl (.cons rfl (.cons rfl .nil)), hr, ⟨_, rfl, rfl⟩, ⟨_, rfl, rfl⟩, chain.set 0 ⟨none, 10, some [7], fresh⟩, ?_, ?_⟩
  · rw [(C125_buffer listOps ho hr (m := ⟨none, 10, some [], fresh⟩) rfl rfl 7 0 none).2.1]
    rfl
  · rfl

/-- Two workers that use one store: the calls of both concern its buffer and its metrics. -/
example : ∃ g : Fleet ℚ Unit Nat (List Nat), Runs listOps [⟨none, 10, some [], fresh⟩, ⟨some 0, 11, none, fresh⟩, ⟨some 0, 12, none, fresh⟩] [.add 1 5 none, .add 2 6 none, .metrics 2 [("loss", 1)], .metrics 1 [("loss", 4)]] g ∧
    g.map (·.buffer) = [some [5, 6], none, none] ∧ g.map (·.env.getMetrics) = [[("loss", 5 / 2)], [], []] := by
  refine ⟨_, .cons (g := ?_) ?_ (.cons (g := ?_) ?_ (.cons (g := ?_) ?_ (.cons (g := ?_) ?_ .nil))), ?_, ?_⟩
  · exact [⟨none, 10, some [5], fresh⟩, ⟨some 0, 11, none, fresh⟩, ⟨some 0, 12, none, fresh⟩]
  · simp [Call.run, Fleet.bufferAdd, Fleet.passOn, listOps, Except.map]
  · exact [⟨none, 10, some [5, 6], fresh⟩, ⟨some 0, 11, none, fresh⟩, ⟨some 0, 12, none, fresh⟩]
  · simp [Call.run, Fleet.bufferAdd, Fleet.passOn, listOps, Except.map]
  · exact [⟨none, 10, some [5, 6], { fresh with epMetrics := [("loss", (1, 1))] }⟩, ⟨some 0, 11, none, fresh⟩, ⟨some 0, 12, none, fresh⟩]
  · simp [Call.run, Fleet.pushMetrics, Fleet.passOn, Mon.recordMetrics, Dicts.setItem, fresh, Except.map]
  · exact [⟨none, 10, some [5, 6], { fresh with epMetrics := [("loss", (5, 2))] }⟩, ⟨some 0, 11, none, fresh⟩, ⟨some 0, 12, none, fresh⟩]
  · simp [Call.run, Fleet.pushMetrics, Fleet.passOn, Mon.recordMetrics, Dicts.setItem, fresh, Except.map]
    norm_num
  · rfl
  · simp [Mon.getMetrics, fresh]

/-! ### The constructor -/

/-- C125: the environment of a worker.  Each accepted argument gives a monitored environment with a limit on the length of episodes; it is the environment given, made or returned, and a monitor that is there already is kept
with its name. -/
theorem C125_env {make : String → Except Err (EnvObj E R)} {arg : EnvArg E R} {name : Option String} {env : EnvObj E R} (h : checkEnv make arg name = .ok env) :
    ∃ o, ((∃ s, arg = .str s ∧ make s = .ok o) ∨ (∃ call, arg = .obj o call ∧ o.isEnv = true) ∨ ∃ x, arg = .obj x (some (.ok o)) ∧ x.isEnv = false) ∧
      env.monitor.isSome ∧ env.maxEpisodeSteps.isSome ∧ env.inner = o.inner ∧ env.maxEpisodeSteps = o.maxEpisodeSteps ∧ env.rewardThreshold = o.rewardThreshold ∧
      env.monitor = (match o.monitor with | some n => some n | none => some name) := by
  unfold checkEnv at h
  cases hr : resolveEnv make arg with
  | error e => rw [hr] at h; cases h
  | ok o =>
    rw [hr] at h
    dsimp only at h
    refine ⟨o, ?_, ?_⟩
    · cases arg with
      | str s => exact .inl ⟨s, rfl, hr⟩
      | obj x call =>
        simp only [resolveEnv] at hr
        split at hr
        · rename_i hx
          cases hr; exact .inr (.inl ⟨call, rfl, hx⟩)
        · rename_i hx
          split at hr
          · exact .inr (.inr ⟨x, by rw [hr], by simpa using hx⟩)
          · cases hr
    · split at h
      · cases h
      · rename_i hmax
        have hmax' : o.maxEpisodeSteps.isSome := by simpa [Option.isSome_iff_ne_none] using hmax
        split at h
        · rename_i hmon
          cases h
          obtain ⟨n, hn⟩ := Option.isSome_iff_exists.1 hmon
          exact ⟨hmon, hmax', rfl, rfl, rfl, by rw [hn]⟩
        · rename_i hmon
          have hmon' : o.monitor = none := by simpa using hmon
          split at h
          · cases h
            exact ⟨rfl, hmax', rfl, rfl, rfl, by rw [hmon']⟩
          · cases h

/-- C125: which arguments are rejected. -/
theorem C125_env_rejects (make : String → Except Err (EnvObj E R)) (o : EnvObj E R) (call : Option (Except Err (EnvObj E R))) (name : Option String) :
    (o.isEnv = false → call = none → checkEnv make (.obj o call) name = .error .typeError) ∧
    (o.isEnv = true → o.maxEpisodeSteps = none → checkEnv make (.obj o call) name = .error .valueError) ∧
    (o.isEnv = true → o.maxEpisodeSteps ≠ none → ∃ env, checkEnv make (.obj o call) name = .ok env) := by
  refine ⟨fun h1 h2 => by simp [checkEnv, resolveEnv, h1, h2], fun h1 h2 => by simp [checkEnv, resolveEnv, h1, h2], fun h1 h2 => ?_⟩
  cases hm : o.monitor with
  | none => exact ⟨{ o with monitor := some name }, by simp [checkEnv, resolveEnv, h1, h2, hm]⟩
  | some n => exact ⟨o, by simp [checkEnv, resolveEnv, h1, h2, hm]⟩

/-- C125: the threshold that is used: the one given, or else the one of the environment, or else infinity. -/
theorem C125_threshold (env : EnvObj E R) (r : R) :
    checkRewardThreshold (some r) env = some r ∧ (env.rewardThreshold = some r → checkRewardThreshold none env = some r) ∧ (env.rewardThreshold = none → checkRewardThreshold none env = none) :=
  ⟨rfl, fun h => h, fun h => h⟩

end Coax.Core
