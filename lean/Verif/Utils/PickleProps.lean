import Verif.Utils.Pickle
import Mathlib.Data.List.Basic
import Mathlib.Logic.Function.Basic
import Mathlib.Tactic.Common

/-!
C144: what checkpoints made with `dump` and `load` preserve.
-/

namespace Coax.Persist

variable {α : Type _} [DecidableEq α]

/-! ### Specification -/

/-- What a program sees that runs alone. -/
def alone (h : Heap α) (env : List (Val α)) : List (Cmd α) → List (Obs α)
  | [] => []
  | c :: cs => (exec h env c).2.2 :: alone (exec h env c).1 (exec h env c).2.1 cs

/-- What two programs see that run in one process, each with its own variables: `true` for a command of the first. -/
def together (h : Heap α) (env env' : List (Val α)) : List (Bool × Cmd α) → List (Bool × Obs α)
  | [] => []
  | (true, c) :: cs => (true, (exec h env c).2.2) :: together (exec h env c).1 (exec h env c).2.1 env' cs
  | (false, c) :: cs => (false, (exec h env' c).2.2) :: together (exec h env' c).1 env (exec h env' c).2.1 cs

/-- The part of one of the two. -/
def part {β : Type _} (b : Bool) (l : List (Bool × β)) : List β := (l.filter (fun x => x.1 == b)).map (·.2)

/-- No reference leads to nowhere: the states that processes can be in. -/
def Val.Within (n : Nat) : Val α → Prop
  | .atom _ => True
  | .ref r => r < n

/-- No reference leads to nowhere: the states that processes can be in. -/
def Closed (h : Heap α) (env : List (Val α)) : Prop :=
  (∀ n ∈ h, ∀ v ∈ n, v.Within h.length) ∧ ∀ v ∈ env, v.Within h.length

/-! ### Lemmas -/

/-- A value under a renaming of addresses. -/
def Val.rename (m : Nat → Nat) : Val α → Val α
  | .atom a => .atom a
  | .ref r => .ref (m r)

/-- The process `(h, env)` can be found in the process with heap `h'`, at other addresses. -/
structure Embeds (m : Nat → Nat) (h : Heap α) (env : List (Val α)) (h' : Heap α) (env' : List (Val α)) : Prop where
  closed : Closed h env
  inj : ∀ r s, r < h.length → s < h.length → m r = m s → r = s
  nodes : ∀ r n, h[r]? = some n → h'[m r]? = some (n.map (Val.rename m))
  vars : env' = env.map (Val.rename m)

omit [DecidableEq α] in
theorem rename_congr {m m' : Nat → Nat} {n : Nat} (h : ∀ r < n, m r = m' r) {v : Val α} (hv : v.Within n) :
    v.rename m = v.rename m' := by
  cases v with
  | atom a => rfl
  | ref r => simp [Val.rename, h r hv]

omit [DecidableEq α] in
theorem rename_inj {m : Nat → Nat} {n : Nat} (h : ∀ r s, r < n → s < n → m r = m s → r = s) {v w : Val α}
    (hv : v.Within n) (hw : w.Within n) : v.rename m = w.rename m ↔ v = w := by
  cases v <;> cases w <;> simp [Val.rename]
  rename_i r s
  exact ⟨h r s hv hw, fun e => by rw [e]⟩

omit [DecidableEq α] in
theorem Within.mono {v : Val α} {n k : Nat} (h : v.Within n) (hk : n ≤ k) : v.Within k := by
  cases v with
  | atom a => trivial
  | ref r => exact Nat.lt_of_lt_of_le h hk

omit [DecidableEq α] in
theorem Embeds.lt {m : Nat → Nat} {h h' : Heap α} {env env' : List (Val α)} (e : Embeds m h env h' env') {r : Nat}
    (hr : r < h.length) : m r < h'.length := by
  have := e.nodes r h[r] (List.getElem?_eq_getElem hr)
  exact (List.getElem?_eq_some_iff.1 this).1

omit [DecidableEq α] in
/-- Changes elsewhere do no harm. -/
theorem Embeds.frame {m : Nat → Nat} {h h' h'' : Heap α} {env env' : List (Val α)} (e : Embeds m h env h' env')
    (hf : ∀ r < h.length, h''[m r]? = h'[m r]?) : Embeds m h env h'' env' :=
  ⟨e.closed, e.inj, fun r n hr => by rw [hf r (List.getElem?_eq_some_iff.1 hr).1]; exact e.nodes r n hr, e.vars⟩

omit [DecidableEq α] in
theorem mapM_get (env : List (Val α)) (f : Val α → Val α) (is : List Nat) :
    is.mapM (fun i => (env.map f)[i]?) = (is.mapM (fun i => env[i]?)).map (fun vs => vs.map f) := by
  induction is with
  | nil => rfl
  | cons i is ih =>
    simp only [List.getElem?_map] at ih
    simp only [List.mapM_cons, List.getElem?_map, ih]
    cases env[i]? with
    | none => rfl
    | some v => cases is.mapM (fun i => env[i]?) <;> rfl

omit [DecidableEq α] in
theorem mem_mapM_get {env : List (Val α)} {is : List Nat} : ∀ {vs : List (Val α)},
    is.mapM (fun i => env[i]?) = some vs → ∀ v ∈ vs, v ∈ env := by
  induction is with
  | nil => intro vs h; simp at h; subst h; simp
  | cons i is ih =>
    intro vs h
    simp only [List.mapM_cons] at h
    cases hi : env[i]? with
    | none => simp [hi] at h
    | some w =>
      cases hs : is.mapM (fun i => env[i]?) with
      | none => simp [hi, hs] at h
      | some ws =>
        simp [hi, hs] at h
        subst h
        intro v hv
        rcases List.mem_cons.1 hv with rfl | hv
        · exact List.mem_of_getElem? hi
        · exact ih hs v hv

omit [DecidableEq α] in
/-- An object is changed, in both. -/
theorem Embeds.set {m : Nat → Nat} {h h' : Heap α} {env env' : List (Val α)} (e : Embeds m h env h' env') {r : Nat}
    (hr : r < h.length) {n : Node α} (hn : ∀ v ∈ n, v.Within h.length) :
    Embeds m (h.set r n) env (h'.set (m r) (n.map (Val.rename m))) env' := by
  refine ⟨⟨?_, by simpa using e.closed.2⟩, by simpa using e.inj, ?_, e.vars⟩
  · intro k hk v hv
    rw [List.length_set]
    rcases List.mem_or_eq_of_mem_set hk with hk | rfl
    · exact e.closed.1 k hk v hv
    · exact hn v hv
  · intro s k hs
    by_cases hrs : r = s
    · subst hrs
      rw [List.getElem?_set_self hr] at hs
      cases hs
      rw [List.getElem?_set_self (e.lt hr)]
    · rw [List.getElem?_set_ne hrs] at hs
      have hs' := (List.getElem?_eq_some_iff.1 hs).1
      rw [List.getElem?_set_ne (fun he => hrs (e.inj r s hr hs' he))]
      exact e.nodes s k hs

omit [DecidableEq α] in
theorem Embeds.push {m : Nat → Nat} {h h' : Heap α} {env env' : List (Val α)} (e : Embeds m h env h' env') {v : Val α}
    (hv : v.Within h.length) : Embeds m h (env ++ [v]) h' (env' ++ [v.rename m]) := by
  refine ⟨⟨e.closed.1, ?_⟩, e.inj, e.nodes, by simp [e.vars]⟩
  intro w hw
  rcases List.mem_append.1 hw with hw | hw
  · exact e.closed.2 w hw
  · rw [List.mem_singleton.1 hw]; exact hv

omit [DecidableEq α] in
/-- An object is made, in both. -/
theorem Embeds.alloc {m : Nat → Nat} {h h' : Heap α} {env env' : List (Val α)} (e : Embeds m h env h' env')
    {n : Node α} (hn : ∀ v ∈ n, v.Within h.length) :
    Embeds (Function.update m h.length h'.length) (h ++ [n]) (env ++ [.ref h.length]) (h' ++ [n.map (Val.rename m)])
      (env' ++ [.ref h'.length]) := by
  have hm : ∀ r < h.length, m r = Function.update m h.length h'.length r := by
    intro r hr; rw [Function.update_of_ne (by omega)]
  have hmap : ∀ k : Node α, (∀ v ∈ k, v.Within h.length) →
      k.map (Val.rename m) = k.map (Val.rename (Function.update m h.length h'.length)) := by
    intro k hk
    exact List.map_congr_left (fun v hv => rename_congr hm (hk v hv))
  refine ⟨⟨?_, ?_⟩, ?_, ?_, ?_⟩
  · intro k hk v hv
    rw [List.length_append]
    rcases List.mem_append.1 hk with hk | hk
    · exact Within.mono (e.closed.1 k hk v hv) (by simp)
    · rw [List.mem_singleton.1 hk] at hv
      exact Within.mono (hn v hv) (by simp)
  · intro v hv
    rw [List.length_append]
    rcases List.mem_append.1 hv with hv | hv
    · exact Within.mono (e.closed.2 v hv) (by simp)
    · rw [List.mem_singleton.1 hv]; simp [Val.Within]
  · intro r s hr hs hrs
    simp only [List.length_append, List.length_singleton] at hr hs
    by_cases h1 : r = h.length <;> by_cases h2 : s = h.length
    · omega
    · subst h1
      rw [Function.update_self, Function.update_of_ne h2] at hrs
      have := e.lt (r := s) (by omega)
      omega
    · subst h2
      rw [Function.update_self, Function.update_of_ne h1] at hrs
      have := e.lt (r := r) (by omega)
      omega
    · rw [Function.update_of_ne h1, Function.update_of_ne h2] at hrs
      exact e.inj r s (by omega) (by omega) hrs
  · intro r k hr
    by_cases h1 : r = h.length
    · subst h1
      simp only [List.getElem?_append_right (Nat.le_refl _), Nat.sub_self, List.getElem?_cons_zero, Option.some.injEq] at hr
      subst hr
      rw [Function.update_self, List.getElem?_append_right (Nat.le_refl _), ← hmap n hn]
      simp
    · have hlt := (List.getElem?_eq_some_iff.1 hr).1
      simp only [List.length_append, List.length_singleton] at hlt
      rw [List.getElem?_append_left (by omega)] at hr
      rw [Function.update_of_ne h1, List.getElem?_append_left (e.lt (by omega)), e.nodes r k hr,
        hmap k (e.closed.1 k (List.mem_of_getElem? hr))]
  · rw [e.vars, List.map_append, hmap env e.closed.2]
    simp [Val.rename]

/-- One command, in both: the same is seen, the one process is still found in the other, and nothing else is touched. -/
theorem Embeds.exec {m : Nat → Nat} {h h' : Heap α} {env env' : List (Val α)} (e : Embeds m h env h' env') (c : Cmd α) :
    (Persist.exec h' env' c).2.2 = (Persist.exec h env c).2.2 ∧
    (∀ x < h'.length, (∀ r < h.length, m r ≠ x) → (Persist.exec h' env' c).1[x]? = h'[x]?) ∧
    h'.length ≤ (Persist.exec h' env' c).1.length ∧
    ∃ m', Embeds m' (Persist.exec h env c).1 (Persist.exec h env c).2.1 (Persist.exec h' env' c).1 (Persist.exec h' env' c).2.1 ∧
      ∀ r < (Persist.exec h env c).1.length, (r < h.length ∧ m' r = m r) ∨ h'.length ≤ m' r := by
  have hget : ∀ i : Nat, env'[i]? = (env[i]?).map (Val.rename m) := by intro i; rw [e.vars, List.getElem?_map]
  have hkeep : (∀ x < h'.length, (∀ r < h.length, m r ≠ x) → h'[x]? = h'[x]?) ∧ h'.length ≤ h'.length ∧
      ∃ m', Embeds m' h env h' env' ∧ ∀ r < h.length, (r < h.length ∧ m' r = m r) ∨ h'.length ≤ m' r :=
    ⟨fun _ _ _ => rfl, Nat.le_refl _, m, e, fun r hr => .inl ⟨hr, rfl⟩⟩
  have hpush : ∀ v : Val α, v.Within h.length → (∀ x < h'.length, (∀ r < h.length, m r ≠ x) → h'[x]? = h'[x]?) ∧
      h'.length ≤ h'.length ∧ ∃ m', Embeds m' h (env ++ [v]) h' (env' ++ [v.rename m]) ∧
        ∀ r < h.length, (r < h.length ∧ m' r = m r) ∨ h'.length ≤ m' r :=
    fun v hv => ⟨fun _ _ _ => rfl, Nat.le_refl _, m, e.push hv, fun r hr => .inl ⟨hr, rfl⟩⟩
  have hset : ∀ (r : Nat) (n : Node α), r < h.length → (∀ v ∈ n, v.Within h.length) →
      (∀ x < h'.length, (∀ r < h.length, m r ≠ x) → (h'.set (m r) (n.map (Val.rename m)))[x]? = h'[x]?) ∧
      h'.length ≤ (h'.set (m r) (n.map (Val.rename m))).length ∧
      ∃ m', Embeds m' (h.set r n) env (h'.set (m r) (n.map (Val.rename m))) env' ∧
        ∀ s < (h.set r n).length, (s < h.length ∧ m' s = m s) ∨ h'.length ≤ m' s := by
    intro r n hr hn
    refine ⟨fun x _ hx => List.getElem?_set_ne (hx r hr), by simp, m, e.set hr hn, fun s hs => .inl ⟨?_, rfl⟩⟩
    simpa using hs
  have hmem : ∀ {r : Nat} {n : Node α}, h[r]? = some n → ∀ v ∈ n, v.Within h.length :=
    fun hr v hv => e.closed.1 _ (List.mem_of_getElem? hr) v hv
  -- in each case both sides are computed
  have fin : ∀ (c : Cmd α) (x x' : Heap α × List (Val α) × Obs α), Persist.exec h env c = x → Persist.exec h' env' c = x' →
      (x'.2.2 = x.2.2 ∧ (∀ y < h'.length, (∀ r < h.length, m r ≠ y) → x'.1[y]? = h'[y]?) ∧ h'.length ≤ x'.1.length ∧
        ∃ m', Embeds m' x.1 x.2.1 x'.1 x'.2.1 ∧ ∀ r < x.1.length, (r < h.length ∧ m' r = m r) ∨ h'.length ≤ m' r) →
      (Persist.exec h' env' c).2.2 = (Persist.exec h env c).2.2 ∧
      (∀ x < h'.length, (∀ r < h.length, m r ≠ x) → (Persist.exec h' env' c).1[x]? = h'[x]?) ∧
      h'.length ≤ (Persist.exec h' env' c).1.length ∧
      ∃ m', Embeds m' (Persist.exec h env c).1 (Persist.exec h env c).2.1 (Persist.exec h' env' c).1 (Persist.exec h' env' c).2.1 ∧
        ∀ r < (Persist.exec h env c).1.length, (r < h.length ∧ m' r = m r) ∨ h'.length ≤ m' r := by
    intro c x x' e1 e2 h0
    rw [e1, e2]
    exact h0
  have herr : ∀ c : Cmd α, Persist.exec h env c = (h, env, .error) → Persist.exec h' env' c = (h', env', .error) →
      (Persist.exec h' env' c).2.2 = (Persist.exec h env c).2.2 ∧
      (∀ x < h'.length, (∀ r < h.length, m r ≠ x) → (Persist.exec h' env' c).1[x]? = h'[x]?) ∧
      h'.length ≤ (Persist.exec h' env' c).1.length ∧
      ∃ m', Embeds m' (Persist.exec h env c).1 (Persist.exec h env c).2.1 (Persist.exec h' env' c).1 (Persist.exec h' env' c).2.1 ∧
        ∀ r < (Persist.exec h env c).1.length, (r < h.length ∧ m' r = m r) ∨ h'.length ≤ m' r :=
    fun c e1 e2 => fin c _ _ e1 e2 ⟨rfl, hkeep⟩
  cases c with
  | atom a => exact ⟨rfl, hpush (.atom a) trivial⟩
  | get i k =>
    cases hi : env[i]? with
    | none => exact herr _ (by simp [Persist.exec, hi]) (by simp [Persist.exec, hi, hget])
    | some v =>
      cases v with
      | atom a => exact herr _ (by simp [Persist.exec, hi]) (by simp [Persist.exec, hi, hget, Val.rename])
      | ref r =>
        have hr : r < h.length := e.closed.2 _ (List.mem_of_getElem? hi)
        have hn := List.getElem?_eq_getElem hr
        have hn' := e.nodes r _ hn
        cases hk : h[r][k]? with
        | none => exact herr _ (by simp [Persist.exec, hi, hn, hk]) (by simp [Persist.exec, hi, hget, Val.rename, hn', hk])
        | some w =>
          exact fin _ (h, env ++ [w], .done) (h', env' ++ [w.rename m], .done) (by simp [Persist.exec, hi, hn, hk])
            (by simp [Persist.exec, hi, hget, Val.rename, hn', hk]) ⟨rfl, hpush w (hmem hn w (List.mem_of_getElem? hk))⟩
  | new is =>
    have hm' := mapM_get env (Val.rename m) is
    rw [← e.vars] at hm'
    cases hv : is.mapM (fun i => env[i]?) with
    | none => exact herr _ (by simp [Persist.exec, hv]) (by simp [Persist.exec, hm', hv])
    | some vs =>
      refine fin _ (h ++ [vs], env ++ [.ref h.length], .done) (h' ++ [vs.map (Val.rename m)], env' ++ [.ref h'.length], .done)
        (by simp [Persist.exec, hv]) (by simp [Persist.exec, hm', hv])
        ⟨rfl, fun x hx _ => List.getElem?_append_left hx, by simp, _,
          e.alloc (fun v hv' => e.closed.2 v (mem_mapM_get hv v hv')), ?_⟩
      intro r hr
      simp only [List.length_append, List.length_singleton] at hr
      by_cases h1 : r = h.length
      · right; rw [h1, Function.update_self]; exact Nat.le_refl _
      · left; exact ⟨by omega, Function.update_of_ne h1 _ _⟩
  | set i k j =>
    cases hi : env[i]? with
    | none => exact herr _ (by simp [Persist.exec, hi]) (by simp [Persist.exec, hi, hget])
    | some v =>
      cases hj : env[j]? with
      | none => exact herr _ (by cases v <;> simp [Persist.exec, hi, hj]) (by cases v <;> simp [Persist.exec, hi, hj, hget, Val.rename])
      | some w =>
        cases v with
        | atom a => exact herr _ (by simp [Persist.exec, hi, hj]) (by simp [Persist.exec, hi, hj, hget, Val.rename])
        | ref r =>
          have hr : r < h.length := e.closed.2 _ (List.mem_of_getElem? hi)
          have hn := List.getElem?_eq_getElem hr
          have hn' := e.nodes r _ hn
          by_cases hk : k < h[r].length
          · refine fin _ (h.set r (h[r].set k w), env, .done) (h'.set (m r) ((h[r].set k w).map (Val.rename m)), env', .done)
              (by simp [Persist.exec, hi, hj, hn, hk]) (by simp [Persist.exec, hi, hj, hget, Val.rename, hn', hk, List.map_set])
              ⟨rfl, hset r _ hr ?_⟩
            intro v hv
            rcases List.mem_or_eq_of_mem_set hv with hv | rfl
            · exact hmem hn v hv
            · exact e.closed.2 _ (List.mem_of_getElem? hj)
          · exact herr _ (by simp only [Persist.exec, hi, hj, hn, if_neg hk])
              (by simp only [Persist.exec, hi, hj, hget, Val.rename, Option.map_some, hn', List.length_map, if_neg hk])
  | append i j =>
    cases hi : env[i]? with
    | none => exact herr _ (by simp [Persist.exec, hi]) (by simp [Persist.exec, hi, hget])
    | some v =>
      cases hj : env[j]? with
      | none => exact herr _ (by cases v <;> simp [Persist.exec, hi, hj]) (by cases v <;> simp [Persist.exec, hi, hj, hget, Val.rename])
      | some w =>
        cases v with
        | atom a => exact herr _ (by simp [Persist.exec, hi, hj]) (by simp [Persist.exec, hi, hj, hget, Val.rename])
        | ref r =>
          have hr : r < h.length := e.closed.2 _ (List.mem_of_getElem? hi)
          have hn := List.getElem?_eq_getElem hr
          have hn' := e.nodes r _ hn
          refine fin _ (h.set r (h[r] ++ [w]), env, .done) (h'.set (m r) ((h[r] ++ [w]).map (Val.rename m)), env', .done)
            (by simp [Persist.exec, hi, hj, hn]) (by simp [Persist.exec, hi, hj, hget, Val.rename, hn'])
            ⟨rfl, hset r _ hr ?_⟩
          intro v hv
          rcases List.mem_append.1 hv with hv | hv
          · exact hmem hn v hv
          · rw [List.mem_singleton.1 hv]; exact e.closed.2 _ (List.mem_of_getElem? hj)
  | same i j =>
    cases hi : env[i]? with
    | none => exact herr _ (by simp [Persist.exec, hi]) (by simp [Persist.exec, hi, hget])
    | some v =>
      cases hj : env[j]? with
      | none => exact herr _ (by simp [Persist.exec, hi, hj]) (by simp [Persist.exec, hi, hj, hget])
      | some w =>
        exact fin _ (h, env, .answer (decide (v = w))) (h', env', .answer (decide (v.rename m = w.rename m)))
          (by simp [Persist.exec, hi, hj]) (by simp [Persist.exec, hi, hj, hget])
          ⟨by simp only [rename_inj e.inj (e.closed.2 _ (List.mem_of_getElem? hi)) (e.closed.2 _ (List.mem_of_getElem? hj))], hkeep⟩
  | look i =>
    cases hi : env[i]? with
    | none => exact herr _ (by simp [Persist.exec, hi]) (by simp [Persist.exec, hi, hget])
    | some v =>
      cases v with
      | atom a =>
        exact fin _ (h, env, .atom a) (h', env', .atom a) (by simp [Persist.exec, hi])
          (by simp [Persist.exec, hi, hget, Val.rename]) ⟨rfl, hkeep⟩
      | ref r =>
        have hr : r < h.length := e.closed.2 _ (List.mem_of_getElem? hi)
        have hn := List.getElem?_eq_getElem hr
        have hn' := e.nodes r _ hn
        exact fin _ (h, env, .object h[r].length) (h', env', .object h[r].length) (by simp [Persist.exec, hi, hn])
          (by simp [Persist.exec, hi, hget, Val.rename, hn']) ⟨rfl, hkeep⟩

/-- Two processes that live in one, at different addresses, do not see each other. -/
theorem Embeds.together {m m' : Nat → Nat} {h h' g : Heap α} {env env' a a' : List (Val α)} (sched : List (Bool × Cmd α))
    (e : Embeds m h env g a) (e' : Embeds m' h' env' g a') (hd : ∀ r < h.length, ∀ s < h'.length, m r ≠ m' s) :
    part true (Persist.together g a a' sched) = alone h env (part true sched) ∧
      part false (Persist.together g a a' sched) = alone h' env' (part false sched) := by
  induction sched generalizing m m' h h' g env env' a a' with
  | nil => exact ⟨rfl, rfl⟩
  | cons bc sched ih =>
    obtain ⟨b, c⟩ := bc
    cases b with
    | true =>
      obtain ⟨h1, h2, h3, m2, h4, h5⟩ := e.exec c
      have hf : Embeds m' h' env' (Persist.exec g a c).1 a' :=
        e'.frame (fun s hs => h2 _ (e'.lt hs) (fun r hr => hd r hr s hs))
      obtain ⟨i1, i2⟩ := ih h4 hf (by
        intro r hr s hs
        rcases h5 r hr with ⟨hr', he⟩ | hge
        · rw [he]; exact hd r hr' s hs
        · have := e'.lt hs; omega)
      constructor
      · simpa [part, Persist.together, alone, h1] using i1
      · simpa [part, Persist.together] using i2
    | false =>
      obtain ⟨h1, h2, h3, m2, h4, h5⟩ := e'.exec c
      have hf : Embeds m h env (Persist.exec g a' c).1 a :=
        e.frame (fun r hr => h2 _ (e.lt hr) (fun s hs he => hd r hr s hs he.symm))
      obtain ⟨i1, i2⟩ := ih hf h4 (by
        intro r hr s hs
        rcases h5 s hs with ⟨hs', he⟩ | hge
        · rw [he]; exact hd r hr s hs'
        · have := e.lt hr; omega)
      constructor
      · simpa [part, Persist.together] using i1
      · simpa [part, Persist.together, alone, h1] using i2

omit [DecidableEq α] in
theorem shift_eq_rename (d : Nat) (v : Val α) : v.shift d = v.rename (fun r => d + r) := by cases v <;> rfl

omit [DecidableEq α] in
/-- The loaded objects are the dumped ones at other addresses. -/
theorem loads_embeds {h : Heap α} {v : Val α} (hc : Closed h [v]) (g : Heap α) :
    Embeds (fun r => g.length + r) h [v] (loads g (dumps h v)).1 [(loads g (dumps h v)).2] := by
  refine ⟨hc, fun r s _ _ e => by simpa using e, ?_, by simp [loads, dumps, shift_eq_rename]⟩
  intro r n hr
  simp only [loads, dumps]
  rw [List.getElem?_append_right (by omega)]
  simp only [Nat.add_sub_cancel_left, List.getElem?_map, hr, Option.map_some, Option.some.injEq]
  exact List.map_congr_left (fun v _ => shift_eq_rename _ v)

omit [DecidableEq α] in
/-- The objects that were there before stay where they are. -/
theorem loads_keeps {h : Heap α} {env : List (Val α)} (hc : Closed h env) (b : Bytes α) :
    Embeds id h env (loads h b).1 env := by
  have hid : Val.rename (α := α) id = id := by funext v; cases v <;> rfl
  refine ⟨hc, fun r s _ _ e => e, ?_, by simp [hid]⟩
  intro r n hr
  have hlt := (List.getElem?_eq_some_iff.1 hr).1
  simp only [loads, id]
  rw [List.getElem?_append_left hlt, hr]
  simp [hid]

/-! ### C144 -/

/-- C144, what is loaded is what was dumped.  A value is dumped in one process and loaded in another, or later in the same
one, whatever has happened in between.  A program that uses the loaded value sees exactly what it would have seen with the
dumped value at the moment of the dump, including which objects are the same; and the program that was there before sees
exactly what it would have seen without the load.  This holds for all ways in which the two take turns. -/
theorem C144_restored {h h1 : Heap α} {v : Val α} {env1 : List (Val α)} (hc : Closed h [v]) (hc1 : Closed h1 env1)
    (sched : List (Bool × Cmd α)) :
    part true (together (loads h1 (dumps h v)).1 [(loads h1 (dumps h v)).2] env1 sched) = alone h [v] (part true sched) ∧
    part false (together (loads h1 (dumps h v)).1 [(loads h1 (dumps h v)).2] env1 sched) = alone h1 env1 (part false sched) :=
  (loads_embeds hc h1).together sched (loads_keeps hc1 _) (by intro r _ s hs; simp only [id]; omega)

/-- C144, going on from a checkpoint in a new process is the same as going on without interruption. -/
theorem C144_resume {h : Heap α} {v : Val α} (hc : Closed h [v]) (cs : List (Cmd α)) :
    alone (loads [] (dumps h v)).1 [(loads [] (dumps h v)).2] cs = alone h [v] cs := by
  have key : ∀ (cs : List (Cmd α)) (m : Nat → Nat) (h g : Heap α) (env a : List (Val α)), Embeds m h env g a →
      alone g a cs = alone h env cs := by
    intro cs
    induction cs with
    | nil => intros; rfl
    | cons c cs ih =>
      intro m h g env a e
      obtain ⟨h1, _, _, m2, h4, _⟩ := e.exec c
      simp only [alone]
      rw [h1, ih m2 _ _ _ _ h4]
  exact key cs _ _ _ _ _ (loads_embeds hc [])

/-- C144, values that are dumped one by one are strangers after loading.  Whatever is done with the one, the program that
uses the other sees what it would have seen with its value alone, even if the two shared objects when they were dumped. -/
theorem C144_separate {h h' h1 : Heap α} {a b : Val α} (ha : Closed h [a]) (hb : Closed h' [b])
    (sched : List (Bool × Cmd α)) :
    let la := loads h1 (dumps h a)
    let lb := loads la.1 (dumps h' b)
    part true (together lb.1 [la.2] [lb.2] sched) = alone h [a] (part true sched) ∧
      part false (together lb.1 [la.2] [lb.2] sched) = alone h' [b] (part false sched) := by
  intro la lb
  have ea := loads_embeds ha h1
  have eb := loads_embeds hb la.1
  have ea' : Embeds (fun r => h1.length + r) h [a] lb.1 [la.2] := ea.frame (fun r hr => by
    have := ea.lt hr
    simp only [lb, loads]
    rw [List.getElem?_append_left this]
    rfl)
  refine ea'.together sched eb ?_
  intro r hr s _
  have := ea.lt hr
  simp only [la] at *
  omega

omit [DecidableEq α] in
theorem makedirs_keeps {q : Path} : ∀ (cs : List String) (d d' : Disk α) (done : Path), makedirs d done cs = .ok d' →
    (d q ≠ none → d' q = d q) ∧ ((∀ n, q ≠ done ++ cs.take n) → d' q = d q)
  | [], d, d', done, h => by cases h; exact ⟨fun _ => rfl, fun _ => rfl⟩
  | c :: cs, d, d', done, h => by
    unfold makedirs at h
    split at h
    · rename_i hn
      obtain ⟨i1, i2⟩ := makedirs_keeps cs _ _ _ h
      constructor
      · intro hq
        have hne : q ≠ done ++ [c] := by rintro rfl; exact hq hn
        have : (d.put (done ++ [c]) .dir) q = d q := by simp [Disk.put, hne]
        rw [i1 (by rw [this]; exact hq), this]
      · intro hq
        have hne : q ≠ done ++ [c] := by simpa using hq 1
        rw [i2 (by intro n; simpa using hq (n + 1))]
        simp [Disk.put, hne]
    · obtain ⟨i1, i2⟩ := makedirs_keeps cs _ _ _ h
      exact ⟨i1, fun hq => i2 (by intro n; simpa using hq (n + 1))⟩
    · split at h <;> cases h

omit [DecidableEq α] in
theorem makedirs_dirs {q : Path} : ∀ (cs : List String) (d d' : Disk α) (done : Path), makedirs d done cs = .ok d' →
    d' q = d q ∨ d' q = some .dir
  | [], d, d', done, h => by cases h; exact .inl rfl
  | c :: cs, d, d', done, h => by
    unfold makedirs at h
    split at h
    · rcases makedirs_dirs (q := q) cs _ _ _ h with h1 | h1
      · by_cases hq : q = done ++ [c]
        · right; rw [h1]; simp [Disk.put, hq]
        · left; rw [h1]; simp [Disk.put, hq]
      · exact .inr h1
    · exact makedirs_dirs cs _ _ _ h
    · split at h <;> cases h

omit [DecidableEq α] in
theorem makedirs_ok : ∀ (cs : List String) (d : Disk α) (done : Path), (∀ n c, d (done ++ cs.take (n + 1)) ≠ some (.file c) ∨
    cs = []) → ∃ d', makedirs d done cs = .ok d'
  | [], d, done, _ => ⟨d, rfl⟩
  | c :: cs, d, done, h => by
    have h0 : ∀ x, d (done ++ [c]) ≠ some (.file x) := by
      intro x; simpa using h 0 x
    unfold makedirs
    cases hd : d (done ++ [c]) with
    | none =>
      refine makedirs_ok cs _ _ ?_
      intro n x
      by_cases hcs : cs = []
      · exact .inr hcs
      · left
        have := h (n + 1) x
        simp only [reduceCtorEq, or_false] at this
        simp only [Disk.put]
        split
        · simp
        · simpa using this
    | some e =>
      cases e with
      | dir =>
        refine makedirs_ok cs _ _ ?_
        intro n x
        have := h (n + 1) x
        simp only [reduceCtorEq, or_false] at this
        left
        simpa using this
      | file x => exact absurd hd (h0 x)

/-- A file can be written at a path: the path is not empty, nothing on the way is a file, and it is not a directory. -/
def Writable (d : Disk α) (p : Path) : Prop :=
  p ≠ [] ∧ (∀ n c, n < p.length → d (p.take n) ≠ some (.file c)) ∧ (∀ e, d p = some e → e ≠ .dir)

omit [DecidableEq α] in
theorem dump_writable (pickles : Heap α → Val α → Bool) {d : Disk α} {p : Path} (hw : Writable d p) (h : Heap α) (v : Val α) :
    ∃ d' : Disk α, (∀ q, d' q = d q ∨ d' q = some .dir) ∧ (∀ q, d q ≠ none → d' q = d q) ∧
      dump pickles d h v p =
        if pickles h v then (d'.put p (.file (some (dumps h v))), none) else (d'.put p (.file none), some .pickling) := by
  obtain ⟨h1, h2, h3⟩ := hw
  have hlen : 0 < p.length := List.length_pos_iff.2 h1
  obtain ⟨d', hd⟩ := makedirs_ok p.dropLast d [] (by
    intro n c
    by_cases hp : p.dropLast = []
    · exact .inr hp
    · left
      have : 0 < p.dropLast.length := List.length_pos_iff.2 hp
      rw [List.length_dropLast] at this
      rw [List.nil_append, List.dropLast_eq_take, List.take_take]
      exact h2 _ c (by omega))
  obtain ⟨-, k2⟩ := makedirs_keeps (q := p) _ _ _ _ hd
  refine ⟨d', fun q => makedirs_dirs _ _ _ _ hd, fun q hq => (makedirs_keeps _ _ _ _ hd).1 hq, ?_⟩
  have hp : d' p = d p := k2 (by
    intro n he
    have := congrArg List.length he
    simp only [List.nil_append, List.length_take, List.length_dropLast] at this
    omega)
  unfold dump
  rw [if_neg h1, hd]
  simp only [hp]
  split
  · rename_i hdir; exact absurd rfl (h3 _ hdir)
  · rfl

omit [DecidableEq α] in
/-- A call of `dump` for another path leaves a file alone, whether or not it succeeds. -/
theorem dump_other (pickles : Heap α → Val α → Bool) (d : Disk α) (h : Heap α) (v : Val α) {p q : Path} (hpq : p ≠ q)
    (hq : d q ≠ none) : (dump pickles d h v p).1 q = d q := by
  unfold dump
  split
  · rfl
  · split
    · rfl
    · rename_i d' hd
      have h1 := (makedirs_keeps (q := q) _ _ _ _ hd).1 hq
      have h2 : ∀ e, (Disk.put d' p e) q = d q := by intro e; simp [Disk.put, Ne.symm hpq, h1]
      split
      · exact h1
      · split <;> exact h2 _

/-- Later calls of `dump`. -/
def dumpAll (pickles : Heap α → Val α → Bool) (d : Disk α) : List (Heap α × Val α × Path) → Disk α
  | [] => d
  | (h, v, p) :: rest => dumpAll pickles (dump pickles d h v p).1 rest

omit [DecidableEq α] in
/-- C144, files.  If a value can be serialised and a file can be written at the path, `dump` succeeds, also when the
directories do not exist yet; and whatever is dumped to other paths later, `load` returns the value as it was, in any
process. -/
theorem C144_files (pickles : Heap α → Val α → Bool) {d : Disk α} {p : Path} (hw : Writable d p) {h : Heap α} {v : Val α}
    (hp : pickles h v = true) (later : List (Heap α × Val α × Path)) (hl : ∀ x ∈ later, x.2.2 ≠ p) (h1 : Heap α) :
    (dump pickles d h v p).2 = none ∧
      load (dumpAll pickles (dump pickles d h v p).1 later) h1 p = .ok (loads h1 (dumps h v)) := by
  obtain ⟨d', -, -, e⟩ := dump_writable pickles hw h v
  rw [hp, if_pos rfl] at e
  refine ⟨by rw [e], ?_⟩
  have h0 : (dump pickles d h v p).1 p = some (.file (some (dumps h v))) := by rw [e]; simp [Disk.put]
  generalize (dump pickles d h v p).1 = d0 at h0
  have key : ∀ (later : List (Heap α × Val α × Path)) (d0 : Disk α), (∀ x ∈ later, x.2.2 ≠ p) →
      d0 p = some (.file (some (dumps h v))) → dumpAll pickles d0 later p = some (.file (some (dumps h v))) := by
    intro later
    induction later with
    | nil => intro d0 _ h0; exact h0
    | cons x later ih =>
      intro d0 hl h0
      obtain ⟨hx, vx, px⟩ := x
      refine ih _ (fun y hy => hl y (by simp [hy])) ?_
      rw [dump_other pickles d0 hx vx (hl (hx, vx, px) (by simp)) (by simp [h0]), h0]
  simp [load, key later d0 hl h0]

omit [DecidableEq α] in
/-- C144, rejected calls: nothing at the path, or a directory. -/
theorem C144_load_errors (d : Disk α) (h : Heap α) (p : Path) :
    (d p = none → load d h p = .error .fileNotFound) ∧ (d p = some .dir → load d h p = .error .isADirectory) := by
  constructor <;> intro hd <;> simp [load, hd]

omit [DecidableEq α] in
/-- C144, counterexample: a call of `dump` that fails destroys the checkpoint that was there.  If the value cannot be
serialised, `dump` raises, but the file has been emptied by then: `load` raises `EOFError` from then on, whatever had been
dumped there before. -/
theorem C144_failed_dump_counterexample (pickles : Heap α → Val α → Bool) {d : Disk α} {p : Path} (hw : Writable d p)
    {good bad : Heap α} {v w : Val α} (hg : pickles good v = true) (hb : pickles bad w = false) (h1 : Heap α) :
    load (dump pickles d good v p).1 h1 p = .ok (loads h1 (dumps good v)) ∧
    (dump pickles (dump pickles d good v p).1 bad w p).2 = some .pickling ∧
    load (dump pickles (dump pickles d good v p).1 bad w p).1 h1 p = .error .eof := by
  have hfirst := C144_files pickles hw hg [] (by simp) h1
  obtain ⟨d', hkeep, -, e⟩ := dump_writable pickles hw good v
  rw [hg, if_pos rfl] at e
  have hw2 : Writable (dump pickles d good v p).1 p := by
    rw [e]
    obtain ⟨w1, w2, w3⟩ := hw
    refine ⟨w1, ?_, by simp [Disk.put]⟩
    intro n c hn
    have hne : p.take n ≠ p := fun he => by have := congrArg List.length he; simp at this; omega
    simp only [Disk.put, if_neg hne]
    rcases hkeep (p.take n) with hd | hd
    · rw [hd]; exact w2 n c hn
    · rw [hd]; simp
  obtain ⟨d2, -, -, e2⟩ := dump_writable pickles hw2 bad w
  rw [hb] at e2
  refine ⟨hfirst.2, by rw [e2]; rfl, ?_⟩
  rw [e2]
  simp [load, Disk.put]

/-! ### Examples -/

/-- The process of the example in the docstring: `a = [13]`, `b = {'a': a}`, and the tuple `(a, b)`. -/
def docHeap : Heap Nat := [[.atom 13], [.ref 0], [.ref 0, .ref 1]]

/-- C144, the example in the docstring of `dump`.  If `(a, b)` is dumped, then `a_new` changes with `b_new['a']`; if `a` and
`b` are dumped one by one, it does not. -/
theorem C144_docstring :
    Closed docHeap [.ref 2] ∧ Closed docHeap [.ref 0] ∧ Closed docHeap [.ref 1] ∧
    (let l := loads [] (dumps docHeap (.ref 2))
     -- a_new, b_new = l; x = b_new['a']; x.append(7); x is a_new; look at a_new and a_new[1]
     alone l.1 [l.2] [.get 0 0, .get 0 1, .get 2 0, .atom 7, .append 3 4, .same 3 1, .look 1, .get 1 1, .look 5] =
       [.done, .done, .done, .done, .done, .answer true, .object 2, .done, .atom 7]) ∧
    (let la := loads [] (dumps docHeap (.ref 0))
     let lb := loads la.1 (dumps docHeap (.ref 1))
     -- x = b_new['a']; x.append(7); x is a_new; look at x and a_new
     alone lb.1 [la.2, lb.2] [.get 1 0, .atom 7, .append 2 3, .same 2 0, .look 2, .look 0] =
       [.done, .done, .done, .answer false, .object 2, .object 1]) := by
  refine ⟨?_, ?_, ?_, by decide, by decide⟩ <;>
    simp [Closed, docHeap, Val.Within]

/-- The hypotheses of `C144_failed_dump_counterexample` can be met: an empty disk, a number that can be serialised and one
that cannot. -/
example : Writable (fun _ => none : Disk Nat) ["checkpoints", "all.pkl.lz4"] ∧
    ∃ pickles : Heap Nat → Val Nat → Bool, pickles [] (.atom 1) = true ∧ pickles [] (.atom 0) = false :=
  ⟨by simp [Writable], fun _ v => v == .atom 1, by decide, by decide⟩

end Coax.Persist
