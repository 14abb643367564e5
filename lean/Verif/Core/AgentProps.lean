import Verif.Core.Agent
import Verif.Core.SoftUpdateProps
import Mathlib.Data.List.Forall2

/-!
Property C120: the objects of an agent share what they are meant to share and nothing else.  Weights change only where a program trains, sets or smooths them; updaters see the
current weights of exactly the functions that they were given; targets stay fixed between synchronisations; derived policies follow their q-function.
-/

namespace Coax.Agent

open Coax.Core Coax.TD

set_option linter.unusedSectionVars false

variable {K C M B : Type _} [Field K]

/-! ### Specification -/

/-- The function that an updater is made for. -/
inductive Trains : Wiring → Nat → Prop
  | tdV (v t r) : Trains (.tdV v t r) v
  | tdQ (q t r) : Trains (.tdQ q t r) q
  | tdQPi (q p t r) : Trains (.tdQPi q p t r) q
  | clipped (q p t r) : Trains (.clipped q p t r) q
  | objective (pi) : Trains (.objective pi) pi
  | deterministicPG (pi t) : Trains (.deterministicPG pi t) pi
  | softPG (pi t) : Trains (.softPG pi t) pi
  | model (p) : Trains (.model p) p

/-- The operations that may change the weights (params or function state) of function `i`, in a program with the objects `w`. -/
inductive Writes (w : World K C M B) : Op K C M B → Nat → Prop
  | setParams (i p) : Writes w (.setParams (.net i) p) i
  | setDerivedParams (j d p) : w.derived[j]? = some d → Writes w (.setParams (.derived j) p) d.q
  | setState (i p) : Writes w (.setFunctionState (.net i) p) i
  | setDerivedState (j d p) : w.derived[j]? = some d → Writes w (.setFunctionState (.derived j) p) d.q
  | softUpdate (i o t) : Writes w (.softUpdate i o t) i
  | update (k u b i) : w.updaters[k]? = some u → Trains u.wiring i → Writes w (.update k b) i

/-- The operations that take a key from function `i` or seed it. -/
inductive Draws (w : World K C M B) : Op K C M B → Nat → Prop
  | seed (i s) : Draws w (.seed i s) i
  | use (i) : Draws w (.use (.net i)) i
  | useDerived (j d) : w.derived[j]? = some d → Draws w (.use (.derived j)) d.q
  | update (k u b i) : w.updaters[k]? = some u → Trains u.wiring i → Draws w (.update k b) i
  | tdError (k u b i) : w.updaters[k]? = some u → Trains u.wiring i → Draws w (.tdError k b) i

/-- What a function or derived policy shows as its params and function state. -/
inductive Shows (w : World K C M B) : Fn → PyTree K × PyTree K → Prop
  | net (i n) : w.nets[i]? = some n → Shows w (.net i) (n.func.params, n.func.functionState)
  | epsilonGreedy (j q ε n) : w.derived[j]? = some ⟨.epsilonGreedy, q, ε⟩ → w.nets[q]? = some n →
      Shows w (.derived j) (("epsilon", [ε]) :: n.func.params.map (fun x => ("q/" ++ x.1, x.2)), n.func.functionState)
  | boltzmann (j q τ n) : w.derived[j]? = some ⟨.boltzmann, q, τ⟩ → w.nets[q]? = some n →
      Shows w (.derived j) (("temperature", [τ]) :: n.func.params.map (fun x => ("q/" ++ x.1, x.2)), n.func.functionState)

/-- The target functions, target policies and the policy of the regularizer, as named in the constructor of an updater; without a target function the trained function is the target. -/
inductive Roles : Wiring → List Fn → List Fn → List Fn → Prop
  | tdV (v r) : Roles (.tdV v none r) [.net v] [] r.toList
  | tdVTarg (v t r) : Roles (.tdV v (some t) r) [.net t] [] r.toList
  | tdQ (q r) : Roles (.tdQ q none r) [.net q] [] r.toList
  | tdQTarg (q t r) : Roles (.tdQ q (some t) r) [.net t] [] r.toList
  | tdQPi (q p r) : Roles (.tdQPi q p none r) [.net q] p.toList r.toList
  | tdQPiTarg (q p t r) : Roles (.tdQPi q p (some t) r) [.net t] p.toList r.toList
  | clipped (q ps qs r) : Roles (.clipped q ps qs r) (qs.map .net) ps r.toList
  | objective (pi) : Roles (.objective pi) [] [] []
  | deterministicPG (pi q) : Roles (.deterministicPG pi q) [.net q] [] []
  | softPG (pi qs) : Roles (.softPG pi qs) (qs.map .net) [] []
  | model (p) : Roles (.model p) [] [] []

/-- What an update of `u` is to be computed with: the weights of the trained function `n` and one of its keys, and what the other functions show at the moment. -/
structure IsGiven (w : World K C M B) (u : Wiring) (n : Net K C) (g : Given K) : Prop where
  params : g.params = n.func.params
  state : g.functionState = n.func.functionState
  key : g.key = .snd n.rng.randomKey
  others : ∃ ts ps rs, Roles u ts ps rs ∧
    List.Forall₂ (Shows w) ts (g.targets.targ.zip g.targetState.targ) ∧ g.targets.targ.length = ts.length ∧ g.targetState.targ.length = ts.length ∧
    List.Forall₂ (Shows w) ps (g.targets.pi.zip g.targetState.pi) ∧ g.targets.pi.length = ps.length ∧ g.targetState.pi.length = ps.length ∧
    List.Forall₂ (Shows w) rs (g.targets.reg.toList.zip g.targetState.reg.toList) ∧ g.targets.reg.toList.length = rs.length ∧ g.targetState.reg.toList.length = rs.length
  own : (∃ i, u = .objective i ∨ (∃ t, u = .deterministicPG i t) ∨ (∃ t, u = .softPG i t) ∨ u = .model i) ∨
    (g.targets.own = some n.func.params ∧ g.targetState.own = some n.func.functionState)

/-! ### Basic facts -/

theorem trains_iff (u : Wiring) (i : Nat) : Trains u i ↔ u.trains = i := by
  constructor
  · intro h; cases h <;> rfl
  · rintro rfl; cases u <;> constructor

theorem get_set {α : Type _} {l : List α} {i : Nat} {x : α} (h : l[i]? = some x) (y : α) : (l.set i y)[i]? = some y := by
  rw [List.getElem?_set_self']
  rw [h]; rfl

theorem get_set_cases {α : Type _} {l : List α} {i k : Nat} {x y z : α} (h : l[k]? = some x) (hi : l[i]? = some z) :
    (i = k ∧ z = x ∧ (l.set i y)[k]? = some y) ∨ (i ≠ k ∧ (l.set i y)[k]? = some x) := by
  by_cases hk : i = k
  · subst hk
    left
    refine ⟨rfl, ?_, get_set h y⟩
    rw [h] at hi; exact (Option.some.inj hi).symm
  · right
    refine ⟨hk, ?_⟩
    rw [List.getElem?_set_ne hk]; exact h

theorem get_append {α : Type _} {l : List α} {k : Nat} {x : α} (h : l[k]? = some x) (y : α) : (l ++ [y])[k]? = some x := by
  rw [List.getElem?_append_left]
  · exact h
  · exact (List.getElem?_eq_some_iff.1 h).1

theorem viewShows {w : World K C M B} {f : Fn} {v : PyTree K × PyTree K} : view w f = some v ↔ Shows w f v := by
  constructor
  · intro h
    cases f with
    | net i =>
      simp only [view, Option.map_eq_some_iff] at h
      obtain ⟨n, hn, rfl⟩ := h
      exact .net i n hn
    | derived j =>
      simp only [view, Option.bind_eq_some_iff, Option.map_eq_some_iff] at h
      obtain ⟨⟨kind, q, x⟩, hd, n, hn, rfl⟩ := h
      cases kind with
      | epsilonGreedy => exact .epsilonGreedy j q x n hd hn
      | boltzmann => exact .boltzmann j q x n hd hn
  · intro h
    cases h with
    | net i n hn => simp [view, hn]
    | epsilonGreedy j q ε n hd hn => simp [view, hd, hn, derivedParams, Kind.label]
    | boltzmann j q τ n hd hn => simp [view, hd, hn, derivedParams, Kind.label]

theorem viewAllShows {w : World K C M B} {fs : List Fn} {vs : List (PyTree K × PyTree K)} : viewAll w fs = some vs ↔ List.Forall₂ (Shows w) fs vs := by
  induction fs generalizing vs with
  | nil =>
    simp only [viewAll, Option.some.injEq]
    constructor
    · rintro rfl; exact .nil
    · intro h; cases h; rfl
  | cons f fs ih =>
    simp only [viewAll, Option.bind_eq_some_iff, Option.map_eq_some_iff]
    constructor
    · rintro ⟨v, hv, vs, hvs, rfl⟩
      exact .cons (viewShows.1 hv) (ih.1 hvs)
    · intro h
      cases h with
      | cons h1 h2 => exact ⟨_, viewShows.2 h1, _, ih.2 h2, rfl⟩

theorem viewOptShows {w : World K C M B} {f : Option Fn} {v : Option (PyTree K × PyTree K)} (h : viewOpt w f = some v) : List.Forall₂ (Shows w) f.toList v.toList := by
  cases f with
  | none => simp only [viewOpt, Option.some.injEq] at h; subst h; exact .nil
  | some f =>
    simp only [viewOpt, Option.map_eq_some_iff] at h
    obtain ⟨v, hv, rfl⟩ := h
    exact .cons (viewShows.1 hv) .nil

theorem zip_fst_snd {α β : Type _} (l : List (α × β)) : (l.map Prod.fst).zip (l.map Prod.snd) = l := by
  induction l with
  | nil => rfl
  | cons a l ih => simp [ih]

theorem toList_map_zip {α β : Type _} (o : Option (α × β)) : (o.map Prod.fst).toList.zip (o.map Prod.snd).toList = o.toList := by
  cases o <;> rfl

theorem forall2_len {α β : Type _} {R : α → β → Prop} {l : List α} {l' : List β} (h : List.Forall₂ R l l') : l'.length = l.length := h.length_eq.symm

theorem toList_fst_len {α β : Type _} (o : Option (α × β)) : (o.map Prod.fst).toList.length = o.toList.length ∧ (o.map Prod.snd).toList.length = o.toList.length := by
  cases o <;> exact ⟨rfl, rfl⟩

/-- The targets in a form that can be compared with `IsGiven`. -/
theorem others_of {w : World K C M B} {u : Wiring} {ts ps rs : List Fn} {o : Option (PyTree K × PyTree K)} {t p : List (PyTree K × PyTree K)}
    {r : Option (PyTree K × PyTree K)} (hR : Roles u ts ps rs) (ht : List.Forall₂ (Shows w) ts t) (hp : List.Forall₂ (Shows w) ps p)
    (hr : List.Forall₂ (Shows w) rs r.toList) :
    ∃ ts ps rs, Roles u ts ps rs ∧
    List.Forall₂ (Shows w) ts ((mkTargets o t p r).1.targ.zip (mkTargets o t p r).2.targ) ∧ (mkTargets o t p r).1.targ.length = ts.length ∧ (mkTargets o t p r).2.targ.length = ts.length ∧
    List.Forall₂ (Shows w) ps ((mkTargets o t p r).1.pi.zip (mkTargets o t p r).2.pi) ∧ (mkTargets o t p r).1.pi.length = ps.length ∧ (mkTargets o t p r).2.pi.length = ps.length ∧
    List.Forall₂ (Shows w) rs ((mkTargets o t p r).1.reg.toList.zip (mkTargets o t p r).2.reg.toList) ∧ (mkTargets o t p r).1.reg.toList.length = rs.length ∧
      (mkTargets o t p r).2.reg.toList.length = rs.length := by
  refine ⟨ts, ps, rs, hR, ?_, ?_, ?_, ?_, ?_, ?_, ?_, ?_, ?_⟩
  · simp only [mkTargets, zip_fst_snd]; exact ht
  · simp [mkTargets, forall2_len ht]
  · simp [mkTargets, forall2_len ht]
  · simp only [mkTargets, zip_fst_snd]; exact hp
  · simp [mkTargets, forall2_len hp]
  · simp [mkTargets, forall2_len hp]
  · simp only [mkTargets, toList_map_zip]; exact hr
  · simp only [mkTargets, (toList_fst_len r).1, forall2_len hr]
  · simp only [mkTargets, (toList_fst_len r).2, forall2_len hr]

theorem targets_given {w : World K C M B} {u : Wiring} {n : Net K C} {t : Targets K × Targets K} (hn : w.nets[u.trains]? = some n) (ht : targets w u = some t) :
    IsGiven w u n ⟨n.func.params, t.1, n.func.functionState, t.2, n.rng.rng.2⟩ := by
  have hnet : ∀ {i v}, view w (.net i) = some v → List.Forall₂ (Shows w) [.net i] [v] := fun h => .cons (viewShows.1 h) .nil
  have hown : ∀ {v}, u.trains = u.trains → view w (.net u.trains) = some v → v = (n.func.params, n.func.functionState) := by
    intro v _ h
    simp only [view, hn, Option.map_some, Option.some.injEq] at h
    exact h.symm
  cases u with
  | tdV v vTarg reg =>
    simp only [targets, Option.bind_eq_some_iff, Option.map_eq_some_iff] at ht
    obtain ⟨o, ho, x, hx, r, hr, rfl⟩ := ht
    have := hown rfl ho; subst this
    refine ⟨rfl, rfl, rfl, ?_, Or.inr ⟨rfl, rfl⟩⟩
    cases vTarg with
    | none => exact others_of (.tdV v reg) (hnet hx) .nil (viewOptShows hr)
    | some y => exact others_of (.tdVTarg v y reg) (hnet hx) .nil (viewOptShows hr)
  | tdQ q qTarg reg =>
    simp only [targets, Option.bind_eq_some_iff, Option.map_eq_some_iff] at ht
    obtain ⟨o, ho, x, hx, r, hr, rfl⟩ := ht
    have := hown rfl ho; subst this
    refine ⟨rfl, rfl, rfl, ?_, Or.inr ⟨rfl, rfl⟩⟩
    cases qTarg with
    | none => exact others_of (.tdQ q reg) (hnet hx) .nil (viewOptShows hr)
    | some y => exact others_of (.tdQTarg q y reg) (hnet hx) .nil (viewOptShows hr)
  | tdQPi q piTarg qTarg reg =>
    simp only [targets, Option.bind_eq_some_iff, Option.map_eq_some_iff] at ht
    obtain ⟨o, ho, x, hx, p, hp, r, hr, rfl⟩ := ht
    have := hown rfl ho; subst this
    refine ⟨rfl, rfl, rfl, ?_, Or.inr ⟨rfl, rfl⟩⟩
    cases qTarg with
    | none => exact others_of (.tdQPi q piTarg reg) (hnet hx) (viewOptShows hp) (viewOptShows hr)
    | some y => exact others_of (.tdQPiTarg q piTarg y reg) (hnet hx) (viewOptShows hp) (viewOptShows hr)
  | clipped q piTargs qTargs reg =>
    simp only [targets, Option.bind_eq_some_iff, Option.map_eq_some_iff] at ht
    obtain ⟨o, ho, x, hx, p, hp, r, hr, rfl⟩ := ht
    have := hown rfl ho; subst this
    exact ⟨rfl, rfl, rfl, others_of (.clipped q piTargs qTargs reg) (viewAllShows.1 hx) (viewAllShows.1 hp) (viewOptShows hr), Or.inr ⟨rfl, rfl⟩⟩
  | objective pi =>
    simp only [targets, Option.some.injEq] at ht
    subst ht
    exact ⟨rfl, rfl, rfl, others_of (.objective pi) .nil .nil .nil, Or.inl ⟨pi, Or.inl rfl⟩⟩
  | deterministicPG pi q =>
    simp only [targets, Option.map_eq_some_iff] at ht
    obtain ⟨x, hx, rfl⟩ := ht
    exact ⟨rfl, rfl, rfl, others_of (.deterministicPG pi q) (hnet hx) .nil .nil, Or.inl ⟨pi, Or.inr (Or.inl ⟨q, rfl⟩)⟩⟩
  | softPG pi qs =>
    simp only [targets, Option.map_eq_some_iff] at ht
    obtain ⟨x, hx, rfl⟩ := ht
    exact ⟨rfl, rfl, rfl, others_of (.softPG pi qs) (viewAllShows.1 hx) .nil .nil, Or.inl ⟨pi, Or.inr (Or.inr (Or.inl ⟨qs, rfl⟩))⟩⟩
  | model p =>
    simp only [targets, Option.some.injEq] at ht
    subst ht
    exact ⟨rfl, rfl, rfl, others_of (.model p) .nil .nil .nil, Or.inl ⟨p, Or.inr (Or.inr (Or.inr rfl))⟩⟩

/-! ### One operation -/

theorem setParams_keeps {s : FuncState K C} (p : PyTree K) : (Core.setParams s p).1.cls = s.cls ∧ structure_ (Core.setParams s p).1.params = structure_ s.params ∧
    (Core.setParams s p).1.functionState = s.functionState := by
  unfold Core.setParams
  split
  · exact ⟨rfl, rfl, rfl⟩
  · rename_i h
    exact ⟨rfl, not_not.1 h, rfl⟩

theorem setFunctionState_keeps {s : FuncState K C} (p : PyTree K) : (Core.setFunctionState s p).1.cls = s.cls ∧ (Core.setFunctionState s p).1.params = s.params ∧
    structure_ (Core.setFunctionState s p).1.functionState = structure_ s.functionState := by
  unfold Core.setFunctionState
  split
  · exact ⟨rfl, rfl, rfl⟩
  · rename_i h
    exact ⟨rfl, rfl, not_not.1 h⟩

/-- Class, and structure of params and of function state. -/
def SameArch (n n' : Net K C) : Prop :=
  n'.func.cls = n.func.cls ∧ structure_ n'.func.params = structure_ n.func.params ∧ structure_ n'.func.functionState = structure_ n.func.functionState

theorem SameArch.refl (n : Net K C) : SameArch n n := ⟨rfl, rfl, rfl⟩

theorem SameArch.trans {a b c : Net K C} (h : SameArch a b) (h' : SameArch b c) : SameArch a c :=
  ⟨h'.1.trans h.1, h'.2.1.trans h.2.1, h'.2.2.trans h.2.2⟩

theorem softUpdate_keeps {isInstance : C → C → Bool} (s o : FuncState K C) (tau : K) : (Core.softUpdate isInstance s o tau).1.cls = s.cls ∧
    structure_ (Core.softUpdate isInstance s o tau).1.params = structure_ s.params ∧ structure_ (Core.softUpdate isInstance s o tau).1.functionState = structure_ s.functionState := by
  unfold Core.softUpdate
  split
  · exact ⟨rfl, rfl, rfl⟩
  · split
    · exact ⟨rfl, rfl, rfl⟩
    · rename_i p _
      obtain ⟨h1, h2, h3⟩ := setParams_keeps (s := s) p
      generalize hr : Core.setParams s p = r at h1 h2 h3
      obtain ⟨s1, e | _⟩ := r
      · exact ⟨h1, h2, by rw [h3]⟩
      · simp only at h1 h2 h3 ⊢
        split
        · exact ⟨h1, h2, by rw [h3]⟩
        · rename_i f _
          obtain ⟨g1, g2, g3⟩ := setFunctionState_keeps (s := s1) f
          exact ⟨g1.trans h1, by rw [g2, h2], by rw [g3, h3]⟩

theorem setDerivedParams_keeps (d : Derived K) (n : Net K C) (p : PyTree K) : (setDerivedParams d n p).1.1.kind = d.kind ∧ (setDerivedParams d n p).1.1.q = d.q ∧
    SameArch n (setDerivedParams d n p).1.2 ∧ (setDerivedParams d n p).1.2.rng = n.rng := by
  unfold setDerivedParams
  split
  · exact ⟨rfl, rfl, .refl n, rfl⟩
  · split
    · rename_i x rest _
      obtain ⟨h1, h2, h3⟩ := setParams_keeps (s := n.func) (List.zipWith (fun (a b : String × List K) => (a.1, b.2)) n.func.params rest)
      exact ⟨rfl, rfl, ⟨h1, h2, by rw [h3]⟩, rfl⟩
    · exact ⟨rfl, rfl, .refl n, rfl⟩

/-- The two updaters differ in the state of the optimizer only. -/
def SameCode (u u' : UpdaterObj K M B) : Prop :=
  u'.wiring = u.wiring ∧ u'.compute = u.compute ∧ u'.applyGrads = u.applyGrads ∧ u'.checksOpt = u.checksOpt

theorem SameCode.refl (u : UpdaterObj K M B) : SameCode u u := ⟨rfl, rfl, rfl, rfl⟩

theorem SameCode.trans {a b c : UpdaterObj K M B} (h : SameCode a b) (h' : SameCode b c) : SameCode a c :=
  ⟨h'.1.trans h.1, h'.2.1.trans h.2.1, h'.2.2.1.trans h.2.2.1, h'.2.2.2.trans h.2.2.2⟩

theorem applyGrads_keeps (u : Updater K M B) (s : UState K) (g : Grads K) (fs : PyTree K) :
    structure_ (TD.applyGrads u s g fs).1.params = structure_ s.params ∧ structure_ (TD.applyGrads u s g fs).1.functionState = structure_ s.functionState := by
  unfold TD.applyGrads
  split
  · exact ⟨rfl, rfl⟩
  · rename_i hfs
    have hfs := not_not.1 hfs
    simp only
    split
    · exact ⟨rfl, hfs⟩
    · split
      · exact ⟨rfl, hfs⟩
      · split
        · exact ⟨rfl, hfs⟩
        · rename_i hp
          exact ⟨not_not.1 hp, hfs⟩

theorem updateWith_keeps (u : UpdaterObj K M B) (n : Net K C) (t : Targets K × Targets K) (b : B) : SameCode u (updateWith u n t b).1.1 ∧ SameArch n (updateWith u n t b).1.2 := by
  unfold updateWith
  simp only
  split
  · exact ⟨.refl u, rfl, rfl, rfl⟩
  · split
    · exact ⟨.refl u, rfl, rfl, rfl⟩
    · exact ⟨⟨rfl, rfl, rfl, rfl⟩, rfl, (applyGrads_keeps _ _ _ _).1, (applyGrads_keeps _ _ _ _).2⟩

/-- What one operation does to an existing object. -/
structure StepSpec (w : World K C M B) (op : Op K C M B) (w' : World K C M B) : Prop where
  nets : ∀ (i : Nat) n, w.nets[i]? = some n → ∃ n', w'.nets[i]? = some n' ∧ SameArch n n' ∧ (¬ Writes w op i → n'.func = n.func) ∧ (¬ Draws w op i → n'.rng = n.rng)
  derived : ∀ (j : Nat) d, w.derived[j]? = some d → ∃ d', w'.derived[j]? = some d' ∧ d'.kind = d.kind ∧ d'.q = d.q ∧
    ((∀ x, op ≠ .setValue j x) → (∀ p, op ≠ .setParams (.derived j) p) → d' = d)
  updaters : ∀ (k : Nat) u, w.updaters[k]? = some u → ∃ u', w'.updaters[k]? = some u' ∧ SameCode u u' ∧ ((∀ b, op ≠ .update k b) → u' = u)

theorem keepNet {w : World K C M B} {op : Op K C M B} {nets' : List (Net K C)} (h : nets' = w.nets) : ∀ (i : Nat) n, w.nets[i]? = some n →
    ∃ n', nets'[i]? = some n' ∧ SameArch n n' ∧ (¬ Writes w op i → n'.func = n.func) ∧ (¬ Draws w op i → n'.rng = n.rng) := by
  intro i n hn
  subst h
  exact ⟨n, hn, .refl n, fun _ => rfl, fun _ => rfl⟩

theorem appendNet {w : World K C M B} {op : Op K C M B} (x : Net K C) : ∀ (i : Nat) n, w.nets[i]? = some n →
    ∃ n', (w.nets ++ [x])[i]? = some n' ∧ SameArch n n' ∧ (¬ Writes w op i → n'.func = n.func) ∧ (¬ Draws w op i → n'.rng = n.rng) := by
  intro i n hn
  exact ⟨n, get_append hn x, .refl n, fun _ => rfl, fun _ => rfl⟩

theorem setNet {w : World K C M B} {op : Op K C M B} {k : Nat} {m m' : Net K C} (hm : w.nets[k]? = some m) (ha : SameArch m m')
    (hf : ¬ Writes w op k → m'.func = m.func) (hr : ¬ Draws w op k → m'.rng = m.rng) : ∀ (i : Nat) n, w.nets[i]? = some n →
    ∃ n', (w.nets.set k m')[i]? = some n' ∧ SameArch n n' ∧ (¬ Writes w op i → n'.func = n.func) ∧ (¬ Draws w op i → n'.rng = n.rng) := by
  intro i n hn
  rcases get_set_cases (y := m') hn hm with ⟨rfl, rfl, h⟩ | ⟨_, h⟩
  · exact ⟨m', h, ha, hf, hr⟩
  · exact ⟨n, h, .refl n, fun _ => rfl, fun _ => rfl⟩

theorem keepDerived {l l' : List (Derived K)} {op : Op K C M B} (h : l' = l) : ∀ (j : Nat) d, l[j]? = some d → ∃ d', l'[j]? = some d' ∧ d'.kind = d.kind ∧ d'.q = d.q ∧
    ((∀ x, op ≠ .setValue j x) → (∀ p, op ≠ .setParams (.derived j) p) → d' = d) := by
  intro j d hd
  subst h
  exact ⟨d, hd, rfl, rfl, fun _ _ => rfl⟩

theorem keepUpdaters {l l' : List (UpdaterObj K M B)} {op : Op K C M B} (h : l' = l) : ∀ (k : Nat) u, l[k]? = some u → ∃ u', l'[k]? = some u' ∧ SameCode u u' ∧
    ((∀ b, op ≠ .update k b) → u' = u) := by
  intro k u hu
  subst h
  exact ⟨u, hu, .refl u, fun _ => rfl⟩

theorem step_spec {isInstance : C → C → Bool} {w w' : World K C M B} {op : Op K C M B} {out : Out K M} (h : step isInstance w op = some (w', out)) : StepSpec w op w' := by
  cases op with
  | create s seed =>
    simp only [step, Option.some.injEq, Prod.mk.injEq] at h
    obtain ⟨rfl, -⟩ := h
    exact ⟨appendNet _, keepDerived rfl, keepUpdaters rfl⟩
  | copy i =>
    simp only [step, Option.map_eq_some_iff, Prod.mk.injEq] at h
    obtain ⟨n, hn, rfl, -⟩ := h
    exact ⟨appendNet _, keepDerived rfl, keepUpdaters rfl⟩
  | seed i s =>
    simp only [step, Option.map_eq_some_iff, Prod.mk.injEq] at h
    obtain ⟨n, hn, rfl, -⟩ := h
    exact ⟨setNet hn ⟨rfl, rfl, rfl⟩ (fun _ => rfl) (fun hd => absurd (.seed i s) hd), keepDerived rfl, keepUpdaters rfl⟩
  | derive kind q value =>
    simp only [step, Option.map_eq_some_iff, Prod.mk.injEq] at h
    obtain ⟨n, hn, rfl, -⟩ := h
    exact ⟨keepNet rfl, fun j d hd => ⟨d, get_append hd _, rfl, rfl, fun _ _ => rfl⟩, keepUpdaters rfl⟩
  | setValue j value =>
    simp only [step, Option.map_eq_some_iff, Prod.mk.injEq] at h
    obtain ⟨d, hd, rfl, -⟩ := h
    refine ⟨keepNet rfl, ?_, keepUpdaters rfl⟩
    intro j' d' hd'
    rcases get_set_cases (y := { d with value := value }) hd' hd with ⟨rfl, rfl, h⟩ | ⟨_, h⟩
    · exact ⟨_, h, rfl, rfl, fun h' => absurd rfl (h' value)⟩
    · exact ⟨_, h, rfl, rfl, fun _ _ => rfl⟩
  | setParams f p =>
    cases f with
    | net i =>
      simp only [step, Option.map_eq_some_iff, Prod.mk.injEq] at h
      obtain ⟨n, hn, rfl, -⟩ := h
      obtain ⟨h1, h2, h3⟩ := setParams_keeps (s := n.func) p
      exact ⟨setNet hn ⟨h1, h2, by rw [h3]⟩ (fun hw => absurd (.setParams i p) hw) (fun _ => rfl), keepDerived rfl, keepUpdaters rfl⟩
    | derived j =>
      simp only [step, Option.bind_eq_some_iff, Option.map_eq_some_iff, Prod.mk.injEq] at h
      obtain ⟨d, hd, n, hn, rfl, -⟩ := h
      obtain ⟨h1, h2, h3, h4⟩ := setDerivedParams_keeps d n p
      refine ⟨setNet hn h3 (fun hw => absurd (.setDerivedParams j d p hd) hw) (fun _ => h4), ?_, keepUpdaters rfl⟩
      intro j' d' hd'
      rcases get_set_cases (y := (setDerivedParams d n p).1.1) hd' hd with ⟨rfl, rfl, h⟩ | ⟨_, h⟩
      · exact ⟨_, h, h1, h2, fun _ h' => absurd rfl (h' p)⟩
      · exact ⟨_, h, rfl, rfl, fun _ _ => rfl⟩
  | setFunctionState f p =>
    simp only [step, Option.bind_eq_some_iff, Option.map_eq_some_iff, Prod.mk.injEq] at h
    obtain ⟨i, hi, n, hn, rfl, -⟩ := h
    obtain ⟨h1, h2, h3⟩ := setFunctionState_keeps (s := n.func) p
    have hw : Writes w (.setFunctionState f p) i := by
      cases f with
      | net i' => simp only [keyOf, Option.some.injEq] at hi; subst hi; exact .setState _ p
      | derived j =>
        simp only [keyOf, Option.map_eq_some_iff] at hi
        obtain ⟨d, hd, rfl⟩ := hi
        exact .setDerivedState j d p hd
    exact ⟨setNet hn ⟨h1, by rw [h2], h3⟩ (fun h' => absurd hw h') (fun _ => rfl), keepDerived rfl, keepUpdaters rfl⟩
  | softUpdate i o tau =>
    simp only [step, Option.bind_eq_some_iff, Option.map_eq_some_iff, Prod.mk.injEq] at h
    obtain ⟨n, hn, m, hm, rfl, -⟩ := h
    exact ⟨setNet hn (softUpdate_keeps n.func m.func tau) (fun hw => absurd (.softUpdate i o tau) hw) (fun _ => rfl), keepDerived rfl, keepUpdaters rfl⟩
  | use f =>
    simp only [step, Option.bind_eq_some_iff, Option.map_eq_some_iff, Prod.mk.injEq] at h
    obtain ⟨i, hi, n, hn, v, hv, rfl, -⟩ := h
    have hd : Draws w (.use f) i := by
      cases f with
      | net i' => simp only [keyOf, Option.some.injEq] at hi; subst hi; exact .use _
      | derived j =>
        simp only [keyOf, Option.map_eq_some_iff] at hi
        obtain ⟨d, hd, rfl⟩ := hi
        exact .useDerived j d hd
    exact ⟨setNet hn ⟨rfl, rfl, rfl⟩ (fun _ => rfl) (fun h' => absurd hd h'), keepDerived rfl, keepUpdaters rfl⟩
  | construct u =>
    simp only [step, Option.bind_eq_some_iff, Option.map_eq_some_iff, Prod.mk.injEq] at h
    obtain ⟨n, hn, t, ht, rfl, -⟩ := h
    exact ⟨keepNet rfl, keepDerived rfl, fun k u hu => ⟨u, get_append hu _, .refl u, fun _ => rfl⟩⟩
  | update k b =>
    simp only [step, Option.bind_eq_some_iff, Option.map_eq_some_iff, Prod.mk.injEq] at h
    obtain ⟨u, hu, n, hn, t, ht, rfl, -⟩ := h
    obtain ⟨h1, h2⟩ := updateWith_keeps u n t b
    have ht := (trains_iff u.wiring _).2 rfl
    refine ⟨setNet hn h2 (fun hw => absurd (.update k u b _ hu ht) hw) (fun hw => absurd (.update k u b _ hu ht) hw), keepDerived rfl, ?_⟩
    intro k' u' hu'
    rcases get_set_cases (y := (updateWith u n t b).1.1) hu' hu with ⟨rfl, rfl, h⟩ | ⟨_, h⟩
    · exact ⟨_, h, h1, fun h' => absurd rfl (h' b)⟩
    · exact ⟨_, h, .refl _, fun _ => rfl⟩
  | tdError k b =>
    simp only [step, Option.bind_eq_some_iff, Option.map_eq_some_iff, Prod.mk.injEq] at h
    obtain ⟨u, hu, n, hn, t, ht, rfl, -⟩ := h
    have ht := (trains_iff u.wiring _).2 rfl
    exact ⟨setNet hn ⟨rfl, rfl, rfl⟩ (fun _ => rfl) (fun hw => absurd (.tdError k u b _ hu ht) hw), keepDerived rfl, keepUpdaters rfl⟩

/-! ### Programs -/

/-- The objects of `w` still exist in `w'`, with the same code and the same references. -/
structure Extends (w w' : World K C M B) : Prop where
  nets : ∀ (i : Nat) n, w.nets[i]? = some n → ∃ n', w'.nets[i]? = some n' ∧ SameArch n n'
  derived : ∀ (j : Nat) d, w.derived[j]? = some d → ∃ d', w'.derived[j]? = some d' ∧ d'.kind = d.kind ∧ d'.q = d.q
  updaters : ∀ (k : Nat) u, w.updaters[k]? = some u → ∃ u', w'.updaters[k]? = some u' ∧ SameCode u u'

theorem Extends.refl (w : World K C M B) : Extends w w :=
  ⟨fun _ n h => ⟨n, h, .refl n⟩, fun _ d h => ⟨d, h, rfl, rfl⟩, fun _ u h => ⟨u, h, .refl u⟩⟩

theorem Extends.trans {a b c : World K C M B} (h : Extends a b) (h' : Extends b c) : Extends a c := by
  constructor
  · intro i n hn
    obtain ⟨n1, hn1, h1⟩ := h.nets i n hn
    obtain ⟨n2, hn2, h2⟩ := h'.nets i n1 hn1
    exact ⟨n2, hn2, h1.trans h2⟩
  · intro i n hn
    obtain ⟨n1, hn1, h1, h1'⟩ := h.derived i n hn
    obtain ⟨n2, hn2, h2, h2'⟩ := h'.derived i n1 hn1
    exact ⟨n2, hn2, h2.trans h1, h2'.trans h1'⟩
  · intro i n hn
    obtain ⟨n1, hn1, h1⟩ := h.updaters i n hn
    obtain ⟨n2, hn2, h2⟩ := h'.updaters i n1 hn1
    exact ⟨n2, hn2, h1.trans h2⟩

theorem StepSpec.extends {w w' : World K C M B} {op : Op K C M B} (h : StepSpec w op w') : Extends w w' :=
  ⟨fun i n hn => (h.nets i n hn).imp fun _ h => ⟨h.1, h.2.1⟩, fun j d hd => (h.derived j d hd).imp fun _ h => ⟨h.1, h.2.1, h.2.2.1⟩,
    fun k u hu => (h.updaters k u hu).imp fun _ h => ⟨h.1, h.2.1⟩⟩

theorem Writes.mono {w w' : World K C M B} (h : Extends w w') {op : Op K C M B} {i : Nat} (hw : Writes w op i) : Writes w' op i := by
  cases hw with
  | setParams i p => exact .setParams i p
  | setDerivedParams j d p hd =>
    obtain ⟨d', hd', -, hq⟩ := h.derived j d hd
    rw [← hq]; exact .setDerivedParams j d' p hd'
  | setState i p => exact .setState i p
  | setDerivedState j d p hd =>
    obtain ⟨d', hd', -, hq⟩ := h.derived j d hd
    rw [← hq]; exact .setDerivedState j d' p hd'
  | softUpdate i o t => exact .softUpdate i o t
  | update k u b i hu ht =>
    obtain ⟨u', hu', hc⟩ := h.updaters k u hu
    exact .update k u' b i hu' (by rw [hc.1]; exact ht)

theorem Draws.mono {w w' : World K C M B} (h : Extends w w') {op : Op K C M B} {i : Nat} (hw : Draws w op i) : Draws w' op i := by
  cases hw with
  | seed i s => exact .seed i s
  | use i => exact .use i
  | useDerived j d hd =>
    obtain ⟨d', hd', -, hq⟩ := h.derived j d hd
    rw [← hq]; exact .useDerived j d' hd'
  | update k u b i hu ht =>
    obtain ⟨u', hu', hc⟩ := h.updaters k u hu
    exact .update k u' b i hu' (by rw [hc.1]; exact ht)
  | tdError k u b i hu ht =>
    obtain ⟨u', hu', hc⟩ := h.updaters k u hu
    exact .tdError k u' b i hu' (by rw [hc.1]; exact ht)

theorem run_cons {isInstance : C → C → Bool} {w w' : World K C M B} {op : Op K C M B} {ops : List (Op K C M B)} {outs : List (Out K M)}
    (h : run isInstance w (op :: ops) = some (w', outs)) :
    ∃ w1 o os, step isInstance w op = some (w1, o) ∧ run isInstance w1 ops = some (w', os) ∧ outs = o :: os := by
  simp only [run, Option.bind_eq_some_iff, Option.map_eq_some_iff, Prod.mk.injEq] at h
  obtain ⟨⟨w1, o⟩, h1, ⟨w2, os⟩, h2, rfl, rfl⟩ := h
  exact ⟨w1, o, os, h1, h2, rfl⟩

/-- C120.  Objects never disappear, and never change class, architecture, q-function, code or references. -/
theorem C120_references {isInstance : C → C → Bool} {w w' : World K C M B} {ops : List (Op K C M B)} {outs : List (Out K M)} (h : run isInstance w ops = some (w', outs)) :
    Extends w w' := by
  induction ops generalizing w outs with
  | nil => simp only [run, Option.some.injEq, Prod.mk.injEq] at h; obtain ⟨rfl, -⟩ := h; exact .refl w
  | cons op ops ih =>
    obtain ⟨w1, o, os, h1, h2, -⟩ := run_cons h
    exact (step_spec h1).extends.trans (ih h2)

/-- C120.  Whatever a program does, whether or not it raises exceptions: the weights of a function are those that it had before, unless the program itself sets or smooths them, sets
those of a policy derived from it, or calls `update` of an updater that trains it. -/
theorem C120_weights {isInstance : C → C → Bool} {w w' : World K C M B} {ops : List (Op K C M B)} {outs : List (Out K M)} (h : run isInstance w ops = some (w', outs))
    {i : Nat} {n : Net K C} (hn : w.nets[i]? = some n) (hops : ∀ op ∈ ops, ¬ Writes w' op i) : ∃ n', w'.nets[i]? = some n' ∧ n'.func = n.func := by
  induction ops generalizing w outs n with
  | nil => simp only [run, Option.some.injEq, Prod.mk.injEq] at h; obtain ⟨rfl, -⟩ := h; exact ⟨n, hn, rfl⟩
  | cons op ops ih =>
    obtain ⟨w1, o, os, h1, h2, -⟩ := run_cons h
    have hs := step_spec h1
    have he := hs.extends.trans (C120_references h2)
    obtain ⟨n1, hn1, -, hf, -⟩ := hs.nets i n hn
    obtain ⟨n2, hn2, hf2⟩ := ih h2 hn1 (fun op hop => hops op (List.mem_cons_of_mem _ hop))
    exact ⟨n2, hn2, hf2.trans (hf (fun hw => hops op List.mem_cons_self (hw.mono he)))⟩

/-- C120.  The keys of a function are used only by its own calls, those of policies derived from it, and those of updaters that train it. -/
theorem C120_keys {isInstance : C → C → Bool} {w w' : World K C M B} {ops : List (Op K C M B)} {outs : List (Out K M)} (h : run isInstance w ops = some (w', outs))
    {i : Nat} {n : Net K C} (hn : w.nets[i]? = some n) (hops : ∀ op ∈ ops, ¬ Draws w' op i) : ∃ n', w'.nets[i]? = some n' ∧ n'.rng = n.rng := by
  induction ops generalizing w outs n with
  | nil => simp only [run, Option.some.injEq, Prod.mk.injEq] at h; obtain ⟨rfl, -⟩ := h; exact ⟨n, hn, rfl⟩
  | cons op ops ih =>
    obtain ⟨w1, o, os, h1, h2, -⟩ := run_cons h
    have hs := step_spec h1
    have he := hs.extends.trans (C120_references h2)
    obtain ⟨n1, hn1, -, -, hf⟩ := hs.nets i n hn
    obtain ⟨n2, hn2, hf2⟩ := ih h2 hn1 (fun op hop => hops op (List.mem_cons_of_mem _ hop))
    exact ⟨n2, hn2, hf2.trans (hf (fun hw => hops op List.mem_cons_self (hw.mono he)))⟩

/-- C120.  The state of an optimizer changes only in updates of its own updater, also if several updaters train the same function. -/
theorem C120_optimizers {isInstance : C → C → Bool} {w w' : World K C M B} {ops : List (Op K C M B)} {outs : List (Out K M)} (h : run isInstance w ops = some (w', outs))
    {k : Nat} {u : UpdaterObj K M B} (hu : w.updaters[k]? = some u) (hops : ∀ b, Op.update k b ∉ ops) : w'.updaters[k]? = some u := by
  induction ops generalizing w outs with
  | nil => simp only [run, Option.some.injEq, Prod.mk.injEq] at h; obtain ⟨rfl, -⟩ := h; exact hu
  | cons op ops ih =>
    obtain ⟨w1, o, os, h1, h2, -⟩ := run_cons h
    obtain ⟨u', hu', -, hk⟩ := (step_spec h1).updaters k u hu
    rw [hk (fun b hb => hops b (by rw [hb]; exact List.mem_cons_self))] at hu'
    exact ih h2 hu' (fun b hb => hops b (List.mem_cons_of_mem _ hb))

/-- C120.  The `epsilon` or `temperature` of a derived policy changes only where a program sets it. -/
theorem C120_exploration {isInstance : C → C → Bool} {w w' : World K C M B} {ops : List (Op K C M B)} {outs : List (Out K M)} (h : run isInstance w ops = some (w', outs))
    {j : Nat} {d : Derived K} (hd : w.derived[j]? = some d) (hv : ∀ x, Op.setValue j x ∉ ops) (hp : ∀ p, Op.setParams (.derived j) p ∉ ops) : w'.derived[j]? = some d := by
  induction ops generalizing w outs with
  | nil => simp only [run, Option.some.injEq, Prod.mk.injEq] at h; obtain ⟨rfl, -⟩ := h; exact hd
  | cons op ops ih =>
    obtain ⟨w1, o, os, h1, h2, -⟩ := run_cons h
    obtain ⟨d', hd', -, -, hk⟩ := (step_spec h1).derived j d hd
    rw [hk (fun b hb => hv b (by rw [hb]; exact List.mem_cons_self)) (fun b hb => hp b (by rw [hb]; exact List.mem_cons_self))] at hd'
    exact ih h2 hd' (fun b hb => hv b (List.mem_cons_of_mem _ hb)) (fun b hb => hp b (List.mem_cons_of_mem _ hb))

/-! ### Updates -/

/-- How an update can end, given what it is computed with: the function is trained, or there is an exception; its params change in the first case only. -/
inductive Outcome (u : UpdaterObj K M B) (n : Net K C) (g : Given K) (b : B) : Out K M → Net K C → UpdaterObj K M B → Prop
  | trained (gr : Grads K) (fs : PyTree K) (m : M) (opt p : PyTree K) : u.compute g b = .ok (gr, fs, m) → (∀ leaf ∈ gr, none ∉ leaf.2) →
      fs.map Prod.fst = n.func.functionState.map Prod.fst → u.applyGrads u.optState n.func.params gr = .ok (opt, p) →
      (u.checksOpt = true → opt.map Prod.fst = u.optState.map Prod.fst) → p.map Prod.fst = n.func.params.map Prod.fst →
      Outcome u n g b (.metrics m) ⟨⟨n.func.cls, p, fs⟩, ⟨n.rng.randomSeed, .fst n.rng.randomKey⟩⟩ { u with optState := opt }
  | noGradients (e : Err) : u.compute g b = .error e → Outcome u n g b (.error e) ⟨n.func, ⟨n.rng.randomSeed, .fst n.rng.randomKey⟩⟩ u
  | nan (gr : Grads K) (fs : PyTree K) (m : M) : u.compute g b = .ok (gr, fs, m) → (∃ leaf ∈ gr, none ∈ leaf.2) →
      Outcome u n g b (.error .runtimeError) ⟨n.func, ⟨n.rng.randomSeed, .fst n.rng.randomKey⟩⟩ u
  | otherState (gr : Grads K) (fs : PyTree K) (m : M) : u.compute g b = .ok (gr, fs, m) → fs.map Prod.fst ≠ n.func.functionState.map Prod.fst →
      Outcome u n g b (.error .typeError) ⟨n.func, ⟨n.rng.randomSeed, .fst n.rng.randomKey⟩⟩ u
  | optimizer (gr : Grads K) (fs : PyTree K) (m : M) (e : Err) : u.compute g b = .ok (gr, fs, m) → u.applyGrads u.optState n.func.params gr = .error e →
      Outcome u n g b (.error e) ⟨⟨n.func.cls, n.func.params, fs⟩, ⟨n.rng.randomSeed, .fst n.rng.randomKey⟩⟩ u
  | otherOptimizer (gr : Grads K) (fs : PyTree K) (m : M) (opt p : PyTree K) : u.compute g b = .ok (gr, fs, m) →
      u.applyGrads u.optState n.func.params gr = .ok (opt, p) → opt.map Prod.fst ≠ u.optState.map Prod.fst →
      Outcome u n g b (.error .attributeError) ⟨⟨n.func.cls, n.func.params, fs⟩, ⟨n.rng.randomSeed, .fst n.rng.randomKey⟩⟩ u
  | otherParams (gr : Grads K) (fs : PyTree K) (m : M) (opt p : PyTree K) : u.compute g b = .ok (gr, fs, m) →
      u.applyGrads u.optState n.func.params gr = .ok (opt, p) → p.map Prod.fst ≠ n.func.params.map Prod.fst →
      Outcome u n g b (.error .typeError) ⟨⟨n.func.cls, n.func.params, fs⟩, ⟨n.rng.randomSeed, .fst n.rng.randomKey⟩⟩ { u with optState := opt }

theorem hasNaN_iff (g : Grads K) : hasNaN g = true ↔ ∃ leaf ∈ g, none ∈ leaf.2 := by
  simp only [hasNaN, List.any_eq_true, Option.isNone_iff_eq_none]
  constructor
  · rintro ⟨l, hl, x, hx, rfl⟩; exact ⟨l, hl, hx⟩
  · rintro ⟨l, hl, hx⟩; exact ⟨l, hl, none, hx, rfl⟩

theorem updateWith_outcome (u : UpdaterObj K M B) (n : Net K C) (t : Targets K × Targets K) (b : B) :
    Outcome u n ⟨n.func.params, t.1, n.func.functionState, t.2, n.rng.rng.2⟩ b (updateWith u n t b).2 (updateWith u n t b).1.2 (updateWith u n t b).1.1 := by
  unfold updateWith
  simp only
  split
  · rename_i e he
    exact .noGradients e he
  · rename_i gr fs m he
    split
    · rename_i hn
      exact .nan gr fs m he ((hasNaN_iff gr).1 hn)
    · rename_i hn
      have hn : ∀ leaf ∈ gr, none ∉ leaf.2 := fun leaf hl hx => hn ((hasNaN_iff gr).2 ⟨leaf, hl, hx⟩)
      unfold TD.applyGrads
      simp only
      by_cases hfs : structure_ fs = structure_ n.func.functionState
      · rw [if_neg (not_not.2 hfs)]
        cases ha : u.applyGrads u.optState n.func.params gr with
        | error e => exact .optimizer gr fs m e he ha
        | ok r =>
          obtain ⟨opt, p⟩ := r
          simp only
          by_cases ho : u.checksOpt = true ∧ structure_ opt ≠ structure_ u.optState
          · rw [if_pos ho]
            exact .otherOptimizer gr fs m opt p he ha ho.2
          · rw [if_neg ho]
            have ho : u.checksOpt = true → structure_ opt = structure_ u.optState := fun hc => by
              by_contra hx; exact ho ⟨hc, hx⟩
            by_cases hp : structure_ p = structure_ n.func.params
            · rw [if_neg (not_not.2 hp)]
              exact .trained gr fs m opt p he hn hfs ha ho hp
            · rw [if_pos hp]
              exact .otherParams gr fs m opt p he ha hp
      · rw [if_pos hfs]
        exact .otherState gr fs m he hfs

theorem step_update {isInstance : C → C → Bool} {w w' : World K C M B} {k : Nat} {b : B} {out : Out K M} (h : step isInstance w (.update k b) = some (w', out)) :
    ∃ u n t, w.updaters[k]? = some u ∧ w.nets[u.wiring.trains]? = some n ∧ targets w u.wiring = some t ∧
      w' = { w with updaters := w.updaters.set k (updateWith u n t b).1.1, nets := w.nets.set u.wiring.trains (updateWith u n t b).1.2 } ∧ out = (updateWith u n t b).2 := by
  simp only [step, Option.bind_eq_some_iff, Option.map_eq_some_iff, Prod.mk.injEq] at h
  obtain ⟨u, hu, n, hn, t, ht, rfl, rfl⟩ := h
  exact ⟨u, n, t, hu, hn, ht, rfl, rfl⟩

/-- C120.  An update is computed with the current weights of the trained function, a new key of it, and what the functions named in the constructor show at this moment; it trains that
function and changes the state of its own optimizer, or it raises an exception and leaves the params alone. -/
theorem C120_update {isInstance : C → C → Bool} {w w' : World K C M B} {k : Nat} {b : B} {out : Out K M} (h : step isInstance w (.update k b) = some (w', out)) :
    ∃ u i n g u' n', w.updaters[k]? = some u ∧ Trains u.wiring i ∧ w.nets[i]? = some n ∧ IsGiven w u.wiring n g ∧
      w'.updaters[k]? = some u' ∧ w'.nets[i]? = some n' ∧ Outcome u n g b out n' u' := by
  obtain ⟨u, n, t, hu, hn, ht, rfl, rfl⟩ := step_update h
  exact ⟨u, u.wiring.trains, n, _, _, _, hu, (trains_iff _ _).2 rfl, hn, targets_given hn ht, get_set hu _, get_set hn _, updateWith_outcome u n t b⟩

/-- The functions that an updater refers to besides the one that it trains. -/
def Refers (u : Wiring) (f : Fn) : Prop := ∃ ts ps rs, Roles u ts ps rs ∧ (f ∈ ts ∨ f ∈ ps ∨ f ∈ rs)

theorem view_congr {w1 w2 : World K C M B} {f : Fn} (h : ∀ v, Shows w1 f v ↔ Shows w2 f v) : view w1 f = view w2 f := by
  ext v
  simp only [viewShows, h v]

theorem viewAll_congr {w1 w2 : World K C M B} {fs : List Fn} (h : ∀ f ∈ fs, ∀ v, Shows w1 f v ↔ Shows w2 f v) : viewAll w1 fs = viewAll w2 fs := by
  induction fs with
  | nil => rfl
  | cons f fs ih =>
    simp only [viewAll]
    rw [view_congr (h f List.mem_cons_self), ih (fun f hf => h f (List.mem_cons_of_mem _ hf))]

theorem viewOpt_congr {w1 w2 : World K C M B} {f : Option Fn} (h : ∀ g ∈ f.toList, ∀ v, Shows w1 g v ↔ Shows w2 g v) : viewOpt w1 f = viewOpt w2 f := by
  cases f with
  | none => rfl
  | some f => simp only [viewOpt]; rw [view_congr (h f (by simp))]

theorem targets_congr {w1 w2 : World K C M B} {u : Wiring} {n : Net K C} (h1 : w1.nets[u.trains]? = some n) (h2 : w2.nets[u.trains]? = some n)
    (h : ∀ f, Refers u f → ∀ v, Shows w1 f v ↔ Shows w2 f v) : targets w1 u = targets w2 u := by
  have hown : view w1 (.net u.trains) = view w2 (.net u.trains) := by simp [view, h1, h2]
  cases u with
  | tdV v vTarg reg =>
    simp only [targets]
    simp only [Wiring.trains] at hown
    cases vTarg with
    | none =>
      rw [Option.getD_none, hown, viewOpt_congr (fun g hg => h g ⟨_, _, _, .tdV v reg, Or.inr (Or.inr hg)⟩)]
    | some y =>
      rw [Option.getD_some, hown, view_congr (h (.net y) ⟨_, _, _, .tdVTarg v y reg, by simp⟩), viewOpt_congr (fun g hg => h g ⟨_, _, _, .tdVTarg v y reg, Or.inr (Or.inr hg)⟩)]
  | tdQ q qTarg reg =>
    simp only [targets]
    simp only [Wiring.trains] at hown
    cases qTarg with
    | none =>
      rw [Option.getD_none, hown, viewOpt_congr (fun g hg => h g ⟨_, _, _, .tdQ q reg, Or.inr (Or.inr hg)⟩)]
    | some y =>
      rw [Option.getD_some, hown, view_congr (h (.net y) ⟨_, _, _, .tdQTarg q y reg, by simp⟩), viewOpt_congr (fun g hg => h g ⟨_, _, _, .tdQTarg q y reg, Or.inr (Or.inr hg)⟩)]
  | tdQPi q p qTarg reg =>
    simp only [targets]
    simp only [Wiring.trains] at hown
    cases qTarg with
    | none =>
      rw [Option.getD_none, hown, viewOpt_congr (f := p) (fun g hg => h g ⟨_, _, _, .tdQPi q p reg, Or.inr (Or.inl hg)⟩),
        viewOpt_congr (f := reg) (fun g hg => h g ⟨_, _, _, .tdQPi q p reg, Or.inr (Or.inr hg)⟩)]
    | some y =>
      rw [Option.getD_some, hown, view_congr (h (.net y) ⟨_, _, _, .tdQPiTarg q p y reg, by simp⟩),
        viewOpt_congr (f := p) (fun g hg => h g ⟨_, _, _, .tdQPiTarg q p y reg, Or.inr (Or.inl hg)⟩),
        viewOpt_congr (f := reg) (fun g hg => h g ⟨_, _, _, .tdQPiTarg q p y reg, Or.inr (Or.inr hg)⟩)]
  | clipped q ps qs reg =>
    simp only [targets]
    simp only [Wiring.trains] at hown
    rw [hown, viewAll_congr (fun g hg => h g ⟨_, _, _, .clipped q ps qs reg, Or.inl hg⟩), viewAll_congr (fun g hg => h g ⟨_, _, _, .clipped q ps qs reg, Or.inr (Or.inl hg)⟩),
      viewOpt_congr (fun g hg => h g ⟨_, _, _, .clipped q ps qs reg, Or.inr (Or.inr hg)⟩)]
  | objective pi => rfl
  | deterministicPG pi q =>
    simp only [targets]
    rw [view_congr (h (.net q) ⟨_, _, _, .deterministicPG pi q, by simp⟩)]
  | softPG pi qs =>
    simp only [targets]
    rw [viewAll_congr (fun g hg => h g ⟨_, _, _, .softPG pi qs, Or.inl hg⟩)]
  | model p => rfl

/-- C120.  Nothing else enters: in two programs in which the updater and the function that it trains are the same and the other functions that it refers to show the same, an update has
the same outcome, whatever other objects there are. -/
theorem C120_depends {isInstance : C → C → Bool} {w1 w2 w1' w2' : World K C M B} {k : Nat} {b : B} {out1 out2 : Out K M} {u : UpdaterObj K M B} {i : Nat} {n : Net K C}
    (hu1 : w1.updaters[k]? = some u) (hu2 : w2.updaters[k]? = some u) (hi : Trains u.wiring i) (hn1 : w1.nets[i]? = some n) (hn2 : w2.nets[i]? = some n)
    (hf : ∀ f, Refers u.wiring f → ∀ v, Shows w1 f v ↔ Shows w2 f v)
    (h1 : step isInstance w1 (.update k b) = some (w1', out1)) (h2 : step isInstance w2 (.update k b) = some (w2', out2)) :
    out1 = out2 ∧ w1'.nets[i]? = w2'.nets[i]? ∧ w1'.updaters[k]? = w2'.updaters[k]? := by
  rw [trains_iff] at hi
  subst hi
  obtain ⟨u1, n1, t1, hu1', hn1', ht1, rfl, rfl⟩ := step_update h1
  obtain ⟨u2, n2, t2, hu2', hn2', ht2, rfl, rfl⟩ := step_update h2
  rw [hu1] at hu1'; cases hu1'
  rw [hu2] at hu2'; cases hu2'
  rw [hn1] at hn1'; cases hn1'
  rw [hn2] at hn2'; cases hn2'
  rw [targets_congr hn1 hn2 hf, ht2] at ht1
  cases ht1
  exact ⟨rfl, by rw [get_set hn1, get_set hn2], by rw [get_set hu1, get_set hu2]⟩

/-! ### Targets, copies and derived policies -/

theorem zip_get {α β : Type _} {l : List α} {l' : List β} {p : Nat} {x : α × β} (h : (l.zip l')[p]? = some x) : l[p]? = some x.1 ∧ l'[p]? = some x.2 := by
  rw [List.getElem?_zip_eq_some] at h
  exact h

theorem forall2_get {α β : Type _} {R : α → β → Prop} {l : List α} {l' : List β} (h : List.Forall₂ R l l') {p : Nat} {x : α} (hx : l[p]? = some x) :
    ∃ y, l'[p]? = some y ∧ R x y := by
  induction h generalizing p with
  | nil => simp at hx
  | cons h1 _ ih =>
    cases p with
    | zero => simp only [List.getElem?_cons_zero, Option.some.injEq] at hx; subst hx; exact ⟨_, rfl, h1⟩
    | succ p => exact ih (by simpa using hx)

theorem roles_unique {u : Wiring} {a b c a' b' c' : List Fn} (h : Roles u a b c) (h' : Roles u a' b' c') : a = a' ∧ b = b' ∧ c = c' := by
  cases h <;> cases h' <;> exact ⟨rfl, rfl, rfl⟩

/-- C120.  As long as nobody writes to a target function, every update with that target is computed with the same weights of it, whatever is trained in between. -/
theorem C120_target_fixed {isInstance : C → C → Bool} {w w' : World K C M B} {ops : List (Op K C M B)} {outs : List (Out K M)} (h : run isInstance w ops = some (w', outs))
    {t : Nat} {n : Net K C} (hn : w.nets[t]? = some n) (hops : ∀ op ∈ ops, ¬ Writes w' op t)
    {u : Wiring} {m : Net K C} {g : Given K} (hg : IsGiven w' u m g) {ts ps rs : List Fn} (hR : Roles u ts ps rs) {p : Nat} :
    (ts[p]? = some (.net t) → g.targets.targ[p]? = some n.func.params ∧ g.targetState.targ[p]? = some n.func.functionState) ∧
    (ps[p]? = some (.net t) → g.targets.pi[p]? = some n.func.params ∧ g.targetState.pi[p]? = some n.func.functionState) := by
  obtain ⟨n', hn', hf⟩ := C120_weights h hn hops
  obtain ⟨ts', ps', rs', hR', ht, -, -, hp, -, -, -⟩ := hg.others
  obtain ⟨rfl, rfl, rfl⟩ := roles_unique hR hR'
  constructor
  · intro hx
    obtain ⟨y, hy, hs⟩ := forall2_get ht hx
    cases hs with
    | net _ n2 h2 =>
      rw [hn'] at h2; cases h2
      rw [← hf]
      exact zip_get hy
  · intro hx
    obtain ⟨y, hy, hs⟩ := forall2_get hp hx
    cases hs with
    | net _ n2 h2 =>
      rw [hn'] at h2; cases h2
      rw [← hf]
      exact zip_get hy

/-- C120.  A copy is a new object with the weights that the original has at that moment.  From then on neither follows the other: training the original does not change the copy, and
writing to the copy does not change the original. -/
theorem C120_copy {isInstance : C → C → Bool} {w w1 w2 : World K C M B} {i : Nat} {o : Out K M} {ops : List (Op K C M B)} {outs : List (Out K M)} {n : Net K C}
    (hn : w.nets[i]? = some n) (hc : step isInstance w (.copy i) = some (w1, o)) (h : run isInstance w1 ops = some (w2, outs)) :
    i ≠ w.nets.length ∧ w1.nets[w.nets.length]? = some n ∧ w1.nets[i]? = some n ∧
    ((∀ op ∈ ops, ¬ Writes w2 op w.nets.length) → ∃ n', w2.nets[w.nets.length]? = some n' ∧ n'.func = n.func) ∧
    ((∀ op ∈ ops, ¬ Writes w2 op i) → ∃ n', w2.nets[i]? = some n' ∧ n'.func = n.func) := by
  simp only [step, hn, Option.map_some, Option.some.injEq, Prod.mk.injEq] at hc
  obtain ⟨rfl, -⟩ := hc
  have h1 : (w.nets ++ [n])[w.nets.length]? = some n := by simp
  have h2 := get_append hn n
  refine ⟨?_, h1, h2, fun hw => C120_weights h h1 hw, fun hw => C120_weights h h2 hw⟩
  rintro rfl
  simp at hn

/-- C120.  Without a target function the targets are computed with the current weights of the trained function itself. -/
theorem C120_no_target {w : World K C M B} {q : Nat} {p reg : Option Fn} {n : Net K C} {g : Given K} (hn : w.nets[q]? = some n)
    (hg : IsGiven w (.tdQPi q p none reg) n g ∨ IsGiven w (.tdQ q none reg) n g ∨ IsGiven w (.tdV q none reg) n g) :
    g.targets.targ = [g.params] ∧ g.targetState.targ = [g.functionState] := by
  have key : ∀ {u ps rs}, Roles u [.net q] ps rs → IsGiven w u n g → g.targets.targ = [g.params] ∧ g.targetState.targ = [g.functionState] := by
    intro u ps rs hR hg
    obtain ⟨ts', ps', rs', hR', ht, hl1, hl2, -⟩ := hg.others
    obtain ⟨rfl, rfl, rfl⟩ := roles_unique hR hR'
    obtain ⟨a, ha⟩ := List.length_eq_one_iff.1 hl1
    obtain ⟨c, hc⟩ := List.length_eq_one_iff.1 hl2
    rw [ha, hc] at ht ⊢
    cases ht with
    | cons h1 _ =>
      cases h1 with
      | net _ n2 h2 =>
        rw [hn] at h2; cases h2
        rw [hg.params, hg.state]
        exact ⟨rfl, rfl⟩
  rcases hg with hg | hg | hg
  · exact key (.tdQPi q p reg) hg
  · exact key (.tdQ q reg) hg
  · exact key (.tdV q reg) hg

/-- C120.  A derived policy always acts by the current weights of its q-function, with a key of it: after any program, its next call uses them. -/
theorem C120_derived {isInstance : C → C → Bool} {w w1 w2 : World K C M B} {ops : List (Op K C M B)} {outs : List (Out K M)} {j : Nat} {d : Derived K} {out : Out K M}
    (h : run isInstance w ops = some (w1, outs)) (hd : w.derived[j]? = some d) (hu : step isInstance w1 (.use (.derived j)) = some (w2, out)) :
    ∃ d' n name, w1.derived[j]? = some d' ∧ w1.nets[d.q]? = some n ∧ (d.kind = .epsilonGreedy → name = "epsilon") ∧ (d.kind = .boltzmann → name = "temperature") ∧
      out = .used ((name, [d'.value]) :: n.func.params.map (fun x => ("q/" ++ x.1, x.2))) n.func.functionState (.snd n.rng.randomKey) := by
  obtain ⟨d', hd', hk, hq⟩ := (C120_references h).derived j d hd
  simp only [step, keyOf, hd', Option.map_some, Option.bind_some, Option.bind_eq_some_iff, Option.map_eq_some_iff, Prod.mk.injEq, view] at hu
  obtain ⟨n, hn, v, ⟨n2, hn2, rfl⟩, -, rfl⟩ := hu
  rw [hn] at hn2; cases hn2
  refine ⟨d', n, d'.kind.label, hd', by rw [← hq]; exact hn, ?_, ?_, rfl⟩
  · intro h1; rw [hk, h1]; rfl
  · intro h1; rw [hk, h1]; rfl

end Coax.Agent
