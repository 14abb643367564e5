import Verif.Core.Outputs

/-! Property C115: constructors accept exactly the networks whose outputs have the documented structure and shapes. -/

namespace Coax.Core

/-! ### Specification -/

/-- A jax array of the given shape. -/
def ArrayOf (shape : List Nat) : PTree OutLeaf → Prop
  | .leaf x => x.isArray = true ∧ x.shape = shape
  | .node _ _ => False

/-- A jax array of floats of the given shape. -/
def FloatArray (shape : List Nat) (t : PTree OutLeaf) : Prop := ∃ x, t = .leaf x ∧ x.isArray = true ∧ x.floating = true ∧ x.shape = shape

mutual
/-- The parameters of a distribution, for variates with leading axes `lead`, as documented. -/
def HasParams (lead : List Nat) : DistK → PTree OutLeaf → Prop
  | .cat n, .node k [a] => k = .dict ["logits"] ∧ ArrayOf (lead ++ [n]) a
  | .normal shape, .node k [a, b] => k = .dict ["logvar", "mu"] ∧ ArrayOf (lead ++ shape) a ∧ ArrayOf (lead ++ shape) b
  | .quantiles m, .node k [a, b] => k = .dict ["quantile_fractions", "values"] ∧ ArrayOf (lead ++ [m]) a ∧ ArrayOf (lead ++ [m]) b
  | .list ds, .node k l => k = .tuple ∧ HasParamsList lead ds l
  | .dict keys ds, .node k l => k = .dict keys ∧ HasParamsList lead ds l
  | _, _ => False
def HasParamsList (lead : List Nat) : List DistK → List (PTree OutLeaf) → Prop
  | [], [] => True
  | d :: ds, t :: ts => HasParams lead d t ∧ HasParamsList lead ds ts
  | _, _ => False
end

mutual
/-- States like the preprocessed ones, with other leading axes. -/
def HasRows (lead : List Nat) : PTree (List Nat) → PTree OutLeaf → Prop
  | .leaf sh, t => ArrayOf (lead ++ sh.tail) t
  | .node k l, .node k' l' => k' = k ∧ HasRowsList lead l l'
  | .node _ _, .leaf _ => False
def HasRowsList (lead : List Nat) : List (PTree (List Nat)) → List (PTree OutLeaf) → Prop
  | [], [] => True
  | s :: ss, t :: ts => HasRows lead s t ∧ HasRowsList lead ss ts
  | _, _ => False
end

/-- The documented outputs for a batch of `B` rows. -/
def Documented (B : Nat) : FKind → PTree OutLeaf → Prop
  | .v, t => FloatArray [B] t
  | .q1, t => FloatArray [B] t
  | .q2 n, t => FloatArray [B, n] t
  | .stochS d, t => HasParams [B] d t
  | .stochSA1 d, t => HasParams [B] d t
  | .stochSA2 d n, t => HasParams [B, n] d t
  | .model1 S, t => HasRows [B] S t
  | .model2 S n, t => HasRows [B, n] S t

/-- A leaf with the first axis replaced. -/
def setRows (B : Nat) (x : OutLeaf) : OutLeaf := { x with shape := B :: x.shape.tail }

/-- The network treats rows alike: the batch size is the size of the first axis of every leaf, and nothing else depends on it or on `is_training`. -/
def Rowwise (net : Nat → Bool → PTree OutLeaf) : Prop := ∀ B t, net B t = (net 1 true).map (setRows B)

/-! ### Lemmas -/

mutual
/-- Leaf by leaf a jax array of the expected shape. -/
def Fits : PTree OutLeaf → PTree (List Nat) → Prop
  | t, .leaf sh => ArrayOf sh t
  | .node k l, .node k' l' => k = k' ∧ FitsList l l'
  | .leaf _, .node _ _ => False
def FitsList : List (PTree OutLeaf) → List (PTree (List Nat)) → Prop
  | [], [] => True
  | t :: ts, u :: us => Fits t u ∧ FitsList ts us
  | _, _ => False
end

mutual
theorem leaves_length {α β : Type _} : ∀ (t : PTree α) (u : PTree β), t.sameStructure u = true → t.leaves.length = u.leaves.length
  | .leaf _, .leaf _, _ => by simp [PTree.leaves]
  | .node k l, .node k' l', h => by
    rw [PTree.sameStructure, Bool.and_eq_true] at h
    rw [PTree.leaves, PTree.leaves]
    exact leaves_lengthList l l' h.2
  | .leaf _, .node _ _, h => by simp [PTree.sameStructure] at h
  | .node _ _, .leaf _, h => by simp [PTree.sameStructure] at h
theorem leaves_lengthList {α β : Type _} : ∀ (l : List (PTree α)) (l' : List (PTree β)), PTree.sameStructures l l' = true → (PTree.leavesList l).length = (PTree.leavesList l').length
  | [], [], _ => by simp [PTree.leavesList]
  | t :: ts, u :: us, h => by
    rw [PTree.sameStructures, Bool.and_eq_true] at h
    rw [PTree.leavesList, PTree.leavesList, List.length_append, List.length_append, leaves_length t u h.1, leaves_lengthList ts us h.2]
  | [], _ :: _, h => by simp [PTree.sameStructures] at h
  | _ :: _, [], h => by simp [PTree.sameStructures] at h
end

mutual
theorem fits_iff : ∀ (t : PTree OutLeaf) (u : PTree (List Nat)), Fits t u ↔ t.sameStructure u = true ∧ t.leaves.all OutLeaf.isArray = true ∧
    ((t.leaves.zip u.leaves).all fun p => decide (p.1.shape = p.2)) = true
  | .leaf x, .leaf sh => by simp [Fits, ArrayOf, PTree.sameStructure, PTree.leaves]
  | .node k l, .node k' l' => by
    rw [Fits, fitsList_iff l l', PTree.sameStructure, PTree.leaves, PTree.leaves, Bool.and_eq_true, decide_eq_true_eq, and_assoc]
  | .leaf x, .node k l => by simp [Fits, PTree.sameStructure]
  | .node k l, .leaf sh => by simp [Fits, ArrayOf, PTree.sameStructure]
theorem fitsList_iff : ∀ (l : List (PTree OutLeaf)) (l' : List (PTree (List Nat))), FitsList l l' ↔ PTree.sameStructures l l' = true ∧ (PTree.leavesList l).all OutLeaf.isArray = true ∧
    (((PTree.leavesList l).zip (PTree.leavesList l')).all fun p => decide (p.1.shape = p.2)) = true
  | [], [] => by simp [FitsList, PTree.sameStructures, PTree.leavesList]
  | t :: ts, u :: us => by
    rw [FitsList, fits_iff t u, fitsList_iff ts us, PTree.sameStructures, PTree.leavesList, PTree.leavesList, Bool.and_eq_true, List.all_append, Bool.and_eq_true]
    by_cases h : t.sameStructure u = true
    · rw [List.zip_append (leaves_length t u h), List.all_append, Bool.and_eq_true]
      constructor
      · rintro ⟨⟨a1, a2, a3⟩, b1, b2, b3⟩; exact ⟨⟨a1, b1⟩, ⟨a2, b2⟩, a3, b3⟩
      · rintro ⟨⟨a1, b1⟩, ⟨a2, b2⟩, a3, b3⟩; exact ⟨⟨a1, a2, a3⟩, b1, b2, b3⟩
    · exact ⟨fun h' => absurd h'.1.1 h, fun h' => absurd h'.1.1 h⟩
  | [], _ :: _ => by simp [FitsList, PTree.sameStructures]
  | _ :: _, [] => by simp [FitsList, PTree.sameStructures]
end

theorem checkTree_iff (t : PTree OutLeaf) (u : PTree (List Nat)) : (checkTree t u = .ok () ↔ Fits t u) ∧ (¬ Fits t u → checkTree t u = .error .typeError) := by
  rw [fits_iff]
  unfold checkTree
  cases t.sameStructure u with
  | false => simp
  | true =>
    cases t.leaves.all OutLeaf.isArray with
    | false => simp
    | true =>
      cases (t.leaves.zip u.leaves).all fun p => decide (p.1.shape = p.2) with
      | false => simp
      | true => simp

theorem checkScalar_iff (t : PTree OutLeaf) (sh : List Nat) : (checkScalar t sh = .ok () ↔ FloatArray sh t) ∧ (¬ FloatArray sh t → checkScalar t sh = .error .typeError) := by
  unfold FloatArray
  cases t with
  | node k l => simp [checkScalar]
  | leaf x =>
    obtain ⟨a, b, c⟩ := x
    cases a <;> cases b <;> by_cases h : c = sh <;> simp [checkScalar, h]

mutual
theorem fits_priors (lead : List Nat) (f : List Nat → List Nat) (hf : ∀ sh, f (1 :: sh) = lead ++ sh) : ∀ (d : DistK) (t : PTree OutLeaf), Fits t (d.priors.map f) ↔ HasParams lead d t
  | .cat n, t => by
    match t with
    | .leaf x => simp [DistK.priors, PTree.map, PTree.mapList, Fits, HasParams]
    | .node k [] => simp [DistK.priors, PTree.map, PTree.mapList, Fits, FitsList, HasParams]
    | .node k [a] => simp [DistK.priors, PTree.map, PTree.mapList, Fits, FitsList, HasParams, hf]
    | .node k (a :: b :: l) => simp [DistK.priors, PTree.map, PTree.mapList, Fits, FitsList, HasParams]
  | .normal sh, t => by
    match t with
    | .leaf x => simp [DistK.priors, PTree.map, PTree.mapList, Fits, HasParams]
    | .node k [] => simp [DistK.priors, PTree.map, PTree.mapList, Fits, FitsList, HasParams]
    | .node k [a] => simp [DistK.priors, PTree.map, PTree.mapList, Fits, FitsList, HasParams]
    | .node k [a, b] => simp [DistK.priors, PTree.map, PTree.mapList, Fits, FitsList, HasParams, hf]
    | .node k (a :: b :: c :: l) => simp [DistK.priors, PTree.map, PTree.mapList, Fits, FitsList, HasParams]
  | .quantiles m, t => by
    match t with
    | .leaf x => simp [DistK.priors, PTree.map, PTree.mapList, Fits, HasParams]
    | .node k [] => simp [DistK.priors, PTree.map, PTree.mapList, Fits, FitsList, HasParams]
    | .node k [a] => simp [DistK.priors, PTree.map, PTree.mapList, Fits, FitsList, HasParams]
    | .node k [a, b] => simp [DistK.priors, PTree.map, PTree.mapList, Fits, FitsList, HasParams, hf]
    | .node k (a :: b :: c :: l) => simp [DistK.priors, PTree.map, PTree.mapList, Fits, FitsList, HasParams]
  | .list ds, .leaf x => by simp [DistK.priors, PTree.map, Fits, HasParams]
  | .list ds, .node k l => by rw [DistK.priors, PTree.map, Fits, HasParams, fits_priorsList lead f hf ds l]
  | .dict keys ds, .leaf x => by simp [DistK.priors, PTree.map, Fits, HasParams]
  | .dict keys ds, .node k l => by rw [DistK.priors, PTree.map, Fits, HasParams, fits_priorsList lead f hf ds l]
theorem fits_priorsList (lead : List Nat) (f : List Nat → List Nat) (hf : ∀ sh, f (1 :: sh) = lead ++ sh) :
    ∀ (ds : List DistK) (l : List (PTree OutLeaf)), FitsList l (PTree.mapList f (DistK.priorsList ds)) ↔ HasParamsList lead ds l
  | [], [] => by simp [DistK.priorsList, PTree.mapList, FitsList, HasParamsList]
  | [], _ :: _ => by simp [DistK.priorsList, PTree.mapList, FitsList, HasParamsList]
  | _ :: _, [] => by simp [DistK.priorsList, PTree.mapList, FitsList, HasParamsList]
  | d :: ds, t :: ts => by rw [DistK.priorsList, PTree.mapList, FitsList, HasParamsList, fits_priors lead f hf d t, fits_priorsList lead f hf ds ts]
end

mutual
theorem fits_rows (lead : List Nat) (f : List Nat → List Nat) (hf : ∀ sh, f sh = lead ++ sh.tail) : ∀ (S : PTree (List Nat)) (t : PTree OutLeaf), Fits t (S.map f) ↔ HasRows lead S t
  | .leaf sh, t => by
    cases t <;> simp [PTree.map, Fits, HasRows, hf]
  | .node k l, .leaf x => by simp [PTree.map, Fits, HasRows]
  | .node k l, .node k' l' => by rw [PTree.map, Fits, HasRows, fits_rowsList lead f hf l l']
theorem fits_rowsList (lead : List Nat) (f : List Nat → List Nat) (hf : ∀ sh, f sh = lead ++ sh.tail) :
    ∀ (l : List (PTree (List Nat))) (l' : List (PTree OutLeaf)), FitsList l' (PTree.mapList f l) ↔ HasRowsList lead l l'
  | [], [] => by simp [PTree.mapList, FitsList, HasRowsList]
  | [], _ :: _ => by simp [PTree.mapList, FitsList, HasRowsList]
  | _ :: _, [] => by simp [PTree.mapList, FitsList, HasRowsList]
  | s :: ss, t :: ts => by rw [PTree.mapList, FitsList, HasRowsList, fits_rows lead f hf s t, fits_rowsList lead f hf ss ts]
end

theorem array_setRows {B : Nat} {sh : List Nat} {t : PTree OutLeaf} (h : ArrayOf (1 :: sh) t) : ArrayOf (B :: sh) (t.map (setRows B)) := by
  cases t with
  | leaf x =>
    rw [PTree.map]
    exact ⟨h.1, by simp [setRows, h.2]⟩
  | node k l => exact h.elim

theorem float_setRows {B : Nat} {sh : List Nat} {t : PTree OutLeaf} (h : FloatArray (1 :: sh) t) : FloatArray (B :: sh) (t.map (setRows B)) := by
  obtain ⟨x, rfl, h1, h2, h3⟩ := h
  exact ⟨setRows B x, by rw [PTree.map], h1, h2, by simp [setRows, h3]⟩

mutual
theorem params_setRows (B : Nat) (r : List Nat) : ∀ (d : DistK) (t : PTree OutLeaf), HasParams (1 :: r) d t → HasParams (B :: r) d (t.map (setRows B))
  | .cat n, t, h => by
    match t, h with
    | .node k [a], h => simp only [PTree.map, PTree.mapList]; exact ⟨h.1, array_setRows h.2⟩
  | .normal sh, t, h => by
    match t, h with
    | .node k [a, b], h => simp only [PTree.map, PTree.mapList]; exact ⟨h.1, array_setRows h.2.1, array_setRows h.2.2⟩
  | .quantiles m, t, h => by
    match t, h with
    | .node k [a, b], h => simp only [PTree.map, PTree.mapList]; exact ⟨h.1, array_setRows h.2.1, array_setRows h.2.2⟩
  | .list ds, .node k l, h => by rw [PTree.map]; exact ⟨h.1, params_setRowsList B r ds l h.2⟩
  | .dict keys ds, .node k l, h => by rw [PTree.map]; exact ⟨h.1, params_setRowsList B r ds l h.2⟩
theorem params_setRowsList (B : Nat) (r : List Nat) : ∀ (ds : List DistK) (l : List (PTree OutLeaf)), HasParamsList (1 :: r) ds l → HasParamsList (B :: r) ds (PTree.mapList (setRows B) l)
  | [], [], _ => by rw [PTree.mapList]; trivial
  | d :: ds, t :: ts, h => by rw [PTree.mapList]; exact ⟨params_setRows B r d t h.1, params_setRowsList B r ds ts h.2⟩
end

mutual
theorem rows_setRows (B : Nat) (r : List Nat) : ∀ (S : PTree (List Nat)) (t : PTree OutLeaf), HasRows (1 :: r) S t → HasRows (B :: r) S (t.map (setRows B))
  | .leaf sh, t, h => by
    have h' : ArrayOf (1 :: (r ++ sh.tail)) t := by cases t <;> exact h
    have := array_setRows (B := B) h'
    cases ht : t.map (setRows B) <;> rw [ht] at this <;> exact this
  | .node k l, .node k' l', h => by rw [PTree.map]; exact ⟨h.1, rows_setRowsList B r l l' h.2⟩
theorem rows_setRowsList (B : Nat) (r : List Nat) : ∀ (l : List (PTree (List Nat))) (l' : List (PTree OutLeaf)), HasRowsList (1 :: r) l l' → HasRowsList (B :: r) l (PTree.mapList (setRows B) l')
  | [], [], _ => by rw [PTree.mapList]; trivial
  | s :: ss, t :: ts, h => by rw [PTree.mapList]; exact ⟨rows_setRows B r s t h.1, rows_setRowsList B r ss ts h.2⟩
end

/-! ### C115 -/

/-- **C115**: a network is accepted exactly if what it returns for one row, with `is_training=True`, has the documented structure and shapes; otherwise the constructor raises TypeError. -/
theorem C115_accepted (k : FKind) (net : Nat → Bool → PTree OutLeaf) : (construct k net = .ok () ↔ Documented 1 k (net 1 true)) ∧
    (¬ Documented 1 k (net 1 true) → construct k net = .error .typeError) := by
  have htree : ∀ e, (Fits (net 1 true) e ↔ Documented 1 k (net 1 true)) → (checkTree (net 1 true) e = .ok () ↔ Documented 1 k (net 1 true)) ∧
      (¬ Documented 1 k (net 1 true) → checkTree (net 1 true) e = .error .typeError) := fun e h => by
    rw [← h]; exact checkTree_iff _ _
  cases k with
  | v => exact checkScalar_iff _ _
  | q1 => exact checkScalar_iff _ _
  | q2 n => exact checkScalar_iff _ _
  | stochS d => exact htree _ (fits_priors [1] _ (fun _ => rfl) d _)
  | stochSA1 d => exact htree _ (fits_priors [1] _ (fun _ => rfl) d _)
  | stochSA2 d n => exact htree _ (fits_priors [1, n] _ (fun _ => rfl) d _)
  | model1 S => exact htree _ (fits_rows [1] _ (fun _ => rfl) S _)
  | model2 S n => exact htree _ (fits_rows [1, n] _ (fun _ => rfl) S _)

/-- **C115**: an accepted network that treats rows alike returns the documented structure and shapes for every batch size and both values of `is_training`.
Missing: networks that do not treat rows alike, see the counterexamples. -/
theorem C115_rows_partial (k : FKind) (net : Nat → Bool → PTree OutLeaf) (hr : Rowwise net) (h : construct k net = .ok ()) (B : Nat) (t : Bool) : Documented B k (net B t) := by
  have h1 := (C115_accepted k net).1.1 h
  rw [hr B t]
  cases k with
  | v => exact float_setRows h1
  | q1 => exact float_setRows h1
  | q2 n => exact float_setRows h1
  | stochS d => exact params_setRows B [] d _ h1
  | stochSA1 d => exact params_setRows B [] d _ h1
  | stochSA2 d n => exact params_setRows B [n] d _ h1
  | model1 S => exact rows_setRows B [] S _ h1
  | model2 S n => exact rows_setRows B [n] S _ h1

/-- **C115**: the output that `example_data` gives, for any batch size, has the documented structure and shapes. -/
theorem C115_example (k : FKind) (B : Nat) : ∀ t : PTree OutLeaf, t.sameStructure (k.example B) = true → t.leaves = (k.example B).leaves.map (fun sh => ⟨true, true, sh⟩) → Documented B k t := by
  intro t hs hl
  have hfit : Fits t (k.example B) := (fits_iff _ _).2 ⟨hs, by rw [hl]; simp, by
    rw [hl, List.all_eq_true]
    intro p hp
    obtain ⟨i, hi, rfl⟩ := List.getElem_of_mem hp
    simp⟩
  have hleaf : ∀ sh, k.example B = .leaf sh → FloatArray sh t := fun sh he => by
    rw [he] at hs hl
    match t with
    | .leaf x =>
      simp only [PTree.leaves, List.map_cons, List.map_nil, List.cons.injEq, and_true] at hl
      exact ⟨x, rfl, by rw [hl], by rw [hl], by rw [hl]⟩
    | .node _ _ => simp [PTree.sameStructure] at hs
  cases k with
  | v => exact hleaf _ rfl
  | q1 => exact hleaf _ rfl
  | q2 n => exact hleaf _ rfl
  | stochS d => exact (fits_priors [B] _ (fun _ => rfl) d _).1 hfit
  | stochSA1 d => exact (fits_priors [B] _ (fun _ => rfl) d _).1 hfit
  | stochSA2 d n => exact (fits_priors [B, n] _ (fun _ => rfl) d _).1 hfit
  | model1 S => exact (fits_rows [B] _ (fun _ => rfl) S _).1 hfit
  | model2 S n => exact (fits_rows [B, n] _ (fun _ => rfl) S _).1 hfit

/-- C115 fails for batch sizes: a network that returns one row whatever it gets is accepted. -/
theorem C115_batch_counterexample : ∃ net, construct .v net = .ok () ∧ ∀ B t, Documented B .v (net B t) ↔ B = 1 := by
  refine ⟨fun _ _ => .leaf ⟨true, true, [1]⟩, rfl, fun B t => ⟨?_, ?_⟩⟩
  · rintro ⟨x, hx, -, -, hs⟩
    cases hx
    simpa using hs.symm
  · rintro rfl; exact ⟨_, rfl, rfl, rfl, rfl⟩

/-- C115 fails for `is_training=False`, with which all values are computed outside of updates: the constructor only evaluates the network with `is_training=True`. -/
theorem C115_training_counterexample : ∃ net, construct .v net = .ok () ∧ (∀ B, Documented B .v (net B true)) ∧ ∀ B, ¬ Documented B .v (net B false) := by
  refine ⟨fun B t => .leaf ⟨true, true, if t then [B] else [B, 1]⟩, rfl, fun B => ⟨_, rfl, rfl, rfl, rfl⟩, fun B => ?_⟩
  rintro ⟨x, hx, -, -, hs⟩
  cases hx
  simp at hs

/-- C115 fails for dtypes of stochastic functions: parameters that are integers are accepted, whatever the distribution, although v- and q-functions must return floats. -/
theorem C115_dtype_counterexample (n : Nat) : construct (.stochS (.cat n)) (fun B _ => .node (.dict ["logits"]) [.leaf ⟨true, false, [B, n]⟩]) = .ok () ∧
    construct .v (fun B _ => .leaf ⟨true, false, [B]⟩) = .error .typeError := by
  refine ⟨(C115_accepted _ _).1.2 ⟨rfl, rfl, rfl⟩, rfl⟩

/-- A composite policy that returns a list instead of a tuple is rejected. -/
theorem C115_list (ds : List DistK) (net : Nat → Bool → PTree OutLeaf) (l : List (PTree OutLeaf)) (h : net 1 true = .node .list l) : construct (.stochS (.list ds)) net = .error .typeError := by
  refine (C115_accepted _ _).2 ?_
  rw [h]
  intro hd
  cases hd.1

example : Rowwise fun B _ => .node (.dict ["logvar", "mu"]) [.leaf ⟨true, true, [B, 3]⟩, .leaf ⟨true, true, [B, 3]⟩] := by
  intro B t
  simp [PTree.map, PTree.mapList, setRows]

end Coax.Core
