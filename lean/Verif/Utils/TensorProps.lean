import Verif.Utils.Tensor
import Mathlib.Data.List.Forall2
import Mathlib.Data.List.InsertIdx
import Mathlib.Data.List.Nodup
import Mathlib.Tactic.Ring
import Mathlib.Tactic.NormNum

/-! Properties C93 (`unvectorize`), C94 (`tree_sample`) and C95 (`stack_trees`). -/

namespace Coax.Utils

variable {V : Type _}

/-! ### C93 -/

/-- `u` is what is at position `i` along the axis `axis` of `t`, which has size `n` there: `u[…] = t[…, i, …]`. -/
structure IsSlice (axis : Int) (n i : Nat) (t u : Tensor V) : Prop where
  slice : ∃ k : Nat, ((axis = k) ∨ (axis = (k : Int) - t.shape.length)) ∧ t.shape[k]? = some n ∧ u.shape = t.shape.eraseIdx k ∧ ∀ idx, u.data idx = t.data (idx.insertIdx k i)

/-- The same for all leaves of a pytree; `None` stands for a pytree without batch axis. -/
def IsSlices (axis : Option Int) (n i : Nat) (t u : TLeaves V) : Prop :=
  match axis with
  | none => u = t
  | some a => List.Forall₂ (IsSlice a n i) t u

/-- `l` are the axes of `n` pytrees if the user gives `axes`: a single axis or `None` is meant for each of them. -/
def Axes.Means (axes : Axes) (n : Nat) (l : List (Option Int)) : Prop :=
  match axes with
  | .none => l.length = n ∧ ∀ x ∈ l, x = Option.none
  | .int a => l.length = n ∧ ∀ x ∈ l, x = some a
  | .tuple as => l = as

theorem Axes.Means.eq {axes : Axes} {n : Nat} {l : List (Option Int)} (h : axes.Means n l) : axes.broadcast n = l := by
  cases axes with
  | none => exact (List.eq_replicate_iff.2 h).symm
  | int a => exact (List.eq_replicate_iff.2 h).symm
  | tuple as => exact Eq.symm h

/-- Slices of a list of pytrees, along the axes given for each of them. -/
inductive AllSlices (n i : Nat) : List (Option Int) → List (TLeaves V) → List (TLeaves V) → Prop
  | nil : AllSlices n i [] [] []
  | cons {a as t ts u us} : IsSlices a n i t u → AllSlices n i as ts us → AllSlices n i (a :: as) (t :: ts) (u :: us)

/-- Slices of a result. -/
inductive ResSlices (n i : Nat) : Axes → Res V → Res V → Prop
  | tuple {axes l ts us} : Axes.Means axes ts.length l → AllSlices n i l ts us → ResSlices n i axes (.tuple ts) (.tuple us)
  | single {a t u} : IsSlices (some a) n i t u → ResSlices n i (.int a) (.single t) (.single u)
  | none {t} : ResSlices n i .none (.single t) (.single t)

/-- `f` is the batched version of `g`, like `jax.vmap(g, in_axes, out_axes)`: entry `i` of what `f` returns for a batch is what `g` returns for entry `i` of the batch. -/
def IsBatched (ins outs : Axes) (f g : List (TLeaves V) → Except Err (Res V)) : Prop :=
  ∀ (n i : Nat) (l : List (Option Int)) (vargs args : List (TLeaves V)) (r : Res V), i < n → ins.Means vargs.length l → AllSlices n i l vargs args → g args = .ok r →
    ∃ vr, f vargs = .ok vr ∧ ResSlices n i outs vr r

/-- An axis at which a batch axis can be inserted in all leaves. -/
def InsertAxis (a : Option Int) (t : TLeaves V) : Prop := ∀ k, a = some k → ∀ x ∈ t, -(x.shape.length + 1 : Int) ≤ k ∧ k ≤ x.shape.length

theorem normAxis_ok {axis : Int} {d : Nat} (h : -(d : Int) ≤ axis ∧ axis < d) : ∃ k : Nat, normAxis axis d = .ok k ∧ k < d ∧ (axis = k ∨ axis = (k : Int) - d) := by
  unfold normAxis
  split
  · exact ⟨_, rfl, by omega, by omega⟩
  · rw [if_pos (by omega)]
    exact ⟨_, rfl, by omega, by omega⟩

theorem normAxis_eq {axis : Int} {d k : Nat} (hk : k < d) (h : axis = k ∨ axis = (k : Int) - d) : normAxis axis d = .ok k := by
  unfold normAxis
  rcases h with h | h
  · rw [if_pos (by omega)]; congr 1; omega
  · rw [if_neg (by omega), if_pos (by omega)]; congr 1; omega

theorem expandDims_slice {a : Int} {x : Tensor V} (h : -(x.shape.length + 1 : Int) ≤ a ∧ a ≤ x.shape.length) : ∃ y, expandDims a x = .ok y ∧ IsSlice a 1 0 y x := by
  obtain ⟨k, h1, h2, h3⟩ := normAxis_ok (axis := a) (d := x.shape.length + 1) (by push_cast; omega)
  have hl : (x.shape.insertIdx k 1).length = x.shape.length + 1 := List.length_insertIdx_of_le_length (by omega) _
  refine ⟨_, by simp only [expandDims, h1]; rfl, ⟨k, ?_, ?_, ?_, ?_⟩⟩
  · simpa [hl] using h3
  · rw [List.getElem?_insertIdx_self, if_pos (by omega)]
  · exact (List.eraseIdx_insertIdx_self ..).symm
  · intro idx
    simp only [List.eraseIdx_insertIdx_self]

theorem squeeze_slice {a : Int} {y x : Tensor V} (h : IsSlice a 1 0 y x) : squeeze a y = .ok x := by
  obtain ⟨k, h1, h2, h3, h4⟩ := h.slice
  have hk : k < y.shape.length := (List.getElem?_eq_some_iff.1 h2).1
  have he : x = { shape := y.shape.eraseIdx k, data := fun idx => y.data (idx.insertIdx k 0) } := by
    obtain ⟨sh, d⟩ := x
    simp only at h3 h4
    rw [h3, funext h4]
  simp only [squeeze, normAxis_eq hk h1, bind, Except.bind, h2, if_true, he]
  rfl

theorem mapAxis_expand {a : Option Int} {t : TLeaves V} (h : InsertAxis a t) : ∃ u, mapAxis expandDims a t = .ok u ∧ IsSlices a 1 0 u t := by
  cases a with
  | none => exact ⟨t, rfl, rfl⟩
  | some a =>
    replace h := h a rfl
    simp only [mapAxis, IsSlices]
    induction t with
    | nil => exact ⟨[], rfl, .nil⟩
    | cons x t ih =>
      obtain ⟨y, h1, h2⟩ := expandDims_slice (h x (by simp))
      obtain ⟨u, h3, h4⟩ := ih fun x hx => h x (by simp [hx])
      refine ⟨y :: u, ?_, .cons h2 h4⟩
      rw [List.mapM_cons, h1, h3]; rfl

theorem mapAxis_squeeze {a : Option Int} {t u : TLeaves V} (h : IsSlices a 1 0 t u) : mapAxis squeeze a t = .ok u := by
  cases a with
  | none => simp only [IsSlices] at h; rw [h]; rfl
  | some a =>
    simp only [IsSlices] at h
    simp only [mapAxis]
    induction h with
    | nil => rfl
    | cons h1 _ ih => rw [List.mapM_cons, squeeze_slice h1, ih]; rfl

theorem allSlices_squeeze {as : List (Option Int)} {ts us : List (TLeaves V)} (h : AllSlices 1 0 as ts us) :
    (as.zip ts).mapM (fun p => mapAxis squeeze p.1 p.2) = .ok us ∧ ts.length = as.length := by
  induction h with
  | nil => exact ⟨rfl, rfl⟩
  | cons h1 _ ih =>
    refine ⟨?_, by simp [ih.2]⟩
    simp only [List.zip_cons_cons]
    rw [List.mapM_cons, mapAxis_squeeze h1, ih.1]; rfl

theorem allSlices_expand {as : List (Option Int)} {ts : List (TLeaves V)} (h : List.Forall₂ InsertAxis as ts) :
    ∃ us, (as.zip ts).mapM (fun p => mapAxis expandDims p.1 p.2) = .ok us ∧ AllSlices 1 0 as us ts ∧ us.length = ts.length := by
  induction h with
  | nil => exact ⟨[], rfl, .nil, rfl⟩
  | cons h1 _ ih =>
    obtain ⟨us, h2, h3, h4⟩ := ih
    obtain ⟨u, h5, h6⟩ := mapAxis_expand h1
    refine ⟨u :: us, ?_, .cons h6 h3, by simp [h4]⟩
    simp only [List.zip_cons_cons]
    rw [List.mapM_cons, h5, h2]; rfl

/-- C93.  If `f` is the batched version of `g`, then `unvectorize(f)` is `g`. -/
theorem C93_inverse_of_vmap {ins outs : Axes} {f g : List (TLeaves V) → Except Err (Res V)} (hf : IsBatched ins outs f g) {args : List (TLeaves V)}
    {l : List (Option Int)} (hl : ins.Means args.length l) (hin : List.Forall₂ InsertAxis l args) {r : Res V} (hg : g args = .ok r) : unvectorize f ins outs args = .ok r := by
  obtain ⟨vargs, h1, h2, h3⟩ := allSlices_expand hin
  obtain ⟨vr, h4, h5⟩ := hf 1 0 l vargs args r one_pos (h3 ▸ hl) h2 hg
  simp only [unvectorize]
  rw [hl.eq, if_pos hin.length_eq.symm, h1]
  simp only [h4]
  cases h5 with
  | tuple hm h =>
    obtain ⟨h6, h7⟩ := allSlices_squeeze h
    simp only [squeezeOut]
    rw [hm.eq, if_pos h7, h6]
    rfl
  | single h =>
    simp only [squeezeOut]
    rw [mapAxis_squeeze h]
    rfl
  | none => rfl

/-- C93, what is rejected.  A number of `in_axes` that is not the number of arguments raises `ValueError` before `f` is called; a number of `out_axes` that is not the number
of outputs raises `ValueError`, and a tuple for a single output raises `TypeError`; an axis that an argument cannot have raises `ValueError`, and so
does an output whose batch axis does not have size one. -/
theorem C93_rejects (f : List (TLeaves V) → Except Err (Res V)) :
    (∀ (axes : List (Option Int)) (outs : Axes) (args : List (TLeaves V)), axes.length ≠ args.length → unvectorize f (.tuple axes) outs args = .error .valueError) ∧
    (∀ (outs : List (Option Int)) (args : List (TLeaves V)) (ts : List (TLeaves V)), f args = .ok (.tuple ts) → outs.length ≠ ts.length →
      unvectorize f .none (.tuple outs) args = .error .valueError) ∧
    (∀ (outs : List (Option Int)) (args : List (TLeaves V)) (t : TLeaves V), f args = .ok (.single t) → unvectorize f .none (.tuple outs) args = .error .typeError) ∧
    (∀ (a : Int) (outs : Axes) (x : Tensor V), (x.shape.length : Int) < a → unvectorize f (.int a) outs [[x]] = .error .valueError) ∧
    (∀ (k m : Nat) (args : List (TLeaves V)) (y : Tensor V), f args = .ok (.single [y]) → y.shape[k]? = some m → m ≠ 1 → unvectorize f .none (.int k) args = .error .valueError) := by
  have hnone : ∀ (args : List (TLeaves V)), ((List.replicate args.length (none : Option Int)).zip args).mapM (fun p => mapAxis expandDims p.1 p.2) = .ok args := by
    intro args
    induction args with
    | nil => rfl
    | cons t ts ih =>
      simp only [List.length_cons, List.replicate_succ, List.zip_cons_cons]
      rw [List.mapM_cons, ih]; rfl
  refine ⟨?_, ?_, ?_, ?_, ?_⟩
  · intro axes outs args h
    unfold unvectorize
    rw [if_neg (by simpa [Axes.broadcast] using Ne.symm h)]
  · intro outs args ts hf h
    unfold unvectorize
    rw [if_pos (by simp [Axes.broadcast]), show (Axes.none.broadcast args.length) = List.replicate args.length none from rfl, hnone]
    simp only [hf]
    unfold squeezeOut
    simp only
    rw [if_neg (by simpa [Axes.broadcast] using Ne.symm h)]
  · intro outs args t hf
    unfold unvectorize
    rw [if_pos (by simp [Axes.broadcast]), show (Axes.none.broadcast args.length) = List.replicate args.length none from rfl, hnone]
    simp only [hf, squeezeOut]
  · intro a outs x h
    have hn : normAxis a (x.shape.length + 1) = .error .valueError := by
      unfold normAxis
      rw [if_neg (by push_cast; omega), if_neg (by push_cast; omega)]
    have he : mapAxis expandDims (some a) [x] = .error .valueError := by
      simp only [mapAxis, List.mapM_cons, expandDims, hn]
      rfl
    simp only [unvectorize, Axes.broadcast, List.length_singleton, List.replicate_succ, List.replicate_zero, List.zip_cons_cons, List.zip_nil_right, List.mapM_cons, he]
    rfl
  · intro k m args y hf hk hm
    have hlt : k < y.shape.length := (List.getElem?_eq_some_iff.1 hk).1
    have hn : normAxis (k : Int) y.shape.length = .ok k := by
      unfold normAxis
      rw [if_pos (by omega)]; rfl
    have hs : squeeze (k : Int) y = .error .valueError := by
      simp only [squeeze, hn, bind, Except.bind]
      rw [if_neg (by rw [hk]; simpa using hm)]
    have he : mapAxis squeeze (some (k : Int)) [y] = .error .valueError := by
      simp only [mapAxis, List.mapM_cons, hs]
      rfl
    unfold unvectorize
    rw [if_pos (by simp [Axes.broadcast]), show (Axes.none.broadcast args.length) = List.replicate args.length none from rfl, hnone]
    simp only [hf, squeezeOut, he]
    rfl

example : (Axes.int 0).Means 2 [some 0, some 0] ∧ ¬ (Axes.int 0).Means 2 [some 0, none] := by simp [Axes.Means]

/-- The case in the docstring, `in_axes=(None, 0)`: a layer that multiplies each row with the parameters is the batched version of the same layer for one row. -/
def exLayer : List (TLeaves ℝ) → Except Err (Res ℝ)
  | [[p], [x]] => .ok (.single [{ shape := x.shape, data := fun idx => p.data [] * x.data idx }])
  | _ => .error .typeError

example : IsBatched (.tuple [none, some 0]) (.int 0) exLayer exLayer := by
  intro n i l vargs args r _ hl hs hg
  simp only [Axes.Means] at hl
  subst hl
  unfold exLayer at hg
  split at hg
  · rename_i p x
    cases hg
    cases hs with
    | cons h1 h2 =>
      cases h2 with
      | cons h2 h3 =>
        cases h3
        simp only [IsSlices] at h1 h2
        subst h1
        cases h2 with
        | cons h4 h5 =>
          cases h5
          refine ⟨_, rfl, .single (.cons ?_ .nil)⟩
          obtain ⟨k, a1, a2, a3, a4⟩ := h4.slice
          exact ⟨k, a1, a2, a3, fun idx => by simp [a4]⟩
  · cases hg

/-! ### C94 -/

/-- What `jax.random.choice` promises about the positions that it returns. -/
def ChoiceOk (draw : Nat → Nat → Bool → List Nat) : Prop :=
  ∀ m n replace, (m ≠ 0 ∨ n = 0) → (replace = true ∨ n ≤ m) → (draw m n replace).length = n ∧ (∀ i ∈ draw m n replace, i < m) ∧ (replace = false → (draw m n replace).Nodup)

/-- Row `i` of a leaf, as an array. -/
def Leaf.row? (i : Nat) : Leaf V → Option (Tensor V)
  | .array t => match t.shape with
    | [] => none
    | b :: _ => if i < b then some (row i t) else none
  | _ => none

theorem leafBatchSize_ok {l : Leaf V} {m : Nat} (hl : leafBatchSize l = .ok m) : ∃ t sh, l = .array t ∧ t.shape = m :: sh := by
  cases l with
  | array t =>
    obtain ⟨sh, d⟩ := t
    cases sh with
    | nil => cases hl
    | cons b sh => cases hl; exact ⟨_, sh, rfl, rfl⟩
  | arrayLike t => cases hl
  | plain => cases hl

theorem checkOthers_ok {m b : Nat} : ∀ {ls : List (Leaf V)}, checkOthers b ls = .ok m → m = b ∧ ∀ l ∈ ls, ∃ t sh, l = .array t ∧ t.shape = m :: sh
  | [], h => by cases h; simp
  | l :: ls, h => by
    simp only [checkOthers] at h
    cases hb : leafBatchSize l with
    | error e => rw [hb] at h; cases h
    | ok b' =>
      rw [hb] at h
      simp only at h
      split at h
      · cases h
      · rename_i hne
        obtain ⟨h1, h2⟩ := checkOthers_ok h
        have hbb : b' = b := by simpa using hne
        refine ⟨h1, fun x hx => ?_⟩
        rcases List.mem_cons.1 hx with rfl | hx
        · rw [h1, ← hbb]; exact leafBatchSize_ok hb
        · exact h2 x hx

theorem check_ok {ls : List (Leaf V)} {m : Nat} (h : checkLeafBatchSize ls = .ok m) : ls ≠ [] ∧ ∀ l ∈ ls, ∃ t sh, l = .array t ∧ t.shape = m :: sh := by
  cases ls with
  | nil => cases h
  | cons l ls =>
    refine ⟨by simp, ?_⟩
    simp only [checkLeafBatchSize] at h
    cases hb : leafBatchSize l with
    | error e => rw [hb] at h; cases h
    | ok b =>
      rw [hb] at h
      obtain ⟨h1, h2⟩ := checkOthers_ok h
      intro x hx
      rcases List.mem_cons.1 hx with rfl | hx
      · rw [h1]; exact leafBatchSize_ok hb
      · exact h2 x hx

/-- C94.  The rows that are returned are rows of the input, the same ones for all leaves; without replacement they are all different.  All leaves have the same number of
rows. -/
theorem C94_aligned {draw : Nat → Nat → Bool → List Nat} (hd : ChoiceOk draw) {ls out : List (Leaf V)} {n : Nat} {replace : Bool} {axis : Int}
    (h : treeSample draw ls n replace axis = .ok out) :
    out.length = ls.length ∧ ∃ pick : Fin n → Nat, (replace = false → Function.Injective pick) ∧
      ∀ (k : Nat) (l o : Leaf V), ls[k]? = some l → out[k]? = some o → ∀ j : Fin n, ∃ t, o.row? j = some t ∧ l.row? (pick j) = some t := by
  unfold treeSample at h
  cases hc : checkLeafBatchSize ls with
  | error e => rw [hc] at h; cases h
  | ok m =>
    rw [hc] at h
    simp only [choice] at h
    split at h
    · cases h
    · rename_i ix hix
      split at hix
      · cases hix
      · rename_i hm
        split at hix
        · cases hix
        · rename_i hr
          cases hix
          cases h
          obtain ⟨hl, hlt, hnd⟩ := hd m n replace (by omega) (by cases replace <;> simp at hr ⊢; exact hr)
          refine ⟨by simp [takeLeaves], fun j => (draw m n replace)[j]'(by omega), ?_, ?_⟩
          · intro hrep i j hij
            have := (hnd hrep).getElem_inj_iff.1 hij
            exact Fin.ext this
          · intro k l o hk ho j
            obtain ⟨t, sh, rfl, hsh⟩ := (check_ok hc).2 l (List.mem_of_getElem? hk)
            have : o = .array (takeRows (draw m n replace) t) := by
              simp only [takeLeaves, List.getElem?_map, hk, Option.map_some, Option.some.injEq] at ho
              exact ho.symm
            subst this
            refine ⟨row ((draw m n replace)[j]'(by omega)) t, ?_, ?_⟩
            · simp only [Leaf.row?, takeRows, hl, j.2, if_true, Option.some.injEq]
              simp [row, hsh, List.getD_eq_getElem?_getD, List.getElem?_eq_getElem (show (j : Nat) < (draw m n replace).length by omega)]
            · simp only [Leaf.row?, hsh]
              exact if_pos (hlt _ (List.getElem_mem _))

/-- C94, when a sample can be drawn: for a non-empty pytree of arrays with the same number `m` of rows, exactly if there are enough rows; otherwise there is a `ValueError`. -/
theorem C94_succeeds {draw : Nat → Nat → Bool → List Nat} {ls : List (Leaf V)} {m n : Nat} {replace : Bool} {axis : Int} (hne : ls ≠ [])
    (hls : ∀ l ∈ ls, ∃ t sh, l = .array t ∧ t.shape = m :: sh) :
    if (n ≤ m ∨ (replace = true ∧ 0 < m)) then ∃ out, treeSample draw ls n replace axis = .ok out
    else treeSample draw ls n replace axis = .error .valueError := by
  have hone : ∀ l ∈ ls, leafBatchSize l = .ok m := by
    intro l hl
    obtain ⟨t, sh, rfl, hsh⟩ := hls l hl
    simp [leafBatchSize, hsh]
  have hoth : ∀ ls' : List (Leaf V), (∀ l ∈ ls', leafBatchSize l = .ok m) → checkOthers m ls' = .ok m := by
    intro ls'
    induction ls' with
    | nil => intro _; rfl
    | cons l ls' ih =>
      intro h
      simp only [checkOthers, h l (by simp)]
      simp [ih fun x hx => h x (by simp [hx])]
  have hc : checkLeafBatchSize ls = .ok m := by
    cases ls with
    | nil => exact absurd rfl hne
    | cons l ls =>
      simp only [checkLeafBatchSize, hone l (by simp)]
      exact hoth ls fun x hx => hone x (by simp [hx])
  unfold treeSample
  rw [hc]
  simp only [choice]
  split
  · rename_i h
    rw [if_neg (by omega), if_neg (by rcases h with h | h <;> [omega; simp [h.1]])]
    exact ⟨_, rfl⟩
  · rename_i h
    push Not at h
    by_cases hm : m = 0
    · rw [if_pos (by omega)]
    · rw [if_neg (by omega), if_pos]
      refine ⟨?_, h.1⟩
      cases replace with
      | false => rfl
      | true => exact absurd (h.2 rfl) (by omega)

/-- C94, errors: no leaves, leaves of different sizes, arrays without axes, and leaves that are not arrays; the last of them with `AttributeError` instead of the intended `TypeError`. -/
theorem C94_rejects (draw : Nat → Nat → Bool → List Nat) (n : Nat) (replace : Bool) (axis : Int) (ls : List (Leaf V)) (d d' : List Nat → V) (a b : Nat) (sh sh' : List Nat) (hab : a ≠ b) :
    treeSample draw ([] : List (Leaf V)) n replace axis = .error .valueError ∧
    treeSample draw (.array ⟨a :: sh, d⟩ :: .array ⟨b :: sh', d'⟩ :: ls) n replace axis = .error .typeError ∧
    treeSample draw (.array ⟨[], d⟩ :: ls) n replace axis = .error .typeError ∧
    treeSample draw (.plain :: ls) n replace axis = .error .attributeError := by
  refine ⟨rfl, ?_, rfl, rfl⟩
  simp [treeSample, checkLeafBatchSize, checkOthers, leafBatchSize, Ne.symm hab]

/-- C94, the documented argument `axis` has no effect. -/
theorem C94_axis_ignored (draw : Nat → Nat → Bool → List Nat) (ls : List (Leaf V)) (n : Nat) (replace : Bool) (axis : Int) :
    treeSample draw ls n replace axis = treeSample draw ls n replace 0 := rfl

/-- C94, counterexample: an array with two rows and three columns has three columns to sample from, but asking for three with `axis=1` raises. -/
theorem C94_axis_counterexample (draw : Nat → Nat → Bool → List Nat) (d : List Nat → V) : treeSample draw [.array ⟨[2, 3], d⟩] 3 false 1 = .error .valueError := by
  simp [treeSample, checkLeafBatchSize, checkOthers, leafBatchSize, choice]

/-- Positions that meet `ChoiceOk`. -/
example : ChoiceOk fun _ n replace => if replace then List.replicate n 0 else List.range n := by
  intro m n replace h1 h2
  cases replace with
  | false => 
    simp at h2
    refine ⟨by simp, ?_, fun _ => by simpa using List.nodup_range⟩
    intro i hi
    simp at hi
    omega
  | true =>
    refine ⟨by simp, ?_, by simp⟩
    intro i hi
    simp at hi
    omega

/-! ### C95 -/

theorem stack_ok {t : Tensor V} {ts : List (Tensor V)} (h : ∀ u ∈ ts, u.shape = t.shape) :
    ∃ y, stack (t :: ts) = .ok y ∧ y.shape = (ts.length + 1) :: t.shape ∧ ∀ i u, (t :: ts)[i]? = some u → row i y = u := by
  refine ⟨_, by simp only [stack]; rw [if_pos (by simpa using h)], rfl, ?_⟩
  intro i u hu
  have hsh : u.shape = t.shape := by
    rcases List.mem_cons.1 (List.mem_of_getElem? hu) with rfl | hm
    · rfl
    · exact h u hm
  obtain ⟨sh, d⟩ := u
  simp only at hsh
  simp [row, List.getD_eq_getElem?_getD, hu, hsh]

/-- All networks have leaves of the same shapes. -/
def SameShapes (ts : List (TLeaves V)) : Prop := ∀ t ∈ ts, ∀ u ∈ ts, t.map (·.shape) = u.map (·.shape)

theorem mapM_exists {β γ : Type _} {f : β → Except Err γ} {P : β → γ → Prop} : ∀ {l : List β}, (∀ x ∈ l, ∃ y, f x = .ok y ∧ P x y) → ∃ ys, l.mapM f = .ok ys ∧ List.Forall₂ P l ys
  | [], _ => ⟨[], rfl, .nil⟩
  | x :: l, h => by
    obtain ⟨y, h1, h2⟩ := h x (by simp)
    obtain ⟨ys, h3, h4⟩ := mapM_exists (l := l) fun z hz => h z (by simp [hz])
    exact ⟨y :: ys, by rw [List.mapM_cons, h1, h3]; rfl, .cons h2 h4⟩

theorem getElem?_filterMap_all {β γ : Type _} {f : β → Option γ} : ∀ {l : List β}, (∀ x ∈ l, (f x).isSome) → ∀ i : Nat, (l.filterMap f)[i]? = l[i]?.bind f
  | [], _, i => by simp
  | x :: l, h, i => by
    obtain ⟨y, hy⟩ := Option.isSome_iff_exists.1 (h x (by simp))
    rw [List.filterMap_cons_some hy]
    cases i with
    | zero => simp [hy]
    | succ i => simpa using getElem?_filterMap_all (fun z hz => h z (by simp [hz])) i

theorem stackLeaves_ok {ts : List (TLeaves V)} (hne : ts ≠ []) (h : SameShapes ts) :
    ∃ y, stackLeaves ts = .ok y ∧ (∀ x ∈ y, x.shape.head? = some ts.length) ∧ ∀ i u, ts[i]? = some u → y.map (row i) = u := by
  obtain ⟨t, rest, rfl⟩ := List.exists_cons_of_ne_nil hne
  have hlen : ∀ u ∈ t :: rest, u.length = t.length := by
    intro u hu
    have := congrArg List.length (h u hu t (by simp))
    simpa using this
  obtain ⟨ys, h1, h2⟩ := mapM_exists (f := fun j => stack ((t :: rest).filterMap (·[j]?))) (l := List.range t.length)
    (P := fun j y => y.shape.head? = some (t :: rest).length ∧ ∀ i u, (t :: rest)[i]? = some u → ∃ x, u[j]? = some x ∧ row i y = x) (by
      intro j hj
      rw [List.mem_range] at hj
      have hall : ∀ u ∈ t :: rest, ((fun u : TLeaves V => u[j]?) u).isSome := by
        intro u hu
        simp [hlen u hu, hj]
      have hget := getElem?_filterMap_all hall
      have hl : ((t :: rest).filterMap (·[j]?)).length = (t :: rest).length := by
        rw [List.length_filterMap_eq_countP, List.countP_eq_length.2 hall]
      obtain ⟨x0, xs, hx⟩ : ∃ x0 xs, (t :: rest).filterMap (·[j]?) = x0 :: xs := by
        cases hc : (t :: rest).filterMap (·[j]?) with
        | nil => rw [hc] at hl; simp at hl
        | cons a b => exact ⟨a, b, rfl⟩
      have hshape : ∀ u ∈ xs, u.shape = x0.shape := by
        have hmem : ∀ a ∈ x0 :: xs, ∃ u ∈ t :: rest, u[j]? = some a := by
          intro a ha
          rw [← hx] at ha
          simpa using List.mem_filterMap.1 ha
        intro a ha
        obtain ⟨u, hu, hua⟩ := hmem a (by simp [ha])
        obtain ⟨v, hv, hva⟩ := hmem x0 (by simp)
        have := congrArg (fun l : List (List Nat) => l[j]?) (h u hu v hv)
        simpa [hua, hva] using this
      obtain ⟨y, h3, h4, h5⟩ := stack_ok hshape
      refine ⟨y, by rw [hx]; exact h3, ?_, ?_⟩
      · rw [h4]
        rw [hx] at hl
        simpa using hl
      · intro i u hu
        obtain ⟨x, hxu⟩ := Option.isSome_iff_exists.1 (hall u (List.mem_of_getElem? hu))
        refine ⟨x, hxu, h5 i x ?_⟩
        rw [← hx, hget, hu]
        exact hxu)
  refine ⟨ys, ?_, ?_, ?_⟩
  · simp only [stackLeaves]
    rw [if_pos (by simpa using fun u hu => hlen u (by simp [hu])), h1]
  · intro x hx
    obtain ⟨j, hj, rfl⟩ := List.mem_iff_getElem.1 hx
    have := (List.forall₂_iff_get.1 h2).2 j (by simpa [← h2.length_eq] using hj) hj
    exact this.1
  · intro i u hu
    have hul := hlen u (List.mem_of_getElem? hu)
    refine List.ext_getElem (by simp [← h2.length_eq, hul]) fun j h3 h4 => ?_
    have := (List.forall₂_iff_get.1 h2).2 j (by simpa [hul] using h4) (by simpa using h3)
    obtain ⟨x, hx, hr⟩ := this.2 i u hu
    simp only [List.get_eq_getElem, List.getElem_range] at hx hr
    simp only [List.getElem_map]
    rw [hr]
    rw [List.getElem?_eq_getElem h4] at hx
    exact (Option.some.inj hx).symm

theorem row_tile {reps m i : Nat} {x : Tensor V} (hx : x.shape.head? = some m) (hi : i < m) : row i (tileRows reps x) = row i x := by
  obtain ⟨sh, d⟩ := x
  cases sh with
  | nil => cases hx
  | cons b sh =>
    simp only [List.head?_cons, Option.some.injEq] at hx
    subst hx
    simp [row, tileRows, Nat.mod_eq_of_lt hi]

/-- C95.  After stacking and tiling the parameters and the states of the target networks, all looked-up rows are those of the chosen network: row `i` of what is stored gives
back exactly parameters and state of network `i`, and there are `reps` copies. -/
theorem C95_round_trip {params state : List (TLeaves V)} (hlen : params.length = state.length) (hne : params ≠ []) (hp : SameShapes params) (hs : SameShapes state) (reps : Nat) :
    ∃ p s, stackTrees params state = .ok (p, s) ∧
      (∀ x ∈ p.map (tileRows reps) ++ s.map (tileRows reps), x.shape.head? = some (reps * params.length)) ∧
      ∀ i (hi : i < params.length), (p.map (tileRows reps)).map (row i) = params[i] ∧ (s.map (tileRows reps)).map (row i) = state[i]'(hlen ▸ hi) := by
  have hz1 : (params.zip state).map (·.1) = params := List.map_fst_zip (by omega)
  have hz2 : (params.zip state).map (·.2) = state := List.map_snd_zip (by omega)
  obtain ⟨p, h1, h2, h3⟩ := stackLeaves_ok hne hp
  obtain ⟨s, h4, h5, h6⟩ := stackLeaves_ok (by intro h; rw [h] at hlen; exact hne (List.length_eq_zero_iff.1 hlen)) hs
  refine ⟨p, s, by simp only [stackTrees, hz1, hz2, h1, h4], ?_, ?_⟩
  · have key : ∀ (x : Tensor V) (m : Nat), x.shape.head? = some m → (tileRows reps x).shape.head? = some (reps * m) := by
      intro x m hx
      obtain ⟨sh, d⟩ := x
      cases sh with
      | nil => cases hx
      | cons b sh => simp at hx; simp [tileRows, hx]
    intro x hx
    rcases List.mem_append.1 hx with hx | hx
    · obtain ⟨y, hy, rfl⟩ := List.mem_map.1 hx
      exact key y _ (h2 y hy)
    · obtain ⟨y, hy, rfl⟩ := List.mem_map.1 hx
      rw [hlen]
      exact key y _ (h5 y hy)
  · intro i hi
    have e1 := h3 i _ (List.getElem?_eq_getElem hi)
    have e2 := h6 i _ (List.getElem?_eq_getElem (hlen ▸ hi))
    constructor
    · rw [← e1, List.map_map]
      exact List.map_congr_left fun x hx => row_tile (h2 x hx) hi
    · rw [← e2, List.map_map]
      exact List.map_congr_left fun x hx => row_tile (h5 x hx) (hlen ▸ hi)

/-- C95, a limit: networks of different shapes cannot be stacked. -/
theorem C95_rejects {t u : Tensor V} (h : t.shape ≠ u.shape) : stackTrees [[t], [u]] [[], []] = .error .valueError := by
  simp [stackTrees, stackLeaves, stack, Ne.symm h, List.range_succ, bind, Except.bind]

/-- C95, a limit: `zip` stops at the shorter list, so a missing state removes a network without an error. -/
theorem C95_truncates (t u : Tensor V) : stackTrees [[t], [u]] [[]] = stackTrees [[t]] [[]] := rfl

/-- Two networks with two leaves each that meet the hypotheses of `C95_round_trip`. -/
example : SameShapes [[⟨[2, 3], fun _ => (0 : ℝ)⟩, ⟨[3], fun _ => 1⟩], [⟨[2, 3], fun idx => idx.sum⟩, ⟨[3], fun _ => 2⟩]] := by
  intro t ht u hu
  simp only [List.mem_cons, List.not_mem_nil, or_false] at ht hu
  rcases ht with rfl | rfl <;> rcases hu with rfl | rfl <;> rfl

end Coax.Utils
