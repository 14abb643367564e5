import Verif.Replay.Prioritized
import Verif.Replay.SimpleSpec

/-! Specification of `PrioritizedReplayBuffer`: what a user thinks the buffer is. -/

namespace Coax.Replay

variable {σ : Type _}

/-- The abstract buffer: all transitions added since the last `clear` (the position in `log` is the identifier), and for
each of them the base of its priority.  `doc` is the base as documented, `|Adv| + epsilon` for the advantage supplied
last; `base` is the base the buffer really uses.  They agree as long as `tame` holds, which says that since the last
`clear` no `update` listed a stale identifier after a live one of the same slot and `alpha` was changed only while all
priorities were at least `1e-15`. -/
structure PSpec (σ : Type _) where
  log : List (Row σ)
  base : List ℝ
  doc : List ℝ
  tame : Prop
  alpha : ℝ
  beta : ℝ
  epsilon : ℝ

/-- An identifier is live if it is one of the last `capacity` ones. -/
def PSpec.Live (cap : Nat) (sp : PSpec σ) (i : Int) : Prop := 0 ≤ i ∧ i < sp.log.length ∧ (sp.log.length : Int) ≤ i + cap

instance (cap : Nat) (sp : PSpec σ) (i : Int) : Decidable (sp.Live cap i) := by unfold PSpec.Live; infer_instance

/-- `update(idx, Adv)` as documented: assign the new priority of each listed live identifier, in order, ignoring the
others. -/
noncomputable def PSpec.assign (cap : Nat) (sp : PSpec σ) (pairs : List (Int × ℝ)) : List ℝ :=
  pairs.foldl (fun base q => if sp.Live cap q.1 then base.set q.1.toNat (|q.2| + sp.epsilon) else base) sp.doc

/-- `update(idx, Adv)` as it is: for the live identifier of each slot only the last listed identifier of that slot
matters; if that one is stale the old priority is kept. -/
noncomputable def PSpec.overwrite (cap : Nat) (sp : PSpec σ) (pairs : List (Int × ℝ)) : List ℝ :=
  sp.base.mapIdx (fun i x =>
    if sp.Live cap i then
      match (pairs.filter (fun q => decide (q.1 % (cap : Int) = (i : Int) % (cap : Int)))).getLast? with
      | some q => if q.1 = i then |q.2| + sp.epsilon else x
      | none => x
    else x)

open Classical in
/-- The base after `alpha` was changed: priorities below `1e-15` are raised to `1e-15` first. -/
noncomputable def PSpec.clamped (sp : PSpec σ) : List ℝ :=
  sp.base.map (fun x => if x ^ sp.alpha < 1e-15 then (1e-15 : ℝ) ^ (1 / sp.alpha) else x)

/-- `update` is accepted if the two lists have the same non-zero length and every identifier falls in a slot that has
been filled. -/
def PSpec.Accepts (cap : Nat) (sp : PSpec σ) (idx : List Int) (Adv : List ℝ) : Prop :=
  idx.length = Adv.length ∧ idx ≠ [] ∧ ∀ i ∈ idx, i % (cap : Int) < sp.log.length

/-- No stale identifier comes after a live one for the same slot. -/
def PSpec.Clean (cap : Nat) (sp : PSpec σ) (idx : List Int) : Prop :=
  ∀ (a b : Nat) (i j : Int), a < b → idx[a]? = some i → idx[b]? = some j → sp.Live cap i → i % (cap : Int) = j % (cap : Int) →
    sp.Live cap j

open Classical in
/-- Histories of a prioritized buffer of capacity `cap`, with the abstract buffer they lead to.  The one rule for users
(hypothesis of `add` and `addRejected`): a single-transition object that is still in the buffer is not added again. -/
inductive PHistory (cap : Nat) : PSys σ → PSpec σ → Prop
  | init {heap : Heap (Row σ)} {a b e : ℝ} {s : PSys σ} : PSys.init heap cap a b e = .ok s →
      PHistory cap s ⟨[], [], [], True, a, b, e⟩
  | new {s : PSys σ} {sp : PSpec σ} (rows : List (Row σ)) : PHistory cap s sp →
      PHistory cap { s with heap := s.heap ++ [Obj.new rows] } sp
  | add {s : PSys σ} {sp : PSpec σ} {r : Ref} {o : Obj (Row σ)} {Adv : List ℝ} : PHistory cap s sp →
      s.heap[r]? = some o → (o.rows.length = 1 → some r ∉ s.buf.storage) → Adv.length = o.rows.length →
      PHistory cap (s.add r Adv).1
        { sp with
          log := sp.log ++ o.rows
          base := sp.base ++ Adv.map (fun a => |a| + sp.epsilon)
          doc := sp.doc ++ Adv.map (fun a => |a| + sp.epsilon) }
  | addRejected {s : PSys σ} {sp : PSpec σ} {r : Ref} {Adv : List ℝ} : PHistory cap s sp →
      (∀ o, s.heap[r]? = some o → (o.rows.length = 1 → some r ∉ s.buf.storage) ∧ Adv.length ≠ o.rows.length) →
      PHistory cap (s.add r Adv).1 sp
  | update {s : PSys σ} {sp : PSpec σ} {idx : List Int} {Adv : List ℝ} : PHistory cap s sp →
      sp.Accepts cap idx Adv → PHistory cap (s.update idx Adv).1
        { sp with
          base := sp.overwrite cap (idx.zip Adv)
          doc := sp.assign cap (idx.zip Adv)
          tame := sp.tame ∧ sp.Clean cap idx }
  | updateRejected {s : PSys σ} {sp : PSpec σ} {idx : List Int} {Adv : List ℝ} : PHistory cap s sp →
      ¬ sp.Accepts cap idx Adv → PHistory cap (s.update idx Adv).1 sp
  | setAlpha {s : PSys σ} {sp : PSpec σ} (a : ℝ) : PHistory cap s sp → 0 < a → ¬ isClose a sp.alpha →
      PHistory cap (s.setAlpha a).1
        { sp with alpha := a, base := sp.clamped, tame := sp.tame ∧ ∀ x ∈ sp.doc, 1e-15 ≤ x ^ sp.alpha }
  | setAlphaNoop {s : PSys σ} {sp : PSpec σ} (a : ℝ) : PHistory cap s sp → (¬ 0 < a ∨ isClose a sp.alpha) →
      PHistory cap (s.setAlpha a).1 sp
  | setBeta {s : PSys σ} {sp : PSpec σ} (b : ℝ) : PHistory cap s sp →
      PHistory cap (s.setBeta b).1 { sp with beta := if 0 < b then b else sp.beta }
  | setEpsilon {s : PSys σ} {sp : PSpec σ} (e : ℝ) : PHistory cap s sp →
      PHistory cap (s.setEpsilon e).1 { sp with epsilon := if 0 < e then e else sp.epsilon }
  | clear {s : PSys σ} {sp : PSpec σ} : PHistory cap s sp → PHistory cap s.clear { sp with log := [], base := [], doc := [], tame := True }

end Coax.Replay
