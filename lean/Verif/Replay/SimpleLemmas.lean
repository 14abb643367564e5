import Verif.Replay.Simple

namespace Coax.Replay

variable {τ : Type _}

/-- The stored single-transition object for a row with identifier `i`. -/
def single (row : τ) (i : Nat) : Obj τ := ⟨[row], [i]⟩

theorem toSingles_spec {h : Heap τ} {r : Ref} {o : Obj τ} (hr : h[r]? = some o) {k : Nat}
    (hidx : o.idx = (List.range o.batchSize).map (fun i => k + i)) :
    (toSingles h r o).2.map (fun x => (toSingles h r o).1[x]?) =
        (o.rows.zipIdx k).map (fun p => some (single p.1 p.2)) ∧
      ∀ x, x < h.length → (toSingles h r o).1[x]? = h[x]? := by
  unfold toSingles
  by_cases h1 : o.batchSize = 1
  · rw [if_pos h1]
    refine ⟨?_, fun x _ => rfl⟩
    obtain ⟨row, hrow⟩ := List.length_eq_one_iff.1 h1
    have : o = single row k := by
      cases o; simp only [Obj.batchSize] at *; subst hrow; simp [single, hidx]
    simp [hr, this]
    rfl
  · rw [if_neg h1]
    constructor
    · apply List.ext_getElem?
      intro i
      by_cases hi : i < o.batchSize
      · have hi' : i < o.rows.length := hi
        have e1 : (o.rows.drop i).take 1 = [o.rows[i]] := by
          rw [List.drop_eq_getElem_cons hi']; rfl
        have e2 : (o.idx.drop i).take 1 = [k + i] := by
          have : i < o.idx.length := by rw [hidx]; simpa using hi
          rw [List.drop_eq_getElem_cons this]
          simp [hidx]
        simp [List.getElem?_range, hi, hi', List.getElem?_append_right, single, e1, e2]
      · have hi' : o.rows.length ≤ i := by simpa [Obj.batchSize] using hi
        simp [List.getElem?_range, hi, hi', Obj.batchSize]
    · intro x hx
      exact List.getElem?_append_left hx

theorem trim_ok {cap : Int} (hc : 0 ≤ cap) : ∀ (l : List Ref), trim cap l = (l.drop (l.length - cap.toNat), none)
  | [] => by simp [trim]; omega
  | r :: rs => by
    unfold trim
    by_cases h : ((rs.length : Int) + 1) > cap
    · rw [if_pos h, trim_ok hc rs]
      have : (r :: rs).length - cap.toNat = (rs.length - cap.toNat) + 1 := by simp; omega
      rw [this]; rfl
    · rw [if_neg h]
      have : (r :: rs).length - cap.toNat = 0 := by simp; omega
      rw [this]; rfl

theorem trim_neg {cap : Int} (hc : cap < 0) : ∀ (l : List Ref), trim cap l = ([], some .indexError)
  | [] => by simp [trim]; omega
  | r :: rs => by
    unfold trim
    rw [if_pos (by omega), trim_neg hc rs]

end Coax.Replay
