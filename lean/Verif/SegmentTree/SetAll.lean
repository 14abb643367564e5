import Verif.SegmentTree.PartialReduceTop

namespace Coax.SegmentTree

variable {α : Type _}

/-- `set_values(..., values)` replaces the whole vector. -/
theorem Inv.set_all {cap : Nat} {red : α → α → α} {init : α} {t : Tree α} (hinv : Inv cap red init t) {vals : List α}
    (hlen : vals.length = cap) :
    ∃ t', t.setValues .all vals = .ok t' ∧ Inv cap red init t' ∧ t'.values = vals := by
  obtain ⟨t', e, hinv', _, hv⟩ := hinv.setValues_ok (idx := .all) (by
      simp [IdxArg.toList])
    (vals := vals) (vals' := vals) (by simp [IdxArg.toList, broadcast, hlen])
  refine ⟨t', e, hinv', ?_⟩
  apply List.ext_getElem?
  intro p
  by_cases hp : p < cap
  · rw [hv p hp]
    have : lastAssigned cap (IdxArg.all.toList cap) vals p = vals[p]? := by
      simp only [lastAssigned, IdxArg.toList]
      have hz : ((List.range cap).map (fun (k : Nat) => (k : Int))).zip vals =
          vals.zipIdx.map (fun vk => ((vk.2 : Int), vk.1)) := by
        apply List.ext_getElem?
        intro i
        simp only [List.getElem?_map, List.getElem?_zipIdx]
        by_cases hi : i < cap
        · have : i < vals.length := by omega
          simp [List.zip, List.getElem?_zipWith, hi, this]
        · have : vals.length ≤ i := by omega
          simp [List.zip, List.getElem?_zipWith, hi, this]
      rw [hz, List.filter_map]
      have hf : (vals.zipIdx.filter ((fun kv : Int × α => decide (denotes cap kv.1 p)) ∘
          fun vk => ((vk.2 : Int), vk.1))) = vals.zipIdx.filter (fun vk => vk.2 == p) := by
        apply List.filter_congr
        rintro ⟨v, k⟩ hk
        have hk' : k < cap := by
          have := List.mem_zipIdx hk
          omega
        simp only [Function.comp, denotes, beq_eq_decide]
        congr 1
        simp only [eq_iff_iff]
        omega
      rw [hf]
      have : ∀ (l : List α) (s : Nat), s ≤ p →
          ((l.zipIdx s).filter (fun vk => vk.2 == p)).getLast?.map (·.1) = l[p - s]? := by
        intro l
        induction l with
        | nil => simp
        | cons x l ih =>
          intro s hs
          rw [List.zipIdx_cons, List.filter_cons]
          by_cases hsp : s = p
          · subst hsp
            have hnil : (l.zipIdx (s + 1)).filter (fun vk => vk.2 == s) = [] := by
              rw [List.filter_eq_nil_iff]
              rintro ⟨v, k⟩ hk
              have := List.mem_zipIdx hk
              simp; omega
            simp [hnil]
          · have h1 : p - s = (p - (s + 1)) + 1 := by omega
            rw [if_neg (by simpa using hsp), ih (s + 1) (by omega), h1]
            simp
      have := this vals 0 (by omega)
      rw [List.getLast?_map]
      simpa [Option.map_map, Function.comp_def] using this
    rw [this, List.getElem?_eq_getElem (by omega)]
    rfl
  · rw [List.getElem?_eq_none (by rw [hinv'.values_length]; omega), List.getElem?_eq_none (by omega)]


end Coax.SegmentTree
