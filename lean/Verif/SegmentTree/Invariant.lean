import Verif.SegmentTree.Lemmas

/-! The segment-tree invariant and what one `set_values` call does. -/

namespace Coax.SegmentTree

variable {α : Type _}

/-- Structural invariant of every reachable tree. -/
structure Inv (cap : Nat) (red : α → α → α) (init : α) (t : Tree α) : Prop where
  cap_pos : 0 < cap
  cap_eq : t.capacity = cap
  red_eq : t.reducer = red
  init_eq : t.initValue = init
  height_eq : t.height = Nat.clog 2 cap + 1
  len : t.arr.length = 2 ^ t.height - 1
  pad : ∀ k, cap ≤ k → k < 2 ^ (t.height - 1) → t.arr[2 ^ (t.height - 1) - 1 + k]? = some init
  node : ∀ l, l + 1 < t.height → ∀ k, k < 2 ^ l → NodeOk red t.arr l k

theorem Inv.cap_le {cap : Nat} {red : α → α → α} {init : α} {t : Tree α} (h : Inv cap red init t) :
    cap ≤ 2 ^ (t.height - 1) := by
  rw [h.height_eq]; simpa using Nat.le_pow_clog (by omega) cap

theorem Inv.height_pos {cap : Nat} {red : α → α → α} {init : α} {t : Tree α} (h : Inv cap red init t) :
    0 < t.height := by
  rw [h.height_eq]; omega

theorem Inv.values_get {cap : Nat} {red : α → α → α} {init : α} {t : Tree α} (h : Inv cap red init t) {p : Nat}
    (hp : p < cap) : t.values[p]? = t.arr[2 ^ (t.height - 1) - 1 + p]? := by
  simp [Tree.values, List.getElem?_take, h.cap_eq, hp]

theorem Inv.len_eq {cap : Nat} {red : α → α → α} {init : α} {t : Tree α} (h : Inv cap red init t) :
    t.arr.length = 2 ^ (t.height - 1) - 1 + 2 ^ (t.height - 1) := by
  have h1 := h.len
  have h2 := h.height_pos
  obtain ⟨n, hn⟩ : ∃ n, t.height = n + 1 := ⟨t.height - 1, by omega⟩
  rw [hn, Nat.pow_succ] at h1
  rw [h1, hn]
  have := Nat.two_pow_pos n
  simp; omega

theorem Inv.values_length {cap : Nat} {red : α → α → α} {init : α} {t : Tree α} (h : Inv cap red init t) :
    t.values.length = cap := by
  have h1 := h.len_eq
  have h2 := h.cap_le
  simp [Tree.values, h.cap_eq]
  omega

theorem inv_init {cap : Nat} (hc : 0 < cap) {red : α → α → α} {init : α} (hu : red init init = init) :
    Inv cap red init (Tree.init cap red init) := by
  refine ⟨hc, rfl, rfl, rfl, rfl, by simp [Tree.init], ?_, ?_⟩
  · intro k _ hk
    have : 2 ^ (Nat.clog 2 cap) - 1 + k < 2 ^ (Nat.clog 2 cap + 1) - 1 := node_lt (by omega) (by simpa [Tree.init] using hk)
    simp [Tree.init, List.getElem?_replicate, this]
  · intro l hl k hk
    have hl : l < Nat.clog 2 cap := by simpa [Tree.init] using hl
    have h0 : 2 ^ l - 1 + k < 2 ^ (Nat.clog 2 cap + 1) - 1 := node_lt (by omega) hk
    have h1 : 2 ^ (l + 1) - 1 + (2 * k + 1) < 2 ^ (Nat.clog 2 cap + 1) - 1 :=
      node_lt (by omega) (by rw [Nat.pow_succ]; omega)
    refine ⟨init, init, ?_, ?_, ?_⟩
    · simp only [Tree.init, List.getElem?_replicate]; rw [if_pos (by omega)]
    · simp only [Tree.init, List.getElem?_replicate]; rw [if_pos (by omega)]
    · simp only [Tree.init, List.getElem?_replicate]; rw [if_pos h0, hu]

/-- The indices that `idx` stands for (`...` is all of them). -/
def IdxArg.toList (cap : Nat) : IdxArg → List Int
  | .all => (List.range cap).map (fun (k : Nat) => (k : Int))
  | .arr idx => idx

theorem Inv.checkLevel {cap : Nat} {red : α → α → α} {init : α} {t : Tree α} (h : Inv cap red init t) :
    t.checkLevelLookup ((t.height : Int) - 1) = .ok (2 ^ (t.height - 1) - 1, cap) := by
  have h2 := h.height_pos
  have h3 : (((t.height : Int) - 1) % t.height).toNat = t.height - 1 := by
    rw [Int.emod_eq_of_lt (by omega) (by omega)]; omega
  have h4 := h.cap_le
  simp only [Tree.checkLevelLookup]
  rw [if_pos (by omega), h3, h.cap_eq, Nat.min_eq_right h4]

theorem Inv.checkIdx_ok {cap : Nat} {red : α → α → α} {init : α} {t : Tree α} (h : Inv cap red init t)
    {idx : IdxArg} (hi : ∀ k ∈ idx.toList cap, -(cap : Int) ≤ k ∧ k < cap) :
    t.checkIdx idx = .ok ((idx.toList cap).map (fun k => (k % (cap : Int)).toNat),
      2 ^ (t.height - 1) - 1, cap) := by
  have : (idx.toList cap).all (fun k => decide (k < (cap : Int)) && decide (-(cap : Int) ≤ k)) = true := by
    rw [List.all_eq_true]
    intro k hk
    have := hi k hk
    simp [this.1, this.2]
  simp only [Tree.checkIdx, h.checkLevel]
  cases idx <;> simp only [IdxArg.toList] at this ⊢ <;> simp [bind, Except.bind, this, pure, Except.pure]

theorem Inv.checkIdx_err {cap : Nat} {red : α → α → α} {init : α} {t : Tree α} (h : Inv cap red init t)
    {idx : IdxArg} (hi : ¬ ∀ k ∈ idx.toList cap, -(cap : Int) ≤ k ∧ k < cap) :
    t.checkIdx idx = .error .indexError := by
  have : ¬ ((idx.toList cap).all (fun k => decide (k < (cap : Int)) && decide (-(cap : Int) ≤ k)) = true) := by
    rw [List.all_eq_true]
    intro hk
    apply hi
    intro k hk'
    have := hk k hk'
    simp at this; omega
  simp only [Tree.checkIdx, h.checkLevel]
  cases idx <;> simp only [IdxArg.toList] at this ⊢ <;> simp only [bind, Except.bind, this] <;> rfl

theorem emod_toNat_lt {cap : Nat} (hc : 0 < cap) (k : Int) : (k % (cap : Int)).toNat < cap := by
  have h1 := Int.emod_lt_of_pos k (show (0 : Int) < cap by omega)
  have h2 := Int.emod_nonneg k (show (cap : Int) ≠ 0 by omega)
  omega

theorem denotes_iff {cap : Nat} (hc : 0 < cap) {k : Int} (hk : -(cap : Int) ≤ k ∧ k < cap) {p : Nat} (hp : p < cap) :
    denotes cap k p ↔ (k % (cap : Int)).toNat = p := by
  unfold denotes
  rcases lt_or_ge k 0 with hneg | hpos
  · have : k % (cap : Int) = k + cap := by
      rw [← Int.add_emod_right, Int.emod_eq_of_lt (by omega) (by omega)]
    rw [this]; omega
  · rw [Int.emod_eq_of_lt hpos hk.2]; omega

theorem lastW_leaf {cap : Nat} (hc : 0 < cap) (off : Nat) {idx : List Int}
    (hi : ∀ k ∈ idx, -(cap : Int) ≤ k ∧ k < cap) (vals : List α) {p : Nat} (hp : p < cap) :
    lastW (((idx.map (fun k => (k % (cap : Int)).toNat)).map (fun k => off + k % cap)).zip vals) (off + p)
      = lastAssigned cap idx vals p := by
  unfold lastAssigned
  have key : ∀ (idx : List Int) (vals : List α), (∀ k ∈ idx, -(cap : Int) ≤ k ∧ k < cap) →
      (((idx.map (fun k => (k % (cap : Int)).toNat)).map (fun k => off + k % cap)).zip vals).filter
        (fun p' => decide (p'.1 = off + p)) =
      ((idx.zip vals).filter (fun kv => decide (denotes cap kv.1 p))).map
        (fun kv => (off + p, kv.2)) := by
    intro idx
    induction idx with
    | nil => intro vals _; simp
    | cons k idx ih =>
      intro vals hi
      cases vals with
      | nil => simp
      | cons v vals =>
        have hk := hi k (by simp)
        have ih := ih vals (fun k' hk' => hi k' (by simp [hk']))
        have hlt := emod_toNat_lt hc k
        simp only [List.map_cons, List.zip_cons_cons, List.filter_cons, ih]
        have hd := denotes_iff hc hk hp
        by_cases hden : denotes cap k p
        · have : (k % (cap : Int)).toNat = p := hd.1 hden
          rw [Nat.mod_eq_of_lt hlt, this]
          simp [hden]
        · have : (k % (cap : Int)).toNat ≠ p := fun e => hden (hd.2 e)
          rw [Nat.mod_eq_of_lt hlt]
          simp [hden, this]
  unfold lastW
  rw [key idx vals hi, List.getLast?_map]
  cases ((idx.zip vals).filter (fun kv => decide (denotes cap kv.1 p))).getLast? <;> simp

theorem mem_ancestor {lev i : Nat} (hi : i < 2 ^ lev) : i / 2 ^ lev = 0 := Nat.div_eq_of_lt hi

/-- A `set_values` call with valid indices succeeds, keeps the invariant, and assigns. -/
theorem Inv.setValues_ok {cap : Nat} {red : α → α → α} {init : α} {t : Tree α} (h : Inv cap red init t)
    {idx : IdxArg} (hi : ∀ k ∈ idx.toList cap, -(cap : Int) ≤ k ∧ k < cap) {vals vals' : List α}
    (hb : broadcast (idx.toList cap).length vals = .ok vals') :
    ∃ t', t.setValues idx vals = .ok t' ∧ Inv cap red init t' ∧ t'.height = t.height ∧
      ∀ p, p < cap → t'.values[p]? = (lastAssigned cap (idx.toList cap) vals' p).or t.values[p]? := by
  have hc := h.cap_pos
  have hh := h.height_pos
  have hcl := h.cap_le
  let ks := (idx.toList cap).map (fun k => (k % (cap : Int)).toNat)
  have hks : ∀ k ∈ ks, k < cap := by
    intro k hk
    simp only [ks, List.mem_map] at hk
    obtain ⟨k', _, rfl⟩ := hk
    exact emod_toNat_lt hc k'
  let off := 2 ^ (t.height - 1) - 1
  have hwr : ∀ p ∈ (ks.map (fun k => off + k % cap)).zip vals', off ≤ p.1 ∧ p.1 < off + cap ∧ (p.1 - off) ∈ ks := by
    intro p hp
    have := List.of_mem_zip hp
    simp only [List.mem_map] at this
    obtain ⟨⟨k, hk, hk'⟩, _⟩ := this
    have := hks k hk
    rw [Nat.mod_eq_of_lt this] at hk'
    rw [← hk']
    refine ⟨by omega, by omega, ?_⟩
    simpa using hk
  have hlen := h.len_eq
  obtain ⟨arr₁, e1, hl1, hr1⟩ := writeAll_ok (arr := t.arr) (ps := (ks.map (fun k => off + k % cap)).zip vals') (by
    intro p hp
    have := hwr p hp
    have : off + cap ≤ t.arr.length := by simp only [off]; omega
    omega)
  have hsame : ∀ c, (c < off ∨ off + cap ≤ c ∨ (c - off) ∉ ks) → arr₁[c]? = t.arr[c]? := by
    intro c hcc
    rw [hr1, lastW_none]
    · simp
    · intro p hp e
      have := hwr p hp
      rw [e] at this
      rcases hcc with h | h | h
      · omega
      · omega
      · exact h this.2.2
  obtain ⟨arr₂, e2, hl2, hleaf, hok⟩ := climb_ok red t.height (t.height - 1) ks arr₁ (by omega)
    (by rw [hl1, h.len]) (fun k hk => by have := hks k hk; omega)
    (by intro l hl hlh; omega)
    (by
      intro l hl k hk hne
      obtain ⟨a, b, ha, hb, hab⟩ := h.node l (by omega) k hk
      have hpar : 2 ^ l - 1 + k < off := node_lt hl hk
      by_cases hl1 : l + 1 = t.height - 1
      · have hpw : 2 ^ (l + 1) = 2 ^ (t.height - 1) := by rw [hl1]
        have hn : ∀ c, c / 2 = k → c ∉ ks := by
          intro c hck hm
          refine hne c hm ?_
          have : t.height - 1 - l = 1 := by omega
          rw [this]; simpa using hck
        refine ⟨a, b, ?_, ?_, ?_⟩
        · rw [hsame]; exact ha
          right; right
          apply hn; simp only [off]; omega
        · rw [hsame]; exact hb
          right; right
          apply hn; simp only [off]; omega
        · rw [hsame _ (by omega)]; exact hab
      · have h1 : 2 ^ (l + 1) - 1 + (2 * k + 1) < off :=
          node_lt (by omega) (by rw [Nat.pow_succ]; omega)
        refine ⟨a, b, ?_, ?_, ?_⟩
        · rw [hsame _ (by omega)]; exact ha
        · rw [hsame _ (by omega)]; exact hb
        · rw [hsame _ (by omega)]; exact hab)
  have hset : t.setValues idx vals = .ok { t with arr := arr₂ } := by
    simp only [Tree.setValues, h.checkIdx_ok hi]
    simp only [bind, Except.bind, List.length_map, hb]
    simp only [ks, off] at e1 e2
    simp only [e1, h.red_eq, e2]
    rfl
  have hinv : Inv cap red init { t with arr := arr₂ } := by
    refine ⟨hc, h.cap_eq, h.red_eq, h.init_eq, h.height_eq, ?_, ?_, hok⟩
    · simp only [hl2, hl1, h.len]
    · intro k hk hk'
      rw [hleaf _ (by simp only; omega), hsame]
      · exact h.pad k hk hk'
      · right; left; simp only [off]; omega
  refine ⟨{ t with arr := arr₂ }, hset, hinv, rfl, ?_⟩
  intro p hp
  rw [hinv.values_get hp, h.values_get hp]
  simp only
  rw [hleaf _ (by omega), hr1]
  congr 1
  exact lastW_leaf hc off hi vals' hp

theorem Inv.setValues_bad_idx {cap : Nat} {red : α → α → α} {init : α} {t : Tree α} (h : Inv cap red init t)
    {idx : IdxArg} (hi : ¬ ∀ k ∈ idx.toList cap, -(cap : Int) ≤ k ∧ k < cap) (vals : List α) :
    t.setValues idx vals = .error .indexError := by
  simp only [Tree.setValues, h.checkIdx_err hi]
  rfl

theorem Inv.setValues_bad_shape {cap : Nat} {red : α → α → α} {init : α} {t : Tree α} (h : Inv cap red init t)
    {idx : IdxArg} (hi : ∀ k ∈ idx.toList cap, -(cap : Int) ≤ k ∧ k < cap) {vals : List α} {e : Err}
    (hb : broadcast (idx.toList cap).length vals = .error e) :
    t.setValues idx vals = .error e := by
  simp only [Tree.setValues, h.checkIdx_ok hi]
  simp only [bind, Except.bind, List.length_map, hb]

/-- The invariant survives any call, successful or not. -/
theorem Inv.step {cap : Nat} {red : α → α → α} {init : α} {t : Tree α} (h : Inv cap red init t) (c : Call α) :
    Inv cap red init (match t.setValues c.idx c.values with
      | .ok t' => t'
      | .error _ => t) := by
  by_cases hi : ∀ k ∈ c.idx.toList cap, -(cap : Int) ≤ k ∧ k < cap
  · cases hb : broadcast (c.idx.toList cap).length c.values with
    | ok vals' =>
      obtain ⟨t', e, hinv, _⟩ := h.setValues_ok hi hb
      rw [e]; exact hinv
    | error e => rw [h.setValues_bad_shape hi hb]; exact h
  · rw [h.setValues_bad_idx hi]; exact h

theorem Inv.run {cap : Nat} {red : α → α → α} {init : α} : ∀ (calls : List (Call α)) {t : Tree α},
    Inv cap red init t → Inv cap red init (run t calls)
  | [], _, h => h
  | c :: cs, _, h => Inv.run cs (h.step c)

theorem Reachable.inv {cap : Nat} (hc : 0 < cap) {red : α → α → α} {init : α} (hu : red init init = init)
    {t : Tree α} (h : Reachable cap red init t) : Inv cap red init t := by
  obtain ⟨calls, rfl⟩ := h
  exact Inv.run calls (inv_init hc hu)

end Coax.SegmentTree
