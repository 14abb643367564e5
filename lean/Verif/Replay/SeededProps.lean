import Verif.Replay.Seeded
import Verif.Replay.PrioritizedProps
import Verif.Replay.SimpleProps

/-!
C143: seeds, cleared buffers and the random draws of other code.
-/

namespace Coax.Replay

variable {σ R E : Type _}

/-! ### Specification -/

/-- The sizes of the batches that are drawn by some calls. -/
def sizes : List (Call σ E) → List Nat
  | [] => []
  | .sample n :: cs => if n > 0 then n.toNat :: sizes cs else sizes cs
  | _ :: cs => sizes cs

/-- The numbers that a generator in state `g` gives when asked for so many numbers, in turn. -/
def drawsFrom (N : Numpy R E) (g : R) : List Nat → List (List ℝ)
  | [] => []
  | n :: ns => (N.rand g n).1 :: drawsFrom N (N.rand g n).2 ns

/-- What the calls on a buffer without generator give when the numbers are dealt from a list. -/
noncomputable def dealt : List (List ℝ) → PSys σ → List (Call σ E) → List (Answer σ)
  | _, _, [] => []
  | d, s, .new rows :: cs => .silent :: dealt d { s with heap := s.heap ++ [Obj.new rows] } cs
  | d, s, .add r Adv :: cs => .of (s.add r Adv).2 :: dealt d (s.add r Adv).1 cs
  | d, s, .sample n :: cs =>
    if n > 0 then .ofBatch (s.sample n (fun _ => d.headD [])) :: dealt d.tail s cs else .raised .typeError :: dealt d s cs
  | d, s, .update idx Adv :: cs => .of (s.update idx Adv).2 :: dealt d (s.update idx Adv).1 cs
  | d, s, .setAlpha a :: cs => .of (s.setAlpha a).2 :: dealt d (s.setAlpha a).1 cs
  | d, s, .setBeta b :: cs => .of (s.setBeta b).2 :: dealt d (s.setBeta b).1 cs
  | d, s, .setEpsilon e :: cs => .of (s.setEpsilon e).2 :: dealt d (s.setEpsilon e).1 cs
  | d, s, .clear :: cs => .silent :: dealt d s.clear cs
  | d, s, .iterate :: cs => .contents s.iter :: dealt d s cs
  | d, s, .entropy _ :: cs => .silent :: dealt d s cs

/-- A generator of numpy returns as many numbers as asked for, in `[0, 1)`. -/
def Numpy.Uniform (N : Numpy R E) : Prop :=
  ∀ g n, (N.rand g n).1.length = n ∧ ∀ u ∈ (N.rand g n).1, 0 ≤ u ∧ u < 1

/-! ### Lemmas -/

theorem sample_rnd (s : PSys σ) (n : Int) (rnd : Nat → List ℝ) : s.sample n rnd = s.sample n (fun _ => rnd n.toNat) := by
  simp [PSys.sample, SegmentTree.Tree.sample]

theorem sample_nonpos (s : PSys σ) {n : Int} (hn : ¬ n > 0) (rnd : Nat → List ℝ) : s.sample n rnd = .error .typeError := by
  simp only [PSys.sample, SegmentTree.Tree.sample, if_neg hn]
  rfl

/-- Two buffers that no call can tell apart. -/
structure Alike (s s' : SSys σ R E) : Prop where
  sys : s.sys = s'.sys
  rnd : s.treeRnd = s'.treeRnd
  seed : s.randomSeed = s'.randomSeed
  some : ∃ k, s.randomSeed = some k

theorem Alike.clear {N : Numpy R E} {s s' : SSys σ R E} (h : Alike s s') : Alike (s.clear N) (s'.clear N) := by
  obtain ⟨k, hk⟩ := h.some
  have hk' := h.seed ▸ hk
  refine ⟨?_, ?_, ?_, k, ?_⟩ <;>
    simp [SSys.clear, SSys.setTreeSeed, Numpy.make, hk, hk', h.sys]

theorem Alike.step {N : Numpy R E} {s s' : SSys σ R E} (h : Alike s s') (c : Call σ E) :
    Alike (s.step N c).1 (s'.step N c).1 ∧ (s.step N c).2 = (s'.step N c).2 := by
  obtain ⟨hs, hr, hd, hk⟩ := h
  cases c with
  | clear => exact ⟨Alike.clear ⟨hs, hr, hd, hk⟩, rfl⟩
  | sample n =>
    simp only [SSys.step, SSys.sample]
    refine ⟨?_, by rw [hs, hr]⟩
    split
    · exact ⟨hs, by simp [hr], hd, hk⟩
    · exact ⟨hs, hr, hd, hk⟩
  | _ =>
    simp only [SSys.step]
    refine ⟨⟨?_, hr, hd, hk⟩, ?_⟩ <;> simp [hs]

theorem Alike.run {N : Numpy R E} (cs : List (Call σ E)) : ∀ {s s' : SSys σ R E}, Alike s s' →
    Alike (s.run N cs).1 (s'.run N cs).1 ∧ (s.run N cs).2 = (s'.run N cs).2 := by
  induction cs with
  | nil => intro s s' h; exact ⟨h, rfl⟩
  | cons c cs ih =>
    intro s s' h
    obtain ⟨h1, h2⟩ := h.step (N := N) c
    obtain ⟨h3, h4⟩ := ih h1
    exact ⟨h3, by simp [SSys.run, h2, h4]⟩

/-- What every history of a buffer leaves alone. -/
structure Sound (cap : Int) (seed : Option Int) (s : SSys σ R E) : Prop where
  size : (s.sys.buf.capacity : Int) = cap
  pos : 0 < cap
  alpha : 0 < s.sys.buf.alpha
  beta : 0 < s.sys.buf.beta
  epsilon : 0 < s.sys.buf.epsilon
  seed : s.randomSeed = seed

theorem add_keeps (s : PSys σ) (r : Ref) (Adv : List ℝ) : (s.add r Adv).1.buf.capacity = s.buf.capacity ∧
    (s.add r Adv).1.buf.alpha = s.buf.alpha ∧ (s.add r Adv).1.buf.beta = s.buf.beta ∧
    (s.add r Adv).1.buf.epsilon = s.buf.epsilon := by
  unfold PSys.add
  cases h : s.heap[r]? with
  | none => simp
  | some o =>
    simp only
    split
    · simp
    · split
      · simp
      · split <;> simp

theorem update_keeps (s : PSys σ) (idx : List Int) (Adv : List ℝ) : (s.update idx Adv).1.buf.capacity = s.buf.capacity ∧
    (s.update idx Adv).1.buf.alpha = s.buf.alpha ∧ (s.update idx Adv).1.buf.beta = s.buf.beta ∧
    (s.update idx Adv).1.buf.epsilon = s.buf.epsilon := by
  unfold PSys.update
  split
  · simp
  · split
    · simp
    · simp only
      split
      · simp
      · split
        · simp
        · split <;> simp

theorem setAlpha_keeps (s : PSys σ) (a : ℝ) : (s.setAlpha a).1.buf.capacity = s.buf.capacity ∧
    ((s.setAlpha a).1.buf.alpha = s.buf.alpha ∨ (s.setAlpha a).1.buf.alpha = a ∧ 0 < a) ∧
    (s.setAlpha a).1.buf.beta = s.buf.beta ∧ (s.setAlpha a).1.buf.epsilon = s.buf.epsilon := by
  unfold PSys.setAlpha
  split
  · simp
  · rename_i h
    split
    · simp
    · simp only
      split
      · simp
      · simpa using Or.inr h

theorem Sound.step {N : Numpy R E} {cap : Int} {seed : Option Int} {s : SSys σ R E} (h : Sound cap seed s) (c : Call σ E) :
    Sound cap seed (s.step N c).1 := by
  obtain ⟨h1, h2, h3, h4, h5, h6⟩ := h
  cases c with
  | new rows => exact ⟨h1, h2, h3, h4, h5, h6⟩
  | add r Adv =>
    obtain ⟨k1, k2, k3, k4⟩ := add_keeps s.sys r Adv
    exact ⟨by simpa [SSys.step, k1] using h1, h2, by simpa [SSys.step, k2] using h3, by simpa [SSys.step, k3] using h4,
      by simpa [SSys.step, k4] using h5, h6⟩
  | sample n =>
    simp only [SSys.step, SSys.sample]
    split <;> exact ⟨h1, h2, h3, h4, h5, h6⟩
  | update idx Adv =>
    obtain ⟨k1, k2, k3, k4⟩ := update_keeps s.sys idx Adv
    exact ⟨by simpa [SSys.step, k1] using h1, h2, by simpa [SSys.step, k2] using h3, by simpa [SSys.step, k3] using h4,
      by simpa [SSys.step, k4] using h5, h6⟩
  | setAlpha a =>
    obtain ⟨k1, k2, k3, k4⟩ := setAlpha_keeps s.sys a
    refine ⟨by simpa [SSys.step, k1] using h1, h2, ?_, by simpa [SSys.step, k3] using h4,
      by simpa [SSys.step, k4] using h5, h6⟩
    rcases k2 with k2 | ⟨k2, k5⟩
    · simpa [SSys.step, k2] using h3
    · simpa [SSys.step, k2] using k5
  | setBeta b =>
    simp only [SSys.step, PSys.setBeta]
    split
    · rename_i hb; exact ⟨h1, h2, h3, hb, h5, h6⟩
    · exact ⟨h1, h2, h3, h4, h5, h6⟩
  | setEpsilon e =>
    simp only [SSys.step, PSys.setEpsilon]
    split
    · rename_i hb; exact ⟨h1, h2, h3, h4, hb, h6⟩
    · exact ⟨h1, h2, h3, h4, h5, h6⟩
  | clear => exact ⟨h1, h2, h3, h4, h5, h6⟩
  | iterate => exact ⟨h1, h2, h3, h4, h5, h6⟩
  | entropy e => exact ⟨h1, h2, h3, h4, h5, h6⟩

theorem Sound.run {N : Numpy R E} {cap : Int} {seed : Option Int} (cs : List (Call σ E)) : ∀ {s : SSys σ R E},
    Sound cap seed s → Sound cap seed (s.run N cs).1 := by
  induction cs with
  | nil => intro s h; exact h
  | cons c cs ih => intro s h; exact ih (h.step c)

theorem init_ok {N : Numpy R E} {heap : Heap (Row σ)} {cap : Int} {a b ε : ℝ} {seed : Option Int} {e : E} :
    (∃ s, SSys.init N heap cap a b ε seed e = .ok s) ↔ 0 < cap ∧ 0 < a ∧ 0 < b ∧ 0 < ε := by
  unfold SSys.init PSys.init
  split
  · rename_i h; split at h <;> simp_all
  · rename_i h
    split at h
    · simp_all
    · simp at h

theorem init_sound {N : Numpy R E} {heap : Heap (Row σ)} {cap : Int} {a b ε : ℝ} {seed : Option Int} {e : E}
    {s : SSys σ R E} (h : SSys.init N heap cap a b ε seed e = .ok s) :
    Sound cap seed s ∧ s.sys.heap = heap ∧ s.sys.buf.alpha = a ∧ s.sys.buf.beta = b ∧ s.sys.buf.epsilon = ε ∧
      PSys.init heap cap a b ε = .ok s.sys := by
  unfold SSys.init PSys.init at h
  split at h
  · simp at h
  · rename_i sys h'
    split at h'
    · rename_i hp
      obtain ⟨p1, p2, p3, p4⟩ := hp
      cases h'
      cases h
      refine ⟨⟨?_, p1, p2, p3, p4, rfl⟩, rfl, rfl, rfl, rfl, ?_⟩
      · simp [SSys.clear, SSys.setTreeSeed, PSys.clear, PBuf.clear, p1.le]
      · simp [PSys.init, p1, p2, p3, p4, SSys.clear, SSys.setTreeSeed, PSys.clear, PBuf.clear]
    · simp at h'

theorem init_alike {N : Numpy R E} {heap : Heap (Row σ)} {cap : Int} {a b ε : ℝ} {k : Int} {e e' : E}
    {s s' : SSys σ R E} (h : SSys.init N heap cap a b ε (some k) e = .ok s)
    (h' : SSys.init N heap cap a b ε (some k) e' = .ok s') : Alike s s' := by
  unfold SSys.init at h h'
  split at h
  · simp at h
  · rename_i sys e1
    rw [e1] at h'
    cases h
    cases h'
    exact ⟨rfl, rfl, rfl, k, rfl⟩

/-! ### C143 -/

/-- C143, a seed determines everything.  Two buffers made with the same arguments and the same seed answer every
sequence of calls in the same way, whatever the entropy of the machine is and whatever other code does to it. -/
theorem C143_reproducible (N : Numpy R E) (heap : Heap (Row σ)) (cap : Int) (a b ε : ℝ) (k : Int) (e e' : E)
    {s s' : SSys σ R E} (h : SSys.init N heap cap a b ε (some k) e = .ok s)
    (h' : SSys.init N heap cap a b ε (some k) e' = .ok s') (cs : List (Call σ E)) (noise : Call σ E → E) :
    (s.run N cs).2 = (s'.run N cs).2 ∧
      (s.run N (cs.flatMap fun c => [.entropy (noise c), c])).2 =
        (s'.run N cs).2.flatMap (fun x => [.silent, x]) := by
  have h0 := init_alike h h'
  refine ⟨(h0.run cs).2, ?_⟩
  clear h h'
  induction cs generalizing s s' with
  | nil => rfl
  | cons c cs ih =>
    have h1 : Alike (s.step N (.entropy (noise c))).1 s' := ⟨h0.sys, h0.rnd, h0.seed, h0.some⟩
    obtain ⟨h2, h3⟩ := h1.step (N := N) c
    have h4 := ih h2
    simp only [List.flatMap_cons, SSys.run, List.cons_append, List.nil_append]
    rw [h4, h3]
    rfl

/-- C143, `clear` makes a buffer with a seed as new.  Whatever happened to the buffer, after `clear` it answers every
sequence of calls exactly like a buffer just made with the same capacity and seed and the current `alpha`, `beta` and
`epsilon`; this includes all samples. -/
theorem C143_cleared_as_new (N : Numpy R E) (heap : Heap (Row σ)) (cap : Int) (a b ε : ℝ) (k : Int) (e e' : E)
    {s : SSys σ R E} (h : SSys.init N heap cap a b ε (some k) e = .ok s) (before after : List (Call σ E)) :
    ∃ s', SSys.init N (s.run N before).1.sys.heap cap (s.run N before).1.sys.buf.alpha (s.run N before).1.sys.buf.beta
        (s.run N before).1.sys.buf.epsilon (some k) e' = .ok s' ∧
      (((s.run N before).1.clear N).run N after).2 = (s'.run N after).2 := by
  have hs := (init_sound h).1.run (N := N) before
  generalize (s.run N before).1 = t at hs
  obtain ⟨s', h'⟩ := (init_ok (N := N) (heap := t.sys.heap) (seed := some k) (e := e')).2
    ⟨hs.pos, hs.alpha, hs.beta, hs.epsilon⟩
  refine ⟨s', h', ((Alike.run after) ?_).2⟩
  unfold SSys.init PSys.init at h'
  rw [if_pos ⟨hs.pos, hs.alpha, hs.beta, hs.epsilon⟩] at h'
  cases h'
  have hc : cap.toNat = t.sys.buf.capacity := by have := hs.size; omega
  refine ⟨?_, ?_, ?_, k, ?_⟩
  · simp [SSys.clear, SSys.setTreeSeed, PSys.clear, PBuf.clear, hc]
  · simp [SSys.clear, SSys.setTreeSeed, Numpy.make, hs.seed]
  · simp [SSys.clear, SSys.setTreeSeed, hs.seed]
  · simp [SSys.clear, SSys.setTreeSeed, hs.seed]

theorem run_dealt (N : Numpy R E) (cs : List (Call σ E)) : ∀ (s : SSys σ R E), (∀ c ∈ cs, c ≠ .clear) →
    (s.run N cs).2 = dealt (drawsFrom N s.treeRnd (sizes cs)) s.sys cs := by
  induction cs with
  | nil => intro s _; rfl
  | cons c cs ih =>
    intro s hc
    have h1 := ih (s.step N c).1 (fun x hx => hc x (by simp [hx]))
    cases c with
    | clear => exact absurd rfl (hc .clear (by simp))
    | sample n =>
      by_cases hn : n > 0
      · simp only [SSys.run, h1, sizes, if_pos hn, dealt, drawsFrom]
        simp only [SSys.step, SSys.sample, if_pos hn, List.headD_cons, List.tail_cons]
        rw [sample_rnd]
      · simp only [SSys.run, h1, sizes, if_neg hn, dealt]
        simp only [SSys.step, SSys.sample, if_neg hn, sample_nonpos _ hn]
        rfl
    | _ => simp only [SSys.run, h1, sizes, dealt]; rfl

/-- C143, what the samples after `clear` are made of.  The numbers behind the samples drawn after `clear` are those which
the generator of the seed gives from its start, so they depend only on the seed and on the sizes of the batches drawn
since `clear`.  An attempt to sample that fails because the buffer is empty uses up numbers as well. -/
theorem C143_numbers (N : Numpy R E) (s : SSys σ R E) (k : Int) (hk : s.randomSeed = some k) (cs : List (Call σ E))
    (hc : ∀ c ∈ cs, c ≠ .clear) :
    ((s.clear N).run N cs).2 = dealt (drawsFrom N (N.seeded k) (sizes cs)) s.sys.clear cs := by
  rw [run_dealt N cs _ hc]
  simp [SSys.clear, SSys.setTreeSeed, Numpy.make, hk]

/-- C143, without a seed `clear` asks the machine for entropy again, so nothing repeats by construction. -/
theorem C143_numbers_without_seed (N : Numpy R E) (s : SSys σ R E) (hk : s.randomSeed = none) (cs : List (Call σ E))
    (hc : ∀ c ∈ cs, c ≠ .clear) :
    ((s.clear N).run N cs).2 = dealt (drawsFrom N (N.fresh s.entropy).1 (sizes cs)) s.sys.clear cs := by
  rw [run_dealt N cs _ hc]
  simp [SSys.clear, SSys.setTreeSeed, Numpy.make, hk]

theorem ids_unique {cap L : Nat} {t t' : SegmentTree.Tree ℝ} (hc : 0 < cap)
    (hr : SegmentTree.Reachable cap (· + ·) 0 t) (hr' : SegmentTree.Reachable cap (· + ·) 0 t')
    (hv : t'.values = t.values) (hnn : ∀ x ∈ t.values, 0 ≤ x) (hpos : 0 < t.values.sum) {us : List ℝ} {ids : List Nat}
    (h : List.Forall₂ (fun u i => t.inverseCdf [u] = .ok [i % cap]) us ids) : ∀ {ids' : List Nat},
    List.Forall₂ (fun u i => t'.inverseCdf [u] = .ok [i % cap]) us ids' → (∀ u ∈ us, 0 ≤ u ∧ u < 1) →
    (∀ i ∈ ids, i < L ∧ L ≤ i + cap) → (∀ i ∈ ids', i < L ∧ L ≤ i + cap) → ids = ids' := by
  induction h with
  | nil => intro ids' h' _ _ _; cases h'; rfl
  | @cons u i us ids h1 h2 ih =>
    intro ids' h' hu hi hi'
    cases h' with
    | @cons _ j _ ids'' k1 k2 =>
      rw [ih k2 (fun x hx => hu x (by simp [hx])) (fun x hx => hi x (by simp [hx])) (fun x hx => hi' x (by simp [hx]))]
      have e1 := (SegmentTree.C06_sample_interval hc hr hnn hpos (hu u (by simp)) _).1 h1
      have e2 := (SegmentTree.C06_sample_interval hc hr' (hv ▸ hnn) (hv ▸ hpos) (hu u (by simp)) _).1 k1
      rw [hv] at e2
      rw [div_le_iff₀ hpos, lt_div_iff₀ hpos] at e1 e2
      have e3 : i % cap = j % cap := SegmentTree.C05_index_unique hnn e1.1 e1.2 e2.1 e2.2
      obtain ⟨l1, l2⟩ := hi i (by simp)
      obtain ⟨l3, l4⟩ := hi' j (by simp)
      congr 1
      have d1 := Nat.div_add_mod i cap
      have d2 := Nat.div_add_mod j cap
      rcases Nat.lt_trichotomy (i / cap) (j / cap) with hlt | heq | hlt
      · have : cap * (i / cap) + cap ≤ cap * (j / cap) := by
          have := Nat.mul_le_mul_left cap (show i / cap + 1 ≤ j / cap by omega); rwa [Nat.mul_add, Nat.mul_one] at this
        omega
      · rw [heq] at d1; omega
      · have : cap * (j / cap) + cap ≤ cap * (i / cap) := by
          have := Nat.mul_le_mul_left cap (show j / cap + 1 ≤ i / cap by omega); rwa [Nat.mul_add, Nat.mul_one] at this
        omega

theorem forall₂_left {α β : Type _} {P : α → β → Prop} {Q : α → Prop} {l : List α} {l' : List β}
    (h : List.Forall₂ P l l') (hq : ∀ a b, P a b → Q a) : ∀ a ∈ l, Q a := by
  induction h with
  | nil => simp
  | cons h1 _ ih => intro a ha; rcases List.mem_cons.1 ha with rfl | ha; exacts [hq _ _ h1, ih a ha]

/-- Two buffers with the same priorities pick the same identifiers from the same numbers, whatever transitions they
hold. -/
theorem same_picks {cap : Nat} {s s' : PSys σ} {sp sp' : PSpec σ} (h : PHistory cap s sp) (h' : PHistory cap s' sp')
    (hb : sp'.base = sp.base) (hl : sp'.log.length = sp.log.length) (ha : sp'.alpha = sp.alpha)
    (hL : 0 < sp.log.length) {n : Nat} (hn : 0 < n) (rnd : Nat → List ℝ)
    (hlen : ∀ n, (rnd n).length = n) (hrnd : ∀ n, ∀ u ∈ rnd n, 0 ≤ u ∧ u < 1) :
    ∃ o o', s.sample n rnd = .ok o ∧ s'.sample n rnd = .ok o' ∧ o.idx = o'.idx ∧ o.idx.length = n := by
  obtain ⟨ids, rows, M, a1, a2, a3, -, -, a6⟩ := C13_importance_weights h hL rnd hlen hrnd hn
  obtain ⟨ids', rows', M', b1, b2, b3, -, -, b6⟩ := C13_importance_weights h' (by omega) rnd hlen hrnd hn
  refine ⟨_, _, a6, b6, ?_, a1⟩
  exact ids_unique h.holds.cap_pos h.holds.reach h'.holds.reach (values_ext h.holds h'.holds hb hl ha)
    (values_nonneg h.holds) (by rw [values_sum h.holds]; exact total_pos h.holds hL) a3 b3 (hrnd n)
    (forall₂_left a2 (fun a b hab => ⟨hab.1, hab.2.1⟩)) (forall₂_left b2 (fun a b hab => ⟨hl ▸ hab.1, hl ▸ hab.2.1⟩))

/-- One round of a loop that learns from rounds of data: clear the buffer, fill it with new transitions, draw `n` of
them. -/
def round (s : SSys σ R E) (rows : List (Row σ)) (Adv : List ℝ) (n : Nat) : List (Call σ E) :=
  [.clear, .new rows, .add s.sys.heap.length Adv, .sample n]

/-- Several rounds, each with its own transitions and the same advantages; the batches that were drawn. -/
noncomputable def rounds (N : Numpy R E) (Adv : List ℝ) (n : Nat) : SSys σ R E → List (List (Row σ)) → List (List (Answer σ))
  | _, [] => []
  | s, rows :: rest => (s.run N (round s rows Adv n)).2 :: rounds N Adv n (s.run N (round s rows Adv n)).1 rest

/-- The buffer when the draw of a round happens. -/
noncomputable def filled (s : PSys σ) (rows : List (Row σ)) (Adv : List ℝ) : PSys σ :=
  ({ s.clear with heap := s.clear.heap ++ [Obj.new rows] }.add s.heap.length Adv).1

theorem filled_history {cap : Nat} {s : PSys σ} {sp : PSpec σ} (h : PHistory cap s sp)
    (rows : List (Row σ)) (Adv : List ℝ) (hA : Adv.length = rows.length) :
    PHistory cap (filled s rows Adv)
      { sp with log := rows, base := Adv.map (fun a => |a| + sp.epsilon), doc := Adv.map (fun a => |a| + sp.epsilon), tame := True } ∧
    ({ s.clear with heap := s.clear.heap ++ [Obj.new rows] }.add s.heap.length Adv).2 = none := by
  have h1 := PHistory.new rows h.clear
  have hr : (s.clear.heap ++ [Obj.new rows])[s.heap.length]? = some (Obj.new rows) := by
    simp [PSys.clear]
  have hf : (Obj.new rows).rows.length = 1 → some s.heap.length ∉ s.clear.buf.storage := by
    simp [PSys.clear, PBuf.clear]
  have h2 := PHistory.add (r := s.heap.length) (o := Obj.new rows) (Adv := Adv) h1 hr hf (by simpa [Obj.new] using hA)
  have h3 := (h1.holds.add (r := s.heap.length) (o := Obj.new rows) (Adv := Adv) hr hf (by simpa [Obj.new] using hA)).2
  simp only [List.nil_append, Obj.new] at h2 h3
  exact ⟨h2, h3⟩

theorem round_run {s : SSys σ R E} {k : Int} (N : Numpy R E) (hk : s.randomSeed = some k) (rows : List (Row σ))
    (Adv : List ℝ) {n : Nat} (hn : 0 < n) :
    (s.run N (round s rows Adv n)).1.sys = filled s.sys rows Adv ∧
    (s.run N (round s rows Adv n)).1.randomSeed = some k ∧
    (s.run N (round s rows Adv n)).2 = [.silent, .silent,
      .of ({ s.sys.clear with heap := s.sys.clear.heap ++ [Obj.new rows] }.add s.sys.heap.length Adv).2,
      .ofBatch ((filled s.sys rows Adv).sample n (fun m => (N.rand (N.seeded k) m).1))] := by
  have hn' : (n : Int) > 0 := by omega
  simp [round, SSys.run, SSys.step, SSys.sample, SSys.clear, SSys.setTreeSeed, Numpy.make, hk, hn, filled]

/-- C143, a seed repeats itself.  A loop clears a buffer that has a seed, fills it with new transitions of the same
advantages as before, and draws `n` of them, again and again.  In every round it draws the same identifiers: there are
fixed numbers `ids` such that a transition whose number is not among them is never drawn, in any round. -/
theorem C143_rounds_repeat {cap : Nat} {s : SSys σ R E} {sp : PSpec σ} (N : Numpy R E) (hN : N.Uniform) (k : Int)
    (hk : s.randomSeed = some k) (h : PHistory cap s.sys sp) (Adv : List ℝ) {n : Nat} (hn : 0 < n) (hA : Adv ≠ []) :
    ∃ ids : List Nat, ids.length = n ∧ ∀ data : List (List (Row σ)), (∀ rows ∈ data, rows.length = Adv.length) →
      ∀ answers ∈ rounds N Adv n s data, ∃ o : Obj (Row σ), answers = [.silent, .silent, .silent, .batch o] ∧ o.idx = ids := by
  have hA' : 0 < Adv.length := List.length_pos_iff.2 hA
  by_cases hne : Nonempty (Row σ)
  · obtain ⟨row⟩ := hne
    obtain ⟨h0, -⟩ := filled_history h (List.replicate Adv.length row) Adv (by simp)
    obtain ⟨o0, _, e0, _, _, hl⟩ := same_picks h0 h0 rfl rfl rfl (by simpa using hA') hn
      (fun m => (N.rand (N.seeded k) m).1) (fun m => (hN _ m).1) (fun m => (hN _ m).2)
    refine ⟨o0.idx, hl, ?_⟩
    intro data hd
    -- the rounds go on with a buffer whose settings are those of the beginning
    suffices H : ∀ (t : SSys σ R E) (tp : PSpec σ), t.randomSeed = some k → PHistory cap t.sys tp → tp.alpha = sp.alpha →
        tp.epsilon = sp.epsilon → ∀ answers ∈ rounds N Adv n t data,
          ∃ o : Obj (Row σ), answers = [.silent, .silent, .silent, .batch o] ∧ o.idx = o0.idx from H s sp hk h rfl rfl
    induction data with
    | nil => simp [rounds]
    | cons rows data ih =>
      intro t tp tk th ta te answers hm
      obtain ⟨f1, f2⟩ := filled_history th rows Adv (by simpa using (hd rows (by simp)).symm)
      obtain ⟨r1, r2, r3⟩ := round_run N tk rows Adv hn
      simp only [rounds, List.mem_cons] at hm
      rcases hm with rfl | hm
      · obtain ⟨o, o', g1, g2, g3, -⟩ := same_picks h0 f1 (by simp [te]) (by simp [hd rows (by simp)]) ta
          (by simpa using hA') hn (fun m => (N.rand (N.seeded k) m).1) (fun m => (hN _ m).1) (fun m => (hN _ m).2)
        rw [e0] at g1
        cases g1
        refine ⟨o', ?_, g3.symm⟩
        rw [r3, f2, g2]
        rfl
      · rw [← r1] at f1
        exact ih (fun rows' hr => hd rows' (by simp [hr])) _ _ r2 f1 ta te answers hm
  · refine ⟨List.replicate n 0, by simp, ?_⟩
    intro data hd
    cases data with
    | nil => simp [rounds]
    | cons rows data =>
      exfalso
      have := hd rows (by simp)
      cases rows with
      | nil => simp at this; omega
      | cons row _ => exact hne ⟨row⟩

/-! ### `SimpleReplayBuffer` -/

variable {τ G : Type _} {draw : G → Nat → Nat → List Nat × G}

/-- C143, `SimpleReplayBuffer.clear`.  A cleared buffer behaves like a new one whose generator is in the state in which
the old one was: its samples go on, they do not start again. -/
theorem C143_simple_cleared (s : Sys τ G) (es : List (Event τ G)) :
    s.clear.shows draw es = (Sys.init s.heap s.buf.capacity s.buf.randomState).shows draw es := by
  rw [C09_independent_of_global_random s.clear s.clear ⟨rfl, rfl⟩ es,
    ← C09_independent_of_global_random (Sys.init s.heap s.buf.capacity s.buf.randomState) s.clear ⟨rfl, rfl⟩ es]

/-- A generator for examples: it goes through the positions in order, starting at a position that moves by one with
every draw. -/
def wheel (g n k : Nat) : List Nat × Nat := ((List.range k).map (fun j => (g + j) % n), g + 1)

theorem wheel_distinct : DrawsDistinct wheel := by
  intro g n k hk
  refine ⟨by simp [wheel], ?_, ?_⟩
  · refine List.Nodup.map_on ?_ List.nodup_range
    intro x hx y hy hxy
    have hx' := List.mem_range.1 hx
    have hy' := List.mem_range.1 hy
    have : x % n = y % n := Nat.ModEq.add_left_cancel' g hxy
    rwa [Nat.mod_eq_of_lt (by omega), Nat.mod_eq_of_lt (by omega)] at this
  · intro p hp
    obtain ⟨j, hj, rfl⟩ := List.mem_map.1 hp
    exact Nat.mod_lt _ (by have := List.mem_range.1 hj; omega)

/-- C143, counterexample: `clear` does not make a `SimpleReplayBuffer` with a seed as new.  Used once and cleared, and
filled with the same two transitions, it returns another sample than a buffer just made with the same seed. -/
theorem C143_simple_counterexample : ∃ (draw : Nat → Nat → Nat → List Nat × Nat), DrawsDistinct draw ∧
    (Sys.init ([] : Heap String) 2 0).shows draw
        [.new ["x", "y"], .add 0, .sample 1, .clear, .new ["x", "y"], .add 3, .sample 1] =
      [.silent, .silent, .batch ⟨["x"], [0]⟩, .silent, .silent, .silent, .batch ⟨["y"], [1]⟩] ∧
    (Sys.init ([] : Heap String) 2 0).shows draw [.new ["x", "y"], .add 0, .sample 1] =
      [.silent, .silent, .batch ⟨["x"], [0]⟩] :=
  ⟨wheel, wheel_distinct, rfl, rfl⟩

/-- C143, counterexample in general form: sampling from a `SimpleReplayBuffer` takes over the random numbers of the rest
of the program.  After `sample(k)`, successful or not, the state of `random` does not depend on what it was before, for
instance on the seed the program had set; and if the program then draws `k'` out of `len` positions itself, it gets
exactly the positions that the next `sample(k')` of the buffer returns, whatever the program draws in between. -/
theorem C143_simple_takes_over {cap : Nat} (hd : DrawsDistinct draw) {s : Sys τ G} {log : List τ}
    (h : History draw cap s log) (k : Int) (g : G) :
    ({ s with globalRandom := g }.sample draw k).1.globalRandom = (s.sample draw k).1.globalRandom ∧
    ∀ (k' : Nat) (g' : G), 1 ≤ k' → k' ≤ s.len →
      ∃ entries : List (τ × Nat),
        List.Forall₂ (fun p e => (lastN cap log.zipIdx)[p]? = some e)
          (draw (s.sample draw k).1.globalRandom s.len k').1 entries ∧
        ({ (s.sample draw k).1 with globalRandom := g' }.sample draw k').2 =
          .ok ⟨entries.map (·.1), entries.map (·.2)⟩ := by
  constructor
  · unfold Sys.sample
    dsimp only
  · intro k' g' h1 h2
    obtain ⟨_, hst, _, _⟩ := sample_state (draw := draw) s k
    have hlen : ({ (s.sample draw k).1 with globalRandom := g' } : Sys τ G).len = s.len := by simp [Sys.len, hst]
    have hg : (s.sample draw k).1.globalRandom = (s.sample draw k).1.buf.randomState := by
      unfold Sys.sample
      dsimp only
      split
      · rfl
      · split
        · rfl
        · split <;> rfl
    obtain ⟨pos, entries, hp, -, -, hf, e⟩ := sample_draw hd (History.tamper g' (History.sample k h)) h1 (by rw [hlen]; exact h2)
    refine ⟨entries, ?_, e⟩
    rw [hlen] at hp
    rw [hg]
    exact hp ▸ hf

/-! ### Examples -/

/-- A generator of the shape of numpy's: the state counts, and the numbers are halves. -/
noncomputable def halves : Numpy Int Int where
  seeded k := k
  fresh e := (e, e + 1)
  rand g n := (List.replicate n (if g % 2 = 0 then 0 else 1 / 2), g + 1)

theorem halves_uniform : halves.Uniform := by
  intro g n
  refine ⟨by simp [halves], ?_⟩
  intro u hu
  rw [(List.mem_replicate.1 hu).2]
  split <;> norm_num

/-- C143, a case for the theorems above: a buffer of capacity 2 with seed 7 is made, and in every round it is cleared and
filled with two transitions; one and the same identifier is drawn in all rounds. -/
theorem C143_example : ∃ s : SSys String Int Int,
    SSys.init halves [] 2 1 1 1 (some 7) 0 = .ok s ∧ s.randomSeed = some 7 ∧
    PHistory 2 s.sys ⟨[], [], [], True, 1, 1, 1⟩ ∧
    ∃ i : Nat, ∀ data : List (List (Row String)), (∀ rows ∈ data, rows.length = 2) →
      ∀ answers ∈ rounds halves [0, 0] 1 s data,
        ∃ o : Obj (Row String), answers = [.silent, .silent, .silent, .batch o] ∧ o.idx = [i] := by
  obtain ⟨s, hs⟩ := (init_ok (N := halves) (heap := ([] : Heap (Row String))) (cap := 2) (a := 1) (b := 1) (ε := 1)
    (seed := some 7) (e := 0)).2 (by norm_num)
  obtain ⟨h1, -, -, -, -, h2⟩ := init_sound hs
  have hH : PHistory 2 s.sys ⟨[], [], [], True, 1, 1, 1⟩ := PHistory.init (by exact_mod_cast h2)
  refine ⟨s, hs, h1.seed, hH, ?_⟩
  obtain ⟨ids, hl, hr⟩ := C143_rounds_repeat halves halves_uniform 7 h1.seed hH [0, 0] (n := 1) (by omega) (by simp)
  obtain ⟨i, rfl⟩ := List.length_eq_one_iff.1 hl
  exact ⟨i, hr⟩

end Coax.Replay
