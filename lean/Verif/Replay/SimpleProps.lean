import Verif.Replay.SimpleLemmas
import Verif.Replay.SimpleSpec
import Mathlib.Data.List.Forall2

/-! Properties C08 and C09: `SimpleReplayBuffer`. -/

namespace Coax.Replay

variable {τ G : Type _} {draw : G → Nat → Nat → List Nat × G}

theorem lastN_append_lastN {β : Type _} (n : Nat) (a b : List β) : lastN n (lastN n a ++ b) = lastN n (a ++ b) := by
  unfold lastN
  rw [List.drop_append, List.drop_append, List.drop_drop]
  simp only [List.length_append, List.length_drop]
  congr 2 <;> omega

theorem lastN_map {β γ : Type _} (f : β → γ) (n : Nat) (l : List β) : lastN n (l.map f) = (lastN n l).map f := by
  simp [lastN, List.map_drop]

theorem sample_state (s : Sys τ G) (k : Int) :
    (s.sample draw k).1.heap = s.heap ∧ (s.sample draw k).1.buf.storage = s.buf.storage ∧
    (s.sample draw k).1.buf.index = s.buf.index ∧ (s.sample draw k).1.buf.capacity = s.buf.capacity := by
  unfold Sys.sample
  dsimp only
  split
  · exact ⟨rfl, rfl, rfl, rfl⟩
  · split
    · exact ⟨rfl, rfl, rfl, rfl⟩
    · split <;> exact ⟨rfl, rfl, rfl, rfl⟩

/-- State invariant: the buffer holds the last transitions, in order, numbered from the last `clear`. -/
structure Holds (cap : Int) (s : Sys τ G) (log : List τ) : Prop where
  cap_eq : s.buf.capacity = cap
  index : s.buf.index = log.length
  iter : s.iter = (lastN cap.toNat log.zipIdx).map (fun p => some (single p.1 p.2))

theorem Holds.ref_lt {cap : Int} {s : Sys τ G} {log : List τ} (h : Holds cap s log) {x : Ref} (hx : x ∈ s.buf.storage) :
    x < s.heap.length := by
  have : s.heap[x]? ∈ s.iter := List.mem_map.2 ⟨x, hx, rfl⟩
  rw [h.iter] at this
  obtain ⟨p, _, hp⟩ := List.mem_map.1 this
  by_contra hge
  rw [List.getElem?_eq_none (Nat.not_lt.1 hge)] at hp
  cases hp

theorem Holds.add {cap : Int} (hc : 0 ≤ cap) {s : Sys τ G} {log : List τ} (h : Holds cap s log) {r : Ref} {o : Obj τ}
    (ho : s.heap[r]? = some o) (hf : o.rows.length = 1 → r ∉ s.buf.storage) :
    Holds cap (s.add r).1 (log ++ o.rows) ∧ (s.add r).2 = none := by
  have hrlt : r < s.heap.length := (List.getElem?_eq_some_iff.1 ho).1
  let o' : Obj τ := { o with idx := (List.range o.batchSize).map (fun i => s.buf.index + i) }
  have hget : (s.heap.set r o')[r]? = some o' := by simp [hrlt]
  obtain ⟨h1, h2⟩ := toSingles_spec hget (k := s.buf.index) rfl
  have hadd : s.add r = ({ s with
      heap := (toSingles (s.heap.set r o') r o').1
      buf := { s.buf with
        storage := lastN cap.toNat (s.buf.storage ++ (toSingles (s.heap.set r o') r o').2)
        index := s.buf.index + o'.batchSize } }, none) := by
    simp only [Sys.add, ho]
    rw [show s.buf.capacity = cap from h.cap_eq]
    rw [trim_ok hc]
    rfl
  rw [hadd]
  refine ⟨⟨h.cap_eq, ?_, ?_⟩, rfl⟩
  · simp [h.index, o', Obj.batchSize]
  · -- lookups of the old references do not change
    have hold : s.buf.storage.map (fun x => (toSingles (s.heap.set r o') r o').1[x]?) = s.iter := by
      apply List.map_congr_left
      intro x hx
      have hxlt := h.ref_lt hx
      by_cases hsz : o.rows.length = 1
      · have hne : r ≠ x := fun e => hf hsz (e ▸ hx)
        rw [h2 x (by simpa using hxlt), List.getElem?_set_ne hne]
      · rw [h2 x (by simpa using hxlt)]
        by_cases hxr : x = r
        · -- a stored object has exactly one row
          exfalso
          have : s.heap[x]? ∈ s.iter := List.mem_map.2 ⟨x, hx, rfl⟩
          rw [h.iter, hxr, ho] at this
          obtain ⟨p, _, hp⟩ := List.mem_map.1 this
          have : single p.1 p.2 = o := Option.some.inj hp
          exact hsz (by rw [← this]; rfl)
        · rw [List.getElem?_set_ne (Ne.symm hxr)]
    change (lastN _ _).map _ = _
    rw [← lastN_map, List.map_append, hold, h1, h.iter, ← lastN_map, lastN_append_lastN, ← List.map_append, lastN_map,
      h.index, List.zipIdx_append, Nat.zero_add]

theorem History.holds {cap : Int} (hc : 0 ≤ cap) {s : Sys τ G} {log : List τ} (h : History draw cap s log) :
    Holds cap s log := by
  induction h with
  | init heap g => exact ⟨rfl, rfl, by simp [Sys.iter, Sys.init, lastN]⟩
  | new rows _ ih =>
    refine ⟨ih.cap_eq, ih.index, ?_⟩
    rw [← ih.iter]
    apply List.map_congr_left
    intro x hx
    exact List.getElem?_append_left (ih.ref_lt hx)
  | add _ ho hf ih => exact (ih.add hc ho hf).1
  | clear _ ih => exact ⟨ih.cap_eq, rfl, by simp [Sys.iter, Sys.clear, lastN]⟩
  | @sample s log k _ ih =>
    obtain ⟨h1, h2, h3, h4⟩ := sample_state (draw := draw) s k
    exact ⟨h4.trans ih.cap_eq, h3.trans ih.index, by rw [← ih.iter]; unfold Sys.iter; rw [h1, h2]⟩
  | tamper g _ ih => exact ⟨ih.cap_eq, ih.index, ih.iter⟩

/-- C08.  After any history, iterating the buffer yields the last `min(capacity, n)` of the `n` transitions added since
the last `clear`, in insertion order, each as a batch of size one whose `idx` is its insertion number; `len` is
`min(capacity, n)`. -/
theorem C08_keeps_most_recent {cap : Nat} {s : Sys τ G} {log : List τ} (h : History draw cap s log) :
    s.iter = (lastN cap log.zipIdx).map (fun p => some ⟨[p.1], [p.2]⟩) ∧ s.len = min cap log.length ∧
      (s.bool = true ↔ 0 < min cap log.length) := by
  have hh := h.holds (by omega)
  have hit := hh.iter
  simp only [Int.toNat_natCast] at hit
  have hlen : s.len = min cap log.length := by
    have : s.iter.length = s.len := by simp [Sys.iter, Sys.len]
    rw [← this, hit]
    simp [lastN]; omega
  refine ⟨hit, hlen, ?_⟩
  simp only [Sys.bool, hlen, bne_iff_ne, ne_eq]; omega

/-- C08: no `add` in such a history raises. -/
theorem C08_add_succeeds {cap : Nat} {s : Sys τ G} {log : List τ} (h : History draw cap s log) {r : Ref} {o : Obj τ}
    (ho : s.heap[r]? = some o) (hf : o.rows.length = 1 → r ∉ s.buf.storage) : (s.add r).2 = none :=
  ((h.holds (by omega)).add (by omega) ho hf).2

/-- C08, rejected arguments: something that is not a `TransitionBatch` is a `TypeError` and changes nothing; a buffer
made with a negative capacity (the constructor accepts it) raises `IndexError` on every `add`. -/
theorem C08_add_errors (s : Sys τ G) (r : Ref) :
    (s.heap[r]? = none → s.add r = (s, some .typeError)) ∧
    (s.buf.capacity < 0 → s.heap[r]? ≠ none → (s.add r).2 = some .indexError) := by
  constructor
  · intro h; simp [Sys.add, h]
  · intro hc h
    obtain ⟨o, ho⟩ := Option.ne_none_iff_exists'.1 h
    simp [Sys.add, ho, trim_neg hc]

/-- Without the rule of `History.add` C08 is false: adding one single-transition object twice gives two entries that
both carry the later number. -/
theorem C08_alias_counterexample : ∃ (s : Sys String Unit), History (fun g _ _ => ([], g)) 3 s ["x"] ∧
    s.heap[0]? = some ⟨["x"], [0]⟩ ∧ (s.add 0).2 = none ∧
    (s.add 0).1.iter = [some ⟨["x"], [1]⟩, some ⟨["x"], [1]⟩] := by
  refine ⟨((Sys.init [⟨["x"], [0]⟩] 3 ()).add 0).1, ?_, by decide, by decide, by decide⟩
  exact History.add (log := []) (o := ⟨["x"], [0]⟩) (.init _ _) rfl (by simp [Sys.init])

/-- A non-trivial history: a batch larger than the capacity, a single transition, and re-use of the larger batch. -/
example : ∃ s : Sys Nat Unit, History (fun g _ _ => ([], g)) 3 s [10, 11, 12, 13, 20] ∧
    s.iter = [some ⟨[12], [2]⟩, some ⟨[13], [3]⟩, some ⟨[20], [4]⟩] := by
  refine ⟨((((Sys.init [Obj.new [10, 11, 12, 13], Obj.new [20]] 3 ()).add 0).1).add 1).1, ?_, by decide⟩
  exact History.add (log := [10, 11, 12, 13]) (o := Obj.new [20])
    (History.add (log := []) (o := Obj.new [10, 11, 12, 13]) (.init _ _) rfl (by simp [Sys.init])) rfl (by decide)

/-! ### C09 -/

theorem mapM_id_some {β : Type _} : ∀ (l : List β), (l.map some).mapM (m := Option) id = some l
  | [] => rfl
  | x :: l => by simp [mapM_id_some l]

theorem sample_draw {cap : Nat} (hd : DrawsDistinct draw) {s : Sys τ G} {log : List τ} (h : History draw cap s log)
    {k : Nat} (hk : 1 ≤ k) (hk2 : k ≤ s.len) :
    ∃ (pos : List Nat) (entries : List (τ × Nat)), pos = (draw s.buf.randomState s.len k).1 ∧ pos.length = k ∧ pos.Nodup ∧
      List.Forall₂ (fun p e => (lastN cap log.zipIdx)[p]? = some e) pos entries ∧
      (s.sample draw k).2 = .ok ⟨entries.map (·.1), entries.map (·.2)⟩ := by
  have hh := h.holds (by omega)
  have hit := hh.iter
  simp only [Int.toNat_natCast] at hit
  have hlen : s.buf.storage.length = (lastN cap log.zipIdx).length := by
    have : s.iter.length = s.buf.storage.length := by simp [Sys.iter]
    rw [← this, hit]; simp
  obtain ⟨d1, d2, d3⟩ := hd s.buf.randomState s.buf.storage.length k hk2
  generalize hpos : (draw s.buf.randomState s.buf.storage.length k).1 = pos at d1 d2 d3
  have hsome : ∀ p ∈ pos, p < (lastN cap log.zipIdx).length := fun p hp => hlen ▸ d3 p hp
  have hent : ∀ (pos : List Nat), (∀ p ∈ pos, p < (lastN cap log.zipIdx).length) →
      ∃ entries : List (τ × Nat), List.Forall₂ (fun p e => (lastN cap log.zipIdx)[p]? = some e) pos entries ∧
        pos.map (fun p => s.buf.storage[p]?.bind (fun r => s.heap[r]?)) =
          (entries.map (fun e => single e.1 e.2)).map some := by
    intro pos
    induction pos with
    | nil => intro _; exact ⟨[], .nil, rfl⟩
    | cons p pos ih =>
      intro hp
      obtain ⟨es, hf, e⟩ := ih (fun q hq => hp q (by simp [hq]))
      have hplt := hp p (by simp)
      refine ⟨(lastN cap log.zipIdx)[p] :: es, .cons (List.getElem?_eq_getElem hplt) hf, ?_⟩
      simp only [List.map_cons, e, List.cons.injEq, and_true]
      have : s.iter[p]? = some (some (single (lastN cap log.zipIdx)[p].1 (lastN cap log.zipIdx)[p].2)) := by
        rw [hit, List.getElem?_map, List.getElem?_eq_getElem hplt]; rfl
      simp only [Sys.iter, List.getElem?_map] at this
      cases hst : s.buf.storage[p]? with
      | none => rw [hst] at this; cases this
      | some r => rw [hst] at this; simpa using this
  obtain ⟨entries, hf, e⟩ := hent pos hsome
  refine ⟨pos, entries, hpos.symm, d1, d2, hf, ?_⟩
  unfold Sys.sample
  dsimp only
  have hk3 : k ≤ s.buf.storage.length := hk2
  rw [if_neg (by omega)]
  simp only [Int.toNat_natCast, hpos, e]
  have hne : (List.map some (List.map (fun e : τ × Nat => single e.1 e.2) entries)).isEmpty = false := by
    have := hf.length_eq
    cases entries with
    | nil => simp at this; subst this; simp at d1; omega
    | cons a l => rfl
  rw [hne]
  simp only [mapM_id_some, Bool.false_eq_true, if_false]
  have : concat (List.map (fun e : τ × Nat => single e.1 e.2) entries) =
      ⟨entries.map (·.1), entries.map (·.2)⟩ := by
    clear e hf hne
    induction entries with
    | nil => rfl
    | cons a l ih => simpa [concat, single] using ih
  rw [this]

/-- C09.  For `1 ≤ k ≤ len`, `sample(k)` is the concatenation, in the order drawn, of the entries at `k` distinct
positions of the buffer. -/
theorem C09_sample {cap : Nat} (hd : DrawsDistinct draw) {s : Sys τ G} {log : List τ} (h : History draw cap s log)
    {k : Nat} (hk : 1 ≤ k) (hk2 : k ≤ s.len) :
    ∃ (pos : List Nat) (entries : List (τ × Nat)), pos.length = k ∧ pos.Nodup ∧
      List.Forall₂ (fun p e => (lastN cap log.zipIdx)[p]? = some e) pos entries ∧
      (s.sample draw k).2 = .ok ⟨entries.map (·.1), entries.map (·.2)⟩ := by
  obtain ⟨pos, entries, _, h⟩ := sample_draw hd h hk hk2
  exact ⟨pos, entries, h⟩

/-- The results of a row of calls of `sample`; between two calls other code may set the global generator to anything. -/
def Sys.samples (draw : G → Nat → Nat → List Nat × G) (s : Sys τ G) : List (Nat × G) → List (Except Err (Obj τ))
  | [] => []
  | (k, g) :: ks => ({ s with globalRandom := g }.sample draw k).2 :: ({ s with globalRandom := g }.sample draw k).1.samples draw ks

/-- What one generator, seeded with `g` and used for nothing else, draws in a row of calls. -/
def stream (draw : G → Nat → Nat → List Nat × G) (g : G) (n : Nat) : List Nat → List (List Nat)
  | [] => []
  | k :: ks => (draw g n k).1 :: stream draw (draw g n k).2 n ks

/-- C09, successive samples: a row of calls of `sample` draws from one private generator that moves on from call to
call, whatever happens to the global generator in between: the positions are those that a generator in the buffer's
saved state draws in a row. -/
theorem C09_successive_samples {cap : Nat} (hd : DrawsDistinct draw) {s : Sys τ G} {log : List τ}
    (h : History draw cap s log) (ks : List (Nat × G)) (hk : ∀ k ∈ ks, 1 ≤ k.1 ∧ k.1 ≤ s.len) :
    List.Forall₂ (fun pos out => ∃ entries : List (τ × Nat),
        List.Forall₂ (fun p e => (lastN cap log.zipIdx)[p]? = some e) pos entries ∧
        out = .ok ⟨entries.map (·.1), entries.map (·.2)⟩)
      (stream draw s.buf.randomState s.len (ks.map (·.1))) (s.samples draw ks) := by
  induction ks generalizing s with
  | nil => exact .nil
  | cons kg ks ih =>
    obtain ⟨k, g⟩ := kg
    have ht : History draw cap { s with globalRandom := g } log := .tamper g h
    obtain ⟨h1, h2⟩ := hk (k, g) (by simp)
    obtain ⟨pos, entries, hp, _, _, hf, e⟩ := sample_draw hd ht h1 h2
    have hs := History.sample (k := (k : Int)) ht
    obtain ⟨_, hst, _, _⟩ := sample_state (draw := draw) { s with globalRandom := g } (k : Int)
    have hlen : ({ s with globalRandom := g }.sample draw k).1.len = s.len := by simp [Sys.len, hst]
    have hrs : ({ s with globalRandom := g }.sample draw k).1.buf.randomState = (draw s.buf.randomState s.len k).2 := by
      have h2' : k ≤ s.buf.storage.length := h2
      unfold Sys.sample
      dsimp only
      rw [if_neg (by omega)]
      simp only [Int.toNat_natCast]
      split
      · rfl
      · split <;> rfl
    simp only [Sys.samples, List.map_cons, stream]
    refine .cons ⟨entries, hp ▸ hf, e⟩ ?_
    have := ih hs (by intro k' hk'; rw [hlen]; exact hk k' (by simp [hk']))
    rwa [hlen, hrs] at this

/-- C09, rejections: `k > len` and negative `k` raise `ValueError`; `k = 0` raises `TypeError`.  In every case, and also
when sampling succeeds, the stored transitions, their identifiers and the length are as before. -/
theorem C09_sample_effects (hd : DrawsDistinct draw) (s : Sys τ G) (k : Int) :
    ((k < 0 ∨ s.len < k) → (s.sample draw k).2 = .error .valueError) ∧
    (k = 0 → (s.sample draw k).2 = .error .typeError) ∧
    (s.sample draw k).1.iter = s.iter ∧ (s.sample draw k).1.len = s.len := by
  obtain ⟨h1, h2, _, _⟩ := sample_state (draw := draw) s k
  refine ⟨?_, ?_, by simp [Sys.iter, h1, h2], by simp [Sys.len, h2]⟩
  · intro hk
    unfold Sys.sample
    dsimp only
    rw [if_pos (by simpa [Sys.len] using hk)]
  · rintro rfl
    unfold Sys.sample
    dsimp only
    rw [if_neg (by simp)]
    have := (hd s.buf.randomState s.buf.storage.length 0 (by omega)).1
    have := List.length_eq_zero_iff.1 this
    simp [this]

/-- Two states that differ only in the global generator. -/
def SameBuffer (s s' : Sys τ G) : Prop := s.heap = s'.heap ∧ s.buf = s'.buf

theorem step_same {s s' : Sys τ G} (h : SameBuffer s s') (e : Event τ G) (hne : ∀ g, e ≠ .tamper g) :
    SameBuffer (s.step draw e).1 (s'.step draw e).1 ∧ (s.step draw e).2 = (s'.step draw e).2 := by
  obtain ⟨heap, buf, g⟩ := s
  obtain ⟨heap', buf', g'⟩ := s'
  obtain ⟨rfl, rfl⟩ := h
  cases e with
  | new rows => exact ⟨⟨rfl, rfl⟩, rfl⟩
  | add r =>
    simp only [Sys.step, Sys.add]
    cases heap[r]? with
    | none => exact ⟨⟨rfl, rfl⟩, rfl⟩
    | some o => exact ⟨⟨rfl, rfl⟩, rfl⟩
  | clear => exact ⟨⟨rfl, rfl⟩, rfl⟩
  | sample k =>
    simp only [Sys.step, Sys.sample]
    split <;> exact ⟨⟨rfl, rfl⟩, trivial⟩
  | tamper g => exact absurd rfl (hne g)

/-- C09, independence.  What a program using the buffer observes (sampled batches and errors) is the same whether or not
other code tampers with the global random state in between. -/
theorem C09_independent_of_global_random (s s' : Sys τ G) (h : SameBuffer s s') (es : List (Event τ G)) :
    s.shows draw es = s'.shows draw (es.filter (fun e => match e with | .tamper _ => false | _ => true)) := by
  induction es generalizing s s' with
  | nil => rfl
  | cons e es ih =>
    cases e with
    | tamper g => simp only [Sys.shows, List.filter_cons]; exact ih _ _ ⟨h.1, h.2⟩
    | new rows =>
      have := step_same (draw := draw) h (.new rows) (by simp)
      simp only [Sys.shows, List.filter_cons, if_true]; rw [this.2, ih _ _ this.1]
    | add r =>
      have := step_same (draw := draw) h (.add r) (by simp)
      simp only [Sys.shows, List.filter_cons, if_true]; rw [this.2, ih _ _ this.1]
    | clear =>
      have := step_same (draw := draw) h .clear (by simp)
      simp only [Sys.shows, List.filter_cons, if_true]; rw [this.2, ih _ _ this.1]
    | sample k =>
      have := step_same (draw := draw) h (.sample k) (by simp)
      simp only [Sys.shows, List.filter_cons, if_true]; rw [this.2, ih _ _ this.1]

/-- The contract `DrawsDistinct` can be met (by a generator that counts up), and sampling then works. -/
example : DrawsDistinct (fun (g : Nat) n k => ((List.range n).take k, g + 1)) := by
  intro g n k hk
  refine ⟨by simp [hk], (List.nodup_range).sublist (List.take_sublist _ _), ?_⟩
  intro p hp
  simpa using List.mem_of_mem_take hp

example : (((Sys.init [Obj.new [10, 11, 12, 13]] 3 0).add 0).1.sample
    (fun (g : Nat) n k => ((List.range n).take k, g + 1)) 2).2.toOption = some ⟨[11, 12], [1, 2]⟩ := by decide

end Coax.Replay
