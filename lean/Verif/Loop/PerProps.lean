import Verif.Loop.Per
import Verif.Loop.DqnProps
import Verif.Replay.PrioritizedProps

/-! Property C98: training loops with a prioritized replay buffer, also when sampling, learning and collecting are interleaved. -/

namespace Coax.Loop

open Coax.RewardTracing Coax.Replay

variable {σ α θ : Type _}

/-! ### What should hold -/

/-- The TD errors computed last, by identifier: transitions get consecutive identifiers when they are added, and each later report about an identifier replaces its error. -/
def note (δ : List ℝ) : Report → List ℝ
  | .added ds => δ ++ ds
  | .learned ids ds => (ids.zip ds).foldl (fun δ p => δ.set p.1 p.2) δ
  | .nothing => δ

/-- The TD errors computed last, after a sequence of reports. -/
def lastErrors (rs : List Report) : List ℝ := rs.foldl note []

/-- The value of `beta` that was assigned last (values that are not positive are rejected). -/
noncomputable def lastBeta (b : ℝ) (es : List (PEvent σ α θ)) : ℝ :=
  open Classical in es.foldl (fun b e => match e with | .beta b' => if 0 < b' then b' else b | _ => b) b

/-- The steps of a run. -/
def psteps (es : List (PEvent σ α θ)) : List (Step σ α ℝ × Bool) := es.filterMap fun e => match e with | .step x d => some (x, d) | _ => none

/-- The rows that other actors added, with one TD error for each row. -/
def shippedOf (es : List (PEvent σ α θ)) : List (Row (Out σ α ℝ)) := (es.map fun e => match e with | .ship rows ds => if ds.length = rows.length then rows else [] | _ => []).flatten

/-- The priority of a transition with TD error `d`. -/
noncomputable def prio (alpha eps d : ℝ) : ℝ := (|d| + eps) ^ alpha

/-- The probability of drawing identifier `i`: its priority divided by the sum of the priorities of the last `cap` transitions. -/
noncomputable def perProb (cap : Nat) (alpha eps : ℝ) (δ : List ℝ) (i : Nat) : ℝ :=
  (δ[i]?.map (prio alpha eps)).getD 0 / ((lastN cap δ).map (prio alpha eps)).sum

/-- `row` is an n-step transition of an episode of the run, or was added by another actor. -/
def FromRun (n : Nat) (gamma : ℝ) (es : List (PEvent σ α θ)) (row : Row (Out σ α ℝ)) : Prop :=
  (∃ ep ∈ episodesOf (psteps es), ∃ t, IsNStep n gamma ep.steps t row.data ∧ (ep.done = false → t + n < ep.steps.length) ∧ row.W = row.data.W) ∨
    ∃ rows ds, PEvent.ship rows ds ∈ es ∧ ds.length = rows.length ∧ row ∈ rows

/-- The generator returns numbers in `[0, 1)`. -/
def Uniforms (rnd : Nat → List ℝ) : Prop := (∀ n, (rnd n).length = n) ∧ ∀ n, ∀ u ∈ rnd n, 0 ≤ u ∧ u < 1

/-- Steps are such that `from_single` accepts them, and generators return numbers in `[0, 1)`. -/
def PValid (es : List (PEvent σ α θ)) : Prop := (∀ x d, PEvent.step x d ∈ es → x.Valid) ∧ ∀ k rnd, PEvent.sample k rnd ∈ es → Uniforms rnd

/-- The updater returns one TD error per row; `td_error` does not raise (`update` may). -/
structure Learner.Sound (L : Learner θ σ α) : Prop where
  tdError : ∀ th rows, ∃ ds, L.tdError th rows = .ok ds ∧ ds.length = rows.length
  update : ∀ th rows th' ds, L.update th rows = .ok (th', ds) → ds.length = rows.length

/-! ### The invariant -/

/-- A sampled batch: its identifiers were live at one time. -/
structure PendOk (cap len : Nat) (b : Obj (Row (Out σ α ℝ))) : Prop where
  ne : b.idx ≠ []
  size : b.rows.length = b.idx.length
  lt : ∀ i ∈ b.idx, i < len
  inj : ∀ i ∈ b.idx, ∀ j ∈ b.idx, i % cap = j % cap → i = j

/-- What holds after every event. -/
structure PInv (n cap : Nat) (gamma alpha eps beta : ℝ) (a : PAgent σ α θ) (xs : List (Step σ α ℝ × Bool)) (outs : List (Out σ α ℝ)) (shipped : List (Row (Out σ α ℝ)))
    (δ : List ℝ) (sp : PSpec (Out σ α ℝ)) : Prop where
  traced : NHistory n gamma false a.tracer (episodesOf xs) outs
  stored : PHistory cap a.sys sp
  source : sp.log.Perm (outs.map (fun o => ⟨o, o.W⟩) ++ shipped)
  alpha_eq : sp.alpha = alpha
  beta_eq : sp.beta = beta
  eps_eq : sp.epsilon = eps
  tame : sp.tame
  len : δ.length = sp.log.length
  errs : ∀ i, sp.log.length ≤ i + cap → sp.doc[i]? = δ[i]?.map (fun d => |d| + eps)
  idle : a.tracer.bool = false
  pend : ∀ b ∈ a.pending, PendOk cap sp.log.length b

section Inv

variable {n cap : Nat} {gamma alpha eps beta : ℝ}

theorem pfresh {s : PSys (Out σ α ℝ)} {sp : PSpec (Out σ α ℝ)} (h : PHistory cap s sp) : some s.heap.length ∉ s.buf.storage := by
  intro hm
  obtain ⟨row, i, e⟩ := h.holds.ref hm
  simp at e

/-- `sp` after adding rows. -/
noncomputable def grow (sp : PSpec (Out σ α ℝ)) (rows : List (Row (Out σ α ℝ))) (ds : List ℝ) : PSpec (Out σ α ℝ) :=
  { sp with
    log := sp.log ++ rows
    base := sp.base ++ ds.map (fun a => |a| + sp.epsilon)
    doc := sp.doc ++ ds.map (fun a => |a| + sp.epsilon) }

theorem store_ok {a : PAgent σ α θ} {sp : PSpec (Out σ α ℝ)} (h : PHistory cap a.sys sp) {rows : List (Row (Out σ α ℝ))} {ds : List ℝ} (hl : ds.length = rows.length) :
    ∃ s, a.store rows ds = ({ a with sys := s }, none) ∧ PHistory cap s (grow sp rows ds) := by
  have hnew := PHistory.new rows h
  have hget : (a.sys.heap ++ [Obj.new rows])[a.sys.heap.length]? = some (Obj.new rows) := by simp
  have hfr : (Obj.new rows).rows.length = 1 → some a.sys.heap.length ∉ a.sys.buf.storage := fun _ => pfresh h
  have hadd := PHistory.add hnew hget hfr (Adv := ds) hl
  have hok := (hnew.holds.add hget hfr (Adv := ds) hl).2
  unfold PAgent.store
  generalize ({ a.sys with heap := a.sys.heap ++ [Obj.new rows] } : PSys (Out σ α ℝ)).add a.sys.heap.length ds = r at hadd hok
  obtain ⟨s, e⟩ := r
  simp only at hok
  subst hok
  exact ⟨s, rfl, hadd⟩

theorem store_rejected {a : PAgent σ α θ} {sp : PSpec (Out σ α ℝ)} (h : PHistory cap a.sys sp) {rows : List (Row (Out σ α ℝ))} {ds : List ℝ} (hl : ds.length ≠ rows.length) :
    ∃ s, a.store rows ds = ({ a with sys := s }, some .assertionError) ∧ PHistory cap s sp := by
  have hnew := PHistory.new rows h
  have hget : (a.sys.heap ++ [Obj.new rows])[a.sys.heap.length]? = some (Obj.new rows) := by simp
  have hrej : ∀ o, (a.sys.heap ++ [Obj.new rows])[a.sys.heap.length]? = some o → (o.rows.length = 1 → some a.sys.heap.length ∉ a.sys.buf.storage) ∧ ds.length ≠ o.rows.length := by
    intro o ho
    rw [hget] at ho
    cases ho
    exact ⟨fun _ => pfresh h, hl⟩
  have hadd := PHistory.addRejected hnew (r := a.sys.heap.length) (Adv := ds) hrej
  have hok := (C10_add_rejected ({ a.sys with heap := a.sys.heap ++ [Obj.new rows] } : PSys (Out σ α ℝ)) a.sys.heap.length ds (fun o ho => (hrej o ho).2)).2
  rw [if_neg (by simp)] at hok
  unfold PAgent.store
  generalize ({ a.sys with heap := a.sys.heap ++ [Obj.new rows] } : PSys (Out σ α ℝ)).add a.sys.heap.length ds = r at hadd hok
  obtain ⟨s, e⟩ := r
  simp only at hok
  subst hok
  exact ⟨s, rfl, hadd⟩

/-- Adding rows keeps the part of the invariant that does not concern the tracer. -/
theorem grow_errs {sp : PSpec (Out σ α ℝ)} {δ : List ℝ} {s : PSys (Out σ α ℝ)} (h : PHistory cap s sp) (ht : sp.tame) (he : sp.epsilon = eps) (hlen : δ.length = sp.log.length)
    (herr : ∀ i, sp.log.length ≤ i + cap → sp.doc[i]? = δ[i]?.map (fun d => |d| + eps)) {rows : List (Row (Out σ α ℝ))} {ds : List ℝ} (hl : ds.length = rows.length) :
    (δ ++ ds).length = (grow sp rows ds).log.length ∧
    ∀ i, (grow sp rows ds).log.length ≤ i + cap → (grow sp rows ds).doc[i]? = (δ ++ ds)[i]?.map (fun d => |d| + eps) := by
  have hd : sp.doc.length = sp.log.length := by rw [h.holds.tame_eq ht, h.holds.base_len]
  refine ⟨by simp [grow, hlen, hl], ?_⟩
  intro i hi
  simp only [grow, List.length_append] at hi ⊢
  rcases Nat.lt_or_ge i sp.log.length with hlt | hge
  · rw [List.getElem?_append_left (by omega), List.getElem?_append_left (by omega)]
    exact herr i (by omega)
  · rw [List.getElem?_append_right (by omega), List.getElem?_append_right (by omega), List.getElem?_map, hd, hlen, he]

theorem popAllP_ok {L : Learner θ σ α} (hL : L.Sound) (hn : 0 < n) (hg : 0 ≤ gamma ∧ gamma ≤ 1) {xs : List (Step σ α ℝ × Bool)} {shipped : List (Row (Out σ α ℝ))} :
    ∀ (fuel : Nat) (a : PAgent σ α θ) (outs : List (Out σ α ℝ)) (δ : List ℝ) (sp : PSpec (Out σ α ℝ)),
    NHistory n gamma false a.tracer (episodesOf xs) outs → PHistory cap a.sys sp → sp.log.Perm (outs.map (fun o => ⟨o, o.W⟩) ++ shipped) →
    sp.alpha = alpha → sp.beta = beta → sp.epsilon = eps → sp.tame → δ.length = sp.log.length → (∀ i, sp.log.length ≤ i + cap → sp.doc[i]? = δ[i]?.map (fun d => |d| + eps)) →
    (∀ b ∈ a.pending, PendOk cap sp.log.length b) → a.tracer.len < fuel →
    ∃ a' os ds sp', popAllP L fuel a = (a', none, ds) ∧ PInv n cap gamma alpha eps beta a' xs (outs ++ os) shipped (δ ++ ds) sp' ∧ List.Forall₂ (fun o d => L.tdError a.theta [⟨o, o.W⟩] = .ok [d]) os ds ∧
      sp'.log = sp.log ++ os.map (fun o => ⟨o, o.W⟩) ∧ a'.theta = a.theta ∧ a'.pending = a.pending := by
  intro fuel
  induction fuel with
  | zero => intro a outs δ sp _ _ _ _ _ _ _ _ _ _ h; omega
  | succ fuel ih =>
    intro a outs δ sp hN hP hsrc ha hbt he ht hlen herr hpend hf
    unfold popAllP
    cases hb : a.tracer.bool with
    | false =>
      refine ⟨a, [], [], sp, by simp, ?_, .nil, by simp, rfl, rfl⟩
      rw [List.append_nil, List.append_nil]
      exact ⟨hN, hP, hsrc, ha, hbt, he, ht, hlen, herr, hb, hpend⟩
    | true =>
      obtain ⟨t, o, hp, hl⟩ := (C17_pop hn hg hN).2 hb
      obtain ⟨ds, hds, hdl⟩ := hL.tdError a.theta [⟨o, o.W⟩]
      obtain ⟨s, hs, hP'⟩ := store_ok (a := { a with tracer := t }) (sp := sp) hP hdl
      obtain ⟨g1, g2⟩ := grow_errs hP ht he hlen herr hdl
      rw [if_neg (by simp), hp]
      simp only [hds, hs]
      obtain ⟨a', os, ds', sp', h1, h2, h3, h4, h5, h6⟩ := ih { a with tracer := t, sys := s } (outs ++ [o]) (δ ++ ds) (grow sp [⟨o, o.W⟩] ds) (.pop hN hp) hP'
        (by
          simp only [grow, List.map_append, List.map_cons, List.map_nil, List.append_assoc]
          refine (hsrc.append_right _).trans ?_
          rw [List.append_assoc]
          exact List.perm_append_comm.append_left _)
        ha hbt he ht g1 g2
        (fun b hb' => by
          obtain ⟨p1, p2, p3, p4⟩ := hpend b hb'
          exact ⟨p1, p2, fun i hi => by have := p3 i hi; simp [grow]; omega, p4⟩)
        (by simp only; omega)
      rw [h1]
      refine ⟨a', o :: os, ds ++ ds', sp', rfl, ?_, ?_, ?_, h5, h6⟩
      · simpa using h2
      · obtain ⟨d, rfl⟩ := List.length_eq_one_iff.1 hdl
        exact .cons hds h3
      · rw [h4]; simp [grow]

theorem PInv.step {L : Learner θ σ α} (hL : L.Sound) (hn : 0 < n) (hg : 0 ≤ gamma ∧ gamma ≤ 1) {a : PAgent σ α θ} {xs : List (Step σ α ℝ × Bool)} {outs : List (Out σ α ℝ)}
    {shipped : List (Row (Out σ α ℝ))} {δ : List ℝ} {sp : PSpec (Out σ α ℝ)} (h : PInv n cap gamma alpha eps beta a xs outs shipped δ sp) {x : Step σ α ℝ} (hx : x.Valid) (d : Bool) :
    ∃ a' os ds sp', a.event L (.step x d) = (a', none, .added ds) ∧ PInv n cap gamma alpha eps beta a' (xs ++ [(x, d)]) (outs ++ os) shipped (δ ++ ds) sp' ∧
      List.Forall₂ (fun o d => L.tdError a.theta [⟨o, o.W⟩] = .ok [d]) os ds ∧ sp'.log = sp.log ++ os.map (fun o => ⟨o, o.W⟩) ∧ a'.theta = a.theta ∧ a'.pending = a.pending := by
  obtain ⟨hN, hP, hsrc, ha, hbt, he, ht, hlen, herr, hidle, hpend⟩ := h
  have hadd := (C17_add hn hg hN x d).2 (by
    rintro ⟨hd, hlt⟩
    have := (C17_bool hn hg hN).2 ⟨hlt, .inl hd⟩
    rw [hidle] at this
    cases this)
  unfold PAgent.event
  simp only
  generalize hta : a.tracer.add x d = r at hadd
  obtain ⟨t, e⟩ := r
  obtain ⟨he', _⟩ := hadd
  simp only at he'
  subst he'
  simp only
  have hN' : NHistory n gamma false t (episodesOf (xs ++ [(x, d)])) outs := by
    rw [episodesOf_snoc]
    rcases hl : (episodesOf xs).getLast? with _ | ⟨steps, dn⟩
    · exact .addFirst x d hN (by rw [hl]; simp) hx hta
    · cases dn with
      | true => exact .addFirst x d hN (by rw [hl]; simp) hx hta
      | false =>
        have e := List.dropLast_append_getLast? _ hl
        refine .addNext (steps := steps) x d ?_ hx hta
        rw [e]; exact hN
  obtain ⟨a', os, ds, sp', h1, h2, h3, h4, h5, h6⟩ := popAllP_ok hL hn hg (t.len + 1) { a with tracer := t } outs δ sp hN' hP hsrc ha hbt he ht hlen herr hpend (by simp)
  rw [h1]
  exact ⟨a', os, ds, sp', rfl, h2, h3, h4, h5, h6⟩

theorem PInv.ship {L : Learner θ σ α} {a : PAgent σ α θ} {xs : List (Step σ α ℝ × Bool)} {outs : List (Out σ α ℝ)}
    {shipped : List (Row (Out σ α ℝ))} {δ : List ℝ} {sp : PSpec (Out σ α ℝ)} (h : PInv n cap gamma alpha eps beta a xs outs shipped δ sp) (rows : List (Row (Out σ α ℝ))) (ds : List ℝ) :
    ∃ a' sp', (if ds.length = rows.length then a.event L (.ship rows ds) = (a', none, .added ds) else a.event L (.ship rows ds) = (a', some .assertionError, .nothing)) ∧
      PInv n cap gamma alpha eps beta a' xs outs (shipped ++ if ds.length = rows.length then rows else []) (if ds.length = rows.length then δ ++ ds else δ) sp' := by
  obtain ⟨hN, hP, hsrc, ha, hbt, he, ht, hlen, herr, hidle, hpend⟩ := h
  by_cases hl : ds.length = rows.length
  · obtain ⟨s, hs, hP'⟩ := store_ok hP hl
    obtain ⟨g1, g2⟩ := grow_errs hP ht he hlen herr hl
    refine ⟨{ a with sys := s }, grow sp rows ds, by rw [if_pos hl]; simp [PAgent.event, hs], ?_⟩
    rw [if_pos hl, if_pos hl]
    refine ⟨hN, hP', ?_, ha, hbt, he, ht, g1, g2, hidle, ?_⟩
    · rw [← List.append_assoc]
      exact hsrc.append_right _
    · intro b hb'
      obtain ⟨p1, p2, p3, p4⟩ := hpend b hb'
      exact ⟨p1, p2, fun i hi => by have := p3 i hi; simp [grow]; omega, p4⟩
  · obtain ⟨s, hs, hP'⟩ := store_rejected hP hl
    refine ⟨{ a with sys := s }, sp, by rw [if_neg hl]; simp [PAgent.event, hs], ?_⟩
    rw [if_neg hl, if_neg hl, List.append_nil]
    exact ⟨hN, hP', hsrc, ha, hbt, he, ht, hlen, herr, hidle, hpend⟩

theorem PInv.sample {L : Learner θ σ α} {a : PAgent σ α θ} {xs : List (Step σ α ℝ × Bool)} {outs : List (Out σ α ℝ)}
    {shipped : List (Row (Out σ α ℝ))} {δ : List ℝ} {sp : PSpec (Out σ α ℝ)} (h : PInv n cap gamma alpha eps beta a xs outs shipped δ sp) (k : Nat) {rnd : Nat → List ℝ} (hr : Uniforms rnd) :
    ∃ a' err, a.event L (.sample k rnd) = (a', err, .nothing) ∧ PInv n cap gamma alpha eps beta a' xs outs shipped δ sp ∧ (err = none ↔ 0 < k ∧ δ ≠ []) := by
  have hne : δ ≠ [] ↔ 0 < sp.log.length := by rw [← h.len]; exact List.length_pos_iff.symm
  by_cases hk : 0 < k
  · by_cases hL : 0 < sp.log.length
    · obtain ⟨ids, rows, M, e1, e2, _, _, _, e5⟩ := C13_importance_weights h.stored hL rnd hr.1 hr.2 hk
      refine ⟨{ a with pending := a.pending ++ [⟨List.zipWith (fun row i => { row with W := row.W * (sp.ipw cap i / M) }) rows ids, ids⟩] }, none, by simp only [PAgent.event, e5], ?_, ⟨fun _ => ⟨hk, hne.2 hL⟩, fun _ => rfl⟩⟩
      refine ⟨h.traced, h.stored, h.source, h.alpha_eq, h.beta_eq, h.eps_eq, h.tame, h.len, h.errs, h.idle, ?_⟩
      intro b hb
      rcases List.mem_append.1 hb with hb | hb
      · exact h.pend b hb
      · rw [List.mem_singleton] at hb
        subst hb
        have hlive : ∀ i ∈ ids, i < sp.log.length ∧ sp.log.length ≤ i + cap := by
          intro i hi
          obtain ⟨j, hj, rfl⟩ := List.getElem_of_mem hi
          have := (List.forall₂_iff_get.1 e2).2 j hj ((e2.length_eq) ▸ hj)
          exact ⟨this.1, this.2.1⟩
        refine ⟨?_, ?_, fun i hi => (hlive i hi).1, ?_⟩
        · intro hnil
          rw [show ids = [] from hnil] at e1
          simp at e1; omega
        · simp [e2.length_eq]
        · intro i hi j hj hij
          exact live_unique (hlive i hi).1 (hlive i hi).2 (hlive j hj).1 (hlive j hj).2 hij
    · have e := (C13_sample_rejected h.stored rnd k).2 (by omega) (List.length_eq_zero_iff.1 (by omega))
      refine ⟨a, some .runtimeError, by simp only [PAgent.event, e], h, ⟨fun h' => (by cases h'), fun h' => absurd (hne.1 h'.2) hL⟩⟩
  · have e := (C13_sample_rejected h.stored rnd k).1 (by omega)
    refine ⟨a, some .typeError, by simp only [PAgent.event, e], h, by simp [hk]⟩

theorem assign_errs {sp : PSpec (Out σ α ℝ)} (he : sp.epsilon = eps) : ∀ (pairs : List (Nat × ℝ)) (δ : List ℝ), δ.length = sp.log.length → sp.doc.length = sp.log.length →
    (∀ i, sp.log.length ≤ i + cap → sp.doc[i]? = δ[i]?.map (fun d => |d| + eps)) → (∀ p ∈ pairs, p.1 < sp.log.length) →
    (pairs.foldl (fun δ p => δ.set p.1 p.2) δ).length = sp.log.length ∧
    ∀ i, sp.log.length ≤ i + cap → (sp.assign cap (pairs.map fun p => ((p.1 : Int), p.2)))[i]? = (pairs.foldl (fun δ p => δ.set p.1 p.2) δ)[i]?.map (fun d => |d| + eps) := by
  intro pairs
  induction pairs using List.reverseRecOn with
  | nil => intro δ h1 _ h3 _; exact ⟨h1, h3⟩
  | append_singleton ps q ih =>
    intro δ h1 h2 h3 h4
    obtain ⟨i1, i2⟩ := ih δ h1 h2 h3 (fun p hp => h4 p (by simp [hp]))
    have hq := h4 q (by simp)
    rw [List.foldl_append, List.map_append]
    refine ⟨by simpa using i1, ?_⟩
    intro i hi
    rw [List.map_singleton, assign_snoc]
    simp only [List.foldl_cons, List.foldl_nil]
    by_cases hiq : q.1 = i
    · subst hiq
      rw [if_pos (live_nat.2 ⟨hq, hi⟩), Int.toNat_natCast, List.getElem?_set_self (by rw [assign_length, h2]; exact hq), List.getElem?_set_self (by rw [i1]; exact hq), he]
      rfl
    · rw [List.getElem?_set_ne hiq, ← i2 i hi]
      split
      · rw [Int.toNat_natCast, List.getElem?_set_ne hiq]
      · rfl

theorem clean_of_inj {sp : PSpec (Out σ α ℝ)} {b : Obj (Row (Out σ α ℝ))} (hb : PendOk cap sp.log.length b) : sp.Clean cap (b.idx.map fun (i : Nat) => (i : Int)) := by
  intro p q i j _ hi hj hl hmod
  obtain ⟨i', hi', rfl⟩ := List.mem_map.1 (List.mem_of_getElem? hi)
  obtain ⟨j', hj', rfl⟩ := List.mem_map.1 (List.mem_of_getElem? hj)
  have : i' = j' := hb.inj i' hi' j' hj' (by exact_mod_cast hmod)
  subst this
  exact hl

theorem accepts_of_pend {sp : PSpec (Out σ α ℝ)} {b : Obj (Row (Out σ α ℝ))} (hb : PendOk cap sp.log.length b) {ds : List ℝ} (hd : ds.length = b.rows.length) :
    sp.Accepts cap (b.idx.map fun (i : Nat) => (i : Int)) ds := by
  refine ⟨by rw [List.length_map, hd, hb.size], by simpa using hb.ne, ?_⟩
  intro i hi
  obtain ⟨i', hi', rfl⟩ := List.mem_map.1 hi
  have h1 := hb.lt i' hi'
  have h2 := Nat.mod_le i' cap
  rw [← Int.natCast_mod]
  omega

theorem PInv.learn {L : Learner θ σ α} (hL : L.Sound) {a : PAgent σ α θ} {xs : List (Step σ α ℝ × Bool)} {outs : List (Out σ α ℝ)}
    {shipped : List (Row (Out σ α ℝ))} {δ : List ℝ} {sp : PSpec (Out σ α ℝ)} (h : PInv n cap gamma alpha eps beta a xs outs shipped δ sp) (j : Nat) :
    ∃ a' err r sp', a.event L (.learn j) = (a', err, r) ∧ PInv n cap gamma alpha eps beta a' xs outs shipped (note δ r) sp' ∧
      ∀ b th ds, a.pending[j]? = some b → L.update a.theta b.rows = .ok (th, ds) → err = none ∧ r = .learned b.idx ds ∧ a'.theta = th ∧ a'.pending = a.pending.eraseIdx j := by
  cases hp : a.pending[j]? with
  | none => exact ⟨a, some .indexError, .nothing, sp, by simp [PAgent.event, hp], h, fun _ _ _ e => by cases e⟩
  | some b =>
    cases hu : L.update a.theta b.rows with
    | error e => exact ⟨a, some e, .nothing, sp, by simp [PAgent.event, hp, hu], h, fun b' _ _ e1 e2 => by cases e1; rw [hu] at e2; cases e2⟩
    | ok p =>
      obtain ⟨th, ds⟩ := p
      have hb := h.pend b (List.mem_of_getElem? hp)
      have hd := hL.update _ _ _ _ hu
      have hacc := accepts_of_pend hb hd
      have hupd := PHistory.update h.stored hacc
      have hok := (h.stored.holds.update hacc).2
      have hzip : (b.idx.map fun (i : Nat) => (i : Int)).zip ds = (b.idx.zip ds).map fun p => ((p.1 : Int), p.2) := by
        rw [List.zip_map_left]; rfl
      rw [hzip] at hupd
      have hev : a.event L (.learn j) = ({ a with theta := th, sys := (a.sys.update (b.idx.map fun (i : Nat) => (i : Int)) ds).1, pending := a.pending.eraseIdx j }, none, .learned b.idx ds) := by
        simp only [PAgent.event, hp, hu]
        generalize a.sys.update (b.idx.map fun (i : Nat) => (i : Int)) ds = r at hok
        obtain ⟨s, e⟩ := r
        simp only at hok
        subst hok
        rfl
      have hdoc : sp.doc.length = sp.log.length := by rw [h.stored.holds.tame_eq h.tame, h.stored.holds.base_len]
      obtain ⟨g1, g2⟩ := assign_errs h.eps_eq (b.idx.zip ds) δ h.len hdoc h.errs (fun p hp => hb.lt _ (List.of_mem_zip hp).1)
      refine ⟨_, _, _, _, hev, ⟨h.traced, hupd, h.source, h.alpha_eq, h.beta_eq, h.eps_eq, ⟨h.tame, clean_of_inj hb⟩, g1, g2, h.idle, ?_⟩, ?_⟩
      · intro b' hb'
        exact h.pend b' (List.mem_of_mem_eraseIdx hb')
      · intro b' th' ds' e1 e2
        cases e1
        rw [hu] at e2
        cases e2
        exact ⟨rfl, rfl, rfl, rfl⟩


theorem lastBeta_cons (b : ℝ) (e : PEvent σ α θ) (es : List (PEvent σ α θ)) :
    lastBeta b (e :: es) = lastBeta (lastBeta b [e]) es := rfl

theorem prun_inv {L : Learner θ σ α} (hL : L.Sound) (hn : 0 < n) (hg : 0 ≤ gamma ∧ gamma ≤ 1) : ∀ (es : List (PEvent σ α θ)) (beta : ℝ) (a : PAgent σ α θ) (xs : List (Step σ α ℝ × Bool))
    (outs : List (Out σ α ℝ)) (shipped : List (Row (Out σ α ℝ))) (δ : List ℝ) (sp : PSpec (Out σ α ℝ)), PValid es → PInv n cap gamma alpha eps beta a xs outs shipped δ sp →
    ∃ outs' sp', PInv n cap gamma alpha eps (lastBeta beta es) (a.run L es).1 (xs ++ psteps es) outs' (shipped ++ shippedOf es) (((a.run L es).2.map (·.2)).foldl note δ) sp' := by
  intro es
  induction es with
  | nil => intro beta a xs outs shipped δ sp _ h; exact ⟨outs, sp, by simpa [PAgent.run, psteps, shippedOf, lastBeta] using h⟩
  | cons e es ih =>
    intro beta a xs outs shipped δ sp hv h
    have hv' : PValid es := ⟨fun x d hm => hv.1 x d (List.mem_cons_of_mem _ hm), fun k rnd hm => hv.2 k rnd (List.mem_cons_of_mem _ hm)⟩
    have key : ∀ {xs' outs' shipped' sp'}, PInv n cap gamma alpha eps (lastBeta beta [e]) (a.event L e).1 xs' outs' shipped' (note δ (a.event L e).2.2) sp' →
        xs' ++ psteps es = xs ++ psteps (e :: es) → shipped' ++ shippedOf es = shipped ++ shippedOf (e :: es) →
        ∃ outs' sp', PInv n cap gamma alpha eps (lastBeta beta (e :: es)) (a.run L (e :: es)).1 (xs ++ psteps (e :: es)) outs' (shipped ++ shippedOf (e :: es))
          (((a.run L (e :: es)).2.map (·.2)).foldl note δ) sp' := by
      intro xs' outs' shipped' sp' h' e1 e2
      obtain ⟨o, s, h3⟩ := ih _ _ _ _ _ _ _ hv' h'
      rw [e1, e2] at h3
      exact ⟨o, s, h3⟩
    cases e with
    | step x d =>
      obtain ⟨a', os, ds, sp', h1, h2, _⟩ := h.step hL hn hg (hv.1 x d (by simp)) d
      exact key (by rw [h1]; exact h2) (by simp [psteps]) (by simp [shippedOf])
    | ship rows ds =>
      obtain ⟨a', sp', h1, h2⟩ := h.ship (L := L) rows ds
      refine key (xs' := xs) (outs' := outs) (shipped' := shipped ++ if ds.length = rows.length then rows else []) (sp' := sp') ?_ (by simp [psteps]) (by simp [shippedOf])
      by_cases hl : ds.length = rows.length
      · simp only [if_pos hl] at h1 h2 ⊢; rw [h1]; exact h2
      · simp only [if_neg hl] at h1 h2 ⊢; rw [h1]; exact h2
    | sample k rnd =>
      obtain ⟨a', err, h1, h2, _⟩ := h.sample (L := L) k (hv.2 k rnd (by simp))
      exact key (by rw [h1]; exact h2) (by simp [psteps]) (by simp [shippedOf])
    | learn j =>
      obtain ⟨a', err, r, sp', h1, h2, _⟩ := h.learn hL j
      exact key (by rw [h1]; exact h2) (by simp [psteps]) (by simp [shippedOf])
    | beta b =>
      refine key (xs' := xs) (outs' := outs) (shipped' := shipped) (sp' := { sp with beta := open Classical in if 0 < b then b else sp.beta }) ?_ (by simp [psteps]) (by simp [shippedOf])
      have hset := PHistory.setBeta b h.stored
      refine ⟨h.traced, ?_, h.source, h.alpha_eq, ?_, h.eps_eq, h.tame, h.len, h.errs, h.idle, h.pend⟩
      · exact hset
      · simp only [lastBeta, List.foldl_cons, List.foldl_nil, h.beta_eq]
    | sync f =>
      exact key (xs' := xs) (outs' := outs) (shipped' := shipped) (sp' := sp)
        ⟨h.traced, h.stored, h.source, h.alpha_eq, h.beta_eq, h.eps_eq, h.tame, h.len, h.errs, h.idle, h.pend⟩ (by simp [psteps]) (by simp [shippedOf])

theorem pinit {th : θ} {a : PAgent σ α θ} (h : PAgent.init n gamma cap alpha beta eps th = .ok a) :
    PInv n cap gamma alpha eps beta a [] [] [] [] ⟨[], [], [], True, alpha, beta, eps⟩ := by
  unfold PAgent.init at h
  cases hs : PSys.init ([] : Heap (Row (Out σ α ℝ))) cap alpha beta eps with
  | error e => rw [hs] at h; cases h
  | ok s =>
    rw [hs] at h
    injection h with h
    subst h
    exact ⟨.init, .init hs, by simp, rfl, rfl, rfl, trivial, rfl, by simp, by simp [NStep.init, NStep.reset, NStep.bool, NStep.len], by simp⟩

end Inv

/-! ### C98 -/

section Main

variable {n cap : Nat} {gamma alpha eps beta : ℝ} {L : Learner θ σ α} {th : θ} {a₀ : PAgent σ α θ}

/-- The TD errors reported last in a run. -/
noncomputable def runErrors (L : Learner θ σ α) (a : PAgent σ α θ) (es : List (PEvent σ α θ)) : List ℝ := lastErrors ((a.run L es).2.map (·.2))

theorem prun (hL : L.Sound) (hn : 0 < n) (hg : 0 ≤ gamma ∧ gamma ≤ 1) (h0 : PAgent.init n gamma cap alpha beta eps th = .ok a₀) (es : List (PEvent σ α θ)) (hv : PValid es) :
    ∃ outs sp, PInv n cap gamma alpha eps (lastBeta beta es) (a₀.run L es).1 (psteps es) outs (shippedOf es) (runErrors L a₀ es) sp := by
  obtain ⟨outs, sp, h⟩ := prun_inv hL hn hg es beta a₀ [] [] [] [] _ hv (pinit h0)
  exact ⟨outs, sp, by simpa [runErrors, lastErrors] using h⟩

/-- C98, priorities.  After any interleaving of steps, additions by other actors, sampling, learning and changes of `beta` and the parameters, the weight of every stored transition is
`(|δ| + epsilon)^alpha` for the TD error `δ` that was computed last for this transition, when it was added or by an update with a batch that contained it. -/
theorem C98_priorities (hL : L.Sound) (hn : 0 < n) (hg : 0 ≤ gamma ∧ gamma ≤ 1) (h0 : PAgent.init n gamma cap alpha beta eps th = .ok a₀) (es : List (PEvent σ α θ)) (hv : PValid es) :
    (a₀.run L es).1.sys.buf.len = min cap (runErrors L a₀ es).length ∧
    (∀ i d, (runErrors L a₀ es)[i]? = some d → (runErrors L a₀ es).length ≤ i + cap → (a₀.run L es).1.sys.weightFor i = some (prio alpha eps d)) ∧
    (∀ p, (runErrors L a₀ es).length ≤ p → p < cap → (a₀.run L es).1.sys.weightFor p = some 0) := by
  obtain ⟨outs, sp, h⟩ := prun hL hn hg h0 es hv
  obtain ⟨w1, w2⟩ := C11_weights_partial h.stored h.tame
  refine ⟨by rw [(C10_keeps_most_recent h.stored).2, h.len], ?_, fun p h1 h2 => w2 p (h.len ▸ h1) h2⟩
  intro i d hd hi
  have hlt : i < sp.log.length := by rw [← h.len]; exact (List.getElem?_eq_some_iff.1 hd).1
  rw [h.len] at hi
  obtain ⟨x, e1, _, e3⟩ := w1 i hlt hi
  rw [h.errs i hi, hd, Option.map_some, Option.some.injEq] at e1
  rw [e3, ← e1, h.alpha_eq]
  rfl

theorem base_eq {a : PAgent σ α θ} {xs : List (Step σ α ℝ × Bool)} {outs : List (Out σ α ℝ)} {shipped : List (Row (Out σ α ℝ))} {δ : List ℝ} {sp : PSpec (Out σ α ℝ)}
    (h : PInv n cap gamma alpha eps beta a xs outs shipped δ sp) : lastN cap sp.base = (lastN cap δ).map (fun d => |d| + eps) := by
  have hb := h.stored.holds.tame_eq h.tame
  have hl := h.stored.holds.base_len
  rw [← hb] at hl ⊢
  apply List.ext_getElem?
  intro k
  simp only [lastN, List.getElem?_map, List.getElem?_drop, h.len, hl]
  exact h.errs _ (by omega)

theorem prob_eq {a : PAgent σ α θ} {xs : List (Step σ α ℝ × Bool)} {outs : List (Out σ α ℝ)} {shipped : List (Row (Out σ α ℝ))} {δ : List ℝ} {sp : PSpec (Out σ α ℝ)}
    (h : PInv n cap gamma alpha eps beta a xs outs shipped δ sp) {i : Nat} (hi : i < δ.length) (hi2 : δ.length ≤ i + cap) : sp.prob cap i = perProb cap alpha eps δ i := by
  unfold PSpec.prob perProb PSpec.total
  rw [base_eq h, ← h.stored.holds.tame_eq h.tame, h.errs i (by rw [← h.len]; exact hi2), List.getElem?_eq_getElem hi, List.map_map, h.alpha_eq]
  rfl

/-- Where the rows in the buffer come from. -/
theorem fromRun (hn : 0 < n) (hg : 0 ≤ gamma ∧ gamma ≤ 1) {a : PAgent σ α θ} {es : List (PEvent σ α θ)} {outs : List (Out σ α ℝ)} {δ : List ℝ} {sp : PSpec (Out σ α ℝ)}
    (h : PInv n cap gamma alpha eps beta a (psteps es) outs (shippedOf es) δ sp) {row : Row (Out σ α ℝ)} (hr : row ∈ sp.log) : FromRun n gamma es row := by
  rcases List.mem_append.1 (h.source.mem_iff.1 hr) with ho | hs
  · left
    obtain ⟨o, hoo, rfl⟩ := List.mem_map.1 ho
    clear ho
    obtain ⟨segs, hs, hf, hx⟩ := h.traced.segments hn hg
    clear hx
    rw [hs] at hoo
    obtain ⟨seg, hseg, hr⟩ := List.mem_flatten.1 hoo
    obtain ⟨ep, hep, hS⟩ : ∃ ep ∈ episodesOf (psteps es), Segment n gamma false ep seg := by
      generalize episodesOf (psteps es) = eps at hf
      clear hs hoo
      induction hf with
      | nil => simp at hseg
      | @cons e s' es ss hes hrest ih =>
        rcases List.mem_cons.1 hseg with rfl | hm
        · exact ⟨e, by simp, hes⟩
        · obtain ⟨q, hq, hq'⟩ := ih hm
          exact ⟨q, by simp [hq], hq'⟩
    obtain ⟨t, ht, htr⟩ := List.mem_iff_getElem.1 hr
    have hc := hS.2 t o (by rw [List.getElem?_eq_getElem ht, htr])
    exact ⟨ep, hep, t, hc.nstep, hc.early, rfl⟩
  · right
    obtain ⟨l, hl, hrow⟩ := List.mem_flatten.1 hs
    obtain ⟨e, he, rfl⟩ := List.mem_map.1 hl
    cases e with
    | ship rows ds =>
      by_cases hl : ds.length = rows.length
      · simp only [if_pos hl] at hrow; exact ⟨rows, ds, he, hl, hrow⟩
      · simp [if_neg hl] at hrow
    | _ => simp at hrow

/-- C98, batches.  As soon as a transition is stored, a batch of any positive size can be drawn.  Its rows are stored transitions, which are n-step transitions of episodes of the run (or
were added by another actor), and their weights are multiplied by `(N p_i)^(-beta)` divided by the largest of these numbers, with the present `beta`, the number `N` of stored transitions
and the probabilities `p_i` given by the TD errors computed last. -/
theorem C98_batches (hL : L.Sound) (hn : 0 < n) (hg : 0 ≤ gamma ∧ gamma ≤ 1) (h0 : PAgent.init n gamma cap alpha beta eps th = .ok a₀) (es : List (PEvent σ α θ)) (hv : PValid es)
    (hne : runErrors L a₀ es ≠ []) {rnd : Nat → List ℝ} (hr : Uniforms rnd) {k : Nat} (hk : 0 < k) :
    ∃ b M, (a₀.run L es).1.sys.sample k rnd = .ok b ∧ ((a₀.run L es).1.event L (.sample k rnd)).1.pending = (a₀.run L es).1.pending ++ [b] ∧ b.rows.length = k ∧ b.idx.length = k ∧
      (∀ (j : Nat) (row : Row (Out σ α ℝ)) (i : Nat), b.rows[j]? = some row → b.idx[j]? = some i →
        i < (runErrors L a₀ es).length ∧ (runErrors L a₀ es).length ≤ i + cap ∧ ∃ row₀, FromRun n gamma es row₀ ∧ (a₀.run L es).1.sys.objectFor i = some ⟨[row₀], [i]⟩ ∧ row.data = row₀.data ∧
          row.W = row₀.W * ((min cap (runErrors L a₀ es).length : Nat) * perProb cap alpha eps (runErrors L a₀ es) i) ^ (-lastBeta beta es) / M) ∧
      IsGreatest {w | ∃ i ∈ b.idx, w = ((min cap (runErrors L a₀ es).length : Nat) * perProb cap alpha eps (runErrors L a₀ es) i) ^ (-lastBeta beta es)} M := by
  obtain ⟨outs, sp, h⟩ := prun hL hn hg h0 es hv
  have hpos : 0 < sp.log.length := by rw [← h.len]; exact List.length_pos_iff.2 hne
  obtain ⟨ids, rows, M, e1, e2, _, e3, e4, e5⟩ := C13_importance_weights h.stored hpos rnd hr.1 hr.2 hk
  have hlive : ∀ i ∈ ids, i < (runErrors L a₀ es).length ∧ (runErrors L a₀ es).length ≤ i + cap := by
    intro i hi
    obtain ⟨j, hj, rfl⟩ := List.getElem_of_mem hi
    have := (List.forall₂_iff_get.1 e2).2 j hj ((e2.length_eq) ▸ hj)
    rw [h.len]
    exact ⟨this.1, this.2.1⟩
  have hipw : ∀ i ∈ ids, sp.ipw cap i = ((min cap (runErrors L a₀ es).length : Nat) * perProb cap alpha eps (runErrors L a₀ es) i) ^ (-lastBeta beta es) := by
    intro i hi
    rw [PSpec.ipw, prob_eq h (hlive i hi).1 (hlive i hi).2, h.beta_eq, ← h.len, mul_comm]
  refine ⟨_, M, e5, by simp only [PAgent.event, e5], by simp [← e2.length_eq, e1], e1, ?_, ?_⟩
  · intro j row i hrow hi
    simp only at hrow hi
    have him := List.mem_of_getElem? hi
    refine ⟨(hlive i him).1, (hlive i him).2, ?_⟩
    obtain ⟨hj, hji⟩ := List.getElem?_eq_some_iff.1 hi
    have hj2 : j < rows.length := e2.length_eq ▸ hj
    have hlog := ((List.forall₂_iff_get.1 e2).2 j hj hj2).2.2
    simp only [List.get_eq_getElem] at hlog
    rw [List.getElem?_zipWith, List.getElem?_eq_getElem hj2, hi] at hrow
    simp only [Option.some.injEq] at hrow
    have hobj : (a₀.run L es).1.sys.objectFor i = some ⟨[rows[j]], [i]⟩ := by
      obtain ⟨r, row', f1, f2, f3⟩ := h.stored.holds.full i (by rw [← h.len]; exact (hlive i him).1) (by rw [← h.len]; exact (hlive i him).2)
      rw [← hji, hlog] at f2
      cases f2
      simp [PSys.objectFor, h.stored.holds.cap_eq, f1, f3]
    refine ⟨rows[j], fromRun hn hg h (List.mem_of_getElem? hlog), hobj, by rw [← hrow], ?_⟩
    rw [← hrow, ← hipw i him]
    simp only
    ring
  · obtain ⟨i, hi, hM⟩ := e3
    refine ⟨⟨i, hi, by rw [← hM, hipw i hi]⟩, ?_⟩
    rintro w ⟨i', hi', rfl⟩
    rw [← hipw i' hi']
    exact e4 i' hi'

/-- C98, sampling.  The probability that a single draw returns the transition with identifier `i` is its priority divided by the sum of the priorities of all stored transitions. -/
theorem C98_probability (hL : L.Sound) (hn : 0 < n) (hg : 0 ≤ gamma ∧ gamma ≤ 1) (h0 : PAgent.init n gamma cap alpha beta eps th = .ok a₀) (es : List (PEvent σ α θ)) (hv : PValid es)
    {i : Nat} (hi : i < (runErrors L a₀ es).length) (hi2 : (runErrors L a₀ es).length ≤ i + cap) :
    MeasureTheory.volume {u : ℝ | u ∈ Set.Ico 0 1 ∧ ∃ row, (a₀.run L es).1.sys.sample 1 (fun m => List.replicate m u) = .ok ⟨[row], [i]⟩} =
      ENNReal.ofReal (perProb cap alpha eps (runErrors L a₀ es) i) := by
  obtain ⟨outs, sp, h⟩ := prun hL hn hg h0 es hv
  have hi' := hi
  have hi2' := hi2
  rw [h.len] at hi' hi2'
  obtain ⟨x, hx⟩ : ∃ x, sp.base[i]? = some x := ⟨_, List.getElem?_eq_getElem (by rw [h.stored.holds.base_len]; exact hi')⟩
  have key := C11_sampling_probability h.stored hi' hi2' hx
  rw [← prob_eq h hi hi2, PSpec.prob, hx, Option.getD_some, ← key]
  congr 1
  ext u
  simp only [Set.mem_ofPred_eq]
  refine and_congr_right fun hu => ?_
  obtain ⟨ids, rows, M, e1, e2, e3, _, _, e5⟩ := C13_importance_weights h.stored (by omega) (fun m => List.replicate m u) (by simp)
    (fun m v hv' => by rw [(List.mem_replicate.1 hv').2]; exact ⟨hu.1, hu.2⟩) (n := 1) (by omega)
  obtain ⟨i', rfl⟩ := List.length_eq_one_iff.1 e1
  obtain ⟨row, rfl⟩ := List.length_eq_one_iff.1 (e2.length_eq.symm.trans e1)
  simp only [List.replicate_one, List.forall₂_cons, List.forall₂_nil_left_iff, and_true] at e2 e3
  rw [show ((1 : Nat) : Int) = 1 from rfl] at e5
  rw [e5, e3]
  simp only [Except.ok.injEq, List.cons.injEq, and_true, List.zipWith_cons_cons, List.zipWith_nil_left, Obj.mk.injEq]
  constructor
  · rintro ⟨_, _, rfl⟩; rfl
  · intro hmod
    exact ⟨_, rfl, live_unique e2.1 e2.2.1 hi' hi2' hmod⟩

/-- C98, learning.  Whatever happened since a batch was sampled, learning from it does not raise (unless the updater itself does), reports the TD errors that the updater computed with the present
parameters, and afterwards the stored transitions of the batch have the priorities of these errors (the last one, if a transition occurs several times); all other weights are unchanged.
So the masking of `C12_masking` cannot happen here. -/
theorem C98_learn (hL : L.Sound) (hn : 0 < n) (hg : 0 ≤ gamma ∧ gamma ≤ 1) (h0 : PAgent.init n gamma cap alpha beta eps th = .ok a₀) (es : List (PEvent σ α θ)) (hv : PValid es)
    {j : Nat} {b : Obj (Row (Out σ α ℝ))} (hb : (a₀.run L es).1.pending[j]? = some b) {th' : θ} {ds : List ℝ} (hu : L.update (a₀.run L es).1.theta b.rows = .ok (th', ds)) :
    ((a₀.run L es).1.event L (.learn j)).2 = (none, .learned b.idx ds) ∧ ((a₀.run L es).1.event L (.learn j)).1.theta = th' ∧
    ((a₀.run L es).1.event L (.learn j)).1.pending = (a₀.run L es).1.pending.eraseIdx j ∧
    ∀ i, i < (runErrors L a₀ es).length → (runErrors L a₀ es).length ≤ i + cap →
      ((a₀.run L es).1.event L (.learn j)).1.sys.weightFor i =
        match ((b.idx.zip ds).filter (fun q => q.1 = i)).getLast? with
        | some q => some (prio alpha eps q.2)
        | none => (a₀.run L es).1.sys.weightFor i := by
  obtain ⟨outs, sp, h⟩ := prun hL hn hg h0 es hv
  obtain ⟨a', err, r, sp', h1, h2, h3⟩ := h.learn hL j
  obtain ⟨rfl, rfl, rfl, hpe⟩ := h3 b th' ds hb hu
  refine ⟨by rw [h1], by rw [h1], by rw [h1, hpe], ?_⟩
  intro i hi hi2
  rw [h.len] at hi hi2
  have hpend := h.pend b (List.mem_of_getElem? hb)
  have hacc := accepts_of_pend hpend (hL.update _ _ _ _ hu)
  obtain ⟨e1, e2⟩ := C12_mixed_updates_partial h.stored (clean_of_inj hpend) hacc hi hi2
  have hsys : ((a₀.run L es).1.event L (.learn j)).1.sys = ((a₀.run L es).1.sys.update (b.idx.map fun (i : Nat) => (i : Int)) ds).1 := by
    simp only [PAgent.event, hb, hu]
    split <;> simp_all
  rw [hsys, e2, h.eps_eq, h.alpha_eq, List.zip_map_left, List.filter_map]
  have hf : (fun q : Int × ℝ => decide (q.1 = (i : Int))) ∘ Prod.map (fun (i : Nat) => (i : Int)) id = fun q : Nat × ℝ => decide (q.1 = i) := by
    funext q; simp
  rw [hf, List.getLast?_map]
  cases (List.filter (fun q : Nat × ℝ => decide (q.1 = i)) (b.idx.zip ds)).getLast? <;> rfl

/-- C98, steps.  A step of the environment adds transitions whose reported TD errors are those of the updater with the present parameters, each for the transition that is stored
with the next identifier; the parameters and the sampled batches stay as they are. -/
theorem C98_step (hL : L.Sound) (hn : 0 < n) (hg : 0 ≤ gamma ∧ gamma ≤ 1) (h0 : PAgent.init n gamma cap alpha beta eps th = .ok a₀) (es : List (PEvent σ α θ)) (hv : PValid es)
    {x : Step σ α ℝ} (hx : x.Valid) (d : Bool) :
    ∃ ds, ((a₀.run L es).1.event L (.step x d)).2 = (none, .added ds) ∧ ((a₀.run L es).1.event L (.step x d)).1.theta = (a₀.run L es).1.theta ∧
      ((a₀.run L es).1.event L (.step x d)).1.pending = (a₀.run L es).1.pending ∧
      ∀ j e, ds[j]? = some e → ds.length ≤ j + cap → ∃ row, FromRun n gamma (es ++ [.step x d]) row ∧ L.tdError (a₀.run L es).1.theta [row] = .ok [e] ∧
        ((a₀.run L es).1.event L (.step x d)).1.sys.objectFor ((runErrors L a₀ es).length + j) = some ⟨[row], [(runErrors L a₀ es).length + j]⟩ := by
  obtain ⟨outs, sp, h⟩ := prun hL hn hg h0 es hv
  obtain ⟨a', os, ds, sp', h1, h2, h3, h4, h5, h6⟩ := h.step hL hn hg hx d
  rw [h1]
  refine ⟨ds, rfl, h5, h6, ?_⟩
  intro j e hj hcap
  obtain ⟨hjd, hje⟩ := List.getElem?_eq_some_iff.1 hj
  have hos := h3.length_eq
  have htd := (List.forall₂_iff_get.1 h3).2 j (hos ▸ hjd) hjd
  simp only [List.get_eq_getElem, hje] at htd
  have hget : sp'.log[sp.log.length + j]? = some ⟨os[j], os[j].W⟩ := by
    rw [h4, List.getElem?_append_right (by omega)]
    simp [hos, hjd]
  have hlt := (List.getElem?_eq_some_iff.1 hget).1
  have hlen : sp'.log.length = sp.log.length + ds.length := by rw [h4]; simp [hos]
  refine ⟨_, fromRun (es := es ++ [.step x d]) hn hg (by simpa [psteps, shippedOf] using h2) (List.mem_of_getElem? hget), htd, ?_⟩
  obtain ⟨r, row, e1, e2, e3⟩ := h2.stored.holds.full (sp.log.length + j) hlt (by omega)
  rw [hget] at e2
  cases e2
  rw [h.len]
  simp [PSys.objectFor, h2.stored.holds.cap_eq, e1, e3]

/-- C98, completeness.  The transitions that were added are those of other actors and one for each step, except for at most the last `n` steps; none is missing when an episode is finished. -/
theorem C98_complete (hL : L.Sound) (hn : 0 < n) (hg : 0 ≤ gamma ∧ gamma ≤ 1) (h0 : PAgent.init n gamma cap alpha beta eps th = .ok a₀) (es : List (PEvent σ α θ)) (hv : PValid es) :
    ∃ c, (runErrors L a₀ es).length = c + (shippedOf es).length ∧ c ≤ (psteps es).length ∧ (psteps es).length ≤ c + n ∧
      (∀ x, (psteps es).getLast? = some (x, true) → c = (psteps es).length) := by
  obtain ⟨outs, sp, h⟩ := prun hL hn hg h0 es hv
  obtain ⟨_, hc⟩ := C16_no_loss_no_duplication hn hg h.traced
  have hall : (allSteps (episodesOf (psteps es))).length = (psteps es).length := by rw [allSteps_episodesOf, List.length_map]
  have hb := (C17_bool hn hg h.traced).not.1 (by rw [h.idle]; simp)
  rw [hall] at hb hc
  have hp := h.source.length_eq
  rw [List.length_append, List.length_map] at hp
  refine ⟨outs.length, by rw [h.len, hp], by omega, ?_, ?_⟩
  · by_contra hlt
    exact hb ⟨by omega, .inr (by omega)⟩
  · intro x hx
    by_contra hne
    refine hb ⟨by omega, .inl ?_⟩
    have hd := List.dropLast_append_getLast? _ hx
    rw [← hd, episodesOf_snoc]
    rcases (episodesOf (psteps es).dropLast).getLast? with _ | ⟨steps, dn⟩
    · exact ⟨_, List.getLast?_concat .., rfl⟩
    · cases dn with
      | true => exact ⟨_, List.getLast?_concat .., rfl⟩
      | false => exact ⟨_, List.getLast?_concat .., rfl⟩

/-- C98, errors.  After any run, a step never raises; a batch can be drawn exactly if its size is positive and a transition is stored. -/
theorem C98_no_errors (hL : L.Sound) (hn : 0 < n) (hg : 0 ≤ gamma ∧ gamma ≤ 1) (h0 : PAgent.init n gamma cap alpha beta eps th = .ok a₀) (es : List (PEvent σ α θ)) (hv : PValid es) :
    (∀ x d, x.Valid → ((a₀.run L es).1.event L (.step x d)).2.1 = none) ∧
    (∀ k rnd, Uniforms rnd → (((a₀.run L es).1.event L (.sample k rnd)).2.1 = none ↔ 0 < k ∧ runErrors L a₀ es ≠ [])) := by
  obtain ⟨outs, sp, h⟩ := prun hL hn hg h0 es hv
  constructor
  · intro x d hx
    obtain ⟨_, _, _, _, e, _⟩ := h.step hL hn hg hx d
    rw [e]
  · intro k rnd hr
    obtain ⟨_, _, e, _, e'⟩ := h.sample (L := L) k hr
    rw [e]; exact e'

/-- C98, the first step.  After one step that does not end the episode nothing is stored yet, so the loop of `doc/examples/stubs/dqn_per.py:68` raises `RuntimeError` at the very first step. -/
theorem C98_first_step (hL : L.Sound) (hn : 0 < n) (hg : 0 ≤ gamma ∧ gamma ≤ 1) (h0 : PAgent.init n gamma cap alpha beta eps th = .ok a₀) {x : Step σ α ℝ} (hx : x.Valid)
    (rnd : Nat → List ℝ) : ((a₀.run L [.step x false]).1.event L (.sample 32 rnd)).2.1 = some .runtimeError := by
  have hv : PValid [PEvent.step (θ := θ) x false] := ⟨fun y d hm => by simp at hm; rw [hm.1]; exact hx, fun k r hm => by simp at hm⟩
  obtain ⟨outs, sp, h⟩ := prun hL hn hg h0 _ hv
  have hnil : sp.log = [] := by
    rcases hlog : sp.log with _ | ⟨row, rest⟩
    · rfl
    · exfalso
      rcases fromRun hn hg h (row := row) (by rw [hlog]; simp) with ⟨ep, hep, t, _, hearly, _⟩ | ⟨rows, ds, hm, _⟩
      · have hep' : ep = ⟨[x], false⟩ := List.mem_singleton.1 hep
        subst hep'
        have := hearly rfl
        simp at this
        omega
      · simp at hm
  have e := (C13_sample_rejected h.stored rnd 32).2 (by norm_num) hnil
  simp only [PAgent.event, Nat.cast_ofNat, e]

/-! The hypotheses can be met: an updater, and a run after which there is a stored transition and a sampled batch to learn from. -/

/-- An updater whose TD errors are the rewards. -/
def exLearner : Learner Nat Unit Unit where
  tdError _ rows := .ok (rows.map (·.data.Rn))
  update th rows := .ok (th + 1, rows.map (·.data.Rn))

theorem exLearner_sound : exLearner.Sound :=
  ⟨fun _ rows => ⟨_, rfl, by simp⟩, fun _ rows th' ds h => by simp only [exLearner, Except.ok.injEq, Prod.mk.injEq] at h; rw [← h.2]; simp⟩

/-- A transition of another actor. -/
def exRow : Row (Out Unit Unit ℝ) := ⟨⟨(), (), 0, 5, 0, some (), some (), some 0, 1, 0, none⟩, 1⟩

/-- A step, an addition and a sampled batch. -/
noncomputable def exRun : List (PEvent Unit Unit Nat) := [.ship [exRow, exRow] [3, -2], .step ⟨(), (), 1, 0, 1⟩ false, .sample 4 fun m => List.replicate m (1 / 2)]

example : ∃ a₀, PAgent.init 1 (1 / 2) (2 : Nat) (1 / 2) 1 1 0 = .ok a₀ ∧ PValid exRun ∧ runErrors exLearner a₀ exRun ≠ [] ∧
    ∃ b p, (a₀.run exLearner exRun).1.pending[0]? = some b ∧ exLearner.update (a₀.run exLearner exRun).1.theta b.rows = .ok p := by
  obtain ⟨s, hs, _⟩ := (C10_init ([] : Heap (Row (Out Unit Unit ℝ))) (2 : Nat) (1 / 2) 1 1).1 (by norm_num)
  have h0 : PAgent.init (σ := Unit) (α := Unit) 1 (1 / 2) (2 : Nat) (1 / 2) 1 1 0 = .ok ⟨NStep.init 1 (1 / 2) false, s, 0, []⟩ := by
    unfold PAgent.init; rw [hs]
  have hu : Uniforms fun m => List.replicate m (1 / 2 : ℝ) := ⟨by simp, fun m u hu => by rw [(List.mem_replicate.1 hu).2]; norm_num⟩
  refine ⟨_, h0, ⟨?_, ?_⟩, ?_⟩
  · intro x d hm
    simp only [exRun, List.mem_cons, reduceCtorEq, PEvent.step.injEq, List.not_mem_nil, or_false, false_or] at hm
    rw [hm.1]; exact ⟨le_refl _, one_pos⟩
  · intro k rnd hm
    simp only [exRun, List.mem_cons, reduceCtorEq, PEvent.sample.injEq, List.not_mem_nil, or_false, false_or] at hm
    rw [hm.2]; exact hu
  · obtain ⟨a1, sp1, e1, h1⟩ := (pinit h0).ship (L := exLearner) [exRow, exRow] [3, -2]
    rw [if_pos (by rfl)] at e1 h1
    obtain ⟨a2, os, ds, sp2, e2, h2, -⟩ := h1.step exLearner_sound (by norm_num) (by norm_num) (x := ⟨(), (), 1, 0, 1⟩) ⟨le_refl _, one_pos⟩ false
    obtain ⟨a3, err, e3, h3, h4⟩ := h2.sample (L := exLearner) 4 hu
    have hlen := C13_importance_weights h2.stored (by rw [← h2.len]; simp) (fun m => List.replicate m (1 / 2 : ℝ)) hu.1 hu.2 (n := 4) (by norm_num)
    obtain ⟨ids, rows, M, _, _, _, _, _, e5⟩ := hlen
    obtain ⟨b0, e4⟩ : ∃ b0, (a2.event exLearner (.sample 4 fun m => List.replicate m (1 / 2 : ℝ))).1.pending = a2.pending ++ [b0] := by
      simp only [PAgent.event, e5]
      exact ⟨_, rfl⟩
    have hp : a3.pending ≠ [] := by
      rw [e3] at e4
      simp only at e4
      rw [e4]; simp
    constructor
    · simp only [runErrors, lastErrors, PAgent.run, exRun, e1, e2, e3, List.map_cons, List.map_nil, List.foldl_cons, List.foldl_nil, note]
      simp
    · simp only [PAgent.run, exRun, e1, e2, e3]
      obtain ⟨b, rest, hb⟩ := List.exists_cons_of_ne_nil hp
      exact ⟨b, _, by rw [hb]; rfl, rfl⟩

/-! ### Clearing the buffer -/

/-- C98 does not extend to `buffer.clear()` between sampling and learning: identifiers start from zero again, so the TD error of an old transition becomes the priority of a new one.
(None of the example scripts with this buffer clears it.) -/
theorem C98_clear_counterexample {s : PSys (Out σ α ℝ)} {sp : PSpec (Out σ α ℝ)} (h : PHistory cap s sp) {r : Ref} {o : Obj (Row (Out σ α ℝ))} {row : Row (Out σ α ℝ)}
    (ho : s.heap[r]? = some o) (hrow : o.rows = [row]) (d d' : ℝ) :
    ((s.clear.add r [d]).1.update [0] [d']).2 = none ∧ ((s.clear.add r [d]).1.update [0] [d']).1.objectFor 0 = some ⟨[row], [0]⟩ ∧
      ((s.clear.add r [d]).1.update [0] [d']).1.weightFor 0 = some (prio sp.alpha sp.epsilon d') := by
  have hcl := PHistory.clear h
  have hfree : some r ∉ s.clear.buf.storage := by simp [PSys.clear, PBuf.clear]
  have hadd := PHistory.add (r := r) (o := o) (Adv := [d]) hcl ho (fun _ => hfree) (by simp [hrow])
  have hc := h.holds.cap_pos
  have hlen : ([] ++ o.rows).length = 1 := by simp [hrow]
  have hacc : (PSpec.Accepts cap { sp with log := [] ++ o.rows, base := [] ++ [d].map (fun a => |a| + sp.epsilon), doc := [] ++ [d].map (fun a => |a| + sp.epsilon), tame := True } [0] [d']) :=
    ⟨rfl, by simp, by simp [hrow]⟩
  obtain ⟨e1, e2⟩ := C12_update_exact hadd hacc (i := 0) (by simp [hrow]) (by simp [hrow]; omega)
  have hupd := PHistory.update hadd hacc
  refine ⟨e1, ?_, ?_⟩
  · have := (C10_keeps_most_recent hupd).1
    simpa [hrow, lastN, Nat.sub_eq_zero_of_le hc, List.range_succ] using this
  · rw [e2]; simp [prio]

end Main

end Coax.Loop
