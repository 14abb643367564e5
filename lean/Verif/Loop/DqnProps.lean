import Verif.Loop.Dqn
import Verif.RewardTracing.NStepProps
import Verif.Replay.SimpleProps
import Verif.TD.TargetsProps

/-! Property C88: the targets that a training loop computes, from the steps of the environment to the target of the TD updater. -/

namespace Coax.Loop

open Coax.RewardTracing Coax.Replay Coax.TD Coax.Core

variable {σ α σ' α' G P : Type _}

/-- The episodes of a run, given its steps and which of them are the last of their episode. -/
def episodesOf (xs : List (Step σ α ℝ × Bool)) : List (Episode σ α ℝ) :=
  xs.foldl (fun eps p => match eps.getLast? with
    | some ⟨steps, false⟩ => eps.dropLast ++ [⟨steps ++ [p.1], p.2⟩]
    | _ => eps ++ [⟨[p.1], p.2⟩]) []

/-- The steps of a run, with the flag `flag done truncated`. -/
def stepsOf (flag : Bool → Bool → Bool) (es : List (Event σ α G)) : List (Step σ α ℝ × Bool) :=
  es.filterMap fun e => match e with | .step x d tr => some (x, flag d tr) | _ => none

/-- All steps of a run are such that `from_single` accepts them. -/
def ValidRun (es : List (Event σ α G)) : Prop := ∀ x d tr, Event.step x d tr ∈ es → x.Valid

/-- `y` is the n-step target for step `t` of episode `ep`: the discounted rewards of the next `n` steps *of the same episode*, plus the discounted
bootstrap value of the state `n` steps later if the episode is that long. -/
def IsTarget (n : Nat) (gamma : ℝ) (f fInv : ℝ → ℝ) (value : Step σ α ℝ → ℝ → Prop) (ep : List (Step σ α ℝ)) (t : Nat) (y : ℝ) : Prop :=
  (∀ z, ep[t + n]? = some z → ∃ v, value z v ∧ y = f ((∑ k ∈ Finset.range n, gamma ^ k * rewardAt ep (t + k)) + gamma ^ n * fInv v)) ∧
  (ep[t + n]? = none → y = f (∑ k ∈ Finset.range n, gamma ^ k * rewardAt ep (t + k)))

/-! ### The invariant -/

section Inv

variable {draw : G → Nat → Nat → List Nat × G} {n cap : Nat} {gamma : ℝ}

theorem fresh {s : Sys (Out σ α ℝ) G} {log : List (Out σ α ℝ)} (h : History draw cap s log) : s.heap.length ∉ s.buf.storage := by
  intro hm
  have hit := (C08_keeps_most_recent h).1
  have : s.heap[s.heap.length]? ∈ s.iter := List.mem_map.2 ⟨_, hm, rfl⟩
  rw [hit] at this
  simp at this

theorem popAll_ok (hn : 0 < n) (hg : 0 ≤ gamma ∧ gamma ≤ 1) {eps : List (Episode σ α ℝ)} : ∀ (fuel : Nat) (a : Agent σ α G) (outs log : List (Out σ α ℝ)),
    NHistory n gamma false a.tracer eps outs → History draw cap a.sys log → a.tracer.len < fuel →
    ∃ a' os, popAll fuel a = (a', none) ∧ NHistory n gamma false a'.tracer eps (outs ++ os) ∧ History draw cap a'.sys (log ++ os) ∧ a'.tracer.bool = false := by
  intro fuel
  induction fuel with
  | zero => intro a outs log _ _ h; omega
  | succ fuel ih =>
    intro a outs log hN hH hf
    unfold popAll
    cases hb : a.tracer.bool with
    | false => exact ⟨a, [], by simp, by simpa using hN, by simpa using hH, hb⟩
    | true =>
      obtain ⟨t, o, hp, hl⟩ := (C17_pop hn hg hN).2 hb
      have hnew := History.new [o] hH
      have hget : (a.sys.heap ++ [Obj.new [o]])[a.sys.heap.length]? = some (Obj.new [o]) := by simp
      have hfr : (Obj.new [o]).rows.length = 1 → a.sys.heap.length ∉ a.sys.buf.storage := fun _ => fresh hH
      have hadd := History.add hnew hget hfr
      have hok := C08_add_succeeds hnew hget hfr
      rw [if_neg (by simp), hp]
      simp only
      generalize hs : ({ a.sys with heap := a.sys.heap ++ [Obj.new [o]] } : Sys (Out σ α ℝ) G).add a.sys.heap.length = r at hadd hok
      obtain ⟨s, e⟩ := r
      simp only at hok hadd
      subst hok
      simp only
      obtain ⟨a', os, h1, h2, h3, h4⟩ := ih ⟨t, s⟩ (outs ++ [o]) (log ++ [o]) (.pop hN hp) hadd (by simp only; omega)
      exact ⟨a', o :: os, h1, by simpa using h2, by simpa using h3, h4⟩

/-- What holds after every event. -/
structure Inv (draw : G → Nat → Nat → List Nat × G) (n cap : Nat) (gamma : ℝ) (a : Agent σ α G) (xs : List (Step σ α ℝ × Bool)) (outs log : List (Out σ α ℝ)) : Prop where
  traced : NHistory n gamma false a.tracer (episodesOf xs) outs
  stored : History draw cap a.sys log
  suffix : log <:+ outs
  idle : a.tracer.bool = false

theorem episodesOf_snoc (xs : List (Step σ α ℝ × Bool)) (x : Step σ α ℝ) (d : Bool) :
    episodesOf (xs ++ [(x, d)]) = match (episodesOf xs).getLast? with
      | some ⟨steps, false⟩ => (episodesOf xs).dropLast ++ [⟨steps ++ [x], d⟩]
      | _ => episodesOf xs ++ [⟨[x], d⟩] := by
  unfold episodesOf
  rw [List.foldl_append]
  rfl

theorem Inv.observe (hn : 0 < n) (hg : 0 ≤ gamma ∧ gamma ≤ 1) {a : Agent σ α G} {xs : List (Step σ α ℝ × Bool)} {outs log : List (Out σ α ℝ)}
    (h : Inv draw n cap gamma a xs outs log) {x : Step σ α ℝ} (hx : x.Valid) (d : Bool) :
    ∃ a' os, a.observe x d = (a', none) ∧ Inv draw n cap gamma a' (xs ++ [(x, d)]) (outs ++ os) (log ++ os) := by
  obtain ⟨hN, hH, hsuf, hidle⟩ := h
  have hadd := (C17_add hn hg hN x d).2 (by
    rintro ⟨hd, hlt⟩
    have := (C17_bool hn hg hN).2 ⟨hlt, .inl hd⟩
    rw [hidle] at this
    cases this)
  unfold Agent.observe
  generalize ht : a.tracer.add x d = r at hadd
  obtain ⟨t, e⟩ := r
  obtain ⟨he, _⟩ := hadd
  simp only at he
  subst he
  simp only
  have hN' : NHistory n gamma false t (episodesOf (xs ++ [(x, d)])) outs := by
    rw [episodesOf_snoc]
    rcases hl : (episodesOf xs).getLast? with _ | ⟨steps, dn⟩
    · exact .addFirst x d hN (by rw [hl]; simp) hx ht
    · cases dn with
      | true => exact .addFirst x d hN (by rw [hl]; simp) hx ht
      | false =>
        have e := List.dropLast_append_getLast? _ hl
        refine .addNext (steps := steps) x d ?_ hx ht
        rw [e]; exact hN
  obtain ⟨a', os, h1, h2, h3, h4⟩ := popAll_ok (draw := draw) (cap := cap) hn hg (t.len + 1) { a with tracer := t } outs log hN' hH (by simp)
  refine ⟨a', os, h1, h2, h3, ?_, h4⟩
  obtain ⟨pre, rfl⟩ := hsuf
  exact ⟨pre, by simp⟩

theorem run_inv (flag : Bool → Bool → Bool) (hn : 0 < n) (hg : 0 ≤ gamma ∧ gamma ≤ 1) : ∀ (es : List (Event σ α G)) (a : Agent σ α G) (xs : List (Step σ α ℝ × Bool))
    (outs log : List (Out σ α ℝ)), ValidRun es → Inv draw n cap gamma a xs outs log →
    ∃ outs' log', Inv draw n cap gamma (a.run draw flag es).1 (xs ++ stepsOf flag es) outs' log' ∧ ((∀ e ∈ es, e ≠ .clear) → log = outs → log' = outs') ∧
      List.Forall₂ (fun e err => (∀ x d tr, e = Event.step x d tr → err = none)) es (a.run draw flag es).2 := by
  intro es
  induction es with
  | nil => intro a xs outs log _ h; exact ⟨outs, log, by simpa [Agent.run, stepsOf] using h, fun _ e => e, .nil⟩
  | cons e es ih =>
    intro a xs outs log hv h
    have hv' : ValidRun es := fun x d tr hm => hv x d tr (List.mem_cons_of_mem _ hm)
    obtain ⟨hN, hH, hsuf, hidle⟩ := h
    cases e with
    | step x d tr =>
      obtain ⟨a', os, h1, h2⟩ := Inv.observe hn hg ⟨hN, hH, hsuf, hidle⟩ (hv x d tr (by simp)) (flag d tr)
      obtain ⟨outs', log', h3, hc, h4⟩ := ih a' _ _ _ hv' h2
      have e1 : a.event draw flag (.step x d tr) = (a', none) := h1
      refine ⟨outs', log', ?_, fun hne e => hc (fun e' he => hne e' (List.mem_cons_of_mem _ he)) (by rw [e]), ?_⟩
      · simpa [Agent.run, e1, stepsOf] using h3
      · simp only [Agent.run, e1]
        exact .cons (fun _ _ _ _ => rfl) h4
    | sample k =>
      have hs := History.sample (k : Int) hH
      obtain ⟨outs', log', h3, hc, h4⟩ := ih { a with sys := (a.sys.sample draw k).1 } xs outs log hv' ⟨hN, hs, hsuf, hidle⟩
      have e1 : (a.event draw flag (.sample k)).1 = { a with sys := (a.sys.sample draw k).1 } := by
        simp only [Agent.event]
        generalize a.sys.sample draw k = r
        obtain ⟨s, r⟩ := r
        cases r <;> rfl
      refine ⟨outs', log', ?_, fun hne e => hc (fun e' he => hne e' (List.mem_cons_of_mem _ he)) e, ?_⟩
      · simpa [Agent.run, e1, stepsOf] using h3
      · simp only [Agent.run, e1]
        exact .cons (fun _ _ _ he => by cases he) h4
    | clear =>
      obtain ⟨outs', log', h3, hc, h4⟩ := ih { a with sys := a.sys.clear } xs outs [] hv' ⟨hN, .clear hH, List.nil_suffix, hidle⟩
      refine ⟨outs', log', ?_, fun hne _ => absurd rfl (hne _ (by simp)), ?_⟩
      · simpa [Agent.run, Agent.event, stepsOf] using h3
      · simp only [Agent.run, Agent.event]
        exact .cons (fun _ _ _ he => by cases he) h4
    | tamper g =>
      obtain ⟨outs', log', h3, hc, h4⟩ := ih { a with sys := { a.sys with globalRandom := g } } xs outs log hv' ⟨hN, .tamper g hH, hsuf, hidle⟩
      refine ⟨outs', log', ?_, fun hne e => hc (fun e' he => hne e' (List.mem_cons_of_mem _ he)) e, ?_⟩
      · simpa [Agent.run, Agent.event, stepsOf] using h3
      · simp only [Agent.run, Agent.event]
        exact .cons (fun _ _ _ he => by cases he) h4

theorem Inv.init (g : G) : Inv draw n cap gamma (Agent.init n gamma cap g : Agent σ α G) [] [] [] :=
  ⟨.init, .init [] g, List.suffix_rfl, by simp [Agent.init, NStep.init, NStep.reset, NStep.bool, NStep.len]⟩

/-- A row that is sampled is the n-step transition of a step of an episode of the run. -/
theorem sampled_row (hd : DrawsDistinct draw) (hn : 0 < n) (hg : 0 ≤ gamma ∧ gamma ≤ 1) {a : Agent σ α G} {xs : List (Step σ α ℝ × Bool)} {outs log : List (Out σ α ℝ)}
    (h : Inv draw n cap gamma a xs outs log) {k : Nat} {o : Obj (Out σ α ℝ)} (ho : (a.sys.sample draw k).2 = .ok o) :
    o.rows.length = k ∧ ∀ row ∈ o.rows, ∃ ep ∈ episodesOf xs, ∃ t, IsNStep n gamma ep.steps t row ∧ (ep.done = false → t + n < ep.steps.length) := by
  have hk : 1 ≤ k ∧ k ≤ a.sys.len := by
    by_contra hcon
    have he := C09_sample_effects (draw := draw) hd a.sys k
    rcases Nat.eq_zero_or_pos k with rfl | hpos
    · have := he.2.1 rfl
      rw [ho] at this
      cases this
    · have := he.1 (.inr (by omega))
      rw [ho] at this
      cases this
  obtain ⟨pos, entries, h1, h2, h3, h4⟩ := C09_sample hd h.stored hk.1 hk.2
  rw [ho] at h4
  injection h4 with h4
  subst h4
  refine ⟨by simp [← h3.length_eq, h1], ?_⟩
  intro row hrow
  simp only [List.mem_map] at hrow
  obtain ⟨⟨r, i⟩, hmem, rfl⟩ := hrow
  obtain ⟨p, _, hp⟩ : ∃ p ∈ pos, (lastN cap log.zipIdx)[p]? = some (r, i) := by
    clear h1 h2 ho
    induction h3 with
    | nil => simp at hmem
    | @cons p e ps es hpe hrest ih =>
      rcases List.mem_cons.1 hmem with rfl | hm
      · exact ⟨p, by simp, hpe⟩
      · obtain ⟨q, hq, hq'⟩ := ih hm
        exact ⟨q, by simp [hq], hq'⟩
  have hin : r ∈ outs := by
    have := List.mem_of_getElem? hp
    have := List.mem_of_mem_drop this
    have : r ∈ log := by
      have := List.mem_zipIdx' this
      rw [this.2]
      exact List.getElem_mem _
    exact h.suffix.subset this
  obtain ⟨segs, hs, hf, hx⟩ := h.traced.segments hn hg
  clear hx
  rw [hs] at hin
  obtain ⟨seg, hseg, hr⟩ := List.mem_flatten.1 hin
  obtain ⟨ep, hep, hS⟩ : ∃ ep ∈ episodesOf xs, Segment n gamma false ep seg := by
    generalize episodesOf xs = eps at hf
    clear hs hin
    induction hf with
    | nil => simp at hseg
    | @cons e s' es ss hes hrest ih =>
      rcases List.mem_cons.1 hseg with rfl | hm
      · exact ⟨e, by simp, hes⟩
      · obtain ⟨q, hq, hq'⟩ := ih hm
        exact ⟨q, by simp [hq], hq'⟩
  obtain ⟨t, ht, htr⟩ := List.mem_iff_getElem.1 hr
  have hc := hS.2 t r (by rw [List.getElem?_eq_getElem ht, htr])
  exact ⟨ep, hep, t, hc.nstep, hc.early⟩

end Inv

/-! ### The target -/

/-- `T` computes targets row by row, `f (Rn + In * f_inv v)`, where `v` is a value of the next state and the next action, whenever these satisfy `ok`. -/
def RowWise (pre : σ → σ') (preA : α → α') (ok : σ → α → Prop) (f fInv : ℝ → ℝ) (value : σ → α → ℝ → Prop) (T : TBatch σ' α' → Except Err (List ℝ)) : Prop :=
  ∀ (Rn In : List ℝ) (next : List (σ × α)), Rn.length = next.length → In.length = next.length → (∀ p ∈ next, ok p.1 p.2) →
    ∃ ys, T ⟨Rn, In, next.map (fun p => pre p.1), next.map (fun p => preA p.2)⟩ = .ok ys ∧ ys.length = next.length ∧
      ∀ (i : Nat) (r d : ℝ) (s : σ) (a : α), Rn[i]? = some r → In[i]? = some d → next[i]? = some (s, a) → ∃ v, value s a v ∧ ys[i]? = some (f (r + d * fInv v))

theorem mapM_some {β γ : Type _} {f : β → Option γ} {g : β → γ} {l : List β} (h : ∀ x ∈ l, f x = some (g x)) : l.mapM f = some (l.map g) := by
  induction l with
  | nil => rfl
  | cons x l ih => simp [List.mapM_cons, h x (by simp), ih (fun y hy => h y (by simp [hy]))]

theorem mem_episodesOf {xs : List (Step σ α ℝ × Bool)} {ep : Episode σ α ℝ} {x : Step σ α ℝ} (he : ep ∈ episodesOf xs) (hx : x ∈ ep.steps) : ∃ d, (x, d) ∈ xs := by
  induction xs using List.reverseRecOn generalizing ep with
  | nil => simp [episodesOf] at he
  | append_singleton xs p ih =>
    obtain ⟨y, d⟩ := p
    rw [episodesOf_snoc] at he
    rcases hl : (episodesOf xs).getLast? with _ | ⟨steps, dn⟩
    · rw [hl] at he
      simp only [List.mem_append, List.mem_singleton] at he
      rcases he with he | rfl
      · obtain ⟨d', h'⟩ := ih he hx; exact ⟨d', by simp [h']⟩
      · simp only [List.mem_singleton] at hx; exact ⟨d, by simp [hx]⟩
    · rw [hl] at he
      cases dn with
      | true =>
        simp only [List.mem_append, List.mem_singleton] at he
        rcases he with he | rfl
        · obtain ⟨d', h'⟩ := ih he hx; exact ⟨d', by simp [h']⟩
        · simp only [List.mem_singleton] at hx; exact ⟨d, by simp [hx]⟩
      | false =>
        simp only [List.mem_append, List.mem_singleton] at he
        rcases he with he | rfl
        · obtain ⟨d', h'⟩ := ih (List.dropLast_subset _ he) hx; exact ⟨d', by simp [h']⟩
        · simp only [List.mem_append, List.mem_singleton] at hx
          rcases hx with hx | rfl
          · obtain ⟨d', h'⟩ := ih (List.mem_of_getLast? hl) hx; exact ⟨d', by simp [h']⟩
          · exact ⟨d, by simp⟩

/-- C88, for any updater with a row-wise target.  After any run of the loop (steps of the environment, updates, `buffer.clear()`, other users of `random`, in
any order), the target of each row of a sampled batch is the n-step target of the step of the episode that the row is about. -/
theorem C88_targets {draw : G → Nat → Nat → List Nat × G} {flag : Bool → Bool → Bool} {n cap : Nat} {gamma : ℝ} (hd : DrawsDistinct draw) (hn : 0 < n) (hg : 0 ≤ gamma ∧ gamma ≤ 1)
    {pre : σ → σ'} {preA : α → α'} {ok : σ → α → Prop} {f fInv : ℝ → ℝ} {value : σ → α → ℝ → Prop} {T : TBatch σ' α' → Except Err (List ℝ)}
    (hT : RowWise pre preA ok f fInv value T) (g : G) (es : List (Event σ α G)) (hv : ValidRun es) (hok : ∀ x d tr, Event.step x d tr ∈ es → ok x.s x.a) (k : Nat) (hk : 1 ≤ k)
    (hlen : k ≤ ((Agent.init n gamma cap g).run draw flag es).1.sys.len) :
    ∃ rows ys, ((Agent.init n gamma cap g).run draw flag es).1.target draw pre preA T k = .ok (rows, ys) ∧ rows.length = k ∧ ys.length = k ∧
      ∀ (i : Nat) (row : Out σ α ℝ) (y : ℝ), rows[i]? = some row → ys[i]? = some y → ∃ ep ∈ episodesOf (stepsOf flag es), ∃ t x, ep.steps[t]? = some x ∧ row.S = x.s ∧ row.A = x.a ∧
        (ep.steps[t + n]? = none → ep.done = true) ∧ IsTarget n gamma f fInv (fun z => value z.s z.a) ep.steps t y := by
  obtain ⟨outs, log, hI, _, _⟩ := run_inv (draw := draw) (cap := cap) flag hn hg es (Agent.init n gamma cap g) [] [] [] hv (Inv.init g)
  rw [List.nil_append] at hI
  generalize ((Agent.init n gamma cap g).run draw flag es).1 = a at *
  obtain ⟨pos, entries, h1, h2, h3, h4⟩ := C09_sample hd hI.stored hk hlen
  obtain ⟨hk', hrows⟩ := sampled_row hd hn hg hI h4
  generalize hrw : (entries.map (·.1)) = rows at *
  simp only at hk' hrows
  have hstep : ∀ ep ∈ episodesOf (stepsOf flag es), ∀ x ∈ ep.steps, ok x.s x.a := by
    intro ep he x hx
    obtain ⟨d, hm⟩ := mem_episodesOf he hx
    simp only [stepsOf, List.mem_filterMap] at hm
    obtain ⟨e, he', hxe⟩ := hm
    cases e with
    | step y d' tr => simp only [Option.some.injEq, Prod.mk.injEq] at hxe; rw [← hxe.1]; exact hok y d' tr he'
    | _ => simp at hxe
  have hnext : ∀ row ∈ rows, ∃ p : σ × α, row.S_next = some p.1 ∧ row.A_next = some p.2 ∧ ok p.1 p.2 := by
    intro row hr
    obtain ⟨ep, he, t, hN, _⟩ := hrows row hr
    cases hz : ep.steps[t + n]? with
    | some z =>
      obtain ⟨b1, b2, _, _⟩ := hN.boot z hz
      exact ⟨(z.s, z.a), b1, b2, hstep ep he z (List.mem_of_getElem? hz)⟩
    | none =>
      obtain ⟨_, b1, b2, _⟩ := hN.stop hz
      obtain ⟨x, hx, s1, s2, _⟩ := hN.start
      exact ⟨(x.s, x.a), by rw [b1, s1], by rw [b2, s2], hstep ep he x (List.mem_of_getElem? hx)⟩
  obtain ⟨nx, hnx⟩ : ∃ nx : Out σ α ℝ → σ × α, ∀ row ∈ rows, row.S_next = some (nx row).1 ∧ row.A_next = some (nx row).2 ∧ ok (nx row).1 (nx row).2 := by
    refine ⟨fun r => (r.S_next.getD r.S, r.A_next.getD r.A), fun row hr => ?_⟩
    obtain ⟨p, e1, e2, e3⟩ := hnext row hr
    simp only [e1, e2, Option.getD_some]
    exact ⟨trivial, trivial, e3⟩
  have hb : toTBatch pre preA rows = .ok ⟨rows.map (·.Rn), rows.map (·.In), (rows.map nx).map (fun p => pre p.1), (rows.map nx).map (fun p => preA p.2)⟩ := by
    unfold toTBatch
    rw [mapM_some (g := fun r => (nx r).1) (fun r hr => (hnx r hr).1), mapM_some (g := fun r => (nx r).2) (fun r hr => (hnx r hr).2.1)]
    simp [Function.comp_def]
  obtain ⟨ys, hy1, hy2, hy3⟩ := hT (rows.map (·.Rn)) (rows.map (·.In)) (rows.map nx) (by simp) (by simp) (by
    intro p hp
    obtain ⟨r, hr, rfl⟩ := List.mem_map.1 hp
    exact (hnx r hr).2.2)
  refine ⟨rows, ys, ?_, hk', by simpa [hk'] using hy2, ?_⟩
  · unfold Agent.target
    rw [h4]
    simp only
    rw [hb]
    simp only
    rw [hy1]; rfl
  · intro i row y hri hyi
    have hr := List.mem_of_getElem? hri
    obtain ⟨ep, he, t, hN, hearly⟩ := hrows row hr
    obtain ⟨x, hx, s1, s2, _⟩ := hN.start
    obtain ⟨v, hv1, hv2⟩ := hy3 i row.Rn row.In (nx row).1 (nx row).2 (by simp [hri]) (by simp [hri]) (by simp [hri])
    rw [hyi] at hv2
    injection hv2 with hv2
    refine ⟨ep, he, t, x, hx, s1, s2, ?_, ?_, ?_⟩
    · intro hnone
      rw [List.getElem?_eq_none_iff] at hnone
      by_contra hdn
      have := hearly (by simpa using hdn)
      omega
    · intro z hz
      obtain ⟨b1, b2, _, b4⟩ := hN.boot z hz
      rw [(hnx row hr).1] at b1
      rw [(hnx row hr).2.1] at b2
      injection b1 with b1
      injection b2 with b2
      exact ⟨v, by simpa [b1, b2] using hv1, by rw [hv2, hN.ret, b4]⟩
    · intro hz
      rw [hv2, hN.ret, (hN.stop hz).1, zero_mul, add_zero]


theorem rowWise_of_bootstraps {pre : σ → σ'} {preA : α → α'} {ok : σ → α → Prop} {f fInv : ℝ → ℝ} {spec : σ' → ℝ → Prop} {T : TBatch σ' α' → Except Err (List ℝ)}
    (h : ∀ b, WellFormed b → Bootstraps f fInv b spec (T b)) : RowWise pre preA ok f fInv (fun s _ v => spec (pre s) v) T := by
  intro Rn In next h1 h2 _
  obtain ⟨ys, e1, e2, e3⟩ := h ⟨Rn, In, next.map (fun p => pre p.1), next.map (fun p => preA p.2)⟩ ⟨by simpa using h1, by simpa using h2⟩
  refine ⟨ys, e1, by simpa using e2, ?_⟩
  intro i r d s a hr hd hn
  exact e3 i r d (pre s) hr hd (by simp [hn])

/-- C88 for QLearning with a replay buffer (DQN).  The q-functions have the same network, whose rows do not influence each other, and which computes `t`;
`TieSafe` holds for type-2 networks, and for type-1 networks if no two actions have the same value. -/
theorem C88_qLearning {draw : G → Nat → Nat → List Nat × G} {flag : Bool → Bool → Bool} {n cap : Nat} {gamma : ℝ} (hd : DrawsDistinct draw) (hn : 0 < n) (hg : 0 ≤ gamma ∧ gamma ≤ 1)
    {nA : Nat} (hA : 0 < nA) (pre : σ → σ') (preA : α → List ℝ) {q qTarg : QFn P σ' (List ℝ)} {t : σ' → Nat → ℝ} (ht : Computes nA t (qTarg.forward qTarg.params))
    (hf : q.forward = qTarg.forward) (hs : ∀ S, TieSafe nA t (qTarg.forward qTarg.params) S) (g : G) (es : List (Event σ α G)) (hv : ValidRun es) (k : Nat) (hk : 1 ≤ k)
    (hlen : k ≤ ((Agent.init n gamma cap g).run draw flag es).1.sys.len) :
    ∃ rows ys, ((Agent.init n gamma cap g).run draw flag es).1.target draw pre preA (qLearning nA q qTarg) k = .ok (rows, ys) ∧ rows.length = k ∧ ys.length = k ∧
      ∀ (i : Nat) (row : Out σ α ℝ) (y : ℝ), rows[i]? = some row → ys[i]? = some y → ∃ ep ∈ episodesOf (stepsOf flag es), ∃ τ x, ep.steps[τ]? = some x ∧ row.S = x.s ∧ row.A = x.a ∧
        (ep.steps[τ + n]? = none → ep.done = true) ∧ IsTarget n gamma q.transform qTarg.inverse (fun z => IsMaxOf nA (t (pre z.s))) ep.steps τ y :=
  C88_targets (ok := fun _ _ => True) hd hn hg (rowWise_of_bootstraps (spec := fun s x => IsMaxOf nA (t s) x) fun b hb => C46_qLearning_partial hA hb ht hf (hs _)) g es hv (fun _ _ _ _ => trivial) k hk hlen

/-- C88 for SimpleTD. -/
theorem C88_simpleTD {draw : G → Nat → Nat → List Nat × G} {flag : Bool → Bool → Bool} {n cap : Nat} {gamma : ℝ} (hd : DrawsDistinct draw) (hn : 0 < n) (hg : 0 ≤ gamma ∧ gamma ≤ 1)
    (pre : σ → σ') (preA : α → α') {v vTarg : VFn P σ'} {t : σ' → ℝ} (ht : ∀ S, vTarg.forward vTarg.params S = S.map t) (g : G) (es : List (Event σ α G)) (hv : ValidRun es)
    (k : Nat) (hk : 1 ≤ k) (hlen : k ≤ ((Agent.init n gamma cap g).run draw flag es).1.sys.len) :
    ∃ rows ys, ((Agent.init n gamma cap g).run draw flag es).1.target draw pre preA (simpleTD v vTarg) k = .ok (rows, ys) ∧ rows.length = k ∧ ys.length = k ∧
      ∀ (i : Nat) (row : Out σ α ℝ) (y : ℝ), rows[i]? = some row → ys[i]? = some y → ∃ ep ∈ episodesOf (stepsOf flag es), ∃ τ x, ep.steps[τ]? = some x ∧ row.S = x.s ∧ row.A = x.a ∧
        (ep.steps[τ + n]? = none → ep.done = true) ∧ IsTarget n gamma v.transform vTarg.inverse (fun z u => u = t (pre z.s)) ep.steps τ y :=
  C88_targets (ok := fun _ _ => True) hd hn hg (rowWise_of_bootstraps (spec := fun s x => x = t s) fun b hb => C46_simpleTD hb ht) g es hv (fun _ _ _ _ => trivial) k hk hlen

/-- C88 for Sarsa with discrete actions. -/
theorem C88_sarsa {draw : G → Nat → Nat → List Nat × G} {flag : Bool → Bool → Bool} {n cap : Nat} {gamma : ℝ} (hd : DrawsDistinct draw) (hn : 0 < n) (hg : 0 ≤ gamma ∧ gamma ≤ 1)
    {nA : Nat} (hA : 0 < nA) (pre : σ → σ') {q qTarg : QFn P σ' (List ℝ)} {t : σ' → Nat → ℝ} (ht : Computes nA t (qTarg.forward qTarg.params))
    (g : G) (es : List (Event σ Nat G)) (hv : ValidRun es) (ha : ∀ x d tr, Event.step x d tr ∈ es → x.a < nA) (k : Nat) (hk : 1 ≤ k)
    (hlen : k ≤ ((Agent.init n gamma cap g).run draw flag es).1.sys.len) :
    ∃ rows ys, ((Agent.init n gamma cap g).run draw flag es).1.target draw pre (oneHot nA) (sarsa nA q qTarg) k = .ok (rows, ys) ∧ rows.length = k ∧ ys.length = k ∧
      ∀ (i : Nat) (row : Out σ Nat ℝ) (y : ℝ), rows[i]? = some row → ys[i]? = some y → ∃ ep ∈ episodesOf (stepsOf flag es), ∃ τ x, ep.steps[τ]? = some x ∧ row.S = x.s ∧ row.A = x.a ∧
        (ep.steps[τ + n]? = none → ep.done = true) ∧ IsTarget n gamma q.transform qTarg.inverse (fun z u => u = t (pre z.s) z.a) ep.steps τ y := by
  refine C88_targets (ok := fun _ a => a < nA) (value := fun s a v => v = t (pre s) a) hd hn hg ?_ g es hv ha k hk hlen
  intro Rn In next h1 h2 hok
  obtain ⟨G', e1, e2, e3⟩ := C46_sarsa (q := q) (b := ⟨Rn, In, next.map (fun p => pre p.1), next.map (fun p => oneHot nA p.2)⟩) hA ⟨by simpa using h1, by simpa using h2⟩ ht
    (next.map (·.2)) (by simp [Function.comp_def]) (by simp) (by
      intro a ha
      obtain ⟨p, hp, rfl⟩ := List.mem_map.1 ha
      exact hok p hp)
  refine ⟨G', e1, by simpa using e2, ?_⟩
  intro i r d s a hr hd' hn'
  exact ⟨_, rfl, e3 i r d (pre s) a hr hd' (by simp [hn']) (by simp [hn'])⟩

/-- C88, the loop does not raise: `tracer.add`, `tracer.pop` and `buffer.add` succeed at every step. -/
theorem C88_no_errors {draw : G → Nat → Nat → List Nat × G} (flag : Bool → Bool → Bool) {n : Nat} (cap : Nat) {gamma : ℝ} (hn : 0 < n) (hg : 0 ≤ gamma ∧ gamma ≤ 1)
    (g : G) (es : List (Event σ α G)) (hv : ValidRun es) :
    List.Forall₂ (fun e err => (∀ x d tr, e = Event.step x d tr → err = none)) es ((Agent.init n gamma cap g).run draw flag es).2 := by
  obtain ⟨_, _, _, _, h⟩ := run_inv (draw := draw) (cap := cap) flag hn hg es (Agent.init n gamma cap g) [] [] [] hv (Inv.init g)
  exact h

theorem allSteps_episodesOf (xs : List (Step σ α ℝ × Bool)) : allSteps (episodesOf xs) = xs.map (·.1) := by
  induction xs using List.reverseRecOn with
  | nil => rfl
  | append_singleton xs p ih =>
    obtain ⟨y, d⟩ := p
    rw [episodesOf_snoc, List.map_append, ← ih]
    rcases hl : (episodesOf xs).getLast? with _ | ⟨steps, dn⟩
    · simp [allSteps]
    · cases dn with
      | true => simp [allSteps]
      | false =>
        have e := List.dropLast_append_getLast? _ hl
        simp only
        conv_rhs => rw [← e]
        simp [allSteps]

/-- C88, when a batch can be drawn.  It is a `ValueError` to ask for more transitions than there have been steps; in particular the loops of the stubs
(`doc/examples/stubs/dqn.py:65`), which sample 32 transitions from the first step on, raise at the first step.  Without `buffer.clear()`,
`n + k` steps are enough for a batch of `k`, if the buffer has that capacity. -/
theorem C88_ready {draw : G → Nat → Nat → List Nat × G} (hd : DrawsDistinct draw) (flag : Bool → Bool → Bool) {n cap : Nat} {gamma : ℝ} (hn : 0 < n) (hg : 0 ≤ gamma ∧ gamma ≤ 1)
    (pre : σ → σ') (preA : α → α') (T : TBatch σ' α' → Except Err (List ℝ)) (g : G) (es : List (Event σ α G)) (hv : ValidRun es) (k : Nat) :
    ((stepsOf flag es).length < k → ((Agent.init n gamma cap g).run draw flag es).1.target draw pre preA T k = .error .valueError) ∧
    ((∀ e ∈ es, e ≠ .clear) → k ≤ cap → n + k ≤ (stepsOf flag es).length → k ≤ ((Agent.init n gamma cap g).run draw flag es).1.sys.len) := by
  obtain ⟨outs, log, hI, hclear, _⟩ := run_inv (draw := draw) (cap := cap) flag hn hg es (Agent.init n gamma cap g) [] [] [] hv (Inv.init g)
  rw [List.nil_append] at hI
  generalize ((Agent.init n gamma cap g).run draw flag es).1 = a at *
  obtain ⟨_, hcount⟩ := C16_no_loss_no_duplication hn hg hI.traced
  rw [allSteps_episodesOf, List.length_map] at hcount
  have hlen := (C08_keeps_most_recent hI.stored).2.1
  have hsub := hI.suffix.length_le
  constructor
  · intro hk
    have := (C09_sample_effects (draw := draw) hd a.sys k).1 (.inr (by omega))
    unfold Agent.target
    rw [this]
  · intro hc hcap hk
    have e : log = outs := hclear hc rfl
    subst e
    have hb := hI.idle
    obtain ⟨_, _, _, _, hI'⟩ := hI.traced.inv hn hg
    have hn' := hI'.hold.n_eq
    have : a.tracer.len ≤ n := by
      by_contra hcon
      have : a.tracer.bool = true := by
        simp only [NStep.bool, Bool.and_eq_true, decide_eq_true_eq, Bool.or_eq_true]
        exact ⟨by omega, .inr (by omega)⟩
      rw [hb] at this; cases this
    omega

/-! ### Loops that ignore `truncated` -/

/-- `random.sample` of `k` out of `n` positions could return the first `k`. -/
def firstK : Unit → Nat → Nat → List Nat × Unit := fun _ _ k => (List.range k, ())

theorem firstK_distinct : DrawsDistinct firstK := by
  intro g n k hk
  refine ⟨by simp [firstK], List.nodup_range, ?_⟩
  intro p hp
  simp [firstK] at hp
  omega

/-- Two episodes of one step each.  The first is cut off by a time limit, the second terminates. -/
noncomputable def twoEpisodes : List (Event Nat Unit Unit) := [.step ⟨10, (), 1, 0, 1⟩ false true, .step ⟨20, (), 5, 0, 1⟩ true false]

theorem twoEpisodes_valid : ValidRun twoEpisodes := by
  intro x d tr h
  simp only [twoEpisodes, List.mem_cons, Event.step.injEq, List.not_mem_nil, or_false] at h
  rcases h with ⟨rfl, _⟩ | ⟨rfl, _⟩ <;> simp [Step.Valid]

/-- `v(s) = s` -/
noncomputable def vEx : VFn Unit Nat := ⟨fun _ S => S.map (fun s => (s : ℝ)), (), id, id⟩

/-- The loops of `doc/examples/stubs/dqn.py:59`, `doc/examples/pendulum/sac.py:85` and others pass `done` instead of `done or truncated` to the tracer.
Then a transition that starts in an episode that was cut off ends in the *next* episode: the target for the state 10 below is `1 + v(20)` although
20 is the state in which the next episode started. -/
theorem C88_truncation_counterexample : ∃ rows ys, ((Agent.init 1 1 10 ()).run firstK (fun done _ => done) twoEpisodes).1.target firstK id id (simpleTD vEx vEx) 2 = .ok (rows, ys) ∧
    ∃ row y, rows[0]? = some row ∧ ys[0]? = some y ∧ row.S = 10 ∧ row.S_next = some 20 ∧ y = 1 + 20 := by
  simp [twoEpisodes, Agent.init, Agent.run, Agent.event, Agent.observe, popAll, NStep.init, NStep.reset, NStep.add, NStep.bool, NStep.len, NStep.pop, fromSingle, Sys.init, Sys.add, Obj.new,
    Obj.batchSize, toSingles, trim, Agent.target, Sys.sample, firstK, List.range_succ, toTBatch, simpleTD, backup, vEx, Replay.concat]
  exact ⟨_, _, rfl, _, rfl, rfl, rfl, rfl⟩

/-- With `done or truncated` (`doc/examples/stubs/ppo.py:51`) the hypotheses of `C88_simpleTD` are met by the same two episodes, which are then two episodes for the tracer too;
the target for the state 10 is the reward alone. -/
example : episodesOf (stepsOf (fun done truncated => done || truncated) twoEpisodes) = [⟨[⟨10, (), 1, 0, 1⟩], true⟩, ⟨[⟨20, (), 5, 0, 1⟩], true⟩] ∧
    2 ≤ ((Agent.init 1 1 10 ()).run firstK (fun done truncated => done || truncated) twoEpisodes).1.sys.len ∧
    ∃ rows, ((Agent.init 1 1 10 ()).run firstK (fun done truncated => done || truncated) twoEpisodes).1.target firstK id id (simpleTD vEx vEx) 2 = .ok (rows, [1, 5]) := by
  refine ⟨by simp [episodesOf, stepsOf, twoEpisodes], ?_, ?_⟩
  · simp [twoEpisodes, Agent.init, Agent.run, Agent.event, Agent.observe, popAll, NStep.init, NStep.reset, NStep.add, NStep.bool, NStep.len, NStep.pop, fromSingle, Sys.init, Sys.add, Obj.new,
      Obj.batchSize, toSingles, trim, Sys.len, List.range_succ]
  · simp [twoEpisodes, Agent.init, Agent.run, Agent.event, Agent.observe, popAll, NStep.init, NStep.reset, NStep.add, NStep.bool, NStep.len, NStep.pop, fromSingle, Sys.init, Sys.add, Obj.new,
      Obj.batchSize, toSingles, trim, Agent.target, Sys.sample, firstK, List.range_succ, toTBatch, simpleTD, backup, vEx, Replay.concat]
    exact ⟨_, rfl⟩

end Coax.Loop
