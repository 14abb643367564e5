import Verif.Loop.OnPolicy
import Verif.Loop.DqnProps

/-! Property C99: which transitions the on-policy training loops learn from. -/

namespace Coax.Loop

open Coax.RewardTracing Coax.Replay

variable {σ α G θ Ω : Type _}

/-! ### What should hold -/

/-- The step ends an episode. -/
def Moment.ended (x : Moment σ Ω) : Bool := x.done || x.truncated

/-- The number of steps whose n-step transition is not complete yet: none at the end of an episode, otherwise at most `n`. -/
def waiting (n : Nat) (es : List (Moment σ Ω)) : Nat := es.foldl (fun w x => if x.ended then 0 else min n (w + 1)) 0

/-- What happened at a step was a round of updates. -/
def isPhase : Except Err (Option (Phase σ α θ)) → Bool
  | .ok (some _) => true
  | _ => false

/-- The number of steps up to the last round of updates, zero if there was none. -/
def lastPhase (rs : List (Except Err (Option (Phase σ α θ)))) : Nat := rs.length - (rs.reverse.takeWhile (fun r => !isPhase r)).length

/-- The parameters of the acting policy after these steps: those after the last round of updates. -/
def actingParams (b : θ) (rs : List (Except Err (Option (Phase σ α θ)))) : θ :=
  rs.foldl (fun b r => match r with | .ok (some ph) => ph.behavior' | _ => b) b

/-- The same for the parameters that are updated. -/
def learnedParams (b : θ) (rs : List (Except Err (Option (Phase σ α θ)))) : θ :=
  rs.foldl (fun b r => match r with | .ok (some ph) => ph.theta | _ => b) b

/-- The number of transitions that were complete at the last round of updates. -/
def usedBefore (n : Nat) (es : List (Moment σ Ω)) (rs : List (Except Err (Option (Phase σ α θ)))) : Nat := lastPhase rs - waiting n (es.take (lastPhase rs))

/-- `row` is the transition that starts with the step `x`, taken by the policy with the parameters `b`. -/
def TakenBy (U : Actor θ σ α Ω) (b : θ) (x : Moment σ Ω) (row : Out σ α ℝ) : Prop :=
  row.S = x.s ∧ row.A = (U.act b x.s x.ω).1 ∧ row.logP = (U.act b x.s x.ω).2 ∧ row.W = 1

/-! ### Lemmas -/

theorem waiting_snoc (n : Nat) (es : List (Moment σ Ω)) (x : Moment σ Ω) : waiting n (es ++ [x]) = if x.ended then 0 else min n (waiting n es + 1) := by
  simp [waiting]

theorem waiting_le (n : Nat) (es : List (Moment σ Ω)) : waiting n es ≤ n := by
  induction es using List.reverseRecOn with
  | nil => simp [waiting]
  | append_singleton es x _ => rw [waiting_snoc]; split <;> omega

theorem lastPhase_snoc (rs : List (Except Err (Option (Phase σ α θ)))) (r : Except Err (Option (Phase σ α θ))) :
    lastPhase (rs ++ [r]) = if isPhase r then rs.length + 1 else lastPhase rs := by
  unfold lastPhase
  rw [List.reverse_append, List.reverse_singleton, List.singleton_append, List.takeWhile_cons]
  cases isPhase r <;> simp

theorem lastPhase_le (rs : List (Except Err (Option (Phase σ α θ)))) : lastPhase rs ≤ rs.length := Nat.sub_le _ _

theorem actingParams_snoc (b : θ) (rs : List (Except Err (Option (Phase σ α θ)))) (r : Except Err (Option (Phase σ α θ))) :
    actingParams b (rs ++ [r]) = match r with | .ok (some ph) => ph.behavior' | _ => actingParams b rs := by
  simp [actingParams]

theorem learnedParams_snoc (b : θ) (rs : List (Except Err (Option (Phase σ α θ)))) (r : Except Err (Option (Phase σ α θ))) :
    learnedParams b (rs ++ [r]) = match r with | .ok (some ph) => ph.theta | _ => learnedParams b rs := by
  simp [learnedParams]

/-- Between two rounds of updates the acting policy does not change. -/
theorem actingParams_take (b : θ) (rs : List (Except Err (Option (Phase σ α θ)))) {j : Nat} (h1 : lastPhase rs ≤ j) (h2 : j ≤ rs.length) : actingParams b (rs.take j) = actingParams b rs := by
  induction rs using List.reverseRecOn with
  | nil => simp
  | append_singleton rs r ih =>
    rw [List.length_append, List.length_singleton] at h2
    rcases Nat.lt_or_ge j (rs.length + 1) with hj | hj
    · rw [lastPhase_snoc] at h1
      have hr : isPhase r = false := by
        by_contra hc
        rw [if_pos (by simpa using hc)] at h1
        omega
      rw [hr] at h1
      rw [List.take_append_of_le_length (by omega), ih (by simpa using h1) (by omega), actingParams_snoc]
      rcases r with e | (_ | ph)
      · rfl
      · rfl
      · simp [isPhase] at hr
    · rw [List.take_of_length_le (by simp; omega)]

section Main

variable {draw : G → Nat → Nat → List Nat × G} {n cap : Nat} {gamma : ℝ}

theorem popAll_len (hn : 0 < n) (hg : 0 ≤ gamma ∧ gamma ≤ 1) {eps : List (Episode σ α ℝ)} : ∀ (fuel : Nat) (a : Agent σ α G) (outs : List (Out σ α ℝ)),
    NHistory n gamma false a.tracer eps outs → (∀ e, eps.getLast? = some e → e.done = false) → min n a.tracer.len ≤ (popAll fuel a).1.tracer.len := by
  intro fuel
  induction fuel with
  | zero => intro a outs _ _; simp [popAll]
  | succ fuel ih =>
    intro a outs hN hnd
    unfold popAll
    cases hb : a.tracer.bool with
    | false => simp
    | true =>
      obtain ⟨t, o, hp, hl⟩ := (C17_pop hn hg hN).2 hb
      have hlt : n < a.tracer.len := by
        obtain ⟨_, hc⟩ := C16_no_loss_no_duplication hn hg hN
        rcases ((C17_bool hn hg hN).1 hb).2 with ⟨e, he, hd⟩ | h
        · rw [hnd e he] at hd; cases hd
        · omega
      rw [if_neg (by simp), hp]
      simp only
      generalize ({ a.sys with heap := a.sys.heap ++ [Obj.new [o]] } : Sys (Out σ α ℝ) G).add a.sys.heap.length = r
      obtain ⟨s, e⟩ := r
      cases e with
      | some e => simp only; omega
      | none =>
        simp only
        have := ih ⟨t, s⟩ (outs ++ [o]) (.pop hN hp) hnd
        simp only at this
        omega

theorem episodesOf_last (xs : List (Step σ α ℝ × Bool)) (x : Step σ α ℝ) (d : Bool) : ∃ e, (episodesOf (xs ++ [(x, d)])).getLast? = some e ∧ e.done = d := by
  rw [episodesOf_snoc]
  rcases (episodesOf xs).getLast? with _ | ⟨steps, dn⟩
  · exact ⟨_, List.getLast?_concat .., rfl⟩
  · cases dn with
    | true => exact ⟨_, List.getLast?_concat .., rfl⟩
    | false => exact ⟨_, List.getLast?_concat .., rfl⟩

theorem observe_len (hn : 0 < n) (hg : 0 ≤ gamma ∧ gamma ≤ 1) {a : Agent σ α G} {xs : List (Step σ α ℝ × Bool)} {outs log : List (Out σ α ℝ)}
    (h : Inv draw n cap gamma a xs outs log) {x : Step σ α ℝ} (hx : x.Valid) (d : Bool) :
    (a.observe x d).1.tracer.len = if d then 0 else min n (a.tracer.len + 1) := by
  obtain ⟨a', os, h1, h2⟩ := h.observe hn hg hx d
  obtain ⟨_, hc⟩ := C16_no_loss_no_duplication hn hg h2.traced
  have hb := (C17_bool hn hg h2.traced).not.1 (by rw [h2.idle]; simp)
  obtain ⟨e, he, hed⟩ := episodesOf_last xs x d
  have hadd := (C17_add hn hg h.traced x d).2 (by
    rintro ⟨hd, hlt⟩
    have := (C17_bool hn hg h.traced).2 ⟨hlt, .inl hd⟩
    rw [h.idle] at this
    cases this)
  cases d with
  | true =>
    rw [h1]
    simp only [if_true]
    by_contra hne
    exact hb ⟨by omega, .inl ⟨e, he, hed⟩⟩
  | false =>
    have hle : (a.observe x false).1.tracer.len ≤ n := by
      rw [h1]
      simp only
      by_contra hgt
      exact hb ⟨by omega, .inr (by omega)⟩
    have hN' : NHistory n gamma false (a.tracer.add x false).1 (episodesOf (xs ++ [(x, false)])) outs := by
      have ht : a.tracer.add x false = ((a.tracer.add x false).1, none) := by rw [← hadd.1]
      rw [episodesOf_snoc]
      rcases hl : (episodesOf xs).getLast? with _ | ⟨steps, dn⟩
      · exact .addFirst x false h.traced (by rw [hl]; simp) hx ht
      · cases dn with
        | true => exact .addFirst x false h.traced (by rw [hl]; simp) hx ht
        | false =>
          have e := List.dropLast_append_getLast? _ hl
          refine .addNext (steps := steps) x false ?_ hx ht
          rw [e]; exact h.traced
    have hge : min n (a.tracer.len + 1) ≤ (a.observe x false).1.tracer.len := by
      have hobs : a.observe x false = popAll ((a.tracer.add x false).1.len + 1) { a with tracer := (a.tracer.add x false).1 } := by
        unfold Agent.observe
        rw [show a.tracer.add x false = ((a.tracer.add x false).1, none) by rw [← hadd.1]]
      rw [hobs]
      have := popAll_len hn hg ((a.tracer.add x false).1.len + 1) { a with tracer := (a.tracer.add x false).1 } outs hN' (fun e' he' => by rw [he] at he'; cases he'; exact hed)
      simp only [hadd.2] at this
      simpa [hadd.2] using this
    have hup : (a.observe x false).1.tracer.len ≤ a.tracer.len + 1 := by
      obtain ⟨_, hc0⟩ := C16_no_loss_no_duplication hn hg h.traced
      rw [h1]
      simp only
      rw [allSteps_episodesOf, List.length_map] at hc hc0
      simp only [List.length_append, List.length_singleton] at hc
      omega
    simp only [Bool.false_eq_true, if_false]
    omega

/-- The loop over minibatches succeeds, and each minibatch consists of transitions at different positions of the buffer. -/
theorem minibatches_ok (hd : DrawsDistinct draw) (U : Actor θ σ α Ω) {k : Nat} (hk : 1 ≤ k) {log : List (Out σ α ℝ)} : ∀ (m : Nat) (s : Sys (Out σ α ℝ) G) (th : θ),
    History draw cap s log → k ≤ s.len → ∃ s' th' bs, minibatches U draw k m s th = .ok (s', th', bs) ∧ History draw cap s' log ∧ bs.length = m ∧ th' = bs.foldl U.update th ∧
      ∀ b ∈ bs, ∃ pos : List Nat, pos.length = k ∧ pos.Nodup ∧ List.Forall₂ (fun p row => (lastN cap log)[p]? = some row) pos b := by
  intro m
  induction m with
  | zero => intro s th h _; exact ⟨s, th, [], rfl, h, rfl, rfl, by simp⟩
  | succ m ih =>
    intro s th h hle
    obtain ⟨pos, entries, h1, h2, h3, h4⟩ := C09_sample hd h hk hle
    have hs := History.sample (k : Int) h
    have hl := (C09_sample_effects (draw := draw) hd s k).2.2.2
    obtain ⟨s', th', bs, e1, e2, e3, e4, e5⟩ := ih (s.sample draw k).1 (U.update th (entries.map (·.1))) hs (by rw [hl]; exact hle)
    refine ⟨s', th', entries.map (·.1) :: bs, ?_, e2, by simp [e3], by simp [e4], ?_⟩
    · unfold minibatches
      generalize s.sample draw k = r at h4 e1
      obtain ⟨s1, o⟩ := r
      simp only at h4
      subst h4
      simp only at e1 ⊢
      rw [e1]
    · intro b hb
      rcases List.mem_cons.1 hb with rfl | hb
      · refine ⟨pos, h1, h2, ?_⟩
        rw [List.forall₂_map_right_iff]
        refine h3.imp ?_
        intro p e he
        simp only [lastN, List.length_zipIdx, List.getElem?_drop, List.getElem?_zipIdx, Nat.zero_add] at he ⊢
        generalize log[log.length - cap + p]? = y at he
        cases y with
        | none => cases he
        | some y => cases he; rfl
      · exact e5 b hb

/-- What holds after every step of the loop. -/
structure OInv (U : Actor θ σ α Ω) (draw : G → Nat → Nat → List Nat × G) (n cap : Nat) (gamma : ℝ) (th : θ) (a : OAgent σ α G θ) (es : List (Moment σ Ω))
    (rs : List (Except Err (Option (Phase σ α θ)))) (xs : List (Step σ α ℝ × Bool)) (outs log : List (Out σ α ℝ)) : Prop where
  inv : Inv draw n cap gamma a.agent xs outs log
  xlen : xs.length = es.length
  taken : ∀ (j : Nat) (x : Moment σ Ω), es[j]? = some x → xs[j]? = some (⟨x.s, (U.act (actingParams th (rs.take j)) x.s x.ω).1, x.r, (U.act (actingParams th (rs.take j)) x.s x.ω).2, 1⟩, x.ended)
  rlen : rs.length = es.length
  oks : ∀ r ∈ rs, ∃ o, r = .ok o
  acting : a.behavior = actingParams th rs
  learned : a.theta = learnedParams th rs
  wait : a.agent.tracer.len = waiting n es
  log_eq : log = outs.drop (usedBefore n es rs)
  used : usedBefore n es rs ≤ outs.length
  small : log.length < cap

theorem usedBefore_snoc_none {n : Nat} {es : List (Moment σ Ω)} {x : Moment σ Ω} {rs : List (Except Err (Option (Phase σ α θ)))} (h : rs.length = es.length) :
    usedBefore n (es ++ [x]) (rs ++ [.ok none]) = usedBefore n es rs := by
  unfold usedBefore
  rw [lastPhase_snoc]
  simp only [isPhase, Bool.false_eq_true, if_false]
  rw [List.take_append_of_le_length (h ▸ lastPhase_le rs)]

theorem usedBefore_snoc_some {n : Nat} {es : List (Moment σ Ω)} {x : Moment σ Ω} {rs : List (Except Err (Option (Phase σ α θ)))} (h : rs.length = es.length) (ph : Phase σ α θ) :
    usedBefore n (es ++ [x]) (rs ++ [.ok (some ph)]) = es.length + 1 - waiting n (es ++ [x]) := by
  unfold usedBefore
  rw [lastPhase_snoc]
  simp only [isPhase, if_true]
  rw [h, List.take_of_length_le (by simp)]

/-- The facts about a round of updates. -/
structure PhaseOk (U : Actor θ σ α Ω) (n cap k passes : Nat) (th : θ) (es : List (Moment σ Ω)) (rs : List (Except Err (Option (Phase σ α θ)))) (x : Moment σ Ω) (ph : Phase σ α θ) : Prop where
  acting : ph.behavior = actingParams th rs
  learned : ph.theta = ph.batches.foldl U.update (learnedParams th rs)
  synced : ph.behavior' = U.sync ph.behavior ph.theta
  count : ph.batches.length = passes * cap / k
  rows : ∃ (c : Nat) (rows : List (Out σ α ℝ)), c + cap + waiting n (es ++ [x]) = es.length + 1 ∧ usedBefore n es rs ≤ c ∧ c ≤ usedBefore n es rs + n ∧ (x.ended = false → c = usedBefore n es rs) ∧
    rows.length = cap ∧ ph.contents.map (Option.map (·.rows)) = rows.map (fun row => some [row]) ∧
    (∀ (j : Nat) (row : Out σ α ℝ) (y : Moment σ Ω), rows[j]? = some row → (es ++ [x])[c + j]? = some y → TakenBy U (actingParams th (rs.take (c + j))) y row) ∧
    ∀ b ∈ ph.batches, ∃ pos : List Nat, pos.length = k ∧ pos.Nodup ∧ List.Forall₂ (fun p row => rows[p]? = some row) pos b

theorem OInv.step {U : Actor θ σ α Ω} (hU : ∀ th s ω, (U.act th s ω).2 ≤ 0) (hd : DrawsDistinct draw) (hn : 0 < n) (hg : 0 ≤ gamma ∧ gamma ≤ 1) {k : Nat} (hk : 1 ≤ k) (hkc : k ≤ cap) (passes : Nat)
    {th : θ} {a : OAgent σ α G θ} {es : List (Moment σ Ω)} {rs : List (Except Err (Option (Phase σ α θ)))} {xs : List (Step σ α ℝ × Bool)} {outs log : List (Out σ α ℝ)}
    (h : OInv U draw n cap gamma th a es rs xs outs log) (x : Moment σ Ω) :
    ∃ a' r xs' outs' log', a.step U draw passes k x = (a', r) ∧ OInv U draw n cap gamma th a' (es ++ [x]) (rs ++ [r]) xs' outs' log' ∧
      (isPhase r = true ↔ cap ≤ es.length + 1 - waiting n (es ++ [x]) - usedBefore n es rs) ∧ ∀ ph, r = .ok (some ph) → PhaseOk U n cap k passes th es rs x ph := by
  have hx : (⟨x.s, (U.act a.behavior x.s x.ω).1, x.r, (U.act a.behavior x.s x.ω).2, 1⟩ : Step σ α ℝ).Valid := ⟨hU _ _ _, one_pos⟩
  obtain ⟨ag, os, e1, hI⟩ := h.inv.observe hn hg hx x.ended
  have hlen := observe_len hn hg h.inv hx x.ended
  rw [e1, h.wait, ← waiting_snoc] at hlen
  simp only at hlen
  obtain ⟨hstart, hc⟩ := C16_no_loss_no_duplication hn hg hI.traced
  obtain ⟨_, hc0⟩ := C16_no_loss_no_duplication hn hg h.inv.traced
  rw [allSteps_episodesOf] at hstart
  rw [allSteps_episodesOf, List.length_map] at hc hc0
  rw [List.length_append, List.length_append, List.length_singleton, h.xlen, hlen] at hc
  rw [h.xlen, h.wait] at hc0
  have hlog : log ++ os = (outs ++ os).drop (usedBefore n es rs) := by rw [List.drop_append_of_le_length h.used, h.log_eq]
  have hloglen : log.length + usedBefore n es rs = outs.length := by
    have := h.used
    have e := congrArg List.length h.log_eq
    rw [List.length_drop] at e
    omega
  have hwle := waiting_le n es
  have hos : os.length ≤ n + 1 ∧ (x.ended = false → os.length ≤ 1) := by
    rw [waiting_snoc] at hc
    refine ⟨by split at hc <;> omega, fun he => ?_⟩
    rw [he] at hc
    simp only [Bool.false_eq_true, if_false] at hc
    omega
  have hcap : ag.sys.buf.capacity = cap := (hI.stored.holds (by omega)).cap_eq
  have hblen := (C08_keeps_most_recent hI.stored).2.1
  have htaken : ∀ (r : Except Err (Option (Phase σ α θ))) (j : Nat) (y : Moment σ Ω), (es ++ [x])[j]? = some y →
      (xs ++ [(⟨x.s, (U.act a.behavior x.s x.ω).1, x.r, (U.act a.behavior x.s x.ω).2, 1⟩, x.ended)])[j]? =
        some (⟨y.s, (U.act (actingParams th ((rs ++ [r]).take j)) y.s y.ω).1, y.r, (U.act (actingParams th ((rs ++ [r]).take j)) y.s y.ω).2, 1⟩, y.ended) := by
    intro r j y hy
    have hj := (List.getElem?_eq_some_iff.1 hy).1
    rw [List.length_append, List.length_singleton] at hj
    rcases Nat.lt_or_ge j es.length with hlt | hge
    · rw [List.getElem?_append_left hlt] at hy
      rw [List.getElem?_append_left (by rw [h.xlen]; exact hlt), h.taken j y hy, List.take_append_of_le_length (by rw [h.rlen]; omega)]
    · obtain rfl : j = es.length := by omega
      rw [List.getElem?_append_right (by omega), Nat.sub_self, List.getElem?_cons_zero] at hy
      cases hy
      rw [List.getElem?_append_right (by rw [h.xlen]), h.xlen, Nat.sub_self, List.getElem?_cons_zero, List.take_append_of_le_length (by rw [h.rlen]), List.take_of_length_le (by rw [h.rlen]), h.acting]
  by_cases hfull : cap ≤ (log ++ os).length
  · have hlencap : (ag.sys.len : Int) = ag.sys.buf.capacity := by rw [hblen, hcap, Nat.min_eq_left hfull]
    obtain ⟨s', th', bs, m1, m2, m3, m4, m5⟩ := minibatches_ok hd U hk (passes * ag.sys.buf.capacity.toNat / k) ag.sys a.theta hI.stored (by rw [hblen, Nat.min_eq_left hfull]; exact hkc)
    have hstep : a.step U draw passes k x = ({ agent := { ag with sys := s'.clear }, theta := th', behavior := U.sync a.behavior th' },
          .ok (some { contents := ag.sys.iter, batches := bs, behavior := a.behavior, theta := th', behavior' := U.sync a.behavior th' })) := by
      unfold OAgent.step
      rw [show (x.done || x.truncated) = x.ended from rfl, e1]
      simp only
      rw [if_pos hlencap, m1]
    refine ⟨_, _, xs ++ [_], outs ++ os, [], hstep, ⟨⟨hI.traced, .clear m2, List.nil_suffix, hI.idle⟩, by simp [h.xlen], htaken _, by simp [h.rlen], ?_, ?_, ?_, hlen, ?_, ?_, ?_⟩, ?_, ?_⟩
    · intro r hr
      rcases List.mem_append.1 hr with hr | hr
      · exact h.oks r hr
      · rw [List.mem_singleton] at hr; exact ⟨_, hr⟩
    · rw [actingParams_snoc]
    · rw [learnedParams_snoc]
    · rw [usedBefore_snoc_some h.rlen, List.drop_eq_nil_of_le]
      rw [List.length_append]; omega
    · rw [usedBefore_snoc_some h.rlen, List.length_append]; omega
    · simp; omega
    · simp only [isPhase, true_iff]
      rw [List.length_append] at hfull
      omega
    · intro ph hph
      injection hph with hph
      injection hph with hph
      subst hph
      refine ⟨h.acting, by rw [m4, h.learned], rfl, by rw [m3, hcap, Int.toNat_natCast], (log ++ os).length - cap + usedBefore n es rs, lastN cap (log ++ os), ?_, ?_, ?_, ?_, ?_, ?_, ?_, m5⟩
      · rw [List.length_append] at hfull ⊢; omega
      · omega
      · have := h.small
        rw [List.length_append]
        omega
      · intro he
        have := h.small
        have := hos.2 he
        rw [List.length_append]
        omega
      · rw [lastN, List.length_drop]; omega
      · rw [(C08_keeps_most_recent hI.stored).1, List.map_map]
        have hz : (lastN cap (log ++ os).zipIdx).map (·.1) = lastN cap (log ++ os) := by
          simp [lastN, List.map_drop]
        rw [← hz, List.map_map]
        rfl
      · intro j row y hrow hy
        have hget : (outs ++ os)[(log ++ os).length - cap + usedBefore n es rs + j]? = some row := by
          rw [lastN, List.getElem?_drop, hlog, List.getElem?_drop, ← hlog] at hrow
          rw [← hrow]
          congr 1
          omega
        have hjj := (List.getElem?_eq_some_iff.1 hget).1
        have hst : (((outs ++ os).map Out.start)[(log ++ os).length - cap + usedBefore n es rs + j]?) = some row.start := by rw [List.getElem?_map, hget]; rfl
        rw [hstart, List.getElem?_map, List.getElem?_take_of_lt hjj, List.getElem?_map, htaken (.ok none) _ y hy] at hst
        simp only [Option.map_some, Option.some.injEq, Step.start, Out.start, Prod.mk.injEq] at hst
        have hlt : (log ++ os).length - cap + usedBefore n es rs + j ≤ rs.length := by
          have := (List.getElem?_eq_some_iff.1 hy).1
          simp only [List.length_append, List.length_singleton] at this ⊢
          rw [h.rlen]; omega
        rw [List.take_append_of_le_length hlt] at hst
        exact ⟨hst.1.symm, hst.2.1.symm, hst.2.2.1.symm, hst.2.2.2.symm⟩
  · have hlencap : ¬ (ag.sys.len : Int) = ag.sys.buf.capacity := by rw [hblen, hcap]; omega
    have hstep : a.step U draw passes k x = ({ a with agent := ag }, .ok none) := by
      unfold OAgent.step
      rw [show (x.done || x.truncated) = x.ended from rfl, e1]
      simp only
      rw [if_neg hlencap]
    refine ⟨_, _, xs ++ [_], outs ++ os, log ++ os, hstep, ⟨hI, by simp [h.xlen], htaken _, by simp [h.rlen], ?_, ?_, ?_, hlen, ?_, ?_, by omega⟩, ?_, ?_⟩
    · intro r hr
      rcases List.mem_append.1 hr with hr | hr
      · exact h.oks r hr
      · rw [List.mem_singleton] at hr; exact ⟨_, hr⟩
    · rw [actingParams_snoc]; exact h.acting
    · rw [learnedParams_snoc]; exact h.learned
    · rw [usedBefore_snoc_none h.rlen, hlog]
    · rw [usedBefore_snoc_none h.rlen, List.length_append]; have := h.used; omega
    · simp only [isPhase, Bool.false_eq_true, false_iff]
      rw [List.length_append] at hfull
      omega
    · intro ph hph
      injection hph with hph
      cases hph

theorem run_snoc (U : Actor θ σ α Ω) (passes k : Nat) (a : OAgent σ α G θ) (es : List (Moment σ Ω)) (x : Moment σ Ω) :
    a.run U draw passes k (es ++ [x]) = (((a.run U draw passes k es).1.step U draw passes k x).1, (a.run U draw passes k es).2 ++ [((a.run U draw passes k es).1.step U draw passes k x).2]) := by
  simp [OAgent.run]

theorem orun {U : Actor θ σ α Ω} (hU : ∀ th s ω, (U.act th s ω).2 ≤ 0) (hd : DrawsDistinct draw) (hn : 0 < n) (hg : 0 ≤ gamma ∧ gamma ≤ 1) {k : Nat} (hk : 1 ≤ k) (hkc : k ≤ cap) (passes : Nat)
    (g : G) (th : θ) (es : List (Moment σ Ω)) :
    ∃ xs outs log, OInv U draw n cap gamma th ((OAgent.init n gamma cap g th).run U draw passes k es).1 es ((OAgent.init n gamma cap g th).run U draw passes k es).2 xs outs log := by
  induction es using List.reverseRecOn with
  | nil => exact ⟨[], [], [], Inv.init g, rfl, by simp, rfl, by simp [OAgent.run], rfl, rfl, by simp [OAgent.run, OAgent.init, Agent.init, NStep.init, NStep.reset, NStep.len, waiting], by simp, by simp [usedBefore, OAgent.run, lastPhase], by simp; omega⟩
  | append_singleton es x ih =>
    obtain ⟨xs, outs, log, h⟩ := ih
    obtain ⟨a', r, xs', outs', log', h1, h2, _⟩ := h.step hU hd hn hg hk hkc passes x
    rw [run_snoc, h1]
    exact ⟨xs', outs', log', h2⟩

/-! ### C99 -/

variable {U : Actor θ σ α Ω} {k passes : Nat}

/-- C99, errors.  The loop does not raise, for any number of steps and episodes. -/
theorem C99_no_errors (hU : ∀ th s ω, (U.act th s ω).2 ≤ 0) (hd : DrawsDistinct draw) (hn : 0 < n) (hg : 0 ≤ gamma ∧ gamma ≤ 1) (hk : 1 ≤ k) (hkc : k ≤ cap) (passes : Nat)
    (g : G) (th : θ) (es : List (Moment σ Ω)) :
    ((OAgent.init n gamma cap g th : OAgent σ α G θ).run U draw passes k es).2.length = es.length ∧ ∀ r ∈ ((OAgent.init n gamma cap g th : OAgent σ α G θ).run U draw passes k es).2, ∃ o, r = .ok o := by
  obtain ⟨xs, outs, log, h⟩ := orun hU hd hn hg hk hkc passes g th es
  exact ⟨h.rlen, h.oks⟩

/-- C99, when a round of updates takes place: as soon as `capacity` transitions have been completed since the last round. -/
theorem C99_when (hU : ∀ th s ω, (U.act th s ω).2 ≤ 0) (hd : DrawsDistinct draw) (hn : 0 < n) (hg : 0 ≤ gamma ∧ gamma ≤ 1) (hk : 1 ≤ k) (hkc : k ≤ cap) (passes : Nat)
    (g : G) (th : θ) (es : List (Moment σ Ω)) (x : Moment σ Ω) (rs : List (Except Err (Option (Phase σ α θ)))) (hrs : rs = ((OAgent.init n gamma cap g th).run U draw passes k es).2) :
    (∃ ph, (((OAgent.init n gamma cap g th).run U draw passes k es).1.step U draw passes k x).2 = .ok (some ph)) ↔
      cap ≤ (es.length + 1 - waiting n (es ++ [x])) - (lastPhase rs - waiting n (es.take (lastPhase rs))) := by
  obtain ⟨xs, outs, log, h⟩ := orun hU hd hn hg hk hkc passes g th es
  obtain ⟨a', r, xs', outs', log', h1, h2, h3, h4⟩ := h.step hU hd hn hg hk hkc passes x
  subst hrs
  rw [h1]
  refine Iff.trans ?_ h3
  rcases r with e | (_ | ph) <;> simp [isPhase]

/-- C99, rounds of updates.  In a round of updates, the buffer holds the transitions of `capacity` consecutive steps, each with the action and the log-propensity of the policy that was acting when
the step was taken.  This is the present acting policy, except possibly for the first `n` of them; there is no exception after a round at the end of an episode, nor in the first round.
No transition is in two rounds.  Each minibatch consists of different transitions of the buffer, and the new parameters are those after updates with these minibatches. -/
theorem C99_rounds_partial (hU : ∀ th s ω, (U.act th s ω).2 ≤ 0) (hd : DrawsDistinct draw) (hn : 0 < n) (hg : 0 ≤ gamma ∧ gamma ≤ 1) (hk : 1 ≤ k) (hkc : k ≤ cap) (passes : Nat)
    (g : G) (th : θ) (es : List (Moment σ Ω)) (x : Moment σ Ω) (rs : List (Except Err (Option (Phase σ α θ)))) (hrs : rs = ((OAgent.init n gamma cap g th).run U draw passes k es).2)
    {ph : Phase σ α θ} (hph : (((OAgent.init n gamma cap g th).run U draw passes k es).1.step U draw passes k x).2 = .ok (some ph)) :
    ph.behavior = actingParams th rs ∧ ph.batches.length = passes * cap / k ∧ ph.theta = ph.batches.foldl U.update (learnedParams th rs) ∧ ph.behavior' = U.sync ph.behavior ph.theta ∧
    ∃ (c : Nat) (rows : List (Out σ α ℝ)), c + cap + waiting n (es ++ [x]) = es.length + 1 ∧ lastPhase rs - waiting n (es.take (lastPhase rs)) ≤ c ∧
      rows.length = cap ∧ ph.contents.map (Option.map (·.rows)) = rows.map (fun row => some [row]) ∧
      (∀ (j : Nat) (row : Out σ α ℝ) (y : Moment σ Ω), rows[j]? = some row → (es ++ [x])[c + j]? = some y →
        TakenBy U (actingParams th (rs.take (c + j))) y row ∧ (n ≤ j ∨ waiting n (es.take (lastPhase rs)) = 0 → TakenBy U ph.behavior y row)) ∧
      ∀ b ∈ ph.batches, ∃ pos : List Nat, pos.length = k ∧ pos.Nodup ∧ List.Forall₂ (fun p row => rows[p]? = some row) pos b := by
  obtain ⟨xs, outs, log, h⟩ := orun hU hd hn hg hk hkc passes g th es
  obtain ⟨a', r, xs', outs', log', h1, h2, h3, h4⟩ := h.step hU hd hn hg hk hkc passes x
  subst hrs
  rw [h1] at hph
  obtain ⟨p1, p2, p3, p4, c, rows, q1, q2, q3, q4, q5, q6, q7, q8⟩ := h4 ph hph
  refine ⟨p1, p4, p2, p3, c, rows, q1, q2, q5, q6, ?_, q8⟩
  intro j row y hrow hy
  have ht := q7 j row y hrow hy
  refine ⟨ht, fun hj => ?_⟩
  have hlt := (List.getElem?_eq_some_iff.1 hy).1
  rw [List.length_append, List.length_singleton] at hlt
  have hw := waiting_le n (es.take (lastPhase ((OAgent.init n gamma cap g th).run U draw passes k es).2))
  unfold usedBefore at q2
  rw [actingParams_take th _ (by omega) (by rw [h.rlen]; omega), ← p1] at ht
  exact ht

/-- C99, lost transitions.  At most `n` transitions are completed without being part of a round, and none unless the round takes place at the end of an episode. -/
theorem C99_lost_partial (hU : ∀ th s ω, (U.act th s ω).2 ≤ 0) (hd : DrawsDistinct draw) (hn : 0 < n) (hg : 0 ≤ gamma ∧ gamma ≤ 1) (hk : 1 ≤ k) (hkc : k ≤ cap) (passes : Nat)
    (g : G) (th : θ) (es : List (Moment σ Ω)) (x : Moment σ Ω) (rs : List (Except Err (Option (Phase σ α θ)))) (hrs : rs = ((OAgent.init n gamma cap g th).run U draw passes k es).2)
    {ph : Phase σ α θ} (hph : (((OAgent.init n gamma cap g th).run U draw passes k es).1.step U draw passes k x).2 = .ok (some ph)) :
    es.length + 1 - waiting n (es ++ [x]) ≤ (lastPhase rs - waiting n (es.take (lastPhase rs))) + cap + n ∧
    (x.ended = false → es.length + 1 - waiting n (es ++ [x]) = (lastPhase rs - waiting n (es.take (lastPhase rs))) + cap) := by
  obtain ⟨xs, outs, log, h⟩ := orun hU hd hn hg hk hkc passes g th es
  obtain ⟨a', r, xs', outs', log', h1, h2, h3, h4⟩ := h.step hU hd hn hg hk hkc passes x
  subst hrs
  rw [h1] at hph
  obtain ⟨p1, p2, p3, p4, c, rows, q1, q2, q3, q4, q5, q6, q7, q8⟩ := h4 ph hph
  unfold usedBefore at q2 q3 q4
  exact ⟨by omega, fun he => by have := q4 he; omega⟩

end Main

/-! ### Counterexamples -/

/-- A policy whose actions are its parameters; each minibatch adds one to the parameters, and the updated policy itself is acting (as in A2C). -/
def exActor : Actor Nat Nat Nat Unit where
  act b _ _ := (b, 0)
  update th _ := th + 1
  sync _ th := th

/-- C99, a stale transition: `n = 1`, capacity 1.  The round at step 1 (the second one) changes the parameters from 0 to 1, but the round at step 2 is about the action 0 which the policy took in state 1 with
the parameters 0. -/
theorem C99_stale_counterexample : ∃ ph row, ((OAgent.init 1 1 1 () 0).run exActor firstK 1 1 [⟨0, (), 0, false, false⟩, ⟨1, (), 0, false, false⟩, ⟨2, (), 0, false, false⟩]).2[2]? = some (.ok (some ph)) ∧
    ph.contents.map (Option.map (·.rows)) = [some [row]] ∧ row.S = 1 ∧ row.A = 0 ∧ ph.behavior = 1 := by
  simp [OAgent.init, OAgent.run, OAgent.step, exActor, Agent.init, Agent.observe, popAll, NStep.init, NStep.reset, NStep.add, NStep.bool, NStep.len, NStep.pop, fromSingle, Sys.init, Sys.add, Obj.new,
    Obj.batchSize, toSingles, trim, Sys.sample, firstK, List.range_succ, Replay.concat, Sys.len, Sys.iter, Sys.clear, minibatches, not_le.2 (one_pos : (0 : ℝ) < 1)]

/-- C99, a lost transition: an episode of two steps with `n = 1` and capacity 1.  Both transitions are completed at the end of the episode, but the only round is about the second one. -/
theorem C99_lost_counterexample : ∃ ph row, ((OAgent.init 1 1 1 () 0).run exActor firstK 1 1 [⟨0, (), 0, false, false⟩, ⟨1, (), 0, true, false⟩]).2 = [.ok none, .ok (some ph)] ∧
    ph.contents.map (Option.map (·.rows)) = [some [row]] ∧ row.S = 1 ∧
    ((OAgent.init 1 1 1 () 0).run exActor firstK 1 1 [⟨0, (), 0, false, false⟩, ⟨1, (), 0, true, false⟩]).1.agent.sys.len = 0 ∧
    ((OAgent.init 1 1 1 () 0).run exActor firstK 1 1 [⟨0, (), 0, false, false⟩, ⟨1, (), 0, true, false⟩]).1.agent.tracer.len = 0 := by
  simp [OAgent.init, OAgent.run, OAgent.step, exActor, Agent.init, Agent.observe, popAll, NStep.init, NStep.reset, NStep.add, NStep.bool, NStep.len, NStep.pop, fromSingle, Sys.init, Sys.add, Obj.new,
    Obj.batchSize, toSingles, trim, Sys.sample, firstK, List.range_succ, Replay.concat, Sys.len, Sys.iter, Sys.clear, minibatches, not_le.2 (one_pos : (0 : ℝ) < 1)]

/-- The hypotheses of the theorems are met, also with a round of updates. -/
example : (∀ th s ω, (exActor.act th s ω).2 ≤ 0) ∧ DrawsDistinct firstK ∧
    ∃ ph, (((OAgent.init 1 1 1 () 0).run exActor firstK 1 1 [⟨0, (), 0, false, false⟩]).1.step exActor firstK 1 1 ⟨1, (), 0, false, false⟩).2 = .ok (some ph) := by
  refine ⟨fun _ _ _ => le_refl _, firstK_distinct, ?_⟩
  simp [OAgent.init, OAgent.run, OAgent.step, exActor, Agent.init, Agent.observe, popAll, NStep.init, NStep.reset, NStep.add, NStep.bool, NStep.len, NStep.pop, fromSingle, Sys.init, Sys.add, Obj.new,
    Obj.batchSize, toSingles, trim, Sys.sample, firstK, List.range_succ, Replay.concat, Sys.len, Sys.iter, Sys.clear, minibatches, not_le.2 (one_pos : (0 : ℝ) < 1)]

end Coax.Loop
