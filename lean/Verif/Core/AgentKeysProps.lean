import Verif.Core.AgentLoopsProps

/-! Property C120, random keys of the objects of an agent. -/

namespace Coax.Agent

open Coax.Core Coax.TD

set_option linter.unusedSectionVars false

variable {K C M B : Type _} [Field K]

theorem Draws.back {isInstance : C → C → Bool} {w w1 w' : World K C M B} {op : Op K C M B} {o : Out K M} (h : step isInstance w op = some (w1, o)) (he : Extends w w') {i : Nat} (hd : Draws w' op i) : Draws w op i := by
  cases hd with
  | seed i s => exact .seed i s
  | use i => exact .use i
  | useDerived j d hd =>
    simp only [step, keyOf, Option.bind_eq_some_iff, Option.map_eq_some_iff] at h
    obtain ⟨_, ⟨d0, hd0, -⟩, -⟩ := h
    obtain ⟨d', hd', -, hq⟩ := he.derived j d0 hd0
    rw [hd] at hd'; cases hd'
    rw [hq]; exact .useDerived j d0 hd0
  | update k u b i hu ht =>
    obtain ⟨u0, -, -, hu0, -⟩ := step_update h
    obtain ⟨u', hu', hc⟩ := he.updaters k u0 hu0
    rw [hu] at hu'; cases hu'
    exact .update k u0 b i hu0 (by rw [← hc.1]; exact ht)
  | tdError k u b i hu ht =>
    simp only [step, Option.bind_eq_some_iff] at h
    obtain ⟨u0, hu0, -⟩ := h
    obtain ⟨u', hu', hc⟩ := he.updaters k u0 hu0
    rw [hu] at hu'; cases hu'
    exact .tdError k u0 b i hu0 (by rw [← hc.1]; exact ht)

theorem outcome_rng {u u' : UpdaterObj K M B} {n n' : Net K C} {g : Given K} {b : B} {out : Out K M} (h : Outcome u n g b out n' u') : n'.rng = ⟨n.rng.randomSeed, .fst n.rng.randomKey⟩ := by
  cases h <;> rfl

/-- C120.  An operation that takes a key from a function gets the second part of the split key, and the function keeps the first part. -/
theorem C120_draw {isInstance : C → C → Bool} {w w1 : World K C M B} {op : Op K C M B} {o : Out K M} (h : step isInstance w op = some (w1, o)) {i : Nat} {n : Net K C} (hn : w.nets[i]? = some n)
    (hs : ∀ s, op ≠ .seed i s) (hd : Draws w op i) : (∃ n1, w1.nets[i]? = some n1 ∧ n1.rng = ⟨n.rng.randomSeed, .fst n.rng.randomKey⟩) ∧
      (∀ f, op = .use f → ∃ p fs, o = .used p fs (.snd n.rng.randomKey)) ∧
      (∀ k b, op = .tdError k b → ∃ u g, w.updaters[k]? = some u ∧ IsGiven w u.wiring n g ∧ ((∃ e, u.compute g b = .error e ∧ o = .error e) ∨ ∃ gr fs m, u.compute g b = .ok (gr, fs, m) ∧ o = .metrics m)) := by
  cases hd with
  | seed i s => exact absurd rfl (hs s)
  | use i =>
    simp only [step, keyOf, Option.bind_eq_some_iff, Option.map_eq_some_iff, Option.some.injEq, Prod.mk.injEq] at h
    obtain ⟨_, rfl, n0, hn0, v, hv, rfl, rfl⟩ := h
    rw [hn] at hn0; cases hn0
    exact ⟨⟨_, get_set hn _, rfl⟩, fun f _ => ⟨_, _, rfl⟩, fun k b hb => by cases hb⟩
  | useDerived j d hd =>
    simp only [step, keyOf, Option.bind_eq_some_iff, Option.map_eq_some_iff, Prod.mk.injEq] at h
    obtain ⟨_, ⟨d0, hd0, rfl⟩, n0, hn0, v, hv, rfl, rfl⟩ := h
    rw [hd] at hd0; cases hd0
    rw [hn] at hn0; cases hn0
    exact ⟨⟨_, get_set hn _, rfl⟩, fun f _ => ⟨_, _, rfl⟩, fun k b hb => by cases hb⟩
  | update k u b i hu ht =>
    obtain ⟨u0, n0, t, hu0, hn0, -, rfl, rfl⟩ := step_update h
    rw [hu] at hu0; cases hu0
    obtain rfl := (trains_iff _ _).1 ht
    rw [hn] at hn0; cases hn0
    exact ⟨⟨_, get_set hn _, outcome_rng (updateWith_outcome u n t b)⟩, fun f hf => (by cases hf), fun k b hb => (by cases hb)⟩
  | tdError k u b i hu ht =>
    simp only [step, Option.bind_eq_some_iff, Option.map_eq_some_iff, Prod.mk.injEq] at h
    obtain ⟨u0, hu0, n0, hn0, t, htt, rfl, rfl⟩ := h
    rw [hu] at hu0; cases hu0
    obtain rfl := (trains_iff _ _).1 ht
    rw [hn] at hn0; cases hn0
    refine ⟨⟨_, get_set hn _, rfl⟩, fun f hf => (by cases hf), fun k' b' hb => ?_⟩
    cases hb
    refine ⟨u, _, hu, targets_given hn htt, ?_⟩
    unfold tdErrorWith
    dsimp only
    split
    · rename_i e he; exact .inl ⟨e, he, rfl⟩
    · rename_i gr fs m he; exact .inr ⟨gr, fs, m, he, rfl⟩

open Classical in
/-- C120.  In a program that does not seed function `i` again, its key after the program is that before the program, split once for each operation that took a key from it; and the
key that a call of it, or of a policy derived from it, gets depends only on how many such operations there were before. -/
theorem C120_key_chain {isInstance : C → C → Bool} {w w' : World K C M B} {ops : List (Op K C M B)} {outs : List (Out K M)} (h : run isInstance w ops = some (w', outs))
    {i : Nat} {n : Net K C} (hn : w.nets[i]? = some n) (hs : ∀ s, Op.seed i s ∉ ops) :
    (∃ n', w'.nets[i]? = some n' ∧ n'.rng = ⟨n.rng.randomSeed, Key.fst^[ops.countP fun op => Draws w' op i] n.rng.randomKey⟩) ∧
    ∀ (t : Nat) (f : Fn), ops[t]? = some (.use f) → Draws w' (.use f) i →
      ∃ p fs, outs[t]? = some (.used p fs (.snd (Key.fst^[(ops.take t).countP fun op => Draws w' op i] n.rng.randomKey))) := by
  induction ops generalizing w outs n with
  | nil =>
    simp only [run, Option.some.injEq, Prod.mk.injEq] at h
    obtain ⟨rfl, -⟩ := h
    exact ⟨⟨n, hn, rfl⟩, fun t f ht => by simp at ht⟩
  | cons op ops ih =>
    obtain ⟨w1, o, os, h1, h2, rfl⟩ := run_cons h
    have hsp := step_spec h1
    have he := hsp.extends.trans (C120_references h2)
    have hs' : ∀ s, Op.seed i s ∉ ops := fun s hm => hs s (List.mem_cons_of_mem _ hm)
    have hs0 : ∀ s, op ≠ .seed i s := fun s he => hs s (by rw [he]; exact List.mem_cons_self)
    by_cases hd : Draws w op i
    · obtain ⟨⟨n1, hn1, hr1⟩, hu, -⟩ := C120_draw h1 hn hs0 hd
      have hd' := hd.mono he
      obtain ⟨⟨n2, hn2, hr2⟩, hk⟩ := ih h2 hn1 hs'
      refine ⟨⟨n2, hn2, ?_⟩, ?_⟩
      · rw [hr2, hr1, List.countP_cons_of_pos (by simpa using hd'), Function.iterate_succ_apply]
      · intro t f ht hf
        cases t with
        | zero =>
          obtain ⟨p, fs, rfl⟩ := hu f (by simpa using ht)
          exact ⟨p, fs, by simp⟩
        | succ t =>
          obtain ⟨p, fs, hp⟩ := hk t f (by simpa using ht) hf
          refine ⟨p, fs, ?_⟩
          rw [List.getElem?_cons_succ, hp, hr1, List.take_succ_cons, List.countP_cons_of_pos (by simpa using hd'), Function.iterate_succ_apply]
    · have hd' : ¬ Draws w' op i := fun hx => hd (hx.back h1 he)
      obtain ⟨n1, hn1, -, -, hr1⟩ := hsp.nets i n hn
      have hr1 := hr1 hd
      obtain ⟨⟨n2, hn2, hr2⟩, hk⟩ := ih h2 hn1 hs'
      refine ⟨⟨n2, hn2, ?_⟩, ?_⟩
      · rw [hr2, hr1, List.countP_cons_of_neg (by simpa using hd')]
      · intro t f ht hf
        cases t with
        | zero =>
          have : op = .use f := by simpa using ht
          rw [this] at hd'
          exact absurd hf hd'
        | succ t =>
          obtain ⟨p, fs, hp⟩ := hk t f (by simpa using ht) hf
          refine ⟨p, fs, ?_⟩
          rw [List.getElem?_cons_succ, hp, hr1, List.take_succ_cons, List.countP_cons_of_neg (by simpa using hd')]

theorem fst_iterate_depth (k : Key) (a : Nat) : ∀ b, Key.fst^[a] k = Key.fst^[b] k → a = b := by
  have size : ∀ c, sizeOf (Key.fst^[c] k) = sizeOf k + c := by
    intro c
    induction c with
    | zero => rfl
    | succ c ih => rw [Function.iterate_succ_apply', Key.fst.sizeOf_spec, ih]; omega
  intro b h
  have := congrArg sizeOf h
  rw [size, size] at this
  omega

open Classical in
/-- C120.  So after the program has seeded a function, every call of it (or of a policy derived from it) gets another key: no key is used twice. -/
theorem C120_no_key_twice {isInstance : C → C → Bool} {w w' : World K C M B} {seed : Nat} {ops : List (Op K C M B)} {outs : List (Out K M)} {i : Nat}
    (h : run isInstance w (.seed i seed :: ops) = some (w', outs)) (hs : ∀ s, Op.seed i s ∉ ops) {t t' : Nat} {f f' : Fn} (ht : ops[t]? = some (.use f)) (ht' : ops[t']? = some (.use f'))
    (hf : Draws w' (.use f) i) (hf' : Draws w' (.use f') i) (hlt : t < t') :
    ∃ p fs p' fs' c c', outs[t + 1]? = some (.used p fs (.snd (Key.fst^[c] (.root seed)))) ∧ outs[t' + 1]? = some (.used p' fs' (.snd (Key.fst^[c'] (.root seed)))) ∧
      Key.fst^[c] (Key.root seed) ≠ Key.fst^[c'] (.root seed) := by
  obtain ⟨w1, o, os, h1, h2, rfl⟩ := run_cons h
  simp only [step, Option.map_eq_some_iff, Prod.mk.injEq] at h1
  obtain ⟨n, hn, rfl, rfl⟩ := h1
  obtain ⟨-, hk⟩ := C120_key_chain h2 (i := i) (get_set hn _) hs
  obtain ⟨p, fs, hp⟩ := hk t f ht hf
  obtain ⟨p', fs', hp'⟩ := hk t' f' ht' hf'
  refine ⟨p, fs, p', fs', _, _, hp, hp', fun he => ?_⟩
  have := fst_iterate_depth _ _ _ he
  have hsplit : ops.take t' = ops.take t ++ (ops.take t').drop t := by
    have := List.take_append_drop t (ops.take t')
    rw [List.take_take, min_eq_left hlt.le] at this
    exact this.symm
  have hpos : 0 < ((ops.take t').drop t).countP fun op => Draws w' op i := by
    rw [List.countP_pos_iff]
    refine ⟨.use f, ?_, by simpa using hf⟩
    refine List.mem_iff_getElem?.2 ⟨0, ?_⟩
    rw [List.getElem?_drop, List.getElem?_take, if_pos (by omega)]
    simpa using ht
  rw [hsplit, List.countP_append] at this
  omega

/-- C120.  A seed determines the key of its function, and of no other. -/
theorem C120_seed {isInstance : C → C → Bool} {w w1 : World K C M B} {i seed : Nat} {o : Out K M} (h : step isInstance w (.seed i seed) = some (w1, o)) :
    (∃ n n', w.nets[i]? = some n ∧ w1.nets[i]? = some n' ∧ n'.func = n.func ∧ n'.rng = ⟨seed, .root seed⟩) ∧ (∀ j, j ≠ i → w1.nets[j]? = w.nets[j]?) ∧ w1.derived = w.derived ∧ w1.updaters = w.updaters := by
  simp only [step, Option.map_eq_some_iff, Prod.mk.injEq] at h
  obtain ⟨n, hn, rfl, rfl⟩ := h
  exact ⟨⟨n, _, hn, get_set hn _, rfl, rfl⟩, fun j hj => by simp [List.getElem?_set_ne (Ne.symm hj)], rfl, rfl⟩

/-- A case: acting with a derived policy, training, and computing TD errors all take keys from the q-function in turn; the target network keeps its key. -/
example : (run (fun _ _ => true) dqnWorld [.seed 0 3, .use (.derived 0), .tdError 0 1, .update 0 1, .use (.derived 0), .use (.net 1)]).map (fun r => (r.2.map fun
      | .used _ _ k => some k
      | _ => none, r.1.nets.map fun n => n.rng.randomKey)) =
    some ([none, some (.snd (.root 3)), none, none, some (.snd (.fst (.fst (.fst (.root 3))))), some (.snd (.root 7))], [.fst (.fst (.fst (.fst (.root 3)))), .fst (.root 7)]) := by
  decide +kernel

end Coax.Agent
