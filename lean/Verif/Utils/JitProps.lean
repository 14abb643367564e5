import Verif.Utils.Jit
import Mathlib.Data.List.Forall2
import Mathlib.Tactic.NormNum
import Mathlib.Data.Rat.Defs
import Mathlib.Algebra.Field.Rat

/-!
# C107: compiled functions

What a compiled function returns depends on the attributes that its body read when it was traced.  The specification below is about programs: lists of
assignments, calls and reloads.
-/

namespace Coax.Jit

variable {W Arr Av Ob Out : Type _}

/-! ### Specification -/

/-- The arguments are acceptable: the objects that are not arrays are at the static positions. -/
def Accepted (static : List Nat) (args : List (Arg Arr Ob)) : Prop :=
  ∀ i (h : i < args.length), (i ∈ static ↔ ∃ o, args[i] = .obj o)

/-- What can be seen of the arguments without looking at the numbers in the arrays. -/
def seen (aval : Arr → Av) (args : List (Arg Arr Ob)) : List (KeyPart Av Ob) :=
  args.map (fun a => match a with | .arr x => .aval (aval x) | .obj o => .static o)

/-- The calls of a program, each with the values that the attributes have at that time, and with the earlier calls since the last reload
(the most recent first). -/
def calls : W → List (W × List (Arg Arr Ob)) → List (Event W Arr Ob) → List ((W × List (Arg Arr Ob)) × List (W × List (Arg Arr Ob)))
  | _, _, [] => []
  | w, past, .assign f :: es => calls (f w) past es
  | w, past, .call args :: es => ((w, args), past) :: calls w ((w, args) :: past) es
  | w, _, .reload :: es => calls w [] es

/-- The result that plain Python would give: run the body now. -/
def direct (aval : Arr → Av) (body : Body W Arr Av Ob Out) (w : W) (args : List (Arg Arr Ob)) : Except Err Out :=
  match body w (seen aval args) with
  | .error e => .error e
  | .ok c => .ok (c args)

/-- The body was compiled in this earlier call, for arguments that look like `args`. -/
def CompiledIn (aval : Arr → Av) (static : List Nat) (body : Body W Arr Av Ob Out) (args : List (Arg Arr Ob)) (p : W × List (Arg Arr Ob)) : Prop :=
  Accepted static p.2 ∧ seen aval p.2 = seen aval args ∧ ∃ c, body p.1 (seen aval args) = .ok c

/-- `r` is the result of a call: ValueError for arrays at static positions, otherwise TypeError for other objects at positions that are not static; otherwise the body as it was in the first call in which it was compiled
for such arguments (`p`, with nothing of the kind before it), or as it is now if there was none. -/
def Result (aval : Arr → Av) (static : List Nat) (body : Body W Arr Av Ob Out) (c : (W × List (Arg Arr Ob)) × List (W × List (Arg Arr Ob)))
    (r : Except Err Out) : Prop :=
  ((∃ i ∈ static, ∃ x, c.1.2[i]? = some (.arr x)) ∧ r = .error .valueError) ∨
  ((¬ ∃ i ∈ static, ∃ x, c.1.2[i]? = some (.arr x)) ∧ ¬ Accepted static c.1.2 ∧ r = .error .typeError) ∨
  (Accepted static c.1.2 ∧
    ((∃ p l₁ l₂, c.2 = l₁ ++ p :: l₂ ∧ CompiledIn aval static body c.1.2 p ∧ (∀ q ∈ l₂, ¬ CompiledIn aval static body c.1.2 q) ∧
        r = direct aval body p.1 c.1.2) ∨
     ((∀ q ∈ c.2, ¬ CompiledIn aval static body c.1.2 q) ∧ r = direct aval body c.1.1 c.1.2)))

/-! ### Lemmas -/

theorem keyFrom_ok (aval : Arr → Av) (static : List Nat) (i : Nat) (args : List (Arg Arr Ob))
    (h : ∀ j (hj : j < args.length), (i + j ∈ static ↔ ∃ o, args[j] = .obj o)) :
    keyFrom aval static i args = .ok (seen aval args) := by
  induction args generalizing i with
  | nil => rfl
  | cons a as ih =>
    have h0 := h 0 (by simp)
    have hs : ∀ j (hj : j < as.length), (i + 1 + j ∈ static ↔ ∃ o, as[j] = .obj o) := by
      intro j hj
      have := h (j + 1) (by simpa using hj)
      rw [show i + (j + 1) = i + 1 + j by omega] at this
      simpa using this
    have ih' := ih (i + 1) hs
    cases a with
    | arr x =>
      have hn : i ∉ static := by simpa using h0
      simp [keyFrom, hn, ih', seen]
    | obj o =>
      have hn : i ∈ static := by simpa using h0
      simp [keyFrom, hn, ih', seen]

/-- Some array is at a static position; the first argument has position `i`. -/
theorem keyFrom_valueError (aval : Arr → Av) (static : List Nat) (i : Nat) (args : List (Arg Arr Ob)) (h : ∃ j, i + j ∈ static ∧ ∃ x, args[j]? = some (.arr x)) :
    keyFrom aval static i args = .error .valueError := by
  induction args generalizing i with
  | nil => obtain ⟨j, -, x, hx⟩ := h; simp at hx
  | cons a as ih =>
    obtain ⟨j, hj, x, hx⟩ := h
    cases j with
    | zero =>
      simp only [List.getElem?_cons_zero, Option.some.injEq] at hx
      subst hx
      simp only [keyFrom]
      rw [if_pos (by simpa using hj)]
    | succ j =>
      have hr : keyFrom aval static (i + 1) as = .error .valueError :=
        ih (i + 1) ⟨j, by rw [show i + 1 + j = i + (j + 1) by omega]; exact hj, x, by simpa using hx⟩
      cases a with
      | arr y => simp only [keyFrom, hr]; split <;> rfl
      | obj o => simp only [keyFrom, hr]; split <;> rfl

theorem keyFrom_typeError (aval : Arr → Av) (static : List Nat) (i : Nat) (args : List (Arg Arr Ob)) (hv : ¬ ∃ j, i + j ∈ static ∧ ∃ x, args[j]? = some (.arr x))
    (h : ¬ ∀ j (hj : j < args.length), (i + j ∈ static ↔ ∃ o, args[j] = .obj o)) : keyFrom aval static i args = .error .typeError := by
  induction args generalizing i with
  | nil => exact absurd (fun j hj => absurd hj (by simp)) h
  | cons a as ih =>
    have hv' : ¬ ∃ j, i + 1 + j ∈ static ∧ ∃ x, as[j]? = some (.arr x) := by
      rintro ⟨j, hj, x, hx⟩
      exact hv ⟨j + 1, by rw [show i + (j + 1) = i + 1 + j by omega]; exact hj, x, by simpa using hx⟩
    have key : (i ∈ static ↔ ∃ o, a = .obj o) → keyFrom aval static (i + 1) as = .error .typeError := by
      intro h0
      refine ih (i + 1) hv' fun hall => h fun j hj => ?_
      cases j with
      | zero => simpa using h0
      | succ j => simpa [show i + (j + 1) = i + 1 + j by omega] using hall j (by simpa using hj)
    cases a with
    | arr y =>
      have hn : i ∉ static := fun hi => hv ⟨0, by simpa using hi, y, rfl⟩
      have := key (by simp [hn])
      simp only [keyFrom, if_neg hn, this]
    | obj o =>
      by_cases hi : i ∈ static
      · have := key (by simp [hi])
        simp only [keyFrom, if_pos hi, this]
      · simp only [keyFrom, if_neg hi]
        have hnv : keyFrom aval static (i + 1) as ≠ .error .valueError := by
          by_cases hall : ∀ j (hj : j < as.length), (i + 1 + j ∈ static ↔ ∃ o, as[j] = .obj o)
          · rw [keyFrom_ok aval static (i + 1) as hall]; simp
          · rw [ih (i + 1) hv' hall]; simp
        split
        · next he => exact absurd he hnv
        · rfl

theorem keyFrom_of_accepted (aval : Arr → Av) {static : List Nat} {args : List (Arg Arr Ob)} (h : Accepted static args) :
    keyFrom aval static 0 args = .ok (seen aval args) :=
  keyFrom_ok aval static 0 args (fun j hj => by simpa using h j hj)

theorem keyFrom_of_static (aval : Arr → Av) {static : List Nat} {args : List (Arg Arr Ob)} (h : ∃ i ∈ static, ∃ x, args[i]? = some (.arr x)) :
    keyFrom aval static 0 args = .error .valueError :=
  keyFrom_valueError aval static 0 args (by obtain ⟨i, hi, hx⟩ := h; exact ⟨i, by simpa using hi, hx⟩)

theorem keyFrom_of_not_accepted (aval : Arr → Av) {static : List Nat} {args : List (Arg Arr Ob)} (hv : ¬ ∃ i ∈ static, ∃ x, args[i]? = some (.arr x))
    (h : ¬ Accepted static args) : keyFrom aval static 0 args = .error .typeError :=
  keyFrom_typeError aval static 0 args (by rintro ⟨j, hj, hx⟩; exact hv ⟨j, by simpa using hj, hx⟩) (fun hj => h (fun j hlt => by simpa using hj j hlt))

theorem not_accepted_of_static {static : List Nat} {args : List (Arg Arr Ob)} (h : ∃ i ∈ static, ∃ x, args[i]? = some (.arr x)) : ¬ Accepted static args := by
  obtain ⟨i, hi, x, hx⟩ := h
  intro ha
  obtain ⟨hlt, he⟩ := List.getElem?_eq_some_iff.1 hx
  obtain ⟨o, ho⟩ := (ha i hlt).1 hi
  rw [he] at ho
  cases ho

variable [DecidableEq Av] [DecidableEq Ob]

/-- The cache holds, for every key, what was compiled in the first call of that kind. -/
def CacheOk (aval : Arr → Av) (body : Body W Arr Av Ob Out) (static : List Nat) (past : List (W × List (Arg Arr Ob)))
    (j : JittedFunc W Arr Av Ob Out) : Prop :=
  j.func = body ∧ j.staticArgnums = static ∧
  ∀ args, Accepted static args →
    (∃ p l₁ l₂ c, past = l₁ ++ p :: l₂ ∧ CompiledIn aval static body args p ∧ (∀ q ∈ l₂, ¬ CompiledIn aval static body args q) ∧
        body p.1 (seen aval args) = .ok c ∧ j.compiled.lookup (seen aval args) = some c) ∨
    ((∀ q ∈ past, ¬ CompiledIn aval static body args q) ∧ j.compiled.lookup (seen aval args) = none)

theorem cacheOk_init (aval : Arr → Av) (body : Body W Arr Av Ob Out) (static donate : List Nat) :
    CacheOk aval body static [] (jit body static donate) :=
  ⟨rfl, rfl, fun _ _ => Or.inr ⟨fun q hq => absurd hq (by simp), rfl⟩⟩

theorem cacheOk_mono {aval : Arr → Av} {body : Body W Arr Av Ob Out} {static : List Nat} {past : List (W × List (Arg Arr Ob))}
    {j : JittedFunc W Arr Av Ob Out} (h : CacheOk aval body static past j) (p : W × List (Arg Arr Ob))
    (hp : ∀ args, Accepted static args → (∀ q ∈ past, ¬ CompiledIn aval static body args q) → ¬ CompiledIn aval static body args p) :
    CacheOk aval body static (p :: past) j := by
  refine ⟨h.1, h.2.1, fun args ha => ?_⟩
  rcases h.2.2 args ha with ⟨q, l₁, l₂, c, hpast, hq, hl₂, hc, hl⟩ | ⟨hnone, hl⟩
  · exact Or.inl ⟨q, p :: l₁, l₂, c, by rw [hpast, List.cons_append], hq, hl₂, hc, hl⟩
  · refine Or.inr ⟨?_, hl⟩
    intro q hq
    rcases List.mem_cons.1 hq with rfl | hq
    · exact hp args ha hnone
    · exact hnone q hq

theorem call_spec {aval : Arr → Av} {body : Body W Arr Av Ob Out} {static : List Nat} {past : List (W × List (Arg Arr Ob))}
    {j : JittedFunc W Arr Av Ob Out} (h : CacheOk aval body static past j) (w : W) (args : List (Arg Arr Ob)) :
    Result aval static body ((w, args), past) (j.call aval w args).1 ∧ CacheOk aval body static ((w, args) :: past) (j.call aval w args).2 := by
  obtain ⟨hf, hs, hcache⟩ := h
  by_cases hacc : Accepted static args
  · have hkey : keyFrom aval j.staticArgnums 0 args = .ok (seen aval args) := by rw [hs]; exact keyFrom_of_accepted aval hacc
    rcases hcache args hacc with ⟨p, l₁, l₂, c, hpast, hp, hl₂, hc, hl⟩ | ⟨hnone, hl⟩
    · have hcall : j.call aval w args = (.ok (c args), j) := by
        unfold JittedFunc.call
        simp only [hkey, hl]
      rw [hcall]
      refine ⟨Or.inr (Or.inr ⟨hacc, Or.inl ⟨p, l₁, l₂, hpast, hp, hl₂, by simp only [direct, hc]⟩⟩), ?_⟩
      refine cacheOk_mono ⟨hf, hs, hcache⟩ _ ?_
      intro args' ha' hn' hcomp
      obtain ⟨hA, hseen, c', hc'⟩ := hcomp
      simp only at hseen hA
      exact hn' p (by rw [hpast]; simp) ⟨hp.1, by rw [hp.2.1, hseen], c, by rw [← hseen]; exact hc⟩
    · cases hb : body w (seen aval args) with
      | error e =>
        have hcall : j.call aval w args = (.error e, j) := by
          unfold JittedFunc.call
          simp only [hkey, hl, hf, hb]
        rw [hcall]
        refine ⟨Or.inr (Or.inr ⟨hacc, Or.inr ⟨hnone, by simp only [direct, hb]⟩⟩), ?_⟩
        refine cacheOk_mono ⟨hf, hs, hcache⟩ _ ?_
        intro args' ha' hn' hcomp
        obtain ⟨hA, hseen, c', hc'⟩ := hcomp
        simp only at hseen hc'
        rw [← hseen, hb] at hc'
        exact absurd hc' (by simp)
      | ok c =>
        have hcall : j.call aval w args = (.ok (c args), { j with compiled := (seen aval args, c) :: j.compiled }) := by
          unfold JittedFunc.call
          simp only [hkey, hl, hf, hb]
        rw [hcall]
        refine ⟨Or.inr (Or.inr ⟨hacc, Or.inr ⟨hnone, by simp only [direct, hb]⟩⟩), hf, hs, fun args' ha' => ?_⟩
        by_cases hsame : seen aval args = seen aval args'
        · refine Or.inl ⟨(w, args), [], past, c, rfl, ⟨hacc, hsame, c, by rw [← hsame]; exact hb⟩, ?_, by rw [← hsame]; exact hb, ?_⟩
          · intro q hq hcomp
            exact hnone q hq ⟨hcomp.1, by rw [hcomp.2.1, hsame], by rw [hsame]; exact hcomp.2.2⟩
          · simp [hsame]
        · have hlook : ((seen aval args, c) :: j.compiled).lookup (seen aval args') = j.compiled.lookup (seen aval args') := by
            rw [List.lookup_cons]
            have : (seen aval args' == seen aval args) = false := by
              simpa using fun h => hsame h.symm
            simp [this]
          simp only [hlook]
          rcases hcache args' ha' with ⟨p, l₁, l₂, c', hpast, hp, hl₂, hc, hl'⟩ | ⟨hnone', hl'⟩
          · exact Or.inl ⟨p, (w, args) :: l₁, l₂, c', by rw [hpast, List.cons_append], hp, hl₂, hc, hl'⟩
          · refine Or.inr ⟨?_, hl'⟩
            intro q hq
            rcases List.mem_cons.1 hq with rfl | hq
            · exact fun hcomp => hsame hcomp.2.1
            · exact hnone' q hq
  · have hmono : CacheOk aval body static ((w, args) :: past) j := by
      refine cacheOk_mono ⟨hf, hs, hcache⟩ _ ?_
      intro args' _ _ hcomp
      exact hacc hcomp.1
    by_cases hv : ∃ i ∈ static, ∃ x, args[i]? = some (.arr x)
    · have hcall : j.call aval w args = (.error .valueError, j) := by
        unfold JittedFunc.call
        rw [hs, keyFrom_of_static aval hv]
      rw [hcall]
      exact ⟨Or.inl ⟨hv, rfl⟩, hmono⟩
    · have hcall : j.call aval w args = (.error .typeError, j) := by
        unfold JittedFunc.call
        rw [hs, keyFrom_of_not_accepted aval hv hacc]
      rw [hcall]
      exact ⟨Or.inr (Or.inl ⟨hv, hacc, rfl⟩), hmono⟩

theorem run_spec (aval : Arr → Av) (body : Body W Arr Av Ob Out) (static : List Nat) (es : List (Event W Arr Ob)) :
    ∀ (w : W) (past : List (W × List (Arg Arr Ob))) (j : JittedFunc W Arr Av Ob Out), CacheOk aval body static past j →
      List.Forall₂ (Result aval static body) (calls w past es) (run aval w j es) := by
  induction es with
  | nil => intro w past j _; exact List.Forall₂.nil
  | cons e es ih =>
    intro w past j h
    cases e with
    | assign f => exact ih (f w) past j h
    | call args =>
      have := call_spec h w args
      exact List.Forall₂.cons this.1 (ih w _ _ this.2)
    | reload =>
      refine ih w [] _ ?_
      have : setstate j.getstate = jit body static j.donateArgnums := by
        unfold setstate JittedFunc.getstate
        rw [h.1, h.2.1]
      rw [this]
      exact cacheOk_init aval body static j.donateArgnums

/-! ### C107 -/

/-- C107: whatever a program does with a compiled function, every call gives an exception if its arguments are not acceptable, and otherwise the result of
the body as it was when it was first compiled for such arguments since the last reload. -/
theorem C107_result (aval : Arr → Av) (body : Body W Arr Av Ob Out) (static donate : List Nat) (w : W) (es : List (Event W Arr Ob)) :
    List.Forall₂ (Result aval static body) (calls w [] es) (run aval w (jit body static donate) es) :=
  run_spec aval body static es w [] _ (cacheOk_init aval body static donate)

omit [DecidableEq Av] [DecidableEq Ob] in
theorem calls_same {aval : Arr → Av} {body : Body W Arr Av Ob Out} {es : List (Event W Arr Ob)}
    (hes : ∀ f, Event.assign f ∈ es → ∀ w k, body (f w) k = body w k) {w₀ : W} :
    ∀ (w : W) (past : List (W × List (Arg Arr Ob))), (∀ k, body w k = body w₀ k) → (∀ p ∈ past, ∀ k, body p.1 k = body w₀ k) →
      ∀ c ∈ calls w past es, (∀ k, body c.1.1 k = body w₀ k) ∧ ∀ p ∈ c.2, ∀ k, body p.1 k = body w₀ k := by
  induction es with
  | nil => intro w past _ _ c hc; exact absurd hc (by simp [calls])
  | cons e es ih =>
    have ih := ih (fun f hf => hes f (List.mem_cons_of_mem _ hf))
    intro w past hw hpast c hc
    cases e with
    | assign f =>
      exact ih (f w) past (fun k => by rw [hes f (by simp) w k, hw k]) hpast c hc
    | call args =>
      rcases List.mem_cons.1 hc with rfl | hc
      · exact ⟨hw, hpast⟩
      · refine ih w _ hw ?_ c hc
        intro p hp
        rcases List.mem_cons.1 hp with rfl | hp
        · exact hw
        · exact hpast p hp
    | reload => exact ih w [] hw (fun p hp => absurd hp (by simp)) c hc

/-- C107: as long as assignments do not touch what the body reads, compiling is invisible: every call with acceptable arguments gives what running the body
at that moment gives, before and after reloading. -/
theorem C107_transparent (aval : Arr → Av) (body : Body W Arr Av Ob Out) (static donate : List Nat) (w : W) (es : List (Event W Arr Ob))
    (hes : ∀ f, Event.assign f ∈ es → ∀ w k, body (f w) k = body w k) :
    List.Forall₂ (fun c r => Accepted static c.1.2 → r = direct aval body c.1.1 c.1.2) (calls w [] es) (run aval w (jit body static donate) es) := by
  have h := C107_result aval body static donate w es
  have hs := calls_same (aval := aval) hes (w₀ := w) w [] (fun _ => rfl) (fun p hp => absurd hp (by simp))
  revert h hs
  generalize calls w [] es = cs
  generalize run aval w (jit body static donate) es = rs
  intro h hs
  induction h with
  | nil => exact List.Forall₂.nil
  | @cons c r cs rs hcr _ ih =>
    refine List.Forall₂.cons ?_ (ih fun c hc => hs c (List.mem_cons_of_mem _ hc))
    intro hacc
    rcases hcr with ⟨hn, _⟩ | ⟨_, hn, _⟩ | ⟨_, ⟨p, l₁, l₂, hl, _, _, hr⟩ | ⟨_, hr⟩⟩
    · exact absurd hacc (not_accepted_of_static hn)
    · exact absurd hacc hn
    · have hc := hs c (by simp)
      rw [hr]
      unfold direct
      rw [hc.1, hc.2 p (by rw [hl]; simp)]
    · exact hr

/-- C107: `affine_transform` of a composite distribution never accepts a value transform, whatever the other arguments; that of a single distribution does. -/
theorem C107_affine (aval : Arr → Av) (body : Body W Arr Av Ob Out) (w : W) (p scale shift : Arr) (t : Ob) :
    ((compositeAffine body).call aval w [.arr p, .arr scale, .arr shift, .obj t]).1 = .error .typeError ∧
    ((leafAffine body).call aval w [.arr p, .arr scale, .arr shift, .obj t]).1
      = direct aval body w [.arr p, .arr scale, .arr shift, .obj t] := by
  constructor
  · simp [compositeAffine, jit, JittedFunc.call, keyFrom]
  · simp only [leafAffine, jit, JittedFunc.call, keyFrom, direct, seen, List.map]
    simp only [List.mem_singleton, Nat.reduceAdd, Nat.reduceEqDiff, if_true, if_false, List.lookup]
    cases body w [.aval (aval p), .aval (aval scale), .aval (aval shift), .static t] <;> rfl

/-! ### Regularizers -/

/-- What a user expects of a regularizer: every evaluation uses the coefficient assigned last. -/
def lastBeta {D K : Type _} [Mul K] [Neg K] (H : D → K) : K → List (RegEvent D K) → List (List K)
  | _, [] => []
  | _, .setBeta b :: es => lastBeta H b es
  | b, .eval ds :: es => ds.map (fun d => -(b * H d)) :: lastBeta H b es

theorem entropy_run_aux {D K : Type _} [Field K] (H : D → K) (es : List (RegEvent D K)) :
    ∀ (b : K) (j : JittedFunc (EntropyAttrs D K) (RegVal D K) (Option Nat) Unit (List K)),
      (j.func = entropyBody ∧ j.staticArgnums = [] ∧
        ∀ n c, j.compiled.lookup [.aval (some n), .aval none] = some c → ∃ b', entropyBody ⟨b', H⟩ [.aval (some n), .aval none] = .ok c) →
      entropyRun ⟨b, H⟩ j es = (lastBeta H b es).map .ok := by
  induction es with
  | nil => intro b j _; rfl
  | cons e es ih =>
    intro b j hj
    cases e with
    | setBeta b' => exact ih b' j hj
    | eval ds =>
      obtain ⟨hf, hs, hc⟩ := hj
      have hkey : keyFrom RegVal.aval j.staticArgnums 0 [.arr (.dists ds), .arr (.num b)]
          = .ok [.aval (some ds.length), (.aval none : KeyPart (Option Nat) Unit)] := by
        rw [hs]; rfl
      have hval : ∀ b' c, entropyBody ⟨b', H⟩ [.aval (some ds.length), .aval none] = .ok c →
          c [.arr (.dists ds), .arr (.num b)] = ds.map (fun d => -(b * H d)) := by
        intro b' c hb
        simp only [entropyBody, Except.ok.injEq] at hb
        rw [← hb]
        simp [neg_mul]
      cases hl : j.compiled.lookup [.aval (some ds.length), .aval none] with
      | some c =>
        have hcall : j.call RegVal.aval ⟨b, H⟩ [.arr (.dists ds), .arr (.num b)] = (.ok (c [.arr (.dists ds), .arr (.num b)]), j) := by
          unfold JittedFunc.call
          simp only [hkey, hl]
        obtain ⟨b', hb'⟩ := hc _ _ hl
        simp only [entropyRun, hcall, lastBeta, List.map_cons, hval b' c hb']
        rw [ih b j ⟨hf, hs, hc⟩]
      | none =>
        have hb : entropyBody (K := K) ⟨b, H⟩ [.aval (some ds.length), .aval none] = .ok (fun args => match args with
            | [.arr (.dists ds), .arr (.num beta)] => ds.map (fun d => -beta * H d)
            | _ => []) := rfl
        have hcall := show j.call RegVal.aval ⟨b, H⟩ [.arr (.dists ds), .arr (.num b)] = _ by
          unfold JittedFunc.call
          simp only [hkey, hl, hf, hb]
          rfl
        simp only [entropyRun, hcall, lastBeta, List.map_cons]
        refine congrArg₂ List.cons (by simp [neg_mul]) (ih b _ ?_)
        refine ⟨rfl, hs, ?_⟩
        intro n c hn
        rw [List.lookup_cons] at hn
        by_cases hsame : n = ds.length
        · subst hsame
          simp only [beq_self_eq_true, Option.some.injEq] at hn
          exact ⟨b, by rw [hb, hn]⟩
        · have : (([.aval (some n), .aval none] : List (KeyPart (Option Nat) Unit)) == [.aval (some ds.length), .aval none]) = false := by
            simpa using hsame
          rw [this] at hn
          exact hc n c hn

/-- C107: an entropy regularizer always uses the coefficient assigned last, however assignments and evaluations follow each other. -/
theorem C107_beta {D K : Type _} [Field K] (b : K) (H : D → K) (es : List (RegEvent D K)) :
    entropyRun ⟨b, H⟩ entropyFunction es = (lastBeta H b es).map .ok :=
  entropy_run_aux H es b _ ⟨rfl, rfl, fun _ _ h => absurd h (by simp [entropyFunction, jit])⟩

/-- Assigning a new coefficient between two evaluations of the same shape. -/
example : entropyRun (D := ℚ) (K := ℚ) ⟨1, id⟩ entropyFunction [.eval [3], .setBeta 2, .eval [5], .eval [3, 4]]
    = [.ok [-3], .ok [-10], .ok [-6, -8]] := by
  rw [C107_beta]
  norm_num [lastBeta]

end Coax.Jit
